import Verif.Lemmas.FloatWork

/-! # Where the results of a search in floating-point arithmetic come from -/

noncomputable section
open Classical
namespace NF.FL
open Spec CoordSys
variable {d : ℕ} {A : CtlArith d} {p : CtlParams d} {Res : Simplex d → SRes d → Prop}

/-- `r` is the result of a minimization, at its normalized position up to the drift of `n` restarts -/
def Src (A : CtlArith d) (p : CtlParams d) (Res : Simplex d → SRes d → Prop) (n : ℕ) (r : SRes d) : Prop :=
  (∃ s r0, Res s r0 ∧ r.value = r0.value ∧ r.success = r0.success ∧ p.coord.distance (FL.normalizePosition A.rnd p.coord r0.pos) r.pos ≤ n * driftError p.coord) ∧
    InReach p r.pos ∧ ∃ r1, FreshRes r1 ∧ r = stored A p r1

theorem Src.new (hS : FloatSearch A p Res) (hn : NearBox p Res) (n : ℕ) {s : Simplex d} {r : SRes d} (hf : FreshRes r) (h : Res s r) : Src A p Res n (stored A p r) := by
  refine ⟨⟨s, r, h, by simp [stored], by simp [stored], ?_⟩, ?_, r, hf, rfl⟩
  · rw [stored_pos, distance_self hS.box]
    have := drift_nonneg p.coord
    positivity
  · rw [stored_pos]; exact inReach_normalize hS hn h

theorem Src.again (hS : FloatSearch A p Res) {n : ℕ} {r : SRes d} (h : Src A p Res n r) : Src A p Res (n + 1) (stored A p r.reload) := by
  obtain ⟨⟨s, r0, h1, h2, h3, h4⟩, h5, r1, h6, rfl⟩ := h
  obtain ⟨g1, g2⟩ := stored_reload hS h6 h5
  refine ⟨⟨s, r0, h1, ?_, ?_, ?_⟩, g2, _, freshRes_reload _, rfl⟩
  · rw [← h2]; cases r1 <;> rfl
  · rw [← h3]; cases r1 <;> rfl
  · have := (C03_distance_metric p.coord hS.box (FL.normalizePosition A.rnd p.coord r0.pos) (stored A p r1).pos (stored A p (stored A p r1).reload).pos).2.2.1
    push_cast
    linarith

theorem Src.mono {n m : ℕ} (hnm : n ≤ m) {r : SRes d} (h : Src A p Res n r) : Src A p Res m r := by
  obtain ⟨⟨s, r0, h1, h2, h3, h4⟩, h5⟩ := h
  refine ⟨⟨s, r0, h1, h2, h3, h4.trans ?_⟩, h5⟩
  have := drift_nonneg p.coord
  gcongr

/-- where the results come from -/
structure SrcInv (A : CtlArith d) (p : CtlParams d) (Res : Simplex d → SRes d → Prop) (n : ℕ) (c : Ctl d) : Prop where
  nodes : ∀ r ∈ c.state.result.nodes.flat, Src A p Res n r ∧ IsNode p.gapThreshold r
  rejected : ∀ r ∈ c.state.result.rejected, Src A p Res n r ∧ ¬ IsNode p.gapThreshold r

theorem elem_src (hS : FloatSearch A p Res) (hn : NearBox p Res) (n : ℕ) : Elem A p Res (Good A p Res) (SrcInv A p Res n) where
  fill := by
    intro c c' hG hP hs
    obtain ⟨-, ⟨x, rest, hq, -, rfl⟩ | ⟨x, rest, hq, -, rfl⟩ | ⟨pos, rest, st, res, hq, hpq, hck, hst, hsr, rfl⟩ |
        ⟨pos, rest, hq, hpq, hrp, hck, rfl⟩⟩ := fillStep_next hs
    · exact ⟨hP.nodes, hP.rejected⟩
    · exact ⟨hP.nodes, hP.rejected⟩
    · have hpos := hG.1.positions pos (by rw [hpq]; simp)
      obtain ⟨res', e', g1, g2, g3, g4, -⟩ := setRefined_ok hS hG.1.cont hpos
      rw [e'] at hsr; injection hsr with hsr; subst hsr
      exact ⟨by simp only [g3]; exact hP.nodes, by simp only [g4]; exact hP.rejected⟩
    · exact ⟨hP.nodes, hP.rejected⟩
  raise := by
    intro c e c' hG hP hs
    obtain ⟨-, -, pos, rest, -, rfl⟩ := raise_type hS hG.1 hs
    exact ⟨hP.nodes, hP.rejected⟩
  done := by
    intro c s r hG hP hs hf hres
    obtain ⟨st, e, h1, h2, h3, h4, h5⟩ := taskDone_ok hS hG.1 hs r
    rw [e]
    have hnew := Src.new hS hn n hf hres
    refine ⟨?_, ?_⟩
    · intro y hy
      simp only [h3] at hy
      by_cases hi : IsNode p.gapThreshold r
      · rw [if_pos hi] at hy
        rcases List.mem_append.1 hy with hy | hy
        · exact hP.nodes y hy
        · rw [List.mem_singleton.1 hy]; exact ⟨hnew, (isNode_stored r).2 hi⟩
      · rw [if_neg hi] at hy; exact hP.nodes y hy
    · intro y hy
      simp only [h4] at hy
      by_cases hi : IsNode p.gapThreshold r
      · rw [if_pos hi] at hy; exact hP.rejected y hy
      · rw [if_neg hi] at hy
        rcases List.mem_append.1 hy with hy | hy
        · exact hP.rejected y hy
        · rw [List.mem_singleton.1 hy]; exact ⟨hnew, fun h => hi ((isNode_stored r).1 h)⟩
  fail := fun c s id hG hP hs => ⟨hP.nodes, hP.rejected⟩
  save := by
    intro c enum hG hP he
    rcases doSave_eq p c enum with ⟨-, -, e⟩ | ⟨-, e⟩ <;> rw [e] <;> exact ⟨hP.nodes, hP.rejected⟩
  phase := fun c ph hG hP => ⟨hP.nodes, hP.rejected⟩

theorem start_results (hS : FloatSearch A p Res) {disk initial : Option (Saved d)} (hi : ∀ sv, initial = some sv → DiskOk A p Res sv) {c : Ctl d} (h : startFrom A p disk initial = .ok c) :
    c.state.result.nodes.flat = ((startResults initial).filter fun r => decide (IsNode p.gapThreshold r)).map (stored A p) ∧
    c.state.result.rejected = ((startResults initial).filter fun r => decide (¬ IsNode p.gapThreshold r)).map (stored A p) := by
  refine ⟨(start_fields hS hi h).2.2.2.2.2.2.2.2.2, ?_⟩
  cases initial with
  | none =>
    simp only [startFrom, createStateFrom] at h
    injection h with h; subst h
    simp [emptyContainer, startResults]
  | some sv =>
    obtain ⟨hwf, hpos⟩ := hi sv rfl
    obtain ⟨res, e1, g1, g2, g3, g4⟩ := createContainer_ok hS sv.results sv.refined fun x hx => hpos x (List.mem_append_left _ hx)
    simp only [startFrom, createStateFrom, e1] at h
    injection h with h; subst h
    exact g4

theorem reach_src (hS : FloatSearch A p Res) (hn : NearBox p Res) {n : ℕ} {c : Ctl d} (h : Reach A p Res n c) : SrcInv A p Res n c := by
  refine (reach_of_elem hS (P := fun n c => SrcInv A p Res n c ∧ ∀ sv, c.disk = some sv → ∀ r ∈ sv.results, Src A p Res (n + 1) (stored A p r)) (fun n => ?_) ?_ ?_ h).2.1
  · refine (elem_src hS hn n).and (elem_disk hS (fun c h => h.1.1) ?_)
    rintro c enum ⟨hG, hP⟩ - r hr
    obtain ⟨r1, hr1, rfl⟩ := List.mem_map.1 hr
    rcases List.mem_append.1 hr1 with h1 | h1
    · exact (hP.nodes r1 h1).1.again hS
    · exact (hP.rejected r1 h1).1.again hS
  · intro n c h
    obtain ⟨-, h1, -⟩ := start_fields hS (by simp) h
    obtain ⟨h2, h3⟩ := start_results hS (by simp) h
    exact ⟨⟨by simp [h2, startResults], by simp [h3, startResults]⟩, by rw [h1]; simp⟩
  · intro n c c' hG hP h
    obtain ⟨-, h1, -⟩ := start_fields hS hG.2 h
    obtain ⟨h2, h3⟩ := start_results hS hG.2 h
    have key : ∀ r ∈ startResults c.disk, Src A p Res (n + 1) (stored A p r) := by
      intro r hr
      cases hdk : c.disk with
      | none => rw [hdk] at hr; simp [startResults] at hr
      | some sv => rw [hdk] at hr; exact hP.2 sv hdk r hr
    refine ⟨⟨?_, ?_⟩, ?_⟩
    · intro r hr
      rw [h2] at hr
      obtain ⟨r0, h0, rfl⟩ := List.mem_map.1 hr
      obtain ⟨h4, h5⟩ := List.mem_filter.1 h0
      exact ⟨key r0 h4, (isNode_stored r0).2 (by simpa using h5)⟩
    · intro r hr
      rw [h3] at hr
      obtain ⟨r0, h0, rfl⟩ := List.mem_map.1 hr
      obtain ⟨h4, h5⟩ := List.mem_filter.1 h0
      refine ⟨key r0 h4, fun h => ?_⟩
      have := (isNode_stored r0).1 h
      simp [this] at h5
    · intro sv hsv r hr
      rw [h1] at hsv
      exact (hP.2 sv hsv r hr).mono (by omega)

/-! ## without a stencil no position is ever queued -/

theorem reach_no_stencil (hS : FloatSearch A p Res) (hst : p.stencil = none) {n : ℕ} {c : Ctl d} (h : Reach A p Res n c) : c.state.positionQueue.queued = [] := by
  refine (reach_of_elem hS (P := fun n c => c.state.positionQueue.queued = [] ∧ ∀ sv, c.disk = some sv → sv.positions = []) (fun n => ?_) ?_ ?_ h).2.1
  · refine Elem.and ⟨?_, ?_, ?_, ?_, ?_, ?_⟩ (elem_disk hS (fun c h => h.1.1) fun c enum h he => h.2)
    · intro c c' hG hP hs
      obtain ⟨-, ⟨x, rest, hq, -, rfl⟩ | ⟨x, rest, hq, -, rfl⟩ | ⟨pos, rest, st, res, hq, hpq, hck, hst, hsr, rfl⟩ |
          ⟨pos, rest, hq, hpq, hrp, hck, rfl⟩⟩ := fillStep_next hs
      · exact hP
      · exact hP
      · rw [hP] at hpq; cases hpq
      · rw [hP] at hpq; cases hpq
    · intro c e c' hG hP hs
      obtain ⟨-, -, pos, rest, hpq, rfl⟩ := raise_type hS hG.1 hs
      rw [hP] at hpq; cases hpq
    · intro c s r hG hP hs hf hres
      obtain ⟨st, e, h1, h2, h3, h4, h5⟩ := taskDone_ok hS hG.1 hs r
      rw [e]
      rcases h5 with ⟨-, h6, -⟩ | ⟨h6, -⟩
      · rw [hst] at h6; cases h6
      · simp only [h6]; exact hP
    · exact fun c s id _ h _ => h
    · intro c enum hG hP he
      rcases doSave_eq p c enum with ⟨-, -, e⟩ | ⟨-, e⟩ <;> rw [e] <;> exact hP
    · exact fun c ph _ h => h
  · intro n c h
    obtain ⟨-, h1, -, -, -, -, -, h2, -⟩ := start_fields hS (by simp) h
    exact ⟨by rw [h2]; rfl, by rw [h1]; simp⟩
  · intro n c c' hG hP h
    obtain ⟨-, h1, -, -, -, -, -, h2, -⟩ := start_fields hS hG.2 h
    refine ⟨?_, by rw [h1]; exact hP.2⟩
    rw [h2]
    cases hdk : c.disk with
    | none => rfl
    | some sv => exact hP.2 sv hdk

theorem no_type_error (hS : FloatSearch A p Res) {n : ℕ} {c : Ctl d} (h : Reach A p Res n c) : c.phase ≠ .raised .type := by
  induction h with
  | start h =>
    obtain ⟨-, -, h1, -⟩ := start_fields (Res := Res) hS (by simp) h
    rw [h1]; simp
  | crash h hs ih =>
    obtain ⟨-, -, h1, -⟩ := start_fields hS (good_reach hS h).2 hs
    rw [h1]; simp
  | @step n c c' h hs ih =>
    have hg := (good_reach hS h).1
    have key : ∀ c1 e, fill A p c ≠ (some e, c1) := by
      intro c1 e hf
      have hst := ((fill_phase hS hg hf).2.2 e rfl).2
      have h0 := reach_no_stencil hS hst h
      obtain ⟨c2, hc2, h1 | ⟨err, -, h2⟩⟩ := fill_induction (P := fun x => Acct A p Res x ∧ x.state.positionQueue.queued = []) (fun a b ha hs => by
        refine ⟨Acct.fillStep hS ha.1 hs, ?_⟩
        obtain ⟨-, ⟨x, rest, hq, -, rfl⟩ | ⟨x, rest, hq, -, rfl⟩ | ⟨pos, rest, st, res, hq, hpq, hck, hst, hsr, rfl⟩ |
          ⟨pos, rest, hq, hpq, hrp, hck, rfl⟩⟩ := fillStep_next hs
        · exact ha.2
        · exact ha.2
        · rw [ha.2] at hpq; cases hpq
        · rw [ha.2] at hpq; cases hpq) c ⟨hg, h0⟩ _ _ hf
      · cases h1.1
      · obtain ⟨-, -, pos, rest, hpq, -⟩ := raise_type hS hc2.1 h2
        rw [hc2.2] at hpq; cases hpq
    cases hs with
    | tickRaise s e enum hph hf henum =>
      obtain ⟨id, hid⟩ := hg.gapErr _ hf
      intro h
      injection h with h
      simp only at hid
      rw [hid] at h; cases h
    | tickReturn enum hph hf hcond henum => intro h; cases h
    | tickFill _ hph hf hcond hfill => rw [(fill_phase hS hg hfill).1, hph]; simp
    | tickFillRaise c1 e enum hph hf hcond hfill henum => exact absurd hfill (key _ _)
    | exitSaveFail hph hx hsv => intro h; cases h
    | fillRaiseSaveFail c1 e hph hf hcond hfill hsv => exact absurd hfill (key _ _)
    | done s r hph hs hr hres => rw [(taskDone_disk A p c s r).2.1]; exact ih
    | fail s id hph hs => exact ih
    | save enum hph henum => rw [(doSave_same p c enum).2.2.2.1]; exact ih
    | saveFail hph hsv => exact ih

end NF.FL
