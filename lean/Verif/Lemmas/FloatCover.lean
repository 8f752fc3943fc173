import Verif.Lemmas.FloatGeom

/-! # Spread and coverage of the refinement centres in floating-point arithmetic -/

noncomputable section
open Classical
namespace NF.FL
open Spec CoordSys
variable {d : ℕ} {A : CtlArith d} {p : CtlParams d} {Res : Simplex d → SRes d → Prop}

theorem start_fields (hS : FloatSearch A p Res) {disk initial : Option (Saved d)} (hi : ∀ sv, initial = some sv → DiskOk A p Res sv) {c : Ctl d} (h : startFrom A p disk initial = .ok c) :
    Acct A p Res c ∧ c.disk = disk ∧ c.phase = .running ∧ c.log = [] ∧ c.failed = [] ∧ c.tasks = [] ∧
      c.state.simplexQueue.base.queued.length ≤ (startSimplices p initial).length ∧
      c.state.positionQueue = ObjQueue.create (startPositions initial) ∧ c.state.result.refined.flat = startRefined initial ∧
      c.state.result.nodes.flat = ((startResults initial).filter fun r => decide (IsNode p.gapThreshold r)).map (stored A p) := by
  obtain ⟨c', e, h'⟩ := start_ok hS disk initial hi
  rw [e] at h; injection h with h; subst h; exact h'

/-! ## spread -/

def SpreadInv (p : CtlParams d) (c : Ctl d) : Prop :=
  SpreadList p.coord (sep p) p.recheckCountCutoff.toNat c.state.result.refined.flat ∧ ∀ sv, c.disk = some sv → SpreadList p.coord (sep p) p.recheckCountCutoff.toNat sv.refined

theorem reach_spread (hS : FloatSearch A p Res) (hg : FloatGeometry p Res) (hr : p.recheckPosDist = true) {n : ℕ} {c : Ctl d} (h : Reach A p Res n c) : SpreadInv p c := by
  refine (reach_of_elem hS (P := fun _ c => SpreadInv p c) (fun _ => ?_) ?_ ?_ h).2
  · unfold SpreadInv
    refine Elem.and ⟨?_, ?_, ?_, ?_, ?_, ?_⟩ (elem_disk hS (fun c h => h.1.1) fun c enum hg he => hg.2)
    · intro c c' hG hP hs
      obtain ⟨-, ⟨x, rest, hq, -, rfl⟩ | ⟨x, rest, hq, -, rfl⟩ | ⟨pos, rest, st, res, hq, hpq, hck, hst, hsr, rfl⟩ |
        ⟨pos, rest, hq, hpq, -, -, rfl⟩⟩ := fillStep_next hs
      · exact hP
      · exact hP
      · have hpos := hG.1.positions pos (by rw [hpq]; simp)
        obtain ⟨res', e', g1, g2, -⟩ := setRefined_ok hS hG.1.cont hpos
        rw [e'] at hsr; injection hsr with hsr; subst hsr
        simp only [g2]
        apply hP.snoc
        rcases hck with hck | hck
        · rw [hr] at hck; cases hck
        · have h1 := near_found hS hg hG.1.cont (hpos.inReach hS hg.near) fun q hq => (hG.1.positions q (List.mem_append_left _ hq)).inReach hS hg.near
          have h2 : ¬ (checkPosRefinement A p c.state.result pos p.recheckCountCutoff = false) := by simp [hck]
          rw [checkPos_eq_false_iff] at h2
          by_cases hemp : refinedNeighbourDistances A c.state.result pos = []
          · rw [hemp] at h1; simp only [List.filter_nil, List.length_nil] at h1; omega
          · have h3 : ¬ (p.recheckCountCutoff < ((refinedNeighbourDistances A c.state.result pos).filter fun y => decide (y < distCutoff A p)).length) := fun h => h2 ⟨hemp, h⟩
            omega
      · exact hP
    · intro c e c' hG hP hs
      obtain ⟨-, -, pos, rest, hpq, rfl⟩ := raise_type hS hG.1 hs
      exact hP
    · intro c s r hG hP hs hf hres
      obtain ⟨st, e, h1, h2, -⟩ := taskDone_ok hS hG.1 hs r
      rw [e]; simp only [h2]; exact hP
    · intro c s id hG hP hs; exact hP
    · intro c enum hG hP he
      rw [(doSave_same p c enum).2.2.2.2.2.2.2.1]
      exact hP
    · intro c ph hG hP; exact hP
  · intro n c h
    obtain ⟨-, h1, -, -, -, -, -, -, h2, -⟩ := start_fields hS (by simp) h
    exact ⟨by rw [h2]; exact SpreadList.nil _ _ _, by rw [h1]; simp⟩
  · intro n c c' hG hP h
    obtain ⟨-, h1, -, -, -, -, -, -, h2, -⟩ := start_fields hS hG.2 h
    refine ⟨?_, by rw [h1]; exact hP.2⟩
    rw [h2]
    cases hdk : c.disk with
    | none => exact SpreadList.nil _ _ _
    | some sv => exact hP.2 sv hdk

/-! ## coverage -/

/-- covered or queued, up to `n` drifts -/
def NearC (p : CtlParams d) (n : ℕ) (L xs : List (Vec d)) (x : Vec d) : Prop :=
  (∃ q ∈ L, p.coord.distance x q < cover p + n * driftError p.coord) ∨ ∃ q ∈ xs, p.coord.distance x q ≤ n * driftError p.coord

theorem drift_nonneg (cs : CoordSys d) : 0 ≤ driftError cs := Real.sqrt_nonneg _

theorem cover_pos (hg : FloatGeometry p Res) : 0 < cover p := by
  have h0 := hg.positive
  have := distanceError_nonneg p.coord
  unfold cover; positivity

theorem NearC.mono {n : ℕ} {L L' xs xs' : List (Vec d)} {x : Vec d} (h : NearC p n L xs x) (hL : ∀ q ∈ L, q ∈ L') (hx : ∀ q ∈ xs, q ∈ xs') : NearC p n L' xs' x := by
  rcases h with ⟨q, hq, h⟩ | ⟨q, hq, h⟩
  · exact .inl ⟨q, hL q hq, h⟩
  · exact .inr ⟨q, hx q hq, h⟩

theorem NearC.le {n m : ℕ} (hnm : n ≤ m) {L xs : List (Vec d)} {x : Vec d} (h : NearC p n L xs x) : NearC p m L xs x := by
  have hd := drift_nonneg p.coord
  have : (n : ℝ) * driftError p.coord ≤ m * driftError p.coord := mul_le_mul_of_nonneg_right (by exact_mod_cast hnm) hd
  rcases h with ⟨q, hq, h⟩ | ⟨q, hq, h⟩
  · exact .inl ⟨q, hq, by linarith⟩
  · exact .inr ⟨q, hq, by linarith⟩

theorem NearC.of_covered (n : ℕ) {L xs : List (Vec d)} {x : Vec d} (h : Covered p L x ∨ x ∈ xs) (hb : ProperBox p.coord) : NearC p n L xs x := by
  have hd := drift_nonneg p.coord
  have : (0 : ℝ) ≤ n * driftError p.coord := by positivity
  rcases h with ⟨q, hq, h⟩ | h
  · exact .inl ⟨q, hq, by linarith⟩
  · exact .inr ⟨x, h, by rw [distance_self hb]; exact this⟩

/-- if the first queued position is covered now -/
theorem NearC.pop {n : ℕ} {L L' xs : List (Vec d)} {x y : Vec d} (hb : ProperBox p.coord) (h : NearC p n L (y :: xs) x) (hL : ∀ q ∈ L, q ∈ L') (hy : Covered p L' y) : NearC p n L' xs x := by
  rcases h with ⟨q, hq, h⟩ | ⟨q, hq, h⟩
  · exact .inl ⟨q, hL q hq, h⟩
  · rcases List.mem_cons.1 hq with rfl | hq
    · obtain ⟨z, hz, hyz⟩ := hy
      have := (C03_distance_metric p.coord hb x q z).2.2.1
      exact .inl ⟨z, hz, by linarith⟩
    · exact .inr ⟨q, hq, h⟩

structure CovInv (A : CtlArith d) (p : CtlParams d) (n : ℕ) (c : Ctl d) : Prop where
  nodes : ∀ r ∈ c.state.result.nodes.flat, NearC p n c.state.result.refined.flat c.state.positionQueue.queued r.pos
  all : ∀ x ∈ c.state.positionQueue.all, Covered p c.state.result.refined.flat x ∨ x ∈ c.state.positionQueue.queued
  isNode : ∀ r ∈ c.state.result.nodes.flat, InReach p r.pos ∧ ∃ r0, FreshRes r0 ∧ r = stored A p r0
  rejected : ∀ r ∈ c.state.result.rejected, ¬ IsNode p.gapThreshold r

/-- what the save file says about the nodes -/
def DiskCov (A : CtlArith d) (p : CtlParams d) (n : ℕ) (sv : Saved d) : Prop :=
  ∀ r ∈ sv.results, IsNode p.gapThreshold r → NearC p (n + 1) sv.refined sv.positions (stored A p r).pos ∧ FreshRes r ∧ InReach p (stored A p r).pos

theorem stored_pos (r : SRes d) : (stored A p r).pos = FL.normalizePosition A.rnd p.coord r.pos := by simp [stored]

theorem isNode_stored (r : SRes d) : IsNode p.gapThreshold (stored A p r) ↔ IsNode p.gapThreshold r := by
  unfold IsNode stored; simp

theorem isNode_reload {g : ℝ} (r : SRes d) : IsNode g r.reload ↔ IsNode g r := by
  unfold IsNode; cases r <;> exact Iff.rfl

/-- a stored result after saving, loading and storing it again -/
theorem stored_reload (hS : FloatSearch A p Res) {r : SRes d} (hf : FreshRes r) (hx : InReach p (stored A p r).pos) :
    p.coord.distance (stored A p r).pos (stored A p (stored A p r).reload).pos ≤ driftError p.coord ∧ InReach p (stored A p (stored A p r).reload).pos := by
  have hd := drift_nonneg p.coord
  cases r with
  | plain m =>
    have : (stored A p (SRes.plain m)).reload = stored A p (SRes.plain m) := rfl
    rw [this, stored_pos (stored A p _)]
    exact ⟨renormalize hS hx, inReach_again hS hx⟩
  | joined ch an pa =>
    have hpa := hf ch an pa rfl
    subst hpa
    have : (stored A p (SRes.joined ch an none)).reload = SRes.joined ch an none := rfl
    rw [this, distance_self hS.box]
    exact ⟨hd, hx⟩

theorem elem_cov (hS : FloatSearch A p Res) (hg : FloatGeometry p Res) (hst : p.stencil.isSome = true) (hrc : p.recheckPosDist = false ∨ 0 ≤ p.recheckCountCutoff) (n : ℕ) :
    Elem A p Res (Good A p Res) (CovInv A p n) where
  fill := by
    intro c c' hG hP hs
    obtain ⟨-, ⟨x, rest, hq, -, rfl⟩ | ⟨x, rest, hq, -, rfl⟩ | ⟨pos, rest, st, res, hq, hpq, hck, hst, hsr, rfl⟩ |
        ⟨pos, rest, hq, hpq, hrp, hck, rfl⟩⟩ := fillStep_next hs
    · exact ⟨hP.nodes, hP.all, hP.isNode, hP.rejected⟩
    · exact ⟨hP.nodes, hP.all, hP.isNode, hP.rejected⟩
    · have hpos := hG.1.positions pos (by rw [hpq]; simp)
      obtain ⟨res', e', g1, g2, g3, g4, -⟩ := setRefined_ok hS hG.1.cont hpos
      rw [e'] at hsr; injection hsr with hsr; subst hsr
      have hcov : Covered p (c.state.result.refined.flat ++ [pos]) pos := ⟨pos, by simp, by rw [distance_self hS.box]; exact cover_pos hg⟩
      refine ⟨?_, ?_, by simp only [g3]; exact hP.isNode, by simp only [g4]; exact hP.rejected⟩
      · intro r hr
        simp only [g3, g2] at hr ⊢
        have := hP.nodes r hr
        rw [hpq] at this
        exact this.pop hS.box (fun q hq => List.mem_append_left _ hq) hcov
      · intro x hx
        simp only [g2]
        have := hP.all x hx
        rw [hpq] at this
        rcases this with ⟨q, hq, h⟩ | h
        · exact .inl ⟨q, List.mem_append_left _ hq, h⟩
        · rcases List.mem_cons.1 h with rfl | h
          · exact .inl hcov
          · exact .inr h
    · have hpos := (hG.1.positions pos (by rw [hpq]; simp)).inReach hS hg.near
      have hcov : Covered p c.state.result.refined.flat pos := by
        rcases hrc with h | h
        · rw [hrp] at h; cases h
        · exact covered_of_check hS hg hG.1.cont hpos (fun q hq => (hG.1.positions q (List.mem_append_left _ hq)).inReach hS hg.near) h hck
      refine ⟨?_, ?_, hP.isNode, hP.rejected⟩
      · intro r hr
        have := hP.nodes r hr
        rw [hpq] at this
        exact this.pop hS.box (fun q hq => hq) hcov
      · intro x hx
        have := hP.all x hx
        rw [hpq] at this
        rcases this with h | h
        · exact .inl h
        · rcases List.mem_cons.1 h with rfl | h
          · exact .inl hcov
          · exact .inr h
  raise := by
    intro c e c' hG hP hs
    obtain ⟨-, hn, -⟩ := raise_type hS hG.1 hs
    rw [hn] at hst; cases hst
  done := by
    intro c s r hG hP hs hf hres
    obtain ⟨st, e, h1, h2, h3, h4, h5⟩ := taskDone_ok hS hG.1 hs r
    rw [e]
    set x := FL.normalizePosition A.rnd p.coord r.pos with hx
    have hxr : InReach p x := inReach_normalize hS hg.near hres
    have hq : ∀ y ∈ c.state.positionQueue.queued, y ∈ st.positionQueue.queued := by
      intro y hy
      rcases h5 with ⟨-, -, -, h6⟩ | ⟨h6, -⟩
      · rw [h6]
        rcases objAddObjects c.state.positionQueue x with ⟨-, h7⟩ | ⟨-, h7⟩ <;> rw [h7]
        · exact hy
        · exact List.mem_append_left _ hy
      · rw [h6]; exact hy
    have hnew : IsNode p.gapThreshold r → Covered p c.state.result.refined.flat x ∨ x ∈ st.positionQueue.queued := by
      intro hn
      rcases h5 with ⟨-, -, -, h6⟩ | ⟨-, h6⟩
      · rw [h6]
        rcases objAddObjects c.state.positionQueue x with ⟨h8, h7⟩ | ⟨-, h7⟩ <;> rw [h7]
        · exact hP.all x h8
        · exact .inr (List.mem_append_right _ (by simp))
      · left
        have := covered_of_check hS hg h1 hxr (by rw [h2]; exact fun q hq => (hG.1.positions q (List.mem_append_left _ hq)).inReach hS hg.near) le_rfl (h6 hn hst)
        rwa [h2] at this
    refine ⟨?_, ?_, ?_, ?_⟩
    · intro y hy
      simp only [h2, h3] at hy ⊢
      by_cases hn : IsNode p.gapThreshold r
      · rw [if_pos hn] at hy
        rcases List.mem_append.1 hy with hy | hy
        · exact (hP.nodes y hy).mono (fun _ h => h) hq
        · rw [List.mem_singleton.1 hy, stored_pos]
          exact NearC.of_covered n (hnew hn) hS.box
      · rw [if_neg hn] at hy
        exact (hP.nodes y hy).mono (fun _ h => h) hq
    · intro y hy
      simp only [h2] at hy ⊢
      rcases h5 with ⟨-, -, -, h6⟩ | ⟨h6, -⟩
      · rw [h6] at hy ⊢
        rcases objAddObjects c.state.positionQueue x with ⟨-, h7⟩ | ⟨-, h7⟩ <;> rw [h7] at hy ⊢
        · exact hP.all y hy
        · rcases hy with hy | hy
          · exact (hP.all y hy).imp id fun h => List.mem_append_left _ h
          · exact .inr (List.mem_append_right _ hy)
      · rw [h6] at hy ⊢; exact hP.all y hy
    · intro y hy
      simp only [h3] at hy
      by_cases hn : IsNode p.gapThreshold r
      · rw [if_pos hn] at hy
        rcases List.mem_append.1 hy with hy | hy
        · exact hP.isNode y hy
        · rw [List.mem_singleton.1 hy, stored_pos]
          exact ⟨hxr, r, hf, rfl⟩
      · rw [if_neg hn] at hy; exact hP.isNode y hy
    · intro y hy
      simp only [h4] at hy
      by_cases hn : IsNode p.gapThreshold r
      · rw [if_pos hn] at hy; exact hP.rejected y hy
      · rw [if_neg hn] at hy
        rcases List.mem_append.1 hy with hy | hy
        · exact hP.rejected y hy
        · rw [List.mem_singleton.1 hy, isNode_stored]; exact hn
  fail := fun c s id hG hP hs => ⟨hP.nodes, hP.all, hP.isNode, hP.rejected⟩
  save := by
    intro c enum hG hP he
    rcases doSave_eq p c enum with ⟨-, -, e⟩ | ⟨-, e⟩ <;> rw [e] <;> exact ⟨hP.nodes, hP.all, hP.isNode, hP.rejected⟩
  phase := fun c ph hG hP => ⟨hP.nodes, hP.all, hP.isNode, hP.rejected⟩

theorem setRefined_rejected {c c' : Container d} {x : Vec d} (h : setRefined A c x = .ok c') : c'.rejected = c.rejected := by
  unfold setRefined at h
  split at h
  · injection h with h; subst h; rfl
  · cases h

theorem start_rejected (hS : FloatSearch A p Res) {disk initial : Option (Saved d)} (hi : ∀ sv, initial = some sv → DiskOk A p Res sv) {c : Ctl d} (h : startFrom A p disk initial = .ok c) :
    ∀ r ∈ c.state.result.rejected, ¬ IsNode p.gapThreshold r := by
  cases initial with
  | none =>
    simp only [startFrom, createStateFrom] at h
    injection h with h; subst h
    simp [emptyContainer]
  | some sv =>
    obtain ⟨hwf, hpos⟩ := hi sv rfl
    obtain ⟨res, e1, g1, g2, g3, g4⟩ := createContainer_ok hS sv.results sv.refined fun x hx => hpos x (List.mem_append_left _ hx)
    simp only [startFrom, createStateFrom, e1] at h
    injection h with h; subst h
    intro r hr
    simp only [g4] at hr
    obtain ⟨r0, h0, rfl⟩ := List.mem_map.1 hr
    rw [isNode_stored]
    simpa using (List.mem_filter.1 h0).2

theorem reach_cov (hS : FloatSearch A p Res) (hg : FloatGeometry p Res) (hst : p.stencil.isSome = true) (hrc : p.recheckPosDist = false ∨ 0 ≤ p.recheckCountCutoff) {n : ℕ} {c : Ctl d}
    (h : Reach A p Res n c) : CovInv A p n c := by
  refine (reach_of_elem hS (P := fun n c => CovInv A p n c ∧ ∀ sv, c.disk = some sv → DiskCov A p n sv) (fun n => ?_) ?_ ?_ h).2.1
  · refine (elem_cov hS hg hst hrc n).and (elem_disk hS (fun c h => h.1.1) ?_)
    rintro c enum ⟨hG, hP⟩ - r hr hn
    obtain ⟨r1, hr1, rfl⟩ := List.mem_map.1 hr
    rw [isNode_reload] at hn
    rcases List.mem_append.1 hr1 with h1 | h1
    · obtain ⟨h2, r0, h3, rfl⟩ := hP.isNode r1 h1
      obtain ⟨g1, g2⟩ := stored_reload hS h3 h2
      refine ⟨?_, freshRes_reload _, g2⟩
      have hm := (C03_distance_metric p.coord hS.box (stored A p (stored A p r0).reload).pos (stored A p r0).pos)
      rw [(C03_distance_metric p.coord hS.box _ _ 0).2.1] at g1
      rcases hP.nodes _ h1 with ⟨q, hq, h4⟩ | ⟨q, hq, h4⟩
      · have := (hm q).2.2.1
        exact .inl ⟨q, hq, by push_cast; linarith⟩
      · have := (hm q).2.2.1
        exact .inr ⟨q, hq, by push_cast; linarith⟩
    · exact absurd hn (hP.rejected r1 h1)
  · intro n c h
    obtain ⟨-, h1, -, -, -, -, -, h2, h3, h4⟩ := start_fields hS (by simp) h
    have h5 : c.state.result.nodes.flat = [] := by rw [h4]; simp [startResults]
    refine ⟨⟨by simp [h5], by rw [h2]; simp [ObjQueue.create, startPositions], by simp [h5], start_rejected hS (by simp) h⟩, by rw [h1]; simp⟩
  · intro n c c' hG hP h
    obtain ⟨-, h1, -, -, -, -, -, h2, h3, h4⟩ := start_fields hS hG.2 h
    refine ⟨⟨?_, ?_, ?_, start_rejected hS hG.2 h⟩, ?_⟩
    · intro r hr
      rw [h4] at hr
      obtain ⟨r0, h0, rfl⟩ := List.mem_map.1 hr
      rw [h2, h3]
      cases hdk : c.disk with
      | none => rw [hdk] at h0; simp [startResults] at h0
      | some sv =>
        rw [hdk] at h0
        exact (hP.2 sv hdk r0 (List.mem_filter.1 h0).1 (by simpa using (List.mem_filter.1 h0).2)).1
    · rw [h2]; exact fun x hx => .inr hx
    · intro r hr
      rw [h4] at hr
      obtain ⟨r0, h0, rfl⟩ := List.mem_map.1 hr
      cases hdk : c.disk with
      | none => rw [hdk] at h0; simp [startResults] at h0
      | some sv =>
        rw [hdk] at h0
        have := (hP.2 sv hdk r0 (List.mem_filter.1 h0).1 (by simpa using (List.mem_filter.1 h0).2)).2
        exact ⟨this.2, r0, this.1, rfl⟩
    · intro sv hsv r hr hn
      rw [h1] at hsv
      have := hP.2 sv hsv r hr hn
      exact ⟨this.1.le (by omega), this.2⟩

end NF.FL
