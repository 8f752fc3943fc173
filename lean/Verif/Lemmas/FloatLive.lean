import Verif.Spec.FloatLive
import Verif.Lemmas.FloatFrom

/-! # What a search in floating-point arithmetic does with a simplex of its mesh -/

noncomputable section
open Classical
namespace NF.FL
open Spec CoordSys
variable {d : ℕ} {A : CtlArith d} {p : CtlParams d} {Res : Simplex d → SRes d → Prop} {R : List (SRes d) → Simplex d → SRes d → Prop}

theorem Step.weaken {Res' : Simplex d → SRes d → Prop} (h : ∀ s r, Res s r → Res' s r) {c c' : Ctl d} (hs : Step A p Res c c') : Step A p Res' c c' := by
  cases hs with
  | tickRaise s e enum hph hf henum => exact .tickRaise c s e enum hph hf henum
  | tickReturn enum hph hf hcond henum => exact .tickReturn c enum hph hf hcond henum
  | tickFill _ hph hf hcond hfill => exact .tickFill c _ hph hf hcond hfill
  | tickFillRaise c1 e enum hph hf hcond hfill henum => exact .tickFillRaise c c1 e enum hph hf hcond hfill henum
  | exitSaveFail hph hx hsv => exact .exitSaveFail c hph hx hsv
  | fillRaiseSaveFail c1 e hph hf hcond hfill hsv => exact .fillRaiseSaveFail c c1 e hph hf hcond hfill hsv
  | done s r hph hs hr hres => exact .done c s r hph hs hr (h s r hres)
  | fail s id hph hs => exact .fail c s id hph hs
  | save enum hph henum => exact .save c enum hph henum
  | saveFail hph hsv => exact .saveFail c hph hsv

theorem live_reach {n : ℕ} {c : Ctl d} (h : FloatReachLive A p R n c) : Reach A p (AnyNodes R) n c := by
  induction h with
  | start h => exact .start h
  | step _ hs ih => exact .step ih (hs.weaken fun s r h => ⟨_, h⟩)
  | crash _ hs ih => exact .crash ih hs

theorem Elem.res {Res' : Simplex d → SRes d → Prop} {G P : Ctl d → Prop} (he : Elem A p Res G P) (h : ∀ s r, Res' s r → Res s r) : Elem A p Res' G P :=
  ⟨he.fill, he.raise, fun c s r hg hp hs hf hr => he.done c s r hg hp hs hf (h s r hr), he.fail, he.save, he.phase⟩

theorem checkSimplexLoop_false {res : Container d} {s : List (Vec d)} {k : ℤ} (h : checkSimplexLoop A p res k s = false) :
    ∃ v ∈ s, ∃ x ∈ neighbourDistances A res v, x < distCutoff A p := by
  induction s generalizing k with
  | nil => cases h
  | cons v s ih =>
    unfold checkSimplexLoop at h
    split at h
    · rename_i hany
      obtain ⟨x, hx, hlt⟩ := List.any_eq_true.1 hany
      exact ⟨v, by simp, x, hx, by simpa using hlt⟩
    · obtain ⟨w, hw, hx⟩ := ih h
      exact ⟨w, List.mem_cons_of_mem _ hw, hx⟩

/-- a simplex that is skipped has a vertex near a node -/
theorem skipped_near {res : Container d} (hc : ContInv A p res) {s : Simplex d} (h : checkSimplex A p res s = false) :
    ∃ v ∈ s, ∃ r ∈ res.nodes.flat, A.dist p.coord v r.pos < distCutoff A p := by
  obtain ⟨v, hv, x, hx, hlt⟩ := checkSimplexLoop_false h
  rw [neighbourDistances, hc.coord] at hx
  obtain ⟨r, hr, rfl⟩ := List.mem_map.1 hx
  exact ⟨v, hv, r, ((mem_neighbourValues hc.ninv _ r).1 (List.mem_filter.1 hr).1).1, hlt⟩

/-- what is known about a stored node -/
def StoredNode (A : CtlArith d) (p : CtlParams d) (r : SRes d) : Prop := InReach p r.pos ∧ ∃ r0, FreshRes r0 ∧ r = stored A p r0

/-- `Goal n nodes` is reached when the simplex `s` is dealt with, and is kept in restarts -/
structure GoalOk (A : CtlArith d) (p : CtlParams d) (R : List (SRes d) → Simplex d → SRes d → Prop) (s : Simplex d) (Goal : ℕ → List (SRes d) → Prop) : Prop where
  mono : ∀ n l l', (∀ r ∈ l, r ∈ l') → Goal n l → Goal n l'
  later : ∀ n l, Goal n l → Goal (n + 1) l
  again : ∀ n l, (∀ r ∈ l, StoredNode A p r) → Goal n l → Goal (n + 1) (l.map fun r => stored A p r.reload)
  done : ∀ n l r, (∀ r ∈ l, StoredNode A p r) → R l s r → FreshRes r → Goal n (if IsNode p.gapThreshold r then l ++ [stored A p r] else l)
  skip : ∀ n l, (∀ r ∈ l, StoredNode A p r) → ∀ v ∈ s, ∀ r ∈ l, A.dist p.coord v r.pos < distCutoff A p → Goal n l

def GoalInv (s : Simplex d) (Goal : ℕ → List (SRes d) → Prop) (n : ℕ) (c : Ctl d) : Prop := s ∈ outstanding c ∨ Goal n c.state.result.nodes.flat

def GoalDisk (A : CtlArith d) (p : CtlParams d) (s : Simplex d) (Goal : ℕ → List (SRes d) → Prop) (n : ℕ) (sv : Saved d) : Prop :=
  s ∈ sv.simplices ∨ Goal (n + 1) ((sv.results.filter fun r => decide (IsNode p.gapThreshold r)).map (stored A p))

/-- the state of the induction -/
def LiveInv (A : CtlArith d) (p : CtlParams d) (Res : Simplex d → SRes d → Prop) (l : List (SRes d)) (s : Simplex d) (Goal : ℕ → List (SRes d) → Prop) (n : ℕ) (c : Ctl d) : Prop :=
  (∀ r ∈ l, r ∈ c.state.result.nodes.flat) ∧ GoalInv s Goal n c

theorem elem_goal (hS : FloatSearch A p (AnyNodes R)) (hm : ∀ l l' : List (SRes d), (∀ r ∈ l, r ∈ l') → ∀ s r, R l s r → R l' s r) {s : Simplex d} {Goal : ℕ → List (SRes d) → Prop}
    (hGo : GoalOk A p R s Goal) (n : ℕ) (l : List (SRes d)) :
    Elem A p (R l) (fun c => Good A p (AnyNodes R) c ∧ SrcInv A p (AnyNodes R) n c) (LiveInv A p (AnyNodes R) l s Goal n) where
  fill := by
    intro c c' ⟨hG, hsrc⟩ ⟨hl, hP⟩ hs
    have hst : ∀ r ∈ c.state.result.nodes.flat, StoredNode A p r := fun r hr => (hsrc.nodes r hr).1.2
    obtain ⟨-, ⟨x, rest, hq, -, rfl⟩ | ⟨x, rest, hq, hck, rfl⟩ | ⟨pos, rest, st, res, hq, hpq, hck, hst, hsr, rfl⟩ |
        ⟨pos, rest, hq, hpq, hrp, hck, rfl⟩⟩ := fillStep_next hs
    · refine ⟨hl, hP.imp (fun h => ?_) id⟩
      have e : outstanding { c with state := { c.state with simplexQueue := c.state.simplexQueue.popTo x rest }, tasks := c.tasks ++ [x], log := c.log ++ [.scheduled x] } =
          c.tasks ++ [x] ++ c.failed.map Prod.fst ++ rest := rfl
      rw [e]
      simp only [outstanding, hq, List.mem_append, List.mem_cons, List.not_mem_nil, or_false] at h ⊢
      tauto
    · refine ⟨hl, ?_⟩
      by_cases hx : s = x
      · subst hx
        obtain ⟨v, hv, r, hr, hlt⟩ := skipped_near hG.1.cont hck
        exact .inr (hGo.skip n _ hst v hv r hr hlt)
      · refine hP.imp (fun h => ?_) id
        simp only [outstanding, hq, List.mem_append, List.mem_cons] at h ⊢
        rcases h with h | h | h
        · exact .inl h
        · exact absurd h hx
        · exact .inr h
    · have hpos := hG.1.positions pos (by rw [hpq]; simp)
      obtain ⟨res', e', g1, g2, g3, g4, -⟩ := setRefined_ok hS hG.1.cont hpos
      rw [e'] at hsr; injection hsr with hsr; subst hsr
      refine ⟨by simp only [g3]; exact hl, ?_⟩
      unfold GoalInv
      simp only [g3]
      refine hP.imp (fun h => ?_) id
      obtain ⟨a1, -, -⟩ := addObjects_queued c.state.simplexQueue (normalizeSimplices (translateStencil A pos st))
      simp only [outstanding, List.mem_append, a1] at h ⊢
      tauto
    · exact ⟨hl, hP⟩
  raise := by
    intro c e c' ⟨hG, hsrc⟩ ⟨hl, hP⟩ hs
    obtain ⟨-, -, pos, rest, -, rfl⟩ := raise_type hS hG.1 hs
    exact ⟨hl, hP⟩
  done := by
    intro c t r ⟨hG, hsrc⟩ ⟨hl, hP⟩ ht hf hres
    have hst : ∀ r ∈ c.state.result.nodes.flat, StoredNode A p r := fun r hr => (hsrc.nodes r hr).1.2
    obtain ⟨st, e, h1, h2, h3, h4, h5⟩ := taskDone_ok hS hG.1 ht r
    rw [e]
    have hsub : ∀ x ∈ c.state.result.nodes.flat, x ∈ st.result.nodes.flat := by
      intro x hx; rw [h3]; split
      · exact List.mem_append_left _ hx
      · exact hx
    refine ⟨fun x hx => hsub x (hl x hx), ?_⟩
    unfold GoalInv
    by_cases hts : s = t
    · subst hts
      right
      show Goal n st.result.nodes.flat
      rw [h3]
      exact hGo.done n _ r hst (hm l _ hl s r hres) hf
    · refine hP.imp (fun h => ?_) fun h => hGo.mono n _ _ hsub h
      simp only [outstanding, List.mem_append] at h ⊢
      rcases h with (h | h) | h
      · exact .inl (.inl ((List.mem_erase_of_ne hts).2 h))
      · exact .inl (.inr h)
      · exact .inr h
  fail := by
    intro c t id ⟨hG, hsrc⟩ ⟨hl, hP⟩ ht
    refine ⟨hl, hP.imp (fun h => ?_) fun h => h⟩
    simp only [outstanding, taskFail, List.mem_append, List.map_append, List.map_cons, List.map_nil, List.mem_singleton] at h ⊢
    by_cases hts : s = t
    · exact .inl (.inr (.inr hts))
    · rcases h with (h | h) | h
      · exact .inl (.inl ((List.mem_erase_of_ne hts).2 h))
      · exact .inl (.inr (.inl h))
      · exact .inr h
  save := by
    intro c enum ⟨hG, hsrc⟩ ⟨hl, hP⟩ he
    rcases doSave_eq p c enum with ⟨-, -, e⟩ | ⟨-, e⟩ <;> rw [e] <;> exact ⟨hl, hP⟩
  phase := fun c ph _ h => h

/-- starting again: the simplices and the nodes of the save file -/
theorem start_goal (hS : FloatSearch A p Res) {sv : Saved d} {disk : Option (Saved d)} (hi : DiskOk A p Res sv) {c : Ctl d} (h : startFrom A p disk (some sv) = .ok c) {s : Simplex d} (hs : s ∈ sv.simplices) :
    s ∈ outstanding c := by
  obtain ⟨hwf, hpos⟩ := hi
  have e := normalizeSimplices_of_norm hwf.norm
  obtain ⟨res, e1, -⟩ := createContainer_ok hS sv.results sv.refined fun x hx => hpos x (List.mem_append_left _ hx)
  simp only [startFrom, createStateFrom, e1, e] at h
  injection h with h
  subst h
  simp only [outstanding, List.map_nil, List.append_nil, List.nil_append]
  split
  · obtain ⟨a1, -, -⟩ := addObjects_queued (RunQueue.create sv.simplices) (normalizeSimplices p.mesh)
    rw [a1]
    exact List.mem_append_left _ hs
  · exact hs

/-- Whatever is reached when a simplex of the mesh is dealt with has been reached when the search returns. -/
theorem live_goal (hS : FloatSearch A p (AnyNodes R)) (hn : NearBox p (AnyNodes R)) (hm : ∀ l l' : List (SRes d), (∀ r ∈ l, r ∈ l') → ∀ s r, R l s r → R l' s r) {s0 : Simplex d} (hs0 : s0 ∈ p.mesh)
    {Goal : ℕ → List (SRes d) → Prop} (hGo : GoalOk A p R (normalizeSimplex s0) Goal) {n : ℕ} {c : Ctl d} (h : FloatReachLive A p R n c) :
    (Good A p (AnyNodes R) c ∧ SrcInv A p (AnyNodes R) n c) ∧ GoalInv (normalizeSimplex s0) Goal n c ∧ ∀ sv, c.disk = some sv → GoalDisk A p (normalizeSimplex s0) Goal n sv := by
  have fresh : ∀ {n c}, startFrom A p none none = .ok c → GoalInv (normalizeSimplex s0) Goal n c ∧ ∀ sv, c.disk = some sv → GoalDisk A p (normalizeSimplex s0) Goal n sv := by
    intro n c h
    simp only [startFrom, createStateFrom] at h
    injection h with h
    subst h
    refine ⟨.inl ?_, by simp⟩
    simp only [outstanding, RunQueue.create, ObjQueue.create, normalizeSimplices, List.mem_append]
    exact .inr (List.mem_map.2 ⟨s0, hs0, rfl⟩)
  induction h with
  | @start n c h => exact ⟨⟨good_start hS (by simp) (by simp) h, reach_src hS hn (.start h)⟩, fresh h⟩
  | @step n c c' hr hs ih =>
    obtain ⟨hG, hP, hD⟩ := ih
    have e1 : Elem A p (R c.state.result.nodes.values) (fun _ => True) (fun c => Good A p (AnyNodes R) c ∧ SrcInv A p (AnyNodes R) n c) :=
      ((elem_good hS).and ((elem_src hS hn n).mono fun c h => h.2)).res fun s r h => ⟨_, h⟩
    have e2 := e1.and ((elem_goal hS hm hGo n c.state.result.nodes.values).mono fun c h => h.2)
    have e3 := e2.and (Q := fun c => ∀ sv, c.disk = some sv → GoalDisk A p (normalizeSimplex s0) Goal n sv) (((elem_disk hS (G := fun c => True ∧ (Good A p (AnyNodes R) c ∧ SrcInv A p (AnyNodes R) n c) ∧ LiveInv A p (AnyNodes R) _ (normalizeSimplex s0) Goal n c)
      (fun c h => h.2.1.1.1) ?_)).res fun s r h => ⟨_, h⟩)
    · have := e3.step ⟨⟨hG, fun r hr => hr, hP⟩, hD⟩ hs
      exact ⟨this.1.1, this.1.2.2, this.2⟩
    · rintro c1 enum ⟨-, ⟨hG1, hsrc⟩, -, hP1⟩ he
      rcases hP1 with h | h
      · left
        simp only [outstanding, List.mem_append] at h
        change _ ∈ enum ++ _
        rw [List.mem_append]
        rcases h with h | h
        · exact .inl ((he.2 _).2 ((hG1.1.run _).1 (List.mem_append.2 h)))
        · exact .inr h
      · right
        refine hGo.mono _ _ _ ?_ (hGo.again n _ (fun r hr => (hsrc.nodes r hr).1.2) h)
        intro r hr
        obtain ⟨r1, hr1, rfl⟩ := List.mem_map.1 hr
        refine List.mem_map.2 ⟨r1.reload, List.mem_filter.2 ⟨?_, ?_⟩, rfl⟩
        · exact List.mem_map.2 ⟨r1, List.mem_append_left _ hr1, rfl⟩
        · rw [decide_eq_true_eq, isNode_reload]; exact (hsrc.nodes r1 hr1).2
  | @crash n c c' hr hs ih =>
    obtain ⟨hG, hP, hD⟩ := ih
    refine ⟨⟨good_start hS hG.1.2 hG.1.2 hs, reach_src hS hn (.crash (live_reach hr) hs)⟩, ?_⟩
    obtain ⟨-, h1, -, -, -, -, -, -, -, h4⟩ := start_fields hS hG.1.2 hs
    cases hdk : c.disk with
    | none => rw [hdk] at hs; exact fresh hs
    | some sv =>
      have hDsv := hD sv hdk
      have hok := hG.1.2 sv hdk
      rw [hdk] at hs h1 h4
      refine ⟨?_, ?_⟩
      · rcases hDsv with h | h
        · exact .inl (start_goal hS hok hs h)
        · right
          rw [h4]
          exact h
      · rw [h1]
        intro sv' e
        obtain rfl := Option.some.inj e
        rcases hDsv with h | h
        · exact .inl h
        · right
          exact hGo.later _ _ h

end NF.FL
