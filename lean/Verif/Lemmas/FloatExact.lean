import Verif.Lemmas.FloatWork
import Verif.Props.Container

/-! # Without rounding the search loop of `Model/FloatController` is the one of `Model/Controller` -/

noncomputable section
open Classical
namespace NF.FL
open Spec CoordSys
variable {d : ℕ} {A : CtlArith d} {p : CtlParams d} {Res : Simplex d → SRes d → Prop}

/-- nothing is rounded -/
structure Exact (A : CtlArith d) (p : CtlParams d) : Prop where
  rnd : A.rnd = id
  box : ProperBox p.coord
  dist : ∀ x y, A.dist p.coord x y = p.coord.distance x y

theorem Exact.cutoff (h : Exact A p) : distCutoff A p = p.distCutoff := by
  unfold distCutoff CtlParams.distCutoff; rw [h.rnd]; rfl

theorem Exact.cells (h : Exact A p) (dc : ℝ) : FL.numCellsFor A.rnd p.coord dc = NF.numCellsFor p.coord dc := by
  rw [h.rnd]; rfl

theorem Exact.norm (h : Exact A p) (x : Vec d) : FL.normalizePosition A.rnd p.coord x = p.coord.normalizePosition x := by
  rw [h.rnd]; exact (C74_exact_arithmetic h.box (CellList.mk' (fun _ => 1) true : CellList d ℕ) x x 0).1

theorem Exact.frac (h : Exact A p) (x : Vec d) : FL.getFrac A.rnd p.coord x = p.coord.getFrac x := by
  rw [h.rnd]; exact (C74_exact_arithmetic h.box (CellList.mk' (fun _ => 1) true : CellList d ℕ) x x 0).2.1

theorem Exact.add {α : Type} (h : Exact A p) {cl : CellList d α} {dc : ℝ} (h1 : cl.periodic = p.coord.periodic) (h2 : cl.numCells = NF.numCellsFor p.coord dc) (x : Vec d) (v : α) :
    FL.addPointChecked A.rnd cl (FL.getFrac A.rnd p.coord x) v = .ok (cl.addPoint (p.coord.getFrac x) v) := by
  rw [h.frac, h.rnd]
  exact (C74_exact_arithmetic h.box cl x _ v).2.2.2.trans (addPointChecked_eq h1 h2 _ _)

theorem Exact.addResult (h : Exact A p) {c : Container d} {g dc : ℝ} (hi : c.Inv p.coord g dc) (r : SRes d) : FL.addResult A c r = .ok (c.addResult r) := by
  unfold FL.addResult Container.addResult
  simp only [hi.coord, h.norm, h.add hi.nper hi.nnum]
  split <;> rfl

theorem Exact.setRefined (h : Exact A p) {c : Container d} {g dc : ℝ} (hi : c.Inv p.coord g dc) (x : Vec d) : FL.setRefined A c x = .ok (c.setRefined x) := by
  unfold FL.setRefined Container.setRefined
  simp only [hi.coord, h.add hi.rper hi.rnum]

theorem Exact.addResults (h : Exact A p) {g dc : ℝ} (rs : List (SRes d)) {c : Container d} (hi : c.Inv p.coord g dc) :
    FL.addResults A c rs = .ok (rs.foldl (fun c r => (c.addResult r).1) c) ∧ (rs.foldl (fun c r => (c.addResult r).1) c).Inv p.coord g dc := by
  induction rs generalizing c with
  | nil => exact ⟨rfl, hi⟩
  | cons r rs ih =>
    obtain ⟨h1, h2⟩ := ih (hi.addResult r)
    refine ⟨?_, h2⟩
    rw [FL.addResults, h.addResult hi]
    exact h1

theorem Exact.setRefineds (h : Exact A p) {g dc : ℝ} (xs : List (Vec d)) {c : Container d} (hi : c.Inv p.coord g dc) :
    FL.setRefineds A c xs = .ok (xs.foldl (fun c x => c.setRefined x) c) := by
  induction xs generalizing c with
  | nil => rfl
  | cons x xs ih =>
    rw [FL.setRefineds, h.setRefined hi]
    exact ih (hi.setRefined x)

theorem Exact.empty (h : Exact A p) (g dc : ℝ) : FL.emptyContainer A p.coord g dc = Container.empty p.coord g dc := by
  unfold FL.emptyContainer Container.empty; rw [h.cells]

theorem Exact.create (h : Exact A p) (rs : List (SRes d)) (xs : List (Vec d)) (g dc : ℝ) :
    FL.createContainer A p.coord rs g dc xs = .ok (Container.create p.coord rs g dc xs) := by
  unfold FL.createContainer Container.create
  rw [h.empty]
  obtain ⟨h1, h2⟩ := h.addResults rs (Container.Inv.empty p.coord g dc)
  simp only [h1, h.setRefineds xs h2]

theorem Exact.startFrom (h : Exact A p) (disk initial : Option (Saved d)) : FL.startFrom A p disk initial = .ok (NF.startFrom p disk initial) := by
  unfold FL.startFrom NF.startFrom FL.createStateFrom NF.createStateFrom
  cases initial with
  | none => simp only [h.empty, h.cutoff, Container.create, List.foldl_nil]; rfl
  | some sv => simp only [h.create, h.cutoff]

theorem Exact.refDist (h : Exact A p) {c : Container d} {g dc : ℝ} (hi : c.Inv p.coord g dc) (x : Vec d) : FL.refinedNeighbourDistances A c x = c.refinedNeighbourDistances x := by
  unfold FL.refinedNeighbourDistances Container.refinedNeighbourDistances FL.neighbourValues CellList.neighbourValues
  simp only [hi.coord, h.frac, h.dist]
  rw [h.rnd]
  rfl

theorem Exact.nodeDist (h : Exact A p) {c : Container d} {g dc : ℝ} (hi : c.Inv p.coord g dc) (x : Vec d) : FL.neighbourDistances A c x = c.neighbourDistances x := by
  unfold FL.neighbourDistances Container.neighbourDistances Container.neighbourIterator FL.neighbourValues CellList.neighbourValues
  simp only [hi.coord, h.frac, h.dist]
  rw [h.rnd]
  rfl

theorem Exact.checkPos (h : Exact A p) {c : Container d} {g dc : ℝ} (hi : c.Inv p.coord g dc) (x : Vec d) (k : ℤ) : FL.checkPosRefinement A p c x k = NF.checkPosRefinement p c x k := by
  unfold FL.checkPosRefinement NF.checkPosRefinement
  rw [h.cutoff, h.refDist hi]

theorem Exact.checkSimplex (h : Exact A p) {c : Container d} {g dc : ℝ} (hi : c.Inv p.coord g dc) (s : Simplex d) : FL.checkSimplex A p c s = NF.checkSimplex p c s := by
  unfold FL.checkSimplex NF.checkSimplex
  generalize (0 : ℤ) = k
  induction s generalizing k with
  | nil => rfl
  | cons x s ih => simp only [FL.checkSimplexLoop, NF.checkSimplexLoop, h.cutoff, h.nodeDist hi, ih]

theorem Exact.stencil (h : Exact A p) (x : Vec d) (st : List (Simplex d)) : FL.translateStencil A x st = NF.translateStencil x st := by
  unfold FL.translateStencil NF.translateStencil; rw [h.rnd]; rfl

theorem Exact.fillStep (h : Exact A p) {c : Ctl d} {g dc : ℝ} (hi : c.state.result.Inv p.coord g dc) : FL.fillStep A p c = NF.fillStep p c := by
  unfold FL.fillStep NF.fillStep
  simp only [h.checkSimplex hi, h.checkPos hi, h.stencil, h.setRefined hi]
  rfl

theorem Exact.taskDone (h : Exact A p) {c : Ctl d} {g dc : ℝ} (hi : c.state.result.Inv p.coord g dc) (s : Simplex d) (r : SRes d) : FL.taskDone A p c s r = NF.taskDone p c s r := by
  have e : FL.processResult A p c.state r = .ok (NF.processResult p c.state r) := by
    unfold FL.processResult NF.processResult
    simp only [h.addResult hi, h.norm, h.checkPos (hi.addResult r)]
    split
    · split <;> rfl
    · rfl
  unfold FL.taskDone NF.taskDone
  rw [e]
  rfl

theorem Exact.fill (h : Exact A p) (hd : DistinctInput p) {c : Ctl d} (ha : NF.Acct p c) : FL.fill A p c = NF.fill p c := by
  have key : ∀ (m : ℕ ×ₗ ℕ) (c : Ctl d), fillMeasure c = m → NF.Acct p c → FL.fill A p c = NF.fill p c := by
    intro m
    induction m using WellFoundedLT.induction with
    | ind m ih =>
      intro c hm ha
      rw [FL.fill, NF.fill]
      have e := h.fillStep ha.cont
      split
      · rename_i h1
        rw [e] at h1
        split
        · rfl
        · rename_i h2; rw [h1] at h2; cases h2
        · rename_i h2; rw [h1] at h2; cases h2
      · rename_i h1
        rw [e] at h1
        split
        · rename_i h2; rw [h1] at h2; cases h2
        · rename_i h2; rw [h1] at h2; injection h2 with h2 h3; subst h2 h3; rfl
        · rename_i h2; rw [h1] at h2; cases h2
      · rename_i c1 h1
        rw [e] at h1
        split
        · rename_i h2; rw [h1] at h2; cases h2
        · rename_i h2; rw [h1] at h2; cases h2
        · rename_i h2
          rw [h1] at h2; injection h2 with h2; subst h2
          exact ih _ (hm ▸ NF.fillStep_decreases h1) c1 rfl (NF.Acct.fillStep hd ha h1)
  exact key _ c rfl ha

theorem Exact.step (h : Exact A p) (hd : DistinctInput p) {c c' : Ctl d} (ha : NF.Acct p c) : FL.Step A p (fun _ _ => True) c c' ↔ NF.Step p c c' := by
  have e := h.fill hd ha
  constructor
  · intro hs
    cases hs with
    | tickRaise s e enum hph hf henum => exact .tickRaise c s e enum hph hf henum
    | tickReturn enum hph hf hcond henum => exact .tickReturn c enum hph hf hcond henum
    | tickFill _ hph hf hcond hfill => exact .tickFill c c' hph hf hcond (e ▸ hfill)
    | tickFillRaise c1 er enum hph hf hcond hfill henum => exact .tickFillRaise c c1 er enum hph hf hcond (e ▸ hfill) henum
    | exitSaveFail hph hx hsv => exact .exitSaveFail c hph hx hsv
    | fillRaiseSaveFail c1 er hph hf hcond hfill hsv => exact .fillRaiseSaveFail c c1 er hph hf hcond (e ▸ hfill) hsv
    | done s r hph hs hr => rw [h.taskDone ha.cont]; exact .done c s r hph hs hr
    | fail s id hph hs => exact .fail c s id hph hs
    | save enum hph henum => exact .save c enum hph henum
    | saveFail hph hsv => exact .saveFail c hph hsv
  · intro hs
    cases hs with
    | tickRaise s e enum hph hf henum => exact .tickRaise c s e enum hph hf henum
    | tickReturn enum hph hf hcond henum => exact .tickReturn c enum hph hf hcond henum
    | tickFill _ hph hf hcond hfill => exact .tickFill c c' hph hf hcond (e ▸ hfill)
    | tickFillRaise c1 er enum hph hf hcond hfill henum => exact .tickFillRaise c c1 er enum hph hf hcond (e ▸ hfill) henum
    | exitSaveFail hph hx hsv => exact .exitSaveFail c hph hx hsv
    | fillRaiseSaveFail c1 er hph hf hcond hfill hsv => exact .fillRaiseSaveFail c c1 er hph hf hcond (e ▸ hfill) hsv
    | done s r hph hs hr => rw [← h.taskDone ha.cont]; exact .done c s r hph hs hr trivial
    | fail s id hph hs => exact .fail c s id hph hs
    | save enum hph henum => exact .save c enum hph henum
    | saveFail hph hsv => exact .saveFail c hph hsv

theorem Exact.reach (h : Exact A p) (hd : DistinctInput p) {c : Ctl d} : (∃ n, FL.Reach A p (fun _ _ => True) n c) ↔ NF.Reach p c := by
  constructor
  · rintro ⟨n, hr⟩
    induction hr with
    | start hs =>
      rw [h.startFrom] at hs; injection hs with hs; subst hs
      exact .start
    | step _ hs ih => exact .tail ih (.step ((h.step hd (NF.good_reach hd ih).1).1 hs))
    | @crash n c c' _ hs ih =>
      rw [h.startFrom] at hs; injection hs with hs; subst hs
      exact .tail ih (.crash c)
  · intro hr
    induction hr with
    | start => exact ⟨0, .start (h.startFrom _ _)⟩
    | @tail c c' hc hs ih =>
      obtain ⟨n, ih⟩ := ih
      cases hs with
      | step hs => exact ⟨n, .step ih ((h.step hd (NF.good_reach hd hc).1).2 hs)⟩
      | crash => exact ⟨n + 1, .crash ih (h.startFrom _ _)⟩

end NF.FL
