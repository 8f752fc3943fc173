import Verif.Props.NelderMead
import Verif.Spec.Textbook

/-! # C75: the minimizer follows the Nelder-Mead rules -/

noncomputable section
open Classical
namespace NF
open Spec
variable {d : ℕ}

/-- a function without NaN, as the function of the model -/
def embedFun (g : Vec d → EReal) : ℕ → Vec d → FVal := fun _ x => ((g x : EReal) : WithTop EReal)

theorem coe_ne_nan (a : EReal) : ((a : EReal) : FVal) ≠ FVal.nan := WithTop.coe_ne_top
theorem coe_lt' {a b : EReal} : FVal.lt ((a : WithTop EReal)) ((b : WithTop EReal)) ↔ a < b :=
  ⟨fun h => WithTop.coe_lt_coe.1 h.2.2, fun h => ⟨coe_ne_nan a, coe_ne_nan b, WithTop.coe_lt_coe.2 h⟩⟩
theorem coe_le' {a b : EReal} : FVal.le ((a : WithTop EReal)) ((b : WithTop EReal)) ↔ a ≤ b :=
  ⟨fun h => WithTop.coe_le_coe.1 h.2.2, fun h => ⟨coe_ne_nan a, coe_ne_nan b, WithTop.coe_le_coe.2 h⟩⟩

theorem nmPoint_eq_along (x : Sim d) (c : ℝ) : nmPoint x c = along x c := by
  funext k
  simp only [nmPoint, along, centroid, xbar, Pi.add_apply, Pi.smul_apply, Pi.sub_apply, Finset.sum_apply, smul_eq_mul]
  ring

theorem update_eq_replaceWorst (x : Sim d) (y : Vec d) : Function.update x (Fin.last d) y = replaceWorst x y := by
  funext i
  unfold replaceWorst
  by_cases h : i = Fin.last d
  · subst h; simp
  · rw [Function.update_of_ne h, if_neg h]

/-- the values of the state are those of the function at the vertices -/
def Fits (g : Vec d → EReal) (s : NMState d) : Prop := ∀ i, s.fsim i = ((g (s.sim i) : EReal) : WithTop EReal)

theorem setLast_fits {g : Vec d → EReal} {s : NMState d} (h : Fits g s) (x : Vec d) (tr : Trace d) :
    Fits g (setLast s x ((g x : EReal) : WithTop EReal) tr) := by
  intro i
  unfold setLast
  by_cases hi : i = Fin.last d
  · subst hi; simp
  · simp only [Function.update_of_ne hi]; exact h i

theorem shrink_eq (s : NMState d) (f : ℕ → Vec d → FVal) (tr : Trace d) : (nmShrink f s tr).sim = shrunk s.sim := by
  funext i
  refine Fin.cases ?_ (fun j => ?_) i
  · funext k
    simp [nmShrink, shrunk]
  · funext k
    simp only [nmShrink, Fin.cons_succ, shrunk, Pi.add_apply, Pi.smul_apply, Pi.sub_apply, smul_eq_mul]
    norm_num

theorem shrink_fits {g : Vec d → EReal} {s : NMState d} (h : Fits g s) (tr : Trace d) : Fits g (nmShrink (embedFun g) s tr) := by
  intro i
  refine Fin.cases ?_ (fun j => ?_) i
  · simpa [nmShrink] using h 0
  · simp [nmShrink, embedFun]

theorem move_rule {g : Vec d → EReal} {s : NMState d} (h : Fits g s) :
    NelderMeadRule g s.sim (nmMove (embedFun g) s).sim ∧ Fits g (nmMove (embedFun g) s) := by
  have e05 : (0.5 : ℝ) = 1 / 2 := by norm_num
  have e05' : (-(1 / 2) : ℝ) = -1 / 2 := by norm_num
  have h2 : s.fsim (secondLast d) = ((secondWorst g s.sim : EReal) : WithTop EReal) := h _
  unfold nmMove
  simp only [embedFun, nmPoint_eq_along, h 0, h (Fin.last d), h2, coe_lt', coe_le', e05, e05']
  split_ifs with c1 c2 c3 c4 c5 c6
  · exact ⟨by simp only [setLast, update_eq_replaceWorst]; exact .expand c1 c2, setLast_fits h _ _⟩
  · exact ⟨by simp only [setLast, update_eq_replaceWorst]; exact .noExpand c1 (not_lt.1 c2), setLast_fits h _ _⟩
  · exact ⟨by simp only [setLast, update_eq_replaceWorst]; exact .reflect (not_lt.1 c1) c3, setLast_fits h _ _⟩
  · exact ⟨by simp only [setLast, update_eq_replaceWorst]; exact .outside (not_lt.1 c3) c4 c5, setLast_fits h _ _⟩
  · exact ⟨by rw [shrink_eq]; exact .shrinkOutside (not_lt.1 c3) c4 (not_le.1 c5), shrink_fits h _⟩
  · exact ⟨by simp only [setLast, update_eq_replaceWorst]; exact .inside (not_lt.1 c3) (not_lt.1 c4) c6, setLast_fits h _ _⟩
  · exact ⟨by rw [shrink_eq]; exact .shrinkInside (not_lt.1 c3) (not_lt.1 c4) (not_lt.1 c6), shrink_fits h _⟩

theorem sort_copy {g : Vec d → EReal} {argsort : Argsort d} (ha : IsArgsort argsort) {s : NMState d} (h : Fits g s) :
    SortedCopy g s.sim (nmSort argsort s).sim ∧ Fits g (nmSort argsort s) := by
  refine ⟨⟨argsort s.fsim, rfl, fun i j hij => ?_⟩, fun i => h _⟩
  have := ha s.fsim hij
  simp only [Function.comp] at this
  rw [h (argsort s.fsim i), h (argsort s.fsim j)] at this
  exact WithTop.coe_le_coe.1 this

/-- A step of the method and the sorting. -/
def NelderMeadStep (g : Vec d → EReal) (S T : Sim d) : Prop := ∃ Y, NelderMeadRule g S Y ∧ SortedCopy g Y T

/-- the loop so far -/
structure TextInv (g : Vec d → EReal) (P : NMParams) (sim0 : Sim d) (s : NMState d) (hist : List (Sim d)) : Prop where
  fits : Fits g s
  len : hist.length = s.iterations
  first : ∃ S, hist.head? = some S ∧ SortedCopy g sim0 S
  last : hist.getLast? = some s.sim
  chain : hist.IsChain (NelderMeadStep g)
  kept : s.simplexHistory = if P.keepHistory then hist else [s.sim]

theorem textInv_run {g : Vec d → EReal} {argsort : Argsort d} (ha : IsArgsort argsort) (P : NMParams) (sim0 : Sim d) :
    ∃ hist, TextInv g P sim0 (nmRun P argsort (embedFun g) sim0) hist := by
  unfold nmRun
  refine nmLoop_induct (fun s => ∃ hist, TextInv g P sim0 s hist) ?_ _ ?_
  · rintro s ⟨hist, hi⟩ -
    obtain ⟨hm, hf⟩ := move_rule hi.fits
    obtain ⟨hs, hf'⟩ := sort_copy ha hf
    have hhist : (nmSort argsort (nmMove (embedFun g) s)).simplexHistory = s.simplexHistory := by
      have : (nmMove (embedFun g) s).simplexHistory = s.simplexHistory := by
        unfold nmMove
        simp only
        split_ifs <;> rfl
      simpa [nmSort] using this
    refine ⟨hist ++ [(nmIter P argsort (embedFun g) s).sim], hf', ?_, ?_, by simp, ?_, ?_⟩
    · rw [List.length_append, hi.len]
      simp [nmIter, nmSort, nmMove_iterations]
    · obtain ⟨S, h1, h2⟩ := hi.first
      refine ⟨S, ?_, h2⟩
      cases hist with
      | nil => cases h1
      | cons a l => exact h1
    · rw [List.isChain_append]
      refine ⟨hi.chain, by simp, ?_⟩
      intro x hx y hy
      rw [hi.last] at hx
      cases hx
      simp only [List.head?_cons, Option.mem_def, Option.some.injEq] at hy
      subst hy
      exact ⟨_, hm, hs⟩
    · simp only [nmIter, hhist, hi.kept]
      by_cases hk : P.keepHistory = true
      · simp [hk]
      · simp [hk]
  · have hf : Fits g (⟨sim0, fun i => embedFun g i (sim0 i), Trace.calls (embedFun g) ⟨0, []⟩ (List.ofFn sim0), 1, [], []⟩ : NMState d) := fun i => rfl
    obtain ⟨hs, hf'⟩ := sort_copy ha hf
    refine ⟨[(nmInit P argsort (embedFun g) sim0).sim], hf', rfl, ⟨_, rfl, hs⟩, rfl, by simp, ?_⟩
    simp [nmInit]

/-- C75.  For every function without NaN (infinite values are allowed), every initial simplex and every option: there is a sequence of `num_iter` simplices, the first one being the initial simplex with its vertices sorted, in which each
simplex follows from the one before by one step of the Nelder-Mead rules and sorting the vertices.  The reported position is the best vertex of the last one; `simplex_history` is this sequence, or its last element if
`keep_history` is false. -/
theorem C75_textbook {g : Vec d → EReal} {P : NMParams} {sim0 : Sim d} {r : MinRes d} {evals : List (Vec d × FVal)}
    (h : IsMinimization P (fun _ x => ((g x : EReal) : WithTop EReal)) sim0 r evals) :
    ∃ hist : List (Sim d), hist.length = r.numIter ∧ (∃ S, hist.head? = some S ∧ SortedCopy g sim0 S) ∧
      hist.IsChain (fun S T => ∃ Y, NelderMeadRule g S Y ∧ SortedCopy g Y T) ∧
      ∃ S, hist.getLast? = some S ∧ r.pos = S 0 ∧ r.simplexHistory = if P.keepHistory then hist else [S] := by
  obtain ⟨argsort, ha, rfl, rfl⟩ := h
  obtain ⟨hist, hi⟩ := textInv_run (g := g) ha P sim0
  exact ⟨hist, hi.len, hi.first, hi.chain, _, hi.last, rfl, hi.kept⟩

/-- C75 (the rules are deterministic): at most one rule applies to a simplex, and one does. -/
theorem C75_rules_exclusive (g : Vec d → EReal) (x : Sim d) (hx : Monotone fun i => g (x i)) : ∃! y, NelderMeadRule g x y := by
  have h0 : g (x 0) ≤ secondWorst g x := hx (Fin.zero_le _)
  have h1 : secondWorst g x ≤ g (x (Fin.last d)) := hx (Fin.le_last _)
  by_cases c1 : g (along x 1) < g (x 0)
  · by_cases c2 : g (along x 2) < g (along x 1)
    · refine ⟨_, .expand c1 c2, fun y hy => ?_⟩
      cases hy with
      | expand => rfl
      | reflect a _ => exact absurd c1 (not_lt.2 a)
      | noExpand _ b => exact absurd c2 (not_lt.2 b)
      | outside a => exact absurd (lt_of_lt_of_le c1 h0) (not_lt.2 a)
      | inside a => exact absurd (lt_of_lt_of_le c1 h0) (not_lt.2 a)
      | shrinkOutside a => exact absurd (lt_of_lt_of_le c1 h0) (not_lt.2 a)
      | shrinkInside a => exact absurd (lt_of_lt_of_le c1 h0) (not_lt.2 a)
    · refine ⟨_, .noExpand c1 (not_lt.1 c2), fun y hy => ?_⟩
      cases hy with
      | expand _ b => exact absurd b c2
      | reflect a _ => exact absurd c1 (not_lt.2 a)
      | noExpand => rfl
      | outside a => exact absurd (lt_of_lt_of_le c1 h0) (not_lt.2 a)
      | inside a => exact absurd (lt_of_lt_of_le c1 h0) (not_lt.2 a)
      | shrinkOutside a => exact absurd (lt_of_lt_of_le c1 h0) (not_lt.2 a)
      | shrinkInside a => exact absurd (lt_of_lt_of_le c1 h0) (not_lt.2 a)
  · by_cases c2 : g (along x 1) < secondWorst g x
    · refine ⟨_, .reflect (not_lt.1 c1) c2, fun y hy => ?_⟩
      cases hy with
      | expand a => exact absurd a c1
      | reflect => rfl
      | noExpand a => exact absurd a c1
      | outside a => exact absurd c2 (not_lt.2 a)
      | inside a => exact absurd c2 (not_lt.2 a)
      | shrinkOutside a => exact absurd c2 (not_lt.2 a)
      | shrinkInside a => exact absurd c2 (not_lt.2 a)
    · have c2' := not_lt.1 c2
      by_cases c3 : g (along x 1) < g (x (Fin.last d))
      · by_cases c4 : g (along x (1 / 2)) ≤ g (along x 1)
        · refine ⟨_, .outside c2' c3 c4, fun y hy => ?_⟩
          cases hy with
          | expand a => exact absurd a c1
          | reflect _ b => exact absurd b c2
          | noExpand a => exact absurd a c1
          | outside => rfl
          | inside _ b => exact absurd c3 (not_lt.2 b)
          | shrinkOutside _ _ b => exact absurd b (not_lt.2 c4)
          | shrinkInside _ b => exact absurd c3 (not_lt.2 b)
        · refine ⟨_, .shrinkOutside c2' c3 (not_le.1 c4), fun y hy => ?_⟩
          cases hy with
          | expand a => exact absurd a c1
          | reflect _ b => exact absurd b c2
          | noExpand a => exact absurd a c1
          | outside _ _ b => exact absurd b c4
          | inside _ b => exact absurd c3 (not_lt.2 b)
          | shrinkOutside => rfl
          | shrinkInside => rfl
      · have c3' := not_lt.1 c3
        by_cases c4 : g (along x (-1 / 2)) < g (x (Fin.last d))
        · refine ⟨_, .inside c2' c3' c4, fun y hy => ?_⟩
          cases hy with
          | expand a => exact absurd a c1
          | reflect _ b => exact absurd b c2
          | noExpand a => exact absurd a c1
          | outside _ b => exact absurd b c3
          | inside => rfl
          | shrinkOutside _ b => exact absurd b c3
          | shrinkInside _ _ b => exact absurd c4 (not_lt.2 b)
        · refine ⟨_, .shrinkInside c2' c3' (not_lt.1 c4), fun y hy => ?_⟩
          cases hy with
          | expand a => exact absurd a c1
          | reflect _ b => exact absurd b c2
          | noExpand a => exact absurd a c1
          | outside _ b => exact absurd b c3
          | inside _ _ b => exact absurd b c4
          | shrinkOutside => rfl
          | shrinkInside => rfl

/-- Non-vacuity: the run of `NMDemo.step_run` has two simplices, so one step of the rules. -/
example : ∃ r evals, IsMinimization NMDemo.stepParams (fun _ x => (((x 0 : ℝ) : EReal) : WithTop EReal)) NMDemo.sim0 r evals ∧ r.simplexHistory.length = 2 := by
  obtain ⟨r, evals, h⟩ := isMinimization_exists NMDemo.stepParams NMDemo.idFun NMDemo.sim0
  exact ⟨r, evals, h, by rw [(NMDemo.step_run h).2.2.2.2.2.1]; rfl⟩

example : Monotone fun i => (((NMDemo.sim0 i 0 : ℝ)) : EReal) := by
  intro i j hij
  fin_cases i <;> fin_cases j <;> simp_all [NMDemo.sim0, NMDemo.pt]

end NF
