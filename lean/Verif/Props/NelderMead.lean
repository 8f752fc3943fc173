import Verif.Lemmas.NelderMead
import Verif.Spec.NelderMead
import Verif.Lemmas.Elem
import Mathlib.Data.Fin.Tuple.Sort

/-! # C37-C45: the minimization -/

noncomputable section
open Classical
namespace NF
open Spec

variable {d : ℕ}

/-- Sorting exists, so minimizations exist. -/
theorem isMinimization_exists (P : NMParams) (f : ℕ → Vec d → FVal) (sim0 : Sim d) : ∃ r evals, IsMinimization P f sim0 r evals :=
  ⟨_, _, fun v => Tuple.sort v, fun v => Tuple.monotone_sort v, rfl, rfl⟩

/-- `num_fev` is the number of calls, and `evals` lists them: the `k`-th entry has the value returned by the `k`-th call. -/
theorem C37_calls_recorded (hd : 1 ≤ d) {P : NMParams} {f : ℕ → Vec d → FVal} {sim0 : Sim d} {r : MinRes d} {evals : List (Vec d × FVal)}
    (h : IsMinimization P f sim0 r evals) :
    evals.length = r.numFev ∧ ∀ k x v, evals[k]? = some (x, v) → v = f k x := by
  obtain ⟨argsort, ha, rfl, rfl⟩ := h
  exact (nmInv_run hd ha f P sim0).ok

/-- **C37**: unless it is NaN, the reported value is the value that the function returned in some call with exactly the reported position. -/
theorem C37_value_at_position (hd : 1 ≤ d) {P : NMParams} {f : ℕ → Vec d → FVal} {sim0 : Sim d} {r : MinRes d} {evals : List (Vec d × FVal)}
    (h : IsMinimization P f sim0 r evals) (hn : r.value ≠ FVal.nan) :
    ∃ k < r.numFev, evals[k]? = some (r.pos, r.value) ∧ r.value = f k r.pos := by
  obtain ⟨argsort, ha, rfl, rfl⟩ := h
  have hi := nmInv_run hd ha f P sim0
  have e : (rootNelderMead P argsort f sim0).value = (nmRun P argsort f sim0).fsim 0 := by
    have : npMin (nmRun P argsort f sim0).fsim ≠ FVal.nan := hn
    change npMin (nmRun P argsort f sim0).fsim = _
    rw [npMin_eq hi.sorted] at this ⊢
    split at this
    · exact absurd rfl this
    · rename_i h; rw [if_neg h]
  rw [e]
  exact mem_evals_iff hi.ok (hi.verts 0)

/-- C37 for a pure function: the reported value is its value at the reported position. -/
theorem C37_value_pure (hd : 1 ≤ d) {P : NMParams} {g : Vec d → FVal} {sim0 : Sim d} {r : MinRes d} {evals : List (Vec d × FVal)}
    (h : IsMinimization P (fun _ => g) sim0 r evals) (hn : r.value ≠ FVal.nan) : r.value = g r.pos := by
  obtain ⟨k, -, -, hk⟩ := C37_value_at_position hd h hn
  exact hk

/-- Even if the reported value is NaN, the reported position has been evaluated, and was the best vertex. -/
theorem C37_position_evaluated (hd : 1 ≤ d) {P : NMParams} {f : ℕ → Vec d → FVal} {sim0 : Sim d} {r : MinRes d} {evals : List (Vec d × FVal)}
    (h : IsMinimization P f sim0 r evals) : ∃ k < r.numFev, ∃ v, evals[k]? = some (r.pos, v) := by
  obtain ⟨argsort, ha, rfl, rfl⟩ := h
  have hi := nmInv_run hd ha f P sim0
  obtain ⟨k, hk, h1, -⟩ := mem_evals_iff hi.ok (hi.verts 0)
  exact ⟨k, hk, _, h1⟩

/-! ## C38 -/

/-- **C38**: the entries of the value history are sorted (NaN last), and the best value does not increase from one entry to any later one. -/
theorem C38_history_monotone (hd : 1 ≤ d) {P : NMParams} {f : ℕ → Vec d → FVal} {sim0 : Sim d} {r : MinRes d}
    {evals : List (Vec d × FVal)} (h : IsMinimization P f sim0 r evals) {hist : List (Fin (d + 1) → FVal)} (hh : r.funHistory = some hist) :
    (∀ F ∈ hist, Monotone F) ∧ hist.Pairwise (fun F F' => F' 0 ≤ F 0) := by
  obtain ⟨argsort, ha, rfl, rfl⟩ := h
  have hi := nmInv_run hd ha f P sim0
  have hk : P.keepHistory = true ∧ (nmRun P argsort f sim0).funHistory = hist := by
    change (if P.keepHistory then some (nmRun P argsort f sim0).funHistory else none) = some hist at hh
    split at hh
    · exact ⟨‹_›, Option.some.inj hh⟩
    · cases hh
  refine ⟨fun F hF => ?_, hk.2 ▸ hi.desc⟩
  rw [← hk.2] at hF
  have := hi.pairs hk.1
  clear hh
  obtain ⟨n, hn, rfl⟩ := List.getElem_of_mem hF
  exact ((List.forall₂_iff_get.1 this).2 n (this.length_eq ▸ hn) hn).1

/-- **C38**: unless it is NaN, the reported value is at most the value of every initial vertex (in numpy's order: NaN is above everything). -/
theorem C38_improves_initial (hd : 1 ≤ d) {P : NMParams} {f : ℕ → Vec d → FVal} {sim0 : Sim d} {r : MinRes d}
    {evals : List (Vec d × FVal)} (h : IsMinimization P f sim0 r evals) (hn : r.value ≠ FVal.nan) (i : Fin (d + 1)) :
    r.value ≤ f i (sim0 i) := by
  obtain ⟨argsort, ha, rfl, rfl⟩ := h
  have hi := nmInv_run hd ha f P sim0
  have : npMin (nmRun P argsort f sim0).fsim ≠ FVal.nan := hn
  change npMin (nmRun P argsort f sim0).fsim ≤ _
  rw [npMin_eq hi.sorted] at this ⊢
  split at this
  · exact absurd rfl this
  · rename_i h; rw [if_neg h]; exact hi.init i

/-- C38, stronger: if the function never returned NaN, the reported value is the least of all values that it returned. -/
theorem C38_best_of_all_calls (hd : 1 ≤ d) {P : NMParams} {f : ℕ → Vec d → FVal} {sim0 : Sim d} {r : MinRes d}
    {evals : List (Vec d × FVal)} (h : IsMinimization P f sim0 r evals) (hn : ∀ q ∈ evals, q.2 ≠ FVal.nan) :
    (r.pos, r.value) ∈ evals ∧ ∀ q ∈ evals, r.value ≤ q.2 := by
  obtain ⟨argsort, ha, rfl, rfl⟩ := h
  have hi := nmInv_run hd ha f P sim0
  have e : (rootNelderMead P argsort f sim0).value = (nmRun P argsort f sim0).fsim 0 := by
    change npMin (nmRun P argsort f sim0).fsim = _
    rw [npMin_eq hi.sorted, if_neg (hn _ (hi.verts _))]
  rw [e]
  exact ⟨hi.verts 0, hi.best hn⟩

/-! ## C39 -/

/-- **C39**: `success` exactly for status 0; status 1 exactly if `num_fev` reached its limit; status 2 exactly if only `num_iter` did. -/
theorem C39_status (P : NMParams) (f : ℕ → Vec d → FVal) (sim0 : Sim d) {r : MinRes d} {evals : List (Vec d × FVal)}
    (h : IsMinimization P f sim0 r evals) :
    (r.success = true ↔ r.status = 0) ∧ r.status ≤ 3 ∧
    (r.status = 1 ↔ P.fevLimit d ≤ r.numFev) ∧
    (r.status = 2 ↔ r.numFev < P.fevLimit d ∧ P.iterLimit d ≤ r.numIter) := by
  obtain ⟨argsort, ha, rfl, rfl⟩ := h
  refine ⟨by simp [rootNelderMead, nmResult], ?_, ?_, ?_⟩
  all_goals
    simp only [rootNelderMead, nmResult, nmStatus]
    split_ifs <;> simp_all

theorem fprimeEstimate_eq (S : Sim d) (v : FVal) : fprimeEstimate S v = v.divReal (longestEdge S) := by
  unfold fprimeEstimate longestEdge
  congr 1
  have hmono : Monotone Real.sqrt := fun _ _ h => Real.sqrt_le_sqrt h
  have := Finset.apply_sup'_eq_sup'_comp (s := (Finset.univ : Finset (Fin (d + 1) × Fin (d + 1)))) Finset.univ_nonempty
    (f := fun ij => ∑ k, (S ij.2 k - S ij.1 k) ^ 2) Real.sqrt (fun a b => hmono.map_sup a b)
  rw [this]
  refine Finset.sup'_congr _ rfl fun ij _ => ?_
  simp only [Function.comp, Spec.eucl]
  congr 1
  exact Finset.sum_congr rfl fun k _ => by ring

/-- **C39**: if `success`, and either no derivative cutoff is used or the function never returned NaN, then the final simplex `S` (with values `F`, each of which
the function returned at that vertex) has extent at most `xtol` and value spread at most `ftol`; its first vertex and value
are reported; no limit was reached; and the value divided by the longest edge is not above the derivative cutoff. -/
theorem C39_success_converged (hd : 1 ≤ d) {P : NMParams} {f : ℕ → Vec d → FVal} {sim0 : Sim d} {r : MinRes d}
    {evals : List (Vec d × FVal)} (h : IsMinimization P f sim0 r evals) (hs : r.success = true)
    (hc : P.fprimeCutoff = none ∨ ∀ q ∈ evals, q.2 ≠ FVal.nan) :
    ∃ (S : Sim d) (F : Fin (d + 1) → FVal), r.simplexHistory.getLast? = some S ∧
      (∀ hist, r.funHistory = some hist → hist.getLast? = some F) ∧
      (∀ i, (S i, F i) ∈ evals) ∧ S 0 = r.pos ∧ F 0 = r.value ∧
      (∀ i k, |S i k - r.pos k| ≤ P.xtol) ∧ (∀ i, i ≠ 0 → Within P.ftol r.value (F i)) ∧
      r.numFev < P.fevLimit d ∧ r.numIter < P.iterLimit d ∧
      ∀ c, P.fprimeCutoff = some c → ¬ FVal.gt (r.value.divReal (longestEdge S)) (FVal.ofReal c) := by
  obtain ⟨argsort, ha, rfl, rfl⟩ := h
  have hi := nmInv_run hd ha f P sim0
  have hexit := nmLoop_exit P argsort f (nmInit P argsort f sim0)
  change ¬ nmContinue P (nmRun P argsort f sim0) at hexit
  set s := nmRun P argsort f sim0 with hsdef
  have hst : nmStatus P s = 0 := by simpa [rootNelderMead, nmResult] using hs
  unfold nmStatus at hst
  split_ifs at hst with h1 h2 h3
  have hcont : fprimeExceeded P s.sim (s.fsim 0) ∨ nmConverged P s := by
    by_contra hh
    push Not at hh
    exact hexit ⟨by omega, by omega, hh.1, hh.2⟩
  have hconv : nmConverged P s ∧ npMin s.fsim = s.fsim 0 := by
    rcases hc with hc | hc
    · rcases hcont with h | h
      · rw [fprimeExceeded, hc] at h; exact h.elim
      · refine ⟨h, ?_⟩
        rw [npMin_eq hi.sorted, if_neg]
        intro hnan
        obtain ⟨n, rfl⟩ : ∃ n, d = n + 1 := ⟨d - 1, by omega⟩
        have := h.2 (Fin.last n)
        rw [Fin.succ_last, hnan] at this
        have e : FVal.absDiff (s.fsim 0) FVal.nan = FVal.nan := by
          unfold FVal.absDiff FVal.nan
          cases s.fsim 0 <;> rfl
        rw [e] at this
        exact this.1 rfl
    · have e : npMin s.fsim = s.fsim 0 := by rw [npMin_eq hi.sorted, if_neg (hc _ (hi.verts _))]
      rw [e] at h3
      exact ⟨hcont.resolve_left h3, e⟩
  obtain ⟨⟨hx, hf⟩, he⟩ := hconv
  refine ⟨s.sim, s.fsim, hi.simLast, ?_, hi.verts, rfl, he.symm, ?_, ?_, by simpa [rootNelderMead, nmResult] using h1,
    by simpa [rootNelderMead, nmResult] using h2, ?_⟩
  · intro hist hh
    change (if P.keepHistory then some s.funHistory else none) = some hist at hh
    split at hh
    · rw [← Option.some.inj hh]; exact hi.funLast ‹_›
    · cases hh
  · intro i k
    change |s.sim i k - s.sim 0 k| ≤ _
    refine Fin.cases ?_ (fun j => hx j k) i
    rw [sub_self, abs_zero]
    exact (abs_nonneg _).trans (hx ⟨0, hd⟩ k)
  · intro i hi0
    obtain ⟨j, rfl⟩ := Fin.exists_succ_eq.2 hi0
    change Within _ (npMin s.fsim) _
    rw [he]
    exact hf j
  · intro c hc'
    have := h3
    rw [fprimeExceeded, hc'] at this
    simp only at this
    rw [fprimeEstimate_eq] at this
    exact this

/-! ## C40 -/

/-- **C40**: `num_iter` is at most `maxiter` (at most 1 if `maxiter = 0`), `num_fev` exceeds `maxfev` by at most `N + 1`, and is at
least `N + 1`; each iteration after the first makes between 1 and `N + 2` calls. -/
theorem C40_limits (hd : 1 ≤ d) {P : NMParams} {f : ℕ → Vec d → FVal} {sim0 : Sim d} {r : MinRes d}
    {evals : List (Vec d × FVal)} (h : IsMinimization P f sim0 r evals) :
    1 ≤ r.numIter ∧ r.numIter ≤ max 1 (P.maxiter.getD (d * 200)) ∧
    d + 1 ≤ r.numFev ∧ r.numFev ≤ P.maxfev.getD (d * 200) + (d + 1) ∧
    d + 1 + (r.numIter - 1) ≤ r.numFev ∧ r.numFev ≤ d + 1 + (r.numIter - 1) * (d + 2) := by
  obtain ⟨argsort, ha, rfl, rfl⟩ := h
  have hi := nmInv_run hd ha f P sim0
  have hl : (nmRun P argsort f sim0).iterations ≤ max 1 (P.iterLimit d) ∧
      (nmRun P argsort f sim0).tr.ncalls ≤ P.fevLimit d + (d + 1) := by
    refine nmLoop_induct (fun s => s.iterations ≤ max 1 (P.iterLimit d) ∧ s.tr.ncalls ≤ P.fevLimit d + (d + 1))
      (fun s hs hc => ?_) _ ⟨?_, ?_⟩
    · have h1 := nmIter_spec hd ha f P s
      have h2 := hc.1
      have h3 := hc.2.1
      have h4 := h1.calls.2
      refine ⟨?_, ?_⟩
      · rw [h1.iters]; omega
      · omega
    · simp [nmInit, nmSort]
    · simp [nmInit, nmSort, ncalls_calls]
  have h1 := hi.callsLower
  have h3 := hi.iters
  refine ⟨hi.iters, hl.1, ?_, hl.2, hi.callsLower, hi.callsUpper⟩
  change d + 1 ≤ (nmRun P argsort f sim0).tr.ncalls
  omega

/-- **C40**: whatever the function returns (also NaN and infinity), however large the limits are, and however numpy orders equal values, the
minimization ends with a result. -/
theorem C40_terminates (P : NMParams) (f : ℕ → Vec d → FVal) (sim0 : Sim d) :
    (∃ r evals, IsMinimization P f sim0 r evals) ∧ ∀ fake : Option (ℕ → Vec d → FVal), ∃ r, IsTwoStep P f fake sim0 r :=
  ⟨isMinimization_exists P f sim0, fun _ => ⟨_, fun v => Tuple.sort v, fun v => Tuple.monotone_sort v, rfl⟩⟩

/-! ## C41 -/

/-- **C41** (`keep_history=True`): both histories have `num_iter` entries; the first is the initial simplex with its values, sorted; the
last simplex has the reported position as first vertex; and all values in the history are those that the function
returned at the corresponding vertex. -/
theorem C41_history (hd : 1 ≤ d) {P : NMParams} {f : ℕ → Vec d → FVal} {sim0 : Sim d} {r : MinRes d}
    {evals : List (Vec d × FVal)} (h : IsMinimization P f sim0 r evals) (hk : P.keepHistory = true) :
    ∃ hist, r.funHistory = some hist ∧ r.simplexHistory.length = r.numIter ∧ hist.length = r.numIter ∧
      (∃ σ : Equiv.Perm (Fin (d + 1)), r.simplexHistory.head? = some (fun i => sim0 (σ i)) ∧
        hist.head? = some (fun i => f (σ i) (sim0 (σ i)))) ∧
      (∃ S, r.simplexHistory.getLast? = some S ∧ S 0 = r.pos) ∧
      (∀ (n : ℕ) (S : Sim d) (F : Fin (d + 1) → FVal), r.simplexHistory[n]? = some S → hist[n]? = some F → ∀ i, (S i, F i) ∈ evals) := by
  obtain ⟨argsort, ha, rfl, rfl⟩ := h
  have hi := nmInv_run hd ha f P sim0
  set s := nmRun P argsort f sim0
  have hp := hi.pairs hk
  have hlen := hi.simLen
  rw [if_pos hk] at hlen
  refine ⟨s.funHistory, by simp [rootNelderMead, nmResult, hk]; rfl, hlen, hp.length_eq ▸ hlen, hi.simFirst hk, ⟨s.sim, hi.simLast, rfl⟩, ?_⟩
  intro n S F hS hF i
  obtain ⟨h1, rfl⟩ := List.getElem?_eq_some_iff.1 hS
  obtain ⟨h2, rfl⟩ := List.getElem?_eq_some_iff.1 hF
  exact (List.forall₂_iff_get.1 hp).2 n h1 h2 |>.2 i

/-- **C41** (`keep_history=False`): only the last simplex is kept, its first vertex is the reported position, and there is no value history. -/
theorem C41_no_history (hd : 1 ≤ d) {P : NMParams} {f : ℕ → Vec d → FVal} {sim0 : Sim d} {r : MinRes d}
    {evals : List (Vec d × FVal)} (h : IsMinimization P f sim0 r evals) (hk : P.keepHistory = false) :
    r.funHistory = none ∧ ∃ S, r.simplexHistory = [S] ∧ S 0 = r.pos ∧ ∀ i, ∃ v, (S i, v) ∈ evals := by
  obtain ⟨argsort, ha, rfl, rfl⟩ := h
  have hi := nmInv_run hd ha f P sim0
  set s := nmRun P argsort f sim0
  have hlen := hi.simLen
  simp only [hk, Bool.false_eq_true, if_false] at hlen
  obtain ⟨S, hS⟩ := List.length_eq_one_iff.1 hlen
  have hl := hi.simLast
  rw [hS] at hl
  obtain rfl : S = s.sim := by simpa using hl
  exact ⟨by simp [rootNelderMead, nmResult, hk], s.sim, hS, rfl, fun i => ⟨_, hi.verts i⟩⟩

/-! ## C42 -/

/-- **C42**: every position at which the function was called, and every vertex of every simplex of the history, is in the affine hull of the
initial vertices. -/
theorem C42_affine_hull (hd : 1 ≤ d) {P : NMParams} {f : ℕ → Vec d → FVal} {sim0 : Sim d} {r : MinRes d}
    {evals : List (Vec d × FVal)} (h : IsMinimization P f sim0 r evals) :
    (∀ q ∈ evals, q.1 ∈ affineSpan ℝ (Set.range sim0)) ∧
    (∀ S ∈ r.simplexHistory, ∀ i, S i ∈ affineSpan ℝ (Set.range sim0)) ∧
    r.pos ∈ affineSpan ℝ (Set.range sim0) := by
  obtain ⟨argsort, ha, rfl, rfl⟩ := h
  have hi := nmInv_run hd ha f P sim0
  refine ⟨hi.hull, fun S hS i => ?_, hi.hull _ (hi.verts 0)⟩
  obtain ⟨v, hv⟩ := hi.simEvals S hS i
  exact hi.hull _ hv

/-! ## C43 -/

theorem finite_of_within {t a b : FVal} (ht : t ≠ FVal.inf) (h : Within t a b) : Finite a ∧ Finite b := by
  unfold Within FVal.le FVal.absDiff at h
  match a, b with
  | none, _ => exact absurd rfl h.1
  | some x, none => exact absurd rfl h.1
  | some x, some y =>
    simp only at h
    have key : ∀ z : EReal, z ≠ ⊤ → z ≠ ⊥ → Finite (some z) := fun z h1 h2 =>
      ⟨z.toReal, by rw [FVal.ofReal, EReal.coe_toReal h1 h2]; rfl⟩
    split_ifs at h with h1 h2
    · exact absurd rfl h.1
    · exfalso
      obtain ⟨-, ht2, ht3⟩ := h
      apply ht
      match t with
      | none => exact absurd rfl ht2
      | some t =>
        have : (⊤ : EReal) ≤ t := WithTop.coe_le_coe.1 ht3
        rw [top_le_iff] at this
        rw [this]
        rfl
    · push Not at h2
      exact ⟨key x h2.1 h2.2.1, key y h2.2.2.1 h2.2.2.2⟩

/-- **C43**: if `ftol` is finite, and no derivative cutoff is used (the default) or the function never returned NaN, then a successful minimization
has only finite values in its final simplex, and the reported value is finite. -/
theorem C43_success_finite (hd : 1 ≤ d) {P : NMParams} {f : ℕ → Vec d → FVal} {sim0 : Sim d} {r : MinRes d}
    {evals : List (Vec d × FVal)} (h : IsMinimization P f sim0 r evals) (hs : r.success = true) (hft : P.ftol ≠ FVal.inf)
    (hc : P.fprimeCutoff = none ∨ ∀ q ∈ evals, q.2 ≠ FVal.nan) :
    Finite r.value ∧ ∃ (S : Sim d) (F : Fin (d + 1) → FVal), r.simplexHistory.getLast? = some S ∧
      (∀ hist, r.funHistory = some hist → hist.getLast? = some F) ∧ (∀ i, (S i, F i) ∈ evals) ∧ ∀ i, Finite (F i) := by
  obtain ⟨S, F, h1, h2, h3, -, h5, -, h7, -⟩ := C39_success_converged hd h hs hc
  have hv : Finite r.value := by
    obtain ⟨n, rfl⟩ : ∃ n, d = n + 1 := ⟨d - 1, by omega⟩
    exact (finite_of_within hft (h7 1 (by simp))).1
  refine ⟨hv, S, F, h1, h2, h3, fun i => ?_⟩
  by_cases hi : i = 0
  · rw [hi, h5]; exact hv
  · exact (finite_of_within hft (h7 i hi)).2

/-! ### Concrete minimizations, in one dimension -/

namespace NMDemo

theorem perm_two (σ : Equiv.Perm (Fin 2)) : σ = 1 ∨ σ = Equiv.swap 0 1 := by
  revert σ; decide

theorem argsort_lt {argsort : Argsort 1} (ha : IsArgsort argsort) {v : Fin 2 → FVal} (h : v 0 < v 1) : argsort v = 1 := by
  rcases perm_two (argsort v) with e | e
  · exact e
  · have := ha v (show (0 : Fin 2) ≤ 1 by decide)
    simp [e] at this
    exact absurd this (not_le.2 h)

theorem argsort_gt {argsort : Argsort 1} (ha : IsArgsort argsort) {v : Fin 2 → FVal} (h : v 1 < v 0) : argsort v = Equiv.swap 0 1 := by
  rcases perm_two (argsort v) with e | e
  · have := ha v (show (0 : Fin 2) ≤ 1 by decide)
    simp [e] at this
    exact absurd this (not_le.2 h)
  · exact e

/-- the point `x` of the line -/
def pt (x : ℝ) : Vec 1 := fun _ => x

/-- the initial simplex: the points 0 and 1 -/
def sim0 : Sim 1 := ![pt 0, pt 1]

theorem ofReal_lt {a b : ℝ} : FVal.ofReal a < FVal.ofReal b ↔ a < b := by
  unfold FVal.ofReal
  rw [WithTop.coe_lt_coe, EReal.coe_lt_coe_iff]

theorem ofReal_ne_nan (a : ℝ) : FVal.ofReal a ≠ FVal.nan := WithTop.coe_ne_top

theorem flt {a b : ℝ} : FVal.lt (FVal.ofReal a) (FVal.ofReal b) ↔ a < b :=
  ⟨fun h => ofReal_lt.1 h.2.2, fun h => ⟨ofReal_ne_nan _, ofReal_ne_nan _, ofReal_lt.2 h⟩⟩

theorem init_eq {P : NMParams} {argsort : Argsort 1} {f : ℕ → Vec 1 → FVal} (ha : IsArgsort argsort)
    (h : f 0 (pt 0) < f 1 (pt 1)) : nmInit P argsort f sim0 =
      ⟨sim0, ![f 0 (pt 0), f 1 (pt 1)], ⟨2, [(pt 0, f 0 (pt 0)), (pt 1, f 1 (pt 1))]⟩, 1, [sim0],
        if P.keepHistory then [![f 0 (pt 0), f 1 (pt 1)]] else []⟩ := by
  have hf : (fun i : Fin 2 => f i (sim0 i)) = ![f 0 (pt 0), f 1 (pt 1)] := by
    funext i; fin_cases i <;> simp [sim0]
  have he : argsort ![f 0 (pt 0), f 1 (pt 1)] = 1 := argsort_lt ha (by simpa using h)
  simp only [nmInit, nmSort, hf, he]
  simp [Trace.calls, Trace.call, List.ofFn_succ, sim0]

/-- parameters: derivative cutoff 1 -/
def cutoffParams : NMParams := ⟨1, FVal.ofReal 1, none, none, some 1, true⟩

/-- a function that is 10 at the first point and NaN elsewhere -/
def nanFun : ℕ → Vec 1 → FVal := fun _ x => if x = pt 0 then FVal.ofReal 10 else FVal.nan

theorem pt_ne : pt 1 ≠ pt 0 := by
  intro h
  have := congrFun h 0
  simp [pt] at this

theorem longestEdge_sim0 : longestEdge sim0 = 1 := by
  have h1 : Spec.eucl (pt 0) (pt 1) = 1 := by simp [Spec.eucl, pt]
  have h2 : Spec.eucl (pt 1) (pt 0) = 1 := by simp [Spec.eucl, pt]
  have h3 : ∀ x, Spec.eucl (pt x) (pt x) = 0 := fun x => by simp [Spec.eucl]
  unfold longestEdge
  apply le_antisymm
  · refine Finset.sup'_le _ _ fun ij _ => ?_
    obtain ⟨i, j⟩ := ij
    fin_cases i <;> fin_cases j <;> simp [sim0, h1, h2, h3]
  · refine le_trans ?_ (Finset.le_sup' _ (Finset.mem_univ ((0 : Fin 2), (1 : Fin 2))))
    simp [sim0, h1]

theorem nan_run {r : MinRes 1} {evals : List (Vec 1 × FVal)} (h : IsMinimization cutoffParams nanFun sim0 r evals) :
    r.success = true ∧ r.value = FVal.nan := by
  obtain ⟨argsort, ha, rfl, rfl⟩ := h
  have hlt : nanFun 0 (pt 0) < nanFun 1 (pt 1) := by
    simp only [nanFun, if_true, pt_ne, if_false]
    exact WithTop.coe_lt_top _
  have hi := init_eq (P := cutoffParams) ha hlt
  have hstop : ¬ nmContinue cutoffParams (nmInit cutoffParams argsort nanFun sim0) := by
    intro hc
    apply hc.2.2.1
    rw [hi]
    simp only [fprimeExceeded, cutoffParams, fprimeEstimate_eq, longestEdge_sim0]
    simp only [nanFun, Matrix.cons_val_zero, if_true]
    have : (FVal.ofReal 10).divReal 1 = FVal.ofReal 10 := by
      simp [FVal.divReal, FVal.ofReal]
    rw [this]
    exact flt.2 (by norm_num)
  have hrun : nmRun cutoffParams argsort nanFun sim0 = nmInit cutoffParams argsort nanFun sim0 := by
    unfold nmRun
    rw [nmLoop, if_neg hstop]
  have hmin : npMin (nmInit cutoffParams argsort nanFun sim0).fsim = FVal.nan := by
    unfold npMin
    rw [if_pos]
    refine ⟨1, ?_⟩
    rw [hi]
    simp [nanFun, pt_ne]
  have hst : nmStatus cutoffParams (nmInit cutoffParams argsort nanFun sim0) = 0 := by
    unfold nmStatus
    rw [hmin]
    have hne : ¬ fprimeExceeded cutoffParams (nmInit cutoffParams argsort nanFun sim0).sim FVal.nan := by
      simp only [fprimeExceeded, cutoffParams]
      intro h
      exact h.2.1 rfl
    rw [if_neg hne, hi]
    simp [cutoffParams, NMParams.fevLimit, NMParams.iterLimit]
  unfold rootNelderMead
  rw [hrun]
  exact ⟨by simp [nmResult, hst], hmin⟩

end NMDemo

/-- C43 fails with a derivative cutoff (a defect of the program): a function that returns 10 at one initial vertex and NaN at the other one gives a "successful"
minimization with value NaN, although the derivative estimate (10, at edge length 1) exceeds the cutoff 1; and whatever the
threshold, the container stores it as a node. -/
theorem C43_nan_success_with_cutoff :
    (∃ r evals, IsMinimization NMDemo.cutoffParams NMDemo.nanFun NMDemo.sim0 r evals) ∧
    ∀ r evals, IsMinimization NMDemo.cutoffParams NMDemo.nanFun NMDemo.sim0 r evals →
      r.success = true ∧ r.value = FVal.nan ∧
      ∀ (cs : CoordSys 1) (g dc : ℝ) (ops : List (ContainerOp 1)), ((history cs g dc ops).addResult (.plain r)).2 = true := by
  refine ⟨isMinimization_exists _ _ _, fun r evals h => ?_⟩
  obtain ⟨h1, h2⟩ := NMDemo.nan_run h
  refine ⟨h1, h2, fun cs g dc ops => ?_⟩
  have hn : ∀ g, IsNode g (SRes.plain r) := fun g => ⟨h1, fun h => by
    change FVal.gt r.value _ at h
    rw [h2] at h
    exact h.2.1 rfl⟩
  rw [Container.addResult_def, if_pos (hn _)]


namespace NMDemo

/-- the function `x ↦ x` -/
def idFun : ℕ → Vec 1 → FVal := fun _ x => FVal.ofReal (x 0)

/-- generous tolerances: the initial simplex is already converged -/
def wideParams : NMParams := ⟨1, FVal.ofReal 1, none, none, none, true⟩

theorem id_init {P : NMParams} {argsort : Argsort 1} (ha : IsArgsort argsort) (hk : P.keepHistory = true) :
    nmInit P argsort idFun sim0 =
      ⟨sim0, ![FVal.ofReal 0, FVal.ofReal 1], ⟨2, [(pt 0, FVal.ofReal 0), (pt 1, FVal.ofReal 1)]⟩, 1, [sim0],
        [![FVal.ofReal 0, FVal.ofReal 1]]⟩ := by
  have := init_eq (P := P) (f := idFun) ha (by simp only [idFun, pt]; exact ofReal_lt.2 (by norm_num))
  rw [this, hk]
  simp [idFun, pt]

/-- non-vacuity of C37, C39, C41 and C43: a successful minimization -/
theorem wide_run {r : MinRes 1} {evals : List (Vec 1 × FVal)} (h : IsMinimization wideParams idFun sim0 r evals) :
    r.success = true ∧ r.value = FVal.ofReal 0 ∧ r.pos = pt 0 ∧ evals = [(pt 0, FVal.ofReal 0), (pt 1, FVal.ofReal 1)] := by
  obtain ⟨argsort, ha, rfl, rfl⟩ := h
  have hi := id_init (P := wideParams) ha rfl
  have hstop : ¬ nmContinue wideParams (nmInit wideParams argsort idFun sim0) := by
    intro hc
    apply hc.2.2.2
    rw [hi]
    refine ⟨fun i k => ?_, fun i => ?_⟩
    · have : i = 0 := Subsingleton.elim _ _
      subst this
      simp [sim0, pt, wideParams]
    · have : i = 0 := Subsingleton.elim _ _
      subst this
      have e : FVal.absDiff (FVal.ofReal 0) (FVal.ofReal 1) = FVal.ofReal 1 := by
        simp only [FVal.ofReal, FVal.absDiff]
        rw [if_neg (by simp), if_neg (by
          rintro (h | h | h | h)
          exacts [EReal.coe_ne_top _ h, EReal.coe_ne_bot _ h, EReal.coe_ne_top _ h, EReal.coe_ne_bot _ h])]
        simp
      simp only [Matrix.cons_val_zero]
      change FVal.le (FVal.absDiff (FVal.ofReal 0) (FVal.ofReal 1)) _
      rw [e]
      exact ⟨ofReal_ne_nan _, ofReal_ne_nan _, le_rfl⟩
  have hrun : nmRun wideParams argsort idFun sim0 = nmInit wideParams argsort idFun sim0 := by
    unfold nmRun
    rw [nmLoop, if_neg hstop]
  have hst : nmStatus wideParams (nmInit wideParams argsort idFun sim0) = 0 := by
    unfold nmStatus
    rw [hi]
    simp [wideParams, NMParams.fevLimit, NMParams.iterLimit, fprimeExceeded]
  have hm : Monotone (nmInit wideParams argsort idFun sim0).fsim := (nmInv_init ha idFun wideParams sim0).sorted
  refine ⟨?_, ?_, ?_, ?_⟩
  · unfold rootNelderMead; rw [hrun]; simp [nmResult, hst]
  · unfold rootNelderMead; rw [hrun]
    change npMin (nmInit wideParams argsort idFun sim0).fsim = _
    rw [npMin_eq hm, hi]
    simp [ofReal_ne_nan, Fin.last]
  · unfold rootNelderMead; rw [hrun]
    change (nmInit wideParams argsort idFun sim0).sim 0 = _
    rw [hi]; rfl
  · rw [hrun, hi]

example : ∃ r evals, IsMinimization wideParams idFun sim0 r evals ∧ r.success = true ∧ Finite r.value := by
  obtain ⟨r, evals, h⟩ := isMinimization_exists wideParams idFun sim0
  exact ⟨r, evals, h, (wide_run h).1, (C43_success_finite le_rfl h (wide_run h).1 (fun h => EReal.coe_ne_top 1 (WithTop.coe_injective h)) (.inl rfl)).1⟩

theorem move_expand {f : ℕ → Vec 1 → FVal} {s : NMState 1} (c1 : FVal.lt (f s.tr.ncalls (nmPoint s.sim 1)) (s.fsim 0))
    (c2 : FVal.lt (f (s.tr.ncalls + 1) (nmPoint s.sim 2)) (f s.tr.ncalls (nmPoint s.sim 1))) :
    nmMove f s = setLast s (nmPoint s.sim 2) (f (s.tr.ncalls + 1) (nmPoint s.sim 2))
      ((s.tr.call f (nmPoint s.sim 1)).call f (nmPoint s.sim 2)) := by
  unfold nmMove
  simp only
  rw [if_pos c1, if_pos]
  · rfl
  · exact c2

/-- narrow tolerances, at most two iterations -/
def stepParams : NMParams := ⟨1/10, FVal.ofReal (1/10), some 2, none, none, true⟩

/-- non-vacuity of C38, C40, C41 and C42: one proper iteration (an expansion step) from the simplex `{0, 1}` to `{-2, 0}` -/
theorem step_run {r : MinRes 1} {evals : List (Vec 1 × FVal)} (h : IsMinimization stepParams idFun sim0 r evals) :
    r.pos = pt (-2) ∧ r.numIter = 2 ∧ r.numFev = 4 ∧ r.status = 2 ∧ r.success = false ∧
    r.simplexHistory = [![pt 0, pt 1], ![pt (-2), pt 0]] ∧ (evals.map Prod.fst) = [pt 0, pt 1, pt (-1), pt (-2)] := by
  obtain ⟨argsort, ha, rfl, rfl⟩ := h
  have hi := id_init (P := stepParams) ha rfl
  have hcont : nmContinue stepParams (nmInit stepParams argsort idFun sim0) := by
    rw [hi]
    refine ⟨by simp [stepParams, NMParams.fevLimit], by simp [stepParams, NMParams.iterLimit], by simp [stepParams, fprimeExceeded], ?_⟩
    intro hc
    have := hc.1 0 0
    simp [sim0, pt, stepParams] at this
    norm_num at this
  have hx : xbar sim0 = pt 0 := by
    funext k
    simp [xbar, sim0, pt]
  have p1 : nmPoint sim0 1 = pt (-1) := by
    funext k; rw [nmPoint, hx]; simp [sim0, pt, Fin.last]
  have p2 : nmPoint sim0 2 = pt (-2) := by
    funext k; rw [nmPoint, hx]; simp [sim0, pt, Fin.last]
  have hmove : nmMove idFun (nmInit stepParams argsort idFun sim0) =
      ⟨![pt 0, pt (-2)], ![FVal.ofReal 0, FVal.ofReal (-2)],
        ⟨4, [(pt 0, FVal.ofReal 0), (pt 1, FVal.ofReal 1), (pt (-1), FVal.ofReal (-1)), (pt (-2), FVal.ofReal (-2))]⟩, 1, [sim0],
        [![FVal.ofReal 0, FVal.ofReal 1]]⟩ := by
    rw [hi]
    have c1 : FVal.lt (idFun 2 (pt (-1))) (FVal.ofReal 0) := by
      simp only [idFun, pt]; exact flt.2 (by norm_num)
    have c2 : FVal.lt (idFun 3 (pt (-2))) (idFun 2 (pt (-1))) := by
      simp only [idFun, pt]; exact flt.2 (by norm_num)
    rw [move_expand]
    rotate_left
    · simp only [p1]; exact c1
    · simp only [p1, p2]; exact c2
    simp only [setLast, NMState.mk.injEq, p1, p2]
    refine ⟨?_, ?_, ?_, trivial, trivial, trivial⟩
    · funext i; fin_cases i <;> simp [sim0, Fin.last, Function.update]
    · funext i; fin_cases i <;> simp [idFun, pt, Fin.last, Function.update]
    · simp [idFun, pt, Trace.call]
  have hsort : argsort ![FVal.ofReal 0, FVal.ofReal (-2)] = Equiv.swap 0 1 :=
    argsort_gt ha (by simp only [Matrix.cons_val_zero, Matrix.cons_val_one]; exact ofReal_lt.2 (by norm_num))
  have hiter : nmIter stepParams argsort idFun (nmInit stepParams argsort idFun sim0) =
      ⟨![pt (-2), pt 0], ![FVal.ofReal (-2), FVal.ofReal 0],
        ⟨4, [(pt 0, FVal.ofReal 0), (pt 1, FVal.ofReal 1), (pt (-1), FVal.ofReal (-1)), (pt (-2), FVal.ofReal (-2))]⟩, 2,
        [sim0, ![pt (-2), pt 0]], [![FVal.ofReal 0, FVal.ofReal 1], ![FVal.ofReal (-2), FVal.ofReal 0]]⟩ := by
    have a1 : (![pt 0, pt (-2)] : Fin 2 → Vec 1) ∘ (Equiv.swap (0 : Fin 2) 1) = ![pt (-2), pt 0] := by
      funext i; fin_cases i <;> simp
    have a2 : (![FVal.ofReal 0, FVal.ofReal (-2)] : Fin 2 → FVal) ∘ (Equiv.swap (0 : Fin 2) 1) = ![FVal.ofReal (-2), FVal.ofReal 0] := by
      funext i; fin_cases i <;> simp
    unfold nmIter
    rw [hmove]
    simp only [nmSort, hsort, stepParams, if_true, a1, a2]
    rfl
  have hrun : nmRun stepParams argsort idFun sim0 = nmIter stepParams argsort idFun (nmInit stepParams argsort idFun sim0) := by
    unfold nmRun
    rw [nmLoop, if_pos hcont, nmLoop, if_neg]
    intro hc
    have := hc.2.1
    rw [hiter] at this
    simp [stepParams, NMParams.iterLimit] at this
  have hst : nmStatus stepParams (nmRun stepParams argsort idFun sim0) = 2 := by
    rw [hrun, hiter]
    simp [nmStatus, stepParams, NMParams.fevLimit, NMParams.iterLimit]
  refine ⟨?_, ?_, ?_, hst, ?_, ?_, ?_⟩
  · simp only [rootNelderMead, nmResult]; rw [hrun, hiter]; rfl
  · simp only [rootNelderMead, nmResult]; rw [hrun, hiter]
  · simp only [rootNelderMead, nmResult]; rw [hrun, hiter]
  · simp [rootNelderMead, nmResult, hst]
  · simp only [rootNelderMead, nmResult]; rw [hrun, hiter]; rfl
  · rw [hrun, hiter]; rfl

example : ∃ r evals, IsMinimization stepParams idFun sim0 r evals ∧ r.numIter = 2 ∧ r.pos ≠ sim0 0 ∧ r.pos ≠ sim0 1 := by
  obtain ⟨r, evals, h⟩ := isMinimization_exists stepParams idFun sim0
  obtain ⟨h1, h2, -⟩ := step_run h
  refine ⟨r, evals, h, h2, ?_, ?_⟩ <;>
  · rw [h1]
    intro h
    have := congrFun h 0
    simp [pt, sim0] at this
    try norm_num at this

/-- NaN except at the points -1 and 2, where it is 0 -/
def holeFun : Vec 1 → FVal := fun x => if x = pt (-1) ∨ x = pt 2 then FVal.ofReal 0 else FVal.nan

theorem pt_inj {a b : ℝ} : pt a = pt b ↔ a = b := ⟨fun h => congrFun h 0, fun h => by rw [h]⟩

theorem hole_nan {x : ℝ} (h1 : x ≠ -1) (h2 : x ≠ 2) : holeFun (pt x) = FVal.nan := by
  unfold holeFun
  rw [if_neg]
  rintro (h | h)
  · exact h1 (pt_inj.1 h)
  · exact h2 (pt_inj.1 h)

theorem not_lt_nan (v : FVal) : ¬ FVal.lt v FVal.nan := fun h => h.2.1 rfl

theorem move_allNan {f : ℕ → Vec 1 → FVal} {s : NMState 1} (h : ∀ i, s.fsim i = FVal.nan) :
    nmMove f s = nmShrink f s ((s.tr.call f (nmPoint s.sim 1)).call f (nmPoint s.sim (-0.5))) := by
  unfold nmMove
  simp only [h]
  rw [if_neg (not_lt_nan _), if_neg (not_lt_nan _), if_neg (not_lt_nan _), if_neg (not_lt_nan _)]

theorem reflect_pts (a b : ℝ) : nmPoint ![pt a, pt b] 1 = pt (2 * a - b) := by
  funext k
  simp [nmPoint, xbar, pt, Fin.last]
  norm_num

theorem hole_run {r : MinRes 1} {evals : List (Vec 1 × FVal)} (h : IsMinimization stepParams (fun _ => holeFun) sim0 r evals) :
    r.value = FVal.nan ∧ ∃ x, (x, FVal.ofReal 0) ∈ evals := by
  obtain ⟨argsort, ha, rfl, rfl⟩ := h
  set f : ℕ → Vec 1 → FVal := fun _ => holeFun with hf
  set s := nmInit stepParams argsort f sim0 with hs
  have hfs : (fun i : Fin 2 => f i (sim0 i)) = fun _ => FVal.nan := by
    funext i; fin_cases i
    · exact hole_nan (x := 0) (by norm_num) (by norm_num)
    · exact hole_nan (x := 1) (by norm_num) (by norm_num)
  have hnan : ∀ i, s.fsim i = FVal.nan := by
    intro i
    change (fun i : Fin 2 => f i (sim0 i)) _ = _
    rw [hfs]
  have htr : s.tr.evals.length = 2 := by
    simp [hs, nmInit, nmSort, Trace.calls, Trace.call, List.ofFn_succ]
  have hnc : s.tr.ncalls = 2 := by
    simp [hs, nmInit, nmSort, Trace.calls, Trace.call, List.ofFn_succ]
  have hsim : s.sim = ![pt 0, pt 1] ∨ s.sim = ![pt 1, pt 0] := by
    change sim0 ∘ argsort (fun i : Fin 2 => f i (sim0 i)) = _ ∨ sim0 ∘ argsort (fun i : Fin 2 => f i (sim0 i)) = _
    rcases perm_two (argsort (fun i : Fin 2 => f i (sim0 i))) with e | e <;> rw [e]
    · left; rfl
    · right; funext i; fin_cases i <;> simp [sim0]
  have hit : s.iterations = 1 := rfl
  have hcont : nmContinue stepParams s := by
    refine ⟨by rw [hnc]; simp [stepParams, NMParams.fevLimit], by rw [hit]; simp [stepParams, NMParams.iterLimit],
      by simp [stepParams, fprimeExceeded], ?_⟩
    intro hc
    have := hc.1 0 0
    rcases hsim with e | e <;> rw [e] at this <;> norm_num [pt, stepParams] at this
  have hmove := move_allNan (f := f) hnan
  have hrun : nmRun stepParams argsort f sim0 = nmIter stepParams argsort f s := by
    unfold nmRun
    rw [nmLoop, if_pos hcont, nmLoop, if_neg]
    intro hc
    have := hc.2.1
    have e : (nmIter stepParams argsort f s).iterations = 2 := by
      simp only [nmIter, nmSort, nmMove_iterations, hit]
    rw [← hs, e] at this
    simp [stepParams, NMParams.iterLimit] at this
  have hm : ∀ i, (nmMove f s).fsim i = FVal.nan := by
    intro i
    rw [hmove]
    unfold nmShrink
    refine Fin.cases ?_ (fun j => ?_) i
    · exact hnan 0
    · simp only [Fin.cons_succ]
      have : (fun k => s.sim 0 k + 0.5 * (s.sim j.succ k - s.sim 0 k)) = pt (1/2) := by
        have : j = 0 := Subsingleton.elim _ _
        subst this
        funext k
        rcases hsim with e | e <;> rw [e] <;> simp [pt] <;> norm_num
      rw [this]
      exact hole_nan (by norm_num) (by norm_num)
  have hrefl : holeFun (nmPoint s.sim 1) = FVal.ofReal 0 := by
    rcases hsim with e | e <;> rw [e, reflect_pts] <;> norm_num [holeFun]
  constructor
  · change npMin (nmRun stepParams argsort f sim0).fsim = _
    rw [hrun]
    unfold npMin
    rw [if_pos]
    exact ⟨0, hm _⟩
  · refine ⟨nmPoint s.sim 1, ?_⟩
    rw [hrun]
    change _ ∈ (nmMove f s).tr.evals
    rw [hmove]
    simp [nmShrink, Trace.calls, Trace.call, List.ofFn_succ, hf, hrefl]

/-- C38, the hypothesis that the function does not return NaN cannot be dropped: here the function is evaluated to 0 at some point, but NaN is
reported (for every way in which equal values are sorted). -/
theorem _root_.NF.C38_nan_loses_best : ∃ (P : NMParams) (g : Vec 1 → FVal) (sim0 : Sim 1),
    (∃ r evals, IsMinimization P (fun _ => g) sim0 r evals) ∧
    ∀ r evals, IsMinimization P (fun _ => g) sim0 r evals → r.value = FVal.nan ∧ ∃ x, (x, FVal.ofReal 0) ∈ evals :=
  ⟨stepParams, holeFun, sim0, isMinimization_exists _ _ _, fun _ _ h => hole_run h⟩

end NMDemo

/-! ## C44 -/

/-- **C44**: with a fake potential, the minimizer runs twice: first on function plus fake potential, without a condition on the spread of the values
(`ftol = inf`), then on the function alone, from the final simplex `S` of the first run, scaled by 1.5 about its best vertex.  The calls of
the function during the second run follow those of the first.  Position, value, success and status are those of the second
run; counts are added and histories concatenated. -/
theorem C44_two_step (hd : 1 ≤ d) {P : NMParams} {f fake : ℕ → Vec d → FVal} {sim0 : Sim d} {r : SRes d}
    (h : IsTwoStep P f (some fake) sim0 r) :
    ∃ (first second : MinRes d) (ev1 ev2 : List (Vec d × FVal)) (S : Sim d),
      IsMinimization { P with ftol := FVal.inf } (fun n x => FVal.add (f n x) (fake n x)) sim0 first ev1 ∧
      first.simplexHistory.getLast? = some S ∧ S 0 = first.pos ∧
      IsMinimization P (fun n => f (first.numFev + n)) (fun i k => first.pos k + 1.5 * (S i k - first.pos k)) second ev2 ∧
      r.pos = second.pos ∧ r.value = second.value ∧ r.success = second.success ∧ r.status = second.status ∧
      r.numFev = first.numFev + second.numFev ∧ r.numIter = first.numIter + second.numIter ∧
      r.simplexHistory = first.simplexHistory ++ second.simplexHistory ∧
      (∀ h1 h2, first.funHistory = some h1 → second.funHistory = some h2 → r.funHistory = .ok (h1 ++ h2)) := by
  obtain ⟨argsort, ha, rfl⟩ := h
  have hi := nmInv_run hd ha (addFakePotential fake f) { P with ftol := FVal.inf } sim0
  set first := rootNelderMead { P with ftol := FVal.inf } argsort (addFakePotential fake f) sim0 with hfirst
  have hlast : first.simplexHistory.getLast? = some (nmRun { P with ftol := FVal.inf } argsort (addFakePotential fake f) sim0).sim := hi.simLast
  have hlD : first.simplexHistory.getLastD sim0 = (nmRun { P with ftol := FVal.inf } argsort (addFakePotential fake f) sim0).sim := by
    rw [List.getLastD_eq_getLast?, hlast]; rfl
  refine ⟨first, rootNelderMead P argsort (fun n => f (first.numFev + n)) (blowup (first.simplexHistory.getLastD sim0)), _, _, _,
    ⟨argsort, ha, rfl, rfl⟩, hlast, rfl, ⟨argsort, ha, ?_, rfl⟩, rfl, rfl, rfl, rfl, rfl, rfl, rfl, ?_⟩
  · rw [hlD]; rfl
  · intro h1 h2 e1 e2
    simp only [runMinimization, SRes.funHistory]
    rw [← hfirst, e1, e2]

/-- **C44**: whether or not a fake potential is used, the reported value (unless NaN) is one that the function itself returned at the
reported position. -/
theorem C44_true_function (hd : 1 ≤ d) {P : NMParams} {f : ℕ → Vec d → FVal} {fake : Option (ℕ → Vec d → FVal)} {sim0 : Sim d} {r : SRes d}
    (h : IsTwoStep P f fake sim0 r) (hn : r.value ≠ FVal.nan) : ∃ k < r.numFev, r.value = f k r.pos := by
  cases fake with
  | some fake =>
    obtain ⟨first, second, ev1, ev2, S, -, -, -, h2, e1, e2, -, -, e5, -⟩ := C44_two_step hd h
    rw [e2] at hn
    obtain ⟨k, hk, -, hv⟩ := C37_value_at_position hd h2 hn
    exact ⟨first.numFev + k, by rw [e5]; omega, by rw [e1, e2]; exact hv⟩
  | none =>
    obtain ⟨argsort, ha, rfl⟩ := h
    obtain ⟨k, hk, -, hv⟩ := C37_value_at_position hd ⟨argsort, ha, rfl, rfl⟩ hn
    exact ⟨k, hk, hv⟩

/-- C44 without a fake potential: the minimizer runs once. -/
theorem C44_no_fake {P : NMParams} {f : ℕ → Vec d → FVal} {sim0 : Sim d} {r : SRes d} (h : IsTwoStep P f none sim0 r) :
    ∃ r0 evals, r = .plain r0 ∧ IsMinimization P f sim0 r0 evals := by
  obtain ⟨argsort, ha, rfl⟩ := h
  exact ⟨_, _, rfl, argsort, ha, rfl, rfl⟩

/-- C43 for both kinds of minimizations, without derivative cutoff or for a function that never returns NaN: success implies a finite value. -/
theorem C43_two_step_finite (hd : 1 ≤ d) {P : NMParams} {f : ℕ → Vec d → FVal} {fake : Option (ℕ → Vec d → FVal)} {sim0 : Sim d} {r : SRes d}
    (h : IsTwoStep P f fake sim0 r) (hs : r.success = true) (hft : P.ftol ≠ FVal.inf)
    (hc : P.fprimeCutoff = none ∨ ∀ n x, f n x ≠ FVal.nan) : Finite r.value := by
  have key : ∀ {P' : NMParams} {f' : ℕ → Vec d → FVal} {sim : Sim d} {r0 : MinRes d} {ev : List (Vec d × FVal)}, IsMinimization P' f' sim r0 ev →
      (∀ n x, f' n x ≠ FVal.nan) → ∀ q ∈ ev, q.2 ≠ FVal.nan := by
    intro P' f' sim r0 ev h2 hn q hq
    obtain ⟨k, hk⟩ := List.mem_iff_getElem?.1 hq
    rw [(C37_calls_recorded hd h2).2 k q.1 q.2 hk]
    exact hn _ _
  cases fake with
  | some fake =>
    obtain ⟨first, second, ev1, ev2, S, -, -, -, h2, e1, e2, e3, -⟩ := C44_two_step hd h
    rw [e2]
    exact (C43_success_finite hd h2 (e3 ▸ hs) hft (hc.imp id fun hn => key h2 fun n x => hn _ x)).1
  | none =>
    obtain ⟨r0, ev, rfl, h2⟩ := C44_no_fake h
    exact (C43_success_finite hd h2 hs hft (hc.imp id fun hn => key h2 hn)).1

/-- non-vacuity of C44 -/
example : ∃ r : SRes 1, IsTwoStep NMDemo.wideParams NMDemo.idFun (some fun _ _ => FVal.ofReal 0) NMDemo.sim0 r :=
  ⟨_, fun v => Tuple.sort v, fun v => Tuple.monotone_sort v, rfl⟩

end NF
