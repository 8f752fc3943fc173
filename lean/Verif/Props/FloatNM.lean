import Verif.Lemmas.FloatNM
import Verif.Spec.FloatNM
import Verif.Props.EndToEnd
import Verif.Props.FloatDistance
import Verif.Props.Volume

/-! # C102: the guarantees of a minimization in floating-point arithmetic -/

noncomputable section
open Classical
namespace NF
open Spec

variable {d : ℕ}

/-- `num_fev` is the number of calls, and `evals` lists them: the `k`-th entry has the value returned by the `k`-th call. -/
theorem C102_calls_recorded {A : FL.Arith d} (hd : 1 ≤ d) {P : NMParams} {f : ℕ → Vec d → FVal} {sim0 : Sim d} {r : MinRes d} {evals : List (Vec d × FVal)}
    (h : IsFloatMinimization A P f sim0 r evals) :
    evals.length = r.numFev ∧ ∀ k x v, evals[k]? = some (x, v) → v = f k x := by
  obtain ⟨argsort, ha, rfl, rfl⟩ := h
  exact (FL.nmInv_run A hd ha f P sim0).ok

/-- **C102** (C37 with rounding): unless it is NaN, the reported value is the value that the function returned in some call with exactly the reported position. -/
theorem C102_value_at_position {A : FL.Arith d} (hd : 1 ≤ d) {P : NMParams} {f : ℕ → Vec d → FVal} {sim0 : Sim d} {r : MinRes d} {evals : List (Vec d × FVal)}
    (h : IsFloatMinimization A P f sim0 r evals) (hn : r.value ≠ FVal.nan) :
    ∃ k < r.numFev, evals[k]? = some (r.pos, r.value) ∧ r.value = f k r.pos := by
  obtain ⟨argsort, ha, rfl, rfl⟩ := h
  have hi := FL.nmInv_run A hd ha f P sim0
  have e : (FL.rootNelderMead A P argsort f sim0).value = (FL.nmRun A P argsort f sim0).fsim 0 := by
    have : npMin (FL.nmRun A P argsort f sim0).fsim ≠ FVal.nan := hn
    change npMin (FL.nmRun A P argsort f sim0).fsim = _
    rw [npMin_eq hi.sorted] at this ⊢
    split at this
    · exact absurd rfl this
    · rename_i h; rw [if_neg h]
  rw [e]
  exact mem_evals_iff hi.ok (hi.verts 0)

/-- C102 (C37 with rounding) for a pure function: the reported value is its value at the reported position. -/
theorem C102_value_pure {A : FL.Arith d} (hd : 1 ≤ d) {P : NMParams} {g : Vec d → FVal} {sim0 : Sim d} {r : MinRes d} {evals : List (Vec d × FVal)}
    (h : IsFloatMinimization A P (fun _ => g) sim0 r evals) (hn : r.value ≠ FVal.nan) : r.value = g r.pos := by
  obtain ⟨k, -, -, hk⟩ := C102_value_at_position hd h hn
  exact hk

/-- Even if the reported value is NaN, the reported position has been evaluated, and was the best vertex. -/
theorem C102_position_evaluated {A : FL.Arith d} (hd : 1 ≤ d) {P : NMParams} {f : ℕ → Vec d → FVal} {sim0 : Sim d} {r : MinRes d} {evals : List (Vec d × FVal)}
    (h : IsFloatMinimization A P f sim0 r evals) : ∃ k < r.numFev, ∃ v, evals[k]? = some (r.pos, v) := by
  obtain ⟨argsort, ha, rfl, rfl⟩ := h
  have hi := FL.nmInv_run A hd ha f P sim0
  obtain ⟨k, hk, h1, -⟩ := mem_evals_iff hi.ok (hi.verts 0)
  exact ⟨k, hk, _, h1⟩

/-- **C102** (C38 with rounding): the entries of the value history are sorted (NaN last), and the best value does not increase from one entry to any later one. -/
theorem C102_history_monotone {A : FL.Arith d} (hd : 1 ≤ d) {P : NMParams} {f : ℕ → Vec d → FVal} {sim0 : Sim d} {r : MinRes d}
    {evals : List (Vec d × FVal)} (h : IsFloatMinimization A P f sim0 r evals) {hist : List (Fin (d + 1) → FVal)} (hh : r.funHistory = some hist) :
    (∀ F ∈ hist, Monotone F) ∧ hist.Pairwise (fun F F' => F' 0 ≤ F 0) := by
  obtain ⟨argsort, ha, rfl, rfl⟩ := h
  have hi := FL.nmInv_run A hd ha f P sim0
  have hk : P.keepHistory = true ∧ (FL.nmRun A P argsort f sim0).funHistory = hist := by
    change (if P.keepHistory then some (FL.nmRun A P argsort f sim0).funHistory else none) = some hist at hh
    split at hh
    · exact ⟨‹_›, Option.some.inj hh⟩
    · cases hh
  refine ⟨fun F hF => ?_, hk.2 ▸ hi.desc⟩
  rw [← hk.2] at hF
  have := hi.pairs hk.1
  clear hh
  obtain ⟨n, hn, rfl⟩ := List.getElem_of_mem hF
  exact ((List.forall₂_iff_get.1 this).2 n (this.length_eq ▸ hn) hn).1

/-- **C102** (C38 with rounding): unless it is NaN, the reported value is at most the value of every initial vertex (in numpy's order: NaN is above everything). -/
theorem C102_improves_initial {A : FL.Arith d} (hd : 1 ≤ d) {P : NMParams} {f : ℕ → Vec d → FVal} {sim0 : Sim d} {r : MinRes d}
    {evals : List (Vec d × FVal)} (h : IsFloatMinimization A P f sim0 r evals) (hn : r.value ≠ FVal.nan) (i : Fin (d + 1)) :
    r.value ≤ f i (sim0 i) := by
  obtain ⟨argsort, ha, rfl, rfl⟩ := h
  have hi := FL.nmInv_run A hd ha f P sim0
  have : npMin (FL.nmRun A P argsort f sim0).fsim ≠ FVal.nan := hn
  change npMin (FL.nmRun A P argsort f sim0).fsim ≤ _
  rw [npMin_eq hi.sorted] at this ⊢
  split at this
  · exact absurd rfl this
  · rename_i h; rw [if_neg h]; exact hi.init i

/-- C102 (C38 with rounding), stronger: if the function never returned NaN, the reported value is the least of all values that it returned. -/
theorem C102_best_of_all_calls {A : FL.Arith d} (hd : 1 ≤ d) {P : NMParams} {f : ℕ → Vec d → FVal} {sim0 : Sim d} {r : MinRes d}
    {evals : List (Vec d × FVal)} (h : IsFloatMinimization A P f sim0 r evals) (hn : ∀ q ∈ evals, q.2 ≠ FVal.nan) :
    (r.pos, r.value) ∈ evals ∧ ∀ q ∈ evals, r.value ≤ q.2 := by
  obtain ⟨argsort, ha, rfl, rfl⟩ := h
  have hi := FL.nmInv_run A hd ha f P sim0
  have e : (FL.rootNelderMead A P argsort f sim0).value = (FL.nmRun A P argsort f sim0).fsim 0 := by
    change npMin (FL.nmRun A P argsort f sim0).fsim = _
    rw [npMin_eq hi.sorted, if_neg (hn _ (hi.verts _))]
  rw [e]
  exact ⟨hi.verts 0, hi.best hn⟩

/-- **C102** (C39 with rounding): `success` exactly for status 0; status 1 exactly if `num_fev` reached its limit; status 2 exactly if only `num_iter` did. -/
theorem C102_status {A : FL.Arith d} (P : NMParams) (f : ℕ → Vec d → FVal) (sim0 : Sim d) {r : MinRes d} {evals : List (Vec d × FVal)}
    (h : IsFloatMinimization A P f sim0 r evals) :
    (r.success = true ↔ r.status = 0) ∧ r.status ≤ 3 ∧
    (r.status = 1 ↔ P.fevLimit d ≤ r.numFev) ∧
    (r.status = 2 ↔ r.numFev < P.fevLimit d ∧ P.iterLimit d ≤ r.numIter) := by
  obtain ⟨argsort, ha, rfl, rfl⟩ := h
  refine ⟨by simp [FL.rootNelderMead, FL.nmResult], ?_, ?_, ?_⟩
  all_goals
    simp only [FL.rootNelderMead, FL.nmResult, FL.nmStatus]
    split_ifs <;> simp_all

/-- The state in which a successful minimization ends. -/
theorem fl_success {A : FL.Arith d} (hd : 1 ≤ d) {P : NMParams} {f : ℕ → Vec d → FVal} {sim0 : Sim d} {r : MinRes d}
    {evals : List (Vec d × FVal)} (h : IsFloatMinimization A P f sim0 r evals) (hs : r.success = true)
    (hc : P.fprimeCutoff = none ∨ ∀ q ∈ evals, q.2 ≠ FVal.nan) :
    ∃ (S : Sim d) (F : Fin (d + 1) → FVal), r.simplexHistory.getLast? = some S ∧
      (∀ hist, r.funHistory = some hist → hist.getLast? = some F) ∧
      (∀ i, (S i, F i) ∈ evals) ∧ S 0 = r.pos ∧ F 0 = r.value ∧
      (∀ (i : Fin d) k, |A.rnd (S i.succ k - r.pos k)| ≤ P.xtol) ∧ (∀ i : Fin d, FVal.le (FL.absDiff A.rnd r.value (F i.succ)) P.ftol) ∧
      r.numFev < P.fevLimit d ∧ r.numIter < P.iterLimit d ∧
      ∀ c, P.fprimeCutoff = some c → ¬ FVal.gt (FL.fprimeEstimate A S r.value) (FVal.ofReal c) := by
  obtain ⟨argsort, ha, rfl, rfl⟩ := h
  have hi := FL.nmInv_run A hd ha f P sim0
  have hexit := FL.nmLoop_exit A P argsort f (nmInit P argsort f sim0)
  change ¬ FL.nmContinue A P (FL.nmRun A P argsort f sim0) at hexit
  set s := FL.nmRun A P argsort f sim0 with hsdef
  have hst : FL.nmStatus A P s = 0 := by simpa [FL.rootNelderMead, FL.nmResult] using hs
  unfold FL.nmStatus at hst
  split_ifs at hst with h1 h2 h3
  have hcont : FL.fprimeExceeded A P s.sim (s.fsim 0) ∨ FL.nmConverged A P s := by
    by_contra hh
    push Not at hh
    exact hexit ⟨by omega, by omega, hh.1, hh.2⟩
  have hconv : FL.nmConverged A P s ∧ npMin s.fsim = s.fsim 0 := by
    rcases hc with hc | hc
    · rcases hcont with h | h
      · rw [FL.fprimeExceeded, hc] at h; exact h.elim
      · refine ⟨h, ?_⟩
        rw [npMin_eq hi.sorted, if_neg]
        intro hnan
        obtain ⟨n, rfl⟩ : ∃ n, d = n + 1 := ⟨d - 1, by omega⟩
        have := h.2 (Fin.last n)
        rw [Fin.succ_last, hnan] at this
        have e : FL.absDiff A.rnd (s.fsim 0) FVal.nan = FVal.nan := by
          unfold FL.absDiff FVal.nan
          cases s.fsim 0 <;> rfl
        rw [e] at this
        exact this.1 rfl
    · have e : npMin s.fsim = s.fsim 0 := by rw [npMin_eq hi.sorted, if_neg (hc _ (hi.verts _))]
      rw [e] at h3
      exact ⟨hcont.resolve_left h3, e⟩
  obtain ⟨⟨hx, hf⟩, he⟩ := hconv
  refine ⟨s.sim, s.fsim, hi.simLast, ?_, hi.verts, rfl, he.symm, hx, ?_, by simpa [FL.rootNelderMead, FL.nmResult] using h1,
    by simpa [FL.rootNelderMead, FL.nmResult] using h2, ?_⟩
  · intro hist hh
    change (if P.keepHistory then some s.funHistory else none) = some hist at hh
    split at hh
    · rw [← Option.some.inj hh]; exact hi.funLast ‹_›
    · cases hh
  · intro i
    change FVal.le (FL.absDiff A.rnd (npMin s.fsim) _) _
    rw [he]
    exact hf i
  · intro c hc'
    have := h3
    rw [FL.fprimeExceeded, hc'] at this
    exact this

theorem abs_le_of_rnd {rnd : ℝ → ℝ} (hr : IsNearest rnd) {x t : ℝ} (h : |rnd x| ≤ t) : |x| ≤ t * (1 + 1 / 2 ^ 52) := by
  have h1 := rel_err hr x
  have h2 : |x| ≤ |rnd x| + |rnd x - x| := by
    have := abs_sub_abs_le_abs_sub x (rnd x)
    rw [abs_sub_comm] at this
    linarith
  have h3 := abs_nonneg x
  have h4 : |x| * (1 - 1 / 2 ^ 53) ≤ t := by linarith
  nlinarith

theorem absDiff_finite {rnd : ℝ → ℝ} {t a b : FVal} (ht : t ≠ FVal.inf) (h : FVal.le (FL.absDiff rnd a b) t) :
    ∃ v w : ℝ, a = FVal.ofReal v ∧ b = FVal.ofReal w ∧ FL.absDiff rnd a b = FVal.ofReal |rnd (v - w)| := by
  unfold FVal.le FL.absDiff at h
  match a, b with
  | none, _ => exact absurd rfl h.1
  | some x, none => exact absurd rfl h.1
  | some x, some y =>
    simp only at h
    split_ifs at h with h1 h2
    · exact absurd rfl h.1
    · exfalso
      obtain ⟨-, ht2, ht3⟩ := h
      apply ht
      match t with
      | none => exact absurd rfl ht2
      | some t =>
        have : (⊤ : EReal) ≤ t := WithTop.coe_le_coe.1 ht3
        rw [top_le_iff] at this
        rw [this]
        rfl
    · push Not at h2
      refine ⟨x.toReal, y.toReal, ?_, ?_, ?_⟩
      · rw [FVal.ofReal, EReal.coe_toReal h2.1 h2.2.1]; rfl
      · rw [FVal.ofReal, EReal.coe_toReal h2.2.2.1 h2.2.2.2]; rfl
      · simp only [FL.absDiff]
        rw [if_neg h1, if_neg (by push Not; exact h2)]

/-- **C102** (success; C39 and C43 with rounding): if `success`, and either no derivative cutoff is used or the function never returned NaN, then the final simplex `S` (with
values `F`, each of which the function returned at that vertex) has extent at most `xtol`, up to a relative error of `2⁻⁵²`; if `ftol` is finite, all its values are finite and differ from
the reported one by at most `ftol`, up to the same error; its first vertex and value are reported; and no limit was reached. -/
theorem C102_success_converged {A : FL.Arith d} (hr : IsNearest A.rnd) (hd : 1 ≤ d) {P : NMParams} {f : ℕ → Vec d → FVal} {sim0 : Sim d} {r : MinRes d}
    {evals : List (Vec d × FVal)} (h : IsFloatMinimization A P f sim0 r evals) (hs : r.success = true)
    (hc : P.fprimeCutoff = none ∨ ∀ q ∈ evals, q.2 ≠ FVal.nan) :
    ∃ (S : Sim d) (F : Fin (d + 1) → FVal), r.simplexHistory.getLast? = some S ∧
      (∀ hist, r.funHistory = some hist → hist.getLast? = some F) ∧
      (∀ i, (S i, F i) ∈ evals) ∧ S 0 = r.pos ∧ F 0 = r.value ∧
      (∀ i k, |S i k - r.pos k| ≤ P.xtol * (1 + 1 / 2 ^ 52)) ∧
      (P.ftol ≠ FVal.inf → ∃ v : ℝ, r.value = FVal.ofReal v ∧ ∀ i, ∃ w : ℝ, F i = FVal.ofReal w ∧ ∀ t, P.ftol = FVal.ofReal t → |v - w| ≤ t * (1 + 1 / 2 ^ 52)) ∧
      r.numFev < P.fevLimit d ∧ r.numIter < P.iterLimit d := by
  obtain ⟨S, F, h1, h2, h3, h4, h5, h6, h7, h8, h9, -⟩ := fl_success hd h hs hc
  refine ⟨S, F, h1, h2, h3, h4, h5, ?_, ?_, h8, h9⟩
  · intro i k
    refine Fin.cases ?_ (fun j => abs_le_of_rnd hr (h6 j k)) i
    rw [h4, sub_self, abs_zero]
    have := (abs_nonneg _).trans (h6 ⟨0, hd⟩ k)
    positivity
  · intro hft
    obtain ⟨v, w0, hv, -, h0⟩ := absDiff_finite hft (h7 ⟨0, hd⟩)
    have hle : ∀ {x t : ℝ}, FVal.le (FVal.ofReal |x|) (FVal.ofReal t) → |x| ≤ t := fun h => by
      have := h.2.2
      unfold FVal.ofReal at this
      rwa [WithTop.coe_le_coe, EReal.coe_le_coe_iff] at this
    refine ⟨v, hv, fun i => ?_⟩
    refine Fin.cases ?_ (fun j => ?_) i
    · refine ⟨v, by rw [h5, hv], fun t ht => ?_⟩
      have := h7 ⟨0, hd⟩
      rw [h0, ht] at this
      have := (abs_nonneg _).trans (hle this)
      rw [sub_self, abs_zero]
      positivity
    · obtain ⟨v', w, hv', hw, hj⟩ := absDiff_finite hft (h7 j)
      have e : v' = v := by
        rw [hv] at hv'
        have := WithTop.coe_injective hv'
        exact_mod_cast this.symm
      subst e
      refine ⟨w, hw, fun t ht => abs_le_of_rnd hr ?_⟩
      have := h7 j
      rw [hj, ht] at this
      exact hle this

/-- **C102** (C40 with rounding): `num_iter` is at most `maxiter` (at most 1 if `maxiter = 0`), `num_fev` exceeds `maxfev` by at most `N + 1`, and is at
least `N + 1`; each iteration after the first makes between 1 and `N + 2` calls. -/
theorem C102_limits {A : FL.Arith d} (hd : 1 ≤ d) {P : NMParams} {f : ℕ → Vec d → FVal} {sim0 : Sim d} {r : MinRes d}
    {evals : List (Vec d × FVal)} (h : IsFloatMinimization A P f sim0 r evals) :
    1 ≤ r.numIter ∧ r.numIter ≤ max 1 (P.maxiter.getD (d * 200)) ∧
    d + 1 ≤ r.numFev ∧ r.numFev ≤ P.maxfev.getD (d * 200) + (d + 1) ∧
    d + 1 + (r.numIter - 1) ≤ r.numFev ∧ r.numFev ≤ d + 1 + (r.numIter - 1) * (d + 2) := by
  obtain ⟨argsort, ha, rfl, rfl⟩ := h
  have hi := FL.nmInv_run A hd ha f P sim0
  have hl : (FL.nmRun A P argsort f sim0).iterations ≤ max 1 (P.iterLimit d) ∧
      (FL.nmRun A P argsort f sim0).tr.ncalls ≤ P.fevLimit d + (d + 1) := by
    refine FL.nmLoop_induct (fun s => s.iterations ≤ max 1 (P.iterLimit d) ∧ s.tr.ncalls ≤ P.fevLimit d + (d + 1))
      (fun s hs hc => ?_) _ ⟨?_, ?_⟩
    · have h1 := FL.nmIter_spec A hd ha f P s
      have h2 := hc.1
      have h3 := hc.2.1
      have h4 := h1.calls.2
      refine ⟨?_, ?_⟩
      · rw [h1.iters]; omega
      · omega
    · simp [nmInit, nmSort]
    · simp [nmInit, nmSort, ncalls_calls]
  have h1 := hi.callsLower
  have h3 := hi.iters
  refine ⟨hi.iters, hl.1, ?_, hl.2, hi.callsLower, hi.callsUpper⟩
  change d + 1 ≤ (FL.nmRun A P argsort f sim0).tr.ncalls
  omega

/-- **C102** (C40 with rounding): whatever the function returns (also NaN and infinity), however large the limits are, and however numpy orders equal values, the
minimization ends with a result. -/
theorem C102_terminates {A : FL.Arith d} (P : NMParams) (f : ℕ → Vec d → FVal) (sim0 : Sim d) :
    (∃ r evals, IsFloatMinimization A P f sim0 r evals) ∧ ∀ fake : Option (ℕ → Vec d → FVal), ∃ r, IsFloatTwoStep A P f fake sim0 r :=
  ⟨⟨_, _, fun v => Tuple.sort v, fun v => Tuple.monotone_sort v, rfl, rfl⟩, fun _ => ⟨_, fun v => Tuple.sort v, fun v => Tuple.monotone_sort v, rfl⟩⟩

/-- **C102** (C41 with rounding) (`keep_history=True`): both histories have `num_iter` entries; the first is the initial simplex with its values, sorted; the
last simplex has the reported position as first vertex; and all values in the history are those that the function
returned at the corresponding vertex. -/
theorem C102_history {A : FL.Arith d} (hd : 1 ≤ d) {P : NMParams} {f : ℕ → Vec d → FVal} {sim0 : Sim d} {r : MinRes d}
    {evals : List (Vec d × FVal)} (h : IsFloatMinimization A P f sim0 r evals) (hk : P.keepHistory = true) :
    ∃ hist, r.funHistory = some hist ∧ r.simplexHistory.length = r.numIter ∧ hist.length = r.numIter ∧
      (∃ σ : Equiv.Perm (Fin (d + 1)), r.simplexHistory.head? = some (fun i => sim0 (σ i)) ∧
        hist.head? = some (fun i => f (σ i) (sim0 (σ i)))) ∧
      (∃ S, r.simplexHistory.getLast? = some S ∧ S 0 = r.pos) ∧
      (∀ (n : ℕ) (S : Sim d) (F : Fin (d + 1) → FVal), r.simplexHistory[n]? = some S → hist[n]? = some F → ∀ i, (S i, F i) ∈ evals) := by
  obtain ⟨argsort, ha, rfl, rfl⟩ := h
  have hi := FL.nmInv_run A hd ha f P sim0
  set s := FL.nmRun A P argsort f sim0
  have hp := hi.pairs hk
  have hlen := hi.simLen
  rw [if_pos hk] at hlen
  refine ⟨s.funHistory, by simp [FL.rootNelderMead, FL.nmResult, hk]; rfl, hlen, hp.length_eq ▸ hlen, hi.simFirst hk, ⟨s.sim, hi.simLast, rfl⟩, ?_⟩
  intro n S F hS hF i
  obtain ⟨h1, rfl⟩ := List.getElem?_eq_some_iff.1 hS
  obtain ⟨h2, rfl⟩ := List.getElem?_eq_some_iff.1 hF
  exact (List.forall₂_iff_get.1 hp).2 n h1 h2 |>.2 i

/-- **C102** (C41 with rounding) (`keep_history=False`): only the last simplex is kept, its first vertex is the reported position, and there is no value history. -/
theorem C102_no_history {A : FL.Arith d} (hd : 1 ≤ d) {P : NMParams} {f : ℕ → Vec d → FVal} {sim0 : Sim d} {r : MinRes d}
    {evals : List (Vec d × FVal)} (h : IsFloatMinimization A P f sim0 r evals) (hk : P.keepHistory = false) :
    r.funHistory = none ∧ ∃ S, r.simplexHistory = [S] ∧ S 0 = r.pos ∧ ∀ i, ∃ v, (S i, v) ∈ evals := by
  obtain ⟨argsort, ha, rfl, rfl⟩ := h
  have hi := FL.nmInv_run A hd ha f P sim0
  set s := FL.nmRun A P argsort f sim0
  have hlen := hi.simLen
  simp only [hk, Bool.false_eq_true, if_false] at hlen
  obtain ⟨S, hS⟩ := List.length_eq_one_iff.1 hlen
  have hl := hi.simLast
  rw [hS] at hl
  obtain rfl : S = s.sim := by simpa using hl
  exact ⟨by simp [FL.rootNelderMead, FL.nmResult, hk], s.sim, hS, rfl, fun i => ⟨_, hi.verts i⟩⟩

/-- **C102** (C44 with rounding): with a fake potential, the minimizer runs twice: first on function plus fake potential, without a condition on the spread of the values
(`ftol = inf`), then on the function alone, from the final simplex `S` of the first run, scaled by 1.5 about its best vertex.  The calls of
the function during the second run follow those of the first.  Position, value, success and status are those of the second
run; counts are added and histories concatenated. -/
theorem C102_two_step {A : FL.Arith d} (hd : 1 ≤ d) {P : NMParams} {f fake : ℕ → Vec d → FVal} {sim0 : Sim d} {r : SRes d}
    (h : IsFloatTwoStep A P f (some fake) sim0 r) :
    ∃ (first second : MinRes d) (ev1 ev2 : List (Vec d × FVal)) (S : Sim d),
      IsFloatMinimization A { P with ftol := FVal.inf } (fun n x => FL.roundFVal A.rnd (FVal.add (f n x) (fake n x))) sim0 first ev1 ∧
      first.simplexHistory.getLast? = some S ∧ S 0 = first.pos ∧
      IsFloatMinimization A P (fun n => f (first.numFev + n)) (fun i k => A.rnd (first.pos k + A.rnd (1.5 * A.rnd (S i k - first.pos k)))) second ev2 ∧
      r.pos = second.pos ∧ r.value = second.value ∧ r.success = second.success ∧ r.status = second.status ∧
      r.numFev = first.numFev + second.numFev ∧ r.numIter = first.numIter + second.numIter ∧
      r.simplexHistory = first.simplexHistory ++ second.simplexHistory ∧
      (∀ h1 h2, first.funHistory = some h1 → second.funHistory = some h2 → r.funHistory = .ok (h1 ++ h2)) := by
  obtain ⟨argsort, ha, rfl⟩ := h
  have hi := FL.nmInv_run A hd ha (FL.addFakePotential A fake f) { P with ftol := FVal.inf } sim0
  set first := FL.rootNelderMead A { P with ftol := FVal.inf } argsort (FL.addFakePotential A fake f) sim0 with hfirst
  have hlast : first.simplexHistory.getLast? = some (FL.nmRun A { P with ftol := FVal.inf } argsort (FL.addFakePotential A fake f) sim0).sim := hi.simLast
  have hlD : first.simplexHistory.getLastD sim0 = (FL.nmRun A { P with ftol := FVal.inf } argsort (FL.addFakePotential A fake f) sim0).sim := by
    rw [List.getLastD_eq_getLast?, hlast]; rfl
  refine ⟨first, FL.rootNelderMead A P argsort (fun n => f (first.numFev + n)) (FL.blowup A (first.simplexHistory.getLastD sim0)), _, _, _,
    ⟨argsort, ha, rfl, rfl⟩, hlast, rfl, ⟨argsort, ha, ?_, rfl⟩, rfl, rfl, rfl, rfl, rfl, rfl, rfl, ?_⟩
  · rw [hlD]; rfl
  · intro h1 h2 e1 e2
    simp only [FL.runMinimization, SRes.funHistory]
    rw [← hfirst, e1, e2]

/-- **C102** (C44 with rounding): whether or not a fake potential is used, the reported value (unless NaN) is one that the function itself returned at the
reported position. -/
theorem C102_true_function {A : FL.Arith d} (hd : 1 ≤ d) {P : NMParams} {f : ℕ → Vec d → FVal} {fake : Option (ℕ → Vec d → FVal)} {sim0 : Sim d} {r : SRes d}
    (h : IsFloatTwoStep A P f fake sim0 r) (hn : r.value ≠ FVal.nan) : ∃ k < r.numFev, r.value = f k r.pos := by
  cases fake with
  | some fake =>
    obtain ⟨first, second, ev1, ev2, S, -, -, -, h2, e1, e2, -, -, e5, -⟩ := C102_two_step hd h
    rw [e2] at hn
    obtain ⟨k, hk, -, hv⟩ := C102_value_at_position hd h2 hn
    exact ⟨first.numFev + k, by rw [e5]; omega, by rw [e1, e2]; exact hv⟩
  | none =>
    obtain ⟨argsort, ha, rfl⟩ := h
    obtain ⟨k, hk, -, hv⟩ := C102_value_at_position hd ⟨argsort, ha, rfl, rfl⟩ hn
    exact ⟨k, hk, hv⟩

/-- C102 (C44 with rounding) without a fake potential: the minimizer runs once. -/
theorem C102_no_fake {A : FL.Arith d} {P : NMParams} {f : ℕ → Vec d → FVal} {sim0 : Sim d} {r : SRes d} (h : IsFloatTwoStep A P f none sim0 r) :
    ∃ r0 evals, r = .plain r0 ∧ IsFloatMinimization A P f sim0 r0 evals := by
  obtain ⟨argsort, ha, rfl⟩ := h
  exact ⟨_, _, rfl, argsort, ha, rfl, rfl⟩


/-! ## Floats, and rounding errors -/

theorem rndSum_float {rnd : ℝ → ℝ} (hr : IsNearest rnd) {l : List ℝ} {a : ℝ} (h : FL.RndSum rnd l a) (h0 : ∀ x ∈ l, IsFloat x) : IsFloat a := by
  induction h with
  | nil => exact isFloat_zero
  | one x => exact h0 x (by simp)
  | add _ _ _ _ _ _ => exact (hr _).1
  | perm _ hp ih => exact ih fun x hx => h0 x (hp.mem_iff.1 hx)

/-- **C102** (positions): if the coordinates of the initial simplex are floats, so are those of every position at which the function is called, and of every vertex of every
simplex in the history. -/
theorem C102_floats {A : FL.Arith d} (hr : IsNearest A.rnd) (hd : 1 ≤ d) {P : NMParams} {f : ℕ → Vec d → FVal} {sim0 : Sim d} {r : MinRes d}
    {evals : List (Vec d × FVal)} (h : IsFloatMinimization A P f sim0 r evals) (h0 : ∀ i k, IsFloat (sim0 i k)) :
    (∀ q ∈ evals, ∀ k, IsFloat (q.1 k)) ∧ (∀ S ∈ r.simplexHistory, ∀ i k, IsFloat (S i k)) ∧ ∀ k, IsFloat (r.pos k) := by
  obtain ⟨argsort, ha, rfl, rfl⟩ := h
  have hi := FL.nmInv_run A hd ha f P sim0
  have key := hi.closed (fun x => ∀ k, IsFloat (x k)) h0 (by
    rintro sim x - (⟨c, -, rfl⟩ | rfl | ⟨j, rfl⟩) k
    exacts [(hr _).1, (hr _).1, (hr _).1])
  refine ⟨key, fun S hS i => ?_, key _ (hi.verts 0)⟩
  obtain ⟨v, hv⟩ := hi.simEvals S hS i
  exact key _ hv

theorem rndSum_err {rnd : ℝ → ℝ} (hr : IsNearest rnd) {l : List ℝ} {a : ℝ} (h : FL.RndSum rnd l a) :
    |a - l.sum| ≤ ((1 + ulp) ^ (l.length - 1) - 1) * (l.map abs).sum := by
  have hu := ulp_pos
  induction h with
  | nil => simp
  | one x => simp
  | @add l l' a b hl hl' _ _ ih ih' =>
    have n1 := List.length_pos_iff.2 hl
    have n2 := List.length_pos_iff.2 hl'
    have eL : (l ++ l').length - 1 = (l.length - 1 + (l'.length - 1)) + 1 := by simp; omega
    have hp : ∀ n m : ℕ, n ≤ m → (1 + ulp) ^ n ≤ (1 + ulp) ^ m := fun n m h => pow_le_pow_right₀ (by linarith) h
    have t1 : 0 ≤ (l.map abs).sum := List.sum_nonneg (by simp)
    have t2 : 0 ≤ (l'.map abs).sum := List.sum_nonneg (by simp)
    rw [eL, List.sum_append, List.map_append, List.sum_append, pow_succ]
    set g := (1 + ulp) ^ (l.length - 1 + (l'.length - 1))
    have e1 : |a - l.sum| ≤ (g - 1) * (l.map abs).sum := ih.trans (mul_le_mul_of_nonneg_right (by linarith [hp (l.length - 1) (l.length - 1 + (l'.length - 1)) (by omega)]) t1)
    have e2 : |b - l'.sum| ≤ (g - 1) * (l'.map abs).sum := ih'.trans (mul_le_mul_of_nonneg_right (by linarith [hp (l'.length - 1) (l.length - 1 + (l'.length - 1)) (by omega)]) t2)
    have hs : ∀ m : List ℝ, |m.sum| ≤ (m.map abs).sum := fun m => by
      induction m with
      | nil => simp
      | cons x m ih => simp only [List.sum_cons, List.map_cons]; exact (abs_add_le _ _).trans (by linarith)
    have e3 := rel_err' hr (a + b)
    have e4 : |a + b| ≤ g * ((l.map abs).sum + (l'.map abs).sum) := by
      have : a + b = (a - l.sum) + (b - l'.sum) + (l.sum + l'.sum) := by ring
      rw [this]
      refine (abs_add_le _ _).trans ?_
      have q1 := abs_add_le (a - l.sum) (b - l'.sum)
      have q2 := abs_add_le l.sum l'.sum
      have q3 := hs l
      have q4 := hs l'
      linarith
    have : rnd (a + b) - (l.sum + l'.sum) = (rnd (a + b) - (a + b)) + ((a - l.sum) + (b - l'.sum)) := by ring
    rw [this]
    refine (abs_add_le _ _).trans ?_
    have q1 := abs_add_le (a - l.sum) (b - l'.sum)
    have q2 := mul_le_mul_of_nonneg_left e4 hu.le
    linarith
  | perm _ hp ih =>
    rw [hp.sum_eq, hp.length_eq, (hp.map abs).sum_eq] at ih
    exact ih

/-- one rounding more, with all errors in units of `ulp * B` -/
theorem rnd_step {rnd : ℝ → ℝ} (hr : IsNearest rnd) {a a' B E M : ℝ} (hB : 0 ≤ B) (h : |a - a'| ≤ E * (ulp * B)) (ha : |a'| ≤ M * B) (hE : E * ulp ≤ 0.2) :
    |rnd a - a'| ≤ (E + M + 0.2) * (ulp * B) := by
  have hu := ulp_pos
  have h1 := rel_err' hr a
  have h2 : |a| ≤ |a - a'| + |a'| := by
    have := abs_add_le (a - a') a'
    rwa [sub_add_cancel] at this
  have h3 := abs_add_le (rnd a - a) (a - a')
  rw [sub_add_sub_cancel] at h3
  have h4 := mul_le_mul_of_nonneg_left h2 hu.le
  have h5 := mul_le_mul_of_nonneg_left (add_le_add h ha) hu.le
  have h6 := mul_le_mul_of_nonneg_right hE (mul_nonneg hu.le hB)
  nlinarith

theorem xbar_err {A : FL.Arith d} (hr : IsNearest A.rnd) (hv : A.Valid) (hd : 1 ≤ d) (hdu : d * ulp ≤ 0.01) {S : Sim d} {k : Fin d} {B : ℝ} (hB : ∀ i, |S i k| ≤ B) :
    |FL.xbar A S k - (∑ i : Fin d, S i.castSucc k) / d| ≤ (2 * d + 1.2) * (ulp * B) ∧ |(∑ i : Fin d, S i.castSucc k) / d| ≤ B := by
  have hu := ulp_pos
  have hB0 : 0 ≤ B := (abs_nonneg _).trans (hB 0)
  have hd0 : (0 : ℝ) < d := by positivity
  have h1 := rndSum_err hr (hv.1 fun i : Fin d => S i.castSucc k)
  rw [List.sum_ofFn, List.length_ofFn, List.map_ofFn, List.sum_ofFn] at h1
  have h2 : ∑ i : Fin d, (abs ∘ fun i : Fin d => S i.castSucc k) i ≤ d * B := by
    refine (Finset.sum_le_sum fun i _ => hB i.castSucc).trans ?_
    simp
  have h0 : 0 ≤ ∑ i : Fin d, (abs ∘ fun i : Fin d => S i.castSucc k) i := Finset.sum_nonneg fun i _ => abs_nonneg _
  have hp := (pow_bounds (d - 1) (by
    have : ((d - 1 : ℕ) : ℝ) ≤ d := by exact_mod_cast Nat.sub_le _ _
    nlinarith)).1
  have hp' : (1 + ulp) ^ (d - 1) - 1 ≤ 2 * d * ulp := by
    have : ((d - 1 : ℕ) : ℝ) ≤ d := by exact_mod_cast Nat.sub_le _ _
    nlinarith
  have h3 : |A.reduce (fun i : Fin d => S i.castSucc k) - ∑ i : Fin d, S i.castSucc k| ≤ 2 * d * ulp * (d * B) :=
    h1.trans (mul_le_mul hp' h2 h0 (by positivity))
  have hm : |(∑ i : Fin d, S i.castSucc k) / d| ≤ B := by
    rw [abs_div, abs_of_pos hd0, div_le_iff₀ hd0]
    refine (Finset.abs_sum_le_sum_abs _ _).trans ?_
    have := h2
    simp only [Function.comp] at this
    linarith
  refine ⟨?_, hm⟩
  have h4 : |A.reduce (fun i : Fin d => S i.castSucc k) / d - (∑ i : Fin d, S i.castSucc k) / d| ≤ (2 * d) * (ulp * B) := by
    rw [← sub_div, abs_div, abs_of_pos hd0, div_le_iff₀ hd0]
    linarith
  have := rnd_step hr hB0 h4 (M := 1) (by simpa using hm) (by linarith)
  refine this.trans (le_of_eq (by ring))

theorem outer_err {A : FL.Arith d} (hr : IsNearest A.rnd) (hv : A.Valid) (hd : 1 ≤ d) (hdu : d * ulp ≤ 0.01) {S : Sim d} {k : Fin d} {B : ℝ} (hB : ∀ i, |S i k| ≤ B)
    {c : ℝ} (c0 : 0 ≤ c) (c2 : c ≤ 2) :
    |FL.nmOuter A S c k - ((1 + c) * ((∑ i : Fin d, S i.castSucc k) / d) - c * S (Fin.last d) k)| ≤ (6 * d + 20) * (ulp * B) := by
  have hu := ulp_pos
  have hu1 := ulp_small
  have hB0 : 0 ≤ B := (abs_nonneg _).trans (hB 0)
  obtain ⟨h1, hm⟩ := xbar_err hr hv hd hdu hB
  have hl := hB (Fin.last d)
  set m := (∑ i : Fin d, S i.castSucc k) / d
  set w := S (Fin.last d) k
  have hw0 := mul_nonneg hu.le hB0
  have d0 : (0 : ℝ) ≤ d := by positivity
  have p1 : |(1 + c) * FL.xbar A S k - (1 + c) * m| ≤ ((1 + c) * (2 * d + 1.2)) * (ulp * B) := by
    rw [← mul_sub, abs_mul, abs_of_nonneg (by linarith), mul_assoc]
    exact mul_le_mul_of_nonneg_left h1 (by linarith)
  have p2 : |(1 + c) * m| ≤ (1 + c) * B := by
    rw [abs_mul, abs_of_nonneg (by linarith)]
    exact mul_le_mul_of_nonneg_left hm (by linarith)
  have p3 := rnd_step hr hB0 p1 p2 (by nlinarith)
  have q2 : |c * w| ≤ c * B := by
    rw [abs_mul, abs_of_nonneg c0]
    exact mul_le_mul_of_nonneg_left hl c0
  have q3 := rnd_step hr hB0 (a := c * w) (a' := c * w) (E := 0) (by simp) q2 (by norm_num)
  have r1 : |(A.rnd ((1 + c) * FL.xbar A S k) - A.rnd (c * w)) - ((1 + c) * m - c * w)| ≤ (((1 + c) * (2 * d + 1.2) + (1 + c) + 0.2) + (c + 0.2)) * (ulp * B) := by
    have : (A.rnd ((1 + c) * FL.xbar A S k) - A.rnd (c * w)) - ((1 + c) * m - c * w) = (A.rnd ((1 + c) * FL.xbar A S k) - (1 + c) * m) - (A.rnd (c * w) - c * w) := by ring
    rw [this]
    refine (abs_sub _ _).trans ?_
    linarith
  have r2 : |(1 + c) * m - c * w| ≤ ((1 + c) + c) * B := by
    refine (abs_sub _ _).trans ?_
    linarith
  have r3 := rnd_step hr hB0 r1 r2 (by nlinarith)
  refine r3.trans (mul_le_mul_of_nonneg_right ?_ hw0)
  nlinarith

theorem inner_err {A : FL.Arith d} (hr : IsNearest A.rnd) (hv : A.Valid) (hd : 1 ≤ d) (hdu : d * ulp ≤ 0.01) {S : Sim d} {k : Fin d} {B : ℝ} (hB : ∀ i, |S i k| ≤ B) :
    |FL.nmInner A S k - (1 / 2 * ((∑ i : Fin d, S i.castSucc k) / d) + 1 / 2 * S (Fin.last d) k)| ≤ (6 * d + 20) * (ulp * B) := by
  have hu := ulp_pos
  have hu1 := ulp_small
  have hB0 : 0 ≤ B := (abs_nonneg _).trans (hB 0)
  obtain ⟨h1, hm⟩ := xbar_err hr hv hd hdu hB
  have hl := hB (Fin.last d)
  set m := (∑ i : Fin d, S i.castSucc k) / d
  set w := S (Fin.last d) k
  have hw0 := mul_nonneg hu.le hB0
  have d0 : (0 : ℝ) ≤ d := by positivity
  have p1 : |0.5 * FL.xbar A S k - 1 / 2 * m| ≤ (1 / 2 * (2 * d + 1.2)) * (ulp * B) := by
    rw [show (0.5 : ℝ) = 1 / 2 by norm_num, ← mul_sub, abs_mul, abs_of_nonneg (by norm_num : (0 : ℝ) ≤ 1 / 2), mul_assoc]
    exact mul_le_mul_of_nonneg_left h1 (by norm_num)
  have p2 : |1 / 2 * m| ≤ 1 / 2 * B := by
    rw [abs_mul, abs_of_nonneg (by norm_num : (0 : ℝ) ≤ 1 / 2)]
    linarith
  have p3 := rnd_step hr hB0 p1 p2 (by linarith)
  have q2 : |1 / 2 * w| ≤ 1 / 2 * B := by
    rw [abs_mul, abs_of_nonneg (by norm_num : (0 : ℝ) ≤ 1 / 2)]
    linarith
  have q3 := rnd_step hr hB0 (a := 0.5 * w) (a' := 1 / 2 * w) (E := 0) (by norm_num) q2 (by norm_num)
  have r1 : |(A.rnd (0.5 * FL.xbar A S k) + A.rnd (0.5 * w)) - (1 / 2 * m + 1 / 2 * w)| ≤ ((1 / 2 * (2 * d + 1.2) + 1 / 2 + 0.2) + (1 / 2 + 0.2)) * (ulp * B) := by
    have : (A.rnd (0.5 * FL.xbar A S k) + A.rnd (0.5 * w)) - (1 / 2 * m + 1 / 2 * w) = (A.rnd (0.5 * FL.xbar A S k) - 1 / 2 * m) + (A.rnd (0.5 * w) - 1 / 2 * w) := by ring
    rw [this]
    refine (abs_add_le _ _).trans ?_
    linarith
  have r2 : |1 / 2 * m + 1 / 2 * w| ≤ 1 * B := by
    refine (abs_add_le _ _).trans ?_
    linarith
  have r3 := rnd_step hr hB0 r1 r2 (by linarith)
  refine r3.trans (mul_le_mul_of_nonneg_right ?_ hw0)
  linarith

theorem scale_err {A : FL.Arith d} (hr : IsNearest A.rnd) {c : ℝ} (c0 : 0 ≤ c) (c2 : c ≤ 1.5) {x0 x : Vec d} {k : Fin d} {B : ℝ} (h0 : |x0 k| ≤ B) (h1 : |x k| ≤ B) :
    |FL.scaleFrom A c x0 x k - (x0 k + c * (x k - x0 k))| ≤ 20 * (ulp * B) := by
  have hu := ulp_pos
  have hu1 := ulp_small
  have hB0 : 0 ≤ B := (abs_nonneg _).trans h0
  have hw0 := mul_nonneg hu.le hB0
  have p2 : |x k - x0 k| ≤ 2 * B := (abs_sub _ _).trans (by linarith)
  have p3 := rnd_step hr hB0 (a := x k - x0 k) (a' := x k - x0 k) (E := 0) (by simp) p2 (by norm_num)
  have q1 : |c * A.rnd (x k - x0 k) - c * (x k - x0 k)| ≤ (c * (0 + 2 + 0.2)) * (ulp * B) := by
    rw [← mul_sub, abs_mul, abs_of_nonneg c0, mul_assoc]
    exact mul_le_mul_of_nonneg_left p3 c0
  have q2 : |c * (x k - x0 k)| ≤ (c * 2) * B := by
    rw [abs_mul, abs_of_nonneg c0, mul_assoc]
    exact mul_le_mul_of_nonneg_left p2 c0
  have q3 := rnd_step hr hB0 q1 q2 (by nlinarith)
  have r1 : |(x0 k + A.rnd (c * A.rnd (x k - x0 k))) - (x0 k + c * (x k - x0 k))| ≤ (c * (0 + 2 + 0.2) + c * 2 + 0.2) * (ulp * B) := by
    rw [add_sub_add_left_eq_sub]
    exact q3
  have r2 : |x0 k + c * (x k - x0 k)| ≤ (1 + c * 2) * B := (abs_add_le _ _).trans (by linarith)
  have r3 := rnd_step hr hB0 r1 r2 (by nlinarith)
  refine r3.trans (mul_le_mul_of_nonneg_right ?_ hw0)
  linarith

/-- **C102** (where the function is called): the first `N + 1` calls are at the vertices of the initial simplex; every other call is at a point which differs, in each coordinate, by at
most `(6 N + 20) 2⁻⁵³` times the largest absolute coordinate of the vertices from an exact trial point of some simplex all of whose vertices have been evaluated before. -/
theorem C102_trial_points {A : FL.Arith d} (hr : IsNearest A.rnd) (hv : A.Valid) (hd : 1 ≤ d) (hdu : (d : ℝ) / 2 ^ 53 ≤ 0.01) {P : NMParams} {f : ℕ → Vec d → FVal} {sim0 : Sim d}
    {r : MinRes d} {evals : List (Vec d × FVal)} (h : IsFloatMinimization A P f sim0 r evals) {n : ℕ} {x : Vec d} {v : FVal} (hn : evals[n]? = some (x, v)) :
    (∃ i : Fin (d + 1), n = i ∧ x = sim0 i) ∨
    ∃ (S : Sim d) (y : Vec d), (∀ i, ∃ m < n, ∃ w, evals[m]? = some (S i, w)) ∧ TrialPoint S y ∧
      ∀ (k : Fin d) (B : ℝ), (∀ i, |S i k| ≤ B) → |x k - y k| ≤ (6 * d + 20) / 2 ^ 53 * B := by
  obtain ⟨argsort, ha, rfl, rfl⟩ := h
  have hi := FL.nmInv_run A hd ha f P sim0
  have hdu' : (d : ℝ) * ulp ≤ 0.01 := by unfold ulp; linarith
  have e : ∀ B : ℝ, (6 * (d : ℝ) + 20) * (ulp * B) = (6 * d + 20) / 2 ^ 53 * B := fun B => by unfold ulp; ring
  rcases hi.order n (x, v) hn with h | ⟨S, hS, (⟨c, hc, hx⟩ | hx | ⟨j, hx⟩)⟩
  · exact .inl h
  · simp only at hx
    rcases hc with rfl | rfl | rfl
    · refine .inr ⟨S, _, hS, .inl rfl, fun k B hB => ?_⟩
      have := outer_err hr hv hd hdu' hB zero_le_one (by norm_num)
      rw [hx, ← e]
      convert this using 3
      ring
    · refine .inr ⟨S, _, hS, .inr (.inl rfl), fun k B hB => ?_⟩
      have := outer_err hr hv hd hdu' hB zero_le_two le_rfl
      rw [hx, ← e]
      convert this using 3
      ring
    · refine .inr ⟨S, _, hS, .inr (.inr (.inl rfl)), fun k B hB => ?_⟩
      have := outer_err hr hv hd hdu' hB (c := 0.5) (by norm_num) (by norm_num)
      rw [hx, ← e]
      convert this using 3
      ring
  · simp only at hx
    refine .inr ⟨S, _, hS, .inr (.inr (.inr (.inl rfl))), fun k B hB => ?_⟩
    rw [hx, ← e]
    exact inner_err hr hv hd hdu' hB
  · simp only at hx
    refine .inr ⟨S, _, hS, .inr (.inr (.inr (.inr ⟨j, rfl⟩))), fun k B hB => ?_⟩
    rw [hx, ← e]
    have := scale_err hr (c := 0.5) (by norm_num) (by norm_num) (hB 0) (hB j)
    have hB0 : 0 ≤ B := (abs_nonneg _).trans (hB 0)
    have hw0 := mul_nonneg ulp_pos.le hB0
    have d0 : (0 : ℝ) ≤ d := by positivity
    rw [show (0.5 : ℝ) = 1 / 2 by norm_num] at this
    have e0 : (0.5 : ℝ) = 1 / 2 := by norm_num
    rw [e0]
    refine this.trans (mul_le_mul_of_nonneg_right (by linarith) hw0)

end NF
