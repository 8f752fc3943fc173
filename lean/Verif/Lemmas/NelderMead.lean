import Verif.Model.NelderMead
import Mathlib.LinearAlgebra.AffineSpace.AffineSubspace.Basic
import Mathlib.Analysis.Convex.Basic
import Mathlib.Analysis.Convex.Combination

/-! # Lemmas about the Nelder-Mead model -/

noncomputable section
open Classical

namespace NF
variable {d : ℕ}

abbrev Argsort (d : ℕ) := (Fin (d + 1) → FVal) → Equiv.Perm (Fin (d + 1))

/-! ## The trace -/

/-- The trace records the calls: the `k`-th entry is the `k`-th call with its value. -/
def TraceOk (f : ℕ → Vec d → FVal) (t : Trace d) : Prop :=
  t.evals.length = t.ncalls ∧ ∀ k x v, t.evals[k]? = some (x, v) → v = f k x

theorem traceOk_call {f : ℕ → Vec d → FVal} {t : Trace d} (h : TraceOk f t) (x : Vec d) : TraceOk f (t.call f x) := by
  refine ⟨by simp [Trace.call, h.1], fun k y v hk => ?_⟩
  simp only [Trace.call] at hk
  rw [List.getElem?_append] at hk
  split at hk
  · exact h.2 k y v hk
  · rename_i hlt
    rw [h.1] at hk hlt
    have : k - t.ncalls = 0 := by
      by_contra hne
      rw [List.getElem?_eq_none (by simp; omega)] at hk
      cases hk
    rw [this] at hk
    simp at hk
    obtain ⟨rfl, rfl⟩ := hk
    have : k = t.ncalls := by omega
    rw [this]

theorem traceOk_calls {f : ℕ → Vec d → FVal} (xs : List (Vec d)) {t : Trace d} (h : TraceOk f t) : TraceOk f (t.calls f xs) := by
  induction xs generalizing t with
  | nil => exact h
  | cons x xs ih => exact ih (traceOk_call h x)

theorem ncalls_calls (f : ℕ → Vec d → FVal) (xs : List (Vec d)) (t : Trace d) : (t.calls f xs).ncalls = t.ncalls + xs.length := by
  induction xs generalizing t with
  | nil => rfl
  | cons x xs ih =>
    have := ih (t.call f x)
    simp only [Trace.calls, List.foldl_cons] at this ⊢
    rw [this]
    simp [Trace.call]
    omega

/-- the pairs (position, value) of a list of calls starting with call number `n` -/
def callPairs (f : ℕ → Vec d → FVal) (n : ℕ) : List (Vec d) → List (Vec d × FVal)
  | [] => []
  | x :: xs => (x, f n x) :: callPairs f (n + 1) xs

theorem evals_calls (f : ℕ → Vec d → FVal) (xs : List (Vec d)) (t : Trace d) :
    (t.calls f xs).evals = t.evals ++ callPairs f t.ncalls xs := by
  induction xs generalizing t with
  | nil => simp [Trace.calls, callPairs]
  | cons x xs ih =>
    have := ih (t.call f x)
    simp only [Trace.calls, List.foldl_cons] at this ⊢
    rw [this]
    simp [Trace.call, callPairs]

theorem mem_callPairs {f : ℕ → Vec d → FVal} {xs : List (Vec d)} {n : ℕ} {q : Vec d × FVal} :
    q ∈ callPairs f n xs ↔ ∃ j, xs[j]? = some q.1 ∧ q.2 = f (n + j) q.1 := by
  induction xs generalizing n with
  | nil => simp [callPairs]
  | cons x xs ih =>
    simp only [callPairs, List.mem_cons, ih]
    constructor
    · rintro (rfl | ⟨j, h1, h2⟩)
      · exact ⟨0, by simp, by simp⟩
      · exact ⟨j + 1, by simpa using h1, by rw [h2]; congr 1; omega⟩
    · rintro ⟨j, h1, h2⟩
      cases j with
      | zero =>
        left
        simp at h1
        ext1
        · exact h1.symm
        · rw [h2, ← h1]; rfl
      | succ j => right; exact ⟨j, by simpa using h1, by rw [h2]; congr 1; omega⟩

theorem mem_callPairs_ofFn {f : ℕ → Vec d → FVal} {m : ℕ} {g : Fin m → Vec d} {n : ℕ} {q : Vec d × FVal} :
    q ∈ callPairs f n (List.ofFn g) ↔ ∃ j : Fin m, q = (g j, f (n + j) (g j)) := by
  rw [mem_callPairs]
  constructor
  · rintro ⟨j, h1, h2⟩
    rw [List.getElem?_ofFn] at h1
    split at h1
    · rename_i hj
      refine ⟨⟨j, hj⟩, ?_⟩
      injection h1 with h1
      ext1
      · exact h1.symm
      · rw [h2, ← h1]
    · cases h1
  · rintro ⟨j, rfl⟩
    exact ⟨j, by simp, rfl⟩

theorem mem_evals_call {f : ℕ → Vec d → FVal} {t : Trace d} {x : Vec d} {q : Vec d × FVal} :
    q ∈ (t.call f x).evals ↔ q ∈ t.evals ∨ q = (x, f t.ncalls x) := by
  simp [Trace.call]

/-! ## The move -/

/-- Points that a move may evaluate: `nmPoint` for one of four coefficients, or a vertex moved towards the first one. -/
def MovePoint (sim : Sim d) (x : Vec d) : Prop :=
  (∃ c : ℝ, x = nmPoint sim c) ∨ ∃ j, x = fun k => sim 0 k + 0.5 * (sim j k - sim 0 k)

/-- What a move does, whichever branch is taken. -/
structure MoveSpec (f : ℕ → Vec d → FVal) (s s' : NMState d) : Prop where
  sim0 : s'.sim 0 = s.sim 0
  fsim0 : s'.fsim 0 = s.fsim 0
  ok : TraceOk f s.tr → TraceOk f s'.tr
  calls : s.tr.ncalls < s'.tr.ncalls ∧ s'.tr.ncalls ≤ s.tr.ncalls + (d + 2)
  old : ∀ q ∈ s.tr.evals, q ∈ s'.tr.evals
  new : ∀ q ∈ s'.tr.evals, q ∈ s.tr.evals ∨ MovePoint s.sim q.1
  verts : ∀ i, (∃ j, s'.sim i = s.sim j ∧ s'.fsim i = s.fsim j) ∨ (s'.sim i, s'.fsim i) ∈ s'.tr.evals
  best : s.fsim (Fin.last d) ≠ FVal.nan → s.fsim 0 ≤ s.fsim (Fin.last d) →
    ∀ q ∈ s'.tr.evals, q ∈ s.tr.evals ∨ ∃ i, s'.fsim i ≤ q.2
  iters : s'.iterations = s.iterations
  hist : s'.simplexHistory = s.simplexHistory ∧ s'.funHistory = s.funHistory

theorem le_of_not_flt {a b : FVal} (hb : b ≠ FVal.nan) (h : ¬ FVal.lt a b) : b ≤ a := by
  by_contra hn
  have := not_le.1 hn
  exact h ⟨ne_top_of_lt this, hb, this⟩

theorem lt_of_not_fle {a b : FVal} (hb : b ≠ FVal.nan) (h : ¬ FVal.le a b) : b < a := by
  by_contra hn
  have h1 := not_lt.1 hn
  exact h ⟨ne_top_of_le_ne_top hb h1, hb, h1⟩

theorem zero_ne_last (hd : 1 ≤ d) : (0 : Fin (d + 1)) ≠ Fin.last d := by
  intro h
  have := congrArg Fin.val h
  simp at this
  omega

theorem setLast_spec {f : ℕ → Vec d → FVal} (hd : 1 ≤ d) {s : NMState d} {x : Vec d} {v : FVal} {tr : Trace d}
    (ok : TraceOk f s.tr → TraceOk f tr) (calls : s.tr.ncalls < tr.ncalls ∧ tr.ncalls ≤ s.tr.ncalls + (d + 2))
    (old : ∀ q ∈ s.tr.evals, q ∈ tr.evals) (new : ∀ q ∈ tr.evals, q ∈ s.tr.evals ∨ MovePoint s.sim q.1)
    (hx : (x, v) ∈ tr.evals)
    (best : s.fsim (Fin.last d) ≠ FVal.nan → s.fsim 0 ≤ s.fsim (Fin.last d) → ∀ q ∈ tr.evals, q ∈ s.tr.evals ∨ v ≤ q.2 ∨ s.fsim 0 ≤ q.2) :
    MoveSpec f s (setLast s x v tr) where
  sim0 := by simp [setLast, Function.update_of_ne (zero_ne_last hd)]
  fsim0 := by simp [setLast, Function.update_of_ne (zero_ne_last hd)]
  ok := ok
  calls := calls
  old := old
  new := new
  verts := fun i => by
    by_cases hi : i = Fin.last d
    · right; subst hi; simpa [setLast] using hx
    · left; exact ⟨i, by simp [setLast, Function.update_of_ne hi], by simp [setLast, Function.update_of_ne hi]⟩
  best := fun h1 h2 q hq => by
    rcases best h1 h2 q hq with h | h | h
    · exact .inl h
    · exact .inr ⟨Fin.last d, by simpa [setLast] using h⟩
    · exact .inr ⟨0, by simpa [setLast, Function.update_of_ne (zero_ne_last hd)] using h⟩
  iters := rfl
  hist := ⟨rfl, rfl⟩

theorem nmShrink_spec {f : ℕ → Vec d → FVal} {s : NMState d} {tr : Trace d}
    (ok : TraceOk f s.tr → TraceOk f tr) (calls : s.tr.ncalls < tr.ncalls ∧ tr.ncalls ≤ s.tr.ncalls + 2)
    (old : ∀ q ∈ s.tr.evals, q ∈ tr.evals) (new : ∀ q ∈ tr.evals, q ∈ s.tr.evals ∨ MovePoint s.sim q.1)
    (best : s.fsim (Fin.last d) ≠ FVal.nan → s.fsim 0 ≤ s.fsim (Fin.last d) → ∀ q ∈ tr.evals, q ∈ s.tr.evals ∨ s.fsim 0 ≤ q.2) :
    MoveSpec f s (nmShrink f s tr) where
  sim0 := by simp [nmShrink]
  fsim0 := by simp [nmShrink]
  ok := fun h => traceOk_calls _ (ok h)
  calls := by
    simp only [nmShrink, ncalls_calls, List.length_ofFn]
    omega
  old := fun q hq => by
    simp only [nmShrink, evals_calls]
    exact List.mem_append_left _ (old q hq)
  new := fun q hq => by
    simp only [nmShrink, evals_calls, List.mem_append, mem_callPairs_ofFn] at hq
    rcases hq with hq | ⟨j, rfl⟩
    · exact new q hq
    · exact .inr (.inr ⟨j.succ, rfl⟩)
  verts := fun i => by
    refine Fin.cases ?_ (fun j => ?_) i
    · exact .inl ⟨0, by simp [nmShrink], by simp [nmShrink]⟩
    · right
      simp only [nmShrink, evals_calls, List.mem_append, mem_callPairs_ofFn, Fin.cons_succ]
      exact .inr ⟨j, rfl⟩
  best := fun h1 h2 q hq => by
    simp only [nmShrink, evals_calls, List.mem_append, mem_callPairs_ofFn] at hq
    rcases hq with hq | ⟨j, rfl⟩
    · rcases best h1 h2 q hq with h | h
      · exact .inl h
      · exact .inr ⟨0, by simpa [nmShrink] using h⟩
    · exact .inr ⟨j.succ, by simp [nmShrink]⟩
  iters := rfl
  hist := ⟨rfl, rfl⟩

theorem nmMove_spec (hd : 1 ≤ d) (f : ℕ → Vec d → FVal) (s : NMState d) : MoveSpec f s (nmMove f s) := by
  unfold nmMove
  simp only
  split_ifs with h1 h2 h3 h4 h5 h6
  · refine setLast_spec hd (fun h => traceOk_call (traceOk_call h _) _) ⟨by simp [Trace.call], by simp [Trace.call]⟩
      (fun q hq => ?_) (fun q hq => ?_) ?_ (fun hn' hl q hq => ?_)
    · simp [mem_evals_call, hq]
    · simp only [mem_evals_call] at hq
      rcases hq with (hq | rfl) | rfl
      exacts [.inl hq, .inr (.inl ⟨_, rfl⟩), .inr (.inl ⟨_, rfl⟩)]
    · simp [mem_evals_call]
    · simp only [mem_evals_call] at hq
      rcases hq with (hq | rfl) | rfl
      exacts [.inl hq, .inr (.inl h2.2.2.le), .inr (.inl le_rfl)]
  · refine setLast_spec hd (fun h => traceOk_call (traceOk_call h _) _) ⟨by simp [Trace.call], by simp [Trace.call]⟩
      (fun q hq => ?_) (fun q hq => ?_) ?_ (fun hn' hl q hq => ?_)
    · simp [mem_evals_call, hq]
    · simp only [mem_evals_call] at hq
      rcases hq with (hq | rfl) | rfl
      exacts [.inl hq, .inr (.inl ⟨_, rfl⟩), .inr (.inl ⟨_, rfl⟩)]
    · simp [mem_evals_call]
    · simp only [mem_evals_call] at hq
      rcases hq with (hq | rfl) | rfl
      exacts [.inl hq, .inr (.inl le_rfl), .inr (.inl (le_of_not_flt h1.1 h2))]
  · refine setLast_spec hd (fun h => traceOk_call h _) ⟨by simp [Trace.call], by simp [Trace.call]⟩
      (fun q hq => ?_) (fun q hq => ?_) ?_ (fun hn' hl q hq => ?_)
    · simp [mem_evals_call, hq]
    · simp only [mem_evals_call] at hq
      rcases hq with hq | rfl
      exacts [.inl hq, .inr (.inl ⟨_, rfl⟩)]
    · simp [mem_evals_call]
    · simp only [mem_evals_call] at hq
      rcases hq with hq | rfl
      exacts [.inl hq, .inr (.inl le_rfl)]
  · refine setLast_spec hd (fun h => traceOk_call (traceOk_call h _) _) ⟨by simp [Trace.call], by simp [Trace.call]⟩
      (fun q hq => ?_) (fun q hq => ?_) ?_ (fun hn' hl q hq => ?_)
    · simp [mem_evals_call, hq]
    · simp only [mem_evals_call] at hq
      rcases hq with (hq | rfl) | rfl
      exacts [.inl hq, .inr (.inl ⟨_, rfl⟩), .inr (.inl ⟨_, rfl⟩)]
    · simp [mem_evals_call]
    · simp only [mem_evals_call] at hq
      rcases hq with (hq | rfl) | rfl
      exacts [.inl hq, .inr (.inr (le_of_not_flt (ne_top_of_le_ne_top hn' hl) h1)), .inr (.inl le_rfl)]
  · refine nmShrink_spec (fun h => traceOk_call (traceOk_call h _) _) ⟨by simp [Trace.call], by simp [Trace.call]⟩
      (fun q hq => ?_) (fun q hq => ?_) (fun hn' hl q hq => ?_)
    · simp [mem_evals_call, hq]
    · simp only [mem_evals_call] at hq
      rcases hq with (hq | rfl) | rfl
      exacts [.inl hq, .inr (.inl ⟨_, rfl⟩), .inr (.inl ⟨_, rfl⟩)]
    · simp only [mem_evals_call] at hq
      rcases hq with (hq | rfl) | rfl
      exacts [.inl hq, .inr (le_of_not_flt (ne_top_of_le_ne_top hn' hl) h1), .inr ((le_of_not_flt (ne_top_of_le_ne_top hn' hl) h1).trans (lt_of_not_fle h4.1 h5).le)]
  · refine setLast_spec hd (fun h => traceOk_call (traceOk_call h _) _) ⟨by simp [Trace.call], by simp [Trace.call]⟩
      (fun q hq => ?_) (fun q hq => ?_) ?_ (fun hn' hl q hq => ?_)
    · simp [mem_evals_call, hq]
    · simp only [mem_evals_call] at hq
      rcases hq with (hq | rfl) | rfl
      exacts [.inl hq, .inr (.inl ⟨_, rfl⟩), .inr (.inl ⟨_, rfl⟩)]
    · simp [mem_evals_call]
    · simp only [mem_evals_call] at hq
      rcases hq with (hq | rfl) | rfl
      exacts [.inl hq, .inr (.inr (le_of_not_flt (ne_top_of_le_ne_top hn' hl) h1)), .inr (.inl le_rfl)]
  · refine nmShrink_spec (fun h => traceOk_call (traceOk_call h _) _) ⟨by simp [Trace.call], by simp [Trace.call]⟩
      (fun q hq => ?_) (fun q hq => ?_) (fun hn' hl q hq => ?_)
    · simp [mem_evals_call, hq]
    · simp only [mem_evals_call] at hq
      rcases hq with (hq | rfl) | rfl
      exacts [.inl hq, .inr (.inl ⟨_, rfl⟩), .inr (.inl ⟨_, rfl⟩)]
    · simp only [mem_evals_call] at hq
      rcases hq with (hq | rfl) | rfl
      · exact .inl hq
      · exact .inr (le_of_not_flt (ne_top_of_le_ne_top hn' hl) h1)
      · right
        exact hl.trans (le_of_not_flt hn' h6)

/-! ## One iteration -/

/-- What an iteration does. -/
structure IterSpec (f : ℕ → Vec d → FVal) (P : NMParams) (s s' : NMState d) : Prop where
  sorted : Monotone s'.fsim
  best0 : s'.fsim 0 ≤ s.fsim 0
  ok : TraceOk f s.tr → TraceOk f s'.tr
  calls : s.tr.ncalls < s'.tr.ncalls ∧ s'.tr.ncalls ≤ s.tr.ncalls + (d + 2)
  old : ∀ q ∈ s.tr.evals, q ∈ s'.tr.evals
  new : ∀ q ∈ s'.tr.evals, q ∈ s.tr.evals ∨ MovePoint s.sim q.1
  verts : ∀ i, (∃ j, s'.sim i = s.sim j ∧ s'.fsim i = s.fsim j) ∨ (s'.sim i, s'.fsim i) ∈ s'.tr.evals
  best : s.fsim (Fin.last d) ≠ FVal.nan → s.fsim 0 ≤ s.fsim (Fin.last d) →
    ∀ q ∈ s'.tr.evals, q ∈ s.tr.evals ∨ s'.fsim 0 ≤ q.2
  iters : s'.iterations = s.iterations + 1
  simHist : s'.simplexHistory = if P.keepHistory then s.simplexHistory ++ [s'.sim] else [s'.sim]
  funHist : s'.funHistory = if P.keepHistory then s.funHistory ++ [s'.fsim] else []

theorem nmIter_spec (hd : 1 ≤ d) {argsort : Argsort d} (ha : IsArgsort argsort) (f : ℕ → Vec d → FVal) (P : NMParams)
    (s : NMState d) : IterSpec f P s (nmIter P argsort f s) := by
  have h := nmMove_spec hd f s
  have hsort := ha (nmMove f s).fsim
  have hmin : ∀ i, (nmIter P argsort f s).fsim 0 ≤ (nmMove f s).fsim i := fun i => by
    have := hsort (Fin.zero_le ((argsort (nmMove f s).fsim).symm i))
    simpa [nmIter, nmSort] using this
  exact {
    sorted := hsort
    best0 := by rw [← h.fsim0]; exact hmin 0
    ok := h.ok
    calls := h.calls
    old := h.old
    new := h.new
    verts := fun i => h.verts (argsort (nmMove f s).fsim i)
    best := fun h1 h2 q hq => by
      rcases h.best h1 h2 q hq with h | ⟨i, hi⟩
      · exact .inl h
      · exact .inr ((hmin i).trans hi)
    iters := by simp [nmIter, nmSort, h.iters]
    simHist := by simp [nmIter, nmSort, h.hist.1]
    funHist := by simp [nmIter, nmSort, h.hist.2] }

/-! ## The loop -/

theorem nmLoop_induct {P : NMParams} {argsort : Argsort d} {f : ℕ → Vec d → FVal} (I : NMState d → Prop)
    (hstep : ∀ s, I s → nmContinue P s → I (nmIter P argsort f s)) (s : NMState d) (hs : I s) :
    I (nmLoop P argsort f s) := by
  induction hn : P.iterLimit d - s.iterations using Nat.strong_induction_on generalizing s with
  | _ n ih =>
    rw [nmLoop]
    split
    · rename_i hc
      refine ih _ ?_ _ (hstep s hs hc) rfl
      have h1 := hc.2.1
      have : (nmIter P argsort f s).iterations = s.iterations + 1 := by simp [nmIter, nmSort, nmMove_iterations]
      omega
    · exact hs

theorem nmLoop_exit (P : NMParams) (argsort : Argsort d) (f : ℕ → Vec d → FVal) (s : NMState d) :
    ¬ nmContinue P (nmLoop P argsort f s) := by
  induction hn : P.iterLimit d - s.iterations using Nat.strong_induction_on generalizing s with
  | _ n ih =>
    rw [nmLoop]
    split
    · rename_i hc
      refine ih _ ?_ _ rfl
      have h1 := hc.2.1
      have : (nmIter P argsort f s).iterations = s.iterations + 1 := by simp [nmIter, nmSort, nmMove_iterations]
      omega
    · assumption

/-! ## Invariants -/

theorem xbar_mem (hd : 1 ≤ d) {A : AffineSubspace ℝ (Vec d)} {sim : Sim d} (h : ∀ i, sim i ∈ A) : xbar sim ∈ A := by
  have hc : Convex ℝ (A : Set (Vec d)) := A.convex
  have hd' : (d : ℝ) ≠ 0 := by positivity
  have := hc.sum_mem (t := Finset.univ) (w := fun _ : Fin d => (1 : ℝ) / d) (z := fun i => sim i.castSucc)
    (fun _ _ => by positivity) (by simp [hd']) (fun i _ => h _)
  have e : xbar sim = ∑ i : Fin d, ((1 : ℝ) / d) • sim i.castSucc := by
    ext k
    simp [xbar, Finset.sum_apply, Finset.mul_sum, div_eq_inv_mul]
  rw [e]
  exact this

theorem movePoint_mem (hd : 1 ≤ d) {A : AffineSubspace ℝ (Vec d)} {sim : Sim d} (h : ∀ i, sim i ∈ A) {x : Vec d}
    (hx : MovePoint sim x) : x ∈ A := by
  rcases hx with ⟨c, rfl⟩ | ⟨j, rfl⟩
  · have := AffineMap.lineMap_mem (-c) (xbar_mem hd h) (h (Fin.last d))
    convert this using 1
    ext k
    simp [nmPoint, AffineMap.lineMap_apply]
    ring
  · have := AffineMap.lineMap_mem (0.5 : ℝ) (h 0) (h j)
    convert this using 1
    ext k
    simp [AffineMap.lineMap_apply]
    ring

/-- The main invariant of the loop. -/
structure NMInv (f : ℕ → Vec d → FVal) (P : NMParams) (sim0 : Sim d) (s : NMState d) : Prop where
  ok : TraceOk f s.tr
  verts : ∀ i, (s.sim i, s.fsim i) ∈ s.tr.evals
  sorted : Monotone s.fsim
  hull : ∀ q ∈ s.tr.evals, q.1 ∈ affineSpan ℝ (Set.range sim0)
  init : ∀ i : Fin (d + 1), s.fsim 0 ≤ f i (sim0 i)
  best : (∀ q ∈ s.tr.evals, q.2 ≠ FVal.nan) → ∀ q ∈ s.tr.evals, s.fsim 0 ≤ q.2
  iters : 1 ≤ s.iterations
  callsLower : d + 1 + (s.iterations - 1) ≤ s.tr.ncalls
  callsUpper : s.tr.ncalls ≤ d + 1 + (s.iterations - 1) * (d + 2)
  simLen : s.simplexHistory.length = if P.keepHistory then s.iterations else 1
  simLast : s.simplexHistory.getLast? = some s.sim
  funLast : P.keepHistory = true → s.funHistory.getLast? = some s.fsim
  simFirst : P.keepHistory = true → ∃ σ : Equiv.Perm (Fin (d + 1)), s.simplexHistory.head? = some (sim0 ∘ σ) ∧
    s.funHistory.head? = some fun i => f (σ i) (sim0 (σ i))
  pairs : P.keepHistory = true → List.Forall₂ (fun S F => Monotone F ∧ ∀ i, (S i, F i) ∈ s.tr.evals) s.simplexHistory s.funHistory
  simEvals : ∀ S ∈ s.simplexHistory, ∀ i, ∃ v, (S i, v) ∈ s.tr.evals
  desc : s.funHistory.Pairwise (fun F F' => F' 0 ≤ F 0)
  descLast : ∀ F ∈ s.funHistory, s.fsim 0 ≤ F 0
  noHist : P.keepHistory = false → s.funHistory = []

theorem nmInv_init {argsort : Argsort d} (ha : IsArgsort argsort) (f : ℕ → Vec d → FVal) (P : NMParams) (sim0 : Sim d) :
    NMInv f P sim0 (nmInit P argsort f sim0) := by
  have hev : ∀ q, q ∈ (Trace.calls f ⟨0, []⟩ (List.ofFn sim0)).evals ↔ ∃ j : Fin (d + 1), q = (sim0 j, f j (sim0 j)) := fun q => by
    rw [evals_calls]
    simp only [List.nil_append, mem_callPairs_ofFn, Nat.zero_add]
  have hs := ha fun i => f i (sim0 i)
  set σ := argsort fun i => f i (sim0 i) with hσ
  have hmin : ∀ i : Fin (d + 1), f (σ 0) (sim0 (σ 0)) ≤ f i (sim0 i) := fun i => by
    have := hs (Fin.zero_le (σ.symm i))
    simpa using this
  exact {
    ok := traceOk_calls _ ⟨rfl, by simp⟩
    verts := fun i => by
      simp only [nmInit, nmSort]
      rw [hev]
      exact ⟨σ i, rfl⟩
    sorted := hs
    hull := fun q hq => by
      simp only [nmInit, nmSort] at hq
      rw [hev] at hq
      obtain ⟨j, rfl⟩ := hq
      exact subset_affineSpan _ _ ⟨j, rfl⟩
    init := fun i => hmin i
    best := fun _ q hq => by
      simp only [nmInit, nmSort] at hq
      rw [hev] at hq
      obtain ⟨j, rfl⟩ := hq
      exact hmin j
    iters := le_rfl
    callsLower := by simp [nmInit, nmSort, ncalls_calls]
    callsUpper := by simp [nmInit, nmSort, ncalls_calls]
    simLen := by simp [nmInit, nmSort]
    simLast := by simp [nmInit, nmSort]
    funLast := fun h => by simp [nmInit, nmSort, h]
    simFirst := fun h => ⟨σ, by simp [nmInit, nmSort, hσ], by simp [nmInit, nmSort, h, hσ]; rfl⟩
    pairs := fun h => by
      simp only [nmInit, nmSort, h, if_true]
      refine .cons ⟨hs, fun i => ?_⟩ .nil
      rw [hev]
      exact ⟨σ i, rfl⟩
    simEvals := fun S hS i => by
      simp only [nmInit, nmSort, List.mem_singleton] at hS ⊢
      subst hS
      exact ⟨_, (hev _).2 ⟨σ i, rfl⟩⟩
    desc := by
      simp only [nmInit]
      split <;> simp
    descLast := fun F hF => by
      simp only [nmInit] at hF ⊢
      split at hF
      · simp at hF; subst hF; exact le_rfl
      · simp at hF
    noHist := fun h => by simp [nmInit, h] }

theorem nmInv_iter (hd : 1 ≤ d) {argsort : Argsort d} (ha : IsArgsort argsort) {f : ℕ → Vec d → FVal} {P : NMParams} {sim0 : Sim d}
    {s : NMState d} (h : NMInv f P sim0 s) : NMInv f P sim0 (nmIter P argsort f s) := by
  have hi := nmIter_spec hd ha f P s
  set s' := nmIter P argsort f s
  have hv : ∀ i, (s'.sim i, s'.fsim i) ∈ s'.tr.evals := fun i => by
    rcases hi.verts i with ⟨j, e1, e2⟩ | h'
    · rw [e1, e2]; exact hi.old _ (h.verts j)
    · exact h'
  have hsim : ∀ i, s.sim i ∈ affineSpan ℝ (Set.range sim0) := fun i => h.hull _ (h.verts i)
  exact {
    ok := hi.ok h.ok
    verts := hv
    sorted := hi.sorted
    hull := fun q hq => by
      rcases hi.new q hq with h' | h'
      · exact h.hull q h'
      · exact movePoint_mem hd hsim h'
    init := fun i => hi.best0.trans (h.init i)
    best := fun hn q hq => by
      have hn' : ∀ q ∈ s.tr.evals, q.2 ≠ FVal.nan := fun q hq => hn q (hi.old q hq)
      rcases hi.best (hn' _ (h.verts (Fin.last d))) (h.sorted (Fin.zero_le _)) q hq with h' | h'
      · exact hi.best0.trans (h.best hn' q h')
      · exact h'
    iters := by rw [hi.iters]; omega
    callsLower := by have := h.callsLower; have := hi.calls; have := h.iters; rw [hi.iters]; omega
    callsUpper := by
      have h1 := h.callsUpper
      have h2 := hi.calls.2
      have h3 := h.iters
      rw [hi.iters]
      obtain ⟨m, hm⟩ : ∃ m, s.iterations = m + 1 := ⟨s.iterations - 1, by omega⟩
      rw [hm] at h1 ⊢
      simp only [Nat.add_sub_cancel] at h1 ⊢
      rw [Nat.add_mul]
      omega
    simLen := by
      rw [hi.simHist, hi.iters]
      have := h.simLen
      split at this <;> simp_all
    simLast := by
      rw [hi.simHist]
      split <;> simp
    funLast := fun hk => by
      rw [hi.funHist]
      simp [hk]
    simFirst := fun hk => by
      obtain ⟨σ, h1, h2⟩ := h.simFirst hk
      refine ⟨σ, ?_, ?_⟩
      · rw [hi.simHist]; simp [hk, h1]
      · rw [hi.funHist]; simp [hk, h2]
    pairs := fun hk => by
      rw [hi.simHist, hi.funHist, if_pos hk, if_pos hk]
      refine List.rel_append ((h.pairs hk).imp fun S F hp => ⟨hp.1, fun i => hi.old _ (hp.2 i)⟩) (.cons ⟨hi.sorted, hv⟩ .nil)
    simEvals := fun S hS i => by
      rw [hi.simHist] at hS
      split at hS
      · rcases List.mem_append.1 hS with hS | hS
        · obtain ⟨v, hv'⟩ := h.simEvals S hS i
          exact ⟨v, hi.old _ hv'⟩
        · simp at hS; subst hS; exact ⟨_, hv i⟩
      · simp at hS; subst hS; exact ⟨_, hv i⟩
    desc := by
      rw [hi.funHist]
      split
      · rw [List.pairwise_append]
        refine ⟨h.desc, by simp, fun F hF F' hF' => ?_⟩
        simp at hF'
        subst hF'
        exact hi.best0.trans (h.descLast F hF)
      · simp
    descLast := fun F hF => by
      rw [hi.funHist] at hF
      split at hF
      · rcases List.mem_append.1 hF with hF | hF
        · exact hi.best0.trans (h.descLast F hF)
        · simp at hF; subst hF; exact le_rfl
      · simp at hF
    noHist := fun hk => by rw [hi.funHist]; simp [hk] }

theorem nmInv_run (hd : 1 ≤ d) {argsort : Argsort d} (ha : IsArgsort argsort) (f : ℕ → Vec d → FVal) (P : NMParams) (sim0 : Sim d) :
    NMInv f P sim0 (nmRun P argsort f sim0) :=
  nmLoop_induct _ (fun _ hs _ => nmInv_iter hd ha hs) _ (nmInv_init ha f P sim0)

/-! ## The result -/

theorem npMin_eq {v : Fin (d + 1) → FVal} (h : Monotone v) : npMin v = if v (Fin.last d) = FVal.nan then FVal.nan else v 0 := by
  unfold npMin
  have e : (∃ i, v i = FVal.nan) ↔ v (Fin.last d) = FVal.nan :=
    ⟨fun ⟨i, hi⟩ => top_le_iff.1 ((show (⊤ : FVal) = v i from hi.symm) ▸ h (Fin.le_last i)), fun h => ⟨_, h⟩⟩
  by_cases hl : v (Fin.last d) = FVal.nan
  · rw [if_pos (e.2 hl), if_pos hl]
  · rw [if_neg (fun h' => hl (e.1 h')), if_neg hl]
    exact le_antisymm (Finset.inf'_le _ (Finset.mem_univ _)) (Finset.le_inf' _ _ fun i _ => h (Fin.zero_le _))

theorem mem_evals_iff {f : ℕ → Vec d → FVal} {t : Trace d} (h : TraceOk f t) {q : Vec d × FVal} (hq : q ∈ t.evals) :
    ∃ k < t.ncalls, t.evals[k]? = some q ∧ q.2 = f k q.1 := by
  obtain ⟨k, hk⟩ := List.getElem?_of_mem hq
  refine ⟨k, ?_, hk, h.2 k q.1 q.2 hk⟩
  rw [← h.1]
  exact (List.getElem?_eq_some_iff.1 hk).1

end NF
