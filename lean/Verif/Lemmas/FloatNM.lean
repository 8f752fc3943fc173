import Verif.Model.FloatNM
import Verif.Lemmas.NelderMead

/-! # Lemmas about the Nelder-Mead model with rounding (as in `Lemmas/NelderMead`) -/

noncomputable section
open Classical

namespace NF.FL
variable {d : ℕ}

/-! ## The move -/

/-- Points that a move may evaluate. -/
def MovePoint (A : Arith d) (sim : Sim d) (x : Vec d) : Prop :=
  (∃ c : ℝ, (c = 1 ∨ c = 2 ∨ c = 0.5) ∧ x = nmOuter A sim c) ∨ x = nmInner A sim ∨ ∃ j, x = scaleFrom A 0.5 (sim 0) (sim j)

/-- What a move does, whichever branch is taken. -/
structure MoveSpec (A : Arith d) (f : ℕ → Vec d → FVal) (s s' : NMState d) : Prop where
  sim0 : s'.sim 0 = s.sim 0
  fsim0 : s'.fsim 0 = s.fsim 0
  ok : TraceOk f s.tr → TraceOk f s'.tr
  calls : s.tr.ncalls < s'.tr.ncalls ∧ s'.tr.ncalls ≤ s.tr.ncalls + (d + 2)
  old : ∀ q ∈ s.tr.evals, q ∈ s'.tr.evals
  new : ∀ q ∈ s'.tr.evals, q ∈ s.tr.evals ∨ MovePoint A s.sim q.1
  verts : ∀ i, (∃ j, s'.sim i = s.sim j ∧ s'.fsim i = s.fsim j) ∨ (s'.sim i, s'.fsim i) ∈ s'.tr.evals
  best : s.fsim (Fin.last d) ≠ FVal.nan → s.fsim 0 ≤ s.fsim (Fin.last d) →
    ∀ q ∈ s'.tr.evals, q ∈ s.tr.evals ∨ ∃ i, s'.fsim i ≤ q.2
  iters : s'.iterations = s.iterations
  hist : s'.simplexHistory = s.simplexHistory ∧ s'.funHistory = s.funHistory

theorem setLast_spec {A : Arith d} {f : ℕ → Vec d → FVal} (hd : 1 ≤ d) {s : NMState d} {x : Vec d} {v : FVal} {tr : Trace d}
    (ok : TraceOk f s.tr → TraceOk f tr) (calls : s.tr.ncalls < tr.ncalls ∧ tr.ncalls ≤ s.tr.ncalls + (d + 2))
    (old : ∀ q ∈ s.tr.evals, q ∈ tr.evals) (new : ∀ q ∈ tr.evals, q ∈ s.tr.evals ∨ MovePoint A s.sim q.1)
    (hx : (x, v) ∈ tr.evals)
    (best : s.fsim (Fin.last d) ≠ FVal.nan → s.fsim 0 ≤ s.fsim (Fin.last d) → ∀ q ∈ tr.evals, q ∈ s.tr.evals ∨ v ≤ q.2 ∨ s.fsim 0 ≤ q.2) :
    MoveSpec A f s (setLast s x v tr) where
  sim0 := by simp [setLast, Function.update_of_ne (zero_ne_last hd)]
  fsim0 := by simp [setLast, Function.update_of_ne (zero_ne_last hd)]
  ok := ok
  calls := calls
  old := old
  new := new
  verts := fun i => by
    by_cases hi : i = Fin.last d
    · right; subst hi; simpa [setLast] using hx
    · left; exact ⟨i, by simp [setLast, Function.update_of_ne hi], by simp [setLast, Function.update_of_ne hi]⟩
  best := fun h1 h2 q hq => by
    rcases best h1 h2 q hq with h | h | h
    · exact .inl h
    · exact .inr ⟨Fin.last d, by simpa [setLast] using h⟩
    · exact .inr ⟨0, by simpa [setLast, Function.update_of_ne (zero_ne_last hd)] using h⟩
  iters := rfl
  hist := ⟨rfl, rfl⟩

theorem nmShrink_spec {A : Arith d} {f : ℕ → Vec d → FVal} {s : NMState d} {tr : Trace d}
    (ok : TraceOk f s.tr → TraceOk f tr) (calls : s.tr.ncalls < tr.ncalls ∧ tr.ncalls ≤ s.tr.ncalls + 2)
    (old : ∀ q ∈ s.tr.evals, q ∈ tr.evals) (new : ∀ q ∈ tr.evals, q ∈ s.tr.evals ∨ MovePoint A s.sim q.1)
    (best : s.fsim (Fin.last d) ≠ FVal.nan → s.fsim 0 ≤ s.fsim (Fin.last d) → ∀ q ∈ tr.evals, q ∈ s.tr.evals ∨ s.fsim 0 ≤ q.2) :
    MoveSpec A f s (nmShrink A f s tr) where
  sim0 := by simp [nmShrink]
  fsim0 := by simp [nmShrink]
  ok := fun h => traceOk_calls _ (ok h)
  calls := by
    simp only [nmShrink, ncalls_calls, List.length_ofFn]
    omega
  old := fun q hq => by
    simp only [nmShrink, evals_calls]
    exact List.mem_append_left _ (old q hq)
  new := fun q hq => by
    simp only [nmShrink, evals_calls, List.mem_append, mem_callPairs_ofFn] at hq
    rcases hq with hq | ⟨j, rfl⟩
    · exact new q hq
    · exact .inr (.inr (.inr ⟨j.succ, rfl⟩))
  verts := fun i => by
    refine Fin.cases ?_ (fun j => ?_) i
    · exact .inl ⟨0, by simp [nmShrink], by simp [nmShrink]⟩
    · right
      simp only [nmShrink, evals_calls, List.mem_append, mem_callPairs_ofFn, Fin.cons_succ]
      exact .inr ⟨j, rfl⟩
  best := fun h1 h2 q hq => by
    simp only [nmShrink, evals_calls, List.mem_append, mem_callPairs_ofFn] at hq
    rcases hq with hq | ⟨j, rfl⟩
    · rcases best h1 h2 q hq with h | h
      · exact .inl h
      · exact .inr ⟨0, by simpa [nmShrink] using h⟩
    · exact .inr ⟨j.succ, by simp [nmShrink]⟩
  iters := rfl
  hist := ⟨rfl, rfl⟩

theorem nmMove_spec (A : Arith d) (hd : 1 ≤ d) (f : ℕ → Vec d → FVal) (s : NMState d) : MoveSpec A f s (nmMove A f s) := by
  unfold nmMove
  simp only
  split_ifs with h1 h2 h3 h4 h5 h6
  · refine setLast_spec hd (fun h => traceOk_call (traceOk_call h _) _) ⟨by simp [Trace.call], by simp [Trace.call]⟩
      (fun q hq => ?_) (fun q hq => ?_) ?_ (fun hn' hl q hq => ?_)
    · simp [mem_evals_call, hq]
    · simp only [mem_evals_call] at hq
      rcases hq with (hq | rfl) | rfl
      exacts [.inl hq, .inr (.inl ⟨_, by simp, rfl⟩), .inr (.inl ⟨_, by simp, rfl⟩)]
    · simp [mem_evals_call]
    · simp only [mem_evals_call] at hq
      rcases hq with (hq | rfl) | rfl
      exacts [.inl hq, .inr (.inl h2.2.2.le), .inr (.inl le_rfl)]
  · refine setLast_spec hd (fun h => traceOk_call (traceOk_call h _) _) ⟨by simp [Trace.call], by simp [Trace.call]⟩
      (fun q hq => ?_) (fun q hq => ?_) ?_ (fun hn' hl q hq => ?_)
    · simp [mem_evals_call, hq]
    · simp only [mem_evals_call] at hq
      rcases hq with (hq | rfl) | rfl
      exacts [.inl hq, .inr (.inl ⟨_, by simp, rfl⟩), .inr (.inl ⟨_, by simp, rfl⟩)]
    · simp [mem_evals_call]
    · simp only [mem_evals_call] at hq
      rcases hq with (hq | rfl) | rfl
      exacts [.inl hq, .inr (.inl le_rfl), .inr (.inl (le_of_not_flt h1.1 h2))]
  · refine setLast_spec hd (fun h => traceOk_call h _) ⟨by simp [Trace.call], by simp [Trace.call]⟩
      (fun q hq => ?_) (fun q hq => ?_) ?_ (fun hn' hl q hq => ?_)
    · simp [mem_evals_call, hq]
    · simp only [mem_evals_call] at hq
      rcases hq with hq | rfl
      exacts [.inl hq, .inr (.inl ⟨_, by simp, rfl⟩)]
    · simp [mem_evals_call]
    · simp only [mem_evals_call] at hq
      rcases hq with hq | rfl
      exacts [.inl hq, .inr (.inl le_rfl)]
  · refine setLast_spec hd (fun h => traceOk_call (traceOk_call h _) _) ⟨by simp [Trace.call], by simp [Trace.call]⟩
      (fun q hq => ?_) (fun q hq => ?_) ?_ (fun hn' hl q hq => ?_)
    · simp [mem_evals_call, hq]
    · simp only [mem_evals_call] at hq
      rcases hq with (hq | rfl) | rfl
      exacts [.inl hq, .inr (.inl ⟨_, by simp, rfl⟩), .inr (.inl ⟨_, by simp, rfl⟩)]
    · simp [mem_evals_call]
    · simp only [mem_evals_call] at hq
      rcases hq with (hq | rfl) | rfl
      exacts [.inl hq, .inr (.inr (le_of_not_flt (ne_top_of_le_ne_top hn' hl) h1)), .inr (.inl le_rfl)]
  · refine nmShrink_spec (fun h => traceOk_call (traceOk_call h _) _) ⟨by simp [Trace.call], by simp [Trace.call]⟩
      (fun q hq => ?_) (fun q hq => ?_) (fun hn' hl q hq => ?_)
    · simp [mem_evals_call, hq]
    · simp only [mem_evals_call] at hq
      rcases hq with (hq | rfl) | rfl
      exacts [.inl hq, .inr (.inl ⟨_, by simp, rfl⟩), .inr (.inl ⟨_, by simp, rfl⟩)]
    · simp only [mem_evals_call] at hq
      rcases hq with (hq | rfl) | rfl
      exacts [.inl hq, .inr (le_of_not_flt (ne_top_of_le_ne_top hn' hl) h1), .inr ((le_of_not_flt (ne_top_of_le_ne_top hn' hl) h1).trans (lt_of_not_fle h4.1 h5).le)]
  · refine setLast_spec hd (fun h => traceOk_call (traceOk_call h _) _) ⟨by simp [Trace.call], by simp [Trace.call]⟩
      (fun q hq => ?_) (fun q hq => ?_) ?_ (fun hn' hl q hq => ?_)
    · simp [mem_evals_call, hq]
    · simp only [mem_evals_call] at hq
      rcases hq with (hq | rfl) | rfl
      exacts [.inl hq, .inr (.inl ⟨_, by simp, rfl⟩), .inr (.inr (.inl rfl))]
    · simp [mem_evals_call]
    · simp only [mem_evals_call] at hq
      rcases hq with (hq | rfl) | rfl
      exacts [.inl hq, .inr (.inr (le_of_not_flt (ne_top_of_le_ne_top hn' hl) h1)), .inr (.inl le_rfl)]
  · refine nmShrink_spec (fun h => traceOk_call (traceOk_call h _) _) ⟨by simp [Trace.call], by simp [Trace.call]⟩
      (fun q hq => ?_) (fun q hq => ?_) (fun hn' hl q hq => ?_)
    · simp [mem_evals_call, hq]
    · simp only [mem_evals_call] at hq
      rcases hq with (hq | rfl) | rfl
      exacts [.inl hq, .inr (.inl ⟨_, by simp, rfl⟩), .inr (.inr (.inl rfl))]
    · simp only [mem_evals_call] at hq
      rcases hq with (hq | rfl) | rfl
      · exact .inl hq
      · exact .inr (le_of_not_flt (ne_top_of_le_ne_top hn' hl) h1)
      · right
        exact hl.trans (le_of_not_flt hn' h6)

/-- A move only adds calls, and only of points that it may evaluate. -/
theorem nmMove_prefix (A : Arith d) (f : ℕ → Vec d → FVal) (s : NMState d) :
    ∃ l, (nmMove A f s).tr.evals = s.tr.evals ++ l ∧ ∀ q ∈ l, MovePoint A s.sim q.1 := by
  have h1 : MovePoint A s.sim (nmOuter A s.sim 1) := .inl ⟨_, by simp, rfl⟩
  have h2 : MovePoint A s.sim (nmOuter A s.sim 2) := .inl ⟨_, by simp, rfl⟩
  have h3 : MovePoint A s.sim (nmOuter A s.sim 0.5) := .inl ⟨_, by simp, rfl⟩
  have h4 : MovePoint A s.sim (nmInner A s.sim) := .inr (.inl rfl)
  have hsh : ∀ (tr : Trace d) (l : List (Vec d × FVal)), tr.evals = s.tr.evals ++ l → (∀ q ∈ l, MovePoint A s.sim q.1) →
      ∃ l, (nmShrink A f s tr).tr.evals = s.tr.evals ++ l ∧ ∀ q ∈ l, MovePoint A s.sim q.1 := by
    intro tr l hl hm
    refine ⟨l ++ callPairs f tr.ncalls (List.ofFn fun j : Fin d => scaleFrom A 0.5 (s.sim 0) (s.sim j.succ)), ?_, ?_⟩
    · simp only [nmShrink, evals_calls, hl, List.append_assoc]
    · intro q hq
      rcases List.mem_append.1 hq with hq | hq
      · exact hm q hq
      · obtain ⟨j, rfl⟩ := mem_callPairs_ofFn.1 hq
        exact .inr (.inr ⟨j.succ, rfl⟩)
  unfold nmMove
  simp only
  split_ifs
  · exact ⟨[_, _], by simp only [setLast, Trace.call, List.append_assoc]; rfl, by simp [h1, h2]⟩
  · exact ⟨[_, _], by simp only [setLast, Trace.call, List.append_assoc]; rfl, by simp [h1, h2]⟩
  · exact ⟨[_], by simp only [setLast, Trace.call]; rfl, by simp [h1]⟩
  · exact ⟨[_, _], by simp only [setLast, Trace.call, List.append_assoc]; rfl, by simp [h1, h3]⟩
  · exact hsh _ [_, _] (by simp only [Trace.call, List.append_assoc]; rfl) (by simp [h1, h3])
  · exact ⟨[_, _], by simp only [setLast, Trace.call, List.append_assoc]; rfl, by simp [h1, h4]⟩
  · exact hsh _ [_, _] (by simp only [Trace.call, List.append_assoc]; rfl) (by simp [h1, h4])

theorem getElem?_callPairs {f : ℕ → Vec d → FVal} {xs : List (Vec d)} {n k : ℕ} {q : Vec d × FVal} (h : (callPairs f n xs)[k]? = some q) :
    xs[k]? = some q.1 := by
  induction xs generalizing n k with
  | nil => simp [callPairs] at h
  | cons x xs ih =>
    cases k with
    | zero => simp [callPairs] at h; simp [← h]
    | succ k => simpa using ih (by simpa [callPairs] using h)

theorem getElem?_callPairs_ofFn {f : ℕ → Vec d → FVal} {m : ℕ} {g : Fin m → Vec d} {n k : ℕ} {q : Vec d × FVal} (h : (callPairs f n (List.ofFn g))[k]? = some q) :
    ∃ i : Fin m, k = i ∧ q.1 = g i := by
  have := getElem?_callPairs h
  rw [List.getElem?_ofFn] at this
  split at this
  · rename_i hk
    exact ⟨⟨k, hk⟩, rfl, (Option.some.inj this).symm⟩
  · cases this

/-! ## One iteration -/

/-- What an iteration does. -/
structure IterSpec (A : Arith d) (f : ℕ → Vec d → FVal) (P : NMParams) (s s' : NMState d) : Prop where
  sorted : Monotone s'.fsim
  best0 : s'.fsim 0 ≤ s.fsim 0
  ok : TraceOk f s.tr → TraceOk f s'.tr
  calls : s.tr.ncalls < s'.tr.ncalls ∧ s'.tr.ncalls ≤ s.tr.ncalls + (d + 2)
  old : ∀ q ∈ s.tr.evals, q ∈ s'.tr.evals
  new : ∀ q ∈ s'.tr.evals, q ∈ s.tr.evals ∨ MovePoint A s.sim q.1
  verts : ∀ i, (∃ j, s'.sim i = s.sim j ∧ s'.fsim i = s.fsim j) ∨ (s'.sim i, s'.fsim i) ∈ s'.tr.evals
  best : s.fsim (Fin.last d) ≠ FVal.nan → s.fsim 0 ≤ s.fsim (Fin.last d) →
    ∀ q ∈ s'.tr.evals, q ∈ s.tr.evals ∨ s'.fsim 0 ≤ q.2
  iters : s'.iterations = s.iterations + 1
  simHist : s'.simplexHistory = if P.keepHistory then s.simplexHistory ++ [s'.sim] else [s'.sim]
  funHist : s'.funHistory = if P.keepHistory then s.funHistory ++ [s'.fsim] else []

theorem nmIter_spec (A : Arith d) (hd : 1 ≤ d) {argsort : Argsort d} (ha : IsArgsort argsort) (f : ℕ → Vec d → FVal) (P : NMParams)
    (s : NMState d) : IterSpec A f P s (nmIter A P argsort f s) := by
  have h := nmMove_spec A hd f s
  have hsort := ha (nmMove A f s).fsim
  have hmin : ∀ i, (nmIter A P argsort f s).fsim 0 ≤ (nmMove A f s).fsim i := fun i => by
    have := hsort (Fin.zero_le ((argsort (nmMove A f s).fsim).symm i))
    simpa [nmIter, nmSort] using this
  exact {
    sorted := hsort
    best0 := by rw [← h.fsim0]; exact hmin 0
    ok := h.ok
    calls := h.calls
    old := h.old
    new := h.new
    verts := fun i => h.verts (argsort (nmMove A f s).fsim i)
    best := fun h1 h2 q hq => by
      rcases h.best h1 h2 q hq with h | ⟨i, hi⟩
      · exact .inl h
      · exact .inr ((hmin i).trans hi)
    iters := by simp [nmIter, nmSort, h.iters]
    simHist := by simp [nmIter, nmSort, h.hist.1]
    funHist := by simp [nmIter, nmSort, h.hist.2] }

/-! ## The loop -/

theorem nmLoop_induct {A : Arith d} {P : NMParams} {argsort : Argsort d} {f : ℕ → Vec d → FVal} (I : NMState d → Prop)
    (hstep : ∀ s, I s → nmContinue A P s → I (nmIter A P argsort f s)) (s : NMState d) (hs : I s) :
    I (nmLoop A P argsort f s) := by
  induction hn : P.iterLimit d - s.iterations using Nat.strong_induction_on generalizing s with
  | _ n ih =>
    rw [nmLoop]
    split
    · rename_i hc
      refine ih _ ?_ _ (hstep s hs hc) rfl
      have h1 := hc.2.1
      have : (nmIter A P argsort f s).iterations = s.iterations + 1 := by simp [nmIter, nmSort, nmMove_iterations]
      omega
    · exact hs

theorem nmLoop_exit (A : Arith d) (P : NMParams) (argsort : Argsort d) (f : ℕ → Vec d → FVal) (s : NMState d) :
    ¬ nmContinue A P (nmLoop A P argsort f s) := by
  induction hn : P.iterLimit d - s.iterations using Nat.strong_induction_on generalizing s with
  | _ n ih =>
    rw [nmLoop]
    split
    · rename_i hc
      refine ih _ ?_ _ rfl
      have h1 := hc.2.1
      have : (nmIter A P argsort f s).iterations = s.iterations + 1 := by simp [nmIter, nmSort, nmMove_iterations]
      omega
    · assumption

/-! ## Invariants -/

/-- The main invariant of the loop. -/
structure NMInv (A : Arith d) (f : ℕ → Vec d → FVal) (P : NMParams) (sim0 : Sim d) (s : NMState d) : Prop where
  ok : TraceOk f s.tr
  verts : ∀ i, (s.sim i, s.fsim i) ∈ s.tr.evals
  sorted : Monotone s.fsim
  order : ∀ (n : ℕ) q, s.tr.evals[n]? = some q → (∃ i : Fin (d + 1), n = i ∧ q.1 = sim0 i) ∨
    ∃ S : Sim d, (∀ i, ∃ m < n, ∃ w, s.tr.evals[m]? = some (S i, w)) ∧ MovePoint A S q.1
  closed : ∀ Q : Vec d → Prop, (∀ i, Q (sim0 i)) → (∀ sim x, (∀ i, Q (sim i)) → MovePoint A sim x → Q x) → ∀ q ∈ s.tr.evals, Q q.1
  init : ∀ i : Fin (d + 1), s.fsim 0 ≤ f i (sim0 i)
  best : (∀ q ∈ s.tr.evals, q.2 ≠ FVal.nan) → ∀ q ∈ s.tr.evals, s.fsim 0 ≤ q.2
  iters : 1 ≤ s.iterations
  callsLower : d + 1 + (s.iterations - 1) ≤ s.tr.ncalls
  callsUpper : s.tr.ncalls ≤ d + 1 + (s.iterations - 1) * (d + 2)
  simLen : s.simplexHistory.length = if P.keepHistory then s.iterations else 1
  simLast : s.simplexHistory.getLast? = some s.sim
  funLast : P.keepHistory = true → s.funHistory.getLast? = some s.fsim
  simFirst : P.keepHistory = true → ∃ σ : Equiv.Perm (Fin (d + 1)), s.simplexHistory.head? = some (sim0 ∘ σ) ∧
    s.funHistory.head? = some fun i => f (σ i) (sim0 (σ i))
  pairs : P.keepHistory = true → List.Forall₂ (fun S F => Monotone F ∧ ∀ i, (S i, F i) ∈ s.tr.evals) s.simplexHistory s.funHistory
  simEvals : ∀ S ∈ s.simplexHistory, ∀ i, ∃ v, (S i, v) ∈ s.tr.evals
  desc : s.funHistory.Pairwise (fun F F' => F' 0 ≤ F 0)
  descLast : ∀ F ∈ s.funHistory, s.fsim 0 ≤ F 0
  noHist : P.keepHistory = false → s.funHistory = []

theorem nmInv_init (A : Arith d) {argsort : Argsort d} (ha : IsArgsort argsort) (f : ℕ → Vec d → FVal) (P : NMParams) (sim0 : Sim d) :
    NMInv A f P sim0 (nmInit P argsort f sim0) := by
  have hev : ∀ q, q ∈ (Trace.calls f ⟨0, []⟩ (List.ofFn sim0)).evals ↔ ∃ j : Fin (d + 1), q = (sim0 j, f j (sim0 j)) := fun q => by
    rw [evals_calls]
    simp only [List.nil_append, mem_callPairs_ofFn, Nat.zero_add]
  have hs := ha fun i => f i (sim0 i)
  set σ := argsort fun i => f i (sim0 i) with hσ
  have hmin : ∀ i : Fin (d + 1), f (σ 0) (sim0 (σ 0)) ≤ f i (sim0 i) := fun i => by
    have := hs (Fin.zero_le (σ.symm i))
    simpa using this
  exact {
    ok := traceOk_calls _ ⟨rfl, by simp⟩
    verts := fun i => by
      simp only [nmInit, nmSort]
      rw [hev]
      exact ⟨σ i, rfl⟩
    sorted := hs
    order := fun n q hq => by
      left
      simp only [nmInit, nmSort, evals_calls, List.nil_append] at hq
      exact getElem?_callPairs_ofFn hq
    closed := fun Q h0 _ q hq => by
      simp only [nmInit, nmSort] at hq
      rw [hev] at hq
      obtain ⟨j, rfl⟩ := hq
      exact h0 j
    init := fun i => hmin i
    best := fun _ q hq => by
      simp only [nmInit, nmSort] at hq
      rw [hev] at hq
      obtain ⟨j, rfl⟩ := hq
      exact hmin j
    iters := le_rfl
    callsLower := by simp [nmInit, nmSort, ncalls_calls]
    callsUpper := by simp [nmInit, nmSort, ncalls_calls]
    simLen := by simp [nmInit, nmSort]
    simLast := by simp [nmInit, nmSort]
    funLast := fun h => by simp [nmInit, nmSort, h]
    simFirst := fun h => ⟨σ, by simp [nmInit, nmSort, hσ], by simp [nmInit, nmSort, h, hσ]; rfl⟩
    pairs := fun h => by
      simp only [nmInit, nmSort, h, if_true]
      refine .cons ⟨hs, fun i => ?_⟩ .nil
      rw [hev]
      exact ⟨σ i, rfl⟩
    simEvals := fun S hS i => by
      simp only [nmInit, nmSort, List.mem_singleton] at hS ⊢
      subst hS
      exact ⟨_, (hev _).2 ⟨σ i, rfl⟩⟩
    desc := by
      simp only [nmInit]
      split <;> simp
    descLast := fun F hF => by
      simp only [nmInit] at hF ⊢
      split at hF
      · simp at hF; subst hF; exact le_rfl
      · simp at hF
    noHist := fun h => by simp [nmInit, h] }

theorem nmInv_iter {A : Arith d} (hd : 1 ≤ d) {argsort : Argsort d} (ha : IsArgsort argsort) {f : ℕ → Vec d → FVal} {P : NMParams} {sim0 : Sim d}
    {s : NMState d} (h : NMInv A f P sim0 s) : NMInv A f P sim0 (nmIter A P argsort f s) := by
  have hi := nmIter_spec A hd ha f P s
  set s' := nmIter A P argsort f s
  have hv : ∀ i, (s'.sim i, s'.fsim i) ∈ s'.tr.evals := fun i => by
    rcases hi.verts i with ⟨j, e1, e2⟩ | h'
    · rw [e1, e2]; exact hi.old _ (h.verts j)
    · exact h'
  exact {
    ok := hi.ok h.ok
    verts := hv
    sorted := hi.sorted
    order := fun n q hq => by
      obtain ⟨l, hl, hm⟩ := nmMove_prefix A f s
      have e : s'.tr.evals = s.tr.evals ++ l := hl
      rw [e] at hq ⊢
      by_cases hn : n < s.tr.evals.length
      · rw [List.getElem?_append_left hn] at hq
        rcases h.order n q hq with h' | ⟨S, h1, h2⟩
        · exact .inl h'
        · refine .inr ⟨S, fun i => ?_, h2⟩
          obtain ⟨m, hm, w, hw⟩ := h1 i
          exact ⟨m, hm, w, by rw [List.getElem?_append_left (by omega)]; exact hw⟩
      · rw [List.getElem?_append_right (by omega)] at hq
        refine .inr ⟨s.sim, fun i => ?_, hm q (List.mem_of_getElem? hq)⟩
        obtain ⟨m, hm⟩ := List.getElem?_of_mem (h.verts i)
        have hlt := (List.getElem?_eq_some_iff.1 hm).1
        exact ⟨m, by omega, _, by rw [List.getElem?_append_left hlt]; exact hm⟩
    closed := fun Q h0 h1 q hq => by
      rcases hi.new q hq with h' | h'
      · exact h.closed Q h0 h1 q h'
      · exact h1 _ _ (fun i => h.closed Q h0 h1 _ (h.verts i)) h'
    init := fun i => hi.best0.trans (h.init i)
    best := fun hn q hq => by
      have hn' : ∀ q ∈ s.tr.evals, q.2 ≠ FVal.nan := fun q hq => hn q (hi.old q hq)
      rcases hi.best (hn' _ (h.verts (Fin.last d))) (h.sorted (Fin.zero_le _)) q hq with h' | h'
      · exact hi.best0.trans (h.best hn' q h')
      · exact h'
    iters := by rw [hi.iters]; omega
    callsLower := by have := h.callsLower; have := hi.calls; have := h.iters; rw [hi.iters]; omega
    callsUpper := by
      have h1 := h.callsUpper
      have h2 := hi.calls.2
      have h3 := h.iters
      rw [hi.iters]
      obtain ⟨m, hm⟩ : ∃ m, s.iterations = m + 1 := ⟨s.iterations - 1, by omega⟩
      rw [hm] at h1 ⊢
      simp only [Nat.add_sub_cancel] at h1 ⊢
      rw [Nat.add_mul]
      omega
    simLen := by
      rw [hi.simHist, hi.iters]
      have := h.simLen
      split at this <;> simp_all
    simLast := by
      rw [hi.simHist]
      split <;> simp
    funLast := fun hk => by
      rw [hi.funHist]
      simp [hk]
    simFirst := fun hk => by
      obtain ⟨σ, h1, h2⟩ := h.simFirst hk
      refine ⟨σ, ?_, ?_⟩
      · rw [hi.simHist]; simp [hk, h1]
      · rw [hi.funHist]; simp [hk, h2]
    pairs := fun hk => by
      rw [hi.simHist, hi.funHist, if_pos hk, if_pos hk]
      refine List.rel_append ((h.pairs hk).imp fun S F hp => ⟨hp.1, fun i => hi.old _ (hp.2 i)⟩) (.cons ⟨hi.sorted, hv⟩ .nil)
    simEvals := fun S hS i => by
      rw [hi.simHist] at hS
      split at hS
      · rcases List.mem_append.1 hS with hS | hS
        · obtain ⟨v, hv'⟩ := h.simEvals S hS i
          exact ⟨v, hi.old _ hv'⟩
        · simp at hS; subst hS; exact ⟨_, hv i⟩
      · simp at hS; subst hS; exact ⟨_, hv i⟩
    desc := by
      rw [hi.funHist]
      split
      · rw [List.pairwise_append]
        refine ⟨h.desc, by simp, fun F hF F' hF' => ?_⟩
        simp at hF'
        subst hF'
        exact hi.best0.trans (h.descLast F hF)
      · simp
    descLast := fun F hF => by
      rw [hi.funHist] at hF
      split at hF
      · rcases List.mem_append.1 hF with hF | hF
        · exact hi.best0.trans (h.descLast F hF)
        · simp at hF; subst hF; exact le_rfl
      · simp at hF
    noHist := fun hk => by rw [hi.funHist]; simp [hk] }

theorem nmInv_run (A : Arith d) (hd : 1 ≤ d) {argsort : Argsort d} (ha : IsArgsort argsort) (f : ℕ → Vec d → FVal) (P : NMParams) (sim0 : Sim d) :
    NMInv A f P sim0 (nmRun A P argsort f sim0) :=
  nmLoop_induct _ (fun _ hs _ => nmInv_iter hd ha hs) _ (nmInv_init A ha f P sim0)

end NF.FL
