import Verif.Props.FloatNM

/-! # C102, continued: the derivative cutoff, the search, and what changes with rounding -/

noncomputable section
open Classical
namespace NF
open Spec

variable {d : ℕ}

/-! ## The derivative cutoff -/

/-- a box without periodic boundary conditions -/
def openBox (d : ℕ) : CoordSys d := ⟨fun _ => 0, fun _ => 1, false⟩

/-- The computed length of the longest edge. -/
theorem longest_err {A : FL.Arith d} (hr : IsNearest A.rnd) (hv : A.Valid) (hd : (d + 1) * ulp ≤ 1 / 2) (S : Sim d) :
    |A.rnd (Real.sqrt (Finset.univ.sup' Finset.univ_nonempty fun ij : Fin (d + 1) × Fin (d + 1) =>
      if ij.1 < ij.2 then A.sum fun k => A.rnd (A.rnd (S ij.2 k - S ij.1 k) ^ 2) else 0)) - longestEdge S| ≤ 2 * (d + 2) * ulp * longestEdge S := by
  have hu := ulp_pos
  set g : Fin (d + 1) × Fin (d + 1) → ℝ := fun ij => if ij.1 < ij.2 then A.sum fun k => A.rnd (A.rnd (S ij.2 k - S ij.1 k) ^ 2) else 0 with hg
  have hpair : ∀ i j : Fin (d + 1), i < j → |A.rnd (Real.sqrt (g (i, j))) - eucl (S i) (S j)| ≤ 2 * (d + 2) * ulp * eucl (S i) (S j) := by
    intro i j hij
    have hD : FL.Distance A.rnd (openBox d) (S i) (S j) (A.rnd (Real.sqrt (g (i, j)))) := by
      refine ⟨g (i, j), ?_, rfl⟩
      simp only [hg, if_pos hij]
      exact hv.2 _
    have := fl_distance_err_open hr rfl hd hD
    rwa [CoordSys.distance_eucl rfl] at this
  have hle : ∀ i j, eucl (S i) (S j) ≤ longestEdge S := fun i j =>
    Finset.le_sup' (fun ij : Fin (d + 1) × Fin (d + 1) => Spec.eucl (S ij.1) (S ij.2)) (Finset.mem_univ (i, j))
  have he0 : ∀ i, eucl (S i) (S i) = 0 := fun i => by simp [eucl]
  have hsymm : ∀ i j, eucl (S i) (S j) = eucl (S j) (S i) := fun i j => by
    unfold eucl
    congr 1
    exact Finset.sum_congr rfl fun k _ => by ring
  have hL0 : 0 ≤ longestEdge S := by have := hle 0 0; rwa [he0] at this
  obtain ⟨⟨a, b⟩, -, hab⟩ := Finset.exists_mem_eq_sup' (Finset.univ_nonempty) g
  obtain ⟨⟨i, j⟩, -, hij⟩ := Finset.exists_mem_eq_sup' (Finset.univ_nonempty) (fun ij : Fin (d + 1) × Fin (d + 1) => Spec.eucl (S ij.1) (S ij.2))
  have hij' : longestEdge S = eucl (S i) (S j) := hij
  have hmono : ∀ x y, A.rnd (Real.sqrt (g (x, y))) ≤ A.rnd (Real.sqrt (Finset.univ.sup' Finset.univ_nonempty g)) := fun x y =>
    rnd_mono hr (Real.sqrt_le_sqrt (Finset.le_sup' g (Finset.mem_univ (x, y))))
  refine abs_le.2 ⟨?_, ?_⟩
  · have lower : ∀ x y : Fin (d + 1), x < y → eucl (S x) (S y) = longestEdge S →
        -(2 * (d + 2) * ulp * longestEdge S) ≤ A.rnd (Real.sqrt (Finset.univ.sup' Finset.univ_nonempty g)) - longestEdge S := by
      intro x y hxy e
      have h1 := (abs_le.1 (hpair x y hxy)).1
      rw [e] at h1
      have := hmono x y
      linarith
    rcases lt_trichotomy i j with h | h | h
    · exact lower i j h hij'.symm
    · rw [h, he0] at hij'
      rw [hij']
      have := rnd_nonneg hr (Real.sqrt_nonneg (Finset.univ.sup' Finset.univ_nonempty g))
      linarith
    · exact lower j i h (by rw [hij', hsymm])
  · rw [hab]
    by_cases h : a < b
    · have h1 := (abs_le.1 (hpair a b h)).2
      have h2 := hle a b
      have h3 : 2 * (d + 2) * ulp * eucl (S a) (S b) ≤ 2 * (d + 2) * ulp * longestEdge S := mul_le_mul_of_nonneg_left h2 (by positivity)
      linarith
    · simp only [hg, if_neg h, Real.sqrt_zero]
      rw [rnd_of_isFloat hr isFloat_zero]
      have : 0 ≤ 2 * (d + 2) * ulp * longestEdge S := by positivity
      linarith

theorem estimate_pos {A : FL.Arith d} {L v : ℝ} (hL : L ≠ 0) : FL.roundFVal A.rnd ((FVal.ofReal v).divReal L) = FVal.ofReal (A.rnd (v / L)) := by
  have e : (FVal.ofReal v).divReal L = FVal.ofReal (v / L) := by
    simp only [FVal.divReal, FVal.ofReal, if_neg hL]
    rw [← EReal.coe_div]
  rw [e]
  have hne : ¬ (((v / L : ℝ) : EReal) = ⊤ ∨ ((v / L : ℝ) : EReal) = ⊥) := by
    rintro (h | h)
    exacts [EReal.coe_ne_top _ h, EReal.coe_ne_bot _ h]
  show (if ((v / L : ℝ) : EReal) = ⊤ ∨ ((v / L : ℝ) : EReal) = ⊥ then FVal.ofReal (v / L) else FVal.ofReal (A.rnd ((v / L : ℝ) : EReal).toReal)) = _
  rw [if_neg hne, EReal.toReal_coe]

/-- The decision about the derivative cutoff, for a value `v ≥ 0`. -/
theorem cutoff_bounds {A : FL.Arith d} (hr : IsNearest A.rnd) (hv : A.Valid) (hd : (d + 1) * ulp ≤ 1 / 100) (S : Sim d) {v c : ℝ} (h0 : 0 ≤ v) :
    (¬ FVal.gt (FL.fprimeEstimate A S (FVal.ofReal v)) (FVal.ofReal c) → v ≤ c * longestEdge S * (1 + 2 * (d + 4) * ulp)) ∧
    (FVal.gt (FL.fprimeEstimate A S (FVal.ofReal v)) (FVal.ofReal c) → c * longestEdge S * (1 - 2 * (d + 4) * ulp) ≤ v) := by
  have hu := ulp_pos
  have hu1 := ulp_small
  have hL := longest_err hr hv (by linarith) S
  unfold FL.fprimeEstimate
  set L' := A.rnd (Real.sqrt (Finset.univ.sup' Finset.univ_nonempty fun ij : Fin (d + 1) × Fin (d + 1) =>
      if ij.1 < ij.2 then A.sum fun k => A.rnd (A.rnd (S ij.2 k - S ij.1 k) ^ 2) else 0)) with hL'
  have hL'0 : 0 ≤ L' := rnd_nonneg hr (Real.sqrt_nonneg _)
  have hL0 : 0 ≤ longestEdge S := by
    refine le_trans ?_ (Finset.le_sup' (fun ij : Fin (d + 1) × Fin (d + 1) => Spec.eucl (S ij.1) (S ij.2)) (Finset.mem_univ (0, 0)))
    exact Real.sqrt_nonneg _
  set L := longestEdge S
  obtain ⟨l1, l2⟩ := abs_le.1 hL
  have hd0 : (0 : ℝ) ≤ d := by positivity
  have heps : 2 * (d + 2) * ulp ≤ 1 / 20 := by nlinarith
  by_cases hz : L' = 0
  · have hLz : L = 0 := by
      rw [hz] at l1
      nlinarith
    rw [hz, hLz]
    refine ⟨fun h => ?_, fun h => ?_⟩
    · rcases h0.eq_or_lt with h | hpos
      · simp [← h]
      · exfalso
        apply h
        have : FL.roundFVal A.rnd ((FVal.ofReal v).divReal 0) = FVal.inf := by
          simp only [FVal.divReal, FVal.ofReal, if_true]
          rw [if_neg (by exact_mod_cast hpos.ne'), if_pos (by exact_mod_cast hpos)]
          show (if (⊤ : EReal) = ⊤ ∨ (⊤ : EReal) = ⊥ then FVal.inf else FVal.ofReal (A.rnd (⊤ : EReal).toReal)) = _
          rw [if_pos (.inl rfl)]
        rw [this]
        exact ⟨NMDemo.ofReal_ne_nan _, WithTop.coe_ne_top, WithTop.coe_lt_coe.2 (EReal.coe_lt_top c)⟩
    · simpa using h0
  · have hLp : 0 < L' := lt_of_le_of_ne hL'0 (Ne.symm hz)
    rw [estimate_pos hz]
    have e := abs_le.1 (rel_err' hr (v / L'))
    have hq : 0 ≤ v / L' := by positivity
    rw [abs_of_nonneg hq] at e
    have hq' := rnd_nonneg hr hq
    have hvq : v / L' * L' = v := div_mul_cancel₀ _ hz
    refine ⟨fun h => ?_, fun h => ?_⟩
    · have hle : A.rnd (v / L') ≤ c := by
        by_contra hlt
        exact h (NMDemo.flt.2 (not_le.1 hlt))
      have hc : 0 ≤ c := hq'.trans hle
      have h1 : v / L' * (1 - ulp) ≤ c := by linarith
      have h2 : v * (1 - ulp) ≤ c * L' := by
        have := mul_le_mul_of_nonneg_right h1 hL'0
        nlinarith
      have h3 : c * L' ≤ c * (L * (1 + 2 * (d + 2) * ulp)) := mul_le_mul_of_nonneg_left (by linarith) hc
      have hcL : 0 ≤ c * L := mul_nonneg hc hL0
      have h4 : 1 + 2 * (d + 2) * ulp ≤ (1 + 2 * (d + 4) * ulp) * (1 - ulp) := by nlinarith
      have h5 : c * L * (1 + 2 * (d + 2) * ulp) ≤ c * L * ((1 + 2 * (d + 4) * ulp) * (1 - ulp)) := mul_le_mul_of_nonneg_left h4 hcL
      have h6 : v * (1 - ulp) ≤ (c * L * (1 + 2 * (d + 4) * ulp)) * (1 - ulp) := by linarith
      exact le_of_mul_le_mul_right h6 (by linarith)
    · have hlt : c < A.rnd (v / L') := NMDemo.flt.1 h
      rcases lt_or_ge c 0 with hc | hc
      · have : c * L * (1 - 2 * (d + 4) * ulp) ≤ 0 := by
          have h1 : 0 ≤ 1 - 2 * (d + 4) * ulp := by nlinarith
          exact mul_nonpos_of_nonpos_of_nonneg (mul_nonpos_of_nonpos_of_nonneg hc.le hL0) h1
        linarith
      · have h1 : c ≤ v / L' * (1 + ulp) := by linarith
        have h2 : c * L' ≤ v * (1 + ulp) := by
          have := mul_le_mul_of_nonneg_right h1 hL'0
          nlinarith
        have h3 : c * (L * (1 - 2 * (d + 2) * ulp)) ≤ c * L' := mul_le_mul_of_nonneg_left (by linarith) hc
        have hcL : 0 ≤ c * L := mul_nonneg hc hL0
        have h4 : (1 - 2 * (d + 4) * ulp) * (1 + ulp) ≤ 1 - 2 * (d + 2) * ulp := by
          have : 0 ≤ (d + 4) * (ulp * ulp) := by positivity
          nlinarith
        have h5 : c * L * ((1 - 2 * (d + 4) * ulp) * (1 + ulp)) ≤ c * L * (1 - 2 * (d + 2) * ulp) := mul_le_mul_of_nonneg_left h4 hcL
        have h6 : (c * L * (1 - 2 * (d + 4) * ulp)) * (1 + ulp) ≤ v * (1 + ulp) := by linarith
        exact le_of_mul_le_mul_right h6 (by linarith)

/-- **C102** (derivative cutoff): for a function without NaN and negative values, a successful minimization has a value at most `cutoff` times the longest edge of the final
simplex, and a minimization which ended because of the cutoff (status 3) has at least that value, both up to a relative error of `2 (N + 4) 2⁻⁵³`. -/
theorem C102_cutoff {A : FL.Arith d} (hr : IsNearest A.rnd) (hv : A.Valid) (hd : 1 ≤ d) (hdu : ((d : ℝ) + 1) / 2 ^ 53 ≤ 1 / 100) {P : NMParams} {f : ℕ → Vec d → FVal} {sim0 : Sim d}
    {r : MinRes d} {evals : List (Vec d × FVal)} (h : IsFloatMinimization A P f sim0 r evals) {c : ℝ} (hc : P.fprimeCutoff = some c)
    {v : ℝ} (hval : r.value = FVal.ofReal v) (h0 : 0 ≤ v) :
    ∃ S, r.simplexHistory.getLast? = some S ∧ S 0 = r.pos ∧
      (r.success = true → v ≤ c * longestEdge S * (1 + 2 * (d + 4) / 2 ^ 53)) ∧
      (r.status = 3 → c * longestEdge S * (1 - 2 * (d + 4) / 2 ^ 53) ≤ v) := by
  obtain ⟨argsort, ha, rfl, rfl⟩ := h
  have hi := FL.nmInv_run A hd ha f P sim0
  set s := FL.nmRun A P argsort f sim0 with hs
  have hval' : npMin s.fsim = FVal.ofReal v := hval
  obtain ⟨b1, b2⟩ := cutoff_bounds hr hv (by unfold ulp; linarith) s.sim (c := c) h0
  have e : 2 * ((d : ℝ) + 4) / 2 ^ 53 = 2 * (d + 4) * ulp := by unfold ulp; ring
  rw [e]
  refine ⟨s.sim, hi.simLast, rfl, fun hsu => b1 ?_, fun hst => b2 ?_⟩
  · have hst : FL.nmStatus A P s = 0 := by simpa [FL.rootNelderMead, FL.nmResult] using hsu
    unfold FL.nmStatus at hst
    split_ifs at hst with h1 h2 h3
    simp only [FL.fprimeExceeded, hc, hval'] at h3
    exact h3
  · have hst : FL.nmStatus A P s = 3 := hst
    have h3 : FL.fprimeExceeded A P s.sim (npMin s.fsim) := by
      by_contra hne
      unfold FL.nmStatus at hst
      rw [if_neg hne] at hst
      split_ifs at hst <;> omega
    simp only [FL.fprimeExceeded, hc, hval'] at h3
    exact h3

/-! ## The search -/

/-- C102 (C43 with rounding) for both kinds of minimizations: success implies a finite value. -/
theorem C102_two_step_finite {A : FL.Arith d} (hr : IsNearest A.rnd) (hd : 1 ≤ d) {P : NMParams} {f : ℕ → Vec d → FVal} {fake : Option (ℕ → Vec d → FVal)} {sim0 : Sim d} {r : SRes d}
    (h : IsFloatTwoStep A P f fake sim0 r) (hs : r.success = true) (hft : P.ftol ≠ FVal.inf)
    (hc : P.fprimeCutoff = none ∨ ∀ n x, f n x ≠ FVal.nan) : Finite r.value := by
  have key : ∀ {P' : NMParams} {f' : ℕ → Vec d → FVal} {sim : Sim d} {r0 : MinRes d} {ev : List (Vec d × FVal)}, IsFloatMinimization A P' f' sim r0 ev →
      (∀ n x, f' n x ≠ FVal.nan) → ∀ q ∈ ev, q.2 ≠ FVal.nan := by
    intro P' f' sim r0 ev h2 hn q hq
    obtain ⟨k, hk⟩ := List.mem_iff_getElem?.1 hq
    rw [(C102_calls_recorded hd h2).2 k q.1 q.2 hk]
    exact hn _ _
  cases fake with
  | some fake =>
    obtain ⟨first, second, ev1, ev2, S, -, -, -, h2, e1, e2, e3, -⟩ := C102_two_step hd h
    rw [e2]
    obtain ⟨_, _, -, -, -, -, -, -, h7, -⟩ := C102_success_converged hr hd h2 (e3 ▸ hs) (hc.imp id fun hn => key h2 fun n x => hn _ x)
    obtain ⟨v, hv, -⟩ := h7 hft
    exact ⟨v, hv⟩
  | none =>
    obtain ⟨r0, ev, rfl, h2⟩ := C102_no_fake h
    obtain ⟨_, _, -, -, -, -, -, -, h7, -⟩ := C102_success_converged hr hd h2 hs (hc.imp id fun hn => key h2 hn)
    obtain ⟨v, hv, -⟩ := h7 hft
    exact ⟨v, hv⟩

theorem foundAt_float {rnd : ℝ → ℝ} (hr : IsNearest rnd) (hd : 1 ≤ d) {cs : CoordSys d} {P : NMParams} {G : Vec d → FVal → Prop} {s : Simplex d} {r : SRes d}
    (h : FloatMinimizationOf rnd P G s r) : FoundAt cs G (P.ftol ≠ FVal.inf ∧ (P.fprimeCutoff = none ∨ ∀ x, ¬ G x FVal.nan)) r := by
  obtain ⟨A, f, fake, sim0, rfl, -, hG, -, h⟩ := h
  refine ⟨?_, fun hn => ?_, fun hs hsu => C102_two_step_finite hr hd h hsu hs.1
    (hs.2.imp id fun hn n x e => hn x (e ▸ hG n x))⟩
  · obtain ⟨argsort, -, rfl⟩ := h
    intro ch an pa e
    cases fake with
    | none => simp [FL.runMinimization] at e
    | some fake =>
      simp only [FL.runMinimization, SRes.joined.injEq] at e
      exact e.2.2.symm
  · obtain ⟨k, -, hv⟩ := C102_true_function hd h hn
    exact ⟨r.pos, samePoint_refl _ _, by rw [hv]; exact hG _ _⟩

/-- **C102** (the search; C43 and C45 with rounding in the minimizations): with a finite `ftol`, and no derivative cutoff or a gap function that never returns NaN, in everything that a search
can reach every node has a finite value at most the threshold, which the gap function returned at that point.  (The arithmetic outside the minimizations is exact here.) -/
theorem C102_nodes_below_threshold {rnd : ℝ → ℝ} (hr : IsNearest rnd) (hd : 1 ≤ d) {p : CtlParams d} (hb : ProperBox p.coord) {P : NMParams} (hft : P.ftol ≠ FVal.inf)
    {G : Vec d → FVal → Prop} (hc : P.fprimeCutoff = none ∨ ∀ x, ¬ G x FVal.nan) {c : Ctl d} (h : ReachWith p (FloatMinimizationOf rnd P G) c) {r : SRes d}
    (hn : r ∈ c.state.result.nodes.values) :
    ∃ v : ℝ, r.value = FVal.ofReal v ∧ v ≤ p.gapThreshold ∧ ∃ x, SamePoint p.coord x r.pos ∧ G x (FVal.ofReal v) := by
  have hq := histQ_reach (Q := FoundAt p.coord G (P.ftol ≠ FVal.inf ∧ (P.fprimeCutoff = none ∨ ∀ x, ¬ G x FVal.nan))) (fun s r h => foundAt_float hr hd h)
    (fun r h => foundAt_reload hb h) h
  obtain ⟨r0, h0, e⟩ := histQ_results hq (List.mem_append_left _ hn)
  obtain ⟨⟨ops, h1, -⟩, -⟩ := hq
  obtain ⟨-, -, -, f4, -, -⟩ := h1.fields
  have hnode : IsNode p.gapThreshold r := by
    rw [f4, (C12_nodes_and_rejected p.coord p.gapThreshold p.distCutoff ops).1] at hn
    obtain ⟨r1, hr1, rfl⟩ := List.mem_map.1 hn
    exact (isNode_setPos _ _ _).2 (of_decide_eq_true (List.mem_filter.1 hr1).2)
  obtain ⟨v, hv⟩ : Finite r.value := by
    have h1 := hnode.1
    subst e
    simpa [movedTo] using h0.2.2 ⟨hft, hc⟩ (by simpa [movedTo] using h1)
  have h2 := hnode.2
  refine ⟨v, hv, ?_, ?_⟩
  · by_contra hlt
    rw [hv] at h2
    exact h2 (NMDemo.flt.2 (not_le.1 hlt))
  · have hne : r.value ≠ FVal.nan := by rw [hv]; exact NMDemo.ofReal_ne_nan v
    rw [← hv]
    subst e
    obtain ⟨x, hx, hg⟩ := h0.2.1 (by simpa [movedTo] using hne)
    refine ⟨x, samePoint_trans hx ?_, by simpa [movedTo] using hg⟩
    simp only [movedTo, SRes.pos_setPos]
    exact samePoint_normalize hb _

/-! ## Without rounding -/

theorem roundFVal_id (v : FVal) : FL.roundFVal id v = v := by
  match v with
  | none => rfl
  | some x =>
    show (if x = ⊤ ∨ x = ⊥ then ((x : EReal) : WithTop EReal) else FVal.ofReal (id x.toReal)) = ((x : EReal) : WithTop EReal)
    by_cases h : x = ⊤ ∨ x = ⊥
    · rw [if_pos h]
    · rw [if_neg h]
      push Not at h
      rw [FVal.ofReal, id, EReal.coe_toReal h.1 h.2]

theorem absDiff_id (a b : FVal) : FL.absDiff id a b = FVal.absDiff a b := rfl

theorem xbar_id {A : FL.Arith d} (h : A.rnd = id) (hv : A.Valid) (S : Sim d) : FL.xbar A S = xbar S := by
  funext k
  have := rndSum_id (h ▸ hv.1 fun i : Fin d => S i.castSucc k)
  rw [List.sum_ofFn] at this
  simp only [FL.xbar, xbar, h, id, this]

theorem outer_id {A : FL.Arith d} (h : A.rnd = id) (hv : A.Valid) (S : Sim d) (c : ℝ) : FL.nmOuter A S c = nmPoint S c := by
  funext k
  simp only [FL.nmOuter, nmPoint, xbar_id h hv, h, id]

theorem inner_id {A : FL.Arith d} (h : A.rnd = id) (hv : A.Valid) (S : Sim d) : FL.nmInner A S = nmPoint S (-0.5) := by
  funext k
  simp only [FL.nmInner, nmPoint, xbar_id h hv, h, id]
  ring

theorem scale_id {A : FL.Arith d} (h : A.rnd = id) (c : ℝ) (x0 x : Vec d) : FL.scaleFrom A c x0 x = fun k => x0 k + c * (x k - x0 k) := by
  funext k
  simp only [FL.scaleFrom, h, id]

theorem shrink_id {A : FL.Arith d} (h : A.rnd = id) (f : ℕ → Vec d → FVal) (s : NMState d) (tr : Trace d) : FL.nmShrink A f s tr = nmShrink f s tr := by
  simp only [FL.nmShrink, nmShrink, scale_id h]

theorem move_id {A : FL.Arith d} (h : A.rnd = id) (hv : A.Valid) (f : ℕ → Vec d → FVal) (s : NMState d) : FL.nmMove A f s = nmMove f s := by
  simp only [FL.nmMove, nmMove, outer_id h hv, inner_id h hv, shrink_id h]

theorem estimate_id {A : FL.Arith d} (h : A.rnd = id) (hv : A.Valid) (S : Sim d) (v : FVal) : FL.fprimeEstimate A S v = fprimeEstimate S v := by
  unfold FL.fprimeEstimate fprimeEstimate
  rw [h, roundFVal_id]
  simp only [id]
  congr 2
  have hsum : ∀ w : Fin d → ℝ, A.sum w = ∑ k, w k := fun w => by
    have := rndSum_id (h ▸ hv.2 w)
    rwa [List.sum_ofFn] at this
  have h0 : ∀ i j : Fin (d + 1), 0 ≤ ∑ k, (S j k - S i k) ^ 2 := fun i j => Finset.sum_nonneg fun k _ => sq_nonneg _
  apply le_antisymm
  · refine Finset.sup'_le _ _ fun ij _ => ?_
    split_ifs with hlt
    · rw [hsum]
      exact Finset.le_sup' (fun ij : Fin (d + 1) × Fin (d + 1) => ∑ k, (S ij.2 k - S ij.1 k) ^ 2) (Finset.mem_univ ij)
    · exact (h0 0 0).trans (Finset.le_sup' (fun ij : Fin (d + 1) × Fin (d + 1) => ∑ k, (S ij.2 k - S ij.1 k) ^ 2) (Finset.mem_univ (0, 0)))
  · refine Finset.sup'_le _ _ fun ij _ => ?_
    have hle : ∀ i j : Fin (d + 1), (if i < j then A.sum fun k => (S j k - S i k) ^ 2 else 0) ≤
        Finset.univ.sup' Finset.univ_nonempty fun ij : Fin (d + 1) × Fin (d + 1) => if ij.1 < ij.2 then A.sum fun k => (S ij.2 k - S ij.1 k) ^ 2 else 0 :=
      fun i j => Finset.le_sup' (fun ij : Fin (d + 1) × Fin (d + 1) => if ij.1 < ij.2 then A.sum fun k => (S ij.2 k - S ij.1 k) ^ 2 else 0) (Finset.mem_univ (i, j))
    rcases lt_trichotomy ij.1 ij.2 with hlt | he | hlt
    · have := hle ij.1 ij.2
      rwa [if_pos hlt, hsum] at this
    · have := hle ij.1 ij.1
      rw [if_neg (lt_irrefl _)] at this
      rw [he]
      simpa using this
    · have := hle ij.2 ij.1
      rw [if_pos hlt, hsum] at this
      refine le_trans (le_of_eq ?_) this
      exact Finset.sum_congr rfl fun k _ => by ring

theorem exceeded_id {A : FL.Arith d} (h : A.rnd = id) (hv : A.Valid) (P : NMParams) (S : Sim d) (v : FVal) : FL.fprimeExceeded A P S v = fprimeExceeded P S v := by
  unfold FL.fprimeExceeded fprimeExceeded
  cases P.fprimeCutoff with
  | none => rfl
  | some c => simp only [estimate_id h hv]

theorem loop_id {A : FL.Arith d} (h : A.rnd = id) (hv : A.Valid) (P : NMParams) (argsort : Argsort d) (f : ℕ → Vec d → FVal) (s : NMState d) :
    FL.nmLoop A P argsort f s = nmLoop P argsort f s := by
  have hiter : ∀ s, FL.nmIter A P argsort f s = nmIter P argsort f s := fun s => by
    simp only [FL.nmIter, nmIter, move_id h hv]
  have hcont : ∀ s, FL.nmContinue A P s ↔ nmContinue P s := fun s => by
    unfold FL.nmContinue nmContinue FL.nmConverged nmConverged
    rw [h]
    simp only [exceeded_id h hv, id, absDiff_id]
  induction hn : P.iterLimit d - s.iterations using Nat.strong_induction_on generalizing s with
  | _ n ih =>
    rw [FL.nmLoop, nmLoop]
    by_cases hc : nmContinue P s
    · rw [if_pos ((hcont s).2 hc), if_pos hc, hiter]
      refine ih _ ?_ _ rfl
      have h1 := hc.2.1
      have : (nmIter P argsort f s).iterations = s.iterations + 1 := by simp [nmIter, nmSort, nmMove_iterations]
      omega
    · rw [if_neg (fun h' => hc ((hcont s).1 h')), if_neg hc]

theorem root_id {A : FL.Arith d} (h : A.rnd = id) (hv : A.Valid) (P : NMParams) (argsort : Argsort d) (f : ℕ → Vec d → FVal) (sim0 : Sim d) :
    FL.rootNelderMead A P argsort f sim0 = rootNelderMead P argsort f sim0 := by
  have hst : ∀ s, FL.nmStatus A P s = nmStatus P s := fun s => by
    unfold FL.nmStatus nmStatus
    simp only [exceeded_id h hv]
  have hres : ∀ s, FL.nmResult A P s = nmResult P s := fun s => by
    unfold FL.nmResult nmResult
    rw [hst]
  simp only [FL.rootNelderMead, rootNelderMead, FL.nmRun, nmRun, loop_id h hv, hres]

/-- C102 (without rounding): if nothing is rounded, the minimizations of the floating-point model are the exact ones of the rest of the model. -/
theorem C102_exact_arithmetic {A : FL.Arith d} (h : A.rnd = id) (hv : A.Valid) (P : NMParams) (f : ℕ → Vec d → FVal) (fake : Option (ℕ → Vec d → FVal)) (sim0 : Sim d) :
    (∀ r evals, IsFloatMinimization A P f sim0 r evals ↔ IsMinimization P f sim0 r evals) ∧
    ∀ r, IsFloatTwoStep A P f fake sim0 r ↔ IsTwoStep P f fake sim0 r := by
  constructor
  · intro r evals
    unfold IsFloatMinimization IsMinimization
    simp only [root_id h hv, FL.nmRun, loop_id h hv, nmRun]
  · intro r
    unfold IsFloatTwoStep IsTwoStep
    have : ∀ argsort, FL.runMinimization A P argsort f fake sim0 = runMinimization P argsort f fake sim0 := fun argsort => by
      cases fake with
      | none => simp only [FL.runMinimization, runMinimization, root_id h hv]
      | some fake =>
        have hb : ∀ S : Sim d, FL.blowup A S = blowup S := fun S => by
          funext i
          simp only [FL.blowup, scale_id h]
          rfl
        have hf : FL.addFakePotential A fake f = addFakePotential fake f := by
          funext n x
          simp only [FL.addFakePotential, addFakePotential, h, roundFVal_id]
        simp only [FL.runMinimization, runMinimization, root_id h hv, hb, hf]
    simp only [this]

/-! ## What rounding changes: simplices can collapse -/

theorem rndSum_single {rnd : ℝ → ℝ} {l : List ℝ} {a : ℝ} (h : FL.RndSum rnd l a) : ∀ x, l = [x] → a = x := by
  induction h with
  | nil => intro x h; cases h
  | one y => intro x h; simpa using h
  | @add l l' a b hl hl' _ _ _ _ =>
    intro x h
    have := congrArg List.length h
    have h1 := List.length_pos_iff.2 hl
    have h2 := List.length_pos_iff.2 hl'
    simp at this
    omega
  | perm _ hp ih =>
    intro x h
    subst h
    exact ih x (List.perm_singleton.1 hp)

namespace C102Demo
open NMDemo (pt argsort_lt flt ofReal_ne_nan ofReal_lt)

/-- two adjacent floats -/
def sim0 : Sim 1 := ![pt 1, pt (1 + 1 / 2 ^ 52)]
/-- the distance from 1 -/
def g : Vec 1 → FVal := fun x => FVal.ofReal |x 0 - 1|
/-- no tolerance -/
def tight : NMParams := ⟨0, FVal.ofReal 0, none, none, none, true⟩

theorem float_one : IsFloat 1 := ⟨1, 0, by norm_num, by norm_num⟩
theorem float_next : IsFloat (1 + 1 / 2 ^ 52) := ⟨2 ^ 52 + 1, -52, by norm_num, by norm_num⟩

theorem reduce_one {A : FL.Arith 1} (hv : A.Valid) (v : Fin 1 → ℝ) : A.reduce v = v 0 :=
  rndSum_single (hv.1 v) _ (by simp)

theorem outer_one {A : FL.Arith 1} (hr : IsNearest A.rnd) (hv : A.Valid) : FL.nmOuter A sim0 1 = pt (1 - 1 / 2 ^ 52) := by
  funext k
  obtain rfl : k = 0 := Subsingleton.elim _ _
  have h1 : A.rnd 1 = 1 := rnd_of_isFloat hr float_one
  have h2 : A.rnd 2 = 2 := rnd_of_isFloat hr ⟨2, 0, by norm_num, by norm_num⟩
  have h3 : A.rnd (1 + 1 / 2 ^ 52) = 1 + 1 / 2 ^ 52 := rnd_of_isFloat hr float_next
  have h4 : A.rnd (1 - 1 / 2 ^ 52) = 1 - 1 / 2 ^ 52 := rnd_of_isFloat hr ⟨2 ^ 52 - 1, -52, by norm_num, by norm_num⟩
  have hx : FL.xbar A sim0 0 = 1 := by
    simp only [FL.xbar, reduce_one hv]
    simpa [sim0, pt] using h1
  simp only [FL.nmOuter, hx]
  have e : sim0 (Fin.last 1) 0 = 1 + 1 / 2 ^ 52 := rfl
  rw [e, one_mul, h3, show ((1 : ℝ) + 1) * 1 = 2 by norm_num, h2, show (2 : ℝ) - (1 + 1 / 2 ^ 52) = 1 - 1 / 2 ^ 52 by ring, h4]
  rfl

theorem inner_one {A : FL.Arith 1} (hr : IsNearest A.rnd) (hv : A.Valid) (ht : A.rnd (1 + 1 / 2 ^ 53) = 1) : FL.nmInner A sim0 = pt 1 := by
  funext k
  obtain rfl : k = 0 := Subsingleton.elim _ _
  have h1 : A.rnd 1 = 1 := rnd_of_isFloat hr float_one
  have h2 : A.rnd (1 / 2) = 1 / 2 := rnd_of_isFloat hr ⟨1, -1, by norm_num, by norm_num⟩
  have h3 : A.rnd (1 / 2 + 1 / 2 ^ 53) = 1 / 2 + 1 / 2 ^ 53 := rnd_of_isFloat hr ⟨2 ^ 52 + 1, -53, by norm_num, by norm_num⟩
  have hx : FL.xbar A sim0 0 = 1 := by
    simp only [FL.xbar, reduce_one hv]
    simpa [sim0, pt] using h1
  simp only [FL.nmInner, hx]
  have e : sim0 (Fin.last 1) 0 = 1 + 1 / 2 ^ 52 := rfl
  rw [e, show (0.5 : ℝ) * 1 = 1 / 2 by norm_num, h2, show (0.5 : ℝ) * (1 + 1 / 2 ^ 52) = 1 / 2 + 1 / 2 ^ 53 by norm_num, h3,
    show (1 : ℝ) / 2 + (1 / 2 + 1 / 2 ^ 53) = 1 + 1 / 2 ^ 53 by norm_num, ht]
  rfl

theorem g_one : g (pt 1) = FVal.ofReal 0 := by simp [g, pt]
theorem g_next : g (pt (1 + 1 / 2 ^ 52)) = FVal.ofReal (1 / 2 ^ 52) := by simp [g, pt]
theorem g_before : g (pt (1 - 1 / 2 ^ 52)) = FVal.ofReal (1 / 2 ^ 52) := by simp [g, pt]

theorem absDiff_real (rnd : ℝ → ℝ) (x y : ℝ) : FL.absDiff rnd (FVal.ofReal x) (FVal.ofReal y) = FVal.ofReal |rnd (x - y)| := by
  simp only [FL.absDiff, FVal.ofReal]
  rw [if_neg (by simp), if_neg (by
    rintro (h | h | h | h)
    exacts [EReal.coe_ne_top _ h, EReal.coe_ne_bot _ h, EReal.coe_ne_top _ h, EReal.coe_ne_bot _ h])]
  simp

theorem collapse_run {A : FL.Arith 1} (hr : IsNearest A.rnd) (hv : A.Valid) (ht : A.rnd (1 + 1 / 2 ^ 53) = 1) {argsort : Argsort 1} (ha : IsArgsort argsort) :
    (FL.rootNelderMead A tight argsort (fun _ => g) sim0).success = true ∧
    (FL.rootNelderMead A tight argsort (fun _ => g) sim0).simplexHistory.getLast? = some fun _ => pt 1 := by
  set f : ℕ → Vec 1 → FVal := fun _ => g with hf
  have hz : A.rnd 0 = 0 := rnd_of_isFloat hr isFloat_zero
  set s0 := nmInit tight argsort f sim0 with hs0
  have hord : argsort (fun i => f i (sim0 i)) = 1 := argsort_lt ha (by
    show g (pt 1) < g (pt (1 + 1 / 2 ^ 52))
    rw [g_one, g_next]
    exact ofReal_lt.2 (by norm_num))
  have hsim : s0.sim = sim0 := by
    simp only [hs0, nmInit, nmSort, hord]
    rfl
  have hfs0 : s0.fsim 0 = FVal.ofReal 0 := by
    simp only [hs0, nmInit, nmSort, hord]
    exact g_one
  have hfs1 : s0.fsim (Fin.last 1) = FVal.ofReal (1 / 2 ^ 52) := by
    simp only [hs0, nmInit, nmSort, hord]
    exact g_next
  have hnc : s0.tr.ncalls = 2 := by simp [hs0, nmInit, nmSort, ncalls_calls]
  have hit : s0.iterations = 1 := rfl
  have hlim : tight.fevLimit 1 = 200 ∧ tight.iterLimit 1 = 200 := ⟨rfl, rfl⟩
  have hcont : FL.nmContinue A tight s0 := by
    refine ⟨by rw [hnc, hlim.1]; norm_num, by rw [hit, hlim.2]; norm_num, id, fun hc => ?_⟩
    have := hc.1 0 0
    rw [hsim] at this
    have e : sim0 (Fin.succ 0) 0 - sim0 0 0 = 1 / 2 ^ 52 := by
      show (1 + 1 / 2 ^ 52 : ℝ) - 1 = _
      ring
    rw [e, rnd_of_isFloat hr ⟨1, -52, by norm_num, by norm_num⟩] at this
    norm_num [tight] at this
  have hmove : ∃ tr, tr.ncalls = 4 ∧ FL.nmMove A f s0 = setLast s0 (pt 1) (FVal.ofReal 0) tr := by
    refine ⟨(s0.tr.call f (pt (1 - 1 / 2 ^ 52))).call f (pt 1), by simp [Trace.call, hnc], ?_⟩
    have e2 : secondLast 1 = 0 := rfl
    unfold FL.nmMove
    simp only [hsim, outer_one hr hv, inner_one hr hv ht, hf, g_one, g_before, hfs0, hfs1, e2, flt]
    norm_num
  obtain ⟨tr, htr, hmove⟩ := hmove
  set s1 := FL.nmIter A tight argsort f s0 with hs1
  have hsim1 : s1.sim = fun _ => pt 1 := by
    funext i
    simp only [hs1, FL.nmIter, nmSort, hmove, setLast, Function.comp]
    have : ∀ j : Fin 2, Function.update s0.sim (Fin.last 1) (pt 1) j = pt 1 := fun j => by
      by_cases hj : j = Fin.last 1
      · rw [hj, Function.update_self]
      · rw [Function.update_of_ne hj, hsim]
        have : j = 0 := by
          fin_cases j
          · rfl
          · exact absurd rfl hj
        rw [this]
        rfl
    exact this _
  have hfsim1 : s1.fsim = fun _ => FVal.ofReal 0 := by
    funext i
    simp only [hs1, FL.nmIter, nmSort, hmove, setLast, Function.comp]
    have : ∀ j : Fin 2, Function.update s0.fsim (Fin.last 1) (FVal.ofReal 0) j = FVal.ofReal 0 := fun j => by
      by_cases hj : j = Fin.last 1
      · rw [hj, Function.update_self]
      · rw [Function.update_of_ne hj]
        have : j = 0 := by
          fin_cases j
          · rfl
          · exact absurd rfl hj
        rw [this, hfs0]
    exact this _
  have hit1 : s1.iterations = 2 := by simp [hs1, FL.nmIter, nmSort, FL.nmMove_iterations, hit]
  have hnc1 : s1.tr.ncalls = 4 := by
    have : s1.tr = tr := by simp only [hs1, FL.nmIter, nmSort, hmove, setLast]
    rw [this, htr]
  have hstop : ¬ FL.nmContinue A tight s1 := by
    intro hc
    apply hc.2.2.2
    refine ⟨fun i k => ?_, fun i => ?_⟩
    · rw [hsim1]
      simp [hz, tight]
    · rw [hfsim1]
      simp only
      rw [absDiff_real, sub_self, hz, abs_zero]
      exact ⟨ofReal_ne_nan _, ofReal_ne_nan _, le_rfl⟩
  have hrun : FL.nmRun A tight argsort f sim0 = s1 := by
    unfold FL.nmRun
    rw [FL.nmLoop, if_pos hcont, FL.nmLoop, if_neg hstop]
  have hst : FL.nmStatus A tight s1 = 0 := by
    unfold FL.nmStatus
    rw [hnc1, hit1, hlim.1, hlim.2]
    simp [FL.fprimeExceeded, tight]
  unfold FL.rootNelderMead
  rw [hrun]
  refine ⟨by simp [FL.nmResult, hst], ?_⟩
  show s1.simplexHistory.getLast? = _
  rw [← hsim1]
  simp [hs1, FL.nmIter, tight]

theorem pt_inj {x y : ℝ} (h : pt x = pt y) : x = y := congrFun h 0

/-- C102: with rounding a simplex can collapse to one point, which it cannot in exact arithmetic (C73).  With both tolerances zero, the minimization of `|x - 1|` from two adjacent floats reports
success with both vertices equal, if `1 + 2⁻⁵³` is rounded to 1 (to even, as is the default); in exact arithmetic it never succeeds. -/
theorem _root_.NF.C102_collapse {A : FL.Arith 1} (hr : IsNearest A.rnd) (hv : A.Valid) (ht : A.rnd (1 + 1 / 2 ^ 53) = 1) :
    (∀ r evals, IsFloatMinimization A tight (fun _ => g) sim0 r evals → r.success = true ∧ ∃ S, r.simplexHistory.getLast? = some S ∧ S 0 = S 1) ∧
    ∀ r evals, IsMinimization tight (fun _ => g) sim0 r evals → r.success = false := by
  constructor
  · rintro r evals ⟨argsort, ha, rfl, rfl⟩
    obtain ⟨h1, h2⟩ := collapse_run hr hv ht ha
    exact ⟨h1, _, h2, rfl⟩
  · intro r evals h
    by_contra hs
    have hs : r.success = true := by simpa using hs
    obtain ⟨S, F, h1, -, -, h4, -, h6, -⟩ := C39_success_converged le_rfl h hs (.inl rfl)
    have hind : AffineIndependent ℝ sim0 := affineIndependent_of_ne ℝ (by
      intro e
      have := pt_inj e
      norm_num at this)
    have hS := C73_stays_nondegenerate le_rfl h hind S (List.mem_of_getLast? h1)
    have e : S 1 = S 0 := by
      funext k
      have := h6 1 k
      rw [← h4] at this
      have := abs_nonpos_iff.1 this
      linarith
    exact absurd (hS.injective e) (by decide)

/-- rounding to nearest that rounds `1 + 2⁻⁵³` to 1 -/
def rndEven : ℝ → ℝ := Function.update rnd53 (1 + 1 / 2 ^ 53) 1

theorem rndEven_nearest : IsNearest rndEven := by
  intro x
  by_cases hx : x = 1 + 1 / 2 ^ 53
  · subst hx
    simp only [rndEven, Function.update_self]
    refine ⟨float_one, fun y hy => ?_⟩
    rw [show (1 : ℝ) - (1 + 1 / 2 ^ 53) = -(1 / 2 ^ 53) by ring, abs_neg, abs_of_pos (by positivity)]
    rcases lt_or_ge y 1 with h | h
    · rw [abs_of_neg (by norm_num; linarith)]
      linarith
    · obtain ⟨z, rfl⟩ := C74Demo.float_multiple hy 0 (by simpa using h)
      have e : (z : ℝ) * 2 ^ ((0 : ℤ) - 52) - (1 + 1 / 2 ^ 53) = ((2 * z - 2 ^ 53 - 1 : ℤ) : ℝ) * (1 / 2 ^ 53) := by
        push_cast
        norm_num
        ring
      rw [e, abs_mul, abs_of_pos (by positivity : (0 : ℝ) < 1 / 2 ^ 53)]
      have : (1 : ℝ) ≤ |((2 * z - 2 ^ 53 - 1 : ℤ) : ℝ)| := by
        rw [← Int.cast_abs]
        exact_mod_cast Int.one_le_abs (by omega)
      exact le_mul_of_one_le_left (by positivity) this
  · simp only [rndEven, Function.update_of_ne hx]
    exact C74_rounding_exists x

/-- sums from left to right -/
def arith (d : ℕ) (rnd : ℝ → ℝ) : FL.Arith d where
  rnd := rnd
  reduce v := Classical.choose (rndSum_exists rnd (List.ofFn v))
  sum v := Classical.choose (rndSum_exists rnd (List.ofFn v))

theorem arith_valid (d : ℕ) (rnd : ℝ → ℝ) : (arith d rnd).Valid :=
  ⟨fun v => Classical.choose_spec (rndSum_exists rnd (List.ofFn v)), fun v => Classical.choose_spec (rndSum_exists rnd (List.ofFn v))⟩

/-- the hypotheses of all these theorems hold for this minimization, whose result is a success with the value 0 -/
example : ∃ (A : FL.Arith 1) (r : MinRes 1) (evals : List (Vec 1 × FVal)), IsNearest A.rnd ∧ A.Valid ∧ A.rnd (1 + 1 / 2 ^ 53) = 1 ∧
    IsFloatMinimization A tight (fun _ => g) sim0 r evals ∧ r.success = true ∧ r.value ≠ FVal.nan ∧ (∀ i k, IsFloat (sim0 i k)) ∧ (∀ q ∈ evals, q.2 ≠ FVal.nan) := by
  have ht : (arith 1 rndEven).rnd (1 + 1 / 2 ^ 53) = 1 := by simp [arith, rndEven]
  have h : IsFloatMinimization (arith 1 rndEven) tight (fun _ => g) sim0 _ _ := ⟨fun v => Tuple.sort v, fun v => Tuple.monotone_sort v, rfl, rfl⟩
  have hq : ∀ q ∈ (FL.nmRun (arith 1 rndEven) tight (fun v => Tuple.sort v) (fun _ => g) sim0).tr.evals, q.2 ≠ FVal.nan := fun q hq => by
    obtain ⟨k, hk⟩ := List.mem_iff_getElem?.1 hq
    rw [(C102_calls_recorded le_rfl h).2 k q.1 q.2 hk]
    exact ofReal_ne_nan _
  refine ⟨_, _, _, rndEven_nearest, arith_valid _ _, ht, h, ((C102_collapse rndEven_nearest (arith_valid _ _) ht).1 _ _ h).1, ?_, ?_, hq⟩
  · obtain ⟨hm, -⟩ := C102_best_of_all_calls le_rfl h hq
    exact hq _ hm
  · intro i k
    fin_cases i
    exacts [float_one, float_next]

/-- a minimization with a derivative cutoff, and with a fake potential -/
example : ∃ (r : MinRes 1) (evals : List (Vec 1 × FVal)) (r' : SRes 1), IsFloatMinimization (arith 1 rndEven) { tight with fprimeCutoff := some 1 } (fun _ => g) sim0 r evals ∧
    IsFloatTwoStep (arith 1 rndEven) tight (fun _ => g) (some fun _ _ => FVal.ofReal 0) sim0 r' ∧ (((1 : ℕ) : ℝ) + 1) / 2 ^ 53 ≤ 1 / 100 :=
  ⟨_, _, _, ⟨fun v => Tuple.sort v, fun v => Tuple.monotone_sort v, rfl, rfl⟩, ⟨fun v => Tuple.sort v, fun v => Tuple.monotone_sort v, rfl⟩, by norm_num⟩

/-! ### A search in which a minimization of the constant function 0 gives a node -/

open Demo C45Demo in
theorem float_res {A : FL.Arith 1} (hr : IsNearest A.rnd) : FL.rootNelderMead A NMDemo.wideParams (fun v => Tuple.sort v) C45Demo.zero C45Demo.sim = C45Demo.res := by
  have hz : A.rnd 0 = 0 := rnd_of_isFloat hr isFloat_zero
  have hs : ∀ i j k, |C45Demo.sim i k - C45Demo.sim j k| ≤ 1 := fun i j k => by
    rcases C45Demo.sim_mem i with h | h <;> rcases C45Demo.sim_mem j with h' | h' <;> rw [h, h'] <;> simp [Demo.pt] <;> norm_num [abs_le]
  set s := nmInit NMDemo.wideParams (fun v => Tuple.sort v) C45Demo.zero C45Demo.sim with hsdef
  have hf : s.fsim = fun _ => FVal.ofReal 0 := rfl
  have hstop : ¬ FL.nmContinue A NMDemo.wideParams s := by
    intro hc
    apply hc.2.2.2
    refine ⟨fun i k => ?_, fun i => ?_⟩
    · have h1 := abs_le.1 (show |s.sim i.succ k - s.sim 0 k| ≤ 1 from hs _ _ k)
      refine abs_le.2 ⟨le_rnd hr ⟨-1, 0, by norm_num, by norm_num [NMDemo.wideParams]⟩ h1.1, rnd_le hr ⟨1, 0, by norm_num, by norm_num [NMDemo.wideParams]⟩ h1.2⟩
    · rw [hf]
      simp only
      rw [absDiff_real, sub_self, hz, abs_zero]
      exact ⟨ofReal_ne_nan _, ofReal_ne_nan _, (ofReal_lt.2 one_pos).le⟩
  have hrun : FL.nmRun A NMDemo.wideParams (fun v => Tuple.sort v) C45Demo.zero C45Demo.sim = s := by
    unfold FL.nmRun
    rw [FL.nmLoop, if_neg hstop]
  have hrun' : nmRun NMDemo.wideParams (fun v => Tuple.sort v) C45Demo.zero C45Demo.sim = s := C45Demo.const_loop hs _
  have hst : FL.nmStatus A NMDemo.wideParams s = nmStatus NMDemo.wideParams s := by
    unfold FL.nmStatus nmStatus FL.fprimeExceeded fprimeExceeded
    simp [NMDemo.wideParams]
  unfold FL.rootNelderMead C45Demo.res rootNelderMead
  rw [hrun, hrun']
  unfold FL.nmResult nmResult
  rw [hst]

open Demo C45Demo in
theorem float_reach {rnd : ℝ → ℝ} (hr : IsNearest rnd) : ReachWith params (FloatMinimizationOf rnd NMDemo.wideParams fun _ v => v = FVal.ofReal 0) (taskDone params c1 s (.plain res)) := by
  have h1 : ReachWith params (FloatMinimizationOf rnd NMDemo.wideParams fun _ v => v = FVal.ofReal 0) c1 :=
    .tail .start (.step (.tickFill c0 c1 rfl rfl (Or.inl (fun h => by have := h.2; rw [q0] at this; cases this)) fill0))
      (by intro s r h; simp [c1] at h)
  refine .tail h1 (.step (.done c1 s _ (by simp [c1, c0, startFresh, startFrom]) (by simp [c1]) (by intro _ _ _ h; cases h))) ?_
  intro s' r' h
  have : s' = s ∧ r' = .plain res := by
    rw [taskDone_of_mem _ run1] at h
    simpa [c1] using h
  obtain ⟨rfl, rfl⟩ := this
  exact ⟨arith 1 rnd, zero, none, C45Demo.sim, rfl, arith_valid 1 rnd, fun _ _ => rfl, s_eq, fun v => Tuple.sort v, fun v => Tuple.monotone_sort v, by
    simp only [FL.runMinimization, float_res (A := arith 1 rnd) hr]⟩

open Demo C45Demo in
example : ∃ rnd, IsNearest rnd ∧ ∃ c, ReachWith params (FloatMinimizationOf rnd NMDemo.wideParams fun _ v => v = FVal.ofReal 0) c ∧ c.state.result.nodes.values ≠ [] := by
  refine ⟨_, rndEven_nearest, _, float_reach rndEven_nearest, ?_⟩
  have hn : IsNode 1 (SRes.plain res) := by
    refine ⟨res_success.1, ?_⟩
    change ¬ FVal.gt res.value _
    rw [res_success.2]
    intro h
    have := NMDemo.flt.1 h
    norm_num at this
  have hres : (taskDone params c1 s (.plain res)).state.result = (c1.state.result.addResult (.plain res)).1 := by
    unfold taskDone
    simp only
    split <;> exact (processResult_cases params c1.state _).1
  rw [hres, Container.addResult_def, if_pos (by exact hn)]
  simp [CellList.values, CellList.addPoint]

end C102Demo

end NF
