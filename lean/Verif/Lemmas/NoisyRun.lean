import Verif.Lemmas.NoisyBudget
import Verif.Lemmas.OneDimRun
import Verif.Props.FloatNM

/-! # Nelder-Mead runs in one dimension, in floating-point arithmetic -/

noncomputable section
open Classical
namespace NF
open Spec NMDemo

variable {A : FL.Arith 1} {g : ℝ → ℝ} {m W η : ℝ}

theorem sum_one (S : Sim 1) : (∑ i : Fin 1, S i.castSucc 0) / ((1 : ℕ) : ℝ) = S 0 0 := by
  simp

/-- One iteration. -/
theorem fl_at1_iter (hr : IsNearest A.rnd) (hA : A.Valid) (hη : 26 * (ulp * (|m| + W)) ≤ η) {s : NMState 1} {a b : ℝ} (h : At1 g s a b) (ia : In IsFloat m W a) (ib : In IsFloat m W b)
    (hW : |a - m| + 2 * |b - a| + η ≤ W) {P : NMParams} {argsort : Argsort 1} (hs : IsArgsort argsort) {f : ℕ → Vec 1 → FVal}
    (hf : ∀ n (x : Vec 1), IsFloat (x 0) → |x 0 - m| ≤ W → f n x = FVal.ofReal (g (x 0))) :
    ∃ a' b' k, NMove g IsFloat m W η a b a' b' k ∧ At1 g (FL.nmIter A P argsort f s) a' b' ∧ (FL.nmIter A P argsort f s).tr.ncalls = s.tr.ncalls + k ∧
      (FL.nmIter A P argsort f s).iterations = s.iterations + 1 := by
  have hdu : ((1 : ℕ) : ℝ) * ulp ≤ 0.01 := by rw [Nat.cast_one, one_mul]; unfold ulp; norm_num
  have hW0 : 0 ≤ W := (abs_nonneg _).trans ia.2
  have hB : ∀ i, |s.sim i 0| ≤ |m| + W := by
    intro i
    have key : ∀ x, In IsFloat m W x → |x| ≤ |m| + W := fun x hx => by
      have := abs_add_le m (x - m)
      rw [add_sub_cancel] at this
      exact this.trans (by linarith [hx.2])
    fin_cases i
    · show |s.sim 0 0| ≤ _
      rw [h.xa]; exact key _ ia
    · show |s.sim 1 0| ≤ _
      rw [h.xb]; exact key _ ib
  have hη' : (6 * ((1 : ℕ) : ℝ) + 20) * (ulp * (|m| + W)) ≤ η := by norm_num; linarith
  have hu0 : 0 ≤ ulp * (|m| + W) := mul_nonneg ulp_pos.le (add_nonneg (abs_nonneg _) hW0)
  have hW2 := abs_le.1 (le_refl |a - m|)
  have hW3 := abs_le.1 (le_refl |b - a|)
  have hD0 := abs_nonneg (b - a)
  have pt : ∀ (x : Vec 1) (y : ℝ), IsFloat (x 0) → |x 0 - y| ≤ η → |y - a| ≤ 2 * |b - a| → Pt IsFloat m W η (x 0) y ∧ ∀ n, f n x = FVal.ofReal (g (x 0)) := by
    intro x y h1 h2 h3
    have h4 : |x 0 - m| ≤ W := by
      have q1 := abs_add_le (x 0 - y) (y - a)
      have q2 := abs_add_le (x 0 - y + (y - a)) (a - m)
      rw [show x 0 - y + (y - a) + (a - m) = x 0 - m by ring] at q2
      linarith
    have h2' := abs_le.1 h2
    exact ⟨⟨h1, h4, by linarith, by linarith⟩, fun n => hf n x h1 h4⟩
  have outer : ∀ c, 0 ≤ c → c ≤ 2 → |FL.nmOuter A s.sim c 0 - ((1 + c) * a - c * b)| ≤ η := by
    intro c h0 h2
    have := outer_err hr hA le_rfl hdu (S := s.sim) (k := 0) hB h0 h2
    rw [sum_one, h.xa, show s.sim (Fin.last 1) 0 = b from h.xb] at this
    exact this.trans hη'
  have hin : |FL.nmInner A s.sim 0 - (1 / 2 * a + 1 / 2 * b)| ≤ η := by
    have := inner_err hr hA le_rfl hdu (S := s.sim) (k := 0) hB
    rw [sum_one, h.xa, show s.sim (Fin.last 1) 0 = b from h.xb] at this
    exact this.trans hη'
  have hsc : |FL.scaleFrom A 0.5 (s.sim 0) (s.sim 1) 0 - (1 / 2 * a + 1 / 2 * b)| ≤ η := by
    have := scale_err hr (c := 0.5) (by norm_num) (by norm_num) (hB 0) (hB 1)
    rw [h.xa, h.xb, show a + 0.5 * (b - a) = 1 / 2 * a + 1 / 2 * b by norm_num; ring] at this
    linarith
  obtain ⟨pr, fr⟩ := pt (FL.nmOuter A s.sim 1) (2 * a - b) (hr _).1 (by have := outer 1 zero_le_one one_le_two; convert this using 2; ring)
    (by rw [show 2 * a - b - a = -(b - a) by ring, abs_neg]; linarith)
  obtain ⟨pe, fe⟩ := pt (FL.nmOuter A s.sim 2) (3 * a - 2 * b) (hr _).1 (by have := outer 2 zero_le_two le_rfl; convert this using 2; ring)
    (by rw [show 3 * a - 2 * b - a = -2 * (b - a) by ring, abs_mul]; norm_num)
  obtain ⟨po, fo⟩ := pt (FL.nmOuter A s.sim 0.5) (3 / 2 * a - 1 / 2 * b) (hr _).1 (by have := outer 0.5 (by norm_num) (by norm_num); convert this using 2; norm_num)
    (by rw [show 3 / 2 * a - 1 / 2 * b - a = -(1 / 2) * (b - a) by ring, abs_mul]; norm_num; linarith)
  obtain ⟨pi, fi⟩ := pt (FL.nmInner A s.sim) (1 / 2 * a + 1 / 2 * b) (hr _).1 hin
    (by rw [show 1 / 2 * a + 1 / 2 * b - a = 1 / 2 * (b - a) by ring, abs_mul]; norm_num; linarith)
  obtain ⟨ps, fs⟩ := pt (FL.scaleFrom A 0.5 (s.sim 0) (s.sim 1)) (1 / 2 * a + 1 / 2 * b) (hr _).1 hsc
    (by rw [show 1 / 2 * a + 1 / 2 * b - a = 1 / 2 * (b - a) by ring, abs_mul]; norm_num; linarith)
  have hsl : secondLast 1 = 0 := rfl
  have hlast : (Fin.last 1) = (1 : Fin 2) := rfl
  have main : ∃ z, ∃ k, (FL.nmMove A f s).sim 0 0 = a ∧ (FL.nmMove A f s).sim 1 0 = z ∧ (FL.nmMove A f s).fsim 0 = FVal.ofReal (g a) ∧ (FL.nmMove A f s).fsim 1 = FVal.ofReal (g z) ∧
      (FL.nmMove A f s).tr.ncalls = s.tr.ncalls + k ∧ (∀ {a' b'}, Sorted2 g a z a' b' → NMove g IsFloat m W η a b a' b' k) := by
    have set : ∀ (x : Vec 1) (z : ℝ) (tr : Trace 1), x 0 = z → (setLast s x (FVal.ofReal (g z)) tr).sim 0 0 = a ∧ (setLast s x (FVal.ofReal (g z)) tr).sim 1 0 = z ∧
        (setLast s x (FVal.ofReal (g z)) tr).fsim 0 = FVal.ofReal (g a) ∧ (setLast s x (FVal.ofReal (g z)) tr).fsim 1 = FVal.ofReal (g z) := by
      intro x z tr hx
      refine ⟨?_, ?_, ?_, ?_⟩
      · simp [setLast, Function.update, h.xa]
      · simp [setLast, hx]
      · simp [setLast, Function.update, h.fa]
      · simp [setLast]
    have shr : ∀ (tr : Trace 1), (FL.nmShrink A f s tr).sim 0 0 = a ∧ (FL.nmShrink A f s tr).sim 1 0 = FL.scaleFrom A 0.5 (s.sim 0) (s.sim 1) 0 ∧
        (FL.nmShrink A f s tr).fsim 0 = FVal.ofReal (g a) ∧ (FL.nmShrink A f s tr).fsim 1 = FVal.ofReal (g (FL.scaleFrom A 0.5 (s.sim 0) (s.sim 1) 0)) ∧ (FL.nmShrink A f s tr).tr.ncalls = tr.ncalls + 1 := by
      intro tr
      refine ⟨?_, ?_, ?_, ?_, ?_⟩
      · simp [FL.nmShrink, h.xa]
      · rfl
      · simp [FL.nmShrink, h.fa]
      · show f _ _ = _
        exact fs _
      · simp [FL.nmShrink, ncalls_calls]
    unfold FL.nmMove
    simp only [fr, fe, fo, fi, hsl, hlast, h.fa, h.fb, flt, fle]
    by_cases c1 : g (FL.nmOuter A s.sim 1 0) < g a
    · rw [if_pos c1]
      by_cases c2 : g (FL.nmOuter A s.sim 2 0) < g (FL.nmOuter A s.sim 1 0)
      · rw [if_pos c2]
        obtain ⟨q1, q2, q3, q4⟩ := set (FL.nmOuter A s.sim 2) _ ((s.tr.call f (FL.nmOuter A s.sim 1)).call f (FL.nmOuter A s.sim 2)) rfl
        refine ⟨_, 2, q1, q2, q3, q4, by simp [setLast, Trace.call], ?_⟩
        rintro a' b' (⟨rfl, rfl, h3⟩ | ⟨rfl, rfl, -⟩)
        · exact absurd (c2.trans c1) (not_lt.2 h3)
        · exact .expand pr pe c1 c2
      · rw [if_neg c2]
        obtain ⟨q1, q2, q3, q4⟩ := set (FL.nmOuter A s.sim 1) _ ((s.tr.call f (FL.nmOuter A s.sim 1)).call f (FL.nmOuter A s.sim 2)) rfl
        refine ⟨_, 2, q1, q2, q3, q4, by simp [setLast, Trace.call], ?_⟩
        rintro a' b' (⟨rfl, rfl, h3⟩ | ⟨rfl, rfl, -⟩)
        · exact absurd c1 (not_lt.2 h3)
        · exact .reflect pr pe c1 (not_lt.1 c2)
    · rw [if_neg c1, if_neg c1]
      have c1' := not_lt.1 c1
      by_cases c3 : g (FL.nmOuter A s.sim 1 0) < g b
      · rw [if_pos c3]
        by_cases c4 : g (FL.nmOuter A s.sim 0.5 0) ≤ g (FL.nmOuter A s.sim 1 0)
        · rw [if_pos c4]
          obtain ⟨q1, q2, q3, q4⟩ := set (FL.nmOuter A s.sim 0.5) _ ((s.tr.call f (FL.nmOuter A s.sim 1)).call f (FL.nmOuter A s.sim 0.5)) rfl
          exact ⟨_, 2, q1, q2, q3, q4, by simp [setLast, Trace.call], fun h6 => .outside pr po c1' c3 c4 h6⟩
        · rw [if_neg c4]
          obtain ⟨q1, q2, q3, q4, q5⟩ := shr ((s.tr.call f (FL.nmOuter A s.sim 1)).call f (FL.nmOuter A s.sim 0.5))
          exact ⟨_, 3, q1, q2, q3, q4, by rw [q5]; simp [Trace.call], fun h6 => .shrinkOut pr po ps c1' c3 (not_le.1 c4) h6⟩
      · rw [if_neg c3]
        by_cases c4 : g (FL.nmInner A s.sim 0) < g b
        · rw [if_pos c4]
          obtain ⟨q1, q2, q3, q4⟩ := set (FL.nmInner A s.sim) _ ((s.tr.call f (FL.nmOuter A s.sim 1)).call f (FL.nmInner A s.sim)) rfl
          exact ⟨_, 2, q1, q2, q3, q4, by simp [setLast, Trace.call], fun h6 => .inside pr pi c1' (not_lt.1 c3) c4 h6⟩
        · rw [if_neg c4]
          obtain ⟨q1, q2, q3, q4, q5⟩ := shr ((s.tr.call f (FL.nmOuter A s.sim 1)).call f (FL.nmInner A s.sim))
          exact ⟨_, 3, q1, q2, q3, q4, by rw [q5]; simp [Trace.call], fun h6 => .shrinkIn pr pi ps c1' (not_lt.1 c3) (not_lt.1 c4) h6⟩
  obtain ⟨z, k, h1, h2, h3, h4, h5, h6⟩ := main
  have hit : (FL.nmIter A P argsort f s).iterations = s.iterations + 1 := by simp [FL.nmIter, nmSort, FL.nmMove_iterations]
  rcases at1_sort (g := g) (s := FL.nmMove A f s) hs h1 h2 h3 h4 with ⟨h7, h8⟩ | ⟨h7, h8⟩
  · exact ⟨a, z, k, h6 (.inl ⟨rfl, rfl, h7⟩), ⟨h8.xa, h8.xb, h8.fa, h8.fb, h8.le⟩, h5, hit⟩
  · exact ⟨z, a, k, h6 (.inr ⟨rfl, rfl, h7⟩), ⟨h8.xa, h8.xb, h8.fa, h8.fb, h8.le⟩, h5, hit⟩

/-- The first state. -/
theorem fl_at1_init {P : NMParams} {argsort : Argsort 1} (ha : IsArgsort argsort) {f : ℕ → Vec 1 → FVal}
    (hf : ∀ n (x : Vec 1), IsFloat (x 0) → |x 0 - m| ≤ W → f n x = FVal.ofReal (g (x 0))) {sim0 : Sim 1} (hW : ∀ i, In IsFloat m W (sim0 i 0)) :
    ∃ a b, At1 g (nmInit P argsort f sim0) a b ∧ ((a = sim0 0 0 ∧ b = sim0 1 0) ∨ (a = sim0 1 0 ∧ b = sim0 0 0)) ∧
      (nmInit P argsort f sim0).tr.ncalls = 2 ∧ (nmInit P argsort f sim0).iterations = 1 := by
  have hc : (nmInit P argsort f sim0).tr.ncalls = 2 := by
    simp [nmInit, nmSort, ncalls_calls]
  rcases at1_sort (g := g) (s := { sim := sim0, fsim := (fun i => f i (sim0 i)), tr := Trace.calls f ⟨0, []⟩ (List.ofFn sim0), iterations := 1, simplexHistory := [], funHistory := [] }) ha rfl rfl
    (hf _ _ (hW 0).1 (hW 0).2) (hf _ _ (hW 1).1 (hW 1).2) with ⟨-, h⟩ | ⟨-, h⟩
  · exact ⟨_, _, ⟨h.xa, h.xb, h.fa, h.fb, h.le⟩, .inl ⟨rfl, rfl⟩, hc, rfl⟩
  · exact ⟨_, _, ⟨h.xa, h.xb, h.fa, h.fb, h.le⟩, .inr ⟨rfl, rfl⟩, hc, rfl⟩

theorem ulp_le (hη : 26 * (ulp * (|m| + W)) ≤ η) {a b : ℝ} (ha : |a - m| ≤ W) (hb : |b - m| ≤ W) : ulp * |b - a| ≤ η / 13 := by
  have h1 : |b - a| ≤ 2 * (|m| + W) := by
    have := abs_add_le (b - m) (m - a)
    rw [show b - m + (m - a) = b - a by ring, abs_sub_comm m a] at this
    have := abs_nonneg m
    linarith
  have := mul_le_mul_of_nonneg_left h1 ulp_pos.le
  linarith

theorem rnd_diff_le (hr : IsNearest A.rnd) (hη : 26 * (ulp * (|m| + W)) ≤ η) {a b : ℝ} (ha : |a - m| ≤ W) (hb : |b - m| ≤ W) : |A.rnd (b - a)| ≤ |b - a| + η / 13 ∧ |b - a| ≤ |A.rnd (b - a)| + η / 13 := by
  have h1 := rel_err' hr (b - a)
  have h2 := ulp_le hη ha hb
  have h3 := abs_add_le (A.rnd (b - a) - (b - a)) (b - a)
  rw [sub_add_cancel] at h3
  have h4 := abs_sub_abs_le_abs_sub (b - a) (A.rnd (b - a))
  rw [abs_sub_comm (b - a) (A.rnd (b - a))] at h4
  constructor <;> linarith

/-- Wherever the run ends, the minimum is not far, or the simplex has never become smaller. -/
theorem fl_run_near (hr : IsNearest A.rnd) (hA : A.Valid) (hv : NoisyValley g m W η) (hη0 : 0 ≤ η) (hη : 26 * (ulp * (|m| + W)) ≤ η) {H D0 X : ℝ} (hHW : 5 * H + 46 * η ≤ W) (hX : 11 * η ≤ X) (hD0 : 4 * η < D0)
    {P : NMParams} {argsort : Argsort 1} (ha : IsArgsort argsort) {f : ℕ → Vec 1 → FVal} (hf : ∀ n (x : Vec 1), IsFloat (x 0) → |x 0 - m| ≤ W → f n x = FVal.ofReal (g (x 0))) {sim0 : Sim 1}
    (hfl : ∀ i, IsFloat (sim0 i 0)) (hH : ∀ i, |sim0 i 0 - m| ≤ H) (hH' : |sim0 1 0 - sim0 0 0| ≤ H)
    (hN : ∀ i, (∀ j, g (sim0 i 0) ≤ g (sim0 j 0)) → D0 ≤ |sim0 1 0 - sim0 0 0| ∨ |sim0 i 0 - m| ≤ 2 * |sim0 1 0 - sim0 0 0| + 3 * η ∨ |sim0 i 0 - m| ≤ X) :
    ∃ a b, At1 g (FL.nmRun A P argsort f sim0) a b ∧ In IsFloat m W a ∧ In IsFloat m W b ∧ (D0 ≤ |b - a| ∨ |a - m| ≤ 2 * |b - a| + X + 9 * η) := by
  have hH0 : 0 ≤ H := (abs_nonneg _).trans hH'
  have he := hη0
  have hs := hv.sees
  have hW : ∀ i, In IsFloat m W (sim0 i 0) := fun i => ⟨hfl i, by linarith [hH i]⟩
  have main : ∃ a b, At1 g (FL.nmRun A P argsort f sim0) a b ∧ In IsFloat m W a ∧ In IsFloat m W b ∧ Dom g IsFloat m W η H a b ∧ NNear g IsFloat m W η D0 X a b := by
    refine FL.nmLoop_induct (fun s => ∃ a b, At1 g s a b ∧ In IsFloat m W a ∧ In IsFloat m W b ∧ Dom g IsFloat m W η H a b ∧ NNear g IsFloat m W η D0 X a b) ?_ _ ?_
    · rintro s ⟨a, b, h1, h2, h3, h4, h5⟩ -
      obtain ⟨a', b', k, h6, h7, -⟩ := fl_at1_iter hr hA hη h1 h2 h3 (by linarith [h4.bound hs he hH0 h2]) (P := P) ha hf
      exact ⟨a', b', h7, (h6.in h2).1, (h6.in h2).2, h4.step hs he hH0 h2 h6, h5.step hs he hX hD0 h2 h3 h1.le h6⟩
    · obtain ⟨a, b, h1, h2, -⟩ := fl_at1_init (P := P) ha hf hW
      have habs : |b - a| = |sim0 1 0 - sim0 0 0| := by
        rcases h2 with ⟨rfl, rfl⟩ | ⟨rfl, rfl⟩
        · rfl
        · exact abs_sub_comm _ _
      have hia : ∃ i, a = sim0 i 0 ∧ ∀ j, g (sim0 i 0) ≤ g (sim0 j 0) := by
        have := h1.le
        rcases h2 with ⟨rfl, rfl⟩ | ⟨rfl, rfl⟩
        · refine ⟨0, rfl, fun j => ?_⟩
          fin_cases j
          exacts [le_rfl, this]
        · refine ⟨1, rfl, fun j => ?_⟩
          fin_cases j
          exacts [this, le_rfl]
      have hib : In IsFloat m W b := by
        rcases h2 with ⟨rfl, rfl⟩ | ⟨rfl, rfl⟩
        exacts [hW 1, hW 0]
      obtain ⟨i, hi, hbest⟩ := hia
      have hia : In IsFloat m W a := hi ▸ hW i
      have low : ∀ Y, |a - m| ≤ Y → Low1 g IsFloat m W Y a := fun Y hY => by
        have := abs_le.1 hY
        rcases le_total a m with h | h
        · exact .inl ⟨h, a, hia, by linarith, h, le_rfl⟩
        · exact .inr ⟨h, a, hia, by linarith, h, le_rfl⟩
      refine ⟨a, b, h1, hia, hib, .inl ⟨low H (hi ▸ hH i), by rw [habs]; linarith⟩, ?_⟩
      have := hN i hbest
      rw [← hi, ← habs] at this
      exact this.imp id fun h => h.imp id fun h => .inl (low X h)
  obtain ⟨a, b, h1, h2, h3, -, h5⟩ := main
  exact ⟨a, b, h1, h2, h3, h5.bound hs he hX h2⟩

/-- Within a bounded number of steps, the run ends successfully. -/
theorem fl_run_succeeds (hr : IsNearest A.rnd) (hA : A.Valid) (hv : NoisyValley g m W η) (hη0 : 0 ≤ η) (hη : 26 * (ulp * (|m| + W)) ≤ η) {H R δ d0 : ℝ} {K K1 : ℕ} (hHW : 5 * H + 46 * η ≤ W)
    (hδ : 100 * η ≤ δ) (hδ0 : 0 < δ) (hd0 : 100 * η ≤ d0) (hd00 : 0 < d0) (hK : R ≤ 2 ^ K * δ) (hK1 : R ≤ 2 ^ K1 * d0)
    {P : NMParams} (hx : δ + 7 * η ≤ P.xtol)
    (hft : ∀ x y, IsFloat x → IsFloat y → |x - m| ≤ 4 * δ → |y - m| ≤ 4 * δ → FVal.le (FL.absDiff A.rnd (FVal.ofReal (g x)) (FVal.ofReal (g y))) P.ftol) (hc : P.fprimeCutoff = none)
    (hit : 3 * K + K1 + 5 < P.iterLimit 1) (hfe : 6 * K + 2 * K1 + 10 < P.fevLimit 1)
    {argsort : Argsort 1} (ha : IsArgsort argsort) {f : ℕ → Vec 1 → FVal} (hf : ∀ n (x : Vec 1), IsFloat (x 0) → |x 0 - m| ≤ W → f n x = FVal.ofReal (g (x 0))) {sim0 : Sim 1}
    (hfl : ∀ i, IsFloat (sim0 i 0)) (hH : ∀ i, |sim0 i 0 - m| ≤ H) (hH' : |sim0 1 0 - sim0 0 0| ≤ H)
    (hD : (∀ i, |sim0 i 0 - m| + |sim0 1 0 - sim0 0 0| ≤ R ∧ d0 + η ≤ |sim0 1 0 - sim0 0 0|) ∨ (|sim0 1 0 - sim0 0 0| ≤ δ + 6 * η ∧ ∀ i, |sim0 i 0 - m| ≤ 4 * δ)) :
    (FL.rootNelderMead A P argsort f sim0).success = true := by
  have hH0 : 0 ≤ H := (abs_nonneg _).trans hH'
  have hs := hv.sees
  have hW : ∀ i, In IsFloat m W (sim0 i 0) := fun i => ⟨hfl i, by linarith [hH i]⟩
  have conv : ∀ (s : NMState 1) (a b : ℝ), At1 g s a b → In IsFloat m W a → In IsFloat m W b → |b - a| ≤ δ + 6 * η → |a - m| ≤ 4 * δ → |b - m| ≤ 4 * δ → FL.nmConverged A P s := by
    intro s a b h1 i1 i2 h3 e2 e3
    constructor
    · intro i k
      fin_cases i
      fin_cases k
      show |A.rnd (s.sim 1 0 - s.sim 0 0)| ≤ P.xtol
      rw [h1.xa, h1.xb]
      have := (rnd_diff_le hr hη i1.2 i2.2).1
      linarith
    · intro i
      fin_cases i
      show FVal.le (FL.absDiff A.rnd (s.fsim 0) (s.fsim 1)) P.ftol
      rw [h1.fa, h1.fb]
      exact hft a b i1.1 i2.1 e2 e3
  have conv' : ∀ (s : NMState 1) (a b : ℝ), At1 g s a b → In IsFloat m W a → In IsFloat m W b → |b - a| ≤ δ + 6 * η ∧ Close m η a b → FL.nmConverged A P s := by
    intro s a b h1 i1 i2 ⟨h3, h4⟩
    unfold Close at h4
    refine conv s a b h1 i1 i2 h3 (by linarith) ?_
    have := abs_add_le (b - a) (a - m)
    rw [show b - a + (a - m) = b - m by ring] at this
    linarith
  have main := FL.nmLoop_induct (A := A) (P := P) (argsort := argsort) (f := f) (fun s => FL.nmConverged A P s ∧ s.iterations ≤ 3 * K + K1 + 5 ∧ s.tr.ncalls ≤ 6 * K + 2 * K1 + 10 ∨
      ∃ a b n, At1 g s a b ∧ In IsFloat m W a ∧ In IsFloat m W b ∧ Dom g IsFloat m W η H a b ∧ NBudget g IsFloat m W η R δ d0 K K1 a b n ∧
      s.iterations + n ≤ 3 * K + K1 + 5 ∧ s.tr.ncalls + 2 * n ≤ 6 * K + 2 * K1 + 10) (by
    rintro s (⟨h, -⟩ | ⟨a, b, n, h1, h2, h3, h4, h5, h6, h7⟩) hcont
    · exact absurd h hcont.2.2.2
    obtain ⟨a', b', k, h8, h9, h10, h11⟩ := fl_at1_iter hr hA hη h1 h2 h3 (by linarith [h4.bound hs hη0 hH0 h2]) (P := P) ha hf
    obtain ⟨rfl, n', h12, h13⟩ := h5.step hs hη0 hδ hδ0 hd0 hd00 hK hK1 h2 h3 h1.le (fun h => hcont.2.2.2 (conv' s a b h1 h2 h3 h)) h8
    exact .inr ⟨a', b', n', h9, (h8.in h2).1, (h8.in h2).2, h4.step hs hη0 hH0 h2 h8, h13, by omega, by omega⟩) (nmInit P argsort f sim0) (by
    obtain ⟨a, b, h1, h2, h3, h4⟩ := fl_at1_init (P := P) ha hf hW
    have habs : |b - a| = |sim0 1 0 - sim0 0 0| := by
      rcases h2 with ⟨rfl, rfl⟩ | ⟨rfl, rfl⟩
      · rfl
      · exact abs_sub_comm _ _
    have hiab : ∃ i j, a = sim0 i 0 ∧ b = sim0 j 0 := by
      rcases h2 with ⟨rfl, rfl⟩ | ⟨rfl, rfl⟩
      exacts [⟨0, 1, rfl, rfl⟩, ⟨1, 0, rfl, rfl⟩]
    obtain ⟨i, j, hi, hj⟩ := hiab
    have ia : In IsFloat m W a := hi ▸ hW i
    have ib : In IsFloat m W b := hj ▸ hW j
    rcases hD with hD | ⟨hD1, hD2⟩
    · right
      have hDi := hD i
      rw [← hi, ← habs] at hDi
      have hpos : 0 < |b - a| := by linarith [hDi.2]
      have hne : a ≠ b := fun h => by rw [h, sub_self, abs_zero] at hpos; exact lt_irrefl _ hpos
      have hdom : Dom g IsFloat m W η H a b := by
        refine .inl ⟨?_, by rw [habs]; linarith⟩
        have := abs_le.1 (hi ▸ hH i : |a - m| ≤ H)
        rcases le_total a m with h | h
        · exact .inl ⟨h, a, ia, by linarith, h, le_rfl⟩
        · exact .inr ⟨h, a, ia, by linarith, h, le_rfl⟩
      exact ⟨a, b, _, h1, ia, ib, hdom, .far 0 hDi.1 hne (Nat.zero_le _) (by rw [pow_zero, one_mul]; exact hDi.2), by rw [h4]; omega, by rw [h3]; omega⟩
    · left
      exact ⟨conv _ a b h1 ia ib (habs ▸ hD1) (hi ▸ hD2 i) (hj ▸ hD2 j), by rw [h4]; omega, by rw [h3]; omega⟩)
  have hlim : (FL.nmLoop A P argsort f (nmInit P argsort f sim0)).iterations ≤ 3 * K + K1 + 5 ∧ (FL.nmLoop A P argsort f (nmInit P argsort f sim0)).tr.ncalls ≤ 6 * K + 2 * K1 + 10 := by
    rcases main with ⟨-, h⟩ | ⟨a, b, n, -, -, -, -, -, h4, h5⟩
    · exact h
    · exact ⟨by omega, by omega⟩
  show decide (FL.nmStatus A P (FL.nmLoop A P argsort f (nmInit P argsort f sim0)) = 0) = true
  unfold FL.nmStatus FL.fprimeExceeded
  rw [hc, if_neg (by omega), if_neg (by omega), if_neg (by simp)]
  rfl

end NF
