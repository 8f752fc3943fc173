import Verif.Lemmas.OneDim
import Verif.Props.NelderMead

/-! # Nelder-Mead runs in one dimension -/

noncomputable section
open Classical
namespace NF
open Spec NMDemo

/-- the vertices of the simplex are `a` and `b` with the values of `g`, `a` is the better one -/
structure At1 (g : ℝ → ℝ) (s : NMState 1) (a b : ℝ) : Prop where
  xa : s.sim 0 0 = a
  xb : s.sim 1 0 = b
  fa : s.fsim 0 = FVal.ofReal (g a)
  fb : s.fsim 1 = FVal.ofReal (g b)
  le : g a ≤ g b

theorem ofReal_le {a b : ℝ} : FVal.ofReal a ≤ FVal.ofReal b ↔ a ≤ b := by
  unfold FVal.ofReal
  rw [WithTop.coe_le_coe, EReal.coe_le_coe_iff]

theorem fle {a b : ℝ} : FVal.le (FVal.ofReal a) (FVal.ofReal b) ↔ a ≤ b :=
  ⟨fun h => ofReal_le.1 h.2.2, fun h => ⟨ofReal_ne_nan _, ofReal_ne_nan _, ofReal_le.2 h⟩⟩

theorem at1_sort {g : ℝ → ℝ} {s : NMState 1} {argsort : Argsort 1} (ha : IsArgsort argsort) {x y : ℝ} (h0 : s.sim 0 0 = x) (h1 : s.sim 1 0 = y)
    (f0 : s.fsim 0 = FVal.ofReal (g x)) (f1 : s.fsim 1 = FVal.ofReal (g y)) :
    (g x ≤ g y ∧ At1 g (nmSort argsort s) x y) ∨ (g y ≤ g x ∧ At1 g (nmSort argsort s) y x) := by
  have hs := ha s.fsim (show (0 : Fin 2) ≤ 1 by decide)
  rcases perm_two (argsort s.fsim) with e | e
  · rw [e] at hs
    have hs : s.fsim 0 ≤ s.fsim 1 := hs
    rw [f0, f1, ofReal_le] at hs
    exact .inl ⟨hs, by simp [nmSort, e, h0], by simp [nmSort, e, h1], by simp [nmSort, e, f0], by simp [nmSort, e, f1], hs⟩
  · rw [e] at hs
    have hs : s.fsim 1 ≤ s.fsim 0 := by simpa using hs
    rw [f0, f1, ofReal_le] at hs
    exact .inr ⟨hs, by simp [nmSort, e, h1], by simp [nmSort, e, h0], by simp [nmSort, e, f1], by simp [nmSort, e, f0], hs⟩

theorem at1_point {g : ℝ → ℝ} {s : NMState 1} {a b : ℝ} (h : At1 g s a b) (c : ℝ) : nmPoint s.sim c 0 = (1 + c) * a - c * b := by
  have e : xbar s.sim 0 = a := by simp [xbar, h.xa]
  show (1 + c) * xbar s.sim 0 - c * s.sim 1 0 = _
  rw [e, h.xb]

theorem at1_setLast {g : ℝ → ℝ} {s : NMState 1} {a b : ℝ} (h : At1 g s a b) {argsort : Argsort 1} (ha : IsArgsort argsort) {x : Vec 1} {c : ℝ} {v : FVal} {tr : Trace 1}
    (hx : x 0 = c) (hv : v = FVal.ofReal (g c)) :
    (g a ≤ g c ∧ At1 g (nmSort argsort (setLast s x v tr)) a c) ∨ (g c ≤ g a ∧ At1 g (nmSort argsort (setLast s x v tr)) c a) := by
  refine at1_sort ha ?_ ?_ ?_ ?_
  · simp [setLast, Function.update, h.xa]
  · simp [setLast, hx]
  · simp [setLast, Function.update, h.fa]
  · simp [setLast, hv]

/-- One iteration, near the bottom of a valley. -/
theorem at1_iter {g : ℝ → ℝ} {s : NMState 1} {a b : ℝ} (h : At1 g s a b) {P : NMParams} {argsort : Argsort 1} (ha : IsArgsort argsort) {f : ℕ → Vec 1 → FVal}
    (hf : ∀ n (x : Vec 1) t, x 0 = a + t * (b - a) → -2 ≤ t → t ≤ 1 → f n x = FVal.ofReal (g (a + t * (b - a))))
    (ho : g a ≤ g (2 * a - b) → g (1.5 * a - 0.5 * b) ≤ g (2 * a - b)) (hi : g (0.5 * a + 0.5 * b) < g b) :
    ∃ a' b', Move1 g a b a' b' ∧ At1 g (nmIter P argsort f s) a' b' ∧ (nmIter P argsort f s).tr.ncalls = s.tr.ncalls + 2 := by
  have hr : ∀ n, f n (nmPoint s.sim 1) = FVal.ofReal (g (2 * a - b)) := fun n => by
    rw [hf n _ (-1) (by rw [at1_point h]; ring) (by norm_num) (by norm_num)]; congr 2; ring
  have he : ∀ n, f n (nmPoint s.sim 2) = FVal.ofReal (g (3 * a - 2 * b)) := fun n => by
    rw [hf n _ (-2) (by rw [at1_point h]; ring) (by norm_num) (by norm_num)]; congr 2; ring
  have hoc : ∀ n, f n (nmPoint s.sim 0.5) = FVal.ofReal (g (1.5 * a - 0.5 * b)) := fun n => by
    rw [hf n _ (-0.5) (by rw [at1_point h]; ring) (by norm_num) (by norm_num)]; congr 2; ring
  have hic : ∀ n, f n (nmPoint s.sim (-0.5)) = FVal.ofReal (g (0.5 * a + 0.5 * b)) := fun n => by
    rw [hf n _ 0.5 (by rw [at1_point h]; ring) (by norm_num) (by norm_num)]; congr 2; ring
  have hsl : secondLast 1 = 0 := rfl
  have hlast : (Fin.last 1) = (1 : Fin 2) := rfl
  have main : ∃ x c, ∃ tr : Trace 1, nmMove f s = setLast s x (FVal.ofReal (g c)) tr ∧ x 0 = c ∧ tr.ncalls = s.tr.ncalls + 2 ∧
      (∀ {a' b'}, (a' = a ∧ b' = c ∧ g a ≤ g c) ∨ (a' = c ∧ b' = a ∧ g c ≤ g a) → Move1 g a b a' b') := by
    unfold nmMove
    simp only [hr, he, hoc, hic, hsl, hlast, h.fa, h.fb, flt, fle]
    by_cases c1 : g (2 * a - b) < g a
    · rw [if_pos c1]
      by_cases c2 : g (3 * a - 2 * b) < g (2 * a - b)
      · rw [if_pos c2]
        refine ⟨_, 3 * a - 2 * b, _, rfl, by rw [at1_point h]; ring, by simp [Trace.call], ?_⟩
        rintro a' b' (⟨rfl, rfl, h3⟩ | ⟨rfl, rfl, -⟩)
        · exact absurd (c2.trans c1) (not_lt.2 h3)
        · exact .expand c1 c2
      · rw [if_neg c2]
        refine ⟨_, 2 * a - b, _, rfl, by rw [at1_point h]; ring, by simp [Trace.call], ?_⟩
        rintro a' b' (⟨rfl, rfl, h3⟩ | ⟨rfl, rfl, -⟩)
        · exact absurd c1 (not_lt.2 h3)
        · exact .reflect c1 (not_lt.1 c2)
    · rw [if_neg c1, if_neg c1]
      have c1' := not_lt.1 c1
      by_cases c3 : g (2 * a - b) < g b
      · rw [if_pos c3, if_pos (ho c1')]
        refine ⟨_, 1.5 * a - 0.5 * b, _, rfl, by rw [at1_point h]; ring, by simp [Trace.call], ?_⟩
        rintro a' b' (⟨rfl, rfl, h3⟩ | ⟨rfl, rfl, h3⟩)
        · exact .outside c1' c3 h3
        · exact .outsideBetter c1' c3 h3
      · rw [if_neg c3, if_pos hi]
        refine ⟨_, 0.5 * a + 0.5 * b, _, rfl, by rw [at1_point h]; ring, by simp [Trace.call], ?_⟩
        rintro a' b' (⟨rfl, rfl, h3⟩ | ⟨rfl, rfl, h3⟩)
        · exact .inside c1' (not_lt.1 c3) h3
        · exact .insideBetter c1' (not_lt.1 c3) h3
  obtain ⟨x, c, tr, h1, h2, h3, h4⟩ := main
  have hcalls : (nmIter P argsort f s).tr.ncalls = s.tr.ncalls + 2 := by
    simp only [nmIter, nmSort, h1, setLast]
    exact h3
  have := at1_setLast h ha (x := x) (c := c) (v := FVal.ofReal (g c)) (tr := tr) h2 rfl
  rw [← h1] at this
  rcases this with ⟨h5, h6⟩ | ⟨h5, h6⟩
  · exact ⟨a, c, h4 (.inl ⟨rfl, rfl, h5⟩), ⟨h6.xa, h6.xb, h6.fa, h6.fb, h6.le⟩, hcalls⟩
  · exact ⟨c, a, h4 (.inr ⟨rfl, rfl, h5⟩), ⟨h6.xa, h6.xb, h6.fa, h6.fb, h6.le⟩, hcalls⟩

/-- the step, with the hypotheses of the previous theorem from the valley -/
theorem at1_step {g : ℝ → ℝ} {m W R : ℝ} (hv : Valley g m W) (hR : 4 * R ≤ W) {s : NMState 1} {a b : ℝ} (h : At1 g s a b) (hne : a ≠ b)
    (hph : PhA m R a b ∨ (|tau m a b| ≤ 2 ∧ |b - a| ≤ R)) {P : NMParams} {argsort : Argsort 1} (ha : IsArgsort argsort) {f : ℕ → Vec 1 → FVal}
    (hf : ∀ n (x : Vec 1), |x 0 - m| ≤ W → f n x = FVal.ofReal (g (x 0))) :
    ∃ a' b', Move1 g a b a' b' ∧ At1 g (nmIter P argsort f s) a' b' ∧ (nmIter P argsort f s).tr.ncalls = s.tr.ncalls + 2 := by
  obtain ⟨w, hw, hw2⟩ := wide hR hne hph
  have hl := vline_of_valley hv hne hw
  have hD : 0 < |b - a| := abs_pos.2 (sub_ne_zero.2 hne.symm)
  have hx := abs_nonneg (tau m a b)
  have hx1 := le_abs_self (tau m a b)
  have hx2 := neg_abs_le (tau m a b)
  have g1 : |tau m a b| + 2 ≤ w := by rcases hw2 with h | ⟨h1, h2⟩ <;> linarith
  have e0 : g a = (fun t => g (a + t * (b - a))) 0 := by simp
  have e1 : g b = (fun t => g (a + t * (b - a))) 1 := by simp
  have er : g (2 * a - b) = (fun t => g (a + t * (b - a))) (-1) := by show _ = g _; congr 1; ring
  have eo : g (1.5 * a - 0.5 * b) = (fun t => g (a + t * (b - a))) (-0.5) := by show _ = g _; congr 1; ring
  have ei : g (0.5 * a + 0.5 * b) = (fun t => g (a + t * (b - a))) 0.5 := by show _ = g _; congr 1; ring
  have hab := h.le
  refine at1_iter h ha ?_ ?_ ?_
  · intro n x t hxt h1 h2
    rw [hf n x, hxt]
    have hm := tau_spec (m := m) hne
    rw [hxt, show a + t * (b - a) - m = (t - tau m a b) * (b - a) by linarith, abs_mul]
    refine (mul_le_mul_of_nonneg_right ?_ hD.le).trans hw
    rw [abs_le]
    constructor <;> linarith
  · rw [e0, er, eo]
    rw [e0, e1] at hab
    intro h1
    generalize (fun t => g (a + t * (b - a))) = h at *
    generalize tau m a b = τ at *
    by_cases ht : -0.5 ≤ τ
    · exact (hl.down (-0.5) (-1) (by norm_num) ht (by linarith)).le
    · exact (hl.up (-0.5) 0 (by linarith) (by norm_num) (by linarith)).le.trans h1
  · rw [e1, ei]
    rw [e0, e1] at hab
    generalize (fun t => g (a + t * (b - a))) = h at *
    generalize tau m a b = τ at *
    by_cases ht : τ ≤ 0.5
    · exact hl.up 0.5 1 ht (by norm_num) (by linarith)
    · exact (hl.down 0.5 0 (by norm_num) (by linarith) (by linarith)).trans_le hab

/-! ## The whole run -/

/-- how many more iterations are needed at most, in terms of the distances `δ` and `2 ^ j * δ` -/
inductive Budget (g : ℝ → ℝ) (m R δ : ℝ) (K : ℕ) (a b : ℝ) : ℕ → Prop
  | far (i : ℕ) : PhA m R a b → i ≤ K → 2 ^ i * δ ≤ |b - a| → Budget g m R δ K a b (2 * K + 1 + (K - i) + 1)
  | near (j : ℕ) : PhA m R a b → |tau m a b| ≤ 2 → |b - a| ≤ 2 ^ j * δ → Budget g m R δ K a b (2 * j + 3)
  | one (j : ℕ) : PhJ1 g m R a b → |b - a| ≤ 2 ^ j * δ → Budget g m R δ K a b (2 * j + 1)
  | two (j : ℕ) : PhJ2 g m R a b → |b - a| ≤ 2 ^ j * δ → Budget g m R δ K a b (2 * j)

theorem budget_step {g : ℝ → ℝ} {m W R δ : ℝ} {K : ℕ} (hv : Valley g m W) (hR : 4 * R ≤ W) (hδ : 0 < δ) (hK : R ≤ 2 ^ K * δ) {a b : ℝ} (hne : a ≠ b) (hab : g a ≤ g b) {n : ℕ}
    (h : Budget g m R δ K a b n) (hnot : ¬ (|b - a| ≤ δ ∧ |tau m a b| ≤ 2)) {a' b' : ℝ} (hm : Move1 g a b a' b') :
    a' ≠ b' ∧ g a' ≤ g b' ∧ ∃ n', n' + 1 ≤ n ∧ Budget g m R δ K a' b' n' := by
  have hpow : ∀ j : ℕ, (2 : ℝ) ^ (j + 1) * δ = 2 * (2 ^ j * δ) := fun j => by rw [pow_succ]; ring
  cases h with
  | far i h1 h2 h3 =>
    obtain ⟨h4, h5, h6⟩ := move_A hv hR hne h1 hab hm
    refine ⟨h5, h6, ?_⟩
    rcases h4 with ⟨h7, h8, -⟩ | ⟨h7, h8⟩ | ⟨h7, h8⟩
    · have h9 : (2 : ℝ) ^ (i + 1) * δ ≤ |b' - a'| := by rw [h8, hpow]; linarith
      have hle : i + 1 ≤ K := by
        have := mul_le_mul_iff_left₀ hδ |>.1 ((h9.trans (PhA.small h7)).trans hK)
        exact (pow_le_pow_iff_right₀ (by norm_num : (1 : ℝ) < 2)).1 this
      exact ⟨_, by omega, .far (i + 1) h7 hle h9⟩
    · exact ⟨_, by omega, .two K h7 (h7.2.2.trans hK)⟩
    · exact ⟨_, by omega, .one K h7 (h7.2.2.trans hK)⟩
  | near j h1 h2 h3 =>
    obtain ⟨h4, h5, h6⟩ := move_A hv hR hne h1 hab hm
    refine ⟨h5, h6, ?_⟩
    rcases h4 with ⟨-, -, h7⟩ | ⟨h7, h8⟩ | ⟨h7, h8⟩
    · exact absurd h2 (not_le.2 h7)
    · exact ⟨_, by omega, .two (j + 1) h7 (by rw [hpow]; linarith)⟩
    · have := abs_nonneg (b - a)
      exact ⟨_, by omega, .one j h7 (by linarith)⟩
  | one j h1 h2 =>
    obtain ⟨h4, h5, h6⟩ := move_J1 hv hR hne h1 hab hm
    refine ⟨h5, h6, ?_⟩
    cases j with
    | zero => exact absurd ⟨by simpa using h2, h1.2.1⟩ hnot
    | succ j =>
      rw [hpow] at h2
      rcases h4 with ⟨h7, h8⟩ | ⟨h7, h8⟩
      · exact ⟨_, by omega, .two (j + 1) h7 (by rw [hpow]; linarith)⟩
      · exact ⟨_, by omega, .one j h7 (by linarith)⟩
  | two j h1 h2 =>
    obtain ⟨h7, h8, h5, h6⟩ := move_J2 hv hR hne h1 hab hm
    refine ⟨h5, h6, ?_⟩
    cases j with
    | zero => exact absurd ⟨by simpa using h2, h1.2.1⟩ hnot
    | succ j =>
      rw [hpow] at h2
      exact ⟨_, by omega, .one j h7 (by linarith)⟩

theorem Budget.phase {g : ℝ → ℝ} {m R δ : ℝ} {K : ℕ} {a b : ℝ} {n : ℕ} (h : Budget g m R δ K a b n) : PhA m R a b ∨ (|tau m a b| ≤ 2 ∧ |b - a| ≤ R) := by
  cases h with
  | far i h => exact .inl h
  | near j h => exact .inl h
  | one j h => exact .inr h.2
  | two j h => exact .inr h.2

/-- what is known when nothing is known about the values' tolerance -/
def Ph4 (g : ℝ → ℝ) (m R D0 a b : ℝ) : Prop := (PhA m R a b ∧ (D0 ≤ |b - a| ∨ |tau m a b| ≤ 2)) ∨ PhJ1 g m R a b ∨ PhJ2 g m R a b

theorem Ph4.phase {g : ℝ → ℝ} {m R D0 a b : ℝ} (h : Ph4 g m R D0 a b) : PhA m R a b ∨ (|tau m a b| ≤ 2 ∧ |b - a| ≤ R) := by
  rcases h with h | h | h
  exacts [.inl h.1, .inr h.2, .inr h.2]

theorem ph4_step {g : ℝ → ℝ} {m W R D0 : ℝ} (hv : Valley g m W) (hR : 4 * R ≤ W) {a b : ℝ} (hne : a ≠ b) (hab : g a ≤ g b)
    (h : Ph4 g m R D0 a b) {a' b' : ℝ} (hm : Move1 g a b a' b') : a' ≠ b' ∧ g a' ≤ g b' ∧ Ph4 g m R D0 a' b' := by
  rcases h with ⟨h, h0⟩ | h | h
  · obtain ⟨h4, h5, h6⟩ := move_A hv hR hne h hab hm
    refine ⟨h5, h6, ?_⟩
    rcases h4 with ⟨h7, h8, h9⟩ | ⟨h7, h8⟩ | ⟨h7, h8⟩
    · refine .inl ⟨h7, .inl ?_⟩
      rw [h8]
      have := abs_nonneg (b - a)
      exact (h0.resolve_right (not_le.2 h9)).trans (by linarith)
    · exact .inr (.inr h7)
    · exact .inr (.inl h7)
  · obtain ⟨h4, h5, h6⟩ := move_J1 hv hR hne h hab hm
    exact ⟨h5, h6, h4.elim (fun h => .inr (.inr h.1)) fun h => .inr (.inl h.1)⟩
  · obtain ⟨h4, -, h5, h6⟩ := move_J2 hv hR hne h hab hm
    exact ⟨h5, h6, .inr (.inl h4)⟩

theorem tau_dist {m a b : ℝ} (hne : a ≠ b) : |a - m| = |tau m a b| * |b - a| := by
  have := tau_spec (m := m) hne
  rw [← abs_mul, abs_sub_comm]
  congr 1
  linarith

/-- The first state. -/
theorem at1_init {g : ℝ → ℝ} {m W : ℝ} {P : NMParams} {argsort : Argsort 1} (ha : IsArgsort argsort) {f : ℕ → Vec 1 → FVal}
    (hf : ∀ n (x : Vec 1), |x 0 - m| ≤ W → f n x = FVal.ofReal (g (x 0))) {sim0 : Sim 1} (hW : ∀ i, |sim0 i 0 - m| ≤ W) :
    ∃ a b, At1 g (nmInit P argsort f sim0) a b ∧ ((a = sim0 0 0 ∧ b = sim0 1 0) ∨ (a = sim0 1 0 ∧ b = sim0 0 0)) ∧
      (nmInit P argsort f sim0).tr.ncalls = 2 ∧ (nmInit P argsort f sim0).iterations = 1 := by
  have hc : (nmInit P argsort f sim0).tr.ncalls = 2 := by
    simp [nmInit, nmSort, ncalls_calls]
  rcases at1_sort (g := g) (s := { sim := sim0, fsim := (fun i => f i (sim0 i)), tr := Trace.calls f ⟨0, []⟩ (List.ofFn sim0), iterations := 1, simplexHistory := [], funHistory := [] }) ha rfl rfl (hf _ _ (hW 0)) (hf _ _ (hW 1)) with ⟨-, h⟩ | ⟨-, h⟩
  · exact ⟨_, _, ⟨h.xa, h.xb, h.fa, h.fb, h.le⟩, .inl ⟨rfl, rfl⟩, hc, rfl⟩
  · exact ⟨_, _, ⟨h.xa, h.xb, h.fa, h.fb, h.le⟩, .inr ⟨rfl, rfl⟩, hc, rfl⟩

theorem phA_of {m R a b : ℝ} (hne : a ≠ b) (h : |a - m| + |b - a| ≤ R) : PhA m R a b := by
  unfold PhA
  rw [add_mul, ← tau_dist hne, one_mul]
  exact h

/-- Wherever the run ends, the minimum is not far, or the simplex has never become smaller. -/
theorem run_near {g : ℝ → ℝ} {m W R D0 : ℝ} (hv : Valley g m W) (hR : 4 * R ≤ W) {P : NMParams} {argsort : Argsort 1} (ha : IsArgsort argsort) {f : ℕ → Vec 1 → FVal}
    (hf : ∀ n (x : Vec 1), |x 0 - m| ≤ W → f n x = FVal.ofReal (g (x 0))) {sim0 : Sim 1} (hne : sim0 0 0 ≠ sim0 1 0) (hs : ∀ i, |sim0 i 0 - m| + |sim0 1 0 - sim0 0 0| ≤ R)
    (hD : D0 ≤ |sim0 1 0 - sim0 0 0| ∨ ∀ i, (∀ j, g (sim0 i 0) ≤ g (sim0 j 0)) → |sim0 i 0 - m| ≤ 2 * |sim0 1 0 - sim0 0 0|) :
    ∃ a b, At1 g (nmRun P argsort f sim0) a b ∧ a ≠ b ∧ Ph4 g m R D0 a b := by
  have hRpos : 0 ≤ R := le_trans (by positivity) (hs 0)
  have hW : ∀ i, |sim0 i 0 - m| ≤ W := fun i => by
    have := hs i
    have := abs_nonneg (sim0 1 0 - sim0 0 0)
    linarith
  refine nmLoop_induct (fun s => ∃ a b, At1 g s a b ∧ a ≠ b ∧ Ph4 g m R D0 a b) ?_ _ ?_
  · rintro s ⟨a, b, h1, h2, h3⟩ -
    obtain ⟨a', b', h4, h5, -⟩ := at1_step hv hR h1 h2 h3.phase (P := P) ha hf
    obtain ⟨h6, -, h7⟩ := ph4_step hv hR h2 h1.le h3 h4
    exact ⟨a', b', h5, h6, h7⟩
  · obtain ⟨a, b, h1, h2, -⟩ := at1_init (P := P) ha hf hW
    have habs : |b - a| = |sim0 1 0 - sim0 0 0| := by
      rcases h2 with ⟨rfl, rfl⟩ | ⟨rfl, rfl⟩
      · rfl
      · exact abs_sub_comm _ _
    have hne' : a ≠ b := by
      rcases h2 with ⟨rfl, rfl⟩ | ⟨rfl, rfl⟩
      exacts [hne, hne.symm]
    refine ⟨a, b, h1, hne', .inl ⟨phA_of hne' ?_, ?_⟩⟩
    · rw [habs]
      rcases h2 with ⟨rfl, rfl⟩ | ⟨rfl, rfl⟩
      exacts [hs 0, hs 1]
    · refine hD.imp (fun h => h.trans habs.ge) fun h => ?_
      have hpos : 0 < |b - a| := abs_pos.2 (sub_ne_zero.2 hne'.symm)
      have := h1.le
      have key : |a - m| ≤ 2 * |sim0 1 0 - sim0 0 0| := by
        rcases h2 with ⟨rfl, rfl⟩ | ⟨rfl, rfl⟩
        · refine h 0 fun j => ?_
          fin_cases j
          exacts [le_rfl, this]
        · refine h 1 fun j => ?_
          fin_cases j
          exacts [this, le_rfl]
      rw [← habs, tau_dist hne'] at key
      exact le_of_mul_le_mul_right key hpos

/-- Within a bounded number of steps, the run ends successfully. -/
theorem run_succeeds {g : ℝ → ℝ} {m W R δ : ℝ} {K : ℕ} (hv : Valley g m W) (hR : 4 * R ≤ W) (hδ : 0 < δ) (hK : R ≤ 2 ^ K * δ) {P : NMParams} (hx : δ ≤ P.xtol)
    (hft : ∀ x y, |x - m| ≤ 3 * δ → |y - m| ≤ 3 * δ → Within P.ftol (FVal.ofReal (g x)) (FVal.ofReal (g y))) (hc : P.fprimeCutoff = none)
    (hit : 3 * K + 4 < P.iterLimit 1) (hfe : 6 * K + 8 < P.fevLimit 1) {argsort : Argsort 1} (ha : IsArgsort argsort) {f : ℕ → Vec 1 → FVal}
    (hf : ∀ n (x : Vec 1), |x 0 - m| ≤ W → f n x = FVal.ofReal (g (x 0))) {sim0 : Sim 1} (hne : sim0 0 0 ≠ sim0 1 0) (hs : ∀ i, |sim0 i 0 - m| + |sim0 1 0 - sim0 0 0| ≤ R)
    (hD : δ ≤ |sim0 1 0 - sim0 0 0| ∨ ∀ i, (∀ j, g (sim0 i 0) ≤ g (sim0 j 0)) → |sim0 i 0 - m| ≤ 2 * |sim0 1 0 - sim0 0 0|) :
    (rootNelderMead P argsort f sim0).success = true := by
  have hRpos : 0 ≤ R := le_trans (by positivity) (hs 0)
  have hW : ∀ i, |sim0 i 0 - m| ≤ W := fun i => by
    have := hs i
    have := abs_nonneg (sim0 1 0 - sim0 0 0)
    linarith
  have conv : ∀ (s : NMState 1) (a b : ℝ), At1 g s a b → a ≠ b → |b - a| ≤ δ ∧ |tau m a b| ≤ 2 → nmConverged P s := by
    intro s a b h1 h2 ⟨h3, h4⟩
    have e1 := tau_dist (m := m) h2
    have e2 : |a - m| ≤ 2 * δ := by rw [e1]; nlinarith [abs_nonneg (b - a)]
    have e3 : |b - m| ≤ 3 * δ := by
      have := abs_add_le (b - a) (a - m)
      rw [show b - a + (a - m) = b - m by ring] at this
      linarith
    constructor
    · intro i k
      fin_cases i
      fin_cases k
      show |s.sim 1 0 - s.sim 0 0| ≤ P.xtol
      rw [h1.xa, h1.xb]
      exact h3.trans hx
    · intro i
      fin_cases i
      show FVal.le (FVal.absDiff (s.fsim 0) (s.fsim 1)) P.ftol
      rw [h1.fa, h1.fb]
      exact hft a b (by linarith) e3
  have main := nmLoop_induct (P := P) (argsort := argsort) (f := f) (fun s => (∃ a b n, At1 g s a b ∧ a ≠ b ∧ Budget g m R δ K a b n ∧ s.iterations + n ≤ 3 * K + 4 ∧
      s.tr.ncalls + 2 * n ≤ 6 * K + 8)) (by
    rintro s ⟨a, b, n, h1, h2, h3, h4, h5⟩ hcont
    obtain ⟨a', b', h6, h7, h8⟩ := at1_step hv hR h1 h2 h3.phase (P := P) ha hf
    obtain ⟨h9, -, n', h10, h11⟩ := budget_step hv hR hδ hK h2 h1.le h3 (fun h => hcont.2.2.2 (conv s a b h1 h2 h)) h6
    refine ⟨a', b', n', h7, h9, h11, ?_, by omega⟩
    have : (nmIter P argsort f s).iterations = s.iterations + 1 := by simp [nmIter, nmSort, nmMove_iterations]
    omega) (nmInit P argsort f sim0) (by
    obtain ⟨a, b, h1, h2, h3, h4⟩ := at1_init (P := P) ha hf hW
    have habs : |b - a| = |sim0 1 0 - sim0 0 0| := by
      rcases h2 with ⟨rfl, rfl⟩ | ⟨rfl, rfl⟩
      · rfl
      · exact abs_sub_comm _ _
    have hne' : a ≠ b := by
      rcases h2 with ⟨rfl, rfl⟩ | ⟨rfl, rfl⟩
      exacts [hne, hne.symm]
    have hA : PhA m R a b := phA_of hne' (by
      rw [habs]
      rcases h2 with ⟨rfl, rfl⟩ | ⟨rfl, rfl⟩
      exacts [hs 0, hs 1])
    rcases hD with h | h
    · exact ⟨a, b, _, h1, hne', .far 0 hA (Nat.zero_le _) (by rw [pow_zero, one_mul, habs]; exact h), by rw [h4]; omega, by rw [h3]; omega⟩
    · have hpos : 0 < |b - a| := abs_pos.2 (sub_ne_zero.2 hne'.symm)
      have := h1.le
      have key : |a - m| ≤ 2 * |sim0 1 0 - sim0 0 0| := by
        rcases h2 with ⟨rfl, rfl⟩ | ⟨rfl, rfl⟩
        · refine h 0 fun j => ?_
          fin_cases j
          exacts [le_rfl, this]
        · refine h 1 fun j => ?_
          fin_cases j
          exacts [this, le_rfl]
      rw [← habs, tau_dist hne'] at key
      exact ⟨a, b, _, h1, hne', .near K hA (le_of_mul_le_mul_right key hpos) (hA.small.trans hK), by rw [h4]; omega, by rw [h3]; omega⟩)
  obtain ⟨a, b, n, -, -, -, h4, h5⟩ := main
  show decide (nmStatus P (nmLoop P argsort f (nmInit P argsort f sim0)) = 0) = true
  unfold nmStatus fprimeExceeded
  rw [hc, if_neg (by omega), if_neg (by omega), if_neg (by simp)]
  rfl

end NF
