import Verif.Lemmas.Winding
import Mathlib.Analysis.SpecialFunctions.Trigonometric.Bounds
import Mathlib.Analysis.SpecialFunctions.Trigonometric.Inverse

/-! # Positions on a ring -/

noncomputable section
open Classical
namespace NF
open Spec NxGraph CoordSys
variable {d : ℕ}

/-! ## Vectors -/

theorem dot_comm' (a b : Vec d) : dot a b = dot b a := Finset.sum_congr rfl fun i _ => by ring

theorem dot_self_nonneg (a : Vec d) : 0 ≤ dot a a := Finset.sum_nonneg fun i _ => mul_self_nonneg _

theorem dot_cauchy (a b : Vec d) : dot a b ^ 2 ≤ dot a a * dot b b := by
  have := Finset.sum_mul_sq_le_sq_mul_sq Finset.univ a b
  rw [dot_self_sq, dot_self_sq]
  exact this

theorem abs_dot_le {a b : Vec d} {p q : ℝ} (hp : 0 ≤ p) (hq : 0 ≤ q) (ha : dot a a ≤ p ^ 2) (hb : dot b b ≤ q ^ 2) : |dot a b| ≤ p * q := by
  refine abs_le_of_sq_le_sq ?_ (mul_nonneg hp hq)
  calc dot a b ^ 2 ≤ dot a a * dot b b := dot_cauchy a b
    _ ≤ p ^ 2 * q ^ 2 := mul_le_mul ha hb (dot_self_nonneg b) (sq_nonneg p)
    _ = (p * q) ^ 2 := by ring

theorem dot_lin (c c' : ℝ) (t e t' e' : Vec d) : dot (fun i => c * t i + e i) (fun i => c' * t' i + e' i) = c * c' * dot t t' + c * dot t e' + c' * dot e t' + dot e e' := by
  unfold dot
  rw [Finset.mul_sum, Finset.mul_sum, Finset.mul_sum, ← Finset.sum_add_distrib, ← Finset.sum_add_distrib, ← Finset.sum_add_distrib]
  exact Finset.sum_congr rfl fun i _ => by ring

/-- The square of the length of `c t + e`, with a unit vector `t` and a small `e`. -/
theorem dot_lin_self {c w : ℝ} {t e : Vec d} (ht : dot t t = 1) (hw : 0 ≤ w) (he : dot e e ≤ w ^ 2) :
    dot (fun i => c * t i + e i) (fun i => c * t i + e i) ≤ (|c| + w) ^ 2 ∧ (w ≤ |c| → (|c| - w) ^ 2 ≤ dot (fun i => c * t i + e i) (fun i => c * t i + e i)) := by
  have h1 : |dot t e| ≤ 1 * w := abs_dot_le zero_le_one hw (by rw [ht]; norm_num) he
  have h2 : dot t e ^ 2 ≤ dot e e := by have := dot_cauchy t e; rwa [ht, one_mul] at this
  have h3 : |c * dot t e| ≤ |c| * w := by rw [abs_mul]; exact mul_le_mul_of_nonneg_left (by linarith) (abs_nonneg c)
  have h4 := abs_le.1 h3
  have hc : c * c = |c| ^ 2 := by rw [sq_abs]; ring
  rw [dot_lin, ht, dot_comm' e t]
  constructor
  · nlinarith
  · intro hwc
    -- `(|c| - |x|)² ≤ c² + 2 c x + x²`
    have h5 : |c * dot t e| = |c| * |dot t e| := abs_mul _ _
    have h6 := (abs_le.1 h5.le).1
    have h7 : (|c| - w) ^ 2 ≤ (|c| - |dot t e|) ^ 2 := pow_le_pow_left₀ (by linarith) (by linarith) 2
    have h8 : |dot t e| ^ 2 ≤ dot e e := by rw [sq_abs]; exact h2
    nlinarith

theorem eucl_sq_dot (x y : Vec d) : eucl x y ^ 2 = dot (fun i => y i - x i) fun i => y i - x i := by
  unfold eucl
  rw [Real.sq_sqrt (Finset.sum_nonneg fun i _ => sq_nonneg _)]
  exact Finset.sum_congr rfl fun i _ => by ring

theorem eucl_nonneg (x y : Vec d) : 0 ≤ eucl x y := Real.sqrt_nonneg _

theorem dot_add_le {a b : Vec d} {p q : ℝ} (hp : 0 ≤ p) (hq : 0 ≤ q) (ha : dot a a ≤ p ^ 2) (hb : dot b b ≤ q ^ 2) : dot (fun i => a i + b i) (fun i => a i + b i) ≤ (p + q) ^ 2 := by
  have := (abs_le.1 (abs_dot_le hp hq ha hb)).2
  have e := dot_lin 1 1 a b a b
  simp only [one_mul] at e
  rw [e, dot_comm' b a]
  nlinarith

/-! ## The circle -/

/-- the direction of the circle at the angle `t` -/
def tangent (a b : Vec d) (t : ℝ) : Vec d := fun i => -Real.sin t * a i + Real.cos t * b i

theorem dot_tangent {a b : Vec d} (h : Orthonormal2 a b) (t t' : ℝ) : dot (tangent a b t) (tangent a b t') = Real.cos (t - t') := by
  have e : ∀ i, tangent a b t i * tangent a b t' i = Real.sin t * Real.sin t' * a i ^ 2 + Real.cos t * Real.cos t' * b i ^ 2 - (Real.sin t * Real.cos t' + Real.cos t * Real.sin t') * (a i * b i) :=
    fun i => by unfold tangent; ring
  unfold dot
  simp only [e, Finset.sum_sub_distrib, Finset.sum_add_distrib, ← Finset.mul_sum, h.1, h.2.1, h.2.2]
  rw [Real.cos_sub]
  ring

theorem ring_sub (o a b : Vec d) (R t s : ℝ) (i : Fin d) : ringPoint o a b R (t + s) i - ringPoint o a b R t i = 2 * R * Real.sin (s / 2) * tangent a b (t + s / 2) i := by
  have e1 := Real.cos_sub_cos (t + s) t
  have e2 := Real.sin_sub_sin (t + s) t
  rw [show (t + s + t) / 2 = t + s / 2 by ring, show (t + s - t) / 2 = s / 2 by ring] at e1 e2
  unfold ringPoint tangent
  have : (o i + R * (Real.cos (t + s) * a i + Real.sin (t + s) * b i)) - (o i + R * (Real.cos t * a i + Real.sin t * b i)) =
    R * ((Real.cos (t + s) - Real.cos t) * a i + (Real.sin (t + s) - Real.sin t) * b i) := by ring
  rw [this, e1, e2]
  ring

theorem ring_period (o a b : Vec d) (R t : ℝ) (k : ℤ) : ringPoint o a b R (t + k * (2 * Real.pi)) = ringPoint o a b R t := by
  unfold ringPoint
  rw [Real.cos_add_int_mul_two_pi, Real.sin_add_int_mul_two_pi]

/-- The step between two points near the circle. -/
theorem ring_step {o a b : Vec d} {R t s w w' : ℝ} {x y : Vec d} (hx : AtAngle o a b R w x t) (hy : AtAngle o a b R w' y (t + s)) :
    ∃ e : Vec d, dot e e ≤ (w + w') ^ 2 ∧ (fun i => y i - x i) = fun i => 2 * R * Real.sin (s / 2) * tangent a b (t + s / 2) i + e i := by
  refine ⟨fun i => (y i - ringPoint o a b R (t + s) i) + -(x i - ringPoint o a b R t i), ?_, ?_⟩
  · have hw := (eucl_nonneg _ _).trans hx
    have hw' := (eucl_nonneg _ _).trans hy
    rw [add_comm w]
    refine dot_add_le hw' hw ?_ ?_
    · refine le_trans (le_of_eq ?_) (pow_le_pow_left₀ (eucl_nonneg _ _) hy 2)
      rw [eucl_sq_dot]
      exact Finset.sum_congr rfl fun i _ => by ring
    · refine le_trans (le_of_eq ?_) (pow_le_pow_left₀ (eucl_nonneg _ _) hx 2)
      rw [eucl_sq_dot]
      exact Finset.sum_congr rfl fun i _ => by ring
  · funext i
    rw [← ring_sub o a b R t s i]
    ring

theorem AtAngle.period {o a b : Vec d} {R w t : ℝ} {x : Vec d} (h : AtAngle o a b R w x t) {t' : ℝ} {k : ℤ} (hk : t = t' + k * (2 * Real.pi)) : AtAngle o a b R w x t' := by
  unfold AtAngle at *
  rwa [hk, ring_period] at h

/-- The area spanned by two vectors with small parts perpendicular to `u`. -/
theorem area_perp {u : Vec d} (hu : ∑ i, u i ^ 2 = 1) {s : ℝ} {a b : Vec d} {r : ℝ} (ha : dot a a - progress u a ^ 2 ≤ s ^ 2 * r ^ 2) (hb : dot b b - progress u b ^ 2 ≤ s ^ 2 * r ^ 2)
    (har : dot a a ≤ r ^ 2) (hbr : dot b b ≤ r ^ 2) : |dot a a * dot b b - dot a b * dot b a| ≤ (4 * s ^ 2 + s ^ 4) * r ^ 4 := by
  have h1 := dot_perp hu a a
  have h2 := dot_perp hu b b
  have h3 := dot_perp hu a b
  have hp1 : 0 ≤ dot a a - progress u a * progress u a := by rw [← h1]; exact Finset.sum_nonneg fun i _ => mul_self_nonneg _
  have hp2 : 0 ≤ dot b b - progress u b * progress u b := by rw [← h2]; exact Finset.sum_nonneg fun i _ => mul_self_nonneg _
  have hc := dot_cauchy (perp u a) (perp u b)
  unfold dot at hc
  rw [h1, h2, h3] at hc
  have hcs := dot_cauchy a b
  rw [dot_comm' b a, abs_of_nonneg (by nlinarith)]
  generalize dot a a = A at *
  generalize dot b b = B at *
  generalize dot a b = C at *
  generalize progress u a = α at *
  generalize progress u b = β at *
  obtain ⟨p, rfl⟩ : ∃ p, A = α * α + p := ⟨A - α * α, by ring⟩
  obtain ⟨q, rfl⟩ : ∃ q, B = β * β + q := ⟨B - β * β, by ring⟩
  obtain ⟨D, rfl⟩ : ∃ D, C = α * β + D := ⟨C - α * β, by ring⟩
  have p0 : 0 ≤ p := by linarith
  have q0 : 0 ≤ q := by linarith
  have p1 : p ≤ s ^ 2 * r ^ 2 := by nlinarith
  have q1 : q ≤ s ^ 2 * r ^ 2 := by nlinarith
  have hD : D ^ 2 ≤ p * q := by nlinarith
  have hα : α ^ 2 ≤ r ^ 2 := by nlinarith
  have hβ : β ^ 2 ≤ r ^ 2 := by nlinarith
  have hαβ : |α * β| ≤ r ^ 2 := by
    refine abs_le_of_sq_le_sq ?_ (sq_nonneg r)
    have := mul_le_mul hα hβ (sq_nonneg β) (sq_nonneg r)
    nlinarith
  have hD2 : |D| ≤ s ^ 2 * r ^ 2 := by
    refine abs_le_of_sq_le_sq (hD.trans ?_) (by positivity)
    have := mul_le_mul p1 q1 q0 (by positivity)
    nlinarith
  have hx : |α * β * D| ≤ r ^ 2 * (s ^ 2 * r ^ 2) := by
    rw [abs_mul]
    exact mul_le_mul hαβ hD2 (abs_nonneg _) (sq_nonneg r)
  have hx1 := (abs_le.1 hx).1
  have k1 := mul_le_mul hα q1 q0 (sq_nonneg r)
  have k2 := mul_le_mul hβ p1 p0 (sq_nonneg r)
  have k3 := mul_le_mul p1 q1 q0 (by positivity : 0 ≤ s ^ 2 * r ^ 2)
  nlinarith [sq_nonneg D]

end NF
