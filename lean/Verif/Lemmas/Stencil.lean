import Verif.Lemmas.Mesh
import Mathlib.Analysis.SpecialFunctions.Trigonometric.Angle

/-! # Lemmas about the stencils -/

noncomputable section
open Classical

namespace NF
open Spec

/-! ## The QR decomposition -/

theorem qr_spec (x : Vec 3) (hx : x ≠ 0) (w : Vec 3) :
    ∑ i, ((qrSigned x).mulVec w) i ^ 2 = ∑ i, w i ^ 2 ∧
    ∑ i, x i * ((qrSigned x).mulVec w) i = Real.sqrt (∑ i, x i ^ 2) * w 0 ∧
    Real.sqrt (∑ i, x i ^ 2) * ((qrSigned x).mulVec w) 0 = ∑ i, x i * w i := by
  by_cases h0 : x 1 = 0 ∧ x 2 = 0
  · have hx0 : x 0 ≠ 0 := by
      intro h
      apply hx
      funext i
      fin_cases i
      exacts [h, h0.1, h0.2]
    have hn : Real.sqrt (∑ i, x i ^ 2) = |x 0| := by
      rw [Fin.sum_univ_three, h0.1, h0.2]
      simp [Real.sqrt_sq_eq_abs]
    have hq : ∀ i, ((qrSigned x).mulVec w) i = npSign (x 0) * w i := fun i => by
      simp [qrSigned, qrFirstColumn, h0, Matrix.smul_mulVec]
    have hs : npSign (x 0) ^ 2 = 1 ∧ npSign (x 0) * x 0 = |x 0| := by
      unfold npSign
      rcases lt_or_gt_of_ne hx0 with h | h
      · rw [if_neg (not_lt.2 h.le), if_pos h, abs_of_neg h]; norm_num
      · rw [if_pos h, abs_of_pos h]; norm_num
    rw [hn]
    simp only [hq, Fin.sum_univ_three, h0.1, h0.2]
    refine ⟨?_, ?_, ?_⟩
    · linear_combination (w 0 ^ 2 + w 1 ^ 2 + w 2 ^ 2) * hs.1
    · linear_combination w 0 * hs.2
    · rw [← hs.2]; linear_combination (x 0 * w 0) * hs.1
  · set s : ℝ := if 0 ≤ x 0 then 1 else -1 with hsdef
    set n := Real.sqrt (∑ i, x i ^ 2) with hndef
    have hsum : 0 < x 0 ^ 2 + x 1 ^ 2 + x 2 ^ 2 := by
      by_contra hh
      apply h0
      constructor <;> nlinarith [sq_nonneg (x 0), sq_nonneg (x 1), sq_nonneg (x 2)]
    have hn2 : n ^ 2 = x 0 ^ 2 + x 1 ^ 2 + x 2 ^ 2 := by
      rw [hndef, Real.sq_sqrt (Finset.sum_nonneg fun i _ => sq_nonneg _), Fin.sum_univ_three]
    have hnpos : 0 < n := by
      rw [hndef]; apply Real.sqrt_pos.2; rw [Fin.sum_univ_three]; exact hsum
    have hs2 : s ^ 2 = 1 := by rw [hsdef]; split <;> norm_num
    have hsx : 0 ≤ s * x 0 := by
      rw [hsdef]; split
      · simpa using ‹_›
      · rename_i h; push Not at h; linarith
    have hpos : 0 < n + s * x 0 := by linarith
    have hsign : npSign (-s * n) = -s := by
      unfold npSign
      rcases (by rw [hsdef]; split <;> simp : s = 1 ∨ s = -1) with h | h
      · rw [h, if_neg (by linarith), if_pos (by linarith)]
      · rw [h, if_pos (by linarith)]; norm_num
    set v : Vec 3 := fun i => if i = 0 then x 0 + s * n else x i with hv
    have v0 : v 0 = x 0 + s * n := by simp [hv]
    have v1 : v 1 = x 1 := by simp [hv]
    have v2 : v 2 = x 2 := by simp [hv]
    have hvv : ∑ i, v i ^ 2 = 2 * n * (n + s * x 0) := by
      rw [Fin.sum_univ_three, v0, v1, v2]
      linear_combination n ^ 2 * hs2 - hn2
    set c : ℝ := 2 / (2 * n * (n + s * x 0)) with hc
    have hcn : c * (n * (n + s * x 0)) = 1 := by
      rw [hc]; field_simp
    have hq : ∀ i, ((qrSigned x).mulVec w) i = -s * (w i - c * v i * (v 0 * w 0 + v 1 * w 1 + v 2 * w 2)) := fun i => by
      have e1 : qrFirstColumn x = (1 - c • Matrix.vecMulVec v v, -s * n) := by
        unfold qrFirstColumn
        rw [if_neg h0]
        simp only
        rw [← hsdef, ← hndef, ← hv, hvv]
      unfold qrSigned
      rw [e1]
      simp only
      rw [hsign, Matrix.smul_mulVec, Matrix.sub_mulVec, Matrix.one_mulVec, Matrix.smul_mulVec, Matrix.vecMulVec_mulVec]
      simp only [dotProduct, Fin.sum_univ_three, Pi.smul_apply, Pi.sub_apply, smul_eq_mul, MulOpposite.smul_eq_mul_unop, MulOpposite.unop_op]
      ring
    set D := v 0 * w 0 + v 1 * w 1 + v 2 * w 2 with hD
    have hDx : D = (x 0 * w 0 + x 1 * w 1 + x 2 * w 2) + s * n * w 0 := by
      rw [hD, v0, v1, v2]; ring
    simp only [hq, Fin.sum_univ_three, v0, v1, v2]
    refine ⟨?_, ?_, ?_⟩
    · -- norm
      have hc1 : c ^ 2 * (2 * n * (n + s * x 0)) = 2 * c := by linear_combination 2 * c * hcn
      have hw : (x 0 + s * n) * w 0 + x 1 * w 1 + x 2 * w 2 = D := by rw [hDx]; ring
      have hvv' : (x 0 + s * n) ^ 2 + x 1 ^ 2 + x 2 ^ 2 = 2 * n * (n + s * x 0) := by
        rw [← hvv, Fin.sum_univ_three, v0, v1, v2]
      have : (w 0 - c * (x 0 + s * n) * D) ^ 2 + (w 1 - c * x 1 * D) ^ 2 + (w 2 - c * x 2 * D) ^ 2 = w 0 ^ 2 + w 1 ^ 2 + w 2 ^ 2 := by
        have e : (w 0 - c * (x 0 + s * n) * D) ^ 2 + (w 1 - c * x 1 * D) ^ 2 + (w 2 - c * x 2 * D) ^ 2
          = w 0 ^ 2 + w 1 ^ 2 + w 2 ^ 2 - 2 * c * D * ((x 0 + s * n) * w 0 + x 1 * w 1 + x 2 * w 2)
            + c ^ 2 * D ^ 2 * ((x 0 + s * n) ^ 2 + x 1 ^ 2 + x 2 ^ 2) := by ring
        rw [e, hw, hvv']
        linear_combination D ^ 2 * hc1
      calc _ = s ^ 2 * ((w 0 - c * (x 0 + s * n) * D) ^ 2 + (w 1 - c * x 1 * D) ^ 2 + (w 2 - c * x 2 * D) ^ 2) := by ring
        _ = _ := by rw [hs2, this, one_mul]
    · have hxv : x 0 * (x 0 + s * n) + x 1 * x 1 + x 2 * x 2 = n * (n + s * x 0) := by
        linear_combination -hn2
      have e : x 0 * (-s * (w 0 - c * (x 0 + s * n) * D)) + x 1 * (-s * (w 1 - c * x 1 * D)) + x 2 * (-s * (w 2 - c * x 2 * D))
          = -s * ((x 0 * w 0 + x 1 * w 1 + x 2 * w 2) - c * D * (x 0 * (x 0 + s * n) + x 1 * x 1 + x 2 * x 2)) := by ring
      rw [e, hxv]
      have : c * D * (n * (n + s * x 0)) = D := by linear_combination D * hcn
      rw [this, hDx]
      linear_combination n * w 0 * hs2
    · have hcv : c * (x 0 + s * n) * n = s := by
        have : (x 0 + s * n) = s * (n + s * x 0) := by linear_combination -(x 0) * hs2
        rw [this]
        linear_combination s * hcn
      have e : n * (-s * (w 0 - c * (x 0 + s * n) * D)) = -s * (n * w 0 - (c * (x 0 + s * n) * n) * D) := by ring
      rw [e, hcv, hDx]
      linear_combination (x 0 * w 0 + x 1 * w 1 + x 2 * w 2 + s * n * w 0) * hs2

/-! ## The sphere stencil -/

theorem fibonacci_norm {n i : ℕ} (hi : i < n) : ∑ k, fibonacciPoint n i k ^ 2 = 1 := by
  have hn : (0 : ℝ) < n := by exact_mod_cast (by omega : 0 < n)
  have hi' : (i : ℝ) + 1 ≤ n := by exact_mod_cast hi
  simp only [Fin.sum_univ_three, fibonacciPoint]
  simp only [Matrix.cons_val_zero, Matrix.cons_val_one, Matrix.cons_val]
  set z : ℝ := ((i : ℝ) + 0.5) * (2 / n) - 1 with hz
  have hz1 : -1 ≤ z := by
    rw [hz]
    have : 0 ≤ ((i : ℝ) + 0.5) * (2 / n) := by positivity
    linarith
  have hz2 : z ≤ 1 := by
    rw [hz]
    have : ((i : ℝ) + 0.5) * (2 / n) ≤ 2 := by
      rw [← mul_div_assoc, div_le_iff₀ hn]; linarith
    linarith
  have hr : Real.sqrt (1 - z ^ 2) ^ 2 = 1 - z ^ 2 := Real.sq_sqrt (by nlinarith)
  set ph := (((i + 1) % n : ℕ) : ℝ) * (Real.pi * (3 - Real.sqrt 5))
  have := Real.sin_sq_add_cos_sq ph
  linear_combination (Real.cos ph ^ 2 + Real.sin ph ^ 2) * hr + (1 - z ^ 2) * this

theorem sphereSimplex_spec (n : ℕ) (hn : 0 < n) (j : Fin 4) :
    0 ≤ sphereSimplex n j 0 ∧ (j ≠ 0 → 0 < sphereSimplex n j 0) ∧ ∑ k, sphereSimplex n j k ^ 2 ≤ 9 / n * (9 / 8) ∧
    (j = 0 → sphereSimplex n j = 0) := by
  have hn' : (0 : ℝ) < n := by exact_mod_cast hn
  obtain ⟨h1, -, h3⟩ := qr_spec (fun _ => 1) (fun h => by have := congrFun h 0; simp at this) (sphereSimplex0 n j)
  have hsq : Real.sqrt n ^ 2 = n := Real.sq_sqrt hn'.le
  have hsp : 0 < Real.sqrt n := Real.sqrt_pos.2 hn'
  have hs3 : 0 < Real.sqrt (∑ _i : Fin 3, (1 : ℝ) ^ 2) := by apply Real.sqrt_pos.2; norm_num
  have he2 : (3 / Real.sqrt n) ^ 2 = 9 / n := by rw [div_pow, hsq]; norm_num
  have hep : 0 < 3 / Real.sqrt n := by positivity
  set e := 3 / Real.sqrt n with he
  have hcases : (j = 0 → ∀ k, sphereSimplex0 n j k = 0) := by rintro rfl k; simp [sphereSimplex0]
  have hval : ∀ i : Fin 3, ∀ k, sphereSimplex0 n i.succ k = (0.25 + 0.75 * (if i = k then 1 else 0)) * e := fun i k => by
    simp [sphereSimplex0, he]
  have hsum : (j ≠ 0 → ∑ k, (1 : ℝ) * sphereSimplex0 n j k = 1.5 * e) ∧ (j ≠ 0 → ∑ k, sphereSimplex0 n j k ^ 2 = 9 / n * (9 / 8)) := by
    constructor <;> intro hj <;> obtain ⟨i, rfl⟩ := Fin.exists_succ_eq.2 hj
    · simp only [hval, Fin.sum_univ_three]
      fin_cases i <;> simp <;> ring
    · rw [← he2]
      simp only [hval, Fin.sum_univ_three]
      fin_cases i <;> simp <;> ring
  have hzero : j = 0 → sphereSimplex n j = 0 := fun hj => by
    unfold sphereSimplex
    rw [show sphereSimplex0 n j = 0 from funext (hcases hj), Matrix.mulVec_zero]
  by_cases hj : j = 0
  · rw [hzero hj]
    refine ⟨by simp, fun h => absurd hj h, ?_, fun _ => rfl⟩
    simp only [Pi.zero_apply]
    norm_num
    positivity
  · have hp : 0 < sphereSimplex n j 0 := by
      rw [hsum.1 hj] at h3
      by_contra hneg
      push Not at hneg
      have h4 : Real.sqrt (∑ _i : Fin 3, (1 : ℝ) ^ 2) * (qrSigned fun _ => 1).mulVec (sphereSimplex0 n j) 0 ≤ 0 :=
        mul_nonpos_of_nonneg_of_nonpos hs3.le hneg
      rw [h3] at h4
      linarith
    refine ⟨hp.le, fun _ => hp, ?_, fun h => absurd h hj⟩
    unfold sphereSimplex
    rw [h1, hsum.2 hj]

theorem sphere_vertex {n i : ℕ} (hi : i < n) (j : Fin 4) :
    let pos : Vec 3 := fun k => 1.1 * fibonacciPoint n i k
    let v : Vec 3 := fun k => (qrSigned pos).mulVec (sphereSimplex n j) k + pos k
    1.21 ≤ ∑ k, v k ^ 2 ∧ (j ≠ 0 → 1.21 < ∑ k, v k ^ 2) ∧ (j = 0 → v = pos) ∧
      ∑ k, v k ^ 2 = ∑ k, sphereSimplex n j k ^ 2 + 2.2 * sphereSimplex n j 0 + 1.21 := by
  intro pos v
  have hn : 0 < n := by omega
  have hf := fibonacci_norm hi
  have hpos : ∑ k, pos k ^ 2 = 1.21 := by
    simp only [pos, mul_pow]
    rw [← Finset.mul_sum, hf]
    norm_num
  have hsq : Real.sqrt (∑ k, pos k ^ 2) = 1.1 := by
    rw [hpos, show (1.21 : ℝ) = 1.1 ^ 2 by norm_num]
    exact Real.sqrt_sq (by norm_num)
  have hne : pos ≠ 0 := by
    intro h
    rw [h] at hpos
    simp at hpos
    norm_num at hpos
  obtain ⟨h1, h2, -⟩ := qr_spec pos hne (sphereSimplex n j)
  obtain ⟨s1, s2, -, s4⟩ := sphereSimplex_spec n hn j
  have hsum : ∑ k, v k ^ 2 = ∑ k, sphereSimplex n j k ^ 2 + 2.2 * sphereSimplex n j 0 + 1.21 := by
    have : ∑ k, v k ^ 2 = ∑ k, (qrSigned pos).mulVec (sphereSimplex n j) k ^ 2 +
        2 * ∑ k, pos k * (qrSigned pos).mulVec (sphereSimplex n j) k + ∑ k, pos k ^ 2 := by
      rw [Finset.mul_sum, ← Finset.sum_add_distrib, ← Finset.sum_add_distrib]
      exact Finset.sum_congr rfl fun k _ => by simp only [v]; ring
    rw [this, h1, h2, hsq, hpos]
    ring
  have hnn : 0 ≤ ∑ k, sphereSimplex n j k ^ 2 := Finset.sum_nonneg fun k _ => sq_nonneg _
  refine ⟨by rw [hsum]; linarith, fun hj => by rw [hsum]; have := s2 hj; linarith, fun hj => ?_, hsum⟩
  funext k
  simp only [v]
  rw [s4 hj, Matrix.mulVec_zero]
  simp

theorem mem_sphere {n : ℕ} {s : Simplex 3} : s ∈ sphereStencil n ↔ ∃ i < n, s = List.ofFn fun j => fun k =>
    (qrSigned fun k => 1.1 * fibonacciPoint n i k).mulVec (sphereSimplex n j) k + 1.1 * fibonacciPoint n i k := by
  unfold sphereStencil fibonacciPoints
  simp only [List.mem_map, List.mem_range, List.map_map]
  constructor
  · rintro ⟨i, hi, rfl⟩; exact ⟨i, hi, rfl⟩
  · rintro ⟨i, hi, rfl⟩; exact ⟨i, hi, rfl⟩

theorem sphere_distinct (n : ℕ) : DistinctSimplices (sphereStencil n) := by
  unfold DistinctSimplices sphereStencil fibonacciPoints
  rw [List.map_map, List.pairwise_map]
  refine (List.pairwise_iff_getElem.2 ?_)
  intro a b ha0 hb0 hab
  have ha : a < n := by simpa using ha0
  have hb : b < n := by simpa using hb0
  rw [List.getElem_range, List.getElem_range]
  intro hp
  simp only [Function.comp] at hp
  -- the base vertices
  have hA := fun j => sphere_vertex ha j
  have hB := fun j => sphere_vertex hb j
  simp only at hA hB
  have hmem : (fun k => 1.1 * fibonacciPoint n a k) ∈ List.ofFn fun j => fun k =>
      (qrSigned fun k => 1.1 * fibonacciPoint n b k).mulVec (sphereSimplex n j) k + 1.1 * fibonacciPoint n b k := by
    refine hp.mem_iff.1 ?_
    rw [List.mem_ofFn]
    exact ⟨0, (hA 0).2.2.1 rfl⟩
  obtain ⟨j, hj⟩ := List.mem_ofFn.1 hmem
  have hj0 : j = 0 := by
    by_contra hne
    have h1 := (hB j).2.1 hne
    rw [Finset.sum_congr rfl fun k _ => congrArg (· ^ 2) (congrFun hj k)] at h1
    have h2 : ∑ k, (1.1 * fibonacciPoint n a k) ^ 2 = 1.21 := by
      simp only [mul_pow]
      rw [← Finset.mul_sum, fibonacci_norm ha]
      norm_num
    rw [h2] at h1
    exact lt_irrefl _ h1
  rw [(hB j).2.2.1 hj0] at hj
  have hz := congrFun hj 2
  simp only [fibonacciPoint, Matrix.cons_val] at hz
  have hn : (0 : ℝ) < n := by exact_mod_cast (by omega : 0 < n)
  have : (b : ℝ) = a := by
    field_simp at hz
    linarith
  have : b = a := by exact_mod_cast this
  omega

/-! ## The circle stencil -/

theorem rotate_norm (phi : ℝ) (v : Vec 2) : ∑ k, rotate2 phi v k ^ 2 = ∑ k, v k ^ 2 := by
  simp only [Fin.sum_univ_two, rotate2, Matrix.cons_val_zero, Matrix.cons_val_one]
  have := Real.sin_sq_add_cos_sq phi
  linear_combination (v 0 ^ 2 + v 1 ^ 2) * this

theorem circle_norm {n : ℕ} (hn : 0 < n) (j : Fin 3) : 2.25 ≤ ∑ k, circleSimplex n j k ^ 2 ∧ (j ≠ 0 → 2.25 < ∑ k, circleSimplex n j k ^ 2) := by
  have hn' : (0 : ℝ) < n := by exact_mod_cast hn
  have h3 : 0 < Real.sqrt 3 / 2 * 5 / n := by positivity
  have h2 : (0 : ℝ) < 1 / 2 * 5 / n := by positivity
  fin_cases j
  · simp [circleSimplex, Fin.sum_univ_two]; norm_num
  · simp only [circleSimplex, Fin.sum_univ_two]
    simp only [Fin.mk_one, Matrix.cons_val_one, Matrix.cons_val_zero]
    refine ⟨?_, fun _ => ?_⟩ <;> nlinarith
  · simp only [circleSimplex, Fin.sum_univ_two]
    simp only [Fin.reduceFinMk, Matrix.cons_val, Matrix.cons_val_one, Matrix.cons_val_zero]
    refine ⟨?_, fun _ => ?_⟩ <;> nlinarith [sq_nonneg (-1 / 2 * 5 / (n : ℝ))]

theorem circle_distinct {n : ℕ} : DistinctSimplices (circleStencil n) := by
  unfold DistinctSimplices circleStencil
  rw [List.pairwise_map]
  have hlt : (0 : ℝ) < 2 * Real.pi := by positivity
  refine (List.Nodup.pairwise_of_forall_ne (nodup_linspace hlt n false) ?_)
  intro a ha b hb hab hp
  have hn : 0 < n := by
    obtain ⟨k, hk, -⟩ := mem_linspace.1 ha
    omega
  have ra := linspace_mem_Icc hlt ha
  have rb := linspace_mem_Icc hlt hb
  have hn' : (0 : ℝ) < n := by exact_mod_cast hn
  have hst : 0 < (2 * Real.pi - 0) / n := by positivity
  have hmem : rotate2 a (circleSimplex n 0) ∈ List.ofFn fun j => rotate2 b (circleSimplex n j) :=
    hp.mem_iff.1 (List.mem_ofFn.2 ⟨0, rfl⟩)
  obtain ⟨j, hj⟩ := List.mem_ofFn.1 hmem
  have hj0 : j = 0 := by
    by_contra hne
    have h1 := (circle_norm hn j).2 hne
    have h2 := rotate_norm b (circleSimplex n j)
    rw [hj, rotate_norm] at h2
    rw [← h2] at h1
    simp [circleSimplex, Fin.sum_univ_two] at h1
    norm_num at h1
  subst hj0
  have h0 := congrFun hj 0
  have h1 := congrFun hj 1
  simp [rotate2, circleSimplex] at h0 h1
  have h0' : Real.sin b = Real.sin a := by
    rcases h0 with h | h
    · exact h
    · norm_num at h
  have h1' : Real.cos b = Real.cos a := by
    rcases h1 with h | h
    · exact h
    · norm_num at h
  have := Real.Angle.cos_sin_inj h1' h0'
  obtain ⟨k, hk⟩ := Real.Angle.angle_eq_iff_two_pi_dvd_sub.1 this
  have hra := ra.2.2 rfl
  have hrb := rb.2.2 rfl
  have hk0 : k = 0 := by
    have hk1 : (k : ℝ) < 1 := by
      by_contra h; push Not at h
      nlinarith
    have hk2 : (-1 : ℝ) < k := by
      by_contra h; push Not at h
      nlinarith
    have : k < 1 := by exact_mod_cast hk1
    have : -1 < k := by exact_mod_cast hk2
    omega
  rw [hk0] at hk
  simp at hk
  apply hab
  linarith

end NF
