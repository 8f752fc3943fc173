import Verif.Lemmas.FloatSetup

/-! # The vertices of the refinement stencils are far apart -/

noncomputable section
open Classical

namespace NF.FL
open Spec
variable {d : ℕ}

/-- vectors of different length differ in a coordinate -/
theorem differ_of_norm {v w : Vec d} {g B : ℝ} (hB : ∀ k, |v k| ≤ B) (hg : 0 ≤ g) (h : ∑ k, v k ^ 2 + d * (g ^ 2 + 2 * g * B) < ∑ k, w k ^ 2) : ∃ k, g < |v k - w k| := by
  by_contra hc
  push Not at hc
  have h1 : ∑ k, w k ^ 2 ≤ ∑ k, (v k ^ 2 + (g ^ 2 + 2 * g * B)) := by
    refine Finset.sum_le_sum fun k _ => ?_
    have e1 := hc k
    have e2 := hB k
    have e3 : w k ^ 2 = v k ^ 2 + (v k - w k) ^ 2 - 2 * ((v k - w k) * v k) := by ring
    have e4 : (v k - w k) ^ 2 ≤ g ^ 2 := by
      rw [← sq_abs]
      exact pow_le_pow_left₀ (abs_nonneg _) e1 2
    have e5 : |(v k - w k) * v k| ≤ g * B := by
      rw [abs_mul]
      exact mul_le_mul e1 e2 (abs_nonneg _) hg
    have e6 := (abs_le.1 e5).1
    linarith
  rw [Finset.sum_add_distrib, Finset.sum_const, Finset.card_univ, Fintype.card_fin, nsmul_eq_mul] at h1
  linarith

theorem circle_far (j : Fin 3) (hj : j ≠ 0) : 3 ≤ ∑ k, circleSimplex 5 j k ^ 2 := by
  have h3 : (0 : ℝ) ≤ Real.sqrt 3 := Real.sqrt_nonneg 3
  have h4 : Real.sqrt 3 ^ 2 = 3 := Real.sq_sqrt (by norm_num)
  fin_cases j
  · exact absurd rfl hj
  · simp only [circleSimplex, Fin.sum_univ_two]
    simp only [Fin.mk_one, Matrix.cons_val_one, Matrix.cons_val_zero]
    push_cast
    nlinarith
  · simp only [circleSimplex, Fin.sum_univ_two]
    simp only [Fin.reduceFinMk, Matrix.cons_val, Matrix.cons_val_one, Matrix.cons_val_zero]
    push_cast
    nlinarith

theorem cos_le_half {t : ℝ} (h1 : 2 * Real.pi / 5 ≤ t) (h2 : t ≤ 2 * Real.pi - 2 * Real.pi / 5) : Real.cos t ≤ 1 / 2 := by
  have hp := Real.pi_pos
  rw [← Real.cos_pi_div_three]
  by_cases ht : t ≤ Real.pi
  · exact Real.cos_le_cos_of_nonneg_of_le_pi (by positivity) ht (by linarith)
  · rw [← Real.cos_two_pi_sub t]
    exact Real.cos_le_cos_of_nonneg_of_le_pi (by positivity) (by linarith) (by linarith)

theorem circle_separated : Separated (fun _ => 1 / 20) (circleStencil 5) := by
  unfold Separated circleStencil
  rw [List.pairwise_map]
  have hlt : (0 : ℝ) < 2 * Real.pi := by positivity
  refine (List.Nodup.pairwise_of_forall_ne (nodup_linspace hlt 5 false) ?_)
  intro a ha b hb hab
  have hp := Real.pi_pos
  have hcos : Real.cos (a - b) ≤ 1 / 2 := by
    obtain ⟨i, hi, rfl⟩ := mem_linspace.1 ha
    obtain ⟨j, hj, rfl⟩ := mem_linspace.1 hb
    simp only [Bool.false_eq_true, if_false] at *
    have hi4 : (i : ℝ) ≤ 4 := by exact_mod_cast (by omega : i ≤ 4)
    have hj4 : (j : ℝ) ≤ 4 := by exact_mod_cast (by omega : j ≤ 4)
    have hi0 : (0 : ℝ) ≤ i := by positivity
    have hj0 : (0 : ℝ) ≤ j := by positivity
    have hij : i ≠ j := by rintro rfl; exact hab rfl
    rcases lt_or_gt_of_ne hij with h | h
    · have h' : (i : ℝ) + 1 ≤ j := by exact_mod_cast h
      rw [← Real.cos_neg]
      apply cos_le_half <;> push_cast <;> nlinarith
    · have h' : (j : ℝ) + 1 ≤ i := by exact_mod_cast h
      apply cos_le_half <;> push_cast <;> nlinarith
  refine .inl ⟨rotate2 a (circleSimplex 5 0), List.mem_ofFn.2 ⟨0, rfl⟩, fun w hw => ?_⟩
  obtain ⟨j, rfl⟩ := List.mem_ofFn.1 hw
  have hn0 : ∑ k, rotate2 a (circleSimplex 5 0) k ^ 2 = 2.25 := by
    rw [rotate_norm]
    simp [circleSimplex, Fin.sum_univ_two]
    norm_num
  by_cases hj : j = 0
  · subst hj
    by_contra hc
    push Not at hc
    have h0 := hc 0
    have h1 := hc 1
    have s0 := sq_le_sq' (by linarith [(abs_le.1 h0).1]) (abs_le.1 h0).2
    have s1 := sq_le_sq' (by linarith [(abs_le.1 h1).1]) (abs_le.1 h1).2
    simp only [rotate2, circleSimplex, Matrix.cons_val_zero, Matrix.cons_val_one] at s0 s1
    rw [Real.cos_sub] at hcos
    have ta := Real.sin_sq_add_cos_sq a
    have tb := Real.sin_sq_add_cos_sq b
    nlinarith
  · refine differ_of_norm (B := 1.5) (fun k => ?_) (by norm_num) ?_
    · apply abs_le_of_sum (by norm_num)
      rw [hn0]; norm_num
    · have := circle_far j hj
      rw [hn0, rotate_norm]
      refine lt_of_lt_of_le ?_ this
      norm_num

theorem sphere_far (j : Fin 4) (hj : j ≠ 0) : ∑ k, sphereSimplex 30 j k ^ 2 = 27 / 80 := by
  obtain ⟨h1, -, -⟩ := qr_spec (fun _ => 1) (fun h => by have := congrFun h 0; simp at this) (sphereSimplex0 30 j)
  unfold sphereSimplex
  rw [h1]
  obtain ⟨i, rfl⟩ := Fin.exists_succ_eq.2 hj
  have hs : Real.sqrt ((30 : ℕ) : ℝ) ^ 2 = 30 := by rw [Real.sq_sqrt (by norm_num)]; norm_num
  have hs0 : Real.sqrt ((30 : ℕ) : ℝ) ≠ 0 := fun h => by rw [h] at hs; norm_num at hs
  have he : (3 / Real.sqrt ((30 : ℕ) : ℝ)) ^ 2 = 3 / 10 := by rw [div_pow, hs]; norm_num
  have hval : ∀ k, sphereSimplex0 30 i.succ k ^ 2 = (0.25 + 0.75 * (if i = k then 1 else 0)) ^ 2 * (3 / 10) := fun k => by
    rw [← he, ← mul_pow]
    simp [sphereSimplex0]
  simp only [hval, Fin.sum_univ_three]
  fin_cases i <;> simp <;> norm_num

theorem sphere_separated : Separated (fun _ => 1 / 20) (sphereStencil 30) := by
  unfold Separated sphereStencil fibonacciPoints
  rw [List.map_map, List.pairwise_map]
  refine (List.pairwise_iff_getElem.2 ?_)
  intro a b ha0 hb0 hab
  have ha : a < 30 := by simpa using ha0
  have hb : b < 30 := by simpa using hb0
  rw [List.getElem_range, List.getElem_range]
  simp only [Function.comp]
  have hA := fun j => sphere_vertex ha j
  have hB := fun j => sphere_vertex hb j
  simp only at hA hB
  refine .inl ⟨fun k => 1.1 * fibonacciPoint 30 a k, List.mem_ofFn.2 ⟨0, (hA 0).2.2.1 rfl⟩, fun w hw => ?_⟩
  obtain ⟨j, rfl⟩ := List.mem_ofFn.1 hw
  have h2 : ∑ k, (1.1 * fibonacciPoint 30 a k) ^ 2 = 1.21 := by
    simp only [mul_pow]
    rw [← Finset.mul_sum, fibonacci_norm ha]
    norm_num
  by_cases hj : j = 0
  · rw [(hB j).2.2.1 hj]
    refine ⟨2, ?_⟩
    simp only [fibonacciPoint, Matrix.cons_val]
    have h : (a : ℝ) + 1 ≤ b := by exact_mod_cast hab
    rw [abs_sub_comm]
    refine lt_of_lt_of_le ?_ (le_abs_self _)
    push_cast
    norm_num
    linarith
  · refine differ_of_norm (B := 1.1) (fun k => ?_) (by norm_num) ?_
    · apply abs_le_of_sum (v := fun k => 1.1 * fibonacciPoint 30 a k) (by norm_num)
      rw [h2]; norm_num
    · rw [(hB j).2.2.2, sphere_far j hj, h2]
      have := (sphereSimplex_spec 30 (by norm_num) j).2.1 hj
      norm_num
      linarith

/-- the `'auto'` stencils -/
theorem auto_separated (d : ℕ) : Separated (fun _ => 1 / 20) (autoStencil d) := by
  unfold autoStencil
  split
  · exact circle_separated
  · exact sphere_separated
  · exact separated_mesh (fun _ => by norm_num) _ _ fun k => by norm_num

/-! ## moving and scaling -/

/-- the stencil scaled and moved, without rounding -/
def placed (st : List (Simplex d)) (x : Vec d) (c : ℝ) : List (Simplex d) := st.map fun s => s.map fun v => fun k => x k + v k * c

theorem placed_separated {st : List (Simplex d)} {g : ℝ} (h : Separated (fun _ => g) st) (x : Vec d) {c : ℝ} (hc : 0 < c) : Separated (fun _ => g * c) (placed st x c) := by
  unfold Separated placed at *
  rw [List.pairwise_map]
  have key : ∀ v w : Vec d, (∃ k, g < |v k - w k|) → ∃ k, g * c < |(x k + v k * c) - (x k + w k * c)| := by
    rintro v w ⟨k, hk⟩
    refine ⟨k, ?_⟩
    rw [show x k + v k * c - (x k + w k * c) = (v k - w k) * c by ring, abs_mul, abs_of_pos hc]
    exact mul_lt_mul_of_pos_right hk hc
  refine h.imp fun {a b} hab => ?_
  rcases hab with ⟨v, hv, hw⟩ | ⟨w, hw, hv⟩
  · refine .inl ⟨_, List.mem_map.2 ⟨v, hv, rfl⟩, fun w' hw' => ?_⟩
    obtain ⟨w, hw'', rfl⟩ := List.mem_map.1 hw'
    exact key v w (hw w hw'')
  · refine .inr ⟨_, List.mem_map.2 ⟨w, hw, rfl⟩, fun v' hv' => ?_⟩
    obtain ⟨v, hv'', rfl⟩ := List.mem_map.1 hv'
    exact key v w (hv v hv'')

theorem placed_err {rnd : ℝ → ℝ} (hr : IsNearest rnd) {x v v' c : ℝ} (hc : 0 < c) (hx : |x| ≤ 2 ^ 43 * c) (hv : |v' - v| ≤ 1 / 1000) (hv0 : |v| ≤ 10 / 3) :
    |rnd (x + rnd (v' * c)) - (x + v * c)| ≤ 1 / 40 * c := by
  obtain ⟨r, hr'⟩ : ∃ r : ℝ, r = 1 / 2 ^ 53 := ⟨_, rfl⟩
  have RE : ∀ x, |rnd x - x| ≤ r * |x| := fun x => by rw [hr']; exact rel_err hr x
  have r0 : 0 < r := by rw [hr']; positivity
  have r1 : r ≤ 1 / 1000000 := by rw [hr']; norm_num
  have r2 : r * 2 ^ 43 ≤ 1 / 1000 := by rw [hr']; norm_num
  have hv1 : |v'| ≤ 4 := by
    have := abs_sub_abs_le_abs_sub v' v
    linarith
  have h1 : |v' * c| ≤ 4 * c := by rw [abs_mul, abs_of_pos hc]; exact mul_le_mul_of_nonneg_right hv1 hc.le
  have e1 := RE (v' * c)
  obtain ⟨y, hy⟩ : ∃ y, y = rnd (v' * c) := ⟨_, rfl⟩
  rw [← hy] at e1 ⊢
  have e2 : |y - v' * c| ≤ 4 / 1000000 * c := by nlinarith [abs_nonneg (v' * c)]
  have e3 : |v' * c - v * c| ≤ 1 / 1000 * c := by
    rw [← sub_mul, abs_mul, abs_of_pos hc]
    exact mul_le_mul_of_nonneg_right hv hc.le
  have hy2 : |y| ≤ 5 * c := by
    have := abs_sub_abs_le_abs_sub y (v' * c)
    linarith
  have e4 := RE (x + y)
  have e5 : r * |x + y| ≤ 1 / 1000 * c + 5 / 1000000 * c := by
    have h5 : |x + y| ≤ 2 ^ 43 * c + 5 * c := (abs_add_le _ _).trans (by linarith)
    have h6 : r * |x + y| ≤ r * (2 ^ 43 * c + 5 * c) := mul_le_mul_of_nonneg_left h5 r0.le
    have h7 : r * (2 ^ 43 * c + 5 * c) = (r * 2 ^ 43) * c + r * (5 * c) := by ring
    have h8 : (r * 2 ^ 43) * c ≤ 1 / 1000 * c := mul_le_mul_of_nonneg_right r2 hc.le
    have h9 : r * (5 * c) ≤ 1 / 1000000 * (5 * c) := mul_le_mul_of_nonneg_right r1 (by linarith)
    linarith
  have e6 : rnd (x + y) - (x + v * c) = (rnd (x + y) - (x + y)) + ((y - v' * c) + (v' * c - v * c)) := by ring
  rw [e6]
  refine (abs_add_le _ _).trans ?_
  have := abs_add_le (y - v' * c) (v' * c - v * c)
  linarith

theorem forall2_imp_mem {α β : Type*} {R S : α → β → Prop} {l : List α} {l' : List β} (h : List.Forall₂ R l l') (hi : ∀ a, ∀ b ∈ l', R a b → S a b) : List.Forall₂ S l l' := by
  induction h with
  | nil => exact .nil
  | cons h1 _ ih => exact .cons (hi _ _ (by simp) h1) (ih fun a b hb => hi a b (by simp [hb]))

theorem placed_near {A : CtlArith d} (hr : IsNearest A.rnd) {auto : List (Simplex d)} (ha : NearSimplices (fun _ => 1 / 1000) auto (autoStencil d)) {x : Vec d} {c : ℝ} (hc : 0 < c) (hx : ∀ k, |x k| ≤ 2 ^ 43 * c) :
    NearSimplices (fun _ => 1 / 40 * c) (translateStencil A x (scaleStencil A.rnd auto c)) (placed (autoStencil d) x c) := by
  unfold NearSimplices translateStencil scaleStencil placed at *
  rw [List.map_map, List.forall₂_map_left_iff, List.forall₂_map_right_iff]
  refine forall2_imp_mem ha fun s' s hs h => ?_
  simp only [Function.comp_apply]
  rw [List.map_map, List.forall₂_map_left_iff, List.forall₂_map_right_iff]
  refine forall2_imp_mem h fun v' v hv h k => ?_
  exact placed_err hr hc (hx k) (h k) ((auto_vertex hs hv).2 k)

theorem placed_distinct {A : CtlArith d} (hr : IsNearest A.rnd) {auto : List (Simplex d)} (ha : NearSimplices (fun _ => 1 / 1000) auto (autoStencil d)) {x : Vec d} {c : ℝ} (hc : 0 < c) (hx : ∀ k, |x k| ≤ 2 ^ 43 * c) :
    DistinctSimplices (translateStencil A x (scaleStencil A.rnd auto c)) :=
  distinct_of_near (placed_near hr ha hc hx) (placed_separated (auto_separated d) x hc) fun _ => by linarith

/-! ## the mesh stencil -/

theorem isFloat_half5 : IsFloat (2.5 : ℝ) := ⟨5, -1, by norm_num, by norm_num [zpow_neg]⟩

theorem isFloat_neg {x : ℝ} (h : IsFloat x) : IsFloat (-x) := by
  obtain ⟨m, e, hm, rfl⟩ := h
  exact ⟨-m, e, by rwa [abs_neg], by push_cast; ring⟩

theorem linspace_auto {rnd : ℝ → ℝ} (hr : IsNearest rnd) : linspace rnd (-2.5) 2.5 3 true = [-2.5, 0, 2.5] ∧ NF.linspace (-2.5) 2.5 3 true = [-2.5, 0, 2.5] := by
  have h5 : rnd 5 = 5 := rnd_of_isFloat hr (by simpa using isFloat_int (n := 5) (by norm_num))
  have h25 : rnd (5 / 2) = 5 / 2 := rnd_of_isFloat hr (by have := isFloat_half5; norm_num at this; exact this)
  have h25' : rnd (-(5 / 2)) = -(5 / 2) := rnd_of_isFloat hr (isFloat_neg (by have := isFloat_half5; norm_num at this; exact this))
  have h0 : rnd 0 = 0 := rnd_of_isFloat hr isFloat_zero
  constructor
  · simp only [linspace, List.range_succ, List.range_zero]
    norm_num [h5, h25, h25', h0]
  · simp only [NF.linspace, List.range_succ, List.range_zero]
    norm_num

theorem auto_mesh_near {rnd : ℝ → ℝ} (hr : IsNearest rnd) (d : ℕ) :
    NearSimplices (fun _ => 1 / 1000) (meshStencil rnd (fun _ : Fin d => 3) 2.5) (NF.meshStencil (fun _ : Fin d => 3) 2.5) := by
  have hl : (fun _ : Fin d => linspace rnd (-2.5) 2.5 3 (!false)) = fun _ => NF.linspace (-2.5) 2.5 3 (!false) := by
    funext i
    rw [Bool.not_false, (linspace_auto hr).1, (linspace_auto hr).2]
  have hfil : meshVertices rnd (fun _ : Fin d => -2.5) (fun _ => 2.5) (fun _ => 3) false true = NF.meshVertices (fun _ : Fin d => -2.5) (fun _ => 2.5) (fun _ => 3) false true := by
    unfold meshVertices NF.meshVertices
    simp only [if_true]
    rw [hl]
    refine List.filter_congr fun v hv => ?_
    have hv' : ∀ i, v i = 0 ∨ |v i| = 2.5 := by
      intro i
      have := mem_productList.1 hv i
      rw [Bool.not_false, (linspace_auto hr).2] at this
      simp only [List.mem_cons, List.not_mem_nil, or_false] at this
      rcases this with h | h | h
      · right; rw [h]; norm_num [abs_of_nonneg]
      · left; exact h
      · right; rw [h]; norm_num [abs_of_nonneg]
    have e : allcloseZero rnd v ↔ NF.allcloseZero v := by
      unfold allcloseZero NF.allcloseZero
      have h1 : 0 ≤ rnd (1 / 10 ^ 8) := rnd_nonneg hr (by norm_num)
      have h2 : rnd (1 / 10 ^ 8) ≤ 1 := rnd_le hr (by simpa using isFloat_int (n := 1) (by norm_num)) (by norm_num)
      refine forall_congr' fun i => ?_
      rcases hv' i with h | h
      · rw [h, abs_zero]; exact ⟨fun _ => by norm_num, fun _ => h1⟩
      · rw [h]; constructor <;> intro h3 <;> norm_num at h3 <;> linarith
    rw [decide_eq_decide, e]
  unfold meshStencil NF.meshStencil generateMeshSimplices NF.generateMeshSimplices
  rw [hfil]
  unfold NearSimplices
  rw [List.forall₂_map_left_iff, List.forall₂_map_right_iff, List.forall₂_same]
  intro v hv
  unfold meshSimplex NF.meshSimplex
  rw [List.ofFn_eq_map, List.ofFn_eq_map, List.forall₂_map_left_iff, List.forall₂_map_right_iff, List.forall₂_same]
  intro j _ k
  have hvk : v k = -2.5 ∨ v k = 0 ∨ v k = 2.5 := by
    have := (NF.mem_meshVertices.1 hv).1 k
    rw [Bool.not_false, (linspace_auto hr).2] at this
    simpa using this
  have hfl : IsFloat (v k) ∧ -2.5 ≤ v k ∧ v k ≤ 2.5 := by
    rcases hvk with h | h | h <;> rw [h]
    · exact ⟨isFloat_neg isFloat_half5, by norm_num, by norm_num⟩
    · exact ⟨isFloat_zero, by norm_num, by norm_num⟩
    · exact ⟨isFloat_half5, by norm_num, by norm_num⟩
  have := vertex_err hr (l := fun _ => -2.5) (u := fun _ => 2.5) (fun _ => by norm_num) (m := fun _ => 3) (v := v) (v' := v) (k := k) (by norm_num)
    ⟨by rw [sub_self, abs_zero]; positivity, hfl.2.1, hfl.2.2, hfl.1⟩ j
  refine this.trans ?_
  norm_num [abs_of_nonneg]

end NF.FL
