import Verif.Spec.FloatSetup
import Verif.Lemmas.FloatErr
import Verif.Props.Mesh

/-! # Helper lemmas about the set-up of a search in floating-point arithmetic -/

noncomputable section
open Classical

namespace NF.FL
open Spec
variable {d : ℕ}

/-! ## nearness and separation -/

theorem distinct_of_near {gap err : Vec d} {st st' : List (Simplex d)} (hn : NearSimplices err st' st) (hs : Separated gap st) (h : ∀ k, 2 * err k ≤ gap k) : DistinctSimplices st' := by
  unfold Separated at hs
  unfold NearSimplices at hn
  unfold DistinctSimplices
  induction hn with
  | nil => exact List.Pairwise.nil
  | @cons s' s st' st h1 h2 ih =>
    rw [List.pairwise_cons] at hs ⊢
    refine ⟨fun t' ht' hp => ?_, ih hs.2⟩
    obtain ⟨t, ht, h3⟩ : ∃ t ∈ st, List.Forall₂ (fun v v' : Vec d => ∀ k, |v k - v' k| ≤ err k) t' t := by
      clear hs ih
      induction h2 with
      | nil => cases ht'
      | @cons a b _ _ hab _ ih =>
        rcases List.mem_cons.1 ht' with rfl | h
        · exact ⟨b, by simp, hab⟩
        · obtain ⟨t, h4, h5⟩ := ih h
          exact ⟨t, by simp [h4], h5⟩
    have near : ∀ {a a' : Simplex d}, List.Forall₂ (fun v v' : Vec d => ∀ k, |v k - v' k| ≤ err k) a' a → (∀ v ∈ a, ∃ v' ∈ a', ∀ k, |v' k - v k| ≤ err k) ∧ (∀ v' ∈ a', ∃ v ∈ a, ∀ k, |v' k - v k| ≤ err k) := by
      intro a a' h
      induction h with
      | nil => simp
      | @cons x y _ _ hxy _ ih =>
        constructor
        · intro v hv
          rcases List.mem_cons.1 hv with rfl | hv
          · exact ⟨x, by simp, hxy⟩
          · obtain ⟨v', h6, h7⟩ := ih.1 v hv
            exact ⟨v', by simp [h6], h7⟩
        · intro v hv
          rcases List.mem_cons.1 hv with rfl | hv
          · exact ⟨y, by simp, hxy⟩
          · obtain ⟨v', h6, h7⟩ := ih.2 v hv
            exact ⟨v', by simp [h6], h7⟩
    have clash : ∀ {v w v' : Vec d}, (∃ k, gap k < |v k - w k|) → (∀ k, |v' k - v k| ≤ err k) → (∀ k, |v' k - w k| ≤ err k) → False := by
      rintro v w v' ⟨k, hk⟩ h6 h7
      have h8 := h6 k
      have h9 := h7 k
      have : |v k - w k| ≤ |v' k - v k| + |v' k - w k| := by
        have := abs_sub_le (v k) (v' k) (w k)
        rw [abs_sub_comm (v k) (v' k)] at this
        exact this
      linarith [h k]
    rcases hs.1 t ht with ⟨v, hv, hw⟩ | ⟨w, hw, hv⟩
    · obtain ⟨v', hv', e1⟩ := (near h1).1 v hv
      obtain ⟨w, hw', e2⟩ := (near h3).2 v' (hp.mem_iff.1 hv')
      exact clash (hw w hw') e1 e2
    · obtain ⟨w', hw', e1⟩ := (near h3).1 w hw
      obtain ⟨v, hv', e2⟩ := (near h1).2 w' (hp.mem_iff.2 hw')
      obtain ⟨k, hk⟩ := hv v hv'
      exact clash (v := w) (w := v) ⟨k, by rwa [abs_sub_comm]⟩ e1 e2

/-! ## linspace -/

theorem length_linspace (rnd : ℝ → ℝ) (l u : ℝ) (m : ℕ) (e : Bool) : (linspace rnd l u m e).length = m := by simp [linspace]

set_option maxHeartbeats 1000000 in
/-- one number of `linspace` -/
theorem linspace_point {rnd : ℝ → ℝ} (hr : IsNearest rnd) {l u : ℝ} (h : l < u) (hl : IsFloat l) (hu : IsFloat u) {m k : ℕ} (hk : k < m) (hm : m < 2 ^ 50) (e : Bool) :
    let x := if e = true ∧ 1 < m ∧ k + 1 = m then u else rnd (rnd ((k : ℝ) * rnd (rnd (u - l) / (if e then (m : ℝ) - 1 else m))) + l)
    |x - (l + k * ((u - l) / (if e then (m : ℝ) - 1 else m)))| ≤ (|l| + 5 * (u - l)) / 2 ^ 53 ∧ l ≤ x ∧ x ≤ u ∧ IsFloat x := by
  intro x
  have hul : 0 < u - l := by linarith
  by_cases hlast : e = true ∧ 1 < m ∧ k + 1 = m
  · have hx : x = u := if_pos hlast
    obtain ⟨he, h1, h2⟩ := hlast
    have hm' : ((m : ℝ) - 1) = k := by rw [← h2]; push_cast; ring
    have hk0 : (k : ℝ) ≠ 0 := by exact_mod_cast (by omega : k ≠ 0)
    rw [hx, if_pos he, hm']
    have e1 : u - (l + (k : ℝ) * ((u - l) / k)) = 0 := by field_simp; ring
    rw [e1, abs_zero]
    exact ⟨by positivity, h.le, le_rfl, hu⟩
  · have hx : x = rnd (rnd ((k : ℝ) * rnd (rnd (u - l) / (if e then (m : ℝ) - 1 else m))) + l) := if_neg hlast
    set D : ℝ := if e then (m : ℝ) - 1 else m with hD
    rw [hx]
    set L := u - l with hLdef
    obtain ⟨r, hr'⟩ : ∃ r : ℝ, r = 1 / 2 ^ 53 := ⟨_, rfl⟩
    have RE : ∀ x, |rnd x - x| ≤ r * |x| := fun x => by rw [hr']; exact rel_err hr x
    have r0 : 0 < r := by rw [hr']; positivity
    have r1 : r ≤ 1 / 1000 := by rw [hr']; norm_num
    -- the step
    have hk' : (k : ℝ) = 0 ∨ (k : ℝ) + 1 ≤ D := by
      by_cases hk0 : k = 0
      · left; simp [hk0]
      · right
        rw [hD]
        cases he : e with
        | true =>
          simp only [if_true]
          have : k + 2 ≤ m := by
            by_contra hc
            exact hlast ⟨he, by omega, by omega⟩
          have : (k : ℝ) + 2 ≤ m := by exact_mod_cast this
          linarith
        | false =>
          simp only [Bool.false_eq_true, if_false]
          exact_mod_cast hk
    have hDm : D ≤ 2 ^ 50 := by
      have : (m : ℝ) ≤ 2 ^ 50 := by exact_mod_cast hm.le
      rw [hD]
      split <;> linarith
    have d1 := abs_le.1 (RE L)
    rw [abs_of_pos hul] at d1
    set δ := rnd L with hδ
    have δ0 : 0 ≤ δ := rnd_nonneg hr hul.le
    rcases hk' with hk0 | hkD
    · rw [hk0, zero_mul, zero_mul, rnd_of_isFloat hr isFloat_zero, zero_add, add_zero, rnd_of_isFloat hr hl, sub_self, abs_zero]
      exact ⟨by positivity, le_rfl, h.le, hl⟩
    · have k0 : (0 : ℝ) ≤ k := by positivity
      have D0 : 0 < D := by linarith
      set q := (k : ℝ) / D with hq
      have q0 : 0 ≤ q := by rw [hq]; positivity
      have q1 : q ≤ 1 - 1 / 2 ^ 50 := by
        rw [hq, div_le_iff₀ D0]
        have : D * (1 / 2 ^ 50) ≤ 1 := by
          rw [mul_one_div, div_le_one (by positivity)]; exact hDm
        linarith
      have d2 := RE (δ / D)
      rw [abs_of_nonneg (div_nonneg δ0 D0.le)] at d2
      set s := rnd (δ / D) with hs
      have s0 : 0 ≤ s := rnd_nonneg hr (div_nonneg δ0 D0.le)
      -- k * s against q * L
      have d3 : |k * s - q * L| ≤ r * q * (δ + L) := by
        have e1 : k * s - q * L = k * (s - δ / D) + q * (δ - L) := by rw [hq]; field_simp; ring
        have e2 : |k * (s - δ / D)| ≤ r * q * δ := by
          rw [abs_mul, abs_of_nonneg k0]
          calc k * |s - δ / D| ≤ k * (r * (δ / D)) := mul_le_mul_of_nonneg_left d2 k0
            _ = r * q * δ := by rw [hq]; ring
        have e3 : |q * (δ - L)| ≤ r * q * L := by
          rw [abs_mul, abs_of_nonneg q0]
          calc q * |δ - L| ≤ q * (r * L) := mul_le_mul_of_nonneg_left (abs_le.2 d1) q0
            _ = r * q * L := by ring
        rw [e1]
        calc _ ≤ _ := abs_add_le _ _
          _ ≤ r * q * δ + r * q * L := add_le_add e2 e3
          _ = _ := by ring
      have δ1 : δ ≤ (1 + r) * L := by linarith [d1.2]
      have ks0 : 0 ≤ k * s := by positivity
      have d4 := RE (k * s)
      rw [abs_of_nonneg ks0] at d4
      set y := rnd (k * s) with hy
      have y0 : 0 ≤ y := rnd_nonneg hr ks0
      have rq : 0 ≤ r * q := by positivity
      have d5 : |k * s - q * L| ≤ r * q * ((2 + r) * L) := d3.trans (mul_le_mul_of_nonneg_left (by linarith) rq)
      have ks1 : k * s ≤ q * L * (1 + (2 + r) * r) := by
        have := (abs_le.1 d5).2
        nlinarith
      have d6 : |y - q * L| ≤ r * (q * L) * 4 := by
        have h1 : |y - q * L| ≤ |y - k * s| + |k * s - q * L| := abs_sub_le _ _ _
        have h2 : r * (k * s) ≤ r * (q * L * (1 + (2 + r) * r)) := mul_le_mul_of_nonneg_left ks1 r0.le
        have h3 : 0 ≤ r * (q * L) := by positivity
        have h4 : r * (q * L * (1 + (2 + r) * r)) = r * (q * L) * (1 + (2 + r) * r) := by ring
        have h5 : r * q * ((2 + r) * L) = r * (q * L) * (2 + r) := by ring
        have h6 : r * (q * L) * (1 + (2 + r) * r) + r * (q * L) * (2 + r) ≤ r * (q * L) * 4 := by
          rw [← mul_add]
          exact mul_le_mul_of_nonneg_left (by nlinarith) h3
        linarith
      have y1 : y ≤ L := by
        have h1 := (abs_le.1 d6).2
        have h2 : y ≤ q * L * (1 + 4 * r) := by linarith
        have h3 : q * (1 + 4 * r) ≤ 1 := by
          have : (1 - 1 / 2 ^ 50) * (1 + 4 * r) ≤ 1 := by rw [hr']; norm_num
          have h4 : q * (1 + 4 * r) ≤ (1 - 1 / 2 ^ 50) * (1 + 4 * r) := mul_le_mul_of_nonneg_right q1 (by linarith)
          linarith
        nlinarith
      refine ⟨?_, le_rnd hr hl (by linarith), rnd_le hr hu (by linarith), (hr _).1⟩
      have d7 := RE (y + l)
      have e1 : l + k * (L / D) = l + q * L := by rw [hq]; ring
      rw [e1]
      have h1 : |rnd (y + l) - (l + q * L)| ≤ |rnd (y + l) - (y + l)| + |y - q * L| := by
        have e2 : rnd (y + l) - (l + q * L) = (rnd (y + l) - (y + l)) + (y - q * L) := by ring
        rw [e2]; exact abs_add_le _ _
      have h2 : |y + l| ≤ L + |l| := (abs_add_le _ _).trans (by rw [abs_of_nonneg y0]; linarith)
      have h3 : q * L ≤ L := by nlinarith
      have h4 : r * |y + l| ≤ r * (L + |l|) := mul_le_mul_of_nonneg_left h2 r0.le
      have h5 : r * (q * L) * 4 ≤ r * L * 4 := by nlinarith
      have e3 : (|l| + 5 * L) / 2 ^ 53 = r * (L + |l|) + r * L * 4 := by rw [hr']; ring
      rw [e3]
      linarith

/-! ## the mesh -/

theorem forall2_productList {d : ℕ} {R : Fin d → ℝ → ℝ → Prop} {ls ls' : Fin d → List ℝ} (h : ∀ i, List.Forall₂ (R i) (ls i) (ls' i)) :
    List.Forall₂ (fun v v' : Vec d => ∀ k, R k (v k) (v' k)) (productList ls) (productList ls') := by
  induction d with
  | zero => exact List.Forall₂.cons (fun k => k.elim0) List.Forall₂.nil
  | succ d ih =>
    have h1 := ih fun i => h i.succ
    refine List.rel_flatMap (h 0) ?_
    intro x x' hx
    rw [List.forall₂_map_left_iff, List.forall₂_map_right_iff]
    refine h1.imp fun v v' hv k => ?_
    induction k using Fin.cases with
    | zero => exact hx
    | succ k => exact hv k

theorem forall2_linspace {rnd : ℝ → ℝ} (hr : IsNearest rnd) {l u : ℝ} (h : l < u) (hl : IsFloat l) (hu : IsFloat u) {m : ℕ} (hm : m < 2 ^ 50) (e : Bool) :
    List.Forall₂ (fun x x' => |x - x'| ≤ (|l| + 5 * (u - l)) / 2 ^ 53 ∧ l ≤ x ∧ x ≤ u ∧ IsFloat x) (linspace rnd l u m e) (NF.linspace l u m e) := by
  unfold linspace NF.linspace
  rw [List.forall₂_map_left_iff, List.forall₂_map_right_iff, List.forall₂_same]
  intro k hk
  exact linspace_point hr h hl hu (List.mem_range.1 hk) hm e

theorem forall2_vertices {rnd : ℝ → ℝ} (hr : IsNearest rnd) {l u : Vec d} (h : ∀ i, l i < u i) (hf : ∀ i, IsFloat (l i) ∧ IsFloat (u i)) {m : Fin d → ℕ} (hm : ∀ i, m i < 2 ^ 50) (p : Bool) :
    List.Forall₂ (fun v v' : Vec d => ∀ k, |v k - v' k| ≤ (|l k| + 5 * (u k - l k)) / 2 ^ 53 ∧ l k ≤ v k ∧ v k ≤ u k ∧ IsFloat (v k))
      (meshVertices rnd l u m p false) (NF.meshVertices l u m p false) := by
  unfold meshVertices NF.meshVertices
  simp only [Bool.false_eq_true, if_false]
  exact forall2_productList fun i => forall2_linspace hr (h i) (hf i).1 (hf i).2 (hm i) _

/-- the length of the edges of the simplices -/
theorem edge_err {rnd : ℝ → ℝ} (hr : IsNearest rnd) {L : ℝ} (hL : 0 < L) {m : ℕ} (hm : 1 ≤ m) :
    |rnd (rnd L / (2 * m)) - L / (2 * m)| ≤ 11 / 10 * L / 2 ^ 53 ∧ 0 ≤ rnd (rnd L / (2 * m)) ∧ rnd (rnd L / (2 * m)) ≤ 3 / 5 * L := by
  obtain ⟨r, hr'⟩ : ∃ r : ℝ, r = 1 / 2 ^ 53 := ⟨_, rfl⟩
  have RE : ∀ x, |rnd x - x| ≤ r * |x| := fun x => by rw [hr']; exact rel_err hr x
  have r0 : 0 < r := by rw [hr']; positivity
  have r1 : r ≤ 1 / 1000 := by rw [hr']; norm_num
  have m1 : (1 : ℝ) ≤ m := by exact_mod_cast hm
  have d1 := RE L
  rw [abs_of_pos hL] at d1
  obtain ⟨δ, hδ⟩ : ∃ δ, δ = rnd L := ⟨_, rfl⟩
  rw [← hδ] at d1 ⊢
  have δ0 : 0 ≤ δ := hδ ▸ rnd_nonneg hr hL.le
  have δ1 : δ ≤ (1 + r) * L := by linarith [(abs_le.1 d1).2]
  have q0 : 0 ≤ δ / (2 * m) := by positivity
  have d2 := RE (δ / (2 * m))
  rw [abs_of_nonneg q0] at d2
  have h1 : δ / (2 * m) ≤ δ / 2 := by
    apply div_le_div_of_nonneg_left δ0 (by norm_num)
    linarith
  have h2 : |δ / (2 * m) - L / (2 * m)| ≤ r * L / 2 := by
    rw [← sub_div, abs_div, abs_of_pos (by positivity : (0 : ℝ) < 2 * m)]
    calc |δ - L| / (2 * m) ≤ r * L / (2 * m) := by gcongr
      _ ≤ r * L / 2 := by
        apply div_le_div_of_nonneg_left (by positivity) (by norm_num)
        linarith
  have h3 : r * (δ / (2 * m)) ≤ r * ((1 + r) * L / 2) := mul_le_mul_of_nonneg_left (by linarith) r0.le
  have rL : 0 < r * L := by positivity
  have h4 : r * ((1 + r) * L / 2) ≤ r * L * (501 / 1000) * (1001 / 1000) := by nlinarith
  have e1 : 11 / 10 * L / 2 ^ 53 = 11 / 10 * (r * L) := by rw [hr']; ring
  refine ⟨?_, rnd_nonneg hr q0, ?_⟩
  · rw [e1]
    have := abs_sub_le (rnd (δ / (2 * m))) (δ / (2 * m)) (L / (2 * m))
    linarith
  · have := (abs_le.1 d2).2
    nlinarith

/-- a coordinate raised by the length of an edge -/
theorem raise_err {rnd : ℝ → ℝ} (hr : IsNearest rnd) {l u x : ℝ} (h : l < u) {m : ℕ} (hm : 1 ≤ m) (h1 : l ≤ x) (h2 : x ≤ u) :
    |rnd (x + rnd (rnd (u - l) / (2 * m))) - (x + (u - l) / (2 * m))| ≤ (|l| + 3 * (u - l)) / 2 ^ 53 := by
  obtain ⟨e1, e2, e3⟩ := edge_err hr (sub_pos.2 h) hm
  obtain ⟨y, hy⟩ : ∃ y, y = rnd (rnd (u - l) / (2 * m)) := ⟨_, rfl⟩
  rw [← hy] at e1 e2 e3 ⊢
  obtain ⟨z, hz⟩ : ∃ z, z = (u - l) / (2 * (m : ℝ)) := ⟨_, rfl⟩
  rw [← hz] at e1 ⊢
  have d1 := rel_err hr (x + y)
  have hx : |x + y| ≤ |l| + 8 / 5 * (u - l) := by
    have e : x + y = l + (x - l + y) := by ring
    rw [e]
    refine (abs_add_le _ _).trans ?_
    rw [abs_of_nonneg (by linarith : 0 ≤ x - l + y)]
    linarith
  have d2 : |rnd (x + y) - (x + y)| ≤ (|l| + 8 / 5 * (u - l)) / 2 ^ 53 := by
    refine d1.trans ?_
    rw [one_div_mul_eq_div]
    gcongr
  have d3 := abs_sub_le (rnd (x + y)) (x + y) (x + z)
  rw [add_sub_add_left_eq_sub] at d3
  have e4 : (|l| + 8 / 5 * (u - l)) / 2 ^ 53 + 11 / 10 * (u - l) / 2 ^ 53 ≤ (|l| + 3 * (u - l)) / 2 ^ 53 := by
    rw [← add_div]
    refine div_le_div_of_nonneg_right ?_ (by positivity)
    linarith
  linarith

/-- the stencil of one simplex -/
theorem simplexStencil_succ (rnd : ℝ → ℝ) (l u : Vec d) (m : Fin d → ℕ) (i k : Fin d) :
    simplexStencil rnd l u m i.succ k = (if k = i then rnd (rnd (u k - l k) / (2 * m k)) else 0) ∧ NF.simplexStencil l u m i.succ k = (if k = i then (u k - l k) / (2 * m k) else 0) := by
  simp only [simplexStencil, NF.simplexStencil, Fin.cons_succ, Pi.single_apply]
  constructor <;> split <;> simp_all

theorem simplexStencil_zero (rnd : ℝ → ℝ) (l u : Vec d) (m : Fin d → ℕ) (k : Fin d) :
    simplexStencil rnd l u m 0 k = 0 ∧ NF.simplexStencil l u m 0 k = 0 := by
  simp [simplexStencil, NF.simplexStencil]

/-- a vertex of a simplex of the mesh -/
theorem vertex_err {rnd : ℝ → ℝ} (hr : IsNearest rnd) {l u : Vec d} (h : ∀ i, l i < u i) {m : Fin d → ℕ} {v v' : Vec d} {k : Fin d} (hm : 1 ≤ m k)
    (hv : |v k - v' k| ≤ (|l k| + 5 * (u k - l k)) / 2 ^ 53 ∧ l k ≤ v k ∧ v k ≤ u k ∧ IsFloat (v k)) (j : Fin (d + 1)) :
    |rnd (v k + simplexStencil rnd l u m j k) - (v' k + NF.simplexStencil l u m j k)| ≤ (2 * |l k| + 16 * (u k - l k)) / 2 ^ 53 := by
  obtain ⟨h1, h2, h3, h4⟩ := hv
  have hk := h k
  have hz : (|l k| + 5 * (u k - l k)) / 2 ^ 53 ≤ (2 * |l k| + 16 * (u k - l k)) / 2 ^ 53 := by
    gcongr <;> linarith [abs_nonneg (l k)]
  have zero : |rnd (v k + 0) - (v' k + 0)| ≤ (2 * |l k| + 16 * (u k - l k)) / 2 ^ 53 := by
    rw [add_zero, add_zero, rnd_of_isFloat hr h4]
    exact h1.trans hz
  induction j using Fin.cases with
  | zero => rw [(simplexStencil_zero rnd l u m k).1, (simplexStencil_zero rnd l u m k).2]; exact zero
  | succ i =>
    rw [(simplexStencil_succ rnd l u m i k).1, (simplexStencil_succ rnd l u m i k).2]
    split
    · have e1 := raise_err hr hk hm h2 h3
      have e2 := abs_sub_le (rnd (v k + rnd (rnd (u k - l k) / (2 * m k)))) (v k + (u k - l k) / (2 * m k)) (v' k + (u k - l k) / (2 * m k))
      rw [add_sub_add_right_eq_sub] at e2
      have e3 : (|l k| + 3 * (u k - l k)) / 2 ^ 53 + (|l k| + 5 * (u k - l k)) / 2 ^ 53 ≤ (2 * |l k| + 16 * (u k - l k)) / 2 ^ 53 := by
        rw [← add_div]
        refine div_le_div_of_nonneg_right ?_ (by positivity)
        linarith [abs_nonneg (l k)]
      linarith
    · exact zero

theorem mem_meshVertices {rnd : ℝ → ℝ} {l u : Vec d} {m : Fin d → ℕ} {p s : Bool} {v : Vec d} :
    v ∈ meshVertices rnd l u m p s ↔ (∀ i, v i ∈ linspace rnd (l i) (u i) (m i) (!p)) ∧ (s = true → ¬ allcloseZero rnd v) := by
  unfold meshVertices
  simp only
  split
  · rename_i hs
    simp only [List.mem_filter, mem_productList, decide_eq_true_eq, hs, forall_const]
  · rename_i hs
    simp only [mem_productList, hs]
    simp

theorem one_le_of_mem {rnd : ℝ → ℝ} {l u : Vec d} {m : Fin d → ℕ} {p s : Bool} {v : Vec d} (hv : v ∈ meshVertices rnd l u m p s) (k : Fin d) : 1 ≤ m k := by
  have h1 := (mem_meshVertices.1 hv).1 k
  have h2 := List.length_pos_of_mem h1
  rwa [length_linspace] at h2

/-- the whole mesh -/
theorem mesh_near {rnd : ℝ → ℝ} (hr : IsNearest rnd) {l u : Vec d} (h : ∀ i, l i < u i) (hf : ∀ i, IsFloat (l i) ∧ IsFloat (u i)) {m : Fin d → ℕ} (hm : ∀ i, m i < 2 ^ 50) (p : Bool) :
    NearSimplices (fun k => (2 * |l k| + 16 * (u k - l k)) / 2 ^ 53) (generateMeshSimplices rnd l u m p false) (NF.generateMeshSimplices l u m p false) := by
  unfold NearSimplices generateMeshSimplices NF.generateMeshSimplices
  rw [List.forall₂_map_left_iff, List.forall₂_map_right_iff]
  have h1 := forall2_vertices hr h hf hm p
  have hmem : ∀ v ∈ meshVertices rnd l u m p false, ∀ k, 1 ≤ m k := fun v hv k => one_le_of_mem hv k
  revert h1 hmem
  generalize meshVertices rnd l u m p false = vs
  generalize NF.meshVertices l u m p false = vs'
  intro h1 hmem
  induction h1 with
  | nil => exact List.Forall₂.nil
  | @cons v v' vs vs' hv _ ih =>
    refine List.Forall₂.cons ?_ (ih fun w hw => hmem w (by simp [hw]))
    unfold meshSimplex NF.meshSimplex
    rw [List.ofFn_eq_map, List.ofFn_eq_map, List.forall₂_map_left_iff, List.forall₂_map_right_iff, List.forall₂_same]
    intro j _ k
    exact vertex_err hr h (hmem v (by simp) k) (hv k) j

/-! ## separation of the mesh -/

theorem separated_mesh {l u : Vec d} (h : ∀ i, l i < u i) {m : Fin d → ℕ} (p s : Bool) {gap : Vec d} (hg : ∀ k, m k * gap k < u k - l k) :
    Separated gap (NF.generateMeshSimplices l u m p s) := by
  unfold Separated NF.generateMeshSimplices
  rw [List.pairwise_map]
  have key : ∀ v w : Vec d, v ∈ NF.meshVertices l u m p s → w ∈ NF.meshVertices l u m p s → ∀ k, v k < w k → gap k < w k - v k := by
    intro v w hv hw k hlt
    obtain ⟨i, hi, ei⟩ := mem_linspace.1 ((NF.mem_meshVertices.1 hv).1 k)
    obtain ⟨j, hj, ej⟩ := mem_linspace.1 ((NF.mem_meshVertices.1 hw).1 k)
    have hij : i ≠ j := by rintro rfl; rw [ei, ej] at hlt; exact lt_irrefl _ hlt
    have hm : (2 : ℝ) ≤ m k := by exact_mod_cast (by omega : 2 ≤ m k)
    have hL : 0 < u k - l k := sub_pos.2 (h k)
    obtain ⟨D, hD⟩ : ∃ D : ℝ, D = if (!p) = true then (m k : ℝ) - 1 else m k := ⟨_, rfl⟩
    rw [← hD] at ei ej
    have D0 : 0 < D := by rw [hD]; split <;> linarith
    have D1 : D ≤ m k := by rw [hD]; split <;> linarith
    have s0 : 0 < (u k - l k) / D := div_pos hL D0
    have hlt' : (i : ℝ) < j := by
      rw [ei, ej] at hlt
      exact lt_of_mul_lt_mul_right (by linarith) s0.le
    have h1 : (i : ℝ) + 1 ≤ j := by exact_mod_cast (by exact_mod_cast hlt' : i < j)
    have h2 : (u k - l k) / D ≤ w k - v k := by rw [ei, ej]; nlinarith
    have h3 : (u k - l k) / m k ≤ (u k - l k) / D := div_le_div_of_nonneg_left hL.le D0 D1
    have h4 : gap k < (u k - l k) / m k := by
      rw [lt_div_iff₀ (by linarith)]
      linarith [hg k]
    linarith
  refine (List.Pairwise.and_mem.1 (nodup_meshVertices h m p s)).imp fun {v w} ⟨hv, hw, hne⟩ => ?_
  obtain ⟨k, hk⟩ := Function.ne_iff.1 hne
  rcases lt_or_gt_of_ne hk with hlt | hlt
  · refine .inl ⟨v, mem_meshSimplex.2 (.inl rfl), fun w' hw' => ⟨k, ?_⟩⟩
    have h1 := (base_le h hw' k).1
    have h2 := key v w hv hw k hlt
    rw [abs_sub_comm]
    exact lt_of_lt_of_le (by linarith) (le_abs_self _)
  · refine .inr ⟨w, mem_meshSimplex.2 (.inl rfl), fun v' hv' => ⟨k, ?_⟩⟩
    have h1 := (base_le h hv' k).1
    have h2 := key w v hw hv k hlt
    exact lt_of_lt_of_le (by linarith) (le_abs_self _)

end NF.FL
