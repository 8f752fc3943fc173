import Verif.Lemmas.OpenLine
import Verif.Lemmas.Dimension
import Verif.Props.Coord
import Verif.Spec.Curve
import Mathlib.Algebra.Order.BigOperators.Ring.Finset
import Mathlib.Analysis.Real.Pi.Bounds

/-! # Vectors with a small slope -/

noncomputable section
open Classical
namespace NF
open Spec NxGraph CoordSys
variable {d : ℕ}

/-- The part of `a` perpendicular to `u`. -/
def perp (u a : Vec d) : Vec d := fun i => a i - progress u a * u i

theorem dot_perp {u : Vec d} (hu : ∑ i, u i ^ 2 = 1) (a b : Vec d) : ∑ i, perp u a i * perp u b i = dot a b - progress u a * progress u b := by
  have e : ∀ i, perp u a i * perp u b i = a i * b i - progress u b * (u i * a i) - progress u a * (u i * b i) + progress u a * progress u b * u i ^ 2 := fun i => by unfold perp; ring
  simp only [e, Finset.sum_add_distrib, Finset.sum_sub_distrib, ← Finset.mul_sum, hu]
  unfold dot progress
  ring

theorem dot_self_sq (a : Vec d) : dot a a = ∑ i, a i ^ 2 := Finset.sum_congr rfl fun i _ => by ring

/-- The product of vectors of slope at most `s`. -/
theorem dot_slope {u : Vec d} (hu : ∑ i, u i ^ 2 = 1) {s : ℝ} {a b : Vec d} (ha : ∑ i, a i ^ 2 ≤ (1 + s ^ 2) * progress u a ^ 2) (hb : ∑ i, b i ^ 2 ≤ (1 + s ^ 2) * progress u b ^ 2) :
    |dot a b - progress u a * progress u b| ≤ s ^ 2 * |progress u a * progress u b| := by
  have h := Finset.sum_mul_sq_le_sq_mul_sq Finset.univ (perp u a) (perp u b)
  have h1 := dot_perp hu a a
  have h2 := dot_perp hu b b
  rw [dot_perp hu] at h
  rw [dot_self_sq] at h1 h2
  simp only [← pow_two] at h1 h2
  rw [h1, h2] at h
  have h3 : 0 ≤ ∑ i, b i ^ 2 - progress u b ^ 2 := by rw [← h2]; exact Finset.sum_nonneg fun i _ => sq_nonneg _
  refine abs_le_of_sq_le_sq ?_ (by positivity)
  calc (dot a b - progress u a * progress u b) ^ 2 ≤ (∑ i, a i ^ 2 - progress u a ^ 2) * (∑ i, b i ^ 2 - progress u b ^ 2) := h
    _ ≤ (s ^ 2 * progress u a ^ 2) * (s ^ 2 * progress u b ^ 2) := mul_le_mul (by linarith) (by linarith) h3 (by positivity)
    _ = (s ^ 2 * |progress u a * progress u b|) ^ 2 := by rw [mul_pow, sq_abs]; ring

theorem dot_pos_slope {u : Vec d} (hu : ∑ i, u i ^ 2 = 1) {s : ℝ} (hs : s ^ 2 < 1) {a b : Vec d} (ha : ∑ i, a i ^ 2 ≤ (1 + s ^ 2) * progress u a ^ 2) (hb : ∑ i, b i ^ 2 ≤ (1 + s ^ 2) * progress u b ^ 2) :
    (0 < progress u a * progress u b → 0 < dot a b) ∧ (progress u a * progress u b < 0 → dot a b < 0) := by
  have h := abs_le.1 (dot_slope hu ha hb)
  constructor
  · intro h0; rw [abs_of_pos h0] at h; nlinarith
  · intro h0; rw [abs_of_neg h0] at h; nlinarith

/-- The area spanned by vectors of slope at most `s`. -/
theorem area_slope {u : Vec d} (hu : ∑ i, u i ^ 2 = 1) {s : ℝ} {a b : Vec d} (ha : ∑ i, a i ^ 2 ≤ (1 + s ^ 2) * progress u a ^ 2) (hb : ∑ i, b i ^ 2 ≤ (1 + s ^ 2) * progress u b ^ 2) {r : ℝ}
    (har : ∑ i, a i ^ 2 ≤ r ^ 2) (hbr : ∑ i, b i ^ 2 ≤ r ^ 2) : |dot a a * dot b b - dot a b * dot b a| ≤ (4 * s ^ 2 + s ^ 4) * r ^ 4 := by
  have h := abs_le.1 (dot_slope hu ha hb)
  have h1 := dot_perp hu a a
  have h2 := dot_perp hu b b
  have hp1 : 0 ≤ dot a a - progress u a * progress u a := by rw [← h1]; exact Finset.sum_nonneg fun i _ => mul_self_nonneg _
  have hp2 : 0 ≤ dot b b - progress u b * progress u b := by rw [← h2]; exact Finset.sum_nonneg fun i _ => mul_self_nonneg _
  have hcs := Finset.sum_mul_sq_le_sq_mul_sq Finset.univ a b
  have hab : dot b a = dot a b := Finset.sum_congr rfl fun i _ => by ring
  rw [hab, abs_of_nonneg (by rw [dot_self_sq, dot_self_sq]; unfold dot at *; nlinarith)]
  rw [← dot_self_sq] at ha hb har hbr
  generalize dot a a = A at *
  generalize dot b b = B at *
  generalize dot a b = C at *
  generalize progress u a = α at *
  generalize progress u b = β at *
  have hα : α ^ 2 ≤ r ^ 2 := by nlinarith
  have hβ : β ^ 2 ≤ r ^ 2 := by nlinarith
  have hαβ : α ^ 2 * β ^ 2 ≤ r ^ 4 := by nlinarith [mul_le_mul hα hβ (sq_nonneg _) (sq_nonneg _)]
  have hs4 : 0 ≤ 4 * s ^ 2 + s ^ 4 := by positivity
  have key : A * B - C * C ≤ (4 * s ^ 2 + s ^ 4) * (α ^ 2 * β ^ 2) := by
    set a' := A - α * α with ha'
    set b' := B - β * β with hb'
    set c := C - α * β with hc
    have e1 : a' ≤ s ^ 2 * α ^ 2 := by rw [ha']; linarith
    have e2 : b' ≤ s ^ 2 * β ^ 2 := by rw [hb']; linarith
    have e3 : a' * b' ≤ (s ^ 2 * α ^ 2) * (s ^ 2 * β ^ 2) := mul_le_mul e1 e2 hp2 (by positivity)
    have e4 : -(2 * (α * β) * c) ≤ 2 * s ^ 2 * (α ^ 2 * β ^ 2) := by
      have : |(α * β) * c| ≤ |α * β| * (s ^ 2 * |α * β|) := by
        rw [abs_mul]; exact mul_le_mul_of_nonneg_left (abs_le.2 h) (abs_nonneg _)
      have h5 := (abs_le.1 this).1
      have h6 : |α * β| * |α * β| = α ^ 2 * β ^ 2 := by rw [← abs_mul, abs_of_nonneg (mul_self_nonneg _)]; ring
      nlinarith
    have e5 : A * B - C * C = α ^ 2 * b' + β ^ 2 * a' + a' * b' - 2 * (α * β) * c - c ^ 2 := by rw [ha', hb', hc]; ring
    have e6 := mul_le_mul_of_nonneg_left e2 (sq_nonneg α)
    have e7 := mul_le_mul_of_nonneg_left e1 (sq_nonneg β)
    nlinarith [sq_nonneg c]
  exact key.trans (mul_le_mul_of_nonneg_left hαβ hs4)

theorem getVolume_pair (cs : CoordSys d) (pos : Vec d) {n m : Vec d} (hnm : n ≠ m) : getVolume cs pos {n, m} =
    Real.sqrt |dot (cs.connectingVector n pos) (cs.connectingVector n pos) * dot (cs.connectingVector m pos) (cs.connectingVector m pos) -
      dot (cs.connectingVector n pos) (cs.connectingVector m pos) * dot (cs.connectingVector m pos) (cs.connectingVector n pos)| := by
  unfold getVolume
  congr 2
  let e : Fin 2 ≃ ({n, m} : Finset (Vec d)) := by
    refine Equiv.ofBijective ![⟨n, by simp⟩, ⟨m, by simp⟩] ⟨fun i j h => ?_, fun ⟨x, hx⟩ => ?_⟩
    · fin_cases i <;> fin_cases j <;> simp_all
    · rcases Finset.mem_insert.1 hx with rfl | h
      · exact ⟨0, rfl⟩
      · rw [Finset.mem_singleton] at h; subst h; exact ⟨1, rfl⟩
  rw [← Matrix.det_submatrix_equiv_self e, Matrix.det_fin_two]
  rfl

/-! ## Clusters of nearly straight lines -/

theorem distance_le_eucl {cs : CoordSys d} (hb : ProperBox cs) (x y : Vec d) : cs.distance x y ≤ eucl x y := by
  cases hp : cs.periodic with
  | false => exact (distance_eucl hp x y).le
  | true =>
    have := (C04_distance_is_min_over_images cs hb hp x y).2 fun _ => 0
    rwa [show shift cs (fun _ => 0) y = y by funext i; simp [shift]] at this

theorem progress_sub (u x y : Vec d) : progress u (fun i => y i - x i) = progress u y - progress u x := by
  unfold progress
  rw [← Finset.sum_sub_distrib]
  exact Finset.sum_congr rfl fun i _ => by ring

theorem slope_sub {u : Vec d} {s : ℝ} {positions : List (Vec d)} (h : NearlyStraight u s positions) {x y : Vec d} (hx : x ∈ positions) (hy : y ∈ positions) :
    ∑ i, (fun i => y i - x i : Vec d) i ^ 2 ≤ (1 + s ^ 2) * progress u (fun i => y i - x i) ^ 2 := by
  rw [progress_sub]
  exact h.2 x hx y hy

theorem eucl_eq_distance {cs : CoordSys d} (hb : ProperBox cs) {fs : ℝ} {positions : List (Vec d)} (hw : NotWrapped cs fs positions) {x y : Vec d} (hx : x ∈ positions) (hy : y ∈ positions)
    (h : cs.distance x y ≤ fs) : ∑ i, (y i - x i) ^ 2 = cs.distance x y ^ 2 := by
  rw [← norm_connectingVector hb, hw x hx y hy h]
  exact (Real.sq_sqrt (Finset.sum_nonneg fun i _ => sq_nonneg _)).symm

/-- A cluster of positions on a nearly straight line goes in one direction. -/
theorem directed_of_straight {cs : CoordSys d} {fs : ℝ} {g : NxGraph (Vec d) ℝ} (hb : ProperBox cs)
    (hedge : ∀ x y, g.hasEdge x y ↔ x ∈ g.nodes ∧ y ∈ g.nodes ∧ x ≠ y ∧ cs.distance x y ≤ fs) {u : Vec d} {s : ℝ} (hs : s ^ 2 < 1) {positions : List (Vec d)}
    (hst : NearlyStraight u s positions) (hw : NotWrapped cs fs positions) (hsub : ∀ x ∈ g.nodes, x ∈ positions) : Directed g cs (progress u) := by
  have hinj : ∀ x ∈ g.nodes, ∀ y ∈ g.nodes, progress u x = progress u y → x = y := by
    intro x hx y hy h
    have := hst.2 x (hsub x hx) y (hsub y hy)
    rw [h, sub_self, zero_pow two_ne_zero, mul_zero] at this
    have h0 := (Finset.sum_eq_zero_iff_of_nonneg fun i _ => sq_nonneg _).1 (le_antisymm this (Finset.sum_nonneg fun i _ => sq_nonneg _))
    funext i
    have := pow_eq_zero_iff two_ne_zero |>.1 (h0 i (Finset.mem_univ i))
    linarith
  have hconn : ∀ x y, g.hasEdge x y → cs.connectingVector x y = fun i => y i - x i := by
    intro x y h
    obtain ⟨h1, h2, -, h4⟩ := (hedge x y).1 h
    exact hw x (hsub x h1) y (hsub y h2) h4
  have hbet : ∀ x ∈ g.nodes, ∀ y ∈ g.nodes, ∀ z ∈ g.nodes, progress u x < progress u z → progress u z < progress u y → g.hasEdge x y → g.hasEdge x z ∧ g.hasEdge z y := by
    intro x hx y hy z hz h1 h2 hxy
    obtain ⟨-, -, -, h4⟩ := (hedge x y).1 hxy
    have hp := (dot_pos_slope hst.1 hs (slope_sub hst (hsub x hx) (hsub z hz)) (slope_sub hst (hsub z hz) (hsub y hy))).1
      (by rw [progress_sub, progress_sub]; exact mul_pos (by linarith) (by linarith))
    have e := eucl_eq_distance hb hw (hsub x hx) (hsub y hy) h4
    have hsum : ∑ i, (y i - x i) ^ 2 = ∑ i, (z i - x i) ^ 2 + ∑ i, (y i - z i) ^ 2 + 2 * dot (fun i => z i - x i) fun i => y i - z i := by
      unfold dot
      rw [Finset.mul_sum, ← Finset.sum_add_distrib, ← Finset.sum_add_distrib]
      exact Finset.sum_congr rfl fun i _ => by ring
    have n1 : 0 ≤ ∑ i, (z i - x i) ^ 2 := Finset.sum_nonneg fun i _ => sq_nonneg _
    have n2 : 0 ≤ ∑ i, (y i - z i) ^ 2 := Finset.sum_nonneg fun i _ => sq_nonneg _
    have hd0 : 0 ≤ cs.distance x y := by rw [← norm_connectingVector hb]; exact Real.sqrt_nonneg _
    have hsw : ∀ a b : Vec d, eucl a b = Real.sqrt (∑ i, (b i - a i) ^ 2) := fun a b => by
      unfold eucl; congr 1; exact Finset.sum_congr rfl fun i _ => by ring
    have l1 : cs.distance x z ≤ fs := by
      refine (distance_le_eucl hb x z).trans (le_trans ?_ h4)
      rw [hsw]
      exact Real.sqrt_le_iff.2 ⟨hd0, by linarith⟩
    have l2 : cs.distance z y ≤ fs := by
      refine (distance_le_eucl hb z y).trans (le_trans ?_ h4)
      rw [hsw]
      exact Real.sqrt_le_iff.2 ⟨hd0, by linarith⟩
    exact ⟨(hedge x z).2 ⟨hx, hz, fun e => by subst e; exact lt_irrefl _ h1, l1⟩, (hedge z y).2 ⟨hz, hy, fun e => by subst e; exact lt_irrefl _ h2, l2⟩⟩
  have hne : ∀ x y, g.hasEdge x y → progress u x ≠ progress u y := fun x y h e => by
    obtain ⟨h1, h2, h3, -⟩ := (hedge x y).1 h
    exact h3 (hinj x h1 y h2 e)
  refine ⟨hinj, hbet, fun x y hxy => ?_, fun x y z hxy hyz => ?_, fun x y z hxy hxz => ?_⟩
  · obtain ⟨h1, h2, h3, h4⟩ := (hedge x y).1 hxy
    refine lt_of_le_of_ne (by rw [← norm_connectingVector hb]; exact Real.sqrt_nonneg _) fun h0 => hne x y hxy ?_
    have e := eucl_eq_distance hb hw (hsub x h1) (hsub y h2) h4
    rw [← h0, zero_pow two_ne_zero] at e
    have := (Finset.sum_eq_zero_iff_of_nonneg fun i _ => sq_nonneg _).1 e
    have hxy' : x = y := by
      funext i
      have := pow_eq_zero_iff two_ne_zero |>.1 (this i (Finset.mem_univ i))
      linarith
    rw [hxy']
  · obtain ⟨h1, h2, -, -⟩ := (hedge x y).1 hxy
    obtain ⟨-, h3, -, -⟩ := (hedge y z).1 hyz
    rw [hconn _ _ hxy, hconn _ _ hyz]
    have := dot_pos_slope hst.1 hs (slope_sub hst (hsub y h2) (hsub z h3)) (slope_sub hst (hsub x h1) (hsub y h2))
    rw [progress_sub, progress_sub] at this
    rcases (hne x y hxy).lt_or_gt with a | a <;> rcases (hne y z hyz).lt_or_gt with b | b
    · simp only [a, b, iff_self, iff_true]; exact this.1 (mul_pos (by linarith) (by linarith))
    · simp only [a, b.not_gt, iff_false, not_true_eq_false]; exact (this.2 (mul_neg_of_neg_of_pos (by linarith) (by linarith))).not_gt
    · simp only [a.not_gt, b, false_iff, not_true_eq_false, iff_false]; exact (this.2 (mul_neg_of_pos_of_neg (by linarith) (by linarith))).not_gt
    · simp only [a.not_gt, b.not_gt, iff_self, iff_true]; exact this.1 (mul_pos_of_neg_of_neg (by linarith) (by linarith))
  · obtain ⟨h1, h2, -, -⟩ := (hedge x y).1 hxy
    obtain ⟨-, h3, -, -⟩ := (hedge x z).1 hxz
    rw [hconn _ _ hxy, hconn _ _ hxz]
    have := dot_pos_slope hst.1 hs (slope_sub hst (hsub x h1) (hsub z h3)) (slope_sub hst (hsub x h1) (hsub y h2))
    rw [progress_sub, progress_sub] at this
    rcases (hne x y hxy).lt_or_gt with a | a <;> rcases (hne x z hxz).lt_or_gt with b | b
    · simp only [a.not_gt, b, false_iff, not_true_eq_false, iff_false]; exact (this.1 (mul_pos (by linarith) (by linarith))).not_gt
    · simp only [a.not_gt, b.not_gt, iff_self, iff_true]; exact this.2 (mul_neg_of_neg_of_pos (by linarith) (by linarith))
    · simp only [a, b, iff_self, iff_true]; exact this.2 (mul_neg_of_pos_of_neg (by linarith) (by linarith))
    · simp only [a, b.not_gt, iff_false, not_true_eq_false]; exact (this.1 (mul_pos_of_neg_of_neg (by linarith) (by linarith))).not_gt

/-- The area spanned by two neighbours on a nearly straight line is too small for dimension two. -/
theorem volume_straight {cs : CoordSys d} {fs : ℝ} (hfs : 0 < fs) {g : NxGraph (Vec d) ℝ} (hb : ProperBox cs)
    (hedge : ∀ x y, g.hasEdge x y ↔ x ∈ g.nodes ∧ y ∈ g.nodes ∧ x ≠ y ∧ cs.distance x y ≤ fs) {u : Vec d} {s : ℝ} (hs : s ^ 2 ≤ 0.0049) {positions : List (Vec d)}
    (hst : NearlyStraight u s positions) (hw : NotWrapped cs fs positions) (hsub : ∀ x ∈ g.nodes, x ∈ positions) {pos : Vec d} {t : Finset (Vec d)} (ht : ∀ n ∈ t, g.hasEdge pos n) (h2 : t.card = 2) :
    getVolume cs pos t ≤ fs ^ 2 * (8 / (9 * Real.pi)) / 2 := by
  obtain ⟨n, m, hnm, rfl⟩ := Finset.card_eq_two.1 h2
  have hn := hasEdge_symm.1 (ht n (by simp))
  have hm := hasEdge_symm.1 (ht m (by simp))
  obtain ⟨n1, n2, -, n4⟩ := (hedge n pos).1 hn
  obtain ⟨m1, -, -, m4⟩ := (hedge m pos).1 hm
  have bound : ∀ x, x ∈ g.nodes → cs.distance x pos ≤ fs → ∑ i, (pos i - x i) ^ 2 ≤ fs ^ 2 := by
    intro x hx hd
    rw [eucl_eq_distance hb hw (hsub x hx) (hsub pos n2) hd]
    exact pow_le_pow_left₀ (by rw [← norm_connectingVector hb]; exact Real.sqrt_nonneg _) hd 2
  rw [getVolume_pair cs pos hnm, hw n (hsub n n1) pos (hsub pos n2) n4, hw m (hsub m m1) pos (hsub pos n2) m4]
  have ha := area_slope hst.1 (slope_sub hst (hsub n n1) (hsub pos n2)) (slope_sub hst (hsub m m1) (hsub pos n2)) (bound n n1 n4) (bound m m1 m4)
  have hpi := Real.pi_pos
  have hpi2 := Real.pi_lt_d2
  refine Real.sqrt_le_iff.2 ⟨by positivity, ha.trans ?_⟩
  have e : (fs ^ 2 * (8 / (9 * Real.pi)) / 2) ^ 2 = (16 / (81 * Real.pi ^ 2)) * fs ^ 4 := by field_simp; ring
  rw [e]
  refine mul_le_mul_of_nonneg_right ?_ (by positivity)
  rw [le_div_iff₀ (by positivity)]
  have h4 : s ^ 4 ≤ 0.0049 ^ 2 := by
    have := mul_le_mul hs hs (sq_nonneg s) (by norm_num)
    nlinarith
  have hp2 : Real.pi ^ 2 ≤ 3.15 ^ 2 := pow_le_pow_left₀ hpi.le hpi2.le 2
  have hp0 : 0 ≤ 4 * s ^ 2 + s ^ 4 := by positivity
  nlinarith [mul_le_mul (show 4 * s ^ 2 + s ^ 4 ≤ 0.01962401 by nlinarith) hp2 (by positivity) (by norm_num)]

end NF
