import Verif.Lemmas.Round

/-! # Lines which go through the periodic box -/

noncomputable section
open Classical
namespace NF
open Spec NxGraph CoordSys
variable {d : ℕ}

/-- the unit vector along the axis `j` -/
def axisVec (j : Fin d) : Vec d := fun i => if i = j then 1 else 0

theorem axisVec_sq (j : Fin d) : ∑ i, axisVec j i ^ 2 = 1 := by
  simp [axisVec]

theorem progress_axis (j : Fin d) (v : Vec d) : progress (axisVec j) v = v j := by
  simp [progress, axisVec]

theorem connecting_sq {cs : CoordSys d} (hb : ProperBox cs) (x y : Vec d) : ∑ i, cs.connectingVector x y i ^ 2 = cs.distance x y ^ 2 := by
  rw [← norm_connectingVector hb]
  exact (Real.sq_sqrt (Finset.sum_nonneg fun i _ => sq_nonneg _)).symm

theorem distance_nonneg {cs : CoordSys d} (hb : ProperBox cs) (x y : Vec d) : 0 ≤ cs.distance x y := (C03_distance_metric cs hb x y y).1

theorem abs_connecting_le {cs : CoordSys d} (hb : ProperBox cs) (x y : Vec d) (i : Fin d) : |cs.connectingVector x y i| ≤ cs.distance x y := by
  refine abs_le_of_sq_le_sq ?_ (distance_nonneg hb x y)
  rw [← connecting_sq hb]
  exact Finset.single_le_sum (f := fun i => cs.connectingVector x y i ^ 2) (fun i _ => sq_nonneg _) (Finset.mem_univ i)

theorem abs_connecting_half {cs : CoordSys d} (hb : ProperBox cs) (hp : cs.periodic = true) (x y : Vec d) (i : Fin d) : |cs.connectingVector x y i| ≤ (cs.upper i - cs.lower i) / 2 := by
  obtain ⟨v, -, rfl, -, -, h, -⟩ := C05_connecting_vector cs hb x y
  exact abs_le.2 ⟨(h hp i).1.le, (h hp i).2⟩

/-- The connecting vector is the only vector between the points that is short. -/
theorem connecting_unique {cs : CoordSys d} (hb : ProperBox cs) (hp : cs.periodic = true) {x y : Vec d} {i : Fin d} {r : ℝ} {k : ℤ} (h : y i = x i + r + k * (cs.upper i - cs.lower i))
    (hr : |r| < (cs.upper i - cs.lower i) / 2) : cs.connectingVector x y i = r := by
  obtain ⟨m, hm⟩ := connectingVector_congr hp x y i
  have h1 := abs_connecting_half hb hp x y i
  have hs : cs.size i = cs.upper i - cs.lower i := rfl
  rw [hs] at hm
  have hbi := hb i
  have := int_eq_zero_of_small (L := cs.upper i - cs.lower i) (r := cs.connectingVector x y i - r) (k := k + m) (by linarith) (by push_cast; linarith) ((abs_sub _ _).trans_lt (by linarith))
  have e : (k : ℝ) + m = 0 := by exact_mod_cast this
  nlinarith

theorem volume_of_area {x r : ℝ} {s : ℝ} (hs : s ^ 2 ≤ 0.0049) (hr : 0 < r) (ha : |x| ≤ (4 * s ^ 2 + s ^ 4) * r ^ 4) : Real.sqrt |x| ≤ r ^ 2 * (8 / (9 * Real.pi)) / 2 := by
  have hpi := Real.pi_pos
  have hpi2 := Real.pi_lt_d2
  refine Real.sqrt_le_iff.2 ⟨by positivity, ha.trans ?_⟩
  have e : (r ^ 2 * (8 / (9 * Real.pi)) / 2) ^ 2 = (16 / (81 * Real.pi ^ 2)) * r ^ 4 := by field_simp; ring
  rw [e]
  refine mul_le_mul_of_nonneg_right ?_ (by positivity)
  rw [le_div_iff₀ (by positivity)]
  have h4 : s ^ 4 ≤ 0.0049 ^ 2 := by
    have := mul_le_mul hs hs (sq_nonneg s) (by norm_num)
    nlinarith
  have hp2 : Real.pi ^ 2 ≤ 3.15 ^ 2 := pow_le_pow_left₀ hpi.le hpi2.le 2
  have hp0 : 0 ≤ 4 * s ^ 2 + s ^ 4 := by positivity
  nlinarith [mul_le_mul (show 4 * s ^ 2 + s ^ 4 ≤ 0.01962401 by nlinarith) hp2 (by positivity) (by norm_num)]

theorem dot_slope_unit {u : Vec d} (hu : ∑ i, u i ^ 2 = 1) {s : ℝ} (hs : s ^ 2 ≤ 0.0049) {a b : Vec d} (ha : ∑ i, a i ^ 2 ≤ (1 + s ^ 2) * progress u a ^ 2) (hb : ∑ i, b i ^ 2 ≤ (1 + s ^ 2) * progress u b ^ 2)
    {p q : ℝ} (hp : ∑ i, a i ^ 2 = p ^ 2) (hq : ∑ i, b i ^ 2 = q ^ 2) :
    (0 < progress u a * progress u b → 5 / 6 * (p * q) < dot a b) ∧ (progress u a * progress u b < 0 → dot a b ≤ 0) := by
  have h := abs_le.1 (dot_slope hu ha hb)
  rw [hp] at ha
  rw [hq] at hb
  have hs0 := sq_nonneg s
  have hpq : p * q ≤ (1 + s ^ 2) * |progress u a * progress u b| := by
    refine abs_le_of_sq_le_sq' ?_ (by positivity) |>.2
    have := mul_le_mul ha hb (sq_nonneg q) (by positivity)
    calc (p * q) ^ 2 = p ^ 2 * q ^ 2 := by ring
      _ ≤ _ := this
      _ = _ := by rw [mul_pow, sq_abs]; ring
  constructor
  · intro h0; rw [abs_of_pos h0] at h hpq; nlinarith
  · intro h0; rw [abs_of_neg h0] at h; nlinarith

/-- A line along an axis of the periodic box, without gaps, is a closed line. -/
theorem round_of_axis {cs : CoordSys d} (hb : ProperBox cs) (hp : cs.periodic = true) {fs : ℝ} (hfs : 0 < fs) (hsz : ∀ i, 3 * fs < cs.upper i - cs.lower i) {P : List (Vec d)} {j : Fin d} {s : ℝ}
    (hs : s ^ 2 ≤ 0.0049) (hal : AlongAxis cs j s P) (hgap : NoGapAlong cs j (fs / 3) P) (hfar : ∀ x ∈ P, ∀ y ∈ P, x ≠ y → fs / 4 < cs.distance x y) :
    Round P cs fs (cs.upper j - cs.lower j) (fun x => x j) (fun x y => cs.connectingVector x y j) := by
  have hL : 0 < cs.upper j - cs.lower j := by have := hsz j; linarith
  have hLj := hsz j
  have hsize : ∀ i, cs.size i = cs.upper i - cs.lower i := fun i => rfl
  have hslope : ∀ x ∈ P, ∀ y ∈ P, ∑ i, cs.connectingVector x y i ^ 2 ≤ (1 + s ^ 2) * progress (axisVec j) (cs.connectingVector x y) ^ 2 := fun x hx y hy => by
    rw [progress_axis]; exact hal x hx y hy
  have hdist : ∀ x ∈ P, ∀ y ∈ P, cs.distance x y ^ 2 ≤ (1 + s ^ 2) * cs.connectingVector x y j ^ 2 := fun x hx y hy => by
    rw [← connecting_sq hb]; exact hal x hx y hy
  have hstep : ∀ x y, ∃ k : ℤ, y j = x j + cs.connectingVector x y j + k * (cs.upper j - cs.lower j) := fun x y => by
    obtain ⟨k, hk⟩ := connectingVector_congr hp x y j
    exact ⟨-k, by rw [hk, hsize]; push_cast; ring⟩
  have hanti : ∀ x y, cs.distance x y ≤ fs → ∀ i, cs.connectingVector y x i = -cs.connectingVector x y i := fun x y hxy i => by
    obtain ⟨k, hk⟩ := connectingVector_congr hp x y i
    have h1 := abs_connecting_le hb x y i
    have h2 := hsz i
    refine connecting_unique hb hp (k := k) (by rw [hk, hsize]; ring) (by rw [abs_neg]; linarith)
  have hfan : ∀ x y x' y', Near P cs fs x y → Near P cs fs x' y' →
      (0 < cs.connectingVector x y j * cs.connectingVector x' y' j → 5 / 6 * (cs.distance x y * cs.distance x' y') < dot (cs.connectingVector x y) (cs.connectingVector x' y')) ∧
      (cs.connectingVector x y j * cs.connectingVector x' y' j < 0 → dot (cs.connectingVector x y) (cs.connectingVector x' y') ≤ 0) := by
    intro x y x' y' h h'
    have := dot_slope_unit (axisVec_sq j) hs (hslope x h.1 y h.2.1) (hslope x' h'.1 y' h'.2.1) (connecting_sq hb x y) (connecting_sq hb x' y')
    rwa [progress_axis, progress_axis] at this
  have hmove : ∀ x ∈ P, ∀ δ : ℝ, |δ| = fs / 2 → ∃ y, Near P cs fs x y ∧ 0 < cs.connectingVector x y j * δ := by
    intro x hx δ hδ
    obtain ⟨y, hy, t, ⟨k, hk⟩, ht⟩ := hgap (x j + δ)
    have ht2 := abs_le.1 ht
    have hδ2 : |t - x j| ≤ 5 / 6 * fs := by
      calc |t - x j| = |(t - (x j + δ)) + δ| := by congr 1; ring
        _ ≤ |t - (x j + δ)| + |δ| := abs_add_le _ _
        _ ≤ 5 / 6 * fs := by rw [hδ]; linarith
    have hcv : cs.connectingVector x y j = t - x j := connecting_unique hb hp (k := k) (by rw [hk]; ring) (by linarith)
    have hpos : 0 < cs.connectingVector x y j * δ := by
      rw [hcv]
      have hδ3 : δ * δ = (fs / 2) ^ 2 := by rw [← hδ, sq_abs]; ring
      have : |(t - (x j + δ)) * δ| ≤ fs / 3 * (fs / 2) := by rw [abs_mul, hδ]; exact mul_le_mul_of_nonneg_right ht (by positivity)
      have := (abs_le.1 this).1
      nlinarith
    refine ⟨y, ⟨hx, hy, ?_, ?_⟩, hpos⟩
    · rintro rfl
      rw [connecting_unique hb hp (r := 0) (k := 0) (by simp) (by simp; linarith)] at hpos
      simp at hpos
    · have h1 := hdist x hx y hy
      rw [hcv] at h1
      refine abs_le_of_sq_le_sq' (h1.trans ?_) hfs.le |>.2
      have : (t - x j) ^ 2 ≤ (5 / 6 * fs) ^ 2 := by rw [← sq_abs]; exact pow_le_pow_left₀ (abs_nonneg _) hδ2 2
      nlinarith [mul_le_mul_of_nonneg_right hs (sq_nonneg (t - x j)), sq_nonneg fs]
  refine ⟨hL, ?_, fun x y _ => hstep x y, fun x y h => ?_, fun x y h => hanti x y h.2.2.2 j, fun x hx y hy k hk => ?_, fun x y z hn hpos hz r k hr hrs hk => ?_, hfar, fun x y z h1 h2 => ?_, fun x y z h1 h2 => hfan x y x z h1 h2,
    fun x hx => ?_, fun x hx => ?_, fun x n m h1 h2 hnm => ?_⟩
  · obtain ⟨x, hx, -⟩ := hgap 0
    exact List.ne_nil_of_mem hx
  · have := abs_connecting_le hb x y j
    have := h.2.2.2
    linarith
  · by_contra hne
    have h0 := connecting_unique hb hp (x := x) (y := y) (i := j) (r := 0) (k := k) (by rw [hk]; ring) (by simp; linarith)
    have h1 := hdist x hx y hy
    have h2 := hfar x hx y hy hne
    rw [h0] at h1
    nlinarith
  · have hσ : cs.connectingVector x y j ≤ fs := (le_abs_self _).trans ((abs_connecting_le hb x y j).trans hn.2.2.2)
    have ea : cs.connectingVector x z j = r := connecting_unique hb hp hk (by rw [abs_of_pos hr]; linarith)
    obtain ⟨m, hm⟩ := hstep x y
    have eb : cs.connectingVector z y j = cs.connectingVector x y j - r := connecting_unique hb hp (k := m - k) (by push_cast; linarith) (by rw [abs_of_pos (by linarith)]; linarith)
    have da := hdist x hn.1 z hz
    have db := hdist z hz y hn.2.1
    rw [ea] at da
    rw [eb] at db
    have h101 : (1 + s ^ 2) ≤ 1.01 ^ 2 := by nlinarith
    have da' : cs.distance x z ≤ 1.01 * r := abs_le_of_sq_le_sq' (by rw [mul_pow]; nlinarith [sq_nonneg r]) (by positivity) |>.2
    have db' : cs.distance z y ≤ 1.01 * (cs.connectingVector x y j - r) :=
      abs_le_of_sq_le_sq' (by rw [mul_pow]; nlinarith [sq_nonneg (cs.connectingVector x y j - r)]) (by nlinarith) |>.2
    have hsum : ∀ i, cs.connectingVector x y i = cs.connectingVector x z i + cs.connectingVector z y i := by
      intro i
      obtain ⟨k1, hk1⟩ := connectingVector_congr hp x z i
      obtain ⟨k2, hk2⟩ := connectingVector_congr hp z y i
      have i1 := abs_connecting_le hb x z i
      have i2 := abs_connecting_le hb z y i
      have := hsz i
      refine connecting_unique hb hp (k := -k1 - k2) (by rw [hk1, hk2, hsize]; push_cast; ring) ((abs_add_le _ _).trans_lt (by nlinarith))
    have hdot := (dot_pos_slope (axisVec_sq j) (by linarith) (hslope x hn.1 z hz) (hslope z hz y hn.2.1)).1 (by rw [progress_axis, progress_axis, ea, eb]; exact mul_pos hr (by linarith))
    have hsq : cs.distance x y ^ 2 = cs.distance x z ^ 2 + cs.distance z y ^ 2 + 2 * dot (cs.connectingVector x z) (cs.connectingVector z y) := by
      rw [← connecting_sq hb, ← connecting_sq hb, ← connecting_sq hb]
      unfold dot
      rw [Finset.mul_sum, ← Finset.sum_add_distrib, ← Finset.sum_add_distrib]
      exact Finset.sum_congr rfl fun i _ => by rw [hsum i]; ring
    constructor
    · exact abs_lt_of_sq_lt_sq' (by nlinarith [sq_nonneg (cs.distance z y)]) (distance_nonneg hb x y) |>.2
    · exact abs_lt_of_sq_lt_sq' (by nlinarith [sq_nonneg (cs.distance x z)]) (distance_nonneg hb x y) |>.2
  · have := hfan y z x y h2 h1
    rwa [mul_comm (cs.connectingVector y z j)] at this
  · obtain ⟨y, hy, h⟩ := hmove x hx (fs / 2) (abs_of_pos (by positivity))
    exact ⟨y, hy, by nlinarith⟩
  · obtain ⟨y, hy, h⟩ := hmove x hx (-(fs / 2)) (by rw [abs_neg]; exact abs_of_pos (by positivity))
    exact ⟨y, hy, by nlinarith⟩
  · rw [getVolume_pair cs x hnm]
    have hsy : ∀ a b, cs.distance b a = cs.distance a b := fun a b => (C03_distance_metric cs hb b a a).2.1
    have bound : ∀ y, Near P cs fs x y → ∑ i, cs.connectingVector y x i ^ 2 ≤ fs ^ 2 := fun y h => by
      rw [connecting_sq hb, hsy]
      exact pow_le_pow_left₀ (distance_nonneg hb x y) h.2.2.2 2
    exact volume_of_area hs hfs (area_slope (axisVec_sq j) (hslope n h1.2.1 x h1.1) (hslope m h2.2.1 x h2.1) (bound n h1) (bound m h2))

end NF
