import Verif.Lemmas.Ring

/-! # A ring without gaps is a closed line -/

noncomputable section
open Classical
namespace NF
open Spec NxGraph CoordSys
variable {d : ℕ}

/-- the angle from `x` to `y`, in (-π, π] -/
def turn (τ : Vec d → ℝ) (x y : Vec d) : ℝ := toIocMod Real.two_pi_pos (-Real.pi) (τ y - τ x)

theorem turn_mem (τ : Vec d → ℝ) (x y : Vec d) : -Real.pi < turn τ x y ∧ turn τ x y ≤ Real.pi := by
  have := toIocMod_mem_Ioc Real.two_pi_pos (-Real.pi) (τ y - τ x)
  rw [Set.mem_Ioc] at this
  exact ⟨this.1, by have := this.2; unfold turn; linarith⟩

theorem turn_eq (τ : Vec d → ℝ) (x y : Vec d) : ∃ k : ℤ, τ y = τ x + turn τ x y + k * (2 * Real.pi) := by
  refine ⟨toIocDiv Real.two_pi_pos (-Real.pi) (τ y - τ x), ?_⟩
  have := toIocMod_add_toIocDiv_zsmul Real.two_pi_pos (-Real.pi) (τ y - τ x)
  unfold turn
  rw [zsmul_eq_mul] at this
  linarith

theorem turn_unique {τ : Vec d → ℝ} {x y : Vec d} {r : ℝ} {k : ℤ} (h : τ y = τ x + r + k * (2 * Real.pi)) (hr : |r| < Real.pi) : turn τ x y = r := by
  obtain ⟨m, hm⟩ := turn_eq τ x y
  obtain ⟨h1, h2⟩ := turn_mem τ x y
  obtain ⟨h3, h4⟩ := abs_lt.1 hr
  have := int_eq_zero_of_small Real.two_pi_pos (r := turn τ x y - r) (k := k - m) (by push_cast; linarith) (by rw [abs_lt]; constructor <;> linarith)
  have e : k = m := by omega
  subst e
  linarith

/-- Half of a small angle. -/
theorem small_angle {s : ℝ} (h1 : |s| ≤ Real.pi) (h2 : |Real.sin (s / 2)| ≤ 0.051) : |s| ≤ 0.051 * Real.pi ∧ 0.997 ≤ Real.cos (s / 2) := by
  have hpi := Real.pi_pos
  have ha : |s / 2| = |s| / 2 := by rw [abs_div]; norm_num
  constructor
  · have h3 : 2 / Real.pi * (|s| / 2) ≤ Real.sin (|s| / 2) := Real.mul_le_sin (by positivity) (by linarith)
    rw [Real.abs_sin_eq_sin_abs_of_abs_le_pi (by rw [ha]; linarith), ha] at h2
    have h4 : 2 / Real.pi * (|s| / 2) = |s| / Real.pi := by field_simp
    rw [h4] at h3
    have := h3.trans h2
    rwa [div_le_iff₀ hpi] at this
  · have h0 : 0 ≤ Real.cos (s / 2) := Real.cos_nonneg_of_neg_pi_div_two_le_of_le (by have := (abs_le.1 h1).1; linarith) (by have := (abs_le.1 h1).2; linarith)
    have h3 := Real.sin_sq_add_cos_sq (s / 2)
    have h4 : Real.sin (s / 2) ^ 2 ≤ 0.051 ^ 2 := by rw [← sq_abs]; exact pow_le_pow_left₀ (abs_nonneg _) h2 2
    have h5 := Real.cos_le_one (s / 2)
    nlinarith

/-- the sign of the sine of half the angle -/
theorem sin_half_sign {s : ℝ} (h : |s| < Real.pi) : (0 < s → 0 < Real.sin (s / 2)) ∧ (s < 0 → Real.sin (s / 2) < 0) := by
  have h' := abs_lt.1 h
  exact ⟨fun h0 => Real.sin_pos_of_pos_of_lt_pi (by linarith) (by linarith), fun h0 => Real.sin_neg_of_neg_of_neg_pi_lt (by linarith) (by linarith)⟩

theorem cos_add_small {x y : ℝ} (hx : |Real.sin x| ≤ 0.051) (hy : |Real.sin y| ≤ 0.051) (cx : 0.997 ≤ Real.cos x) (cy : 0.997 ≤ Real.cos y) : 0.99 ≤ Real.cos (x + y) ∧ 0.99 ≤ Real.cos (x - y) := by
  rw [Real.cos_add, Real.cos_sub]
  have h1 : |Real.sin x * Real.sin y| ≤ 0.051 * 0.051 := by rw [abs_mul]; exact mul_le_mul hx hy (abs_nonneg _) (by norm_num)
  have h2 := abs_le.1 h1
  have h3 : 0.997 * 0.997 ≤ Real.cos x * Real.cos y := mul_le_mul cx cy (by norm_num) (by linarith)
  constructor <;> nlinarith

/-- Steps in the same direction, or in opposite directions. -/
theorem dot_steps {fs w c c' κ : ℝ} (hfs : 0 < fs) {t t' e e' v v' : Vec d} (ht : dot t t = 1) (ht' : dot t' t' = 1) (hκ : dot t t' = κ) (hκ1 : 0.99 ≤ κ) (hw : 0 ≤ w) (hwf : w ≤ fs / 240) (he : dot e e ≤ (w + w) ^ 2)
    (he' : dot e' e' ≤ (w + w) ^ 2) (hv : v = fun i => c * t i + e i) (hv' : v' = fun i => c' * t' i + e' i) (hc : 0.24 * fs ≤ |c|) (hc' : 0.24 * fs ≤ |c'|) {p q : ℝ} (hp : dot v v = p ^ 2) (hq0 : 0 ≤ q)
    (hq : dot v' v' = q ^ 2) : (0 < c * c' → 5 / 6 * (p * q) < dot v v') ∧ (c * c' < 0 → dot v v' ≤ 0) := by
  have hww : 0 ≤ w + w := by linarith
  have b1 := (dot_lin_self (c := c) ht hww he).1
  have b2 := (dot_lin_self (c := c') ht' hww he').1
  rw [← hv, hp] at b1
  rw [← hv', hq] at b2
  have p1 : p ≤ |c| + (w + w) := abs_le_of_sq_le_sq' b1 (by positivity) |>.2
  have q1 : q ≤ |c'| + (w + w) := abs_le_of_sq_le_sq' b2 (by positivity) |>.2
  have x1 : |dot t e'| ≤ 1 * (w + w) := abs_dot_le zero_le_one hww (by rw [ht]; norm_num) he'
  have x2 : |dot e t'| ≤ (w + w) * 1 := abs_dot_le hww zero_le_one he (by rw [ht']; norm_num)
  have x3 : |dot e e'| ≤ (w + w) * (w + w) := abs_dot_le hww hww he he'
  have y1 : |c * dot t e'| ≤ |c| * (w + w) := by rw [abs_mul]; exact mul_le_mul_of_nonneg_left (by linarith) (abs_nonneg _)
  have y2 : |c' * dot e t'| ≤ |c'| * (w + w) := by rw [abs_mul]; exact mul_le_mul_of_nonneg_left (by linarith) (abs_nonneg _)
  have z1 := abs_le.1 y1
  have z2 := abs_le.1 y2
  have z3 := abs_le.1 x3
  have hpq : p * q ≤ (|c| + (w + w)) * (|c'| + (w + w)) := mul_le_mul p1 q1 hq0 (by positivity)
  have eq : dot v v' = c * c' * κ + c * dot t e' + c' * dot e t' + dot e e' := by rw [hv, hv', dot_lin, hκ]
  -- `w + w ≤ |c| / 28`
  have r1 : (w + w) * 28 ≤ |c| := by linarith
  have r2 : (w + w) * 28 ≤ |c'| := by linarith
  have g0 : 0 < |c| := by nlinarith
  have g0' : 0 < |c'| := by nlinarith
  have g1 : |c| * (w + w) * 28 ≤ |c| * |c'| := by rw [mul_assoc]; exact mul_le_mul_of_nonneg_left r2 g0.le
  have g2 : |c'| * (w + w) * 28 ≤ |c| * |c'| := by rw [mul_assoc, mul_comm |c| |c'|]; exact mul_le_mul_of_nonneg_left r1 g0'.le
  have g3 : (w + w) * (w + w) * 28 * 28 ≤ |c| * |c'| := by
    have := mul_le_mul r1 r2 (by positivity) g0.le
    linarith
  have gg : 0 < |c| * |c'| := mul_pos g0 g0'
  have hexp : (|c| + (w + w)) * (|c'| + (w + w)) = |c| * |c'| + |c| * (w + w) + |c'| * (w + w) + (w + w) * (w + w) := by ring
  rw [hexp] at hpq
  have hk : 0.99 * (|c| * |c'|) ≤ |c| * |c'| * κ := by rw [mul_comm (|c| * |c'|) κ]; exact mul_le_mul_of_nonneg_right hκ1 gg.le
  have hsign : (0 < c * c' → c * c' = |c| * |c'|) ∧ (c * c' < 0 → c * c' = -(|c| * |c'|)) := ⟨fun h => by rw [← abs_mul, abs_of_pos h], fun h => by rw [← abs_mul, abs_of_neg h]; ring⟩
  clear hv hv' hp hq he he' b1 b2 x1 x2 x3 y1 y2 hexp
  rw [eq]
  clear eq
  constructor
  · intro hpos
    rw [hsign.1 hpos]
    linarith
  · intro hneg
    rw [hsign.2 hneg]
    linarith

/-- A part of the way is shorter. -/
theorem chord_part {A B : ℝ} (hA : 0 ≤ A) (hB : 0 ≤ B) (hAB : A + B ≤ Real.pi / 2) (h : Real.sin (A + B) ≤ 0.051) : Real.sin A + 0.98 * Real.sin B ≤ Real.sin (A + B) := by
  have hpi := Real.pi_pos
  have a0 : 0 ≤ Real.sin A := Real.sin_nonneg_of_nonneg_of_le_pi hA (by linarith)
  have b0 : 0 ≤ Real.sin B := Real.sin_nonneg_of_nonneg_of_le_pi hB (by linarith)
  have a1 : Real.sin A ≤ Real.sin (A + B) := Real.sin_le_sin_of_le_of_le_pi_div_two (by linarith) hAB (by linarith)
  have b1 : Real.sin B ≤ Real.sin (A + B) := Real.sin_le_sin_of_le_of_le_pi_div_two (by linarith) hAB (by linarith)
  have ca : 0 ≤ Real.cos A := Real.cos_nonneg_of_neg_pi_div_two_le_of_le (by linarith) (by linarith)
  have cb : 0 ≤ Real.cos B := Real.cos_nonneg_of_neg_pi_div_two_le_of_le (by linarith) (by linarith)
  have sa := Real.sin_sq_add_cos_sq A
  have sb := Real.sin_sq_add_cos_sq B
  have cb1 := Real.cos_le_one B
  have ca1 := Real.cos_le_one A
  have ca2 : 0.997 ≤ Real.cos A := by nlinarith
  rw [Real.sin_add]
  -- `1 - cos B ≤ sin² B`
  have k : 1 - Real.cos B ≤ Real.sin B ^ 2 := by nlinarith
  have k2 : Real.sin A * (1 - Real.cos B) ≤ Real.sin A * Real.sin B ^ 2 := mul_le_mul_of_nonneg_left k a0
  have k3 : Real.sin A * Real.sin B ≤ 0.051 * 0.051 := mul_le_mul (a1.trans h) (b1.trans h) b0 (by norm_num)
  nlinarith

set_option maxHeartbeats 2000000 in
/-- A ring without gaps is a closed line. -/
theorem round_of_ring {cs : CoordSys d} (hb : ProperBox cs) {fs : ℝ} (hfs : 0 < fs) {P : List (Vec d)} {o a b : Vec d} {R : ℝ} (hR : 10 * fs ≤ R) (hring : OnRing o a b R (fs / 240) P)
    (hgap : NoGapRound o a b R (fs / 3) P) (hw : NotWrapped cs fs P) (hfar : ∀ x ∈ P, ∀ y ∈ P, x ≠ y → fs / 4 < cs.distance x y) :
    ∃ τ : Vec d → ℝ, (∀ x ∈ P, AtAngle o a b R (fs / 240) x (τ x)) ∧ (∀ x y, Near P cs fs x y → |turn τ x y| ≤ 2 / R * cs.distance x y) ∧
      Round P cs fs (2 * Real.pi) τ (turn τ) := by
  obtain ⟨hab, hex⟩ := hring
  obtain ⟨τ, hτ⟩ : ∃ τ : Vec d → ℝ, ∀ x ∈ P, AtAngle o a b R (fs / 240) x (τ x) := by
    choose! τ hτ using hex
    exact ⟨τ, hτ⟩
  refine ⟨τ, hτ, ?_⟩
  have hpi := Real.pi_pos
  have hpi3 := Real.pi_gt_three
  have hR0 : 0 < R := by linarith
  set w := fs / 240 with hwdef
  have hw0 : 0 < w := by positivity
  have hone : ∀ t, dot (tangent a b t) (tangent a b t) = 1 := fun t => by rw [dot_tangent hab, sub_self, Real.cos_zero]
  -- the step between positions, whatever their distance
  have hstep : ∀ x ∈ P, ∀ y ∈ P, ∀ (r : ℝ) (k : ℤ), τ y = τ x + r + k * (2 * Real.pi) →
      ∃ e : Vec d, dot e e ≤ (w + w) ^ 2 ∧ (fun i => y i - x i) = fun i => 2 * R * Real.sin (r / 2) * tangent a b (τ x + r / 2) i + e i :=
    fun x hx y hy r k hk => ring_step (hτ x hx) (AtAngle.period (hτ y hy) hk)
  have heucl : ∀ x ∈ P, ∀ y ∈ P, ∀ (r : ℝ) (k : ℤ), τ y = τ x + r + k * (2 * Real.pi) → eucl x y ≤ |2 * R * Real.sin (r / 2)| + (w + w) := by
    intro x hx y hy r k hk
    obtain ⟨e, he, heq⟩ := hstep x hx y hy r k hk
    have := (dot_lin_self (c := 2 * R * Real.sin (r / 2)) (hone (τ x + r / 2)) (by positivity) he).1
    rw [← heq, ← eucl_sq_dot] at this
    exact abs_le_of_sq_le_sq' this (by positivity) |>.2
  -- neighbours
  have hnear : ∀ x y, Near P cs fs x y → ∃ e : Vec d, dot e e ≤ (w + w) ^ 2 ∧ (cs.connectingVector x y = fun i => 2 * R * Real.sin (turn τ x y / 2) * tangent a b (τ x + turn τ x y / 2) i + e i) ∧
      0.24 * fs ≤ |2 * R * Real.sin (turn τ x y / 2)| ∧ |2 * R * Real.sin (turn τ x y / 2)| ≤ cs.distance x y + (w + w) ∧ |Real.sin (turn τ x y / 2)| ≤ 0.051 ∧ |turn τ x y| ≤ 0.051 * Real.pi ∧ 0.997 ≤ Real.cos (turn τ x y / 2) := by
    intro x y hn
    obtain ⟨k, hk⟩ := turn_eq τ x y
    obtain ⟨e, he, heq⟩ := hstep x hn.1 y hn.2.1 _ k hk
    have hcv := hw x hn.1 y hn.2.1 hn.2.2.2
    have hdd : dot (cs.connectingVector x y) (cs.connectingVector x y) = cs.distance x y ^ 2 := by rw [dot_self_sq, connecting_sq hb]
    have hfar' := hfar x hn.1 y hn.2.1 hn.2.2.1
    have hd0 := distance_nonneg hb x y
    rw [heq] at hcv
    obtain ⟨l1, l2⟩ := dot_lin_self (c := 2 * R * Real.sin (turn τ x y / 2)) (hone (τ x + turn τ x y / 2)) (by positivity) he
    rw [← hcv, hdd] at l1 l2
    have m1 : cs.distance x y ≤ |2 * R * Real.sin (turn τ x y / 2)| + (w + w) := abs_le_of_sq_le_sq' l1 (by positivity) |>.2
    have m2 : |2 * R * Real.sin (turn τ x y / 2)| ≤ cs.distance x y + (w + w) := by
      by_contra hlt
      push Not at hlt
      have := abs_le_of_sq_le_sq' (l2 (by linarith)) hd0 |>.2
      linarith
    have m3 : |Real.sin (turn τ x y / 2)| ≤ 0.051 := by
      rw [abs_mul, abs_of_pos (by positivity : (0 : ℝ) < 2 * R)] at m2
      have := hn.2.2.2
      by_contra hlt
      push Not at hlt
      nlinarith
    have htm := turn_mem τ x y
    obtain ⟨m4, m5⟩ := small_angle (abs_le.2 ⟨htm.1.le, htm.2⟩) m3
    exact ⟨e, he, hcv, by linarith, m2, m3, m4, m5⟩
  have hsmall : ∀ x y, Near P cs fs x y → |turn τ x y| < Real.pi := fun x y hn => by
    obtain ⟨-, -, -, -, -, -, h, -⟩ := hnear x y hn
    nlinarith
  have hsign : ∀ x y x' y', Near P cs fs x y → Near P cs fs x' y' → (0 < turn τ x y * turn τ x' y' → 0 < 2 * R * Real.sin (turn τ x y / 2) * (2 * R * Real.sin (turn τ x' y' / 2))) ∧
      (turn τ x y * turn τ x' y' < 0 → 2 * R * Real.sin (turn τ x y / 2) * (2 * R * Real.sin (turn τ x' y' / 2)) < 0) := by
    intro x y x' y' h h'
    obtain ⟨s1, s2⟩ := sin_half_sign (hsmall x y h)
    obtain ⟨s3, s4⟩ := sin_half_sign (hsmall x' y' h')
    have e : 2 * R * Real.sin (turn τ x y / 2) * (2 * R * Real.sin (turn τ x' y' / 2)) = (2 * R) ^ 2 * (Real.sin (turn τ x y / 2) * Real.sin (turn τ x' y' / 2)) := by ring
    rw [e]
    constructor
    · intro h0
      refine mul_pos (by positivity) ?_
      rcases mul_pos_iff.1 h0 with ⟨a1, a2⟩ | ⟨a1, a2⟩
      · exact mul_pos (s1 a1) (s3 a2)
      · exact mul_pos_of_neg_of_neg (s2 a1) (s4 a2)
    · intro h0
      refine mul_neg_of_pos_of_neg (by positivity) ?_
      rcases mul_neg_iff.1 h0 with ⟨a1, a2⟩ | ⟨a1, a2⟩
      · exact mul_neg_of_pos_of_neg (s1 a1) (s4 a2)
      · exact mul_neg_of_neg_of_pos (s2 a1) (s3 a2)
  have hdots : ∀ x y x' y', Near P cs fs x y → Near P cs fs x' y' → 0.99 ≤ Real.cos (τ x + turn τ x y / 2 - (τ x' + turn τ x' y' / 2)) →
      (0 < turn τ x y * turn τ x' y' → 5 / 6 * (cs.distance x y * cs.distance x' y') < dot (cs.connectingVector x y) (cs.connectingVector x' y')) ∧
      (turn τ x y * turn τ x' y' < 0 → dot (cs.connectingVector x y) (cs.connectingVector x' y') ≤ 0) := by
    intro x y x' y' h h' hκ
    obtain ⟨e, he, hv, hc, -⟩ := hnear x y h
    obtain ⟨e', he', hv', hc', -⟩ := hnear x' y' h'
    obtain ⟨s1, s2⟩ := hsign x y x' y' h h'
    obtain ⟨d1, d2⟩ := dot_steps hfs (hone _) (hone _) (dot_tangent hab _ _) hκ hw0.le le_rfl he he' hv hv' hc hc' (p := cs.distance x y) (by rw [dot_self_sq, connecting_sq hb]) (distance_nonneg hb x' y')
      (by rw [dot_self_sq, connecting_sq hb])
    exact ⟨fun h0 => d1 (s1 h0), fun h0 => d2 (s2 h0)⟩
  -- a step forward or back
  have hmove : ∀ x ∈ P, ∀ δ : ℝ, |δ| = 2 * Real.arcsin (fs / (4 * R)) → ∃ y, Near P cs fs x y ∧ 0 < turn τ x y * δ := by
    intro x hx δ hδ
    have hq0 : 0 ≤ fs / (4 * R) := by positivity
    have hq : fs / (4 * R) ≤ 1 / 40 := by rw [div_le_div_iff₀ (by positivity) (by norm_num)]; linarith
    have hsin : Real.sin (|δ| / 2) = fs / (4 * R) := by rw [hδ, mul_div_cancel_left₀ _ two_ne_zero]; exact Real.sin_arcsin (by linarith) (by linarith)
    have hδpi : |δ| ≤ Real.pi := by rw [hδ]; have := Real.arcsin_le_pi_div_two (fs / (4 * R)); linarith
    have habs : |δ / 2| = |δ| / 2 := by rw [abs_div]; norm_num
    have hsinδ : |Real.sin (δ / 2)| = fs / (4 * R) := by rw [Real.abs_sin_eq_sin_abs_of_abs_le_pi (by rw [habs]; linarith), habs, hsin]
    have hchord : |2 * R * Real.sin (δ / 2)| = fs / 2 := by rw [abs_mul, hsinδ, abs_of_pos (by positivity)]; field_simp; ring
    have hδ0 : 0 < |δ| := by
      rcases (abs_nonneg δ).lt_or_eq with h | h
      · exact h
      · rw [← h, zero_div, Real.sin_zero] at hsin
        have : 0 < fs / (4 * R) := by positivity
        linarith
    have hδs : |δ| ≤ 0.051 * Real.pi := (small_angle hδpi (by rw [hsinδ]; linarith)).1
    obtain ⟨y, hy, hat⟩ := hgap (τ x + δ)
    obtain ⟨e, he, heq⟩ := ring_step (hτ x hx) hat
    have hed := (dot_lin_self (c := 2 * R * Real.sin (δ / 2)) (hone (τ x + δ / 2)) (by positivity) he)
    rw [← heq, ← eucl_sq_dot, hchord] at hed
    have hne : x ≠ y := by
      rintro rfl
      have := hed.2 (by linarith)
      rw [eucl_sq_dot] at this
      simp only [sub_self] at this
      have h0 : dot (fun _ : Fin d => (0 : ℝ)) (fun _ => 0) = 0 := by simp [dot]
      rw [h0] at this
      have : 0 < (fs / 2 - (w + fs / 3)) ^ 2 := by have : 0 < fs / 2 - (w + fs / 3) := by linarith
                                                   positivity
      linarith
    have hn : Near P cs fs x y := by
      refine ⟨hx, hy, hne, (distance_le_eucl hb x y).trans ?_⟩
      have := abs_le_of_sq_le_sq' hed.1 (by positivity) |>.2
      linarith
    refine ⟨y, hn, ?_⟩
    by_contra hle
    push Not at hle
    obtain ⟨-, -, -, -, -, -, hts, -⟩ := hnear x y hn
    obtain ⟨k, hk⟩ := turn_eq τ x y
    -- the points of the circle at `turn` and at `δ` are too far from each other
    obtain ⟨e2, he2, heq2⟩ := ring_step (o := o) (a := a) (b := b) (R := R) (t := τ x + turn τ x y) (s := δ - turn τ x y) (x := y) (y := y) (AtAngle.period (hτ y hy) hk) (by rw [show τ x + turn τ x y + (δ - turn τ x y) = τ x + δ by ring]; exact hat)
    have habs2 : |δ - turn τ x y| = |δ| + |turn τ x y| := by
      rcases le_total 0 δ with h | h
      · have ht : turn τ x y ≤ 0 := by
          have : 0 < δ := by rwa [abs_of_nonneg h] at hδ0
          nlinarith
        rw [abs_of_nonneg h, abs_of_nonpos ht, abs_of_nonneg (by linarith)]; ring
      · have ht : 0 ≤ turn τ x y := by
          have : δ < 0 := by rw [abs_of_nonpos h] at hδ0; linarith
          nlinarith
        rw [abs_of_nonpos h, abs_of_nonneg ht, abs_of_nonpos (by linarith)]; ring
    have habs3 : |(δ - turn τ x y) / 2| = (|δ| + |turn τ x y|) / 2 := by rw [abs_div, habs2]; norm_num
    have hbig : fs / (4 * R) ≤ |Real.sin ((δ - turn τ x y) / 2)| := by
      rw [Real.abs_sin_eq_sin_abs_of_abs_le_pi (by rw [habs3]; nlinarith), habs3, ← hsin]
      have := abs_nonneg (turn τ x y)
      exact Real.sin_le_sin_of_le_of_le_pi_div_two (by linarith) (by nlinarith) (by linarith)
    have hbig2 : fs / 2 ≤ |2 * R * Real.sin ((δ - turn τ x y) / 2)| := by
      rw [abs_mul, abs_of_pos (by positivity : (0 : ℝ) < 2 * R)]
      have := mul_le_mul_of_nonneg_left hbig (by positivity : (0 : ℝ) ≤ 2 * R)
      refine le_trans (le_of_eq ?_) this
      field_simp; ring
    have hc := (dot_lin_self (c := 2 * R * Real.sin ((δ - turn τ x y) / 2)) (hone (τ x + turn τ x y + (δ - turn τ x y) / 2)) (by positivity) he2).2 (by linarith)
    rw [← heq2] at hc
    simp only [sub_self] at hc
    have h0 : dot (fun _ : Fin d => (0 : ℝ)) (fun _ => 0) = 0 := by simp [dot]
    rw [h0] at hc
    have : 0 < (|2 * R * Real.sin ((δ - turn τ x y) / 2)| - (w + fs / 3)) ^ 2 := by
      have : 0 < |2 * R * Real.sin ((δ - turn τ x y) / 2)| - (w + fs / 3) := by linarith
      positivity
    linarith
  have hanti : ∀ x y, Near P cs fs x y → turn τ y x = -turn τ x y := fun x y hn => by
    obtain ⟨k, hk⟩ := turn_eq τ x y
    exact turn_unique (k := -k) (by push_cast; linarith) (by rw [abs_neg]; exact hsmall x y hn)
  have harc : 0 < 2 * Real.arcsin (fs / (4 * R)) := by
    have : 0 < Real.arcsin (fs / (4 * R)) := Real.arcsin_pos.2 (by positivity)
    linarith
  refine ⟨fun x y hn => ?_, ?_⟩
  · obtain ⟨-, -, -, -, hc2, hs, -, -⟩ := hnear x y hn
    have hfar' := hfar x hn.1 y hn.2.1 hn.2.2.1
    have htm := turn_mem τ x y
    have ha : |turn τ x y / 2| = |turn τ x y| / 2 := by rw [abs_div]; norm_num
    have htp : |turn τ x y| ≤ Real.pi := abs_le.2 ⟨htm.1.le, htm.2⟩
    have h3 : 2 / Real.pi * (|turn τ x y| / 2) ≤ Real.sin (|turn τ x y| / 2) := Real.mul_le_sin (by positivity) (by linarith)
    rw [← ha, ← Real.abs_sin_eq_sin_abs_of_abs_le_pi (by rw [ha]; linarith), ha, show 2 / Real.pi * (|turn τ x y| / 2) = |turn τ x y| / Real.pi by field_simp, div_le_iff₀ hpi] at h3
    rw [abs_mul, abs_of_pos (by positivity : (0 : ℝ) < 2 * R)] at hc2
    have hpi2 := Real.pi_lt_d2
    rw [div_mul_eq_mul_div, le_div_iff₀ hR0]
    have h4 := mul_le_mul_of_nonneg_right h3 hR0.le
    have h5 : 2 * R * |Real.sin (turn τ x y / 2)| * Real.pi ≤ (31 / 30 * cs.distance x y) * 3.15 := mul_le_mul (by linarith) (by linarith) hpi.le (by linarith)
    linarith
  refine ⟨by positivity, ?_, fun x y _ => turn_eq τ x y, fun x y hn => ?_, hanti, fun x hx y hy k hk => ?_, fun x y z hn hpos hz r k hr hrs hk => ?_, hfar,
    fun x y z h1 h2 => ?_, fun x y z h1 h2 => ?_, fun x hx => ?_, fun x hx => ?_, fun x n m h1 h2 hnm => ?_⟩
  · obtain ⟨x, hx, -⟩ := hgap 0
    exact List.ne_nil_of_mem hx
  · obtain ⟨-, -, -, -, -, -, h, -⟩ := hnear x y hn
    nlinarith
  · by_contra hne
    have h1 := heucl x hx y hy 0 k (by rw [hk]; ring)
    rw [zero_div, Real.sin_zero, mul_zero, abs_zero] at h1
    have := (hfar x hx y hy hne).trans_le (distance_le_eucl hb x y)
    linarith
  · obtain ⟨-, -, -, hc, hc2, hs, ht, -⟩ := hnear x y hn
    obtain ⟨m, hm⟩ := turn_eq τ x y
    rw [abs_of_pos hpos] at ht
    have hpart1 := chord_part (A := r / 2) (B := (turn τ x y - r) / 2) (by linarith) (by linarith) (by linarith) (by rw [show r / 2 + (turn τ x y - r) / 2 = turn τ x y / 2 by ring]; exact (le_abs_self _).trans hs)
    have hpart2 := chord_part (A := (turn τ x y - r) / 2) (B := r / 2) (by linarith) (by linarith) (by linarith) (by rw [show (turn τ x y - r) / 2 + r / 2 = turn τ x y / 2 by ring]; exact (le_abs_self _).trans hs)
    rw [show r / 2 + (turn τ x y - r) / 2 = turn τ x y / 2 by ring] at hpart1
    rw [show (turn τ x y - r) / 2 + r / 2 = turn τ x y / 2 by ring] at hpart2
    have s1 : 0 < Real.sin (r / 2) := Real.sin_pos_of_pos_of_lt_pi (by linarith) (by linarith)
    have s2 : 0 < Real.sin ((turn τ x y - r) / 2) := Real.sin_pos_of_pos_of_lt_pi (by linarith) (by linarith)
    have s3 : 0 < Real.sin (turn τ x y / 2) := Real.sin_pos_of_pos_of_lt_pi (by linarith) (by linarith)
    have e1 := heucl x hn.1 z hz r k hk
    have e2 := heucl z hz y hn.2.1 (turn τ x y - r) (m - k) (by push_cast; linarith)
    rw [abs_of_pos (by positivity)] at e1 e2 hc2
    have hxz : x ≠ z := by
      rintro rfl
      have := int_eq_zero_of_small Real.two_pi_pos (r := r) (k := -k) (by push_cast; linarith) (by rw [abs_of_pos hr]; linarith)
      have e : k = 0 := by omega
      rw [e] at hk
      push_cast at hk
      linarith
    have hzy : z ≠ y := by
      rintro rfl
      have := int_eq_zero_of_small Real.two_pi_pos (r := turn τ x z - r) (k := k - m) (by push_cast; linarith) (by rw [abs_of_pos (by linarith)]; linarith)
      have e : k = m := by omega
      rw [e] at hk
      linarith
    have f1 := (hfar x hn.1 z hz hxz).trans_le ((distance_le_eucl hb x z).trans e1)
    have f2 := (hfar z hz y hn.2.1 hzy).trans_le ((distance_le_eucl hb z y).trans e2)
    have g1 := mul_le_mul_of_nonneg_left hpart1 (by positivity : (0 : ℝ) ≤ 2 * R)
    have g2 := mul_le_mul_of_nonneg_left hpart2 (by positivity : (0 : ℝ) ≤ 2 * R)
    constructor
    · refine (distance_le_eucl hb x z).trans_lt (e1.trans_lt ?_)
      -- `distance x y ≥ chord - 2 w`
      obtain ⟨e, he, heq⟩ := hstep x hn.1 y hn.2.1 _ m hm
      have l2 := (dot_lin_self (c := 2 * R * Real.sin (turn τ x y / 2)) (hone (τ x + turn τ x y / 2)) (by positivity) he).2
      rw [← heq, ← hw x hn.1 y hn.2.1 hn.2.2.2, dot_self_sq, connecting_sq hb, abs_of_pos (by positivity)] at l2
      have := abs_le_of_sq_le_sq' (l2 (by linarith)) (distance_nonneg hb x y) |>.2
      linarith
    · refine (distance_le_eucl hb z y).trans_lt (e2.trans_lt ?_)
      obtain ⟨e, he, heq⟩ := hstep x hn.1 y hn.2.1 _ m hm
      have l2 := (dot_lin_self (c := 2 * R * Real.sin (turn τ x y / 2)) (hone (τ x + turn τ x y / 2)) (by positivity) he).2
      rw [← heq, ← hw x hn.1 y hn.2.1 hn.2.2.2, dot_self_sq, connecting_sq hb, abs_of_pos (by positivity)] at l2
      have := abs_le_of_sq_le_sq' (l2 (by linarith)) (distance_nonneg hb x y) |>.2
      linarith
  · obtain ⟨-, -, -, -, -, a1, -, a2⟩ := hnear x y h1
    obtain ⟨-, -, -, -, -, b1, -, b2⟩ := hnear y z h2
    obtain ⟨k, hk⟩ := turn_eq τ x y
    have := hdots y z x y h2 h1 (by
      rw [hk, show τ x + turn τ x y + ↑k * (2 * Real.pi) + turn τ y z / 2 - (τ x + turn τ x y / 2) = (turn τ x y / 2 + turn τ y z / 2) + k * (2 * Real.pi) by ring, Real.cos_add_int_mul_two_pi]
      exact (cos_add_small a1 b1 a2 b2).1)
    rwa [mul_comm (turn τ y z)] at this
  · obtain ⟨-, -, -, -, -, a1, -, a2⟩ := hnear x y h1
    obtain ⟨-, -, -, -, -, b1, -, b2⟩ := hnear x z h2
    refine hdots x y x z h1 h2 ?_
    rw [show τ x + turn τ x y / 2 - (τ x + turn τ x z / 2) = turn τ x y / 2 - turn τ x z / 2 by ring]
    exact (cos_add_small a1 b1 a2 b2).2
  · obtain ⟨y, hy, h⟩ := hmove x hx _ (abs_of_pos harc)
    exact ⟨y, hy, by nlinarith⟩
  · obtain ⟨y, hy, h⟩ := hmove x hx (-(2 * Real.arcsin (fs / (4 * R)))) (by rw [abs_neg]; exact abs_of_pos harc)
    exact ⟨y, hy, by nlinarith⟩
  · rw [getVolume_pair cs x hnm]
    have hsy : ∀ a b, cs.distance b a = cs.distance a b := fun a b => (C03_distance_metric cs hb b a a).2.1
    have hneg : ∀ y, Near P cs fs x y → cs.connectingVector y x = fun i => -cs.connectingVector x y i := fun y hn => by
      rw [hw x hn.1 y hn.2.1 hn.2.2.2, hw y hn.2.1 x hn.1 (by rw [hsy]; exact hn.2.2.2)]
      funext i; ring
    have hdn : ∀ v v' : Vec d, dot (fun i => -v i) (fun i => -v' i) = dot v v' := fun v v' => Finset.sum_congr rfl fun i _ => by ring
    have bound : ∀ y, Near P cs fs x y → dot (cs.connectingVector x y) (cs.connectingVector x y) ≤ fs ^ 2 := fun y h => by
      rw [dot_self_sq, connecting_sq hb]
      exact pow_le_pow_left₀ (distance_nonneg hb x y) h.2.2.2 2
    have hu : ∑ i, tangent a b (τ x) i ^ 2 = 1 := by rw [← dot_self_sq]; exact hone _
    have hperp : ∀ y, Near P cs fs x y → dot (cs.connectingVector x y) (cs.connectingVector x y) - progress (tangent a b (τ x)) (cs.connectingVector x y) ^ 2 ≤ 0.07 ^ 2 * fs ^ 2 := by
      intro y hn
      obtain ⟨e, he, hv, hc, hc2, hs, -, hcos⟩ := hnear x y hn
      have hd1 := hn.2.2.2
      set c := 2 * R * Real.sin (turn τ x y / 2) with hcdef
      set T := tangent a b (τ x + turn τ x y / 2) with hT
      set u := tangent a b (τ x) with hudef
      have hpe : ∀ v, dot v v - progress u v ^ 2 = dot (perp u v) (perp u v) := fun v => by
        have := dot_perp hu v v
        unfold dot at this ⊢
        rw [this]; ring
      rw [hpe]
      have hlin : perp u (cs.connectingVector x y) = fun i => c * perp u T i + perp u e i := by
        funext i
        have hp : progress u (cs.connectingVector x y) = c * progress u T + progress u e := by
          rw [hv]
          unfold progress
          rw [Finset.mul_sum, ← Finset.sum_add_distrib]
          exact Finset.sum_congr rfl fun i _ => by ring
        unfold perp
        rw [hp, hv]
        ring
      rw [hlin]
      have h1 : dot (perp u T) (perp u T) = Real.sin (turn τ x y / 2) ^ 2 := by
        rw [← hpe, hT, hone, show progress u (tangent a b (τ x + turn τ x y / 2)) = Real.cos (turn τ x y / 2) by
          have := dot_tangent hab (τ x) (τ x + turn τ x y / 2)
          rw [show τ x - (τ x + turn τ x y / 2) = -(turn τ x y / 2) by ring, Real.cos_neg] at this
          exact this]
        have := Real.sin_sq_add_cos_sq (turn τ x y / 2)
        linarith
      have h2 : dot (perp u e) (perp u e) ≤ (w + w) ^ 2 := by
        rw [← hpe]
        have := sq_nonneg (progress u e)
        linarith
      have hsc : |Real.sin (turn τ x y / 2)| ≤ |c| / (2 * R) := by
        rw [hcdef, abs_mul, abs_of_pos (by positivity : (0 : ℝ) < 2 * R)]
        field_simp
        exact le_rfl
      have h3 : dot (fun i => c * perp u T i) (fun i => c * perp u T i) ≤ (|c| * |Real.sin (turn τ x y / 2)|) ^ 2 := by
        have := dot_lin c c (perp u T) (fun _ => 0) (perp u T) fun _ => 0
        simp only [add_zero] at this
        rw [this, h1, mul_pow, sq_abs, sq_abs]
        simp [dot]
        nlinarith
      have h4 := dot_add_le (by positivity) (by positivity) h3 h2
      refine h4.trans ?_
      rw [← mul_pow]
      refine pow_le_pow_left₀ (by positivity) ?_ 2
      have : |c| * |Real.sin (turn τ x y / 2)| ≤ 1.01 * fs * 0.051 := mul_le_mul (by linarith) hs (abs_nonneg _) (by positivity)
      linarith
    rw [hneg n h1, hneg m h2, hdn, hdn, hdn, hdn]
    exact volume_of_area (s := 0.07) (by norm_num) hfs (area_perp hu (hperp n h1) (hperp m h2) (bound n h1) (bound m h2))

end NF
