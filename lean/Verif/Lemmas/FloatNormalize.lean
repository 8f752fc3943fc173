import Verif.Lemmas.FloatLive

/-! # Normalizing positions near the box, and distances to them -/

noncomputable section
open Classical
namespace NF.FL
open Spec CoordSys
variable {d : ℕ} {A : CtlArith d} {p : CtlParams d} {Res : Simplex d → SRes d → Prop}

/-- at most two lengths of the box away from its lower limits -/
def Around (p : CtlParams d) (x : Vec d) : Prop := ∀ i, |x i - p.coord.lower i| ≤ 2 * (p.coord.upper i - p.coord.lower i)

theorem npMod_shape {rnd : ℝ → ℝ} (hr : IsNearest rnd) {a b : ℝ} (hb : 0 < b) (ha : |a| < 3 * b) :
    ∃ j : ℤ, |(j : ℝ)| ≤ 3 ∧ |FL.npMod rnd a b - (a - b * j)| ≤ ulp * b := by
  have hu := ulp_pos
  obtain ⟨ha1, ha2⟩ := abs_lt.1 ha
  set t := truncInt (a / b) with ht
  have hq1 : -3 < a / b := by rw [lt_div_iff₀ hb]; linarith
  have hq2 : a / b < 3 := by rw [div_lt_iff₀ hb]; linarith
  have hmod : |FL.fmod a b| ≤ b := by
    rcases le_or_gt 0 a with h | h
    · have := fmod_of_nonneg h hb
      rw [abs_of_nonneg this.1]; exact this.2.le
    · have := fmod_of_neg h hb
      rw [abs_of_nonpos this.2]; linarith [this.1]
  have htb : -2 ≤ t ∧ t ≤ 2 := by
    rw [ht]; unfold truncInt
    split
    · rename_i h
      have h1 := Int.floor_nonneg.2 h
      have h2 := Int.floor_lt.2 (by exact_mod_cast hq2 : a / b < ((3 : ℤ) : ℝ))
      omega
    · rename_i h
      have h1 : ⌈a / b⌉ ≤ 0 := by rw [Int.ceil_le]; push_cast; linarith
      have h2 : -3 < ⌈a / b⌉ := by rw [Int.lt_ceil]; push_cast; linarith
      omega
  unfold FL.npMod
  simp only
  split
  · rename_i hc
    have hneg : FL.fmod a b < 0 := by
      by_contra h
      exact hc.2 ⟨fun h' => absurd h' (by linarith), fun h' => absurd h' h⟩
    refine ⟨t - 1, ?_, ?_⟩
    · have h1 : -3 ≤ t - 1 := by omega
      have h2 : t - 1 ≤ 3 := by omega
      rw [abs_le]; exact ⟨by exact_mod_cast h1, by exact_mod_cast h2⟩
    · have e : a - b * ((t - 1 : ℤ) : ℝ) = FL.fmod a b + b := by unfold FL.fmod; rw [← ht]; push_cast; ring
      rw [e]
      refine (rel_err' hr _).trans (mul_le_mul_of_nonneg_left ?_ hu.le)
      have := (abs_le.1 hmod).1
      rw [abs_of_nonneg (by linarith)]; linarith
  · refine ⟨t, ?_, ?_⟩
    · rw [abs_le]; exact ⟨by have : (-3 : ℤ) ≤ t := by omega
                             exact_mod_cast this, by have : t ≤ 3 := by omega
                                                     exact_mod_cast this⟩
    · have e : a - b * (t : ℝ) = FL.fmod a b := by unfold FL.fmod; rw [← ht]
      rw [e, sub_self, abs_zero]; positivity

/-- normalizing a position near the box (also below it) moves it by a rounding error -/
theorem normalize_near (hS : FloatSearch A p Res) {x : Vec d} (hx : Around p x) : p.coord.distance x (FL.normalizePosition A.rnd p.coord x) ≤ 2 * driftError p.coord := by
  have hu := ulp_pos
  have hu1 := ulp_small
  have hr := hS.nearest
  have hdr : 2 * driftError p.coord = len (fun i => 2 * (ulp * (6 * p.coord.size i + |p.coord.lower i|))) := by
    rw [len_smul' (by norm_num)]
    unfold driftError len ulp CoordSys.size; congr 2; refine Finset.sum_congr rfl fun i _ => ?_; ring
  rw [hdr]
  cases hp : p.coord.periodic with
  | false =>
    rw [normalizePosition_open _ hp, distance_self hS.box]; exact len_nonneg _
  | true =>
    rw [distance_eq_len]
    refine len_mono fun i => ?_
    have hsz := size_pos hS.box i
    have hl0 := abs_nonneg (p.coord.lower i)
    rw [distDelta_periodic hp, abs_of_nonneg (wrap_nonneg hsz _), abs_of_nonneg (a := 2 * _) (by positivity)]
    have hx1 : |x i - p.coord.lower i| ≤ 2 * p.coord.size i := hx i
    set a := A.rnd (x i - p.coord.lower i) with ha
    set b := FL.size A.rnd p.coord i with hb
    have hb0 : 0 < b := fl_size_pos hr hS.box i
    have hae := (rel_err' hr (x i - p.coord.lower i)).trans (mul_le_mul_of_nonneg_left hx1 hu.le)
    rw [← ha] at hae
    have hbe := abs_le.1 (fl_size_err hr hS.box i)
    have h7 := mul_pos hu hsz
    have hus : ulp * p.coord.size i ≤ 1 / 100 * p.coord.size i := mul_le_mul_of_nonneg_right (by linarith) hsz.le
    have hab : |a| < 3 * b := by
      have : |a| ≤ |a - (x i - p.coord.lower i)| + |x i - p.coord.lower i| := by
        have := abs_add_le (a - (x i - p.coord.lower i)) (x i - p.coord.lower i)
        rwa [sub_add_cancel] at this
      linarith [hbe.1]
    obtain ⟨j, hj, hm⟩ := npMod_shape hr hb0 hab
    have hrange := npMod_range hr a hb0 (hr _).1
    set M := FL.npMod A.rnd a b with hM
    have hN : FL.normalizePosition A.rnd p.coord x i = A.rnd (M + p.coord.lower i) := by
      unfold FL.normalizePosition
      rw [if_pos hp, ← ha, ← hb]
    rw [hN]
    have he := rel_err' hr (M + p.coord.lower i)
    have hab2 : |M + p.coord.lower i| ≤ b + |p.coord.lower i| := by
      refine (abs_add_le _ _).trans ?_
      rw [abs_of_nonneg hrange.1]; linarith [hrange.2]
    have he := abs_le.1 (he.trans (mul_le_mul_of_nonneg_left hab2 hu.le))
    refine (wrap_le hsz _ j).trans ?_
    have hkb : |(j : ℝ) * (b - p.coord.size i)| ≤ 3 * (ulp * p.coord.size i) := by
      rw [abs_mul]
      refine mul_le_mul hj (abs_le.2 hbe) (abs_nonneg _) (by norm_num)
    have hkb := abs_le.1 hkb
    have hb2 : ulp * b ≤ 1.5 * (ulp * p.coord.size i) := by nlinarith
    have hm := abs_le.1 hm
    have hae := abs_le.1 hae
    set N := A.rnd (M + p.coord.lower i) with hNd
    have e1 : N - x i + j * p.coord.size i = (N - (M + p.coord.lower i)) + (M - (a - b * j)) + (a - (x i - p.coord.lower i)) - j * (b - p.coord.size i) := by ring
    rw [e1]
    have e2 : 2 * (ulp * (6 * p.coord.size i + |p.coord.lower i|)) = 12 * (ulp * p.coord.size i) + 2 * (ulp * |p.coord.lower i|) := by ring
    have e3 : ulp * (b + |p.coord.lower i|) = ulp * b + ulp * |p.coord.lower i| := by ring
    have e4 : ulp * (2 * p.coord.size i) = 2 * (ulp * p.coord.size i) := by ring
    have h8 : 0 ≤ ulp * |p.coord.lower i| := by positivity
    rw [e2, abs_le]
    rw [e3] at he
    rw [e4] at hae
    constructor <;> linarith [he.1, he.2, hae.1, hae.2, hm.1, hm.2, hkb.1, hkb.2]

/-- as `dist_err`, for any way of computing the distance, also below the box -/
theorem dist_err_around (hS : FloatSearch A p Res) (hdim : ((d : ℝ) + 1) / 2 ^ 53 ≤ 1 / 2) {x y : Vec d} (hx : Around p x) (hy : Around p y) {v : ℝ} (hv : FL.Distance A.rnd p.coord x y v) :
    |v - p.coord.distance x y| ≤ distanceError p.coord := by
  have hl := len_nonneg p.coord.size
  cases hp : p.coord.periodic with
  | true =>
    refine (C97_distance_periodic hS.nearest hS.box hp hdim (fun i => ?_) hv).trans ?_
    · have h1 := abs_le.1 (hx i)
      have h2 := abs_le.1 (hy i)
      have := sub_pos.2 (hS.box i)
      rw [abs_le]; constructor <;> linarith [h1.1, h1.2, h2.1, h2.2]
    · rw [distanceError_eq]
      refine mul_le_mul_of_nonneg_right ?_ hl
      apply div_le_div_of_nonneg_right _ (by positivity)
      nlinarith [(Nat.cast_nonneg d : (0 : ℝ) ≤ d)]
  | false =>
    have h1 := fl_distance_err_open hS.nearest hp (by unfold ulp; linarith) hv
    refine h1.trans ?_
    have h2 : p.coord.distance x y ≤ 4 * len p.coord.size := by
      rw [distance_eq_len]
      refine (len_mono (w := fun i => 4 * p.coord.size i) fun i => ?_).trans (le_of_eq (len_smul' (by norm_num) _))
      rw [distDelta_nonperiodic hp]
      have h1 := abs_le.1 (hx i)
      have h2 := abs_le.1 (hy i)
      have := sub_pos.2 (hS.box i)
      rw [abs_of_nonneg (a := 4 * p.coord.size i) (by unfold CoordSys.size; linarith)]
      unfold CoordSys.size
      rw [abs_le]; constructor <;> linarith [h1.1, h1.2, h2.1, h2.2]
    rw [distanceError_eq]
    have hd0 : (0 : ℝ) ≤ d := Nat.cast_nonneg d
    have hu := ulp_pos
    calc _ ≤ 2 * (d + 2) * ulp * (4 * len p.coord.size) := mul_le_mul_of_nonneg_left h2 (by positivity)
      _ ≤ 8 * (d + 10) / 2 ^ 53 * len p.coord.size := by
        unfold ulp
        rw [show 2 * ((d : ℝ) + 2) * (1 / 2 ^ 53) * (4 * len p.coord.size) = 8 * (d + 2) / 2 ^ 53 * len p.coord.size by ring]
        refine mul_le_mul_of_nonneg_right ?_ hl
        apply div_le_div_of_nonneg_right _ (by positivity)
        linarith

/-- a computed distance below the cutoff -/
theorem near_of_computed (hS : FloatSearch A p Res) (hg : FloatGeometry p Res) {x y : Vec d} (hx : Around p x) (hy : Around p y) {v : ℝ} (hv : FL.Distance A.rnd p.coord x y v) (hlt : v < distCutoff A p) :
    p.coord.distance x y < cover p := by
  have h := (abs_le.1 (dist_err_around hS hg.dim hx hy hv)).1
  obtain ⟨-, hd2, -⟩ := cutoff_bounds hS hg
  have h0 : 0 < p.featureSize / 3 := by have := hg.positive; positivity
  have : p.featureSize / 3 * (1 + 1 / 2 ^ 53) ≤ p.featureSize / 3 * (1 + 1 / 2 ^ 52) := mul_le_mul_of_nonneg_left (by norm_num) h0.le
  unfold cover
  linarith

end NF.FL
