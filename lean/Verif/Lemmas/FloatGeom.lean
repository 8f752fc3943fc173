import Verif.Lemmas.FloatElem
import Verif.Props.FloatDistance

/-! # Distances between the positions of a search in floating-point arithmetic -/

noncomputable section
open Classical
namespace NF.FL
open Spec CoordSys
variable {d : ℕ} {A : CtlArith d} {p : CtlParams d} {Res : Simplex d → SRes d → Prop}

/-- near the box -/
def InReach (p : CtlParams d) (x : Vec d) : Prop := ∀ i, |x i - p.coord.lower i| ≤ 2 * (p.coord.upper i - p.coord.lower i) ∧ (p.coord.periodic = true → p.coord.lower i ≤ x i)

theorem normalizePosition_open (rnd : ℝ → ℝ) {cs : CoordSys d} (h : cs.periodic = false) (x : Vec d) : FL.normalizePosition rnd cs x = x := by
  funext i; simp [FL.normalizePosition, h]

theorem inReach_normalize (hS : FloatSearch A p Res) (hn : NearBox p Res) {s : Simplex d} {r : SRes d} (h : Res s r) : InReach p (FL.normalizePosition A.rnd p.coord r.pos) := by
  cases hp : p.coord.periodic with
  | true => exact fun i => C74_normalized_in_reach hS.nearest hS.box hS.floats hp _ i
  | false =>
    rw [normalizePosition_open _ hp]
    rcases hn with hn | hn
    · rw [hp] at hn; cases hn
    · exact fun i => ⟨hn s r h i, by rw [hp]; simp⟩

theorem NormPos.inReach (hS : FloatSearch A p Res) (hn : NearBox p Res) {x : Vec d} (h : NormPos A p Res x) : InReach p x := by
  obtain ⟨s, r, h1, rfl⟩ := h
  exact inReach_normalize hS hn h1

theorem inReach_again (hS : FloatSearch A p Res) {x : Vec d} (h : InReach p x) : InReach p (FL.normalizePosition A.rnd p.coord x) := by
  cases hp : p.coord.periodic with
  | true => exact fun i => C74_normalized_in_reach hS.nearest hS.box hS.floats hp _ i
  | false => rw [normalizePosition_open _ hp]; exact h

theorem distanceError_eq (cs : CoordSys d) : distanceError cs = 8 * (d + 10) / 2 ^ 53 * len cs.size := rfl

theorem distanceError_nonneg (cs : CoordSys d) : 0 ≤ distanceError cs := by
  rw [distanceError_eq]; have := len_nonneg cs.size; positivity

theorem dist_err (hS : FloatSearch A p Res) (hg : FloatGeometry p Res) {x y : Vec d} (hx : InReach p x) (hy : InReach p y) :
    |A.dist p.coord x y - p.coord.distance x y| ≤ distanceError p.coord := by
  have hl := len_nonneg p.coord.size
  cases hp : p.coord.periodic with
  | true =>
    refine (C97_distance_periodic hS.nearest hS.box hp hg.dim (fun i => ?_) (hS.distances p.coord x y)).trans ?_
    · have h1 := abs_le.1 (hx i).1
      have h2 := abs_le.1 (hy i).1
      have := sub_pos.2 (hS.box i)
      rw [abs_le]; constructor <;> linarith [h1.1, h1.2, h2.1, h2.2]
    · rw [distanceError_eq]
      refine mul_le_mul_of_nonneg_right ?_ hl
      apply div_le_div_of_nonneg_right _ (by positivity)
      nlinarith [(Nat.cast_nonneg d : (0 : ℝ) ≤ d)]
  | false =>
    have h1 := fl_distance_err_open hS.nearest hp (by unfold ulp; have := hg.dim; linarith) (hS.distances p.coord x y)
    refine h1.trans ?_
    have h2 : p.coord.distance x y ≤ 4 * len p.coord.size := by
      rw [distance_eq_len]
      refine (len_mono (w := fun i => 4 * p.coord.size i) fun i => ?_).trans (le_of_eq (len_smul' (by norm_num) _))
      rw [distDelta_nonperiodic hp]
      have h1 := abs_le.1 (hx i).1
      have h2 := abs_le.1 (hy i).1
      have := sub_pos.2 (hS.box i)
      rw [abs_of_nonneg (a := 4 * p.coord.size i) (by unfold CoordSys.size; linarith)]
      unfold CoordSys.size
      rw [abs_le]; constructor <;> linarith [h1.1, h1.2, h2.1, h2.2]
    rw [distanceError_eq]
    have hd0 : (0 : ℝ) ≤ d := Nat.cast_nonneg d
    have hu := ulp_pos
    calc _ ≤ 2 * (d + 2) * ulp * (4 * len p.coord.size) := mul_le_mul_of_nonneg_left h2 (by positivity)
      _ ≤ 8 * (d + 10) / 2 ^ 53 * len p.coord.size := by
        unfold ulp
        rw [show 2 * ((d : ℝ) + 2) * (1 / 2 ^ 53) * (4 * len p.coord.size) = 8 * (d + 2) / 2 ^ 53 * len p.coord.size by ring]
        refine mul_le_mul_of_nonneg_right ?_ hl
        apply div_le_div_of_nonneg_right _ (by positivity)
        linarith

theorem cutoff_bounds (hS : FloatSearch A p Res) (hg : FloatGeometry p Res) :
    p.featureSize / 3 * (1 - 1 / 2 ^ 53) ≤ distCutoff A p ∧ distCutoff A p ≤ p.featureSize / 3 * (1 + 1 / 2 ^ 53) ∧ 0 < distCutoff A p := by
  have h0 : 0 < p.featureSize / 3 := by have := hg.positive; positivity
  have h := rel_err hS.nearest (p.featureSize / 3)
  rw [abs_of_pos h0, abs_le] at h
  unfold distCutoff
  exact ⟨by linarith [h.1], by linarith [h.2], rnd_pos hS.nearest h0⟩

/-- the distance up to which the centres are kept apart -/
def sep (p : CtlParams d) : ℝ := p.featureSize / 3 * (1 - 1 / 2 ^ 39) - distanceError p.coord

/-- the distance within which the nodes are covered -/
def cover (p : CtlParams d) : ℝ := p.featureSize / 3 * (1 + 1 / 2 ^ 52) + distanceError p.coord

theorem sep_pos (hg : FloatGeometry p Res) : 0 < sep p := by have := hg.small; unfold sep; linarith

/-- near positions are found, and recognized as near -/
theorem near_found (hS : FloatSearch A p Res) (hg : FloatGeometry p Res) {c : Container d} (h : ContInv A p c) {x : Vec d} (hx : InReach p x) (hc : ∀ q ∈ c.refined.flat, InReach p q) :
    (c.refined.flat.filter fun q => decide (p.coord.distance x q < sep p)).length ≤
      ((refinedNeighbourDistances A c x).filter fun y => decide (y < distCutoff A p)).length := by
  obtain ⟨hd1, hd2, hd3⟩ := cutoff_bounds hS hg
  have h0 : 0 < p.featureSize / 3 := by have := hg.positive; positivity
  have hE := distanceError_nonneg p.coord
  rw [refinedNeighbourDistances, h.coord, List.filter_map, List.length_map]
  apply List.Subperm.length_le
  rw [List.subperm_ext_iff]
  intro q hq
  have hq' := List.mem_filter.1 hq
  have hnear : p.coord.distance x q < sep p := by simpa using hq'.2
  have hqr := hc q hq'.1
  have herr := (abs_le.1 (dist_err hS hg hx hqr)).2
  have hcomp : A.dist p.coord x q < distCutoff A p := by
    unfold sep at hnear
    have : p.featureSize / 3 * (1 - 1 / 2 ^ 39) < p.featureSize / 3 * (1 - 1 / 2 ^ 53) := mul_lt_mul_of_pos_left (by norm_num) h0
    linarith
  rw [List.count_filter (p := fun q => decide (p.coord.distance x q < sep p)) hq'.2, List.count_filter (p := (fun x => decide (x < distCutoff A p)) ∘ fun q => A.dist p.coord x q) (by simpa using hcomp),
    count_neighbourValues h.rinv]
  have hle : p.coord.distance x q ≤ distCutoff A p * (1 - 1 / 2 ^ 40) := by
    have h1 : p.featureSize / 3 * (1 - 1 / 2 ^ 53) * (1 - 1 / 2 ^ 40) ≤ distCutoff A p * (1 - 1 / 2 ^ 40) := mul_le_mul_of_nonneg_right hd1 (by norm_num)
    have h2 : p.featureSize / 3 * (1 - 1 / 2 ^ 39) ≤ p.featureSize / 3 * (1 - 1 / 2 ^ 53) * (1 - 1 / 2 ^ 40) := by
      rw [mul_assoc]; exact mul_le_mul_of_nonneg_left (by norm_num) h0.le
    unfold sep at hnear
    linarith
  have hsz : p.coord.periodic = true ∨ ∀ i, distCutoff A p ≤ p.coord.upper i - p.coord.lower i := by
    refine hg.long.imp id fun h i => ?_
    refine hd2.trans (le_trans ?_ (h i))
    exact mul_le_mul_of_nonneg_left (by norm_num) h0.le
  have hmem := C74_near_found hS.nearest hS.box hd3 hsz h.rper h.rnum x q (fun i => (hx i).1) hqr hle
  have := List.count_pos_iff.2 hmem
  exact Nat.le_mul_of_pos_left _ this

theorem checkPos_eq_false_iff (res : Container d) (pos : Vec d) (cut : ℤ) :
    checkPosRefinement A p res pos cut = false ↔ refinedNeighbourDistances A res pos ≠ [] ∧
        cut < ((refinedNeighbourDistances A res pos).filter fun x => decide (x < distCutoff A p)).length := by
  unfold checkPosRefinement
  rw [checkPosLoop_eq_false_iff _ _ _ _ (by omega)]
  have : (0 : ℤ) ≤ ((refinedNeighbourDistances A res pos).filter fun x => decide (x < distCutoff A p)).length := by positivity
  constructor
  · rintro (⟨h1, h2⟩ | ⟨h1, h2⟩) <;> exact ⟨h1, by omega⟩
  · rintro ⟨h1, h2⟩; left; exact ⟨h1, by omega⟩

/-- closer than the cutoff (up to rounding) to a refined position -/
def Covered (p : CtlParams d) (L : List (Vec d)) (x : Vec d) : Prop := ∃ q ∈ L, p.coord.distance x q < cover p

theorem covered_of_check (hS : FloatSearch A p Res) (hg : FloatGeometry p Res) {c : Container d} (h : ContInv A p c) {x : Vec d} (hx : InReach p x) (hc : ∀ q ∈ c.refined.flat, InReach p q)
    {cut : ℤ} (hcut : 0 ≤ cut) (hck : checkPosRefinement A p c x cut = false) : Covered p c.refined.flat x := by
  rw [checkPos_eq_false_iff] at hck
  have hpos : 0 < ((refinedNeighbourDistances A c x).filter fun y => decide (y < distCutoff A p)).length := by omega
  obtain ⟨y, hy⟩ := List.exists_mem_of_length_pos hpos
  obtain ⟨hy1, hy2⟩ := List.mem_filter.1 hy
  rw [refinedNeighbourDistances, h.coord] at hy1
  obtain ⟨q, hq, rfl⟩ := List.mem_map.1 hy1
  have hqm := ((mem_neighbourValues h.rinv _ q).1 hq).1
  have herr := (abs_le.1 (dist_err hS hg hx (hc q hqm))).1
  obtain ⟨hd1, hd2, hd3⟩ := cutoff_bounds hS hg
  have h0 : 0 < p.featureSize / 3 := by have := hg.positive; positivity
  refine ⟨q, hqm, ?_⟩
  have hlt : A.dist p.coord x q < distCutoff A p := by simpa using hy2
  have : p.featureSize / 3 * (1 + 1 / 2 ^ 53) ≤ p.featureSize / 3 * (1 + 1 / 2 ^ 52) := mul_le_mul_of_nonneg_left (by norm_num) h0.le
  unfold cover
  linarith

/-- normalizing a stored position again moves it by a rounding error -/
theorem renormalize (hS : FloatSearch A p Res) {x : Vec d} (hx : InReach p x) : p.coord.distance x (FL.normalizePosition A.rnd p.coord x) ≤ driftError p.coord := by
  have hu := ulp_pos
  have hu1 := ulp_small
  have hr := hS.nearest
  have hdr : driftError p.coord = len (fun i => ulp * (6 * p.coord.size i + |p.coord.lower i|)) := by
    unfold driftError len ulp CoordSys.size; congr 1; refine Finset.sum_congr rfl fun i _ => ?_; ring
  rw [hdr]
  cases hp : p.coord.periodic with
  | false =>
    rw [normalizePosition_open _ hp, distance_self hS.box]; exact len_nonneg _
  | true =>
    rw [distance_eq_len]
    refine len_mono fun i => ?_
    have hsz := size_pos hS.box i
    have hl0 := abs_nonneg (p.coord.lower i)
    rw [distDelta_periodic hp, abs_of_nonneg (wrap_nonneg hsz _), abs_of_nonneg (a := ulp * _) (by positivity)]
    obtain ⟨hx1, hx2⟩ := hx i
    have hx2 := hx2 hp
    have hx1 := (abs_le.1 hx1).2
    have hx1 : x i - p.coord.lower i ≤ 2 * p.coord.size i := hx1
    set a := A.rnd (x i - p.coord.lower i) with ha
    set b := FL.size A.rnd p.coord i with hb
    have ha0 : 0 ≤ a := rnd_nonneg hr (by linarith)
    have hb0 : 0 < b := fl_size_pos hr hS.box i
    have hae := abs_le.1 (rel_err' hr (x i - p.coord.lower i))
    rw [abs_of_nonneg (a := x i - _) (by linarith)] at hae
    have hbe := abs_le.1 (fl_size_err hr hS.box i)
    have hm : FL.npMod A.rnd a b = a - b * ⌊a / b⌋ := by
      have h1 := fmod_of_nonneg ha0 hb0
      unfold FL.npMod
      simp only
      rw [if_neg]
      · unfold FL.fmod; rw [truncInt_of_nonneg (div_nonneg ha0 hb0.le)]
      · rintro ⟨-, h2⟩
        exact h2 ⟨fun h => absurd h (by linarith), fun h => absurd h (by linarith [h1.1])⟩
    have hm0 := fmod_of_nonneg ha0 hb0
    have hk0 : (0 : ℤ) ≤ ⌊a / b⌋ := Int.floor_nonneg.2 (div_nonneg ha0 hb0.le)
    have hk2 : ⌊a / b⌋ ≤ 2 := by
      have : a / b < 3 := by rw [div_lt_iff₀ hb0]; nlinarith [hae.2, hbe.1]
      have := Int.floor_lt.2 (by exact_mod_cast this : a / b < ((3 : ℤ) : ℝ))
      omega
    set k := ⌊a / b⌋ with hk
    have hk0' : (0 : ℝ) ≤ k := by exact_mod_cast hk0
    have hk2' : (k : ℝ) ≤ 2 := by exact_mod_cast hk2
    have hmr : 0 ≤ a - b * k ∧ a - b * k < b := by
      have h1 := Int.floor_le (a / b)
      have h2 := Int.lt_floor_add_one (a / b)
      rw [le_div_iff₀ hb0] at h1
      rw [div_lt_iff₀ hb0] at h2
      rw [← hk] at h1 h2
      constructor <;> nlinarith
    have hN : FL.normalizePosition A.rnd p.coord x i = A.rnd (a - b * k + p.coord.lower i) := by
      unfold FL.normalizePosition
      rw [if_pos hp, ← ha, ← hb, hm]
    rw [hN]
    have he := rel_err' hr (a - b * k + p.coord.lower i)
    have hab : |a - b * k + p.coord.lower i| ≤ b + |p.coord.lower i| := by
      refine (abs_add_le _ _).trans ?_
      rw [abs_of_nonneg hmr.1]; linarith [hmr.2]
    have he := abs_le.1 (he.trans (mul_le_mul_of_nonneg_left hab hu.le))
    refine (wrap_le hsz _ k).trans ?_
    have hkb1 : (k : ℝ) * (b - p.coord.size i) ≤ 2 * (ulp * p.coord.size i) := by nlinarith [mul_pos hu hsz]
    have hkb2 : -(2 * (ulp * p.coord.size i)) ≤ (k : ℝ) * (b - p.coord.size i) := by nlinarith [mul_pos hu hsz]
    have hb2 : ulp * b ≤ 1.5 * (ulp * p.coord.size i) := by nlinarith [mul_pos hu hsz]
    have hx3 : ulp * (x i - p.coord.lower i) ≤ 2 * (ulp * p.coord.size i) := by nlinarith
    set N := A.rnd (a - b * k + p.coord.lower i) with hNd
    have e1 : N - x i + k * p.coord.size i = (N - (a - b * k + p.coord.lower i)) + (a - (x i - p.coord.lower i)) - k * (b - p.coord.size i) := by ring
    rw [e1]
    have e2 : ulp * (6 * p.coord.size i + |p.coord.lower i|) = 6 * (ulp * p.coord.size i) + ulp * |p.coord.lower i| := by ring
    have e3 : ulp * (b + |p.coord.lower i|) = ulp * b + ulp * |p.coord.lower i| := by ring
    rw [e2, abs_le]
    rw [e3] at he
    have h7 := mul_pos hu hsz
    constructor <;> linarith [he.1, he.2, hae.1, hae.2]

end NF.FL
