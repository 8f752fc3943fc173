import Verif.Lemmas.FloatUnitsCtl
import Verif.Props.Float
import Verif.Model.FloatSetup
import Verif.Lemmas.GraphMap
import Verif.Model.FloatAverage

/-!
# C119: units that differ by powers of two do not matter, even in double precision

C79 says that the choice of units does not matter if one computes with exact numbers.  With rounding this is wrong in general, but it is right for powers of two.
-/

noncomputable section
open Classical

namespace NF
open Spec
variable {d : ℕ}

/-! ## Rounding to nearest, ties to even -/

/-- floats with an even significand -/
def EvenFloat (x : ℝ) : Prop := ∃ m e : ℤ, |2 * m| < 2 ^ 53 ∧ x = ((2 * m : ℤ) : ℝ) * (2 : ℝ) ^ e

theorem isFloat_binary {x : ℝ} (h : IsFloat x) (k : ℤ) : IsFloat ((2 : ℝ) ^ k * x) := by
  obtain ⟨m, e, hm, rfl⟩ := h
  exact ⟨m, k + e, hm, by rw [zpow_add₀ (by norm_num)]; ring⟩

theorem evenFloat_binary {x : ℝ} (h : EvenFloat x) (k : ℤ) : EvenFloat ((2 : ℝ) ^ k * x) := by
  obtain ⟨m, e, hm, rfl⟩ := h
  exact ⟨m, k + e, hm, by rw [zpow_add₀ (by norm_num)]; ring⟩

/-- between two numbers that are as near there is no float, if they are nearest -/
theorem tie_gap {x a b c : ℝ} (hab : |a - x| = |b - x|) (hac : a < c) (hcb : c < b) : |c - x| < |a - x| := by
  have h1 : a - x = -(b - x) := by
    rcases abs_eq_abs.1 hab with h | h
    · linarith
    · exact h
  have h2 : |a - x| = x - a := by rw [abs_sub_comm, abs_of_pos]; linarith
  rw [h2, abs_lt]
  constructor <;> linarith

theorem tie_not_both_even_aux {x a b : ℝ} (hab : a < b) (he : |a - x| = |b - x|) (ha : ∀ g, IsFloat g → |a - x| ≤ |g - x|) {m n e f : ℤ} (hm : |2 * m| < 2 ^ 53) (hn : |2 * n| < 2 ^ 53)
    (hae : a = ((2 * m : ℤ) : ℝ) * (2 : ℝ) ^ e) (hbe : b = ((2 * n : ℤ) : ℝ) * (2 : ℝ) ^ f) : False := by
  rcases le_total e f with hef | hef
  · -- `a + 2 ^ e` is between
    obtain ⟨t, ht⟩ := Int.le.dest hef
    have hb2 : b = ((2 * n * 2 ^ t : ℤ) : ℝ) * (2 : ℝ) ^ e := by
      rw [hbe, ← ht, zpow_add₀ (by norm_num)]; push_cast; rw [zpow_natCast]; ring
    have h1 : 2 * m < 2 * n * 2 ^ t := by
      rw [hae, hb2] at hab
      exact_mod_cast lt_of_mul_lt_mul_right hab (two_zpow_pos e).le
    have h2 : 2 * m + 1 < 2 * n * 2 ^ t := by
      have : 2 * n * 2 ^ t = 2 * (n * 2 ^ t) := by ring
      omega
    have hc : IsFloat (((2 * m + 1 : ℤ) : ℝ) * (2 : ℝ) ^ e) := ⟨2 * m + 1, e, by rw [abs_lt] at hm ⊢; omega, rfl⟩
    refine absurd (ha _ hc) (not_le.2 (tie_gap he ?_ ?_))
    · rw [hae]; exact mul_lt_mul_of_pos_right (by exact_mod_cast Int.lt_succ _) (two_zpow_pos e)
    · rw [hb2]; exact mul_lt_mul_of_pos_right (by exact_mod_cast h2) (two_zpow_pos e)
  · obtain ⟨t, ht⟩ := Int.le.dest hef
    have ha2 : a = ((2 * m * 2 ^ t : ℤ) : ℝ) * (2 : ℝ) ^ f := by
      rw [hae, ← ht, zpow_add₀ (by norm_num)]; push_cast; rw [zpow_natCast]; ring
    have h1 : 2 * m * 2 ^ t < 2 * n := by
      rw [hbe, ha2] at hab
      exact_mod_cast lt_of_mul_lt_mul_right hab (two_zpow_pos f).le
    have h2 : 2 * m * 2 ^ t < 2 * n - 1 := by
      have : 2 * m * 2 ^ t = 2 * (m * 2 ^ t) := by ring
      omega
    have hc : IsFloat (((2 * n - 1 : ℤ) : ℝ) * (2 : ℝ) ^ f) := ⟨2 * n - 1, f, by rw [abs_lt] at hn ⊢; omega, rfl⟩
    refine absurd (ha _ hc) (not_le.2 (tie_gap he ?_ ?_))
    · rw [ha2]; exact mul_lt_mul_of_pos_right (by exact_mod_cast h2) (two_zpow_pos f)
    · rw [hbe]; exact mul_lt_mul_of_pos_right (by exact_mod_cast Int.pred_self_lt _) (two_zpow_pos f)

theorem tie_not_both_even {x a b : ℝ} (hab : a ≠ b) (he : |a - x| = |b - x|) (ha : ∀ g, IsFloat g → |a - x| ≤ |g - x|) (h1 : EvenFloat a) (h2 : EvenFloat b) : False := by
  obtain ⟨m, e, hm, hae⟩ := h1
  obtain ⟨n, f, hn, hbf⟩ := h2
  rcases lt_or_gt_of_ne hab with h | h
  · exact tie_not_both_even_aux h he ha hm hn hae hbf
  · exact tie_not_both_even_aux h he.symm (fun g hg => he ▸ ha g hg) hn hm hbf hae

theorem not_even {m e : ℤ} (hm : |m| < 2 ^ 53) (h : ¬ EvenFloat ((m : ℝ) * (2 : ℝ) ^ e)) : (∃ n, m = 2 * n + 1) ∧ 2 ^ 52 < |m| := by
  have h1 : ∃ n, m = 2 * n + 1 := by
    rcases Int.even_or_odd' m with ⟨n, hn | hn⟩
    · exact absurd ⟨n, e, hn ▸ hm, by rw [hn]⟩ h
    · exact ⟨n, hn⟩
  refine ⟨h1, lt_of_le_of_ne (not_lt.1 fun h2 => h ⟨m, e - 1, ?_, ?_⟩) ?_⟩
  · rw [abs_mul, abs_two]; omega
  · rw [zpow_sub_one₀ (by norm_num)]; push_cast; ring
  · obtain ⟨n, hn⟩ := h1
    intro h3
    rcases abs_cases m with ⟨h4, _⟩ | ⟨h4, _⟩ <;> rw [h4] at h3 <;> omega

theorem tie_one_even_aux {x a b : ℝ} (hab : a ≠ b) (he : |a - x| = |b - x|) (ha : ∀ g, IsFloat g → |a - x| ≤ |g - x|) {m n e f : ℤ} (hm : |m| < 2 ^ 53) (hn : |n| < 2 ^ 53)
    (hae : a = (m : ℝ) * (2 : ℝ) ^ e) (hbf : b = (n : ℝ) * (2 : ℝ) ^ f) (h1 : ¬ EvenFloat a) (h2 : ¬ EvenFloat b) (hef : e ≤ f) : False := by
  obtain ⟨⟨m', hm'⟩, hm2⟩ := not_even hm (hae ▸ h1)
  obtain ⟨⟨n', hn'⟩, hn2⟩ := not_even hn (hbf ▸ h2)
  rcases eq_or_lt_of_le hef with rfl | hlt
  · -- the middle is a float
    have hx : x = (a + b) / 2 := by
      rcases abs_eq_abs.1 he with h | h
      · exact absurd (by linarith) hab
      · linarith
    have hf : IsFloat x := ⟨m' + n' + 1, e, by rw [abs_lt] at hm hn ⊢; omega, by rw [hx, hae, hbf, hm', hn']; push_cast; ring⟩
    have h3 := ha x hf
    rw [sub_self, abs_zero] at h3
    have h4 := abs_eq_zero.1 (le_antisymm h3 (abs_nonneg _))
    have h5 := abs_eq_zero.1 (he.symm.trans (abs_eq_zero.2 h4))
    exact hab (by linarith)
  · have h3 : (2 : ℝ) ^ e * 2 ^ 53 ≤ 2 ^ 52 * 2 ^ f := by
      have : (2 : ℝ) ^ (e + 1) ≤ 2 ^ f := zpow_le_zpow_right₀ (by norm_num) (by omega)
      rw [zpow_add_one₀ (by norm_num)] at this
      linarith
    have h4 : |a| < 2 ^ 52 * 2 ^ f := by
      rw [hae, abs_mul, abs_of_pos (two_zpow_pos e)]
      have : |(m : ℝ)| < 2 ^ 53 := by exact_mod_cast hm
      have := mul_lt_mul_of_pos_right this (two_zpow_pos e)
      linarith
    have hn3 : (2 : ℝ) ^ 52 < |(n : ℝ)| := by exact_mod_cast hn2
    have hc1 : IsFloat ((2 : ℝ) ^ 52 * 2 ^ f) := ⟨2 ^ 52, f, by norm_num, by norm_num⟩
    have hc2 : IsFloat (-((2 : ℝ) ^ 52 * 2 ^ f)) := ⟨-2 ^ 52, f, by norm_num, by norm_num⟩
    rw [abs_lt] at h4
    rcases abs_cases (n : ℝ) with ⟨h5, _⟩ | ⟨h5, _⟩
    · refine absurd (ha _ hc1) (not_le.2 (tie_gap he h4.2 ?_))
      rw [hbf]; exact mul_lt_mul_of_pos_right (h5 ▸ hn3) (two_zpow_pos f)
    · refine absurd (ha _ hc2) (not_le.2 ?_)
      rw [he]
      refine tie_gap he.symm ?_ h4.1
      rw [hbf]
      have := mul_lt_mul_of_pos_right (h5 ▸ hn3) (two_zpow_pos f)
      linarith

theorem tie_one_even {x a b : ℝ} (hab : a ≠ b) (he : |a - x| = |b - x|) (ha : ∀ g, IsFloat g → |a - x| ≤ |g - x|) (hfa : IsFloat a) (hfb : IsFloat b) : EvenFloat a ∨ EvenFloat b := by
  by_contra h
  push Not at h
  obtain ⟨m, e, hm, hae⟩ := hfa
  obtain ⟨n, f, hn, hbf⟩ := hfb
  rcases le_total e f with hef | hef
  · exact tie_one_even_aux hab he ha hm hn hae hbf h.1 h.2 hef
  · exact tie_one_even_aux hab.symm he.symm (fun g hg => he ▸ ha g hg) hn hm hbf hae h.2 h.1 hef

/-- **C119**, IEEE 754: rounding to nearest with ties to even, the default rounding of the processor, commutes with the multiplication by powers of two (as long as there is no overflow and no underflow, which the model does not have). -/
theorem C119_ieee {rnd : ℝ → ℝ} (hr : IsNearest rnd) (ht : TiesToEven rnd) : BinaryRounding rnd := by
  intro k x
  have hk := two_zpow_pos k
  have hinv : ∀ y : ℝ, (2 : ℝ) ^ k * (2 ^ (-k) * y) = y := fun y => by rw [← mul_assoc, ← zpow_add₀ (by norm_num)]; simp
  have habs : ∀ y z : ℝ, |(2 : ℝ) ^ k * y - 2 ^ k * z| = 2 ^ k * |y - z| := fun y z => by rw [← mul_sub, abs_mul, abs_of_pos hk]
  set y := (2 : ℝ) ^ (-k) * rnd (2 ^ k * x) with hy
  have hyr : (2 : ℝ) ^ k * y = rnd (2 ^ k * x) := hinv _
  have hyf : IsFloat y := isFloat_binary (hr _).1 _
  have hyn : ∀ g, IsFloat g → |y - x| ≤ |g - x| := by
    intro g hg
    have := (hr (2 ^ k * x)).2 _ (isFloat_binary hg k)
    rw [← hyr, habs, habs] at this
    exact le_of_mul_le_mul_left this hk
  have hd : |y - x| = |rnd x - x| := le_antisymm (hyn _ (hr x).1) ((hr x).2 y hyf)
  rw [← hyr]
  congr 1
  by_contra hne
  have h1 : EvenFloat (rnd x) := ht x y hyf hne hd
  have h2 : EvenFloat (rnd (2 ^ k * x)) := ht (2 ^ k * x) (2 ^ k * rnd x) (isFloat_binary (hr x).1 k) (fun h => hne (by
    rw [← hyr] at h
    exact (mul_left_cancel₀ hk.ne' h).symm)) (by rw [← hyr, habs, habs, hd])
  exact tie_not_both_even hne hd hyn (evenFloat_binary h2 (-k)) h1

/-- rounding to nearest, ties to even -/
def rndTiesToEven (x : ℝ) : ℝ :=
  if h : ∃ g, IsFloat g ∧ EvenFloat g ∧ ∀ g', IsFloat g' → |g - x| ≤ |g' - x| then h.choose else rnd53 x

theorem rndTiesToEven_nearest : IsNearest rndTiesToEven := by
  intro x
  unfold rndTiesToEven
  split_ifs with h
  · exact ⟨h.choose_spec.1, h.choose_spec.2.2⟩
  · exact C74_rounding_exists x

/-- There is such a rounding. -/
theorem C119_ieee_exists : IsNearest rndTiesToEven ∧ TiesToEven rndTiesToEven := by
  refine ⟨rndTiesToEven_nearest, fun x g hg hne hd => ?_⟩
  have hn := (rndTiesToEven_nearest x).2
  have h : ∃ g, IsFloat g ∧ EvenFloat g ∧ ∀ g', IsFloat g' → |g - x| ≤ |g' - x| := by
    rcases tie_one_even hne hd (fun g' hg' => hd ▸ hn g' hg') hg (rndTiesToEven_nearest x).1 with h | h
    · exact ⟨g, hg, h, fun g' hg' => hd ▸ hn g' hg'⟩
    · exact ⟨_, (rndTiesToEven_nearest x).1, h, hn⟩
  have : rndTiesToEven x = h.choose := by unfold rndTiesToEven; rw [dif_pos h]
  rw [this]
  exact h.choose_spec.2.1

/-- so the hypothesis of the theorems below is met -/
theorem rndTiesToEven_binary : BinaryRounding rndTiesToEven := C119_ieee C119_ieee_exists.1 C119_ieee_exists.2

/-! ## The minimizer -/

/-- **C119**, the minimizer: with all lengths multiplied by `2 ^ k` and all function values by `2 ^ j`, it makes the same calls and returns the same result, bit by bit up to these factors. -/
theorem C119_minimizer {A : FL.Arith d} (hA : BinaryArith A) (k j : ℤ) {P : NMParams} {f f' : ℕ → Vec d → FVal} (hf : (binaryUnits k j : Frame d).SameFunction f f') {s : Sim d} {r : MinRes d}
    {evals : List (Vec d × FVal)} (h : IsFloatMinimization A P f s r evals) :
    IsFloatMinimization A ((binaryUnits k j : Frame d).nm P) f' (fun i => (binaryUnits k j : Frame d).pos (s i)) ((binaryUnits k j : Frame d).minRes r) ((binaryUnits k j : Frame d).evals evals) := by
  obtain ⟨a, ha, rfl, rfl⟩ := h
  exact ⟨(binaryUnits k j : Frame d).argsort a, frame_isArgsort _ ha, (bin_root k j hA P a hf s).symm, by
    have := congrArg (fun t => t.tr.evals) (bin_run k j hA P a hf s)
    exact this.symm⟩

/-- **C119**, `run_minimization`, with or without a fake potential. -/
theorem C119_two_step {A : FL.Arith d} (hA : BinaryArith A) (k j : ℤ) {P : NMParams} {f f' : ℕ → Vec d → FVal} (hf : (binaryUnits k j : Frame d).SameFunction f f')
    {fake fake' : Option (ℕ → Vec d → FVal)} (hfake : (fake = none ∧ fake' = none) ∨ ∃ g g', fake = some g ∧ fake' = some g' ∧ (binaryUnits k j : Frame d).SameFunction g g') {s : Sim d} {r : SRes d}
    (h : IsFloatTwoStep A P f fake s r) :
    IsFloatTwoStep A ((binaryUnits k j : Frame d).nm P) f' fake' (fun i => (binaryUnits k j : Frame d).pos (s i)) ((binaryUnits k j : Frame d).sres r) := by
  obtain ⟨a, ha, rfl⟩ := h
  exact ⟨(binaryUnits k j : Frame d).argsort a, frame_isArgsort _ ha, (bin_runMinimization k j hA P a hf hfake s).symm⟩

/-! ## Positions and distances -/

section positions

variable {rnd : ℝ → ℝ} (hr : BinaryRounding rnd) (k : ℤ)
include hr

/-- **C119**, positions: normalized positions are the same in the new unit, and so is the place in the box. -/
theorem C119_normalize (cs : CoordSys d) (x : Vec d) :
    (FL.normalizePosition rnd (binaryCoord k cs) fun i => 2 ^ k * x i) = (fun i => 2 ^ k * FL.normalizePosition rnd cs x i) ∧
      FL.getFrac rnd (binaryCoord k cs) (fun i => 2 ^ k * x i) = FL.getFrac rnd cs x := ⟨bin_normalize hr k cs x, bin_frac hr k cs x⟩

theorem bin_distDelta (cs : CoordSys d) (x y : Vec d) (i : Fin d) :
    FL.distDelta rnd (binaryCoord k cs) (fun i => 2 ^ k * x i) (fun i => 2 ^ k * y i) i = 2 ^ k * FL.distDelta rnd cs x y i := by
  unfold FL.distDelta
  rw [bin_size hr k]
  simp only [binaryCoord]
  rw [bin_rnd_sub k hr, bin_npMod hr k, bin_rnd_sub k hr, ← mul_min_of_nonneg _ _ (two_zpow_pos k).le]
  by_cases hp : cs.periodic = true <;> simp [hp]

theorem bin_rndSum {l : List ℝ} {s : ℝ} (h : FL.RndSum rnd l s) : FL.RndSum rnd (l.map fun x => 2 ^ k * x) (2 ^ k * s) := by
  induction h with
  | nil => simpa using FL.RndSum.nil
  | one x => exact .one _
  | add h1 h2 _ _ ih1 ih2 =>
    rw [List.map_append, ← bin_rnd_add k hr]
    exact .add (by simpa using h1) (by simpa using h2) ih1 ih2
  | perm _ hp ih => exact .perm ih (hp.map _)

theorem bin_distance {cs : CoordSys d} {x y : Vec d} {v : ℝ} (h : FL.Distance rnd cs x y v) :
    FL.Distance rnd (binaryCoord k cs) (fun i => 2 ^ k * x i) (fun i => 2 ^ k * y i) (2 ^ k * v) := by
  obtain ⟨s, hs, rfl⟩ := h
  refine ⟨2 ^ (2 * k) * s, ?_, ?_⟩
  · have h1 := bin_rndSum hr (2 * k) hs
    rw [List.map_ofFn] at h1
    convert h1 using 3 with i
    simp only [Function.comp]
    rw [bin_distDelta hr k, mul_pow, ← zpow_natCast ((2 : ℝ) ^ k) 2, ← zpow_mul, mul_comm k, ← hr]
    rfl
  · rw [Real.sqrt_mul (two_zpow_pos _).le, mul_comm 2 k, zpow_mul, ← hr]
    congr 2
    exact (Real.sqrt_sq (two_zpow_pos k).le).symm

omit hr in
theorem binaryCoord_inv (cs : CoordSys d) : binaryCoord (-k) (binaryCoord k cs) = cs := by
  have hinv : ∀ y : ℝ, (2 : ℝ) ^ (-k) * (2 ^ k * y) = y := fun y => by rw [← mul_assoc, ← zpow_add₀ (by norm_num)]; simp
  simp only [binaryCoord, hinv]

/-- **C119**, distances: the distances that `CoordinateSystem.distance` can compute in the new unit are those that it can compute in the old one. -/
theorem C119_distance {cs : CoordSys d} {x y : Vec d} {v : ℝ} :
    FL.Distance rnd (binaryCoord k cs) (fun i => 2 ^ k * x i) (fun i => 2 ^ k * y i) (2 ^ k * v) ↔ FL.Distance rnd cs x y v := by
  have hinv : ∀ y : ℝ, (2 : ℝ) ^ (-k) * (2 ^ k * y) = y := fun y => by rw [← mul_assoc, ← zpow_add₀ (by norm_num)]; simp
  refine ⟨fun h => ?_, bin_distance hr k⟩
  have h1 := bin_distance hr (-k) h
  rw [binaryCoord_inv] at h1
  simpa only [hinv] using h1

omit hr in
theorem bin_clusterEdges {dist dist' : Vec d → Vec d → ℝ} (hd : ∀ x y, dist' (fun i => 2 ^ k * x i) (fun i => 2 ^ k * y i) = 2 ^ k * dist x y) (fs : ℝ) (l : List (Vec d)) :
    FL.clusterEdges dist' (2 ^ k * fs) (l.map fun x i => 2 ^ k * x i) =
      (FL.clusterEdges dist fs l).map fun e => (fun i => 2 ^ k * e.1 i, fun i => 2 ^ k * e.2.1 i, 2 ^ k * e.2.2) := by
  induction l with
  | nil => rfl
  | cons x l ih =>
    simp only [FL.clusterEdges, List.map_cons, List.map_append, ih, List.filter_map, List.map_map]
    have h1 : ((fun nbr => decide (dist' (fun i => 2 ^ k * x i) nbr ≤ 2 ^ k * fs)) ∘ fun (x : Vec d) i => 2 ^ k * x i) = fun nbr => decide (dist x nbr ≤ fs) := by
      funext nbr
      simp only [Function.comp, hd]
      exact decide_eq_decide.2 (mul_le_mul_iff_of_pos_left (two_zpow_pos k))
    rw [h1]
    congr 2
    funext nbr
    simp only [Function.comp, hd]

omit hr in
/-- **C119**, clusters: in the new unit, `create_clusters` finds the same clusters, with the same graphs, if the computed distances are the same in the new unit (as `C119_distance` says). -/
theorem C119_clusters {dist dist' : Vec d → Vec d → ℝ} (hd : ∀ x y, dist' (fun i => 2 ^ k * x i) (fun i => 2 ^ k * y i) = 2 ^ k * dist x y) (fs : ℝ) (l : List (Vec d)) :
    FL.createClusters dist' (2 ^ k * fs) (l.map fun x i => 2 ^ k * x i) =
      (FL.createClusters dist fs l).map fun g => ⟨g.nodes.map fun x i => 2 ^ k * x i, g.edges.map fun e => (fun i => 2 ^ k * e.1 i, fun i => 2 ^ k * e.2.1 i, 2 ^ k * e.2.2)⟩ := by
  have hinj : Function.Injective fun (x : Vec d) i => (2 : ℝ) ^ k * x i := fun x y h => funext fun i => mul_left_cancel₀ (two_zpow_pos k).ne' (congrFun h i)
  have hg : (⟨l.map fun x i => 2 ^ k * x i, FL.clusterEdges dist' (2 ^ k * fs) (l.map fun x i => 2 ^ k * x i)⟩ : NxGraph (Vec d) ℝ) =
      NxGraph.map (fun (x : Vec d) i => (2 : ℝ) ^ k * x i) (fun v => 2 ^ k * v) ⟨l, FL.clusterEdges dist fs l⟩ := by
    rw [bin_clusterEdges k hd]
    rfl
  unfold FL.createClusters
  simp only
  rw [hg, NxGraph.connectedComponents_map hinj, List.map_map, List.map_map]
  refine List.map_congr_left fun c _ => ?_
  simp only [Function.comp]
  exact NxGraph.subgraph_map _ _ fun x => NxGraph.mem_map_iff hinj

/-- **C119**, the vectors between positions, from which dimensions and lines are computed. -/
theorem C119_connecting_vector (cs : CoordSys d) (x y : Vec d) (i : Fin d) :
    FL.connectingVector rnd (binaryCoord k cs) (fun i => 2 ^ k * x i) (fun i => 2 ^ k * y i) i = 2 ^ k * FL.connectingVector rnd cs x y i := by
  have hk := two_zpow_pos k
  unfold FL.connectingVector
  rw [bin_size hr k]
  simp only [binaryCoord]
  rw [bin_rnd_sub k hr, bin_npMod hr k, bin_rnd_sub k hr]
  have hlt : ∀ y z : ℝ, -((2 : ℝ) ^ k * y) < 2 ^ k * z ↔ -y < z := fun y z => by rw [← mul_neg, mul_lt_mul_iff_of_pos_left hk]
  simp only [hlt]
  by_cases hp : cs.periodic = true <;> simp [hp]

theorem bin_mean {l : List (Vec d)} {a : Vec d} (h : FL.Mean rnd l a) : FL.Mean rnd (l.map fun x i => 2 ^ k * x i) fun i => 2 ^ k * a i := by
  intro i
  obtain ⟨s, hs, ha⟩ := h i
  have h1 := bin_rndSum hr k hs
  refine ⟨2 ^ k * s, ?_, ?_⟩
  · simpa [List.map_map, Function.comp_def] using h1
  · change 2 ^ k * a i = _
    rw [ha, List.length_map, bin_rnd_div k hr]

/-- **C119**, points: if the assertions of `connecting_vector` (their tolerance does not depend on the unit) hold in the new unit, what `average` can return for a cluster, and so the position of its `NodalPoint`, is converted.
Without periodic boundaries there are no assertions. -/
theorem C119_point {cs : CoordSys d} {l : List (Vec d)} {a : Vec d} (h : FL.EvaluatePoint rnd cs l (.ok a))
    (hok : cs.periodic = true → ∀ x ∈ l, ∀ y ∈ l, ∃ v, FL.Connecting rnd (binaryCoord k cs) (fun i => 2 ^ k * x i) (fun i => 2 ^ k * y i) (.ok v)) :
    FL.EvaluatePoint rnd (binaryCoord k cs) (l.map fun x i => 2 ^ k * x i) (.ok fun i => 2 ^ k * a i) := by
  unfold FL.EvaluatePoint at *
  cases h with
  | plain hp hm => exact .plain hp (bin_mean hr k hm)
  | @periodic origin rest deltas a hp hd hm =>
    have hb : (fun i => 2 ^ k * FL.npMod rnd (rnd (origin i + a i)) (FL.size rnd cs i)) =
        fun i => FL.npMod rnd (rnd (2 ^ k * origin i + 2 ^ k * a i)) (FL.size rnd (binaryCoord k cs) i) := by
      funext i
      rw [bin_size hr k, bin_rnd_add k hr, bin_npMod hr k]
    rw [hb]
    refine .periodic (c := binaryCoord k cs) (origin := fun i => 2 ^ k * origin i) (rest := rest.map fun x i => 2 ^ k * x i) hp ?_ (bin_mean hr k hm)
    change List.Forall₂ _ ((origin :: rest).map fun x i => 2 ^ k * x i) _
    rw [List.forall₂_map_left_iff, List.forall₂_map_right_iff]
    have hmem : ∀ (l' : List (Vec d)) (ds : List (Vec d)), (∀ x ∈ l', x ∈ origin :: rest) → List.Forall₂ (fun pos delta => FL.Connecting rnd cs origin pos (.ok delta)) l' ds →
        List.Forall₂ (fun pos delta => FL.Connecting rnd (binaryCoord k cs) (fun i => 2 ^ k * origin i) (fun i => 2 ^ k * pos i) (.ok fun i => 2 ^ k * delta i)) l' ds := by
      intro l' ds hl hf
      induction hf with
      | nil => exact .nil
      | @cons x y _ _ hx _ ih =>
        refine .cons ?_ (ih fun z hz => hl z (List.mem_cons_of_mem _ hz))
        have hy : y = FL.connectingVector rnd cs origin x := by cases hx <;> rfl
        obtain ⟨v, hv⟩ := hok hp origin (List.mem_cons_self ..) x (hl x (List.mem_cons_self ..))
        have hv' : v = fun i => 2 ^ k * y i := by
          have : v = FL.connectingVector rnd (binaryCoord k cs) (fun i => 2 ^ k * origin i) (fun i => 2 ^ k * x i) := by cases hv <;> rfl
          rw [this, hy]
          funext i
          exact C119_connecting_vector hr k cs origin x i
        rwa [← hv']
    exact hmem _ _ (fun _ h => h) hd

end positions

/-! ## The search -/

section search
variable {A : FL.CtlArith d} (hA : BinaryCtlArith A) (k j : ℤ)

local notation "𝓊" => (searchUnits k j : Units d)

include hA in
theorem su_step {p : CtlParams d} {Res Res' : Simplex d → SRes d → Prop} (hR : ∀ s r, Res s r → Res' ((𝓊).simplex s) ((𝓊).frame.sres r)) {c c' : Ctl d} (h : FL.Step A p Res c c') :
    FL.Step A ((𝓊).params p) Res' ((𝓊).ctl c) ((𝓊).ctl c') := by
  have hf : ∀ c : Ctl d, c.failed = [] → ((𝓊).ctl c).failed = [] := fun c h => by simp [Units.ctl, h]
  have hfill : ∀ {c : Ctl d} {e : Option Err} {c' : Ctl d}, FL.fill A p c = (e, c') → FL.fill A ((𝓊).params p) ((𝓊).ctl c) = (e, (𝓊).ctl c') := fun {c e c'} h => by rw [su_fill hA, h]
  have htask : ∀ {c : Ctl d} {s : Simplex d}, s ∈ c.tasks → (𝓊).simplex s ∈ ((𝓊).ctl c).tasks := fun h => List.mem_map_of_mem h
  cases h with
  | tickRaise s e enum h1 h2 h3 =>
    have := FL.Step.tickRaise (A := A) (p := (𝓊).params p) (Res := Res') ((𝓊).ctl c) ((𝓊).simplex s) e _ h1 (List.mem_map.2 ⟨(s, e), h2, rfl⟩) (units_enum (𝓊) c h3)
    rwa [units_doSave] at this
  | tickReturn enum h1 h2 h3 h4 =>
    have := FL.Step.tickReturn (A := A) (p := (𝓊).params p) (Res := Res') ((𝓊).ctl c) _ h1 (hf c h2) (fun h => h3 ((units_loop (𝓊) c).1 h)) (units_enum (𝓊) c h4)
    rwa [units_doSave] at this
  | tickFill _ h1 h2 h3 h4 => exact .tickFill _ _ h1 (hf c h2) ((units_loop (𝓊) c).2 h3) (hfill h4)
  | tickFillRaise c' e enum h1 h2 h3 h4 h5 =>
    have := FL.Step.tickFillRaise (A := A) (p := (𝓊).params p) (Res := Res') ((𝓊).ctl c) ((𝓊).ctl c') e _ h1 (hf c h2) ((units_loop (𝓊) c).2 h3) (hfill h4) (units_enum (𝓊) c' h5)
    rwa [units_doSave] at this
  | exitSaveFail h1 h2 h3 =>
    exact .exitSaveFail ((𝓊).ctl c) h1 (h2.imp (fun h => by simpa [Units.ctl] using h) fun h h' => h ((units_loop (𝓊) c).1 h')) h3
  | fillRaiseSaveFail c' e h1 h2 h3 h4 h5 =>
    exact .fillRaiseSaveFail ((𝓊).ctl c) ((𝓊).ctl c') e h1 (hf c h2) ((units_loop (𝓊) c).2 h3) (hfill h4) h5
  | done s r h1 h2 h3 h4 =>
    rw [← su_taskDone hA]
    exact .done _ _ _ h1 (htask h2) (units_sres_none (𝓊).frame h3) (hR s r h4)
  | fail s id h1 h2 =>
    rw [← units_taskFail]
    exact .fail _ _ id h1 (htask h2)
  | save enum h1 h2 =>
    rw [← units_doSave]
    exact .save _ _ h1 (units_enum (𝓊) c h2)
  | saveFail h1 h2 => exact .saveFail _ h1 h2

include hA in
theorem su_reach {p : CtlParams d} {Res Res' : Simplex d → SRes d → Prop} (hR : ∀ s r, Res s r → Res' ((𝓊).simplex s) ((𝓊).frame.sres r)) {n : ℕ} {c : Ctl d} (h : FL.Reach A p Res n c) :
    FL.Reach A ((𝓊).params p) Res' n ((𝓊).ctl c) := by
  induction h with
  | start h =>
    have := su_startFrom hA k j p none none
    rw [h] at this
    exact .start this
  | step _ hs ih => exact .step ih (su_step hA k j hR hs)
  | @crash _ c c' _ hs ih =>
    have := su_startFrom hA k j p c.disk c.disk
    rw [hs] at this
    exact .crash ih this

/-- A minimization of the gap function in other units. -/
theorem su_minimizationOf {B : FL.Arith d} (hB : BinaryArith B) {P : NMParams} {G : Vec d → FVal → Prop} {s : Simplex d} {r : SRes d} (h : ArithMinimizationOf B P G s r) :
    ArithMinimizationOf B ((𝓊).frame.nm P) ((𝓊).frame.gap G) ((𝓊).simplex s) ((𝓊).frame.sres r) := by
  obtain ⟨f, fake, sim0, hG, rfl, hr⟩ := h
  have hk := (two_zpow_pos k).ne'
  have hsurj : Function.Surjective (𝓊).frame.pos := by
    intro y
    refine ⟨fun l => y l / 2 ^ k, ?_⟩
    rw [units_pos_eq, su_pos]
    funext l
    exact mul_div_cancel₀ _ hk
  have hex : ∀ g : ℕ → Vec d → FVal, ∃ g', (𝓊).frame.SameFunction g g' := fun g =>
    ⟨fun n y => (𝓊).frame.val (g n (Function.surjInv hsurj y)), fun n x => by
      have : Function.surjInv hsurj ((𝓊).frame.pos x) = x := frame_pos_inj (𝓊).frame (Function.surjInv_eq hsurj _)
      simp only [this]⟩
  obtain ⟨f', hf'⟩ := hex f
  have hG' : ∀ n y, (𝓊).frame.gap G y (f' n y) := by
    intro n y
    obtain ⟨x, rfl⟩ := hsurj y
    rw [hf' n x]
    exact ⟨x, _, rfl, rfl, hG n x⟩
  have hs : (𝓊).simplex (List.ofFn sim0) = List.ofFn fun i => (𝓊).frame.pos (sim0 i) := by
    unfold Units.simplex
    rw [List.map_ofFn]
    congr 1
    funext i
    exact (units_pos_eq (𝓊) _).symm
  cases fake with
  | none => exact ⟨f', none, _, hG', hs, C119_two_step hB k j hf' (.inl ⟨rfl, rfl⟩) hr⟩
  | some g =>
    obtain ⟨g', hg'⟩ := hex g
    exact ⟨f', some g', _, hG', hs, C119_two_step hB k j hf' (.inr ⟨g, g', rfl, rfl, hg'⟩) hr⟩

include hA in
/-- **C119**, the search: with limits, mesh, refinement stencil, `feature_size`, `gap_threshold`, options and gap function in units that differ by powers of two, exactly the same things can happen in double precision, in the other units, with all crashes and restarts. -/
theorem C119_search {B : FL.Arith d} (hB : BinaryArith B) {p : CtlParams d} {P : NMParams} {G : Vec d → FVal → Prop} {n : ℕ} {c' : Ctl d} :
    FL.Reach A ((𝓊).params p) (ArithMinimizationOf B ((𝓊).frame.nm P) ((𝓊).frame.gap G)) n c' ↔ ∃ c, c' = (𝓊).ctl c ∧ FL.Reach A p (ArithMinimizationOf B P G) n c := by
  refine ⟨fun h => ⟨(𝓊).inv.ctl c', ?_, ?_⟩, ?_⟩
  · have := units_inv_ctl (𝓊).inv c'
    rw [units_inv_inv] at this
    exact this.symm
  · have h1 := su_reach hA (-k) (-j) (fun s r => su_minimizationOf (-k) (-j) hB (s := s) (r := r)) h
    rw [← su_inv k j] at h1
    rwa [units_inv_params, units_inv_nm, units_inv_gap] at h1
  · rintro ⟨c, rfl, h⟩
    exact su_reach hA k j (fun s r => su_minimizationOf k j hB) h

/-- **C119**, what the user sees: the same nodes in the same order, with the same values, in the new units, and the search is over, or has raised an exception, if the other one has. -/
theorem C119_nodes (c : Ctl d) :
    ((𝓊).ctl c).state.result.nodes.values.map (fun n => (n.pos, n.value)) = c.state.result.nodes.values.map (fun n => ((fun i => 2 ^ k * n.pos i), (𝓊).frame.val n.value)) ∧
      ((𝓊).ctl c).phase = c.phase := by
  refine ⟨?_, rfl⟩
  change (c.state.result.nodes.values.map (𝓊).frame.sres).map _ = _
  rw [List.map_map]
  congr 1
  funext n
  simp only [Function.comp_apply, units_sres_pos, units_sres_value, su_pos]

end search

/-! ## The arguments of a search -/

section setup
variable {rnd : ℝ → ℝ} (hr : BinaryRounding rnd) (k j : ℤ)

local notation "𝓊" => (searchUnits k j : Units d)

include hr

theorem bin_linspace (l r : ℝ) (m : ℕ) (b : Bool) : FL.linspace rnd (2 ^ k * l) (2 ^ k * r) m b = (FL.linspace rnd l r m b).map fun x => 2 ^ k * x := by
  unfold FL.linspace
  rw [List.map_map]
  congr 1
  funext i
  simp only [Function.comp_apply]
  split_ifs <;> first | rfl | rw [bin_rnd_sub k hr, bin_rnd_div k hr, bin_rnd_mul k hr, bin_rnd_add k hr]

theorem bin_mesh (cs : CoordSys d) (m : Fin d → ℕ) : FL.initialSimplices rnd ((𝓊).coord cs) m = (FL.initialSimplices rnd cs m).map (𝓊).simplex := by
  unfold FL.initialSimplices FL.generateMeshSimplices
  rw [su_coord]
  have h1 : FL.meshVertices rnd (binaryCoord k cs).lower (binaryCoord k cs).upper m (binaryCoord k cs).periodic false =
      (FL.meshVertices rnd cs.lower cs.upper m cs.periodic false).map fun v i => 2 ^ k * v i := by
    unfold FL.meshVertices
    simp only [Bool.false_eq_true, if_false]
    have : (fun i => FL.linspace rnd ((binaryCoord k cs).lower i) ((binaryCoord k cs).upper i) (m i) (!(binaryCoord k cs).periodic)) =
        fun i => (FL.linspace rnd (cs.lower i) (cs.upper i) (m i) (!cs.periodic)).map fun x => 2 ^ k * x := by
      funext i
      exact bin_linspace hr k _ _ _ _
    rw [this, productList_map fun _ x => (2 : ℝ) ^ k * x]
  rw [h1, List.map_map, List.map_map]
  congr 1
  funext v
  simp only [Function.comp_apply, FL.meshSimplex, Units.simplex, List.map_ofFn]
  congr 1
  funext i
  simp only [Function.comp_apply, su_pos]
  funext l
  have h2 : FL.simplexStencil rnd (binaryCoord k cs).lower (binaryCoord k cs).upper m i l = 2 ^ k * FL.simplexStencil rnd cs.lower cs.upper m i l := by
    unfold FL.simplexStencil
    refine Fin.cases ?_ (fun i => ?_) i
    · simp
    · simp only [Fin.cons_succ, Pi.single_apply]
      split
      · simp only [binaryCoord]
        rw [bin_rnd_sub k hr, bin_rnd_div k hr]
      · simp
  rw [h2, bin_rnd_add k hr]

theorem bin_stencil (auto : List (Simplex d)) (dc : ℝ) (s : StencilArg d) :
    FL.stencilOf rnd auto (2 ^ k * dc) s = (FL.stencilOf rnd auto dc s).map fun st => st.map fun s => s.map fun v l => (2 : ℝ) ^ k * v l := by
  have h : ∀ st : List (Simplex d), FL.scaleStencil rnd st (2 ^ k * dc) = (FL.scaleStencil rnd st dc).map fun s => s.map fun v l => (2 : ℝ) ^ k * v l := by
    intro st
    unfold FL.scaleStencil
    simp only [List.map_map]
    congr 1
    funext s
    simp only [Function.comp_apply, List.map_map]
    congr 1
    funext v
    funext l
    simp only [Function.comp_apply]
    rw [bin_rnd_mul k hr]
  cases s <;> simp [FL.stencilOf, h]

theorem bin_nmParams (kw : NMKwargs) (g dc : ℝ) :
    FL.nmParamsOf rnd { kw with
      xtol := kw.xtol.map fun x => (𝓊).scale * x
      ftol := kw.ftol.map (𝓊).frame.val
      fprimeCutoff := kw.fprimeCutoff.map fun o => o.map fun c => (𝓊).energy / (𝓊).scale * c } (2 ^ j * g) (2 ^ k * dc) = (𝓊).frame.nm (FL.nmParamsOf rnd kw g dc) := by
  unfold FL.nmParamsOf Frame.nm
  simp only [NMParams.mk.injEq, true_and, and_true]
  refine ⟨?_, ?_, ?_⟩
  · cases kw.xtol
    · simp only [Option.map_none, Option.getD_none]
      exact bin_rnd_mul k hr _ _
    · rfl
  · cases kw.ftol
    · simp only [Option.map_none, Option.getD_none]
      rw [frame_val_real, bin_rnd_mul j hr]
      rfl
    · rfl
  · cases kw.fprimeCutoff <;> rfl

/-- **C119**, the arguments: `Controller.__init__` with the converted arguments gives the converted parameters, mesh, stencil and options, or the same exception. -/
theorem C119_setup (auto : List (Simplex d)) (a : SearchArgs d) : FL.setup rnd auto ((𝓊).args a) = (FL.setup rnd auto a).map fun t => ((𝓊).params t.1, (𝓊).frame.nm t.2) := by
  have hl : checkDimensions (List.ofFn ((𝓊).args a).limits) ((𝓊).args a).initialMeshSize = checkDimensions (List.ofFn a.limits) a.initialMeshSize := by
    unfold checkDimensions
    simp only [List.length_ofFn]
    rfl
  have hc : CoordSys.ofLimits ((𝓊).args a).limits ((𝓊).args a).periodic = (𝓊).coord (CoordSys.ofLimits a.limits a.periodic) := units_ofLimits (𝓊) a.limits a.periodic
  have hd : rnd (((𝓊).args a).featureSize / 3) = 2 ^ k * rnd (a.featureSize / 3) := bin_rnd_div k hr _ _
  unfold FL.setup
  simp only [hl, hc, hd]
  rcases checkDimensions (List.ofFn a.limits) a.initialMeshSize with e | ⟨n, m⟩
  · rfl
  · simp only
    split_ifs
    · rfl
    · simp only [Except.map, Except.ok.injEq, Prod.mk.injEq]
      constructor
      · simp only [Units.params, bin_mesh hr, bin_stencil hr, CtlParams.mk.injEq]
        exact ⟨trivial, rfl, rfl, rfl, rfl, rfl, rfl, rfl, rfl, trivial, rfl⟩
      · exact bin_nmParams hr k j a.nelderMead _ _

end setup

/-! ## The hypotheses are met -/

namespace C119Demo

/-- the sum of two numbers -/
def arith : FL.Arith 2 := ⟨rndTiesToEven, fun v => rndTiesToEven (v 0 + v 1), fun v => rndTiesToEven (v 0 + v 1)⟩

theorem binary : BinaryArith arith := ⟨rndTiesToEven_binary, fun k _ => bin_rnd_add k rndTiesToEven_binary _ _, fun k _ => bin_rnd_add k rndTiesToEven_binary _ _⟩

theorem valid : arith.Valid := by
  have h : ∀ v : Fin 2 → ℝ, FL.RndSum rndTiesToEven (List.ofFn v) (rndTiesToEven (v 0 + v 1)) := fun v => by
    rw [List.ofFn_succ, List.ofFn_succ, List.ofFn_zero]
    exact .add (l := [v 0]) (by simp) (by simp) (.one _) (.one _)
  exact ⟨h, h⟩

/-- a valley that is not symmetric, in old units -/
def f (_ : ℕ) (x : Vec 2) : FVal := FVal.ofReal (rndTiesToEven (x 0 ^ 2 + |x 1| / 3))
/-- the same in the new units: nanometres are about `2 ^ 30` to the metre, and the unit of the gap is divided by `4` -/
def f' (_ : ℕ) (x : Vec 2) : FVal := FVal.ofReal (2 ^ (2 : ℤ) * rndTiesToEven ((2 ^ (-30 : ℤ) * x 0) ^ 2 + |2 ^ (-30 : ℤ) * x 1| / 3))

theorem same : (binaryUnits 30 2 : Frame 2).SameFunction f f' := by
  intro n x
  have hinv : ∀ y : ℝ, (2 : ℝ) ^ (-30 : ℤ) * (2 ^ (30 : ℤ) * y) = y := fun y => by rw [← mul_assoc, ← zpow_add₀ (by norm_num)]; simp
  rw [bin_pos]
  unfold f f'
  rw [frame_val_real, bin_energy]
  simp only [hinv]

/-- the distance in one dimension -/
def ctl1 : FL.CtlArith 1 := ⟨rndTiesToEven, fun cs x y => rndTiesToEven (Real.sqrt (rndTiesToEven (FL.distDelta rndTiesToEven cs x y 0 ^ 2)))⟩

theorem ctl1_binary : BinaryCtlArith ctl1 := by
  refine ⟨rndTiesToEven_binary, fun k cs x y => ?_⟩
  have hr := rndTiesToEven_binary
  change rndTiesToEven (Real.sqrt (rndTiesToEven (FL.distDelta rndTiesToEven _ _ _ 0 ^ 2))) = 2 ^ k * rndTiesToEven (Real.sqrt (rndTiesToEven (FL.distDelta rndTiesToEven cs x y 0 ^ 2)))
  rw [bin_distDelta hr k, mul_pow, ← zpow_natCast ((2 : ℝ) ^ k) 2, ← zpow_mul, mul_comm k]
  have h1 := hr (2 * k) (FL.distDelta rndTiesToEven cs x y 0 ^ 2)
  have h2 : (((2 : ℕ) : ℤ) * k) = 2 * k := rfl
  rw [h2, h1, Real.sqrt_mul (two_zpow_pos _).le, mul_comm 2 k, zpow_mul, ← hr]
  congr 2
  exact Real.sqrt_sq (two_zpow_pos k).le

/-- it is a distance that `CoordinateSystem.distance` can compute -/
theorem ctl1_distance (cs : CoordSys 1) (x y : Vec 1) : FL.Distance ctl1.rnd cs x y (ctl1.dist cs x y) :=
  ⟨_, by rw [List.ofFn_succ, List.ofFn_zero]; exact .one _, rfl⟩

/-- the sum of one number -/
def arith1 : FL.Arith 1 := ⟨rndTiesToEven, fun v => v 0, fun v => v 0⟩

theorem arith1_binary : BinaryArith arith1 := ⟨rndTiesToEven_binary, fun _ _ => rfl, fun _ _ => rfl⟩

theorem arith1_valid : arith1.Valid := by
  have h : ∀ v : Fin 1 → ℝ, FL.RndSum rndTiesToEven (List.ofFn v) (v 0) := fun v => by
    rw [List.ofFn_succ, List.ofFn_zero]
    exact .one _
  exact ⟨h, h⟩

end C119Demo

/-- The start of a search, in metres and in (about) nanometres. -/
example (p : CtlParams 1) (P : NMParams) (G : Vec 1 → FVal → Prop) : ∃ c, FL.Reach C119Demo.ctl1 p (ArithMinimizationOf C119Demo.arith1 P G) 0 c ∧
    FL.Reach C119Demo.ctl1 ((searchUnits 30 2).params p) (ArithMinimizationOf C119Demo.arith1 ((searchUnits 30 2 : Units 1).frame.nm P) ((searchUnits 30 2 : Units 1).frame.gap G)) 0 ((searchUnits 30 2).ctl c) :=
  ⟨_, .start rfl, (C119_search C119Demo.ctl1_binary 30 2 C119Demo.arith1_binary).2 ⟨_, rfl, .start rfl⟩⟩

example (P : NMParams) (s : Sim 2) : ∃ r evals, IsFloatMinimization C119Demo.arith P C119Demo.f s r evals ∧
    IsFloatMinimization C119Demo.arith ((binaryUnits 30 2 : Frame 2).nm P) C119Demo.f' (fun i => (binaryUnits 30 2 : Frame 2).pos (s i)) ((binaryUnits 30 2 : Frame 2).minRes r)
      ((binaryUnits 30 2 : Frame 2).evals evals) := by
  have h : IsFloatMinimization C119Demo.arith P C119Demo.f s (FL.rootNelderMead C119Demo.arith P Tuple.sort C119Demo.f s) (FL.nmRun C119Demo.arith P Tuple.sort C119Demo.f s).tr.evals :=
    ⟨_, fun v => Tuple.monotone_sort v, rfl, rfl⟩
  exact ⟨_, _, h, C119_minimizer C119Demo.binary 30 2 C119Demo.same h⟩

/-- A cluster of two positions in a box without periodic boundaries, in metres and in (about) nanometres. -/
example (lo up x y : Vec 2) : FL.EvaluatePoint rndTiesToEven (binaryCoord 30 ⟨lo, up, false⟩) [fun i => 2 ^ (30 : ℤ) * x i, fun i => 2 ^ (30 : ℤ) * y i]
    (.ok fun i => 2 ^ (30 : ℤ) * rndTiesToEven (rndTiesToEven (x i + y i) / 2)) := by
  refine C119_point (l := [x, y]) rndTiesToEven_binary 30 (.plain rfl fun i => ⟨_, .add (l := [x i]) (l' := [y i]) (by simp) (by simp) (.one _) (.one _), ?_⟩) fun h => by cases h
  simp

end NF
