import Verif.Spec.Lattice
import Mathlib.Analysis.InnerProductSpace.PiL2

/-! # Helper lemmas about the coordinate system -/

noncomputable section
namespace NF
open Spec
variable {d : ℕ}

/-! ## `pmod` -/

theorem pmod_nonneg {s : ℝ} (hs : 0 < s) (x : ℝ) : 0 ≤ pmod x s := by
  unfold pmod
  have h : ((⌊x / s⌋ : ℤ) : ℝ) ≤ x / s := Int.floor_le _
  have : s * (⌊x / s⌋ : ℤ) ≤ s * (x / s) := mul_le_mul_of_nonneg_left h hs.le
  rw [mul_div_cancel₀ _ hs.ne'] at this
  linarith

theorem pmod_lt {s : ℝ} (hs : 0 < s) (x : ℝ) : pmod x s < s := by
  unfold pmod
  have h : x / s < (⌊x / s⌋ : ℤ) + 1 := Int.lt_floor_add_one _
  have : s * (x / s) < s * ((⌊x / s⌋ : ℤ) + 1) := mul_lt_mul_of_pos_left h hs
  rw [mul_div_cancel₀ _ hs.ne'] at this
  linarith

theorem pmod_add_int_mul {s : ℝ} (hs : 0 < s) (x : ℝ) (k : ℤ) : pmod (x + k * s) s = pmod x s := by
  unfold pmod
  have : (x + k * s) / s = x / s + k := by field_simp
  rw [this, Int.floor_add_intCast]
  push_cast
  ring

theorem pmod_exists (x s : ℝ) : ∃ k : ℤ, pmod x s = x + k * s :=
  ⟨-⌊x / s⌋, by unfold pmod; push_cast; ring⟩

theorem pmod_eq_self {s x : ℝ} (h0 : 0 ≤ x) (h1 : x < s) : pmod x s = x := by
  have hs : 0 < s := lt_of_le_of_lt h0 h1
  unfold pmod
  have : ⌊x / s⌋ = 0 := by
    rw [Int.floor_eq_zero_iff]
    exact ⟨div_nonneg h0 hs.le, (div_lt_one hs).2 h1⟩
  simp [this]

/-- two numbers have the same remainder iff they differ by an integer multiple. -/
theorem pmod_eq_iff {s : ℝ} (hs : 0 < s) (x y : ℝ) : pmod x s = pmod y s ↔ ∃ k : ℤ, y = x + k * s := by
  constructor
  · intro h
    obtain ⟨a, ha⟩ := pmod_exists x s
    obtain ⟨b, hb⟩ := pmod_exists y s
    refine ⟨a - b, ?_⟩
    push_cast
    linarith [ha, hb, h]
  · rintro ⟨k, rfl⟩
    exact (pmod_add_int_mul hs x k).symm

/-- uniqueness of the representative in `[0, s)`. -/
theorem pmod_unique {s x r : ℝ} (k : ℤ) (h0 : 0 ≤ r) (h1 : r < s) (h : x = r + k * s) : pmod x s = r := by
  have hs : 0 < s := lt_of_le_of_lt h0 h1
  rw [h, pmod_add_int_mul hs, pmod_eq_self h0 h1]

/-! ## the one-dimensional wrapped distance -/

/-- one component of the vector whose norm is the periodic distance -/
def wrap (t s : ℝ) : ℝ := min (s - pmod t s) (pmod t s)

theorem wrap_nonneg {s : ℝ} (hs : 0 < s) (t : ℝ) : 0 ≤ wrap t s :=
  le_min (by have := pmod_lt hs t; linarith) (pmod_nonneg hs t)

theorem wrap_le_half {s : ℝ} (t : ℝ) : wrap t s ≤ s / 2 := by
  unfold wrap
  rcases le_total (pmod t s) (s / 2) with h | h
  · exact (min_le_right _ _).trans h
  · exact (min_le_left _ _).trans (by linarith)

theorem wrap_le {s : ℝ} (hs : 0 < s) (t : ℝ) (k : ℤ) : wrap t s ≤ |t + k * s| := by
  obtain ⟨a, ha⟩ := pmod_exists t s
  have h0 := pmod_nonneg hs t
  have h1 := pmod_lt hs t
  have e : t + k * s = pmod t s + ((k - a : ℤ) : ℝ) * s := by push_cast; linarith
  rw [e]
  unfold wrap
  rcases lt_or_ge (k - a) 0 with h | h
  · have h' : ((k - a : ℤ) : ℝ) ≤ -1 := by exact_mod_cast (by omega : k - a ≤ -1)
    have : ((k - a : ℤ) : ℝ) * s ≤ -1 * s := mul_le_mul_of_nonneg_right h' hs.le
    refine (min_le_left _ _).trans ?_
    refine le_trans ?_ (neg_le_abs _)
    linarith
  · have h' : (0 : ℝ) ≤ ((k - a : ℤ) : ℝ) := by exact_mod_cast h
    have : 0 ≤ ((k - a : ℤ) : ℝ) * s := mul_nonneg h' hs.le
    refine (min_le_right _ _).trans ?_
    refine le_trans ?_ (le_abs_self _)
    linarith

theorem wrap_attained {s : ℝ} (hs : 0 < s) (t : ℝ) : ∃ k : ℤ, wrap t s = |t + k * s| := by
  obtain ⟨a, ha⟩ := pmod_exists t s
  have h0 := pmod_nonneg hs t
  have h1 := pmod_lt hs t
  unfold wrap
  rcases le_total (s - pmod t s) (pmod t s) with h | h
  · rw [min_eq_left h]
    refine ⟨a - 1, ?_⟩
    have : t + ((a - 1 : ℤ) : ℝ) * s = pmod t s - s := by push_cast; linarith
    rw [this, abs_of_nonpos (by linarith)]
    ring
  · rw [min_eq_right h]
    exact ⟨a, by rw [← ha, abs_of_nonneg h0]⟩

theorem wrap_add_int_mul {s : ℝ} (hs : 0 < s) (t : ℝ) (k : ℤ) : wrap (t + k * s) s = wrap t s := by
  unfold wrap; rw [pmod_add_int_mul hs]

theorem wrap_neg {s : ℝ} (hs : 0 < s) (t : ℝ) : wrap (-t) s = wrap t s := by
  apply le_antisymm
  · obtain ⟨k, hk⟩ := wrap_attained hs t
    rw [hk]
    have := wrap_le hs (-t) (-k)
    refine this.trans (le_of_eq ?_)
    rw [← abs_neg]; congr 1; push_cast; ring
  · obtain ⟨k, hk⟩ := wrap_attained hs (-t)
    rw [hk]
    have := wrap_le hs t (-k)
    refine this.trans (le_of_eq ?_)
    rw [← abs_neg]; congr 1; push_cast; ring

theorem wrap_add_le {s : ℝ} (hs : 0 < s) (t u : ℝ) : wrap (t + u) s ≤ wrap t s + wrap u s := by
  obtain ⟨k, hk⟩ := wrap_attained hs t
  obtain ⟨l, hl⟩ := wrap_attained hs u
  rw [hk, hl]
  refine (wrap_le hs (t + u) (k + l)).trans ?_
  refine le_trans (le_of_eq ?_) (abs_add_le _ _)
  congr 1; push_cast; ring

theorem wrap_eq_zero {s : ℝ} (hs : 0 < s) (t : ℝ) : wrap t s = 0 ↔ ∃ k : ℤ, t = k * s := by
  constructor
  · intro h
    obtain ⟨k, hk⟩ := wrap_attained hs t
    rw [h] at hk
    have := abs_eq_zero.1 hk.symm
    exact ⟨-k, by push_cast; linarith⟩
  · rintro ⟨k, rfl⟩
    apply le_antisymm _ (wrap_nonneg hs _)
    refine (wrap_le hs _ (-k)).trans ?_
    push_cast; simp

/-! ## Euclidean length -/

theorem len_nonneg (v : Vec d) : 0 ≤ len v := Real.sqrt_nonneg _

theorem norm_eq_len (v : Vec d) : CoordSys.norm v = len v := rfl

theorem len_mono {v w : Vec d} (h : ∀ i, |v i| ≤ |w i|) : len v ≤ len w := by
  unfold len
  apply Real.sqrt_le_sqrt
  apply Finset.sum_le_sum
  intro i _
  exact sq_le_sq.2 (h i)

theorem len_congr {v w : Vec d} (h : ∀ i, |v i| = |w i|) : len v = len w :=
  le_antisymm (len_mono fun i => (h i).le) (len_mono fun i => (h i).ge)

theorem len_eq_norm (v : Vec d) : len v = ‖(WithLp.toLp 2 v : EuclideanSpace ℝ (Fin d))‖ := by
  rw [EuclideanSpace.norm_eq]
  simp [len]

theorem len_add_le (v w : Vec d) : len (fun i => v i + w i) ≤ len v + len w := by
  rw [len_eq_norm, len_eq_norm, len_eq_norm]
  exact norm_add_le _ _

theorem len_eq_zero (v : Vec d) : len v = 0 ↔ ∀ i, v i = 0 := by
  unfold len
  rw [Real.sqrt_eq_zero (Finset.sum_nonneg fun i _ => sq_nonneg _),
    Finset.sum_eq_zero_iff_of_nonneg fun i _ => sq_nonneg _]
  simp

theorem abs_le_len (v : Vec d) (i : Fin d) : |v i| ≤ len v := by
  unfold len
  apply Real.abs_le_sqrt
  exact Finset.single_le_sum (f := fun i => v i ^ 2) (fun i _ => sq_nonneg _) (Finset.mem_univ i)

/-! ## coordinate system -/

namespace CoordSys

theorem size_pos {c : CoordSys d} (h : ProperBox c) (i : Fin d) : 0 < c.size i := by
  have := h i
  unfold size; linarith

theorem shift_apply (c : CoordSys d) (k : Fin d → ℤ) (q : Vec d) (i : Fin d) :
    shift c k q i = q i + k i * c.size i := rfl

theorem distDelta_periodic {c : CoordSys d} (h : c.periodic = true) (p q : Vec d) (i : Fin d) :
    c.distDelta p q i = wrap (q i - p i) (c.size i) := by
  simp [distDelta, h, wrap]

theorem distDelta_nonperiodic {c : CoordSys d} (h : c.periodic = false) (p q : Vec d) (i : Fin d) :
    c.distDelta p q i = q i - p i := by
  simp [distDelta, h]

theorem distance_eq_len (c : CoordSys d) (p q : Vec d) : c.distance p q = len (c.distDelta p q) := rfl

theorem distance_eucl {c : CoordSys d} (h : c.periodic = false) (p q : Vec d) :
    c.distance p q = eucl p q := by
  rw [distance_eq_len]
  unfold eucl
  change _ = len (fun i => p i - q i)
  apply len_congr
  intro i
  rw [distDelta_nonperiodic h, abs_sub_comm]

theorem connectingVector_congr {c : CoordSys d} (h : c.periodic = true) (p q : Vec d) (i : Fin d) :
    ∃ k : ℤ, c.connectingVector p q i = q i - p i + k * c.size i := by
  obtain ⟨a, ha⟩ := pmod_exists (q i - p i) (c.size i)
  simp only [connectingVector, h, if_true]
  split
  · exact ⟨a - 1, by rw [ha]; push_cast; ring⟩
  · exact ⟨a, ha⟩

theorem abs_connectingVector {c : CoordSys d} (hb : ProperBox c) (p q : Vec d) (i : Fin d) :
    |c.connectingVector p q i| = |c.distDelta p q i| := by
  by_cases h : c.periodic
  · have hs := size_pos hb i
    have h0 := pmod_nonneg hs (q i - p i)
    have h1 := pmod_lt hs (q i - p i)
    simp only [connectingVector, distDelta, h, if_true]
    split
    · next hlt => rw [min_eq_left (by linarith), ← abs_neg]; congr 1; ring
    · next hlt => rw [min_eq_right (by linarith)]
  · simp [connectingVector, distDelta, h]

end CoordSys
end NF
