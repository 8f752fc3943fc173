import Verif.Model.FloatDistance
import Verif.Props.Float

/-! # Rounding errors of distances -/

noncomputable section
open Classical
namespace NF
open Spec CoordSys
variable {d : ℕ} {rnd : ℝ → ℝ}

theorem ulp_pos : 0 < ulp := by unfold ulp; positivity
theorem ulp_small : ulp ≤ 1 / 1000000 := by unfold ulp; norm_num

theorem rel_err' (hr : IsNearest rnd) (x : ℝ) : |rnd x - x| ≤ ulp * |x| := rel_err hr x

/-- numpy's `%`, up to rounding. -/
theorem npMod_err (hr : IsNearest rnd) (a : ℝ) {b : ℝ} (hb : 0 < b) : ∃ k : ℤ, |FL.npMod rnd a b - (a + k * b)| ≤ ulp * b := by
  unfold FL.npMod
  simp only []
  split
  · rename_i hc
    refine ⟨1 - truncInt (a / b), ?_⟩
    have e : a + ((1 - truncInt (a / b) : ℤ) : ℝ) * b = FL.fmod a b + b := by unfold FL.fmod; push_cast; ring
    rw [e]
    refine (rel_err' hr _).trans (mul_le_mul_of_nonneg_left ?_ ulp_pos.le)
    rcases le_or_gt 0 a with ha | ha
    · exfalso
      obtain ⟨h1, h2⟩ := fmod_of_nonneg ha hb
      exact hc.2 ⟨fun h => absurd h (not_lt.2 hb.le), fun h => absurd h (not_lt.2 h1)⟩
    · obtain ⟨h1, h2⟩ := fmod_of_neg ha hb
      rw [abs_of_nonneg (by linarith)]
      linarith
  · refine ⟨-truncInt (a / b), ?_⟩
    have e : a + ((-truncInt (a / b) : ℤ) : ℝ) * b = FL.fmod a b := by unfold FL.fmod; push_cast; ring
    rw [e, sub_self, abs_zero]
    exact (mul_pos ulp_pos hb).le

theorem fl_size_err (hr : IsNearest rnd) {cs : CoordSys d} (hb : ProperBox cs) (i : Fin d) : |FL.size rnd cs i - cs.size i| ≤ ulp * cs.size i := by
  have := rel_err' hr (cs.upper i - cs.lower i)
  rwa [abs_of_pos (sub_pos.2 (hb i))] at this

/-- The remainder that `distance` and `connecting_vector` begin with. -/
theorem fl_delta (hr : IsNearest rnd) {cs : CoordSys d} (hb : ProperBox cs) (p q : Vec d) (i : Fin d) (hpq : |q i - p i| ≤ 5 * cs.size i) :
    ∃ k : ℤ, |(k : ℝ)| ≤ 6.01 ∧ |FL.npMod rnd (rnd (q i - p i)) (FL.size rnd cs i) - (q i - p i + k * cs.size i)| ≤ 12.1 * (ulp * cs.size i) ∧ 0 ≤ FL.npMod rnd (rnd (q i - p i)) (FL.size rnd cs i) ∧
      FL.npMod rnd (rnd (q i - p i)) (FL.size rnd cs i) ≤ FL.size rnd cs i := by
  have hS := size_pos hb i
  have hs := fl_size_pos hr hb i
  have hse := abs_le.1 (fl_size_err hr hb i)
  have ha := rel_err' hr (q i - p i)
  obtain ⟨h0, h1⟩ := npMod_range hr (rnd (q i - p i)) hs (hr _).1
  obtain ⟨k, hk⟩ := npMod_err hr (rnd (q i - p i)) hs
  have hu := ulp_pos
  have hu1 := ulp_small
  set s := FL.size rnd cs i with hsd
  set S := cs.size i with hSd
  set a := rnd (q i - p i) with had
  set m := FL.npMod rnd a s with hm
  have hus : ulp * s ≤ 1.01 * (ulp * S) := by nlinarith [mul_pos hu hS]
  have haS : |a - (q i - p i)| ≤ 5 * (ulp * S) := ha.trans (by nlinarith)
  have haA : |a| ≤ 5.001 * S := by
    have e : a = (a - (q i - p i)) + (q i - p i) := by ring
    rw [e]
    refine (abs_add_le _ _).trans ?_
    nlinarith
  have hkS : |(k : ℝ)| * s ≤ 6.005 * s := by
    have e : (k : ℝ) * s = m - a - (m - (a + k * s)) := by ring
    rw [← abs_of_pos hs, ← abs_mul, e, abs_of_pos hs]
    refine (abs_sub _ _).trans ?_
    have := abs_sub m a
    rw [abs_of_nonneg h0] at this
    nlinarith
  have hk6 : |(k : ℝ)| ≤ 6.01 := by
    have := le_of_mul_le_mul_right hkS hs
    linarith
  refine ⟨k, hk6, ?_, h0, h1⟩
  have e : m - (q i - p i + k * S) = (m - (a + k * s)) + (a - (q i - p i)) + k * (s - S) := by ring
  rw [e]
  have h3 : |(k : ℝ) * (s - S)| ≤ 6.01 * (ulp * S) := by
    rw [abs_mul]
    exact mul_le_mul hk6 (abs_le.2 hse) (abs_nonneg _) (by norm_num)
  refine ((abs_add_le _ _).trans (add_le_add (abs_add_le _ _) le_rfl)).trans ?_
  linarith

/-- **one coordinate** -/
theorem fl_distDelta_err (hr : IsNearest rnd) {cs : CoordSys d} (hb : ProperBox cs) (hper : cs.periodic = true) (p q : Vec d) (i : Fin d) (hpq : |q i - p i| ≤ 5 * cs.size i) :
    |FL.distDelta rnd cs p q i - cs.distDelta p q i| ≤ 16 * (ulp * cs.size i) := by
  have hS := size_pos hb i
  have hs := fl_size_pos hr hb i
  have hse := abs_le.1 (fl_size_err hr hb i)
  obtain ⟨k, -, hk, h0, h1⟩ := fl_delta hr hb p q i hpq
  have hu := ulp_pos
  have hu1 := ulp_small
  rw [distDelta_periodic hper]
  unfold FL.distDelta
  simp only [hper, if_true]
  set s := FL.size rnd cs i with hsd
  set S := cs.size i with hSd
  set m := FL.npMod rnd (rnd (q i - p i)) s with hm
  set x := q i - p i with hx
  have hus : ulp * s ≤ 1.01 * (ulp * S) := by nlinarith [mul_pos hu hS]
  have huS := mul_pos hu hS
  have h2 := rel_err' hr (s - m)
  rw [abs_of_nonneg (by linarith : 0 ≤ s - m)] at h2
  have h2' := abs_le.1 (h2.trans (mul_le_mul_of_nonneg_left (by linarith : s - m ≤ s) hu.le))
  have hk' := abs_le.1 hk
  have hwk := wrap_le hS x k
  have hwk1 := wrap_le hS x (k - 1)
  obtain ⟨k', hk'e⟩ := wrap_attained hS x
  refine abs_le.2 ⟨?_, ?_⟩
  · -- the exact one is not much larger
    rw [neg_le_sub_iff_le_add]
    rcases min_choice (rnd (s - m)) m with h | h
    · rw [h]
      have : |x + ((k - 1 : ℤ) : ℝ) * S| ≤ s - m + 13.2 * (ulp * S) := by
        push_cast
        refine abs_le.2 ⟨?_, ?_⟩ <;> linarith
      linarith
    · rw [h]
      have : |x + (k : ℝ) * S| ≤ m + 12.1 * (ulp * S) := abs_le.2 ⟨by linarith, by linarith⟩
      linarith
  · rw [sub_le_iff_le_add, hk'e]
    have hj : x + (k' : ℝ) * S = (x + k * S) + ((k' - k : ℤ) : ℝ) * S := by push_cast; ring
    rw [hj]
    rcases le_or_gt 0 (k' - k) with h | h
    · refine (min_le_right _ _).trans (le_trans ?_ (add_le_add le_rfl (le_abs_self _)))
      have : (0 : ℝ) ≤ ((k' - k : ℤ) : ℝ) * S := mul_nonneg (by exact_mod_cast h) hS.le
      linarith
    · refine (min_le_left _ _).trans (le_trans ?_ (add_le_add le_rfl (neg_le_abs _)))
      have h1' : ((k' - k : ℤ) : ℝ) ≤ -1 := by exact_mod_cast (by omega : k' - k ≤ -1)
      have : ((k' - k : ℤ) : ℝ) * S ≤ -1 * S := mul_le_mul_of_nonneg_right h1' hS.le
      linarith

/-! ## Sums -/

theorem rndSum_bounds (hr : IsNearest rnd) {l : List ℝ} {a : ℝ} (h : FL.RndSum rnd l a) (h0 : ∀ x ∈ l, 0 ≤ x) : l.sum * (1 - ulp) ^ (l.length - 1) ≤ a ∧ a ≤ l.sum * (1 + ulp) ^ (l.length - 1) ∧ 0 ≤ a := by
  have hu := ulp_pos
  have hu1 := ulp_small
  induction h with
  | nil => simp
  | one x => simpa using h0 x (by simp)
  | @add l l' a b hl hl' _ _ ih ih' =>
    obtain ⟨a1, a2, a0⟩ := ih fun x hx => h0 x (by simp [hx])
    obtain ⟨b1, b2, b0⟩ := ih' fun x hx => h0 x (by simp [hx])
    have s0 : 0 ≤ l.sum := List.sum_nonneg fun x hx => h0 x (by simp [hx])
    have s0' : 0 ≤ l'.sum := List.sum_nonneg fun x hx => h0 x (by simp [hx])
    have n1 := List.length_pos_iff.2 hl
    have n2 := List.length_pos_iff.2 hl'
    have e := abs_le.1 (rel_err' hr (a + b))
    rw [abs_of_nonneg (by linarith)] at e
    have eL : (l ++ l').length - 1 = l.length - 1 + (l'.length - 1) + 1 := by simp; omega
    rw [eL, List.sum_append]
    have hp1 : ∀ n m : ℕ, n ≤ m → (1 - ulp) ^ m ≤ (1 - ulp) ^ n := fun n m h => pow_le_pow_of_le_one (by linarith) (by linarith) h
    have hp2 : ∀ n m : ℕ, n ≤ m → (1 + ulp) ^ n ≤ (1 + ulp) ^ m := fun n m h => pow_le_pow_right₀ (by linarith) h
    have c1 : (l.sum + l'.sum) * (1 - ulp) ^ (l.length - 1 + (l'.length - 1)) ≤ a + b := by
      rw [add_mul]
      refine add_le_add (le_trans ?_ a1) (le_trans ?_ b1)
      · exact mul_le_mul_of_nonneg_left (hp1 _ _ (by omega)) s0
      · exact mul_le_mul_of_nonneg_left (hp1 _ _ (by omega)) s0'
    have c2 : a + b ≤ (l.sum + l'.sum) * (1 + ulp) ^ (l.length - 1 + (l'.length - 1)) := by
      rw [add_mul]
      refine add_le_add (le_trans a2 ?_) (le_trans b2 ?_)
      · exact mul_le_mul_of_nonneg_left (hp2 _ _ (by omega)) s0
      · exact mul_le_mul_of_nonneg_left (hp2 _ _ (by omega)) s0'
    refine ⟨?_, ?_, rnd_nonneg hr (by linarith)⟩
    · rw [pow_succ, ← mul_assoc]
      have := mul_le_mul_of_nonneg_right c1 (by linarith : (0 : ℝ) ≤ 1 - ulp)
      linarith
    · rw [pow_succ, ← mul_assoc]
      have := mul_le_mul_of_nonneg_right c2 (by linarith : (0 : ℝ) ≤ 1 + ulp)
      linarith
  | perm _ hp ih =>
    have := ih fun x hx => h0 x (hp.mem_iff.1 hx)
    rwa [hp.sum_eq, hp.length_eq] at this

theorem sum_between {l l' : List ℝ} {c : ℝ} (h : List.Forall₂ (fun x y => x ≤ c * y) l l') : l.sum ≤ c * l'.sum := by
  induction h with
  | nil => simp
  | cons h _ ih => rw [List.sum_cons, List.sum_cons, mul_add]; linarith

/-- The norm, up to rounding. -/
theorem fl_norm_bounds (hr : IsNearest rnd) (y : Vec d) {s : ℝ} (h : FL.RndSum rnd (List.ofFn fun i => rnd (y i ^ 2)) s) :
    len y * (1 - ulp) ^ (d + 1) ≤ rnd (Real.sqrt s) ∧ rnd (Real.sqrt s) ≤ len y * (1 + ulp) ^ (d + 1) := by
  have hu := ulp_pos
  have hu1 := ulp_small
  have hnn : ∀ x ∈ List.ofFn (fun i => rnd (y i ^ 2)), 0 ≤ x := fun x hx => by
    obtain ⟨i, rfl⟩ := List.mem_ofFn.1 hx
    exact rnd_nonneg hr (sq_nonneg _)
  obtain ⟨b1, b2, b0⟩ := rndSum_bounds hr h hnn
  rw [List.length_ofFn] at b1 b2
  have hlen : len y ^ 2 = ∑ i, y i ^ 2 := Real.sq_sqrt (Finset.sum_nonneg fun i _ => sq_nonneg _)
  have hl0 := len_nonneg y
  have he : ∀ i, y i ^ 2 * (1 - ulp) ≤ rnd (y i ^ 2) ∧ rnd (y i ^ 2) ≤ y i ^ 2 * (1 + ulp) := fun i => by
    have := abs_le.1 (rel_err' hr (y i ^ 2))
    rw [abs_of_nonneg (sq_nonneg _)] at this
    constructor <;> linarith
  rw [List.sum_ofFn] at b1 b2
  have t1 : len y ^ 2 * (1 - ulp) ≤ ∑ i, rnd (y i ^ 2) := by
    rw [hlen, Finset.sum_mul]; exact Finset.sum_le_sum fun i _ => (he i).1
  have t2 : ∑ i, rnd (y i ^ 2) ≤ len y ^ 2 * (1 + ulp) := by
    rw [hlen, Finset.sum_mul]; exact Finset.sum_le_sum fun i _ => (he i).2
  have hsq : len y * (1 - ulp) ^ d ≤ Real.sqrt s ∧ Real.sqrt s ≤ len y * (1 + ulp) ^ d := by
    rcases Nat.eq_zero_or_pos d with rfl | hd
    · have hz : len y = 0 := (len_eq_zero y).2 fun i => i.elim0
      rw [hz] at t1 t2 ⊢
      simp at b1 b2
      have : s = 0 := le_antisymm b2 b0
      rw [this]; simp
    · have ed : d - 1 + 1 = d := by omega
      constructor
      · refine Real.le_sqrt_of_sq_le ?_
        rw [mul_pow]
        have h1 : ((1 - ulp) ^ d) ^ 2 ≤ (1 - ulp) ^ d := by
          rw [sq]
          exact mul_le_of_le_one_left (pow_nonneg (by linarith) _) (pow_le_one₀ (by linarith) (by linarith))
        calc len y ^ 2 * ((1 - ulp) ^ d) ^ 2 ≤ len y ^ 2 * (1 - ulp) ^ d := mul_le_mul_of_nonneg_left h1 (sq_nonneg _)
          _ = len y ^ 2 * (1 - ulp) * (1 - ulp) ^ (d - 1) := by rw [mul_assoc, ← pow_succ', ed]
          _ ≤ _ := mul_le_mul_of_nonneg_right t1 (pow_nonneg (by linarith) _)
          _ ≤ s := b1
      · refine Real.sqrt_le_iff.2 ⟨mul_nonneg hl0 (pow_nonneg (by linarith) _), ?_⟩
        rw [mul_pow]
        have h1 : (1 + ulp) ^ d ≤ ((1 + ulp) ^ d) ^ 2 := by
          rw [sq]
          exact le_mul_of_one_le_left (pow_nonneg (by linarith) _) (one_le_pow₀ (by linarith))
        calc s ≤ _ := b2
          _ ≤ len y ^ 2 * (1 + ulp) * (1 + ulp) ^ (d - 1) := mul_le_mul_of_nonneg_right t2 (pow_nonneg (by linarith) _)
          _ = len y ^ 2 * (1 + ulp) ^ d := by rw [mul_assoc, ← pow_succ', ed]
          _ ≤ _ := mul_le_mul_of_nonneg_left h1 (sq_nonneg _)
  have e := abs_le.1 (rel_err' hr (Real.sqrt s))
  rw [abs_of_nonneg (Real.sqrt_nonneg s)] at e
  rw [pow_succ, ← mul_assoc, pow_succ, ← mul_assoc]
  have m1 := mul_le_mul_of_nonneg_right hsq.1 (by linarith : (0 : ℝ) ≤ 1 - ulp)
  have m2 := mul_le_mul_of_nonneg_right hsq.2 (by linarith : (0 : ℝ) ≤ 1 + ulp)
  constructor <;> linarith

theorem pow_bounds (n : ℕ) (h : n * ulp ≤ 1 / 2) : (1 + ulp) ^ n ≤ 1 + 2 * n * ulp ∧ 1 - n * ulp ≤ (1 - ulp) ^ n := by
  have hu := ulp_pos
  have hu1 := ulp_small
  constructor
  · induction n with
    | zero => simp
    | succ n ih =>
      push_cast at h
      have hn : (n : ℝ) * ulp ≤ 1 / 2 := by linarith
      rw [pow_succ]
      have := mul_le_mul_of_nonneg_right (ih hn) (by linarith : (0 : ℝ) ≤ 1 + ulp)
      have h2 := mul_le_mul_of_nonneg_right hn hu.le
      push_cast
      nlinarith
  · have := one_add_mul_le_pow (a := -ulp) (by linarith) n
    rw [← sub_eq_add_neg] at this
    linarith

theorem len_smul' {c : ℝ} (hc : 0 ≤ c) (v : Vec d) : len (fun i => c * v i) = c * len v := by
  unfold len
  have : ∀ i, (c * v i) ^ 2 = c ^ 2 * v i ^ 2 := fun i => by ring
  simp only [this, ← Finset.mul_sum]
  rw [Real.sqrt_mul (sq_nonneg c), Real.sqrt_sq hc]

/-- Vectors whose coordinates are close have about the same length. -/
theorem len_close (v w t : Vec d) (h : ∀ i, |v i - w i| ≤ |t i|) : |len v - len w| ≤ len t := by
  refine abs_le.2 ⟨?_, ?_⟩
  · have := len_add_le v (fun i => w i - v i)
    have e : (fun i => v i + (w i - v i)) = w := by funext i; ring
    rw [e] at this
    have h2 : len (fun i => w i - v i) ≤ len t := len_mono fun i => by rw [abs_sub_comm]; exact h i
    linarith
  · have := len_add_le w (fun i => v i - w i)
    have e : (fun i => w i + (v i - w i)) = v := by funext i; ring
    rw [e] at this
    have h2 : len (fun i => v i - w i) ≤ len t := len_mono h
    linarith

theorem distance_le_half_size {cs : CoordSys d} (hb : ProperBox cs) (hper : cs.periodic = true) (p q : Vec d) : cs.distance p q ≤ len cs.size / 2 := by
  have : cs.distance p q ≤ len (fun i => 1 / 2 * cs.size i) := by
    rw [distance_eq_len]
    refine len_mono fun i => ?_
    have hS := size_pos hb i
    rw [distDelta_periodic hper, abs_of_nonneg (wrap_nonneg hS _), abs_of_pos (by linarith)]
    have := wrap_le_half (s := cs.size i) (q i - p i)
    linarith
  rw [len_smul' (by norm_num)] at this
  linarith

theorem fl_norm_err (hr : IsNearest rnd) (y : Vec d) {s : ℝ} (h : FL.RndSum rnd (List.ofFn fun i => rnd (y i ^ 2)) s) (hd : (d + 1) * ulp ≤ 1 / 2) :
    |rnd (Real.sqrt s) - len y| ≤ 2 * (d + 1) * ulp * len y := by
  obtain ⟨h1, h2⟩ := fl_norm_bounds hr y h
  obtain ⟨p2, p1⟩ := pow_bounds (d + 1) (by push_cast; exact hd)
  push_cast at p1 p2
  have hl := len_nonneg y
  have q1 := mul_le_mul_of_nonneg_left p1 hl
  have q2 := mul_le_mul_of_nonneg_left p2 hl
  have hu := ulp_pos
  have : 0 ≤ (d + 1) * ulp * len y := by positivity
  refine abs_le.2 ⟨?_, ?_⟩ <;> nlinarith

/-- periodic box -/
theorem fl_distance_err (hr : IsNearest rnd) {cs : CoordSys d} (hb : ProperBox cs) (hper : cs.periodic = true) (hd : (d + 1) * ulp ≤ 1 / 2) {p q : Vec d}
    (hpq : ∀ i, |q i - p i| ≤ 5 * cs.size i) {v : ℝ} (h : FL.Distance rnd cs p q v) : |v - cs.distance p q| ≤ 2 * (d + 10) * ulp * len cs.size := by
  obtain ⟨s, hs, rfl⟩ := h
  have hu := ulp_pos
  have hu1 := ulp_small
  have h1 := fl_norm_err hr _ hs hd
  have h2 : |len (FL.distDelta rnd cs p q) - cs.distance p q| ≤ 16 * ulp * len cs.size := by
    rw [distance_eq_len, ← len_smul' (by positivity)]
    refine len_close _ _ _ fun i => ?_
    have hS := size_pos hb i
    rw [abs_of_nonneg (a := 16 * ulp * cs.size i) (by positivity)]
    have := fl_distDelta_err hr hb hper p q i (hpq i)
    linarith
  have h3 := distance_le_half_size hb hper p q
  have hl := len_nonneg cs.size
  set L := len (FL.distDelta rnd cs p q)
  have h4 : L ≤ len cs.size := by have := (abs_le.1 h2).2; nlinarith
  have h5 : 2 * (d + 1) * ulp * L ≤ 2 * (d + 1) * ulp * len cs.size := mul_le_mul_of_nonneg_left h4 (by positivity)
  have e : rnd (Real.sqrt s) - cs.distance p q = (rnd (Real.sqrt s) - L) + (L - cs.distance p q) := by ring
  rw [e]
  refine (abs_add_le _ _).trans ?_
  nlinarith [mul_nonneg hu.le hl]

/-- non-periodic box -/
theorem fl_distance_err_open (hr : IsNearest rnd) {cs : CoordSys d} (hper : cs.periodic = false) (hd : (d + 1) * ulp ≤ 1 / 2) {p q : Vec d} {v : ℝ} (h : FL.Distance rnd cs p q v) :
    |v - cs.distance p q| ≤ 2 * (d + 2) * ulp * cs.distance p q := by
  obtain ⟨s, hs, rfl⟩ := h
  have hu := ulp_pos
  have hu1 := ulp_small
  have h1 := fl_norm_err hr _ hs hd
  have h2 : |len (FL.distDelta rnd cs p q) - cs.distance p q| ≤ ulp * cs.distance p q := by
    rw [distance_eq_len, ← len_smul' hu.le]
    refine len_close _ _ _ fun i => ?_
    rw [distDelta_nonperiodic hper, abs_mul, abs_of_pos hu]
    unfold FL.distDelta
    rw [hper]
    simpa using rel_err' hr (q i - p i)
  have hl : 0 ≤ cs.distance p q := by rw [distance_eq_len]; exact len_nonneg _
  set L := len (FL.distDelta rnd cs p q)
  have h4 : L ≤ (1 + ulp) * cs.distance p q := by have := (abs_le.1 h2).2; linarith
  have h5 : 2 * (d + 1) * ulp * L ≤ 2 * (d + 1) * ulp * ((1 + ulp) * cs.distance p q) := mul_le_mul_of_nonneg_left h4 (by positivity)
  have h6 : 2 * ((d + 1) * ulp) * (ulp * cs.distance p q) ≤ 1 * (ulp * cs.distance p q) := mul_le_mul_of_nonneg_right (by linarith) (by positivity)
  have e : rnd (Real.sqrt s) - cs.distance p q = (rnd (Real.sqrt s) - L) + (L - cs.distance p q) := by ring
  rw [e]
  refine (abs_add_le _ _).trans ?_
  nlinarith

end NF
