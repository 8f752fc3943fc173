import Verif.Model.FloatCell
import Verif.Spec.Float
import Verif.Spec.Lattice
import Verif.Props.Coord
import Verif.Lemmas.CellList

/-! # C74: rounding cannot push a position out of the table of cells -/

noncomputable section
open Classical
namespace NF
open Spec CoordSys

variable {d : ℕ} {α : Type}

/-! ## Rounding to nearest -/

theorem isFloat_int {n : ℤ} (h : |n| < 2 ^ 53) : IsFloat (n : ℝ) := ⟨n, 0, h, by simp⟩
theorem isFloat_zero : IsFloat 0 := by simpa using isFloat_int (n := 0) (by norm_num)

theorem le_rnd {rnd : ℝ → ℝ} (hr : IsNearest rnd) {c x : ℝ} (hc : IsFloat c) (h : c ≤ x) : c ≤ rnd x := by
  by_contra hlt
  push Not at hlt
  have := (hr x).2 c hc
  rw [abs_of_nonpos (by linarith), abs_of_nonpos (by linarith)] at this
  linarith

theorem rnd_le {rnd : ℝ → ℝ} (hr : IsNearest rnd) {c x : ℝ} (hc : IsFloat c) (h : x ≤ c) : rnd x ≤ c := by
  by_contra hlt
  push Not at hlt
  have := (hr x).2 c hc
  rw [abs_of_nonneg (by linarith), abs_of_nonneg (by linarith)] at this
  linarith

theorem rnd_of_isFloat {rnd : ℝ → ℝ} (hr : IsNearest rnd) {x : ℝ} (hx : IsFloat x) : rnd x = x :=
  le_antisymm (rnd_le hr hx le_rfl) (le_rnd hr hx le_rfl)

theorem rnd_nonneg {rnd : ℝ → ℝ} (hr : IsNearest rnd) {x : ℝ} (h : 0 ≤ x) : 0 ≤ rnd x := le_rnd hr isFloat_zero h

theorem rnd_pos {rnd : ℝ → ℝ} (hr : IsNearest rnd) {x : ℝ} (h : 0 < x) : 0 < rnd x := by
  have h1 : (2 : ℝ) ^ Int.log 2 x ≤ x := by exact_mod_cast Int.zpow_log_le_self (b := 2) (by norm_num) h
  have h2 : IsFloat ((2 : ℝ) ^ Int.log 2 x) := ⟨1, Int.log 2 x, by norm_num, by simp⟩
  exact lt_of_lt_of_le (by positivity) (le_rnd hr h2 h1)

theorem rnd_mono {rnd : ℝ → ℝ} (hr : IsNearest rnd) {x y : ℝ} (h : x ≤ y) : rnd x ≤ rnd y := by
  rcases eq_or_lt_of_le h with rfl | hlt
  · exact le_rfl
  by_contra hc
  push Not at hc
  have h1 := (hr x).2 _ (hr y).1
  have h2 := (hr y).2 _ (hr x).1
  rw [← sq_le_sq] at h1 h2
  nlinarith

theorem float_lt_one {f : ℝ} (hf : IsFloat f) (h : f < 1) : f ≤ 1 - 1 / 2 ^ 53 := by
  obtain ⟨m, e, hm, rfl⟩ := hf
  rcases le_or_gt m 0 with h0 | h0
  · have : (m : ℝ) * 2 ^ e ≤ 0 := mul_nonpos_of_nonpos_of_nonneg (by exact_mod_cast h0) (by positivity)
    have : (1 : ℝ) / 2 ^ 53 ≤ 1 := by norm_num
    linarith
  · have hm' : m < 2 ^ 53 := (abs_lt.1 hm).2
    rcases le_or_gt 0 e with he | he
    · exfalso
      have h1 : (1 : ℝ) ≤ m := by exact_mod_cast h0
      have h2 : (1 : ℝ) ≤ 2 ^ e := one_le_zpow₀ (by norm_num) he
      nlinarith
    · obtain ⟨n, rfl⟩ : ∃ n : ℕ, e = -(n : ℤ) := ⟨(-e).toNat, by omega⟩
      rw [zpow_neg, zpow_natCast] at h ⊢
      have hpos : (0 : ℝ) < 2 ^ n := by positivity
      rw [← div_eq_mul_inv] at h ⊢
      rw [div_lt_one hpos] at h
      have h1 : m < 2 ^ n := by exact_mod_cast h
      rcases le_or_gt n 53 with hn | hn
      · have h2 : (m : ℝ) ≤ 2 ^ n - 1 := by
          have : m ≤ 2 ^ n - 1 := by omega
          exact_mod_cast this
        rw [div_le_iff₀ hpos, sub_mul, one_mul]
        have h3 : (1 : ℝ) / 2 ^ 53 * 2 ^ n ≤ 1 := by
          rw [div_mul_eq_mul_div, one_mul, div_le_one (by positivity)]
          exact pow_le_pow_right₀ (by norm_num) hn
        linarith
      · rw [div_le_iff₀ hpos]
        have h2 : (m : ℝ) ≤ 2 ^ 53 := by exact_mod_cast hm'.le
        have h3 : (2 : ℝ) ^ 54 ≤ 2 ^ n := pow_le_pow_right₀ (by norm_num) hn
        norm_num at h2 h3 ⊢
        linarith

/-- the product of a float below 1 and a number of cells is not rounded up to the number of cells -/
theorem rnd_mul_lt {rnd : ℝ → ℝ} (hr : IsNearest rnd) {f : ℝ} (hf : IsFloat f) (h : f < 1) {n : ℕ} (hn : 1 ≤ n) (hn2 : n < 2 ^ 52) : rnd (f * n) < n := by
  by_contra hge
  push Not at hge
  have hf1 := float_lt_one hf h
  have hn0 : (0 : ℝ) < n := by exact_mod_cast hn
  set u : ℝ := 1 / 2 ^ 53 with hu
  have hu0 : 0 < u := by positivity
  have hx : f * n ≤ n - n * u := by nlinarith
  set k := Nat.log 2 n with hk
  have hk1 : 2 ^ k ≤ n := Nat.pow_log_le_self 2 (by omega)
  have hk2 : n < 2 ^ (k + 1) := Nat.lt_pow_succ_log_self (by norm_num) n
  have hk52 : k < 52 := by
    by_contra hc
    have : 2 ^ 52 ≤ 2 ^ k := Nat.pow_le_pow_right (by norm_num) (by omega)
    omega
  have key : ∀ g, IsFloat g → g < n → (f * n ≤ g ∨ f * n - g < n * u) → False := by
    intro g hg hgn hor
    have hne := (hr (f * n)).2 g hg
    rw [abs_of_nonneg (by nlinarith)] at hne
    rcases hor with h1 | h1
    · rw [abs_of_nonneg (by linarith)] at hne
      linarith
    · rcases le_or_gt (f * n) g with h2 | h2
      · rw [abs_of_nonneg (by linarith)] at hne
        linarith
      · rw [abs_of_neg (by linarith)] at hne
        linarith
  rcases eq_or_lt_of_le hk1 with he | hlt
  · -- `n` is a power of two
    refine key (n - n * u) ⟨2 ^ 53 - 1, (k : ℤ) - 53, by norm_num, ?_⟩ (by nlinarith) (.inl hx)
    rw [← he, hu, zpow_sub₀ (by norm_num)]
    push_cast
    norm_num
    ring
  · have hg : IsFloat ((n : ℝ) - 2 ^ (k + 1) * u) := by
      refine ⟨(n * 2 ^ (52 - k) : ℕ) - 1, (k : ℤ) - 52, ?_, ?_⟩
      · have h1 : n * 2 ^ (52 - k) < 2 ^ 53 := by
          calc n * 2 ^ (52 - k) < 2 ^ (k + 1) * 2 ^ (52 - k) := Nat.mul_lt_mul_of_pos_right hk2 (by positivity)
            _ = 2 ^ 53 := by rw [← pow_add]; congr 1; omega
        have h2 : 1 ≤ n * 2 ^ (52 - k) := Nat.one_le_iff_ne_zero.2 (by positivity)
        rw [abs_lt]
        constructor <;> push_cast <;> zify at h1 h2 <;> linarith
      · have h1 : ((n * 2 ^ (52 - k) : ℕ) : ℝ) * 2 ^ ((k : ℤ) - 52) = n := by
          push_cast
          rw [mul_assoc, ← zpow_natCast, ← zpow_add₀ (by norm_num)]
          have : ((52 - k : ℕ) : ℤ) + ((k : ℤ) - 52) = 0 := by omega
          rw [this]; simp
        have h2 : (2 : ℝ) ^ (k + 1) * u = 2 ^ ((k : ℤ) - 52) := by
          rw [hu, zpow_sub₀ (by norm_num), pow_succ]
          norm_num
          ring
        push_cast at h1 ⊢
        rw [sub_mul, h1, h2]
        ring
    have h1 : (2 : ℝ) ^ k < n := by exact_mod_cast hlt
    refine key _ hg (by nlinarith [pow_pos (show (0 : ℝ) < 2 by norm_num) (k + 1)]) (.inr ?_)
    rw [pow_succ]
    nlinarith

/-! ## The operations -/

theorem fmod_of_nonneg {a b : ℝ} (ha : 0 ≤ a) (hb : 0 < b) : 0 ≤ FL.fmod a b ∧ FL.fmod a b < b := by
  have h0 : 0 ≤ a / b := div_nonneg ha hb.le
  unfold FL.fmod
  rw [truncInt_of_nonneg h0]
  have h1 := Int.floor_le (a / b)
  have h2 := Int.lt_floor_add_one (a / b)
  rw [le_div_iff₀ hb] at h1
  rw [div_lt_iff₀ hb] at h2
  constructor <;> nlinarith

theorem fmod_of_neg {a b : ℝ} (ha : a < 0) (hb : 0 < b) : -b < FL.fmod a b ∧ FL.fmod a b ≤ 0 := by
  have h0 : a / b < 0 := div_neg_of_neg_of_pos ha hb
  unfold FL.fmod truncInt
  rw [if_neg (not_le.2 h0)]
  have h1 := Int.le_ceil (a / b)
  have h2 := Int.ceil_lt_add_one (a / b)
  rw [div_le_iff₀ hb] at h1
  have h3 : (⌈a / b⌉ : ℝ) * b < a + b := by
    have := mul_lt_mul_of_pos_right h2 hb
    rwa [add_mul, div_mul_cancel₀ _ hb.ne', one_mul] at this
  constructor <;> nlinarith

/-- numpy's `%` in floating-point arithmetic: the result may be the modulus itself -/
theorem npMod_range {rnd : ℝ → ℝ} (hr : IsNearest rnd) (a : ℝ) {b : ℝ} (hb : 0 < b) (hfb : IsFloat b) : 0 ≤ FL.npMod rnd a b ∧ FL.npMod rnd a b ≤ b := by
  unfold FL.npMod
  rcases le_or_gt 0 a with ha | ha
  · obtain ⟨h1, h2⟩ := fmod_of_nonneg ha hb
    simp only []
    rw [if_neg (by rintro ⟨-, h⟩; exact h ⟨fun h => absurd h (not_lt.2 hb.le), fun h => absurd h (not_lt.2 h1)⟩)]
    exact ⟨h1, h2.le⟩
  · obtain ⟨h1, h2⟩ := fmod_of_neg ha hb
    simp only []
    split
    · exact ⟨rnd_nonneg hr (by linarith), rnd_le hr hfb (by linarith)⟩
    · rename_i hc
      have : FL.fmod a b = 0 := by
        by_contra hne
        exact hc ⟨hne, fun h => absurd (h.2 (lt_of_le_of_ne h2 hne)) (not_lt.2 hb.le)⟩
      rw [this]
      exact ⟨le_rfl, hb.le⟩

theorem isFloat_fract {x : ℝ} (hx : IsFloat x) (h0 : 0 ≤ x) : IsFloat (Int.fract x) := by
  obtain ⟨m, e, hm, rfl⟩ := hx
  have hm0 : 0 ≤ m := by
    by_contra hc
    push Not at hc
    have : (m : ℝ) * 2 ^ e < 0 := mul_neg_of_neg_of_pos (by exact_mod_cast hc) (by positivity)
    linarith
  rcases le_or_gt 0 e with he | he
  · obtain ⟨n, rfl⟩ : ∃ n : ℕ, e = n := ⟨e.toNat, by omega⟩
    have : (m : ℝ) * 2 ^ (n : ℤ) = ((m * 2 ^ n : ℤ) : ℝ) := by push_cast; rw [zpow_natCast]
    rw [this, Int.fract_intCast]
    exact isFloat_zero
  · obtain ⟨n, rfl⟩ : ∃ n : ℕ, e = -(n : ℤ) := ⟨(-e).toNat, by omega⟩
    refine ⟨m % 2 ^ n, -(n : ℤ), ?_, ?_⟩
    · have h1 : 0 ≤ m % 2 ^ n := Int.emod_nonneg _ (by positivity)
      have h2 : m % 2 ^ n ≤ m := by
        have h3 := Int.mul_ediv_add_emod m (2 ^ n)
        have h4 : 0 ≤ m / 2 ^ n := Int.ediv_nonneg hm0 (by positivity)
        have h5 : 0 ≤ 2 ^ n * (m / 2 ^ n) := by positivity
        linarith
      rw [abs_of_nonneg h1]
      exact lt_of_le_of_lt h2 (abs_lt.1 hm).2
    · rw [zpow_neg, zpow_natCast, ← div_eq_mul_inv, ← div_eq_mul_inv]
      have hf : ⌊(m : ℝ) / 2 ^ n⌋ = m / 2 ^ n := by
        rw [Int.floor_eq_iff]
        have hpos : (0 : ℝ) < 2 ^ n := by positivity
        have hposz : (0 : ℤ) < 2 ^ n := by positivity
        rw [le_div_iff₀ hpos, div_lt_iff₀ hpos]
        constructor
        · exact_mod_cast Int.ediv_mul_le m hposz.ne'
        · exact_mod_cast Int.lt_ediv_add_one_mul_self m hposz
      unfold Int.fract
      rw [hf]
      have hd : (m : ℝ) = 2 ^ n * ((m / 2 ^ n : ℤ) : ℝ) + ((m % 2 ^ n : ℤ) : ℝ) := by exact_mod_cast (Int.mul_ediv_add_emod m (2 ^ n)).symm
      have hpos : (2 : ℝ) ^ n ≠ 0 := by positivity
      field_simp
      linarith

theorem npMod_one_of_nonneg {rnd : ℝ → ℝ} {a : ℝ} (ha : 0 ≤ a) : FL.npMod rnd a 1 = Int.fract a := by
  have h := fmod_of_nonneg ha one_pos
  have e : FL.fmod a 1 = Int.fract a := by
    unfold FL.fmod
    rw [div_one, truncInt_of_nonneg ha, one_mul]
    rfl
  unfold FL.npMod
  simp only []
  rw [if_neg (by rintro ⟨-, hc⟩; exact hc ⟨fun h => absurd h (by norm_num), fun h' => absurd h' (not_lt.2 h.1)⟩), e]

/-- The limits of the box are floating-point numbers. -/
def FloatBox (cs : CoordSys d) : Prop := ∀ i, IsFloat (cs.lower i) ∧ IsFloat (cs.upper i)

theorem fl_size_pos {rnd : ℝ → ℝ} (hr : IsNearest rnd) {cs : CoordSys d} (hb : ProperBox cs) (i : Fin d) : 0 < FL.size rnd cs i :=
  rnd_pos hr (sub_pos.2 (hb i))

/-- C74 (the normalized position).  In floating-point arithmetic, the position that is stored is never below the lower limit, and at most the rounded sum of the lower limit and the size. -/
theorem C74_normalized {rnd : ℝ → ℝ} (hr : IsNearest rnd) {cs : CoordSys d} (hb : ProperBox cs) (hf : FloatBox cs) (hp : cs.periodic = true) (pos : Vec d) (i : Fin d) :
    cs.lower i ≤ FL.normalizePosition rnd cs pos i ∧ FL.normalizePosition rnd cs pos i ≤ rnd (cs.lower i + rnd (cs.upper i - cs.lower i)) := by
  unfold FL.normalizePosition
  rw [if_pos hp]
  obtain ⟨h1, h2⟩ := npMod_range hr (rnd (pos i - cs.lower i)) (fl_size_pos hr hb i) (hr _).1
  refine ⟨le_rnd hr (hf i).1 (by linarith), ?_⟩
  exact rnd_mono hr (by unfold FL.size at h2 ⊢; linarith)

theorem getFrac_of_ge {rnd : ℝ → ℝ} (hr : IsNearest rnd) {cs : CoordSys d} (hb : ProperBox cs) (hp : cs.periodic = true) (pos : Vec d) (i : Fin d) (h1 : cs.lower i ≤ pos i) :
    IsFloat (FL.getFrac rnd cs pos i) ∧ 0 ≤ FL.getFrac rnd cs pos i ∧ FL.getFrac rnd cs pos i < 1 := by
  have h2 : 0 ≤ rnd (rnd (pos i - cs.lower i) / FL.size rnd cs i) :=
    rnd_nonneg hr (div_nonneg (rnd_nonneg hr (by linarith)) (fl_size_pos hr hb i).le)
  unfold FL.getFrac
  simp only [hp, if_true]
  rw [npMod_one_of_nonneg h2]
  exact ⟨isFloat_fract (hr _).1 h2, Int.fract_nonneg _, Int.fract_lt_one _⟩

theorem getFrac_normalized {rnd : ℝ → ℝ} (hr : IsNearest rnd) {cs : CoordSys d} (hb : ProperBox cs) (hf : FloatBox cs) (hp : cs.periodic = true) (pos : Vec d) (i : Fin d) :
    IsFloat (FL.getFrac rnd cs (FL.normalizePosition rnd cs pos) i) ∧ 0 ≤ FL.getFrac rnd cs (FL.normalizePosition rnd cs pos) i ∧ FL.getFrac rnd cs (FL.normalizePosition rnd cs pos) i < 1 :=
  getFrac_of_ge hr hb hp _ i (C74_normalized hr hb hf hp pos i).1

theorem getIndex_normalized {rnd : ℝ → ℝ} (hr : IsNearest rnd) {cs : CoordSys d} (hb : ProperBox cs) (hf : FloatBox cs) {cl : CellList d α} (hper : cl.periodic = cs.periodic)
    (hn : ∀ i, 1 ≤ cl.numCells i ∧ cl.numCells i < 2 ^ 52) (pos : Vec d) (i : Fin d) :
    0 ≤ FL.getIndex rnd cl (FL.getFrac rnd cs (FL.normalizePosition rnd cs pos)) i ∧ FL.getIndex rnd cl (FL.getFrac rnd cs (FL.normalizePosition rnd cs pos)) i < cl.total i := by
  unfold FL.getIndex CellList.total
  cases hp : cs.periodic with
  | true =>
    simp only [hper, hp, if_true]
    obtain ⟨h1, h2, h3⟩ := getFrac_normalized hr hb hf hp pos i
    have h4 := rnd_mul_lt hr h1 h3 (hn i).1 (hn i).2
    have h5 : 0 ≤ rnd (FL.getFrac rnd cs (FL.normalizePosition rnd cs pos) i * cl.numCells i) := rnd_nonneg hr (mul_nonneg h2 (by positivity))
    rw [truncInt_of_nonneg h5]
    exact ⟨Int.floor_nonneg.2 h5, Int.floor_lt.2 (by exact_mod_cast h4)⟩
  | false =>
    simp only [hper, hp, Bool.false_eq_true, if_false]
    have := (hn i).1
    omega

/-- C74 (storing).  The container stores a position by normalizing it and adding it to the cell list.  With every operation rounded to nearest, for every position (a periodic or a non-periodic box with floating-point
limits), the index is within the array: no IndexError, and the value is appended to exactly one cell. -/
theorem C74_store_in_range {rnd : ℝ → ℝ} (hr : IsNearest rnd) {cs : CoordSys d} (hb : ProperBox cs) (hf : FloatBox cs) {cl : CellList d α} (hper : cl.periodic = cs.periodic)
    (hn : ∀ i, 1 ≤ cl.numCells i ∧ cl.numCells i < 2 ^ 52) (pos : Vec d) (v : α) :
    ∃ (cl' : CellList d α) (idx : Idx d), FL.addPointChecked rnd cl (FL.getFrac rnd cs (FL.normalizePosition rnd cs pos)) v = .ok cl' ∧ cl'.flat = cl.flat ++ [v] ∧
      (∀ i, 0 ≤ idx i ∧ idx i < cl.total i) ∧ cl'.cells idx = cl.cells idx ++ [v] ∧ ∀ other, other ≠ idx → cl'.cells other = cl.cells other := by
  have h := getIndex_normalized hr hb hf hper hn pos
  set idx := FL.getIndex rnd cl (FL.getFrac rnd cs (FL.normalizePosition rnd cs pos)) with hidx
  refine ⟨{ cl with cells := Function.update cl.cells idx (cl.cells idx ++ [v]), flat := cl.flat ++ [v] }, idx, ?_, rfl, h, ?_, ?_⟩
  · unfold FL.addPointChecked
    simp only [← hidx]
    have h2 : (fun j => if idx j < 0 then idx j + cl.total j else idx j) = idx := by
      funext j; rw [if_neg (by have := h j; omega)]
    rw [if_pos (fun j => ⟨by have := h j; omega, (h j).2⟩), h2]
  · exact Function.update_self _ _ _
  · intro other ho
    exact Function.update_of_ne ho _ _

/-- C74 (looking up).  Whatever the rounded index is, also for a position that was not normalized, the cells that a lookup visits exist. -/
theorem C74_lookup_in_range (rnd : ℝ → ℝ) (cs : CoordSys d) {cl : CellList d α} (hn : ∀ i, 1 ≤ cl.numCells i) (pos : Vec d) :
    ∀ idx ∈ cl.calculateNeighbourIndices (FL.getIndex rnd cl (FL.getFrac rnd cs pos)), ∀ i, 0 ≤ idx i ∧ idx i < cl.total i := by
  intro idx hidx i
  have hnpos : (0 : ℤ) < cl.numCells i := by exact_mod_cast hn i
  cases hp : cl.periodic with
  | true =>
    rw [CellList.mem_calculateNeighbourIndices_periodic hp] at hidx
    obtain ⟨o, -, ho⟩ := hidx
    rw [← ho i]
    simp only [CellList.total, hp, if_true]
    exact ⟨Int.emod_nonneg _ hnpos.ne', Int.emod_lt_of_pos _ hnpos⟩
  | false =>
    rw [CellList.mem_calculateNeighbourIndices_nonperiodic hp] at hidx
    simpa [CellList.total, hp] using hidx.2 i

/-! ## Without rounding the operations are those of the exact model -/

theorem npMod_id (a : ℝ) {b : ℝ} (hb : 0 < b) : FL.npMod id a b = pmod a b := by
  unfold FL.npMod FL.fmod pmod truncInt
  simp only [id]
  rcases le_or_gt 0 a with ha | ha
  · have h0 : 0 ≤ a / b := div_nonneg ha hb.le
    have h1 := fmod_of_nonneg ha hb
    unfold FL.fmod at h1
    rw [truncInt_of_nonneg h0] at h1
    rw [if_pos h0, if_neg]
    rintro ⟨-, hc⟩
    exact hc ⟨fun h => absurd h (not_lt.2 hb.le), fun h => absurd h (not_lt.2 h1.1)⟩
  · have h0 : a / b < 0 := div_neg_of_neg_of_pos ha hb
    have h1 := fmod_of_neg ha hb
    unfold FL.fmod truncInt at h1
    rw [if_neg (not_le.2 h0)] at h1 ⊢
    by_cases hz : a - b * (⌈a / b⌉ : ℤ) = 0
    · rw [if_neg (fun h => h.1 hz), hz]
      have e : a / b = (⌈a / b⌉ : ℤ) := by
        rw [div_eq_iff hb.ne']
        linarith
      have : ⌊a / b⌋ = ⌈a / b⌉ := by conv_lhs => rw [e, Int.floor_intCast]
      rw [this]
      exact hz.symm
    · have hneg : a - b * (⌈a / b⌉ : ℤ) < 0 := lt_of_le_of_ne h1.2 hz
      rw [if_pos ⟨hz, fun h => absurd (h.2 hneg) (not_lt.2 hb.le)⟩]
      have : ⌊a / b⌋ = ⌈a / b⌉ - 1 := by
        rw [Int.floor_eq_iff]
        push_cast
        rw [le_div_iff₀ hb, div_lt_iff₀ hb]
        constructor <;> nlinarith [h1.1]
      rw [this]
      push_cast
      ring

/-- C74 (the rounded operations are the operations of the rest of the model, plus rounding): with exact arithmetic they are the same functions. -/
theorem C74_exact_arithmetic {cs : CoordSys d} (hb : ProperBox cs) (cl : CellList d α) (pos frac : Vec d) (v : α) :
    FL.normalizePosition id cs pos = cs.normalizePosition pos ∧ FL.getFrac id cs pos = cs.getFrac pos ∧ FL.getIndex id cl frac = cl.getIndex frac ∧
    FL.addPointChecked id cl frac v = cl.addPointChecked frac v := by
  refine ⟨?_, ?_, rfl, rfl⟩
  · funext i
    unfold FL.normalizePosition CoordSys.normalizePosition FL.size CoordSys.size
    simp only [id]
    rw [npMod_id _ (sub_pos.2 (hb i))]
  · funext i
    unfold FL.getFrac CoordSys.getFrac FL.size CoordSys.size
    simp only [id]
    rw [npMod_id _ one_pos]

/-! ## Rounding to nearest exists -/

/-- a rounding to nearest: to the nearest multiple of the unit in the last place -/
def rnd53 (x : ℝ) : ℝ := if x = 0 then 0 else round (x / 2 ^ (Int.log 2 |x| - 52)) * (2 : ℝ) ^ (Int.log 2 |x| - 52)

theorem C74_rounding_exists : IsNearest rnd53 := by
  intro x
  unfold rnd53
  by_cases hx : x = 0
  · rw [if_pos hx, hx]
    exact ⟨isFloat_zero, fun g _ => by simp⟩
  rw [if_neg hx]
  have hx0 : 0 < |x| := abs_pos.2 hx
  set e := Int.log 2 |x| with he
  have h1 : (2 : ℝ) ^ e ≤ |x| := by exact_mod_cast Int.zpow_log_le_self (b := 2) (by norm_num) hx0
  have h2 : |x| < (2 : ℝ) ^ (e + 1) := by exact_mod_cast Int.lt_zpow_succ_log_self (b := 2) (by norm_num) |x|
  set k : ℝ := (2 : ℝ) ^ (e - 52) with hk
  have hk0 : 0 < k := by positivity
  have hek : (2 : ℝ) ^ e = 2 ^ 52 * k := by
    rw [hk, ← zpow_natCast, ← zpow_add₀ (by norm_num)]; congr 1; push_cast; ring
  have hek1 : (2 : ℝ) ^ (e + 1) = 2 ^ 53 * k := by
    rw [hk, ← zpow_natCast, ← zpow_add₀ (by norm_num)]; congr 1; push_cast; ring
  -- the rounded quotient is nearest among the multiples of `k`
  have hz : ∀ z : ℤ, |round (x / k) * k - x| ≤ |z * k - x| := by
    intro z
    have h3 := round_le (x / k) z
    have e1 : ∀ w : ℝ, |w * k - x| = |x / k - w| * k := by
      intro w
      rw [← abs_of_pos hk0, ← abs_mul, abs_of_pos hk0, sub_mul, div_mul_cancel₀ _ hk0.ne', abs_sub_comm]
    rw [e1, e1]
    exact mul_le_mul_of_nonneg_right h3 hk0.le
  constructor
  · have hq : |round (x / k)| ≤ 2 ^ 53 := by
      have h4 : |x / k| < 2 ^ 53 := by
        rw [abs_div, abs_of_pos hk0, div_lt_iff₀ hk0, ← hek1]; exact h2
      rw [abs_lt] at h4
      rw [abs_le]
      constructor
      · have : -(2 ^ 53 : ℤ) ≤ round (x / k) := by
          have h5 := sub_half_lt_round (x / k)
          have h6 : ((-(2 ^ 53 : ℤ) - 1 : ℤ) : ℝ) < (round (x / k) : ℝ) := by push_cast; linarith
          have := Int.cast_lt.1 h6
          omega
        exact this
      · have h5 := round_le_add_half (x / k)
        have h6 : (round (x / k) : ℝ) < ((2 ^ 53 + 1 : ℤ) : ℝ) := by push_cast; linarith
        have := Int.cast_lt.1 h6
        omega
    rcases eq_or_lt_of_le hq with heq | hlt
    · rcases (abs_eq (by norm_num)).1 heq with h3 | h3
      · refine ⟨1, e + 1, by norm_num, ?_⟩
        rw [h3, hek1]; push_cast; ring
      · refine ⟨-1, e + 1, by norm_num, ?_⟩
        rw [h3, hek1]; push_cast; ring
    · exact ⟨_, e - 52, hlt, rfl⟩
  · rintro g ⟨m, j, hm, rfl⟩
    rcases le_or_gt (e - 52) j with hj | hj
    · obtain ⟨n, hn⟩ : ∃ n : ℕ, j = (e - 52) + n := ⟨(j - (e - 52)).toNat, by omega⟩
      have : (m : ℝ) * 2 ^ j = ((m * 2 ^ n : ℤ) : ℝ) * k := by
        rw [hn, zpow_add₀ (by norm_num), hk, zpow_natCast]; push_cast; ring
      rw [this]
      exact hz _
    · -- the float `g` is smaller than the smallest candidate
      have hg : |(m : ℝ) * 2 ^ j| ≤ 2 ^ e := by
        have hj0 : (0 : ℝ) < 2 ^ j := by positivity
        rw [abs_mul, abs_of_pos hj0]
        have h3 : |(m : ℝ)| ≤ 2 ^ 53 := by
          have : ((|m| : ℤ) : ℝ) < ((2 ^ 53 : ℤ) : ℝ) := Int.cast_lt.2 hm
          push_cast at this
          norm_num at this ⊢
          exact this.le
        have h4 : (2 : ℝ) ^ j * 2 ≤ k := by
          rw [hk, ← zpow_add_one₀ (by norm_num)]
          exact zpow_le_zpow_right₀ (by norm_num) (by omega)
        rw [hek]
        calc |(m : ℝ)| * 2 ^ j ≤ 2 ^ 53 * 2 ^ j := mul_le_mul_of_nonneg_right h3 hj0.le
          _ ≤ 2 ^ 52 * k := by
            have : (2 : ℝ) ^ 53 = 2 ^ 52 * 2 := by norm_num
            rw [this, mul_assoc]
            refine mul_le_mul_of_nonneg_left ?_ (by positivity)
            linarith
      have h3 : |x| - 2 ^ e ≤ |(m : ℝ) * 2 ^ j - x| := by
        have := abs_sub_abs_le_abs_sub x ((m : ℝ) * 2 ^ j)
        rw [abs_sub_comm] at this
        linarith
      refine le_trans ?_ h3
      rcases le_or_gt 0 x with hs | hs
      · have h4 := hz (2 ^ 52)
        have e52 : (((2 : ℤ) ^ 52 : ℤ) : ℝ) = 2 ^ 52 := by norm_num
        rw [e52] at h4
        rw [← hek, abs_of_nonpos (a := (2 : ℝ) ^ e - x) (by rw [abs_of_nonneg hs] at h1; linarith)] at h4
        rw [abs_of_nonneg hs]; linarith
      · have h4 := hz (-2 ^ 52)
        have e52 : ((-(2 : ℤ) ^ 52 : ℤ) : ℝ) = -2 ^ 52 := by norm_num
        rw [e52] at h4
        rw [neg_mul, ← hek, abs_of_nonneg (a := -(2 : ℝ) ^ e - x) (by rw [abs_of_neg hs] at h1; linarith)] at h4
        rw [abs_of_neg hs]; linarith

/-! ## Near positions are found -/

theorem rel_err {rnd : ℝ → ℝ} (hr : IsNearest rnd) (x : ℝ) : |rnd x - x| ≤ 1 / 2 ^ 53 * |x| := by
  refine le_trans ((hr x).2 _ (C74_rounding_exists x).1) ?_
  unfold rnd53
  by_cases hx : x = 0
  · simp [hx]
  rw [if_neg hx]
  have hx0 : 0 < |x| := abs_pos.2 hx
  have h1 : (2 : ℝ) ^ Int.log 2 |x| ≤ |x| := by exact_mod_cast Int.zpow_log_le_self (b := 2) (by norm_num) hx0
  set k : ℝ := (2 : ℝ) ^ (Int.log 2 |x| - 52) with hk
  have hk0 : 0 < k := by positivity
  have hek : (2 : ℝ) ^ Int.log 2 |x| = 2 ^ 52 * k := by
    rw [hk, ← zpow_natCast, ← zpow_add₀ (by norm_num)]; congr 1; push_cast; ring
  have h2 := abs_sub_round (x / k)
  have e1 : |round (x / k) * k - x| = |x / k - round (x / k)| * k := by
    rw [← abs_of_pos hk0, ← abs_mul, abs_of_pos hk0, sub_mul, div_mul_cancel₀ _ hk0.ne', abs_sub_comm]
  rw [e1]
  rw [hek] at h1
  have h3 : |x / k - round (x / k)| * k ≤ 1 / 2 * k := mul_le_mul_of_nonneg_right h2 hk0.le
  norm_num at h1 h3 ⊢
  linarith

/-- the bound of the relative rounding error -/
def ulp : ℝ := 1 / 2 ^ 53

/-- the remainder modulo 1 is the number itself, up to an integer and a rounding -/
theorem npMod_one_err {rnd : ℝ → ℝ} (hr : IsNearest rnd) (b : ℝ) : ∃ j : ℤ, |FL.npMod rnd b 1 - (b - j)| ≤ ulp := by
  have hu : ulp = 1 / 2 ^ 53 := rfl
  have hu0 : 0 < ulp := by rw [hu]; positivity
  have hm : |FL.fmod b 1| ≤ 1 := by
    rcases le_or_gt 0 b with h | h
    · have := fmod_of_nonneg h one_pos
      rw [abs_of_nonneg this.1]; exact this.2.le
    · have := fmod_of_neg h one_pos
      rw [abs_of_nonpos this.2]; linarith [this.1]
  unfold FL.npMod
  simp only
  split
  · rename_i hc
    have hneg : FL.fmod b 1 < 0 := by
      by_contra h
      exact hc.2 ⟨fun h' => absurd h' (by norm_num), fun h' => absurd h' h⟩
    refine ⟨truncInt (b / 1) - 1, ?_⟩
    have e : b - ((truncInt (b / 1) - 1 : ℤ) : ℝ) = FL.fmod b 1 + 1 := by unfold FL.fmod; push_cast; ring
    rw [e]
    refine (rel_err hr _).trans ?_
    rw [← hu]
    have := (abs_le.1 hm).1
    rw [abs_of_nonneg (by linarith)]
    nlinarith
  · refine ⟨truncInt (b / 1), ?_⟩
    have e : b - ((truncInt (b / 1) : ℤ) : ℝ) = FL.fmod b 1 := by unfold FL.fmod; ring
    rw [e, sub_self, abs_zero]
    exact hu0.le

/-- the value whose integer part is the index, and its distance to the exact one -/
theorem scaled_err {rnd : ℝ → ℝ} (hr : IsNearest rnd) {cs : CoordSys d} (hb : ProperBox cs) (n : ℕ) (p : Vec d) (i : Fin d)
    (hp : |p i - cs.lower i| ≤ 2 * (cs.upper i - cs.lower i)) :
    ∃ k : ℤ, (cs.periodic = false → k = 0) ∧
      |rnd (FL.getFrac rnd cs p i * n) - n * ((p i - cs.lower i) / (cs.upper i - cs.lower i) - k)| ≤ n * (12 * ulp) := by
  have hs : 0 < cs.upper i - cs.lower i := sub_pos.2 (hb i)
  set s := cs.upper i - cs.lower i with hsdef
  set r := p i - cs.lower i with hrdef
  set w := r / s with hw
  have hu : ulp = 1 / 2 ^ 53 := rfl
  have hw2 : |w| ≤ 2 := by rw [hw, abs_div, abs_of_pos hs, div_le_iff₀ hs]; exact hp
  have hrw : r = w * s := by rw [hw, div_mul_cancel₀ _ hs.ne']
  have ea := rel_err hr r
  have es := rel_err hr s
  rw [← hu] at ea es
  set a := rnd r with ha
  set t := rnd s with ht
  rw [abs_of_pos hs] at es
  have hu0 : 0 < ulp := by rw [hu]; positivity
  have hu1 : ulp ≤ 1 / 1000 := by rw [hu]; norm_num
  have ht1 : s * (1 - ulp) ≤ t := by have := (abs_le.1 es).1; linarith
  have ht0 : 0 < t := lt_of_lt_of_le (mul_pos hs (by linarith)) ht1
  have e1 : |a / t - w| ≤ 6 * ulp := by
    have h1 : a / t - w = (a - w * t) / t := by field_simp
    rw [h1, abs_div, abs_of_pos ht0, div_le_iff₀ ht0]
    have h2 : |a - w * t| ≤ |a - r| + |w| * |t - s| := by
      have : a - w * t = (a - r) - w * (t - s) := by rw [hrw]; ring
      rw [this]
      refine le_trans (abs_sub _ _) ?_
      rw [abs_mul]
    have h3 : |a - r| ≤ ulp * (2 * s) := le_trans ea (mul_le_mul_of_nonneg_left hp hu0.le)
    have h4 : |w| * |t - s| ≤ 2 * (ulp * s) := mul_le_mul hw2 es (abs_nonneg _) (by norm_num)
    have h5 : 6 * ulp * (s * (1 - ulp)) ≤ 6 * ulp * t := mul_le_mul_of_nonneg_left ht1 (by positivity)
    nlinarith [mul_pos hu0 hs]
  have e2 : |a / t| ≤ 2 + 6 * ulp := by
    have := abs_sub_abs_le_abs_sub (a / t) w
    linarith
  have eb := rel_err hr (a / t)
  rw [← hu] at eb
  set b := rnd (a / t) with hbdef
  have e3 : |b - w| ≤ 9 * ulp := by
    have h1 : |b - w| ≤ |b - a / t| + |a / t - w| := by
      have : b - w = (b - a / t) + (a / t - w) := by ring
      rw [this]; exact abs_add_le _ _
    have h2 : ulp * |a / t| ≤ ulp * (2 + 6 * ulp) := mul_le_mul_of_nonneg_left e2 hu0.le
    nlinarith
  have hn0 : (0 : ℝ) ≤ n := Nat.cast_nonneg n
  cases hper : cs.periodic with
  | true =>
    obtain ⟨j, hj⟩ := npMod_one_err hr b
    obtain ⟨hM0, hM1⟩ := npMod_range hr b one_pos (by simpa using isFloat_int (n := 1) (by norm_num))
    set M := FL.npMod rnd b 1 with hM
    have hfrac : FL.getFrac rnd cs p i = M := by
      unfold FL.getFrac FL.size
      simp only [hper, if_true]
      rfl
    rw [hfrac]
    refine ⟨j, fun h => absurd h (by simp), ?_⟩
    have e4 := rel_err hr (M * n)
    rw [← hu, abs_of_nonneg (mul_nonneg hM0 hn0)] at e4
    have e5 : ulp * (M * n) ≤ ulp * n := mul_le_mul_of_nonneg_left (mul_le_of_le_one_left hn0 hM1) hu0.le
    have e6 : rnd (M * n) - n * (w - j) = (rnd (M * n) - M * n) + n * ((M - (b - j)) + (b - w)) := by ring
    rw [e6]
    refine le_trans (abs_add_le _ _) ?_
    rw [abs_mul, abs_of_nonneg hn0]
    have e7 : (n : ℝ) * |(M - (b - j)) + (b - w)| ≤ n * (10 * ulp) := mul_le_mul_of_nonneg_left ((abs_add_le _ _).trans (by linarith)) hn0
    nlinarith [mul_nonneg hn0 hu0.le]
  | false =>
    have hfrac : FL.getFrac rnd cs p i = b := by
      unfold FL.getFrac FL.size
      simp only [hper, Bool.false_eq_true, if_false]
      rfl
    rw [hfrac]
    refine ⟨0, fun _ => rfl, ?_⟩
    have e4 := rel_err hr (b * n)
    rw [← hu, abs_mul, abs_of_nonneg hn0] at e4
    have hb3 : |b| ≤ 3 := by
      have := abs_sub_abs_le_abs_sub b w
      linarith
    have e5 : ulp * (|b| * n) ≤ ulp * (3 * n) := mul_le_mul_of_nonneg_left (mul_le_mul_of_nonneg_right hb3 hn0) hu0.le
    have e6 : rnd (b * n) - n * (w - (0 : ℤ)) = (rnd (b * n) - b * n) + n * (b - w) := by push_cast; ring
    rw [e6]
    refine le_trans (abs_add_le _ _) ?_
    rw [abs_mul, abs_of_nonneg hn0]
    have e7 : (n : ℝ) * |b - w| ≤ n * (9 * ulp) := mul_le_mul_of_nonneg_left e3 hn0
    nlinarith [mul_nonneg hn0 hu0.le]

theorem fl_numCells_bounds (rnd : ℝ → ℝ) (cs : CoordSys d) (dc : ℝ) (i : Fin d) : 1 ≤ FL.numCellsFor rnd cs dc i ∧ FL.numCellsFor rnd cs dc i ≤ 100 := by
  unfold FL.numCellsFor
  split
  · norm_num
  · have : (1 : ℤ) ≤ min 100 (max 1 (truncInt (rnd (FL.size rnd cs i / dc)))) := by omega
    have : min 100 (max 1 (truncInt (rnd (FL.size rnd cs i / dc)))) ≤ (100 : ℤ) := by omega
    omega

theorem fl_numCells_mul {rnd : ℝ → ℝ} (hr : IsNearest rnd) {cs : CoordSys d} (hb : ProperBox cs) {dc : ℝ} (hdc : 0 < dc) (i : Fin d)
    (h : 2 ≤ FL.numCellsFor rnd cs dc i ∨ dc ≤ cs.upper i - cs.lower i) :
    (FL.numCellsFor rnd cs dc i : ℝ) * dc ≤ (cs.upper i - cs.lower i) * (1 + ulp) ^ 2 := by
  have hs : 0 < cs.upper i - cs.lower i := sub_pos.2 (hb i)
  have hu0 : 0 < ulp := by unfold ulp; positivity
  set s := cs.upper i - cs.lower i with hsdef
  have hone : s ≤ s * (1 + ulp) ^ 2 := by nlinarith [mul_pos hs hu0, mul_pos (mul_pos hs hu0) hu0]
  have key : FL.numCellsFor rnd cs dc i = 1 ∨ (FL.numCellsFor rnd cs dc i : ℤ) ≤ truncInt (rnd (FL.size rnd cs i / dc)) := by
    unfold FL.numCellsFor
    rw [if_neg hdc.ne']
    have : (1 : ℤ) ≤ min 100 (max 1 (truncInt (rnd (FL.size rnd cs i / dc)))) := by omega
    omega
  rcases key with e | e
  · rcases h with h | h
    · omega
    · rw [e]; simpa using le_trans h hone
  · have ht : 0 < FL.size rnd cs i := fl_size_pos hr hb i
    have hq : 0 ≤ FL.size rnd cs i / dc := (div_pos ht hdc).le
    have h1 := rel_err hr (FL.size rnd cs i / dc)
    rw [abs_of_nonneg hq] at h1
    have h2 := rel_err hr s
    rw [abs_of_pos hs] at h2
    have h3 : FL.size rnd cs i ≤ s * (1 + ulp) := by
      have := (abs_le.1 h2).2
      unfold FL.size ulp
      rw [← hsdef]; linarith
    have h4 : (FL.numCellsFor rnd cs dc i : ℝ) ≤ rnd (FL.size rnd cs i / dc) := by
      have h5 : (FL.numCellsFor rnd cs dc i : ℝ) ≤ (truncInt (rnd (FL.size rnd cs i / dc)) : ℤ) := by exact_mod_cast e
      rw [truncInt_of_nonneg (rnd_nonneg hr hq)] at h5
      exact le_trans h5 (Int.floor_le _)
    have h5 : rnd (FL.size rnd cs i / dc) ≤ FL.size rnd cs i / dc * (1 + ulp) := by
      have := (abs_le.1 h1).2
      unfold ulp; linarith
    have h6 : FL.size rnd cs i / dc * (1 + ulp) * dc = FL.size rnd cs i * (1 + ulp) := by field_simp
    calc (FL.numCellsFor rnd cs dc i : ℝ) * dc ≤ FL.size rnd cs i / dc * (1 + ulp) * dc := mul_le_mul_of_nonneg_right (le_trans h4 h5) hdc.le
      _ = FL.size rnd cs i * (1 + ulp) := h6
      _ ≤ s * (1 + ulp) * (1 + ulp) := mul_le_mul_of_nonneg_right h3 (by linarith)
      _ = s * (1 + ulp) ^ 2 := by ring

/-- the scaled coordinates of near positions differ by less than 1, up to a multiple of the number of cells -/
theorem scaled_near {rnd : ℝ → ℝ} (hr : IsNearest rnd) {cs : CoordSys d} (hb : ProperBox cs) {dc : ℝ} (hdc : 0 < dc) (p q : Vec d) (i : Fin d)
    (h : 2 ≤ FL.numCellsFor rnd cs dc i ∨ dc ≤ cs.upper i - cs.lower i)
    (hp : |p i - cs.lower i| ≤ 2 * (cs.upper i - cs.lower i)) (hq : |q i - cs.lower i| ≤ 2 * (cs.upper i - cs.lower i))
    (k : ℤ) (hk : cs.periodic = false → k = 0) (hd : |q i - p i + k * (cs.upper i - cs.lower i)| ≤ dc * (1 - 1 / 2 ^ 40)) :
    ∃ m : ℤ, (cs.periodic = false → m = 0) ∧
      |rnd (FL.getFrac rnd cs q i * FL.numCellsFor rnd cs dc i) + ((m * FL.numCellsFor rnd cs dc i : ℤ) : ℝ) - rnd (FL.getFrac rnd cs p i * FL.numCellsFor rnd cs dc i)| < 1 := by
  obtain ⟨a, ha0, ha⟩ := scaled_err hr hb (FL.numCellsFor rnd cs dc i) p i hp
  obtain ⟨b, hb0, hb'⟩ := scaled_err hr hb (FL.numCellsFor rnd cs dc i) q i hq
  have hs : 0 < cs.upper i - cs.lower i := sub_pos.2 (hb i)
  have hmul := fl_numCells_mul hr hb hdc i h
  obtain ⟨n1, n2⟩ := fl_numCells_bounds rnd cs dc i
  set n := FL.numCellsFor rnd cs dc i with hn
  set s := cs.upper i - cs.lower i with hsdef
  have hnR : (0 : ℝ) < n := by exact_mod_cast n1
  have hn2 : (n : ℝ) ≤ 100 := by exact_mod_cast n2
  refine ⟨k + b - a, fun hper => by rw [hk hper, ha0 hper, hb0 hper]; rfl, ?_⟩
  set X := rnd (FL.getFrac rnd cs p i * n)
  set Y := rnd (FL.getFrac rnd cs q i * n)
  have e1 : Y + (((k + b - a) * n : ℤ) : ℝ) - X = (Y - n * ((q i - cs.lower i) / s - b)) - (X - n * ((p i - cs.lower i) / s - a)) + (q i - p i + k * s) * (n / s) := by
    push_cast; field_simp; ring
  have e2 : |(q i - p i + k * s) * (n / s)| ≤ (1 - 1 / 2 ^ 40) * (1 + ulp) ^ 2 := by
    rw [abs_mul, abs_of_pos (div_pos hnR hs)]
    calc _ ≤ dc * (1 - 1 / 2 ^ 40) * (n / s) := mul_le_mul_of_nonneg_right hd (div_pos hnR hs).le
      _ = (1 - 1 / 2 ^ 40) * (n * dc / s) := by ring
      _ ≤ (1 - 1 / 2 ^ 40) * (1 + ulp) ^ 2 := by
        refine mul_le_mul_of_nonneg_left ?_ (by norm_num)
        rw [div_le_iff₀ hs]; linarith
  rw [e1]
  have hu0 : 0 < ulp := by unfold ulp; positivity
  have e3 : (n : ℝ) * (12 * ulp) ≤ 1200 * ulp := by nlinarith
  have e4 : (1 - 1 / 2 ^ 40 : ℝ) * (1 + ulp) ^ 2 + 2400 * ulp < 1 := by unfold ulp; norm_num
  refine lt_of_le_of_lt (le_trans (abs_add_le _ _) (add_le_add (le_trans (abs_sub _ _) (add_le_add hb' ha)) e2)) ?_
  linarith

/-- C74 (near positions are found).  The number of cells, the fractional coordinates and the indices are computed with every operation rounded.  If the (exact) distance of two positions is below `dist_cutoff` by at least
one part in 2^40, then the cell of one is among the cells which a lookup at the other visits.  (Also the positions on the upper limit are allowed, as rounding can lead there; and the lookup may be at a position below the box, as those at which a minimization calls the fake potential.) -/
theorem C74_near_found {rnd : ℝ → ℝ} (hr : IsNearest rnd) {cs : CoordSys d} (hb : ProperBox cs) {dc : ℝ} (hdc : 0 < dc)
    (hsz : cs.periodic = true ∨ ∀ i, dc ≤ cs.upper i - cs.lower i) {c : CellList d α} (hper : c.periodic = cs.periodic) (hn : c.numCells = FL.numCellsFor rnd cs dc) (p q : Vec d)
    (hp : ∀ i, |p i - cs.lower i| ≤ 2 * (cs.upper i - cs.lower i))
    (hq : ∀ i, |q i - cs.lower i| ≤ 2 * (cs.upper i - cs.lower i) ∧ (cs.periodic = true → cs.lower i ≤ q i))
    (hd : cs.distance p q ≤ dc * (1 - 1 / 2 ^ 40)) :
    FL.getIndex rnd c (FL.getFrac rnd cs q) ∈ c.calculateNeighbourIndices (FL.getIndex rnd c (FL.getFrac rnd cs p)) := by
  have hcomp : ∀ i, |cs.distDelta p q i| ≤ dc * (1 - 1 / 2 ^ 40) := fun i =>
    le_trans (abs_le_len _ i) (by rwa [distance_eq_len] at hd)
  cases hpe : cs.periodic with
  | true =>
    have hcp : c.periodic = true := by rw [hper, hpe]
    rw [CellList.mem_calculateNeighbourIndices_periodic hcp]
    have hfl : ∀ (x : Vec d) i, cs.lower i ≤ x i → IsFloat (FL.getFrac rnd cs x i) ∧ 0 ≤ FL.getFrac rnd cs x i ∧ FL.getFrac rnd cs x i < 1 := fun x i hx => getFrac_of_ge hr hb hpe x i hx
    have key : ∀ i, ∃ o : ℤ, (o = -1 ∨ o = 0 ∨ o = 1) ∧ (FL.getIndex rnd c (FL.getFrac rnd cs p) i + o) % (c.numCells i : ℤ) = FL.getIndex rnd c (FL.getFrac rnd cs q) i := by
      intro i
      have hpi : 0 ≤ FL.getFrac rnd cs p i := by
        unfold FL.getFrac
        simp only [hpe, if_true]
        exact (npMod_range hr _ one_pos (by simpa using isFloat_int (n := 1) (by norm_num))).1
      have hqi := hfl q i ((hq i).2 hpe)
      obtain ⟨n1, n2⟩ := fl_numCells_bounds rnd cs dc i
      have en : c.numCells i = FL.numCellsFor rnd cs dc i := by rw [hn]
      unfold FL.getIndex
      simp only [hcp, if_true, en]
      set n := FL.numCellsFor rnd cs dc i with hndef
      have hu0 : 0 ≤ rnd (FL.getFrac rnd cs p i * n) := rnd_nonneg hr (mul_nonneg hpi (Nat.cast_nonneg n))
      have hw0 : 0 ≤ rnd (FL.getFrac rnd cs q i * n) := rnd_nonneg hr (mul_nonneg hqi.2.1 (Nat.cast_nonneg n))
      have hw1 := rnd_mul_lt hr hqi.1 hqi.2.2 n1 (by omega)
      rw [truncInt_of_nonneg hu0, truncInt_of_nonneg hw0]
      set w := rnd (FL.getFrac rnd cs q i * n) with hwdef
      set u := rnd (FL.getFrac rnd cs p i * n) with hudef
      have hq0 : 0 ≤ ⌊w⌋ := Int.floor_nonneg.2 hw0
      have hq1 : ⌊w⌋ < n := Int.floor_lt.2 (by exact_mod_cast hw1)
      rcases Nat.lt_or_ge n 2 with h1 | h2
      · have e : n = 1 := by omega
        refine ⟨0, by simp, ?_⟩
        have : ⌊w⌋ = 0 := by omega
        rw [this, e]
        simp
      · have hd1 := hcomp i
        rw [distDelta_periodic hpe] at hd1
        obtain ⟨k, hk⟩ := wrap_attained (size_pos hb i) (q i - p i)
        have hd2 : |q i - p i + k * (cs.upper i - cs.lower i)| ≤ dc * (1 - 1 / 2 ^ 40) := by
          have := le_trans (le_abs_self _) hd1
          rw [hk] at this
          exact this
        obtain ⟨m, -, hm⟩ := scaled_near hr hb hdc p q i (.inl h2) (hp i) (hq i).1 k (fun h => by rw [hpe] at h; cases h) hd2
        rw [← hndef, ← hwdef, ← hudef, abs_lt] at hm
        have e3 : ⌊w + ((m * n : ℤ) : ℝ)⌋ = ⌊w⌋ + m * n := Int.floor_add_intCast _ _
        have l1 : ⌊w + ((m * n : ℤ) : ℝ)⌋ < ⌊u⌋ + 2 := by
          rw [Int.floor_lt]; push_cast; have := Int.lt_floor_add_one u; push_cast at hm; linarith
        have l2 : ⌊u⌋ < ⌊w + ((m * n : ℤ) : ℝ)⌋ + 2 := by
          rw [Int.floor_lt]; push_cast; have := Int.lt_floor_add_one (w + ((m * n : ℤ) : ℝ))
          push_cast at this hm ⊢; linarith
        rw [e3] at l1 l2
        refine ⟨⌊w⌋ + m * n - ⌊u⌋, by omega, ?_⟩
        have : ⌊u⌋ + (⌊w⌋ + m * n - ⌊u⌋) = ⌊w⌋ + m * n := by ring
        rw [this, Int.add_mul_emod_self_right, Int.emod_eq_of_lt hq0 hq1]
    choose o ho1 ho2 using key
    exact ⟨o, ho1, ho2⟩
  | false =>
    have hcp : c.periodic = false := by rw [hper, hpe]
    have hsz' : ∀ i, dc ≤ cs.upper i - cs.lower i := by simpa [hpe] using hsz
    rw [CellList.mem_calculateNeighbourIndices_nonperiodic hcp]
    have hrange : ∀ i, 0 ≤ FL.getIndex rnd c (FL.getFrac rnd cs q) i ∧ FL.getIndex rnd c (FL.getFrac rnd cs q) i < (c.numCells i : ℤ) + 2 := by
      intro i
      have hn1 : 1 ≤ c.numCells i := by rw [hn]; exact (fl_numCells_bounds rnd cs dc i).1
      simp only [FL.getIndex, CellList.total, hcp, Bool.false_eq_true, if_false]
      omega
    refine ⟨fun i => ?_, fun i => hrange i⟩
    have hd1 := hcomp i
    rw [distDelta_nonperiodic hpe] at hd1
    obtain ⟨m, hm0, hm⟩ := scaled_near hr hb hdc p q i (.inr (hsz' i)) (hp i) (hq i).1 0 (fun _ => rfl) (by simpa using hd1)
    rw [hm0 hpe] at hm
    have := abs_truncInt_sub_le (x := rnd (FL.getFrac rnd cs p i * FL.numCellsFor rnd cs dc i)) (y := rnd (FL.getFrac rnd cs q i * FL.numCellsFor rnd cs dc i)) (by simpa using hm)
    simp only [FL.getIndex, hcp, CellList.total, Bool.false_eq_true, if_false, hn]
    rw [abs_le] at this ⊢
    omega

/-- C74 (the stored positions are such positions): normalized positions satisfy the hypotheses of `C74_near_found`. -/
theorem C74_normalized_in_reach {rnd : ℝ → ℝ} (hr : IsNearest rnd) {cs : CoordSys d} (hb : ProperBox cs) (hf : FloatBox cs) (hp : cs.periodic = true) (pos : Vec d) (i : Fin d) :
    |FL.normalizePosition rnd cs pos i - cs.lower i| ≤ 2 * (cs.upper i - cs.lower i) ∧ (cs.periodic = true → cs.lower i ≤ FL.normalizePosition rnd cs pos i) := by
  obtain ⟨h1, h2⟩ := C74_normalized hr hb hf hp pos i
  refine ⟨?_, fun _ => h1⟩
  rw [abs_of_nonneg (by linarith)]
  have hs : 0 < cs.upper i - cs.lower i := sub_pos.2 (hb i)
  have h3 := (hr (cs.lower i + rnd (cs.upper i - cs.lower i))).2 _ (hf i).2
  have h4 := rel_err hr (cs.upper i - cs.lower i)
  rw [abs_of_pos hs] at h4
  have e : cs.upper i - (cs.lower i + rnd (cs.upper i - cs.lower i)) = -(rnd (cs.upper i - cs.lower i) - (cs.upper i - cs.lower i)) := by ring
  rw [e, abs_neg] at h3
  have h5 := (abs_le.1 (le_trans h3 h4)).2
  have h6 := (abs_le.1 h4).2
  norm_num at h5 h6
  linarith

/-! ## What rounding does break -/

namespace C74Demo

/-- the unit interval -/
def box : CoordSys 1 := ⟨fun _ => 0, fun _ => 1, true⟩
/-- a position just below the lower limit -/
def below : Vec 1 := fun _ => -(1 / 2 ^ 60)
def cells : CellList 1 ℕ := CellList.mk' (fun _ => 4) true

theorem proper : ProperBox box := fun _ => by simp [box]
theorem hbp : box.periodic = true := rfl
theorem one_float : IsFloat 1 := by simpa using isFloat_int (n := 1) (by norm_num)
theorem floats : FloatBox box := fun _ => ⟨isFloat_zero, one_float⟩

theorem below_float : IsFloat (-(1 / 2 ^ 60) : ℝ) := ⟨-1, -60, by norm_num, by norm_num [zpow_neg]⟩

theorem rnd_near_one {rnd : ℝ → ℝ} (hr : IsNearest rnd) : rnd (-(1 / 2 ^ 60) + 1) = 1 := by
  have h1 : rnd (-(1 / 2 ^ 60) + 1) ≤ 1 := rnd_le hr one_float (by norm_num)
  rcases eq_or_lt_of_le h1 with h | h
  · exact h
  · exfalso
    have h2 := float_lt_one (hr _).1 h
    have h3 := (hr (-(1 / 2 ^ 60) + 1)).2 1 one_float
    rw [abs_of_nonneg (a := 1 - (-(1 / 2 ^ 60) + 1)) (by norm_num), abs_of_nonpos (by norm_num at h2 ⊢; linarith)] at h3
    norm_num at h2 h3
    linarith

theorem npMod_below {rnd : ℝ → ℝ} (hr : IsNearest rnd) : FL.npMod rnd (-(1 / 2 ^ 60)) 1 = 1 := by
  have e : FL.fmod (-(1 / 2 ^ 60)) 1 = -(1 / 2 ^ 60) := by
    unfold FL.fmod truncInt
    rw [if_neg (by norm_num)]
    have : ⌈(-(1 / 2 ^ 60) : ℝ) / 1⌉ = 0 := by rw [Int.ceil_eq_iff]; norm_num
    rw [this]; norm_num
  unfold FL.npMod
  simp only [e]
  rw [if_pos (by norm_num), rnd_near_one hr]

theorem size_box {rnd : ℝ → ℝ} (hr : IsNearest rnd) : FL.size rnd box 0 = 1 := by
  simp only [FL.size, box, sub_zero]
  exact rnd_of_isFloat hr one_float

theorem normalized_below {rnd : ℝ → ℝ} (hr : IsNearest rnd) : FL.normalizePosition rnd box below 0 = 1 := by
  unfold FL.normalizePosition
  rw [if_pos hbp, size_box hr]
  simp only [box, below, sub_zero, add_zero]
  rw [rnd_of_isFloat hr below_float, npMod_below hr, rnd_of_isFloat hr one_float]

/-- C74 (the upper limit can be reached).  In floating-point arithmetic, the normalized position can be equal to the upper limit, which is outside of the half-open box of the exact operation (C02), and normalizing it again gives
another number, the lower limit. -/
theorem _root_.NF.C74_upper_limit_reached {rnd : ℝ → ℝ} (hr : IsNearest rnd) :
    FL.normalizePosition rnd box below 0 = box.upper 0 ∧ FL.normalizePosition rnd box (FL.normalizePosition rnd box below) 0 = box.lower 0 := by
  refine ⟨normalized_below hr, ?_⟩
  unfold FL.normalizePosition
  rw [if_pos hbp, if_pos hbp, size_box hr]
  simp only [box, below, sub_zero, add_zero]
  rw [rnd_of_isFloat hr below_float, npMod_below hr, rnd_of_isFloat hr one_float, rnd_of_isFloat hr one_float, npMod_one_of_nonneg zero_le_one, Int.fract_one, rnd_of_isFloat hr isFloat_zero]

/-- C74 (normalizing is needed).  Adding the same position to the cell list without normalizing it first raises IndexError, although `get_frac` maps into the box by itself in exact arithmetic (C09). -/
theorem _root_.NF.C74_unnormalized_fails {rnd : ℝ → ℝ} (hr : IsNearest rnd) : FL.addPointChecked rnd cells (FL.getFrac rnd box below) 0 = .error .index := by
  have e : FL.getFrac rnd box below 0 = 1 := by
    unfold FL.getFrac
    simp only []
    rw [if_pos hbp, size_box hr]
    simp only [box, below, sub_zero, div_one]
    rw [rnd_of_isFloat hr below_float, rnd_of_isFloat hr below_float, npMod_below hr]
  unfold FL.addPointChecked
  simp only []
  rw [if_neg]
  intro h
  have h2 := (h 0).2
  unfold FL.getIndex at h2
  simp only [] at h2
  rw [if_pos (show cells.periodic = true from rfl), e] at h2
  have h4 : IsFloat (4 : ℝ) := by simpa using isFloat_int (n := 4) (by norm_num)
  have e2 : (1 : ℝ) * (cells.numCells 0 : ℝ) = 4 := by simp [cells, CellList.mk']
  rw [e2, rnd_of_isFloat hr h4, truncInt_of_nonneg (by norm_num)] at h2
  have e3 : ⌊(4 : ℝ)⌋ = 4 := by exact_mod_cast Int.floor_intCast (R := ℝ) 4
  rw [e3] at h2
  simp [CellList.total, cells, CellList.mk'] at h2

/-! ### Two positions within the cutoff whose cells are not neighbours -/

/-- 0.9696969696969696 -/
def p66 : ℝ := 8734253822779143 / 2 ^ 53
/-- 0.9848484848484848 -/
def q66 : ℝ := 8870726538760067 / 2 ^ 53
/-- 1/66, rounded: 0.015151515151515152 -/
def dc66 : ℝ := 1091781727847393 / 2 ^ 56

theorem p66_float : IsFloat p66 := ⟨8734253822779143, -53, by norm_num, by unfold p66; norm_num [zpow_neg]⟩
theorem q66_float : IsFloat q66 := ⟨8870726538760067, -53, by norm_num, by unfold q66; norm_num [zpow_neg]⟩
theorem dc66_float : IsFloat dc66 := ⟨1091781727847393, -56, by norm_num, by unfold dc66; norm_num [zpow_neg]⟩

/-- floats of at least `2^a` are multiples of `2^(a-52)` -/
theorem float_multiple {f : ℝ} (hf : IsFloat f) (a : ℤ) (h : (2 : ℝ) ^ a ≤ f) : ∃ z : ℤ, f = z * 2 ^ (a - 52) := by
  obtain ⟨m, e, hm, rfl⟩ := hf
  have hm' : (m : ℝ) < 2 ^ 53 := by
    have : ((m : ℤ) : ℝ) < ((2 ^ 53 : ℤ) : ℝ) := Int.cast_lt.2 (abs_lt.1 hm).2
    norm_num at this ⊢
    exact this
  have h1 : (2 : ℝ) ^ a < 2 ^ (53 + e) := by
    rw [zpow_add₀ (by norm_num)]
    refine lt_of_le_of_lt h ?_
    have : (0 : ℝ) < 2 ^ e := by positivity
    have h2 : ((2 : ℝ) ^ (53 : ℤ)) = 2 ^ 53 := by norm_cast
    rw [h2]
    exact mul_lt_mul_of_pos_right hm' this
  have h2 : a < 53 + e := (zpow_lt_zpow_iff_right₀ (by norm_num)).1 h1
  obtain ⟨n, hn⟩ : ∃ n : ℕ, e = (a - 52) + n := ⟨(e - (a - 52)).toNat, by omega⟩
  refine ⟨m * 2 ^ n, ?_⟩
  rw [hn, zpow_add₀ (by norm_num), zpow_natCast]
  push_cast
  ring

theorem getFrac_box {rnd : ℝ → ℝ} (hr : IsNearest rnd) {x : ℝ} (hx : IsFloat x) (h0 : 0 ≤ x) (h1 : x < 1) : FL.getFrac rnd box (fun _ => x) 0 = x := by
  unfold FL.getFrac
  simp only []
  rw [if_pos hbp, size_box hr]
  simp only [box, sub_zero, div_one]
  rw [rnd_of_isFloat hr hx, rnd_of_isFloat hr hx, npMod_one_of_nonneg h0, Int.fract_eq_self.2 ⟨h0, h1⟩]

theorem index_p {rnd : ℝ → ℝ} (hr : IsNearest rnd) : ⌊rnd (p66 * 66)⌋ = 63 := by
  rw [Int.floor_eq_iff]
  have h63 : IsFloat (63 : ℝ) := by simpa using isFloat_int (n := 63) (by norm_num)
  constructor
  · push_cast
    exact le_rnd hr h63 (by unfold p66; norm_num)
  · push_cast
    by_contra hge
    push Not at hge
    have hg : IsFloat (64 - 1 / 2 ^ 47 : ℝ) := ⟨2 ^ 53 - 1, -47, by norm_num, by norm_num [zpow_neg]⟩
    have h1 := (hr (p66 * 66)).2 _ hg
    unfold p66 at h1 hge
    rw [abs_of_nonneg (by norm_num at hge ⊢; linarith), abs_of_nonpos (by norm_num)] at h1
    norm_num at hge h1
    linarith

theorem index_q {rnd : ℝ → ℝ} (hr : IsNearest rnd) : ⌊rnd (q66 * 66)⌋ = 65 := by
  have h65 : IsFloat (65 : ℝ) := by simpa using isFloat_int (n := 65) (by norm_num)
  have h64 : IsFloat (64 : ℝ) := by simpa using isFloat_int (n := 64) (by norm_num)
  have hle : rnd (q66 * 66) ≤ 65 := rnd_le hr h65 (by unfold q66; norm_num)
  have hge : (64 : ℝ) ≤ rnd (q66 * 66) := le_rnd hr h64 (by unfold q66; norm_num)
  have : rnd (q66 * 66) = 65 := by
    rcases eq_or_lt_of_le hle with h | h
    · exact h
    · exfalso
      obtain ⟨z, hz⟩ := float_multiple (hr (q66 * 66)).1 6 (by norm_num; exact hge)
      have e : ((2 : ℝ) ^ ((6 : ℤ) - 52)) = 1 / 2 ^ 46 := by norm_num [zpow_neg]
      rw [e] at hz
      have hz1 : z < 65 * 2 ^ 46 := by
        have : (z : ℝ) < ((65 * 2 ^ 46 : ℤ) : ℝ) := by
          rw [hz] at h
          push_cast
          norm_num at h ⊢
          linarith
        exact Int.cast_lt.1 this
      have hz2 : (z : ℝ) ≤ ((65 * 2 ^ 46 - 1 : ℤ) : ℝ) := Int.cast_le.2 (by omega)
      have h1 := (hr (q66 * 66)).2 65 h65
      have h2 : rnd (q66 * 66) ≤ 65 - 1 / 2 ^ 46 := by
        rw [hz]
        push_cast at hz2
        norm_num at hz2 ⊢
        linarith
      unfold q66 at h1 h2
      rw [abs_of_nonpos (by norm_num at h2 ⊢; linarith), abs_of_nonneg (by norm_num)] at h1
      norm_num at h1 h2
      linarith
  rw [this]
  exact_mod_cast Int.floor_intCast (R := ℝ) 65

theorem num_cells_66 {rnd : ℝ → ℝ} (hr : IsNearest rnd) : FL.numCellsFor rnd box dc66 = fun _ => 66 := by
  funext i
  have hi : i = 0 := Subsingleton.elim _ _
  subst hi
  have h66 : IsFloat (66 : ℝ) := by simpa using isFloat_int (n := 66) (by norm_num)
  have h64 : IsFloat (64 : ℝ) := by simpa using isFloat_int (n := 64) (by norm_num)
  have h67 : IsFloat (67 : ℝ) := by simpa using isFloat_int (n := 67) (by norm_num)
  have key : rnd (1 / dc66) = 66 := by
    have hle : rnd (1 / dc66) ≤ 66 := rnd_le hr h66 (by unfold dc66; norm_num)
    have hge : (64 : ℝ) ≤ rnd (1 / dc66) := le_rnd hr h64 (by unfold dc66; norm_num)
    rcases eq_or_lt_of_le hle with h | h
    · exact h
    · exfalso
      obtain ⟨z, hz⟩ := float_multiple (hr (1 / dc66)).1 6 (by norm_num; simpa using hge)
      have e : ((2 : ℝ) ^ ((6 : ℤ) - 52)) = 1 / 2 ^ 46 := by norm_num [zpow_neg]
      rw [e] at hz
      have hz1 : z < 66 * 2 ^ 46 := by
        have : (z : ℝ) < ((66 * 2 ^ 46 : ℤ) : ℝ) := by
          rw [hz] at h
          push_cast
          norm_num at h ⊢
          linarith
        exact Int.cast_lt.1 this
      have hz2 : (z : ℝ) ≤ ((66 * 2 ^ 46 - 1 : ℤ) : ℝ) := Int.cast_le.2 (by omega)
      have h1 := (hr (1 / dc66)).2 66 h66
      have h2 : rnd (1 / dc66) ≤ 66 - 1 / 2 ^ 46 := by
        rw [hz]
        push_cast at hz2
        norm_num at hz2 ⊢
        linarith
      unfold dc66 at h1 h2
      rw [abs_of_nonpos (by norm_num at h2 ⊢; linarith), abs_of_nonneg (by norm_num)] at h1
      norm_num at h1 h2
      linarith
  unfold FL.numCellsFor
  rw [if_neg (by unfold dc66; norm_num), size_box hr, key, truncInt_of_nonneg (by norm_num)]
  have e3 : ⌊(66 : ℝ)⌋ = 66 := by exact_mod_cast Int.floor_intCast (R := ℝ) 66
  rw [e3]
  rfl

/-- C74 (the margin of `C74_near_found` is needed).  With any rounding to nearest, in the unit interval with `dist_cutoff` = 1/66 (rounded), the distance of 0.9696969696969696 and 0.9848484848484848 is below
`dist_cutoff`, but the one is stored in a cell which a lookup at the other does not visit.  In exact arithmetic this cannot happen (C08). -/
theorem _root_.NF.C74_near_missed {rnd : ℝ → ℝ} (hr : IsNearest rnd) :
    box.distance (fun _ => p66) (fun _ => q66) < dc66 ∧ ∃ cl',
      FL.addPointChecked rnd (CellList.mk' (FL.numCellsFor rnd box dc66) true) (FL.getFrac rnd box (FL.normalizePosition rnd box fun _ => q66)) 7 = .ok cl' ∧
      (cl'.calculateNeighbourIndices (FL.getIndex rnd cl' (FL.getFrac rnd box fun _ => p66))).flatMap cl'.cells = [] := by
  have hq0 : (0 : ℝ) ≤ q66 := by unfold q66; norm_num
  have hq1 : q66 < 1 := by unfold q66; norm_num
  have hp0 : (0 : ℝ) ≤ p66 := by unfold p66; norm_num
  have hp1 : p66 < 1 := by unfold p66; norm_num
  constructor
  · have h0 : (0 : ℝ) ≤ q66 - p66 := by unfold q66 p66; norm_num
    have h1 : q66 - p66 < 1 := by unfold q66 p66; norm_num
    have h2 : box.distDelta (fun _ => p66) (fun _ => q66) = fun _ => q66 - p66 := by
      funext i
      unfold CoordSys.distDelta pmod
      rw [if_pos hbp]
      simp only [CoordSys.size, box, sub_zero, div_one, one_mul]
      rw [Int.floor_eq_zero_iff.2 ⟨h0, h1⟩]
      simp only [Int.cast_zero, sub_zero]
      exact min_eq_right (by unfold q66 p66; norm_num)
    unfold CoordSys.distance CoordSys.norm
    rw [h2]
    simp only [Finset.univ_unique, Finset.sum_const, Finset.card_singleton, one_smul]
    rw [Real.sqrt_sq h0]
    unfold q66 p66 dc66
    norm_num
  · rw [num_cells_66 hr]
    have hnorm : FL.normalizePosition rnd box (fun _ => q66) = fun _ => q66 := by
      funext i
      have hi : i = 0 := Subsingleton.elim _ _
      subst hi
      unfold FL.normalizePosition
      rw [if_pos hbp, size_box hr]
      simp only [box, sub_zero, add_zero]
      rw [rnd_of_isFloat hr q66_float, npMod_one_of_nonneg hq0, Int.fract_eq_self.2 ⟨hq0, hq1⟩, rnd_of_isFloat hr q66_float]
    rw [hnorm]
    have iq : FL.getIndex rnd (CellList.mk' (fun _ : Fin 1 => 66) true : CellList 1 ℕ) (FL.getFrac rnd box fun _ => q66) = fun _ => 65 := by
      funext i
      have hi : i = 0 := Subsingleton.elim _ _
      subst hi
      unfold FL.getIndex
      simp only [CellList.mk', if_true]
      rw [getFrac_box hr q66_float hq0 hq1]
      push_cast
      rw [truncInt_of_nonneg (rnd_nonneg hr (mul_nonneg hq0 (by norm_num))), index_q hr]
    have ip : ∀ c : CellList 1 ℕ, c.periodic = true → c.numCells = (fun _ => 66) → FL.getIndex rnd c (FL.getFrac rnd box fun _ => p66) = fun _ => 63 := by
      intro c hc hn
      funext i
      have hi : i = 0 := Subsingleton.elim _ _
      subst hi
      unfold FL.getIndex
      simp only [hc, hn, if_true]
      rw [getFrac_box hr p66_float hp0 hp1]
      push_cast
      rw [truncInt_of_nonneg (rnd_nonneg hr (mul_nonneg hp0 (by norm_num))), index_p hr]
    unfold FL.addPointChecked
    simp only [iq]
    rw [if_pos (fun j => by simp [CellList.total, CellList.mk'])]
    refine ⟨_, rfl, ?_⟩
    rw [ip _ rfl rfl]
    rw [List.flatMap_eq_nil_iff]
    intro idx hidx
    rw [CellList.mem_calculateNeighbourIndices_periodic rfl] at hidx
    obtain ⟨o, ho1, ho2⟩ := hidx
    have h0 := ho2 0
    have h1 := ho1 0
    have hne : idx 0 ≠ 65 := by
      simp only [CellList.mk'] at h0
      rcases h1 with h | h | h <;> rw [h] at h0 <;> norm_num at h0 <;> omega
    have hne2 : idx ≠ fun _ : Fin 1 => (65 : ℤ) := fun h => hne (by rw [h])
    simp only [CellList.mk']
    simp only [show ¬ (65 : ℤ) < 0 by norm_num, if_false]
    exact Function.update_of_ne hne2 _ _

/-- Non-vacuity: with the rounding `rnd53`, the position just below the limit is stored. -/
example : ∃ cl' idx, FL.addPointChecked rnd53 cells (FL.getFrac rnd53 box (FL.normalizePosition rnd53 box below)) 7 = .ok cl' ∧ cl'.cells idx = [7] := by
  obtain ⟨cl', idx, h1, -, -, h2, -⟩ := C74_store_in_range C74_rounding_exists proper floats (cl := cells) rfl (fun _ => by simp [cells, CellList.mk']) below 7
  exact ⟨cl', idx, h1, h2⟩

example (i : Fin 1) : 0 ≤ FL.normalizePosition rnd53 box below i := (C74_normalized C74_rounding_exists proper floats rfl below i).1
example : FL.normalizePosition id box below = box.normalizePosition below := (C74_exact_arithmetic proper cells below below 0).1
example : ∀ idx ∈ cells.calculateNeighbourIndices (FL.getIndex rnd53 cells (FL.getFrac rnd53 box below)), ∀ i, 0 ≤ idx i ∧ idx i < cells.total i :=
  C74_lookup_in_range rnd53 box (fun _ => by simp [cells, CellList.mk']) below

/-- Non-vacuity of `C74_near_found`: the cells of 1/4 and 3/8 in the unit interval with cutoff 1/4. -/
example : FL.getIndex rnd53 (CellList.mk' (FL.numCellsFor rnd53 box (1 / 4)) true : CellList 1 ℕ) (FL.getFrac rnd53 box fun _ => 3 / 8) ∈
    (CellList.mk' (FL.numCellsFor rnd53 box (1 / 4)) true : CellList 1 ℕ).calculateNeighbourIndices (FL.getIndex rnd53 (CellList.mk' (FL.numCellsFor rnd53 box (1 / 4)) true : CellList 1 ℕ) (FL.getFrac rnd53 box fun _ => 1 / 4)) := by
  refine C74_near_found C74_rounding_exists proper (by norm_num) (.inl rfl) rfl rfl _ _ (fun _ => by norm_num [box, abs_of_pos])
    (fun _ => ⟨by norm_num [box, abs_of_pos], fun _ => by norm_num [box]⟩) ?_
  have h2 : box.distDelta (fun _ => 1 / 4) (fun _ => 3 / 8) = fun _ => 1 / 8 := by
    funext i
    unfold CoordSys.distDelta pmod
    rw [if_pos hbp]
    simp only [CoordSys.size, box, sub_zero, div_one, one_mul]
    have : ⌊(3 / 8 - 1 / 4 : ℝ)⌋ = 0 := Int.floor_eq_zero_iff.2 ⟨by norm_num, by norm_num⟩
    rw [this]
    norm_num
  unfold CoordSys.distance CoordSys.norm
  rw [h2]
  simp only [Finset.univ_unique, Finset.sum_const, Finset.card_singleton, one_smul]
  rw [Real.sqrt_sq (by norm_num)]
  norm_num

end C74Demo

end NF
