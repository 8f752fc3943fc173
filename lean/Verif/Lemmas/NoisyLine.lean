import Verif.Spec.NoisyValley
import Mathlib.Tactic.Linarith
import Mathlib.Tactic.Ring

/-! # The Nelder-Mead method in one dimension, with rounded points and noisy values -/

noncomputable section
namespace NF
open Spec

/-- What a comparison of two values in the valley says: `F` are the points considered. -/
structure Sees (g : ℝ → ℝ) (F : ℝ → Prop) (m W e : ℝ) : Prop where
  left : ∀ x y, F x → F y → |x - m| ≤ W → |y - m| ≤ W → x + e < y → g x ≤ g y → m < y
  right : ∀ x y, F x → F y → |x - m| ≤ W → |y - m| ≤ W → y + e < x → g x ≤ g y → y < m

theorem _root_.NF.Spec.NoisyValley.sees {g : ℝ → ℝ} {m W η : ℝ} (h : NoisyValley g m W η) : Sees g IsFloat m W η where
  left x y hx hy h1 h2 h3 h4 := by
    by_contra hc
    have := h.falls x y hx hy (by linarith [(abs_le.1 h1).1]) h3 (not_lt.1 hc)
    linarith
  right x y hx hy h1 h2 h3 h4 := by
    by_contra hc
    have := h.rises y x hy hx (not_lt.1 hc) h3 (by linarith [(abs_le.1 h1).2])
    linarith

theorem Sees.neg {g : ℝ → ℝ} {F : ℝ → Prop} {m W e : ℝ} (h : Sees g F m W e) : Sees (fun x => g (-x)) (fun x => F (-x)) (-m) W e where
  left x y hx hy h1 h2 h3 h4 := by
    have := h.right (-x) (-y) hx hy (by rw [abs_sub_comm]; convert h1 using 2; ring) (by rw [abs_sub_comm]; convert h2 using 2; ring) (by linarith) h4
    linarith
  right x y hx hy h1 h2 h3 h4 := by
    have := h.left (-x) (-y) hx hy (by rw [abs_sub_comm]; convert h1 using 2; ring) (by rw [abs_sub_comm]; convert h2 using 2; ring) (by linarith) h4
    linarith

/-- the two points `a`, `z`, the better one first -/
def Sorted2 (g : ℝ → ℝ) (a z a' b' : ℝ) : Prop := (a' = a ∧ b' = z ∧ g a ≤ g z) ∨ (a' = z ∧ b' = a ∧ g z ≤ g a)

/-- a computed point: one of those considered, in the valley, and near the exact one -/
def Pt (F : ℝ → Prop) (m W e x y : ℝ) : Prop := F x ∧ |x - m| ≤ W ∧ y - e ≤ x ∧ x ≤ y + e

theorem Pt.neg {F : ℝ → Prop} {m W e x y : ℝ} (h : Pt F m W e x y) : Pt (fun x => F (-x)) (-m) W e (-x) (-y) := by
  obtain ⟨h1, h2, h3, h4⟩ := h
  refine ⟨by simpa using h1, by rw [abs_sub_comm]; convert h2 using 2; ring, by linarith, by linarith⟩

/-- The step from the vertices `a`, `b` (where `a` is the better one) to `a'`, `b'`, with `k` calls. -/
inductive NMove (g : ℝ → ℝ) (F : ℝ → Prop) (m W e a b : ℝ) : ℝ → ℝ → ℕ → Prop
  | expand {xr xe} : Pt F m W e xr (2 * a - b) → Pt F m W e xe (3 * a - 2 * b) → g xr < g a → g xe < g xr → NMove g F m W e a b xe a 2
  | reflect {xr xe} : Pt F m W e xr (2 * a - b) → Pt F m W e xe (3 * a - 2 * b) → g xr < g a → g xr ≤ g xe → NMove g F m W e a b xr a 2
  | outside {xr z a' b'} : Pt F m W e xr (2 * a - b) → Pt F m W e z (3 / 2 * a - 1 / 2 * b) → g a ≤ g xr → g xr < g b → g z ≤ g xr → Sorted2 g a z a' b' → NMove g F m W e a b a' b' 2
  | inside {xr z a' b'} : Pt F m W e xr (2 * a - b) → Pt F m W e z (1 / 2 * a + 1 / 2 * b) → g a ≤ g xr → g b ≤ g xr → g z < g b → Sorted2 g a z a' b' → NMove g F m W e a b a' b' 2
  | shrinkOut {xr y z a' b'} : Pt F m W e xr (2 * a - b) → Pt F m W e y (3 / 2 * a - 1 / 2 * b) → Pt F m W e z (1 / 2 * a + 1 / 2 * b) → g a ≤ g xr → g xr < g b → g xr < g y →
      Sorted2 g a z a' b' → NMove g F m W e a b a' b' 3
  | shrinkIn {xr y z a' b'} : Pt F m W e xr (2 * a - b) → Pt F m W e y (1 / 2 * a + 1 / 2 * b) → Pt F m W e z (1 / 2 * a + 1 / 2 * b) → g a ≤ g xr → g b ≤ g xr → g b ≤ g y →
      Sorted2 g a z a' b' → NMove g F m W e a b a' b' 3

theorem Sorted2.neg {g : ℝ → ℝ} {a z a' b' : ℝ} (h : Sorted2 g a z a' b') : Sorted2 (fun x => g (-x)) (-a) (-z) (-a') (-b') := by
  rcases h with ⟨rfl, rfl, h⟩ | ⟨rfl, rfl, h⟩
  · exact .inl ⟨rfl, rfl, by simpa using h⟩
  · exact .inr ⟨rfl, rfl, by simpa using h⟩

theorem NMove.neg {g : ℝ → ℝ} {F : ℝ → Prop} {m W e a b a' b' : ℝ} {k : ℕ} (h : NMove g F m W e a b a' b' k) :
    NMove (fun x => g (-x)) (fun x => F (-x)) (-m) W e (-a) (-b) (-a') (-b') k := by
  have e1 : -(2 * a - b) = 2 * -a - -b := by ring
  have e2 : -(3 * a - 2 * b) = 3 * -a - 2 * -b := by ring
  have e3 : -(3 / 2 * a - 1 / 2 * b) = 3 / 2 * -a - 1 / 2 * -b := by ring
  have e4 : -(1 / 2 * a + 1 / 2 * b) = 1 / 2 * -a + 1 / 2 * -b := by ring
  cases h with
  | expand h1 h2 h3 h4 => exact .expand (e1 ▸ h1.neg) (e2 ▸ h2.neg) (by simpa using h3) (by simpa using h4)
  | reflect h1 h2 h3 h4 => exact .reflect (e1 ▸ h1.neg) (e2 ▸ h2.neg) (by simpa using h3) (by simpa using h4)
  | outside h1 h2 h3 h4 h5 h6 => exact .outside (e1 ▸ h1.neg) (e3 ▸ h2.neg) (by simpa using h3) (by simpa using h4) (by simpa using h5) h6.neg
  | inside h1 h2 h3 h4 h5 h6 => exact .inside (e1 ▸ h1.neg) (e4 ▸ h2.neg) (by simpa using h3) (by simpa using h4) (by simpa using h5) h6.neg
  | shrinkOut h1 h2 h3 h4 h5 h6 h7 => exact .shrinkOut (e1 ▸ h1.neg) (e3 ▸ h2.neg) (e4 ▸ h3.neg) (by simpa using h4) (by simpa using h5) (by simpa using h6) h7.neg
  | shrinkIn h1 h2 h3 h4 h5 h6 h7 => exact .shrinkIn (e1 ▸ h1.neg) (e4 ▸ h2.neg) (e4 ▸ h3.neg) (by simpa using h4) (by simpa using h5) (by simpa using h6) h7.neg

variable {g : ℝ → ℝ} {F : ℝ → Prop} {m W e : ℝ}

/-- a vertex -/
def In (F : ℝ → Prop) (m W x : ℝ) : Prop := F x ∧ |x - m| ≤ W

theorem In.neg {x : ℝ} (h : In F m W x) : In (fun x => F (-x)) (-m) W (-x) := by
  obtain ⟨h1, h2⟩ := h
  exact ⟨by simpa using h1, by rw [abs_sub_comm]; convert h2 using 2; ring⟩

theorem Pt.in {x y : ℝ} (h : Pt F m W e x y) : In F m W x := ⟨h.1, h.2.1⟩

theorem Sees.l (h : Sees g F m W e) {x y : ℝ} (hx : In F m W x) (hy : In F m W y) (h1 : x + e < y) (h2 : g x ≤ g y) : m < y := h.left x y hx.1 hy.1 hx.2 hy.2 h1 h2
theorem Sees.r (h : Sees g F m W e) {x y : ℝ} (hx : In F m W x) (hy : In F m W y) (h1 : y + e < x) (h2 : g x ≤ g y) : y < m := h.right x y hx.1 hy.1 hx.2 hy.2 h1 h2

/-! ## Where the points are: nothing accumulates, because the values never increase -/

def LowL (g : ℝ → ℝ) (F : ℝ → Prop) (m W H a : ℝ) : Prop := ∃ ρ, In F m W ρ ∧ m - H ≤ ρ ∧ ρ ≤ m ∧ g a ≤ g ρ
def LowR (g : ℝ → ℝ) (F : ℝ → Prop) (m W H a : ℝ) : Prop := ∃ ρ, In F m W ρ ∧ ρ ≤ m + H ∧ m ≤ ρ ∧ g a ≤ g ρ

/-- `a` is as low as a point on its side, not farther than `H` -/
def Low1 (g : ℝ → ℝ) (F : ℝ → Prop) (m W H a : ℝ) : Prop := (a ≤ m ∧ LowL g F m W H a) ∨ (m ≤ a ∧ LowR g F m W H a)
/-- `a` is as low as points on both sides, not farther than `H` -/
def Low2 (g : ℝ → ℝ) (F : ℝ → Prop) (m W H a : ℝ) : Prop := LowL g F m W H a ∧ LowR g F m W H a

theorem lowL_neg {H a : ℝ} (h : LowL g F m W H a) : LowR (fun x => g (-x)) (fun x => F (-x)) (-m) W H (-a) := by
  obtain ⟨ρ, h1, h2, h3, h4⟩ := h
  exact ⟨-ρ, h1.neg, by linarith, by linarith, by simpa using h4⟩
theorem lowR_neg {H a : ℝ} (h : LowR g F m W H a) : LowL (fun x => g (-x)) (fun x => F (-x)) (-m) W H (-a) := by
  obtain ⟨ρ, h1, h2, h3, h4⟩ := h
  exact ⟨-ρ, h1.neg, by linarith, by linarith, by simpa using h4⟩
theorem low1_neg {H a : ℝ} (h : Low1 g F m W H a) : Low1 (fun x => g (-x)) (fun x => F (-x)) (-m) W H (-a) := by
  rcases h with ⟨h1, h2⟩ | ⟨h1, h2⟩
  · exact .inr ⟨by linarith, lowL_neg h2⟩
  · exact .inl ⟨by linarith, lowR_neg h2⟩
theorem low2_neg {H a : ℝ} (h : Low2 g F m W H a) : Low2 (fun x => g (-x)) (fun x => F (-x)) (-m) W H (-a) := ⟨lowR_neg h.2, lowL_neg h.1⟩

theorem LowL.mono {H a a' : ℝ} (h : LowL g F m W H a) (hg : g a' ≤ g a) : LowL g F m W H a' := by
  obtain ⟨ρ, h1, h2, h3, h4⟩ := h
  exact ⟨ρ, h1, h2, h3, hg.trans h4⟩
theorem LowR.mono {H a a' : ℝ} (h : LowR g F m W H a) (hg : g a' ≤ g a) : LowR g F m W H a' := by
  obtain ⟨ρ, h1, h2, h3, h4⟩ := h
  exact ⟨ρ, h1, h2, h3, hg.trans h4⟩
theorem LowL.wide {H H' a : ℝ} (h : LowL g F m W H a) (hH : H ≤ H') : LowL g F m W H' a := by
  obtain ⟨ρ, h1, h2, h3, h4⟩ := h
  exact ⟨ρ, h1, by linarith, h3, h4⟩
theorem LowR.wide {H H' a : ℝ} (h : LowR g F m W H a) (hH : H ≤ H') : LowR g F m W H' a := by
  obtain ⟨ρ, h1, h2, h3, h4⟩ := h
  exact ⟨ρ, h1, by linarith, h3, h4⟩

theorem LowL.dist (hs : Sees g F m W e) {H a : ℝ} (ha : In F m W a) (h : LowL g F m W H a) : m - H - e ≤ a := by
  obtain ⟨ρ, h1, h2, h3, h4⟩ := h
  by_contra hc
  have := hs.l ha h1 (by linarith) h4
  linarith
theorem LowR.dist (hs : Sees g F m W e) {H a : ℝ} (ha : In F m W a) (h : LowR g F m W H a) : a ≤ m + H + e := by
  obtain ⟨ρ, h1, h2, h3, h4⟩ := h
  by_contra hc
  have := hs.r ha h1 (by linarith) h4
  linarith

theorem Low1.dist (hs : Sees g F m W e) {H a : ℝ} (he : 0 ≤ e) (hH : 0 ≤ H) (ha : In F m W a) (h : Low1 g F m W H a) : |a - m| ≤ H + e := by
  rw [abs_le]
  rcases h with ⟨h1, h2⟩ | ⟨h1, h2⟩
  · have := h2.dist hs ha
    constructor <;> linarith
  · have := h2.dist hs ha
    constructor <;> linarith
theorem Low2.dist (hs : Sees g F m W e) {H a : ℝ} (ha : In F m W a) (h : Low2 g F m W H a) : |a - m| ≤ H + e := by
  rw [abs_le]
  have := h.1.dist hs ha
  have := h.2.dist hs ha
  constructor <;> linarith

theorem NMove.in {a b a' b' : ℝ} {k : ℕ} (h : NMove g F m W e a b a' b' k) (ha : In F m W a) : In F m W a' ∧ In F m W b' := by
  have key : ∀ {z y a' b'}, Pt F m W e z y → Sorted2 g a z a' b' → In F m W a' ∧ In F m W b' := by
    rintro z y a' b' hz (⟨rfl, rfl, -⟩ | ⟨rfl, rfl, -⟩)
    exacts [⟨ha, hz.in⟩, ⟨hz.in, ha⟩]
  cases h with
  | expand h1 h2 => exact ⟨h2.in, ha⟩
  | reflect h1 h2 => exact ⟨h1.in, ha⟩
  | outside h1 h2 h3 h4 h5 h6 => exact key h2 h6
  | inside h1 h2 h3 h4 h5 h6 => exact key h2 h6
  | shrinkOut h1 h2 h3 h4 h5 h6 h7 => exact key h3 h7
  | shrinkIn h1 h2 h3 h4 h5 h6 h7 => exact key h3 h7

theorem Sorted2.le {a z a' b' : ℝ} (h : Sorted2 g a z a' b') : g a' ≤ g a ∧ g a' ≤ g b' := by
  rcases h with ⟨rfl, rfl, h⟩ | ⟨rfl, rfl, h⟩
  exacts [⟨le_rfl, h⟩, ⟨h, h⟩]

theorem NMove.le {a b a' b' : ℝ} {k : ℕ} (h : NMove g F m W e a b a' b' k) : g a' ≤ g a ∧ g a' ≤ g b' := by
  cases h with
  | expand h1 h2 h3 h4 => exact ⟨by linarith, by linarith⟩
  | reflect h1 h2 h3 h4 => exact ⟨by linarith, by linarith⟩
  | outside h1 h2 h3 h4 h5 h6 => exact h6.le
  | inside h1 h2 h3 h4 h5 h6 => exact h6.le
  | shrinkOut h1 h2 h3 h4 h5 h6 h7 => exact h7.le
  | shrinkIn h1 h2 h3 h4 h5 h6 h7 => exact h7.le

/-- What every step does: either the best vertex stays and the segment is halved, or the best vertex becomes the other one; and a step across `m` does not lead farther than the length of the segment. -/
theorem NMove.basic_pos (hs : Sees g F m W e) (he : 0 ≤ e) {a b a' b' : ℝ} {k : ℕ} (ha : In F m W a) (hab : a ≤ b) (h : NMove g F m W e a b a' b' k) :
    (a' = a ∧ |b' - a| ≤ (b - a) / 2 + e) ∨ (b' = a ∧ |a' - a| ≤ 2 * (b - a) + e ∧ ((a ≤ m ∧ m ≤ a') ∨ (a' ≤ m ∧ m ≤ a) → |a' - m| ≤ max (b - a) (5 * e) + 2 * e)) := by
  have m1 := le_max_left (b - a) (5 * e)
  have m2 := le_max_right (b - a) (5 * e)
  have key : ∀ {z y a' b'}, Pt F m W e z y → (y = 3 / 2 * a - 1 / 2 * b ∨ y = 1 / 2 * a + 1 / 2 * b) → Sorted2 g a z a' b' →
      (a' = a ∧ |b' - a| ≤ (b - a) / 2 + e) ∨ (b' = a ∧ |a' - a| ≤ 2 * (b - a) + e ∧ ((a ≤ m ∧ m ≤ a') ∨ (a' ≤ m ∧ m ≤ a) → |a' - m| ≤ max (b - a) (5 * e) + 2 * e)) := by
    rintro z y a' b' ⟨-, -, h1, h2⟩ hy (⟨rfl, rfl, -⟩ | ⟨rfl, rfl, -⟩)
    · refine .inl ⟨rfl, ?_⟩
      rw [abs_le]
      rcases hy with rfl | rfl <;> constructor <;> linarith
    · refine .inr ⟨rfl, ?_, ?_⟩
      · rw [abs_le]
        rcases hy with rfl | rfl <;> constructor <;> linarith
      · intro h
        rw [abs_le]
        rcases h with h | h <;> rcases hy with rfl | rfl <;> constructor <;> linarith
  cases h with
  | expand h1 h2 h3 h4 =>
    have i1 := h1.in
    have i2 := h2.in
    obtain ⟨-, -, p1, p2⟩ := h1
    obtain ⟨-, -, p3, p4⟩ := h2
    refine .inr ⟨rfl, by rw [abs_le]; constructor <;> linarith, fun hc => ?_⟩
    rcases le_or_gt (b - a) (3 * e) with hD | hD
    · rw [abs_le]
      rcases hc with h | h <;> constructor <;> linarith
    · have := hs.l i2 i1 (by linarith) h4.le
      rw [abs_le]
      rcases hc with h | h <;> constructor <;> linarith
  | reflect h1 h2 h3 h4 =>
    obtain ⟨-, -, p1, p2⟩ := h1
    refine .inr ⟨rfl, by rw [abs_le]; constructor <;> linarith, fun hc => ?_⟩
    rw [abs_le]
    rcases hc with h | h <;> constructor <;> linarith
  | outside h1 h2 h3 h4 h5 h6 => exact key h2 (.inl rfl) h6
  | inside h1 h2 h3 h4 h5 h6 => exact key h2 (.inr rfl) h6
  | shrinkOut h1 h2 h3 h4 h5 h6 h7 => exact key h3 (.inr rfl) h7
  | shrinkIn h1 h2 h3 h4 h5 h6 h7 => exact key h3 (.inr rfl) h7

theorem NMove.basic (hs : Sees g F m W e) (he : 0 ≤ e) {a b a' b' : ℝ} {k : ℕ} (ha : In F m W a) (h : NMove g F m W e a b a' b' k) :
    (a' = a ∧ |b' - a| ≤ |b - a| / 2 + e) ∨ (b' = a ∧ |a' - a| ≤ 2 * |b - a| + e ∧ ((a ≤ m ∧ m ≤ a') ∨ (a' ≤ m ∧ m ≤ a) → |a' - m| ≤ max |b - a| (5 * e) + 2 * e)) := by
  rcases le_total a b with hab | hab
  · rw [abs_of_nonneg (sub_nonneg.2 hab)]
    exact h.basic_pos hs he ha hab
  · have := h.neg.basic_pos hs.neg he ha.neg (by linarith)
    rw [abs_of_nonpos (sub_nonpos.2 hab)]
    have e1 : ∀ x y : ℝ, |-x - -y| = |x - y| := fun x y => by rw [abs_sub_comm]; congr 1; ring
    rw [e1, e1, e1, show -b - -a = -(b - a) by ring] at this
    rcases this with ⟨h1, h2⟩ | ⟨h1, h2, h3⟩
    · exact .inl ⟨by linarith, h2⟩
    · refine .inr ⟨by linarith, h2, fun hc => h3 ?_⟩
      rcases hc with h | h
      · exact .inr ⟨by linarith, by linarith⟩
      · exact .inl ⟨by linarith, by linarith⟩

theorem low1_step {H H' a a' : ℝ} (hH : H ≤ H') (ha' : In F m W a') (hg : g a' ≤ g a) (h : Low1 g F m W H a)
    (hc : (a ≤ m ∧ m ≤ a') ∨ (a' ≤ m ∧ m ≤ a) → |a' - m| ≤ H') : (Low1 g F m W H a' ∧ ((a ≤ m ∧ a' ≤ m) ∨ (m ≤ a ∧ m ≤ a'))) ∨ (Low2 g F m W H' a' ∧ |a' - m| ≤ H') := by
  rcases h with ⟨h1, h2⟩ | ⟨h1, h2⟩
  · rcases le_total a' m with h3 | h3
    · exact .inl ⟨.inl ⟨h3, h2.mono hg⟩, .inl ⟨h1, h3⟩⟩
    · have := abs_le.1 (hc (.inl ⟨h1, h3⟩))
      exact .inr ⟨⟨(h2.mono hg).wide hH, ⟨a', ha', by linarith, h3, le_rfl⟩⟩, abs_le.2 this⟩
  · rcases le_total m a' with h3 | h3
    · exact .inl ⟨.inr ⟨h3, h2.mono hg⟩, .inr ⟨h1, h3⟩⟩
    · have := abs_le.1 (hc (.inr ⟨h3, h1⟩))
      exact .inr ⟨⟨⟨a', ha', by linarith, h3, le_rfl⟩, (h2.mono hg).wide hH⟩, abs_le.2 this⟩

/-- where the vertices can be -/
def Dom (g : ℝ → ℝ) (F : ℝ → Prop) (m W e H a b : ℝ) : Prop :=
  (Low1 g F m W H a ∧ |b - a| ≤ H + 2 * e) ∨ (Low2 g F m W (H + 8 * e) a ∧ |b - a| ≤ 2 * H + 18 * e)

theorem Dom.step (hs : Sees g F m W e) (he : 0 ≤ e) {H a b a' b' : ℝ} {k : ℕ} (hH : 0 ≤ H) (ha : In F m W a) (hd : Dom g F m W e H a b) (h : NMove g F m W e a b a' b' k) : Dom g F m W e H a' b' := by
  have hin := (h.in ha).1
  have hle := h.le.1
  have hb := h.basic hs he ha
  rcases hd with ⟨h1, h2⟩ | ⟨h1, h2⟩
  · rcases hb with ⟨rfl, h3⟩ | ⟨rfl, h3, h4⟩
    · exact .inl ⟨h1, by linarith⟩
    · have hmax : max |b - b'| (5 * e) ≤ H + 5 * e := max_le (by linarith) (by linarith)
      rcases low1_step (H' := H + 8 * e) (by linarith) hin hle h1 (fun hc => (h4 hc).trans (by linarith)) with ⟨h5, h6⟩ | ⟨h5, h6⟩
      · refine .inl ⟨h5, ?_⟩
        have q1 := abs_le.1 (h1.dist hs he hH ha)
        have q2 := abs_le.1 (h5.dist hs he hH hin)
        rw [abs_le]
        rcases h6 with ⟨_, _⟩ | ⟨_, _⟩ <;> constructor <;> linarith
      · refine .inr ⟨h5, ?_⟩
        have q1 := abs_le.1 (h1.dist hs he hH ha)
        have q2 := abs_le.1 h6
        rw [abs_le]
        constructor <;> linarith
  · have h1' : Low2 g F m W (H + 8 * e) a' := ⟨h1.1.mono hle, h1.2.mono hle⟩
    refine .inr ⟨h1', ?_⟩
    rcases hb with ⟨rfl, h3⟩ | ⟨rfl, h3, h4⟩
    · linarith
    · have q1 := abs_le.1 (h1.dist hs ha)
      have q2 := abs_le.1 (h1'.dist hs hin)
      rw [abs_le]
      constructor <;> linarith

theorem Dom.bound (hs : Sees g F m W e) (he : 0 ≤ e) {H a b : ℝ} (hH : 0 ≤ H) (ha : In F m W a) (hd : Dom g F m W e H a b) : |a - m| + 2 * |b - a| ≤ 5 * H + 45 * e := by
  rcases hd with ⟨h1, h2⟩ | ⟨h1, h2⟩
  · have := h1.dist hs he hH ha
    linarith
  · have := h1.dist hs ha
    linarith

/-! ## Where the minimum is -/

/-- A step from a segment longer than the noise: an expansion, or the minimum is then not farther than twice the length. -/
theorem NMove.near_pos (hs : Sees g F m W e) (he : 0 ≤ e) {a b a' b' : ℝ} {k : ℕ} (ha : In F m W a) (hb : In F m W b) (hg : g a ≤ g b) (hab : 4 * e < b - a) (h : NMove g F m W e a b a' b' k) :
    |a' - m| ≤ 2 * |b' - a'| + 3 * e ∨
      (m < a - (b - a) + e ∧ b' = a ∧ |a' - (3 * a - 2 * b)| ≤ e ∧ (b - a) ≤ |b' - a'|) := by
  have hmb := hs.l ha hb (by linarith) hg
  have key : ∀ {z y xr a' b'}, Pt F m W e z y → (y = 3 / 2 * a - 1 / 2 * b ∨ y = 1 / 2 * a + 1 / 2 * b) → Sorted2 g a z a' b' → Pt F m W e xr (2 * a - b) → g a ≤ g xr →
      |a' - m| ≤ 2 * |b' - a'| + 3 * e := by
    rintro z y xr a' b' hz hy h5 hxr h6
    have hz' := hz.in
    have hmr := hs.r ha hxr.in (by linarith [hxr.2.2.2]) h6
    obtain ⟨-, -, p1, p2⟩ := hxr
    obtain ⟨-, -, p3, p4⟩ := hz
    rcases h5 with ⟨rfl, rfl, h5⟩ | ⟨rfl, rfl, h5⟩ <;> rcases hy with rfl | rfl
    · rw [abs_of_nonpos (show b' - a' ≤ 0 by linarith), abs_le]
      constructor <;> linarith
    · rw [abs_of_nonneg (show 0 ≤ b' - a' by linarith), abs_le]
      constructor <;> linarith
    · rw [abs_of_nonneg (show 0 ≤ b' - a' by linarith), abs_le]
      have := hs.l hz' ha (by linarith) h5
      constructor <;> linarith
    · rw [abs_of_nonpos (show b' - a' ≤ 0 by linarith), abs_le]
      have := hs.r hz' ha (by linarith) h5
      constructor <;> linarith
  cases h with
  | expand h1 h2 h3 h4 =>
    have q := hs.l h2.in h1.in (by linarith [h1.2.2.1, h2.2.2.2]) h4.le
    obtain ⟨-, -, p1, p2⟩ := h1
    obtain ⟨-, -, p3, p4⟩ := h2
    refine .inr ⟨by linarith, rfl, by rw [abs_le]; constructor <;> linarith, ?_⟩
    rw [abs_of_nonneg (by linarith)]
    linarith
  | reflect h1 h2 h3 h4 =>
    left
    have q1 := hs.l h1.in ha (by linarith [h1.2.2.2]) h3.le
    have q2 := hs.r h1.in h2.in (by linarith [h1.2.2.1, h2.2.2.2]) h4
    obtain ⟨-, -, p1, p2⟩ := h1
    obtain ⟨-, -, p3, p4⟩ := h2
    rw [abs_of_nonneg (show 0 ≤ a - a' by linarith), abs_le]
    constructor <;> linarith
  | outside h1 h2 h3 h4 h5 h6 => exact .inl (key h2 (.inl rfl) h6 h1 h3)
  | inside h1 h2 h3 h4 h5 h6 => exact .inl (key h2 (.inr rfl) h6 h1 h3)
  | shrinkOut h1 h2 h3 h4 h5 h6 h7 => exact .inl (key h3 (.inr rfl) h7 h1 h4)
  | shrinkIn h1 h2 h3 h4 h5 h6 h7 => exact .inl (key h3 (.inr rfl) h7 h1 h4)

/-- the segment was never shrunk, or the minimum is near -/
def NNear (g : ℝ → ℝ) (F : ℝ → Prop) (m W e D0 X a b : ℝ) : Prop :=
  D0 ≤ |b - a| ∨ |a - m| ≤ 2 * |b - a| + 3 * e ∨ Low1 g F m W X a ∨ Low2 g F m W (X + 8 * e) a

theorem NNear.neg {D0 X a b : ℝ} (h : NNear g F m W e D0 X a b) : NNear (fun x => g (-x)) (fun x => F (-x)) (-m) W e D0 X (-a) (-b) := by
  have e1 : ∀ x y : ℝ, |-x - -y| = |x - y| := fun x y => by rw [abs_sub_comm]; congr 1; ring
  unfold NNear
  rw [e1, e1]
  exact h.imp id fun h => h.imp id fun h => h.imp low1_neg low2_neg

theorem NNear.step_pos (hs : Sees g F m W e) (he : 0 ≤ e) {D0 X a b a' b' : ℝ} {k : ℕ} (hX : 11 * e ≤ X) (hD0 : 4 * e < D0) (ha : In F m W a) (hb : In F m W b) (hg : g a ≤ g b) (hab : a ≤ b)
    (hn : NNear g F m W e D0 X a b) (h : NMove g F m W e a b a' b' k) : NNear g F m W e D0 X a' b' := by
  have hin := (h.in ha).1
  have hle := h.le.1
  have hbas := h.basic_pos hs he ha hab
  have hX0 : 0 ≤ X := by linarith
  unfold NNear at hn
  rw [abs_of_nonneg (sub_nonneg.2 hab)] at hn
  rcases le_or_gt (b - a) (4 * e) with hD | hD
  · have key : Low1 g F m W X a → Low1 g F m W X a' ∨ Low2 g F m W (X + 8 * e) a' := by
      intro h1
      rcases hbas with ⟨rfl, -⟩ | ⟨-, -, h2⟩
      · exact .inl h1
      · have hmax : max (b - a) (5 * e) ≤ 5 * e := max_le (by linarith) le_rfl
        rcases low1_step (H' := X + 8 * e) (by linarith) hin hle h1 (fun hc => (h2 hc).trans (by linarith)) with ⟨h3, -⟩ | ⟨h3, -⟩
        exacts [.inl h3, .inr h3]
    rcases hn with h1 | h1 | h1 | h1
    · linarith
    · refine .inr (.inr (key ?_))
      have := abs_le.1 h1
      rcases le_total a m with h2 | h2
      · exact .inl ⟨h2, a, ha, by linarith, h2, le_rfl⟩
      · exact .inr ⟨h2, a, ha, by linarith, h2, le_rfl⟩
    · exact .inr (.inr (key h1))
    · exact .inr (.inr (.inr ⟨h1.1.mono hle, h1.2.mono hle⟩))
  · rcases h.near_pos hs he ha hb hg hD with h1 | ⟨h1, rfl, h3, h4⟩
    · exact .inr (.inl h1)
    · have h3' := abs_le.1 h3
      rcases hn with h5 | h5 | h5 | h5
      · exact .inl (h5.trans h4)
      · refine .inr (.inl ?_)
        have := abs_le.1 h5
        rw [abs_of_nonneg (show 0 ≤ b' - a' by linarith), abs_le]
        constructor <;> linarith
      · have q := abs_le.1 (h5.dist hs he hX0 ha)
        rcases low1_step (H' := X + 8 * e) (by linarith) hin hle h5 (fun hc => by
          rw [abs_le]
          rcases hc with hc | hc <;> constructor <;> linarith) with ⟨h6, -⟩ | ⟨h6, -⟩
        exacts [.inr (.inr (.inl h6)), .inr (.inr (.inr h6))]
      · exact .inr (.inr (.inr ⟨h5.1.mono hle, h5.2.mono hle⟩))

theorem NNear.step (hs : Sees g F m W e) (he : 0 ≤ e) {D0 X a b a' b' : ℝ} {k : ℕ} (hX : 11 * e ≤ X) (hD0 : 4 * e < D0) (ha : In F m W a) (hb : In F m W b) (hg : g a ≤ g b)
    (hn : NNear g F m W e D0 X a b) (h : NMove g F m W e a b a' b' k) : NNear g F m W e D0 X a' b' := by
  rcases le_total a b with hab | hab
  · exact hn.step_pos hs he hX hD0 ha hb hg hab h
  · have := (hn.neg.step_pos hs.neg he hX hD0 ha.neg hb.neg (by simpa using hg) (by linarith) h.neg).neg
    simpa using this

theorem NNear.bound (hs : Sees g F m W e) (he : 0 ≤ e) {D0 X a b : ℝ} (hX : 11 * e ≤ X) (ha : In F m W a) (hn : NNear g F m W e D0 X a b) : D0 ≤ |b - a| ∨ |a - m| ≤ 2 * |b - a| + X + 9 * e := by
  have := abs_nonneg (b - a)
  rcases hn with h | h | h | h
  · exact .inl h
  · exact .inr (by linarith)
  · have := h.dist hs he (by linarith) ha
    exact .inr (by linarith)
  · have := h.dist hs ha
    exact .inr (by linarith)

end NF
