import Verif.Spec.Valley
import Mathlib.Tactic.Linarith
import Mathlib.Tactic.FieldSimp
import Mathlib.Tactic.Ring

/-! # The Nelder-Mead method in one dimension, on real numbers -/

noncomputable section
namespace NF
open Spec

/-! ## A valley, seen along the line through the two vertices -/

/-- `h` falls up to `τ` and rises from there on, as far as `w`. -/
structure VLine (h : ℝ → ℝ) (τ w : ℝ) : Prop where
  up : ∀ s t, τ ≤ s → s < t → t - τ ≤ w → h s < h t
  down : ∀ s t, t < s → s ≤ τ → τ - t ≤ w → h s < h t

/-- where the minimum is, if `a` is the origin and `b` the unit -/
def tau (m a b : ℝ) : ℝ := (m - a) / (b - a)

theorem tau_spec {m a b : ℝ} (hne : a ≠ b) : a + tau m a b * (b - a) = m := by
  have : b - a ≠ 0 := sub_ne_zero.2 hne.symm
  unfold tau
  field_simp
  ring

theorem vline_of_valley {g : ℝ → ℝ} {m W a b w : ℝ} (hv : Valley g m W) (hne : a ≠ b) (hw : w * |b - a| ≤ W) :
    VLine (fun t => g (a + t * (b - a))) (tau m a b) w := by
  have hm := tau_spec (m := m) hne
  have hD : 0 < |b - a| := abs_pos.2 (sub_ne_zero.2 hne.symm)
  have key : ∀ t, a + t * (b - a) = m + (t - tau m a b) * (b - a) := fun t => by linarith
  have hle : ∀ x, 0 ≤ x → x ≤ w → x * |b - a| ≤ W := fun x _ h => (mul_le_mul_of_nonneg_right h hD.le).trans hw
  have hlt : ∀ x y, x < y → x * |b - a| < y * |b - a| := fun x y h => mul_lt_mul_of_pos_right h hD
  have hnn : ∀ x, 0 ≤ x → 0 ≤ x * |b - a| := fun x h => mul_nonneg h hD.le
  rcases lt_or_gt_of_ne hne with h | h
  · rw [abs_of_pos (by linarith)] at hle hlt hnn
    constructor
    · intro s t h1 h2 h3
      show g (a + s * (b - a)) < g (a + t * (b - a))
      rw [key s, key t]
      have e1 := hnn (s - tau m a b) (by linarith)
      have e2 := hlt (s - tau m a b) (t - tau m a b) (by linarith)
      have e3 := hle (t - tau m a b) (by linarith) h3
      exact hv.rises ⟨by linarith, by linarith⟩ ⟨by linarith, by linarith⟩ (by linarith)
    · intro s t h1 h2 h3
      show g (a + s * (b - a)) < g (a + t * (b - a))
      rw [key s, key t]
      have e1 := hnn (tau m a b - s) (by linarith)
      have e2 := hlt (tau m a b - s) (tau m a b - t) (by linarith)
      have e3 := hle (tau m a b - t) (by linarith) h3
      exact hv.falls ⟨by linarith, by linarith⟩ ⟨by linarith, by linarith⟩ (by linarith)
  · rw [abs_of_neg (by linarith)] at hle hlt hnn
    constructor
    · intro s t h1 h2 h3
      show g (a + s * (b - a)) < g (a + t * (b - a))
      rw [key s, key t]
      have e1 := hnn (s - tau m a b) (by linarith)
      have e2 := hlt (s - tau m a b) (t - tau m a b) (by linarith)
      have e3 := hle (t - tau m a b) (by linarith) h3
      exact hv.falls ⟨by linarith, by linarith⟩ ⟨by linarith, by linarith⟩ (by linarith)
    · intro s t h1 h2 h3
      show g (a + s * (b - a)) < g (a + t * (b - a))
      rw [key s, key t]
      have e1 := hnn (tau m a b - s) (by linarith)
      have e2 := hlt (tau m a b - s) (tau m a b - t) (by linarith)
      have e3 := hle (tau m a b - t) (by linarith) h3
      exact hv.rises ⟨by linarith, by linarith⟩ ⟨by linarith, by linarith⟩ (by linarith)

/-! ## One step -/

/-- The step from the vertices `a`, `b` (where `a` is the better one) to `a'`, `b'`. -/
inductive Move1 (g : ℝ → ℝ) (a b : ℝ) : ℝ → ℝ → Prop
  | expand : g (2 * a - b) < g a → g (3 * a - 2 * b) < g (2 * a - b) → Move1 g a b (3 * a - 2 * b) a
  | reflect : g (2 * a - b) < g a → g (2 * a - b) ≤ g (3 * a - 2 * b) → Move1 g a b (2 * a - b) a
  | outsideBetter : g a ≤ g (2 * a - b) → g (2 * a - b) < g b → g (1.5 * a - 0.5 * b) ≤ g a → Move1 g a b (1.5 * a - 0.5 * b) a
  | outside : g a ≤ g (2 * a - b) → g (2 * a - b) < g b → g a ≤ g (1.5 * a - 0.5 * b) → Move1 g a b a (1.5 * a - 0.5 * b)
  | insideBetter : g a ≤ g (2 * a - b) → g b ≤ g (2 * a - b) → g (0.5 * a + 0.5 * b) ≤ g a → Move1 g a b (0.5 * a + 0.5 * b) a
  | inside : g a ≤ g (2 * a - b) → g b ≤ g (2 * a - b) → g a ≤ g (0.5 * a + 0.5 * b) → Move1 g a b a (0.5 * a + 0.5 * b)

/-- nothing is known about the minimum but how far it is -/
def PhA (m R a b : ℝ) : Prop := (|tau m a b| + 1) * |b - a| ≤ R
/-- the next step is a contraction -/
def PhJ2 (g : ℝ → ℝ) (m R a b : ℝ) : Prop := g a ≤ g (2 * a - b) ∧ |tau m a b| ≤ 2 ∧ |b - a| ≤ R
/-- the next step is a contraction, or it is a reflection and the next but one is a contraction -/
def PhJ1 (g : ℝ → ℝ) (m R a b : ℝ) : Prop := g a ≤ g (3 * a - 2 * b) ∧ |tau m a b| ≤ 2 ∧ |b - a| ≤ R

section
variable {g : ℝ → ℝ} {m W R a b : ℝ}

theorem wide (hR : 4 * R ≤ W) (hne : a ≠ b) (h : PhA m R a b ∨ (|tau m a b| ≤ 2 ∧ |b - a| ≤ R)) :
    ∃ w, w * |b - a| ≤ W ∧ (|tau m a b| + 3 ≤ w ∨ (|tau m a b| ≤ 2 ∧ 4 ≤ w)) := by
  have hD : 0 < |b - a| := abs_pos.2 (sub_ne_zero.2 hne.symm)
  refine ⟨W / |b - a|, by rw [div_mul_cancel₀ _ hD.ne'], ?_⟩
  rw [le_div_iff₀ hD, le_div_iff₀ hD]
  rcases h with h | ⟨h1, h2⟩
  · left
    have : (|tau m a b| + 3) * |b - a| ≤ 4 * ((|tau m a b| + 1) * |b - a|) := by
      have := mul_nonneg (abs_nonneg (tau m a b)) hD.le
      nlinarith
    exact this.trans ((mul_le_mul_of_nonneg_left h (by norm_num)).trans hR)
  · exact .inr ⟨h1, (mul_le_mul_of_nonneg_left h2 (by norm_num)).trans hR⟩

theorem tau_change {a' b' k l : ℝ} (hne : a ≠ b) (hl : l ≠ 0) (h1 : a' = a + k * (b - a)) (h2 : b' - a' = l * (b - a)) :
    tau m a' b' = (tau m a b - k) / l := by
  have : b - a ≠ 0 := sub_ne_zero.2 hne.symm
  unfold tau
  rw [h2, h1]
  field_simp
  ring

theorem abs_change {a' b' l : ℝ} (h2 : b' - a' = l * (b - a)) : |b' - a'| = |l| * |b - a| := by rw [h2, abs_mul]

/-- what follows from the comparisons of a step -/
theorem line_facts (hv : Valley g m W) (hR : 4 * R ≤ W) (hne : a ≠ b) (h : PhA m R a b ∨ (|tau m a b| ≤ 2 ∧ |b - a| ≤ R)) (hab : g a ≤ g b) :
    ∃ w, VLine (fun t => g (a + t * (b - a))) (tau m a b) w ∧ |tau m a b| + 2 ≤ w ∧ 3 ≤ w ∧ tau m a b < 1 ∧
      (g (2 * a - b) < g a → g (3 * a - 2 * b) < g (2 * a - b) → tau m a b < -1) ∧
      (g (2 * a - b) < g a → g (2 * a - b) ≤ g (3 * a - 2 * b) → -2 < tau m a b ∧ tau m a b < 0) ∧
      (g a ≤ g (2 * a - b) → -1 < tau m a b) := by
  obtain ⟨w, hw, hw2⟩ := wide hR hne h
  have hl := vline_of_valley hv hne hw
  have e0 : g a = (fun t => g (a + t * (b - a))) 0 := by simp
  have e1 : g b = (fun t => g (a + t * (b - a))) 1 := by simp
  have er : g (2 * a - b) = (fun t => g (a + t * (b - a))) (-1) := by show _ = g _; congr 1; ring
  have ee : g (3 * a - 2 * b) = (fun t => g (a + t * (b - a))) (-2) := by show _ = g _; congr 1; ring
  rw [e0, e1] at hab
  rw [er, ee, e0]
  generalize (fun t => g (a + t * (b - a))) = h at *
  generalize tau m a b = τ at *
  have hx := abs_nonneg τ
  have hx1 := le_abs_self τ
  have hx2 := neg_abs_le τ
  have g1 : |τ| + 2 ≤ w := by rcases hw2 with h | ⟨h1, h2⟩ <;> linarith
  have g2 : 3 ≤ w := by rcases hw2 with h | ⟨h1, h2⟩ <;> linarith
  have t1 : τ < 1 := by
    by_contra hc
    exact absurd (hl.down 1 0 (by norm_num) (by linarith) (by linarith)) (not_lt.2 hab)
  refine ⟨w, hl, g1, g2, t1, fun h1 h2 => ?_, fun h1 h2 => ⟨?_, ?_⟩, fun h1 => ?_⟩
  · by_contra hc
    exact absurd (hl.down (-1) (-2) (by norm_num) (by linarith) (by linarith)) (not_lt.2 h2.le)
  · by_contra hc
    exact absurd (hl.up (-2) (-1) (by linarith) (by norm_num) (by linarith)) (not_lt.2 h2)
  · by_contra hc
    exact absurd (hl.down 0 (-1) (by norm_num) (by linarith) (by linarith)) (not_lt.2 h1.le)
  · by_contra hc
    exact absurd (hl.up (-1) 0 (by linarith) (by norm_num) (by linarith)) (not_lt.2 h1)

/-- a contraction -/
inductive Contract (g : ℝ → ℝ) (a b : ℝ) : ℝ → ℝ → Prop
  | outsideBetter : g a ≤ g (2 * a - b) → g (2 * a - b) < g b → g (1.5 * a - 0.5 * b) ≤ g a → Contract g a b (1.5 * a - 0.5 * b) a
  | outside : g a ≤ g (2 * a - b) → g (2 * a - b) < g b → g a ≤ g (1.5 * a - 0.5 * b) → Contract g a b a (1.5 * a - 0.5 * b)
  | insideBetter : g a ≤ g (2 * a - b) → g b ≤ g (2 * a - b) → g (0.5 * a + 0.5 * b) ≤ g a → Contract g a b (0.5 * a + 0.5 * b) a
  | inside : g a ≤ g (2 * a - b) → g b ≤ g (2 * a - b) → g a ≤ g (0.5 * a + 0.5 * b) → Contract g a b a (0.5 * a + 0.5 * b)

theorem Move1.cases {a' b' : ℝ} (h : Move1 g a b a' b') :
    (g (2 * a - b) < g a ∧ g (3 * a - 2 * b) < g (2 * a - b) ∧ a' = 3 * a - 2 * b ∧ b' = a) ∨
    (g (2 * a - b) < g a ∧ g (2 * a - b) ≤ g (3 * a - 2 * b) ∧ a' = 2 * a - b ∧ b' = a) ∨ (g a ≤ g (2 * a - b) ∧ Contract g a b a' b') := by
  cases h with
  | expand h1 h2 => exact .inl ⟨h1, h2, rfl, rfl⟩
  | reflect h1 h2 => exact .inr (.inl ⟨h1, h2, rfl, rfl⟩)
  | outsideBetter h1 h2 h3 => exact .inr (.inr ⟨h1, .outsideBetter h1 h2 h3⟩)
  | outside h1 h2 h3 => exact .inr (.inr ⟨h1, .outside h1 h2 h3⟩)
  | insideBetter h1 h2 h3 => exact .inr (.inr ⟨h1, .insideBetter h1 h2 h3⟩)
  | inside h1 h2 h3 => exact .inr (.inr ⟨h1, .inside h1 h2 h3⟩)

theorem PhA.small (hA : PhA m R a b) : |b - a| ≤ R := by
  refine le_trans ?_ hA
  have := mul_nonneg (abs_nonneg (tau m a b)) (abs_nonneg (b - a))
  linarith

theorem small (h : PhA m R a b ∨ (|tau m a b| ≤ 2 ∧ |b - a| ≤ R)) : |b - a| ≤ R := h.elim PhA.small And.right

theorem contract_J1 (hv : Valley g m W) (hR : 4 * R ≤ W) (hne : a ≠ b) (h : PhA m R a b ∨ (|tau m a b| ≤ 2 ∧ |b - a| ≤ R)) (hab : g a ≤ g b) {a' b' : ℝ}
    (hc : Contract g a b a' b') : PhJ1 g m R a' b' ∧ |b' - a'| = |b - a| / 2 ∧ a' ≠ b' ∧ g a' ≤ g b' := by
  obtain ⟨w, hl, -, hw, t1, -, -, t2⟩ := line_facts hv hR hne h hab
  have hD : 0 < |b - a| := abs_pos.2 (sub_ne_zero.2 hne.symm)
  have hDR := small h
  -- it is enough to know the new vertices in the coordinate of the line
  have key : ∀ {k l : ℝ}, a' = a + k * (b - a) → b' - a' = l * (b - a) → |l| = 1 / 2 → |(tau m a b - k) / l| ≤ 2 →
      g a' ≤ g (a + (k - 2 * l) * (b - a)) → g a' ≤ g b' → PhJ1 g m R a' b' ∧ |b' - a'| = |b - a| / 2 ∧ a' ≠ b' ∧ g a' ≤ g b' := by
    intro k l h1 h2 h3 h4 h5 h6
    have hl0 : l ≠ 0 := by rintro rfl; norm_num at h3
    have e : |b' - a'| = |b - a| / 2 := by rw [abs_change h2, h3]; ring
    refine ⟨⟨?_, ?_, ?_⟩, e, ?_, h6⟩
    · have : 3 * a' - 2 * b' = a + (k - 2 * l) * (b - a) := by
        have : b' = a' + l * (b - a) := by linarith
        rw [this, h1]; ring
      rwa [this]
    · rw [tau_change hne hl0 h1 h2]; exact h4
    · rw [e]; linarith
    · intro heq
      rw [heq, sub_self, abs_zero] at e
      linarith
  have e0 : g a = (fun t => g (a + t * (b - a))) 0 := by simp
  have e1 : g b = (fun t => g (a + t * (b - a))) 1 := by simp
  have er : g (2 * a - b) = (fun t => g (a + t * (b - a))) (-1) := by show _ = g _; congr 1; ring
  have eo : g (1.5 * a - 0.5 * b) = (fun t => g (a + t * (b - a))) (-0.5) := by show _ = g _; congr 1; ring
  have ei : g (0.5 * a + 0.5 * b) = (fun t => g (a + t * (b - a))) 0.5 := by show _ = g _; congr 1; ring
  cases hc with
  | outsideBetter h1 h2 h3 =>
    have ht := t2 h1
    refine key (k := -0.5) (l := 0.5) (by ring) (by ring) (by norm_num [abs_of_pos]) ?_ ?_ h3
    · rw [e0, eo] at h3
      generalize (fun t => g (a + t * (b - a))) = h at *
      generalize tau m a b = τ at *
      have : τ < 0 := by
        by_contra hc
        exact absurd (hl.down 0 (-0.5) (by norm_num) (by linarith) (by linarith)) (not_lt.2 h3)
      rw [abs_le]
      constructor
      · rw [le_div_iff₀ (by norm_num)]; linarith
      · rw [div_le_iff₀ (by norm_num)]; linarith
    · refine h3.trans (h1.trans ?_)
      rw [er]
      exact (hl.down (-1) (-0.5 - 2 * 0.5) (by norm_num) (by linarith) (by linarith)).le
  | outside h1 h2 h3 =>
    have ht := t2 h1
    refine key (k := 0) (l := -0.5) (by ring) (by ring) (by norm_num [abs_of_pos]) ?_ ?_ h3
    · rw [sub_zero, abs_div, show |(-0.5 : ℝ)| = 0.5 by norm_num [abs_of_pos], div_le_iff₀ (by norm_num), abs_le]
      constructor <;> linarith
    · rw [show a + (0 - 2 * (-0.5 : ℝ)) * (b - a) = b by ring]; exact hab
  | insideBetter h1 h2 h3 =>
    refine key (k := 0.5) (l := -0.5) (by ring) (by ring) (by norm_num [abs_of_pos]) ?_ ?_ h3
    · rw [e0, ei] at h3
      generalize (fun t => g (a + t * (b - a))) = h at *
      generalize tau m a b = τ at *
      have : 0 < τ := by
        by_contra hc
        exact absurd (hl.up 0 0.5 (by linarith) (by norm_num) (by have := t2 h1; linarith)) (not_lt.2 h3)
      rw [abs_div, show |(-0.5 : ℝ)| = 0.5 by norm_num [abs_of_pos], div_le_iff₀ (by norm_num), abs_le]
      constructor <;> linarith
    · have ht := t2 h1
      refine h3.trans (hab.trans ?_)
      rw [e1]
      exact (hl.up 1 (0.5 - 2 * -0.5) (by linarith) (by norm_num) (by norm_num; linarith)).le
  | inside h1 h2 h3 =>
    have ht := t2 h1
    refine key (k := 0) (l := 0.5) (by ring) (by ring) (by norm_num [abs_of_pos]) ?_ ?_ h3
    · rw [sub_zero, abs_div, show |(0.5 : ℝ)| = 0.5 by norm_num [abs_of_pos], div_le_iff₀ (by norm_num), abs_le]
      constructor <;> linarith
    · rw [show a + (0 - 2 * (0.5 : ℝ)) * (b - a) = 2 * a - b by ring]; exact h1

/-- A step after a contraction has been made necessary by the values. -/
theorem move_J2 (hv : Valley g m W) (hR : 4 * R ≤ W) (hne : a ≠ b) (h : PhJ2 g m R a b) (hab : g a ≤ g b) {a' b' : ℝ} (hm : Move1 g a b a' b') :
    PhJ1 g m R a' b' ∧ |b' - a'| = |b - a| / 2 ∧ a' ≠ b' ∧ g a' ≤ g b' := by
  rcases hm.cases with ⟨h1, -⟩ | ⟨h1, -⟩ | ⟨-, h1⟩
  · exact absurd h1 (not_lt.2 h.1)
  · exact absurd h1 (not_lt.2 h.1)
  · exact contract_J1 hv hR hne (.inr h.2) hab h1

theorem reflect_J2 (hv : Valley g m W) (hR : 4 * R ≤ W) (hne : a ≠ b) (h : PhA m R a b ∨ (|tau m a b| ≤ 2 ∧ |b - a| ≤ R)) (hab : g a ≤ g b)
    (h1 : g (2 * a - b) < g a) (h2 : g (2 * a - b) ≤ g (3 * a - 2 * b)) :
    PhJ2 g m R (2 * a - b) a ∧ |a - (2 * a - b)| = |b - a| ∧ 2 * a - b ≠ a ∧ g (2 * a - b) ≤ g a := by
  obtain ⟨w, -, -, -, t1, -, t3, -⟩ := line_facts hv hR hne h hab
  have ht := t3 h1 h2
  have e : |a - (2 * a - b)| = |b - a| := by congr 1; ring
  refine ⟨⟨?_, ?_, ?_⟩, e, fun heq => hne (by linarith), h1.le⟩
  · rwa [show 2 * (2 * a - b) - a = 3 * a - 2 * b by ring]
  · rw [tau_change (k := -1) (l := 1) hne one_ne_zero (by ring) (by ring), div_one, abs_le]
    constructor <;> linarith
  · rw [e]; exact small h

/-- A step after a contraction. -/
theorem move_J1 (hv : Valley g m W) (hR : 4 * R ≤ W) (hne : a ≠ b) (h : PhJ1 g m R a b) (hab : g a ≤ g b) {a' b' : ℝ} (hm : Move1 g a b a' b') :
    ((PhJ2 g m R a' b' ∧ |b' - a'| = |b - a|) ∨ (PhJ1 g m R a' b' ∧ |b' - a'| = |b - a| / 2)) ∧ a' ≠ b' ∧ g a' ≤ g b' := by
  rcases hm.cases with ⟨h1, h2, -⟩ | ⟨h1, h2, rfl, rfl⟩ | ⟨-, h1⟩
  · exact absurd (h2.trans h1) (not_lt.2 h.1)
  · obtain ⟨h3, h4, h5, h6⟩ := reflect_J2 hv hR hne (.inr h.2) hab h1 h2
    exact ⟨.inl ⟨h3, h4⟩, h5, h6⟩
  · obtain ⟨h3, h4, h5, h6⟩ := contract_J1 hv hR hne (.inr h.2) hab h1
    exact ⟨.inr ⟨h3, h4⟩, h5, h6⟩

/-- A step before the first contraction. -/
theorem move_A (hv : Valley g m W) (hR : 4 * R ≤ W) (hne : a ≠ b) (h : PhA m R a b) (hab : g a ≤ g b) {a' b' : ℝ} (hm : Move1 g a b a' b') :
    ((PhA m R a' b' ∧ |b' - a'| = 2 * |b - a| ∧ 2 < |tau m a b|) ∨ (PhJ2 g m R a' b' ∧ |b' - a'| ≤ 2 * |b - a|) ∨ (PhJ1 g m R a' b' ∧ |b' - a'| = |b - a| / 2)) ∧
      a' ≠ b' ∧ g a' ≤ g b' := by
  rcases hm.cases with ⟨h1, h2, ha, hb⟩ | ⟨h1, h2, ha, hb⟩ | ⟨-, h1⟩
  · obtain ⟨w, hl, hw2, hw3, t1, t3, -, -⟩ := line_facts hv hR hne (.inl h) hab
    have ht := t3 h1 h2
    have hD : 0 < |b - a| := abs_pos.2 (sub_ne_zero.2 hne.symm)
    have e : |b' - a'| = 2 * |b - a| := by rw [abs_change (a := a) (b := b) (l := 2) (by rw [ha, hb]; ring)]; norm_num
    have et : tau m a' b' = (tau m a b + 2) / 2 := by
      rw [tau_change (a := a) (b := b) (k := -2) (l := 2) hne two_ne_zero (by rw [ha]; ring) (by rw [ha, hb]; ring)]; ring
    have habs : |tau m a b| = -tau m a b := abs_of_neg (by linarith)
    have hne' : a' ≠ b' := by
      rintro heq
      rw [heq, sub_self, abs_zero] at e
      linarith
    refine ⟨?_, hne', by rw [ha, hb]; exact (h2.trans h1).le⟩
    unfold PhA at h
    rw [habs] at h
    by_cases hc : tau m a b < -2
    · left
      refine ⟨?_, e, by rw [habs]; linarith⟩
      unfold PhA
      rw [et, e, abs_of_nonpos (by linarith)]
      nlinarith
    · right; left
      push Not at hc
      refine ⟨⟨?_, ?_, ?_⟩, e.le⟩
      · have e1 : g a' = (fun t => g (a + t * (b - a))) (-2) := by show _ = g _; rw [ha]; congr 1; ring
        have e2 : g (2 * a' - b') = (fun t => g (a + t * (b - a))) (-4) := by show _ = g _; rw [ha, hb]; congr 1; ring
        rw [e1, e2]
        exact (hl.down (-2) (-4) (by norm_num) hc (by linarith)).le
      · rw [et, abs_le]
        constructor <;> linarith
      · rw [e]
        nlinarith
  · rw [ha, hb]
    obtain ⟨h3, h4, h5, h6⟩ := reflect_J2 hv hR hne (.inl h) hab h1 h2
    refine ⟨.inr (.inl ⟨h3, ?_⟩), h5, h6⟩
    rw [h4]
    have := abs_nonneg (b - a)
    linarith
  · obtain ⟨h3, h4, h5, h6⟩ := contract_J1 hv hR hne (.inl h) hab h1
    exact ⟨.inr (.inr ⟨h3, h4⟩), h5, h6⟩

end
end NF
