import Verif.Lemmas.NoisyLine
import Mathlib.Tactic.NormNum

/-! # How many steps the Nelder-Mead method needs in one dimension, with rounded points and noisy values -/

noncomputable section
namespace NF
open Spec

variable {g : ℝ → ℝ} {F : ℝ → Prop} {m W e : ℝ}

/-- `a < b`, and on the other side of `a` there is a point `s`, not farther than `u`, which is not better than `b`; the minimum is between `s` and `b` -/
def StrongP (g : ℝ → ℝ) (F : ℝ → Prop) (m W a b u : ℝ) : Prop := a < b ∧ ∃ s, In F m W s ∧ g b ≤ g s ∧ s < m ∧ m < b ∧ a - s ≤ u

def Strong (g : ℝ → ℝ) (F : ℝ → Prop) (m W a b u : ℝ) : Prop := StrongP g F m W a b u ∨ StrongP (fun x => g (-x)) (fun x => F (-x)) (-m) W (-a) (-b) u

/-- after an expansion: also a point near the middle that is not better than `a` -/
def EStateP (g : ℝ → ℝ) (F : ℝ → Prop) (m W e a b : ℝ) : Prop := StrongP g F m W a b (4 * e) ∧ ∃ ρ, In F m W ρ ∧ g a ≤ g ρ ∧ |ρ - (a + b) / 2| ≤ 5 / 2 * e

def EState (g : ℝ → ℝ) (F : ℝ → Prop) (m W e a b : ℝ) : Prop := EStateP g F m W e a b ∨ EStateP (fun x => g (-x)) (fun x => F (-x)) (-m) W e (-a) (-b)

theorem Strong.neg {a b u : ℝ} (h : Strong g F m W a b u) : Strong (fun x => g (-x)) (fun x => F (-x)) (-m) W (-a) (-b) u := by
  rcases h with h | h
  · right; simpa using h
  · exact .inl h

theorem EState.neg {a b : ℝ} (h : EState g F m W e a b) : EState (fun x => g (-x)) (fun x => F (-x)) (-m) W e (-a) (-b) := by
  rcases h with h | h
  · right; simpa using h
  · exact .inl h

theorem Strong.wide {a b u u' : ℝ} (h : Strong g F m W a b u) (hu : u ≤ u') : Strong g F m W a b u' := by
  rcases h with ⟨h1, s, h2, h3, h4, h5, h6⟩ | ⟨h1, s, h2, h3, h4, h5, h6⟩
  · exact .inl ⟨h1, s, h2, h3, h4, h5, h6.trans hu⟩
  · exact .inr ⟨h1, s, h2, h3, h4, h5, h6.trans hu⟩

/-- a contraction -/
def Contr (g : ℝ → ℝ) (F : ℝ → Prop) (m W e a b a' b' : ℝ) (k : ℕ) : Prop := k = 2 ∧ Strong g F m W a' b' (2 * |b' - a'| + 3 * e) ∧ |b' - a'| ≤ |b - a| / 2 + e

theorem abs_neg_sub (x y : ℝ) : |-x - -y| = |x - y| := by rw [abs_sub_comm]; congr 1; ring

theorem strong_left {a b s u : ℝ} (hab : b < a) (hs : In F m W s) (h1 : g b ≤ g s) (h2 : m < s) (h3 : b < m) (h4 : s - a ≤ u) : Strong g F m W a b u :=
  .inr ⟨by linarith, -s, hs.neg, by simpa using h1, by linarith, by linarith, by linarith⟩

theorem strong_right {a b s u : ℝ} (hab : a < b) (hs : In F m W s) (h1 : g b ≤ g s) (h2 : s < m) (h3 : m < b) (h4 : a - s ≤ u) : Strong g F m W a b u :=
  .inl ⟨hab, s, hs, h1, h2, h3, h4⟩

/-- A step from a segment that is long, compared with the noise. -/
theorem NMove.any_pos (hs : Sees g F m W e) (he : 0 ≤ e) {a b a' b' : ℝ} {k : ℕ} (ha : In F m W a) (hb : In F m W b) (hg : g a ≤ g b) (hab : 0 < b - a) (hD : 20 * e ≤ b - a) (h : NMove g F m W e a b a' b' k) :
    Contr g F m W e a b a' b' k ∨
    (k = 2 ∧ b' = a ∧ Pt F m W e a' (2 * a - b) ∧ g a' < g a ∧ m < a ∧ 3 * a - 2 * b - e < m) ∨
    (k = 2 ∧ b' = a ∧ Pt F m W e a' (3 * a - 2 * b) ∧ ∃ xr, Pt F m W e xr (2 * a - b) ∧ g a' < g xr ∧ g xr < g a ∧ m < xr) := by
  have hmb := hs.l ha hb (by linarith) hg
  have eab : |b - a| = b - a := abs_of_pos hab
  cases h with
  | expand h1 h2 h3 h4 =>
    have q := hs.l h2.in h1.in (by linarith [h1.2.2.1, h2.2.2.2]) h4.le
    exact .inr (.inr ⟨rfl, rfl, h2, _, h1, h4, h3, q⟩)
  | reflect h1 h2 h3 h4 =>
    have q1 := hs.l h1.in ha (by linarith [h1.2.2.2]) h3.le
    have q2 := hs.r h1.in h2.in (by linarith [h1.2.2.1, h2.2.2.2]) h4
    exact .inr (.inl ⟨rfl, rfl, h1, h3, q1, by linarith [h2.2.2.1]⟩)
  | @outside xr z _ _ h1 h2 h3 h4 h5 h6 =>
    left
    have i1 := h1.in
    have i2 := h2.in
    have hmr := hs.r ha i1 (by linarith [h1.2.2.2]) h3
    obtain ⟨-, -, p1, p2⟩ := h1
    obtain ⟨-, -, p3, p4⟩ := h2
    refine ⟨rfl, ?_⟩
    rw [eab]
    rcases h6 with ⟨rfl, rfl, h6⟩ | ⟨rfl, rfl, h6⟩
    · have := hs.r ha i2 (by linarith) h6
      rw [abs_of_neg (show b' - a' < 0 by linarith)]
      exact ⟨strong_left (by linarith) hb (by linarith) hmb this (by linarith), by linarith⟩
    · have := hs.l i2 ha (by linarith) h6
      rw [abs_of_pos (show 0 < b' - a' by linarith)]
      exact ⟨strong_right (by linarith) i1 h3 hmr this (by linarith), by linarith⟩
  | @inside xr z _ _ h1 h2 h3 h4 h5 h6 =>
    left
    have i1 := h1.in
    have i2 := h2.in
    have hmr := hs.r ha i1 (by linarith [h1.2.2.2]) h3
    obtain ⟨-, -, p1, p2⟩ := h1
    obtain ⟨-, -, p3, p4⟩ := h2
    refine ⟨rfl, ?_⟩
    rw [eab]
    rcases h6 with ⟨rfl, rfl, h6⟩ | ⟨rfl, rfl, h6⟩
    · have := hs.l ha i2 (by linarith) h6
      rw [abs_of_pos (show 0 < b' - a' by linarith)]
      exact ⟨strong_right (by linarith) i1 (by linarith) hmr this (by linarith), by linarith⟩
    · have := hs.r i2 ha (by linarith) h6
      rw [abs_of_neg (show b' - a' < 0 by linarith)]
      exact ⟨strong_left (by linarith) hb hg hmb this (by linarith), by linarith⟩
  | shrinkOut h1 h2 h3 h4 h5 h6 h7 =>
    exfalso
    have q1 := hs.r ha h2.in (by linarith [h2.2.2.2]) (by linarith)
    have q2 := hs.l h1.in h2.in (by linarith [h1.2.2.2, h2.2.2.1]) h6.le
    linarith
  | shrinkIn h1 h2 h3 h4 h5 h6 h7 =>
    exfalso
    have q1 := hs.l ha h2.in (by linarith [h2.2.2.1]) (by linarith)
    have q2 := hs.r hb h2.in (by linarith [h2.2.2.2]) h6
    linarith

/-- A step when there is a strong point. -/
theorem StrongP.step (hs : Sees g F m W e) (he : 0 ≤ e) {a b a' b' u : ℝ} {k : ℕ} (ha : In F m W a) (hb : In F m W b) (hg : g a ≤ g b) (hD : 20 * e ≤ b - a) (hu : u ≤ 2 * (b - a) + 3 * e)
    (hst : StrongP g F m W a b u) (h : NMove g F m W e a b a' b' k) :
    Contr g F m W e a b a' b' k ∨
    (k = 2 ∧ Strong g F m W a' b' (u - |b - a| + e) ∧ |b' - a'| ≤ |b - a| + e ∧ |b - a| ≤ |b' - a'| + e ∧ |b - a| ≤ u + 2 * e) ∨
    (k = 2 ∧ EState g F m W e a' b' ∧ |b' - a'| ≤ 2 * |b - a| + e ∧ 2 * |b - a| ≤ u + 2 * e) := by
  obtain ⟨hab, s, q1, q2, q3, q4, q5⟩ := hst
  have eab : |b - a| = b - a := abs_of_pos (by linarith)
  rcases h.any_pos hs he ha hb hg (by linarith) hD with h1 | ⟨rfl, rfl, h3, h4, h5, h6⟩ | ⟨rfl, rfl, h3, xr, h4, h5, h6, h7⟩
  · exact .inl h1
  · right; left
    have i3 := h3.in
    have hge : s - e ≤ a' := by
      by_contra hc
      have := hs.l i3 q1 (by linarith) (by linarith)
      linarith
    obtain ⟨-, -, p1, p2⟩ := h3
    have eab' : |b' - a'| = b' - a' := abs_of_nonneg (by linarith)
    rw [eab, eab']
    exact ⟨rfl, strong_right (by linarith) q1 (by linarith) q3 h5 (by linarith), by linarith, by linarith, by linarith⟩
  · right; right
    have i3 := h3.in
    have hge : s - e ≤ a' := by
      by_contra hc
      have := hs.l i3 q1 (by linarith) (by linarith)
      linarith
    have i4 := h4.in
    obtain ⟨-, -, p1, p2⟩ := h3
    obtain ⟨-, -, p3, p4⟩ := h4
    have eab' : |b' - a'| = b' - a' := abs_of_nonneg (by linarith)
    rw [eab, eab']
    refine ⟨rfl, .inl ⟨⟨by linarith, s, q1, by linarith, q3, by linarith, by linarith⟩, xr, i4, h5.le, ?_⟩, by linarith, by linarith⟩
    rw [abs_le]
    constructor <;> linarith

theorem EStateP.step (hs : Sees g F m W e) (he : 0 ≤ e) {a b a' b' : ℝ} {k : ℕ} (ha : In F m W a) (hb : In F m W b) (hg : g a ≤ g b) (hD : 20 * e ≤ b - a)
    (hst : EStateP g F m W e a b) (h : NMove g F m W e a b a' b' k) : k = 2 ∧ Strong g F m W a' b' (6 * e) ∧ |b' - a'| ≤ |b - a| / 2 + e := by
  obtain ⟨⟨hab, s, q1, q2, q3, q4, q5⟩, ρ, r1, r2, r3⟩ := hst
  have eab : |b - a| = b - a := abs_of_pos (by linarith)
  have hmb := hs.l ha hb (by linarith) hg
  have no : ∀ {x}, In F m W x → x ≤ 2 * a - b + e → g x < g b → False := fun {x} hx hxa hgx => by
    have := hs.l hx q1 (by linarith) (by linarith)
    linarith
  cases h with
  | expand h1 h2 h3 h4 => exact (no h1.in h1.2.2.2 (by linarith)).elim
  | reflect h1 h2 h3 h4 => exact (no h1.in h1.2.2.2 (by linarith)).elim
  | outside h1 h2 h3 h4 h5 h6 => exact (no h1.in h1.2.2.2 h4).elim
  | @inside xr z _ _ h1 h2 h3 h4 h5 h6 =>
    have i2 := h2.in
    obtain ⟨-, -, p3, p4⟩ := h2
    have r3' := abs_le.1 r3
    refine ⟨rfl, ?_⟩
    rw [eab]
    rcases h6 with ⟨rfl, rfl, h6⟩ | ⟨rfl, rfl, h6⟩
    · have := hs.l ha i2 (by linarith) h6
      rw [abs_of_pos (show 0 < b' - a' by linarith)]
      exact ⟨strong_right (by linarith) q1 (by linarith) q3 this (by linarith), by linarith⟩
    · have w1 := hs.r i2 ha (by linarith) h6
      have w2 := hs.l ha r1 (by linarith) r2
      rw [abs_of_neg (show b' - a' < 0 by linarith)]
      exact ⟨strong_left (by linarith) r1 r2 w2 w1 (by linarith), by linarith⟩
  | shrinkOut h1 h2 h3 h4 h5 h6 h7 => exact (no h1.in h1.2.2.2 h5).elim
  | shrinkIn h1 h2 h3 h4 h5 h6 h7 =>
    exfalso
    have q1 := hs.l ha h2.in (by linarith [h2.2.2.1]) (by linarith)
    have q2 := hs.r hb h2.in (by linarith [h2.2.2.2]) h6
    linarith

/-- where the minimum is, seen from `a` in the direction of `b`: at least `-v` -/
def Ahead (m a b v : ℝ) : Prop := (a < b ∧ a - v ≤ m) ∨ (b < a ∧ m ≤ a + v)

theorem Ahead.neg {a b v : ℝ} (h : Ahead m a b v) : Ahead (-m) (-a) (-b) v := by
  rcases h with ⟨h1, h2⟩ | ⟨h1, h2⟩
  · exact .inr ⟨by linarith, by linarith⟩
  · exact .inl ⟨by linarith, by linarith⟩

/-- A step from any state: what is known about where the minimum is. -/
theorem NMove.weak_pos (hs : Sees g F m W e) (he : 0 ≤ e) {a b a' b' v : ℝ} {k : ℕ} (ha : In F m W a) (hb : In F m W b) (hg : g a ≤ g b) (hab : 0 < b - a) (hD : 20 * e ≤ b - a) (hv : a - v ≤ m)
    (h : NMove g F m W e a b a' b' k) :
    Contr g F m W e a b a' b' k ∨
    (k = 2 ∧ Ahead m a' b' (min v (2 * |b - a| + e) - |b - a| + e) ∧ |b' - a'| ≤ |b - a| + e ∧ |b - a| ≤ |b' - a'| + e ∧ 0 < v) ∨
    (k = 2 ∧ Ahead m a' b' (v - 2 * |b - a| + e) ∧ |b' - a'| ≤ 2 * |b - a| + e ∧ 2 * |b - a| ≤ |b' - a'| + e ∧ |b - a| < v + e ∧ |b - a| ≤ |a - m| + e ∧ |a' - m| ≤ |(|a - m| - 2 * |b - a|)| + e) := by
  have eab : |b - a| = b - a := abs_of_pos hab
  rcases h.any_pos hs he ha hb hg hab hD with h1 | ⟨rfl, rfl, ⟨-, -, p1, p2⟩, h4, h5, h6⟩ | ⟨rfl, rfl, ⟨-, -, p1, p2⟩, xr, ⟨-, -, p3, p4⟩, h5, h6, h7⟩
  · exact .inl h1
  · right; left
    have eab' : |b' - a'| = b' - a' := abs_of_nonneg (by linarith)
    rw [eab, eab']
    refine ⟨rfl, .inl ⟨by linarith, ?_⟩, by linarith, by linarith, by linarith⟩
    rcases min_choice v (2 * (b - b') + e) with hm | hm <;> rw [hm] <;> linarith
  · right; right
    have eab' : |b' - a'| = b' - a' := abs_of_nonneg (by linarith)
    rw [eab, eab', abs_of_nonneg (show 0 ≤ b' - m by linarith)]
    refine ⟨rfl, .inl ⟨by linarith, by linarith⟩, by linarith, by linarith, by linarith, by linarith, ?_⟩
    have m1 := abs_le.1 (le_refl |b' - m - 2 * (b - b')|)
    rw [abs_le]
    constructor <;> linarith

theorem Contr.neg {a b a' b' : ℝ} {k : ℕ} (h : Contr (fun x => g (-x)) (fun x => F (-x)) (-m) W e (-a) (-b) (-a') (-b') k) : Contr g F m W e a b a' b' k := by
  obtain ⟨h1, h2, h3⟩ := h
  have h2' := h2.neg
  simp only [neg_neg] at h2'
  rw [abs_neg_sub] at h2' h3
  rw [abs_neg_sub] at h3
  exact ⟨h1, h2', h3⟩

theorem Strong.step (hs : Sees g F m W e) (he : 0 ≤ e) {a b a' b' u : ℝ} {k : ℕ} (ha : In F m W a) (hb : In F m W b) (hg : g a ≤ g b) (hD : 20 * e ≤ |b - a|) (hu : u ≤ 2 * |b - a| + 3 * e)
    (hst : Strong g F m W a b u) (h : NMove g F m W e a b a' b' k) :
    Contr g F m W e a b a' b' k ∨
    (k = 2 ∧ Strong g F m W a' b' (u - |b - a| + e) ∧ |b' - a'| ≤ |b - a| + e ∧ |b - a| ≤ |b' - a'| + e ∧ |b - a| ≤ u + 2 * e) ∨
    (k = 2 ∧ EState g F m W e a' b' ∧ |b' - a'| ≤ 2 * |b - a| + e ∧ 2 * |b - a| ≤ u + 2 * e) := by
  rcases hst with hst | hst
  · have := hst.1
    rw [abs_of_pos (sub_pos.2 this)] at hD hu
    exact hst.step hs he ha hb hg hD hu h
  · have hlt := hst.1
    have e1 : |b - a| = -b - -a := by rw [← abs_neg_sub, abs_of_pos (by linarith)]
    rw [e1] at hD hu
    have := hst.step hs.neg he ha.neg hb.neg (by simpa using hg) hD hu h.neg
    rw [abs_neg_sub, abs_neg_sub] at this
    rcases this with h1 | ⟨h1, h2, h3⟩ | ⟨h1, h2, h3⟩
    · exact .inl h1.neg
    · exact .inr (.inl ⟨h1, by simpa using h2.neg, h3⟩)
    · exact .inr (.inr ⟨h1, by simpa using h2.neg, h3⟩)

theorem EState.step (hs : Sees g F m W e) (he : 0 ≤ e) {a b a' b' : ℝ} {k : ℕ} (ha : In F m W a) (hb : In F m W b) (hg : g a ≤ g b) (hD : 20 * e ≤ |b - a|)
    (hst : EState g F m W e a b) (h : NMove g F m W e a b a' b' k) : k = 2 ∧ Strong g F m W a' b' (6 * e) ∧ |b' - a'| ≤ |b - a| / 2 + e := by
  rcases hst with hst | hst
  · have := hst.1.1
    rw [abs_of_pos (sub_pos.2 this)] at hD
    exact hst.step hs he ha hb hg hD h
  · have hlt := hst.1.1
    have e1 : |b - a| = -b - -a := by rw [← abs_neg_sub, abs_of_pos (by linarith)]
    rw [e1] at hD
    have := hst.step hs.neg he ha.neg hb.neg (by simpa using hg) hD h.neg
    rw [abs_neg_sub, abs_neg_sub] at this
    exact ⟨this.1, by simpa using this.2.1.neg, this.2.2⟩

theorem Ahead.step (hs : Sees g F m W e) (he : 0 ≤ e) {a b a' b' v : ℝ} {k : ℕ} (ha : In F m W a) (hb : In F m W b) (hg : g a ≤ g b) (hD : 20 * e ≤ |b - a|) (hv : Ahead m a b v)
    (h : NMove g F m W e a b a' b' k) :
    Contr g F m W e a b a' b' k ∨
    (k = 2 ∧ Ahead m a' b' (min v (2 * |b - a| + e) - |b - a| + e) ∧ |b' - a'| ≤ |b - a| + e ∧ |b - a| ≤ |b' - a'| + e ∧ 0 < v) ∨
    (k = 2 ∧ Ahead m a' b' (v - 2 * |b - a| + e) ∧ |b' - a'| ≤ 2 * |b - a| + e ∧ 2 * |b - a| ≤ |b' - a'| + e ∧ |b - a| < v + e ∧ |b - a| ≤ |a - m| + e ∧ |a' - m| ≤ |(|a - m| - 2 * |b - a|)| + e) := by
  rcases hv with ⟨h1, h2⟩ | ⟨h1, h2⟩
  · rw [abs_of_pos (sub_pos.2 h1)] at hD
    exact h.weak_pos hs he ha hb hg (by linarith) hD h2
  · have e1 : |b - a| = -b - -a := by rw [← abs_neg_sub, abs_of_pos (by linarith)]
    rw [e1] at hD
    have := h.neg.weak_pos hs.neg he ha.neg hb.neg (by simpa using hg) (by linarith) hD (show -a - v ≤ -m by linarith)
    rw [abs_neg_sub, abs_neg_sub, abs_neg_sub, abs_neg_sub] at this
    rcases this with h1 | ⟨h1, h2, h3⟩ | ⟨h1, h2, h3⟩
    · exact .inl h1.neg
    · exact .inr (.inl ⟨h1, by simpa using h2.neg, h3⟩)
    · exact .inr (.inr ⟨h1, by simpa using h2.neg, h3⟩)

/-- how many more steps are needed until the segment is not longer than `δ` -/
inductive NBudget (g : ℝ → ℝ) (F : ℝ → Prop) (m W e R δ d0 : ℝ) (K K1 : ℕ) (a b : ℝ) : ℕ → Prop
  | far (i : ℕ) : |a - m| + |b - a| ≤ R → a ≠ b → i ≤ K1 → 2 ^ i * d0 + e ≤ |b - a| → NBudget g F m W e R δ d0 K K1 a b (3 * K + 4 + (K1 - i))
  | w3 : Ahead m a b (|b - a| + 4 * e) → 60 * e ≤ |b - a| → |b - a| ≤ R + 2 * e → NBudget g F m W e R δ d0 K K1 a b (3 * K + 3)
  | w2 : Ahead m a b (7 * e) → 50 * e ≤ |b - a| → |b - a| ≤ 2 * R + 4 * e → NBudget g F m W e R δ d0 K K1 a b (3 * K + 2)
  | w1 : Ahead m a b (-(2 * e)) → 40 * e ≤ |b - a| → |b - a| ≤ 2 * R + 5 * e → NBudget g F m W e R δ d0 K K1 a b (3 * K + 1)
  | c (j : ℕ) : Strong g F m W a b (2 * |b - a| + 3 * e) → |b - a| ≤ 2 ^ j * δ + 4 * e → NBudget g F m W e R δ d0 K K1 a b (3 * j)
  | g (j : ℕ) : Strong g F m W a b (|b - a| + 5 * e) → |b - a| ≤ 2 ^ j * δ + 5 * e → NBudget g F m W e R δ d0 K K1 a b (3 * j - 1)
  | t (j : ℕ) : Strong g F m W a b (6 * e) → |b - a| ≤ 2 ^ j * δ + 6 * e → NBudget g F m W e R δ d0 K K1 a b (3 * j - 2)
  | ex (j : ℕ) : EState g F m W e a b → 1 ≤ j → |b - a| ≤ 2 * (2 ^ j * δ + 4 * e) + e → NBudget g F m W e R δ d0 K K1 a b (3 * j - 1)

/-- the minimum is not far -/
def Close (m e a b : ℝ) : Prop := |a - m| ≤ 2 * |b - a| + 6 * e

theorem Strong.close {a b u : ℝ} (he : 0 ≤ e) (hu : u ≤ 2 * |b - a| + 6 * e) (h : Strong g F m W a b u) : Close m e a b := by
  unfold Close
  rcases h with ⟨h1, s, -, -, h4, h5, h6⟩ | ⟨h1, s, -, -, h4, h5, h6⟩
  · rw [abs_of_pos (sub_pos.2 h1)] at *
    rw [abs_le]
    constructor <;> linarith
  · rw [abs_of_neg (show b - a < 0 by linarith)] at hu ⊢
    rw [abs_le]
    constructor <;> linarith

theorem EState.close {a b : ℝ} (he : 0 ≤ e) (h : EState g F m W e a b) : Close m e a b := by
  have := abs_nonneg (b - a)
  rcases h with h | h
  · exact Strong.close (u := 4 * e) he (by linarith) (.inl h.1)
  · exact Strong.close (u := 4 * e) he (by linarith) (.inr h.1)

theorem budget_contr {R δ d0 : ℝ} {K K1 : ℕ} {a b a' b' : ℝ} {k j : ℕ} (hc : Contr g F m W e a b a' b' k) (hj : |b - a| / 2 + e ≤ 2 ^ j * δ + 4 * e) :
    k = 2 ∧ NBudget g F m W e R δ d0 K K1 a' b' (3 * j) :=
  ⟨hc.1, .c j hc.2.1 (hc.2.2.trans hj)⟩

theorem NBudget.step (hs : Sees g F m W e) (he : 0 ≤ e) {R δ d0 : ℝ} {K K1 : ℕ} (hδ : 100 * e ≤ δ) (hδ0 : 0 < δ) (hd0 : 100 * e ≤ d0) (hd00 : 0 < d0) (hK : R ≤ 2 ^ K * δ) (hK1 : R ≤ 2 ^ K1 * d0)
    {a b a' b' : ℝ} {n k : ℕ} (ha : In F m W a) (hb : In F m W b) (hg : g a ≤ g b) (h : NBudget g F m W e R δ d0 K K1 a b n) (hnot : ¬ (|b - a| ≤ δ + 6 * e ∧ Close m e a b))
    (hm : NMove g F m W e a b a' b' k) : k = 2 ∧ ∃ n', n' + 1 ≤ n ∧ NBudget g F m W e R δ d0 K K1 a' b' n' := by
  have hpow : ∀ j : ℕ, (2 : ℝ) ^ (j + 1) * δ = 2 * (2 ^ j * δ) := fun j => by rw [pow_succ]; ring
  have hpow' : ∀ j : ℕ, (2 : ℝ) ^ (j + 1) * d0 = 2 * (2 ^ j * d0) := fun j => by rw [pow_succ]; ring
  have h0 := abs_nonneg (b - a)
  cases h with
  | far i h1 h2 h3 h4 =>
    have hp : d0 ≤ 2 ^ i * d0 := le_mul_of_one_le_left hd00.le (one_le_pow₀ (by norm_num))
    have hv : Ahead m a b |a - m| := by
      have := abs_le.1 (le_refl |a - m|)
      rcases lt_or_gt_of_ne h2 with h | h
      · exact .inl ⟨h, by linarith⟩
      · exact .inr ⟨h, by linarith⟩
    have := abs_nonneg (a - m)
    rcases hv.step hs he ha hb hg (by linarith) hm with h5 | ⟨h5, h6, h7, h8, -⟩ | ⟨h5, h6, h7, h8, h9, h10, h11⟩
    · have := budget_contr (R := R) (d0 := d0) (K := K) (K1 := K1) h5 (j := K) (δ := δ) (by linarith)
      exact ⟨this.1, _, by omega, this.2⟩
    · refine ⟨h5, 3 * K + 3, by omega, .w3 ?_ (by linarith) (by linarith)⟩
      have := min_le_right |a - m| (2 * |b - a| + e)
      rcases h6 with ⟨q1, q2⟩ | ⟨q1, q2⟩
      · exact .inl ⟨q1, by linarith⟩
      · exact .inr ⟨q1, by linarith⟩
    · refine ⟨h5, ?_⟩
      have hne : a' ≠ b' := by
        rcases h6 with ⟨q1, q2⟩ | ⟨q1, q2⟩
        exacts [q1.ne, q1.ne']
      rcases le_total (2 * |b - a|) |a - m| with hc | hc
      · have hle : |a' - m| + |b' - a'| ≤ R := by
          rw [abs_of_nonneg (show 0 ≤ |a - m| - 2 * |b - a| by linarith)] at h11
          linarith
        have h12 : (2 : ℝ) ^ (i + 1) * d0 + e ≤ |b' - a'| := by rw [hpow']; linarith
        have : i + 1 ≤ K1 := by
          have q : (2 : ℝ) ^ (i + 1) * d0 ≤ 2 ^ K1 * d0 := by
            have := abs_nonneg (a' - m)
            linarith
          exact (pow_le_pow_iff_right₀ (by norm_num : (1 : ℝ) < 2)).1 (le_of_mul_le_mul_right q hd00)
        exact ⟨_, by omega, .far (i + 1) hle hne this h12⟩
      · refine ⟨3 * K + 2, by omega, .w2 ?_ (by linarith) (by linarith)⟩
        rcases h6 with ⟨q1, q2⟩ | ⟨q1, q2⟩
        · exact .inl ⟨q1, by linarith⟩
        · exact .inr ⟨q1, by linarith⟩
  | w3 h1 h2 h3 =>
    rcases h1.step hs he ha hb hg (by linarith) hm with h5 | ⟨h5, h6, h7, h8, -⟩ | ⟨h5, h6, h7, h8, h9, h10, h11⟩
    · have := budget_contr (R := R) (d0 := d0) (K := K) (K1 := K1) h5 (j := K) (δ := δ) (by linarith)
      exact ⟨this.1, _, by omega, this.2⟩
    · refine ⟨h5, 3 * K + 2, by omega, .w2 ?_ (by linarith) (by linarith)⟩
      have := min_le_left (|b - a| + 4 * e) (2 * |b - a| + e)
      rcases h6 with ⟨q1, q2⟩ | ⟨q1, q2⟩
      · exact .inl ⟨q1, by linarith⟩
      · exact .inr ⟨q1, by linarith⟩
    · refine ⟨h5, 3 * K + 1, by omega, .w1 ?_ (by linarith) (by linarith)⟩
      rcases h6 with ⟨q1, q2⟩ | ⟨q1, q2⟩
      · exact .inl ⟨q1, by linarith⟩
      · exact .inr ⟨q1, by linarith⟩
  | w2 h1 h2 h3 =>
    rcases h1.step hs he ha hb hg (by linarith) hm with h5 | ⟨h5, h6, h7, h8, -⟩ | ⟨h5, h6, h7, h8, h9, h10, h11⟩
    · have := budget_contr (R := R) (d0 := d0) (K := K) (K1 := K1) h5 (j := K) (δ := δ) (by linarith)
      exact ⟨this.1, _, by omega, this.2⟩
    · refine ⟨h5, 3 * K + 1, by omega, .w1 ?_ (by linarith) (by linarith)⟩
      have := min_le_left (7 * e) (2 * |b - a| + e)
      rcases h6 with ⟨q1, q2⟩ | ⟨q1, q2⟩
      · exact .inl ⟨q1, by linarith⟩
      · exact .inr ⟨q1, by linarith⟩
    · exfalso; linarith
  | w1 h1 h2 h3 =>
    rcases h1.step hs he ha hb hg (by linarith) hm with h5 | ⟨h5, h6, h7, h8, h9⟩ | ⟨h5, h6, h7, h8, h9, h10, h11⟩
    · have := budget_contr (R := R) (d0 := d0) (K := K) (K1 := K1) h5 (j := K) (δ := δ) (by linarith)
      exact ⟨this.1, _, by omega, this.2⟩
    · exfalso; linarith
    · exfalso; linarith
  | c j h1 h2 =>
    have hbig : δ + 6 * e < |b - a| := by
      by_contra hc
      exact hnot ⟨not_lt.1 hc, h1.close he (by linarith)⟩
    cases j with
    | zero => exfalso; rw [pow_zero] at h2; linarith
    | succ j =>
      have hp := hpow j
      rcases h1.step hs he ha hb hg (by linarith) le_rfl hm with h5 | ⟨h5, h6, h7, h8, h9⟩ | ⟨h5, h6, h7, h8⟩
      · have := budget_contr (R := R) (d0 := d0) (K := K) (K1 := K1) h5 (j := j) (δ := δ) (by linarith)
        exact ⟨this.1, _, by omega, this.2⟩
      · exact ⟨h5, _, by omega, .g (j + 1) (h6.wide (by linarith)) (by linarith)⟩
      · exact ⟨h5, _, by omega, .ex (j + 1) h6 (by omega) (by linarith)⟩
  | g j h1 h2 =>
    have hbig : δ + 6 * e < |b - a| := by
      by_contra hc
      exact hnot ⟨not_lt.1 hc, h1.close he (by linarith)⟩
    cases j with
    | zero => exfalso; rw [pow_zero] at h2; linarith
    | succ j =>
      have hp := hpow j
      rcases h1.step hs he ha hb hg (by linarith) (by linarith) hm with h5 | ⟨h5, h6, h7, h8, h9⟩ | ⟨h5, h6, h7, h8⟩
      · have := budget_contr (R := R) (d0 := d0) (K := K) (K1 := K1) h5 (j := j) (δ := δ) (by linarith)
        exact ⟨this.1, _, by omega, this.2⟩
      · exact ⟨h5, _, by omega, .t (j + 1) (h6.wide (by linarith)) (by linarith)⟩
      · exfalso; linarith
  | t j h1 h2 =>
    have hbig : δ + 6 * e < |b - a| := by
      by_contra hc
      exact hnot ⟨not_lt.1 hc, h1.close he (by linarith)⟩
    cases j with
    | zero => exfalso; rw [pow_zero] at h2; linarith
    | succ j =>
      have hp := hpow j
      rcases h1.step hs he ha hb hg (by linarith) (by linarith) hm with h5 | ⟨h5, h6, h7, h8, h9⟩ | ⟨h5, h6, h7, h8⟩
      · have := budget_contr (R := R) (d0 := d0) (K := K) (K1 := K1) h5 (j := j) (δ := δ) (by linarith)
        exact ⟨this.1, _, by omega, this.2⟩
      · exfalso; linarith
      · exfalso; linarith
  | ex j h1 h2 h3 =>
    have hbig : δ + 6 * e < |b - a| := by
      by_contra hc
      exact hnot ⟨not_lt.1 hc, h1.close he⟩
    obtain ⟨h5, h6, h7⟩ := h1.step hs he ha hb hg (by linarith) hm
    exact ⟨h5, _, by omega, .t j h6 (by linarith)⟩

end NF
