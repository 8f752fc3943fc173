import Verif.Lemmas.RingLoop
import Verif.Props.Loop

/-! # C96: the shortest-path method identifies large closed nodal lines as closed loops -/

noncomputable section
open Classical
namespace NF
open Spec NxGraph CoordSys
variable {d : ℕ}

/-- **C96**, through the periodic box: under the conditions of C91 (a line along an axis of the periodic box, of slope at most 0.07, without gaps), if the box is longer than eighteen times `feature_size` along the
axis, then with the method `shortest_path` too, whatever the order in which sets are iterated over, the identification raises nothing and consists of exactly one closed loop, which goes through the box once. -/
theorem C96_through_box {cs : CoordSys d} (hb : ProperBox cs) (hp : cs.periodic = true) {fs : ℝ} (hfs : 0 < fs) (hsz : ∀ i, 3 * fs < cs.upper i - cs.lower i) {positions : List (Vec d)} {j : Fin d}
    (hlong : 18 * fs < cs.upper j - cs.lower j) {s : ℝ}
    (hs : s ^ 2 ≤ 0.0049) (hal : AlongAxis cs j s positions) (hgap : NoGapAlong cs j (fs / 3) positions) (hfar : ∀ x ∈ positions, ∀ y ∈ positions, x ≠ y → fs / 4 < cs.distance x y)
    {res : Except Err (IdContainer d)} (h : RunFromPositions positions cs fs "shortest_path" res) :
    ∃ out, res = .ok out ∧ OneClosedLoop cs fs (AtHeight cs j) (cs.upper j - cs.lower j) positions out :=
  (round_of_axis hb hp hfs hsz hs hal hgap hfar).shortest_loop (Fin.pos j) hb hfs one_pos (fun x y _ => by rw [one_mul]; exact abs_connecting_le hb x y j) (by linarith) h

/-- **C96**, a ring: under the conditions of C91 (positions within `feature_size / 240` of a circle with a radius of at least ten times `feature_size`, without gaps), the identification with the method
`shortest_path` too, whatever the order in which sets are iterated over, raises nothing and consists of exactly one closed loop, which goes round the circle once. -/
theorem C96_ring (hd : 1 ≤ d) {cs : CoordSys d} (hb : ProperBox cs) {fs : ℝ} (hfs : 0 < fs) {positions : List (Vec d)} {o a b : Vec d} {R : ℝ} (hR : 10 * fs ≤ R) (hring : OnRing o a b R (fs / 240) positions)
    (hgap : NoGapRound o a b R (fs / 3) positions) (hw : NotWrapped cs fs positions) (hfar : ∀ x ∈ positions, ∀ y ∈ positions, x ≠ y → fs / 4 < cs.distance x y)
    {res : Except Err (IdContainer d)} (h : RunFromPositions positions cs fs "shortest_path" res) :
    ∃ out, res = .ok out ∧ OneClosedLoop cs fs (AtAngle o a b R (fs / 240)) (2 * Real.pi) positions out := by
  obtain ⟨τ, hτ, hlow, hr⟩ := round_of_ring hb hfs hR hring hgap hw hfar
  have hR0 : 0 < R := by linarith
  obtain ⟨out, ho, hl⟩ := hr.shortest_loop hd hb hfs (κ := 2 / R) (by positivity) hlow (by
    have : 2 / R * fs ≤ 1 / 5 := by rw [div_mul_eq_mul_div, div_le_iff₀ hR0]; linarith
    have := Real.pi_gt_three
    linarith) h
  refine ⟨out, ho, one_loop_imp (fun x hx t ⟨k, hk⟩ => ?_) hl⟩
  exact AtAngle.period (hτ x hx) hk

/-! ### Examples -/

namespace C96Demo
open C91Demo (box box_proper)

/-- sixty positions on a line through the periodic unit square, with a bump -/
def pos (k : ℕ) : Vec 2 := ![k / 60, if k = 1 then 1 / 1000 else 0]

def ps : List (Vec 2) := (List.range 60).map pos

theorem mem_ps {x : Vec 2} : x ∈ ps ↔ ∃ k < 60, x = pos k := by simp [ps, eq_comm]

theorem cv (k m : ℕ) (hk : k < 60) (hm : m < 60) (hne : k ≠ m) : 1 / 60 ≤ |box.connectingVector (pos k) (pos m) 0| ∧ |box.connectingVector (pos k) (pos m) 1| ≤ 1 / 1000 := by
  constructor
  · obtain ⟨n, hn⟩ := connectingVector_congr (c := box) rfl (pos k) (pos m) 0
    have e : box.connectingVector (pos k) (pos m) 0 = (((m : ℤ) - k + 60 * n : ℤ) : ℝ) / 60 := by
      rw [hn]; simp [pos, CoordSys.size, box]; ring
    have h0 : (m : ℤ) - k + 60 * n ≠ 0 := by omega
    have h1 : (1 : ℝ) ≤ |(((m : ℤ) - k + 60 * n : ℤ) : ℝ)| := by exact_mod_cast Int.one_le_abs h0
    rw [e, abs_div, abs_of_pos (by norm_num : (0 : ℝ) < 60)]
    linarith
  · have hb : ∀ k : ℕ, 0 ≤ pos k 1 ∧ pos k 1 ≤ 1 / 1000 := fun k => by
      simp only [pos, Matrix.cons_val_one, Matrix.cons_val_zero]; split <;> norm_num
    have h1 := hb k
    have h2 := hb m
    have h : |pos m 1 - pos k 1| ≤ 1 / 1000 := abs_le.2 ⟨by linarith, by linarith⟩
    rw [connecting_unique box_proper rfl (r := pos m 1 - pos k 1) (k := 0) (by simp) (by simp only [box]; linarith)]
    exact h

theorem along : AlongAxis box 0 0.07 ps := by
  intro x hx y hy
  obtain ⟨k, hk, rfl⟩ := mem_ps.1 hx
  obtain ⟨m, hm, rfl⟩ := mem_ps.1 hy
  rw [Fin.sum_univ_two]
  rcases eq_or_ne k m with rfl | hne
  · rw [connecting_unique box_proper rfl (r := 0) (k := 0) (by simp) (by simp [box]), connecting_unique box_proper rfl (r := 0) (k := 0) (by simp) (by simp [box])]
    norm_num
  · obtain ⟨h1, h2⟩ := cv k m hk hm hne
    have a1 : (1 / 60 : ℝ) ^ 2 ≤ box.connectingVector (pos k) (pos m) 0 ^ 2 := by rw [← sq_abs (box.connectingVector _ _ _)]; exact pow_le_pow_left₀ (by norm_num) h1 2
    have a2 : box.connectingVector (pos k) (pos m) 1 ^ 2 ≤ (1 / 1000 : ℝ) ^ 2 := by rw [← sq_abs (box.connectingVector _ _ _)]; exact pow_le_pow_left₀ (abs_nonneg _) h2 2
    norm_num at a1 a2 ⊢
    linarith

theorem noGap : NoGapAlong box 0 (0.05 / 3) ps := by
  intro t
  refine ⟨pos (round (60 * t) % 60).toNat, mem_ps.2 ⟨_, by omega, rfl⟩, (round (60 * t) : ℝ) / 60, ⟨-(round (60 * t) / 60), ?_⟩, ?_⟩
  · have e : ((round (60 * t) % 60).toNat : ℤ) = round (60 * t) - 60 * (round (60 * t) / 60) := by omega
    have e' : ((round (60 * t) % 60).toNat : ℝ) = (round (60 * t) : ℝ) - 60 * ((round (60 * t) / 60 : ℤ) : ℝ) := by exact_mod_cast e
    simp only [pos, Matrix.cons_val_zero, box]
    rw [e']
    push_cast
    ring
  · have := abs_le.1 (abs_sub_round (60 * t))
    refine abs_le.2 ⟨?_, ?_⟩ <;> norm_num <;> linarith [this.1, this.2]

theorem far : ∀ x ∈ ps, ∀ y ∈ ps, x ≠ y → 0.05 / 4 < box.distance x y := by
  intro x hx y hy hne
  obtain ⟨k, hk, rfl⟩ := mem_ps.1 hx
  obtain ⟨m, hm, rfl⟩ := mem_ps.1 hy
  have := (cv k m hk hm fun h => hne (by rw [h])).1.trans (abs_connecting_le box_proper _ _ 0)
  norm_num at this ⊢
  linarith

/-- The hypotheses are met. -/
example : AlongAxis box 0 0.07 ps ∧ NoGapAlong box 0 (0.05 / 3) ps ∧ (∀ x ∈ ps, ∀ y ∈ ps, x ≠ y → 0.05 / 4 < box.distance x y) ∧
    ∃ out, RunFromPositions ps box 0.05 "shortest_path" (.ok out) ∧ OneClosedLoop box 0.05 (AtHeight box 0) 1 ps out := by
  obtain ⟨⟨r, hr⟩, -⟩ := C65_never_raises box_proper (fs := 0.05) (by norm_num) ps (.inr rfl)
  obtain ⟨out, rfl, h⟩ := C96_through_box box_proper rfl (by norm_num) (fun i => by simp [box]; norm_num) (by simp [box]; norm_num) (by norm_num) along noGap far hr
  exact ⟨along, noGap, far, out, hr, by simpa [box] using h⟩

open C91Demo in
/-- The hypotheses are met: a hundred positions on a circle of radius 10. -/
example : OnRing ![0, 0] ![1, 0] ![0, 1] 10 (1 / 240) ps' ∧ NoGapRound ![0, 0] ![1, 0] ![0, 1] 10 (1 / 3) ps' ∧ NotWrapped box' 1 ps' ∧ (∀ x ∈ ps', ∀ y ∈ ps', x ≠ y → 1 / 4 < box'.distance x y) ∧
    ∃ out, RunFromPositions ps' box' 1 "shortest_path" (.ok out) ∧ OneClosedLoop box' 1 (AtAngle ![0, 0] ![1, 0] ![0, 1] 10 (1 / 240)) (2 * Real.pi) ps' out := by
  obtain ⟨⟨r, hr⟩, -⟩ := C65_never_raises box'_proper (fs := 1) (by norm_num) ps' (.inr rfl)
  obtain ⟨out, rfl, h⟩ := C96_ring (by norm_num) box'_proper (by norm_num) (by norm_num) onRing noGap' (C90_nonperiodic rfl _ _) far' hr
  exact ⟨onRing, noGap', C90_nonperiodic rfl _ _, far', out, hr, h⟩

end C96Demo

end NF
