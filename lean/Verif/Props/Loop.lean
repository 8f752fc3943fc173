import Verif.Lemmas.RingRound

/-! # C91: a closed nodal line is identified as a closed loop -/

noncomputable section
open Classical
namespace NF
open Spec NxGraph CoordSys
variable {d : ℕ}

/-- **C91**, through the periodic box: if the positions are on a line along an axis of the periodic box, of slope at most 0.07 and without gaps (at every height there is a position within
a third of `feature_size`), more than a quarter of `feature_size` from each other, and the box is larger than three times `feature_size`, then (with the method `ballistic`, whatever the random choices) the
identification raises nothing and consists of exactly one closed loop, which goes through the box once. -/
theorem C91_through_box {cs : CoordSys d} (hb : ProperBox cs) (hp : cs.periodic = true) {fs : ℝ} (hfs : 0 < fs) (hsz : ∀ i, 3 * fs < cs.upper i - cs.lower i) {positions : List (Vec d)} {j : Fin d} {s : ℝ}
    (hs : s ^ 2 ≤ 0.0049) (hal : AlongAxis cs j s positions) (hgap : NoGapAlong cs j (fs / 3) positions) (hfar : ∀ x ∈ positions, ∀ y ∈ positions, x ≠ y → fs / 4 < cs.distance x y)
    {res : Except Err (IdContainer d)} (h : RunFromPositions positions cs fs "ballistic" res) :
    ∃ out, res = .ok out ∧ OneClosedLoop cs fs (AtHeight cs j) (cs.upper j - cs.lower j) positions out :=
  (round_of_axis hb hp hfs hsz hs hal hgap hfar).one_loop (Fin.pos j) hb hfs h

theorem one_loop_imp {cs : CoordSys d} {fs : ℝ} {At At' : Vec d → ℝ → Prop} {L : ℝ} {P : List (Vec d)} (h : ∀ x ∈ P, ∀ t, At x t → At' x t) {out : IdContainer d} (ho : OneClosedLoop cs fs At L P out) :
    OneClosedLoop cs fs At' L P out := by
  obtain ⟨r, h1, h2, h3, l, h4, hn, s, p, c1, c2, c3, c4, c5⟩ := ho
  exact ⟨r, h1, h2, h3, l, h4, hn, s, p, c1, OnceRound.imp (fun x hx t => h x (c3 x hx) t) c2, c3, c4, c5⟩

/-- **C91**, a ring: if the positions are within `feature_size / 240` of a circle (in any plane) with a radius of at least ten times `feature_size`, without gaps (within a third of `feature_size` of every point of
the circle there is a position), more than a quarter of `feature_size` from each other, and the ring does not cross the boundary of the box, then (with the method `ballistic`, whatever the random choices) the
identification raises nothing and consists of exactly one closed loop, which goes round the circle once. -/
theorem C91_ring (hd : 1 ≤ d) {cs : CoordSys d} (hb : ProperBox cs) {fs : ℝ} (hfs : 0 < fs) {positions : List (Vec d)} {o a b : Vec d} {R : ℝ} (hR : 10 * fs ≤ R) (hring : OnRing o a b R (fs / 240) positions)
    (hgap : NoGapRound o a b R (fs / 3) positions) (hw : NotWrapped cs fs positions) (hfar : ∀ x ∈ positions, ∀ y ∈ positions, x ≠ y → fs / 4 < cs.distance x y)
    {res : Except Err (IdContainer d)} (h : RunFromPositions positions cs fs "ballistic" res) :
    ∃ out, res = .ok out ∧ OneClosedLoop cs fs (AtAngle o a b R (fs / 240)) (2 * Real.pi) positions out := by
  obtain ⟨τ, hτ, -, hr⟩ := round_of_ring hb hfs hR hring hgap hw hfar
  obtain ⟨out, ho, hl⟩ := hr.one_loop hd hb hfs h
  refine ⟨out, ho, one_loop_imp (fun x hx t ⟨k, hk⟩ => ?_) hl⟩
  exact AtAngle.period (hτ x hx) hk

/-! ### Examples -/

namespace C91Demo

/-- the periodic unit square -/
def box : CoordSys 2 := ⟨fun _ => 0, fun _ => 1, true⟩

theorem box_proper : ProperBox box := fun i => by simp [box]

/-- five positions on a line through the box, with a bump -/
def pos (k : ℕ) : Vec 2 := ![k / 5, if k = 1 then 1 / 100 else 0]

def ps : List (Vec 2) := (List.range 5).map pos

theorem mem_ps {x : Vec 2} : x ∈ ps ↔ ∃ k < 5, x = pos k := by simp [ps, eq_comm]

theorem cv (k m : ℕ) (hk : k < 5) (hm : m < 5) (hne : k ≠ m) : 1 / 5 ≤ |box.connectingVector (pos k) (pos m) 0| ∧ |box.connectingVector (pos k) (pos m) 1| ≤ 1 / 100 := by
  constructor
  · obtain ⟨n, hn⟩ := connectingVector_congr (c := box) rfl (pos k) (pos m) 0
    have e : box.connectingVector (pos k) (pos m) 0 = (((m : ℤ) - k + 5 * n : ℤ) : ℝ) / 5 := by
      rw [hn]; simp [pos, CoordSys.size, box]; ring
    have h0 : (m : ℤ) - k + 5 * n ≠ 0 := by omega
    have h1 : (1 : ℝ) ≤ |(((m : ℤ) - k + 5 * n : ℤ) : ℝ)| := by exact_mod_cast Int.one_le_abs h0
    rw [e, abs_div, abs_of_pos (by norm_num : (0 : ℝ) < 5)]
    linarith
  · have hb : ∀ k : ℕ, 0 ≤ pos k 1 ∧ pos k 1 ≤ 1 / 100 := fun k => by
      simp only [pos, Matrix.cons_val_one, Matrix.cons_val_zero]; split <;> norm_num
    have h1 := hb k
    have h2 := hb m
    have h : |pos m 1 - pos k 1| ≤ 1 / 100 := abs_le.2 ⟨by linarith, by linarith⟩
    rw [connecting_unique box_proper rfl (r := pos m 1 - pos k 1) (k := 0) (by simp) (by simp only [box]; linarith)]
    exact h

theorem along : AlongAxis box 0 0.07 ps := by
  intro x hx y hy
  obtain ⟨k, hk, rfl⟩ := mem_ps.1 hx
  obtain ⟨m, hm, rfl⟩ := mem_ps.1 hy
  rw [Fin.sum_univ_two]
  rcases eq_or_ne k m with rfl | hne
  · rw [connecting_unique box_proper rfl (r := 0) (k := 0) (by simp) (by simp [box]), connecting_unique box_proper rfl (r := 0) (k := 0) (by simp) (by simp [box])]
    norm_num
  · obtain ⟨h1, h2⟩ := cv k m hk hm hne
    have a1 : (1 / 5 : ℝ) ^ 2 ≤ box.connectingVector (pos k) (pos m) 0 ^ 2 := by rw [← sq_abs (box.connectingVector _ _ _)]; exact pow_le_pow_left₀ (by norm_num) h1 2
    have a2 : box.connectingVector (pos k) (pos m) 1 ^ 2 ≤ (1 / 100 : ℝ) ^ 2 := by rw [← sq_abs (box.connectingVector _ _ _)]; exact pow_le_pow_left₀ (abs_nonneg _) h2 2
    norm_num at a1 a2 ⊢
    linarith

theorem noGap : NoGapAlong box 0 (0.3 / 3) ps := by
  intro t
  refine ⟨pos (round (5 * t) % 5).toNat, mem_ps.2 ⟨_, by omega, rfl⟩, (round (5 * t) : ℝ) / 5, ⟨-(round (5 * t) / 5), ?_⟩, ?_⟩
  · have e : ((round (5 * t) % 5).toNat : ℤ) = round (5 * t) - 5 * (round (5 * t) / 5) := by omega
    have e' : ((round (5 * t) % 5).toNat : ℝ) = (round (5 * t) : ℝ) - 5 * ((round (5 * t) / 5 : ℤ) : ℝ) := by exact_mod_cast e
    simp only [pos, Matrix.cons_val_zero, box]
    rw [e']
    push_cast
    ring
  · have := abs_le.1 (abs_sub_round (5 * t))
    refine abs_le.2 ⟨?_, ?_⟩ <;> norm_num <;> linarith [this.1, this.2]

theorem far : ∀ x ∈ ps, ∀ y ∈ ps, x ≠ y → 0.3 / 4 < box.distance x y := by
  intro x hx y hy hne
  obtain ⟨k, hk, rfl⟩ := mem_ps.1 hx
  obtain ⟨m, hm, rfl⟩ := mem_ps.1 hy
  have := (cv k m hk hm fun h => hne (by rw [h])).1.trans (abs_connecting_le box_proper _ _ 0)
  norm_num at this ⊢
  linarith

/-- The hypotheses are met. -/
example : AlongAxis box 0 0.07 ps ∧ NoGapAlong box 0 (0.3 / 3) ps ∧ (∀ x ∈ ps, ∀ y ∈ ps, x ≠ y → 0.3 / 4 < box.distance x y) ∧
    ∃ out, RunFromPositions ps box 0.3 "ballistic" (.ok out) ∧ OneClosedLoop box 0.3 (AtHeight box 0) 1 ps out := by
  obtain ⟨⟨r, hr⟩, -⟩ := C65_never_raises box_proper (fs := 0.3) (by norm_num) ps (.inl rfl)
  obtain ⟨out, rfl, h⟩ := C91_through_box box_proper rfl (by norm_num) (fun i => by simp [box]; norm_num) (by norm_num) along noGap far hr
  exact ⟨along, noGap, far, out, hr, by simpa [box] using h⟩

/-! a hundred positions on a circle of radius 10 -/

def box' : CoordSys 2 := ⟨fun _ => -20, fun _ => 20, false⟩

theorem box'_proper : ProperBox box' := fun i => by simp [box']

def pos' (k : ℕ) : Vec 2 := ringPoint ![0, 0] ![1, 0] ![0, 1] 10 (2 * Real.pi * k / 100)

def ps' : List (Vec 2) := (List.range 100).map pos'

theorem mem_ps' {x : Vec 2} : x ∈ ps' ↔ ∃ k < 100, x = pos' k := by simp [ps', eq_comm]

theorem onb : Orthonormal2 (![1, 0] : Vec 2) ![0, 1] := ⟨by simp [Fin.sum_univ_two], by simp [Fin.sum_univ_two], by simp [Fin.sum_univ_two]⟩

theorem eucl_ring (t s : ℝ) : eucl (ringPoint ![0, 0] ![1, 0] ![0, 1] 10 t : Vec 2) (ringPoint ![0, 0] ![1, 0] ![0, 1] 10 (t + s)) = 20 * |Real.sin (s / 2)| := by
  have h : eucl (ringPoint ![0, 0] ![1, 0] ![0, 1] 10 t : Vec 2) (ringPoint ![0, 0] ![1, 0] ![0, 1] 10 (t + s)) ^ 2 = (20 * |Real.sin (s / 2)|) ^ 2 := by
    rw [eucl_sq_dot]
    simp only [ring_sub]
    have := dot_lin (2 * 10 * Real.sin (s / 2)) (2 * 10 * Real.sin (s / 2)) (tangent (![1, 0] : Vec 2) ![0, 1] (t + s / 2)) (fun _ => 0) (tangent (![1, 0] : Vec 2) ![0, 1] (t + s / 2)) fun _ => 0
    simp only [add_zero] at this
    rw [this, dot_tangent onb, sub_self, Real.cos_zero, mul_pow, sq_abs]
    simp [dot]
    ring
  exact (sq_eq_sq₀ (eucl_nonneg _ _) (by positivity)).1 h

theorem eucl_self (x : Vec 2) : eucl x x = 0 := by simp [eucl]

theorem onRing : OnRing ![0, 0] ![1, 0] ![0, 1] 10 (1 / 240) ps' := by
  refine ⟨onb, fun x hx => ?_⟩
  obtain ⟨k, -, rfl⟩ := mem_ps'.1 hx
  exact ⟨2 * Real.pi * k / 100, by unfold AtAngle pos'; rw [eucl_self]; norm_num⟩

theorem noGap' : NoGapRound ![0, 0] ![1, 0] ![0, 1] 10 (1 / 3) ps' := by
  intro t
  have hpi := Real.pi_pos
  have hpi2 := Real.pi_lt_d2
  set n := round (100 * t / (2 * Real.pi)) with hn
  refine ⟨pos' (n % 100).toNat, mem_ps'.2 ⟨_, by omega, rfl⟩, ?_⟩
  have e : ((n % 100).toNat : ℤ) = n - 100 * (n / 100) := by omega
  have e' : ((n % 100).toNat : ℝ) = (n : ℝ) - 100 * ((n / 100 : ℤ) : ℝ) := by exact_mod_cast e
  have hpos : pos' (n % 100).toNat = ringPoint ![0, 0] ![1, 0] ![0, 1] 10 (2 * Real.pi * n / 100) := by
    unfold pos'
    rw [e', ← ring_period _ _ _ _ (2 * Real.pi * n / 100) (-(n / 100))]
    congr 1
    push_cast
    ring
  unfold AtAngle
  rw [hpos, show t = 2 * Real.pi * n / 100 + (t - 2 * Real.pi * n / 100) by ring, eucl_ring]
  have h1 := abs_sub_round (100 * t / (2 * Real.pi))
  rw [← hn] at h1
  have h2 : t - 2 * Real.pi * n / 100 = 2 * Real.pi / 100 * (100 * t / (2 * Real.pi) - n) := by field_simp
  have h3 : |(t - 2 * Real.pi * n / 100) / 2| ≤ Real.pi / 200 := by
    rw [abs_div, h2, abs_mul, abs_of_pos (by positivity), abs_of_pos (by norm_num : (0 : ℝ) < 2)]
    nlinarith [mul_le_mul_of_nonneg_left h1 hpi.le]
  have h4 : |Real.sin ((t - 2 * Real.pi * n / 100) / 2)| ≤ Real.pi / 200 := Real.abs_sin_le_abs.trans h3
  have : Real.pi / 200 ≤ 3.15 / 200 := by linarith
  linarith

theorem sin_far (m : ℕ) (h1 : 1 ≤ m) (h2 : m < 100) : 2 / 100 ≤ Real.sin (Real.pi * m / 100) := by
  have hpi := Real.pi_pos
  have hm1 : (1 : ℝ) ≤ m := by exact_mod_cast h1
  have hm2 : (m : ℝ) ≤ 99 := by exact_mod_cast Nat.le_of_lt_succ h2
  rcases le_total (m : ℝ) 50 with h | h
  · have := Real.mul_le_sin (x := Real.pi * m / 100) (by positivity) (by nlinarith)
    refine le_trans ?_ this
    rw [show 2 / Real.pi * (Real.pi * m / 100) = 2 * m / 100 by field_simp]
    linarith
  · have := Real.mul_le_sin (x := Real.pi - Real.pi * m / 100) (by nlinarith) (by nlinarith)
    rw [Real.sin_pi_sub] at this
    refine le_trans ?_ this
    rw [show 2 / Real.pi * (Real.pi - Real.pi * m / 100) = 2 - 2 * m / 100 by field_simp]
    linarith

theorem far' : ∀ x ∈ ps', ∀ y ∈ ps', x ≠ y → 1 / 4 < box'.distance x y := by
  have key : ∀ k m : ℕ, k < m → m < 100 → 1 / 4 < eucl (pos' k) (pos' m) := by
    intro k m hkm hm
    have e : 2 * Real.pi * m / 100 = 2 * Real.pi * k / 100 + 2 * (Real.pi * ((m - k : ℕ) : ℝ) / 100) := by rw [Nat.cast_sub hkm.le]; ring
    unfold pos'
    rw [e, eucl_ring, mul_div_cancel_left₀ _ two_ne_zero]
    have := (sin_far (m - k) (by omega) (by omega)).trans (le_abs_self _)
    linarith
  intro x hx y hy hne
  obtain ⟨k, hk, rfl⟩ := mem_ps'.1 hx
  obtain ⟨m, hm, rfl⟩ := mem_ps'.1 hy
  rcases lt_trichotomy k m with h | h | h
  · rw [distance_eucl rfl]; exact key k m h hm
  · exact absurd (by rw [h]) hne
  · rw [(C03_distance_metric box' box'_proper (pos' k) (pos' m) (pos' m)).2.1, distance_eucl rfl]; exact key m k h hk

/-- The hypotheses are met. -/
example : OnRing ![0, 0] ![1, 0] ![0, 1] 10 (1 / 240) ps' ∧ NoGapRound ![0, 0] ![1, 0] ![0, 1] 10 (1 / 3) ps' ∧ NotWrapped box' 1 ps' ∧ (∀ x ∈ ps', ∀ y ∈ ps', x ≠ y → 1 / 4 < box'.distance x y) ∧
    ∃ out, RunFromPositions ps' box' 1 "ballistic" (.ok out) ∧ OneClosedLoop box' 1 (AtAngle ![0, 0] ![1, 0] ![0, 1] 10 (1 / 240)) (2 * Real.pi) ps' out := by
  obtain ⟨⟨r, hr⟩, -⟩ := C65_never_raises box'_proper (fs := 1) (by norm_num) ps' (.inl rfl)
  obtain ⟨out, rfl, h⟩ := C91_ring (by norm_num) box'_proper (by norm_num) (by norm_num) onRing noGap' (C90_nonperiodic rfl _ _) far' hr
  exact ⟨onRing, noGap', C90_nonperiodic rfl _ _, far', out, hr, h⟩

end C91Demo

end NF
