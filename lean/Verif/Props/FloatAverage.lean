import Verif.Model.FloatAverage
import Verif.Props.FloatDistance

/-! # C109: the average of positions in double precision -/

noncomputable section
open Classical
namespace NF
open Spec CoordSys
variable {d : ℕ} {rnd : ℝ → ℝ}

/-! ## Sums of numbers of any sign -/

theorem rndSum_err (hr : IsNearest rnd) {l : List ℝ} {a : ℝ} (h : FL.RndSum rnd l a) : |a - l.sum| ≤ ((1 + ulp) ^ (l.length - 1) - 1) * (l.map abs).sum := by
  have hu := ulp_pos
  have hu1 := ulp_small
  induction h with
  | nil => simp
  | one x => simp
  | @add l l' a b hl hl' _ _ ih ih' =>
    have s0 : 0 ≤ (l.map abs).sum := List.sum_nonneg fun x hx => by obtain ⟨y, -, rfl⟩ := List.mem_map.1 hx; exact abs_nonneg y
    have s0' : 0 ≤ (l'.map abs).sum := List.sum_nonneg fun x hx => by obtain ⟨y, -, rfl⟩ := List.mem_map.1 hx; exact abs_nonneg y
    have n1 := List.length_pos_iff.2 hl
    have n2 := List.length_pos_iff.2 hl'
    have e := rel_err' hr (a + b)
    have eL : (l ++ l').length - 1 = l.length - 1 + (l'.length - 1) + 1 := by simp; omega
    rw [eL, List.sum_append, List.map_append, List.sum_append]
    set N := l.length - 1 + (l'.length - 1) with hN
    have hp2 : ∀ n m : ℕ, n ≤ m → (1 + ulp) ^ n ≤ (1 + ulp) ^ m := fun n m h => pow_le_pow_right₀ (by linarith) h
    have hp1 : 1 ≤ (1 + ulp) ^ N := one_le_pow₀ (by linarith)
    have c1 : |a - l.sum| ≤ ((1 + ulp) ^ N - 1) * (l.map abs).sum := ih.trans (mul_le_mul_of_nonneg_right (by have := hp2 (l.length - 1) N (by omega); linarith) s0)
    have c2 : |b - l'.sum| ≤ ((1 + ulp) ^ N - 1) * (l'.map abs).sum := ih'.trans (mul_le_mul_of_nonneg_right (by have := hp2 (l'.length - 1) N (by omega); linarith) s0')
    have abs_sum : ∀ l : List ℝ, |l.sum| ≤ (l.map abs).sum := by
      intro l
      induction l with
      | nil => simp
      | cons x l ih => simpa using (abs_add_le _ _).trans (add_le_add le_rfl ih)
    have d1 := abs_sum l
    have d2 := abs_sum l'
    have g1 : |a + b - (l.sum + l'.sum)| ≤ ((1 + ulp) ^ N - 1) * ((l.map abs).sum + (l'.map abs).sum) := by
      rw [show a + b - (l.sum + l'.sum) = (a - l.sum) + (b - l'.sum) by ring]
      refine (abs_add_le _ _).trans ?_
      rw [mul_add]; exact add_le_add c1 c2
    have g2 : |a + b| ≤ (1 + ulp) ^ N * ((l.map abs).sum + (l'.map abs).sum) := by
      have : a + b = (a + b - (l.sum + l'.sum)) + (l.sum + l'.sum) := by ring
      rw [this]
      refine (abs_add_le _ _).trans ?_
      have := abs_add_le l.sum l'.sum
      linarith
    have g3 := mul_le_mul_of_nonneg_left g2 hu.le
    rw [show rnd (a + b) - (l.sum + l'.sum) = (rnd (a + b) - (a + b)) + (a + b - (l.sum + l'.sum)) by ring]
    refine (abs_add_le _ _).trans ?_
    rw [pow_succ]
    linarith
  | perm _ hp ih =>
    rwa [hp.sum_eq, hp.length_eq, (hp.map abs).sum_eq] at ih

/-- the computed mean of numbers of absolute value at most `B` -/
theorem mean_err (hr : IsNearest rnd) {l : List ℝ} {s B : ℝ} (h : FL.RndSum rnd l s) (hne : l ≠ []) (hB : ∀ x ∈ l, |x| ≤ B) (hn : (l.length : ℝ) * ulp ≤ 1 / 2) :
    |rnd (s / l.length) - l.sum / l.length| ≤ (2 * l.length) * ulp * B := by
  have hu := ulp_pos
  have hu1 := ulp_small
  have hl : (0 : ℝ) < l.length := by exact_mod_cast List.length_pos_iff.2 hne
  have hl1 : (1 : ℝ) ≤ l.length := by exact_mod_cast List.length_pos_iff.2 hne
  have hB0 : 0 ≤ B := by
    obtain ⟨x, hx⟩ := List.exists_mem_of_ne_nil l hne
    exact (abs_nonneg x).trans (hB x hx)
  have habs : (l.map abs).sum ≤ l.length * B := by
    clear h hn hl hl1 hne
    induction l with
    | nil => simp
    | cons x l ih =>
      have h1 := ih fun y hy => hB y (by simp [hy])
      have h2 := hB x (by simp)
      simp only [List.map_cons, List.sum_cons, List.length_cons]
      push_cast
      linarith
  have h1 := rndSum_err hr h
  have hsub : ((l.length - 1 : ℕ) : ℝ) = l.length - 1 := by
    rw [Nat.cast_sub (List.length_pos_iff.2 hne)]; simp
  have h2 := (pow_bounds (l.length - 1) (by rw [hsub]; nlinarith)).1
  rw [hsub] at h2
  have s0 : 0 ≤ (l.map abs).sum := List.sum_nonneg fun x hx => by obtain ⟨y, -, rfl⟩ := List.mem_map.1 hx; exact abs_nonneg y
  have h3 : |s - l.sum| ≤ 2 * (l.length - 1) * ulp * (l.length * B) := by
    refine h1.trans (mul_le_mul (by linarith) habs s0 ?_)
    have : 0 ≤ (l.length : ℝ) - 1 := by linarith
    positivity
  have h4 : |s / l.length - l.sum / l.length| ≤ 2 * (l.length - 1) * ulp * B := by
    rw [← sub_div, abs_div, abs_of_pos hl, div_le_iff₀ hl]
    refine h3.trans (le_of_eq (by ring))
  have h5 : |l.sum / l.length| ≤ B := by
    rw [abs_div, abs_of_pos hl, div_le_iff₀ hl]
    have abs_sum : ∀ l : List ℝ, |l.sum| ≤ (l.map abs).sum := by
      intro l
      induction l with
      | nil => simp
      | cons x l ih => simpa using (abs_add_le _ _).trans (add_le_add le_rfl ih)
    linarith [abs_sum l]
  have h6 := rel_err' hr (s / l.length)
  have h7 : |s / l.length| ≤ 2 * B := by
    have : s / l.length = (s / l.length - l.sum / l.length) + l.sum / l.length := by ring
    rw [this]
    refine (abs_add_le _ _).trans ?_
    have : 2 * ((l.length : ℝ) - 1) * ulp * B ≤ 1 * B := mul_le_mul_of_nonneg_right (by linarith) hB0
    linarith
  rw [show rnd (s / l.length) - l.sum / l.length = (rnd (s / l.length) - s / l.length) + (s / l.length - l.sum / l.length) by ring]
  refine (abs_add_le _ _).trans ?_
  have := mul_le_mul_of_nonneg_left h7 hu.le
  linarith

/-- **C109** (open): the computed average of `n` positions in a space that is not periodic is the mean, up to `2 n / 2 ^ 53` times the largest coordinate, in every dimension. -/
theorem C109_average_open (hr : IsNearest rnd) {cs : CoordSys d} (hper : cs.periodic = false) {ps : List (Vec d)} (hne : ps ≠ []) (hn : (ps.length : ℝ) / 2 ^ 53 ≤ 1 / 2) {M : Vec d}
    (hM : ∀ p ∈ ps, ∀ i, |p i| ≤ M i) {r : Except Err (Vec d)} (h : FL.Average rnd cs ps r) :
    ∃ a, r = .ok a ∧ ∀ i, |a i - (ps.map fun p => p i).sum / ps.length| ≤ 2 * ps.length / 2 ^ 53 * M i := by
  cases h with
  | empty => exact absurd rfl hne
  | periodic h _ _ => rw [hper] at h; cases h
  | raises h _ _ => rw [hper] at h; cases h
  | @plain origin rest a _ hm =>
    refine ⟨a, rfl, fun i => ?_⟩
    obtain ⟨s, hs, e⟩ := hm i
    have := mean_err hr hs (by simp) (B := M i) (by
      intro x hx
      obtain ⟨p, hp, rfl⟩ := List.mem_map.1 hx
      exact hM p hp i) (by rw [List.length_map]; unfold ulp; linarith)
    rw [List.length_map] at this
    rw [e]
    refine this.trans (le_of_eq ?_)
    unfold ulp; ring

/-- what the average adds up -/
theorem delta_err (hr : IsNearest rnd) {cs : CoordSys d} (hb : ProperBox cs) (hper : cs.periodic = true) {o p u v : Vec d} (i : Fin d) (hpo : |p i - o i| ≤ 5 * cs.size i) (ho : Congr cs o v) (hp : Congr cs p u)
    (hh : |u i - v i| ≤ (1 / 2 - 1 / 2 ^ 48) * cs.size i) : |FL.connectingVector rnd cs o p i - (u i - v i)| ≤ 15 * (ulp * cs.size i) ∧ |FL.connectingVector rnd cs o p i| ≤ 0.51 * cs.size i := by
  have hS := size_pos hb i
  obtain ⟨⟨k, hk⟩, h1, h2⟩ := fl_connecting hr hb hper o p i hpo
  refine ⟨?_, h1⟩
  obtain ⟨l, rfl⟩ := ho
  obtain ⟨m, rfl⟩ := hp
  rw [shift_apply, shift_apply] at hh ⊢
  have h3 : |cs.connectingVector o p i| ≤ |p i + m i * cs.size i - (o i + l i * cs.size i)| := by
    rw [abs_connectingVector hb, distDelta_periodic hper, abs_of_nonneg (wrap_nonneg hS _)]
    refine (wrap_le hS _ (m i - l i)).trans (le_of_eq ?_)
    congr 1; push_cast; ring
  have hu := ulp_pos
  set w := FL.connectingVector rnd cs o p i with hw
  have e : p i - o i + k * cs.size i = (p i + m i * cs.size i - (o i + l i * cs.size i)) + ((k - m i + l i : ℤ) : ℝ) * cs.size i := by push_cast; ring
  rw [e] at hk
  set x := p i + m i * cs.size i - (o i + l i * cs.size i) with hx
  set S := cs.size i with hSd
  have huS : ulp * S = S / 2 ^ 53 := by unfold ulp; ring
  have hz : (k - m i + l i : ℤ) = 0 := by
    by_contra h0
    have h4 : (1 : ℝ) ≤ |((k - m i + l i : ℤ) : ℝ)| := by exact_mod_cast Int.one_le_abs h0
    have h5 : S ≤ |((k - m i + l i : ℤ) : ℝ) * S| := by rw [abs_mul, abs_of_pos hS]; nlinarith
    have h6 : |((k - m i + l i : ℤ) : ℝ) * S| ≤ |w - (x + ((k - m i + l i : ℤ) : ℝ) * S)| + |w| + |x| := by
      have : ((k - m i + l i : ℤ) : ℝ) * S = -(w - (x + ((k - m i + l i : ℤ) : ℝ) * S)) + (w - x) := by ring
      calc |((k - m i + l i : ℤ) : ℝ) * S| = |-(w - (x + ((k - m i + l i : ℤ) : ℝ) * S)) + (w - x)| := by rw [← this]
        _ ≤ _ := (abs_add_le _ _).trans (by rw [abs_neg]; have := abs_sub w x; linarith)
    rw [huS] at hk h2
    linarith
  rw [hz] at hk
  simpa using hk

theorem sum_close {α β : Type} {R : α → β → Prop} {f : α → ℝ} {g : β → ℝ} {c : ℝ} {l : List α} {l' : List β} (h : List.Forall₂ R l l') (hc : ∀ x ∈ l, ∀ y ∈ l', R x y → |f x - g y| ≤ c) :
    |(l.map f).sum - (l'.map g).sum| ≤ l.length * c := by
  induction h with
  | nil => simp
  | @cons x y l l' h1 _ ih =>
    have h2 := ih fun x hx y hy => hc x (by simp [hx]) y (by simp [hy])
    have h3 := hc x (by simp) y (by simp) h1
    simp only [List.map_cons, List.sum_cons, List.length_cons]
    rw [show f x + (l.map f).sum - (g y + (l'.map g).sum) = (f x - g y) + ((l.map f).sum - (l'.map g).sum) by ring]
    refine (abs_add_le _ _).trans ?_
    push_cast
    linarith

/-- the remainder at the end of `average` -/
theorem mod_size_err (hr : IsNearest rnd) {cs : CoordSys d} (hb : ProperBox cs) (i : Fin d) (x : ℝ) :
    ∃ k : ℤ, |FL.npMod rnd x (FL.size rnd cs i) - (x + k * cs.size i)| ≤ ulp * (2.1 * cs.size i + 1.01 * |x|) := by
  have hS := size_pos hb i
  have hs := fl_size_pos hr hb i
  have hse := fl_size_err hr hb i
  have hse' := abs_le.1 hse
  obtain ⟨h0, h1⟩ := npMod_range hr x hs (hr _).1
  obtain ⟨k, hk⟩ := npMod_err hr x hs
  have hu := ulp_pos
  have hu1 := ulp_small
  set s := FL.size rnd cs i with hsd
  set S := cs.size i with hSd
  set m := FL.npMod rnd x s with hm
  have huS := mul_pos hu hS
  have husmall : ulp * S ≤ 1 / 1000000 * S := mul_le_mul_of_nonneg_right hu1 hS.le
  have hus : ulp * s ≤ 1 / 1000000 * s := mul_le_mul_of_nonneg_right hu1 hs.le
  refine ⟨k, ?_⟩
  have hks : |(k : ℝ)| * s ≤ 1.000001 * s + |x| := by
    have : |(k : ℝ)| * s = |(k : ℝ) * s| := by rw [abs_mul, abs_of_pos hs]
    rw [this, show (k : ℝ) * s = -(m - (x + k * s)) + (m - x) by ring]
    refine (abs_add_le _ _).trans ?_
    rw [abs_neg]
    have := abs_sub m x
    rw [abs_of_nonneg h0] at this
    linarith
  have hkS : |(k : ℝ) * (s - S)| ≤ ulp * (1.001 * (1.000001 * s + |x|)) := by
    rw [abs_mul]
    have h2 : |(k : ℝ)| * |s - S| ≤ |(k : ℝ)| * (ulp * (1.001 * s)) := mul_le_mul_of_nonneg_left (hse.trans (mul_le_mul_of_nonneg_left (by linarith) hu.le)) (abs_nonneg _)
    have h3 : |(k : ℝ)| * (ulp * (1.001 * s)) = ulp * (1.001 * (|(k : ℝ)| * s)) := by ring
    rw [h3] at h2
    exact h2.trans (mul_le_mul_of_nonneg_left (by linarith) hu.le)
  rw [show m - (x + k * S) = (m - (x + k * s)) + k * (s - S) by ring]
  refine (abs_add_le _ _).trans ((add_le_add hk hkS).trans ?_)
  rw [← mul_add]
  refine mul_le_mul_of_nonneg_left ?_ hu.le
  have := abs_nonneg x
  linarith

/-- **C109** (periodic): let `us` be images of the positions `ps` that are less than half of the box apart in every dimension, up to `2⁻⁴⁸` of it.  A computed average of the positions is, up to periods, the mean of those images, up to `((2 n + 20) size + 3 M) / 2 ^ 53` in every dimension, if
no coordinate of a position is larger than `M`; its coordinates are between 0 and the size of the box, which they can attain.  It is not affected by the assertion in `connecting_vector` if the box and the positions are moderate (as in C97). -/
theorem C109_average_periodic (hr : IsNearest rnd) {cs : CoordSys d} (hb : ProperBox cs) (hper : cs.periodic = true) {ps us : List (Vec d)} (hne : ps ≠ []) (hn : (ps.length : ℝ) / 2 ^ 53 ≤ 1 / 100)
    (hus : List.Forall₂ (Congr cs) ps us) (hhalf : ∀ u ∈ us, ∀ v ∈ us, ∀ i, |u i - v i| ≤ (1 / 2 - 1 / 2 ^ 48) * (cs.upper i - cs.lower i))
    (hpq : ∀ p ∈ ps, ∀ q ∈ ps, ∀ i, |q i - p i| ≤ 2 * (cs.upper i - cs.lower i)) {M : Vec d} (hM : ∀ p ∈ ps, ∀ i, |p i| ≤ M i) {r : Except Err (Vec d)} (h : FL.Average rnd cs ps r) :
    (∀ a, r = .ok a → ∀ i, (0 ≤ a i ∧ a i ≤ rnd (cs.upper i - cs.lower i)) ∧
      ∃ k : ℤ, |a i - ((us.map fun u => u i).sum / us.length + k * (cs.upper i - cs.lower i))| ≤ ((2 * ps.length + 20) * (cs.upper i - cs.lower i) + 3 * M i) / 2 ^ 53) ∧
    (((d : ℝ) + 1) / 2 ^ 53 ≤ 1 / 2 → (∀ i, M i / 2 ^ 53 ≤ cs.upper i - cs.lower i) → (2 * d + 36) * len (fun i => cs.upper i - cs.lower i) + len M ≤ 9 * 10 ^ 7 → ∃ a, r = .ok a) := by
  refine ⟨?_, ?_⟩
  · rintro a rfl i
    cases h with
    | plain h _ => rw [hper] at h; cases h
    | @periodic o rest deltas a _ hd hm =>
      have hS := size_pos hb i
      have hs := fl_size_pos hr hb i
      have hrange := npMod_range hr (rnd (o i + a i)) hs (hr _).1
      refine ⟨hrange, ?_⟩
      obtain ⟨v, us', ho, hrest, rfl⟩ : ∃ v us', Congr cs o v ∧ List.Forall₂ (Congr cs) rest us' ∧ us = v :: us' := by
        cases hus with
        | cons h1 h2 => exact ⟨_, _, h1, h2, rfl⟩
      have hdel : deltas = (o :: rest).map fun p => FL.connectingVector rnd cs o p := by
        have : ∀ l l' : List (Vec d), List.Forall₂ (fun pos delta => FL.Connecting rnd cs o pos (.ok delta)) l l' → l' = l.map fun p => FL.connectingVector rnd cs o p := by
          intro l l' h
          induction h with
          | nil => rfl
          | cons h1 _ ih =>
            rw [List.map_cons, ih]
            congr 1
            cases h1 <;> rfl
        exact this _ _ hd
      have hlen : (v :: us').length = (o :: rest).length := hus.length_eq.symm
      obtain ⟨s, hsum, ea⟩ := hm i
      set n : ℝ := ((o :: rest).length : ℝ) with hnd
      have hn0 : 0 < n := by rw [hnd]; simp only [List.length_cons]; positivity
      have hn1 : n * ulp ≤ 1 / 100 := by unfold ulp; linarith
      have hdl : deltas.length = (o :: rest).length := by rw [hdel, List.length_map]
      have hde : ∀ p ∈ o :: rest, ∀ u ∈ v :: us', Congr cs p u → |FL.connectingVector rnd cs o p i - (u i - v i)| ≤ 15 * (ulp * cs.size i) ∧ |FL.connectingVector rnd cs o p i| ≤ 0.51 * cs.size i := by
        intro p hp u hu hpu
        refine delta_err hr hb hper i ((hpq o (by simp) p hp i).trans ?_) ho hpu (hhalf u hu v (by simp) i)
        show 2 * cs.size i ≤ _; linarith
      have hB : ∀ x ∈ deltas.map fun w => w i, |x| ≤ 0.51 * cs.size i := by
        intro x hx
        rw [hdel, List.map_map] at hx
        obtain ⟨p, hp, rfl⟩ := List.mem_map.1 hx
        obtain ⟨u, hu, hpu⟩ : ∃ u ∈ v :: us', Congr cs p u := by
          have : ∀ (l : List (Vec d)) (l' : List (Vec d)), List.Forall₂ (Congr cs) l l' → ∀ p ∈ l, ∃ u ∈ l', Congr cs p u := by
            intro l l' h
            induction h with
            | nil => simp
            | cons h1 _ ih =>
              intro p hp
              rcases List.mem_cons.1 hp with rfl | hp
              · exact ⟨_, by simp, h1⟩
              · obtain ⟨u, h2, h3⟩ := ih p hp
                exact ⟨u, by simp [h2], h3⟩
          exact this _ _ hus p hp
        exact (hde p hp u hu hpu).2
      have h1 := mean_err hr hsum (by rw [hdel]; simp) hB (by rw [List.length_map, hdl, ← hnd]; linarith)
      rw [List.length_map, hdl, ← hnd] at h1
      rw [hdl, ← hnd] at ea
      rw [← ea] at h1
      have h2 : |(deltas.map fun w => w i).sum - ((v :: us').map fun u => u i - v i).sum| ≤ n * (15 * (ulp * cs.size i)) := by
        rw [hdel, List.map_map]
        exact sum_close hus fun p hp u hu hpu => (hde p hp u hu hpu).1
      have hsumsub : ∀ l : List (Vec d), (l.map fun u => u i - v i).sum = (l.map fun u => u i).sum - l.length * v i := by
        intro l
        induction l with
        | nil => simp
        | cons x l ih => simp only [List.map_cons, List.sum_cons, List.length_cons, ih]; push_cast; ring
      rw [hsumsub] at h2
      have hlenn : ((v :: us').length : ℝ) = n := by rw [hnd, hlen]
      rw [hlenn] at h2 ⊢
      set U := ((v :: us').map fun u => u i).sum with hU
      set D := (deltas.map fun w => w i).sum with hD
      set S := cs.size i with hSd
      have hu := ulp_pos
      have hu1 := ulp_small
      have huS := mul_pos hu hS
      have husmall : ulp * S ≤ 1 / 1000000 * S := mul_le_mul_of_nonneg_right hu1 hS.le
      have h3 : |D / n - (U / n - v i)| ≤ 15 * (ulp * S) := by
        rw [show D / n - (U / n - v i) = (D - (U - n * v i)) / n by field_simp, abs_div, abs_of_pos hn0, div_le_iff₀ hn0]
        linarith
      have hD1 : |D / n| ≤ 0.51 * S := by
        rw [abs_div, abs_of_pos hn0, div_le_iff₀ hn0]
        have : ∀ l : List ℝ, (∀ x ∈ l, |x| ≤ 0.51 * S) → |l.sum| ≤ l.length * (0.51 * S) := by
          intro l
          induction l with
          | nil => simp
          | cons x l ih =>
            intro hx
            have g1 := ih fun y hy => hx y (by simp [hy])
            have g2 := hx x (by simp)
            have g3 := abs_add_le x l.sum
            simp only [List.sum_cons, List.length_cons]; push_cast
            linarith
        have := this _ hB
        rw [List.length_map, hdl, ← hnd] at this
        linarith
      have h1' : |a i - D / n| ≤ 1.02 * n * (ulp * S) := h1.trans (le_of_eq (by ring))
      have hnS : n * (ulp * S) ≤ 1 / 100 * S := by rw [← mul_assoc]; exact mul_le_mul_of_nonneg_right hn1 hS.le
      have ha : |a i| ≤ 0.53 * S := by
        rw [show a i = (a i - D / n) + D / n by ring]
        refine (abs_add_le _ _).trans ?_
        linarith
      have h4 := rel_err' hr (o i + a i)
      have h5 : |o i + a i| ≤ |o i| + 0.53 * S := (abs_add_le _ _).trans (by linarith)
      have h6 := h4.trans (mul_le_mul_of_nonneg_left h5 hu.le)
      obtain ⟨k, hk⟩ := mod_size_err hr hb i (rnd (o i + a i))
      have ho0 := abs_nonneg (o i)
      have h7 : |rnd (o i + a i)| ≤ 1.01 * (|o i| + 0.53 * S) := by
        rw [show rnd (o i + a i) = (rnd (o i + a i) - (o i + a i)) + (o i + a i) by ring]
        refine (abs_add_le _ _).trans ?_
        have : ulp * (|o i| + 0.53 * S) ≤ 1 / 1000000 * (|o i| + 0.53 * S) := mul_le_mul_of_nonneg_right hu1 (by linarith)
        linarith
      have h8 := hk.trans (mul_le_mul_of_nonneg_left (show 2.1 * S + 1.01 * |rnd (o i + a i)| ≤ 2.7 * S + 1.03 * |o i| by linarith) hu.le)
      obtain ⟨l, rfl⟩ := ho
      rw [shift_apply] at h3
      refine ⟨k - l i, ?_⟩
      have hoM := hM o (by simp) i
      show |FL.npMod rnd (rnd (o i + a i)) (FL.size rnd cs i) - (U / n + ((k - l i : ℤ) : ℝ) * S)| ≤ ((2 * n + 20) * S + 3 * M i) / 2 ^ 53
      have hgoal : ((2 * n + 20) * S + 3 * M i) / 2 ^ 53 = 2 * n * (ulp * S) + 20 * (ulp * S) + 3 * (ulp * M i) := by unfold ulp; ring
      rw [hgoal]
      have huo : ulp * |o i| ≤ ulp * M i := mul_le_mul_of_nonneg_left hoM hu.le
      have huo0 : 0 ≤ ulp * |o i| := mul_nonneg hu.le ho0
      have hn2 : 0 ≤ n * (ulp * S) := by positivity
      rw [mul_add] at h6 h8
      rw [show FL.npMod rnd (rnd (o i + a i)) (FL.size rnd cs i) - (U / n + ((k - l i : ℤ) : ℝ) * S) =
        (FL.npMod rnd (rnd (o i + a i)) (FL.size rnd cs i) - (rnd (o i + a i) + k * S)) + ((rnd (o i + a i) - (o i + a i)) + ((a i - D / n) + (D / n - (U / n - (o i + l i * S))))) by push_cast; ring]
      refine (abs_add_le _ _).trans ?_
      have g1 := abs_add_le (rnd (o i + a i) - (o i + a i)) ((a i - D / n) + (D / n - (U / n - (o i + l i * S))))
      have g2 := abs_add_le (a i - D / n) (D / n - (U / n - (o i + l i * S)))
      linarith
  · intro hd hMs hmod
    have hlen : ∀ p ∈ ps, len p ≤ len M := fun p hp => len_mono fun i => (hM p hp i).trans (le_abs_self _)
    cases h with
    | empty => exact absurd rfl hne
    | plain => exact ⟨_, rfl⟩
    | periodic => exact ⟨_, rfl⟩
    | @raises o rest p e _ hp hc =>
      obtain ⟨w, h, -⟩ := C97_connecting_vector hr hb hper hd (hpq o (by simp) p hp) (fun i => (div_le_div_of_nonneg_right (hM o (by simp) i) (by positivity)).trans (hMs i)) (by linarith [hlen o (by simp)]) hc
      cases h

/-- **C109** (nodal points): the position of the nodal point that is computed from a cluster, as in `C109_average_periodic`, is almost the exact average, in whatever order the two take the positions. -/
theorem C109_nodal_point (hr : IsNearest rnd) {cs : CoordSys d} (hb : ProperBox cs) (hper : cs.periodic = true) {ps qs us : List (Vec d)} (hne : ps ≠ []) (hn : (ps.length : ℝ) / 2 ^ 53 ≤ 1 / 100)
    (hus : List.Forall₂ (Congr cs) ps us) (hhalf : ∀ u ∈ us, ∀ v ∈ us, ∀ i, |u i - v i| ≤ (1 / 2 - 1 / 2 ^ 48) * (cs.upper i - cs.lower i))
    (hpq : ∀ p ∈ ps, ∀ q ∈ ps, ∀ i, |q i - p i| ≤ 2 * (cs.upper i - cs.lower i)) {M : Vec d} (hM : ∀ p ∈ ps, ∀ i, |p i| ≤ M i) {a b : Vec d} (h : FL.EvaluatePoint rnd cs ps (.ok a))
    (hperm : ps.Perm qs) (hb' : cs.average qs = .ok b) :
    cs.distance a b ≤ len fun i => ((2 * ps.length + 20) * (cs.upper i - cs.lower i) + 3 * M i) / 2 ^ 53 := by
  have hS := fun i => size_pos hb i
  have hunw : Unwraps cs ps us := by
    refine ⟨hus, fun u hu v hv i => (hhalf u hu v hv i).trans_lt ?_⟩
    have : 0 < cs.upper i - cs.lower i := hS i
    have h2 : 0 < 1 / 2 ^ 48 * (cs.upper i - cs.lower i) := by positivity
    rw [sub_mul]; linarith
  have heq : cs.average ps = .ok b := by
    rw [← hb']
    obtain ⟨vs, hvs, hp⟩ := List.perm_comp_forall₂ hperm.symm hus
    refine C06_average_order_images cs hb hper ps qs us vs hne hunw ⟨hvs, fun u hu v hv i => ?_⟩ hp.symm
    exact hunw.2 u (hp.mem_iff.1 hu) v (hp.mem_iff.1 hv) i
  obtain ⟨b', e, ⟨l, hl⟩, -⟩ := C06_average_is_mean cs hb hper ps us hne hunw
  rw [heq] at e
  cases e
  have h1 := (C109_average_periodic hr hb hper hne hn hus hhalf hpq hM h).1 a rfl
  rw [distance_eq_len]
  refine len_mono fun i => ?_
  obtain ⟨-, k, hk⟩ := h1 i
  rw [distDelta_periodic hper, abs_of_nonneg (wrap_nonneg (hS i) _)]
  refine ((wrap_le (hS i) _ (k - l i)).trans ?_).trans (hk.trans (le_abs_self _))
  rw [hl, shift_apply, abs_sub_comm]
  refine le_of_eq ?_
  congr 1
  show _ = (us.map fun u => u i).sum / us.length + k * cs.size i - a i
  push_cast
  show (us.map fun u => u i).sum / us.length + l i * cs.size i - a i + (k - l i) * cs.size i = _
  ring

/-! ## Existence, and exact arithmetic -/

theorem mean_exists (rnd : ℝ → ℝ) (vs : List (Vec d)) : ∃ a, FL.Mean rnd vs a := by
  choose s hs using fun i => rndSum_exists rnd (vs.map fun v => v i)
  exact ⟨fun i => rnd (s i / vs.length), fun i => ⟨s i, hs i, rfl⟩⟩

/-- C109 (the computation has a result).  Whatever the rounding, and whatever the positions are, `average` returns a position or raises an exception. -/
theorem C109_average_total (rnd : ℝ → ℝ) (cs : CoordSys d) (ps : List (Vec d)) : ∃ r, FL.Average rnd cs ps r := by
  rcases ps with _ | ⟨o, rest⟩
  · exact ⟨_, .empty⟩
  cases hper : cs.periodic
  · obtain ⟨a, ha⟩ := mean_exists rnd (o :: rest)
    exact ⟨_, .plain hper ha⟩
  · by_cases hf : ∃ p ∈ o :: rest, ∃ e, FL.Connecting rnd cs o p (.error e)
    · obtain ⟨p, hp, e, he⟩ := hf
      exact ⟨_, .raises hper hp he⟩
    · push Not at hf
      have : ∀ l : List (Vec d), (∀ p ∈ l, p ∈ o :: rest) → ∃ l', List.Forall₂ (fun pos delta => FL.Connecting rnd cs o pos (.ok delta)) l l' := by
        intro l
        induction l with
        | nil => exact fun _ => ⟨[], .nil⟩
        | cons p l ih =>
          intro h
          obtain ⟨l', h'⟩ := ih fun q hq => h q (by simp [hq])
          obtain ⟨r, hr⟩ := connecting_exists rnd cs o p
          cases r with
          | error e => exact absurd hr (hf p (h p (by simp)) e)
          | ok w => exact ⟨w :: l', .cons hr h'⟩
      obtain ⟨ds, hds⟩ := this _ fun p hp => hp
      obtain ⟨a, ha⟩ := mean_exists rnd ds
      exact ⟨_, .periodic hper hds ha⟩

theorem mean_id {vs : List (Vec d)} {a : Vec d} (h : FL.Mean id vs a) : a = CoordSys.mean vs := by
  funext i
  obtain ⟨s, hs, e⟩ := h i
  rw [e, rndSum_id hs]; rfl

/-- C109 (without rounding).  If nothing is rounded, the only possible results of `average` and `get_pos` are those of the exact model (C06). -/
theorem C109_exact_arithmetic {cs : CoordSys d} (hb : ProperBox cs) (ps : List (Vec d)) (r : Except Err (Vec d)) (f : Vec d) :
    (FL.Average id cs ps r ↔ r = cs.average ps) ∧ FL.getPos id cs f = cs.getPos f := by
  have key : ∀ r, FL.Average id cs ps r → r = cs.average ps := by
    intro r h
    have hcv : ∀ p q, FL.connectingVector id cs p q = cs.connectingVector p q := fun p q => (C97_exact_arithmetic hb 0 [] p q 0).2.1
    cases h with
    | empty => rfl
    | plain hper hm =>
      rw [mean_id hm]
      simp [CoordSys.average, hper]
    | @periodic o rest deltas a hper hd hm =>
      have hdel : deltas = (o :: rest).map fun p => cs.connectingVector o p := by
        have : ∀ l l' : List (Vec d), List.Forall₂ (fun pos delta => FL.Connecting id cs o pos (.ok delta)) l l' → l' = l.map fun p => cs.connectingVector o p := by
          intro l l' h
          induction h with
          | nil => rfl
          | cons h1 _ ih =>
            rw [List.map_cons, ih, ← hcv]
            congr 1
            cases h1 <;> rfl
        exact this _ _ hd
      unfold CoordSys.average
      simp only [hper, if_true]
      congr 1
      funext i
      rw [← hdel, ← mean_id hm]
      show FL.npMod id (o i + a i) (cs.size i) = _
      rw [npMod_id _ (size_pos hb i)]
    | @raises o rest p e hper hp hc =>
      exfalso
      cases hc with
      | @failed v hper hv hlt =>
        rw [(C97_exact_arithmetic hb 0 [] _ _ _).1, hcv] at hv
        obtain ⟨w, h1, h2, h3, -⟩ := C05_connecting_vector cs hb o p
        subst h2
        unfold CoordSys.connectingVectorChecked at h1
        apply hlt
        have e : (fun i => id (cs.connectingVector o p i + o i)) = cs.connectingVector o p + o := rfl
        rw [e] at hv
        simp only [hper] at h1
        rw [hv]
        show _ < (1e-8 : ℝ)
        by_contra hcon
        simp [hcon] at h1
  refine ⟨⟨key r, ?_⟩, rfl⟩
  rintro rfl
  obtain ⟨r, hr⟩ := C109_average_total id cs ps
  rwa [← key r hr]

/-! ## `get_pos` -/

/-- C109 (`get_pos`).  The position that belongs to given fractional coordinates is computed correctly up to a few units in the last place of the box size and of the position. -/
theorem C109_get_pos (hr : IsNearest rnd) {cs : CoordSys d} (hb : ProperBox cs) (f : Vec d) (i : Fin d) :
    |FL.getPos rnd cs f i - (cs.lower i + f i * (cs.upper i - cs.lower i))| ≤ (3 * |f i| * (cs.upper i - cs.lower i) + |cs.lower i + f i * (cs.upper i - cs.lower i)|) / 2 ^ 53 := by
  have hu := ulp_pos
  have hu1 := ulp_small
  have hS := size_pos hb i
  have h1 := fl_size_err hr hb i
  have h2 := rel_err' hr (f i * FL.size rnd cs i)
  have h3 := rel_err' hr (rnd (f i * FL.size rnd cs i) + cs.lower i)
  show |rnd (rnd (f i * FL.size rnd cs i) + cs.lower i) - (cs.lower i + f i * cs.size i)| ≤ (3 * |f i| * cs.size i + |cs.lower i + f i * cs.size i|) / 2 ^ 53
  set S := cs.size i
  set T := FL.size rnd cs i
  set x := rnd (f i * T)
  have hf0 := abs_nonneg (f i)
  have hfS : 0 ≤ |f i| * S := by positivity
  have hT : |T| ≤ (1 + ulp) * S := by
    rw [show T = (T - S) + S by ring]
    refine (abs_add_le _ _).trans ?_
    rw [abs_of_pos hS]; linarith
  have h4 : |f i * T - f i * S| ≤ ulp * (|f i| * S) := by
    rw [← mul_sub, abs_mul]
    calc _ ≤ |f i| * (ulp * S) := mul_le_mul_of_nonneg_left h1 hf0
      _ = _ := by ring
  have h5 : |x - f i * T| ≤ ulp * ((1 + ulp) * (|f i| * S)) := by
    refine h2.trans (mul_le_mul_of_nonneg_left ?_ hu.le)
    rw [abs_mul]
    calc _ ≤ |f i| * ((1 + ulp) * S) := mul_le_mul_of_nonneg_left hT hf0
      _ = _ := by ring
  have h6 : |x + cs.lower i - (cs.lower i + f i * S)| ≤ ulp * (2 + ulp) * (|f i| * S) := by
    rw [show x + cs.lower i - (cs.lower i + f i * S) = (x - f i * T) + (f i * T - f i * S) by ring]
    refine (abs_add_le _ _).trans ?_
    nlinarith
  have h7 : |x + cs.lower i| ≤ |cs.lower i + f i * S| + ulp * (2 + ulp) * (|f i| * S) := by
    rw [show x + cs.lower i = (cs.lower i + f i * S) + (x + cs.lower i - (cs.lower i + f i * S)) by ring]
    exact (abs_add_le _ _).trans (by gcongr)
  have h8 := h3.trans (mul_le_mul_of_nonneg_left h7 hu.le)
  rw [show rnd (x + cs.lower i) - (cs.lower i + f i * S) = (rnd (x + cs.lower i) - (x + cs.lower i)) + (x + cs.lower i - (cs.lower i + f i * S)) by ring]
  refine (abs_add_le _ _).trans ?_
  have hg : (3 * |f i| * S + |cs.lower i + f i * S|) / 2 ^ 53 = ulp * (3 * (|f i| * S)) + ulp * |cs.lower i + f i * S| := by unfold ulp; ring
  rw [hg]
  have h9 : ulp * (ulp * (2 + ulp) * (|f i| * S)) + ulp * (2 + ulp) * (|f i| * S) ≤ ulp * (3 * (|f i| * S)) := by
    have : (ulp * (2 + ulp) + (2 + ulp)) ≤ 3 := by nlinarith
    calc _ = ulp * ((ulp * (2 + ulp) + (2 + ulp)) * (|f i| * S)) := by ring
      _ ≤ _ := mul_le_mul_of_nonneg_left (mul_le_mul_of_nonneg_right this hfS) hu.le
  linarith

/-! ## Non-vacuity -/

namespace C109Demo

/-- three positions around a corner of the unit cube, at the faces on the two sides of it -/
def corner : List (Vec 3) := [![0, 0, 0], ![1 / 8, 0, 7 / 8], ![7 / 8, 7 / 8, 0]]
/-- the same positions, moved next to each other -/
def unwrapped : List (Vec 3) := [![0, 0, 0], ![1 / 8, 0, -1 / 8], ![-1 / 8, -1 / 8, 0]]

theorem corner_unwrapped : List.Forall₂ (Congr C97Demo.cube) corner unwrapped := by
  refine .cons ⟨fun _ => 0, ?_⟩ (.cons ⟨![0, 0, -1], ?_⟩ (.cons ⟨![-1, -1, 0], ?_⟩ .nil)) <;>
    (funext i; fin_cases i <;> norm_num [shift, C97Demo.cube])

theorem corner_mem {p : Vec 3} (hp : p ∈ corner) (i : Fin 3) : 0 ≤ p i ∧ p i ≤ 7 / 8 := by
  simp only [corner, List.mem_cons, List.not_mem_nil, or_false] at hp
  rcases hp with rfl | rfl | rfl <;> fin_cases i <;> norm_num

theorem unwrapped_mem {p : Vec 3} (hp : p ∈ unwrapped) (i : Fin 3) : -1 / 8 ≤ p i ∧ p i ≤ 1 / 8 := by
  simp only [unwrapped, List.mem_cons, List.not_mem_nil, or_false] at hp
  rcases hp with rfl | rfl | rfl <;> fin_cases i <;> norm_num

/-- C109 (periodic): the hypotheses can be met by a cluster across the boundaries.  In the unit cube, the average of the three positions around the corner is always computed, and it is the mean of the positions moved next to each other, up to a lattice vector and 2⁻⁴⁸. -/
example (hr : IsNearest rnd) {r} (h : FL.Average rnd C97Demo.cube corner r) :
    ∃ a, r = .ok a ∧ ∀ i, 0 ≤ a i ∧ a i ≤ 1 ∧ ∃ k : ℤ, |a i - ((unwrapped.map fun u => u i).sum / 3 + k)| ≤ 1 / 2 ^ 48 := by
  obtain ⟨h1, h2⟩ := C109_average_periodic hr C97Demo.cube_proper rfl (by simp [corner]) (by norm_num [corner]) corner_unwrapped
    (by
      intro u hu v hv i
      have a := unwrapped_mem hu i
      have b := unwrapped_mem hv i
      rw [abs_le]; norm_num [C97Demo.cube]; constructor <;> linarith)
    (by
      intro u hu v hv i
      have a := corner_mem hu i
      have b := corner_mem hv i
      rw [abs_le]; norm_num [C97Demo.cube]; constructor <;> linarith)
    (M := fun _ => 1) (fun p hp i => by rw [abs_of_nonneg (corner_mem hp i).1]; linarith [(corner_mem hp i).2]) h
  obtain ⟨a, rfl⟩ := h2 (by norm_num) (fun i => by norm_num [C97Demo.cube]) (by
    have := C97Demo.cube_len
    have e : len (fun _ : Fin 3 => (1 : ℝ)) ≤ 2 := by
      unfold len; rw [Real.sqrt_le_iff]; norm_num
    push_cast
    linarith)
  refine ⟨a, rfl, fun i => ?_⟩
  obtain ⟨⟨h3, h4⟩, k, hk⟩ := h1 a rfl i
  have e1 : C97Demo.cube.upper i - C97Demo.cube.lower i = ((1 : ℤ) : ℝ) := by simp [C97Demo.cube]
  rw [e1, rnd_of_isFloat hr (isFloat_int (by norm_num))] at h4
  rw [e1] at hk
  refine ⟨h3, by simpa using h4, k, ?_⟩
  have e2 : (unwrapped.length : ℝ) = 3 := by norm_num [unwrapped]
  have e3 : (corner.length : ℝ) = 3 := by norm_num [corner]
  rw [e2, e3] at hk
  push_cast at hk
  rw [mul_one] at hk
  exact hk.trans (by norm_num)

/-- C109 (nodal points): the nodal point of the three positions is within 2⁻⁴⁶ of the exact average of the positions in the opposite order. -/
example (hr : IsNearest rnd) {a b} (h : FL.EvaluatePoint rnd C97Demo.cube corner (.ok a)) (hb : C97Demo.cube.average corner.reverse = .ok b) : C97Demo.cube.distance a b ≤ 1 / 2 ^ 46 := by
  have := C109_nodal_point hr C97Demo.cube_proper rfl (by simp [corner]) (by norm_num [corner]) corner_unwrapped
    (by
      intro u hu v hv i
      have a := unwrapped_mem hu i
      have b := unwrapped_mem hv i
      rw [abs_le]; norm_num [C97Demo.cube]; constructor <;> linarith)
    (by
      intro u hu v hv i
      have a := corner_mem hu i
      have b := corner_mem hv i
      rw [abs_le]; norm_num [C97Demo.cube]; constructor <;> linarith)
    (M := fun _ => 1) (fun p hp i => by rw [abs_of_nonneg (corner_mem hp i).1]; linarith [(corner_mem hp i).2]) h (List.reverse_perm _).symm hb
  refine this.trans ?_
  unfold len
  rw [Real.sqrt_le_iff]
  refine ⟨by positivity, ?_⟩
  simp only [C97Demo.cube, corner, List.length_cons, List.length_nil, Fin.sum_univ_three]
  norm_num

/-- C109 (open): in an open cube, the average of the positions is their mean, up to 2⁻⁴⁸. -/
example (hr : IsNearest rnd) {r} (h : FL.Average rnd { C97Demo.cube with periodic := false } corner r) :
    ∃ a, r = .ok a ∧ ∀ i, |a i - (corner.map fun u => u i).sum / corner.length| ≤ 1 / 2 ^ 48 := by
  obtain ⟨a, h1, h2⟩ := C109_average_open hr rfl (by simp [corner]) (by norm_num [corner]) (M := fun _ => 1) (fun p hp i => by rw [abs_of_nonneg (corner_mem hp i).1]; linarith [(corner_mem hp i).2]) h
  refine ⟨a, h1, fun i => (h2 i).trans ?_⟩
  norm_num [corner]

/-- `get_pos` in a box of length 1: an error of at most 2⁻⁵⁰ for fractional coordinates in [0, 1]. -/
example (hr : IsNearest rnd) (f : Vec 3) (hf : ∀ i, 0 ≤ f i ∧ f i ≤ 1) (i : Fin 3) : |FL.getPos rnd C97Demo.cube f i - f i| ≤ 1 / 2 ^ 50 := by
  have := C109_get_pos hr C97Demo.cube_proper f i
  simp only [C97Demo.cube, sub_zero, mul_one, zero_add] at this
  rw [abs_of_nonneg (hf i).1] at this
  refine this.trans ?_
  rw [div_le_iff₀ (by positivity)]
  norm_num
  linarith [(hf i).2]

/-! ### The average can be at the upper limit -/

/-- The unit interval. -/
def unit : CoordSys 1 := ⟨fun _ => 0, fun _ => 1, true⟩
theorem unit_proper : ProperBox unit := fun _ => by simp [unit]
/-- the largest float below 1 -/
def top : Vec 1 := fun _ => 1 - 1 / 2 ^ 53

theorem float_top : IsFloat (1 - 1 / 2 ^ 53) := ⟨2 ^ 53 - 1, -53, by norm_num, by norm_num⟩
theorem float_tiny : IsFloat (-(1 / 2 ^ 53)) := ⟨-1, -53, by norm_num, by norm_num⟩

theorem fmod_small {x : ℝ} (h0 : -1 < x) (h1 : x < 1) : FL.fmod x 1 = x := by
  unfold FL.fmod truncInt
  rw [div_one]
  split
  · rename_i h
    rw [Int.floor_eq_zero_iff.2 ⟨h, h1⟩]; simp
  · rename_i h
    push Not at h
    have : ⌈x⌉ = 0 := Int.ceil_eq_zero_iff.2 ⟨by simpa using h0, h.le⟩
    rw [this]; simp

theorem connecting_zero (hr : IsNearest rnd) : FL.connectingVector rnd unit (fun _ => 0) (fun _ => 0) = fun _ => 0 := by
  have r0 := rnd_of_isFloat hr isFloat_zero
  have r1 := rnd_of_isFloat hr (by simpa using isFloat_int (n := 1) (by norm_num) : IsFloat 1)
  have rm := rnd_of_isFloat hr (by simpa using isFloat_int (n := -1) (by norm_num) : IsFloat (-1))
  funext i
  simp only [FL.connectingVector, unit, FL.size, if_true, sub_zero, r0, r1]
  have : FL.npMod rnd 0 1 = 0 := by
    unfold FL.npMod
    simp [fmod_small (show (-1 : ℝ) < 0 by norm_num) (by norm_num)]
  rw [this]
  norm_num [rm]

theorem connecting_top (hr : IsNearest rnd) : FL.connectingVector rnd unit (fun _ => 0) top = fun _ => -(1 / 2 ^ 53) := by
  have r1 := rnd_of_isFloat hr (by simpa using isFloat_int (n := 1) (by norm_num) : IsFloat 1)
  have rt := rnd_of_isFloat hr float_top
  have rm := rnd_of_isFloat hr float_tiny
  funext i
  simp only [FL.connectingVector, unit, top, FL.size, if_true, sub_zero, rt, r1]
  have : FL.npMod rnd (1 - 1 / 2 ^ 53) 1 = 1 - 1 / 2 ^ 53 := by
    unfold FL.npMod
    rw [fmod_small (by norm_num) (by norm_num)]
    norm_num
  rw [this, show (1 : ℝ) - 1 / 2 ^ 53 - 1 = -(1 / 2 ^ 53) by ring, rm]
  norm_num

theorem sum_perm (hr : IsNearest rnd) : ∀ {l : List ℝ} {a : ℝ}, FL.RndSum rnd l a → (∀ x ∈ l, x = 0 ∨ x = -(1 / 2 ^ 53)) → l.count (-(1 / 2 ^ 53)) ≤ 1 → a = l.sum := by
  intro l a h
  have val : ∀ l : List ℝ, (∀ x ∈ l, x = 0 ∨ x = -(1 / 2 ^ 53)) → l.sum = (l.count (-(1 / 2 ^ 53)) : ℝ) * -(1 / 2 ^ 53) := by
    intro l
    induction l with
    | nil => simp
    | cons x l ih =>
      intro hl
      rw [List.sum_cons, ih fun y hy => hl y (by simp [hy])]
      rcases hl x (by simp) with rfl | rfl
      · rw [List.count_cons_of_ne (by norm_num)]; ring
      · rw [List.count_cons_self]; push_cast; ring
  induction h with
  | nil => simp
  | one x => simp
  | @add l l' a b hl hl' _ _ ih ih' =>
    intro hx hc
    rw [List.count_append] at hc
    have e1 := ih (fun x hm => hx x (by simp [hm])) (by omega)
    have e2 := ih' (fun x hm => hx x (by simp [hm])) (by omega)
    rw [e1, e2, ← List.sum_append, val _ hx]
    refine rnd_of_isFloat hr ?_
    rw [List.count_append]
    rcases Nat.le_one_iff_eq_zero_or_eq_one.1 hc with h | h <;> rw [h]
    · simpa using isFloat_zero
    · simpa using float_tiny
  | @perm l l' a _ hp ih =>
    intro hx hc
    rw [ih (fun x hm => hx x (hp.mem_iff.1 hm)) (by rw [hp.count_eq]; exact hc), hp.sum_eq]

/-- C109 (the upper limit is reached).  The average of positions in the half-open box [0, 1) need not be in the half-open box: the average of 0, 0 and the largest float below 1 is 1, whatever the rounding of ties. -/
theorem _root_.NF.C109_average_reaches_limit (hr : IsNearest rnd) {r : Except Err (Vec 1)} (h : FL.Average rnd unit [fun _ => 0, fun _ => 0, top] r) : r = .ok fun _ => 1 := by
  have r0 := rnd_of_isFloat hr isFloat_zero
  have r1 := rnd_of_isFloat hr (by simpa using isFloat_int (n := 1) (by norm_num) : IsFloat 1)
  have hmem : ∀ p ∈ [fun _ => 0, fun _ => 0, top], ∀ i, 0 ≤ p i ∧ p i ≤ 1 := by
    intro p hp i
    simp only [List.mem_cons, List.not_mem_nil, or_false] at hp
    rcases hp with rfl | rfl | rfl <;> norm_num [top]
  cases h with
  | plain h => simp [unit] at h
  | raises hper hp hc =>
    exfalso
    have hl : len (fun i => unit.upper i - unit.lower i) ≤ 2 := by
      unfold len; rw [Real.sqrt_le_iff]; norm_num [unit]
    have hl0 : len (fun _ : Fin 1 => (0 : ℝ)) ≤ 2 := by
      unfold len; rw [Real.sqrt_le_iff]; norm_num
    obtain ⟨w, hw, -⟩ := C97_connecting_vector hr unit_proper rfl (by norm_num)
      (fun i => by have := hmem _ hp i; rw [abs_le]; norm_num [unit]; constructor <;> linarith)
      (fun i => by norm_num [unit]) (by norm_num; linarith) hc
    cases hw
  | @periodic _ _ deltas a hper hd hm =>
    have hdel : deltas = [fun _ => 0, fun _ => 0, fun _ => -(1 / 2 ^ 53)] := by
      cases hd with
      | cons d1 hd =>
        cases hd with
        | cons d2 hd =>
          cases hd with
          | cons d3 hd =>
            cases hd
            have e : ∀ {p q w}, FL.Connecting rnd unit p q (.ok w) → w = FL.connectingVector rnd unit p q := fun h => by cases h <;> rfl
            rw [e d1, e d2, e d3, connecting_zero hr, connecting_top hr]
    subst hdel
    congr 1
    funext i
    obtain ⟨s, hs, ea⟩ := hm i
    have es : s = -(1 / 2 ^ 53) := by
      rw [sum_perm hr hs (by intro x hx; simp at hx; rcases hx with rfl | rfl <;> simp) (by
        simp only [List.map_cons, List.map_nil]
        rw [List.count_cons_of_ne (by norm_num), List.count_cons_of_ne (by norm_num)]; simp)]
      simp
    rw [es] at ea
    have ha := rel_err' hr (-(1 / 2 ^ 53) / (3 : ℝ))
    have el : (([fun _ => 0, fun _ => 0, fun _ => -(1 / 2 ^ 53)] : List (Vec 1)).length : ℝ) = 3 := by norm_num
    rw [el] at ea
    rw [← ea, abs_le] at ha
    have hu := ulp_small
    have hu0 := ulp_pos
    rw [abs_of_neg (by norm_num)] at ha
    have hal : a i < 0 := by
      have : ulp * -(-(1 / 2 ^ 53) / (3 : ℝ)) ≤ 1 / 1000000 * -(-(1 / 2 ^ 53) / 3) := mul_le_mul_of_nonneg_right hu (by norm_num)
      norm_num at this ha ⊢; linarith [ha.2]
    have hag : -(4 / 10 * (1 / 2 ^ 53)) < a i := by
      have : ulp * -(-(1 / 2 ^ 53) / (3 : ℝ)) ≤ 1 / 1000000 * -(-(1 / 2 ^ 53) / 3) := mul_le_mul_of_nonneg_right hu (by norm_num)
      norm_num at this ha ⊢; linarith [ha.1]
    have hfa : IsFloat (a i) := by rw [ea]; exact (hr _).1
    have e1 : FL.size rnd unit i = 1 := by simp [FL.size, unit, r1]
    show FL.npMod rnd (rnd (0 + a i)) (FL.size rnd unit i) = 1
    rw [e1, zero_add, rnd_of_isFloat hr hfa]
    unfold FL.npMod
    rw [fmod_small (by norm_num at hag ⊢; linarith) (by linarith)]
    simp only []
    rw [if_pos ⟨hal.ne, by simp [hal]⟩]
    -- the nearest float to `1 + a` is 1
    obtain ⟨hf, hn⟩ := hr (a i + 1)
    have hle : rnd (a i + 1) ≤ 1 := rnd_le hr (by simpa using isFloat_int (n := 1) (by norm_num)) (by linarith)
    by_contra hne
    have hlt : rnd (a i + 1) < 1 := lt_of_le_of_ne hle hne
    have hn1 := hn 1 (by simpa using isFloat_int (n := 1) (by norm_num))
    rw [abs_of_pos (by linarith : (0 : ℝ) < 1 - (a i + 1))] at hn1
    have hge := (abs_le.1 hn1).1
    -- there is no float strictly between 1 - 2⁻⁵³ and 1
    obtain ⟨m, e, hm, hx⟩ := hf
    have hxlow : 1 - 1 / 2 ^ 53 < rnd (a i + 1) := by norm_num at hag ⊢; linarith
    rw [hx] at hxlow hlt
    rcases le_or_gt (-53) e with he | he
    · obtain ⟨n, hn⟩ := Int.eq_ofNat_of_zero_le (show 0 ≤ e + 53 by omega)
      have e3 : (m : ℝ) * (2 : ℝ) ^ e = ((m * 2 ^ n : ℤ) : ℝ) / 2 ^ 53 := by
        have : e = (n : ℤ) - 53 := by omega
        rw [this, zpow_sub₀ (by norm_num)]
        push_cast
        rw [zpow_natCast, mul_div_assoc]; norm_num
      rw [e3] at hxlow hlt
      rw [div_lt_one (by positivity)] at hlt
      rw [lt_div_iff₀ (by positivity)] at hxlow
      have g1 : m * 2 ^ n < 2 ^ 53 := by exact_mod_cast hlt
      have g2 : (2 ^ 53 - 1 : ℤ) < m * 2 ^ n := by
        have : ((2 ^ 53 - 1 : ℤ) : ℝ) < ((m * 2 ^ n : ℤ) : ℝ) := by
          refine lt_of_eq_of_lt ?_ hxlow
          norm_num
        exact_mod_cast this
      omega
    · have g1 : (m : ℝ) * (2 : ℝ) ^ e ≤ (2 ^ 53 - 1) * (2 : ℝ) ^ (-54 : ℤ) := by
        have gm : (m : ℝ) ≤ 2 ^ 53 - 1 := by
          have : m ≤ 2 ^ 53 - 1 := by have := abs_lt.1 hm; omega
          exact_mod_cast this
        calc _ ≤ (2 ^ 53 - 1) * (2 : ℝ) ^ e := mul_le_mul_of_nonneg_right gm (by positivity)
          _ ≤ _ := mul_le_mul_of_nonneg_left (zpow_le_zpow_right₀ (by norm_num) (by omega)) (by norm_num)
      have := hxlow.trans_le g1
      norm_num at this

end C109Demo

end NF
