import Verif.Lemmas.FloatBallistic
import Verif.Props.FloatIdentify
import Verif.Lemmas.Ring

/-!
# C114: the ballistic line evaluation in double precision

`FL.BRun B rnd g cs fs n s` : some execution of the ballistic method on the graph `g`, with rounding, is in the state `s` after `n` steps; `.done rg` means that it has returned `rg`, `.error e` that it has raised `e`.
-/

noncomputable section
open Classical

namespace NF
open Spec NxGraph CoordSys
variable {d : ℕ} {rnd : ℝ → ℝ} {B : FL.Blas d} {cs : CoordSys d} {fs : ℝ} {g : NxGraph (Vec d) ℝ}

/-- **C114 (result).**  Whatever the graph, the rounding, the results of BLAS and the choices made, a graph returned by the ballistic method is a (simple) subgraph of the cluster graph, and every node of the cluster graph is in it or
adjacent to one of its nodes. -/
theorem C114_dominating (hg : GoodGraph g) {n : ℕ} {rg : NxGraph (Vec d) Unit} (hr : FL.BRun B rnd g cs fs n (.done rg)) : GoodGraph rg ∧ SubgraphOf rg g ∧ Dominates rg g := flBRun_sub hg hr

theorem flCluster_of (hr : IsNearest rnd) (hb : ProperBox cs) {positions : List (Vec d)} {M : Vec d} (hM : Moderate cs positions M) {dist : Vec d → Vec d → ℝ}
    (hc : IsCluster rnd cs fs positions dist g) (hres : Resolved cs g) : FlCluster rnd g cs := by
  obtain ⟨hg, -, hmem, -⟩ := isCluster_spec hc
  refine ⟨hr, hg, fun x hx y hy r h => ?_, fun x hx => ?_⟩
  · obtain ⟨w, rfl, -⟩ := fl_connecting_len hr hb hM (hmem x hx) (hmem y hy) h
    cases h <;> rfl
  · obtain ⟨y, hy, hd⟩ := hres x hx
    have hne := goodGraph_edge hg hy
    refine ⟨y, hy, ?_⟩
    cases hper : cs.periodic with
    | true =>
      refine connecting_ne_zero hr hb hne.2.2 (fun i => ?_) hd
      have h1 := hM.inside x (hmem x hx) i
      have h2 := hM.inside y (hmem y hne.2.1) i
      have h3 := abs_le.1 h1.1
      have h4 := abs_le.1 h2.1
      have h5 := hb i
      exact abs_le.2 ⟨by linarith, by linarith⟩
    | false =>
      by_contra hno
      push Not at hno
      apply hne.2.2
      funext i
      have := hno i
      unfold FL.connectingVector at this
      simp only [hper, Bool.false_eq_true, if_false] at this
      have := (rnd_eq_zero hr).1 this
      linarith

/-- **C114 (termination).**  On a cluster of positions near a moderate box, each of which has a neighbour that it can be told from, the ballistic method never raises, makes at most `6 n + 1` steps, and can always go on until it
returns. -/
theorem C114_terminates (hr : IsNearest rnd) (hB : BlasAccurate B) (hb : ProperBox cs) {positions : List (Vec d)} {M : Vec d} (hM : Moderate cs positions M) {dist : Vec d → Vec d → ℝ}
    (hc : IsCluster rnd cs fs positions dist g) (hres : Resolved cs g) :
    (∀ n s, FL.BRun B rnd g cs fs n s → n ≤ 6 * g.nodes.length + 1 ∧ (∀ e, s ≠ .error e) ∧ ((∃ rg, s = .done rg) ∨ ∃ s', FL.BStep B rnd g cs fs s s')) ∧
    ∃ n rg, FL.BRun B rnd g cs fs n (.done rg) := by
  have h := flCluster_of hr hb hM hc hres
  have h1 : ∀ n s, FL.BRun B rnd g cs fs n s → n ≤ 6 * g.nodes.length + 1 ∧ (∀ e, s ≠ .error e) ∧ ((∃ rg, s = .done rg) ∨ ∃ s', FL.BStep B rnd g cs fs s s') := by
    intro n s hr
    obtain ⟨hi, hm⟩ := flBRun_inv h hr
    have hne : ∀ e, s ≠ .error e := by
      rintro e rfl
      exact hi
    refine ⟨by omega, hne, ?_⟩
    rcases flBStep_total (rnd := rnd) (cs := cs) (g := g) (fs := fs) hB s with h2 | ⟨e, h2⟩ | h2
    exacts [.inl h2, absurd h2 (hne e), .inr h2]
  refine ⟨h1, ?_⟩
  by_contra hno
  push Not at hno
  have hall : ∀ n, ∃ s, FL.BRun B rnd g cs fs n s := by
    intro n
    induction n with
    | zero => exact ⟨_, .init⟩
    | succ n ih =>
      obtain ⟨s, hs⟩ := ih
      rcases (h1 n s hs).2.2 with ⟨rg, rfl⟩ | ⟨s', hs'⟩
      · exact absurd hs (hno n rg)
      · exact ⟨s', .step hs hs'⟩
  obtain ⟨s, hs⟩ := hall (6 * g.nodes.length + 2)
  have := (h1 _ s hs).1
  omega

/-- **C114 (open boundaries).**  In a non-periodic box any two positions can be told from each other: a cluster with at least two positions is `Resolved`. -/
theorem C114_resolved_open (hper : cs.periodic = false) {positions : List (Vec d)} {dist : Vec d → Vec d → ℝ} (hc : IsCluster rnd cs fs positions dist g) (h2 : 2 ≤ g.nodes.length) : Resolved cs g := by
  obtain ⟨hg, hconn, -, -⟩ := isCluster_spec hc
  intro x hx
  have : ∃ y ∈ g.nodes, y ≠ x := by
    by_contra hno
    push Not at hno
    have hnd := hg.nodup
    match h : g.nodes with
    | [] => rw [h] at h2; simp at h2
    | [_] => rw [h] at h2; simp at h2
    | a :: b :: l =>
      rw [h] at hno hnd
      have e1 := hno a (by simp)
      have e2 := hno b (by simp)
      subst e1
      subst e2
      simp at hnd
  obtain ⟨y, hy, hne⟩ := this
  rcases Relation.ReflTransGen.cases_head (hconn x hx y hy) with h3 | ⟨z, h3, -⟩
  · exact absurd h3.symm hne
  · exact ⟨z, h3, fun h => by rw [hper] at h; cases h⟩

/-! ## The direction of the steps -/

theorem dot_eq_sum (u v : Vec d) : dot u v = ∑ i, u i * v i := rfl

theorem abs_dot_le_len (u v : Vec d) : |dot u v| ≤ len u * len v := by
  have hs : ∀ w : Vec d, dot w w = len w ^ 2 := fun w => by
    unfold len dot
    rw [Real.sq_sqrt (Finset.sum_nonneg fun i _ => sq_nonneg _)]
    exact Finset.sum_congr rfl fun i _ => by ring
  exact abs_dot_le (len_nonneg u) (len_nonneg v) (hs u).le (hs v).le

/-- A computed quotient of a vector by a positive number has nearly the direction of the vector. -/
theorem quotient_close (hr : IsNearest rnd) (v : Vec d) {x : ℝ} (hx : 0 < x) : len (fun i => x * rnd (v i / x) - v i) ≤ ulp * len v := by
  rw [← len_smul' ulp_pos.le]
  refine len_mono fun i => ?_
  have h1 := rel_err' hr (v i / x)
  have h2 : |x * rnd (v i / x) - v i| = x * |rnd (v i / x) - v i / x| := by
    rw [← abs_of_pos hx, ← abs_mul, abs_of_pos hx, mul_sub, mul_div_cancel₀ _ hx.ne']
  rw [h2, abs_mul, abs_of_pos ulp_pos]
  rw [abs_div, abs_of_pos hx] at h1
  calc x * |rnd (v i / x) - v i / x| ≤ x * (ulp * (|v i| / x)) := mul_le_mul_of_nonneg_left h1 hx.le
    _ = ulp * |v i| := by field_simp

/-- The product of two such quotients. -/
theorem product_close (hr : IsNearest rnd) (v w : Vec d) {a b : ℝ} (ha : 0 < a) (hb : 0 < b) :
    |a * b * ∑ i, rnd (v i / a) * rnd (w i / b) - dot v w| ≤ (ulp * (1 + ulp) + ulp) * (len v * len w) ∧
    a * b * (len (fun i => rnd (v i / a)) * len (fun i => rnd (w i / b))) ≤ (1 + ulp) * (1 + ulp) * (len v * len w) := by
  have hu := ulp_pos
  have hv := quotient_close hr v ha
  have hw := quotient_close hr w hb
  set p : Vec d := fun i => a * rnd (v i / a) with hp
  set q : Vec d := fun i => b * rnd (w i / b) with hq
  have e1 : a * b * ∑ i, rnd (v i / a) * rnd (w i / b) = dot p q := by
    unfold dot
    rw [Finset.mul_sum]
    exact Finset.sum_congr rfl fun i _ => by simp only [hp, hq]; ring
  have e2 : len p = a * len (fun i => rnd (v i / a)) := len_smul' ha.le _
  have e3 : len q = b * len (fun i => rnd (w i / b)) := len_smul' hb.le _
  have hlp : len p ≤ (1 + ulp) * len v := by
    have := len_add_le v (fun i => p i - v i)
    have e : (fun i => v i + (p i - v i)) = p := by funext i; ring
    rw [e] at this
    linarith
  have hlq : len q ≤ (1 + ulp) * len w := by
    have := len_add_le w (fun i => q i - w i)
    have e : (fun i => w i + (q i - w i)) = q := by funext i; ring
    rw [e] at this
    linarith
  have e4 : dot p q - dot v w = dot (fun i => p i - v i) q + dot v (fun i => q i - w i) := by
    unfold dot
    rw [← Finset.sum_sub_distrib, ← Finset.sum_add_distrib]
    exact Finset.sum_congr rfl fun i _ => by ring
  have h3 := abs_dot_le_len (fun i => p i - v i) q
  have h4 := abs_dot_le_len v (fun i => q i - w i)
  have lv := len_nonneg v
  have lw := len_nonneg w
  have h6 : len (fun i => p i - v i) * len q ≤ ulp * (1 + ulp) * (len v * len w) := by
    calc _ ≤ (ulp * len v) * ((1 + ulp) * len w) := mul_le_mul hv hlq (len_nonneg _) (by positivity)
      _ = _ := by ring
  have h7 : len v * len (fun i => q i - w i) ≤ ulp * (len v * len w) := by
    calc _ ≤ len v * (ulp * len w) := mul_le_mul_of_nonneg_left hw lv
      _ = _ := by ring
  constructor
  · rw [e1, e4]
    have := abs_add_le (dot (fun i => p i - v i) q) (dot v (fun i => q i - w i))
    linarith
  · calc a * b * (len (fun i => rnd (v i / a)) * len (fun i => rnd (w i / b))) = len p * len q := by rw [e2, e3]; ring
      _ ≤ ((1 + ulp) * len v) * ((1 + ulp) * len w) := mul_le_mul hlp hlq (len_nonneg _) (by positivity)
      _ = _ := by ring

/-- If a product of two such quotients that is right up to `2⁻⁴⁰` is positive, the product of the vectors is at least nearly positive. -/
theorem dot_of_quotients (hr : IsNearest rnd) (v w : Vec d) {a b x : ℝ} (ha : 0 < a) (hb : 0 < b)
    (h : |x - ∑ i, rnd (v i / a) * rnd (w i / b)| ≤ len (fun i => rnd (v i / a)) * len (fun i => rnd (w i / b)) / 2 ^ 40) :
    (0 < x → -(1 / 2 ^ 38) * (len v * len w) ≤ dot v w) ∧ (x < 0 → dot v w ≤ 1 / 2 ^ 38 * (len v * len w)) ∧ (1 / 2 ^ 38 * (len v * len w) < dot v w → 0 < x) := by
  obtain ⟨h1, h2⟩ := product_close hr v w ha hb
  have h1' := abs_le.1 h1
  have hab := mul_pos ha hb
  have h3 : |a * b * x - a * b * ∑ i, rnd (v i / a) * rnd (w i / b)| ≤ a * b * (len (fun i => rnd (v i / a)) * len (fun i => rnd (w i / b))) / 2 ^ 40 := by
    rw [← mul_sub, abs_mul, abs_of_pos hab, mul_div_assoc]
    exact mul_le_mul_of_nonneg_left h hab.le
  have h3' := abs_le.1 h3
  have lvw := mul_nonneg (len_nonneg v) (len_nonneg w)
  have hc : (1 + ulp) * (1 + ulp) / 2 ^ 40 + (ulp * (1 + ulp) + ulp) ≤ 1 / 2 ^ 38 := by unfold ulp; norm_num
  have hc' := mul_le_mul_of_nonneg_right hc lvw
  have h4 : a * b * (len (fun i => rnd (v i / a)) * len (fun i => rnd (w i / b))) / 2 ^ 40 ≤ (1 + ulp) * (1 + ulp) / 2 ^ 40 * (len v * len w) := by
    calc _ ≤ (1 + ulp) * (1 + ulp) * (len v * len w) / 2 ^ 40 := div_le_div_of_nonneg_right h2 (by positivity)
      _ = _ := by ring
  refine ⟨fun hx => ?_, fun hx => ?_, fun hd => ?_⟩
  · have := mul_pos hab hx
    linarith
  · have := mul_neg_of_pos_of_neg hab hx
    linarith
  · by_contra hx
    have := mul_nonpos_of_nonneg_of_nonpos hab.le (not_lt.1 hx)
    linarith

theorem dot_of_quotient (hr : IsNearest rnd) (v p : Vec d) {a x : ℝ} (ha : 0 < a) (h : |x - ∑ i, rnd (v i / a) * p i| ≤ len (fun i => rnd (v i / a)) * len p / 2 ^ 40)
    (hd : 1 / 2 ^ 38 * (len v * len p) < dot v p) : 0 < x := by
  have hu := ulp_pos
  have hv := quotient_close hr v ha
  set q : Vec d := fun i => a * rnd (v i / a) with hq
  have e1 : a * ∑ i, rnd (v i / a) * p i = dot q p := by
    unfold dot
    rw [Finset.mul_sum]
    exact Finset.sum_congr rfl fun i _ => by simp only [hq]; ring
  have e2 : len q = a * len (fun i => rnd (v i / a)) := len_smul' ha.le _
  have hlq : len q ≤ (1 + ulp) * len v := by
    have := len_add_le v (fun i => q i - v i)
    have e : (fun i => v i + (q i - v i)) = q := by funext i; ring
    rw [e] at this
    linarith
  have e4 : dot q p - dot v p = dot (fun i => q i - v i) p := by
    unfold dot
    rw [← Finset.sum_sub_distrib]
    exact Finset.sum_congr rfl fun i _ => by ring
  have h3 := (abs_le.1 (abs_dot_le_len (fun i => q i - v i) p)).1
  have lp := len_nonneg p
  have h4 := mul_le_mul_of_nonneg_right hv lp
  have h5 := mul_le_mul_of_nonneg_right hlq lp
  have h6 := mul_le_mul_of_nonneg_left (abs_le.1 h).1 ha.le
  have h7 : a * (len (fun i => rnd (v i / a)) * len p / 2 ^ 40) = len q * len p / 2 ^ 40 := by rw [e2]; ring
  by_contra hx
  have hx := mul_nonpos_of_nonneg_of_nonpos ha.le (not_lt.1 hx)
  have hc : ulp + (1 + ulp) / 2 ^ 40 ≤ 1 / 2 ^ 38 := by unfold ulp; norm_num
  have hc' := mul_le_mul_of_nonneg_right hc (mul_nonneg (len_nonneg v) lp)
  have h8 : len q * len p / 2 ^ 40 ≤ (1 + ulp) * len v * len p / 2 ^ 40 := div_le_div_of_nonneg_right h5 (by positivity)
  nlinarith

theorem flStep_direction {rg : NxGraph (Vec d) Unit} {ev pend x p o rg' ev' pend' y p' o'} (h : FL.BStep B rnd g cs fs (.loop rg ev pend x p o) (.loop rg' ev' pend' y p' o')) :
    ∃ a b, 0 < a ∧ 0 < b ∧ p' = some (fun i => rnd (FL.connectingVector rnd cs x y i / a)) ∧ ∀ q, p = some q → B.dot (fun i => rnd (FL.connectingVector rnd cs x y i / a)) q b := by
  generalize hs : BState.loop rg' ev' pend' y p' o' = s at h
  cases h with
  | next hr =>
    cases hr with
    | noNeighbors => cases hs
    | raises => cases hs
    | allCoincide => cases hs
    | nothing => cases p <;> cases hs
    | @chosen nrm angle mat sums m hc hm _ =>
      simp only [afterNext] at hs
      obtain ⟨h1, h2, h3⟩ := mem_flCandidate.1 hm
      have ha := hc.angles m (mem_flUsable.2 ⟨h1, h2⟩)
      have key : ∀ q, p = some q → B.dot (fun i => rnd (FL.connectingVector rnd cs x m i / nrm m)) q (angle m) := by
        rintro q rfl
        exact ha
      split_ifs at hs
      · cases hs
      · cases hs; exact ⟨nrm y, angle y, h2, h3, rfl, key⟩
      · cases hs; exact ⟨nrm y, angle y, h2, h3, rfl, key⟩

/-- **C114 (direction).**  The ballistic method does not turn back, up to rounding: if it goes from `x` to `y` and then to `z` within one search for a loop, the angle between the two computed vectors is less than 90 degrees, up to
`2⁻³⁸`; and when it continues from an end node, the first step makes an angle of more than 90 degrees, up to `2⁻³⁸`, with the edge that is already there. -/
theorem C114_no_turning_back (hr : IsNearest rnd) (hB : BlasAccurate B) :
    (∀ {rg ev pend x p o rg' ev' y p' o' rg'' ev'' z p'' o''},
      FL.BStep B rnd g cs fs (.loop rg ev pend x p o) (.loop rg' ev' pend y p' o') → FL.BStep B rnd g cs fs (.loop rg' ev' pend y p' o') (.loop rg'' ev'' pend z p'' o'') →
      -(1 / 2 ^ 38) * (len (FL.connectingVector rnd cs x y) * len (FL.connectingVector rnd cs y z)) ≤ ∑ i, FL.connectingVector rnd cs x y i * FL.connectingVector rnd cs y z i) ∧
    (∀ {rg ev x rg' ev' pend p o rg'' ev'' z p'' o''} (y : Vec d),
      FL.BStep B rnd g cs fs (.outer rg ev) (.loop rg' ev' (some x) x p o) → FL.BStep B rnd g cs fs (.loop rg' ev' (some x) x p o) (.loop rg'' ev'' pend z p'' o'') →
      rg.hasEdge x y →
      ∑ i, FL.connectingVector rnd cs x y i * FL.connectingVector rnd cs x z i ≤ 1 / 2 ^ 38 * (len (FL.connectingVector rnd cs x y) * len (FL.connectingVector rnd cs x z))) := by
  constructor
  · intro rg ev pend x p o rg' ev' y p' o' rg'' ev'' z p'' o'' h1 h2
    obtain ⟨a, -, ha, -, rfl, -⟩ := flStep_direction h1
    obtain ⟨b, c, hb, hc, -, h3⟩ := flStep_direction h2
    have := (dot_of_quotients hr _ _ hb ha (hB.dot _ _ _ (h3 _ rfl))).1 hc
    rw [dot_comm, mul_comm (len _)] at this
    exact this
  · intro rg ev x rg' ev' pend p o rg'' ev'' z p'' o'' y h1 h2 hxy
    obtain ⟨b, c, hb, hc, -, h3⟩ := flStep_direction h2
    cases h1 with
    | @endNode _ _ _ nbr a _ hnode hnbr _ hn2 =>
      have hy : nbr = y := by
        have hdeg := (mem_newEndNodes.1 hnode).2.1
        obtain ⟨w, hw⟩ := List.length_eq_one_iff.1 hdeg
        have h4 := mem_neighbors.2 hxy
        rw [hw] at h4 hnbr
        simp at h4 hnbr
        rw [h4, hnbr]
      subst hy
      have h3 := h3 _ rfl
      set v := FL.connectingVector rnd cs x nbr with hv
      set w := FL.connectingVector rnd cs x z with hw
      have hlv := len_nonneg v
      have hlw := len_nonneg w
      have hanear := abs_le.1 (hB.nrm2 _ _ hn2)
      have ha : 0 ≤ a := by linarith
      rcases ha.eq_or_lt with ha | ha
      · exfalso
        have e : (fun i => -rnd (v i / a)) = fun _ => (0 : ℝ) := by
          funext i
          rw [← ha, div_zero, rnd_of_isFloat hr isFloat_zero, neg_zero]
        rw [e] at h3
        have h4 := hB.dot _ _ _ h3
        have e0 : len (fun _ : Fin d => (0 : ℝ)) = 0 := by simp [len]
        rw [e0] at h4
        simp at h4
        linarith
      · have h5 := hB.dot _ _ _ h3
        have hlu : len (fun i => -rnd (v i / a)) = len fun i => rnd (v i / a) := len_congr fun i => abs_neg _
        have h6 : |-c - ∑ i, rnd (w i / b) * rnd (v i / a)| ≤ len (fun i => rnd (w i / b)) * len (fun i => rnd (v i / a)) / 2 ^ 40 := by
          rw [hlu] at h5
          refine le_trans (le_of_eq ?_) h5
          have : ∑ i, rnd (w i / b) * -rnd (v i / a) = - ∑ i, rnd (w i / b) * rnd (v i / a) := by
            rw [← Finset.sum_neg_distrib]
            exact Finset.sum_congr rfl fun i _ => by ring
          rw [this, ← abs_neg]
          congr 1
          ring
        have := (dot_of_quotients hr w v hb ha h6).2.1 (by linarith)
        rw [dot_comm, mul_comm (len _)] at this
        exact this

/-- **C114 (vectors).**  In a periodic box, between positions whose distance is less than 0.49 times the box in every direction, the computed connecting vector is the exact one up to `16 · 2⁻⁵³` times the box. -/
theorem C114_vector (hr : IsNearest rnd) (hb : ProperBox cs) (hper : cs.periodic = true) {p q : Vec d} (hpq : ∀ i, |q i - p i| ≤ 5 * (cs.upper i - cs.lower i))
    (hclose : ∀ i, cs.distance p q ≤ 0.49 * (cs.upper i - cs.lower i)) (i : Fin d) : |FL.connectingVector rnd cs p q i - cs.connectingVector p q i| ≤ 16 / 2 ^ 53 * (cs.upper i - cs.lower i) := by
  have hS := size_pos hb i
  have hu := ulp_pos
  have hu1 := ulp_small
  have huS := mul_pos hu hS
  obtain ⟨⟨k, hk⟩, -, hle⟩ := fl_connecting hr hb hper p q i (hpq i)
  have hc : |cs.connectingVector p q i| ≤ 0.49 * cs.size i := by
    refine le_trans ?_ (hclose i)
    rw [← norm_connectingVector hb]
    exact abs_le_len _ i
  obtain ⟨v, -, rfl, himg, -⟩ := C05_connecting_vector cs hb p q
  obtain ⟨k', hk'⟩ : ∃ k' : ℤ, cs.connectingVector p q i = q i - p i + k' * cs.size i := by
    unfold SamePoint at himg
    rw [if_pos hper] at himg
    obtain ⟨k, hk⟩ := himg
    refine ⟨-k i, ?_⟩
    have := congrFun hk i
    simp only [shift, Pi.add_apply] at this
    push_cast
    unfold CoordSys.size
    linarith
  have husmall : ulp * cs.size i ≤ 1 / 1000000 * cs.size i := mul_le_mul_of_nonneg_right hu1 hS.le
  have hkk : k = k' := by
    by_contra hne
    have h1 : (1 : ℝ) ≤ |((k - k' : ℤ) : ℝ)| := by
      have : 1 ≤ |k - k'| := Int.one_le_abs (sub_ne_zero.2 hne)
      exact_mod_cast this
    have h2 : cs.size i ≤ |((k - k' : ℤ) : ℝ) * cs.size i| := by
      rw [abs_mul, abs_of_pos hS]
      nlinarith
    have e : ((k - k' : ℤ) : ℝ) * cs.size i = FL.connectingVector rnd cs p q i - cs.connectingVector p q i - (FL.connectingVector rnd cs p q i - (q i - p i + k * cs.size i)) := by
      rw [hk']; push_cast; ring
    rw [e] at h2
    have h3 := abs_sub (FL.connectingVector rnd cs p q i - cs.connectingVector p q i) (FL.connectingVector rnd cs p q i - (q i - p i + k * cs.size i))
    have h4 := abs_sub (FL.connectingVector rnd cs p q i) (cs.connectingVector p q i)
    nlinarith
  rw [hk', ← hkk]
  refine hk.trans ?_
  show _ ≤ 16 / 2 ^ 53 * cs.size i
  unfold ulp
  nlinarith

/-! ## The choice of the next position -/

/-- **C114 (close positions).**  The chosen position is (up to a relative error of `2⁻⁴⁰`) at least a thousandth of `feature_size` away from the current one, according to the distances recorded in the graph, unless all positions that lie
clearly ahead are closer than that. -/
theorem C114_avoids_close_positions (hr : IsNearest rnd) (hB : BlasAccurate B) (hfs : 0 < fs) {rg : NxGraph (Vec d) Unit} {node n dir : Vec d} {prev : Option (Vec d)}
    (h : FL.NextPos B rnd g cs fs rg node prev (.ok (some (n, dir)))) :
    g.hasEdge node n ∧ (∃ i, FL.connectingVector rnd cs node n i ≠ 0) ∧
    (g.edgeAttr node n < fs / 1000 * (1 - 1 / 2 ^ 40) → ∀ m, g.hasEdge node m → (∃ i, FL.connectingVector rnd cs node m i ≠ 0) →
      (∀ p, prev = some p → 1 / 2 ^ 38 * (len (FL.connectingVector rnd cs node m) * len p) < ∑ i, FL.connectingVector rnd cs node m i * p i) → g.edgeAttr node m < fs / 1000) := by
  cases h with
  | @chosen nrm angle mat sums _ hc hn hmax =>
    obtain ⟨h1, h2, h3⟩ := mem_flCandidate.1 hn
    refine ⟨h1, (normOf_pos_iff hr (hc.norms n (mem_neighbors.2 h1))).1 h2, fun hclose m hm hmne hahead => ?_⟩
    by_contra hfar
    push Not at hfar
    have hmn : 0 < nrm m := (normOf_pos_iff hr (hc.norms m (mem_neighbors.2 hm))).2 hmne
    have hang : 0 < angle m := by
      have ha := hc.angles m (mem_flUsable.2 ⟨hm, hmn⟩)
      cases prev with
      | none =>
        have ha : angle m = 1 := ha
        rw [ha]; exact one_pos
      | some p =>
        exact dot_of_quotient hr _ p hmn (hB.dot _ _ _ ha) (hahead p rfl)
    have hmc : m ∈ FL.candidateNodes g nrm angle node := mem_flCandidate.2 ⟨hm, hmn, hang⟩
    have hu := ulp_pos
    -- the chosen one has weight zero
    have hzero : FL.ballisticWeight rnd g fs rg node n (sums n) (angle n) = 0 := by
      have hlt : FL.distanceNormalized rnd g fs node n < rnd 1e-3 := by
        unfold FL.distanceNormalized
        have e1 : g.edgeAttr node n / fs < 1e-3 * (1 - 1 / 2 ^ 40) := by
          rw [div_lt_iff₀ hfs]
          linarith
        have e2 := (abs_le.1 (rel_err' hr 1e-3)).1
        rw [abs_of_pos (by norm_num)] at e2
        have e3 : rnd (g.edgeAttr node n / fs) ≤ rnd (1e-3 * (1 - 1 / 2 ^ 40)) := rnd_mono hr e1.le
        have e4 := (abs_le.1 (rel_err' hr (1e-3 * (1 - 1 / 2 ^ 40)))).2
        rw [abs_of_pos (by norm_num)] at e4
        have e5 : (1e-3 * (1 - 1 / 2 ^ 40) : ℝ) + ulp * (1e-3 * (1 - 1 / 2 ^ 40)) < 1e-3 - ulp * 1e-3 := by unfold ulp; norm_num
        linarith
      unfold FL.ballisticWeight
      simp only [if_pos hlt]
      rw [sub_self, mul_zero, rnd_of_isFloat hr isFloat_zero]
    -- the other one has a positive weight
    have hposw : 0 < FL.ballisticWeight rnd g fs rg node m (sums m) (angle m) := by
      have hs : 0 < sums m := by
        refine (rndSum_pos_iff hr (hc.summed m hmc) fun x hx => ?_).2 ⟨max (mat m m) 0, List.mem_map.2 ⟨m, hmc, rfl⟩, lt_max_of_lt_left ?_⟩
        · obtain ⟨k, -, rfl⟩ := List.mem_map.1 hx
          exact le_max_right _ _
        · have hd := (dot_of_quotients hr _ _ hmn hmn (hB.dot _ _ _ (hc.matrix m hmc m hmc))).2.2
          apply hd
          have e : dot (FL.connectingVector rnd cs node m) (FL.connectingVector rnd cs node m) = len (FL.connectingVector rnd cs node m) ^ 2 := by
            unfold len dot
            rw [Real.sq_sqrt (Finset.sum_nonneg fun i _ => sq_nonneg _)]
            exact Finset.sum_congr rfl fun i _ => by ring
          rw [e]
          obtain ⟨i, hi⟩ := hmne
          have hl : 0 < len (FL.connectingVector rnd cs node m) := (abs_pos.2 hi).trans_le (abs_le_len _ i)
          nlinarith [mul_pos hl hl]
      have hge : ¬ FL.distanceNormalized rnd g fs node m < rnd 1e-3 := by
        unfold FL.distanceNormalized
        refine not_lt.2 (rnd_mono hr ?_)
        rw [le_div_iff₀ hfs]
        linarith
      have hd0 : 0 ≤ FL.distanceNormalized rnd g fs node m := rnd_nonneg hr (div_nonneg (by have := hfs.le; linarith) hfs.le)
      unfold FL.ballisticWeight
      simp only [if_neg hge]
      have p := fun {x : ℝ} (h : 0 < x) => rnd_pos hr h
      have e1 : 0 < rnd (1 + rnd (rnd 0.2 * (if m ∈ rg.nodes then 1 else 0))) := by
        refine p ?_
        have : 0 ≤ rnd (rnd 0.2 * (if m ∈ rg.nodes then 1 else 0)) := rnd_nonneg hr (mul_nonneg (rnd_nonneg hr (by norm_num)) (by split_ifs <;> norm_num))
        linarith
      have e2 : (0 : ℝ) < 1 + 1 * (if m ∈ rg.nodes ∧ rg.degree m > 2 then 1 else 0) := by split_ifs <;> norm_num
      have e3 : (0 : ℝ) < 1 + 1 * (if m ∈ rg.nodes ∧ rg.degree m = 1 then 1 else 0) := by split_ifs <;> norm_num
      have e4 : 0 < rnd (1 + rnd (5 * FL.distanceNormalized rnd g fs node m)) := by
        refine p ?_
        have : 0 ≤ rnd (5 * FL.distanceNormalized rnd g fs node m) := rnd_nonneg hr (by positivity)
        linarith
      exact p (mul_pos (p (div_pos (p (mul_pos (p (mul_pos (p (mul_pos (p (mul_pos hs hang)) e1)) e2)) e3)) e4)) (by norm_num))
    have := hmax m hmc
    linarith

/-! ## Without rounding -/

theorem normOf_id {v : Vec d} {x : ℝ} : FL.NormOf id v x ↔ x = CoordSys.norm v := by
  have e : (List.ofFn fun i => id (v i ^ 2)).sum = ∑ i, v i ^ 2 := by rw [List.sum_ofFn]; rfl
  constructor
  · rintro ⟨s, hs, rfl⟩
    rw [rndSum_id hs, e]
    rfl
  · rintro rfl
    obtain ⟨s, hs⟩ := rndSum_exists id (List.ofFn fun i => id (v i ^ 2))
    refine ⟨s, hs, ?_⟩
    rw [rndSum_id hs, e]
    rfl

theorem connecting_id_iff (hb : ProperBox cs) {p q : Vec d} {o : Except Err (Vec d)} : FL.Connecting id cs p q o ↔ o = .ok (cs.connectingVector p q) := by
  refine ⟨connecting_id hb, ?_⟩
  rintro rfl
  obtain ⟨o, ho⟩ := connecting_exists id cs p q
  have := connecting_id hb ho
  rwa [this] at ho

theorem cv_id (hb : ProperBox cs) (p q : Vec d) : FL.connectingVector id cs p q = cs.connectingVector p q := (C97_exact_arithmetic hb 0 [] p q 0).2.1

/-- What is computed without rounding. -/
theorem computed_id (hb : ProperBox cs) {node : Vec d} {prev : Option (Vec d)} {nrm angle : Vec d → ℝ} {mat : Vec d → Vec d → ℝ} {sums : Vec d → ℝ}
    (hc : FL.Computed exactBlas id g cs node prev nrm angle mat sums) :
    FL.usableNeighbors g nrm node = usableNeighbors g cs node ∧ FL.candidateNodes g nrm angle node = candidateNodes g cs node prev ∧
    (∀ n ∈ g.neighbors node, FL.unitVec id cs nrm node n = unitVec cs node n) ∧
    ∀ n ∈ candidateNodes g cs node prev, ∀ (rg : NxGraph (Vec d) Unit), FL.ballisticWeight id g fs rg node n (sums n) (angle n) = ballisticWeight g cs fs rg node prev n := by
  have hn : ∀ n ∈ g.neighbors node, nrm n = CoordSys.norm (cs.connectingVector node n) := fun n h => by
    have := normOf_id.1 (hc.norms n h)
    rwa [cv_id hb] at this
  have hu : FL.usableNeighbors g nrm node = usableNeighbors g cs node := by
    unfold FL.usableNeighbors usableNeighbors
    exact List.filter_congr fun n h => by rw [hn n h]
  have hv : ∀ n ∈ g.neighbors node, FL.unitVec id cs nrm node n = unitVec cs node n := fun n h => by
    funext i
    unfold FL.unitVec unitVec
    rw [hn n h, cv_id hb]
    rfl
  have hmem : ∀ n ∈ usableNeighbors g cs node, n ∈ g.neighbors node := fun n h => List.mem_of_mem_filter h
  have ha : ∀ n ∈ usableNeighbors g cs node, angle n = directionAngle cs node prev n := fun n h => by
    have := hc.angles n (by rw [hu]; exact h)
    unfold directionAngle
    cases prev with
    | none => exact this
    | some p =>
      have this : angle n = ∑ i, FL.unitVec id cs nrm node n i * p i := this
      rw [this, hv n (hmem n h)]
      rfl
  have hca : FL.candidateNodes g nrm angle node = candidateNodes g cs node prev := by
    unfold FL.candidateNodes candidateNodes
    rw [hu]
    exact List.filter_congr fun n h => by rw [ha n h]
  have hcm : ∀ n ∈ candidateNodes g cs node prev, n ∈ usableNeighbors g cs node := fun n h => List.mem_of_mem_filter h
  refine ⟨hu, hca, hv, fun n h rg => ?_⟩
  have hs : sums n = ((candidateNodes g cs node prev).map fun m => max (dot (unitVec cs node n) (unitVec cs node m)) 0).sum := by
    have h1 := rndSum_id (hc.summed n (by rw [hca]; exact h))
    rw [h1, hca]
    congr 1
    refine List.map_congr_left fun m hm => ?_
    have h2 : mat n m = ∑ i, FL.unitVec id cs nrm node n i * FL.unitVec id cs nrm node m i := hc.matrix n (by rw [hca]; exact h) m (by rw [hca]; exact hm)
    rw [h2, hv n (hmem n (hcm n h)), hv m (hmem m (hcm m hm))]
    rfl
  unfold FL.ballisticWeight ballisticWeight FL.distanceNormalized distanceNormalized
  simp only [id]
  rw [hs, ha n (hcm n h)]

theorem computed_id_exists (hb : ProperBox cs) (node : Vec d) (prev : Option (Vec d)) : ∃ nrm angle mat sums, FL.Computed exactBlas id g cs node prev nrm angle mat sums := by
  choose sm hsm using rndSum_exists id
  let nrm : Vec d → ℝ := fun n => CoordSys.norm (cs.connectingVector node n)
  let an : Vec d → ℝ := fun n => match prev with
    | some p => ∑ i, FL.unitVec id cs nrm node n i * p i
    | none => 1
  let mt : Vec d → Vec d → ℝ := fun n m => ∑ i, FL.unitVec id cs nrm node n i * FL.unitVec id cs nrm node m i
  refine ⟨nrm, an, mt, fun n => sm ((FL.candidateNodes g nrm an node).map fun m => max (mt n m) 0), ?_, ?_, ?_, ?_, ?_⟩
  · exact fun n _ => (connecting_id_iff hb).2 (by rw [cv_id hb])
  · exact fun n _ => normOf_id.2 (by rw [cv_id hb])
  · intro n _
    cases prev with
    | none => rfl
    | some p => rfl
  · exact fun n _ m _ => rfl
  · exact fun n _ => hsm _

theorem nextPos_id (hb : ProperBox cs) {rg : NxGraph (Vec d) Unit} {node : Vec d} {prev : Option (Vec d)} {r} : FL.NextPos exactBlas id g cs fs rg node prev r ↔ NextPos g cs fs rg node prev r := by
  constructor
  · intro h
    cases h with
    | noNeighbors h => exact .noNeighbors h
    | raises _ h => cases connecting_id hb h
    | allCoincide h1 hc h2 h3 => exact .allCoincide h1 (by rw [← (computed_id (fs := fs) hb hc).1]; exact h2) h3
    | nothing h1 hc h2 h3 =>
      obtain ⟨e1, e2, -⟩ := computed_id (fs := fs) hb hc
      exact .nothing h1 (by rw [← e1]; exact h2) (by rw [← e2]; exact h3)
    | chosen hc hn hmax =>
      obtain ⟨e1, e2, e3, e4⟩ := computed_id (fs := fs) hb hc
      rw [e2] at hn hmax
      rw [e3 _ (List.mem_of_mem_filter (List.mem_of_mem_filter hn))]
      refine .chosen hn fun m hm => ?_
      have := hmax m hm
      rwa [e4 m hm, e4 _ hn] at this
  · intro h
    obtain ⟨nrm, angle, mat, sums, hc⟩ := computed_id_exists (g := g) hb node prev
    obtain ⟨e1, e2, e3, e4⟩ := computed_id (fs := fs) hb hc
    cases h with
    | noNeighbors h => exact .noNeighbors h
    | allCoincide h1 h2 h3 => exact .allCoincide h1 hc (by rw [e1]; exact h2) h3
    | nothing h1 h2 h3 => exact .nothing h1 hc (by rw [e1]; exact h2) (by rw [e2]; exact h3)
    | chosen hn hmax =>
      rw [← e3 _ (List.mem_of_mem_filter (List.mem_of_mem_filter hn))]
      refine .chosen hc (by rw [e2]; exact hn) fun m hm => ?_
      rw [e2] at hm
      rw [e4 m hm, e4 _ hn]
      exact hmax m hm

theorem bStep_id (hb : ProperBox cs) {s s' : BState d} : FL.BStep exactBlas id g cs fs s s' ↔ BStep g cs fs s s' := by
  constructor
  · intro h
    cases h with
    | finish h => exact .finish h
    | @endNode rg ev node nbr x h1 h2 h3 _ h4 =>
      have h4 : x = CoordSys.norm (cs.connectingVector node nbr) := by
        have : x = len (FL.connectingVector id cs node nbr) := h4
        rw [this, cv_id hb]
        rfl
      have e : (fun i => -(id (FL.connectingVector id cs node nbr i / x))) = fun i => -(unitVec cs node nbr i) := by
        funext i
        rw [cv_id hb, h4]
        rfl
      rw [e]
      exact .endNode h1 h2 h3
    | endNodeRaises _ _ _ h => cases connecting_id hb h
    | newStart h1 h2 h3 => exact .newStart h1 h2 h3
    | noStart h1 h2 h3 => exact .noStart h1 h2 h3
    | next h => exact .next ((nextPos_id hb).1 h)
  · intro h
    cases h with
    | finish h => exact .finish h
    | @endNode rg ev node nbr h1 h2 h3 =>
      have e : (fun i => -(unitVec cs node nbr i)) = fun i => -(id (FL.connectingVector id cs node nbr i / len (FL.connectingVector id cs node nbr))) := by
        funext i
        rw [cv_id hb]
        rfl
      rw [e]
      exact .endNode h1 h2 h3 ((connecting_id_iff hb).2 (by rw [cv_id hb])) rfl
    | newStart h1 h2 h3 => exact .newStart h1 h2 h3
    | noStart h1 h2 h3 => exact .noStart h1 h2 h3
    | next h => exact .next ((nextPos_id hb).2 h)

/-- **C114 (without rounding).**  If nothing is rounded and BLAS is exact, the executions are those of the exact model (C58 to C60). -/
theorem C114_exact_arithmetic (hb : ProperBox cs) (n : ℕ) (s : BState d) : FL.BRun exactBlas id g cs fs n s ↔ BRun g cs fs n s := by
  constructor
  · intro h
    induction h with
    | init => exact .init
    | step _ h ih => exact .step ih ((bStep_id hb).1 h)
  · intro h
    induction h with
    | init => exact .init
    | step _ h ih => exact .step ih ((bStep_id hb).2 h)


/-! ## The hypotheses can be met, and what happens without them -/

theorem exactBlas_accurate : BlasAccurate (exactBlas : FL.Blas d) where
  dot u v x h := by
    have h : x = ∑ i, u i * v i := h
    rw [h, sub_self, abs_zero]
    have := len_nonneg u
    have := len_nonneg v
    positivity
  nrm2 v x h := by
    have h : x = len v := h
    rw [h, sub_self, abs_zero]
    have := len_nonneg v
    positivity
  dot_total _ _ := ⟨_, rfl⟩
  nrm2_total _ := ⟨_, rfl⟩

/-- Two positions whose computed distance is at most `fs` are in a common cluster. -/
theorem cluster_of_pair {positions posUnique : List (Vec d)} {dist : Vec d → Vec d → ℝ} (hdist : ∀ p ∈ positions, ∀ q ∈ positions, FL.Distance rnd cs p q (dist p q)) (hu : IsUniqueList positions posUnique)
    {x y : Vec d} (hx : x ∈ positions) (h : (⟨posUnique, FL.clusterEdges dist fs posUnique⟩ : NxGraph (Vec d) ℝ).hasEdge x y) : ∃ g, IsCluster rnd cs fs positions dist g ∧ x ∈ g.nodes ∧ y ∈ g.nodes := by
  have hg := goodGraph_fl (dist := dist) (fs := fs) hu.1
  obtain ⟨h1, h2, -⟩ := components_spec hg
  obtain ⟨s, hs, hxs⟩ := h2 x ((hu.2 x).2 hx)
  obtain ⟨v, hv, hiff⟩ := h1 s hs
  have hne := goodGraph_edge hg h
  exact ⟨_, ⟨hdist, posUnique, hu, List.mem_map.2 ⟨s, hs, rfl⟩⟩, mem_subgraph.2 ⟨hne.1, hxs⟩, mem_subgraph.2 ⟨hne.2.1, (hiff y).2 (((hiff x).1 hxs).tail h)⟩⟩

namespace C114Demo

/-- the periodic interval `[0, 1]` -/
def unit : CoordSys 1 := ⟨fun _ => 0, fun _ => 1, true⟩
theorem unit_proper : ProperBox unit := fun _ => by simp [unit]

theorem len_size : len (fun i => unit.upper i - unit.lower i) = 1 := by
  rw [C112Demo.len_one]
  norm_num [unit]

theorem unit_dist {a b : ℝ} (h0 : 0 ≤ b - a) (h1 : b - a ≤ 1 / 2) : unit.distance ![a] ![b] = b - a ∧ unit.distance ![b] ![a] = b - a := by
  have hw : wrap (b - a) 1 = b - a := by
    refine le_antisymm ?_ ?_
    · have := wrap_le one_pos (b - a) 0
      simpa [abs_of_nonneg h0] using this
    · obtain ⟨k, hk⟩ := wrap_attained one_pos (b - a)
      rw [hk]
      rcases lt_trichotomy k 0 with hk0 | rfl | hk0
      · have : (k : ℝ) ≤ -1 := by exact_mod_cast (by omega : k ≤ -1)
        have := neg_le_abs (b - a + k * 1)
        linarith
      · simp [abs_of_nonneg h0]
      · have : (1 : ℝ) ≤ k := by exact_mod_cast hk0
        have := le_abs_self (b - a + k * 1)
        linarith
  have key : unit.distance ![a] ![b] = b - a := by
    rw [distance_eq_len, C112Demo.len_one, distDelta_periodic rfl]
    have : unit.size 0 = 1 := by norm_num [CoordSys.size, unit]
    rw [this]
    simp only [Matrix.cons_val_zero]
    rw [hw, abs_of_nonneg h0]
  exact ⟨key, by rw [(C03_distance_metric unit unit_proper _ ![a] ![a]).2.1]; exact key⟩

theorem pair_unique {a b : ℝ} (h : a ≠ b) : IsUniqueList [![a], (![b] : Vec 1)] [![a], ![b]] := by
  refine ⟨?_, fun _ => Iff.rfl⟩
  simp only [List.nodup_cons, List.mem_cons, List.not_mem_nil, or_false, not_false_eq_true, List.nodup_nil, and_true]
  intro h'
  exact h (by simpa using congrFun h' 0)

/-- the cluster of two positions that are close to each other -/
theorem pair_cluster {rnd : ℝ → ℝ} (hr : IsNearest rnd) {a b : ℝ} (h0 : 0 < b - a) (h1 : b - a ≤ 1 / 8) :
    ∃ dist g, IsCluster rnd unit (1 / 4) [![a], ![b]] dist g ∧ ![a] ∈ g.nodes ∧ ![b] ∈ g.nodes := by
  choose dist hdist using distance_exists rnd unit
  refine ⟨dist, ?_⟩
  have hu := pair_unique (by linarith : a ≠ b)
  have hd : dist ![a] ![b] ≤ 1 / 4 := by
    have := (abs_le.1 (C97_distance_periodic hr unit_proper rfl (by norm_num) (fun i => by fin_cases i; simp [unit]; exact abs_le.2 ⟨by linarith, by linarith⟩) (hdist ![a] ![b]))).2
    rw [len_size, (unit_dist h0.le (by linarith)).1] at this
    norm_num at this
    linarith
  have hd' : dist ![a] ![b] ≤ 4⁻¹ := by norm_num at hd ⊢; exact hd
  exact cluster_of_pair (fun p _ q _ => hdist p q) hu (by simp)
    ⟨(![a], ![b], dist ![a] ![b]), by simp [FL.clusterEdges, hd'], .inl ⟨rfl, rfl⟩⟩

theorem unit_moderate {a b : ℝ} (ha : 0 ≤ a ∧ a ≤ 1) (hb : 0 ≤ b ∧ b ≤ 1) : Moderate unit [![a], ![b]] (fun _ => 1) where
  box := ⟨by norm_num, fun i => by norm_num [unit], by rw [len_size, C112Demo.len_one]; norm_num⟩
  inside p hp i := by
    simp only [List.mem_cons, List.not_mem_nil, or_false] at hp
    fin_cases i
    rcases hp with rfl | rfl <;> simp [unit, abs_le] <;> constructor <;> (try constructor) <;> linarith
  bound p hp i := by
    simp only [List.mem_cons, List.not_mem_nil, or_false] at hp
    fin_cases i
    rcases hp with rfl | rfl <;> simp [abs_le] <;> constructor <;> linarith
  few := by norm_num

/-- the hypotheses of C114_terminates and C114_dominating: two positions in a periodic box -/
example : ∃ (B : FL.Blas 1) (rnd : ℝ → ℝ) (dist : Vec 1 → Vec 1 → ℝ) (g : NxGraph (Vec 1) ℝ), IsNearest rnd ∧ BlasAccurate B ∧ Moderate unit [![1 / 4], ![3 / 8]] (fun _ => 1) ∧
    IsCluster rnd unit (1 / 4) [![1 / 4], ![3 / 8]] dist g ∧ Resolved unit g ∧ ∃ n rg, FL.BRun B rnd g unit (1 / 4) n (.done rg) ∧ Dominates rg g := by
  obtain ⟨dist, g, hc, ha, hb⟩ := pair_cluster C102Demo.rndEven_nearest (a := 1 / 4) (b := 3 / 8) (by norm_num) (by norm_num)
  have hM : Moderate unit [![1 / 4], ![3 / 8]] (fun _ => 1) := unit_moderate (by norm_num) (by norm_num)
  have hres : Resolved unit g := by
    obtain ⟨hg, hconn, hmem, -⟩ := isCluster_spec hc
    have hne : (![1 / 4] : Vec 1) ≠ ![3 / 8] := fun h => by have := congrFun h 0; norm_num at this
    have he : g.hasEdge ![1 / 4] ![3 / 8] := by
      rcases Relation.ReflTransGen.cases_head (hconn _ ha _ hb) with h3 | ⟨z, h3, -⟩
      · exact absurd h3 hne
      · have hz := goodGraph_edge hg h3
        have := hmem z hz.2.1
        simp only [List.mem_cons, List.not_mem_nil, or_false] at this
        rcases this with rfl | rfl
        · exact absurd rfl hz.2.2
        · exact h3
    have hd := unit_dist (a := 1 / 4) (b := 3 / 8) (by norm_num) (by norm_num)
    intro x hx
    have := hmem x hx
    simp only [List.mem_cons, List.not_mem_nil, or_false] at this
    rcases this with rfl | rfl
    · exact ⟨_, he, fun _ => by rw [len_size, hd.1]; norm_num⟩
    · exact ⟨_, hasEdge_symm.1 he, fun _ => by rw [len_size, hd.2]; norm_num⟩
  obtain ⟨n, rg, hrun⟩ := (C114_terminates C102Demo.rndEven_nearest exactBlas_accurate unit_proper hM hc hres).2
  exact ⟨exactBlas, _, dist, g, C102Demo.rndEven_nearest, exactBlas_accurate, hM, hc, hres, n, rg, hrun, (C114_dominating (isCluster_spec hc).1 hrun).2.2⟩

/-- the positions `0` and `2⁻⁶⁰`, and the vector from the second to the first -/
theorem cv_tiny {rnd : ℝ → ℝ} (hr : IsNearest rnd) : FL.connectingVector rnd unit ![1 / 2 ^ 60] ![0] 0 = 0 := by
  have f1 : IsFloat (1 : ℝ) := ⟨1, 0, by norm_num, by norm_num⟩
  have f60 : IsFloat (-(1 / 2 ^ 60) : ℝ) := ⟨-1, -60, by norm_num, by norm_num⟩
  have hs : FL.size rnd unit 0 = 1 := by simp [FL.size, unit, rnd_of_isFloat hr f1]
  have ef : FL.fmod (-(1 / 2 ^ 60)) 1 = -(1 / 2 ^ 60) := by
    have : truncInt ((-(1 / 2 ^ 60) : ℝ) / 1) = 0 := by
      unfold truncInt
      norm_num
    unfold FL.fmod
    rw [this]
    norm_num
  have e1 : rnd (-(1 / 2 ^ 60) + 1) = 1 := by
    refine le_antisymm (rnd_le hr f1 (by norm_num)) ?_
    by_contra hlt
    push Not at hlt
    have := float_lt_one (hr _).1 hlt
    have h2 := (hr (-(1 / 2 ^ 60) + 1)).2 1 f1
    rw [show |(1 : ℝ) - (-(1 / 2 ^ 60) + 1)| = 1 / 2 ^ 60 by norm_num] at h2
    have h3 := (abs_le.1 h2).1
    norm_num at this h3
    linarith
  have em : FL.npMod rnd (-(1 / 2 ^ 60)) 1 = 1 := by
    unfold FL.npMod
    simp only [ef]
    rw [if_pos ⟨by norm_num, by norm_num⟩, e1]
  unfold FL.connectingVector
  simp only []
  rw [if_pos (show unit.periodic = true from rfl), hs]
  rw [show rnd ((![0] : Vec 1) 0 - (![1 / 2 ^ 60] : Vec 1) 0) = -(1 / 2 ^ 60) by simp only [Matrix.cons_val_fin_one, zero_sub]; exact rnd_of_isFloat hr f60, em, sub_self, rnd_of_isFloat hr isFloat_zero]
  norm_num

/-- C114 (the condition is needed).  In the periodic interval `[0, 1]`, the ballistic method always raises on a cluster that consists of the positions `0` and `2⁻⁶⁰`, with every rounding to nearest, although both are floats, they are
different and their distance is positive: `connecting_vector` finds the zero vector from the second to the first, but not from the first to the second.  (Without rounding it returns: C59.) -/
theorem _root_.NF.C114_unresolved_raises {rnd : ℝ → ℝ} (hr : IsNearest rnd) {B : FL.Blas 1} (hB : BlasAccurate B) :
    IsFloat (0 : ℝ) ∧ IsFloat (1 / 2 ^ 60 : ℝ) ∧ 0 < unit.distance ![0] ![1 / 2 ^ 60] ∧ (∃ dist g, IsCluster rnd unit (1 / 4) [![0], ![1 / 2 ^ 60]] dist g ∧ ![0] ∈ g.nodes ∧ ![1 / 2 ^ 60] ∈ g.nodes) ∧
    ∀ fs dist g, IsCluster rnd unit fs [![0], ![1 / 2 ^ 60]] dist g → ![0] ∈ g.nodes → ∀ n s, FL.BRun B rnd g unit fs n s → n ≤ 3 ∧ (∀ rg, s ≠ .done rg) ∧ ((∃ e, s = .error e) ∨ ∃ s', FL.BStep B rnd g unit fs s s') := by
  refine ⟨isFloat_zero, ⟨1, -60, by norm_num, by norm_num⟩, by rw [(unit_dist (by norm_num) (by norm_num)).1]; norm_num, pair_cluster hr (by norm_num) (by norm_num), ?_⟩
  intro fs dist g hc h0 n s hrun
  obtain ⟨hg, -, hmem, -⟩ := isCluster_spec hc
  set x : Vec 1 := ![0] with hx
  set y : Vec 1 := ![1 / 2 ^ 60] with hy
  have hm : ∀ z ∈ g.nodes, z = x ∨ z = y := fun z hz => by simpa using hmem z hz
  have hcv : ∀ i, FL.connectingVector rnd unit y x i = 0 := fun i => by fin_cases i; exact cv_tiny hr
  have hye : ∀ m, g.hasEdge y m → m = x := fun m h => by
    have h1 := goodGraph_edge hg h
    rcases hm m h1.2.1 with h2 | h2
    · exact h2
    · exact absurd h2.symm h1.2.2
  have hxe : ∀ m, g.hasEdge x m → m = y := fun m h => by
    have h1 := goodGraph_edge hg h
    rcases hm m h1.2.1 with h2 | h2
    · exact absurd h2.symm h1.2.2
    · exact h2
  have hus : ∀ {prev nrm angle mat sums}, FL.Computed B rnd g unit y prev nrm angle mat sums → FL.usableNeighbors g nrm y = [] := fun {prev nrm angle mat sums} hcp => by
    refine List.eq_nil_iff_forall_not_mem.2 fun m hmem => ?_
    obtain ⟨h1, h2⟩ := mem_flUsable.1 hmem
    have h3 := hye m h1
    subst h3
    obtain ⟨i, hi⟩ := (normOf_pos_iff hr (hcp.norms _ (mem_neighbors.2 h1))).1 h2
    exact hi (hcv i)
  have key : ∀ n s, FL.BRun B rnd g unit fs n s → (n = 0 ∧ s = .init) ∨ (n = 1 ∧ ∃ v, (v = x ∨ v = y) ∧ s = .loop (NxGraph.empty.addNode v) [] none v none false) ∨
      (n = 2 ∧ ∃ rg p, s = .loop rg [] none y (some p) false) ∨ (n ≤ 3 ∧ ∃ e, s = .error e) := by
    intro n s hr
    induction hr with
    | init => exact .inl ⟨rfl, rfl⟩
    | step _ hst ih =>
      rcases ih with ⟨rfl, rfl⟩ | ⟨rfl, v, hv, rfl⟩ | ⟨rfl, rg, p, rfl⟩ | ⟨-, e, rfl⟩
      · right
        have hnd : ¬ g.isDominatingSet (fun x => x ∈ (NxGraph.empty : NxGraph (Vec 1) Unit).nodes) := by
          intro h
          obtain ⟨y, -, hy⟩ := h x h0 (by simp [NxGraph.empty])
          simp [NxGraph.empty] at hy
        unfold BState.init at hst
        cases hst with
        | finish hd => exact absurd hd hnd
        | endNode _ hn => have := (mem_newEndNodes.1 hn).1; simp [NxGraph.empty] at this
        | endNodeRaises _ hn => have := (mem_newEndNodes.1 hn).1; simp [NxGraph.empty] at this
        | newStart _ _ hc => exact .inl ⟨rfl, _, hm _ (mem_startCandidates.1 hc).1, rfl⟩
        | noStart _ _ hc => exact absurd hc (startCandidates_ne hnd)
      · right; right
        cases hst with
        | next hr =>
          cases hr with
          | noNeighbors => exact .inr ⟨by omega, _, rfl⟩
          | raises => exact .inr ⟨by omega, _, rfl⟩
          | allCoincide _ _ _ h => exact absurd rfl h
          | nothing => exact .inr ⟨by omega, _, rfl⟩
          | chosen hcp hn _ =>
            obtain ⟨h1, h2, -⟩ := mem_flCandidate.1 hn
            rcases hv with rfl | rfl
            · have h3 := hxe _ h1
              subst h3
              left
              refine ⟨rfl, ?_⟩
              have hnot : ¬ y ∈ (NxGraph.empty.addNode x : NxGraph (Vec 1) Unit).nodes := fun h => by
                rcases mem_addNode.1 h with h | h
                · simp [NxGraph.empty] at h
                · exact (goodGraph_edge hg h1).2.2 h.symm
              simp only [afterNext, if_neg hnot]
              exact ⟨_, _, rfl⟩
            · have := mem_flUsable.2 ⟨h1, h2⟩
              rw [hus hcp] at this
              simp at this
      · right; right; right
        cases hst with
        | next hr =>
          cases hr with
          | noNeighbors => exact ⟨by omega, _, rfl⟩
          | raises => exact ⟨by omega, _, rfl⟩
          | allCoincide => exact ⟨by omega, _, rfl⟩
          | nothing _ hcp h _ => rcases h with h | h
                                 · exact absurd (hus hcp) h
                                 · cases h
          | chosen hcp hn _ =>
            obtain ⟨h1, h2, -⟩ := mem_flCandidate.1 hn
            have := mem_flUsable.2 ⟨h1, h2⟩
            rw [hus hcp] at this
            simp at this
      · cases hst
  have hnd : ∀ rg, s ≠ .done rg := by
    rintro rg rfl
    rcases key n _ hrun with ⟨-, h⟩ | ⟨-, v, -, h⟩ | ⟨-, rg, p, h⟩ | ⟨-, e, h⟩ <;> cases h
  refine ⟨?_, hnd, ?_⟩
  · rcases key n s hrun with ⟨h, -⟩ | ⟨h, -⟩ | ⟨h, -⟩ | ⟨h, -⟩ <;> omega
  · rcases flBStep_total (rnd := rnd) (cs := unit) (g := g) (fs := fs) hB s with ⟨rg, h⟩ | h | h
    exacts [absurd h (hnd rg), .inl h, .inr h]

end C114Demo

end NF
