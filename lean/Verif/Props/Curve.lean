import Verif.Lemmas.Straight
import Verif.Spec.OpenLines
import Verif.Props.Isolated

/-! # C90: a nearly straight nodal line is identified as an open line -/

noncomputable section
open Classical
namespace NF
open Spec NxGraph CoordSys
variable {d : ℕ}

theorem pathGraph_strip {V A : Type} {g : NxGraph V A} {p : List V} (h : PathGraph g p) : PathGraph g.strip p :=
  ⟨h.1, h.2.1, fun x y => hasEdge_strip.trans (h.2.2 x y)⟩

/-- **C90**, the line: if the positions are on a curve of slope less than one (against some direction), and the method is `ballistic` (the default), then whatever the random choices every cluster of
dimension one becomes an open line that goes in this direction. -/
theorem C90_open_line {cs : CoordSys d} (hb : ProperBox cs) {fs : ℝ} (hfs : 0 < fs) {positions : List (Vec d)} {u : Vec d} {s : ℝ} (hs : s ^ 2 < 1) (hst : NearlyStraight u s positions)
    (hw : NotWrapped cs fs positions) {out : IdContainer d} (h : RunFromPositions positions cs fs "ballistic" (.ok out)) {r : IdResult d} (hr : r ∈ out.results) (h1 : r.dimension = some 1) :
    ∃ l, r.shape = some (.line l) ∧ OpenLineAlong cs fs u r.positions l := by
  obtain ⟨-, -, pu, hu, hall⟩ := runFromPositions_ok h
  obtain ⟨c, hc, hcr⟩ := forall₂_mem_right hall hr
  obtain ⟨e1, e2, e3⟩ := identifyCluster_positions hcr
  obtain ⟨hg, -, hedge, -⟩ := C54_cluster_graph hb fs hu hc
  have hsub := ((C51_clusters_partition cs fs hu).2 c hc).2.2
  rw [h1] at e2 e3
  have hlc := lineCluster_of_cluster hb hu hc (spread_of_dim_one hb hfs hu hc e2)
  generalize ho : (Except.ok r.shape : Except Err (Option (Shape d))) = o at e3
  cases e3 with
  | other _ hn => exact absurd rfl hn
  | lineError => cases ho
  | lineWarning hl he =>
    obtain ⟨out', ho', hl'⟩ := (C65_never_raises hb hfs positions (.inl rfl)).2 _ h
    cases ho'
    obtain ⟨l, hl'⟩ := hl' r hr h1
    rw [hl'] at ho
    cases ho
  | @line l hl =>
    obtain ⟨n, rg, hn, rfl⟩ : ∃ n rg, BRun c cs fs n (.done rg) ∧ l = ⟨rg.strip, createDegreeCount rg⟩ := by
      generalize hms : "ballistic" = ms at hl
      generalize hr : (Except.ok l : Except Err (NodalLine (Vec d))) = o at hl
      cases hl with
      | invalid => cases hr
      | ballistic h => cases hr; exact ⟨_, _, h, rfl⟩
      | ballisticError => cases hr
      | shortest => simp at hms
      | shortestError => cases hr
      | dominating => simp at hms
    obtain ⟨p, hp, hp2, hord⟩ := ballistic_path hlc (directed_of_straight hb hedge hs hst hw hsub) hn
    obtain ⟨hgr, hsg, hdom⟩ := C58_ballistic_dominating hg hn
    refine ⟨_, (Except.ok.inj ho), openLine_shape hgr hp hp2, p, hp2, pathGraph_strip hp, hord, fun x hx => ?_, fun x y hxy => ?_, fun x hx => ?_⟩
    · rw [e1]; exact hsg.1 x ((hp.2.1 x).1 hx)
    · exact ((hedge x y).1 (hsg.2 x y ((hp.2.2 x y).2 (.inl hxy)))).2.2.2
    · rw [e1] at hx
      rcases hdom x hx with h | ⟨y, hy, hxy⟩
      · exact ⟨x, (hp.2.1 x).2 h, by rw [((C03_distance_metric cs hb x x x).2.2.2).2 (by unfold SamePoint; split; exacts [⟨0, by funext i; simp [shift]⟩, rfl])]; exact hfs.le⟩
      · exact ⟨y, (hp.2.1 y).2 hy, ((hedge x y).1 hxy).2.2.2⟩

/-- On a nearly straight line, with positions that are not too close to each other, every position that has a neighbour has dimension one. -/
theorem getDimension_straight (hd : 1 ≤ d) {cs : CoordSys d} {fs : ℝ} (hfs : 0 < fs) {g : NxGraph (Vec d) ℝ} (hb : ProperBox cs)
    (hedge : ∀ x y, g.hasEdge x y ↔ x ∈ g.nodes ∧ y ∈ g.nodes ∧ x ≠ y ∧ cs.distance x y ≤ fs) {u : Vec d} {s : ℝ} (hs : s ^ 2 ≤ 0.0049) {positions : List (Vec d)}
    (hst : NearlyStraight u s positions) (hw : NotWrapped cs fs positions) (hsub : ∀ x ∈ g.nodes, x ∈ positions) (hfar : ∀ x ∈ positions, ∀ y ∈ positions, x ≠ y → fs / 4 < cs.distance x y)
    {pos : Vec d} (hn : ∃ n, g.hasEdge pos n) {x : ℤ} (h : GetDimension g cs fs 3 (some 10) pos (.ok x)) : x = 1 := by
  have h1 : 1 ≤ x := (C69_point_or_more hb (by norm_num) hd h).2 hn fun n hn => by
    obtain ⟨a1, a2, a3, -⟩ := (hedge pos n).1 hn
    exact hfar n (hsub n a2) pos (hsub pos a1) (Ne.symm a3)
  refine le_antisymm (not_lt.1 fun h2 => ?_) h1
  obtain ⟨-, -, hxd, htrue, -⟩ := (getDimension_spec h (by norm_num)).2 x rfl
  obtain ⟨v, hv, ts, -, ht, hdec, -⟩ := C56_decision (htrue 2 (by norm_num) (by exact_mod_cast h2)) (by omega)
  cases hv
  obtain ⟨hne, hlt⟩ := hdec.1 rfl
  refine absurd hlt (not_lt.2 (average_le (by simpa using hne) fun y hy => ?_))
  obtain ⟨t, htt, rfl⟩ := List.mem_map.1 hy
  exact volume_straight hfs hb hedge hs hst hw hsub (ht t htt).1 (ht t htt).2

theorem dimension_unanimous {g : NxGraph (Vec d) ℝ} (hg : GoodGraph g) (hne : g.nodes ≠ []) {cs : CoordSys d} {fs : ℝ} {k : ℤ}
    (hk : ∀ p ∈ g.nodes, ∀ x : ℤ, GetDimension g cs fs 3 (some 10) p (.ok x) → x = k) {r : Except Err (Option ℤ)} (h : CalculateDimension g cs fs 3 (some 5) (some 10) r) : r = .ok (some k) := by
  have hmaj := C55_majority hg hne (by norm_num) (by norm_num) h
  cases r with
  | error e =>
    have := (hmaj.2.2 e rfl).2.1
    norm_num at this
  | ok o =>
    cases o with
    | some x =>
      obtain ⟨ev, dims, -, hsub, hF, -, -, -, hx, -⟩ := hmaj.1 x rfl
      obtain ⟨p, hp, hpx⟩ := forall₂_mem_right hF hx
      rw [hk p (hsub p hp) x hpx]
    | none =>
      obtain ⟨ev, dims, hperm, hF, hlt⟩ := hmaj.2.1 rfl
      have hall : ∀ x ∈ dims, x = k := by
        intro x hx
        obtain ⟨p, hp, hpx⟩ := forall₂_mem_right hF hx
        exact hk p (hperm.mem_iff.1 hp) x hpx
      have := hlt k
      rw [List.count_eq_length.2 fun b hb => (hall b hb).symm] at this
      omega

theorem connected_nbr {V A : Type} {g : NxGraph V A} (hc : Connected g) (hnd : g.nodes.Nodup) (h2 : 2 ≤ g.nodes.length) {x : V} (hx : x ∈ g.nodes) : ∃ n, g.hasEdge x n := by
  obtain ⟨y, hy, hne⟩ : ∃ y ∈ g.nodes, y ≠ x := by
    by_contra hno
    push Not at hno
    match hl : g.nodes, h2 with
    | a :: b :: l, _ =>
      rw [hl] at hno hnd
      have e1 := hno a (by simp)
      have e2 := hno b (by simp)
      rw [e1, e2] at hnd
      simp at hnd
  rcases Relation.ReflTransGen.cases_head (hc x hx y hy) with h | ⟨z, h, -⟩
  · exact absurd h.symm hne
  · exact ⟨z, h⟩

/-- **C90**: if the positions are on a curve of slope at most 0.07 (against some direction) and more than a quarter of `feature_size` from each other, then (with the method `ballistic`, whatever the random
choices) the identification raises nothing and consists of a point for every single position, and of an open line in this direction for every chain of at least two. -/
theorem C90_points_and_open_lines (hd : 1 ≤ d) {cs : CoordSys d} (hb : ProperBox cs) {fs : ℝ} (hfs : 0 < fs) {positions : List (Vec d)} {u : Vec d} {s : ℝ} (hs : s ^ 2 ≤ 0.0049)
    (hst : NearlyStraight u s positions) (hw : NotWrapped cs fs positions) (hfar : ∀ x ∈ positions, ∀ y ∈ positions, x ≠ y → fs / 4 < cs.distance x y)
    {res : Except Err (IdContainer d)} (h : RunFromPositions positions cs fs "ballistic" res) : ∃ out, res = .ok out ∧ PointsAndOpenLines cs fs u out := by
  obtain ⟨out, rfl, -⟩ := (C65_never_raises hb hfs positions (.inl rfl)).2 _ h
  refine ⟨out, rfl, fun r hr => ?_⟩
  have hI := C65_results hb hfs h
  obtain ⟨-, -, pu, hu, hall⟩ := runFromPositions_ok h
  obtain ⟨c, hc, hcr⟩ := forall₂_mem_right hall hr
  obtain ⟨e1, e2, e3⟩ := identifyCluster_positions hcr
  obtain ⟨hg, hconn, hedge, -⟩ := C54_cluster_graph hb fs hu hc
  obtain ⟨hne, hnd, hsub⟩ := (C51_clusters_partition cs fs hu).2 c hc
  by_cases h2 : 2 ≤ c.nodes.length
  · right
    have h1 : r.dimension = some 1 := Except.ok.inj (dimension_unanimous hg hne (k := 1) (fun p hp x hx =>
      getDimension_straight hd hfs hb hedge hs hst hw hsub hfar (connected_nbr hconn hnd h2 hp) hx) e2)
    exact ⟨by rw [e1]; exact h2, h1, C90_open_line hb hfs (by linarith) hst hw h hr h1⟩
  · left
    obtain ⟨x, hx⟩ := List.length_eq_one_iff.1 (by have := List.length_pos_iff.2 hne; omega : c.nodes.length = 1)
    have h0 : r.dimension = some 0 := Except.ok.inj (dimension_unanimous hg hne (k := 0) (fun p hp y hy =>
      (C69_point_or_more hb (by norm_num) hd hy).1 fun n hn => by
        obtain ⟨a1, a2, a3, -⟩ := (hedge p n).1 hn
        rw [hx, List.mem_singleton] at a1 a2
        exact absurd (a1.trans a2.symm) a3) e2)
    obtain ⟨q, hq, hav⟩ := hI.point r hr h0
    refine ⟨x, q, by rw [e1, hx], h0, hq, ?_⟩
    refine le_antisymm (average_near hb (fun i => ?_) (hI.given r hr).1 (fun p hp => ?_) hav) ((C03_distance_metric cs hb q x x).1)
    · have := hb i; linarith
    · rw [e1, hx, List.mem_singleton] at hp
      rw [hp, ((C03_distance_metric cs hb x x x).2.2.2).2 (by unfold SamePoint; split; exacts [⟨0, by funext i; simp [shift]⟩, rfl])]

/-- In a non-periodic space, nothing is wrapped. -/
theorem C90_nonperiodic {cs : CoordSys d} (hp : cs.periodic = false) (fs : ℝ) (positions : List (Vec d)) : NotWrapped cs fs positions := by
  intro x _ y _ _
  funext i
  simp [CoordSys.connectingVector, hp]

/-- In a periodic space, nothing is wrapped if the positions cover less than half of the box in each direction. -/
theorem C90_periodic {cs : CoordSys d} (hb : ProperBox cs) (hp : cs.periodic = true) (fs : ℝ) (positions : List (Vec d))
    (h : ∀ x ∈ positions, ∀ y ∈ positions, ∀ i, 2 * |y i - x i| < cs.upper i - cs.lower i) : NotWrapped cs fs positions := by
  intro x hx y hy _
  funext i
  obtain ⟨k, hk⟩ := connectingVector_congr hp x y i
  obtain ⟨v, -, rfl, -, -, hv, -⟩ := C05_connecting_vector cs hb x y
  have h1 := hv hp i
  have h2 := h x hx y hy i
  have h3 := abs_lt.1 (show |y i - x i| < (cs.upper i - cs.lower i) / 2 by linarith)
  have hs : cs.size i = cs.upper i - cs.lower i := rfl
  have h4 := hb i
  rw [hk, hs] at h1
  have k1 : (-1 : ℝ) < k := by nlinarith
  have k2 : (k : ℝ) < 1 := by nlinarith
  have : k = 0 := by
    have a1 : -1 < k := by exact_mod_cast k1
    have a2 : k < 1 := by exact_mod_cast k2
    omega
  rw [hk, this]
  simp

/-- Positions in a thin tube that are not too close to each other are on a curve of small slope. -/
theorem C90_tube {o u : Vec d} {w D s : ℝ} {positions : List (Vec d)} (h : InTube o u w positions) (hD : ∀ x ∈ positions, ∀ y ∈ positions, x ≠ y → D ≤ eucl x y)
    (hD0 : 0 ≤ D) (hs : 4 * w ^ 2 * (1 + s ^ 2) ≤ s ^ 2 * D ^ 2) : NearlyStraight u s positions := by
  refine ⟨h.1, fun x hx y hy => ?_⟩
  by_cases hxy : x = y
  · subst hxy; simp
  obtain ⟨t, ht⟩ := h.2 x hx
  obtain ⟨t', ht'⟩ := h.2 y hy
  have hw : 0 ≤ w := (Real.sqrt_nonneg _).trans ht
  have q1 : ∑ i, (x i - (o i + t * u i)) ^ 2 ≤ w ^ 2 := (Real.sqrt_le_left hw).1 ht
  have q2 : ∑ i, (y i - (o i + t' * u i)) ^ 2 ≤ w ^ 2 := (Real.sqrt_le_left hw).1 ht'
  have hN : D ^ 2 ≤ ∑ i, (y i - x i) ^ 2 := by
    have := (Real.le_sqrt hD0 (Finset.sum_nonneg fun i _ => sq_nonneg (x i - y i))).1 (hD x hx y hy hxy)
    refine this.trans (le_of_eq (Finset.sum_congr rfl fun i _ => by ring))
  have hP : ∑ i, (y i - x i) ^ 2 - (progress u y - progress u x) ^ 2 ≤ 4 * w ^ 2 := by
    set e : Vec d := fun i => (y i - (o i + t' * u i)) - (x i - (o i + t * u i)) with he
    have he2 : ∑ i, e i ^ 2 ≤ 4 * w ^ 2 := by
      calc ∑ i, e i ^ 2 ≤ ∑ i, (2 * (y i - (o i + t' * u i)) ^ 2 + 2 * (x i - (o i + t * u i)) ^ 2) :=
            Finset.sum_le_sum fun i _ => by simp only [he]; nlinarith [sq_nonneg ((y i - (o i + t' * u i)) + (x i - (o i + t * u i)))]
        _ = 2 * ∑ i, (y i - (o i + t' * u i)) ^ 2 + 2 * ∑ i, (x i - (o i + t * u i)) ^ 2 := by rw [Finset.sum_add_distrib, Finset.mul_sum, Finset.mul_sum]
        _ ≤ 4 * w ^ 2 := by linarith
    have ha : progress u e = (progress u y - progress u x) - (t' - t) := by
      have e1 : ∀ i, u i * e i = (u i * y i - u i * x i) - (t' - t) * u i ^ 2 := fun i => by simp only [he]; ring
      unfold progress
      simp only [e1, Finset.sum_sub_distrib, ← Finset.mul_sum, h.1, mul_one]
    have hs2 : ∑ i, (y i - x i) ^ 2 = ∑ i, e i ^ 2 + 2 * (t' - t) * progress u e + (t' - t) ^ 2 := by
      have e1 : ∀ i, (y i - x i) ^ 2 = e i ^ 2 + 2 * (t' - t) * (u i * e i) + (t' - t) ^ 2 * u i ^ 2 := fun i => by simp only [he]; ring
      simp only [e1, Finset.sum_add_distrib, ← Finset.mul_sum, h.1, mul_one]
      rfl
    rw [hs2]
    have : progress u y - progress u x = progress u e + (t' - t) := by linarith
    rw [this]
    nlinarith [sq_nonneg (progress u e)]
  have hs0 := sq_nonneg s
  nlinarith [mul_le_mul_of_nonneg_left hP (by linarith : 0 ≤ 1 + s ^ 2), mul_le_mul_of_nonneg_left hN hs0]

/-- **C90**, in a thin tube: positions within `feature_size / 120` of a straight line and more than `feature_size / 4` from each other become points and open lines along it. -/
theorem C90_thin_tube (hd : 1 ≤ d) {cs : CoordSys d} (hb : ProperBox cs) {fs : ℝ} (hfs : 0 < fs) {positions : List (Vec d)} {o u : Vec d} (ht : InTube o u (fs / 120) positions)
    (hw : NotWrapped cs fs positions) (hfar : ∀ x ∈ positions, ∀ y ∈ positions, x ≠ y → fs / 4 < cs.distance x y)
    {res : Except Err (IdContainer d)} (h : RunFromPositions positions cs fs "ballistic" res) : ∃ out, res = .ok out ∧ PointsAndOpenLines cs fs u out := by
  refine C90_points_and_open_lines hd hb hfs (s := 0.07) (by norm_num) (C90_tube (D := fs / 4) ht (fun x hx y hy hxy => ?_) (by positivity) ?_) hw hfar h
  · exact (hfar x hx y hy hxy).le.trans (distance_le_eucl hb x y)
  · have : 0 < fs ^ 2 := by positivity
    nlinarith

/-! ### Example -/

namespace C90Demo

/-- the square of side 10 -/
def box : CoordSys 2 := ⟨fun _ => 0, fun _ => 10, false⟩

theorem box_proper : ProperBox box := fun i => by simp [box]

/-- three positions near the line `y = 0`, and one far from them -/
def ps : List (Vec 2) := [![0, 0], ![1, 1 / 100], ![2, 0], ![8, 0]]

theorem dist_sq (x y : Vec 2) : box.distance x y = Real.sqrt ((x 0 - y 0) ^ 2 + (x 1 - y 1) ^ 2) := by
  rw [distance_eucl rfl]
  simp [eucl, Fin.sum_univ_two]

theorem tube : InTube ![0, 0] ![1, 0] (3 / 2 / 120) ps := by
  refine ⟨by simp [Fin.sum_univ_two], fun x hx => ⟨x 0, ?_⟩⟩
  simp only [ps, List.mem_cons, List.not_mem_nil, or_false] at hx
  unfold eucl
  refine Real.sqrt_le_iff.2 ⟨by norm_num, ?_⟩
  rcases hx with rfl | rfl | rfl | rfl <;> norm_num [Fin.sum_univ_two]

theorem far : ∀ x ∈ ps, ∀ y ∈ ps, x ≠ y → 3 / 2 / 4 < box.distance x y := by
  intro x hx y hy hne
  rw [dist_sq]
  simp only [ps, List.mem_cons, List.not_mem_nil, or_false] at hx hy
  refine Real.lt_sqrt_of_sq_lt ?_
  rcases hx with rfl | rfl | rfl | rfl <;> rcases hy with rfl | rfl | rfl | rfl <;> first | exact absurd rfl hne | norm_num

/-- The hypotheses are met, and the result has a line. -/
example : InTube ![0, 0] ![1, 0] (3 / 2 / 120) ps ∧ NotWrapped box (3 / 2) ps ∧ (∀ x ∈ ps, ∀ y ∈ ps, x ≠ y → 3 / 2 / 4 < box.distance x y) ∧
    ∃ out, RunFromPositions ps box (3 / 2) "ballistic" (.ok out) ∧ PointsAndOpenLines box (3 / 2) ![1, 0] out ∧
      ∃ r ∈ out.results, 2 ≤ r.positions.length ∧ ∃ l, r.shape = some (.line l) ∧ shapeName l.degreeCount = .openLine := by
  obtain ⟨⟨r, hr⟩, -⟩ := C65_never_raises box_proper (fs := 3 / 2) (by norm_num) ps (.inl rfl)
  obtain ⟨out, rfl, h⟩ := C90_thin_tube (by norm_num) box_proper (by norm_num) tube (C90_nonperiodic rfl _ _) far hr
  refine ⟨tube, C90_nonperiodic rfl _ _, far, out, hr, h, ?_⟩
  have h1 : (![0, 0] : Vec 2) ∈ ps := by simp [ps]
  have h2 : (![1, 1 / 100] : Vec 2) ∈ ps := by simp [ps]
  obtain ⟨r, hr', m1, m2⟩ := ((C65_results box_proper (by norm_num) hr).chains _ h1 _ h2).2 (.single ⟨h1, h2, by
    rw [dist_sq]
    exact Real.sqrt_le_iff.2 ⟨by norm_num, by norm_num⟩⟩)
  rcases h r hr' with ⟨x, q, hx, -⟩ | ⟨hl, -, l, hl1, hl2⟩
  · rw [hx, List.mem_singleton] at m1 m2
    have := congrFun (m1.trans m2.symm) 0
    norm_num at this
  · exact ⟨r, hr', hl, l, hl1, hl2.name⟩

end C90Demo

end NF
