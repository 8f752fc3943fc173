import Verif.Lemmas.ShortestLineInv
import Verif.Spec.LineAlong
import Verif.Props.Curve

/-! # C94: the shortest-path method on a nearly straight nodal line -/

noncomputable section
open Classical
namespace NF
open Spec NxGraph CoordSys
variable {d : ℕ}

theorem lined_of_straight {cs : CoordSys d} {fs : ℝ} (hfs : 0 < fs) {g : NxGraph (Vec d) ℝ} (hb : ProperBox cs)
    (hedge : ∀ x y, g.hasEdge x y ↔ x ∈ g.nodes ∧ y ∈ g.nodes ∧ x ≠ y ∧ cs.distance x y ≤ fs) {u : Vec d} {s : ℝ} (hs : s ^ 2 < 1) {positions : List (Vec d)}
    (hst : NearlyStraight u s positions) (hw : NotWrapped cs fs positions) (hsub : ∀ x ∈ g.nodes, x ∈ positions) :
    Lined g (progress u) fun x y => fs * (cs.distance x y / fs + (cs.distance x y / fs) ^ 2) := by
  have hD := directed_of_straight hb hedge hs hst hw hsub
  have hnn : ∀ x y, 0 ≤ cs.distance x y := fun x y => (C03_distance_metric cs hb x y x).1
  have hmono : ∀ a b : ℝ, 0 ≤ a → a < b → fs * (a / fs + (a / fs) ^ 2) < fs * (b / fs + (b / fs) ^ 2) := by
    intro a b ha hab
    have h1 : a / fs < b / fs := div_lt_div_of_pos_right hab hfs
    have h0 : 0 ≤ a / fs := div_nonneg ha hfs.le
    have h2 : (a / fs) ^ 2 < (b / fs) ^ 2 := pow_lt_pow_left₀ h1 h0 two_ne_zero
    exact mul_lt_mul_of_pos_left (by linarith) hfs
  refine ⟨hD.inj, hD.between, fun x y => by rw [(C03_distance_metric cs hb x y x).2.1], fun x y hxy => ?_, fun x y z hxy hz h1 h2 => ?_⟩
  · have := hD.pos x y hxy
    positivity
  · obtain ⟨hx, hy, -, h4⟩ := (hedge x y).1 hxy
    have hp := (dot_pos_slope hst.1 hs (slope_sub hst (hsub x hx) (hsub z hz)) (slope_sub hst (hsub z hz) (hsub y hy))).1
      (by rw [progress_sub, progress_sub]; exact mul_pos (by linarith) (by linarith))
    have e := eucl_eq_distance hb hw (hsub x hx) (hsub y hy) h4
    have hsum : ∑ i, (y i - x i) ^ 2 = ∑ i, (z i - x i) ^ 2 + ∑ i, (y i - z i) ^ 2 + 2 * dot (fun i => z i - x i) fun i => y i - z i := by
      unfold dot
      rw [Finset.mul_sum, ← Finset.sum_add_distrib, ← Finset.sum_add_distrib]
      exact Finset.sum_congr rfl fun i _ => by ring
    have n1 : 0 ≤ ∑ i, (z i - x i) ^ 2 := Finset.sum_nonneg fun i _ => sq_nonneg _
    have n2 : 0 ≤ ∑ i, (y i - z i) ^ 2 := Finset.sum_nonneg fun i _ => sq_nonneg _
    have hsw : ∀ a b : Vec d, eucl a b = Real.sqrt (∑ i, (b i - a i) ^ 2) := fun a b => by
      unfold eucl; congr 1; exact Finset.sum_congr rfl fun i _ => by ring
    refine ⟨hmono _ _ (hnn _ _) ?_, hmono _ _ (hnn _ _) ?_⟩
    · refine (distance_le_eucl hb x z).trans_lt ?_
      rw [hsw]
      exact (Real.sqrt_lt n1 (hnn x y)).2 (by linarith)
    · refine (distance_le_eucl hb z y).trans_lt ?_
      rw [hsw]
      exact (Real.sqrt_lt n2 (hnn x y)).2 (by linarith)

theorem distance_self {cs : CoordSys d} (hb : ProperBox cs) (x : Vec d) : cs.distance x x = 0 :=
  ((C03_distance_metric cs hb x x x).2.2.2).2 (by unfold SamePoint; split; exacts [⟨0, by funext i; simp [shift]⟩, rfl])

/-- The shape of a line of one node is unknown. -/
theorem single_shape {V A : Type} {g : NxGraph V A} (hg : GoodGraph g) {x : V} (h : PathGraph g [x]) : shapeName (createDegreeCount g) = .unknown := by
  have hx : x ∈ g.nodes := (h.2.1 x).1 (by simp)
  have h0 : nbrCount g x = 0 := by
    unfold nbrCount
    rw [List.length_eq_zero_iff, List.filter_eq_nil_iff]
    intro y _
    simp only [decide_eq_true_eq]
    intro hxy
    rcases (h.2.2 x y).1 hxy with ⟨a, b, e⟩ | ⟨a, b, e⟩
    · have := congrArg List.length e; simp at this; omega
    · have := congrArg List.length e; simp at this; omega
  have h1 : shapeName (createDegreeCount g) ≠ .closedLoop := fun e => by
    have := (C63_closed_loop hg).1 e x hx
    omega
  have h2 : shapeName (createDegreeCount g) ≠ .openLine := fun e => by
    obtain ⟨a, ha, b, hb, hab, -⟩ := (C63_open_line hg).1 e
    have e1 := (h.2.1 a).2 ha
    have e2 := (h.2.1 b).2 hb
    rw [List.mem_singleton] at e1 e2
    exact hab (e1.trans e2.symm)
  cases hn : shapeName (createDegreeCount g) with
  | closedLoop => exact absurd hn h1
  | openLine => exact absurd hn h2
  | unknown => rfl

/-- the graph of a line that the shortest-path method has found -/
theorem shortest_graph {g : NxGraph (Vec d) ℝ} {cs : CoordSys d} {fs : ℝ} {l : NodalLine (Vec d)} (hl : EvaluateLine g cs fs "shortest_path" (.ok l)) :
    ∃ n rg, SPRun fs g n (.done rg) ∧ l = ⟨rg.strip, createDegreeCount rg⟩ := by
  generalize hms : "shortest_path" = ms at hl
  generalize hr : (Except.ok l : Except Err (NodalLine (Vec d))) = o at hl
  cases hl with
  | invalid => cases hr
  | ballistic => simp at hms
  | ballisticError => cases hr
  | shortest h => cases hr; exact ⟨_, _, h, rfl⟩
  | shortestError => cases hr
  | dominating => simp at hms

/-- The cluster and the run of the shortest-path method behind a result of dimension one. -/
theorem shortest_result {cs : CoordSys d} (hb : ProperBox cs) {fs : ℝ} (hfs : 0 < fs) {positions : List (Vec d)} {out : IdContainer d}
    (h : RunFromPositions positions cs fs "shortest_path" (.ok out)) {r : IdResult d} (hr : r ∈ out.results) (h1 : r.dimension = some 1) :
    ∃ pu c n rg, IsUniqueList positions pu ∧ c ∈ createClusters cs fs pu ∧ r.positions = c.nodes ∧ SPRun fs c n (.done rg) ∧ r.shape = some (.line ⟨rg.strip, createDegreeCount rg⟩) := by
  obtain ⟨-, -, pu, hu, hall⟩ := runFromPositions_ok h
  obtain ⟨c, hc, hcr⟩ := forall₂_mem_right hall hr
  obtain ⟨e1, e2, e3⟩ := identifyCluster_positions hcr
  rw [h1] at e2 e3
  generalize ho : (Except.ok r.shape : Except Err (Option (Shape d))) = o at e3
  cases e3 with
  | other _ hn => exact absurd rfl hn
  | lineError => cases ho
  | lineWarning hl he =>
    obtain ⟨out', ho', hl'⟩ := (C65_never_raises hb hfs positions (.inr rfl)).2 _ h
    cases ho'
    obtain ⟨l, hl'⟩ := hl' r hr h1
    rw [hl'] at ho
    cases ho
  | @line l hl =>
    obtain ⟨n, rg, hn, rfl⟩ := shortest_graph hl
    exact ⟨pu, c, n, rg, hu, hc, e1, hn, Except.ok.inj ho⟩

/-- **C94**, the line: if the positions are on a curve of slope less than one (against some direction), and the method is `shortest_path`, then whatever the order in which sets are iterated over, every
cluster of dimension one becomes a line that goes in this direction without branches. -/
theorem C94_line {cs : CoordSys d} (hb : ProperBox cs) {fs : ℝ} (hfs : 0 < fs) {positions : List (Vec d)} {u : Vec d} {s : ℝ} (hs : s ^ 2 < 1) (hst : NearlyStraight u s positions)
    (hw : NotWrapped cs fs positions) {out : IdContainer d} (h : RunFromPositions positions cs fs "shortest_path" (.ok out)) {r : IdResult d} (hr : r ∈ out.results) (h1 : r.dimension = some 1) :
    ∃ l, r.shape = some (.line l) ∧ LineAlong cs fs u r.positions l := by
  obtain ⟨pu, c, n, rg, hu, hc, e1, hn, hshape⟩ := shortest_result hb hfs h hr h1
  obtain ⟨hg, hconn, hedge, hattr⟩ := C54_cluster_graph hb fs hu hc
  obtain ⟨hne, -, hsub⟩ := (C51_clusters_partition cs fs hu).2 c hc
  obtain ⟨p, hp, hord⟩ := shortest_line hg hconn hne (fun x y => (C03_distance_metric cs hb x y x).2.1) hattr (lined_of_straight hfs hb hedge hs hst hw hsub) hn
  obtain ⟨hgr, hsg, -, hrne, hdom⟩ := (C61_shortest_path hg hconn hne fs).2.2 n rg hn
  have hpne : p ≠ [] := by
    rintro rfl
    obtain ⟨x, hx⟩ := List.exists_mem_of_ne_nil _ hrne
    exact absurd ((hp.2.1 x).2 hx) (by simp)
  refine ⟨_, hshape, p, hpne, pathGraph_strip hp, hord, fun x hx => ?_, fun x y hxy => ?_, fun x hx => ?_, ?_⟩
  · rw [e1]; exact hsg.1 x ((hp.2.1 x).1 hx)
  · exact ((hedge x y).1 (hsg.2 x y ((hp.2.2 x y).2 (.inl hxy)))).2.2.2
  · rw [e1] at hx
    rcases hdom x hx with h | ⟨y, hy, hxy⟩
    · exact ⟨x, (hp.2.1 x).2 h, by rw [distance_self hb]; exact hfs.le⟩
    · exact ⟨y, (hp.2.1 y).2 hy, ((hedge x y).1 hxy).2.2.2⟩
  · split_ifs with h2
    · exact openLine_shape hgr hp h2
    · obtain ⟨x, rfl⟩ := List.length_eq_one_iff.1 (by have := List.length_pos_iff.2 hpne; omega : p.length = 1)
      exact single_shape hgr hp

/-- **C94**: if two of its positions are more than twice `feature_size` from each other, the line is an open line. -/
theorem C94_open_line {cs : CoordSys d} (hb : ProperBox cs) {fs : ℝ} (hfs : 0 < fs) {positions : List (Vec d)} {u : Vec d} {s : ℝ} (hs : s ^ 2 < 1) (hst : NearlyStraight u s positions)
    (hw : NotWrapped cs fs positions) {out : IdContainer d} (h : RunFromPositions positions cs fs "shortest_path" (.ok out)) {r : IdResult d} (hr : r ∈ out.results) (h1 : r.dimension = some 1)
    {x y : Vec d} (hx : x ∈ r.positions) (hy : y ∈ r.positions) (hxy : 2 * fs < cs.distance x y) : ∃ l, r.shape = some (.line l) ∧ OpenLineAlong cs fs u r.positions l := by
  obtain ⟨l, hl, p, hpne, hp, hord, hin, hlen, hdom, hname⟩ := C94_line hb hfs hs hst hw h hr h1
  have h2 : 2 ≤ p.length := by
    by_contra hlt
    obtain ⟨z, rfl⟩ := List.length_eq_one_iff.1 (by have := List.length_pos_iff.2 hpne; omega : p.length = 1)
    obtain ⟨a, ha, hxa⟩ := hdom x hx
    obtain ⟨b, hb', hyb⟩ := hdom y hy
    rw [List.mem_singleton] at ha hb'
    subst ha
    subst hb'
    have := (C03_distance_metric cs hb x b y).2.2.1
    have := (C03_distance_metric cs hb y b y).2.1
    linarith
  rw [if_pos h2] at hname
  exact ⟨l, hl, hname, p, h2, hp, hord, hin, hlen, hdom⟩

/-- **C94**: if the positions are on a curve of slope at most 0.07 (against some direction) and more than a quarter of `feature_size` from each other, then (with the method `shortest_path`, whatever the
random choices) the identification raises nothing and consists of a point for every single position, and of a line in this direction for every chain of at least two. -/
theorem C94_points_and_lines (hd : 1 ≤ d) {cs : CoordSys d} (hb : ProperBox cs) {fs : ℝ} (hfs : 0 < fs) {positions : List (Vec d)} {u : Vec d} {s : ℝ} (hs : s ^ 2 ≤ 0.0049)
    (hst : NearlyStraight u s positions) (hw : NotWrapped cs fs positions) (hfar : ∀ x ∈ positions, ∀ y ∈ positions, x ≠ y → fs / 4 < cs.distance x y)
    {res : Except Err (IdContainer d)} (h : RunFromPositions positions cs fs "shortest_path" res) : ∃ out, res = .ok out ∧ PointsAndLines cs fs u out := by
  obtain ⟨out, rfl, -⟩ := (C65_never_raises hb hfs positions (.inr rfl)).2 _ h
  refine ⟨out, rfl, fun r hr => ?_⟩
  have hI := C65_results hb hfs h
  obtain ⟨-, -, pu, hu, hall⟩ := runFromPositions_ok h
  obtain ⟨c, hc, hcr⟩ := forall₂_mem_right hall hr
  obtain ⟨e1, e2, e3⟩ := identifyCluster_positions hcr
  obtain ⟨hg, hconn, hedge, -⟩ := C54_cluster_graph hb fs hu hc
  obtain ⟨hne, hnd, hsub⟩ := (C51_clusters_partition cs fs hu).2 c hc
  by_cases h2 : 2 ≤ c.nodes.length
  · right
    have h1 : r.dimension = some 1 := Except.ok.inj (dimension_unanimous hg hne (k := 1) (fun p hp x hx =>
      getDimension_straight hd hfs hb hedge hs hst hw hsub hfar (connected_nbr hconn hnd h2 hp) hx) e2)
    exact ⟨by rw [e1]; exact h2, h1, C94_line hb hfs (by linarith) hst hw h hr h1⟩
  · left
    obtain ⟨x, hx⟩ := List.length_eq_one_iff.1 (by have := List.length_pos_iff.2 hne; omega : c.nodes.length = 1)
    have h0 : r.dimension = some 0 := Except.ok.inj (dimension_unanimous hg hne (k := 0) (fun p hp y hy =>
      (C69_point_or_more hb (by norm_num) hd hy).1 fun n hn => by
        obtain ⟨a1, a2, a3, -⟩ := (hedge p n).1 hn
        rw [hx, List.mem_singleton] at a1 a2
        exact absurd (a1.trans a2.symm) a3) e2)
    obtain ⟨q, hq, hav⟩ := hI.point r hr h0
    refine ⟨x, q, by rw [e1, hx], h0, hq, ?_⟩
    refine le_antisymm (average_near hb (fun i => ?_) (hI.given r hr).1 (fun p hp => ?_) hav) ((C03_distance_metric cs hb q x x).1)
    · have := hb i; linarith
    · rw [e1, hx, List.mem_singleton] at hp
      rw [hp, distance_self hb]

/-- **C94**, short lines: where all positions of a cluster of dimension one are within `feature_size` of each other, the method `shortest_path` returns one of them, without any edge, and calls the shape
unknown.  (The method `ballistic` returns an open line, see C90.) -/
theorem C94_short_line {cs : CoordSys d} (hb : ProperBox cs) {fs : ℝ} (hfs : 0 < fs) {positions : List (Vec d)} {out : IdContainer d}
    (h : RunFromPositions positions cs fs "shortest_path" (.ok out)) {r : IdResult d} (hr : r ∈ out.results) (h1 : r.dimension = some 1)
    (hall : ∀ x ∈ r.positions, ∀ y ∈ r.positions, cs.distance x y ≤ fs) :
    ∃ l, r.shape = some (.line l) ∧ shapeName l.degreeCount = .unknown ∧ ∃ x ∈ r.positions, l.graph.nodes = [x] ∧ l.graph.edges = [] := by
  obtain ⟨pu, c, n, rg, hu, hc, e1, hn, hshape⟩ := shortest_result hb hfs h hr h1
  obtain ⟨hg, hconn, hedge, hattr⟩ := C54_cluster_graph hb fs hu hc
  have hne := ((C51_clusters_partition cs fs hu).2 c hc).1
  have key : ∀ n s, SPRun fs c n s → ∃ x ∈ c.nodes, (∃ v, s = .head v ∧ v.cand = [] ∧ v.rg = NxGraph.empty.addNode x) ∨ s = .done (NxGraph.empty.addNode x) := by
    intro n s hrun
    induction hrun with
    | init hi =>
      cases hi with
      | empty he => exact absurd he hne
      | @first p hp =>
        refine ⟨p, hp, .inl ⟨_, rfl, ?_, rfl⟩⟩
        simp only
        rw [removeAll, List.filter_eq_nil_iff]
        intro x hx
        simp only [decide_eq_true_eq, not_not]
        refine (closedNeighbors_congr (sameShape_hasEdge (sameShape_initialWeights fs c))).2 ?_
        by_cases hxp : x = p
        · exact .inl hxp
        · exact .inr (mem_neighbors.2 ((hedge p x).2 ⟨hp, hx, Ne.symm hxp, hall p (e1 ▸ hp) x (e1 ▸ hx)⟩))
    | step _ hst ih =>
      obtain ⟨x, hx, ⟨v, rfl, hv, hrg⟩ | rfl⟩ := ih
      · cases hst with
        | finish => exact ⟨x, hx, .inr (by rw [hrg])⟩
        | newEnd he => rw [hv] at he; simp at he
      · cases hst
  obtain ⟨x, hx, ⟨v, hv, -⟩ | hdone⟩ := key n _ hn
  · cases hv
  · cases hdone
    refine ⟨_, hshape, single_shape (goodGraph_addNode goodGraph_empty x) (pathGraph_single x), x, by rw [e1]; exact hx, ?_, ?_⟩
    · simp [NxGraph.strip, addNode, NxGraph.empty]
    · simp [NxGraph.strip, addNode, NxGraph.empty]

/-! ### Examples -/

namespace C94Demo
open C90Demo

/-- On the three positions of C90's example the line goes along them. -/
example : NearlyStraight ![1, 0] 0.07 ps ∧ NotWrapped box (3 / 2) ps ∧ (∀ x ∈ ps, ∀ y ∈ ps, x ≠ y → 3 / 2 / 4 < box.distance x y) ∧
    ∃ out, RunFromPositions ps box (3 / 2) "shortest_path" (.ok out) ∧ PointsAndLines box (3 / 2) ![1, 0] out ∧ ∃ r ∈ out.results, r.dimension = some 1 := by
  have hst : NearlyStraight ![1, 0] 0.07 ps := C90_tube (D := 3 / 2 / 4) tube (fun x hx y hy hxy => (far x hx y hy hxy).le.trans (distance_le_eucl box_proper x y)) (by norm_num) (by norm_num)
  obtain ⟨⟨r, hr⟩, -⟩ := C65_never_raises box_proper (fs := 3 / 2) (by norm_num) ps (.inr rfl)
  obtain ⟨out, rfl, h⟩ := C94_points_and_lines (by norm_num) box_proper (by norm_num) (by norm_num) hst (C90_nonperiodic rfl _ _) far hr
  refine ⟨hst, C90_nonperiodic rfl _ _, far, out, hr, h, ?_⟩
  have h1 : (![0, 0] : Vec 2) ∈ ps := by simp [ps]
  have h2 : (![1, 1 / 100] : Vec 2) ∈ ps := by simp [ps]
  obtain ⟨r, hr', m1, m2⟩ := ((C65_results box_proper (by norm_num) hr).chains _ h1 _ h2).2 (.single ⟨h1, h2, by
    rw [dist_sq]
    exact Real.sqrt_le_iff.2 ⟨by norm_num, by norm_num⟩⟩)
  rcases h r hr' with ⟨x, q, hx, -⟩ | ⟨hl, hd, -⟩
  · rw [hx, List.mem_singleton] at m1 m2
    have := congrFun (m1.trans m2.symm) 0
    norm_num at this
  · exact ⟨r, hr', hd⟩

/-- five positions on a straight line -/
def five : List (Vec 2) := [![0, 0], ![1, 0], ![2, 0], ![3, 0], ![4, 0]]

theorem five_dist : ∀ x ∈ five, ∀ y ∈ five, box.distance x y = |x 0 - y 0| := by
  intro x hx y hy
  rw [dist_sq]
  simp only [five, List.mem_cons, List.not_mem_nil, or_false] at hx hy
  have e : ∀ v ∈ five, v 1 = 0 := by
    intro v hv
    simp only [five, List.mem_cons, List.not_mem_nil, or_false] at hv
    rcases hv with rfl | rfl | rfl | rfl | rfl <;> rfl
  rw [e x (by simpa [five] using hx), e y (by simpa [five] using hy), sub_zero, zero_pow two_ne_zero, add_zero, Real.sqrt_sq_eq_abs]

theorem five_straight : NearlyStraight ![1, 0] 0 five := by
  refine ⟨by simp [Fin.sum_univ_two], fun x hx y hy => ?_⟩
  simp only [five, List.mem_cons, List.not_mem_nil, or_false] at hx hy
  rcases hx with rfl | rfl | rfl | rfl | rfl <;> rcases hy with rfl | rfl | rfl | rfl | rfl <;> simp [progress, Fin.sum_univ_two]

theorem five_far : ∀ x ∈ five, ∀ y ∈ five, x ≠ y → 3 / 2 / 4 < box.distance x y := by
  intro x hx y hy hxy
  rw [five_dist x hx y hy]
  simp only [five, List.mem_cons, List.not_mem_nil, or_false] at hx hy
  rcases hx with rfl | rfl | rfl | rfl | rfl <;> rcases hy with rfl | rfl | rfl | rfl | rfl <;> first | exact absurd rfl hxy | (norm_num [abs_of_pos, abs_of_neg, abs_of_nonneg])

/-- They are longer than twice `feature_size`, and so become an open line. -/
example : ∃ out, RunFromPositions five box (3 / 2) "shortest_path" (.ok out) ∧ ∃ r ∈ out.results, ∃ l, r.shape = some (.line l) ∧ OpenLineAlong box (3 / 2) ![1, 0] r.positions l := by
  obtain ⟨⟨r, hr⟩, -⟩ := C65_never_raises box_proper (fs := 3 / 2) (by norm_num) five (.inr rfl)
  obtain ⟨out, rfl, h⟩ := C94_points_and_lines (by norm_num) box_proper (by norm_num) (s := 0) (by norm_num) five_straight (C90_nonperiodic rfl _ _) five_far hr
  have m0 : (![0, 0] : Vec 2) ∈ five := by simp [five]
  have m4 : (![4, 0] : Vec 2) ∈ five := by simp [five]
  have hstep : ∀ a b : ℝ, ![a, 0] ∈ five → ![b, 0] ∈ five → |a - b| ≤ 3 / 2 → Chain box (3 / 2) five ![a, 0] ![b, 0] := by
    intro a b ha hb hab
    refine .single ⟨ha, hb, ?_⟩
    rw [five_dist _ ha _ hb]
    simpa using hab
  have hch : Chain box (3 / 2) five ![0, 0] ![4, 0] := (hstep 0 1 (by simp [five]) (by simp [five]) (by norm_num)).trans
    ((hstep 1 2 (by simp [five]) (by simp [five]) (by norm_num [abs_of_neg])).trans
      ((hstep 2 3 (by simp [five]) (by simp [five]) (by norm_num [abs_of_neg])).trans (hstep 3 4 (by simp [five]) (by simp [five]) (by norm_num [abs_of_neg]))))
  obtain ⟨r, hr', m1, m2⟩ := ((C65_results box_proper (by norm_num) hr).chains _ m0 _ m4).2 hch
  refine ⟨out, hr, r, hr', ?_⟩
  rcases h r hr' with ⟨x, q, hx, -⟩ | ⟨-, hd, -⟩
  · rw [hx, List.mem_singleton] at m1 m2
    have := congrFun (m1.trans m2.symm) 0
    norm_num at this
  · refine C94_open_line box_proper (by norm_num) (s := 0) (by norm_num) five_straight (C90_nonperiodic rfl _ _) hr hr' hd m1 m2 ?_
    rw [five_dist _ m0 _ m4]
    norm_num [abs_of_neg]

/-- Two positions at distance 1 become an open line with `ballistic`, but a single node of unknown shape with `shortest_path`. -/
theorem _root_.NF.C94_methods_differ : (∃ out, RunFromPositions [![0, 0], (![1, 0] : Vec 2)] box (3 / 2) "ballistic" (.ok out) ∧ ∃ r ∈ out.results, ∃ l, r.shape = some (.line l) ∧ shapeName l.degreeCount = .openLine) ∧
    ∀ out, RunFromPositions [![0, 0], (![1, 0] : Vec 2)] box (3 / 2) "shortest_path" (.ok out) → ∃ r ∈ out.results, ∃ l, r.shape = some (.line l) ∧ shapeName l.degreeCount = .unknown := by
  have hsub : ∀ x ∈ [![0, 0], (![1, 0] : Vec 2)], x ∈ five := by
    intro x hx
    simp only [List.mem_cons, List.not_mem_nil, or_false] at hx
    rcases hx with rfl | rfl <;> simp [five]
  have hst : NearlyStraight ![1, 0] 0 [![0, 0], (![1, 0] : Vec 2)] := ⟨five_straight.1, fun x hx y hy => five_straight.2 x (hsub x hx) y (hsub y hy)⟩
  have hfar : ∀ x ∈ [![0, 0], (![1, 0] : Vec 2)], ∀ y ∈ [![0, 0], (![1, 0] : Vec 2)], x ≠ y → 3 / 2 / 4 < box.distance x y := fun x hx y hy => five_far x (hsub x hx) y (hsub y hy)
  have hdist : ∀ x ∈ [![0, 0], (![1, 0] : Vec 2)], ∀ y ∈ [![0, 0], (![1, 0] : Vec 2)], box.distance x y ≤ 3 / 2 := by
    intro x hx y hy
    rw [five_dist x (hsub x hx) y (hsub y hy)]
    simp only [List.mem_cons, List.not_mem_nil, or_false] at hx hy
    rcases hx with rfl | rfl <;> rcases hy with rfl | rfl <;> norm_num
  have h1 : (![0, 0] : Vec 2) ∈ [![0, 0], (![1, 0] : Vec 2)] := by simp
  have h2 : (![1, 0] : Vec 2) ∈ [![0, 0], (![1, 0] : Vec 2)] := by simp
  have hne : (![0, 0] : Vec 2) ≠ ![1, 0] := fun e => by have := congrFun e 0; norm_num at this
  have hfind : ∀ {m out}, RunFromPositions [![0, 0], (![1, 0] : Vec 2)] box (3 / 2) m (.ok out) → ∃ r ∈ out.results, (![0, 0] : Vec 2) ∈ r.positions ∧ (![1, 0] : Vec 2) ∈ r.positions :=
    fun hr => ((C65_results box_proper (by norm_num) hr).chains _ h1 _ h2).2 (.single ⟨h1, h2, hdist _ h1 _ h2⟩)
  constructor
  · obtain ⟨⟨r, hr⟩, -⟩ := C65_never_raises box_proper (fs := 3 / 2) (by norm_num) [![0, 0], (![1, 0] : Vec 2)] (.inl rfl)
    obtain ⟨out, rfl, h⟩ := C90_points_and_open_lines (by norm_num) box_proper (by norm_num) (s := 0) (by norm_num) hst (C90_nonperiodic rfl _ _) hfar hr
    obtain ⟨r, hr', m1, m2⟩ := hfind hr
    refine ⟨out, hr, r, hr', ?_⟩
    rcases h r hr' with ⟨x, q, hx, -⟩ | ⟨-, -, l, hl, hl2⟩
    · rw [hx, List.mem_singleton] at m1 m2
      exact absurd (m1.trans m2.symm) hne
    · exact ⟨l, hl, hl2.name⟩
  · intro out hr
    obtain ⟨out', ho, h⟩ := C94_points_and_lines (by norm_num) box_proper (by norm_num) (s := 0) (by norm_num) hst (C90_nonperiodic rfl _ _) hfar hr
    cases ho
    obtain ⟨r, hr', m1, m2⟩ := hfind hr
    refine ⟨r, hr', ?_⟩
    rcases h r hr' with ⟨x, q, hx, -⟩ | ⟨-, hd, -⟩
    · rw [hx, List.mem_singleton] at m1 m2
      exact absurd (m1.trans m2.symm) hne
    · have hin := (C65_results box_proper (by norm_num) hr).given r hr'
      obtain ⟨l, hl, hl2, -⟩ := C94_short_line box_proper (by norm_num) hr hr' hd fun x hx y hy => hdist x (hin.2.2 x hx) y (hin.2.2 y hy)
      exact ⟨l, hl, hl2⟩

end C94Demo

end NF
