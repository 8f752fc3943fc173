import Verif.Lemmas.Ballistic

/-!
# Properties of the ballistic line evaluation (C58-C60)

`BRun g cs fs n s` : some execution of the ballistic method on the graph `g` is in the state `s` after `n` steps; `.done rg` means that it has returned `rg`, `.error e` that it has raised `e`.
-/

noncomputable section
open Classical

namespace NF
open Spec NxGraph
variable {d : ℕ}

/-- Weaker form of the invariant, without assumptions on the distances. -/
def BSub (g : NxGraph (Vec d) ℝ) : BState d → Prop
  | .outer rg _ => GoodGraph rg ∧ SubgraphOf rg g
  | .loop rg _ _ node _ _ => GoodGraph rg ∧ SubgraphOf rg g ∧ node ∈ rg.nodes
  | .done rg => GoodGraph rg ∧ SubgraphOf rg g ∧ Dominates rg g
  | .error _ => True

theorem bRun_sub {g : NxGraph (Vec d) ℝ} (hg : GoodGraph g) {cs : CoordSys d} {fs : ℝ} {n : ℕ} {s : BState d} (hr : BRun g cs fs n s) : BSub g s := by
  have hadd : ∀ {rg : NxGraph (Vec d) Unit} {x : Vec d}, GoodGraph rg → SubgraphOf rg g → x ∈ g.nodes →
      GoodGraph (rg.addNode x) ∧ SubgraphOf (rg.addNode x) g ∧ x ∈ (rg.addNode x).nodes := fun {rg x} h1 h2 hx =>
    ⟨goodGraph_addNode h1 x, ⟨fun y hy => (mem_addNode.1 hy).elim (h2.1 y) (fun e => e ▸ hx), fun a b hab => h2.2 a b (hasEdge_addNode.1 hab)⟩, mem_addNode.2 (.inr rfl)⟩
  induction hr with
  | init => exact ⟨goodGraph_empty, by simp [NxGraph.empty], by rintro x y ⟨e, he, -⟩; simp [NxGraph.empty] at he⟩
  | step _ hst ih =>
    cases hst with
    | @finish rg _ hd =>
      refine ⟨ih.1, ih.2, fun x hx => ?_⟩
      by_cases hx' : x ∈ rg.nodes
      · exact .inl hx'
      · obtain ⟨y, hy, hy'⟩ := hd x hx hx'
        exact .inr ⟨y, hy', mem_neighbors.1 hy⟩
    | endNode _ hn _ => exact hadd ih.1 ih.2 (ih.2.1 _ (mem_newEndNodes.1 hn).1)
    | newStart _ _ hc => exact hadd ih.1 ih.2 (mem_startCandidates.1 hc).1
    | noStart => trivial
    | @next rg ev pending node prev onGraph r hr =>
      obtain ⟨h1, h2, h3⟩ := ih
      cases hr with
      | noNeighbors => trivial
      | allCoincide => trivial
      | nothing =>
        cases prev with
        | none => trivial
        | some _ => exact ⟨h1, h2⟩
      | @chosen m hm _ =>
        have he : g.hasEdge node m := mem_neighbors.1 (List.mem_of_mem_filter (List.mem_of_mem_filter hm))
        have hne := goodGraph_edge hg he
        have hl : ∀ p b, BSub g (.loop (rg.addEdge node m ()) ev pending m p b) := fun p b => by
          refine ⟨goodGraph_addEdge h1 hne.2.2 () _, ⟨fun z hz => ?_, fun a b hab => ?_⟩, mem_addEdge.2 (.inr (.inr rfl))⟩
          · rcases mem_addEdge.1 hz with hz | rfl | rfl
            exacts [h2.1 z hz, hne.1, hne.2.1]
          · rcases hasEdge_addEdge.1 hab with hab | ⟨rfl, rfl⟩ | ⟨rfl, rfl⟩
            exacts [h2.2 a b hab, he, hasEdge_symm.1 he]
        simp only [afterNext]
        split_ifs
        · exact ⟨h1, h2⟩
        · exact hl _ _
        · exact hl _ _

/-- **C58.**  Whatever the graph and the choices made, a graph returned by the ballistic method is a (simple) subgraph of the cluster graph, and every node of the cluster graph is in it or
adjacent to one of its nodes. -/
theorem C58_ballistic_dominating {g : NxGraph (Vec d) ℝ} (hg : GoodGraph g) {cs : CoordSys d} {fs : ℝ} {n : ℕ} {rg : NxGraph (Vec d) Unit}
    (hr : BRun g cs fs n (.done rg)) : GoodGraph rg ∧ SubgraphOf rg g ∧ Dominates rg g := bRun_sub hg hr

theorem lineCluster_of_cluster {cs : CoordSys d} (hb : ProperBox cs) {fs : ℝ} {positions posUnique : List (Vec d)} (hu : IsUniqueList positions posUnique)
    {c : NxGraph (Vec d) ℝ} (hc : c ∈ createClusters cs fs posUnique) (hpos : ∃ a ∈ c.nodes, ∃ b ∈ c.nodes, 0 < cs.distance a b) : LineCluster c cs fs := by
  obtain ⟨h1, h2, h3, h4⟩ := C54_cluster_graph hb fs hu hc
  exact ⟨hb, h1, h2, h3, h4, hpos⟩

/-- **C59.**  On a cluster in which two positions have a positive distance, the ballistic method never raises, makes at most `6 n + 1` steps, and can always go on until it returns. -/
theorem C59_ballistic_terminates {cs : CoordSys d} (hb : ProperBox cs) {fs : ℝ} {positions posUnique : List (Vec d)} (hu : IsUniqueList positions posUnique)
    {c : NxGraph (Vec d) ℝ} (hc : c ∈ createClusters cs fs posUnique) (hpos : ∃ a ∈ c.nodes, ∃ b ∈ c.nodes, 0 < cs.distance a b) :
    (∀ n s, BRun c cs fs n s → n ≤ 6 * c.nodes.length + 1 ∧ (∀ e, s ≠ .error e) ∧ ((∃ rg, s = .done rg) ∨ ∃ s', BStep c cs fs s s')) ∧
    ∃ n rg, BRun c cs fs n (.done rg) := by
  have h := lineCluster_of_cluster hb hu hc hpos
  have h1 : ∀ n s, BRun c cs fs n s → n ≤ 6 * c.nodes.length + 1 ∧ (∀ e, s ≠ .error e) ∧ ((∃ rg, s = .done rg) ∨ ∃ s', BStep c cs fs s s') := by
    intro n s hr
    obtain ⟨hi, hm⟩ := bRun_inv h hr
    refine ⟨by omega, ?_, ?_⟩
    · rintro e rfl; exact hi
    · rcases bStep_total (g := c) (cs := cs) (fs := fs) s with h2 | ⟨e, rfl⟩ | h2
      exacts [.inl h2, absurd hi (by simp [BInv]), .inr h2]
  refine ⟨h1, ?_⟩
  by_contra hno
  push Not at hno
  have hall : ∀ n, ∃ s, BRun c cs fs n s := by
    intro n
    induction n with
    | zero => exact ⟨_, .init⟩
    | succ n ih =>
      obtain ⟨s, hs⟩ := ih
      rcases (h1 n s hs).2.2 with ⟨rg, rfl⟩ | ⟨s', hs'⟩
      · exact absurd hs (hno n rg)
      · exact ⟨s', .step hs hs'⟩
  obtain ⟨s, hs⟩ := hall (6 * c.nodes.length + 2)
  have := (h1 _ s hs).1
  omega

/-- **C59**, the other case: if all positions of a (non-empty) cluster coincide, the method raises: an error about the shape of an empty array if there is only one position, else an `AssertionError`. -/
theorem C59_coinciding_positions_raise {cs : CoordSys d} (hb : ProperBox cs) {fs : ℝ} {positions posUnique : List (Vec d)} (hu : IsUniqueList positions posUnique)
    {c : NxGraph (Vec d) ℝ} (hc : c ∈ createClusters cs fs posUnique) (hcoin : ∀ a ∈ c.nodes, ∀ b ∈ c.nodes, cs.distance a b = 0) {n : ℕ} {s : BState d}
    (hr : BRun c cs fs n s) : (∀ rg, s ≠ .done rg) ∧ n ≤ 2 ∧
      ∀ e, s = .error e → e = if c.nodes.length = 1 then (if d = 1 then Err.type else Err.value) else Err.assertion := by
  obtain ⟨hg, hconn, hedge, -⟩ := C54_cluster_graph hb fs hu hc
  obtain ⟨hne, hnd, -⟩ := (C51_clusters_partition cs fs hu).2 c hc
  have hus : ∀ x, usableNeighbors c cs x = [] := fun x => List.eq_nil_iff_forall_not_mem.2 fun y hy => by
    obtain ⟨h1, h2⟩ := (mem_usable hb).1 hy
    have := goodGraph_edge hg h1
    have := hcoin x this.1 y this.2.1
    linarith
  have key : ∀ n s, BRun c cs fs n s → (n = 0 ∧ s = .init) ∨ (n = 1 ∧ ∃ x ∈ c.nodes, s = .loop (NxGraph.empty.addNode x) [] none x none false) ∨
      (n = 2 ∧ s = .error (if c.nodes.length = 1 then (if d = 1 then Err.type else Err.value) else Err.assertion)) := by
    intro n s hr
    induction hr with
    | init => exact .inl ⟨rfl, rfl⟩
    | step _ hst ih =>
      rcases ih with ⟨rfl, rfl⟩ | ⟨rfl, x, hx, rfl⟩ | ⟨rfl, rfl⟩
      · right; left
        refine ⟨rfl, ?_⟩
        have hnd : ¬ c.isDominatingSet (fun x => x ∈ (NxGraph.empty : NxGraph (Vec d) Unit).nodes) := by
          intro h
          obtain ⟨x, hx⟩ := List.exists_mem_of_ne_nil _ hne
          obtain ⟨y, -, hy⟩ := h x hx (by simp [NxGraph.empty])
          simp [NxGraph.empty] at hy
        unfold BState.init at hst
        cases hst with
        | finish hd => exact absurd hd hnd
        | endNode _ hn => have := (mem_newEndNodes.1 hn).1; simp [NxGraph.empty] at this
        | newStart _ _ hc => exact ⟨_, (mem_startCandidates.1 hc).1, rfl⟩
        | noStart _ _ hc => exact absurd hc (startCandidates_ne hnd)
      · right; right
        refine ⟨rfl, ?_⟩
        cases hst with
        | next hr =>
          cases hr with
          | noNeighbors h1 =>
            have h2 : c.nodes.length = 1 := by
              have : ∀ y ∈ c.nodes, y = x := by
                intro y hy
                by_contra hxy
                have : c.hasEdge x y := by
                  rcases Relation.ReflTransGen.cases_head (hconn x hx y hy) with h3 | ⟨z, h3, -⟩
                  · exact absurd h3.symm hxy
                  · have : z ∈ c.neighbors x := mem_neighbors.2 h3
                    rw [h1] at this; simp at this
                have : y ∈ c.neighbors x := mem_neighbors.2 this
                rw [h1] at this; simp at this
              cases hcn : c.nodes with
              | nil => exact absurd hcn hne
              | cons a l =>
                cases l with
                | nil => rfl
                | cons b l =>
                  rw [hcn] at this hnd
                  have h4 := this a (by simp)
                  have h5 := this b (by simp)
                  subst h4; subst h5
                  simp at hnd
            simp [afterNext, h2]
          | allCoincide _ _ h => exact absurd rfl h
          | nothing h1 _ _ =>
            have h2 : c.nodes.length ≠ 1 := by
              intro h2
              obtain ⟨a, ha⟩ := List.length_eq_one_iff.1 h2
              obtain ⟨y, hy⟩ := List.exists_mem_of_ne_nil _ h1
              have h3 := goodGraph_edge hg (mem_neighbors.1 hy)
              rw [ha] at h3
              simp at h3
              exact h3.2.2 (h3.1.trans h3.2.1.symm)
            simp [afterNext, h2]
          | chosen hm _ =>
            have := List.mem_of_mem_filter hm
            rw [hus] at this
            simp at this
      · cases hst
  rcases key n s hr with ⟨rfl, rfl⟩ | ⟨rfl, x, hx, rfl⟩ | ⟨rfl, rfl⟩
  · exact ⟨fun rg h => (by cases h), by omega, fun e h => (by cases h)⟩
  · exact ⟨fun rg h => (by cases h), by omega, fun e h => (by cases h)⟩
  · exact ⟨fun rg h => (by cases h), by omega, fun e h => (by cases h; rfl)⟩

theorem dot_unit_pos {x y : Vec d} {a b : ℝ} (ha : 0 ≤ a) (hb : 0 ≤ b) (h : 0 < dot (fun i => x i / a) (fun i => y i / b)) : 0 < dot x y := by
  have h1 : dot (fun i => x i / a) (fun i => y i / b) = dot x y / (a * b) := by
    unfold dot
    rw [Finset.sum_div]
    exact Finset.sum_congr rfl fun i _ => by rw [div_mul_div_comm]
  rw [h1] at h
  by_contra hle
  push Not at hle
  exact absurd h (not_lt.2 (div_nonpos_of_nonpos_of_nonneg hle (mul_nonneg ha hb)))

theorem dot_comm (x y : Vec d) : dot x y = dot y x := Finset.sum_congr rfl fun _ _ => mul_comm _ _

/-- **C60.**  The ballistic method never turns back: if it goes from `x` to `y` and then to `z` within one search for a loop, the angle between the two steps is less than 90 degrees; and
when it continues from an end node, the first step makes an angle of more than 90 degrees with the edge that is already there. -/
theorem C60_no_turning_back {g : NxGraph (Vec d) ℝ} {cs : CoordSys d} {fs : ℝ} :
    (∀ {rg ev pend x p o rg' ev' y p' o' rg'' ev'' z p'' o''},
      BStep g cs fs (.loop rg ev pend x p o) (.loop rg' ev' pend y p' o') → BStep g cs fs (.loop rg' ev' pend y p' o') (.loop rg'' ev'' pend z p'' o'') →
      0 < dot (cs.connectingVector x y) (cs.connectingVector y z)) ∧
    (∀ {rg ev x rg' ev' pend p o rg'' ev'' z p'' o''} (y : Vec d),
      BStep g cs fs (.outer rg ev) (.loop rg' ev' (some x) x p o) → BStep g cs fs (.loop rg' ev' (some x) x p o) (.loop rg'' ev'' pend z p'' o'') →
      rg.hasEdge x y → dot (cs.connectingVector x y) (cs.connectingVector x z) < 0) := by
  have hn : ∀ v : Vec d, 0 ≤ CoordSys.norm v := fun v => Real.sqrt_nonneg _
  have hstep : ∀ {rg ev pend x p o rg' ev' pend' y p' o'}, BStep g cs fs (.loop rg ev pend x p o) (.loop rg' ev' pend' y p' o') →
      p' = some (unitVec cs x y) ∧ 0 < directionAngle cs x p y := by
    intro rg ev pend x p o rg' ev' pend' y p' o' h
    generalize hs : BState.loop rg' ev' pend' y p' o' = s at h
    cases h with
    | next hr =>
      cases hr with
      | noNeighbors => cases hs
      | allCoincide => cases hs
      | nothing => cases p <;> cases hs
      | @chosen m hm _ =>
        simp only [afterNext] at hs
        unfold candidateNodes at hm
        rw [List.mem_filter, decide_eq_true_eq] at hm
        split_ifs at hs
        · cases hs
        · cases hs; exact ⟨rfl, hm.2⟩
        · cases hs; exact ⟨rfl, hm.2⟩
  constructor
  · intro rg ev pend x p o rg' ev' y p' o' rg'' ev'' z p'' o'' h1 h2
    obtain ⟨rfl, -⟩ := hstep h1
    obtain ⟨-, h3⟩ := hstep h2
    simp only [directionAngle] at h3
    rw [dot_comm] at h3
    exact dot_unit_pos (hn _) (hn _) h3
  · intro rg ev x rg' ev' pend p o rg'' ev'' z p'' o'' y h1 h2 hxy
    obtain ⟨-, h3⟩ := hstep h2
    cases h1 with
    | @endNode _ _ _ nbr _ hnode hnbr =>
      have hy : nbr = y := by
        have hdeg := (mem_newEndNodes.1 hnode).2.1
        obtain ⟨w, hw⟩ := List.length_eq_one_iff.1 hdeg
        have h4 := mem_neighbors.2 hxy
        rw [hw] at h4 hnbr
        simp at h4 hnbr
        rw [h4, hnbr]
      subst hy
      simp only [directionAngle] at h3
      have h4 : 0 < dot (fun j => (fun i => -(cs.connectingVector x nbr i)) j / CoordSys.norm (cs.connectingVector x nbr)) (unitVec cs x z) := by
        rw [dot_comm]
        convert h3 using 2
        funext i
        simp only [unitVec]
        ring
      have h5 := dot_unit_pos (hn _) (hn _) h4
      have h6 : dot (fun i => -(cs.connectingVector x nbr i)) (cs.connectingVector x z) = - dot (cs.connectingVector x nbr) (cs.connectingVector x z) := by
        unfold dot
        rw [← Finset.sum_neg_distrib]
        exact Finset.sum_congr rfl fun i _ => by ring
      rw [h6] at h5
      linarith

theorem edgeAttr_eq {g : NxGraph (Vec d) ℝ} {cs : CoordSys d} (hb : ProperBox cs) (hattr : ∀ e ∈ g.edges, e.2.2 = cs.distance e.1 e.2.1) {x y : Vec d} (h : g.hasEdge x y) :
    g.edgeAttr x y = cs.distance x y := by
  unfold edgeAttr
  obtain ⟨e, he, hj⟩ := h
  cases hf : g.edges.find? (fun e => decide (NxGraph.joins e x y)) with
  | none => have := List.find?_eq_none.1 hf e he; simp [hj] at this
  | some f =>
    have h1 := List.mem_of_find?_eq_some hf
    have h2 : joins f x y := by have := List.find?_some hf; simpa using this
    simp only
    rw [hattr f h1]
    rcases h2 with ⟨h3, h4⟩ | ⟨h3, h4⟩
    · rw [h3, h4]
    · rw [h3, h4]; exact (C03_distance_metric cs hb y x y).2.1

theorem dot_unitVec_self {cs : CoordSys d} (hb : ProperBox cs) {a b : Vec d} (h : 0 < cs.distance a b) : dot (unitVec cs a b) (unitVec cs a b) = 1 := by
  rw [← norm_connectingVector hb] at h
  unfold dot unitVec
  have h1 : ∑ i, cs.connectingVector a b i / CoordSys.norm (cs.connectingVector a b) * (cs.connectingVector a b i / CoordSys.norm (cs.connectingVector a b)) =
      (∑ i, cs.connectingVector a b i ^ 2) / CoordSys.norm (cs.connectingVector a b) ^ 2 := by
    rw [Finset.sum_div]
    exact Finset.sum_congr rfl fun i _ => by ring
  rw [h1, div_eq_one_iff_eq (by positivity)]
  unfold CoordSys.norm
  rw [Real.sq_sqrt (Finset.sum_nonneg fun i _ => sq_nonneg _)]

/-- The chosen position is at least a thousandth of `feature_size` away from the current one, unless all positions that lie ahead are closer than that. -/
theorem C60_avoids_close_positions {g : NxGraph (Vec d) ℝ} {cs : CoordSys d} {fs : ℝ} (hb : ProperBox cs) (hfs : 0 < fs) (hattr : ∀ e ∈ g.edges, e.2.2 = cs.distance e.1 e.2.1)
    {rg : NxGraph (Vec d) Unit} {node n dir : Vec d} {prev : Option (Vec d)} (h : NextPos g cs fs rg node prev (.ok (some (n, dir)))) :
    g.hasEdge node n ∧ 0 < cs.distance node n ∧
    (cs.distance node n < fs / 1000 → ∀ m, g.hasEdge node m → (∀ p, prev = some p → 0 < dot (cs.connectingVector node m) p) → cs.distance node m < fs / 1000) := by
  cases h with
  | chosen hn hmax =>
    obtain ⟨h1, h2, h3⟩ := (mem_candidate hb).1 hn
    refine ⟨h1, h2, fun hclose m hm hahead => ?_⟩
    by_contra hfar
    push Not at hfar
    have hmpos : 0 < cs.distance node m := lt_of_lt_of_le (by positivity) hfar
    have hmc : m ∈ candidateNodes g cs node prev := (mem_candidate hb).2 ⟨hm, hmpos, by
      cases prev with
      | none => simp [directionAngle]
      | some p =>
        simp only [directionAngle]
        have : dot (unitVec cs node m) p = dot (cs.connectingVector node m) p / CoordSys.norm (cs.connectingVector node m) := by
          unfold dot unitVec
          rw [Finset.sum_div]
          exact Finset.sum_congr rfl fun i _ => by ring
        rw [this]
        exact div_pos (hahead p rfl) (by rw [norm_connectingVector hb]; exact hmpos)⟩
    have hd : ∀ z, g.hasEdge node z → distanceNormalized g fs node z = cs.distance node z / fs := fun z hz => by
      unfold distanceNormalized; rw [edgeAttr_eq hb hattr hz]
    have h4 := hmax m hmc
    have hzero : ballisticWeight g cs fs rg node prev n = 0 := by
      unfold ballisticWeight
      have hlt : cs.distance node n / fs < 1e-3 := by rw [div_lt_iff₀ hfs]; norm_num; linarith
      rw [hd n h1, if_pos hlt]
      ring
    have hposw : 0 < ballisticWeight g cs fs rg node prev m := by
      have hk := ((mem_candidate hb).1 hmc).2.2
      have hs : 1 ≤ ((candidateNodes g cs node prev).map fun k => max (dot (unitVec cs node m) (unitVec cs node k)) 0).sum := by
        have hle := List.single_le_sum (l := (candidateNodes g cs node prev).map fun k => max (dot (unitVec cs node m) (unitVec cs node k)) 0)
          (fun x hx => by obtain ⟨k, -, rfl⟩ := List.mem_map.1 hx; exact le_max_right _ _)
          (max (dot (unitVec cs node m) (unitVec cs node m)) 0) (List.mem_map.2 ⟨m, hmc, rfl⟩)
        rw [dot_unitVec_self hb hmpos] at hle
        exact le_trans (le_max_left _ _) hle
      unfold ballisticWeight
      have hge : ¬ cs.distance node m / fs < 1e-3 := by rw [div_lt_iff₀ hfs]; norm_num; linarith
      rw [hd m hm, if_neg hge]
      have hq : 0 ≤ cs.distance node m / fs := by positivity
      have e1 : (0 : ℝ) < 1 + 0.2 * (if m ∈ rg.nodes then 1 else 0) := by split_ifs <;> norm_num
      have e2 : (0 : ℝ) < 1 + 1 * (if m ∈ rg.nodes ∧ rg.degree m > 2 then 1 else 0) := by split_ifs <;> norm_num
      have e3 : (0 : ℝ) < 1 + 1 * (if m ∈ rg.nodes ∧ rg.degree m = 1 then 1 else 0) := by split_ifs <;> norm_num
      have e4 : (0 : ℝ) < 1 + 5 * (cs.distance node m / fs) := by linarith
      have e5 : (0 : ℝ) < 1 - 0 := by norm_num
      have hs' := lt_of_lt_of_le one_pos hs
      exact mul_pos (div_pos (mul_pos (mul_pos (mul_pos (mul_pos hs' hk) e1) e2) e3) e4) e5
    linarith

/-! ## Example: three positions on a line -/

/-- The cluster of `1`, `1.5` and `2` in the interval `[0, 10]`, with `feature_size = 0.6`. -/
def exBox : CoordSys 1 := ⟨fun _ => 0, fun _ => 10, false⟩
def exG : NxGraph (Vec 1) ℝ := createGraph exBox 0.6 [![1], ![1.5], ![2]]

theorem exBox_proper : ProperBox exBox := fun _ => by norm_num [exBox]
theorem ex_nodup : [![1], ![1.5], (![2] : Vec 1)].Nodup := by
  simp only [List.nodup_cons, List.mem_cons, List.not_mem_nil, or_false, not_false_eq_true, List.nodup_nil, and_true]
  constructor
  · rintro (h | h) <;> · have := congrFun h 0; norm_num at this
  · rintro h; have := congrFun h 0; norm_num at this
theorem ex_dist (a b : ℝ) : exBox.distance ![a] ![b] = |a - b| := by
  rw [C03_distance_nonperiodic _ rfl]
  simp only [eucl, Finset.univ_unique, Fin.default_eq_zero, Finset.sum_singleton, Matrix.cons_val_fin_one]
  exact Real.sqrt_sq_eq_abs _
theorem ex_edge12 : exG.hasEdge ![1] ![1.5] := (hasEdge_createGraph exBox_proper ex_nodup).2
  ⟨by simp, by simp, fun h => by have := congrFun h 0; norm_num at this, by rw [ex_dist]; norm_num [abs_le]⟩
theorem ex_edge23 : exG.hasEdge ![1.5] ![2] := (hasEdge_createGraph exBox_proper ex_nodup).2
  ⟨by simp, by simp, fun h => by have := congrFun h 0; norm_num at this, by rw [ex_dist]; norm_num [abs_le]⟩

theorem nextPos_chosen {g : NxGraph (Vec d) ℝ} {cs : CoordSys d} {fs : ℝ} {rg : NxGraph (Vec d) Unit} {node : Vec d} {prev : Option (Vec d)}
    (h : candidateNodes g cs node prev ≠ []) : ∃ n ∈ candidateNodes g cs node prev, NextPos g cs fs rg node prev (.ok (some (n, unitVec cs node n))) := by
  have hfin : (candidateNodes g cs node prev).toFinset.Nonempty := by
    obtain ⟨x, hx⟩ := List.exists_mem_of_ne_nil _ h
    exact ⟨x, List.mem_toFinset.2 hx⟩
  obtain ⟨n, hn, hmax⟩ := Finset.exists_max_image _ (ballisticWeight g cs fs rg node prev) hfin
  exact ⟨n, List.mem_toFinset.1 hn, .chosen (List.mem_toFinset.1 hn) fun m hm => hmax m (List.mem_toFinset.2 hm)⟩

/-- The hypotheses of `C60_no_turning_back` are met: the search goes from `1` to `1.5`, and from there one step further. -/
example : ∃ rg ev pend p o rg' ev' p' o' rg'' ev'' z p'' o'',
    BStep exG exBox 0.6 (.loop rg ev pend ![1] p o) (.loop rg' ev' pend ![1.5] p' o') ∧ BStep exG exBox 0.6 (.loop rg' ev' pend ![1.5] p' o') (.loop rg'' ev'' pend z p'' o'') := by
  have hc1 : candidateNodes exG exBox ![1] none ≠ [] :=
    List.ne_nil_of_mem ((mem_candidate exBox_proper).2 ⟨ex_edge12, by rw [ex_dist]; norm_num, by simp [directionAngle]⟩)
  obtain ⟨n, hn, hnp⟩ := nextPos_chosen (fs := 0.6) (rg := NxGraph.empty.addNode ![1]) hc1
  have hn' : n = ![1.5] := by
    obtain ⟨h1, -, -⟩ := (mem_candidate exBox_proper).1 hn
    obtain ⟨-, h2, h3, h4⟩ := (hasEdge_createGraph exBox_proper ex_nodup).1 h1
    simp only [List.mem_cons, List.not_mem_nil, or_false] at h2
    rcases h2 with rfl | rfl | rfl
    · exact absurd rfl h3
    · rfl
    · rw [ex_dist] at h4; norm_num [abs_le] at h4
  subst hn'
  have hs1 := BStep.next (ev := []) (pending := none) (onGraph := false) hnp
  have hc2 : candidateNodes exG exBox ![1.5] (some (unitVec exBox ![1] ![1.5])) ≠ [] := by
    refine List.ne_nil_of_mem (a := ![2]) ((mem_candidate exBox_proper).2 ⟨ex_edge23, by rw [ex_dist]; norm_num [abs_of_neg], ?_⟩)
    simp only [directionAngle, dot, unitVec, norm_connectingVector exBox_proper, ex_dist]
    simp only [CoordSys.connectingVector, exBox, Bool.false_eq_true, if_false, Finset.univ_unique, Fin.default_eq_zero, Finset.sum_singleton, Matrix.cons_val_fin_one]
    norm_num [abs_of_neg]
  obtain ⟨m, -, hmp⟩ := nextPos_chosen (fs := 0.6) (rg := (NxGraph.empty.addNode ![1]).addEdge ![1] ![1.5] ()) hc2
  have hs2 := BStep.next (ev := []) (pending := none) (onGraph := false) hmp
  have hnm : (![1.5] : Vec 1) ∉ (NxGraph.empty.addNode ![1] : NxGraph (Vec 1) Unit).nodes := fun h => by
    rcases mem_addNode.1 h with h | h
    · simp [NxGraph.empty] at h
    · have := congrFun h 0; norm_num at this
  simp only [afterNext, hnm, if_false] at hs1
  simp only [afterNext, Bool.false_eq_true, if_false] at hs2
  split_ifs at hs2
  · exact ⟨_, _, _, _, _, _, _, _, _, _, _, _, _, _, hs1, hs2⟩
  · exact ⟨_, _, _, _, _, _, _, _, _, _, _, _, _, _, hs1, hs2⟩

/-- The hypotheses of `C59_ballistic_terminates` are met by the cluster which contains `1`, `1.5` and `2`, so that there is an execution which returns (as needed for C58). -/
example : ∃ c ∈ createClusters exBox 0.6 [![1], ![1.5], ![2]], ∃ n rg, BRun c exBox 0.6 n (.done rg) := by
  have hu : IsUniqueList [![1], ![1.5], (![2] : Vec 1)] [![1], ![1.5], ![2]] := ⟨ex_nodup, fun _ => Iff.rfl⟩
  have hch : Chain exBox 0.6 [![1], ![1.5], ![2]] ![1] ![1.5] := .single ⟨by simp, by simp, by rw [ex_dist]; norm_num [abs_le]⟩
  obtain ⟨c, hc, h1, h2⟩ := (C52_clusters_are_chains exBox_proper 0.6 hu ![1] ![1.5]).2 ⟨by simp, by simp, hch⟩
  exact ⟨c, hc, (C59_ballistic_terminates exBox_proper hu hc ⟨_, h1, _, h2, by rw [ex_dist]; norm_num⟩).2⟩

end NF
