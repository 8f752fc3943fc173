import Verif.Model.Ballistic
import Verif.Props.Cluster

/-! # Lemmas for the ballistic line evaluation -/

noncomputable section
open Classical

namespace NF
open Spec NxGraph
variable {d : ℕ}

theorem norm_connectingVector {cs : CoordSys d} (hb : ProperBox cs) (a b : Vec d) : CoordSys.norm (cs.connectingVector a b) = cs.distance a b := by
  obtain ⟨v, -, rfl, -, h, -⟩ := C05_connecting_vector cs hb a b
  exact h

theorem mem_usable {g : NxGraph (Vec d) ℝ} {cs : CoordSys d} (hb : ProperBox cs) {node n : Vec d} :
    n ∈ usableNeighbors g cs node ↔ g.hasEdge node n ∧ 0 < cs.distance node n := by
  unfold usableNeighbors
  rw [List.mem_filter, mem_neighbors, decide_eq_true_eq, norm_connectingVector hb]

theorem mem_candidate {g : NxGraph (Vec d) ℝ} {cs : CoordSys d} (hb : ProperBox cs) {node n : Vec d} {prev : Option (Vec d)} :
    n ∈ candidateNodes g cs node prev ↔ g.hasEdge node n ∧ 0 < cs.distance node n ∧ 0 < directionAngle cs node prev n := by
  unfold candidateNodes
  rw [List.mem_filter, mem_usable hb, decide_eq_true_eq, and_assoc]

/-- In a cluster with two positions at positive distance, every position has a neighbour at positive distance. -/
theorem exists_usable {g : NxGraph (Vec d) ℝ} {cs : CoordSys d} (hb : ProperBox cs) {fs : ℝ} (hc : Connected g)
    (he : ∀ x y, g.hasEdge x y ↔ x ∈ g.nodes ∧ y ∈ g.nodes ∧ x ≠ y ∧ cs.distance x y ≤ fs)
    (hpos : ∃ a ∈ g.nodes, ∃ b ∈ g.nodes, 0 < cs.distance a b) {x : Vec d} (hx : x ∈ g.nodes) :
    ∃ n, g.hasEdge x n ∧ 0 < cs.distance x n := by
  by_contra hno
  push Not at hno
  have hm := C03_distance_metric cs hb
  have key : ∀ y, Reach g x y → cs.distance x y ≤ 0 := by
    intro y hy
    induction hy with
    | refl => exact (((hm x x x).2.2.2).2 (by unfold SamePoint; split; exacts [⟨0, by funext i; simp [shift]⟩, rfl])).le
    | @tail b c _ h ih =>
      by_cases hxc : x = c
      · subst hxc
        exact (((hm x x x).2.2.2).2 (by unfold SamePoint; split; exacts [⟨0, by funext i; simp [shift]⟩, rfl])).le
      · have h1 := (he b c).1 h
        have h2 := (hm x b c).2.2.1
        exact hno c ((he x c).2 ⟨hx, h1.2.1, hxc, by linarith [h1.2.2.2]⟩)
  obtain ⟨a, ha, b, hb', hab⟩ := hpos
  have h1 := key a (hc x hx a ha)
  have h2 := key b (hc x hx b hb')
  have h3 := (hm a x b).2.2.1
  have h4 := (hm a x b).2.1
  linarith

/-! ## Counting -/

section
variable {V : Type}

/-- The number of nodes that are not in the list. -/
def missing (nodes s : List V) : ℕ := (nodes.filter fun x => decide (x ∉ s)).length

theorem missing_le_length (nodes s : List V) : missing nodes s ≤ nodes.length := List.length_filter_le _ _

theorem missing_mono {nodes s t : List V} (h : ∀ x ∈ s, x ∈ t) : missing nodes t ≤ missing nodes s := by
  unfold missing
  rw [← List.countP_eq_length_filter, ← List.countP_eq_length_filter]
  exact List.countP_mono_left fun x _ hx => by simp only [decide_eq_true_eq] at hx ⊢; exact fun hs => hx (h x hs)

theorem missing_lt {nodes s t : List V} (h : ∀ x ∈ s, x ∈ t) {y : V} (hy : y ∈ nodes) (hs : y ∉ s) (ht : y ∈ t) : missing nodes t < missing nodes s := by
  unfold missing
  rw [← List.countP_eq_length_filter, ← List.countP_eq_length_filter]
  induction nodes with
  | nil => simp at hy
  | cons a l ih =>
    rw [List.countP_cons, List.countP_cons]
    have hle : l.countP (fun x => decide (x ∉ t)) ≤ l.countP (fun x => decide (x ∉ s)) :=
      List.countP_mono_left fun x _ hx => by simp only [decide_eq_true_eq] at hx ⊢; exact fun hs => hx (h x hs)
    rcases List.mem_cons.1 hy with rfl | hy
    · simp only [decide_eq_true_eq, hs, ht, not_true_eq_false, not_false_eq_true, if_true, if_false]
      omega
    · have := ih hy
      have hle1 : (if decide (a ∉ t) = true then 1 else 0) ≤ (if decide (a ∉ s) = true then 1 else 0) := by
        by_cases h1 : a ∈ t
        · simp [h1]
        · have : a ∉ s := fun h2 => h1 (h a h2)
          simp [h1, this]
      omega
end

/-! ## Invariant and measure -/

/-- What holds for `result_graph` at every point. -/
structure RgInv (g : NxGraph (Vec d) ℝ) (cs : CoordSys d) (rg : NxGraph (Vec d) Unit) : Prop where
  good : GoodGraph rg
  sub : SubgraphOf rg g
  pos : ∀ x y, rg.hasEdge x y → 0 < cs.distance x y

/-- What holds at every point. -/
def BInv (g : NxGraph (Vec d) ℝ) (cs : CoordSys d) : BState d → Prop
  | .outer rg _ => RgInv g cs rg
  | .loop rg _ pending node _ _ => RgInv g cs rg ∧ node ∈ rg.nodes ∧ ∀ s, pending = some s → s ∈ g.nodes
  | .done rg => RgInv g cs rg ∧ g.isDominatingSet (fun x => x ∈ rg.nodes)
  | .error _ => False

/-- It decreases with every step. -/
def bMeasure (g : NxGraph (Vec d) ℝ) : BState d → ℕ
  | .outer rg ev => 3 * missing g.nodes rg.nodes + 3 * missing g.nodes ev + 1
  | .loop rg ev pending _ _ onGraph => 3 * missing g.nodes rg.nodes + 3 * missing g.nodes (ev ++ pending.toList) + (if onGraph then 2 else 3)
  | .done _ => 0
  | .error _ => 0

theorem rgInv_addNode {g : NxGraph (Vec d) ℝ} {cs : CoordSys d} {rg : NxGraph (Vec d) Unit} (h : RgInv g cs rg) {x : Vec d} (hx : x ∈ g.nodes) :
    RgInv g cs (rg.addNode x) where
  good := goodGraph_addNode h.good x
  sub := ⟨fun y hy => (mem_addNode.1 hy).elim (h.sub.1 y) (fun e => e ▸ hx), fun a b hab => h.sub.2 a b (hasEdge_addNode.1 hab)⟩
  pos a b hab := h.pos a b (hasEdge_addNode.1 hab)

theorem rgInv_addEdge {g : NxGraph (Vec d) ℝ} (hg : GoodGraph g) {cs : CoordSys d} (hb : ProperBox cs) {rg : NxGraph (Vec d) Unit} (h : RgInv g cs rg) {x y : Vec d}
    (hxy : g.hasEdge x y) (hp : 0 < cs.distance x y) : RgInv g cs (rg.addEdge x y ()) := by
  have hm := goodGraph_edge hg hxy
  refine ⟨goodGraph_addEdge h.good hm.2.2 () _, ⟨fun z hz => ?_, fun a b hab => ?_⟩, fun a b hab => ?_⟩
  · rcases mem_addEdge.1 hz with hz | rfl | rfl
    exacts [h.sub.1 z hz, hm.1, hm.2.1]
  · rcases hasEdge_addEdge.1 hab with hab | ⟨rfl, rfl⟩ | ⟨rfl, rfl⟩
    exacts [h.sub.2 a b hab, hxy, hasEdge_symm.1 hxy]
  · rcases hasEdge_addEdge.1 hab with hab | ⟨rfl, rfl⟩ | ⟨rfl, rfl⟩
    · exact h.pos a b hab
    · exact hp
    · rw [(C03_distance_metric cs hb a b a).2.1]; exact hp

/-- The assumptions on the graph: what holds for a cluster in which two positions are at a positive distance. -/
structure LineCluster (g : NxGraph (Vec d) ℝ) (cs : CoordSys d) (fs : ℝ) : Prop where
  box : ProperBox cs
  good : GoodGraph g
  conn : Connected g
  edge : ∀ x y, g.hasEdge x y ↔ x ∈ g.nodes ∧ y ∈ g.nodes ∧ x ≠ y ∧ cs.distance x y ≤ fs
  attr : ∀ e ∈ g.edges, e.2.2 = cs.distance e.1 e.2.1
  pos : ∃ a ∈ g.nodes, ∃ b ∈ g.nodes, 0 < cs.distance a b

theorem mem_startCandidates {g : NxGraph (Vec d) ℝ} {rg : NxGraph (Vec d) Unit} {x : Vec d} :
    x ∈ startCandidates g rg ↔ x ∈ g.nodes ∧ ∀ y, g.hasEdge x y → x ∉ rg.nodes ∧ y ∉ rg.nodes := by
  unfold startCandidates
  rw [List.mem_filter, decide_eq_true_eq]
  refine and_congr_right fun hx => ⟨fun h y hxy => ?_, fun h => ?_⟩
  · obtain ⟨e, he, hj⟩ := hxy
    by_contra hno
    apply h
    refine ⟨e, he, ?_, ?_⟩
    · rcases hj with ⟨rfl, rfl⟩ | ⟨rfl, rfl⟩ <;> tauto
    · rcases hj with ⟨rfl, rfl⟩ | ⟨rfl, rfl⟩ <;> simp
  · rintro ⟨e, he, h1, h2⟩
    rcases h2 with rfl | rfl
    · have := h e.2.1 ⟨e, he, .inl ⟨rfl, rfl⟩⟩; tauto
    · have := h e.1 ⟨e, he, .inr ⟨rfl, rfl⟩⟩; tauto

theorem mem_newEndNodes {rg : NxGraph (Vec d) Unit} {ev : List (Vec d)} {x : Vec d} : x ∈ newEndNodes rg ev ↔ x ∈ rg.nodes ∧ rg.degree x = 1 ∧ x ∉ ev := by
  unfold newEndNodes
  rw [List.mem_filter, decide_eq_true_eq]

theorem startCandidates_spec {g : NxGraph (Vec d) ℝ} {cs : CoordSys d} {fs : ℝ} (h : LineCluster g cs fs) {rg : NxGraph (Vec d) Unit} {x : Vec d}
    (hx : x ∈ startCandidates g rg) : x ∈ g.nodes ∧ x ∉ rg.nodes := by
  obtain ⟨h1, h2⟩ := mem_startCandidates.1 hx
  obtain ⟨n, hn, -⟩ := exists_usable h.box h.conn h.edge h.pos h1
  exact ⟨h1, (h2 n hn).1⟩

theorem startCandidates_ne {g : NxGraph (Vec d) ℝ} {rg : NxGraph (Vec d) Unit} (h : ¬ g.isDominatingSet (fun x => x ∈ rg.nodes)) : startCandidates g rg ≠ [] := by
  unfold isDominatingSet at h
  push Not at h
  obtain ⟨x, hx, h1, h2⟩ := h
  exact List.ne_nil_of_mem (mem_startCandidates.2 ⟨hx, fun y hy => ⟨h1, h2 y (mem_neighbors.2 hy)⟩⟩)

theorem nextPos_spec {g : NxGraph (Vec d) ℝ} {cs : CoordSys d} {fs : ℝ} (h : LineCluster g cs fs) {rg : NxGraph (Vec d) Unit} {node : Vec d} (hn : node ∈ g.nodes)
    {prev : Option (Vec d)} {r} (hr : NextPos g cs fs rg node prev r) :
    (r = .ok none ∧ prev ≠ none) ∨ ∃ n, r = .ok (some (n, unitVec cs node n)) ∧ n ∈ candidateNodes g cs node prev := by
  obtain ⟨n, hn1, hn2⟩ := exists_usable h.box h.conn h.edge h.pos hn
  have hmem := (mem_usable (g := g) h.box).2 ⟨hn1, hn2⟩
  have hne := List.ne_nil_of_mem hmem
  have hnb : g.neighbors node ≠ [] := List.ne_nil_of_mem (mem_neighbors.2 hn1)
  cases hr with
  | noNeighbors h1 => exact absurd h1 hnb
  | allCoincide _ h1 => exact absurd h1 hne
  | nothing _ _ h1 =>
    left
    refine ⟨rfl, ?_⟩
    rintro rfl
    have := (mem_candidate (g := g) h.box (prev := none)).2 ⟨hn1, hn2, by simp [directionAngle]⟩
    rw [h1] at this
    simp at this
  | @chosen m h1 _ => exact .inr ⟨m, rfl, h1⟩

theorem nextPos_total (g : NxGraph (Vec d) ℝ) (cs : CoordSys d) (fs : ℝ) (rg : NxGraph (Vec d) Unit) (node : Vec d) (prev : Option (Vec d)) :
    ∃ r, NextPos g cs fs rg node prev r := by
  by_cases h1 : g.neighbors node = []
  · exact ⟨_, .noNeighbors h1⟩
  by_cases h2 : usableNeighbors g cs node = [] ∧ prev ≠ none
  · exact ⟨_, .allCoincide h1 h2.1 h2.2⟩
  by_cases h3 : candidateNodes g cs node prev = []
  · exact ⟨_, .nothing h1 (by tauto) h3⟩
  · have hfin : (candidateNodes g cs node prev).toFinset.Nonempty := by
      obtain ⟨x, hx⟩ := List.exists_mem_of_ne_nil _ h3
      exact ⟨x, List.mem_toFinset.2 hx⟩
    obtain ⟨n, hn, hmax⟩ := Finset.exists_max_image _ (ballisticWeight g cs fs rg node prev) hfin
    exact ⟨_, .chosen (List.mem_toFinset.1 hn) fun m hm => hmax m (List.mem_toFinset.2 hm)⟩

theorem bStep_inv {g : NxGraph (Vec d) ℝ} {cs : CoordSys d} {fs : ℝ} (h : LineCluster g cs fs) {s s' : BState d} (hs : BInv g cs s) (hst : BStep g cs fs s s') :
    BInv g cs s' ∧ bMeasure g s' < bMeasure g s := by
  cases hst with
  | finish hd => exact ⟨⟨hs, hd⟩, by simp [bMeasure]⟩
  | @endNode rg ev node nbr hd hn hnbr =>
    have hs : RgInv g cs rg := hs
    obtain ⟨h1, -, h3⟩ := mem_newEndNodes.1 hn
    refine ⟨⟨rgInv_addNode hs (hs.sub.1 _ h1), mem_addNode.2 (.inr rfl), fun s h => by cases h; exact hs.sub.1 _ h1⟩, ?_⟩
    simp only [bMeasure, Option.toList_some, Bool.false_eq_true, if_false]
    have h4 : missing g.nodes (rg.addNode node).nodes ≤ missing g.nodes rg.nodes := missing_mono fun x hx => mem_addNode.2 (.inl hx)
    have h5 : missing g.nodes (ev ++ [node]) < missing g.nodes ev := missing_lt (fun x hx => by simp [hx]) (hs.sub.1 _ h1) h3 (by simp)
    omega
  | @newStart rg ev node hd hn hc =>
    have hs : RgInv g cs rg := hs
    obtain ⟨h1, h2⟩ := startCandidates_spec h hc
    refine ⟨⟨rgInv_addNode hs h1, mem_addNode.2 (.inr rfl), fun s h => by cases h⟩, ?_⟩
    simp only [bMeasure, Option.toList_none, List.append_nil, Bool.false_eq_true, if_false]
    have h4 : missing g.nodes (rg.addNode node).nodes < missing g.nodes rg.nodes :=
      missing_lt (fun x hx => mem_addNode.2 (.inl hx)) h1 h2 (mem_addNode.2 (.inr rfl))
    omega
  | noStart hd _ hc => exact absurd hc (startCandidates_ne hd)
  | @next rg ev pending node prev onGraph r hr =>
    obtain ⟨hs, hnode, hpend⟩ : RgInv g cs rg ∧ node ∈ rg.nodes ∧ ∀ s, pending = some s → s ∈ g.nodes := hs
    have hexit : ∀ ev', (∀ x ∈ ev, x ∈ ev') → BInv g cs (exitLoop rg ev' pending) ∧
        bMeasure g (exitLoop rg ev' pending) < bMeasure g (.loop rg ev pending node prev onGraph) := by
      intro ev' hev
      refine ⟨hs, ?_⟩
      unfold exitLoop
      simp only [bMeasure]
      have h4 : missing g.nodes (ev' ++ pending.toList) ≤ missing g.nodes (ev ++ pending.toList) :=
        missing_mono fun x hx => by rw [List.mem_append] at hx ⊢; exact hx.imp (hev x) id
      split_ifs <;> omega
    rcases nextPos_spec h (hs.sub.1 _ hnode) hr with ⟨rfl, hprev⟩ | ⟨n, rfl, hn⟩
    · obtain ⟨p, rfl⟩ := Option.ne_none_iff_exists'.1 hprev
      simp only [afterNext]
      exact hexit _ fun x hx => by simp [hx]
    · obtain ⟨h1, h2, h3⟩ := (mem_candidate h.box).1 hn
      simp only [afterNext]
      have hinv : ∀ p b, BInv g cs (.loop (rg.addEdge node n ()) ev pending n p b) := fun p b =>
        ⟨rgInv_addEdge h.good h.box hs h1 h2, mem_addEdge.2 (.inr (.inr rfl)), hpend⟩
      split_ifs with hrg ho
      · exact hexit _ fun x hx => hx
      · refine ⟨hinv _ _, ?_⟩
        simp only [bMeasure, ho, if_true, Bool.false_eq_true, if_false]
        have h4 : missing g.nodes (rg.addEdge node n ()).nodes ≤ missing g.nodes rg.nodes := missing_mono fun x hx => mem_addEdge.2 (.inl hx)
        omega
      · refine ⟨hinv _ _, ?_⟩
        simp only [bMeasure, Bool.false_eq_true, if_false]
        have h4 : missing g.nodes (rg.addEdge node n ()).nodes < missing g.nodes rg.nodes :=
          missing_lt (fun x hx => mem_addEdge.2 (.inl hx)) (goodGraph_edge h.good h1).2.1 hrg (mem_addEdge.2 (.inr (.inr rfl)))
        split_ifs <;> omega

theorem bInv_init (g : NxGraph (Vec d) ℝ) (cs : CoordSys d) : BInv g cs BState.init :=
  ⟨goodGraph_empty, ⟨by simp [NxGraph.empty], by rintro x y ⟨e, he, -⟩; simp [NxGraph.empty] at he⟩, by rintro x y ⟨e, he, -⟩; simp [NxGraph.empty] at he⟩

theorem bRun_inv {g : NxGraph (Vec d) ℝ} {cs : CoordSys d} {fs : ℝ} (h : LineCluster g cs fs) {n : ℕ} {s : BState d} (hr : BRun g cs fs n s) :
    BInv g cs s ∧ n + bMeasure g s ≤ 6 * g.nodes.length + 1 := by
  induction hr with
  | init =>
    refine ⟨bInv_init g cs, ?_⟩
    simp only [BState.init, bMeasure]
    have h1 := missing_le_length g.nodes (NxGraph.empty : NxGraph (Vec d) Unit).nodes
    have h2 := missing_le_length g.nodes ([] : List (Vec d))
    omega
  | step _ hst ih =>
    obtain ⟨h1, h2⟩ := bStep_inv h ih.1 hst
    exact ⟨h1, by omega⟩

theorem bStep_total {g : NxGraph (Vec d) ℝ} {cs : CoordSys d} {fs : ℝ} (s : BState d) : (∃ rg, s = .done rg) ∨ (∃ e, s = .error e) ∨ ∃ s', BStep g cs fs s s' := by
  cases s with
  | done rg => exact .inl ⟨rg, rfl⟩
  | error e => exact .inr (.inl ⟨e, rfl⟩)
  | outer rg ev =>
    refine .inr (.inr ?_)
    by_cases hd : g.isDominatingSet (fun x => x ∈ rg.nodes)
    · exact ⟨_, .finish hd⟩
    cases he : newEndNodes rg ev with
    | cons x l =>
      have hx : x ∈ newEndNodes rg ev := by rw [he]; simp
      obtain ⟨-, h2, -⟩ := mem_newEndNodes.1 hx
      cases hnb : rg.neighbors x with
      | nil => simp [degree, hnb] at h2
      | cons y l' => exact ⟨_, .endNode hd hx (nbr := y) (by rw [hnb]; rfl)⟩
    | nil =>
      obtain ⟨y, hy⟩ := List.exists_mem_of_ne_nil _ (startCandidates_ne hd)
      exact ⟨_, .newStart hd he hy⟩
  | loop rg ev pending node prev onGraph =>
    obtain ⟨r, hr⟩ := nextPos_total g cs fs rg node prev
    exact .inr (.inr ⟨_, .next hr⟩)

end NF
