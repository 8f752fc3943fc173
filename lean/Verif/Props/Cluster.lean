import Verif.Lemmas.Graph
import Verif.Props.Coord

/-! # C51 - C54: clusters -/

noncomputable section
open Classical

namespace NF
open Spec NxGraph
variable {d : ℕ}

theorem dist_comm' {cs : CoordSys d} (hb : ProperBox cs) (x y : Vec d) : cs.distance x y = cs.distance y x :=
  (C03_distance_metric cs hb x y x).2.1

theorem mem_clusterEdges {cs : CoordSys d} {fs : ℝ} {l : List (Vec d)} {e : Vec d × Vec d × ℝ} (h : e ∈ clusterEdges cs fs l) :
    e.1 ∈ l ∧ e.2.1 ∈ l ∧ e.2.2 = cs.distance e.1 e.2.1 ∧ e.2.2 ≤ fs ∧ (l.Nodup → e.1 ≠ e.2.1) := by
  induction l with
  | nil => simp [clusterEdges] at h
  | cons p l ih =>
    rw [clusterEdges, List.mem_append] at h
    rcases h with h | h
    · obtain ⟨q, hq, rfl⟩ := List.mem_map.1 h
      simp only [List.mem_filter, decide_eq_true_eq] at hq
      refine ⟨List.mem_cons_self, List.mem_cons_of_mem _ hq.1, rfl, hq.2, fun hn e => ?_⟩
      simp only at e
      exact (List.nodup_cons.1 hn).1 (e ▸ hq.1)
    · obtain ⟨h1, h2, h3, h4, h5⟩ := ih h
      exact ⟨List.mem_cons_of_mem _ h1, List.mem_cons_of_mem _ h2, h3, h4, fun hn => h5 (List.nodup_cons.1 hn).2⟩

theorem clusterEdges_complete {cs : CoordSys d} (hb : ProperBox cs) {fs : ℝ} {l : List (Vec d)} {x y : Vec d} (hx : x ∈ l) (hy : y ∈ l) (hne : x ≠ y)
    (hd : cs.distance x y ≤ fs) : ∃ e ∈ clusterEdges cs fs l, joins e x y := by
  induction l with
  | nil => simp at hx
  | cons p l ih =>
    rw [clusterEdges]
    rcases List.mem_cons.1 hx with rfl | hx'
    · rcases List.mem_cons.1 hy with rfl | hy'
      · exact absurd rfl hne
      · exact ⟨_, List.mem_append_left _ (List.mem_map.2 ⟨y, List.mem_filter.2 ⟨hy', by simpa using hd⟩, rfl⟩), .inl ⟨rfl, rfl⟩⟩
    · rcases List.mem_cons.1 hy with rfl | hy'
      · rw [dist_comm' hb] at hd
        exact ⟨_, List.mem_append_left _ (List.mem_map.2 ⟨x, List.mem_filter.2 ⟨hx', by simpa using hd⟩, rfl⟩), .inr ⟨rfl, rfl⟩⟩
      · obtain ⟨e, he, h⟩ := ih hx' hy'
        exact ⟨e, List.mem_append_right _ he, h⟩

theorem goodGraph_createGraph {cs : CoordSys d} {fs : ℝ} {l : List (Vec d)} (hl : l.Nodup) : GoodGraph (createGraph cs fs l) where
  nodup := hl
  left _ he := (mem_clusterEdges he).1
  right _ he := (mem_clusterEdges he).2.1
  noLoop _ he := (mem_clusterEdges he).2.2.2.2 hl
  single := by
    simp only [createGraph]
    induction l with
    | nil => simp [clusterEdges]
    | cons p l ih =>
      rw [clusterEdges, List.pairwise_append]
      obtain ⟨hp, hl'⟩ := List.nodup_cons.1 hl
      refine ⟨?_, ih hl', ?_⟩
      · rw [List.pairwise_map]
        refine List.Pairwise.imp_of_mem ?_ (hl'.filter _)
        intro a b ha hb hab
        simp only [joins]
        have ha' := (List.mem_filter.1 ha).1
        rintro (⟨-, h⟩ | ⟨h, -⟩)
        · exact hab h.symm
        · exact hp (h ▸ ha')
      · intro e he f hf
        obtain ⟨q, hq, rfl⟩ := List.mem_map.1 he
        obtain ⟨h1, h2, -⟩ := mem_clusterEdges hf
        simp only [joins]
        rintro (⟨h, -⟩ | ⟨-, h⟩)
        · exact hp (h ▸ h1)
        · exact hp (h ▸ h2)

theorem hasEdge_createGraph {cs : CoordSys d} (hb : ProperBox cs) {fs : ℝ} {l : List (Vec d)} (hl : l.Nodup) {x y : Vec d} :
    (createGraph cs fs l).hasEdge x y ↔ x ∈ l ∧ y ∈ l ∧ x ≠ y ∧ cs.distance x y ≤ fs := by
  constructor
  · rintro ⟨e, he, h | h⟩
    · obtain ⟨rfl, rfl⟩ := h
      obtain ⟨h1, h2, h3, h4, h5⟩ := mem_clusterEdges he
      exact ⟨h1, h2, h5 hl, h3 ▸ h4⟩
    · obtain ⟨rfl, rfl⟩ := h
      obtain ⟨h1, h2, h3, h4, h5⟩ := mem_clusterEdges he
      exact ⟨h2, h1, (h5 hl).symm, by rw [dist_comm' hb]; exact h3 ▸ h4⟩
  · rintro ⟨h1, h2, h3, h4⟩
    exact clusterEdges_complete hb h1 h2 h3 h4

theorem reach_iff_chain {cs : CoordSys d} (hb : ProperBox cs) {fs : ℝ} {positions l : List (Vec d)} (hl : IsUniqueList positions l) {x y : Vec d} :
    Reach (createGraph cs fs l) x y ↔ Chain cs fs positions x y := by
  constructor
  · intro h
    refine rtg_mono (fun a b hab => ?_) h
    obtain ⟨h1, h2, -, h4⟩ := (hasEdge_createGraph hb hl.1).1 hab
    exact ⟨(hl.2 a).1 h1, (hl.2 b).1 h2, h4⟩
  · intro h
    induction h with
    | refl => exact .refl
    | @tail b c _ h ih =>
      by_cases hbc : b = c
      · exact hbc ▸ ih
      · exact ih.tail ((hasEdge_createGraph hb hl.1).2 ⟨(hl.2 b).2 h.1, (hl.2 c).2 h.2.1, hbc, h.2.2⟩)

theorem mem_createClusters {cs : CoordSys d} {fs : ℝ} {l : List (Vec d)} (hl : l.Nodup) {c : NxGraph (Vec d) ℝ}
    (hc : c ∈ createClusters cs fs l) : ∃ v ∈ l, ∃ s : List (Vec d), c = (createGraph cs fs l).subgraph (fun x => x ∈ s) ∧ (∀ x, x ∈ s ↔ Reach (createGraph cs fs l) v x) ∧
      ∀ x, x ∈ c.nodes ↔ Reach (createGraph cs fs l) v x := by
  unfold createClusters at hc
  simp only at hc
  obtain ⟨s, hs, rfl⟩ := List.mem_map.1 hc
  have hg := goodGraph_createGraph (cs := cs) (fs := fs) hl
  obtain ⟨v, hv, h⟩ := (components_spec hg).1 s hs
  refine ⟨v, hv, s, rfl, h, fun x => ?_⟩
  rw [mem_subgraph, h]
  exact ⟨fun h => h.2, fun h => ⟨reach_mem hg h hv, h⟩⟩

/-- C51.  Every given position is in exactly one cluster, clusters contain nothing else, no position twice, and none is empty; whatever the iteration order of the set of positions
(`posUnique`). -/
theorem C51_clusters_partition (cs : CoordSys d) (fs : ℝ) {positions posUnique : List (Vec d)} (hu : IsUniqueList positions posUnique) :
    (∀ x ∈ positions, ∃! i : Fin (createClusters cs fs posUnique).length, x ∈ ((createClusters cs fs posUnique).get i).nodes) ∧
    ∀ c ∈ createClusters cs fs posUnique, c.nodes ≠ [] ∧ c.nodes.Nodup ∧ ∀ x ∈ c.nodes, x ∈ positions := by
  have hg := goodGraph_createGraph (cs := cs) (fs := fs) hu.1
  obtain ⟨-, h2, h3⟩ := components_spec hg
  have hpw : (createClusters cs fs posUnique).Pairwise fun c c' => ∀ x ∈ c.nodes, x ∉ c'.nodes := by
    unfold createClusters
    simp only
    rw [List.pairwise_map]
    refine h3.imp fun {a b} h x hx hx' => ?_
    exact h x (mem_subgraph.1 hx).2 (mem_subgraph.1 hx').2
  constructor
  · intro x hx
    obtain ⟨s, hs, hxs⟩ := h2 x ((hu.2 x).2 hx)
    have hmem : (createGraph cs fs posUnique).subgraph (fun x => x ∈ s) ∈ createClusters cs fs posUnique := List.mem_map.2 ⟨s, hs, rfl⟩
    obtain ⟨i, hi⟩ := List.mem_iff_get.1 hmem
    refine ⟨i, ?_, fun j hj => ?_⟩
    · simp only
      rw [hi]
      exact mem_subgraph.2 ⟨(hu.2 x).2 hx, hxs⟩
    · by_contra hne
      have hxi : x ∈ ((createClusters cs fs posUnique).get i).nodes := by
        rw [hi]; exact mem_subgraph.2 ⟨(hu.2 x).2 hx, hxs⟩
      rcases lt_or_gt_of_ne hne with h | h
      · exact List.pairwise_iff_get.1 hpw j i h x hj hxi
      · exact List.pairwise_iff_get.1 hpw i j h x hxi hj
  · intro c hc
    obtain ⟨v, hv, s, rfl, hs, h⟩ := mem_createClusters hu.1 hc
    refine ⟨List.ne_nil_of_mem ((h v).2 .refl), (goodGraph_subgraph hg _).nodup, fun x hx => (hu.2 x).1 ?_⟩
    exact (mem_subgraph.1 hx).1

/-- C52.  Two positions are in the same cluster exactly if a chain of given positions with steps of at most `feature_size` connects them. -/
theorem C52_clusters_are_chains {cs : CoordSys d} (hb : ProperBox cs) (fs : ℝ) {positions posUnique : List (Vec d)} (hu : IsUniqueList positions posUnique)
    (x y : Vec d) : (∃ c ∈ createClusters cs fs posUnique, x ∈ c.nodes ∧ y ∈ c.nodes) ↔ x ∈ positions ∧ y ∈ positions ∧ Chain cs fs positions x y := by
  constructor
  · rintro ⟨c, hc, hx, hy⟩
    have hp := (C51_clusters_partition cs fs hu).2 c hc
    obtain ⟨v, hv, s, -, -, h⟩ := mem_createClusters hu.1 hc
    exact ⟨hp.2.2 x hx, hp.2.2 y hy, (reach_iff_chain hb hu).1 ((reach_symm ((h x).1 hx)).trans ((h y).1 hy))⟩
  · rintro ⟨hx, hy, hxy⟩
    obtain ⟨i, hi, -⟩ := (C51_clusters_partition cs fs hu).1 x hx
    have hc := List.get_mem (createClusters cs fs posUnique) i
    obtain ⟨v, hv, s, -, -, h⟩ := mem_createClusters hu.1 hc
    exact ⟨_, hc, hi, (h y).2 (((h x).1 hi).trans ((reach_iff_chain hb hu).2 hxy))⟩

/-- C52, consequence: positions of different clusters are more than `feature_size` apart. -/
theorem C52_clusters_separated {cs : CoordSys d} (hb : ProperBox cs) (fs : ℝ) {positions posUnique : List (Vec d)} (hu : IsUniqueList positions posUnique)
    {i j : Fin (createClusters cs fs posUnique).length} (hij : i ≠ j) {x y : Vec d} (hx : x ∈ ((createClusters cs fs posUnique).get i).nodes)
    (hy : y ∈ ((createClusters cs fs posUnique).get j).nodes) : fs < cs.distance x y := by
  by_contra hle
  push Not at hle
  have hP := C51_clusters_partition cs fs hu
  have hx' := (hP.2 _ (List.get_mem _ i)).2.2 x hx
  have hy' := (hP.2 _ (List.get_mem _ j)).2.2 y hy
  obtain ⟨c, hc, h1, h2⟩ := (C52_clusters_are_chains hb fs hu x y).2 ⟨hx', hy', .single ⟨hx', hy', hle⟩⟩
  obtain ⟨k, hk⟩ := List.mem_iff_get.1 hc
  apply hij
  rw [(hP.1 x hx').unique hx (show x ∈ ((createClusters cs fs posUnique).get k).nodes from hk ▸ h1),
    (hP.1 y hy').unique hy (show y ∈ ((createClusters cs fs posUnique).get k).nodes from hk ▸ h2)]

/-- C52, the docstring ("joining all positions which are less than twice the feature_size apart") differs from the program: positions between one and two feature sizes apart
(and not otherwise connected) are in different clusters. -/
theorem C52_docstring_differs {cs : CoordSys d} (hb : ProperBox cs) {fs : ℝ} (hfs : 0 ≤ fs) {x y : Vec d} (hd : fs < cs.distance x y)
    {posUnique : List (Vec d)} (hu : IsUniqueList [x, y] posUnique) : ¬ ∃ c ∈ createClusters cs fs posUnique, x ∈ c.nodes ∧ y ∈ c.nodes := by
  intro h
  obtain ⟨-, -, h⟩ := (C52_clusters_are_chains hb fs hu x y).1 h
  have hne : x ≠ y := by
    rintro rfl
    have := ((C03_distance_metric cs hb x x x).2.2.2).2 (by unfold SamePoint; split; exacts [⟨0, by funext i; simp [shift]⟩, rfl])
    linarith
  have key : ∀ z, Chain cs fs [x, y] x z → z = x := by
    intro z hz
    induction hz with
    | refl => rfl
    | @tail b c _ h ih =>
      subst ih
      rcases (by simpa using h.2.1 : c = b ∨ c = y) with h' | h'
      · exact h'
      · subst h'; exact absurd h.2.2 (not_le.2 hd)
  exact hne (key y h).symm

/-- C53.  The order of the positions, repetitions, and the iteration order of the set do not matter: the clusters are the same sets. -/
theorem C53_order_independent {cs : CoordSys d} (hb : ProperBox cs) (fs : ℝ) {positions posUnique positions' posUnique' : List (Vec d)}
    (hu : IsUniqueList positions posUnique) (hu' : IsUniqueList positions' posUnique') (hsame : ∀ x, x ∈ positions ↔ x ∈ positions') :
    (createClusters cs fs posUnique).length = (createClusters cs fs posUnique').length ∧
    ∀ c ∈ createClusters cs fs posUnique, ∃ c' ∈ createClusters cs fs posUnique', ∀ x, x ∈ c.nodes ↔ x ∈ c'.nodes := by
  have key : ∀ {p l p' l' : List (Vec d)}, IsUniqueList p l → IsUniqueList p' l' → (∀ x, x ∈ p ↔ x ∈ p') →
      ∀ c ∈ createClusters cs fs l, ∃ c' ∈ createClusters cs fs l', ∀ x, x ∈ c.nodes ↔ x ∈ c'.nodes := by
    intro p l p' l' hu hu' hs c hc
    obtain ⟨hne, -, hp⟩ := (C51_clusters_partition cs fs hu).2 c hc
    obtain ⟨v, hv⟩ := List.exists_mem_of_ne_nil _ hne
    obtain ⟨i, hi, -⟩ := (C51_clusters_partition cs fs hu').1 v ((hs v).1 (hp v hv))
    refine ⟨_, List.get_mem _ i, fun x => ?_⟩
    have hch : ∀ a b, Chain cs fs p a b ↔ Chain cs fs p' a b := fun a b => by
      unfold Chain
      simp only [hs]
    obtain ⟨w, -, s, -, -, h⟩ := mem_createClusters hu.1 hc
    obtain ⟨w', -, s', -, -, h'⟩ := mem_createClusters hu'.1 (List.get_mem (createClusters cs fs l') i)
    have e1 : x ∈ c.nodes ↔ Chain cs fs p v x := by
      rw [← reach_iff_chain hb hu, h x]
      exact ⟨fun hx => (reach_symm ((h v).1 hv)).trans hx, fun hx => ((h v).1 hv).trans hx⟩
    have e2 : x ∈ ((createClusters cs fs l').get i).nodes ↔ Chain cs fs p' v x := by
      rw [← reach_iff_chain hb hu', h' x]
      exact ⟨fun hx => (reach_symm ((h' v).1 hi)).trans hx, fun hx => ((h' v).1 hi).trans hx⟩
    rw [e1, e2, hch]
  have hle : ∀ {p l p' l' : List (Vec d)}, IsUniqueList p l → IsUniqueList p' l' → (∀ x, x ∈ p ↔ x ∈ p') →
      (createClusters cs fs l).length ≤ (createClusters cs fs l').length := by
    intro p l p' l' hu hu' hs
    have : ∀ i : Fin (createClusters cs fs l).length, ∃ j : Fin (createClusters cs fs l').length,
        ∀ x, x ∈ ((createClusters cs fs l).get i).nodes ↔ x ∈ ((createClusters cs fs l').get j).nodes := fun i => by
      obtain ⟨c', hc', h⟩ := key hu hu' hs _ (List.get_mem _ i)
      obtain ⟨j, rfl⟩ := List.mem_iff_get.1 hc'
      exact ⟨j, h⟩
    choose f hf using this
    have hinj : Function.Injective f := fun i j hij => by
      obtain ⟨hne, -, hp⟩ := (C51_clusters_partition cs fs hu).2 _ (List.get_mem (createClusters cs fs l) i)
      obtain ⟨v, hv⟩ := List.exists_mem_of_ne_nil _ hne
      exact ((C51_clusters_partition cs fs hu).1 v (hp v hv)).unique hv ((hf j v).2 (hij ▸ (hf i v).1 hv))
    simpa using Fintype.card_le_of_injective f hinj
  exact ⟨le_antisymm (hle hu hu' hsame) (hle hu' hu fun x => (hsame x).symm), key hu hu' hsame⟩

/-- C53, monotonicity: with a larger `feature_size` and more positions, clusters are only merged and enlarged. -/
theorem C53_monotone {cs : CoordSys d} (hb : ProperBox cs) {fs fs' : ℝ} (hfs : fs ≤ fs') {positions posUnique positions' posUnique' : List (Vec d)}
    (hu : IsUniqueList positions posUnique) (hu' : IsUniqueList positions' posUnique') (hsub : ∀ x ∈ positions, x ∈ positions') :
    ∀ c ∈ createClusters cs fs posUnique, ∃ c' ∈ createClusters cs fs' posUnique', ∀ x ∈ c.nodes, x ∈ c'.nodes := by
  intro c hc
  obtain ⟨hne, -, hp⟩ := (C51_clusters_partition cs fs hu).2 c hc
  obtain ⟨v, hv⟩ := List.exists_mem_of_ne_nil _ hne
  obtain ⟨i, hi, -⟩ := (C51_clusters_partition cs fs' hu').1 v (hsub v (hp v hv))
  refine ⟨_, List.get_mem _ i, fun x hx => ?_⟩
  obtain ⟨-, -, h⟩ := (C52_clusters_are_chains hb fs hu v x).1 ⟨c, hc, hv, hx⟩
  have h' : Chain cs fs' positions' v x := rtg_mono (fun a b hab => ⟨hsub a hab.1, hsub b hab.2.1, hab.2.2.trans hfs⟩) h
  obtain ⟨c', hc', h1, h2⟩ := (C52_clusters_are_chains hb fs' hu' v x).2 ⟨hsub v (hp v hv), hsub x (hp x hx), h'⟩
  obtain ⟨j, rfl⟩ := List.mem_iff_get.1 hc'
  rw [((C51_clusters_partition cs fs' hu').1 v (hsub v (hp v hv))).unique hi h1]
  exact h2

/-- C54.  Each cluster is a connected simple graph, in which two positions are adjacent exactly if they are different and at most `feature_size` apart; the weight of an edge is the
distance of its ends. -/
theorem C54_cluster_graph {cs : CoordSys d} (hb : ProperBox cs) (fs : ℝ) {positions posUnique : List (Vec d)} (hu : IsUniqueList positions posUnique)
    {c : NxGraph (Vec d) ℝ} (hc : c ∈ createClusters cs fs posUnique) :
    GoodGraph c ∧ Connected c ∧ (∀ x y, c.hasEdge x y ↔ x ∈ c.nodes ∧ y ∈ c.nodes ∧ x ≠ y ∧ cs.distance x y ≤ fs) ∧
    ∀ e ∈ c.edges, e.2.2 = cs.distance e.1 e.2.1 := by
  obtain ⟨v, hv, s, rfl, hs, h⟩ := mem_createClusters hu.1 hc
  have hg := goodGraph_createGraph (cs := cs) (fs := fs) hu.1
  have hreach : ∀ y, Reach (createGraph cs fs posUnique) v y → Reach ((createGraph cs fs posUnique).subgraph fun x => x ∈ s) v y := by
    intro y hy
    induction hy with
    | refl => exact .refl
    | @tail a b hab h ih => exact ih.tail (hasEdge_subgraph.2 ⟨h, (hs a).2 hab, (hs b).2 (hab.tail h)⟩)
  refine ⟨goodGraph_subgraph hg _, fun x hx y hy => (reach_symm (hreach x ((h x).1 hx))).trans (hreach y ((h y).1 hy)), fun x y => ?_, fun e he => ?_⟩
  · rw [hasEdge_subgraph, hasEdge_createGraph hb hu.1, mem_subgraph, mem_subgraph]
    change (x ∈ posUnique ∧ y ∈ posUnique ∧ x ≠ y ∧ cs.distance x y ≤ fs) ∧ x ∈ s ∧ y ∈ s ↔ (x ∈ posUnique ∧ x ∈ s) ∧ (y ∈ posUnique ∧ y ∈ s) ∧ x ≠ y ∧ cs.distance x y ≤ fs
    tauto
  · exact (mem_clusterEdges (List.mem_filter.1 he).1).2.2.1

/-! ## Examples -/

/-- A chain of three positions with a repetition: one cluster, though the ends are two feature sizes apart. -/
example : ∃ c ∈ createClusters (⟨fun _ => 0, fun _ => 10, false⟩ : CoordSys 1) 1 [![1], ![3], ![2]], ![1] ∈ c.nodes ∧ ![3] ∈ c.nodes := by
  have hne : (![1] : Vec 1) ≠ ![3] ∧ (![1] : Vec 1) ≠ ![2] ∧ (![3] : Vec 1) ≠ ![2] := by
    refine ⟨?_, ?_, ?_⟩ <;> intro h <;> have := congrFun h 0 <;> norm_num at this
  have hu : IsUniqueList (d := 1) [![1], ![2], ![3], ![2]] [![1], ![3], ![2]] := ⟨by simp [hne], fun x => by simp; tauto⟩
  refine (C52_clusters_are_chains (cs := ⟨fun _ => 0, fun _ => 10, false⟩) (fun _ => by norm_num) 1 hu _ _).2 ⟨by simp, by simp, ?_⟩
  refine .head (b := ![2]) ⟨by simp, by simp, ?_⟩ (.single ⟨by simp, by simp, ?_⟩) <;>
  · rw [C03_distance_nonperiodic _ rfl]
    simp [eucl]
    try norm_num

end NF
