import Verif.Lemmas.ShortestPath
import Verif.Props.Ballistic

/-!
# Properties of the shortest-path line evaluation (C61)

`SPRun fs g n s` : some execution of the shortest-path method on the graph `g` is in the state `s` after `n` steps; `.done rg` means that it has returned `rg`, `.error e` that it has raised `e`.
-/

noncomputable section
open Classical

namespace NF
open Spec NxGraph
variable {V : Type} {d : ℕ}

/-- **C61.**  On a connected graph with at least one node, the shortest-path method never raises (in particular its assertion holds), makes at most `n (22 n + 3)` steps and can always go on until it
returns; the returned graph is a connected, non-empty (simple) subgraph, and every node of the cluster is in it or adjacent to one of its nodes. -/
theorem C61_shortest_path {g : NxGraph V ℝ} (hg : GoodGraph g) (hconn : Connected g) (hne : g.nodes ≠ []) (fs : ℝ) :
    (∀ n s, SPRun fs g n s → n ≤ g.nodes.length * (22 * g.nodes.length + 3) ∧ (∀ e, s ≠ .error e) ∧ ((∃ rg, s = .done rg) ∨ ∃ s', SPStep s s')) ∧
    (∃ n rg, SPRun fs g n (.done rg)) ∧
    ∀ n rg, SPRun fs g n (.done rg) → GoodGraph rg ∧ SubgraphOf rg g ∧ Connected rg ∧ rg.nodes ≠ [] ∧ Dominates rg g := by
  have h1 : ∀ n s, SPRun fs g n s → n ≤ g.nodes.length * (22 * g.nodes.length + 3) ∧ (∀ e, s ≠ .error e) ∧ ((∃ rg, s = .done rg) ∨ ∃ s', SPStep s s') := by
    intro n s hr
    obtain ⟨hi, hm⟩ := spRun_inv hg hconn hne hr
    refine ⟨by omega, ?_, spStep_total hi⟩
    rintro e rfl; exact hi
  refine ⟨h1, ?_, fun n rg hr => (spRun_inv hg hconn hne hr).1⟩
  by_contra hno
  push Not at hno
  have hall : ∀ n, ∃ s, SPRun fs g n s := by
    intro n
    induction n with
    | zero =>
      obtain ⟨x, hx⟩ := List.exists_mem_of_ne_nil _ hne
      exact ⟨_, .init (.first hx)⟩
    | succ n ih =>
      obtain ⟨s, hs⟩ := ih
      rcases (h1 n s hs).2.2 with ⟨rg, rfl⟩ | ⟨s', hs'⟩
      · exact absurd hs (hno n rg)
      · exact ⟨s', .step hs hs'⟩
  obtain ⟨s, hs⟩ := hall (g.nodes.length * (22 * g.nodes.length + 3) + 1)
  have := (h1 _ s hs).1
  omega

/-- **C61** for the clusters that `create_clusters` makes. -/
theorem C61_cluster {cs : CoordSys d} (hb : ProperBox cs) {fs : ℝ} {positions posUnique : List (Vec d)} (hu : IsUniqueList positions posUnique)
    {c : NxGraph (Vec d) ℝ} (hc : c ∈ createClusters cs fs posUnique) :
    (∀ n s, SPRun fs c n s → ∀ e, s ≠ .error e) ∧ (∃ n rg, SPRun fs c n (.done rg)) ∧
    ∀ n rg, SPRun fs c n (.done rg) → SubgraphOf rg c ∧ Connected rg ∧ rg.nodes ≠ [] ∧ Dominates rg c := by
  obtain ⟨h1, h2, h3⟩ := C61_shortest_path (C54_cluster_graph hb fs hu hc).1 (C54_cluster_graph hb fs hu hc).2.1 ((C51_clusters_partition cs fs hu).2 c hc).1 fs
  exact ⟨fun n s hr => (h1 n s hr).2.1, h2, fun n rg hr => (h3 n rg hr).2⟩

/-- With no positions at all the method raises a `KeyError`. -/
theorem C61_empty_raises {g : NxGraph V ℝ} (he : g.nodes = []) (fs : ℝ) {n : ℕ} {s : SPState V} (hr : SPRun fs g n s) : s = .error .key := by
  induction hr with
  | init hi =>
    cases hi with
    | empty => rfl
    | first h => rw [he] at h; simp at h
  | step _ hst ih => subst ih; cases hst

theorem edgeWeight_initial {g : NxGraph V ℝ} {fs : ℝ} {δ : V → V → ℝ} (hδ : ∀ x y, δ x y = δ y x) (hattr : ∀ e ∈ g.edges, e.2.2 = δ e.1 e.2.1) {x y : V} (h : g.hasEdge x y) :
    edgeWeight (initialWeights fs g) x y = fs * (δ x y / fs + (δ x y / fs) ^ 2) := by
  unfold edgeWeight
  obtain ⟨e, he, hj⟩ := (sameShape_hasEdge (sameShape_initialWeights fs g) x y).2 h
  cases hf : (initialWeights fs g).edges.find? (fun e => decide (NxGraph.joins e x y)) with
  | none => have := List.find?_eq_none.1 hf e he; simp [hj] at this
  | some f =>
    have h1 := List.mem_of_find?_eq_some hf
    have h2 : joins f x y := by have := List.find?_some hf; simpa using this
    unfold initialWeights at h1
    obtain ⟨k, hk, rfl⟩ := List.mem_map.1 h1
    have hk' : k.2.2 = δ x y := by
      rw [hattr k hk]
      rcases h2 with ⟨h3, h4⟩ | ⟨h3, h4⟩
      · simp only at h3 h4; rw [h3, h4]
      · simp only at h3 h4; rw [h3, h4, hδ]
    simp only [hk']

theorem pathEdges_hasEdge {A : Type} {g : NxGraph V A} : ∀ {p : List V}, p.IsChain g.hasEdge → ∀ e ∈ pathEdges p, g.hasEdge e.1 e.2 := by
  intro p
  induction p with
  | nil => intro _ e he; simp [pathEdges] at he
  | cons a l ih =>
    intro h e he
    cases l with
    | nil => simp [pathEdges] at he
    | cons b l =>
      rw [List.isChain_cons_cons] at h
      have he' : e = (a, b) ∨ e ∈ pathEdges (b :: l) := by simpa [pathEdges] using he
      rcases he' with rfl | he
      exacts [h.1, ih h.2 e he]

theorem addPath_hasEdge (l : List (V × V)) (rg : NxGraph V Unit) (x y : V) :
    (l.foldl (fun h e => h.addEdge e.1 e.2 ()) rg).hasEdge x y ↔ rg.hasEdge x y ∨ (x, y) ∈ l ∨ (y, x) ∈ l := by
  induction l generalizing rg with
  | nil => simp
  | cons a l ih =>
    simp only [List.foldl_cons]
    rw [ih, hasEdge_addEdge]
    simp only [List.mem_cons, Prod.ext_iff]
    tauto

/-- **C61**, which path is taken: the first path that is added to the result is a shortest one in the cluster graph, if an edge of length `x` counts `x + x² / feature_size`. -/
theorem C61_first_path {g : NxGraph V ℝ} {fs : ℝ} (hfs : 0 < fs) {δ : V → V → ℝ} (hδ : ∀ x y, δ x y = δ y x) (hattr : ∀ e ∈ g.edges, e.2.2 = δ e.1 e.2.1)
    {v : SPVars V} {endPos s : V} {todo : List V} {tmp : NxGraph V (ℝ × ℝ)} {single : Bool} {k : ℕ} (hr : SPRun fs g 3 (.forPath v endPos todo s tmp single k)) :
    ∃ p, g.IsPath s endPos p ∧ (∀ x y, v.rg.hasEdge x y ↔ (x, y) ∈ pathEdges p ∨ (y, x) ∈ pathEdges p) ∧
      ∀ q, g.IsPath s endPos q → ((pathEdges p).map fun e => δ e.1 e.2 + δ e.1 e.2 ^ 2 / fs).sum ≤ ((pathEdges q).map fun e => δ e.1 e.2 + δ e.1 e.2 ^ 2 / fs).sum := by
  have hinit : ∀ s, SPRun fs g 0 s → SPInit fs g s := fun s h => by cases h; assumption
  cases hr with
  | step h2 hst =>
  cases h2 with
  | step h1 hst2 =>
  cases h1 with
  | step h0 hst1 =>
  have h0 := hinit _ h0
  cases h0 with
  | empty => cases hst1
  | @first p0 hp0 =>
  cases hst1 with
  | finish => cases hst2
  | @newEnd _ e1 todo1 he1 hperm =>
  generalize hS : SPState.forStart _ e1 todo1 = S at hst2
  cases hst2 with
  | finish => cases hS
  | newEnd => cases hS
  | lastStart => cases hst
  | noPath => cases hst
  | lastPath => cases hS
  | assertion => cases hS
  | path => cases hS
  | @start v1 _ s1 todo2 hex =>
  cases hS
  -- no node of the result has an edge yet
  have hup : ∀ v2 : SPVars V, v2.rg = NxGraph.empty.addNode p0 → v2.one = [] → (updateWeights v2).work = v2.work := by
    intro v2 hrg hone
    have hn : (NxGraph.empty.addNode p0 : NxGraph V Unit).nodes = [p0] := by simp [addNode, NxGraph.empty]
    have hd : (NxGraph.empty.addNode p0 : NxGraph V Unit).degree p0 = 0 := by simp [degree, neighbors, addNode, NxGraph.empty]
    simp [updateWeights, updateHighDegree, updateDegreeOne, hrg, hone, hn, hd]
  rw [hup _ rfl rfl] at hst
  simp only at hst
  cases hst with
  | @path _ _ _ _ _ _ _ path _ _ hsp _ =>
    have hsh := sameShape_hasEdge (sameShape_initialWeights fs g)
    have hsum : ∀ q, g.IsPath s endPos q → pathWeight (initialWeights fs g) q = ((pathEdges q).map fun e => δ e.1 e.2 + δ e.1 e.2 ^ 2 / fs).sum := by
      intro q hq
      unfold pathWeight
      congr 1
      apply List.map_congr_left
      intro e he
      rw [edgeWeight_initial hδ hattr (pathEdges_hasEdge hq.chain e he)]
      field_simp
    have hpg : g.IsPath s endPos path := isPath_mono (fun x y => (hsh x y).1) hsp.1
    refine ⟨path, hpg, fun x y => ?_, fun q hq => ?_⟩
    · change ((pathEdges path).foldl (fun h e => h.addEdge e.1 e.2 ()) (NxGraph.empty.addNode p0)).hasEdge x y ↔ _
      rw [addPath_hasEdge, hasEdge_addNode]
      constructor
      · rintro (⟨e, he, -⟩ | h)
        · simp [NxGraph.empty] at he
        · exact h
      · exact .inr
    · rw [← hsum q hq, ← hsum path hpg]
      exact hsp.2 q (isPath_mono (fun x y => (hsh x y).2) hq)

/-! ## Example -/

/-- The cluster that contains `1`, `1.5` and `2` meets the hypotheses: it is connected and not empty. -/
example : ∃ c ∈ createClusters exBox 0.6 [![1], ![1.5], ![2]], ∃ n rg, SPRun 0.6 c n (.done rg) ∧ Connected rg ∧ Dominates rg c := by
  have hu : IsUniqueList [![1], ![1.5], (![2] : Vec 1)] [![1], ![1.5], ![2]] := ⟨ex_nodup, fun _ => Iff.rfl⟩
  obtain ⟨i, hi, -⟩ := (C51_clusters_partition exBox 0.6 hu).1 ![1] (by simp)
  obtain ⟨-, ⟨n, rg, h2⟩, h3⟩ := C61_cluster exBox_proper hu (List.get_mem _ i)
  exact ⟨_, List.get_mem _ i, n, rg, h2, (h3 n rg h2).2.1, (h3 n rg h2).2.2.2⟩

/-- In it the first path is found after three steps (hypothesis of `C61_first_path`). -/
example : ∃ v endPos todo s tmp single k, SPRun 0.6 exG 3 (.forPath v endPos todo s tmp single k) := by
  have hgood := goodGraph_createGraph (cs := exBox) (fs := 0.6) ex_nodup
  have hsh := sameShape_initialWeights 0.6 exG
  have hne12 : (![1] : Vec 1) ≠ ![2] := fun h => by have := congrFun h 0; norm_num at this
  have h0 : SPRun 0.6 exG 0 _ := .init (.first (firstPos := ![1]) (by simp [exG, createGraph]))
  have hcand : (![2] : Vec 1) ∈ removeAll exG.nodes (closedNeighbors (initialWeights 0.6 exG) ![1]) := by
    refine mem_removeAll.2 ⟨by simp [exG, createGraph], ?_⟩
    rintro (h | h)
    · exact hne12 h.symm
    · have := (sameShape_hasEdge hsh _ _).1 (mem_neighbors.1 h)
      have := ((hasEdge_createGraph exBox_proper ex_nodup).1 this).2.2.2
      rw [ex_dist] at this; norm_num [abs_le] at this
  have h1 := SPRun.step h0 (.newEnd hcand (List.Perm.refl _))
  have hpath : exG.IsPath ![1] ![2] [![1], ![1.5], ![2]] := ⟨rfl, rfl, by simp [ex_edge12, ex_edge23], ex_nodup⟩
  have h2 := SPRun.step h1 (.start ⟨_, isPath_mono (fun x y h => (sameShape_hasEdge (sameShape_trans (sameShape_updateWeights _) hsh) x y).2 h) hpath⟩)
  have hg2 := sameShape_good (sameShape_trans (sameShape_updateWeights ⟨initialWeights 0.6 exG, removeAll (removeAll exG.nodes (closedNeighbors (initialWeights 0.6 exG) ![1]))
    (closedNeighbors (initialWeights 0.6 exG) ![2]), [![1]], NxGraph.empty.addNode ![1], [], []⟩) hsh) hgood
  obtain ⟨p, hp⟩ := exists_shortestPath hg2 (s := ![1]) (t := ![2])
    (by rw [(sameShape_trans (sameShape_updateWeights _) hsh).2]; simp [exG, createGraph])
    ⟨_, isPath_mono (fun x y h => (sameShape_hasEdge (sameShape_trans (sameShape_updateWeights _) hsh) x y).2 h) hpath⟩
  have hsingle : ∃ p, (updateWeights ⟨initialWeights 0.6 exG, removeAll (removeAll exG.nodes (closedNeighbors (initialWeights 0.6 exG) ![1]))
      (closedNeighbors (initialWeights 0.6 exG) ![2]), [![1]], NxGraph.empty.addNode ![1], [], []⟩).work.IsPath ![1] ![2] p ∧ p.length ≤ 5 :=
    ⟨_, isPath_mono (fun x y h => (sameShape_hasEdge (sameShape_trans (sameShape_updateWeights _) hsh) x y).2 h) hpath, by simp⟩
  exact ⟨_, _, _, _, _, _, _, SPRun.step h2 (.path (by simp [maxNumPaths]) (by simp) hp (.inr (by simpa using hsingle)))⟩

end NF
