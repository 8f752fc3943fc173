import Verif.Lemmas.FloatRun

/-!
# C116: the identification with its three methods for lines in double precision

`FL.RunBy R positions cs fs method r` : `run_from_positions` can have the result `r` (or raise), with the rounding, the distances and the libraries in `R`.  `IdentifiedNearly` is in `Spec/FloatRun.lean`.
-/

noncomputable section
open Classical

namespace NF
open Spec NxGraph CoordSys
variable {V A : Type} {d : ℕ} {rnd : ℝ → ℝ}

/-- **C116 (dominating set).**  Whatever the rounding, the distances, the lengths of the shortest paths and the choices made: a graph returned by the dominating-set method is a (simple) subgraph of the cluster graph, and every node of the
cluster is in it or adjacent to one of its nodes.  Otherwise it raises `NetworkXNoPath` or a `TypeError`. -/
theorem C116_dominating_set {L : FL.DSLib V} (hL : DSPaths L) {g : NxGraph V ℝ} (hg : GoodGraph g) {dist : V → V → ℝ} {fs : ℝ} {r : Except Err (NxGraph V DSAttr)} (h : FL.EvalDominating L rnd g dist fs r) :
    r = .error .noPath ∨ r = .error .type ∨ ∃ rg, r = .ok rg ∧ GoodGraph rg ∧ SubgraphOf rg g ∧ rg.nodes ≠ [] ∧ Dominates rg g := by
  have hinit : ∀ D : List V, (∀ x ∈ D, x ∈ g.nodes) → FlDInv g D (dsSubgraph g D) := fun D hD =>
    ⟨sameShape_good (sameShape_dsSubgraph g D) (goodGraph_subgraph hg _), fun _ _ h => (hasEdge_dsSubgraph.1 h).1, fun _ h => (mem_dsSubgraph.1 h).1, fun x hx => mem_dsSubgraph.2 ⟨hD x hx, hx⟩⟩
  cases h with
  | collect _ he => exact .inl (by rw [flToPatch_error he])
  | @patch D l sorted e hD _ _ _ hl =>
    obtain ⟨-, -, d3, -⟩ := greedy_spec (flGood_reduced (rnd := rnd) hg fs) hD
    exact .inl (by rw [(flPatchLoop_inv hL hg hl (hinit D d3)).2 e rfl])
  | @remove D l sorted sub r hD _ _ _ hl hr =>
    obtain ⟨d1, -, d3, -, -, d6⟩ := greedy_spec (flGood_reduced (rnd := rnd) hg fs) hD
    have hs := (flPatchLoop_inv hL hg hl (hinit D d3)).1 sub rfl
    cases hr with
    | noWeight => exact .inr (.inl rfl)
    | @ok so r' _ _ _ hrl =>
      have h2 := flRemoveLoop_inv hrl hs
      refine .inr (.inr ⟨r', rfl, h2.good, ⟨h2.nodes, h2.subG⟩, ?_, fun x hx => ?_⟩)
      · obtain ⟨x, hx⟩ := List.exists_mem_of_ne_nil _ d1
        exact List.ne_nil_of_mem (h2.dom x hx)
      · rcases d6 x hx with h | h | ⟨y, hy, h⟩
        · exact .inl (h2.dom x h)
        · simp at h
        · exact .inr ⟨y, h2.dom y hy, hasEdge_symm.1 (flReduced_edge h)⟩

/-- No weight is negative. -/
def WeightsOK (g : NxGraph V DSAttr) : Prop := ∀ e ∈ g.edges, 0 ≤ e.2.2.weight.getD 1

theorem attr_mem {g : NxGraph V A} {x y : V} {a : A} (h : g.attr? x y = some a) : ∃ e ∈ g.edges, e.2.2 = a := by
  unfold attr? at h
  obtain ⟨e, he, rfl⟩ := Option.map_eq_some_iff.1 h
  exact ⟨e, List.mem_of_find?_eq_some he, rfl⟩

theorem edges_addNode' (s : NxGraph V A) (x : V) : (s.addNode x).edges = s.edges := by
  unfold addNode
  split_ifs <;> rfl

theorem edgeW_nonneg {g : NxGraph V DSAttr} (h : WeightsOK g) : ∀ x y, g.hasEdge x y → 0 ≤ edgeW g x y := by
  intro x y _
  unfold edgeW
  cases ha : g.attr? x y with
  | none => simp
  | some a =>
    obtain ⟨e, he, rfl⟩ := attr_mem ha
    simpa using h e he

theorem weightsOK_copy {L : FL.DSLib V} (hT : DSTotal L) (g : NxGraph V ℝ) : WeightsOK (FL.dsGraphCopy L g) := by
  intro e he
  obtain ⟨k, -, rfl⟩ := List.mem_map.1 he
  exact hT.pow4 _

theorem weightsOK_sub (g : NxGraph V ℝ) (D : List V) : WeightsOK (dsSubgraph g D) := by
  intro e he
  obtain ⟨k, -, rfl⟩ := List.mem_map.1 he
  simp

theorem weightsOK_patchHole {sub graph : NxGraph V DSAttr} (hs : WeightsOK sub) (hg : WeightsOK graph) (p : List V) : WeightsOK (patchHole sub graph p) := by
  have h1 : ∀ (l : List V) (sub : NxGraph V DSAttr), WeightsOK sub → WeightsOK (l.foldl (fun s x => s.addNode x) sub) := by
    intro l
    induction l with
    | nil => exact fun _ h => h
    | cons a l ih =>
      intro sub hs
      rw [List.foldl_cons]
      refine ih _ fun e he => hs e ?_
      rwa [edges_addNode'] at he
  have h2 : ∀ (l : List (V × V)) (sub : NxGraph V DSAttr), WeightsOK sub →
      WeightsOK (l.foldl (fun s e => match graph.attr? e.1 e.2 with | some a => s.addEdge e.1 e.2 a | none => s) sub) := by
    intro l
    induction l with
    | nil => exact fun _ h => h
    | cons a l ih =>
      intro sub hs
      rw [List.foldl_cons]
      refine ih _ ?_
      cases ha : graph.attr? a.1 a.2 with
      | none => exact hs
      | some t =>
        obtain ⟨k, hk, rfl⟩ := attr_mem ha
        intro e he
        unfold addEdge at he
        split_ifs at he
        · obtain ⟨e', he', rfl⟩ := List.mem_map.1 he
          rw [edges_addNode', edges_addNode'] at he'
          split_ifs
          · exact hg k hk
          · exact hs e' he'
        · change e ∈ ((sub.addNode a.1).addNode a.2).edges ++ [(a.1, a.2, k.2.2)] at he
          rw [edges_addNode', edges_addNode'] at he
          rcases List.mem_append.1 he with he | he
          · exact hs e he
          · simp only [List.mem_singleton] at he
            subst he
            exact hg k hk
  exact h2 _ _ (h1 _ _ hs)

theorem weightsOK_patchLoop {L : FL.DSLib V} {graph : NxGraph V DSAttr} (hg : WeightsOK graph) {l : List (V × V × ℝ)} {sub : NxGraph V DSAttr} {r : Except Err (NxGraph V DSAttr)}
    (h : FL.PatchLoop L rnd graph l sub r) : WeightsOK sub → ∀ s, r = .ok s → WeightsOK s := by
  induction h with
  | nil => exact fun hs s h => (by cases h; exact hs)
  | noPath => exact fun _ s h => (by cases h)
  | skip _ _ _ ih => exact ih
  | patch _ _ _ _ ih => exact fun hs => ih (weightsOK_patchHole hs hg _)

theorem flRemoveLoop_exists {L : FL.DSLib V} (hP : DSPaths L) (hT : DSTotal L) : ∀ (l : List (V × V)) (sub : NxGraph V DSAttr), GoodGraph sub → WeightsOK sub → (∀ e ∈ l, e.1 ∈ sub.nodes ∧ Spec.Reach sub e.1 e.2) → ∃ r, FL.RemoveLoop L l sub r := by
  intro l
  induction l with
  | nil => intro sub _ _ _; exact ⟨_, .nil⟩
  | cons e l ih =>
    intro sub hg hw h
    obtain ⟨x, y⟩ := e
    obtain ⟨h1, h2⟩ := h (x, y) (by simp)
    obtain ⟨p, hp⟩ := hT.path hg h1 (exists_path_of_reach h2) (edgeW_nonneg hw)
    by_cases hlen : p.length > 2
    · have hpath := hP hp
      have hrem : ∀ u v, Spec.Reach sub u v → Spec.Reach (sub.removeEdge x y) u v := by
        -- the path does not use the edge
        have hxy : Spec.Reach (sub.removeEdge x y) x y := by
          have hchain : p.IsChain (sub.removeEdge x y).hasEdge := by
            rw [List.isChain_iff_getElem]
            intro i hi
            refine hasEdge_removeEdge.2 ⟨List.isChain_iff_getElem.1 hpath.chain i hi, ?_⟩
            have hx0 : p[0] = x := by
              have := hpath.head
              rw [List.head?_eq_getElem?, List.getElem?_eq_getElem (by omega)] at this
              simpa using this
            have hy1 : p[p.length - 1] = y := by
              have := hpath.last
              rw [List.getLast?_eq_getElem?, List.getElem?_eq_getElem (by omega)] at this
              simpa using this
            rintro (⟨k1, k2⟩ | ⟨k1, k2⟩)
            · have a1 := (List.Nodup.getElem_inj_iff hpath.nodup).1 (k1.trans hx0.symm)
              have a2 := (List.Nodup.getElem_inj_iff hpath.nodup).1 (k2.trans hy1.symm)
              omega
            · have a2 := (List.Nodup.getElem_inj_iff hpath.nodup).1 (k2.trans hx0.symm)
              omega
          have : ∀ (q : List V) (a : V), q.head? = some a → q.getLast? = some y → q.IsChain (sub.removeEdge x y).hasEdge → Spec.Reach (sub.removeEdge x y) a y := by
            intro q
            induction q with
            | nil => intro a h; simp at h
            | cons b q ihq =>
              intro a h1 h2 h3
              simp at h1
              subst h1
              cases q with
              | nil => simp at h2; subst h2; exact .refl
              | cons c q =>
                rw [List.isChain_cons_cons] at h3
                exact .head h3.1 (ihq c rfl (by simpa using h2) h3.2)
          exact this p x hpath.head hpath.last hchain
        intro u v huv
        induction huv with
        | refl => exact .refl
        | @tail b c _ hbc ih =>
          by_cases hne : (b = x ∧ c = y) ∨ (b = y ∧ c = x)
          · rcases hne with ⟨rfl, rfl⟩ | ⟨rfl, rfl⟩
            · exact ih.trans hxy
            · exact ih.trans (reach_symm hxy)
          · exact ih.tail (hasEdge_removeEdge.2 ⟨hbc, hne⟩)
      have hg' : GoodGraph (sub.removeEdge x y) := ⟨hg.nodup, fun e he => hg.left e (List.mem_filter.1 he).1, fun e he => hg.right e (List.mem_filter.1 he).1,
        fun e he => hg.noLoop e (List.mem_filter.1 he).1, hg.single.filter _⟩
      obtain ⟨r, hr⟩ := ih (sub.removeEdge x y) hg' (fun e he => hw e (List.mem_filter.1 he).1) fun e he => ⟨(h e (by simp [he])).1, hrem _ _ (h e (by simp [he])).2⟩
      exact ⟨r, .cons hp (by rw [if_pos hlen]; exact hr)⟩
    · obtain ⟨r, hr⟩ := ih sub hg hw fun e he => h e (by simp [he])
      exact ⟨r, .cons hp (by rw [if_neg hlen]; exact hr)⟩

theorem flPatchLoop_exists {L : FL.DSLib V} {graph : NxGraph V DSAttr} : ∀ (l : List (V × V × ℝ)) (sub : NxGraph V DSAttr), (∀ t ∈ l, ∃ p, L.path graph (edgeDist graph) t.1 t.2.1 p) →
    ∃ r, FL.PatchLoop L rnd graph l sub r := by
  intro l
  induction l with
  | nil => intro sub _; exact ⟨_, .nil⟩
  | cons t l ih =>
    intro sub h
    obtain ⟨a, b, o⟩ := t
    cases hs : L.length sub (edgeDist sub) a b with
    | none => exact ⟨_, .noPath hs⟩
    | some x =>
      by_cases hx : x > rnd (2 * o)
      · obtain ⟨p, hp⟩ := h (a, b, o) (by simp)
        obtain ⟨r, hr⟩ := ih (patchHole sub graph p) fun t ht => h t (by simp [ht])
        exact ⟨r, .patch hs hx hp hr⟩
      · obtain ⟨r, hr⟩ := ih sub fun t ht => h t (by simp [ht])
        exact ⟨r, .skip hs hx hr⟩

/-- The pairs to patch are pairs of positions that are connected in the graph. -/
theorem flToPatch_mem {L : FL.DSLib V} (hT : DSTotal L) {sub graph : NxGraph V DSAttr} {dist : V → V → ℝ} {fs : ℝ} : ∀ {ps : List (V × V)} {l}, FL.toPatch L rnd sub graph dist fs ps = .ok l →
    ∀ t ∈ l, (t.1, t.2.1) ∈ ps ∧ ∃ p, graph.IsPath t.1 t.2.1 p := by
  intro ps
  induction ps with
  | nil => intro l h; simp [FL.toPatch] at h; subst h; simp
  | cons q ps ih =>
    intro l h
    obtain ⟨a, b⟩ := q
    simp only [FL.toPatch] at h
    cases he : FL.patchEntry L rnd sub graph dist fs a b with
    | error e => rw [he] at h; simp at h
    | ok o =>
      rw [he] at h
      cases hr : FL.toPatch L rnd sub graph dist fs ps with
      | error e => rw [hr] at h; simp at h
      | ok l' =>
        rw [hr] at h
        simp only [Except.ok.injEq] at h
        subst h
        intro t ht
        rcases List.mem_append.1 ht with ht | ht
        · cases o with
          | none => simp at ht
          | some t' =>
            simp only [Option.toList_some, List.mem_singleton] at ht
            subst ht
            unfold FL.patchEntry at he
            split_ifs at he
            · cases h1 : L.length sub (edgeDist sub) a b with
              | none => rw [h1] at he; simp at he
              | some r =>
                rw [h1] at he
                simp only at he
                split_ifs at he
                · cases h2 : L.length graph (edgeDist graph) a b with
                  | none => rw [h2] at he; simp at he
                  | some o =>
                    rw [h2] at he
                    simp only at he
                    split_ifs at he with h3
                    · simp only [Except.ok.injEq, Option.some.injEq] at he
                      subst he
                      exact ⟨by simp, hT.length h2⟩
                    · simp at he
                · simp at he
            · simp at he
        · exact ⟨List.mem_cons_of_mem _ (ih hr t ht).1, (ih hr t ht).2⟩

/-- **C116 (dominating set, termination).**  If no distance is negative, the dominating-set method always stops, with a graph or with an exception. -/
theorem C116_dominating_terminates {L : FL.DSLib V} (hL : DSPaths L) (hT : DSTotal L) {g : NxGraph V ℝ} (hg : GoodGraph g) (hne : g.nodes ≠ []) (hpos : ∀ e ∈ g.edges, 0 ≤ e.2.2) (dist : V → V → ℝ) (fs : ℝ) :
    ∃ r, FL.EvalDominating L rnd g dist fs r := by
  obtain ⟨D, hD⟩ := greedy_exists (g := FL.dsReduced rnd fs g) hne
  have hcg : GoodGraph (FL.dsGraphCopy L g) := sameShape_good (flSameShape_copy L g) hg
  have hcd : ∀ x y, (FL.dsGraphCopy L g).hasEdge x y → 0 ≤ edgeDist (FL.dsGraphCopy L g) x y := by
    intro x y _
    unfold edgeDist
    cases ha : (FL.dsGraphCopy L g).attr? x y with
    | none => simp
    | some a =>
      obtain ⟨e, he, rfl⟩ := attr_mem ha
      obtain ⟨k, hk, rfl⟩ := List.mem_map.1 he
      simpa using hpos k hk
  cases hl : FL.toPatch L rnd (dsSubgraph g D) (FL.dsGraphCopy L g) dist fs (pairs2 (dsSubgraph g D).nodes) with
  | error e => exact ⟨_, .collect hD hl⟩
  | ok l =>
    obtain ⟨sorted, hperm, hsort⟩ := exists_sorted (fun t : V × V × ℝ => t.2.2) l
    obtain ⟨r, hr⟩ := flPatchLoop_exists (rnd := rnd) (L := L) (graph := FL.dsGraphCopy L g) sorted (dsSubgraph g D) fun t ht => by
      obtain ⟨h1, h2⟩ := flToPatch_mem hT hl t (hperm.mem_iff.1 ht)
      exact hT.path hcg (mem_dsSubgraph.1 (mem_pairs2 h1).1).1 h2 hcd
    cases r with
    | error e => exact ⟨_, .patch hD hl hperm hsort hr⟩
    | ok sub =>
      obtain ⟨-, -, d3, -⟩ := greedy_spec (flGood_reduced (rnd := rnd) hg fs) hD
      have hs : FlDInv g D sub := (flPatchLoop_inv hL hg hr ⟨sameShape_good (sameShape_dsSubgraph g D) (goodGraph_subgraph hg _), fun _ _ h => (hasEdge_dsSubgraph.1 h).1,
        fun _ h => (mem_dsSubgraph.1 h).1, fun x hx => mem_dsSubgraph.2 ⟨d3 x hx, hx⟩⟩).1 sub rfl
      have hw := weightsOK_patchLoop (weightsOK_copy hT g) hr (weightsOK_sub g D) sub rfl
      by_cases hw' : ∃ e ∈ sub.edges, e.2.2.weight = none
      · obtain ⟨e, he, hew⟩ := hw'
        exact ⟨_, .remove hD hl hperm hsort hr (.noWeight he hew)⟩
      · push Not at hw'
        obtain ⟨so, hp, hs'⟩ := exists_sorted (fun e : V × V × DSAttr => -e.2.2.weight.getD 0) sub.edges
        obtain ⟨r, hrl⟩ := flRemoveLoop_exists hL hT (so.map fun e => (e.1, e.2.1)) sub hs.good hw fun e he => by
          obtain ⟨k, hk, rfl⟩ := List.mem_map.1 he
          have hk := hp.mem_iff.1 hk
          exact ⟨hs.good.left k hk, .single ⟨k, hk, .inl ⟨rfl, rfl⟩⟩⟩
        exact ⟨_, .remove hD hl hperm hsort hr (.ok hw' hp (hs'.imp fun h => by linarith) hrl)⟩

variable {R : FL.RunArith d} {cs : CoordSys d} {fs : ℝ} {positions : List (Vec d)} {M : Vec d} {method : String}

theorem isCluster_mem (hA : IdAccurate R.id cs positions) {pu : List (Vec d)} (hu : IsUniqueList positions pu) {g : NxGraph (Vec d) ℝ} (hg : g ∈ FL.createClusters R.id.dist fs pu) :
    IsCluster R.id.rnd cs fs positions R.id.dist g := ⟨hA.dist, pu, hu, hg⟩

theorem flCluster_edge (hb : ProperBox cs) (hA : IdAccurate R.id cs positions) (hM : Moderate cs positions M) {g : NxGraph (Vec d) ℝ} (hc : IsCluster R.id.rnd cs fs positions R.id.dist g) {x y : Vec d}
    (h : g.hasEdge x y) : x ∈ positions ∧ y ∈ positions ∧ cs.distance x y ≤ fs + distanceError cs := by
  obtain ⟨hg, -, hmem, hd⟩ := isCluster_spec hc
  obtain ⟨n1, n2, -⟩ := goodGraph_edge hg h
  refine ⟨hmem x n1, hmem y n2, ?_⟩
  obtain ⟨e, he, hj⟩ := h
  obtain ⟨h1, h2⟩ := hd e he
  have key : ∀ a ∈ positions, ∀ b ∈ positions, R.id.dist a b ≤ fs → cs.distance a b ≤ fs + distanceError cs := fun a ha b hb' hab => by
    have := (abs_le.1 (moderate_dist hA.nearest hb hM ha hb' (hA.dist a ha b hb'))).1
    linarith
  rw [h1] at h2
  rcases hj with ⟨e1, e2⟩ | ⟨e1, e2⟩
  · rw [e1, e2] at h2
    exact key x (hmem x n1) y (hmem y n2) h2
  · rw [e1, e2] at h2
    rw [(C03_distance_metric cs hb x y y).2.1]
    exact key y (hmem y n2) x (hmem x n1) h2

/-- What any of the methods returns is a line through the positions of the cluster. -/
theorem flEvaluateLine_ok (hb : ProperBox cs) (hA : IdAccurate R.id cs positions) (hM : Moderate cs positions M) (hS : SPAccurate R.sp) (hD : DSPaths R.ds) {g : NxGraph (Vec d) ℝ}
    (hc : IsCluster R.id.rnd cs fs positions R.id.dist g) {l : NodalLine (Vec d)} (h : FL.EvaluateLine R g cs fs method (.ok l)) : LineThrough cs (fs + distanceError cs) g.nodes l := by
  obtain ⟨hg, hconn, -, -⟩ := isCluster_spec hc
  have key : ∀ {A : Type} (rg : NxGraph (Vec d) A), GoodGraph rg → SubgraphOf rg g → Dominates rg g → LineThrough cs (fs + distanceError cs) g.nodes ⟨rg.strip, createDegreeCount rg⟩ := by
    intro A rg h1 h2 h3
    exact {
      simple := goodGraph_strip h1
      nodes := h2.1
      edges := fun x y hxy => (flCluster_edge hb hA hM hc (h2.2 x y (hasEdge_strip.1 hxy))).2.2
      covers := fun x hx => by
        rcases h3 x hx with h | ⟨y, hy, hxy⟩
        · exact .inl h
        · exact .inr ⟨y, hy, (flCluster_edge hb hA hM hc hxy).2.2⟩
      degrees := fun k n => by
        simp only [nbrCount_strip]
        exact degreeCount_spec h1 k n }
  generalize hr : (Except.ok l : Except Err (NodalLine (Vec d))) = r at h
  cases h with
  | invalid => cases hr
  | ballisticError => cases hr
  | shortestError => cases hr
  | ballistic hrun =>
    cases hr
    obtain ⟨h1, h2, h3⟩ := C114_dominating hg hrun
    exact key _ h1 h2 h3
  | shortest hrun =>
    cases hr
    obtain ⟨h1, h2, -, -, h3⟩ := (C115_shortest_path hS hg hconn (isCluster_ne hc) fs).2.2 _ _ hrun
    exact key _ h1 h2 h3
  | @dominating r' hrun =>
    rcases C116_dominating_set hD hg hrun with rfl | rfl | ⟨rg, rfl, h1, h2, -, h3⟩
    · cases hr
    · cases hr
    · cases hr
      exact key rg h1 h2 h3

theorem flIdentifyCluster_ok {g : NxGraph (Vec d) ℝ} {r : IdResult d} (h : FL.IdentifyClusterBy R cs fs method g (.ok r)) :
    r.positions = g.nodes ∧ FL.CalculateDimension R.id g cs fs 3 (some 5) (some 10) (.ok r.dimension) ∧ FL.EvaluateClusterBy R g cs fs method r.dimension (.ok r.shape) := by
  generalize hr : (Except.ok r : Except Err (IdResult d)) = o at h
  cases h with
  | dimError => cases hr
  | shapeError => cases hr
  | ok h1 h2 => cases hr; exact ⟨rfl, h1, h2⟩

theorem flRunBy_ok {out : IdContainer d} (h : FL.RunBy R positions cs fs method (.ok out)) :
    out.coord = cs ∧ out.featureSize = fs ∧ ∃ pu, IsUniqueList positions pu ∧ List.Forall₂ (fun g r => FL.IdentifyClusterBy R cs fs method g (.ok r)) (FL.createClusters R.id.dist fs pu) out.results := by
  generalize hr : (Except.ok out : Except Err (IdContainer d)) = o at h
  cases h with
  | error => cases hr
  | @ok pu os rs hu hall hcol =>
    cases hr
    rw [collect_eq_ok] at hcol
    subst hcol
    exact ⟨rfl, rfl, pu, hu, by rwa [List.forall₂_map_right_iff] at hall⟩

theorem moderate_nodes_few (hM : Moderate cs positions M) {l : List (Vec d)} (hl : l.Nodup) (hsub : ∀ x ∈ l, x ∈ positions) : (l.length : ℝ) * ulp ≤ 1 / 100 := by
  have h1 : l.length ≤ positions.length := by
    rw [← List.toFinset_card_of_nodup hl]
    exact (Finset.card_le_card fun x hx => by rw [List.mem_toFinset] at hx ⊢; exact hsub x hx).trans (List.toFinset_card_le _)
  have h2 : (l.length : ℝ) ≤ positions.length := by exact_mod_cast h1
  refine (mul_le_mul_of_nonneg_right h2 ulp_pos.le).trans (le_trans (le_of_eq ?_) hM.few)
  unfold ulp; ring

theorem nat_few {n : ℕ} (h : (n : ℝ) * ulp ≤ 1 / 100) : n ≤ 2 ^ 50 := by
  have h1 : (n : ℝ) ≤ 2 ^ 50 := by
    unfold ulp at h
    have : (n : ℝ) / 2 ^ 53 ≤ 1 / 100 := by linarith
    rw [div_le_iff₀ (by positivity)] at this
    exact this.trans (by norm_num)
  exact_mod_cast h1

/-- **C116 (results).**  Whatever the method, the order of the positions, the random choices and the rounding: for positions near a moderate box, a result of the identification in double precision describes the given positions, each
once, by points and lines as in C65, up to the error of the computed distances. -/
theorem C116_results (hb : ProperBox cs) (hA : IdAccurate R.id cs positions) (hM : Moderate cs positions M) (hS : SPAccurate R.sp) (hD : DSPaths R.ds) {out : IdContainer d}
    (h : FL.RunBy R positions cs fs method (.ok out)) : IdentifiedNearly R.id.rnd positions cs fs (distanceError cs) out := by
  obtain ⟨h1, h2, pu, hu, hall⟩ := flRunBy_ok h
  have hP := flClusters_partition (dist := R.id.dist) fs hu
  have hpos : out.results.map (fun r => r.positions) = (FL.createClusters R.id.dist fs pu).map fun g => g.nodes := by
    have : ∀ (l : List (NxGraph (Vec d) ℝ)) (l' : List (IdResult d)), List.Forall₂ (fun g x => FL.IdentifyClusterBy R cs fs method g (.ok x)) l l' → l'.map (fun x => x.positions) = l.map fun g => g.nodes := by
      intro l l' hF
      induction hF with
      | nil => rfl
      | cons h _ ih => rw [List.map_cons, List.map_cons, ih, (flIdentifyCluster_ok h).1]
    exact this _ _ hall
  have hmem : ∀ r ∈ out.results, ∃ c ∈ FL.createClusters R.id.dist fs pu, FL.IdentifyClusterBy R cs fs method c (.ok r) := fun r hr => forall₂_mem_right hall hr
  have hcl := fun {c} (hc : c ∈ FL.createClusters R.id.dist fs pu) => isCluster_mem hA hu hc
  refine ⟨h1, h2, ?_, ?_, ?_, ?_, ?_, ?_, ?_, ?_⟩
  · intro x hx
    rw [existsUnique_map (fun x : IdResult d => x.positions) x out.results hpos, ← existsUnique_map (fun g : NxGraph (Vec d) ℝ => g.nodes) x _ rfl]
    exact hP.1 x hx
  · intro r hr
    obtain ⟨c, hc, hcr⟩ := hmem r hr
    rw [(flIdentifyCluster_ok hcr).1]
    exact hP.2 c hc
  · intro x hx y hy hxy
    have hgood := goodGraph_fl (dist := R.id.dist) (fs := fs) hu.1
    set G : NxGraph (Vec d) ℝ := ⟨pu, FL.clusterEdges R.id.dist fs pu⟩ with hG
    have hreach : Spec.Reach G x y := by
      clear hy
      induction hxy with
      | refl => exact .refl
      | @tail a b _ hab ih =>
        by_cases hne : a = b
        · exact hne ▸ ih
        · refine ih.tail ?_
          have key : ∀ p ∈ positions, ∀ q ∈ positions, cs.distance p q ≤ fs - distanceError cs → R.id.dist p q ≤ fs := fun p hp q hq hpq => by
            have := (abs_le.1 (moderate_dist hA.nearest hb hM hp hq (hA.dist p hp q hq))).2
            linarith
          exact flClusterEdges_mem ((hu.2 a).2 hab.1) ((hu.2 b).2 hab.2.1) hne (key a hab.1 b hab.2.1 hab.2.2)
            (key b hab.2.1 a hab.1 (by rw [(C03_distance_metric cs hb b a a).2.1]; exact hab.2.2))
    obtain ⟨c1, c2, -⟩ := components_spec hgood
    obtain ⟨s, hs, hxs⟩ := c2 x ((hu.2 x).2 hx)
    obtain ⟨v, -, hv⟩ := c1 s hs
    have hys : y ∈ s := (hv y).2 (((hv x).1 hxs).trans hreach)
    obtain ⟨r, hr, hgr⟩ := forall₂_mem_left hall (show G.subgraph (fun x => x ∈ s) ∈ FL.createClusters R.id.dist fs pu from List.mem_map.2 ⟨s, hs, rfl⟩)
    refine ⟨r, hr, ?_⟩
    rw [(flIdentifyCluster_ok hgr).1]
    exact ⟨mem_subgraph.2 ⟨(hu.2 x).2 hx, hxs⟩, mem_subgraph.2 ⟨(hu.2 y).2 hy, hys⟩⟩
  · intro r hr x hx y hy
    obtain ⟨c, hc, hcr⟩ := hmem r hr
    rw [(flIdentifyCluster_ok hcr).1] at hx hy
    exact rtg_mono (fun a b hab => flCluster_edge hb hA hM (hcl hc) hab) ((isCluster_spec (hcl hc)).2.1 x hx y hy)
  · intro r hr k hk
    obtain ⟨c, hc, hcr⟩ := hmem r hr
    have h3 := (flIdentifyCluster_ok hcr).2.1
    rw [hk] at h3
    obtain ⟨n1, n2, n3⟩ := hP.2 c hc
    obtain ⟨ev, dims, -, -, hF, hmin, hthird, -⟩ := (C112_majority hA.nearest n2 n1 (nat_few (moderate_nodes_few hM n2 n3)) (by norm_num) h3).1 k rfl
    have hlen : 0 < c.nodes.length := List.length_pos_iff.2 n1
    have hcnt : 0 < dims.count k := by
      have : 0 < dims.length := by
        have h5 : min (5 : ℤ) c.nodes.length ≤ dims.length := hmin
        rcases min_le_iff.1 h5 with h6 | h6 <;> omega
      omega
    obtain ⟨p, -, hp⟩ := forall₂_mem_right hF (List.count_pos_iff.1 hcnt)
    exact flGetDimension_range hp
  · intro r hr hk
    obtain ⟨c, hc, hcr⟩ := hmem r hr
    obtain ⟨e1, -, e3⟩ := flIdentifyCluster_ok hcr
    rw [hk] at e3
    rw [e1]
    generalize hs : r.shape = s at e3
    generalize ho : (Except.ok s : Except Err (Option (Shape d))) = o at e3
    generalize hz : some (0 : ℤ) = z at e3
    cases e3 with
    | point hp => cases ho; exact ⟨_, rfl, hp⟩
    | pointError => cases ho
    | line => cases hz
    | lineWarning => cases hz
    | lineError => cases hz
    | other hn => exact absurd hz.symm hn
  · intro r hr hk s hs
    obtain ⟨c, hc, hcr⟩ := hmem r hr
    obtain ⟨e1, -, e3⟩ := flIdentifyCluster_ok hcr
    rw [hk, hs] at e3
    rw [e1]
    generalize ho : (Except.ok (some s) : Except Err (Option (Shape d))) = o at e3
    generalize hz : some (1 : ℤ) = z at e3
    cases e3 with
    | point => cases hz
    | pointError => cases hz
    | line hl => cases ho; exact ⟨_, rfl, flEvaluateLine_ok hb hA hM hS hD (hcl hc) hl⟩
    | lineWarning => cases ho
    | lineError => cases ho
    | other _ hn => exact absurd hz.symm hn
  · intro r hr h0 h1
    obtain ⟨c, hc, hcr⟩ := hmem r hr
    obtain ⟨-, -, e3⟩ := flIdentifyCluster_ok hcr
    generalize hs : r.shape = s at e3
    generalize hdm : r.dimension = dm at e3
    generalize ho : (Except.ok s : Except Err (Option (Shape d))) = o at e3
    cases e3 with
    | point => exact absurd hdm h0
    | pointError => exact absurd hdm h0
    | line => exact absurd hdm h1
    | lineWarning => exact absurd hdm h1
    | lineError => exact absurd hdm h1
    | other => cases ho; rfl

/-- A cluster of dimension one has at least two positions. -/
theorem flDimension_one (hA : IdAccurate R.id cs positions) (hfs : 0 ≤ fs) {g : NxGraph (Vec d) ℝ} (hc : IsCluster R.id.rnd cs fs positions R.id.dist g)
    (h : FL.CalculateDimension R.id g cs fs 3 (some 5) (some 10) (.ok (some 1))) : 2 ≤ g.nodes.length := by
  by_contra hlt
  have hne := isCluster_ne hc
  obtain ⟨x, hx⟩ : ∃ x, g.nodes = [x] := by
    rcases hn : g.nodes with _ | ⟨x, _ | ⟨y, l⟩⟩
    · exact absurd hn hne
    · exact ⟨x, rfl⟩
    · rw [hn] at hlt; simp at hlt
  have hno : ∀ a b, ¬ g.hasEdge a b := fun a b hab => by
    obtain ⟨h1, h2, h3⟩ := goodGraph_edge (isCluster_spec hc).1 hab
    rw [hx] at h1 h2
    simp only [List.mem_singleton] at h1 h2
    exact h3 (h1.trans h2.symm)
  have := fl_dimension_tiny (V := 0) hA.nearest hA.svd hne (by rw [hx]; simp only [List.length_singleton, Nat.cast_one, one_mul]; linarith [ulp_small]) (fun a b hab => absurd hab (hno a b))
    (fun a _ b hab => absurd hab (hno a b)) ?_ h
  · cases this
  · unfold FL.limitValue
    simp only [if_true, mul_zero]
    refine rnd_nonneg hA.nearest (div_nonneg (rnd_nonneg hA.nearest (by positivity)) (by norm_num))

theorem fl_connecting_never_raises (hb : ProperBox cs) (hA : IdAccurate R.id cs positions) (hM : Moderate cs positions M) {p q : Vec d} (hp : p ∈ positions) (hq : q ∈ positions) {e : Err} :
    ¬ FL.Connecting R.id.rnd cs p q (.error e) := fun h => by
  obtain ⟨w, hw, -⟩ := fl_connecting_len hA.nearest hb hM hp hq h
  cases hw

/-- The dimension of a cluster can always be computed. -/
theorem fl_dim_never_raises (hb : ProperBox cs) (hA : IdAccurate R.id cs positions) (hM : Moderate cs positions M) {g : NxGraph (Vec d) ℝ} (hc : IsCluster R.id.rnd cs fs positions R.id.dist g) {e : Err} :
    ¬ FL.CalculateDimension R.id g cs fs 3 (some 5) (some 10) (.error e) := fun he => by
  obtain ⟨hg, -, hmem, -⟩ := isCluster_spec hc
  obtain ⟨p, -, hp⟩ := (C112_majority hA.nearest hg.nodup (isCluster_ne hc) (nat_few (moderate_nodes_few hM hg.nodup hmem)) (by norm_num) he).2.2 e rfl
  obtain ⟨n, hn, hcn⟩ := flGetDimension_error hp
  obtain ⟨m1, m2, -⟩ := goodGraph_edge hg hn
  exact fl_connecting_never_raises hb hA hM (hmem n m2) (hmem p m1) hcn

/-- The average of a cluster can always be computed. -/
theorem fl_point_never_raises (hb : ProperBox cs) (hA : IdAccurate R.id cs positions) (hM : Moderate cs positions M) {g : NxGraph (Vec d) ℝ} (hc : IsCluster R.id.rnd cs fs positions R.id.dist g) {e : Err} :
    ¬ FL.EvaluatePoint R.id.rnd cs g.nodes (.error e) := fun he => by
  obtain ⟨o, ho, p, hp, h⟩ := flAverage_error he (isCluster_ne hc)
  exact fl_connecting_never_raises hb hA hM ((isCluster_spec hc).2.2.1 o ho) ((isCluster_spec hc).2.2.1 p hp) h

/-- **C116 (never raises).**  For positions near a moderate box, the identification in double precision with the method `shortest_path` never raises, and neither does it with the method `ballistic` if in every cluster of at least two
positions each position has a neighbour that it can be told from; it can always come to a result; and every cluster of dimension one gets a line. -/
theorem C116_never_raises (hb : ProperBox cs) (hA : IdAccurate R.id cs positions) (hM : Moderate cs positions M) (hfs : 0 ≤ fs) (hS : SPAccurate R.sp) (hB : BlasAccurate R.blas)
    (hm : method = "shortest_path" ∨ method = "ballistic" ∧ ∀ g, IsCluster R.id.rnd cs fs positions R.id.dist g → 2 ≤ g.nodes.length → Resolved cs g) :
    (∃ r, FL.RunBy R positions cs fs method r) ∧
    ∀ r, FL.RunBy R positions cs fs method r → ∃ out, r = .ok out ∧ ∀ x ∈ out.results, x.dimension = some 1 → ∃ l, x.shape = some (.line l) := by
  have hline : ∀ c, IsCluster R.id.rnd cs fs positions R.id.dist c → FL.CalculateDimension R.id c cs fs 3 (some 5) (some 10) (.ok (some 1)) →
      (∃ l, FL.EvaluateLine R c cs fs method (.ok l)) ∧ ∀ e, ¬ FL.EvaluateLine R c cs fs method (.error e) := by
    intro c hc hdim
    rcases hm with rfl | ⟨rfl, hres⟩
    · obtain ⟨h1, ⟨n, rg, h2⟩, -⟩ := C115_cluster hS hc
      refine ⟨⟨_, .shortest h2⟩, fun e he => ?_⟩
      generalize hr : (Except.error e : Except Err (NodalLine (Vec d))) = o at he
      generalize hms : "shortest_path" = ms at he
      cases he with
      | invalid h => exact h hms.symm
      | shortest => cases hr
      | shortestError hrun => exact h1 _ _ hrun _ rfl
      | ballistic => exact absurd hms (by decide)
      | ballisticError => exact absurd hms (by decide)
      | dominating => exact absurd hms (by decide)
    · obtain ⟨h1, n, rg, h2⟩ := C114_terminates hA.nearest hB hb hM hc (hres c hc (flDimension_one hA hfs hc hdim))
      refine ⟨⟨_, .ballistic h2⟩, fun e he => ?_⟩
      generalize hr : (Except.error e : Except Err (NodalLine (Vec d))) = o at he
      generalize hms : "ballistic" = ms at he
      cases he with
      | invalid _ _ h => exact h hms.symm
      | ballistic => cases hr
      | ballisticError hrun => exact (h1 _ _ hrun).2.1 _ rfl
      | shortest => exact absurd hms (by decide)
      | shortestError => exact absurd hms (by decide)
      | dominating => exact absurd hms (by decide)
  have hdimok := fun c hc e => fl_dim_never_raises (fs := fs) hb hA hM (g := c) hc (e := e)
  have hav := fun c hc e => fl_point_never_raises (fs := fs) hb hA hM (g := c) hc (e := e)
  have hcl : ∀ c, IsCluster R.id.rnd cs fs positions R.id.dist c →
      (∃ r, FL.IdentifyClusterBy R cs fs method c (.ok r)) ∧ (∀ e, ¬ FL.IdentifyClusterBy R cs fs method c (.error e)) ∧
      ∀ r, FL.IdentifyClusterBy R cs fs method c (.ok r) → r.dimension = some 1 → ∃ l, r.shape = some (.line l) := by
    intro c hc
    refine ⟨?_, ?_, ?_⟩
    · obtain ⟨r, hr⟩ := fl_calculateDimension_total R.id c cs fs 3 (some 5) (some 10)
      cases r with
      | error e => exact absurd hr (hdimok c hc e)
      | ok dim =>
        by_cases h0 : dim = some 0
        · subst h0
          obtain ⟨p, hp⟩ := C109_average_total R.id.rnd cs c.nodes
          cases p with
          | error e => exact absurd hp (hav c hc e)
          | ok p => exact ⟨_, .ok hr (.point hp)⟩
        · by_cases h1 : dim = some 1
          · subst h1
            obtain ⟨⟨l, hl⟩, -⟩ := hline c hc hr
            exact ⟨_, .ok hr (.line hl)⟩
          · exact ⟨_, .ok hr (.other h0 h1)⟩
    · intro e he
      generalize hr : (Except.error e : Except Err (IdResult d)) = o at he
      cases he with
      | ok => cases hr
      | dimError h => exact hdimok c hc _ h
      | @shapeError dim e' h1 h2 =>
        generalize ho : (Except.error e' : Except Err (Option (Shape d))) = o' at h2
        cases h2 with
        | point => cases ho
        | pointError h => exact hav c hc _ h
        | line => cases ho
        | lineWarning => cases ho
        | lineError h => exact (hline c hc h1).2 _ h
        | other => cases ho
    · intro r hr hk
      obtain ⟨-, e2, e3⟩ := flIdentifyCluster_ok hr
      rw [hk] at e2 e3
      generalize hs : r.shape = s at e3
      generalize ho : (Except.ok s : Except Err (Option (Shape d))) = o at e3
      generalize hz : some (1 : ℤ) = z at e3
      cases e3 with
      | point => cases hz
      | pointError => cases hz
      | line hl => cases ho; exact ⟨_, rfl⟩
      | lineWarning h => exact absurd h ((hline c hc e2).2 _)
      | lineError => cases ho
      | other _ hn => exact absurd hz.symm hn
  constructor
  · have hu : IsUniqueList positions positions.dedup := ⟨List.nodup_dedup _, fun x => List.mem_dedup⟩
    have hex : ∀ l : List (NxGraph (Vec d) ℝ), (∀ c ∈ l, ∃ r, FL.IdentifyClusterBy R cs fs method c (.ok r)) → ∃ rs, List.Forall₂ (fun c r => FL.IdentifyClusterBy R cs fs method c (.ok r)) l rs := by
      intro l
      induction l with
      | nil => exact fun _ => ⟨[], .nil⟩
      | cons c l ih =>
        intro h
        obtain ⟨r, hr⟩ := h c List.mem_cons_self
        obtain ⟨rs, hrs⟩ := ih fun c hc => h c (List.mem_cons_of_mem _ hc)
        exact ⟨r :: rs, .cons hr hrs⟩
    obtain ⟨rs, hrs⟩ := hex _ fun c hc => (hcl c (isCluster_mem (fs := fs) hA hu hc)).1
    exact ⟨_, .ok hu (outcomes := rs.map .ok) (by rwa [List.forall₂_map_right_iff]) (collect_eq_ok.2 rfl)⟩
  · intro r hr
    cases r with
    | error e =>
      exfalso
      generalize ho : (Except.error e : Except Err (IdContainer d)) = o at hr
      cases hr with
      | ok => cases ho
      | error hu hall hcol =>
        obtain ⟨c, hc, h⟩ := forall₂_mem_right hall (collect_error hcol)
        exact (hcl c (isCluster_mem hA hu hc)).2.1 _ h
    | ok out =>
      refine ⟨out, rfl, fun x hx hk => ?_⟩
      obtain ⟨-, -, pu, hu, hall⟩ := flRunBy_ok hr
      obtain ⟨c, hc, h⟩ := forall₂_mem_right hall hx
      exact (hcl c (isCluster_mem hA hu hc)).2.2 x h hk

/-- **C116 (never raises, open boundaries).**  In a non-periodic box, neither of the two methods ever raises, whatever the positions (near a moderate box). -/
theorem C116_never_raises_open (hb : ProperBox cs) (hper : cs.periodic = false) (hA : IdAccurate R.id cs positions) (hM : Moderate cs positions M) (hfs : 0 ≤ fs) (hS : SPAccurate R.sp) (hB : BlasAccurate R.blas)
    (hm : method = "shortest_path" ∨ method = "ballistic") :
    (∃ r, FL.RunBy R positions cs fs method r) ∧
    ∀ r, FL.RunBy R positions cs fs method r → ∃ out, r = .ok out ∧ ∀ x ∈ out.results, x.dimension = some 1 → ∃ l, x.shape = some (.line l) :=
  C116_never_raises hb hA hM hfs hS hB (hm.imp id fun h => ⟨h, fun _ hc h2 => C114_resolved_open hper hc h2⟩)

/-- **C116 (the dominating-set method).**  For positions near a moderate box, the identification in double precision with the method `dominating_set` always comes to an end, and it raises nothing but `NetworkXNoPath` and `TypeError`. -/
theorem C116_dominating_run (hb : ProperBox cs) (hA : IdAccurate R.id cs positions) (hM : Moderate cs positions M) (hD : DSPaths R.ds) (hT : DSTotal R.ds) :
    (∃ r, FL.RunBy R positions cs fs "dominating_set" r) ∧ ∀ e, FL.RunBy R positions cs fs "dominating_set" (.error e) → e = .noPath ∨ e = .type := by
  have hline : ∀ c, IsCluster R.id.rnd cs fs positions R.id.dist c → (∃ l, FL.EvaluateLine R c cs fs "dominating_set" l) ∧ ∀ e, FL.EvaluateLine R c cs fs "dominating_set" (.error e) → e = .noPath ∨ e = .type := by
    intro c hc
    obtain ⟨r, hr⟩ := C116_dominating_terminates (rnd := R.id.rnd) hD hT (isCluster_spec hc).1 (isCluster_ne hc) (C115_lengths hA.nearest hc) R.id.dist fs
    refine ⟨⟨_, .dominating hr⟩, fun e he => ?_⟩
    generalize hr : (Except.error e : Except Err (NodalLine (Vec d))) = o at he
    generalize hms : "dominating_set" = ms at he
    cases he with
    | invalid _ h => exact absurd hms.symm h
    | ballistic => exact absurd hms (by decide)
    | ballisticError => exact absurd hms (by decide)
    | shortest => exact absurd hms (by decide)
    | shortestError => exact absurd hms (by decide)
    | dominating h =>
      rcases C116_dominating_set hD (isCluster_spec hc).1 h with rfl | rfl | ⟨rg, rfl, -⟩
      · cases hr; exact .inl rfl
      · cases hr; exact .inr rfl
      · cases hr
  have hcl : ∀ c, IsCluster R.id.rnd cs fs positions R.id.dist c →
      (∃ r, FL.IdentifyClusterBy R cs fs "dominating_set" c r) ∧ ∀ e, FL.IdentifyClusterBy R cs fs "dominating_set" c (.error e) → e = .noPath ∨ e = .type := by
    intro c hc
    refine ⟨?_, ?_⟩
    · obtain ⟨r, hr⟩ := fl_calculateDimension_total R.id c cs fs 3 (some 5) (some 10)
      cases r with
      | error e => exact ⟨_, .dimError hr⟩
      | ok dim =>
        by_cases h0 : dim = some 0
        · subst h0
          obtain ⟨p, hp⟩ := C109_average_total R.id.rnd cs c.nodes
          cases p with
          | error e => exact ⟨_, .shapeError hr (.pointError hp)⟩
          | ok p => exact ⟨_, .ok hr (.point hp)⟩
        · by_cases h1 : dim = some 1
          · subst h1
            obtain ⟨⟨l, hl⟩, hx⟩ := hline c hc
            cases l with
            | ok l => exact ⟨_, .ok hr (.line hl)⟩
            | error e =>
              refine ⟨_, .shapeError hr (.lineError hl ?_ ?_)⟩ <;> rcases hx e hl with rfl | rfl <;> simp
          · exact ⟨_, .ok hr (.other h0 h1)⟩
    · intro e he
      generalize hr : (Except.error e : Except Err (IdResult d)) = o at he
      cases he with
      | ok => cases hr
      | dimError h => exact absurd h (fl_dim_never_raises hb hA hM hc)
      | @shapeError dim e' h1 h2 =>
        cases hr
        generalize ho : (Except.error e : Except Err (Option (Shape d))) = o' at h2
        cases h2 with
        | point => cases ho
        | pointError h => exact absurd h (fl_point_never_raises hb hA hM hc)
        | line => cases ho
        | lineWarning => cases ho
        | lineError h => cases ho; exact (hline c hc).2 _ h
        | other => cases ho
  constructor
  · have hu : IsUniqueList positions positions.dedup := ⟨List.nodup_dedup _, fun x => List.mem_dedup⟩
    have hex : ∀ l : List (NxGraph (Vec d) ℝ), (∀ c ∈ l, ∃ r, FL.IdentifyClusterBy R cs fs "dominating_set" c r) → ∃ rs, List.Forall₂ (FL.IdentifyClusterBy R cs fs "dominating_set") l rs := by
      intro l
      induction l with
      | nil => exact fun _ => ⟨[], .nil⟩
      | cons c l ih =>
        intro h
        obtain ⟨r, hr⟩ := h c List.mem_cons_self
        obtain ⟨rs, hrs⟩ := ih fun c hc => h c (List.mem_cons_of_mem _ hc)
        exact ⟨r :: rs, .cons hr hrs⟩
    obtain ⟨rs, hrs⟩ := hex _ fun c hc => (hcl c (isCluster_mem (fs := fs) hA hu hc)).1
    cases hcol : collect rs with
    | ok out => exact ⟨_, .ok hu hrs hcol⟩
    | error e => exact ⟨_, .error hu hrs hcol⟩
  · intro e he
    generalize ho : (Except.error e : Except Err (IdContainer d)) = o at he
    cases he with
    | ok => cases ho
    | error hu hall hcol =>
      cases ho
      obtain ⟨c, hc, h⟩ := forall₂_mem_right hall (collect_error hcol)
      exact (hcl c (isCluster_mem hA hu hc)).2 _ h

/-- **C116 (one model).**  The results of this model are results of the model of C112, which leaves the lines open: everything that is proved there (isolated points, the vote) holds here. -/
theorem C116_refines {r : Except Err (IdContainer d)} (h : FL.RunBy R positions cs fs method r) : FL.RunFromPositions R.id positions cs fs r := by
  have hE : ∀ {g dim s}, FL.EvaluateClusterBy R g cs fs method dim s → FL.EvaluateCluster R.id g cs dim s := by
    intro g dim s h
    cases h with
    | point h => exact .point h
    | pointError h => exact .pointError h
    | line => exact .line
    | lineWarning => exact .line
    | lineError => exact .line
    | other h0 h1 => exact .other h0 h1
  have hI : ∀ {g o}, FL.IdentifyClusterBy R cs fs method g o → FL.IdentifyCluster R.id cs fs g o := by
    intro g o h
    cases h with
    | dimError h => exact .dimError h
    | shapeError h1 h2 => exact .shapeError h1 (hE h2)
    | ok h1 h2 => exact .ok h1 (hE h2)
  cases h with
  | ok hu hF hc => exact .ok hu (hF.imp fun _ _ => hI) hc
  | error hu hF hc => exact .error hu (hF.imp fun _ _ => hI) hc

/-- **C116 (isolated points).**  With any method, positions within `r` of points that are far from each other are identified as one point each (C112). -/
theorem C116_points (hb : ProperBox cs) (hA : IdAccurate R.id cs positions) (hM : Moderate cs positions M) {r : ℝ} {Z : Set (Vec d)} (hZ : WellIsolated cs fs r (distanceError cs) Z)
    (hnear : ∀ x ∈ positions, ∃ z ∈ Z, cs.distance x z ≤ r) {res : Except Err (IdContainer d)} (h : FL.RunBy R positions cs fs method res) :
    ∃ out, res = .ok out ∧ PointsFound cs r (r + averageError cs M positions.length) Z positions out := C112_points hb hA hM hZ hnear (C116_refines h)

/-! ## Examples -/

namespace C116Demo

/-- libraries that compute exactly -/
def exactDS (V : Type) : FL.DSLib V := ⟨fun x => x ^ 4, shortestLength, IsShortest⟩

theorem exactDS_paths (V : Type) : DSPaths (exactDS V) := fun h => h.1

theorem exactDS_total (V : Type) : DSTotal (exactDS V) where
  pow4 x := by
    change 0 ≤ x ^ 4
    positivity
  length := by
    intro g f s t x h
    change shortestLength g f s t = some x at h
    unfold shortestLength at h
    split_ifs at h with hex
    exact ⟨_, hex.choose_spec.1⟩
  path hg hs h _ := exists_shortest hg _ hs h

def demo : FL.RunArith 1 := ⟨C112Demo.arith C102Demo.rndEven exBox, exactBlas, exactSP, exactDS _⟩

theorem demo_moderate : Moderate exBox [![1.125], ![0.875], (![9] : Vec 1)] (fun _ => 40) := by
  refine ⟨C112Demo.box_moderate, ?_, ?_, by norm_num⟩
  · intro p hp i
    simp only [List.mem_cons, List.not_mem_nil, or_false] at hp
    fin_cases i
    rcases hp with rfl | rfl | rfl <;> norm_num [exBox, abs_le]
  · intro p hp i
    simp only [List.mem_cons, List.not_mem_nil, or_false] at hp
    fin_cases i
    rcases hp with rfl | rfl | rfl <;> norm_num [abs_le]

/-- the hypotheses of C116_results, C116_never_raises and C116_never_raises_open: three positions in the interval `[0, 10]`, of which two are joined -/
example : IdAccurate demo.id exBox [![1.125], ![0.875], (![9] : Vec 1)] ∧ ∀ method, (method = "shortest_path" ∨ method = "ballistic") →
    ∃ out, FL.RunBy demo [![1.125], ![0.875], ![9]] exBox 2 method (.ok out) ∧ IdentifiedNearly demo.id.rnd [![1.125], ![0.875], ![9]] exBox 2 (distanceError exBox) out ∧
      (∃ r ∈ out.results, ![1.125] ∈ r.positions ∧ ![0.875] ∈ r.positions) := by
  have hacc : IdAccurate demo.id exBox [![1.125], ![0.875], (![9] : Vec 1)] := C112Demo.accurate C102Demo.rndEven_nearest exBox _
  refine ⟨hacc, fun method hm => ?_⟩
  obtain ⟨⟨r, hr⟩, h2⟩ := C116_never_raises_open exBox_proper rfl hacc demo_moderate (fs := 2) (by norm_num) exactSP_accurate exactBlas_accurate hm
  obtain ⟨out, rfl, -⟩ := h2 r hr
  have hid := C116_results exBox_proper hacc demo_moderate exactSP_accurate (exactDS_paths _) hr
  refine ⟨out, hr, hid, ?_⟩
  have hde : distanceError exBox ≤ 1 / 1000 := by
    rw [distanceError_one]
    norm_num [exBox]
  exact hid.joined _ (by simp) _ (by simp) (.single ⟨by simp, by simp, by rw [ex_dist]; norm_num [abs_le]; linarith⟩)

/-- the hypotheses of C116_dominating_run and C116_dominating_terminates -/
example : ∃ r, FL.RunBy demo [![1.125], ![0.875], ![9]] exBox 2 "dominating_set" r ∧ (∀ e, r = .error e → e = .noPath ∨ e = .type) := by
  have hacc : IdAccurate demo.id exBox [![1.125], ![0.875], (![9] : Vec 1)] := C112Demo.accurate C102Demo.rndEven_nearest exBox _
  obtain ⟨⟨r, hr⟩, h2⟩ := C116_dominating_run (R := demo) (fs := 2) exBox_proper hacc demo_moderate (exactDS_paths _) (exactDS_total _)
  exact ⟨r, hr, fun e he => h2 e (he ▸ hr)⟩

/-- the hypotheses of C116_dominating_set: a graph with one node -/
example : GoodGraph (⟨[0], []⟩ : NxGraph ℕ ℝ) ∧ ∃ rg, FL.EvalDominating (exactDS ℕ) C102Demo.rndEven ⟨[0], []⟩ (fun _ _ => 0) 1 (.ok rg) ∧ Dominates rg (⟨[0], []⟩ : NxGraph ℕ ℝ) := by
  have hg : GoodGraph (⟨[0], []⟩ : NxGraph ℕ ℝ) := by
    constructor <;> simp
  have hs : FL.EvalDominating (exactDS ℕ) C102Demo.rndEven ⟨[0], []⟩ (fun _ _ => 0) 1 (.ok ⟨[0], []⟩) := by
    refine .remove (D := [0]) (l := []) (sorted := []) (sub := ⟨[0], []⟩) ?_ ?_ List.Perm.nil List.Pairwise.nil ?_ ?_
    · have := Greedy.start (g := FL.dsReduced C102Demo.rndEven 1 (⟨[0], []⟩ : NxGraph ℕ ℝ)) (v := 0) (by simp [FL.dsReduced])
      simpa [FL.dsReduced] using this
    · simp [dsSubgraph, NxGraph.subgraph, pairs2, FL.toPatch]
    · have : dsSubgraph (⟨[0], []⟩ : NxGraph ℕ ℝ) [0] = ⟨[0], []⟩ := by simp [dsSubgraph, NxGraph.subgraph]
      rw [this]
      exact .nil
    · exact .ok (sorted := []) (by simp) List.Perm.nil List.Pairwise.nil .nil
  refine ⟨hg, _, hs, ?_⟩
  rcases C116_dominating_set (exactDS_paths ℕ) hg hs with h | h | ⟨rg, h, -, -, -, h2⟩
  · cases h
  · cases h
  · cases h; exact h2

end C116Demo

end NF
