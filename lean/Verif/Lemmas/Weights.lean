import Verif.Lemmas.ShortestPath

/-! # Weights of edges and paths in the shortest-path method -/

noncomputable section
open Classical
namespace NF
open Spec NxGraph
variable {V A : Type}

/-! ### Weights of edges -/

theorem joins_of_endpoints {B : Type} {e : V × V × A} {f : V × V × B} (h1 : e.1 = f.1) (h2 : e.2.1 = f.2.1) {x y : V} : joins e x y ↔ joins f x y := by
  unfold joins; rw [h1, h2]

/-- In a simple graph the weight of an edge is the attribute of the entry that joins its ends. -/
theorem edgeWeight_of_mem {g : NxGraph V (ℝ × ℝ)} (hg : GoodGraph g) {e : V × V × ℝ × ℝ} (he : e ∈ g.edges) {x y : V} (hj : joins e x y) : edgeWeight g x y = e.2.2.2 := by
  unfold edgeWeight
  have hs := hg.single
  generalize g.edges = l at he hs
  induction l with
  | nil => simp at he
  | cons a l ih =>
    rw [List.pairwise_cons] at hs
    rw [List.find?_cons]
    by_cases ha : joins a x y
    · rcases List.mem_cons.1 he with rfl | he
      · simp [ha]
      · exfalso
        refine hs.1 e he ?_
        unfold joins at ha hj ⊢
        rcases ha with ⟨h1, h2⟩ | ⟨h1, h2⟩ <;> rw [h1, h2]
        · exact hj
        · exact hj.symm
    · simp only [ha, decide_false]
      rcases List.mem_cons.1 he with rfl | he
      · exact absurd hj ha
      · exact ih he hs.2

theorem edgeWeight_updateEdge {g : NxGraph V (ℝ × ℝ)} (hg : GoodGraph g) (u v : V) (upd : ℝ × ℝ → ℝ × ℝ) (w : ℝ → ℝ) (hupd : ∀ a, (upd a).2 = w a.2) {x y : V} (h : g.hasEdge x y) :
    edgeWeight (g.updateEdge u v upd) x y = if (x = u ∧ y = v) ∨ (x = v ∧ y = u) then w (edgeWeight g x y) else edgeWeight g x y := by
  obtain ⟨e, he, hj⟩ := h
  have hg' := sameShape_good (sameShape_updateEdge g u v upd) hg
  rw [edgeWeight_of_mem hg he hj]
  have hm : (if joins e u v then (e.1, e.2.1, upd e.2.2) else e) ∈ (g.updateEdge u v upd).edges := List.mem_map.2 ⟨e, he, rfl⟩
  have hj' : joins (if joins e u v then (e.1, e.2.1, upd e.2.2) else e) x y := by
    split_ifs
    · exact hj
    · exact hj
  rw [edgeWeight_of_mem hg' hm hj']
  have hiff : joins e u v ↔ (x = u ∧ y = v) ∨ (x = v ∧ y = u) := by
    unfold joins at hj ⊢
    rcases hj with ⟨rfl, rfl⟩ | ⟨rfl, rfl⟩ <;> tauto
  simp only [hiff]
  split_ifs
  · exact hupd _
  · rfl

theorem edgeWeight_updateNeighbourWeights {g : NxGraph V (ℝ × ℝ)} (hg : GoodGraph g) (node : V) (m : ℝ) {x y : V} (h : g.hasEdge x y) :
    edgeWeight (updateNeighbourWeights node m g) x y = edgeWeight g x y * (if x = node then m else 1) * (if y = node then m else 1) := by
  have hne := (goodGraph_edge hg h).2.2
  have key : ∀ (l : List V) (k : NxGraph V (ℝ × ℝ)), l.Nodup → GoodGraph k → k.hasEdge x y →
      edgeWeight (l.foldl (fun h nbr => h.updateEdge node nbr fun a => (a.1, a.2 * m)) k) x y = if (x = node ∧ y ∈ l) ∨ (y = node ∧ x ∈ l) then edgeWeight k x y * m else edgeWeight k x y := by
    intro l
    induction l with
    | nil => intro k _ _ _; simp
    | cons a l ih =>
      intro k hnd hk hxy
      rw [List.nodup_cons] at hnd
      rw [List.foldl_cons, ih _ hnd.2 (sameShape_good (sameShape_updateEdge _ _ _ _) hk) ((sameShape_hasEdge (sameShape_updateEdge _ _ _ _) x y).2 hxy),
        edgeWeight_updateEdge hk node a _ (fun c => c * m) (fun _ => rfl) hxy]
      by_cases h1 : x = node
      · have h2 : y ≠ node := fun e => hne (h1.trans e.symm)
        by_cases h3 : y = a
        · subst h3; simp [h1, h2, hnd.1]
        · simp [h1, h2, h3]
      · by_cases h2 : y = node
        · by_cases h3 : x = a
          · subst h3; simp [h1, h2, hnd.1]
          · simp [h1, h2, h3]
        · simp [h1, h2]
  unfold updateNeighbourWeights
  rw [key _ g (neighbors_nodup hg node) hg h]
  by_cases h1 : x = node
  · have h2 : y ≠ node := fun e => hne (h1.trans e.symm)
    have : y ∈ g.neighbors node := mem_neighbors.2 (h1 ▸ h)
    simp [h1, h2, this]
  · by_cases h2 : y = node
    · have : x ∈ g.neighbors node := mem_neighbors.2 (hasEdge_symm.1 (h2 ▸ h))
      simp [h1, h2, this]
    · simp [h1, h2]

theorem edgeWeight_foldl_updateNeighbourWeights (m : ℝ) {x y : V} : ∀ (l : List V) (g : NxGraph V (ℝ × ℝ)), l.Nodup → GoodGraph g → g.hasEdge x y →
    edgeWeight (l.foldl (fun h node => updateNeighbourWeights node m h) g) x y = edgeWeight g x y * (if x ∈ l then m else 1) * (if y ∈ l then m else 1) := by
  intro l
  induction l with
  | nil => intro g _ _ _; simp
  | cons a l ih =>
    intro g hnd hg h
    rw [List.nodup_cons] at hnd
    rw [List.foldl_cons, ih _ hnd.2 (sameShape_good (sameShape_updateNeighbourWeights _ _ _) hg) ((sameShape_hasEdge (sameShape_updateNeighbourWeights _ _ _) x y).2 h),
      edgeWeight_updateNeighbourWeights hg a m h]
    have key : ∀ z, (if z = a then m else 1) * (if z ∈ l then m else 1) = if z ∈ a :: l then m else 1 := by
      intro z
      by_cases hz : z = a
      · subst hz; simp [hnd.1]
      · simp [hz]
    rw [← key x, ← key y]
    ring

theorem edgeWeight_zeroWeights {x y : V} (p : List V) {g : NxGraph V (ℝ × ℝ)} (hg : GoodGraph g) (h : g.hasEdge x y) :
    edgeWeight (zeroWeights g p) x y = if (x, y) ∈ pathEdges p ∨ (y, x) ∈ pathEdges p then 0 else edgeWeight g x y := by
  unfold zeroWeights
  generalize pathEdges p = l
  induction l generalizing g with
  | nil => simp
  | cons a l ih =>
    rw [List.foldl_cons, ih (sameShape_good (sameShape_updateEdge _ _ _ _) hg) ((sameShape_hasEdge (sameShape_updateEdge _ _ _ _) x y).2 h),
      edgeWeight_updateEdge hg a.1 a.2 _ (fun _ => 0) (fun _ => rfl) h]
    simp only [List.mem_cons, Prod.ext_iff]
    by_cases h1 : (x, y) ∈ l ∨ (y, x) ∈ l
    · rw [if_pos h1, if_pos (by tauto)]
    · rw [if_neg h1]
      by_cases h2 : (x = a.1 ∧ y = a.2) ∨ (x = a.2 ∧ y = a.1)
      · rw [if_pos h2, if_pos (by tauto)]
      · rw [if_neg h2, if_neg (by tauto)]

/-! ### Weights of paths -/

theorem pathWeight_single (g : NxGraph V (ℝ × ℝ)) (x : V) : pathWeight g [x] = 0 := by simp [pathWeight, pathEdges]

theorem pathWeight_cons (g : NxGraph V (ℝ × ℝ)) (x y : V) (l : List V) : pathWeight g (x :: y :: l) = edgeWeight g x y + pathWeight g (y :: l) := by
  simp [pathWeight, pathEdges]

theorem pathWeight_append (g : NxGraph V (ℝ × ℝ)) (X : List V) (a : V) (Y : List V) : pathWeight g (X ++ a :: Y) = pathWeight g (X ++ [a]) + pathWeight g (a :: Y) := by
  induction X with
  | nil => simp [pathWeight_single]
  | cons b X ih =>
    cases X with
    | nil => simp only [List.cons_append, List.nil_append, pathWeight_cons, pathWeight_single]; ring
    | cons c X =>
      simp only [List.cons_append, pathWeight_cons] at ih ⊢
      rw [ih]; ring

theorem pathWeight_nonneg {g : NxGraph V (ℝ × ℝ)} (h : ∀ x y, g.hasEdge x y → 0 ≤ edgeWeight g x y) : ∀ {p : List V}, p.IsChain g.hasEdge → 0 ≤ pathWeight g p := by
  intro p
  induction p with
  | nil => intro _; simp [pathWeight, pathEdges]
  | cons a l ih =>
    intro hc
    cases l with
    | nil => rw [pathWeight_single]
    | cons b l =>
      rw [List.isChain_cons_cons] at hc
      rw [pathWeight_cons]
      exact add_nonneg (h _ _ hc.1) (ih hc.2)

/-- A chain of weight zero has only edges of weight zero. -/
theorem chain_of_weight_zero {g : NxGraph V (ℝ × ℝ)} (h : ∀ x y, g.hasEdge x y → 0 ≤ edgeWeight g x y) {r : V → V → Prop} (hr : ∀ x y, g.hasEdge x y → edgeWeight g x y ≤ 0 → r x y) :
    ∀ {p : List V}, p.IsChain g.hasEdge → pathWeight g p ≤ 0 → p.IsChain r := by
  intro p
  induction p with
  | nil => intro _ _; simp
  | cons a l ih =>
    intro hc hw
    cases l with
    | nil => simp
    | cons b l =>
      rw [List.isChain_cons_cons] at hc ⊢
      rw [pathWeight_cons] at hw
      have h1 := h _ _ hc.1
      have h2 := pathWeight_nonneg h hc.2
      exact ⟨hr _ _ hc.1 (by linarith), ih hc.2 (by linarith)⟩

theorem weight_zero_of_chain {g : NxGraph V (ℝ × ℝ)} {r : V → V → Prop} (hr : ∀ x y, r x y → edgeWeight g x y = 0) : ∀ {p : List V}, p.IsChain r → pathWeight g p = 0 := by
  intro p
  induction p with
  | nil => intro _; simp [pathWeight, pathEdges]
  | cons a l ih =>
    intro hc
    cases l with
    | nil => rw [pathWeight_single]
    | cons b l =>
      rw [List.isChain_cons_cons] at hc
      rw [pathWeight_cons, hr _ _ hc.1, ih hc.2, add_zero]

/-! ### Splitting lists -/

theorem split_last {p : List V} {Q : V → Prop} (h : ∃ x ∈ p, Q x) : ∃ a y b, p = a ++ y :: b ∧ Q y ∧ ∀ z ∈ b, ¬ Q z := by
  induction p with
  | nil => simp at h
  | cons c p ih =>
    by_cases h' : ∃ x ∈ p, Q x
    · obtain ⟨a, y, b, rfl, h1, h2⟩ := ih h'
      exact ⟨c :: a, y, b, rfl, h1, h2⟩
    · push Not at h'
      obtain ⟨x, hx, hQ⟩ := h
      rcases List.mem_cons.1 hx with rfl | hx
      · exact ⟨[], x, p, rfl, hQ, h'⟩
      · exact absurd hQ (h' x hx)

theorem split_first {p : List V} {Q : V → Prop} (h : ∃ x ∈ p, Q x) : ∃ a y b, p = a ++ y :: b ∧ Q y ∧ ∀ z ∈ a, ¬ Q z := by
  induction p with
  | nil => simp at h
  | cons c p ih =>
    by_cases hc : Q c
    · exact ⟨[], c, p, rfl, hc, by simp⟩
    · obtain ⟨x, hx, hQ⟩ := h
      rcases List.mem_cons.1 hx with rfl | hx
      · exact absurd hQ hc
      · obtain ⟨a, y, b, rfl, h1, h2⟩ := ih ⟨x, hx, hQ⟩
        refine ⟨c :: a, y, b, rfl, h1, fun z hz => ?_⟩
        rcases List.mem_cons.1 hz with rfl | hz
        exacts [hc, h2 z hz]

/-- A detour in a shortest path is not heavier than the direct edge. -/
theorem shortest_no_detour {g : NxGraph V (ℝ × ℝ)} {s e : V} {X Y R : List V} {a b : V} (h : IsShortestPath g s e (X ++ a :: (Y ++ b :: R))) (hab : g.hasEdge a b) :
    pathWeight g (a :: (Y ++ [b])) ≤ edgeWeight g a b := by
  have hsub : (X ++ a :: b :: R).Sublist (X ++ a :: (Y ++ b :: R)) := (List.Sublist.cons_cons a (List.sublist_append_right Y (b :: R))).append_left X
  have hc := h.1.chain
  rw [List.isChain_append] at hc
  have hc2 : (b :: R).IsChain g.hasEdge := by
    have := hc.2.1
    rw [show a :: (Y ++ b :: R) = (a :: Y) ++ b :: R by simp, List.isChain_append] at this
    exact this.2.1
  have hp : g.IsPath s e (X ++ a :: b :: R) := by
    refine ⟨?_, ?_, ?_, h.1.nodup.sublist hsub⟩
    · have := h.1.head
      cases X <;> simpa using this
    · have := h.1.last
      rw [show X ++ a :: (Y ++ b :: R) = (X ++ a :: Y) ++ b :: R by simp, List.getLast?_append_of_ne_nil _ (by simp)] at this
      rw [show X ++ a :: b :: R = (X ++ [a]) ++ b :: R by simp, List.getLast?_append_of_ne_nil _ (by simp)]
      exact this
    · rw [List.isChain_append]
      exact ⟨hc.1, List.isChain_cons_cons.2 ⟨hab, hc2⟩, fun x hx y hy => hc.2.2 x hx y (by simpa using hy)⟩
  have := h.2 _ hp
  rw [pathWeight_append, pathWeight_append g X a (b :: R), pathWeight_cons, show a :: (Y ++ b :: R) = (a :: Y) ++ b :: R by simp, pathWeight_append g (a :: Y)] at this
  simp only [List.cons_append] at this
  linarith

end NF
