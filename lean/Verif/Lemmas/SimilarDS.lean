import Verif.Lemmas.GraphMap
import Verif.Lemmas.DominatingSet

/-! # Lemmas: the dominating-set method, with renamed nodes and another unit of length -/

noncomputable section
open Classical

namespace NF
variable {V W A B : Type}

/-- The attributes of an edge in the unit `1 / a`. -/
def dsAttr (a : ℝ) (p : DSAttr) : DSAttr := ⟨a * p.dist, p.weight.map (a ^ 4 * ·)⟩

/-- The result with renamed nodes. -/
def dsResult (f : V → W) (a : ℝ) : Except Err (NxGraph V DSAttr) → Except Err (NxGraph W DSAttr)
  | .error e => .error e
  | .ok g => .ok (g.map f (dsAttr a))

section
variable {f : V → W} (hf : Function.Injective f) {a : ℝ} (ha : 0 < a)
include hf

theorem attr_map (k : A → B) (g : NxGraph V A) (x y : V) : (g.map f k).attr? (f x) (f y) = (g.attr? x y).map k := by
  unfold NxGraph.attr?
  rw [NxGraph.find_map hf]
  cases g.edges.find? fun e => decide (NxGraph.joins e x y) <;> rfl

omit hf in
theorem pathLength_map (l : V → V → ℝ) (l' : W → W → ℝ) (c : ℝ) {p : List V} (h : ∀ e ∈ pathEdges p, l' (f e.1) (f e.2) = c * l e.1 e.2) : pathLength l' (p.map f) = c * pathLength l p := by
  unfold pathLength
  rw [pathEdges_map, List.map_map, ← List.sum_map_mul_left]
  congr 1
  exact List.map_congr_left fun e he => h e he

theorem isShortest_map (k : A → B) {g : NxGraph V A} {l : V → V → ℝ} {l' : W → W → ℝ} {c : ℝ} (hc : 0 < c) (h : ∀ x y, g.hasEdge x y → l' (f x) (f y) = c * l x y) {s t : V} {p : List V} :
    IsShortest (g.map f k) l' (f s) (f t) (p.map f) ↔ IsShortest g l s t p := by
  have hl : ∀ q : List V, q.IsChain g.hasEdge → pathLength l' (q.map f) = c * pathLength l q := by
    intro q hq
    refine pathLength_map l l' c ?_
    induction q with
    | nil => simp [pathEdges]
    | cons x q ih =>
      cases q with
      | nil => simp [pathEdges]
      | cons y q =>
        rw [List.isChain_cons_cons] at hq
        intro e he
        have : pathEdges (x :: y :: q) = (x, y) :: pathEdges (y :: q) := rfl
        rw [this, List.mem_cons] at he
        rcases he with rfl | he
        · exact h _ _ hq.1
        · exact ih hq.2 e he
  unfold IsShortest
  rw [NxGraph.isPath_map hf]
  refine and_congr_right fun hp => ?_
  rw [hl p hp.chain]
  constructor
  · intro hm q hq
    have := hm _ ((NxGraph.isPath_map hf k).2 hq)
    rw [hl q hq.chain] at this
    exact le_of_mul_le_mul_left this hc
  · intro hm q hq
    obtain ⟨q, rfl⟩ := NxGraph.isPath_map_range _ hq
    have hq := (NxGraph.isPath_map hf k).1 hq
    rw [hl q hq.chain]
    exact mul_le_mul_of_nonneg_left (hm q hq) hc.le

theorem shortestLength_map (k : A → B) {g : NxGraph V A} {l : V → V → ℝ} {l' : W → W → ℝ} {c : ℝ} (hc : 0 < c) (h : ∀ x y, l' (f x) (f y) = c * l x y) (s t : V) :
    shortestLength (g.map f k) l' (f s) (f t) = (shortestLength g l s t).map (c * ·) := by
  have hs := fun p : List V => isShortest_map hf k hc (fun x y (_ : g.hasEdge x y) => h x y) (s := s) (t := t) (p := p)
  unfold shortestLength
  by_cases he : ∃ p, IsShortest g l s t p
  · have he' : ∃ p, IsShortest (g.map f k) l' (f s) (f t) p := ⟨_, (hs _).2 he.choose_spec⟩
    rw [dif_pos he, dif_pos he', Option.map_some]
    congr 1
    have h1 := he'.choose_spec
    have h2 := he.choose_spec
    have h3 := (hs _).2 h2
    have : pathLength l' he'.choose = pathLength l' (he.choose.map f) := le_antisymm (h1.2 _ h3.1) (h3.2 _ h1.1)
    rw [this]
    exact pathLength_map l l' c fun e _ => h e.1 e.2
  · rw [dif_neg he, dif_neg]
    · rfl
    · rintro ⟨p, hp⟩
      obtain ⟨q, rfl⟩ := NxGraph.isPath_map_range _ hp.1
      exact he ⟨q, (hs q).1 hp⟩

theorem edgeDist_map (g : NxGraph V DSAttr) (x y : V) : edgeDist (g.map f (dsAttr a)) (f x) (f y) = a * edgeDist g x y := by
  unfold edgeDist
  rw [attr_map hf]
  cases g.attr? x y <;> simp [dsAttr]

theorem edgeW_map (g : NxGraph V DSAttr) (hw : ∀ e ∈ g.edges, e.2.2.weight ≠ none) {x y : V} (hxy : g.hasEdge x y) : edgeW (g.map f (dsAttr a)) (f x) (f y) = a ^ 4 * edgeW g x y := by
  unfold edgeW
  rw [attr_map hf]
  obtain ⟨e, he, -, h⟩ := attr_some hxy
  rw [h]
  obtain ⟨w, h⟩ := Option.ne_none_iff_exists'.1 (hw e he)
  simp [dsAttr, h]

omit hf in
theorem dsGraphCopy_map (g : NxGraph V ℝ) : dsGraphCopy (g.map f (a * ·)) = (dsGraphCopy g).map f (dsAttr a) := by
  unfold dsGraphCopy NxGraph.map
  simp only [List.map_map, NxGraph.mk.injEq, true_and]
  refine List.map_congr_left fun e _ => ?_
  simp [dsAttr, mul_pow]

omit hf in
include ha in
theorem dsReduced_map (fs : ℝ) (g : NxGraph V ℝ) : dsReduced (a * fs) (g.map f (a * ·)) = (dsReduced fs g).map f id := by
  unfold dsReduced NxGraph.map
  simp only [NxGraph.mk.injEq, true_and]
  rw [filter_map_congr (fun e : V × V × ℝ => (f e.1, f e.2.1, a * e.2.2)) (p := fun e => e.2.2 < a * fs / 3) (q := fun e => e.2.2 < fs / 3), List.map_map, List.map_map]
  · rfl
  · intro e _
    dsimp only
    rw [mul_div_assoc, mul_lt_mul_iff_of_pos_left ha]

theorem greedy_map {g : NxGraph V Unit} {D rem : List V} (h : Greedy g D rem) : Greedy (g.map f id) (D.map f) (rem.map f) := by
  induction h with
  | @start v hv =>
    have := Greedy.start (g := g.map f id) (List.mem_map.2 ⟨v, hv, rfl⟩)
    convert this using 1
    · rfl
    · refine (filter_map_congr f fun x _ => ?_).symm
      rw [NxGraph.neighbors_map hf, NxGraph.mem_map_iff hf, ne_eq, ne_eq, hf.eq_iff]
  | @add D rem v _ hv ih =>
    have := Greedy.add ih (List.mem_map.2 ⟨v, hv, rfl⟩)
    convert this using 1
    · simp
    · refine (filter_map_congr f fun x _ => ?_).symm
      rw [NxGraph.neighbors_map hf, NxGraph.mem_map_iff hf, NxGraph.mem_map_iff hf, ne_eq, ne_eq, hf.eq_iff]

theorem dsSubgraph_map (g : NxGraph V ℝ) (D : List V) : dsSubgraph (g.map f (a * ·)) (D.map f) = (dsSubgraph g D).map f (dsAttr a) := by
  unfold dsSubgraph
  rw [NxGraph.subgraph_map (a * ·) g (s := fun x => x ∈ D) fun x => NxGraph.mem_map_iff hf]
  unfold NxGraph.map
  simp only [List.map_map, NxGraph.mk.injEq, true_and]
  exact List.map_congr_left fun e _ => rfl

omit hf in
theorem pairs2_map (l : List V) : pairs2 (l.map f) = (pairs2 l).map fun e => (f e.1, f e.2) := by
  induction l with
  | nil => rfl
  | cons x l ih => simp [pairs2, ih]

include ha in
theorem patchEntry_map {sub graph : NxGraph V DSAttr} {δ : V → V → ℝ} {δ' : W → W → ℝ} {fs : ℝ} {x y : V} (h : δ' (f x) (f y) = a * δ x y) :
    patchEntry (sub.map f (dsAttr a)) (graph.map f (dsAttr a)) δ' (a * fs) (f x) (f y) = (patchEntry sub graph δ fs x y).map (Option.map fun e => (f e.1, f e.2.1, a * e.2.2)) := by
  have h1 := fun g : NxGraph V DSAttr => shortestLength_map hf (dsAttr a) ha (edgeDist_map hf g) x y (g := g) (l := edgeDist g)
  have hm : max (a * fs) (1.001 * (a * δ x y)) = a * max fs (1.001 * δ x y) := by
    rw [mul_max_of_nonneg _ _ ha.le]
    congr 1
    ring
  have h2 : ∀ u v : ℝ, a * u < a * v ↔ u < v := fun u v => mul_lt_mul_iff_of_pos_left ha
  have h3 : ∀ c u : ℝ, c * (a * u) = a * (c * u) := fun c u => by ring
  unfold patchEntry
  rw [h, h1, h1, hm]
  cases shortestLength sub (edgeDist sub) x y with
  | none =>
    simp only [Option.map_none, h3, h2]
    split_ifs <;> rfl
  | some u =>
    cases shortestLength graph (edgeDist graph) x y with
    | none =>
      simp only [Option.map_none, Option.map_some, h3, h2, gt_iff_lt]
      split_ifs <;> rfl
    | some v =>
      simp only [Option.map_some, h3, h2, gt_iff_lt]
      split_ifs <;> rfl

include ha in
theorem toPatch_map {sub graph : NxGraph V DSAttr} {δ : V → V → ℝ} {δ' : W → W → ℝ} {fs : ℝ} {ps : List (V × V)} (h : ∀ e ∈ ps, δ' (f e.1) (f e.2) = a * δ e.1 e.2) :
    toPatch (sub.map f (dsAttr a)) (graph.map f (dsAttr a)) δ' (a * fs) (ps.map fun e => (f e.1, f e.2)) =
      (toPatch sub graph δ fs ps).map (List.map fun e => (f e.1, f e.2.1, a * e.2.2)) := by
  induction ps with
  | nil => rfl
  | cons e ps ih =>
    obtain ⟨x, y⟩ := e
    rw [List.map_cons, toPatch, toPatch, patchEntry_map hf ha (h (x, y) List.mem_cons_self), ih fun e he => h e (List.mem_cons_of_mem _ he)]
    cases patchEntry sub graph δ fs x y with
    | error e => rfl
    | ok o =>
      cases toPatch sub graph δ fs ps with
      | error e => rfl
      | ok l => cases o <;> rfl

theorem patchHole_map (sub graph : NxGraph V DSAttr) (p : List V) : patchHole (sub.map f (dsAttr a)) (graph.map f (dsAttr a)) (p.map f) = (patchHole sub graph p).map f (dsAttr a) := by
  have h1 : ∀ (l : List V) (s : NxGraph V DSAttr), (l.map f).foldl (fun s x => s.addNode x) (s.map f (dsAttr a)) = (l.foldl (fun s x => s.addNode x) s).map f (dsAttr a) := by
    intro l
    induction l with
    | nil => intro s; rfl
    | cons x l ih =>
      intro s
      rw [List.map_cons, List.foldl_cons, List.foldl_cons, NxGraph.addNode_map hf]
      exact ih _
  unfold patchHole
  rw [pathEdges_map, ← List.map_tail, ← List.map_dropLast, h1]
  generalize List.foldl (fun s x => s.addNode x) sub p.tail.dropLast = s
  generalize pathEdges p = l
  induction l generalizing s with
  | nil => rfl
  | cons e l ih =>
    rw [List.map_cons, List.foldl_cons, List.foldl_cons]
    dsimp only
    rw [attr_map hf]
    cases graph.attr? e.1 e.2 with
    | none => exact ih _
    | some b =>
      simp only [Option.map_some]
      rw [NxGraph.addEdge_map hf]
      exact ih _

include ha in
theorem patchLoop_map {graph : NxGraph V DSAttr} {l : List (V × V × ℝ)} {sub : NxGraph V DSAttr} {r : Except Err (NxGraph V DSAttr)} (h : PatchLoop graph l sub r) :
    PatchLoop (graph.map f (dsAttr a)) (l.map fun e => (f e.1, f e.2.1, a * e.2.2)) (sub.map f (dsAttr a)) (dsResult f a r) := by
  have h1 := fun (g : NxGraph V DSAttr) x y => shortestLength_map hf (dsAttr a) ha (edgeDist_map hf g) x y (g := g) (l := edgeDist g)
  have h2 : ∀ u v : ℝ, a * u < a * v ↔ u < v := fun u v => mul_lt_mul_iff_of_pos_left ha
  have h3 : ∀ c u : ℝ, c * (a * u) = a * (c * u) := fun c u => by ring
  induction h with
  | nil => exact .nil
  | noPath h => exact .noPath (by rw [h1, h]; rfl)
  | @skip sub x y o rest r u hu hn _ ih =>
    refine .skip (x := a * u) (by rw [h1, hu]; rfl) ?_ ih
    rwa [h3, gt_iff_lt, h2]
  | @patch sub x y o rest r u p hu hn hp _ ih =>
    refine .patch (x := a * u) (p := p.map f) (by rw [h1, hu]; rfl) ?_ ?_ ?_
    · rwa [h3, gt_iff_lt, h2]
    · exact (isShortest_map hf _ ha fun x y _ => edgeDist_map hf graph x y).2 hp
    · rw [patchHole_map hf]
      exact ih

include ha in
theorem removeLoop_map {l : List (V × V)} {sub r : NxGraph V DSAttr} (h : RemoveLoop l sub r) (hw : ∀ e ∈ sub.edges, e.2.2.weight ≠ none) :
    RemoveLoop (l.map fun e => (f e.1, f e.2)) (sub.map f (dsAttr a)) (r.map f (dsAttr a)) := by
  induction h with
  | nil => exact .nil
  | @cons sub x y rest p r hp _ ih =>
    refine .cons (p := p.map f) ((isShortest_map hf _ (pow_pos ha 4) fun x y h => edgeW_map hf sub hw h).2 hp) ?_
    rw [List.length_map, NxGraph.removeEdge_map hf]
    have hi : ∀ e ∈ (if p.length > 2 then sub.removeEdge x y else sub).edges, e.2.2.weight ≠ none := by
      intro e he
      split_ifs at he
      · exact hw e (List.mem_of_mem_filter he)
      · exact hw e he
    have := ih hi
    split_ifs with h <;> simpa only [h, if_true, if_false] using this

include ha in
theorem removeDuplicates_map {sub : NxGraph V DSAttr} {r : Except Err (NxGraph V DSAttr)} (h : RemoveDuplicates sub r) : RemoveDuplicates (sub.map f (dsAttr a)) (dsResult f a r) := by
  cases h with
  | @noWeight e he hw => exact .noWeight (List.mem_map.2 ⟨e, he, rfl⟩) (by simp [dsAttr, hw])
  | @ok sorted r hw hp hs hr =>
    refine .ok (sorted := sorted.map fun e => (f e.1, f e.2.1, dsAttr a e.2.2)) ?_ (hp.map _) ?_ ?_
    · intro e he
      obtain ⟨e, he', rfl⟩ := List.mem_map.1 he
      simpa [dsAttr] using hw e he'
    · rw [List.pairwise_map]
      refine hs.imp_of_mem fun {e e'} he he' h => ?_
      obtain ⟨w, h1⟩ := Option.ne_none_iff_exists'.1 (hw e (hp.mem_iff.1 he))
      obtain ⟨w', h2⟩ := Option.ne_none_iff_exists'.1 (hw e' (hp.mem_iff.1 he'))
      simp only [h1, h2, Option.getD_some, dsAttr, Option.map_some] at h ⊢
      exact mul_le_mul_of_nonneg_left h (pow_pos ha 4).le
    · have := removeLoop_map hf ha hr hw
      rw [List.map_map] at this ⊢
      exact this

include ha in
theorem evalDominating_map {g : NxGraph V ℝ} {δ : V → V → ℝ} {δ' : W → W → ℝ} {fs : ℝ} {r : Except Err (NxGraph V DSAttr)} (hδ : ∀ x ∈ g.nodes, ∀ y ∈ g.nodes, δ' (f x) (f y) = a * δ x y)
    (h : EvalDominating g δ fs r) : EvalDominating (g.map f (a * ·)) δ' (a * fs) (dsResult f a r) := by
  have hG : ∀ {D : List V}, Greedy (dsReduced fs g) D [] → Greedy (dsReduced (a * fs) (g.map f (a * ·))) (D.map f) [] := by
    intro D hD
    rw [dsReduced_map ha]
    exact greedy_map hf hD
  have hT : ∀ D : List V, toPatch (dsSubgraph (g.map f (a * ·)) (D.map f)) (dsGraphCopy (g.map f (a * ·))) δ' (a * fs) (pairs2 (dsSubgraph (g.map f (a * ·)) (D.map f)).nodes) =
      (toPatch (dsSubgraph g D) (dsGraphCopy g) δ fs (pairs2 (dsSubgraph g D).nodes)).map (List.map fun e => (f e.1, f e.2.1, a * e.2.2)) := by
    intro D
    rw [dsSubgraph_map hf, dsGraphCopy_map]
    have : ((dsSubgraph g D).map f (dsAttr a)).nodes = (dsSubgraph g D).nodes.map f := rfl
    rw [this, pairs2_map]
    refine toPatch_map hf ha fun e he => ?_
    obtain ⟨h1, h2⟩ := mem_pairs2 he
    exact hδ _ (mem_dsSubgraph.1 h1).1 _ (mem_dsSubgraph.1 h2).1
  have hS : ∀ {l sorted : List (V × V × ℝ)}, sorted.Pairwise (fun x y => x.2.2 ≤ y.2.2) → (sorted.map fun e => (f e.1, f e.2.1, a * e.2.2)).Pairwise (fun x y => x.2.2 ≤ y.2.2) := by
    intro l sorted h
    rw [List.pairwise_map]
    exact h.imp fun h => mul_le_mul_of_nonneg_left h ha.le
  cases h with
  | @collect D e hD ht => exact .collect (hG hD) (by rw [hT, ht]; rfl)
  | @patch D l sorted e hD ht hp hs hl =>
    refine .patch (hG hD) (l := l.map fun e => (f e.1, f e.2.1, a * e.2.2)) (by rw [hT, ht]; rfl) (hp.map _) (hS (l := l) hs) ?_
    rw [dsSubgraph_map hf, dsGraphCopy_map]
    exact patchLoop_map hf ha hl
  | @remove D l sorted sub r hD ht hp hs hl hr =>
    refine .remove (hG hD) (l := l.map fun e => (f e.1, f e.2.1, a * e.2.2)) (by rw [hT, ht]; rfl) (hp.map _) (hS (l := l) hs) (sub := sub.map f (dsAttr a)) ?_ (removeDuplicates_map hf ha hr)
    rw [dsSubgraph_map hf, dsGraphCopy_map]
    exact patchLoop_map hf ha hl

end

end NF
