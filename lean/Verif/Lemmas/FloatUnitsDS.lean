import Verif.Props.FloatUnitsDim
import Verif.Lemmas.SimilarDS
import Verif.Model.FloatDominatingSet

/-! # Lemmas: the dominating-set method with rounding, in a unit that differs by a power of two -/

noncomputable section
open Classical

namespace NF
open Spec
variable {V W A B : Type}

section
variable {f : V → W} (hf : Function.Injective f) {rnd : ℝ → ℝ} (hr : BinaryRounding rnd) {k : ℤ} {L : FL.DSLib V} {L' : FL.DSLib W}

/-- networkx and the power of the C library do not depend on the unit. -/
structure DSUnits (f : V → W) (a : ℝ) (L : FL.DSLib V) (L' : FL.DSLib W) : Prop where
  pow4 : ∀ x, L'.pow4 (a * x) = a ^ 4 * L.pow4 x
  length : ∀ (g : NxGraph V DSAttr) x y, L'.length (g.map f (dsAttr a)) (edgeDist (g.map f (dsAttr a))) (f x) (f y) = (L.length g (edgeDist g) x y).map (a * ·)
  pathD : ∀ {g : NxGraph V DSAttr} {x y p}, L.path g (edgeDist g) x y p → L'.path (g.map f (dsAttr a)) (edgeDist (g.map f (dsAttr a))) (f x) (f y) (p.map f)
  pathW : ∀ {g : NxGraph V DSAttr} {x y p}, (∀ e ∈ g.edges, e.2.2.weight ≠ none) → L.path g (edgeW g) x y p → L'.path (g.map f (dsAttr a)) (edgeW (g.map f (dsAttr a))) (f x) (f y) (p.map f)

variable (hL : DSUnits f (2 ^ k) L L')

include hL in
theorem fl_dsGraphCopy_map (g : NxGraph V ℝ) : FL.dsGraphCopy L' (g.map f (2 ^ k * ·)) = (FL.dsGraphCopy L g).map f (dsAttr (2 ^ k)) := by
  unfold FL.dsGraphCopy NxGraph.map
  simp only [List.map_map, NxGraph.mk.injEq, true_and]
  refine List.map_congr_left fun e _ => ?_
  simp [dsAttr, hL.pow4]

include hr in
theorem fl_dsReduced_map (fs : ℝ) (g : NxGraph V ℝ) : FL.dsReduced rnd (2 ^ k * fs) (g.map f (2 ^ k * ·)) = (FL.dsReduced rnd fs g).map f id := by
  unfold FL.dsReduced NxGraph.map
  simp only [NxGraph.mk.injEq, true_and]
  rw [filter_map_congr (fun e : V × V × ℝ => (f e.1, f e.2.1, 2 ^ k * e.2.2)) (p := fun e => e.2.2 < rnd (2 ^ k * fs / 3)) (q := fun e => e.2.2 < rnd (fs / 3)), List.map_map, List.map_map]
  · rfl
  · intro e _
    dsimp only
    rw [mul_div_assoc, hr, mul_lt_mul_iff_of_pos_left (two_zpow_pos k)]

omit hL in
include hr in
theorem bin_rmul (c u : ℝ) : rnd (c * (2 ^ k * u)) = 2 ^ k * rnd (c * u) := by
  rw [show c * (2 ^ k * u) = 2 ^ k * (c * u) by ring, hr]

include hr hL

theorem fl_patchEntry_map {sub graph : NxGraph V DSAttr} {δ : V → V → ℝ} {δ' : W → W → ℝ} {fs : ℝ} {x y : V} (h : δ' (f x) (f y) = 2 ^ k * δ x y) :
    FL.patchEntry L' rnd (sub.map f (dsAttr (2 ^ k))) (graph.map f (dsAttr (2 ^ k))) δ' (2 ^ k * fs) (f x) (f y) = (FL.patchEntry L rnd sub graph δ fs x y).map (Option.map fun e => (f e.1, f e.2.1, 2 ^ k * e.2.2)) := by
  have h1 := fun g : NxGraph V DSAttr => hL.length g x y
  have hm : max (2 ^ k * fs) (2 ^ k * rnd (rnd 1.001 * δ x y)) = 2 ^ k * max fs (rnd (rnd 1.001 * δ x y)) := (mul_max_of_nonneg _ _ (two_zpow_pos k).le).symm
  have h2 : ∀ u v : ℝ, (2 : ℝ) ^ k * u < 2 ^ k * v ↔ u < v := fun u v => mul_lt_mul_iff_of_pos_left (two_zpow_pos k)
  have h3 := fun c u => bin_rmul hr (k := k) c u
  unfold FL.patchEntry
  rw [h, h1, h1, h3 (rnd 1.001), hm]
  cases L.length sub (edgeDist sub) x y with
  | none =>
    simp only [Option.map_none, h3, h2]
    split_ifs <;> rfl
  | some u =>
    cases L.length graph (edgeDist graph) x y with
    | none =>
      simp only [Option.map_none, Option.map_some, h3, h2, gt_iff_lt]
      split_ifs <;> rfl
    | some v =>
      simp only [Option.map_some, h3, h2, gt_iff_lt]
      split_ifs <;> rfl

theorem fl_toPatch_map {sub graph : NxGraph V DSAttr} {δ : V → V → ℝ} {δ' : W → W → ℝ} {fs : ℝ} {ps : List (V × V)} (h : ∀ e ∈ ps, δ' (f e.1) (f e.2) = 2 ^ k * δ e.1 e.2) :
    FL.toPatch L' rnd (sub.map f (dsAttr (2 ^ k))) (graph.map f (dsAttr (2 ^ k))) δ' (2 ^ k * fs) (ps.map fun e => (f e.1, f e.2)) =
      (FL.toPatch L rnd sub graph δ fs ps).map (List.map fun e => (f e.1, f e.2.1, 2 ^ k * e.2.2)) := by
  induction ps with
  | nil => rfl
  | cons e ps ih =>
    obtain ⟨x, y⟩ := e
    rw [List.map_cons, FL.toPatch, FL.toPatch, fl_patchEntry_map hr hL (h (x, y) List.mem_cons_self), ih fun e he => h e (List.mem_cons_of_mem _ he)]
    cases FL.patchEntry L rnd sub graph δ fs x y with
    | error e => rfl
    | ok o =>
      cases FL.toPatch L rnd sub graph δ fs ps with
      | error e => rfl
      | ok l => cases o <;> rfl

include hf

theorem fl_patchLoop_map {graph : NxGraph V DSAttr} {l : List (V × V × ℝ)} {sub : NxGraph V DSAttr} {r : Except Err (NxGraph V DSAttr)} (h : FL.PatchLoop L rnd graph l sub r) :
    FL.PatchLoop L' rnd (graph.map f (dsAttr (2 ^ k))) (l.map fun e => (f e.1, f e.2.1, 2 ^ k * e.2.2)) (sub.map f (dsAttr (2 ^ k))) (dsResult f (2 ^ k) r) := by
  have h1 := fun (g : NxGraph V DSAttr) x y => hL.length g x y
  have h2 : ∀ u v : ℝ, (2 : ℝ) ^ k * u < 2 ^ k * v ↔ u < v := fun u v => mul_lt_mul_iff_of_pos_left (two_zpow_pos k)
  have h3 := fun c u => bin_rmul hr (k := k) c u
  induction h with
  | nil => exact .nil
  | noPath h => exact .noPath (by rw [h1, h]; rfl)
  | @skip sub x y o rest r u hu hn _ ih =>
    refine .skip (x := 2 ^ k * u) (by rw [h1, hu]; rfl) ?_ ih
    rwa [h3, gt_iff_lt, h2]
  | @patch sub x y o rest r u p hu hn hp _ ih =>
    refine .patch (x := 2 ^ k * u) (p := p.map f) (by rw [h1, hu]; rfl) ?_ ?_ ?_
    · rwa [h3, gt_iff_lt, h2]
    · exact hL.pathD hp
    · rw [patchHole_map hf]
      exact ih

theorem fl_removeLoop_map {l : List (V × V)} {sub r : NxGraph V DSAttr} (h : FL.RemoveLoop L l sub r) (hw : ∀ e ∈ sub.edges, e.2.2.weight ≠ none) :
    FL.RemoveLoop L' (l.map fun e => (f e.1, f e.2)) (sub.map f (dsAttr (2 ^ k))) (r.map f (dsAttr (2 ^ k))) := by
  induction h with
  | nil => exact .nil
  | @cons sub x y rest p r hp _ ih =>
    refine .cons (p := p.map f) (hL.pathW hw hp) ?_
    rw [List.length_map, NxGraph.removeEdge_map hf]
    have hi : ∀ e ∈ (if p.length > 2 then sub.removeEdge x y else sub).edges, e.2.2.weight ≠ none := by
      intro e he
      split_ifs at he
      · exact hw e (List.mem_of_mem_filter he)
      · exact hw e he
    have := ih hi
    split_ifs with h <;> simpa only [h, if_true, if_false] using this

theorem fl_removeDuplicates_map {sub : NxGraph V DSAttr} {r : Except Err (NxGraph V DSAttr)} (h : FL.RemoveDuplicates L sub r) : FL.RemoveDuplicates L' (sub.map f (dsAttr (2 ^ k))) (dsResult f (2 ^ k) r) := by
  cases h with
  | @noWeight e he hw => exact .noWeight (List.mem_map.2 ⟨e, he, rfl⟩) (by simp [dsAttr, hw])
  | @ok sorted r hw hp hs hrl =>
    refine .ok (sorted := sorted.map fun e => (f e.1, f e.2.1, dsAttr (2 ^ k) e.2.2)) ?_ (hp.map _) ?_ ?_
    · intro e he
      obtain ⟨e, he', rfl⟩ := List.mem_map.1 he
      simpa [dsAttr] using hw e he'
    · rw [List.pairwise_map]
      refine hs.imp_of_mem fun {e e'} he he' h => ?_
      obtain ⟨w, h1⟩ := Option.ne_none_iff_exists'.1 (hw e (hp.mem_iff.1 he))
      obtain ⟨w', h2⟩ := Option.ne_none_iff_exists'.1 (hw e' (hp.mem_iff.1 he'))
      simp only [h1, h2, Option.getD_some, dsAttr, Option.map_some] at h ⊢
      exact mul_le_mul_of_nonneg_left h (pow_pos (two_zpow_pos k) 4).le
    · have := fl_removeLoop_map hf hr hL hrl hw
      rw [List.map_map] at this ⊢
      exact this

theorem fl_evalDominating_map {g : NxGraph V ℝ} {δ : V → V → ℝ} {δ' : W → W → ℝ} {fs : ℝ} {r : Except Err (NxGraph V DSAttr)} (hδ : ∀ x ∈ g.nodes, ∀ y ∈ g.nodes, δ' (f x) (f y) = 2 ^ k * δ x y)
    (h : FL.EvalDominating L rnd g δ fs r) : FL.EvalDominating L' rnd (g.map f (2 ^ k * ·)) δ' (2 ^ k * fs) (dsResult f (2 ^ k) r) := by
  have hG : ∀ {D : List V}, Greedy (FL.dsReduced rnd fs g) D [] → Greedy (FL.dsReduced rnd (2 ^ k * fs) (g.map f (2 ^ k * ·))) (D.map f) [] := by
    intro D hD
    rw [fl_dsReduced_map hr]
    exact greedy_map hf hD
  have hT : ∀ D : List V, FL.toPatch L' rnd (dsSubgraph (g.map f (2 ^ k * ·)) (D.map f)) (FL.dsGraphCopy L' (g.map f (2 ^ k * ·))) δ' (2 ^ k * fs) (pairs2 (dsSubgraph (g.map f (2 ^ k * ·)) (D.map f)).nodes) =
      (FL.toPatch L rnd (dsSubgraph g D) (FL.dsGraphCopy L g) δ fs (pairs2 (dsSubgraph g D).nodes)).map (List.map fun e => (f e.1, f e.2.1, 2 ^ k * e.2.2)) := by
    intro D
    rw [dsSubgraph_map hf, fl_dsGraphCopy_map hL]
    have : ((dsSubgraph g D).map f (dsAttr (2 ^ k))).nodes = (dsSubgraph g D).nodes.map f := rfl
    rw [this, pairs2_map]
    refine fl_toPatch_map hr hL fun e he => ?_
    obtain ⟨h1, h2⟩ := mem_pairs2 he
    exact hδ _ (mem_dsSubgraph.1 h1).1 _ (mem_dsSubgraph.1 h2).1
  have hS : ∀ {l sorted : List (V × V × ℝ)}, sorted.Pairwise (fun x y => x.2.2 ≤ y.2.2) → (sorted.map fun e => (f e.1, f e.2.1, 2 ^ k * e.2.2)).Pairwise (fun x y => x.2.2 ≤ y.2.2) := by
    intro l sorted h
    rw [List.pairwise_map]
    exact h.imp fun h => mul_le_mul_of_nonneg_left h (two_zpow_pos k).le
  cases h with
  | @collect D e hD ht => exact .collect (hG hD) (by rw [hT, ht]; rfl)
  | @patch D l sorted e hD ht hp hs hl =>
    refine .patch (hG hD) (l := l.map fun e => (f e.1, f e.2.1, 2 ^ k * e.2.2)) (by rw [hT, ht]; rfl) (hp.map _) (hS (l := l) hs) ?_
    rw [dsSubgraph_map hf, fl_dsGraphCopy_map hL]
    exact fl_patchLoop_map hf hr hL hl
  | @remove D l sorted sub r hD ht hp hs hl hrd =>
    refine .remove (hG hD) (l := l.map fun e => (f e.1, f e.2.1, 2 ^ k * e.2.2)) (by rw [hT, ht]; rfl) (hp.map _) (hS (l := l) hs) (sub := sub.map f (dsAttr (2 ^ k))) ?_ (fl_removeDuplicates_map hf hr hL hrd)
    rw [dsSubgraph_map hf, fl_dsGraphCopy_map hL]
    exact fl_patchLoop_map hf hr hL hl

end

end NF
