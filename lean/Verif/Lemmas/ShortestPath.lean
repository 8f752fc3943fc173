import Verif.Model.ShortestPath
import Verif.Lemmas.Graph
import Mathlib.Data.List.Permutation
import Mathlib.Data.Finset.Max

/-! # Lemmas for the shortest-path line evaluation -/

noncomputable section
open Classical

namespace NF
open Spec NxGraph
variable {V A B : Type}

/-! ## Paths -/

theorem isPath_mono {g : NxGraph V A} {h : NxGraph V B} (hgh : ∀ x y, g.hasEdge x y → h.hasEdge x y) {s t : V} {p : List V} (hp : g.IsPath s t p) : h.IsPath s t p :=
  ⟨hp.head, hp.last, hp.chain.imp hgh, hp.nodup⟩

/-- A walk that is not a path can be made shorter. -/
theorem exists_path_of_walk {g : NxGraph V A} {s t : V} : ∀ (n : ℕ) (p : List V), p.length ≤ n → p.head? = some s → p.getLast? = some t → p.IsChain g.hasEdge →
    ∃ q, g.IsPath s t q ∧ q.length ≤ p.length := by
  intro n
  induction n with
  | zero => intro p hp h; cases p <;> simp at hp h
  | succ n ih =>
    intro p hp h1 h2 h3
    by_cases hnd : p.Nodup
    · exact ⟨p, ⟨h1, h2, h3, hnd⟩, le_rfl⟩
    · obtain ⟨x, hx⟩ : ∃ x, List.Duplicate x p := by
        by_contra hno
        push Not at hno
        exact hnd (List.nodup_iff_forall_not_duplicate.2 hno)
      obtain ⟨a, c, rfl, hc⟩ : ∃ a c, p = a ++ x :: c ∧ x ∈ c := by
        clear ih hp h1 h2 h3 hnd
        induction hx with
        | cons_mem h => exact ⟨[], _, rfl, h⟩
        | cons_duplicate _ ih => obtain ⟨a, c, rfl, h⟩ := ih; exact ⟨_ :: a, c, rfl, h⟩
      obtain ⟨b, c, rfl⟩ := List.append_of_mem hc
      have hq : (a ++ x :: c).length ≤ n := by simp at hp ⊢; omega
      obtain ⟨q, hq1, hq2⟩ := ih (a ++ x :: c) hq (by cases a <;> simpa using h1)
        (by
          rw [List.getLast?_append] at h2 ⊢
          rw [show x :: (b ++ x :: c) = (x :: b) ++ x :: c by simp, List.getLast?_append] at h2
          cases h : (x :: c).getLast? with
          | none => simp at h
          | some y => rw [h] at h2; simpa using h2)
        (by
          rw [List.isChain_append] at h3 ⊢
          refine ⟨h3.1, ?_, fun y hy z hz => h3.2.2 y hy z (by simpa using hz)⟩
          have := h3.2.1
          rw [show x :: (b ++ x :: c) = (x :: b) ++ x :: c by simp, List.isChain_append] at this
          exact this.2.1)
      exact ⟨q, hq1, by simp at hq2 ⊢; omega⟩

theorem exists_path_of_reach {g : NxGraph V A} {s t : V} (h : Reach g s t) : ∃ p, g.IsPath s t p := by
  obtain ⟨p, h1, h2, h3⟩ : ∃ p : List V, p.head? = some s ∧ p.getLast? = some t ∧ p.IsChain g.hasEdge := by
    induction h with
    | refl => exact ⟨[s], rfl, rfl, by simp⟩
    | @tail b c _ hbc ih =>
      obtain ⟨p, h1, h2, h3⟩ := ih
      refine ⟨p ++ [c], ?_, by simp, ?_⟩
      · cases p <;> simp at h1 ⊢; exact h1
      · rw [List.isChain_append]
        refine ⟨h3, by simp, fun x hx y hy => ?_⟩
        rw [h2] at hx
        simp at hx hy
        subst hx; subst hy
        exact hbc
  obtain ⟨q, hq, -⟩ := exists_path_of_walk _ p le_rfl h1 h2 h3
  exact ⟨q, hq⟩

theorem isPath_mem {g : NxGraph V A} (hg : GoodGraph g) {s t : V} {p : List V} (hp : g.IsPath s t p) (hs : s ∈ g.nodes) : ∀ x ∈ p, x ∈ g.nodes := by
  obtain ⟨h1, -, h3, -⟩ := hp
  clear * - hg h1 h3 hs
  induction p generalizing s with
  | nil => simp
  | cons a l ih =>
    simp at h1
    subst h1
    intro x hx
    rcases List.mem_cons.1 hx with rfl | hx
    · exact hs
    · cases l with
      | nil => simp at hx
      | cons b l =>
        rw [List.isChain_cons_cons] at h3
        exact ih (goodGraph_edge hg h3.1).2.1 rfl h3.2 x hx

theorem exists_shortestPath {g : NxGraph V (ℝ × ℝ)} (hg : GoodGraph g) {s t : V} (hs : s ∈ g.nodes) (h : ∃ p, g.IsPath s t p) : ∃ p, IsShortestPath g s t p := by
  let all := (g.nodes.sublists.flatMap List.permutations).filter fun p => decide (g.IsPath s t p)
  have hmem : ∀ p, g.IsPath s t p ↔ p ∈ all.toFinset := by
    intro p
    simp only [all, List.mem_toFinset, List.mem_filter, decide_eq_true_eq, List.mem_flatMap, List.mem_sublists, List.mem_permutations]
    refine ⟨fun hp => ⟨?_, hp⟩, fun h => h.2⟩
    have : List.Subperm p g.nodes := List.subperm_of_subset hp.nodup fun x hx => isPath_mem hg hp hs x hx
    obtain ⟨l, h1, h2⟩ := this
    exact ⟨l, h2, h1.symm⟩
  obtain ⟨p, hp⟩ := h
  obtain ⟨q, hq, hmin⟩ := Finset.exists_min_image all.toFinset (pathWeight g) ⟨p, (hmem p).1 hp⟩
  exact ⟨q, (hmem q).2 hq, fun r hr => hmin r ((hmem r).1 hr)⟩

/-- If every node of a path from `s` to `t` is adjacent (or equal) to `s` or `t`, then there is a path of at most four nodes. -/
theorem exists_short_path {g : NxGraph V A} {s t : V} {p : List V} (hp : g.IsPath s t p) (hall : ∀ x ∈ p, closedNeighbors g s x ∨ closedNeighbors g t x) :
    ∃ q, g.IsPath s t q ∧ q.length ≤ 5 := by
  have hcat : ∀ {x y : V}, closedNeighbors g s x → closedNeighbors g t y → (x = y ∨ g.hasEdge x y) → ∃ q, g.IsPath s t q ∧ q.length ≤ 5 := by
    intro x y hx hy hxy
    obtain ⟨w, h1, h2, h3, h4⟩ : ∃ w : List V, w.head? = some s ∧ w.getLast? = some t ∧ w.IsChain g.hasEdge ∧ w.length ≤ 5 := by
      have hsx : s = x ∨ g.hasEdge s x := hx.elim (fun h => .inl h.symm) (fun h => .inr (mem_neighbors.1 h))
      have hyt : y = t ∨ g.hasEdge y t := hy.elim .inl (fun h => .inr (hasEdge_symm.1 (mem_neighbors.1 h)))
      rcases hsx with rfl | hsx <;> rcases hxy with rfl | hxy <;> rcases hyt with rfl | hyt
      · exact ⟨[s], by simp⟩
      · exact ⟨[s, t], by simp [hyt]⟩
      · exact ⟨[s, y], by simp [hxy]⟩
      · exact ⟨[s, y, t], by simp [hxy, hyt]⟩
      · exact ⟨[s, x], by simp [hsx]⟩
      · exact ⟨[s, x, t], by simp [hsx, hyt]⟩
      · exact ⟨[s, x, y], by simp [hsx, hxy]⟩
      · exact ⟨[s, x, y, t], by simp [hsx, hxy, hyt]⟩
    obtain ⟨q, hq1, hq2⟩ := exists_path_of_walk _ w le_rfl h1 h2 h3
    exact ⟨q, hq1, hq2.trans h4⟩
  -- go along the path
  have key : ∀ (l : List V) (a : V), closedNeighbors g s a → (a :: l).IsChain g.hasEdge → (∀ x ∈ a :: l, closedNeighbors g s x ∨ closedNeighbors g t x) →
      (a :: l).getLast? = some t → ∃ q, g.IsPath s t q ∧ q.length ≤ 5 := by
    intro l
    induction l with
    | nil =>
      intro a ha _ _ hl
      simp at hl
      subst hl
      exact hcat ha (.inl rfl) (.inl rfl)
    | cons b l ih =>
      intro a ha hch hall hl
      rw [List.isChain_cons_cons] at hch
      rcases hall b (by simp) with hb | hb
      · exact ih b hb hch.2 (fun x hx => hall x (List.mem_cons_of_mem _ hx)) (by simpa using hl)
      · exact hcat ha hb (.inr hch.1)
  cases p with
  | nil => have := hp.head; simp at this
  | cons a l =>
    have h1 := hp.head
    simp at h1
    subst h1
    exact key l a (.inl rfl) hp.chain hall hp.last

/-! ## The graph operations keep nodes and edges -/

/-- Same nodes and same edges, whatever the attributes. -/
def SameShape (g : NxGraph V A) (h : NxGraph V B) : Prop := g.edges.map (fun e => (e.1, e.2.1)) = h.edges.map (fun e => (e.1, e.2.1)) ∧ g.nodes = h.nodes

theorem sameShape_hasEdge {g : NxGraph V A} {h : NxGraph V B} (hs : SameShape g h) (x y : V) : g.hasEdge x y ↔ h.hasEdge x y := by
  have key : ∀ {A B : Type} {g : NxGraph V A} {h : NxGraph V B}, SameShape g h → g.hasEdge x y → h.hasEdge x y := by
    rintro A B g h hs ⟨e, he, hj⟩
    have : (e.1, e.2.1) ∈ h.edges.map (fun e => (e.1, e.2.1)) := hs.1 ▸ List.mem_map.2 ⟨e, he, rfl⟩
    obtain ⟨f, hf, hfe⟩ := List.mem_map.1 this
    simp only [Prod.mk.injEq] at hfe
    exact ⟨f, hf, by unfold joins at hj ⊢; rw [hfe.1, hfe.2]; exact hj⟩
  exact ⟨key hs, key ⟨hs.1.symm, hs.2.symm⟩⟩

theorem sameShape_good {g : NxGraph V A} {h : NxGraph V B} (hs : SameShape g h) (hh : GoodGraph h) : GoodGraph g := by
  have hm : ∀ e ∈ g.edges, ∃ f ∈ h.edges, f.1 = e.1 ∧ f.2.1 = e.2.1 := by
    intro e he
    have : (e.1, e.2.1) ∈ h.edges.map (fun e => (e.1, e.2.1)) := hs.1 ▸ List.mem_map.2 ⟨e, he, rfl⟩
    obtain ⟨f, hf, hfe⟩ := List.mem_map.1 this
    simp only [Prod.mk.injEq] at hfe
    exact ⟨f, hf, hfe⟩
  refine ⟨hs.2 ▸ hh.nodup, fun e he => ?_, fun e he => ?_, fun e he => ?_, ?_⟩
  · obtain ⟨f, hf, h1, -⟩ := hm e he; rw [hs.2, ← h1]; exact hh.left f hf
  · obtain ⟨f, hf, -, h1⟩ := hm e he; rw [hs.2, ← h1]; exact hh.right f hf
  · obtain ⟨f, hf, h1, h2⟩ := hm e he; rw [← h1, ← h2]; exact hh.noLoop f hf
  · have h1 : (h.edges.map (fun e => (e.1, e.2.1))).Pairwise fun e f => ¬ ((f.1 = e.1 ∧ f.2 = e.2) ∨ (f.1 = e.2 ∧ f.2 = e.1)) := by
      rw [List.pairwise_map]; exact hh.single
    rw [← hs.1, List.pairwise_map] at h1
    exact h1

theorem sameShape_refl (g : NxGraph V A) : SameShape g g := ⟨rfl, rfl⟩
theorem sameShape_trans {C : Type} {g : NxGraph V A} {h : NxGraph V B} {k : NxGraph V C} (h1 : SameShape g h) (h2 : SameShape h k) : SameShape g k :=
  ⟨h1.1.trans h2.1, h1.2.trans h2.2⟩

theorem sameShape_updateEdge (g : NxGraph V A) (x y : V) (upd : A → A) : SameShape (g.updateEdge x y upd) g := by
  refine ⟨?_, rfl⟩
  unfold updateEdge
  simp only [List.map_map]
  apply List.map_congr_left
  intro e _
  simp only [Function.comp]
  split_ifs <;> rfl

theorem sameShape_foldl {T : Type} (f : NxGraph V A → T → NxGraph V A) (hf : ∀ g x, SameShape (f g x) g) (l : List T) (g : NxGraph V A) : SameShape (l.foldl f g) g := by
  induction l generalizing g with
  | nil => exact sameShape_refl g
  | cons a l ih => exact sameShape_trans (ih _) (hf g a)

theorem sameShape_updateNeighbourWeights (node : V) (m : ℝ) (g : NxGraph V (ℝ × ℝ)) : SameShape (updateNeighbourWeights node m g) g :=
  sameShape_foldl _ (fun _ _ => sameShape_updateEdge _ _ _ _) _ _

theorem sameShape_updateHighDegree (rg : NxGraph V Unit) (gh : NxGraph V (ℝ × ℝ) × List V) : SameShape (updateHighDegree rg gh).1 gh.1 := by
  unfold updateHighDegree
  generalize rg.nodes = l
  induction l generalizing gh with
  | nil => exact sameShape_refl _
  | cons a l ih =>
    simp only [List.foldl_cons]
    refine sameShape_trans (ih _) ?_
    split_ifs
    · exact sameShape_updateNeighbourWeights _ _ _
    · exact sameShape_refl _

theorem sameShape_updateWeights (v : SPVars V) : SameShape (updateWeights v).work v.work := by
  unfold updateWeights updateDegreeOne
  simp only
  exact sameShape_trans (sameShape_foldl _ (fun _ _ => sameShape_updateNeighbourWeights _ _ _) _ _)
    (sameShape_trans (sameShape_foldl _ (fun _ _ => sameShape_updateNeighbourWeights _ _ _) _ _) (sameShape_updateHighDegree _ _))

theorem sameShape_zeroWeights (g : NxGraph V (ℝ × ℝ)) (p : List V) : SameShape (zeroWeights g p) g := sameShape_foldl _ (fun _ _ => sameShape_updateEdge _ _ _ _) _ _

theorem sameShape_initialWeights (fs : ℝ) (g : NxGraph V ℝ) : SameShape (initialWeights fs g) g := by
  refine ⟨?_, rfl⟩
  unfold initialWeights
  simp [Function.comp_def]

/-! ## Adding a path to the result -/

theorem connected_addEdge {rg : NxGraph V Unit} (hc : Connected rg) {a b : V} (ha : a ∈ rg.nodes) : Connected (rg.addEdge a b ()) := by
  have hmono : ∀ {x y}, Reach rg x y → Reach (rg.addEdge a b ()) x y := fun h => rtg_mono (fun u v huv => hasEdge_addEdge.2 (.inl huv)) h
  have hab : Reach (rg.addEdge a b ()) a b := .single (hasEdge_addEdge.2 (.inr (.inl ⟨rfl, rfl⟩)))
  have hto : ∀ x ∈ (rg.addEdge a b ()).nodes, Reach (rg.addEdge a b ()) a x := by
    intro x hx
    rcases mem_addEdge.1 hx with hx | rfl | rfl
    exacts [hmono (hc a ha x hx), .refl, hab]
  exact fun x hx y hy => (reach_symm (hto x hx)).trans (hto y hy)

theorem addPath_spec {g : NxGraph V ℝ} (hg : GoodGraph g) : ∀ (l : List V) (a : V) (rg : NxGraph V Unit), (a :: l).IsChain g.hasEdge → a ∈ rg.nodes →
    GoodGraph rg → SubgraphOf rg g → Connected rg →
    let rg' := (pathEdges (a :: l)).foldl (fun h e => h.addEdge e.1 e.2 ()) rg
    GoodGraph rg' ∧ SubgraphOf rg' g ∧ Connected rg' ∧ (∀ x ∈ rg.nodes, x ∈ rg'.nodes) ∧ (∀ x ∈ a :: l, x ∈ rg'.nodes) ∧ (∀ x y, rg.hasEdge x y → rg'.hasEdge x y) := by
  intro l
  induction l with
  | nil => intro a rg _ ha h1 h2 h3; exact ⟨h1, h2, h3, fun x hx => hx, fun x hx => by rw [List.mem_singleton] at hx; subst hx; exact ha, fun x y h => h⟩
  | cons b l ih =>
    intro a rg hch ha h1 h2 h3
    rw [List.isChain_cons_cons] at hch
    have hab := goodGraph_edge hg hch.1
    have hsub : SubgraphOf (rg.addEdge a b ()) g := by
      refine ⟨fun z hz => ?_, fun u v huv => ?_⟩
      · rcases mem_addEdge.1 hz with hz | rfl | rfl
        exacts [h2.1 z hz, hab.1, hab.2.1]
      · rcases hasEdge_addEdge.1 huv with huv | ⟨rfl, rfl⟩ | ⟨rfl, rfl⟩
        exacts [h2.2 u v huv, hch.1, hasEdge_symm.1 hch.1]
    have := ih b (rg.addEdge a b ()) hch.2 (mem_addEdge.2 (.inr (.inr rfl))) (goodGraph_addEdge h1 hab.2.2 () _) hsub (connected_addEdge h3 ha)
    simp only at this ⊢
    obtain ⟨k1, k2, k3, k4, k5, k6⟩ := this
    have hm : ∀ x ∈ rg.nodes, x ∈ (rg.addEdge a b ()).nodes := fun x hx => mem_addEdge.2 (.inl hx)
    refine ⟨k1, k2, k3, fun x hx => k4 x (hm x hx), fun x hx => ?_, fun x y h => k6 x y (hasEdge_addEdge.2 (.inl h))⟩
    rcases List.mem_cons.1 hx with rfl | hx
    · exact k4 _ (hm _ ha)
    · exact k5 x hx

/-! ## Invariant and measure -/

/-- `x` is in the result or adjacent to it. -/
def Dominated (g : NxGraph V ℝ) (rg : NxGraph V Unit) (x : V) : Prop := x ∈ rg.nodes ∨ ∃ y ∈ rg.nodes, g.hasEdge x y

structure SPCore (g : NxGraph V ℝ) (v : SPVars V) : Prop where
  shape : SameShape v.work g
  good : GoodGraph v.rg
  sub : SubgraphOf v.rg g
  conn : Connected v.rg
  starts : ∀ s ∈ v.starts, s ∈ v.rg.nodes
  startsNe : v.starts ≠ []
  cand : ∀ x ∈ v.cand, x ∈ g.nodes

def SPInv (g : NxGraph V ℝ) : SPState V → Prop
  | .head v => SPCore g v ∧ (∀ x ∈ g.nodes, x ∈ v.cand ∨ Dominated g v.rg x) ∧ v.starts.length + v.cand.length ≤ g.nodes.length
  | .forStart v endPos todo => SPCore g v ∧ (∀ x ∈ g.nodes, x ∈ v.cand ∨ Dominated g v.rg x ∨ closedNeighbors g endPos x) ∧
      v.starts.length + 1 + v.cand.length ≤ g.nodes.length ∧ endPos ∈ g.nodes ∧ (∀ s ∈ todo, s ∈ v.starts) ∧ (endPos ∈ v.rg.nodes ∨ todo ≠ [])
  | .forPath v endPos todo s tmp single n => SPCore g v ∧ (∀ x ∈ g.nodes, x ∈ v.cand ∨ Dominated g v.rg x ∨ closedNeighbors g endPos x) ∧
      v.starts.length + 1 + v.cand.length ≤ g.nodes.length ∧ endPos ∈ g.nodes ∧ (∀ s ∈ todo, s ∈ v.starts) ∧ s ∈ v.starts ∧
      GoodGraph tmp ∧ s ∈ tmp.nodes ∧ (∀ x y, tmp.hasEdge x y → g.hasEdge x y) ∧ (n = 0 → SameShape tmp g) ∧ (0 < n → endPos ∈ v.rg.nodes) ∧
      (single = false → ¬ ∃ p, g.IsPath s endPos p ∧ p.length ≤ 5) ∧ n ≤ maxNumPaths
  | .done rg => GoodGraph rg ∧ SubgraphOf rg g ∧ Connected rg ∧ rg.nodes ≠ [] ∧ ∀ x ∈ g.nodes, Dominated g rg x
  | .error _ => False

def spMeasure (g : NxGraph V ℝ) : SPState V → ℕ
  | .head v => v.cand.length * (22 * g.nodes.length + 3) + 1
  | .forStart v _ todo => v.cand.length * (22 * g.nodes.length + 3) + todo.length * 22 + 2
  | .forPath v _ todo _ _ _ n => v.cand.length * (22 * g.nodes.length + 3) + todo.length * 22 + 2 + (21 - n)
  | .done _ => 0
  | .error _ => 0

theorem mem_removeAll {l : List V} {s : V → Prop} {x : V} : x ∈ removeAll l s ↔ x ∈ l ∧ ¬ s x := by
  unfold removeAll; rw [List.mem_filter, decide_eq_true_eq]

theorem closedNeighbors_congr {g : NxGraph V A} {h : NxGraph V B} (hs : ∀ x y, g.hasEdge x y ↔ h.hasEdge x y) {x y : V} : closedNeighbors g x y ↔ closedNeighbors h x y := by
  unfold closedNeighbors
  rw [mem_neighbors, mem_neighbors, hs]

theorem dominated_mono {g : NxGraph V ℝ} {rg rg' : NxGraph V Unit} (h : ∀ x ∈ rg.nodes, x ∈ rg'.nodes) {x : V} (hx : Dominated g rg x) : Dominated g rg' x :=
  hx.elim (fun hx => .inl (h x hx)) fun ⟨y, hy, hxy⟩ => .inr ⟨y, h y hy, hxy⟩

theorem spStep_inv {g : NxGraph V ℝ} (hg : GoodGraph g) (hconn : Connected g) {s s' : SPState V} (hs : SPInv g s) (hst : SPStep s s') :
    SPInv g s' ∧ spMeasure g s' < spMeasure g s := by
  cases hst with
  | @finish v hc =>
    obtain ⟨h1, h2, -⟩ := hs
    refine ⟨⟨h1.good, h1.sub, h1.conn, ?_, fun x hx => (h2 x hx).elim (fun h => by rw [hc] at h; simp at h) id⟩, by simp [spMeasure]⟩
    obtain ⟨y, hy⟩ := List.exists_mem_of_ne_nil _ h1.startsNe
    exact List.ne_nil_of_mem (h1.starts y hy)
  | @newEnd v endPos todo he hp =>
    obtain ⟨h1, h2, h3⟩ := hs
    have hlt : (removeAll v.cand (closedNeighbors v.work endPos)).length < v.cand.length := by
      refine lt_of_le_of_ne (List.length_filter_le _ _) fun heq => ?_
      have := List.length_filter_eq_length_iff.1 heq endPos he
      simp [closedNeighbors] at this
    refine ⟨⟨⟨h1.shape, h1.good, h1.sub, h1.conn, h1.starts, h1.startsNe, fun x hx => h1.cand x (mem_removeAll.1 hx).1⟩, fun x hx => ?_, by simp only; omega, h1.cand _ he,
      fun s hs => hp.mem_iff.1 hs, .inr fun h => ?_⟩, ?_⟩
    · rcases h2 x hx with h | h
      · by_cases hcl : closedNeighbors v.work endPos x
        · exact .inr (.inr ((closedNeighbors_congr (sameShape_hasEdge h1.shape)).1 hcl))
        · exact .inl (mem_removeAll.2 ⟨h, hcl⟩)
      · exact .inr (.inl h)
    · subst h; exact h1.startsNe (List.Perm.nil_eq hp).symm
    · simp only [spMeasure]
      rw [hp.length_eq]
      have : ((removeAll v.cand (closedNeighbors v.work endPos)).length + 1) * (22 * g.nodes.length + 3) ≤ v.cand.length * (22 * g.nodes.length + 3) := Nat.mul_le_mul_right _ hlt
      rw [Nat.add_mul] at this
      omega
  | @lastStart v endPos =>
    obtain ⟨h1, h2, h3, h4, h5, h6⟩ := hs
    have hend : endPos ∈ v.rg.nodes := h6.elim id (fun h => absurd rfl h)
    refine ⟨⟨⟨h1.shape, h1.good, h1.sub, h1.conn, fun s hs => ?_, by simp, h1.cand⟩, fun x hx => ?_, by simp; omega⟩, by simp [spMeasure]⟩
    · simp at hs; rcases hs with hs | rfl
      exacts [h1.starts s hs, hend]
    · rcases h2 x hx with h | h | h
      · exact .inl h
      · exact .inr h
      · exact .inr (h.elim (fun h => .inl (h ▸ hend)) fun h => .inr ⟨endPos, hend, hasEdge_symm.1 (mem_neighbors.1 h)⟩)
  | @start v endPos s todo hp =>
    obtain ⟨h1, h2, h3, h4, h5, h6⟩ := hs
    have hsh : SameShape (updateWeights v).work g := sameShape_trans (sameShape_updateWeights v) h1.shape
    have hs' : s ∈ v.starts := h5 s (by simp)
    refine ⟨⟨⟨hsh, h1.good, h1.sub, h1.conn, h1.starts, h1.startsNe, h1.cand⟩, h2, h3, h4, fun x hx => h5 x (by simp [hx]), hs',
      sameShape_good hsh hg, ?_, fun x y => (sameShape_hasEdge hsh x y).1, fun _ => hsh, fun h => absurd h (lt_irrefl _), fun h => ?_, Nat.zero_le _⟩, ?_⟩
    · rw [hsh.2]; exact h1.sub.1 s (h1.starts s hs')
    · simp only [decide_eq_false_iff_not] at h
      rintro ⟨p, hp1, hp2⟩
      exact h ⟨p, isPath_mono (fun x y => (sameShape_hasEdge hsh x y).2) hp1, hp2⟩
    · have : (updateWeights v).cand = v.cand := rfl
      simp only [spMeasure, this, List.length_cons]
      omega
  | @noPath v endPos s todo hp =>
    obtain ⟨h1, h2, h3, h4, h5, h6⟩ := hs
    exfalso
    apply hp
    have hsh : SameShape (updateWeights v).work g := sameShape_trans (sameShape_updateWeights v) h1.shape
    obtain ⟨p, hp⟩ := exists_path_of_reach (hconn s (h1.sub.1 s (h1.starts s (h5 s (by simp)))) endPos h4)
    exact ⟨p, isPath_mono (fun x y => (sameShape_hasEdge hsh x y).2) hp⟩
  | @lastPath v endPos todo s tmp single n hn =>
    obtain ⟨h1, h2, h3, h4, h5, h6, h7, h8, h9, h10, h11, h12, h13⟩ := hs
    have hnpos : 0 < n := by
      by_contra h0
      have h0 : n = 0 := by omega
      rcases hn with h | h | h
      · rw [h0] at h; simp [maxNumPaths] at h
      · omega
      · apply h
        obtain ⟨p, hp⟩ := exists_path_of_reach (hconn s (h1.sub.1 s (h1.starts s h6)) endPos h4)
        exact ⟨p, isPath_mono (fun x y => (sameShape_hasEdge (h10 h0) x y).2) hp⟩
    refine ⟨⟨h1, h2, h3, h4, h5, .inl (h11 hnpos)⟩, ?_⟩
    simp only [spMeasure]
    simp only [maxNumPaths] at h13
    omega
  | @assertion v endPos todo s tmp single n path hn hsn hpath hno hsingle =>
    obtain ⟨h1, h2, h3, h4, h5, h6, h7, h8, h9, h10, h11, h12, h13⟩ := hs
    exfalso
    refine h12 hsingle (exists_short_path (isPath_mono h9 hpath.1) fun x hx => ?_)
    by_contra hx'
    apply hno
    refine ⟨x, ⟨x, hx, .inl rfl⟩, fun h => hx' ?_⟩
    exact h.imp (closedNeighbors_congr (sameShape_hasEdge h1.shape)).1 (closedNeighbors_congr (sameShape_hasEdge h1.shape)).1
  | @path v endPos todo s tmp single n path hn hsn hpath hor =>
    obtain ⟨h1, h2, h3, h4, h5, h6, h7, h8, h9, h10, h11, h12, h13⟩ := hs
    obtain ⟨l, rfl⟩ : ∃ l, path = s :: l := by
      have := hpath.1.head
      cases path with
      | nil => simp at this
      | cons a l => simp at this; exact ⟨l, by rw [this]⟩
    obtain ⟨k1, k2, k3, k4, k5, -⟩ := addPath_spec hg l s v.rg (hpath.1.chain.imp h9) (h1.starts s h6) h1.good h1.sub h1.conn
    have hle : (removeAll v.cand (newNeighbours tmp (s :: l))).length ≤ v.cand.length := List.length_filter_le _ _
    have hend : endPos ∈ s :: l := List.mem_of_getLast? hpath.1.last
    have hgz : GoodGraph (zeroWeights tmp (s :: l)) := sameShape_good (sameShape_zeroWeights _ _) h7
    refine ⟨⟨⟨sameShape_trans (sameShape_zeroWeights _ _) h1.shape, k1, k2, k3, fun x hx => k4 x (h1.starts x hx), h1.startsNe, fun x hx => h1.cand x (mem_removeAll.1 hx).1⟩,
      fun x hx => ?_, by simp only; omega, h4, h5, h6, goodGraph_subgraph hgz _, ?_, fun x y hxy => ?_, fun h => by omega, fun _ => k5 _ hend, h12, hn⟩, ?_⟩
    · rcases h2 x hx with h | h | h
      · by_cases hnn : newNeighbours tmp (s :: l) x
        · refine .inr (.inl ?_)
          obtain ⟨node, hnode, rfl | hnb⟩ := hnn
          · exact .inl (k5 _ hnode)
          · exact .inr ⟨node, k5 node hnode, hasEdge_symm.1 (h9 _ _ (mem_neighbors.1 hnb))⟩
        · exact .inl (mem_removeAll.2 ⟨h, hnn⟩)
      · exact .inr (.inl (dominated_mono k4 h))
      · exact .inr (.inr h)
    · refine mem_subgraph.2 ⟨?_, fun h => h.2 (.inl (.inl rfl))⟩
      rw [(sameShape_zeroWeights _ _).2]; exact h8
    · exact h9 x y ((sameShape_hasEdge (sameShape_zeroWeights _ _) x y).1 (hasEdge_subgraph.1 hxy).1)
    · simp only [spMeasure]
      simp only [maxNumPaths] at hn
      have := Nat.mul_le_mul_right (22 * g.nodes.length + 3) hle
      omega

theorem spInit_inv {fs : ℝ} {g : NxGraph V ℝ} (hne : g.nodes ≠ []) {s : SPState V} (hi : SPInit fs g s) : SPInv g s ∧ spMeasure g s ≤ g.nodes.length * (22 * g.nodes.length + 3) := by
  cases hi with
  | empty h => exact absurd h hne
  | @first p hp =>
    have hsh := sameShape_initialWeights fs g
    have hlt : (removeAll g.nodes (closedNeighbors (initialWeights fs g) p)).length < g.nodes.length := by
      refine lt_of_le_of_ne (List.length_filter_le _ _) fun heq => ?_
      have := List.length_filter_eq_length_iff.1 heq p hp
      simp [closedNeighbors] at this
    have hm : ∀ x, x ∈ (NxGraph.empty.addNode p : NxGraph V Unit).nodes ↔ x = p := fun x => by rw [mem_addNode]; simp [NxGraph.empty]
    have hne' : ∀ x y, ¬ (NxGraph.empty.addNode p : NxGraph V Unit).hasEdge x y := fun x y h => by
      obtain ⟨e, he, -⟩ := hasEdge_addNode.1 h; simp [NxGraph.empty] at he
    refine ⟨⟨⟨hsh, goodGraph_addNode goodGraph_empty _, ⟨fun x hx => ?_, fun x y h => absurd h (hne' x y)⟩, fun x hx y hy => ?_, fun s hs => ?_, by simp, fun x hx => (mem_removeAll.1 hx).1⟩,
      fun x hx => ?_, by simp only [List.length_singleton]; omega⟩, ?_⟩
    · rw [(hm x).1 hx]; exact hp
    · rw [(hm x).1 hx, (hm y).1 hy]; exact .refl
    · simp at hs; exact (hm s).2 hs
    · by_cases hcl : closedNeighbors (initialWeights fs g) p x
      · right
        rcases (closedNeighbors_congr (sameShape_hasEdge hsh)).1 hcl with rfl | h
        · exact .inl ((hm _).2 rfl)
        · exact .inr ⟨p, (hm p).2 rfl, hasEdge_symm.1 (mem_neighbors.1 h)⟩
      · exact .inl (mem_removeAll.2 ⟨hx, hcl⟩)
    · simp only [spMeasure]
      have : ((removeAll g.nodes (closedNeighbors (initialWeights fs g) p)).length + 1) * (22 * g.nodes.length + 3) ≤ g.nodes.length * (22 * g.nodes.length + 3) := Nat.mul_le_mul_right _ hlt
      rw [Nat.add_mul] at this
      omega

theorem spRun_inv {fs : ℝ} {g : NxGraph V ℝ} (hg : GoodGraph g) (hconn : Connected g) (hne : g.nodes ≠ []) {n : ℕ} {s : SPState V} (hr : SPRun fs g n s) :
    SPInv g s ∧ n + spMeasure g s ≤ g.nodes.length * (22 * g.nodes.length + 3) := by
  induction hr with
  | init hi => obtain ⟨h1, h2⟩ := spInit_inv hne hi; exact ⟨h1, by omega⟩
  | step _ hst ih => obtain ⟨h1, h2⟩ := spStep_inv hg hconn ih.1 hst; exact ⟨h1, by omega⟩

theorem spStep_total {g : NxGraph V ℝ} {s : SPState V} (hs : SPInv g s) : (∃ rg, s = .done rg) ∨ ∃ s', SPStep s s' := by
  cases s with
  | done rg => exact .inl ⟨rg, rfl⟩
  | error e => exact absurd hs (by simp [SPInv])
  | head v =>
    right
    by_cases hc : v.cand = []
    · exact ⟨_, .finish hc⟩
    · obtain ⟨x, hx⟩ := List.exists_mem_of_ne_nil _ hc
      exact ⟨_, .newEnd hx (List.Perm.refl _)⟩
  | forStart v endPos todo =>
    right
    cases todo with
    | nil => exact ⟨_, .lastStart⟩
    | cons s todo =>
      by_cases h : ∃ p, (updateWeights v).work.IsPath s endPos p
      · exact ⟨_, .start h⟩
      · exact ⟨_, .noPath h⟩
  | forPath v endPos todo s tmp single n =>
    right
    obtain ⟨h1, h2, h3, h4, h5, h6, h7, h8, h9, h10, h11, h12, h13⟩ := hs
    by_cases hstop : n = maxNumPaths ∨ (single = true ∧ n = 1) ∨ (¬ ∃ p, tmp.IsPath s endPos p)
    · exact ⟨_, .lastPath hstop⟩
    · push Not at hstop
      obtain ⟨hn, hsn, hp⟩ := hstop
      obtain ⟨p, hp⟩ := exists_shortestPath h7 h8 hp
      by_cases hr : (∃ x, nodesToRemove v.work tmp s endPos p x) ∨ single = true
      · exact ⟨_, .path (lt_of_le_of_ne h13 hn) (by tauto) hp hr⟩
      · exact ⟨_, .assertion (lt_of_le_of_ne h13 hn) (by tauto) hp (by tauto) (by simpa using fun h => hr (.inr h))⟩

end NF
