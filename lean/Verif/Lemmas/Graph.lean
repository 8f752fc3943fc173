import Verif.Spec.Graph
import Mathlib.Data.List.Nodup
import Mathlib.Data.Fintype.Basic
import Mathlib.Tactic.Linarith

/-! # Lemmas about graphs -/

noncomputable section
open Classical

namespace NF
open Spec NxGraph
variable {V A B : Type}

theorem rtg_mono {T : Type} {r s : T → T → Prop} (h : ∀ a b, r a b → s a b) {x y : T} (hxy : Relation.ReflTransGen r x y) :
    Relation.ReflTransGen s x y := by
  induction hxy with
  | refl => exact .refl
  | tail _ hbc ih => exact ih.tail (h _ _ hbc)

theorem joins_symm {e : V × V × A} {x y : V} : joins e x y ↔ joins e y x := by
  unfold joins; tauto

theorem hasEdge_symm {g : NxGraph V A} {x y : V} : g.hasEdge x y ↔ g.hasEdge y x := by
  unfold hasEdge; simp only [joins_symm (x := x)]

theorem mem_neighbors {g : NxGraph V A} {x y : V} : y ∈ g.neighbors x ↔ g.hasEdge x y := by
  unfold neighbors hasEdge joins
  simp only [List.mem_filterMap]
  constructor
  · rintro ⟨e, he, h⟩
    refine ⟨e, he, ?_⟩
    split at h
    · cases h; exact .inl ⟨‹_›, rfl⟩
    · split at h
      · cases h; exact .inr ⟨rfl, ‹_›⟩
      · cases h
  · rintro ⟨e, he, h | h⟩
    · exact ⟨e, he, by rw [if_pos h.1, h.2]⟩
    · refine ⟨e, he, ?_⟩
      split
      · rename_i h1; rw [h.2, ← h1, h.1]
      · rw [if_pos h.2, h.1]

theorem goodGraph_edge {g : NxGraph V A} (hg : GoodGraph g) {x y : V} (h : g.hasEdge x y) : x ∈ g.nodes ∧ y ∈ g.nodes ∧ x ≠ y := by
  obtain ⟨e, he, h | h⟩ := h
  · obtain ⟨rfl, rfl⟩ := h; exact ⟨hg.left e he, hg.right e he, hg.noLoop e he⟩
  · obtain ⟨rfl, rfl⟩ := h; exact ⟨hg.right e he, hg.left e he, (hg.noLoop e he).symm⟩

theorem reach_symm {g : NxGraph V A} {x y : V} (h : Reach g x y) : Reach g y x := by
  induction h with
  | refl => exact .refl
  | tail _ h ih => exact .head (hasEdge_symm.1 h) ih

theorem reach_mem {g : NxGraph V A} (hg : GoodGraph g) {x y : V} (h : Reach g x y) (hx : x ∈ g.nodes) : y ∈ g.nodes := by
  induction h with
  | refl => exact hx
  | tail _ h _ => exact (goodGraph_edge hg h).2.1

/-! ## Breadth-first search -/

theorem bfsPass_spec (g : NxGraph V A) (level : List V) : ∀ (seen nxt : List V), seen.Nodup →
    let r := level.foldl (fun s v => if v ∈ s.1 then s else (s.1 ++ [v], s.2 ++ g.neighbors v)) (seen, nxt)
    r.1.Nodup ∧ (∀ x, x ∈ r.1 ↔ x ∈ seen ∨ x ∈ level) ∧ (∀ x ∈ nxt, x ∈ r.2) ∧
    (∀ x ∈ r.1, x ∉ seen → ∀ y ∈ g.neighbors x, y ∈ r.2) ∧ (∀ y ∈ r.2, y ∈ nxt ∨ ∃ x ∈ level, y ∈ g.neighbors x) ∧
    ((∀ x ∈ level, x ∈ seen) → r = (seen, nxt)) := by
  induction level with
  | nil =>
    intro seen nxt h
    simp [h]
    exact fun x hx hx' => absurd hx hx'
  | cons v level ih =>
    intro seen nxt h
    simp only [List.foldl_cons]
    by_cases hv : v ∈ seen
    · rw [if_pos hv]
      obtain ⟨h1, h2, h3, h4, h5, h6⟩ := ih seen nxt h
      refine ⟨h1, fun x => ?_, h3, h4, fun y hy => ?_, fun hall => h6 fun x hx => hall x (List.mem_cons_of_mem _ hx)⟩
      · rw [h2, List.mem_cons]
        constructor
        · rintro (h | h); exacts [.inl h, .inr (.inr h)]
        · rintro (h | rfl | h); exacts [.inl h, .inl hv, .inr h]
      · rcases h5 y hy with h | ⟨x, hx, h⟩
        · exact .inl h
        · exact .inr ⟨x, List.mem_cons_of_mem _ hx, h⟩
    · rw [if_neg hv]
      obtain ⟨h1, h2, h3, h4, h5, h6⟩ := ih (seen ++ [v]) (nxt ++ g.neighbors v) (by
        rw [List.nodup_append]
        exact ⟨h, by simp, fun a ha b hb => by simp at hb; subst hb; exact fun e => hv (e ▸ ha)⟩)
      refine ⟨h1, fun x => ?_, fun x hx => h3 x (List.mem_append_left _ hx), fun x hx hxs y hy => ?_, fun y hy => ?_,
        fun hall => absurd (hall v List.mem_cons_self) hv⟩
      · rw [h2, List.mem_append, List.mem_singleton, List.mem_cons, or_assoc]
      · by_cases hxv : x = v
        · subst hxv; exact h3 y (List.mem_append_right _ hy)
        · exact h4 x hx (by simp [hxs, hxv]) y hy
      · rcases h5 y hy with h | ⟨x, hx, h⟩
        · rcases List.mem_append.1 h with h | h
          · exact .inl h
          · exact .inr ⟨v, List.mem_cons_self, h⟩
        · exact .inr ⟨x, List.mem_cons_of_mem _ hx, h⟩

theorem bfsLoop_spec {g : NxGraph V A} (hg : GoodGraph g) (s : V) : ∀ (n : ℕ) (seen level : List V),
    seen.Nodup → (∀ x ∈ seen, x ∈ g.nodes ∧ Reach g s x) → (∀ x ∈ level, x ∈ g.nodes ∧ Reach g s x) →
    (∀ x ∈ seen, ∀ y ∈ g.neighbors x, y ∈ seen ∨ y ∈ level) → (s ∈ seen ∨ s ∈ level) → g.nodes.length + 1 ≤ seen.length + n →
    (bfsLoop g n seen level).Nodup ∧ ∀ x, x ∈ bfsLoop g n seen level ↔ Reach g s x := by
  intro n
  induction n with
  | zero =>
    intro seen level h1 h2 _ _ _ h6
    have := (List.subperm_of_subset h1 (fun x hx => (h2 x hx).1)).length_le
    omega
  | succ n ih =>
    intro seen level h1 h2 h3 h4 h5 h6
    cases level with
    | nil =>
      refine ⟨h1, fun x => ⟨fun h => (h2 x h).2, fun h => ?_⟩⟩
      simp only [bfsLoop]
      induction h with
      | refl => simpa using h5
      | tail _ h ih => simpa using h4 _ ih _ (mem_neighbors.2 h)
    | cons v level =>
      obtain ⟨p1, p2, -, p4, p5, p6⟩ := bfsPass_spec g (v :: level) seen [] h1
      simp only [bfsLoop]
      by_cases hall : ∀ x ∈ v :: level, x ∈ seen
      · have e : g.bfsPass seen (v :: level) = (seen, []) := p6 hall
        rw [e]
        have hs : ∀ m, bfsLoop g m seen [] = seen := fun m => by cases m <;> rfl
        rw [hs]
        refine ⟨h1, fun x => ⟨fun h => (h2 x h).2, fun h => ?_⟩⟩
        induction h with
        | refl => rcases h5 with h | h; exacts [h, hall _ h]
        | tail _ h ih => rcases h4 _ ih _ (mem_neighbors.2 h) with h | h; exacts [h, hall _ h]
      · refine ih _ _ p1 (fun x hx => ?_) (fun y hy => ?_) (fun x hx y hy => ?_) (.inl ((p2 s).2 h5)) ?_
        · rcases (p2 x).1 hx with h | h
          exacts [h2 x h, h3 x h]
        · rcases p5 y hy with h | ⟨x, hx, h⟩
          · simp at h
          · have := mem_neighbors.1 h
            exact ⟨(goodGraph_edge hg this).2.1, (h3 x hx).2.tail this⟩
        · by_cases hxs : x ∈ seen
          · rcases h4 x hxs y hy with h | h
            · exact .inl ((p2 y).2 (.inl h))
            · exact .inl ((p2 y).2 (.inr h))
          · exact .inr (p4 x hx hxs y hy)
        · push Not at hall
          obtain ⟨z, hz, hzs⟩ := hall
          have hlt : seen.length + 1 ≤ (g.bfsPass seen (v :: level)).1.length := by
            have hsub : (z :: seen).Nodup := List.nodup_cons.2 ⟨hzs, h1⟩
            have := (List.subperm_of_subset hsub (l₂ := (g.bfsPass seen (v :: level)).1) (fun x hx => by
              rcases List.mem_cons.1 hx with rfl | h
              · exact (p2 x).2 (.inr hz)
              · exact (p2 x).2 (.inl h))).length_le
            simpa using this
          omega

/-- The limit on the number of passes is never reached: `bfs` finds exactly what can be reached. -/
theorem bfs_limit {g : NxGraph V A} (hg : GoodGraph g) {s : V} (hs : s ∈ g.nodes) :
    (g.bfs s).Nodup ∧ ∀ x, x ∈ g.bfs s ↔ Reach g s x :=
  bfsLoop_spec hg s _ [] [s] List.nodup_nil (by simp) (by simpa using ⟨hs, .refl⟩) (by simp) (by simp) (by simp)

/-! ## Connected components -/

theorem mem_componentsLoop {g : NxGraph V A} (hg : GoodGraph g) : ∀ (todo seen : List V), (∀ x ∈ todo, x ∈ g.nodes) →
    (∀ x ∈ seen, ∀ y, Reach g x y → y ∈ seen) → ∀ c, c ∈ componentsLoop g seen todo → ∃ v ∈ todo, v ∉ seen ∧ c = g.bfs v := by
  intro todo
  induction todo with
  | nil => intro seen _ _ c hc; simp [componentsLoop] at hc
  | cons v rest ih =>
    intro seen h1 h2 c hc
    rw [componentsLoop] at hc
    split at hc
    · obtain ⟨w, hw, h⟩ := ih seen (fun x hx => h1 x (List.mem_cons_of_mem _ hx)) h2 c hc
      exact ⟨w, List.mem_cons_of_mem _ hw, h⟩
    · rename_i hv
      have hb := (bfs_limit hg (h1 v List.mem_cons_self)).2
      rcases List.mem_cons.1 hc with rfl | hc
      · exact ⟨v, List.mem_cons_self, hv, rfl⟩
      · obtain ⟨w, hw, h3, h4⟩ := ih (seen ++ g.bfs v) (fun x hx => h1 x (List.mem_cons_of_mem _ hx)) (fun x hx y hy => by
          rcases List.mem_append.1 hx with h | h
          · exact List.mem_append_left _ (h2 x h y hy)
          · exact List.mem_append_right _ ((hb y).2 (((hb x).1 h).trans hy))) c hc
        exact ⟨w, List.mem_cons_of_mem _ hw, fun h => h3 (List.mem_append_left _ h), h4⟩

theorem componentsLoop_spec {g : NxGraph V A} (hg : GoodGraph g) : ∀ (todo seen : List V), (∀ x ∈ todo, x ∈ g.nodes) →
    (∀ x ∈ seen, ∀ y, Reach g x y → y ∈ seen) →
    (∀ x ∈ todo, x ∈ seen ∨ ∃ c ∈ componentsLoop g seen todo, x ∈ c) ∧
    (componentsLoop g seen todo).Pairwise fun c c' => ∀ x ∈ c, x ∉ c' := by
  intro todo
  induction todo with
  | nil => intro seen _ _; simp [componentsLoop]
  | cons v rest ih =>
    intro seen h1 h2
    have h1' : ∀ x ∈ rest, x ∈ g.nodes := fun x hx => h1 x (List.mem_cons_of_mem _ hx)
    rw [componentsLoop]
    split
    · rename_i hv
      obtain ⟨i1, i2⟩ := ih seen h1' h2
      refine ⟨fun x hx => ?_, i2⟩
      rcases List.mem_cons.1 hx with rfl | h
      exacts [.inl hv, i1 x h]
    · rename_i hv
      have hb := (bfs_limit hg (h1 v List.mem_cons_self)).2
      have h2' : ∀ x ∈ seen ++ g.bfs v, ∀ y, Reach g x y → y ∈ seen ++ g.bfs v := fun x hx y hy => by
        rcases List.mem_append.1 hx with h | h
        · exact List.mem_append_left _ (h2 x h y hy)
        · exact List.mem_append_right _ ((hb y).2 (((hb x).1 h).trans hy))
      obtain ⟨i1, i2⟩ := ih (seen ++ g.bfs v) h1' h2'
      refine ⟨fun x hx => ?_, ?_⟩
      · rcases List.mem_cons.1 hx with rfl | h
        · exact .inr ⟨_, List.mem_cons_self, (hb x).2 .refl⟩
        · rcases i1 x h with h | ⟨c, hc, h⟩
          · rcases List.mem_append.1 h with h | h
            · exact .inl h
            · exact .inr ⟨_, List.mem_cons_self, h⟩
          · exact .inr ⟨c, List.mem_cons_of_mem _ hc, h⟩
      · refine List.pairwise_cons.2 ⟨fun c hc x hx hxc => ?_, i2⟩
        obtain ⟨w, hw, hws, rfl⟩ := mem_componentsLoop hg rest _ h1' h2' c hc
        have hbw := (bfs_limit hg (h1' w hw)).2
        apply hws
        refine List.mem_append_right _ ((hb w).2 (((hb x).1 hx).trans ?_))
        exact reach_symm ((hbw x).1 hxc)

/-- The components: each is what can be reached from one of its nodes; they cover the nodes; they are disjoint. -/
theorem components_spec {g : NxGraph V A} (hg : GoodGraph g) :
    (∀ c ∈ g.connectedComponents, ∃ v ∈ g.nodes, ∀ x, x ∈ c ↔ Reach g v x) ∧
    (∀ x ∈ g.nodes, ∃ c ∈ g.connectedComponents, x ∈ c) ∧
    g.connectedComponents.Pairwise fun c c' => ∀ x ∈ c, x ∉ c' := by
  have h := componentsLoop_spec hg g.nodes [] (fun x h => h) (by simp)
  refine ⟨fun c hc => ?_, fun x hx => (h.1 x hx).resolve_left (by simp), h.2⟩
  obtain ⟨v, hv, -, rfl⟩ := mem_componentsLoop hg g.nodes [] (fun x h => h) (by simp) c hc
  exact ⟨v, hv, (bfs_limit hg hv).2⟩

/-! ## Subgraphs and changes -/

theorem hasEdge_subgraph {g : NxGraph V A} {s : V → Prop} {x y : V} : (g.subgraph s).hasEdge x y ↔ g.hasEdge x y ∧ s x ∧ s y := by
  unfold subgraph hasEdge joins
  simp only [List.mem_filter, decide_eq_true_eq]
  constructor
  · rintro ⟨e, ⟨he, h1, h2⟩, h | h⟩
    · exact ⟨⟨e, he, .inl h⟩, h.1 ▸ h1, h.2 ▸ h2⟩
    · exact ⟨⟨e, he, .inr h⟩, h.2 ▸ h2, h.1 ▸ h1⟩
  · rintro ⟨⟨e, he, h | h⟩, h1, h2⟩
    · exact ⟨e, ⟨he, h.1 ▸ h1, h.2 ▸ h2⟩, .inl h⟩
    · exact ⟨e, ⟨he, h.1 ▸ h2, h.2 ▸ h1⟩, .inr h⟩

theorem mem_subgraph {g : NxGraph V A} {s : V → Prop} {x : V} : x ∈ (g.subgraph s).nodes ↔ x ∈ g.nodes ∧ s x := by
  unfold subgraph
  simp [List.mem_filter]

theorem goodGraph_subgraph {g : NxGraph V A} (hg : GoodGraph g) (s : V → Prop) : GoodGraph (g.subgraph s) where
  nodup := hg.nodup.filter _
  left e he := by
    simp only [subgraph, List.mem_filter, decide_eq_true_eq] at he ⊢
    exact ⟨hg.left e he.1, he.2.1⟩
  right e he := by
    simp only [subgraph, List.mem_filter, decide_eq_true_eq] at he ⊢
    exact ⟨hg.right e he.1, he.2.2⟩
  noLoop e he := by
    simp only [subgraph, List.mem_filter] at he
    exact hg.noLoop e he.1
  single := hg.single.filter _

theorem mem_addNode {g : NxGraph V A} {x y : V} : y ∈ (g.addNode x).nodes ↔ y ∈ g.nodes ∨ y = x := by
  unfold addNode
  split
  · rename_i h
    exact ⟨.inl, fun hh => hh.elim id fun e => e ▸ h⟩
  · simp

theorem addNode_edges {g : NxGraph V A} {x : V} : (g.addNode x).edges = g.edges := by
  unfold addNode; split <;> rfl

theorem hasEdge_addNode {g : NxGraph V A} {x u v : V} : (g.addNode x).hasEdge u v ↔ g.hasEdge u v := by
  unfold hasEdge; rw [addNode_edges]

theorem goodGraph_addNode {g : NxGraph V A} (hg : GoodGraph g) (x : V) : GoodGraph (g.addNode x) where
  nodup := by
    unfold addNode
    split
    · exact hg.nodup
    · rename_i h
      rw [List.nodup_append]
      exact ⟨hg.nodup, by simp, fun a ha b hb => by simp at hb; subst hb; exact fun e => h (e ▸ ha)⟩
  left e he := mem_addNode.2 (.inl (hg.left e (addNode_edges (x := x) ▸ he)))
  right e he := mem_addNode.2 (.inl (hg.right e (addNode_edges (x := x) ▸ he)))
  noLoop e he := hg.noLoop e (addNode_edges (x := x) ▸ he)
  single := by rw [addNode_edges]; exact hg.single

theorem mem_addEdge {g : NxGraph V A} {x y z : V} {a : A} {upd : A → A} :
    z ∈ (g.addEdge x y a upd).nodes ↔ z ∈ g.nodes ∨ z = x ∨ z = y := by
  unfold addEdge
  simp only
  split <;> simp only [mem_addNode, or_assoc]

theorem hasEdge_addEdge {g : NxGraph V A} {x y u v : V} {a : A} {upd : A → A} :
    (g.addEdge x y a upd).hasEdge u v ↔ g.hasEdge u v ∨ (u = x ∧ v = y) ∨ (u = y ∧ v = x) := by
  unfold addEdge
  simp only
  have hj : ∀ e : V × V × A, joins (if joins e x y then (e.1, e.2.1, upd e.2.2) else e) u v ↔ joins e u v := fun e => by
    split <;> rfl
  split
  · rename_i hex
    unfold hasEdge
    simp only [addNode_edges, List.mem_map, exists_exists_and_eq_and, hj]
    constructor
    · exact .inl
    · rintro (h | ⟨rfl, rfl⟩ | ⟨rfl, rfl⟩)
      · exact h
      · exact hex
      · obtain ⟨e, he, h⟩ := hex; exact ⟨e, he, joins_symm.1 h⟩
  · unfold hasEdge
    simp only [addNode_edges, List.mem_append, List.mem_singleton]
    constructor
    · rintro ⟨e, he | rfl, h⟩
      · exact .inl ⟨e, he, h⟩
      · unfold joins at h; simp only at h
        rcases h with ⟨rfl, rfl⟩ | ⟨rfl, rfl⟩
        · exact .inr (.inl ⟨rfl, rfl⟩)
        · exact .inr (.inr ⟨rfl, rfl⟩)
    · rintro (⟨e, he, h⟩ | ⟨rfl, rfl⟩ | ⟨rfl, rfl⟩)
      · exact ⟨e, .inl he, h⟩
      · exact ⟨_, .inr rfl, .inl ⟨rfl, rfl⟩⟩
      · exact ⟨_, .inr rfl, .inr ⟨rfl, rfl⟩⟩

theorem goodGraph_addEdge {g : NxGraph V A} (hg : GoodGraph g) {x y : V} (hxy : x ≠ y) (a : A) (upd : A → A) : GoodGraph (g.addEdge x y a upd) := by
  have h2 := goodGraph_addNode (goodGraph_addNode hg x) y
  have hm : ∀ {P : V × V × A → Prop}, (∀ e ∈ g.edges, P e) → (∀ e b, P e → P (e.1, e.2.1, b)) →
      ∀ e ∈ (((g.addNode x).addNode y).edges.map fun e => if joins e x y then (e.1, e.2.1, upd e.2.2) else e), P e := by
    intro P hP hc e he
    rw [addNode_edges, addNode_edges] at he
    obtain ⟨f, hf, rfl⟩ := List.mem_map.1 he
    split
    · exact hc _ _ (hP f hf)
    · exact hP f hf
  unfold addEdge
  simp only
  have hxn : x ∈ ((g.addNode x).addNode y).nodes := mem_addNode.2 (.inl (mem_addNode.2 (.inr rfl)))
  have hyn : y ∈ ((g.addNode x).addNode y).nodes := mem_addNode.2 (.inr rfl)
  split
  · refine ⟨h2.nodup, ?_, ?_, ?_, ?_⟩
    · exact hm (fun e he => mem_addNode.2 (.inl (mem_addNode.2 (.inl (hg.left e he))))) (fun e b h => h)
    · exact hm (fun e he => mem_addNode.2 (.inl (mem_addNode.2 (.inl (hg.right e he))))) (fun e b h => h)
    · exact hm hg.noLoop (fun e b h => h)
    · rw [List.pairwise_map, addNode_edges, addNode_edges]
      refine hg.single.imp fun {e f} h => ?_
      split <;> split <;> exact h
  · rename_i hne
    refine ⟨h2.nodup, ?_, ?_, ?_, ?_⟩
    · intro e he
      simp only [addNode_edges, List.mem_append, List.mem_singleton] at he
      rcases he with he | rfl
      · exact mem_addNode.2 (.inl (mem_addNode.2 (.inl (hg.left e he))))
      · exact hxn
    · intro e he
      simp only [addNode_edges, List.mem_append, List.mem_singleton] at he
      rcases he with he | rfl
      · exact mem_addNode.2 (.inl (mem_addNode.2 (.inl (hg.right e he))))
      · exact hyn
    · intro e he
      simp only [addNode_edges, List.mem_append, List.mem_singleton] at he
      rcases he with he | rfl
      · exact hg.noLoop e he
      · exact hxy
    · simp only [addNode_edges]
      rw [List.pairwise_append]
      refine ⟨hg.single, by simp, fun e he f hf => ?_⟩
      simp only [List.mem_singleton] at hf
      subst hf
      intro hj
      apply hne
      refine ⟨e, he, ?_⟩
      unfold joins at *
      simp only at hj
      rcases hj with ⟨h1, h2⟩ | ⟨h1, h2⟩
      · exact .inl ⟨h1.symm, h2.symm⟩
      · exact .inr ⟨h2.symm, h1.symm⟩

theorem hasEdge_removeEdge {g : NxGraph V A} {x y u v : V} :
    (g.removeEdge x y).hasEdge u v ↔ g.hasEdge u v ∧ ¬ ((u = x ∧ v = y) ∨ (u = y ∧ v = x)) := by
  unfold removeEdge hasEdge
  simp only [List.mem_filter, decide_eq_true_eq]
  have key : ∀ e : V × V × A, joins e u v → (joins e x y ↔ ((u = x ∧ v = y) ∨ (u = y ∧ v = x))) := by
    rintro e (⟨rfl, rfl⟩ | ⟨rfl, rfl⟩)
    · rfl
    · unfold joins; tauto
  constructor
  · rintro ⟨e, ⟨he, h1⟩, h2⟩
    exact ⟨⟨e, he, h2⟩, fun h => h1 ((key e h2).2 h)⟩
  · rintro ⟨⟨e, he, h2⟩, h⟩
    exact ⟨e, ⟨he, fun h1 => h ((key e h2).1 h1)⟩, h2⟩

theorem goodGraph_removeEdge {g : NxGraph V A} (hg : GoodGraph g) (x y : V) : GoodGraph (g.removeEdge x y) where
  nodup := hg.nodup
  left e he := hg.left e (List.mem_filter.1 he).1
  right e he := hg.right e (List.mem_filter.1 he).1
  noLoop e he := hg.noLoop e (List.mem_filter.1 he).1
  single := hg.single.filter _

theorem goodGraph_empty : GoodGraph (NxGraph.empty : NxGraph V A) := by
  constructor <;> simp [NxGraph.empty]

theorem neighbors_nodup {g : NxGraph V A} (hg : GoodGraph g) (x : V) : (g.neighbors x).Nodup := by
  unfold neighbors
  have h1 := hg.single
  have h2 := hg.noLoop
  generalize g.edges = es at *
  induction es with
  | nil => simp
  | cons e es ih =>
    rw [List.pairwise_cons] at h1
    have ih := ih h1.2 fun f hf => h2 f (List.mem_cons_of_mem _ hf)
    rw [List.filterMap_cons]
    have key : ∀ z, (if e.1 = x then some e.2.1 else if e.2.1 = x then some e.1 else none) = some z →
        z ∉ es.filterMap fun e => if e.1 = x then some e.2.1 else if e.2.1 = x then some e.1 else none := by
      intro z hz hmem
      obtain ⟨f, hf, hfz⟩ := List.mem_filterMap.1 hmem
      have hje : joins e x z := by
        unfold joins
        split at hz
        · cases hz; exact .inl ⟨‹_›, rfl⟩
        · split at hz
          · cases hz; exact .inr ⟨rfl, ‹_›⟩
          · cases hz
      have hjf : joins f x z := by
        unfold joins
        split at hfz
        · cases hfz; exact .inl ⟨‹_›, rfl⟩
        · split at hfz
          · cases hfz; exact .inr ⟨rfl, ‹_›⟩
          · cases hfz
      apply h1.1 f hf
      unfold joins at *
      rcases hje with ⟨h, h'⟩ | ⟨h, h'⟩ <;> rcases hjf with ⟨k, k'⟩ | ⟨k, k'⟩
      · exact .inl ⟨k.trans h.symm, k'.trans h'.symm⟩
      · exact .inr ⟨k.trans h'.symm, k'.trans h.symm⟩
      · exact .inr ⟨k.trans h'.symm, k'.trans h.symm⟩
      · exact .inl ⟨k.trans h.symm, k'.trans h'.symm⟩
    split
    · exact ih
    · rename_i z hz
      exact List.nodup_cons.2 ⟨key z hz, ih⟩

end NF
