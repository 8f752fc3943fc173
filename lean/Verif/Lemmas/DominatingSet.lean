import Verif.Model.DominatingSet
import Verif.Lemmas.ShortestPath

/-! # Lemmas for the dominating-set line evaluation -/

noncomputable section
open Classical

namespace NF
open Spec NxGraph
variable {V A B : Type}

/-! ## Lengths of walks -/

theorem pathLength_cons (f : V → V → ℝ) (x y : V) (l : List V) : pathLength f (x :: y :: l) = f x y + pathLength f (y :: l) := by
  simp [pathLength, pathEdges]

theorem pathLength_single (f : V → V → ℝ) (x : V) : pathLength f [x] = 0 := by simp [pathLength, pathEdges]

theorem pathLength_append (f : V → V → ℝ) (a : List V) (x : V) (l : List V) : pathLength f (a ++ x :: l) = pathLength f (a ++ [x]) + pathLength f (x :: l) := by
  induction a with
  | nil => simp [pathLength_single]
  | cons b a ih =>
    cases a with
    | nil => simp only [List.cons_append, List.nil_append, pathLength_cons, pathLength_single]; ring
    | cons c a =>
      simp only [List.cons_append, pathLength_cons] at ih ⊢
      rw [ih]; ring

theorem pathLength_nonneg {f : V → V → ℝ} (hf : ∀ x y, 0 ≤ f x y) (p : List V) : 0 ≤ pathLength f p := by
  unfold pathLength
  apply List.sum_nonneg
  intro x hx
  obtain ⟨e, -, rfl⟩ := List.mem_map.1 hx
  exact hf _ _

/-- A walk in the graph. -/
structure IsWalk (g : NxGraph V A) (s t : V) (p : List V) : Prop where
  head : p.head? = some s
  last : p.getLast? = some t
  chain : p.IsChain g.hasEdge

theorem IsWalk.of_path {g : NxGraph V A} {s t : V} {p : List V} (h : g.IsPath s t p) : IsWalk g s t p := ⟨h.head, h.last, h.chain⟩

theorem exists_path_le_walk {g : NxGraph V A} {f : V → V → ℝ} (hf : ∀ x y, 0 ≤ f x y) {s t : V} : ∀ (n : ℕ) (p : List V), p.length ≤ n → IsWalk g s t p →
    ∃ q, g.IsPath s t q ∧ pathLength f q ≤ pathLength f p := by
  intro n
  induction n with
  | zero => rintro p hp ⟨h, -, -⟩; cases p <;> simp at hp h
  | succ n ih =>
    rintro p hp ⟨h1, h2, h3⟩
    by_cases hnd : p.Nodup
    · exact ⟨p, ⟨h1, h2, h3, hnd⟩, le_rfl⟩
    · obtain ⟨x, hx⟩ : ∃ x, List.Duplicate x p := by
        by_contra hno
        push Not at hno
        exact hnd (List.nodup_iff_forall_not_duplicate.2 hno)
      obtain ⟨a, c, rfl, hc⟩ : ∃ a c, p = a ++ x :: c ∧ x ∈ c := by
        clear ih hp h1 h2 h3 hnd
        induction hx with
        | cons_mem h => exact ⟨[], _, rfl, h⟩
        | cons_duplicate _ ih => obtain ⟨a, c, rfl, h⟩ := ih; exact ⟨_ :: a, c, rfl, h⟩
      obtain ⟨b, c, rfl⟩ := List.append_of_mem hc
      have hq : (a ++ x :: c).length ≤ n := by simp at hp ⊢; omega
      obtain ⟨q, hq1, hq2⟩ := ih (a ++ x :: c) hq ⟨by cases a <;> simpa using h1,
        by
          rw [List.getLast?_append] at h2 ⊢
          rw [show x :: (b ++ x :: c) = (x :: b) ++ x :: c by simp, List.getLast?_append] at h2
          cases h : (x :: c).getLast? with
          | none => simp at h
          | some y => rw [h] at h2; simpa using h2,
        by
          rw [List.isChain_append] at h3 ⊢
          refine ⟨h3.1, ?_, fun y hy z hz => h3.2.2 y hy z (by simpa using hz)⟩
          have := h3.2.1
          rw [show x :: (b ++ x :: c) = (x :: b) ++ x :: c by simp, List.isChain_append] at this
          exact this.2.1⟩
      refine ⟨q, hq1, hq2.trans ?_⟩
      rw [pathLength_append f a x c, pathLength_append f a x (b ++ x :: c), show x :: (b ++ x :: c) = (x :: b) ++ x :: c by simp, pathLength_append f (x :: b) x c]
      have := pathLength_nonneg hf (x :: b ++ [x])
      linarith

theorem walk_append {g : NxGraph V A} {s t u : V} {p q : List V} (hp : IsWalk g s t p) (hq : IsWalk g t u q) : IsWalk g s u (p ++ q.tail) := by
  obtain ⟨p1, p2, p3⟩ := hp
  obtain ⟨q1, q2, q3⟩ := hq
  cases q with
  | nil => simp at q1
  | cons b l =>
    simp at q1
    subst q1
    refine ⟨?_, ?_, ?_⟩
    · cases p with
      | nil => simp at p1
      | cons a p => simpa using p1
    · simp only [List.tail_cons]
      cases l with
      | nil => simp at q2 ⊢; subst q2; exact p2
      | cons c l => rw [List.getLast?_append]; simp at q2 ⊢; simp [q2]
    · simp only [List.tail_cons]
      rw [List.isChain_append]
      refine ⟨p3, (List.isChain_cons.1 q3).2, fun x hx y hy => ?_⟩
      rw [p2] at hx
      simp at hx
      subst hx
      exact (List.isChain_cons.1 q3).1 y hy

theorem pathLength_walk_append (f : V → V → ℝ) {p q : List V} {t : V} (hp : p.getLast? = some t) (hq : q.head? = some t) : pathLength f (p ++ q.tail) = pathLength f p + pathLength f q := by
  cases q with
  | nil => simp at hq
  | cons b l =>
    simp at hq
    subst hq
    obtain ⟨a, rfl⟩ : ∃ a, p = a ++ [b] := by
      have hne : p ≠ [] := by rintro rfl; simp at hp
      refine ⟨p.dropLast, ?_⟩
      rw [List.getLast?_eq_some_getLast hne] at hp
      simp at hp
      rw [← hp]
      exact (List.dropLast_append_getLast hne).symm
    simp only [List.tail_cons, List.append_assoc, List.singleton_append]
    exact pathLength_append f a b l

/-- There is a walk of at most this length. -/
def Within (g : NxGraph V A) (δ : V → V → ℝ) (a b : V) (c : ℝ) : Prop := ∃ p, IsWalk g a b p ∧ pathLength δ p ≤ c

theorem within_refl (g : NxGraph V A) (δ : V → V → ℝ) (a : V) : Within g δ a a 0 := ⟨[a], ⟨rfl, rfl, by simp⟩, (pathLength_single δ a).le⟩
theorem within_edge {g : NxGraph V A} {δ : V → V → ℝ} {a b : V} (h : g.hasEdge a b) : Within g δ a b (δ a b) :=
  ⟨[a, b], ⟨rfl, rfl, by simp [h]⟩, by simp [pathLength_cons, pathLength_single]⟩
theorem within_trans {g : NxGraph V A} {δ : V → V → ℝ} {a b e : V} {c c' : ℝ} (h : Within g δ a b c) (h' : Within g δ b e c') : Within g δ a e (c + c') := by
  obtain ⟨p, hp, hl⟩ := h
  obtain ⟨q, hq, hl'⟩ := h'
  exact ⟨_, walk_append hp hq, by rw [pathLength_walk_append δ hp.last hq.head]; linarith⟩
theorem within_mono {g : NxGraph V A} {h : NxGraph V B} {δ : V → V → ℝ} (hgh : ∀ x y, g.hasEdge x y → h.hasEdge x y) {a b : V} {c c' : ℝ} (hc : c ≤ c') (hw : Within g δ a b c) :
    Within h δ a b c' := by
  obtain ⟨p, hp, hl⟩ := hw
  exact ⟨p, ⟨hp.head, hp.last, hp.chain.imp hgh⟩, hl.trans hc⟩

theorem pathLength_reverse {δ : V → V → ℝ} (hs : ∀ x y, δ x y = δ y x) (p : List V) : pathLength δ p.reverse = pathLength δ p := by
  induction p with
  | nil => rfl
  | cons a l ih =>
    cases l with
    | nil => rfl
    | cons b l =>
      rw [pathLength_cons, ← ih, List.reverse_cons, List.reverse_cons, List.append_assoc, List.singleton_append, pathLength_append δ _ b [a], pathLength_cons, pathLength_single, hs b a]
      ring

theorem within_symm {g : NxGraph V A} {δ : V → V → ℝ} (hs : ∀ x y, δ x y = δ y x) {a b : V} {c : ℝ} (h : Within g δ a b c) : Within g δ b a c := by
  obtain ⟨p, hp, hl⟩ := h
  refine ⟨p.reverse, ⟨by rw [List.head?_reverse]; exact hp.last, by rw [List.getLast?_reverse]; exact hp.head, ?_⟩, by rw [pathLength_reverse hs]; exact hl⟩
  rw [List.isChain_reverse]
  exact hp.chain.imp fun x y h => hasEdge_symm.1 h

/-! ## Shortest lengths -/

theorem exists_shortest {g : NxGraph V A} (hg : GoodGraph g) (f : V → V → ℝ) {s t : V} (hs : s ∈ g.nodes) (h : ∃ p, g.IsPath s t p) : ∃ p, IsShortest g f s t p := by
  let all := (g.nodes.sublists.flatMap List.permutations).filter fun p => decide (g.IsPath s t p)
  have hmem : ∀ p, g.IsPath s t p ↔ p ∈ all.toFinset := by
    intro p
    simp only [all, List.mem_toFinset, List.mem_filter, decide_eq_true_eq, List.mem_flatMap, List.mem_sublists, List.mem_permutations]
    refine ⟨fun hp => ⟨?_, hp⟩, fun h => h.2⟩
    have : List.Subperm p g.nodes := List.subperm_of_subset hp.nodup fun x hx => isPath_mem hg hp hs x hx
    obtain ⟨l, h1, h2⟩ := this
    exact ⟨l, h2, h1.symm⟩
  obtain ⟨p, hp⟩ := h
  obtain ⟨q, hq, hmin⟩ := Finset.exists_min_image all.toFinset (pathLength f) ⟨p, (hmem p).1 hp⟩
  exact ⟨q, (hmem q).2 hq, fun r hr => hmin r ((hmem r).1 hr)⟩

/-- The distance attributes are the given distances. -/
def DistOK (g : NxGraph V DSAttr) (δ : V → V → ℝ) : Prop := ∀ e ∈ g.edges, e.2.2.dist = δ e.1 e.2.1

theorem edgeDist_eq {g : NxGraph V DSAttr} {δ : V → V → ℝ} (hs : ∀ x y, δ x y = δ y x) (hd : DistOK g δ) {x y : V} (h : g.hasEdge x y) : edgeDist g x y = δ x y := by
  unfold edgeDist attr?
  obtain ⟨e, he, hj⟩ := h
  cases hf : g.edges.find? (fun e => decide (NxGraph.joins e x y)) with
  | none => have := List.find?_eq_none.1 hf e he; simp [hj] at this
  | some k =>
    have h1 := List.mem_of_find?_eq_some hf
    have h2 : joins k x y := by have := List.find?_some hf; simpa using this
    simp only [Option.map_some, Option.getD_some]
    rw [hd k h1]
    rcases h2 with ⟨h3, h4⟩ | ⟨h3, h4⟩
    · rw [h3, h4]
    · rw [h3, h4, hs]

theorem pathLength_congr {g : NxGraph V A} {f f' : V → V → ℝ} (h : ∀ x y, g.hasEdge x y → f x y = f' x y) : ∀ {p : List V}, p.IsChain g.hasEdge → pathLength f p = pathLength f' p := by
  intro p
  induction p with
  | nil => intro _; rfl
  | cons a l ih =>
    intro hp
    cases l with
    | nil => rw [pathLength_single, pathLength_single]
    | cons b l =>
      rw [List.isChain_cons_cons] at hp
      rw [pathLength_cons, pathLength_cons, ih hp.2, h a b hp.1]

theorem shortest_spec {g : NxGraph V DSAttr} (hg : GoodGraph g) {δ : V → V → ℝ} (hs : ∀ x y, δ x y = δ y x) (hnn : ∀ x y, 0 ≤ δ x y) (hd : DistOK g δ) {s t : V} (hsn : s ∈ g.nodes) :
    (shortestLength g (edgeDist g) s t = none → ∀ p, ¬ g.IsPath s t p) ∧
    ∀ r, shortestLength g (edgeDist g) s t = some r → Within g δ s t r ∧ ∀ c, Within g δ s t c → r ≤ c := by
  have hlen : ∀ p, g.IsPath s t p → pathLength (edgeDist g) p = pathLength δ p := fun p hp => pathLength_congr (fun x y h => edgeDist_eq hs hd h) hp.chain
  constructor
  · intro h p hp
    unfold shortestLength at h
    split_ifs at h with hex
    exact hex (exists_shortest hg _ hsn ⟨p, hp⟩)
  · intro r h
    unfold shortestLength at h
    split_ifs at h with hex
    simp only [Option.some.injEq] at h
    subst h
    obtain ⟨h1, h2⟩ := hex.choose_spec
    refine ⟨⟨_, .of_path h1, (hlen _ h1).symm.le⟩, ?_⟩
    rintro c ⟨w, hw, hc⟩
    obtain ⟨q, hq1, hq2⟩ := exists_path_le_walk hnn _ w le_rfl hw
    have := h2 q hq1
    rw [hlen q hq1] at this
    linarith

/-! ## The greedy dominating set -/

theorem greedy_spec {g : NxGraph V Unit} (hg : GoodGraph g) {D rem : List V} (h : Greedy g D rem) :
    D ≠ [] ∧ D.Nodup ∧ (∀ x ∈ D, x ∈ g.nodes) ∧ (∀ x ∈ rem, x ∈ g.nodes ∧ x ∉ D ∧ ∀ y ∈ D, ¬ g.hasEdge y x) ∧
    (∀ x ∈ D, ∀ y ∈ D, ¬ g.hasEdge x y) ∧ ∀ x ∈ g.nodes, x ∈ D ∨ x ∈ rem ∨ ∃ y ∈ D, g.hasEdge y x := by
  induction h with
  | @start v hv =>
    refine ⟨by simp, by simp, by simpa using hv, fun x hx => ?_, ?_, fun x hx => ?_⟩
    · simp only [List.mem_filter, decide_eq_true_eq] at hx
      refine ⟨hx.1, by simpa using hx.2.2, ?_⟩
      simp only [List.mem_singleton, forall_eq]
      exact fun h => hx.2.1 (mem_neighbors.2 h)
    · simp only [List.mem_singleton, forall_eq]
      exact fun h => (goodGraph_edge hg h).2.2 rfl
    · by_cases h1 : x = v
      · exact .inl (by simp [h1])
      by_cases h2 : x ∈ g.neighbors v
      · exact .inr (.inr ⟨v, by simp, mem_neighbors.1 h2⟩)
      · exact .inr (.inl (by simp only [List.mem_filter, decide_eq_true_eq]; exact ⟨hx, h2, h1⟩))
  | @add D rem v _ hv ih =>
    obtain ⟨i1, i2, i3, i4, i5, i6⟩ := ih
    obtain ⟨v1, v2, v3⟩ := i4 v hv
    refine ⟨by simp, ?_, fun x hx => ?_, fun x hx => ?_, fun x hx y hy h => ?_, fun x hx => ?_⟩
    · exact List.nodup_append.2 ⟨i2, by simp, fun a ha b hb hab => by simp at hb; subst hb; subst hab; exact v2 ha⟩
    · rcases List.mem_append.1 hx with hx | hx
      · exact i3 x hx
      · simp at hx; subst hx; exact v1
    · simp only [List.mem_filter, decide_eq_true_eq] at hx
      obtain ⟨x1, x2, x3⟩ := i4 x hx.1
      refine ⟨x1, by simp [x2, hx.2.1], fun y hy => ?_⟩
      rcases List.mem_append.1 hy with hy | hy
      · exact x3 y hy
      · simp at hy; subst hy
        exact fun h => hx.2.2 ⟨mem_neighbors.2 h, x2⟩
    · rcases List.mem_append.1 hx with kx | kx <;> rcases List.mem_append.1 hy with ky | ky
      · exact i5 x kx y ky h
      · rw [List.mem_singleton] at ky; exact v3 x kx (ky ▸ h)
      · rw [List.mem_singleton] at kx; exact v3 y ky (hasEdge_symm.1 (kx ▸ h))
      · rw [List.mem_singleton] at kx ky; exact (goodGraph_edge hg h).2.2 (kx.trans ky.symm)
    · rcases i6 x hx with h | h | ⟨y, hy, h⟩
      · exact .inl (by simp [h])
      · by_cases h1 : x = v
        · exact .inl (by simp [h1])
        by_cases h2 : x ∈ g.neighbors v
        · exact .inr (.inr ⟨v, by simp, mem_neighbors.1 h2⟩)
        · refine .inr (.inl ?_)
          simp only [List.mem_filter, decide_eq_true_eq]
          exact ⟨h, h1, fun h3 => h2 h3.1⟩
      · exact .inr (.inr ⟨y, by simp [hy], h⟩)

/-! ## The subgraph and the copy -/

/-- The assumptions: the graph of a cluster, with the distance `δ`. -/
structure GeoCluster (g : NxGraph V ℝ) (δ : V → V → ℝ) (fs : ℝ) : Prop where
  good : GoodGraph g
  conn : Connected g
  edge : ∀ x y, g.hasEdge x y ↔ x ∈ g.nodes ∧ y ∈ g.nodes ∧ x ≠ y ∧ δ x y ≤ fs
  attr : ∀ e ∈ g.edges, e.2.2 = δ e.1 e.2.1
  symm : ∀ x y, δ x y = δ y x
  nonneg : ∀ x y, 0 ≤ δ x y
  triangle : ∀ x y z, δ x z ≤ δ x y + δ y z
  self : ∀ x, δ x x = 0
  pos : 0 < fs

theorem sameShape_copy (g : NxGraph V ℝ) : SameShape (dsGraphCopy g) g := by
  refine ⟨?_, rfl⟩
  simp [dsGraphCopy, Function.comp_def]

theorem sameShape_dsSubgraph (g : NxGraph V ℝ) (D : List V) : SameShape (dsSubgraph g D) (g.subgraph fun x => x ∈ D) := by
  refine ⟨?_, rfl⟩
  simp [dsSubgraph, Function.comp_def]

theorem hasEdge_dsSubgraph {g : NxGraph V ℝ} {D : List V} {x y : V} : (dsSubgraph g D).hasEdge x y ↔ g.hasEdge x y ∧ x ∈ D ∧ y ∈ D := by
  rw [sameShape_hasEdge (sameShape_dsSubgraph g D), hasEdge_subgraph]

theorem mem_dsSubgraph {g : NxGraph V ℝ} {D : List V} {x : V} : x ∈ (dsSubgraph g D).nodes ↔ x ∈ g.nodes ∧ x ∈ D := mem_subgraph

theorem distOK_copy {g : NxGraph V ℝ} {δ : V → V → ℝ} (h : ∀ e ∈ g.edges, e.2.2 = δ e.1 e.2.1) : DistOK (dsGraphCopy g) δ := by
  intro e he
  obtain ⟨k, hk, rfl⟩ := List.mem_map.1 he
  exact h k hk

theorem distOK_sub {g : NxGraph V ℝ} {D : List V} {δ : V → V → ℝ} (h : ∀ e ∈ g.edges, e.2.2 = δ e.1 e.2.1) : DistOK (dsSubgraph g D) δ := by
  intro e he
  obtain ⟨k, hk, rfl⟩ := List.mem_map.1 he
  exact h k (List.mem_filter.1 hk).1

theorem hasEdge_reduced {g : NxGraph V ℝ} {δ : V → V → ℝ} {fs : ℝ} (h : GeoCluster g δ fs) {x y : V} : (dsReduced fs g).hasEdge x y ↔ g.hasEdge x y ∧ δ x y < fs / 3 := by
  unfold dsReduced hasEdge
  simp only [List.mem_map, List.mem_filter, decide_eq_true_eq]
  constructor
  · rintro ⟨e, ⟨k, ⟨hk1, hk2⟩, rfl⟩, hj⟩
    refine ⟨⟨k, hk1, hj⟩, ?_⟩
    rw [h.attr k hk1] at hk2
    rcases hj with ⟨h1, h2⟩ | ⟨h1, h2⟩
    · simp only at h1 h2; rwa [h1, h2] at hk2
    · simp only at h1 h2; rw [h1, h2] at hk2; rwa [h.symm]
  · rintro ⟨⟨k, hk1, hj⟩, hlt⟩
    refine ⟨_, ⟨k, ⟨hk1, ?_⟩, rfl⟩, hj⟩
    rw [h.attr k hk1]
    rcases hj with ⟨h1, h2⟩ | ⟨h1, h2⟩
    · rw [h1, h2]; exact hlt
    · rw [h1, h2, h.symm]; exact hlt

theorem good_reduced {g : NxGraph V ℝ} (hg : GoodGraph g) (fs : ℝ) : GoodGraph (dsReduced fs g) := by
  have : SameShape (dsReduced fs g) (⟨g.nodes, g.edges.filter fun e => decide (e.2.2 < fs / 3)⟩ : NxGraph V ℝ) := ⟨by simp [dsReduced, Function.comp_def], rfl⟩
  refine sameShape_good this ⟨hg.nodup, fun e he => hg.left e (List.mem_filter.1 he).1, fun e he => hg.right e (List.mem_filter.1 he).1,
    fun e he => hg.noLoop e (List.mem_filter.1 he).1, hg.single.filter _⟩

theorem walk_ge {g : NxGraph V A} {δ : V → V → ℝ} (htri : ∀ x y z, δ x z ≤ δ x y + δ y z) (hself : ∀ x, δ x x = 0) :
    ∀ {p : List V} {a b : V}, IsWalk g a b p → δ a b ≤ pathLength δ p := by
  intro p
  induction p with
  | nil => rintro a b ⟨h, -, -⟩; simp at h
  | cons x l ih =>
    rintro a b ⟨h1, h2, h3⟩
    simp at h1
    subst h1
    cases l with
    | nil => simp at h2; subst h2; rw [pathLength_single, hself]
    | cons y l =>
      rw [List.isChain_cons_cons] at h3
      have := ih ⟨rfl, by simpa using h2, h3.2⟩
      rw [pathLength_cons]
      have := htri x y b
      linarith

/-! ## Patching -/

theorem mem_edges_addEdge {g : NxGraph V A} {x y : V} {a : A} {e : V × V × A} (h : e ∈ (g.addEdge x y a).edges) : e ∈ g.edges ∨ (joins e x y ∧ e.2.2 = a) := by
  unfold addEdge at h
  simp only at h
  split_ifs at h with hex
  · simp only [addNode_edges, List.mem_map] at h
    obtain ⟨k, hk, rfl⟩ := h
    split_ifs with hj
    · exact .inr ⟨hj, rfl⟩
    · exact .inl hk
  · simp only [addNode_edges, List.mem_append, List.mem_singleton] at h
    rcases h with h | rfl
    · exact .inl h
    · exact .inr ⟨.inl ⟨rfl, rfl⟩, rfl⟩

theorem attr_some {g : NxGraph V A} {x y : V} (h : g.hasEdge x y) : ∃ e ∈ g.edges, joins e x y ∧ g.attr? x y = some e.2.2 := by
  obtain ⟨e, he, hj⟩ := h
  unfold attr?
  cases hf : g.edges.find? (fun e => decide (NxGraph.joins e x y)) with
  | none => have := List.find?_eq_none.1 hf e he; simp [hj] at this
  | some k => exact ⟨k, List.mem_of_find?_eq_some hf, by have := List.find?_some hf; simpa using this, rfl⟩

/-- The invariant of the subgraph while it is patched. -/
structure PatchInv (g : NxGraph V ℝ) (δ : V → V → ℝ) (D : List V) (sub : NxGraph V DSAttr) : Prop where
  good : GoodGraph sub
  distOK : DistOK sub δ
  le : ∀ x y, (dsSubgraph g D).hasEdge x y → sub.hasEdge x y
  subG : ∀ x y, sub.hasEdge x y → g.hasEdge x y
  nodes : ∀ x ∈ sub.nodes, x ∈ g.nodes
  dom : ∀ x ∈ (dsSubgraph g D).nodes, x ∈ sub.nodes
  noWeight : ∀ e ∈ sub.edges, e.1 ∈ D → e.2.1 ∈ D → e.2.2.weight = none

theorem patchInv_init {g : NxGraph V ℝ} {δ : V → V → ℝ} {fs : ℝ} (h : GeoCluster g δ fs) (D : List V) : PatchInv g δ D (dsSubgraph g D) where
  good := sameShape_good (sameShape_dsSubgraph g D) (goodGraph_subgraph h.good _)
  distOK := distOK_sub h.attr
  le _ _ h := h
  subG _ _ h := (hasEdge_dsSubgraph.1 h).1
  nodes _ h := (mem_dsSubgraph.1 h).1
  dom _ h := h
  noWeight e he _ _ := by
    obtain ⟨k, hk, rfl⟩ := List.mem_map.1 he
    rfl

theorem patchInv_addEdge {g : NxGraph V ℝ} {δ : V → V → ℝ} {fs : ℝ} (h : GeoCluster g δ fs) {D : List V} {sub : NxGraph V DSAttr} (hs : PatchInv g δ D sub) {x y : V} (hxy : g.hasEdge x y)
    (hD : ¬ (x ∈ D ∧ y ∈ D)) {a : DSAttr} (ha : a.dist = δ x y) : PatchInv g δ D (sub.addEdge x y a) where
  good := goodGraph_addEdge hs.good (goodGraph_edge h.good hxy).2.2 _ _
  distOK e he := by
    rcases mem_edges_addEdge he with he | ⟨hj, rfl⟩
    · exact hs.distOK e he
    · rw [ha]
      rcases hj with ⟨h1, h2⟩ | ⟨h1, h2⟩
      · rw [h1, h2]
      · rw [h1, h2, h.symm]
  le u v huv := hasEdge_addEdge.2 (.inl (hs.le u v huv))
  subG u v huv := by
    rcases hasEdge_addEdge.1 huv with huv | ⟨rfl, rfl⟩ | ⟨rfl, rfl⟩
    exacts [hs.subG u v huv, hxy, hasEdge_symm.1 hxy]
  nodes z hz := by
    have := goodGraph_edge h.good hxy
    rcases mem_addEdge.1 hz with hz | rfl | rfl
    exacts [hs.nodes z hz, this.1, this.2.1]
  dom z hz := mem_addEdge.2 (.inl (hs.dom z hz))
  noWeight e he h1 h2 := by
    rcases mem_edges_addEdge he with he | ⟨hj, -⟩
    · exact hs.noWeight e he h1 h2
    · rcases hj with ⟨h3, h4⟩ | ⟨h3, h4⟩
      · exact absurd ⟨h3 ▸ h1, h4 ▸ h2⟩ hD
      · exact absurd ⟨h4 ▸ h2, h3 ▸ h1⟩ hD

theorem patchInv_addNode {g : NxGraph V ℝ} {δ : V → V → ℝ} {D : List V} {sub : NxGraph V DSAttr} (hs : PatchInv g δ D sub) {x : V} (hx : x ∈ g.nodes) : PatchInv g δ D (sub.addNode x) where
  good := goodGraph_addNode hs.good x
  distOK e he := hs.distOK e (by rwa [addNode_edges] at he)
  le u v huv := hasEdge_addNode.2 (hs.le u v huv)
  subG u v huv := hs.subG u v (hasEdge_addNode.1 huv)
  nodes z hz := (mem_addNode.1 hz).elim (hs.nodes z) fun h => h ▸ hx
  dom z hz := mem_addNode.2 (.inl (hs.dom z hz))
  noWeight e he := hs.noWeight e (by rwa [addNode_edges] at he)

theorem patchHole_spec {g : NxGraph V ℝ} {δ : V → V → ℝ} {fs : ℝ} (h : GeoCluster g δ fs) {D : List V} {sub : NxGraph V DSAttr} (hs : PatchInv g δ D sub) {p : List V}
    (hp : ∀ e ∈ pathEdges p, g.hasEdge e.1 e.2) (hn : ∀ x ∈ p, x ∈ g.nodes) (hD : ∀ e ∈ pathEdges p, ¬ (e.1 ∈ D ∧ e.2 ∈ D)) :
    PatchInv g δ D (patchHole sub (dsGraphCopy g) p) ∧ (∀ x y, sub.hasEdge x y → (patchHole sub (dsGraphCopy g) p).hasEdge x y) ∧
    ∀ e ∈ pathEdges p, (patchHole sub (dsGraphCopy g) p).hasEdge e.1 e.2 := by
  unfold patchHole
  have h1 : ∀ (l : List V) (sub : NxGraph V DSAttr), PatchInv g δ D sub → (∀ x ∈ l, x ∈ g.nodes) →
      PatchInv g δ D (l.foldl (fun s x => s.addNode x) sub) ∧ ∀ x y, sub.hasEdge x y → (l.foldl (fun s x => s.addNode x) sub).hasEdge x y := by
    intro l
    induction l with
    | nil => intro sub hs _; exact ⟨hs, fun _ _ h => h⟩
    | cons a l ih =>
      intro sub hs hl
      obtain ⟨k1, k2⟩ := ih (sub.addNode a) (patchInv_addNode hs (hl a (by simp))) fun x hx => hl x (by simp [hx])
      exact ⟨k1, fun x y hxy => k2 x y (hasEdge_addNode.2 hxy)⟩
  have h2 : ∀ (l : List (V × V)) (sub : NxGraph V DSAttr), PatchInv g δ D sub → (∀ e ∈ l, g.hasEdge e.1 e.2) → (∀ e ∈ l, ¬ (e.1 ∈ D ∧ e.2 ∈ D)) →
      let r := l.foldl (fun s e => match (dsGraphCopy g).attr? e.1 e.2 with | some a => s.addEdge e.1 e.2 a | none => s) sub
      PatchInv g δ D r ∧ (∀ x y, sub.hasEdge x y → r.hasEdge x y) ∧ ∀ e ∈ l, r.hasEdge e.1 e.2 := by
    intro l
    induction l with
    | nil => intro sub hs _ _; exact ⟨hs, fun _ _ h => h, by simp⟩
    | cons a l ih =>
      intro sub hs hl hlD
      obtain ⟨e, he, hj, hattr⟩ := attr_some ((sameShape_hasEdge (sameShape_copy g) _ _).2 (hl a (by simp)))
      have hdist : e.2.2.dist = δ a.1 a.2 := by
        rw [distOK_copy h.attr e he]
        rcases hj with ⟨h1, h2⟩ | ⟨h1, h2⟩
        · rw [h1, h2]
        · rw [h1, h2, h.symm]
      have hk := ih (sub.addEdge a.1 a.2 e.2.2) (patchInv_addEdge h hs (hl a (by simp)) (hlD a (by simp)) hdist) (fun e he => hl e (by simp [he])) fun e he => hlD e (by simp [he])
      simp only [List.foldl_cons, hattr] at hk ⊢
      obtain ⟨k1, k2, k3⟩ := hk
      refine ⟨k1, fun x y hxy => k2 x y (hasEdge_addEdge.2 (.inl hxy)), fun f hf => ?_⟩
      rcases List.mem_cons.1 hf with rfl | hf
      · exact k2 _ _ (hasEdge_addEdge.2 (.inr (.inl ⟨rfl, rfl⟩)))
      · exact k3 f hf
  obtain ⟨k1, k2⟩ := h1 p.tail.dropLast sub hs fun x hx => hn x (List.mem_of_mem_tail (List.dropLast_subset _ hx))
  obtain ⟨m1, m2, m3⟩ := h2 (pathEdges p) _ k1 hp hD
  exact ⟨m1, fun x y hxy => m2 x y (k2 x y hxy), m3⟩

theorem mem_pairs2 {l : List V} {a b : V} : (a, b) ∈ pairs2 l → a ∈ l ∧ b ∈ l := by
  induction l with
  | nil => simp [pairs2]
  | cons x l ih =>
    simp only [pairs2, List.mem_append, List.mem_map, Prod.mk.injEq, List.mem_cons]
    rintro (⟨y, hy, rfl, rfl⟩ | h)
    · exact ⟨.inl rfl, .inr hy⟩
    · exact ⟨.inr (ih h).1, .inr (ih h).2⟩

theorem pairs2_mem {l : List V} {a b : V} (ha : a ∈ l) (hb : b ∈ l) (hab : a ≠ b) : (a, b) ∈ pairs2 l ∨ (b, a) ∈ pairs2 l := by
  induction l with
  | nil => simp at ha
  | cons x l ih =>
    simp only [pairs2, List.mem_append, List.mem_map, Prod.mk.injEq]
    rcases List.mem_cons.1 ha with ka | ka <;> rcases List.mem_cons.1 hb with kb | kb
    · exact absurd (ka.trans kb.symm) hab
    · exact .inl (.inl ⟨b, kb, ka.symm, rfl⟩)
    · exact .inr (.inl ⟨a, ka, kb.symm, rfl⟩)
    · exact (ih ka kb).imp .inr .inr

theorem toPatch_spec {sub graph : NxGraph V DSAttr} {δ : V → V → ℝ} {fs : ℝ} : ∀ {ps : List (V × V)} {l}, toPatch sub graph δ fs ps = .ok l →
    (∀ q ∈ ps, ∃ o, patchEntry sub graph δ fs q.1 q.2 = .ok o ∧ ∀ t, o = some t → t ∈ l) ∧ ∀ t ∈ l, ∃ q ∈ ps, patchEntry sub graph δ fs q.1 q.2 = .ok (some t) := by
  intro ps
  induction ps with
  | nil => intro l h; simp [toPatch] at h; subst h; simp
  | cons q ps ih =>
    intro l h
    obtain ⟨a, b⟩ := q
    simp only [toPatch] at h
    cases he : patchEntry sub graph δ fs a b with
    | error e => rw [he] at h; simp at h
    | ok o =>
      rw [he] at h
      cases hr : toPatch sub graph δ fs ps with
      | error e => rw [hr] at h; simp at h
      | ok l' =>
        rw [hr] at h
        simp only [Except.ok.injEq] at h
        subst h
        obtain ⟨i1, i2⟩ := ih hr
        constructor
        · intro q hq
          rcases List.mem_cons.1 hq with rfl | hq
          · exact ⟨o, he, fun t ht => by simp [ht]⟩
          · obtain ⟨o', h1, h2⟩ := i1 q hq
            exact ⟨o', h1, fun t ht => List.mem_append_right _ (h2 t ht)⟩
        · intro t ht
          rcases List.mem_append.1 ht with ht | ht
          · cases o with
            | none => simp at ht
            | some t' => simp at ht; subst ht; exact ⟨(a, b), by simp, he⟩
          · obtain ⟨q, h1, h2⟩ := i2 t ht
            exact ⟨q, by simp [h1], h2⟩

/-- What the entry for one pair says. -/
theorem patchEntry_some {sub graph : NxGraph V DSAttr} {δ : V → V → ℝ} {fs : ℝ} {a b : V} {t : V × V × ℝ} (h : patchEntry sub graph δ fs a b = .ok (some t)) :
    t.1 = a ∧ t.2.1 = b ∧ shortestLength graph (edgeDist graph) a b = some t.2.2 ∧ t.2.2 < 2 * fs := by
  unfold patchEntry at h
  split_ifs at h
  · cases h1 : shortestLength sub (edgeDist sub) a b with
    | none => rw [h1] at h; simp at h
    | some r =>
      rw [h1] at h
      simp only at h
      split_ifs at h
      · cases h2 : shortestLength graph (edgeDist graph) a b with
        | none => rw [h2] at h; simp at h
        | some o =>
          rw [h2] at h
          simp only at h
          split_ifs at h with h3
          · simp only [Except.ok.injEq, Option.some.injEq] at h; subst h; exact ⟨rfl, rfl, rfl, h3.2⟩
          · simp at h
      · simp at h
  · simp at h

/-- What a pair that needs no patch satisfies. -/
theorem patchEntry_bound {g : NxGraph V ℝ} {δ : V → V → ℝ} {fs : ℝ} (h : GeoCluster g δ fs) {D : List V} {a b : V} (ha : a ∈ (dsSubgraph g D).nodes) {c : ℝ} (hfs : fs < δ a b)
    (hc : Within (dsGraphCopy g) δ a b c) (hc2 : c < 2 * fs) {o} (he : patchEntry (dsSubgraph g D) (dsGraphCopy g) δ fs a b = .ok o) :
    (∃ t, o = some t ∧ t.1 = a ∧ t.2.1 = b ∧ t.2.2 ≤ c) ∨ Within (dsSubgraph g D) δ a b (2 * c) := by
  have hδ : δ a b ≤ c := by obtain ⟨w, hw, hl⟩ := hc; exact (walk_ge h.triangle h.self hw).trans hl
  have hgS := (patchInv_init h D).good
  have hgC := sameShape_good (sameShape_copy g) h.good
  have hS := shortest_spec hgS h.symm h.nonneg (distOK_sub h.attr) (t := b) ha
  have hC := shortest_spec hgC h.symm h.nonneg (distOK_copy h.attr) (s := a) (t := b) (mem_dsSubgraph.1 ha).1
  unfold patchEntry at he
  rw [if_pos (by linarith)] at he
  cases h1 : shortestLength (dsSubgraph g D) (edgeDist (dsSubgraph g D)) a b with
  | none => rw [h1] at he; simp at he
  | some r =>
    rw [h1] at he
    simp only at he
    obtain ⟨hr, -⟩ := hS.2 r h1
    split_ifs at he with h2
    · cases h3 : shortestLength (dsGraphCopy g) (edgeDist (dsGraphCopy g)) a b with
      | none => rw [h3] at he; simp at he
      | some o' =>
        rw [h3] at he
        simp only at he
        have ho := (hC.2 o' h3).2 c hc
        split_ifs at he with h4
        · simp only [Except.ok.injEq] at he
          exact .inl ⟨_, he.symm, rfl, rfl, ho⟩
        · refine .inr (within_mono (fun _ _ h => h) ?_ hr)
          by_contra hlt
          push Not at hlt
          apply h4
          have := h.pos
          constructor <;> nlinarith
    · refine .inr (within_mono (fun _ _ h => h) ?_ hr)
      push Not at h2
      have := h.pos
      rcases le_max_iff.1 h2 with h5 | h5 <;> nlinarith

end NF
