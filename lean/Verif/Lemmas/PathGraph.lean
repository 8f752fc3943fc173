import Verif.Spec.Curve
import Verif.Props.Shape

/-! # Lemmas about graphs that are one line -/

noncomputable section
open Classical
namespace NF
open Spec NxGraph
variable {V A : Type}

theorem consecutive_cons {a : V} {l : List V} {x y : V} : Consecutive (a :: l) x y ↔ (x = a ∧ l.head? = some y) ∨ Consecutive l x y := by
  constructor
  · rintro ⟨p, q, h⟩
    cases p with
    | nil =>
      simp only [List.nil_append, List.cons.injEq] at h
      exact .inl ⟨h.1.symm, by rw [h.2]; rfl⟩
    | cons b p =>
      simp only [List.cons_append, List.cons.injEq] at h
      exact .inr ⟨p, q, h.2⟩
  · rintro (⟨rfl, h⟩ | ⟨p, q, rfl⟩)
    · cases l with
      | nil => simp at h
      | cons b l => simp only [List.head?_cons, Option.some.injEq] at h; subst h; exact ⟨[], l, rfl⟩
    · exact ⟨a :: p, q, rfl⟩

theorem consecutive_reverse {l : List V} {x y : V} : Consecutive l.reverse x y ↔ Consecutive l y x := by
  have key : ∀ (l : List V) x y, Consecutive l y x → Consecutive l.reverse x y := by
    rintro l x y ⟨p, q, rfl⟩
    exact ⟨q.reverse, p.reverse, by simp⟩
  refine ⟨fun h => ?_, key l x y⟩
  have := key l.reverse y x h
  rwa [List.reverse_reverse] at this

theorem consecutive_mem {l : List V} {x y : V} (h : Consecutive l x y) : x ∈ l ∧ y ∈ l := by
  obtain ⟨p, q, rfl⟩ := h
  simp

theorem PathGraph.reverse {g : NxGraph V A} {p : List V} (h : PathGraph g p) : PathGraph g p.reverse := by
  obtain ⟨h1, h2, h3⟩ := h
  refine ⟨List.nodup_reverse.2 h1, fun x => by rw [List.mem_reverse, h2], fun x y => ?_⟩
  rw [h3, consecutive_reverse, consecutive_reverse, or_comm]

theorem pathGraph_single (x : V) : PathGraph ((NxGraph.empty : NxGraph V A).addNode x) [x] := by
  refine ⟨by simp, fun y => by simp [mem_addNode, NxGraph.empty], fun y z => ?_⟩
  rw [hasEdge_addNode]
  have hn : ∀ y z : V, ¬ Consecutive [x] y z := fun y z h => by
    rcases consecutive_cons.1 h with ⟨-, h⟩ | ⟨p, q, h⟩
    · simp at h
    · simp at h
  simp [hasEdge, NxGraph.empty, hn]

theorem PathGraph.addNode {g : NxGraph V A} {p : List V} (h : PathGraph g p) {x : V} (hx : x ∈ p) : PathGraph (g.addNode x) p := by
  obtain ⟨h1, h2, h3⟩ := h
  refine ⟨h1, fun y => ?_, fun y z => by rw [hasEdge_addNode, h3]⟩
  rw [mem_addNode, ← h2]
  exact ⟨.inl, fun h => h.elim id fun e => e ▸ hx⟩

theorem PathGraph.extend {g : NxGraph V Unit} {x : V} {l : List V} (h : PathGraph g (x :: l)) {y : V} (hy : y ∉ x :: l) : PathGraph (g.addEdge x y ()) (y :: x :: l) := by
  obtain ⟨h1, h2, h3⟩ := h
  refine ⟨List.nodup_cons.2 ⟨hy, h1⟩, fun z => ?_, fun z w => ?_⟩
  · rw [mem_addEdge, List.mem_cons, h2]
    have := h2 x
    constructor
    · rintro (e | h)
      · exact .inr (.inr e)
      · exact .inl h
    · rintro (h | h | h)
      · exact .inr h
      · exact .inr (h ▸ this.1 (by simp))
      · exact .inl h
  · rw [hasEdge_addEdge, h3, consecutive_cons (a := y), consecutive_cons (a := y)]
    simp only [List.head?_cons, Option.some.injEq]
    constructor
    · rintro ((h | h) | ⟨rfl, rfl⟩ | ⟨rfl, rfl⟩) <;> tauto
    · rintro ((⟨rfl, rfl⟩ | h) | (⟨rfl, rfl⟩ | h)) <;> tauto

/-! ### The number of neighbours -/

theorem nbrCount_one {g : NxGraph V A} (hg : GoodGraph g) {x y : V} (h : ∀ w, g.hasEdge x w ↔ w = y) : nbrCount g x = 1 := by
  have : (g.nodes.filter fun w => decide (g.hasEdge x w)).Perm [y] := by
    rw [List.perm_ext_iff_of_nodup (hg.nodup.filter _) (by simp)]
    intro w
    simp only [List.mem_filter, decide_eq_true_eq, List.mem_singleton, h]
    refine ⟨fun h => h.2, fun e => ⟨?_, e⟩⟩
    exact (goodGraph_edge hg ((h w).2 e)).2.1
  exact this.length_eq

theorem nbrCount_two {g : NxGraph V A} (hg : GoodGraph g) {x y z : V} (hyz : y ≠ z) (h : ∀ w, g.hasEdge x w ↔ w = y ∨ w = z) : nbrCount g x = 2 := by
  have : (g.nodes.filter fun w => decide (g.hasEdge x w)).Perm [y, z] := by
    rw [List.perm_ext_iff_of_nodup (hg.nodup.filter _) (by simp [hyz])]
    intro w
    simp only [List.mem_filter, decide_eq_true_eq, List.mem_cons, List.not_mem_nil, or_false, h]
    refine ⟨fun h => h.2, fun e => ⟨?_, e⟩⟩
    exact (goodGraph_edge hg ((h w).2 e)).2.1
  exact this.length_eq

theorem consecutive_split {a b : List V} {x y z : V} (hnd : (a ++ x :: b).Nodup) : (Consecutive (a ++ x :: b) x y ↔ b.head? = some y) ∧
    (Consecutive (a ++ x :: b) z x ↔ a.getLast? = some z) := by
  have hfwd : ∀ (a b : List V) (x y : V), (a ++ x :: b).Nodup → (Consecutive (a ++ x :: b) x y ↔ b.head? = some y) := by
    intro a
    induction a with
    | nil =>
      intro b x y hnd
      rw [List.nil_append, consecutive_cons]
      have hx : x ∉ b := (List.nodup_cons.1 hnd).1
      constructor
      · rintro (⟨-, h⟩ | h)
        · exact h
        · exact absurd (consecutive_mem h).1 hx
      · exact fun h => .inl ⟨rfl, h⟩
    | cons c a ih =>
      intro b x y hnd
      rw [List.cons_append] at hnd ⊢
      rw [consecutive_cons, ih b x y (List.nodup_cons.1 hnd).2]
      have hc := (List.nodup_cons.1 hnd).1
      constructor
      · rintro (⟨rfl, -⟩ | h)
        · simp at hc
        · exact h
      · exact .inr
  refine ⟨hfwd a b x y hnd, ?_⟩
  have hr : (b.reverse ++ x :: a.reverse).Nodup := by
    have := List.nodup_reverse.2 hnd
    simpa using this
  have := hfwd b.reverse a.reverse x z hr
  rw [List.head?_reverse] at this
  rw [← this, ← consecutive_reverse]
  simp

/-- the neighbours of a node of a path -/
theorem PathGraph.nbrs {g : NxGraph V A} {a b : List V} {x : V} (h : PathGraph g (a ++ x :: b)) (w : V) : g.hasEdge x w ↔ b.head? = some w ∨ a.getLast? = some w := by
  obtain ⟨h1, -, h3⟩ := h
  rw [h3, (consecutive_split (y := w) (z := w) h1).1, (consecutive_split (y := w) (z := w) h1).2]

theorem PathGraph.degree_head {g : NxGraph V A} (hg : GoodGraph g) {x y : V} {l : List V} (h : PathGraph g (x :: y :: l)) : nbrCount g x = 1 := by
  refine nbrCount_one hg (y := y) fun w => ?_
  rw [PathGraph.nbrs (a := []) h]
  simp [eq_comm]

theorem PathGraph.degree_mid {g : NxGraph V A} (hg : GoodGraph g) {a b : List V} {x y z : V} (h : PathGraph g (a ++ y :: x :: z :: b)) : nbrCount g x = 2 := by
  have e : a ++ y :: x :: z :: b = (a ++ [y]) ++ x :: z :: b := by simp
  rw [e] at h
  have hyz : y ≠ z := by
    rintro rfl
    have := h.1
    simp only [List.append_assoc, List.singleton_append, List.nodup_append, List.nodup_cons] at this
    simp at this
  refine nbrCount_two hg hyz fun w => ?_
  rw [PathGraph.nbrs h]
  simp [eq_comm, or_comm]

/-- A node of a path with at least two nodes has one neighbour if it is the first or the last, and two otherwise. -/
theorem PathGraph.degrees {g : NxGraph V A} (hg : GoodGraph g) {p : List V} (h : PathGraph g p) (h2 : 2 ≤ p.length) {x : V} (hx : x ∈ p) :
    (nbrCount g x = 1 ∧ (p.head? = some x ∨ p.getLast? = some x)) ∨ (nbrCount g x = 2 ∧ p.head? ≠ some x ∧ p.getLast? ≠ some x) := by
  obtain ⟨a, b, rfl⟩ := List.mem_iff_append.1 hx
  rcases List.eq_nil_or_concat a with rfl | ⟨a, y, rfl⟩
  · cases b with
    | nil => simp at h2
    | cons y b => exact .inl ⟨PathGraph.degree_head hg h, .inl rfl⟩
  · cases b with
    | nil =>
      refine .inl ⟨?_, .inr (by simp)⟩
      have := PathGraph.reverse h
      simp only [List.concat_eq_append, List.append_assoc, List.cons_append, List.nil_append, List.reverse_append, List.reverse_cons, List.reverse_nil] at this
      exact PathGraph.degree_head hg this
    | cons z b =>
      have e : (a.concat y) ++ x :: z :: b = a ++ y :: x :: z :: b := by simp
      rw [e] at h ⊢
      refine .inr ⟨PathGraph.degree_mid hg h, ?_, ?_⟩
      · intro hh
        have hn := h.1
        cases a with
        | nil => simp at hh; subst hh; simp at hn
        | cons c a => simp at hh; subst hh; simp at hn
      · intro hh
        have hn := h.1
        rw [show a ++ y :: x :: z :: b = (a ++ [y, x]) ++ z :: b by simp, List.getLast?_append_of_ne_nil _ (by simp)] at hh
        have hm : x ∈ z :: b := List.mem_of_getLast? hh
        rw [show a ++ y :: x :: z :: b = (a ++ [y]) ++ x :: (z :: b) by simp, List.nodup_append] at hn
        exact (List.nodup_cons.1 hn.2.1).1 hm

/-- The converse of C63 for open lines. -/
theorem openLine_shape {g : NxGraph V A} (hg : GoodGraph g) {p : List V} (h : PathGraph g p) (h2 : 2 ≤ p.length) : shapeName (createDegreeCount g) = .openLine := by
  rw [C63_open_line hg]
  obtain ⟨x, hx⟩ : ∃ x, p.head? = some x := by cases p with
    | nil => simp at h2
    | cons x p => exact ⟨x, rfl⟩
  obtain ⟨y, hy⟩ : ∃ y, p.getLast? = some y := by
    rw [List.getLast?_eq_some_getLast (by rintro rfl; simp at h2)]; exact ⟨_, rfl⟩
  have hxp := List.mem_of_mem_head? hx
  have hyp := List.mem_of_getLast? hy
  refine ⟨x, (h.2.1 x).1 hxp, y, (h.2.1 y).1 hyp, ?_, ?_, ?_, fun z hz hzx hzy => ?_⟩
  · rintro rfl
    cases p with
    | nil => simp at hx
    | cons z p =>
      simp only [List.head?_cons, Option.some.injEq] at hx
      subst hx
      cases p with
      | nil => simp at h2
      | cons w p =>
        rw [List.getLast?_cons_cons] at hy
        exact (List.nodup_cons.1 h.1).1 (List.mem_of_getLast? hy)
  · rcases PathGraph.degrees hg h h2 hxp with h | h
    · exact h.1
    · exact absurd hx h.2.1
  · rcases PathGraph.degrees hg h h2 hyp with h | h
    · exact h.1
    · exact absurd hy h.2.2
  · rcases PathGraph.degrees hg h h2 ((h.2.1 z).2 hz) with ⟨-, e | e⟩ | h
    · rw [hx] at e; exact absurd (Option.some.inj e).symm hzx
    · rw [hy] at e; exact absurd (Option.some.inj e).symm hzy
    · exact h.1

theorem isOpenLine_of_path {g : NxGraph V A} {p : List V} (h : PathGraph g p) (h2 : 2 ≤ p.length) : IsOpenLine g := ⟨p, h2, h.1, h.2.1, h.2.2⟩

end NF
