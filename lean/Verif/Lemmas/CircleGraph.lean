import Verif.Lemmas.PathGraph
import Verif.Spec.Circle

/-! # Circles in a graph -/

noncomputable section
open Classical
namespace NF
open Spec NxGraph
variable {V A : Type}

theorem consecutive_snoc {l : List V} {a x y : V} : Consecutive (l ++ [a]) x y ↔ Consecutive l x y ∨ (l.getLast? = some x ∧ y = a) := by
  rw [← consecutive_reverse (l := l ++ [a]), List.reverse_append, List.reverse_singleton, List.singleton_append, consecutive_cons, consecutive_reverse, List.head?_reverse]
  tauto

theorem circle_isClosedLoop {g : NxGraph V A} {s : V} {p : List V} (h : CircleGraph g s p) : IsClosedLoop g := ⟨s, p, h⟩

/-- Joining the ends of a path gives a circle. -/
theorem PathGraph.close {g : NxGraph V Unit} {s c : V} {p : List V} (h : PathGraph g (s :: p)) (h3 : 3 ≤ (s :: p).length) (hc : (s :: p).getLast? = some c) :
    CircleGraph (g.addEdge c s ()) s p := by
  refine ⟨h3, h.1, fun x => ?_, fun x y => ?_⟩
  · rw [mem_addEdge, ← h.2.1]
    have := List.mem_of_getLast? hc
    constructor
    · exact .inl
    · rintro (h | rfl | rfl)
      · exact h
      · exact this
      · simp
  · rw [hasEdge_addEdge, h.2.2, consecutive_snoc, consecutive_snoc, hc]
    simp only [Option.some.injEq]
    constructor
    · rintro ((h | h) | ⟨rfl, rfl⟩ | ⟨rfl, rfl⟩) <;> tauto
    · rintro ((h | ⟨rfl, rfl⟩) | (h | ⟨rfl, rfl⟩)) <;> tauto

/-- All nodes of a circle have two neighbours. -/
theorem CircleGraph.degrees {g : NxGraph V A} (hg : GoodGraph g) {s : V} {p : List V} (h : CircleGraph g s p) {x : V} (hx : x ∈ g.nodes) : nbrCount g x = 2 := by
  obtain ⟨h3, hnd, hm, he⟩ := h
  have hxp := (hm x).2 hx
  obtain ⟨c, hc⟩ : ∃ c, (s :: p).getLast? = some c := ⟨_, List.getLast?_eq_some_getLast (by simp)⟩
  by_cases hxs : x = s
  · subst hxs
    obtain ⟨n, q, rfl⟩ : ∃ n q, p = n :: q := by cases p with
      | nil => simp at h3
      | cons n q => exact ⟨n, q, rfl⟩
    have hq : q ≠ [] := by rintro rfl; simp at h3
    have hcq : q.getLast? = some c := by
      rw [List.getLast?_cons_cons] at hc
      cases q with
      | nil => exact absurd rfl hq
      | cons a q => rwa [List.getLast?_cons_cons] at hc
    have hcm := List.mem_of_getLast? hcq
    have hnc : n ≠ c := by
      rintro rfl
      exact (List.nodup_cons.1 (List.nodup_cons.1 hnd).2).1 hcm
    refine nbrCount_two hg hnc fun w => ?_
    rw [he, consecutive_snoc, consecutive_snoc, hc]
    have e := consecutive_split (a := []) (b := n :: q) (x := x) (y := w) (z := w) hnd
    simp only [List.nil_append, List.head?_cons, Option.some.injEq, List.getLast?_nil, reduceCtorEq, iff_false] at e
    rw [e.1]
    simp only [e.2, Option.some.injEq]
    have hcx : c ≠ x := by
      rintro rfl
      exact (List.nodup_cons.1 hnd).1 (List.mem_cons_of_mem _ hcm)
    constructor
    · rintro ((h | ⟨h, -⟩) | (h | ⟨h, -⟩))
      · exact .inl h.symm
      · exact absurd h hcx
      · exact h.elim
      · exact .inr h.symm
    · rintro (rfl | rfl)
      · exact .inl (.inl rfl)
      · exact .inr (.inr ⟨rfl, trivial⟩)
  · have hxq : x ∈ p := (List.mem_cons.1 hxp).resolve_left hxs
    obtain ⟨a, b, rfl⟩ := List.mem_iff_append.1 hxq
    obtain ⟨y, hy⟩ : ∃ y, (s :: a).getLast? = some y := ⟨_, List.getLast?_eq_some_getLast (by simp)⟩
    have hya := List.mem_of_getLast? hy
    have e' : s :: (a ++ x :: b) = (s :: a) ++ x :: b := rfl
    have hne : ∀ w, Consecutive (s :: (a ++ x :: b) ++ [s]) x w ↔ (b ++ [s]).head? = some w := by
      intro w
      rw [consecutive_snoc, e', (consecutive_split (y := w) (z := w) (by rw [← e']; exact hnd)).1]
      cases b with
      | nil =>
        rw [List.getLast?_append_of_ne_nil _ (by simp)]
        simp [eq_comm]
      | cons b0 b =>
        rw [List.getLast?_append_of_ne_nil _ (by simp), List.getLast?_cons_cons]
        simp only [List.head?_cons, Option.some.injEq, List.cons_append]
        constructor
        · rintro (h | ⟨h, -⟩)
          · exact h
          · exfalso
            have := List.mem_of_getLast? h
            rw [e', List.nodup_append] at hnd
            exact (List.nodup_cons.1 hnd.2.1).1 this
        · exact .inl
    have hpr : ∀ w, Consecutive (s :: (a ++ x :: b) ++ [s]) w x ↔ w = y := by
      intro w
      rw [consecutive_snoc, e', (consecutive_split (y := w) (z := w) (by rw [← e']; exact hnd)).2, hy]
      simp only [Option.some.injEq]
      constructor
      · rintro (h | ⟨-, h⟩)
        · exact h.symm
        · exact absurd h hxs
      · exact fun h => .inl h.symm
    obtain ⟨z, hz⟩ : ∃ z, (b ++ [s]).head? = some z := by cases b <;> simp
    refine nbrCount_two hg (y := z) (z := y) ?_ fun w => ?_
    · rintro rfl
      rw [e', List.nodup_append] at hnd
      cases b with
      | nil =>
        simp only [List.nil_append, List.head?_cons, Option.some.injEq] at hz
        subst hz
        -- then the path has two nodes
        cases a with
        | nil => simp at h3
        | cons a0 a =>
          rw [List.getLast?_cons_cons] at hy
          exact (List.nodup_cons.1 hnd.1).1 (List.mem_of_getLast? hy)
      | cons b0 b =>
        simp only [List.cons_append, List.head?_cons, Option.some.injEq] at hz
        subst hz
        exact hnd.2.2 _ hya _ (by simp) rfl
    · rw [he, hne, hpr, hz]
      simp [eq_comm]

theorem closedLoop_shape {g : NxGraph V A} (hg : GoodGraph g) {s : V} {p : List V} (h : CircleGraph g s p) : shapeName (createDegreeCount g) = .closedLoop :=
  (C63_closed_loop hg).2 fun _ hx => CircleGraph.degrees hg h hx

end NF
