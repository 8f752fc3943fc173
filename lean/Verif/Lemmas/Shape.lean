import Verif.Model.Identify
import Verif.Lemmas.Graph
import Verif.Lemmas.Dimension

/-! # Lemmas for the shapes of lines -/

noncomputable section
open Classical

namespace NF
open Spec NxGraph
variable {V A : Type}

theorem nbrCount_eq_degree {g : NxGraph V A} (hg : GoodGraph g) (x : V) : nbrCount g x = g.degree x := by
  unfold nbrCount degree
  apply List.Perm.length_eq
  rw [List.perm_ext_iff_of_nodup (hg.nodup.filter _) (neighbors_nodup hg x)]
  intro y
  rw [mem_neighbors, List.mem_filter]
  simp only [decide_eq_true_eq, and_iff_right_iff_imp]
  exact fun h => (goodGraph_edge hg h).2.1

/-- The items of the degree count. -/
theorem mem_counter {dims : List ℤ} {x : ℤ} {n : ℕ} : (x, n) ∈ dims.foldl Counter.add [] ↔ n = dims.count x ∧ x ∈ dims := by
  obtain ⟨h1, h2, h3, -⟩ := count_foldl_mem dims [] [] (by simp [Counter.total])
  simp only [List.nil_append] at h1 h2 h3
  have hkey : ∀ (l : List ℤ) (c : Counter), ∀ e ∈ l.foldl Counter.add c, e.1 ∈ l ∨ ∃ f ∈ c, f.1 = e.1 := by
    have hadd : ∀ (c : Counter) (y : ℤ), ∀ e ∈ c.add y, e.1 = y ∨ ∃ f ∈ c, f.1 = e.1 := by
      intro c y
      induction c with
      | nil => intro e he; simp [Counter.add] at he; subst he; simp
      | cons f c ih =>
        intro e he
        rw [Counter.add] at he
        split_ifs at he with hy
        · rcases List.mem_cons.1 he with rfl | he
          · exact .inl hy
          · exact .inr ⟨e, by simp [he], rfl⟩
        · rcases List.mem_cons.1 he with rfl | he
          · exact .inr ⟨_, by simp, rfl⟩
          · rcases ih e he with h | ⟨k, hk, h⟩
            · exact .inl h
            · exact .inr ⟨k, by simp [hk], h⟩
    intro l
    induction l with
    | nil => intro c e he; exact .inr ⟨e, he, rfl⟩
    | cons y l ih =>
      intro c e he
      rcases ih (c.add y) e he with h | ⟨f, hf, h⟩
      · exact .inl (by simp [h])
      · rcases hadd c y f hf with h' | ⟨k, hk, h'⟩
        · exact .inl (by rw [← h, h']; simp)
        · exact .inr ⟨k, hk, h'.trans h⟩
  constructor
  · intro h
    refine ⟨h2 x n h, ?_⟩
    rcases hkey dims [] _ h with h | ⟨f, hf, -⟩
    · exact h
    · simp at hf
  · rintro ⟨rfl, hx⟩
    obtain ⟨n, hn⟩ := h3 x hx
    rwa [h2 x n hn] at hn

theorem counter_nodup (dims : List ℤ) : (dims.foldl Counter.add []).Nodup :=
  List.Nodup.of_map _ (count_foldl_mem dims [] [] (by simp [Counter.total])).1

theorem mem_degreeCount {g : NxGraph V A} {x : ℤ} {n : ℕ} : (x, n) ∈ createDegreeCount g ↔ x ≠ 2 ∧ n = (g.nodes.map fun x => (g.degree x : ℤ)).count x ∧ ∃ y ∈ g.nodes, (g.degree y : ℤ) = x := by
  unfold createDegreeCount
  rw [List.mem_filter, mem_counter]
  simp only [ne_eq, decide_not, Bool.not_eq_eq_eq_not, Bool.not_true, decide_eq_false_iff_not, List.mem_map]
  tauto

theorem sortedItems_eq_nil {c : Counter} : sortedItems c = [] ↔ c = [] := by
  have := List.mergeSort_perm c fun a b => decide (a.1 < b.1 ∨ (a.1 = b.1 ∧ a.2 ≤ b.2))
  exact ⟨fun h => by unfold sortedItems at h; rw [h] at this; exact this.nil_eq.symm, fun h => by unfold sortedItems; rw [h] at this ⊢; exact this.eq_nil⟩

theorem sortedItems_eq_singleton {c : Counter} {e : ℤ × ℕ} : sortedItems c = [e] ↔ c = [e] := by
  have := List.mergeSort_perm c fun a b => decide (a.1 < b.1 ∨ (a.1 = b.1 ∧ a.2 ≤ b.2))
  exact ⟨fun h => by unfold sortedItems at h; rw [h] at this; exact (List.singleton_perm.1 this).symm, fun h => by unfold sortedItems; rw [h] at this ⊢; exact List.perm_singleton.1 this⟩

/-- The order of the items does not matter. -/
theorem shapeName_perm {c c' : Counter} (h : c.Perm c') : shapeName c = shapeName c' := by
  have h1 : c = [] ↔ c' = [] := ⟨fun e => by subst e; exact h.nil_eq.symm, fun e => by subst e; exact h.eq_nil⟩
  have h2 : c = [(1, 2)] ↔ c' = [(1, 2)] := ⟨fun e => by subst e; exact (List.singleton_perm.1 h).symm, fun e => by subst e; exact List.perm_singleton.1 h⟩
  simp only [shapeName, sortedItems_eq_nil, sortedItems_eq_singleton, h1, h2]

/-! ## Walking along a graph -/

/-- From any node there is a path which cannot be continued. -/
theorem exists_maximal_path {g : NxGraph V A} (hg : GoodGraph g) {s : V} (hs : s ∈ g.nodes) :
    ∃ (p : List V) (t : V), p.head? = some s ∧ p.getLast? = some t ∧ p.IsChain g.hasEdge ∧ p.Nodup ∧ (∀ x ∈ p, x ∈ g.nodes) ∧ ∀ y, g.hasEdge t y → y ∈ p := by
  have key : ∀ (n : ℕ) (p : List V), g.nodes.length - p.length ≤ n → p.head? = some s → p.IsChain g.hasEdge → p.Nodup → (∀ x ∈ p, x ∈ g.nodes) →
      ∃ (p : List V) (t : V), p.head? = some s ∧ p.getLast? = some t ∧ p.IsChain g.hasEdge ∧ p.Nodup ∧ (∀ x ∈ p, x ∈ g.nodes) ∧ ∀ y, g.hasEdge t y → y ∈ p := by
    intro n
    induction n with
    | zero =>
      intro p h0 h1 h2 h3 h4
      have hne : p ≠ [] := by rintro rfl; simp at h1
      have hsub : p.Subperm g.nodes := List.subperm_of_subset h3 h4
      have hperm : p.Perm g.nodes := hsub.perm_of_length_le (by omega)
      exact ⟨p, p.getLast hne, h1, List.getLast?_eq_some_getLast hne, h2, h3, h4, fun y hy => hperm.mem_iff.2 (goodGraph_edge hg hy).2.1⟩
    | succ n ih =>
      intro p h0 h1 h2 h3 h4
      have hne : p ≠ [] := by rintro rfl; simp at h1
      by_cases hall : ∀ y, g.hasEdge (p.getLast hne) y → y ∈ p
      · exact ⟨p, p.getLast hne, h1, List.getLast?_eq_some_getLast hne, h2, h3, h4, hall⟩
      · push Not at hall
        obtain ⟨y, hy, hyp⟩ := hall
        refine ih (p ++ [y]) (by simp; omega) (by rw [List.head?_append, h1]; rfl) ?_ ?_ ?_
        · rw [List.isChain_append]
          refine ⟨h2, by simp, fun x hx z hz => ?_⟩
          rw [List.getLast?_eq_some_getLast hne] at hx
          simp at hx hz
          subst hx; subst hz
          exact hy
        · exact List.nodup_append.2 ⟨h3, by simp, fun a ha b hb => by simp at hb; subst hb; rintro rfl; exact hyp ha⟩
        · intro x hx
          rcases List.mem_append.1 hx with hx | hx
          · exact h4 x hx
          · simp at hx; subst hx; exact (goodGraph_edge hg hy).2.1
  exact key _ [s] le_rfl rfl (by simp) (by simp) (by simpa using hs)

/-- A node with two neighbours has no third one. -/
theorem nbr_two {g : NxGraph V A} (hg : GoodGraph g) {x a b c : V} (h : nbrCount g x = 2) (ha : g.hasEdge x a) (hb : g.hasEdge x b) (hab : a ≠ b) (hc : g.hasEdge x c) : c = a ∨ c = b := by
  by_contra hno
  push Not at hno
  rw [nbrCount_eq_degree hg] at h
  have hsub : [a, b, c].Subperm (g.neighbors x) := List.subperm_of_subset (by simp; tauto) (by
    intro z hz
    simp at hz
    rcases hz with rfl | rfl | rfl <;> exact mem_neighbors.2 ‹_›)
  have := hsub.length_le
  unfold degree at h
  simp at this
  omega

theorem nbr_one {g : NxGraph V A} (hg : GoodGraph g) {x a c : V} (h : nbrCount g x = 1) (ha : g.hasEdge x a) (hc : g.hasEdge x c) : c = a := by
  by_contra hno
  rw [nbrCount_eq_degree hg] at h
  have hsub : [a, c].Subperm (g.neighbors x) := List.subperm_of_subset (by simp; tauto) (by
    intro z hz
    simp at hz
    rcases hz with rfl | rfl <;> exact mem_neighbors.2 ‹_›)
  have := hsub.length_le
  unfold degree at h
  simp at this
  omega

theorem exists_nbr {g : NxGraph V A} (hg : GoodGraph g) {x : V} (h : 1 ≤ nbrCount g x) : ∃ y, g.hasEdge x y := by
  rw [nbrCount_eq_degree hg] at h
  obtain ⟨y, hy⟩ := List.exists_mem_of_ne_nil (g.neighbors x) (by rintro h0; rw [degree, h0] at h; simp at h)
  exact ⟨y, mem_neighbors.1 hy⟩

theorem exists_other_nbr {g : NxGraph V A} (hg : GoodGraph g) {x a : V} (h : nbrCount g x = 2) : ∃ y, g.hasEdge x y ∧ y ≠ a := by
  rw [nbrCount_eq_degree hg] at h
  unfold degree at h
  have hnd := neighbors_nodup hg x
  match hl : g.neighbors x, h, hnd with
  | [u, v], _, hnd =>
    have hu : g.hasEdge x u := mem_neighbors.1 (by rw [hl]; simp)
    have hv : g.hasEdge x v := mem_neighbors.1 (by rw [hl]; simp)
    by_cases hua : u = a
    · exact ⟨v, hv, by rintro rfl; simp [hua] at hnd⟩
    · exact ⟨u, hu, hua⟩

theorem consecutive_iff {p : List V} {x y : V} : Consecutive p x y ↔ ∃ (i : ℕ) (h : i + 1 < p.length), p[i] = x ∧ p[i + 1] = y := by
  constructor
  · rintro ⟨a, b, rfl⟩
    refine ⟨a.length, by simp, ?_, ?_⟩
    · simp
    · simp
  · rintro ⟨i, h, rfl, rfl⟩
    refine ⟨p.take i, p.drop (i + 2), ?_⟩
    rw [← List.drop_eq_getElem_cons, ← List.drop_eq_getElem_cons, List.take_append_drop]

/-- What a path which cannot be continued looks like, if all nodes in its interior have two neighbours. -/
theorem maximal_path_interior {g : NxGraph V A} (hg : GoodGraph g) {p : List V} (hch : p.IsChain g.hasEdge) (hnd : p.Nodup) {i : ℕ} (hi : i < p.length) (h0 : 0 < i) (h1 : i + 1 < p.length)
    (h2 : nbrCount g p[i] = 2) {y : V} (hy : g.hasEdge p[i] y) : y = p[i - 1] ∨ y = p[i + 1] := by
  have e1 : g.hasEdge p[i] p[i - 1] := by
    have := List.isChain_iff_getElem.1 hch (i - 1) (by omega)
    rw [hasEdge_symm]
    simpa [Nat.sub_add_cancel h0] using this
  have e2 : g.hasEdge p[i] p[i + 1] := List.isChain_iff_getElem.1 hch i h1
  refine nbr_two hg h2 e1 e2 (fun h => ?_) hy
  have := (List.Nodup.getElem_inj_iff hnd).1 h
  omega

/-- If the neighbours of all nodes of `p` are in `p`, then `p` contains all nodes of a connected graph. -/
theorem covers_of_closed {g : NxGraph V A} (hconn : Connected g) {p : List V} {s : V} (hs : s ∈ g.nodes) (hsp : s ∈ p) (hcl : ∀ x ∈ p, ∀ y, g.hasEdge x y → y ∈ p) : ∀ x ∈ g.nodes, x ∈ p := by
  intro x hx
  have key : ∀ y, Reach g s y → y ∈ p := by
    intro y hr
    induction hr with
    | refl => exact hsp
    | tail _ hbc ih => exact hcl _ ih _ hbc
  exact key x (hconn s hs x hx)

/-- A connected graph in which two nodes have one neighbour and all others two is one open line. -/
theorem openLine_of_degrees {g : NxGraph V A} (hg : GoodGraph g) (hconn : Connected g) {a b : V} (ha : a ∈ g.nodes) (ha1 : nbrCount g a = 1)
    (hb1 : nbrCount g b = 1) (hall : ∀ x ∈ g.nodes, x ≠ a → x ≠ b → nbrCount g x = 2) : IsOpenLine g := by
  obtain ⟨p, t, h1, h2, hch, hnd, hn, hmax⟩ := exists_maximal_path hg ha
  have hlen : 2 ≤ p.length := by
    obtain ⟨y, hy⟩ := exists_nbr hg (x := a) (by omega)
    match p, h1, h2, hmax with
    | [c], h1, h2, hmax =>
      simp at h1 h2
      subst h1; subst h2
      have := hmax y hy
      simp at this
      exact absurd this.symm (goodGraph_edge hg hy).2.2
    | _ :: _ :: _, _, _, _ => simp
  have hp0 : p[0] = a := by
    rw [List.head?_eq_getElem?, List.getElem?_eq_getElem (by omega)] at h1; simpa using h1
  have hpt : p[p.length - 1] = t := by
    rw [List.getLast?_eq_getElem?, List.getElem?_eq_getElem (by omega)] at h2; simpa using h2
  have hedge : ∀ (i : ℕ) (h : i + 1 < p.length), g.hasEdge p[i] p[i + 1] := fun i h => List.isChain_iff_getElem.1 hch i h
  -- at most the last node is `b`
  have hint : ∀ (i : ℕ) (h : i < p.length), 0 < i → i + 1 < p.length → nbrCount g p[i] = 2 := by
    intro i h hi hi1
    refine hall _ (hn _ (List.getElem_mem _)) (fun he => ?_) (fun he => ?_)
    · have := (List.Nodup.getElem_inj_iff hnd).1 (he.trans hp0.symm); omega
    · have e1 : g.hasEdge p[i] p[i - 1] := by
        have := hedge (i - 1) (by omega)
        rw [hasEdge_symm]
        simpa [Nat.sub_add_cancel hi] using this
      have e2 := hedge i hi1
      have : p[i + 1] = p[i - 1] := nbr_one hg (he ▸ hb1) e1 e2
      have := (List.Nodup.getElem_inj_iff hnd).1 this
      omega
  -- the neighbours on the path
  have hnbr : ∀ (i : ℕ) (h : i < p.length) (y : V), g.hasEdge p[i] y → (∃ h' : i + 1 < p.length, y = p[i + 1]) ∨ ∃ h' : 0 < i, y = p[i - 1] := by
    intro i h y hy
    by_cases hi : i = 0
    · subst hi
      exact .inl ⟨by omega, nbr_one hg (by rw [hp0]; exact ha1) (hedge 0 (by omega)) hy⟩
    by_cases hl : i + 1 < p.length
    · rcases maximal_path_interior hg hch hnd h (by omega) hl (hint i h (by omega) hl) hy with h | h
      · exact .inr ⟨by omega, h⟩
      · exact .inl ⟨hl, h⟩
    · have hil : i = p.length - 1 := by omega
      subst hil
      have hyp := hmax y (hpt ▸ hy)
      obtain ⟨j, hj, rfl⟩ := List.getElem_of_mem hyp
      by_cases hj0 : j = 0
      · subst hj0
        have := nbr_one hg (by rw [hp0]; exact ha1) (hedge 0 (by omega)) (hasEdge_symm.1 hy)
        have := (List.Nodup.getElem_inj_iff hnd).1 this
        exact .inr ⟨by omega, by congr 1; omega⟩
      by_cases hjl : j + 1 < p.length
      · rcases maximal_path_interior hg hch hnd hj (by omega) hjl (hint j hj (by omega) hjl) (hasEdge_symm.1 hy) with h | h
        · have := (List.Nodup.getElem_inj_iff hnd).1 h; omega
        · have := (List.Nodup.getElem_inj_iff hnd).1 h
          exact .inr ⟨by omega, by congr 1; omega⟩
      · exact absurd (by congr 1; omega) (goodGraph_edge hg hy).2.2
  have hcov := covers_of_closed hconn ha (by rw [← hp0]; exact List.getElem_mem _) fun x hx y hy => by
    obtain ⟨i, hi, rfl⟩ := List.getElem_of_mem hx
    rcases hnbr i hi y hy with ⟨h, rfl⟩ | ⟨h, rfl⟩ <;> exact List.getElem_mem _
  refine ⟨p, hlen, hnd, fun x => ⟨hn x, hcov x⟩, fun x y => ?_⟩
  rw [consecutive_iff, consecutive_iff]
  constructor
  · intro hxy
    obtain ⟨i, hi, rfl⟩ := List.getElem_of_mem (hcov x (goodGraph_edge hg hxy).1)
    rcases hnbr i hi y hxy with ⟨h, rfl⟩ | ⟨h, rfl⟩
    · exact .inl ⟨i, h, rfl, rfl⟩
    · exact .inr ⟨i - 1, by omega, rfl, by congr 1; omega⟩
  · rintro (⟨i, h, rfl, rfl⟩ | ⟨i, h, rfl, rfl⟩)
    · exact hedge i h
    · exact hasEdge_symm.1 (hedge i h)

/-- A connected graph in which all nodes have two neighbours is one closed loop. -/
theorem closedLoop_of_degrees {g : NxGraph V A} (hg : GoodGraph g) (hconn : Connected g) (hne : g.nodes ≠ []) (hall : ∀ x ∈ g.nodes, nbrCount g x = 2) : IsClosedLoop g := by
  obtain ⟨a, ha⟩ := List.exists_mem_of_ne_nil _ hne
  obtain ⟨p, t, h1, h2, hch, hnd, hn, hmax⟩ := exists_maximal_path hg ha
  have hlen2 : 2 ≤ p.length := by
    obtain ⟨y, hy⟩ := exists_nbr hg (x := a) (by rw [hall a ha]; omega)
    match p, h1, h2, hmax with
    | [c], h1, h2, hmax =>
      simp at h1 h2
      subst h1; subst h2
      have := hmax y hy
      simp at this
      exact absurd this.symm (goodGraph_edge hg hy).2.2
    | _ :: _ :: _, _, _, _ => simp
  have hp0 : p[0] = a := by
    rw [List.head?_eq_getElem?, List.getElem?_eq_getElem (by omega)] at h1; simpa using h1
  have hpt : p[p.length - 1] = t := by
    rw [List.getLast?_eq_getElem?, List.getElem?_eq_getElem (by omega)] at h2; simpa using h2
  have hedge : ∀ (i : ℕ) (h : i + 1 < p.length), g.hasEdge p[i] p[i + 1] := fun i h => List.isChain_iff_getElem.1 hch i h
  have hdeg : ∀ (i : ℕ) (h : i < p.length), nbrCount g p[i] = 2 := fun i h => hall _ (hn _ (List.getElem_mem _))
  have htn : t ∈ g.nodes := by rw [← hpt]; exact hn _ (List.getElem_mem _)
  -- the end is joined to the start
  have hlast : g.hasEdge t p[p.length - 2] := by
    rw [hasEdge_symm, ← hpt]
    have := hedge (p.length - 2) (by omega)
    have e : p.length - 2 + 1 = p.length - 1 := by omega
    simpa [e] using this
  have hclose : g.hasEdge t a ∧ 3 ≤ p.length := by
    obtain ⟨y, hy, hyne⟩ := exists_other_nbr hg (a := p[p.length - 2]) (hall t htn)
    obtain ⟨j, hj, rfl⟩ := List.getElem_of_mem (hmax y hy)
    have hj2 : j ≠ p.length - 2 := by rintro rfl; exact hyne rfl
    have hj1 : j ≠ p.length - 1 := by rintro rfl; exact (goodGraph_edge hg hy).2.2 hpt.symm
    by_cases hj0 : j = 0
    · subst hj0
      exact ⟨hp0 ▸ hy, by omega⟩
    · exfalso
      rcases maximal_path_interior hg hch hnd hj (by omega) (by omega) (hdeg j hj) (hasEdge_symm.1 hy) with h | h
      · have := (List.Nodup.getElem_inj_iff hnd).1 (hpt.trans h); omega
      · have := (List.Nodup.getElem_inj_iff hnd).1 (hpt.trans h); omega
  obtain ⟨hta, hlen⟩ := hclose
  have hnbr : ∀ (i : ℕ) (h : i < p.length) (y : V), g.hasEdge p[i] y →
      (∃ h' : i + 1 < p.length, y = p[i + 1]) ∨ (∃ h' : 0 < i, y = p[i - 1]) ∨ (i = 0 ∧ y = t) ∨ (i = p.length - 1 ∧ y = a) := by
    intro i h y hy
    by_cases hi : i = 0
    · subst hi
      have hne : p[1] ≠ t := fun h => by
        have := (List.Nodup.getElem_inj_iff hnd).1 (h.trans hpt.symm); omega
      rcases nbr_two hg (hdeg 0 h) (hedge 0 (by omega)) (by rw [hp0]; exact hasEdge_symm.1 hta) hne hy with h | h
      · exact .inl ⟨by omega, h⟩
      · exact .inr (.inr (.inl ⟨rfl, h⟩))
    by_cases hl : i + 1 < p.length
    · rcases maximal_path_interior hg hch hnd h (by omega) hl (hdeg i h) hy with h | h
      · exact .inr (.inl ⟨by omega, h⟩)
      · exact .inl ⟨hl, h⟩
    · have hil : i = p.length - 1 := by omega
      subst hil
      have hne : p[p.length - 2] ≠ a := fun h => by
        have := (List.Nodup.getElem_inj_iff hnd).1 (h.trans hp0.symm); omega
      rw [hpt] at hy
      rcases nbr_two hg (hall t htn) hlast hta hne hy with h | h
      · exact .inr (.inl ⟨by omega, by rw [h]; congr 1⟩)
      · exact .inr (.inr (.inr ⟨rfl, h⟩))
  have htp : t ∈ p := by rw [← hpt]; exact List.getElem_mem _
  have hap : a ∈ p := by rw [← hp0]; exact List.getElem_mem _
  have hcov := covers_of_closed hconn ha hap fun x hx y hy => by
    obtain ⟨i, hi, rfl⟩ := List.getElem_of_mem hx
    rcases hnbr i hi y hy with ⟨h, rfl⟩ | ⟨h, rfl⟩ | ⟨-, rfl⟩ | ⟨-, rfl⟩
    exacts [List.getElem_mem _, List.getElem_mem _, htp, hap]
  obtain ⟨q, rfl⟩ : ∃ q, p = a :: q := by
    cases p with
    | nil => simp at hlen
    | cons c q => simp at hp0; subst hp0; exact ⟨q, rfl⟩
  have hcons : ∀ x y, Consecutive (a :: q ++ [a]) x y ↔ Consecutive (a :: q) x y ∨ (x = t ∧ y = a) := by
    intro x y
    rw [consecutive_iff, consecutive_iff]
    constructor
    · rintro ⟨i, h, rfl, rfl⟩
      have h' : i < (a :: q).length := by rw [List.length_append] at h; simp only [List.length_singleton] at h; omega
      by_cases hi : i + 1 < (a :: q).length
      · exact .inl ⟨i, hi, (List.getElem_append_left h').symm, (List.getElem_append_left hi).symm⟩
      · right
        have hil : i = (a :: q).length - 1 := by omega
        subst hil
        constructor
        · rw [List.getElem_append_left h']; exact hpt
        · rw [List.getElem_append_right (by omega)]; simp
    · rintro (⟨i, h, rfl, rfl⟩ | ⟨hx, hy⟩)
      · exact ⟨i, by rw [List.length_append]; omega, List.getElem_append_left _, List.getElem_append_left _⟩
      · rw [hx, hy]
        refine ⟨(a :: q).length - 1, by rw [List.length_append]; simp, ?_, ?_⟩
        · rw [List.getElem_append_left (by omega)]; exact hpt
        · rw [List.getElem_append_right (by omega)]; simp
  refine ⟨a, q, hlen, hnd, fun x => ⟨hn x, hcov x⟩, fun x y => ?_⟩
  rw [hcons, hcons, consecutive_iff, consecutive_iff]
  constructor
  · intro hxy
    obtain ⟨i, hi, rfl⟩ := List.getElem_of_mem (hcov x (goodGraph_edge hg hxy).1)
    rcases hnbr i hi y hxy with ⟨h, rfl⟩ | ⟨h, rfl⟩ | ⟨rfl, rfl⟩ | ⟨rfl, rfl⟩
    · exact .inl (.inl ⟨i, h, rfl, rfl⟩)
    · exact .inr (.inl ⟨i - 1, by omega, rfl, by congr 1; omega⟩)
    · exact .inr (.inr ⟨rfl, hp0⟩)
    · exact .inl (.inr ⟨hpt, rfl⟩)
  · rintro ((⟨i, h, rfl, rfl⟩ | ⟨rfl, rfl⟩) | (⟨i, h, rfl, rfl⟩ | ⟨rfl, rfl⟩))
    · exact hedge i h
    · exact hta
    · exact hasEdge_symm.1 (hedge i h)
    · exact hasEdge_symm.1 hta

end NF
