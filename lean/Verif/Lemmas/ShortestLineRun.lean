import Verif.Lemmas.ShortestLine
import Verif.Props.ShortestPath

/-! # The shortest-path method on a line that goes in one direction: the whole run -/

noncomputable section
open Classical
namespace NF
open Spec NxGraph
variable {V A : Type}

/-! ### Adding a path to a line -/

theorem mem_pathEdges {p : List V} {x y : V} : (x, y) ∈ pathEdges p ↔ Consecutive p x y := by
  induction p with
  | nil => simp [pathEdges, Consecutive]
  | cons a l ih =>
    rw [consecutive_cons]
    cases l with
    | nil => simp [pathEdges, Consecutive]
    | cons b l =>
      have : pathEdges (a :: b :: l) = (a, b) :: pathEdges (b :: l) := rfl
      rw [this, List.mem_cons, ih, Prod.ext_iff]
      simp [eq_comm]

theorem consecutive_append {X : List V} {a : V} {Y : List V} {x y : V} : Consecutive (X ++ a :: Y) x y ↔ Consecutive (X ++ [a]) x y ∨ Consecutive (a :: Y) x y := by
  induction X with
  | nil =>
    constructor
    · exact .inr
    · rintro (h | h)
      · rcases consecutive_cons.1 h with ⟨-, h⟩ | ⟨_, _, h⟩ <;> simp at h
      · exact h
  | cons b X ih =>
    rw [List.cons_append, List.cons_append, consecutive_cons, consecutive_cons, ih]
    have : (X ++ a :: Y).head? = (X ++ [a]).head? := by cases X <;> rfl
    rw [this]
    tauto

theorem consecutive_of_chain {p : List V} {r : V → V → Prop} (h : p.IsChain r) {x y : V} (hxy : Consecutive p x y) : r x y := by
  obtain ⟨a, b, rfl⟩ := hxy
  exact (List.isChain_cons_cons.1 (List.isChain_append.1 h).2.1).1

theorem mem_addPath (l : List (V × V)) (rg : NxGraph V Unit) (x : V) :
    x ∈ (l.foldl (fun h e => h.addEdge e.1 e.2 ()) rg).nodes ↔ x ∈ rg.nodes ∨ ∃ e ∈ l, x = e.1 ∨ x = e.2 := by
  induction l generalizing rg with
  | nil => simp
  | cons a l ih =>
    simp only [List.foldl_cons]
    rw [ih, mem_addEdge]
    simp only [List.mem_cons, exists_eq_or_imp]
    rw [or_assoc]

/-- A path along the result changes nothing. -/
theorem addPath_inside {rg : NxGraph V Unit} (hrg : GoodGraph rg) {P path : List V} (h : PathGraph rg P) (hc : path.IsChain rg.hasEdge) :
    PathGraph ((pathEdges path).foldl (fun h e => h.addEdge e.1 e.2 ()) rg) P := by
  have hin : ∀ e ∈ pathEdges path, rg.hasEdge e.1 e.2 := fun e he => consecutive_of_chain hc (mem_pathEdges.1 he)
  refine ⟨h.1, fun x => ?_, fun x y => ?_⟩
  · rw [mem_addPath, h.2.1]
    constructor
    · exact .inl
    · rintro (h | ⟨e, he, rfl | rfl⟩)
      · exact h
      · exact (goodGraph_edge hrg (hin e he)).1
      · exact (goodGraph_edge hrg (hin e he)).2.1
  · rw [addPath_hasEdge, ← h.2.2]
    constructor
    · rintro (h | h | h)
      · exact h
      · exact hin _ h
      · exact hasEdge_symm.1 (hin _ h)
    · exact .inl

/-- A path along the result to its end and then on makes it longer. -/
theorem addPath_extends {rg : NxGraph V Unit} (hrg : GoodGraph rg) {P A C : List V} {D : V} (h : PathGraph rg (P ++ [D])) (hc : (A ++ [D]).IsChain rg.hasEdge) (hnd : (P ++ D :: C).Nodup) :
    PathGraph ((pathEdges (A ++ D :: C)).foldl (fun h e => h.addEdge e.1 e.2 ()) rg) (P ++ D :: C) := by
  have hin : ∀ x y, Consecutive (A ++ [D]) x y → rg.hasEdge x y := fun x y h => consecutive_of_chain hc h
  have hD : D ∈ rg.nodes := (h.2.1 D).1 (by simp)
  have hcm : ∀ x, x ∈ C → ∃ y, Consecutive (D :: C) y x := by
    intro x hx
    obtain ⟨a, b, rfl⟩ := List.append_of_mem hx
    rcases List.eq_nil_or_concat a with rfl | ⟨a, y, rfl⟩
    · exact ⟨D, [], b, rfl⟩
    · exact ⟨y, D :: a, b, by simp⟩
  refine ⟨hnd, fun x => ?_, fun x y => ?_⟩
  · rw [mem_addPath, ← h.2.1]
    constructor
    · intro hx
      simp only [List.mem_append, List.mem_cons, List.not_mem_nil, or_false] at hx ⊢
      rcases hx with hx | hx | hx
      · exact .inl (.inl hx)
      · exact .inl (.inr hx)
      · obtain ⟨y, hy⟩ := hcm x hx
        exact .inr ⟨(y, x), mem_pathEdges.2 (consecutive_append.2 (.inr hy)), .inr rfl⟩
    · rintro (hx | ⟨⟨a, b⟩, he, hx⟩)
      · simp only [List.mem_append, List.mem_cons, List.not_mem_nil, or_false] at hx ⊢
        tauto
      · rcases consecutive_append.1 (mem_pathEdges.1 he) with hab | hab
        · have hmem : x ∈ P ++ [D] := by
            rw [h.2.1]
            rcases hx with rfl | rfl
            · exact (goodGraph_edge hrg (hin _ _ hab)).1
            · exact (goodGraph_edge hrg (hin _ _ hab)).2.1
          simp only [List.mem_append, List.mem_cons, List.not_mem_nil, or_false] at hmem ⊢
          tauto
        · have := consecutive_mem hab
          have hmem : x ∈ D :: C := by
            rcases hx with rfl | rfl
            · exact this.1
            · exact this.2
          exact List.mem_append_right _ hmem
  · have c1 := fun x y => consecutive_append (X := A) (a := D) (Y := C) (x := x) (y := y)
    have c2 := fun x y => consecutive_append (X := P) (a := D) (Y := C) (x := x) (y := y)
    rw [addPath_hasEdge, mem_pathEdges, mem_pathEdges, c1, c1, c2, c2]
    have e1 := h.2.2 x y
    have e2 := hin x y
    have e3 := hin y x
    have e4 := h.2.2 y x
    have e5 : rg.hasEdge x y ↔ rg.hasEdge y x := hasEdge_symm
    tauto

/-! ### Nodes next to a chain -/

/-- The nodes between the ends of a chain are in it or adjacent to one of its nodes. -/
theorem chain_dominates {g : NxGraph V ℝ} {t : V → ℝ} {w : V → V → ℝ} (h : Lined g t w) {z : V} (hz : z ∈ g.nodes) :
    ∀ (l : List V) (x : V), (∀ y ∈ x :: l, y ∈ g.nodes) → (x :: l).IsChain g.hasEdge → t x ≤ t z → (∀ y, (x :: l).getLast? = some y → t z ≤ t y) →
      z ∈ x :: l ∨ ∃ y ∈ x :: l, g.hasEdge y z := by
  intro l
  induction l with
  | nil =>
    intro x hm _ h1 h2
    have := h2 x rfl
    left
    rw [List.mem_singleton]
    exact h.inj z hz x (hm x (by simp)) (le_antisymm this h1)
  | cons y l ih =>
    intro x hm hch h1 h2
    obtain ⟨hxy, hch'⟩ := List.isChain_cons_cons.1 hch
    rcases le_or_gt (t y) (t z) with hle | hgt
    · rcases ih y (fun w hw => hm w (by simp [hw])) hch' hle (fun w hw => h2 w (by rw [List.getLast?_cons_cons]; exact hw)) with h' | ⟨w, hw, h'⟩
      · exact .inl (List.mem_cons_of_mem _ h')
      · exact .inr ⟨w, List.mem_cons_of_mem _ hw, h'⟩
    · rcases h1.eq_or_lt with e | e
      · exact .inl (by rw [h.inj z hz x (hm x (by simp)) e.symm]; simp)
      · exact .inr ⟨x, by simp, (h.between x (hm x (by simp)) y (hm y (by simp)) z hz e hgt hxy).1⟩

theorem short_cat {g : NxGraph V A} {s t x y : V} (hx : closedNeighbors g s x) (hy : closedNeighbors g t y) (hxy : x = y ∨ g.hasEdge x y) : ∃ q, g.IsPath s t q ∧ q.length ≤ 5 := by
  obtain ⟨w, h1, h2, h3, h4⟩ : ∃ w : List V, w.head? = some s ∧ w.getLast? = some t ∧ w.IsChain g.hasEdge ∧ w.length ≤ 5 := by
    have hsx : s = x ∨ g.hasEdge s x := hx.elim (fun h => .inl h.symm) (fun h => .inr (mem_neighbors.1 h))
    have hyt : y = t ∨ g.hasEdge y t := hy.elim .inl (fun h => .inr (hasEdge_symm.1 (mem_neighbors.1 h)))
    rcases hsx with rfl | hsx <;> rcases hxy with rfl | hxy <;> rcases hyt with rfl | hyt
    · exact ⟨[s], by simp⟩
    · exact ⟨[s, t], by simp [hyt]⟩
    · exact ⟨[s, y], by simp [hxy]⟩
    · exact ⟨[s, y, t], by simp [hxy, hyt]⟩
    · exact ⟨[s, x], by simp [hsx]⟩
    · exact ⟨[s, x, t], by simp [hsx, hyt]⟩
    · exact ⟨[s, x, y], by simp [hsx, hxy]⟩
    · exact ⟨[s, x, y, t], by simp [hsx, hxy, hyt]⟩
  obtain ⟨q, hq1, hq2⟩ := exists_path_of_walk _ w le_rfl h1 h2 h3
  exact ⟨q, hq1, hq2.trans h4⟩

/-- If the nodes between `s` and `e` that are left are neighbours of `s` or `e`, a way from `s` to `e` can be made short. -/
theorem short_of_left {g : NxGraph V ℝ} (hg : GoodGraph g) {t : V → ℝ} {w : V → V → ℝ} (h : Lined g t w) {s e : V} (hs : s ∈ g.nodes) (he : e ∈ g.nodes) (hse : t s < t e)
    {r : V → V → Prop} (hr : ∀ x y, r x y → g.hasEdge x y ∧ (t s < t y → t y < t e → closedNeighbors g s y ∨ closedNeighbors g e y)) :
    ∀ (l : List V) (a : V), a ∈ g.nodes → (t a ≤ t s ∨ closedNeighbors g s a) → (a :: l).IsChain r → (a :: l).getLast? = some e → ∃ q, g.IsPath s e q ∧ q.length ≤ 5 := by
  have hN : ∀ {x y : V}, g.hasEdge x y → closedNeighbors g x y := fun h => .inr (mem_neighbors.2 h)
  -- an edge over `s`
  have hover : ∀ a b, g.hasEdge a b → t a ≤ t s → t s < t b → g.hasEdge s b := by
    intro a b hab h1 h2
    have hm := goodGraph_edge hg hab
    rcases h1.eq_or_lt with h1 | h1
    · rw [← h.inj a hm.1 s hs h1]; exact hab
    · exact (h.between a hm.1 b hm.2.1 s hs h1 h2 hab).2
  -- an edge over `e`
  have hover' : ∀ a b, g.hasEdge a b → t a < t e → t e ≤ t b → g.hasEdge a e := by
    intro a b hab h1 h2
    have hm := goodGraph_edge hg hab
    rcases h2.eq_or_lt with h2 | h2
    · rw [h.inj e he b hm.2.1 h2]; exact hab
    · exact (h.between a hm.1 b hm.2.1 e he h1 h2 hab).1
  intro l
  induction l with
  | nil =>
    intro a _ ha _ hl
    simp at hl
    subst hl
    rcases ha with ha | ha
    · linarith
    · exact short_cat ha (.inl rfl) (.inl rfl)
  | cons b l ih =>
    intro a hag ha hch hl
    obtain ⟨hab, hch'⟩ := List.isChain_cons_cons.1 hch
    obtain ⟨hab, hb⟩ := hr a b hab
    have hbg := (goodGraph_edge hg hab).2.1
    rw [List.getLast?_cons_cons] at hl
    rcases le_or_gt (t b) (t s) with hbs | hbs
    · exact ih b hbg (.inl hbs) hch' hl
    · rcases lt_or_ge (t b) (t e) with hbe | hbe
      · rcases hb hbs hbe with hb | hb
        · exact ih b hbg (.inr hb) hch' hl
        · rcases ha with ha | ha
          · exact short_cat (hN (hover a b hab ha hbs)) hb (.inl rfl)
          · exact short_cat ha hb (.inr hab)
      · have hcase1 : t a ≤ t s → ∃ q, g.IsPath s e q ∧ q.length ≤ 5 := fun ha =>
          short_cat (.inl rfl) (.inl rfl) (.inr (hover' s b (hover a b hab ha hbs) hse hbe))
        rcases ha with ha | ha
        · exact hcase1 ha
        · rcases le_or_gt (t a) (t s) with has | has
          · exact hcase1 has
          · rcases lt_or_ge (t a) (t e) with hae | hae
            · exact short_cat ha (.inl rfl) (.inr (hover' a b hab hae hbe))
            · have hsa : g.hasEdge s a := ha.elim (fun h => by subst h; exact absurd has (lt_irrefl _)) fun h => mem_neighbors.1 h
              exact short_cat (.inl rfl) (.inl rfl) (.inr (hover' s a hsa hse hae))

/-- After a path from `s` to `e` has been removed, there is no other. -/
theorem no_path_left {g : NxGraph V ℝ} (hg : GoodGraph g) {t : V → ℝ} {w : V → V → ℝ} (h : Lined g t w) {s e : V} (hs : s ∈ g.nodes) (he : e ∈ g.nodes)
    {work tmp k : NxGraph V (ℝ × ℝ)} (hwork : ∀ x y, work.hasEdge x y ↔ g.hasEdge x y) (htmp : ∀ x y, tmp.hasEdge x y ↔ g.hasEdge x y) (hk : ∀ x y, k.hasEdge x y ↔ g.hasEdge x y)
    {path : List V} (hp : g.IsPath s e path) (hno : ¬ ∃ p, g.IsPath s e p ∧ p.length ≤ 5) : ¬ ∃ p, (k.removeNodes (nodesToRemove work tmp s e path)).IsPath s e p := by
  rintro ⟨p, hp'⟩
  apply hno
  have hne : s ≠ e := by
    rintro rfl
    exact hno ⟨[s], ⟨rfl, rfl, by simp, by simp⟩, by simp⟩
  have hpm : ∀ x ∈ path, x ∈ g.nodes := isPath_mem hg hp hs
  obtain ⟨l', hl'⟩ : ∃ l, path = s :: l := by
    have := hp.head
    cases path with
    | nil => simp at this
    | cons a l => simp at this; exact ⟨l, by rw [this]⟩
  obtain ⟨l, rfl⟩ : ∃ l, p = s :: l := by
    have := hp'.head
    cases p with
    | nil => simp at this
    | cons a l => simp at this; exact ⟨l, by rw [this]⟩
  -- in both directions
  have key : ∀ t' : V → ℝ, Lined g t' w → t' s < t' e → ∃ q, g.IsPath s e q ∧ q.length ≤ 5 := by
    intro t' h' hlt
    refine short_of_left hg h' hs he hlt (r := (k.removeNodes (nodesToRemove work tmp s e path)).hasEdge) (fun x y hxy => ?_) l s hs (.inl le_rfl) hp'.chain hp'.last
    obtain ⟨hxy, -, hy⟩ := hasEdge_subgraph.1 hxy
    refine ⟨(hk x y).1 hxy, fun h1 h2 => ?_⟩
    by_contra hcon
    apply hy
    refine ⟨?_, fun hc => hcon (hc.imp (closedNeighbors_congr hwork).1 (closedNeighbors_congr hwork).1)⟩
    have hyg := (goodGraph_edge hg ((hk x y).1 hxy)).2.1
    rcases chain_dominates h' hyg l' s (fun z hz => hpm z (hl' ▸ hz)) (hl' ▸ hp.chain) h1.le (fun z hz => by
      rw [← hl', hp.last] at hz
      cases hz
      exact h2.le) with hd | ⟨z, hz, hzy⟩
    · exact ⟨y, hl' ▸ hd, .inl rfl⟩
    · exact ⟨z, hl' ▸ hz, .inr (mem_neighbors.2 ((htmp z y).2 hzy))⟩
  rcases lt_trichotomy (t s) (t e) with hlt | heq | hgt
  · exact key t h hlt
  · exact absurd (h.inj s hs e he heq) hne
  · exact key (fun x => -t x) h.neg (by simpa using hgt)

end NF
