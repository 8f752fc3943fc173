import Verif.Lemmas.Shape

/-!
# Properties of the shapes of lines (C63, C64)

`nbrCount g x` is the number of nodes joined to `x`; `IsClosedLoop`, `IsOpenLine` are in `Spec/Graph.lean`.
-/

noncomputable section
open Classical

namespace NF
open Spec NxGraph
variable {V A : Type}

/-- **C63.**  A line is named `CLOSED LOOP` exactly if all its nodes have two neighbours. -/
theorem C63_closed_loop {g : NxGraph V A} (hg : GoodGraph g) : shapeName (createDegreeCount g) = .closedLoop ↔ ∀ x ∈ g.nodes, nbrCount g x = 2 := by
  have h1 : shapeName (createDegreeCount g) = .closedLoop ↔ createDegreeCount g = [] := by
    unfold shapeName
    simp only [sortedItems_eq_nil]
    split_ifs with h1 h2
    · simp [h1]
    · simp [h1]
    · simp [h1]
  rw [h1]
  constructor
  · intro h x hx
    by_contra hne
    rw [nbrCount_eq_degree hg] at hne
    have : ((g.degree x : ℤ), _) ∈ createDegreeCount g := mem_degreeCount.2 ⟨by exact_mod_cast hne, rfl, x, hx, rfl⟩
    rw [h] at this
    simp at this
  · intro h
    apply List.eq_nil_iff_forall_not_mem.2
    rintro ⟨x, n⟩ he
    obtain ⟨h2, -, y, hy, rfl⟩ := mem_degreeCount.1 he
    have := h y hy
    rw [nbrCount_eq_degree hg] at this
    exact h2 (by exact_mod_cast this)

theorem count_two {l : List V} (hnd : l.Nodup) {f : V → ℤ} {c : ℤ} : (l.map f).count c = 2 ↔ ∃ a b, a ∈ l ∧ b ∈ l ∧ a ≠ b ∧ f a = c ∧ f b = c ∧ ∀ x ∈ l, f x = c → x = a ∨ x = b := by
  have h1 : (l.map f).count c = (l.filter fun x => decide (f x = c)).length := by
    rw [List.count_eq_countP, List.countP_map, List.countP_eq_length_filter]
    rfl
  rw [h1]
  have hm : ∀ x, x ∈ l.filter (fun x => decide (f x = c)) ↔ x ∈ l ∧ f x = c := fun x => by simp
  have hn := hnd.filter (fun x => decide (f x = c))
  constructor
  · intro h2
    match hl : l.filter (fun x => decide (f x = c)), h2 with
    | [a, b], _ =>
      rw [hl] at hm hn
      refine ⟨a, b, ((hm a).1 (by simp)).1, ((hm b).1 (by simp)).1, by rintro rfl; simp at hn, ((hm a).1 (by simp)).2, ((hm b).1 (by simp)).2, fun x hx hf => ?_⟩
      simpa using (hm x).2 ⟨hx, hf⟩
  · rintro ⟨a, b, ha, hb, hab, hfa, hfb, hall⟩
    have : (l.filter fun x => decide (f x = c)).Perm [a, b] := by
      rw [List.perm_ext_iff_of_nodup hn (by simp [hab])]
      intro x
      rw [hm]
      simp only [List.mem_cons, List.not_mem_nil, or_false]
      exact ⟨fun h => hall x h.1 h.2, fun h => by rcases h with rfl | rfl <;> exact ⟨‹_›, ‹_›⟩⟩
    simpa using this.length_eq

/-- **C63.**  A line is named `OPEN LINE` exactly if two of its nodes have one neighbour and all others two. -/
theorem C63_open_line {g : NxGraph V A} (hg : GoodGraph g) : shapeName (createDegreeCount g) = .openLine ↔
    ∃ a ∈ g.nodes, ∃ b ∈ g.nodes, a ≠ b ∧ nbrCount g a = 1 ∧ nbrCount g b = 1 ∧ ∀ x ∈ g.nodes, x ≠ a → x ≠ b → nbrCount g x = 2 := by
  have h1 : shapeName (createDegreeCount g) = .openLine ↔ createDegreeCount g = [(1, 2)] := by
    unfold shapeName
    simp only [sortedItems_eq_nil, sortedItems_eq_singleton]
    split_ifs with h1 h2
    · simp [h1]
    · simp [h2]
    · simp [h2]
  have hnd : (createDegreeCount g).Nodup := (counter_nodup _).filter _
  rw [h1]
  simp only [nbrCount_eq_degree hg]
  constructor
  · intro h
    have h12 : ((1 : ℤ), 2) ∈ createDegreeCount g := by rw [h]; simp
    obtain ⟨-, hc, -⟩ := mem_degreeCount.1 h12
    obtain ⟨a, b, ha, hb, hab, hfa, hfb, hall⟩ := (count_two hg.nodup).1 hc.symm
    refine ⟨a, ha, b, hb, hab, by exact_mod_cast hfa, by exact_mod_cast hfb, fun x hx hxa hxb => ?_⟩
    by_contra hne
    have hmem : ((g.degree x : ℤ), _) ∈ createDegreeCount g := mem_degreeCount.2 ⟨by exact_mod_cast hne, rfl, x, hx, rfl⟩
    rw [h] at hmem
    simp only [List.mem_singleton, Prod.mk.injEq] at hmem
    rcases hall x hx hmem.1 with h | h
    exacts [hxa h, hxb h]
  · rintro ⟨a, ha, b, hb, hab, ha1, hb1, hall⟩
    have hcount : (g.nodes.map fun x => (g.degree x : ℤ)).count 1 = 2 := (count_two hg.nodup).2 ⟨a, b, ha, hb, hab, by exact_mod_cast ha1, by exact_mod_cast hb1, fun x hx h => by
      by_contra hno
      push Not at hno
      have := hall x hx hno.1 hno.2
      rw [this] at h
      norm_num at h⟩
    apply List.perm_singleton.1
    rw [List.perm_ext_iff_of_nodup hnd (by simp)]
    rintro ⟨k, n⟩
    rw [mem_degreeCount, List.mem_singleton, Prod.mk.injEq]
    constructor
    · rintro ⟨h2, hn, y, hy, rfl⟩
      have hy1 : g.degree y = 1 := by
        by_cases hya : y = a
        · rw [hya]; exact ha1
        by_cases hyb : y = b
        · rw [hyb]; exact hb1
        exact absurd (by exact_mod_cast hall y hy hya hyb) h2
      rw [hy1] at hn ⊢
      exact ⟨rfl, by rw [hn]; exact hcount⟩
    · rintro ⟨rfl, rfl⟩
      exact ⟨by norm_num, hcount.symm, a, ha, by exact_mod_cast ha1⟩

/-- C63 for a connected graph: the name says what the graph looks like. -/
theorem C63_connected {g : NxGraph V A} (hg : GoodGraph g) (hconn : Connected g) (hne : g.nodes ≠ []) :
    (shapeName (createDegreeCount g) = .closedLoop → IsClosedLoop g) ∧ (shapeName (createDegreeCount g) = .openLine → IsOpenLine g) := by
  refine ⟨fun h => closedLoop_of_degrees hg hconn hne ((C63_closed_loop hg).1 h), fun h => ?_⟩
  obtain ⟨a, ha, b, -, -, h1, h2, h3⟩ := (C63_open_line hg).1 h
  exact openLine_of_degrees hg hconn ha h1 h2 h3

/-- Two triangles. -/
def twoLoops : NxGraph ℕ Unit := ⟨[0, 1, 2, 3, 4, 5], [(0, 1, ()), (1, 2, ()), (2, 0, ()), (3, 4, ()), (4, 5, ()), (5, 3, ())]⟩

theorem twoLoops_good : GoodGraph twoLoops := by
  constructor <;> simp [twoLoops, NxGraph.joins]

/-- Without connectedness this is not so: two separate loops are also named `CLOSED LOOP`. -/
theorem C63_two_loops_closed : GoodGraph twoLoops ∧ shapeName (createDegreeCount twoLoops) = .closedLoop ∧ ¬ Connected twoLoops ∧ ¬ IsClosedLoop twoLoops := by
  have hedge : ∀ x y, twoLoops.hasEdge x y → (x < 3 ↔ y < 3) := by
    rintro x y ⟨e, he, hj⟩
    simp only [twoLoops, List.mem_cons, List.not_mem_nil, or_false] at he
    rcases he with rfl | rfl | rfl | rfl | rfl | rfl <;> rcases hj with ⟨h1, h2⟩ | ⟨h1, h2⟩ <;> simp only at h1 h2 <;> omega
  have hreach : ∀ x y, Reach twoLoops x y → (x < 3 ↔ y < 3) := by
    intro x y h
    induction h with
    | refl => rfl
    | tail _ h ih => exact ih.trans (hedge _ _ h)
  refine ⟨twoLoops_good, (C63_closed_loop twoLoops_good).2 fun x hx => ?_, fun h => ?_, ?_⟩
  · rw [nbrCount_eq_degree twoLoops_good]
    simp only [twoLoops, List.mem_cons, List.not_mem_nil, or_false] at hx
    rcases hx with rfl | rfl | rfl | rfl | rfl | rfl <;> simp [degree, neighbors, twoLoops]
  · have := hreach 0 3 (h 0 (by simp [twoLoops]) 3 (by simp [twoLoops]))
    omega
  · rintro ⟨s, p, -, -, hm, he⟩
    -- all nodes of the list are on the same side as the first one
    have hside : ∀ (q : List ℕ) (c : ℕ), (∀ x y, Consecutive (c :: q) x y → (x < 3 ↔ y < 3)) → ∀ x ∈ c :: q, (c < 3 ↔ x < 3) := by
      intro q
      induction q with
      | nil => intro c _ x hx; rw [List.mem_singleton.1 hx]
      | cons b q ih =>
        intro c hc x hx
        have hcb := hc c b ⟨[], q, rfl⟩
        rcases List.mem_cons.1 hx with rfl | hx
        · rfl
        · exact hcb.trans (ih b (fun u v ⟨l, r, hlr⟩ => hc u v ⟨c :: l, r, by rw [hlr]; rfl⟩) x hx)
    have hall := hside p s fun x y ⟨l, r, h⟩ => hedge x y ((he x y).2 (.inl ⟨l, r ++ [s], by rw [h]; simp⟩))
    have h0 := hall 0 ((hm 0).2 (by simp [twoLoops]))
    have h3 := hall 3 ((hm 3).2 (by simp [twoLoops]))
    omega

/-! ## Saving and loading -/

theorem addNodes_spec : ∀ (l : List V) (g : NxGraph V Unit), (g.nodes ++ l).Nodup →
    (l.foldl (fun g x => g.addNode x) g).nodes = g.nodes ++ l ∧ (l.foldl (fun g x => g.addNode x) g).edges = g.edges := by
  intro l
  induction l with
  | nil => intro g _; simp
  | cons x l ih =>
    intro g h
    have hx : x ∉ g.nodes := fun hx => by
      rw [List.nodup_append] at h
      exact h.2.2 x hx x (by simp) rfl
    have e : (g.addNode x).nodes = g.nodes ++ [x] := by simp [addNode, hx]
    obtain ⟨h1, h2⟩ := ih (g.addNode x) (by rw [e]; simpa using h)
    simp only [List.foldl_cons]
    exact ⟨by rw [h1, e]; simp, by rw [h2, addNode_edges]⟩

theorem addEdges_spec : ∀ (es : List (V × V)) (g : NxGraph V Unit), GoodGraph g → (∀ e ∈ es, e.1 ∈ g.nodes ∧ e.2 ∈ g.nodes ∧ e.1 ≠ e.2) →
    let r := es.foldl (fun g e => g.addEdge e.1 e.2 ()) g
    GoodGraph r ∧ r.nodes = g.nodes ∧ ∀ x y, r.hasEdge x y ↔ g.hasEdge x y ∨ (x, y) ∈ es ∨ (y, x) ∈ es := by
  intro es
  induction es with
  | nil => intro g hg _; exact ⟨hg, rfl, fun x y => by simp⟩
  | cons e es ih =>
    intro g hg h
    obtain ⟨h1, h2, h3⟩ := h e (by simp)
    have hn : (g.addEdge e.1 e.2 ()).nodes = g.nodes := by
      unfold addEdge
      simp only [addNode, h1, h2, if_true]
      split_ifs <;> rfl
    obtain ⟨i1, i2, i3⟩ := ih (g.addEdge e.1 e.2 ()) (goodGraph_addEdge hg h3 _ _) fun f hf => by rw [hn]; exact h f (by simp [hf])
    refine ⟨i1, i2.trans hn, fun x y => ?_⟩
    simp only [List.foldl_cons]
    rw [i3, hasEdge_addEdge]
    obtain ⟨u, v⟩ := e
    simp only [List.mem_cons, Prod.mk.injEq]
    tauto

/-- **C64.**  Loading a saved line gives a graph with the same nodes (in the same order) and the same edges, the same degree count (up to the order of its items) and the same name,
in whatever order and direction the edges are written. -/
theorem C64_line_roundtrip {l : NodalLine V} (hg : GoodGraph l.graph) {s : SavedLine V} (h : LineToHdf5 l s) :
    (lineFromHdf5 s).graph.nodes = l.graph.nodes ∧ (∀ x y, (lineFromHdf5 s).graph.hasEdge x y ↔ l.graph.hasEdge x y) ∧ GoodGraph (lineFromHdf5 s).graph ∧
    (lineFromHdf5 s).degreeCount.Perm l.degreeCount ∧ shapeName (lineFromHdf5 s).degreeCount = shapeName l.degreeCount := by
  obtain ⟨n1, n2⟩ := addNodes_spec l.graph.nodes (NxGraph.empty : NxGraph V Unit) (by simpa [NxGraph.empty] using hg.nodup)
  simp only [NxGraph.empty, List.nil_append] at n1 n2
  have hg0 : GoodGraph (l.graph.nodes.foldl (fun g x => g.addNode x) (NxGraph.empty : NxGraph V Unit)) := by
    constructor
    · simp only [NxGraph.empty]; rw [n1]; exact hg.nodup
    all_goals simp only [NxGraph.empty]; rw [n2]; simp
  cases h with
  | noEdges he hp =>
    refine ⟨n1, fun x y => ?_, hg0, hp, shapeName_perm hp⟩
    simp only [lineFromHdf5, Option.getD_none, List.foldl_nil, NxGraph.empty, hasEdge, n2, he]
  | @edges es dc hne hes hp =>
    obtain ⟨k, hk, hF⟩ := hes
    have hmem : ∀ x y, ((x, y) ∈ es ∨ (y, x) ∈ es) ↔ l.graph.hasEdge x y := by
      intro x y
      constructor
      · have : ∀ x y, (x, y) ∈ es → l.graph.hasEdge x y := by
          intro x y hxy
          obtain ⟨i, hi, hi'⟩ := List.getElem_of_mem hxy
          have hi2 : i < k.length := by rw [hF.length_eq]; exact hi
          have := (List.forall₂_iff_get.1 hF).2 i hi2 hi
          simp only [List.get_eq_getElem] at this
          refine ⟨k[i], hk.mem_iff.1 (List.getElem_mem _), ?_⟩
          rw [hi'] at this
          rcases this with h | h <;> simp only [Prod.mk.injEq] at h
          · exact .inl ⟨h.1.symm, h.2.symm⟩
          · exact .inr ⟨h.2.symm, h.1.symm⟩
        rintro (h | h)
        · exact this x y h
        · exact hasEdge_symm.1 (this y x h)
      · rintro ⟨e, he, hj⟩
        obtain ⟨i, hi, hi'⟩ := List.getElem_of_mem (hk.mem_iff.2 he)
        have hi2 : i < es.length := by rw [← hF.length_eq]; exact hi
        have := (List.forall₂_iff_get.1 hF).2 i hi hi2
        simp only [List.get_eq_getElem] at this
        have hmem := List.getElem_mem hi2
        rw [hi'] at this
        rcases this with h | h <;> rw [h] at hmem <;> rcases hj with ⟨h1, h2⟩ | ⟨h1, h2⟩ <;> rw [h1, h2] at hmem <;> tauto
    obtain ⟨r1, r2, r3⟩ := addEdges_spec es _ hg0 fun e he => by
      have := goodGraph_edge hg ((hmem e.1 e.2).1 (.inl he))
      simp only [NxGraph.empty]
      rw [n1]
      exact this
    refine ⟨r2.trans n1, fun x y => ?_, r1, hp, shapeName_perm hp⟩
    simp only [lineFromHdf5, Option.getD_some]
    rw [r3, hmem]
    simp only [NxGraph.empty, hasEdge, n2, List.not_mem_nil, false_and, exists_false, false_or]

theorem shapeName_eq_of_degrees {B : Type} {g : NxGraph V A} {h : NxGraph V B} (hn : g.nodes = h.nodes) (hd : ∀ x ∈ g.nodes, g.degree x = h.degree x) : createDegreeCount g = createDegreeCount h := by
  unfold createDegreeCount
  rw [← hn]
  congr 2
  exact List.map_congr_left fun x hx => by rw [hd x hx]

/-- The degree count of a loaded line is that of its graph, if it was so for the saved line. -/
theorem C64_degree_count {l : NodalLine V} (hg : GoodGraph l.graph) (hl : l.degreeCount = createDegreeCount l.graph) {s : SavedLine V} (h : LineToHdf5 l s) :
    (lineFromHdf5 s).degreeCount.Perm (createDegreeCount (lineFromHdf5 s).graph) := by
  obtain ⟨h1, h2, h3, h4, -⟩ := C64_line_roundtrip hg h
  rw [shapeName_eq_of_degrees h1 (h := l.graph), ← hl]
  · exact h4
  · intro x _
    rw [← nbrCount_eq_degree h3, ← nbrCount_eq_degree hg]
    unfold nbrCount
    rw [h1]
    congr 1
    exact List.filter_congr fun y _ => by simp only [h2]

/-! ## Examples -/

/-- A triangle is named `CLOSED LOOP`, and can be saved. -/
def triangle : NxGraph ℕ Unit := ⟨[0, 1, 2], [(0, 1, ()), (1, 2, ()), (2, 0, ())]⟩
theorem triangle_good : GoodGraph triangle := by constructor <;> simp [triangle, NxGraph.joins]

example : shapeName (createDegreeCount triangle) = .closedLoop := (C63_closed_loop triangle_good).2 fun x hx => by
  rw [nbrCount_eq_degree triangle_good]
  simp only [triangle, List.mem_cons, List.not_mem_nil, or_false] at hx
  rcases hx with rfl | rfl | rfl <;> simp [degree, neighbors, triangle]

example : LineToHdf5 ⟨triangle, createDegreeCount triangle⟩ ⟨[0, 1, 2], some [(2, 1), (0, 1), (2, 0)], createDegreeCount triangle⟩ :=
  .edges (by simp [triangle]) ⟨[(1, 2, ()), (0, 1, ()), (2, 0, ())], List.Perm.swap _ _ _, by simp⟩ (.refl _)

/-- A line of three nodes is named `OPEN LINE`. -/
def threeLine : NxGraph ℕ Unit := ⟨[0, 1, 2], [(0, 1, ()), (1, 2, ())]⟩
theorem threeLine_good : GoodGraph threeLine := by constructor <;> simp [threeLine, NxGraph.joins]

example : shapeName (createDegreeCount threeLine) = .openLine ∧ Connected threeLine := by
  refine ⟨(C63_open_line threeLine_good).2 ⟨0, by simp [threeLine], 2, by simp [threeLine], by simp, ?_, ?_, fun x hx h0 h2 => ?_⟩, ?_⟩
  · rw [nbrCount_eq_degree threeLine_good]; simp [degree, neighbors, threeLine]
  · rw [nbrCount_eq_degree threeLine_good]; simp [degree, neighbors, threeLine]
  · rw [nbrCount_eq_degree threeLine_good]
    simp only [threeLine, List.mem_cons, List.not_mem_nil, or_false] at hx
    rcases hx with rfl | rfl | rfl
    · exact absurd rfl h0
    · simp [degree, neighbors, threeLine]
    · exact absurd rfl h2
  · have e1 : Reach threeLine 1 0 := .single ⟨(0, 1, ()), by simp [threeLine], .inr ⟨rfl, rfl⟩⟩
    have e2 : Reach threeLine 1 2 := .single ⟨(1, 2, ()), by simp [threeLine], .inl ⟨rfl, rfl⟩⟩
    have h : ∀ x ∈ threeLine.nodes, Reach threeLine 1 x := by
      intro x hx
      simp only [threeLine, List.mem_cons, List.not_mem_nil, or_false] at hx
      rcases hx with rfl | rfl | rfl
      exacts [e1, .refl, e2]
    exact fun x hx y hy => (reach_symm (h x hx)).trans (h y hy)

end NF
