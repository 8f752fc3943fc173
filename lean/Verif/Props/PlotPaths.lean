import Verif.Model.PlotPaths
import Verif.Props.Identify
import Verif.Spec.PlotPaths

/-!
# Properties of the plotting of lines (C66)
-/

noncomputable section
open Classical

namespace NF
open Spec NxGraph
variable {V A : Type} {d : ℕ}

/-! ## Lemmas -/

theorem edges_removeEdge {g : NxGraph V A} (hg : GoodGraph g) {x y : V} (h : g.hasEdge x y) : ∃ e ∈ g.edges, joins e x y ∧ g.edges.Perm (e :: (g.removeEdge x y).edges) := by
  obtain ⟨e, he, hj⟩ := h
  refine ⟨e, he, hj, ?_⟩
  unfold removeEdge
  simp only
  have hs := hg.single
  generalize g.edges = l at he hs
  clear hg
  induction l with
  | nil => simp at he
  | cons f l ih =>
    rw [List.pairwise_cons] at hs
    have key : ∀ f' ∈ l, joins f x y → ¬ joins f' x y := by
      intro f' hf' h1 h2
      apply hs.1 f' hf'
      rcases h1 with ⟨h3, h4⟩ | ⟨h3, h4⟩
      · rw [h3, h4]; exact h2
      · rw [h3, h4]; exact joins_symm.1 h2
    by_cases hfj : joins f x y
    · have hfe : e = f := by
        rcases List.mem_cons.1 he with h | h
        · exact h
        · exact absurd hj (key e h hfj)
      subst hfe
      rw [List.filter_cons_of_neg (by simp [hfj])]
      have : l.filter (fun e => decide ¬ joins e x y) = l := by
        rw [List.filter_eq_self]
        intro f' hf'
        simp [key f' hf' hfj]
      rw [this]
    · rw [List.filter_cons_of_pos (by simp [hfj])]
      rcases List.mem_cons.1 he with h | h
      · subst h; exact absurd hj hfj
      · exact ((ih h hs.2).cons f).trans (.swap _ _ _)

theorem pathEdges_append {p : List V} {x y : V} (h : p.getLast? = some x) : pathEdges (p ++ [y]) = pathEdges p ++ [(x, y)] := by
  induction p with
  | nil => simp at h
  | cons a p ih =>
    cases p with
    | nil =>
      simp only [List.getLast?_singleton, Option.some.injEq] at h
      subst h
      rfl
    | cons b p =>
      rw [List.getLast?_cons_cons] at h
      have := ih h
      simp only [pathEdges, List.cons_append, List.tail_cons, List.zip_cons_cons, List.cons.injEq, true_and] at this ⊢
      exact this

/-- The paths, including the one that is being made. -/
def PState.all : PState d → List (List (Vec d))
  | .outer _ paths => paths
  | .inner _ paths _ path => paths ++ [path]
  | .done paths => paths

def PState.graph : PState d → NxGraph (Vec d) Unit
  | .outer wg _ => wg
  | .inner wg _ _ _ => wg
  | .done _ => NxGraph.empty

def PState.Ok : PState d → Prop
  | .inner _ _ x path => path.getLast? = some x
  | _ => True

/-- The edges which are not too long. -/
def shortGraph (fs : Option ℝ) (g : NxGraph (Vec d) Unit) : NxGraph (Vec d) Unit := ⟨g.nodes, g.edges.filter fun e => decide (¬ LongEdge fs e.1 e.2.1)⟩

theorem tooLong_iff {fs : Option ℝ} {a b : Vec d} : tooLong fs a b ↔ LongEdge fs a b := by
  unfold tooLong LongEdge CoordSys.norm
  have : ∑ i, (b i - a i) ^ 2 = ∑ i, (a i - b i) ^ 2 := Finset.sum_congr rfl fun i _ => by ring
  simp only [this, gt_iff_lt]

theorem shortGraph_eq (fs : Option ℝ) (g : NxGraph (Vec d) Unit) : shortGraph fs g = ⟨g.nodes, g.edges.filter fun e => decide (¬ tooLong fs e.1 e.2.1)⟩ := by
  unfold shortGraph
  simp only [tooLong_iff]

theorem tooLong_symm {fs : Option ℝ} {a b : Vec d} : tooLong fs a b ↔ tooLong fs b a := by
  unfold tooLong CoordSys.norm
  have : ∀ a b : Vec d, ∑ i, (b i - a i) ^ 2 = ∑ i, (a i - b i) ^ 2 := fun a b => Finset.sum_congr rfl fun i _ => by ring
  rw [this a b]

theorem tooLong_joins {fs : Option ℝ} {e : Vec d × Vec d × Unit} {x y : Vec d} (h : joins e x y) : tooLong fs e.1 e.2.1 ↔ tooLong fs x y := by
  rcases h with ⟨h1, h2⟩ | ⟨h1, h2⟩
  · rw [h1, h2]
  · rw [h1, h2]; exact tooLong_symm

/-- The edges `used` have been used for the paths, the edges `long` have been left out. -/
structure PInv (fs : Option ℝ) (g : NxGraph (Vec d) Unit) (s : PState d) : Prop where
  good : GoodGraph s.graph
  ok : s.Ok
  nonempty : ∀ p ∈ s.all, p ≠ []
  nodes : s.graph.nodes = g.nodes ∨ ∃ paths, s = .done paths
  split : ∃ used long, g.edges.Perm (s.graph.edges ++ used ++ long) ∧ (∀ e ∈ used, ¬ tooLong fs e.1 e.2.1) ∧ (∀ e ∈ long, tooLong fs e.1 e.2.1) ∧
    List.Forall₂ (fun e p => p = (e.1, e.2.1) ∨ p = (e.2.1, e.1)) used (s.all.flatMap pathEdges)

theorem pInv_run {fs : Option ℝ} {g : NxGraph (Vec d) Unit} (hg : GoodGraph g) {n : ℕ} {s : PState d} (h : PRun fs g n s) : PInv fs g s := by
  induction h with
  | init => exact ⟨hg, trivial, by simp [PState.all], .inl rfl, [], [], by simp [PState.graph], by simp, by simp, by simp [PState.all]⟩
  | step _ hst ih =>
    obtain ⟨hgood, hok, hne, hn, used, long, h1, h2, h3, h4⟩ := ih
    have hor : ∀ {e : Vec d × Vec d × Unit} {x y : Vec d}, joins e x y → (x, y) = (e.1, e.2.1) ∨ (x, y) = (e.2.1, e.1) := by
      rintro e x y (⟨a, b⟩ | ⟨a, b⟩)
      · exact .inl (by rw [a, b])
      · exact .inr (by rw [a, b])
    cases hst with
    | finish he =>
      refine ⟨goodGraph_empty, trivial, hne, .inr ⟨_, rfl⟩, used, long, ?_, h2, h3, h4⟩
      simpa [PState.graph, he, NxGraph.empty] using h1
    | start he hs =>
      exact ⟨hgood, rfl, fun p hp => by
        rcases List.mem_append.1 hp with h | h
        · exact hne p h
        · rw [List.mem_singleton] at h; subst h; simp, hn.elim .inl (fun ⟨_, h⟩ => by cases h), used, long, h1, h2, h3, by
        simpa [PState.all, pathEdges] using h4⟩
    | stop hnb => exact ⟨hgood, trivial, hne, hn.elim .inl (fun ⟨_, h⟩ => by cases h), used, long, h1, h2, h3, h4⟩
    | @cut wg paths x path y hy hlong =>
      obtain ⟨e, -, hj, hp⟩ := edges_removeEdge hgood (mem_neighbors.1 hy)
      refine ⟨goodGraph_removeEdge hgood _ _, rfl, fun p hp => ?_, hn.elim .inl (fun ⟨_, h⟩ => by cases h), used, e :: long, ?_, h2, ?_, ?_⟩
      · rcases List.mem_append.1 hp with h | h
        · exact hne p h
        · rw [List.mem_singleton] at h; subst h; simp
      · refine h1.trans ?_
        simp only [PState.graph] at hp ⊢
        refine ((hp.append_right used).append_right long).trans ?_
        simp only [List.cons_append]
        exact List.perm_middle.symm
      · intro f hf
        rcases List.mem_cons.1 hf with h | h
        · subst h; exact (tooLong_joins hj).2 hlong
        · exact h3 f h
      · simpa [PState.all, pathEdges] using h4
    | @extend wg paths x path y hy hshort =>
      obtain ⟨e, -, hj, hp⟩ := edges_removeEdge hgood (mem_neighbors.1 hy)
      refine ⟨goodGraph_removeEdge hgood _ _, by simp [PState.Ok], fun p hp => ?_, hn.elim .inl (fun ⟨_, h⟩ => by cases h), used ++ [e], long, ?_, ?_, h3, ?_⟩
      · rcases List.mem_append.1 hp with h | h
        · exact hne p (List.mem_append_left _ h)
        · rw [List.mem_singleton] at h; subst h; simp
      · refine h1.trans ?_
        simp only [PState.graph] at hp ⊢
        refine ((hp.append_right used).append_right long).trans ?_
        simp only [List.cons_append, List.append_assoc, List.nil_append]
        rw [← List.append_assoc, ← List.append_assoc]
        exact List.perm_middle.symm
      · intro f hf
        rcases List.mem_append.1 hf with h | h
        · exact h2 f h
        · rw [List.mem_singleton] at h; subst h; rw [tooLong_joins hj]; exact hshort
      · simp only [PState.all, List.flatMap_append, List.flatMap_cons, List.flatMap_nil, List.append_nil] at h4 ⊢
        rw [pathEdges_append hok, ← List.append_assoc]
        exact List.rel_append h4 (.cons (hor hj) .nil)

/-- A bound for the number of remaining steps. -/
def pMeasure : PState d → ℕ
  | .outer wg _ => 3 * wg.edges.length + 1
  | .inner wg _ x _ => if wg.neighbors x = [] then 3 * wg.edges.length + 2 else 3 * wg.edges.length
  | .done _ => 0

theorem pMeasure_step {fs : Option ℝ} {s s' : PState d} (hg : GoodGraph s.graph) (h : PStep fs s s') : pMeasure s' < pMeasure s := by
  have hdec : ∀ {wg : NxGraph (Vec d) Unit} {x y : Vec d}, GoodGraph wg → y ∈ wg.neighbors x → wg.edges.length = (wg.removeEdge x y).edges.length + 1 := by
    intro wg x y hwg hy
    obtain ⟨e, -, -, hp⟩ := edges_removeEdge hwg (mem_neighbors.1 hy)
    simpa using hp.length_eq
  cases h with
  | finish => simp [pMeasure]
  | @start wg paths x he hs =>
    have : ¬ wg.neighbors x = [] := fun h0 => (ne_of_gt hs.2.1) (show NxGraph.degree _ _ = 0 by unfold degree; rw [h0]; rfl)
    simp [pMeasure, this]
  | stop hn => simp [pMeasure, hn]
  | cut hy hl =>
    have h1 := hdec hg hy
    simp only [PState.graph] at h1
    simp only [pMeasure, List.ne_nil_of_mem hy, if_false]
    split_ifs <;> omega
  | extend hy hl =>
    have h1 := hdec hg hy
    simp only [PState.graph] at h1
    simp only [pMeasure, List.ne_nil_of_mem hy, if_false]
    split_ifs <;> omega

theorem pStep_total {fs : Option ℝ} {s : PState d} (hg : GoodGraph s.graph) : (∃ paths, s = .done paths) ∨ ∃ s', PStep fs s s' := by
  cases s with
  | done paths => exact .inl ⟨_, rfl⟩
  | outer wg paths =>
    right
    by_cases he : wg.edges = []
    · exact ⟨_, .finish he⟩
    · simp only [PState.graph] at hg
      obtain ⟨e, hme⟩ := List.exists_mem_of_ne_nil _ he
      have hdeg : ∀ x, (∃ y, wg.hasEdge x y) → 0 < wg.degree x := fun x ⟨y, hy⟩ => List.length_pos_of_mem (mem_neighbors.2 hy)
      have hpos : 0 < wg.degree e.1 := hdeg _ ⟨e.2.1, e, hme, .inl ⟨rfl, rfl⟩⟩
      let cand := (wg.nodes.filter fun x => decide (0 < wg.degree x)).toFinset
      obtain ⟨x, hx, hmin⟩ := Finset.exists_min_image cand (fun x => if wg.degree x = 2 then (⊤ : ℕ∞) else wg.degree x) ⟨e.1, by simp [cand, hpos, hg.left e hme]⟩
      simp only [cand, List.mem_toFinset, List.mem_filter, decide_eq_true_eq] at hx hmin
      refine ⟨_, .start he ⟨hx.1, hx.2, fun y hy hyd => ?_⟩⟩
      have := hmin y ⟨hy, hyd⟩
      unfold degreeKeyLe
      by_cases h2 : wg.degree y = 2
      · exact .inl h2
      · right
        rw [if_neg h2] at this
        split_ifs at this with h3
        · simp at this
        · exact ⟨h3, by exact_mod_cast this⟩
  | inner wg paths x path =>
    right
    by_cases hn : wg.neighbors x = []
    · exact ⟨_, .stop hn⟩
    · obtain ⟨y, hy⟩ := List.exists_mem_of_ne_nil _ hn
      by_cases hl : tooLong fs x y
      · exact ⟨_, .cut hy hl⟩
      · exact ⟨_, .extend hy hl⟩

/-! ## C66 -/

/-- **C66.**  Whatever the order of nodes and neighbours, the splitting of a graph into paths takes at most `3 n + 1` steps for `n` edges and can always go on until it returns; and when it returns, the pairs of
positions which follow each other in the paths are the edges of the graph, each once, except for the edges longer than twice `feature_size`, which are not drawn. -/
theorem C66_paths {g : NxGraph (Vec d) Unit} (hg : GoodGraph g) (fs : Option ℝ) :
    (∀ n s, PRun fs g n s → n ≤ 3 * g.edges.length + 1 ∧ ((∃ paths, s = .done paths) ∨ ∃ s', PStep fs s s')) ∧
    (∃ n paths, PRun fs g n (.done paths)) ∧
    ∀ n paths, PRun fs g n (.done paths) → ListsEdges (shortGraph fs g) (paths.flatMap pathEdges) ∧ (∀ p ∈ paths, p ≠ []) := by
  have h1 : ∀ n s, PRun fs g n s → n + pMeasure s ≤ 3 * g.edges.length + 1 := by
    intro n s h
    induction h with
    | init => simp [pMeasure]
    | step h hst ih => have := pMeasure_step (pInv_run hg h).good hst; omega
  refine ⟨fun n s h => ⟨by have := h1 n s h; omega, pStep_total (pInv_run hg h).good⟩, ?_, ?_⟩
  · by_contra hno
    push Not at hno
    have hall : ∀ n, ∃ s, PRun fs g n s := by
      intro n
      induction n with
      | zero => exact ⟨_, .init⟩
      | succ n ih =>
        obtain ⟨s, hs⟩ := ih
        rcases pStep_total (fs := fs) (pInv_run hg hs).good with ⟨paths, rfl⟩ | ⟨s', hs'⟩
        · exact absurd hs (hno _ _)
        · exact ⟨s', .step hs hs'⟩
    obtain ⟨s, hs⟩ := hall (3 * g.edges.length + 2)
    have := h1 _ s hs
    omega
  · intro n paths h
    obtain ⟨-, -, hne, -, used, long, h1, h2, h3, h4⟩ := pInv_run hg h
    refine ⟨⟨used, ?_, h4⟩, hne⟩
    have := (h1.filter fun e => decide (¬ tooLong fs e.1 e.2.1)).symm
    simp only [PState.graph, NxGraph.empty, List.nil_append, List.filter_append] at this
    have e1 : used.filter (fun e => decide (¬ tooLong fs e.1 e.2.1)) = used := List.filter_eq_self.2 fun e he => by simp [h2 e he]
    have e2 : long.filter (fun e => decide (¬ tooLong fs e.1 e.2.1)) = [] := List.filter_eq_nil_iff.2 fun e he => by simp [h3 e he]
    rw [e1, e2, List.append_nil] at this
    rw [shortGraph_eq]
    exact this

/-- Nothing is left out with `feature_size = None`. -/
theorem C66_all_edges {g : NxGraph (Vec d) Unit} (hg : GoodGraph g) {n : ℕ} {paths : List (List (Vec d))} (h : PRun none g n (.done paths)) : ListsEdges g (paths.flatMap pathEdges) := by
  have := ((C66_paths hg none).2.2 n paths h).1
  have e : shortGraph none g = g := by
    rw [shortGraph_eq]
    have : g.edges.filter (fun e => decide (¬ tooLong none e.1 e.2.1)) = g.edges := List.filter_eq_self.2 fun e _ => by simp [tooLong]
    rw [this]
  rwa [e] at this

/-! ### Lines and loops are drawn by one path -/

theorem degree_removeEdge_left {g : NxGraph V A} (hg : GoodGraph g) {x y : V} (h : g.hasEdge x y) : (g.removeEdge x y).degree x + 1 = g.degree x := by
  unfold degree
  have hp : ((g.removeEdge x y).neighbors x).Perm ((g.neighbors x).erase y) := by
    rw [List.perm_ext_iff_of_nodup (neighbors_nodup (goodGraph_removeEdge hg x y) x) ((neighbors_nodup hg x).erase y)]
    intro z
    rw [mem_neighbors, hasEdge_removeEdge, (neighbors_nodup hg x).mem_erase_iff, mem_neighbors]
    have hxy := (goodGraph_edge hg h).2.2
    constructor
    · rintro ⟨h1, h2⟩
      exact ⟨fun hz => h2 (.inl ⟨rfl, hz⟩), h1⟩
    · rintro ⟨h1, h2⟩
      refine ⟨h2, ?_⟩
      rintro (⟨-, h3⟩ | ⟨h3, -⟩)
      · exact h1 h3
      · exact hxy h3
  rw [hp.length_eq, List.length_erase_of_mem (mem_neighbors.2 h)]
  have := List.length_pos_of_mem (mem_neighbors.2 h)
  omega

theorem removeEdge_comm {g : NxGraph V A} (x y : V) : g.removeEdge x y = g.removeEdge y x := by
  unfold removeEdge
  congr 1
  apply List.filter_congr
  intro e _
  simp only [joins_symm (x := x) (y := y)]

theorem degree_removeEdge_other {g : NxGraph V A} {x y z : V} (hg : GoodGraph g) (h1 : z ≠ x) (h2 : z ≠ y) : (g.removeEdge x y).degree z = g.degree z := by
  unfold degree
  apply List.Perm.length_eq
  rw [List.perm_ext_iff_of_nodup (neighbors_nodup (goodGraph_removeEdge hg x y) z) (neighbors_nodup hg z)]
  intro w
  rw [mem_neighbors, hasEdge_removeEdge, mem_neighbors]
  constructor
  · exact fun h => h.1
  · refine fun h => ⟨h, ?_⟩
    rintro (⟨h3, -⟩ | ⟨h3, -⟩)
    · exact h1 h3
    · exact h2 h3

theorem degree_pos {g : NxGraph V A} {x : V} : 0 < g.degree x ↔ ∃ y, g.hasEdge x y := by
  unfold degree
  rw [List.length_pos_iff_exists_mem]
  simp only [mem_neighbors]

/-- The first path is being made: `s0` is where it starts, `x` where it is. -/
structure OneInv (g wg : NxGraph (Vec d) Unit) (s0 x : Vec d) (path : List (Vec d)) : Prop where
  good : GoodGraph wg
  start : s0 ∈ path
  cur : x ∈ path
  inG : ∀ z ∈ path, z ∈ g.nodes
  isStart : IsStart g s0
  sub : ∀ a b, wg.hasEdge a b → g.hasEdge a b
  removed : ∀ a b, g.hasEdge a b → ¬ wg.hasEdge a b → a ∈ path ∧ b ∈ path
  zero : ∀ z ∈ path, z ≠ x → z ≠ s0 → wg.degree z = 0
  away : x ≠ s0 → wg.degree x + 1 = g.degree x ∧ wg.degree s0 + 1 = g.degree s0
  back : x = s0 → (path = [s0] ∧ wg = g) ∨ wg.degree s0 + 2 = g.degree s0

theorem oneInv_step {g wg : NxGraph (Vec d) Unit} (hg : GoodGraph g) (h2 : ∀ x ∈ g.nodes, g.degree x ≤ 2) {s0 x y : Vec d} {path : List (Vec d)} (h : OneInv g wg s0 x path) (hy : wg.hasEdge x y) :
    OneInv g (wg.removeEdge x y) s0 y (path ++ [y]) := by
  have hxy : x ≠ y := (goodGraph_edge h.good hy).2.2
  have hdx : (wg.removeEdge x y).degree x + 1 = wg.degree x := degree_removeEdge_left h.good hy
  have hdy : (wg.removeEdge x y).degree y + 1 = wg.degree y := by rw [removeEdge_comm]; exact degree_removeEdge_left h.good (hasEdge_symm.1 hy)
  have hdo : ∀ z, z ≠ x → z ≠ y → (wg.removeEdge x y).degree z = wg.degree z := fun z a b => degree_removeEdge_other h.good a b
  have hyG : y ∈ g.nodes := (goodGraph_edge hg (h.sub _ _ hy)).2.1
  have hnew : y ≠ s0 → y ∉ path := by
    intro hne hmem
    have := h.zero y hmem (Ne.symm hxy) hne
    omega
  have hdeg : y ∉ path → wg.degree y = g.degree y := by
    intro hn
    unfold degree
    apply List.Perm.length_eq
    rw [List.perm_ext_iff_of_nodup (neighbors_nodup h.good y) (neighbors_nodup hg y)]
    intro w
    rw [mem_neighbors, mem_neighbors]
    refine ⟨h.sub y w, fun hw => ?_⟩
    by_contra hno
    exact hn (h.removed y w hw hno).1
  have hzero : x ≠ s0 → (wg.removeEdge x y).degree x = 0 := by
    intro hx
    have := (h.away hx).1
    have := h2 x (h.inG x h.cur)
    omega
  refine ⟨goodGraph_removeEdge h.good x y, List.mem_append_left _ h.start, by simp, ?_, h.isStart, ?_, ?_, ?_, ?_, ?_⟩
  · intro z hz
    rcases List.mem_append.1 hz with hz | hz
    · exact h.inG z hz
    · rw [List.mem_singleton] at hz; rw [hz]; exact hyG
  · intro a b hab
    exact h.sub a b (hasEdge_removeEdge.1 hab).1
  · intro a b hab hno
    by_cases hw : wg.hasEdge a b
    · have : (a = x ∧ b = y) ∨ (a = y ∧ b = x) := by
        by_contra hc
        exact hno (hasEdge_removeEdge.2 ⟨hw, hc⟩)
      rcases this with ⟨ha, hb⟩ | ⟨ha, hb⟩
      · rw [ha, hb]; exact ⟨List.mem_append_left _ h.cur, by simp⟩
      · rw [ha, hb]; exact ⟨by simp, List.mem_append_left _ h.cur⟩
    · obtain ⟨ha, hb⟩ := h.removed a b hab hw
      exact ⟨List.mem_append_left _ ha, List.mem_append_left _ hb⟩
  · intro z hz hzy hzs
    rcases List.mem_append.1 hz with hz | hz
    · by_cases hzx : z = x
      · rw [hzx] at hzs ⊢; exact hzero hzs
      · rw [hdo z hzx hzy]; exact h.zero z hz hzx hzs
    · rw [List.mem_singleton] at hz; exact absurd hz hzy
  · intro hys
    have e1 := hdeg (hnew hys)
    refine ⟨by omega, ?_⟩
    by_cases hxs : x = s0
    · rcases h.back hxs with ⟨-, hw⟩ | hb
      · have e2 : wg.degree s0 = g.degree s0 := by rw [hw]
        rw [hxs] at hdx ⊢
        omega
      · have := h2 s0 (h.inG _ h.start)
        rw [hxs] at hdx
        omega
    · rw [hdo s0 (Ne.symm hxs) (Ne.symm hys)]
      exact (h.away hxs).2
  · intro hys
    right
    have hxs : x ≠ s0 := fun he => hxy (he.trans hys.symm)
    have := (h.away hxs).2
    rw [← hys] at this ⊢
    omega

theorem oneInv_stop {g wg : NxGraph (Vec d) Unit} (hg : GoodGraph g) (hconn : Connected g) {s0 x : Vec d} {path : List (Vec d)} (h : OneInv g wg s0 x path)
    (hn : wg.neighbors x = []) : wg.edges = [] := by
  have hx0 : wg.degree x = 0 := by unfold degree; rw [hn]; rfl
  have hs0 : wg.degree s0 = 0 := by
    by_cases hxs : x = s0
    · rw [← hxs]; exact hx0
    · have e1 := (h.away hxs).1
      have e2 := (h.away hxs).2
      have e3 := h.isStart.2.2 x (h.inG x h.cur) (by omega)
      unfold degreeKeyLe at e3
      omega
  have hall : ∀ z ∈ path, ∀ w, ¬ wg.hasEdge z w := by
    intro z hz w hw
    have h3 : 0 < wg.degree z := degree_pos.2 ⟨w, hw⟩
    by_cases hzx : z = x
    · rw [hzx] at h3; omega
    · by_cases hzs : z = s0
      · rw [hzs] at h3; omega
      · have := h.zero z hz hzx hzs; omega
  have hreach : ∀ z, Spec.Reach g s0 z → z ∈ path := by
    intro z hz
    induction hz with
    | refl => exact h.start
    | tail _ hbc ih => exact (h.removed _ _ hbc (hall _ ih _)).2
  apply List.eq_nil_iff_forall_not_mem.2
  intro e he
  have hedge : wg.hasEdge e.1 e.2.1 := ⟨e, he, .inl ⟨rfl, rfl⟩⟩
  have hmem := (goodGraph_edge hg (h.sub _ _ hedge)).1
  exact hall e.1 (hreach _ (hconn s0 (h.inG _ h.start) _ hmem)) _ hedge

/-- **C66.**  A line which is named `OPEN LINE` or `CLOSED LOOP`, hangs together and has no edge longer than twice `feature_size` is drawn with a single path. -/
theorem C66_one_path {g : NxGraph (Vec d) Unit} (hg : GoodGraph g) (hconn : Connected g) (hne : g.nodes ≠ [])
    (hshape : shapeName (createDegreeCount g) = .openLine ∨ shapeName (createDegreeCount g) = .closedLoop) {fs : Option ℝ} (hfs : ∀ x y, g.hasEdge x y → ¬ LongEdge fs x y)
    {n : ℕ} {paths : List (List (Vec d))} (h : PRun fs g n (.done paths)) : ∃ p, paths = [p] ∧ (∀ x, x ∈ p ↔ x ∈ g.nodes) ∧ ListsEdges g (pathEdges p) := by
  have hdeg : ∀ x ∈ g.nodes, 0 < g.degree x ∧ g.degree x ≤ 2 := by
    intro x hx
    rw [← nbrCount_eq_degree hg]
    rcases hshape with hs | hs
    · obtain ⟨a, -, b, -, -, ha, hb, hall⟩ := (C63_open_line hg).1 hs
      by_cases hxa : x = a
      · rw [hxa]; omega
      · by_cases hxb : x = b
        · rw [hxb]; omega
        · have := hall x hx hxa hxb; omega
    · have := (C63_closed_loop hg).1 hs x hx; omega
  have hedges : g.edges ≠ [] := by
    obtain ⟨x, hx⟩ := List.exists_mem_of_ne_nil _ hne
    obtain ⟨y, e, he, -⟩ := degree_pos.1 (hdeg x hx).1
    exact List.ne_nil_of_mem he
  have hinv : ∀ {n s}, PRun fs g n s → s = .outer g [] ∨ (∃ wg s0 x path, s = .inner wg [] x path ∧ OneInv g wg s0 x path) ∨
      (∃ wg p, s = .outer wg [p] ∧ wg.edges = []) ∨ ∃ p, s = .done [p] := by
    intro n s h
    induction h with
    | init => exact .inl rfl
    | step _ hst ih =>
      rcases ih with rfl | ⟨wg, s0, x, path, rfl, hi⟩ | ⟨wg, p, rfl, hw⟩ | ⟨p, rfl⟩
      · cases hst with
        | finish he => exact absurd he hedges
        | @start _ _ x _ hs =>
          exact .inr (.inl ⟨g, x, x, [x], rfl, hg, by simp, by simp, fun z hz => by rw [List.mem_singleton] at hz; rw [hz]; exact hs.1, hs, fun _ _ h => h, fun _ _ h hn => absurd h hn,
            fun z hz hzx => absurd (List.mem_singleton.1 hz) hzx, fun hc => absurd rfl hc, fun _ => .inl ⟨rfl, rfl⟩⟩)
      · cases hst with
        | stop hn => exact .inr (.inr (.inl ⟨wg, path, rfl, oneInv_stop hg hconn hi hn⟩))
        | cut hy hl => exact absurd (tooLong_iff.1 hl) (hfs _ _ (hi.sub _ _ (mem_neighbors.1 hy)))
        | extend hy hl => exact .inr (.inl ⟨_, s0, _, _, rfl, oneInv_step hg (fun x hx => (hdeg x hx).2) hi (mem_neighbors.1 hy)⟩)
      · cases hst with
        | finish => exact .inr (.inr (.inr ⟨p, rfl⟩))
        | start he => exact absurd hw he
      · cases hst
  have h1 := (C66_paths hg fs).2.2 n paths h
  rcases hinv h with h | ⟨_, _, _, _, h, -⟩ | ⟨_, _, h, -⟩ | ⟨p, hp⟩
  · cases h
  · cases h
  · cases h
  · cases hp
    have hL : ListsEdges g (pathEdges p) := by
      have h2 := h1.1
      have e : shortGraph fs g = g := by
        rw [shortGraph_eq]
        have : g.edges.filter (fun e => decide (¬ tooLong fs e.1 e.2.1)) = g.edges :=
          List.filter_eq_self.2 fun e he => by simp [tooLong_iff, hfs e.1 e.2.1 ⟨e, he, .inl ⟨rfl, rfl⟩⟩]
        rw [this]
      rw [e] at h2
      simpa using h2
    have hE : ∀ x y, (x, y) ∈ pathEdges p → g.hasEdge x y := by
      obtain ⟨l, hl, hf⟩ := hL
      intro x y hxy
      obtain ⟨e, he, hor⟩ := forall₂_mem_right hf hxy
      refine ⟨e, hl.mem_iff.1 he, ?_⟩
      rcases hor with ho | ho
      · cases ho; exact .inl ⟨rfl, rfl⟩
      · cases ho; exact .inr ⟨rfl, rfl⟩
    have hE' : ∀ x y, g.hasEdge x y → (x, y) ∈ pathEdges p ∨ (y, x) ∈ pathEdges p := by
      obtain ⟨l, hl, hf⟩ := hL
      rintro x y ⟨e, he, hj⟩
      obtain ⟨q, hq, hor⟩ := forall₂_mem_left hf (hl.mem_iff.2 he)
      rcases hj with ⟨h1, h2⟩ | ⟨h1, h2⟩ <;> rw [h1, h2] at hor <;> rcases hor with ho | ho <;> rw [ho] at hq
      · exact .inl hq
      · exact .inr hq
      · exact .inr hq
      · exact .inl hq
    have hpm : ∀ x y, (x, y) ∈ pathEdges p → x ∈ p ∧ y ∈ p := fun x y hxy => ⟨(List.of_mem_zip hxy).1, List.mem_of_mem_tail (List.of_mem_zip hxy).2⟩
    refine ⟨p, rfl, fun x => ⟨fun hx => ?_, fun hx => ?_⟩, hL⟩
    · -- every position of the path is on an edge of it
      have hlen : 2 ≤ p.length := by
        obtain ⟨e, he⟩ := List.exists_mem_of_ne_nil _ hedges
        have h3 : (pathEdges p) ≠ [] := by
          rcases hE' e.1 e.2.1 ⟨e, he, .inl ⟨rfl, rfl⟩⟩ with h | h <;> exact List.ne_nil_of_mem h
        match p, h3 with
        | [], h => simp [pathEdges] at h
        | [a], h => simp [pathEdges] at h
        | a :: b :: l, _ => simp
      obtain ⟨y, hy⟩ : ∃ y, (x, y) ∈ pathEdges p ∨ (y, x) ∈ pathEdges p := by
        clear hpm hE' hE hL h1 h
        match p, hlen with
        | a :: b :: l, _ =>
          clear hlen
          induction l generalizing a b with
          | nil =>
            simp only [List.mem_cons, List.not_mem_nil, or_false] at hx
            rcases hx with hx | hx
            · exact ⟨b, .inl (by simp [pathEdges, hx])⟩
            · exact ⟨a, .inr (by simp [pathEdges, hx])⟩
          | cons c l ih =>
            rcases List.mem_cons.1 hx with hx | hx
            · exact ⟨b, .inl (by simp [pathEdges, hx])⟩
            · obtain ⟨y, hy⟩ := ih b c (by simp) hx
              exact ⟨y, hy.imp (fun h => List.mem_cons_of_mem _ h) (fun h => List.mem_cons_of_mem _ h)⟩
      rcases hy with hy | hy
      · exact (goodGraph_edge hg (hE _ _ hy)).1
      · exact (goodGraph_edge hg (hE _ _ hy)).2.1
    · obtain ⟨y, hy⟩ := degree_pos.1 (hdeg x hx).1
      rcases hE' x y hy with hp | hp
      · exact (hpm _ _ hp).1
      · exact (hpm _ _ hp).2

/-- **C66**, what is put on the axes: lines if the graph has edges, points otherwise. -/
theorem C66_plot {l : NodalLine (Vec d)} (hg : GoodGraph l.graph) (fs : Option ℝ) :
    (∃ r, NodalLinePlot l fs r) ∧ ∀ r, NodalLinePlot l fs r → (l.graph.edges = [] → r = .points l.graph.nodes) ∧
      (l.graph.edges ≠ [] → ∃ paths, r = .lines paths ∧ ListsEdges (shortGraph fs l.graph) (paths.flatMap pathEdges)) := by
  obtain ⟨-, ⟨n, paths, h⟩, h3⟩ := C66_paths hg fs
  refine ⟨⟨_, n, paths, h, rfl⟩, ?_⟩
  rintro r ⟨n, paths, h, rfl⟩
  have key : l.graph.edges = [] ↔ paths = [] := by
    have : ∀ {n s}, PRun fs l.graph n s → (l.graph.edges = [] → s = .outer l.graph [] ∨ s = .done []) ∧ (l.graph.edges ≠ [] → s ≠ .done []) ∧ (l.graph.edges ≠ [] → s = .outer l.graph [] ∨ (s.all ≠ [])) := by
      intro n s h
      induction h with
      | init => exact ⟨fun _ => .inl rfl, fun _ => (by simp), fun _ => .inl rfl⟩
      | step _ hst ih =>
        refine ⟨fun he => ?_, fun he => ?_, fun he => ?_⟩
        · rcases ih.1 he with rfl | rfl
          · cases hst with
            | finish => exact .inr rfl
            | start h => exact absurd he h
          · cases hst
        · rcases ih.2.2 he with rfl | h
          · cases hst with
            | finish h => exact absurd h he
            | start => simp
          · intro hd
            cases hst with
            | finish => cases hd; simp [PState.all] at h
            | start => cases hd
            | stop => cases hd
            | cut => cases hd
            | extend => cases hd
        · rcases ih.2.2 he with rfl | h
          · cases hst with
            | finish h => exact absurd h he
            | start => exact .inr (by simp [PState.all])
          · right
            cases hst with
            | finish => exact h
            | start => simp [PState.all]
            | stop => exact h
            | cut => simp [PState.all]
            | extend => simp [PState.all]
    constructor
    · intro he
      rcases (this h).1 he with h | h
      · cases h
      · cases h; rfl
    · intro hp
      by_contra he
      rw [hp] at h
      exact (this h).2.1 he rfl
  constructor
  · intro he
    rw [if_pos (key.1 he)]
  · intro he
    rw [if_neg (fun h => he (key.2 h))]
    exact ⟨paths, rfl, (h3 n paths h).1⟩

/-! ## Example -/

/-- The hypotheses of `C66_one_path` are met by the line `1`, `1.5`, `2`. -/
example : ∃ n paths, PRun none exG.strip n (.done paths) ∧ ∃ p, paths = [p] ∧ ∀ x, x ∈ p ↔ x ∈ exG.nodes := by
  have hg : GoodGraph exG := goodGraph_createGraph ex_nodup
  have hgs := goodGraph_strip hg
  have hedge : ∀ a b : Vec 1, exG.hasEdge a b ↔ _ := fun a b => hasEdge_createGraph exBox_proper ex_nodup
  have hconn : Connected exG.strip := by
    have e12 : exG.strip.hasEdge ![1] ![1.5] := hasEdge_strip.2 ex_edge12
    have e23 : exG.strip.hasEdge ![1.5] ![2] := hasEdge_strip.2 ex_edge23
    have hall : ∀ x ∈ exG.strip.nodes, Spec.Reach exG.strip ![1.5] x := by
      intro x hx
      have hx : x ∈ [![1], ![1.5], (![2] : Vec 1)] := hx
      simp only [List.mem_cons, List.not_mem_nil, or_false] at hx
      rcases hx with rfl | rfl | rfl
      · exact .single (hasEdge_symm.1 e12)
      · exact .refl
      · exact .single e23
    exact fun x hx y hy => (reach_symm (hall x hx)).trans (hall y hy)
  obtain ⟨-, ⟨n, paths, h⟩, -⟩ := C66_paths hgs none
  have hopen : shapeName (createDegreeCount exG.strip) = .openLine := by
    rw [C63_open_line hgs]
    have hc : ∀ x, nbrCount exG.strip x = ([![1], ![1.5], (![2] : Vec 1)].filter fun y => decide (exG.hasEdge x y)).length := fun x => by rw [nbrCount_strip]; rfl
    have n13 : ¬ exG.hasEdge ![1] ![2] := fun h => by have := ((hedge _ _).1 h).2.2.2; rw [ex_dist] at this; norm_num [abs_le] at this
    have n31 : ¬ exG.hasEdge ![2] ![1] := fun h => n13 (hasEdge_symm.1 h)
    have nn : ∀ x, ¬ exG.hasEdge x x := fun x h => (goodGraph_edge hg h).2.2 rfl
    have e21 := hasEdge_symm.1 ex_edge12
    have e32 := hasEdge_symm.1 ex_edge23
    have hne : (![1] : Vec 1) ≠ ![2] := fun h => by have := congrFun h 0; norm_num at this
    refine ⟨![1], by simp [strip, exG, createGraph], ![2], by simp [strip, exG, createGraph], hne, ?_, ?_, ?_⟩
    · rw [hc]; simp [nn, ex_edge12, n13]
    · rw [hc]; simp [nn, n31, e32]
    · intro x hx h1 h2
      have hx : x ∈ [![1], ![1.5], (![2] : Vec 1)] := hx
      simp only [List.mem_cons, List.not_mem_nil, or_false] at hx
      rcases hx with rfl | rfl | rfl
      · exact absurd rfl h1
      · rw [hc]; simp [nn, e21, ex_edge23]
      · exact absurd rfl h2
  obtain ⟨p, hp, hm, -⟩ := C66_one_path hgs hconn (by simp [strip, exG, createGraph]) (.inl hopen) (fun _ _ _ ⟨_, h, _⟩ => by cases h) h
  exact ⟨n, paths, h, p, hp, hm⟩

end NF
