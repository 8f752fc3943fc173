import Verif.Spec.Plot
import Verif.Props.PlotPaths
import Verif.Props.Identify
import Verif.Props.EndToEnd
import Verif.Props.Setup

/-!
# C80, C81: what the plots show
-/

noncomputable section
open Classical

namespace NF
variable {d : ℕ}
open Spec NxGraph

/-! ## Lemmas -/

theorem combinations2_map {α β : Type} (f : α → β) (l : List α) : combinations2 (l.map f) = (combinations2 l).map fun p => (f p.1, f p.2) := by
  induction l with
  | nil => rfl
  | cons x xs ih => simp [combinations2, ih, Function.comp_def]

theorem mem_combinations2 {α : Type} [LinearOrder α] {l : List α} (h : l.Pairwise (· < ·)) {p : α × α} : p ∈ combinations2 l ↔ p.1 ∈ l ∧ p.2 ∈ l ∧ p.1 < p.2 := by
  induction l with
  | nil => simp [combinations2]
  | cons x xs ih =>
    rw [List.pairwise_cons] at h
    obtain ⟨a, b⟩ := p
    simp only [combinations2, List.mem_append, List.mem_map, Prod.mk.injEq, List.mem_cons, ih h.2]
    constructor
    · rintro (⟨y, hy, rfl, rfl⟩ | ⟨h1, h2, h3⟩)
      · exact ⟨.inl rfl, .inr hy, h.1 y hy⟩
      · exact ⟨.inr h1, .inr h2, h3⟩
    · rintro ⟨rfl | h1, rfl | h2, h3⟩
      · exact absurd h3 (lt_irrefl _)
      · exact .inl ⟨b, h2, rfl, rfl⟩
      · exact absurd (h.1 a h1) (not_lt.2 h3.le)
      · exact .inr ⟨h1, h2, h3⟩

theorem nodup_combinations2 {α : Type} [LinearOrder α] {l : List α} (h : l.Pairwise (· < ·)) : (combinations2 l).Nodup := by
  induction l with
  | nil => simp [combinations2]
  | cons x xs ih =>
    have h' := List.pairwise_cons.1 h
    rw [combinations2, List.nodup_append]
    refine ⟨?_, ih h'.2, ?_⟩
    · exact (h'.2.imp fun h => h.ne).map _ fun a b hab e => hab (by simpa using e)
    · rintro ⟨a, b⟩ h1 ⟨a', b'⟩ h2 e
      cases e
      simp only [List.mem_map, Prod.mk.injEq] at h1
      obtain ⟨y, -, rfl, rfl⟩ := h1
      exact absurd (h'.1 _ ((mem_combinations2 h'.2).1 h2).1) (lt_irrefl _)

theorem coordinates_transposed {ps : List (Vec d)} (h : ps ≠ []) : Coordinates (transposed ps) ps := by
  unfold transposed
  rw [if_neg h]
  exact ⟨by simp, fun i => by simp⟩

theorem transposed_eq_nil (hd : d ≠ 0) {ps : List (Vec d)} : transposed ps = [] ↔ ps = [] := by
  unfold transposed
  split
  · simp [*]
  · simp [*, List.ofFn_eq_nil_iff]

theorem drawsEdges_plotSimplex (settings : String) (s : List (Vec d)) : DrawsEdges (.settings settings) s (plotSimplex settings s) := by
  refine ⟨combinations2 (List.finRange s.length), nodup_combinations2 (List.pairwise_lt_finRange _), fun p => by simp [mem_combinations2 (List.pairwise_lt_finRange _)], ?_⟩
  have e : plotSimplex settings s = (combinations2 (List.finRange s.length)).map fun p => .line (transposed [s.get p.1, s.get p.2]) (.settings settings) := by
    have h := combinations2_map s.get (List.finRange s.length)
    rw [List.map_get_finRange] at h
    rw [plotSimplex, h, List.map_map]
    rfl
  rw [e, List.forall₂_map_right_iff]
  exact List.forall₂_same.2 fun p _ => ⟨_, rfl, coordinates_transposed (by simp)⟩

theorem setupPlot_ok (hd : d = 2 ∨ d = 3) (limits : Fin d → ℝ × ℝ) (axis : Option (Axes d)) :
    setupPlot limits axis = .ok (axis.isNone, { axis.getD (Axes.fresh d) with limits := some limits }) := by
  unfold setupPlot
  rw [if_pos hd.symm]

theorem setupPlot_error (hd : ¬ (d = 2 ∨ d = 3)) (limits : Fin d → ℝ × ℝ) (axis : Option (Axes d)) : setupPlot limits axis = .error .assertion := by
  unfold setupPlot
  rw [if_neg fun h => hd h.symm]

theorem plotted_draw (axis : Option (Axes d)) (limits : Fin d → ℝ × ℝ) (new : List Artist) :
    Plotted axis ⟨.ok axis.isNone, some (({ axis.getD (Axes.fresh d) with limits := some limits } : Axes d).draw new)⟩ limits new :=
  ⟨_, rfl, rfl, by cases axis <;> rfl⟩

/-! ## C80: the plots of the search -/

theorem collectPoints_eq2 (nodes : List (SRes 2)) : collectPoints false nodes = .ok ((nodes.map fun r => r.pos 0, nodes.map fun r => r.pos 1, []), nodes.map SRes.value) := by
  induction nodes using List.reverseRecOn with
  | nil => rfl
  | append_singleton rs r ih =>
    unfold collectPoints at ih ⊢
    rw [List.foldl_append, ih]
    simp

theorem collectPoints_eq3 (nodes : List (SRes 3)) :
    collectPoints true nodes = .ok ((nodes.map fun r => r.pos 0, nodes.map fun r => r.pos 1, nodes.map fun r => r.pos 2), nodes.map SRes.value) := by
  induction nodes using List.reverseRecOn with
  | nil => rfl
  | append_singleton rs r ih =>
    unfold collectPoints at ih ⊢
    rw [List.foldl_append, ih]
    simp

/-- **C80**, `search.plot.points`: in two or three dimensions, one dot for every node, coloured by its value, is added. -/
theorem C80_points (hd : d = 2 ∨ d = 3) (c : Container d) (axis : Option (Axes d)) :
    ∃ a, Plotted axis (plotPoints c axis) c.coord.limits [a] ∧ Dots a (c.nodes.values.map SRes.pos) (.values (c.nodes.values.map SRes.value)) := by
  unfold plotPoints
  rw [setupPlot_ok hd]
  rcases hd with rfl | rfl
  · have e : decide ((2 : ℕ) = 3) = false := rfl
    rw [e, collectPoints_eq2]
    refine ⟨_, plotted_draw _ _ _, _, rfl, by simp, fun i => ?_⟩
    fin_cases i <;> simp [Function.comp_def]
  · have e : decide ((3 : ℕ) = 3) = true := rfl
    rw [e, collectPoints_eq3]
    refine ⟨_, plotted_draw _ _ _, _, rfl, by simp, fun i => ?_⟩
    fin_cases i <;> simp [Function.comp_def]

/-- **C80**: in other dimensions every plot function raises an `AssertionError` and leaves the axes alone. -/
theorem C80_other_dimensions (hd : ¬ (d = 2 ∨ d = 3)) (c : Container d) (nodes : List (SRes d)) (ic : IdContainer d) (stencil : List (List (Vec d))) (hs : stencil.flatten ≠ []) (axis : Option (Axes d))
    (ls ss : String) (os : Option String) (sphere : Bool) :
    plotPoints c axis = ⟨.error .assertion, axis⟩ ∧ plotSimplices c nodes axis ls = ⟨.error .assertion, axis⟩ ∧ plotStencil stencil axis ls os sphere ss = ⟨.error .assertion, axis⟩ ∧
      ∀ out, PlotIdentified ic axis out ↔ out = ⟨.error .assertion, axis⟩ := by
  refine ⟨by simp [plotPoints, setupPlot_error hd], by simp [plotSimplices, setupPlot_error hd], ?_, fun out => ⟨fun h => ?_, fun h => ?_⟩⟩
  · obtain ⟨v, vs, e⟩ := List.exists_cons_of_ne_nil hs
    simp [plotStencil, stencilLimits, e, setupPlot_error hd]
  · cases h with
    | setup h => rw [setupPlot_error hd] at h; cases h; rfl
    | error h => rw [setupPlot_error hd] at h; cases h
    | ok h => rw [setupPlot_error hd] at h; cases h
  · subst h
    exact .setup (setupPlot_error hd _ _)

/-- **C80**: in a periodic search every node is inside of the limits of the plot. -/
theorem C80_nodes_visible (hd : 1 ≤ d) {p : CtlParams d} (hb : ProperBox p.coord) (hper : p.coord.periodic = true) {P : NMParams} {G : Vec d → FVal → Prop} {c : Ctl d}
    (h : ReachWith p (MinimizationOf P G) c) : Visible p.coord.limits (c.state.result.nodes.values.map SRes.pos) := by
  intro x hx i
  obtain ⟨r, hr, rfl⟩ := List.mem_map.1 hx
  have := (C45_nodes_sound hd hb h hr).2.2.1 hper i
  exact ⟨this.1, this.2.le⟩

/-- **C80**, `search.plot.simplices`: every edge of every simplex in the histories of the given nodes is drawn exactly once, in this order of the simplices. -/
theorem C80_simplices (hd : d = 2 ∨ d = 3) (c : Container d) (nodes : List (SRes d)) (axis : Option (Axes d)) (settings : String) :
    ∃ parts : List (List Artist), Plotted axis (plotSimplices c nodes axis settings) c.coord.limits parts.flatten ∧
      List.Forall₂ (fun (s : Fin (d + 1) → Vec d) as => DrawsEdges (.settings settings) (List.ofFn s) as) (nodes.flatMap SRes.simplexHistory) parts := by
  refine ⟨(nodes.flatMap SRes.simplexHistory).map fun s => plotSimplex settings (List.ofFn s), ?_, ?_⟩
  · unfold plotSimplices
    rw [setupPlot_ok hd]
    have e : ((nodes.flatMap SRes.simplexHistory).map fun s => plotSimplex settings (List.ofFn s)).flatten =
        nodes.flatMap fun node => node.simplexHistory.flatMap fun s => plotSimplex settings (List.ofFn s) := by
      rw [← List.flatMap_def, List.flatMap_assoc]
    rw [e]
    exact plotted_draw _ _ _
  · rw [List.forall₂_map_right_iff]
    exact List.forall₂_same.2 fun s _ => drawsEdges_plotSimplex settings _

theorem foldl_min_spec {α : Type} (f : α → ℝ) (l : List α) (m : ℝ) :
    (∀ w ∈ l, l.foldl (fun m w => min m (f w)) m ≤ f w) ∧ l.foldl (fun m w => min m (f w)) m ≤ m ∧ (l.foldl (fun m w => min m (f w)) m = m ∨ ∃ w ∈ l, l.foldl (fun m w => min m (f w)) m = f w) := by
  induction l generalizing m with
  | nil => simp
  | cons x xs ih =>
    obtain ⟨h1, h2, h3⟩ := ih (min m (f x))
    rw [List.foldl_cons]
    refine ⟨?_, h2.trans (min_le_left _ _), ?_⟩
    · intro w hw
      rcases List.mem_cons.1 hw with rfl | hw
      · exact h2.trans (min_le_right _ _)
      · exact h1 w hw
    · rcases h3 with h3 | ⟨w, hw, h3⟩
      · rcases min_choice m (f x) with h | h
        · exact .inl (h3.trans h)
        · exact .inr ⟨x, by simp, h3.trans h⟩
      · exact .inr ⟨w, by simp [hw], h3⟩

theorem foldl_max_spec {α : Type} (f : α → ℝ) (l : List α) (m : ℝ) :
    (∀ w ∈ l, f w ≤ l.foldl (fun m w => max m (f w)) m) ∧ m ≤ l.foldl (fun m w => max m (f w)) m ∧ (l.foldl (fun m w => max m (f w)) m = m ∨ ∃ w ∈ l, l.foldl (fun m w => max m (f w)) m = f w) := by
  induction l generalizing m with
  | nil => simp
  | cons x xs ih =>
    obtain ⟨h1, h2, h3⟩ := ih (max m (f x))
    rw [List.foldl_cons]
    refine ⟨?_, (le_max_left _ _).trans h2, ?_⟩
    · intro w hw
      rcases List.mem_cons.1 hw with rfl | hw
      · exact (le_max_right _ _).trans h2
      · exact h1 w hw
    · rcases h3 with h3 | ⟨w, hw, h3⟩
      · rcases max_choice m (f x) with h | h
        · exact .inl (h3.trans h)
        · exact .inr ⟨x, by simp, h3.trans h⟩
      · exact .inr ⟨w, by simp [hw], h3⟩

theorem linspace200_ne_nil (b : ℝ) : linspace200 b ≠ [] := List.ne_nil_of_length_pos (by rw [linspace200, List.length_map, List.length_range]; norm_num)

theorem drawsUnitSphere_plotSphere (d : ℕ) (settings : String) : DrawsUnitSphere d (.settings settings) (plotSphere d settings) := by
  constructor
  · rintro rfl
    refine ⟨_, (linspace200 (2 * Real.pi)).map fun t => ![Real.cos t, Real.sin t], by rw [plotSphere, if_pos rfl], ⟨_, rfl, by simp, fun i => ?_⟩, by simp [linspace200_ne_nil], ?_⟩
    · fin_cases i <;> simp [Function.comp_def]
    · intro p hp
      obtain ⟨t, -, rfl⟩ := List.mem_map.1 hp
      simp
  · rintro rfl
    refine ⟨(linspace200 (2 * Real.pi)).map fun p => (linspace200 Real.pi).map fun t => ![Real.cos p * Real.sin t, Real.sin p * Real.sin t, Real.cos t], ?_, by simp [linspace200_ne_nil], ?_⟩
    · rw [plotSphere, if_neg (by norm_num), if_pos rfl]
      simp [Function.comp_def, List.ofFn_succ]
    · intro row hrow
      obtain ⟨a, -, rfl⟩ := List.mem_map.1 hrow
      refine ⟨by simp [linspace200_ne_nil], fun p hp => ?_⟩
      obtain ⟨b, -, rfl⟩ := List.mem_map.1 hp
      have h1 := Real.cos_sq_add_sin_sq a
      have h2 := Real.cos_sq_add_sin_sq b
      simp only [Fin.sum_univ_three, Matrix.cons_val_zero, Matrix.cons_val_one, Matrix.cons_val]
      linear_combination h1 * Real.sin b ^ 2 + h2

/-- **C80**, `search.plot.stencil`: every edge of every simplex is drawn exactly once, then a dot at the origin unless switched off, then, unless switched off, points of the unit circle or sphere;
the limits of the plot are exactly the range of the coordinates of the vertices (so all of the simplices are visible). -/
theorem C80_stencil (hd : d = 2 ∨ d = 3) {stencil : List (List (Vec d))} (hs : stencil.flatten ≠ []) (axis : Option (Axes d)) (ls ss : String) (os : Option String) (sphere : Bool) :
    ∃ (limits : Fin d → ℝ × ℝ) (parts : List (List Artist)) (origin ball : List Artist),
      Plotted axis (plotStencil stencil axis ls os sphere ss) limits (parts.flatten ++ origin ++ ball) ∧
      List.Forall₂ (fun s as => DrawsEdges (.settings ls) s as) stencil parts ∧
      Visible limits stencil.flatten ∧ (∀ i, (∃ v ∈ stencil.flatten, v i = (limits i).1) ∧ ∃ v ∈ stencil.flatten, v i = (limits i).2) ∧
      (os = none → origin = []) ∧ (∀ s, os = some s → ∃ a, origin = [a] ∧ Dots a [(0 : Vec d)] (.settings s)) ∧
      (sphere = false → ball = []) ∧ (sphere = true → DrawsUnitSphere d (.settings ss) ball) := by
  obtain ⟨v, vs, e⟩ := List.exists_cons_of_ne_nil hs
  have hl : stencilLimits stencil = .ok fun i => (vs.foldl (fun m w => min m (w i)) (v i), vs.foldl (fun m w => max m (w i)) (v i)) := by
    unfold stencilLimits
    rw [e]
  refine ⟨fun i => (vs.foldl (fun m w => min m (w i)) (v i), vs.foldl (fun m w => max m (w i)) (v i)), stencil.map (plotSimplex ls), (match os with | some s => [.scatter (List.ofFn fun _ : Fin d => [0]) (.settings s)] | none => []), (if sphere then plotSphere d ss else []), ?_, ?_, ?_, ?_, ?_, ?_, ?_, ?_⟩
  · unfold plotStencil
    rw [hl]
    simp only [setupPlot_ok hd]
    rw [← List.flatMap_def]
    refine ⟨_, rfl, ?_⟩
    cases os <;> cases sphere <;> cases axis <;> simp [Axes.draw, Axes.fresh]
  · rw [List.forall₂_map_right_iff]
    exact List.forall₂_same.2 fun s _ => drawsEdges_plotSimplex ls s
  · intro p hp i
    rw [e] at hp
    have h1 := foldl_min_spec (fun w : Vec d => w i) vs (v i)
    have h2 := foldl_max_spec (fun w : Vec d => w i) vs (v i)
    rcases List.mem_cons.1 hp with rfl | hp
    · exact ⟨h1.2.1, h2.2.1⟩
    · exact ⟨h1.1 p hp, h2.1 p hp⟩
  · intro i
    have h1 := foldl_min_spec (fun w : Vec d => w i) vs (v i)
    have h2 := foldl_max_spec (fun w : Vec d => w i) vs (v i)
    rw [e]
    constructor
    · rcases h1.2.2 with h | ⟨w, hw, h⟩
      · exact ⟨v, by simp, h.symm⟩
      · exact ⟨w, by simp [hw], h.symm⟩
    · rcases h2.2.2 with h | ⟨w, hw, h⟩
      · exact ⟨v, by simp, h.symm⟩
      · exact ⟨w, by simp [hw], h.symm⟩
  · rintro rfl; rfl
  · rintro s rfl
    exact ⟨_, rfl, _, rfl, by simp, fun i => by simp⟩
  · rintro rfl; rfl
  · rintro rfl; exact drawsUnitSphere_plotSphere d ss

/-! ## C81: the plot of the identified objects -/

theorem edgesOnce_of_listsEdges {g : NxGraph (Vec d) Unit} (hg : GoodGraph g) {fs : ℝ} {es : List (Vec d × Vec d)} (h : ListsEdges (shortGraph (some fs) g) es) : EdgesOnce (ShortEdges fs g) es := by
  obtain ⟨l, hp, hf⟩ := h
  have hmem : ∀ e ∈ l, e ∈ g.edges ∧ ¬ LongEdge (some fs) e.1 e.2.1 := fun e he => by
    have := hp.mem_iff.1 he
    simpa [shortGraph] using this
  have hlong : ∀ x y : Vec d, LongEdge (some fs) x y ↔ LongEdge (some fs) y x := fun x y => by
    unfold LongEdge
    have : ∑ i, (x i - y i) ^ 2 = ∑ i, (y i - x i) ^ 2 := Finset.sum_congr rfl fun i _ => by ring
    rw [this]
  refine ⟨fun p hpe => ?_, fun x y hxy => ?_, ?_⟩
  · obtain ⟨k, hk, rfl⟩ := List.getElem_of_mem hpe
    have hk' : k < l.length := by rw [hf.length_eq]; exact hk
    have h1 := hmem _ (List.getElem_mem hk')
    rcases (List.forall₂_iff_get.1 hf).2 k hk' hk with h2 | h2
    · simp only [List.get_eq_getElem] at h2
      rw [h2]
      exact ⟨⟨_, h1.1, .inl ⟨rfl, rfl⟩⟩, h1.2⟩
    · simp only [List.get_eq_getElem] at h2
      rw [h2]
      exact ⟨⟨_, h1.1, .inr ⟨rfl, rfl⟩⟩, fun h => h1.2 ((hlong _ _).1 h)⟩
  · obtain ⟨⟨e, he, hj⟩, hl⟩ := hxy
    have hel : e ∈ l := hp.mem_iff.2 (by
      simp only [shortGraph, List.mem_filter, decide_eq_true_eq]
      refine ⟨he, ?_⟩
      rcases hj with ⟨rfl, rfl⟩ | ⟨rfl, rfl⟩
      · exact hl
      · exact fun h => hl ((hlong _ _).1 h))
    obtain ⟨k, hk, rfl⟩ := List.getElem_of_mem hel
    have hk' : k < es.length := by rw [← hf.length_eq]; exact hk
    have h2 := (List.forall₂_iff_get.1 hf).2 k hk hk'
    simp only [List.get_eq_getElem] at h2
    have h3 : es[k] = (x, y) ∨ es[k] = (y, x) := by
      rcases hj with ⟨h1, h2'⟩ | ⟨h1, h2'⟩ <;> rcases h2 with h2 | h2 <;> rw [h2, h1, h2'] <;> simp
    rcases h3 with h3 | h3
    · exact .inl (h3 ▸ List.getElem_mem hk')
    · exact .inr (h3 ▸ List.getElem_mem hk')
  · have hs : l.Pairwise fun e f => ¬ joins f e.1 e.2.1 := by
      have hsub : (shortGraph (some fs) g).edges.Pairwise fun e f => ¬ joins f e.1 e.2.1 := hg.single.sublist List.filter_sublist
      refine (hp.symm.pairwise_iff ?_).1 hsub
      rintro e f h (⟨h1, h2⟩ | ⟨h1, h2⟩)
      · exact h (.inl ⟨h1.symm, h2.symm⟩)
      · exact h (.inr ⟨h2.symm, h1.symm⟩)
    rw [List.pairwise_iff_getElem] at hs ⊢
    intro i j hi hj hij
    have hi' : i < l.length := by rw [hf.length_eq]; exact hi
    have hj' : j < l.length := by rw [hf.length_eq]; exact hj
    have h0 := hs i j hi' hj' hij
    have h1 := (List.forall₂_iff_get.1 hf).2 i hi' hi
    have h2 := (List.forall₂_iff_get.1 hf).2 j hj' hj
    simp only [List.get_eq_getElem] at h1 h2
    intro hc
    apply h0
    rcases h1 with h1 | h1 <;> rcases h2 with h2 | h2 <;> rw [h1, h2] at hc <;> simp only [Prod.mk.injEq] at hc <;> rcases hc with ⟨a, b⟩ | ⟨a, b⟩ <;>
      first | exact .inl ⟨a, b⟩ | exact .inr ⟨a, b⟩ | exact .inl ⟨b, a⟩ | exact .inr ⟨b, a⟩

/-- The paths run through nodes of the graph. -/
theorem paths_nodes {fs : Option ℝ} {g : NxGraph (Vec d) Unit} (hg : GoodGraph g) {n : ℕ} {s : PState d} (h : PRun fs g n s) : ∀ p ∈ s.all, ∀ x ∈ p, x ∈ g.nodes := by
  induction h with
  | init => simp [PState.all]
  | step h0 hst ih =>
    obtain ⟨hgood, -, -, hn, -⟩ := pInv_run hg h0
    cases hst with
    | finish => exact ih
    | start he hs =>
      have hn : _ = g.nodes := hn.resolve_right fun ⟨_, h⟩ => by cases h
      intro p hp x hx
      rcases List.mem_append.1 hp with hp | hp
      · exact ih p hp x hx
      · rw [List.mem_singleton] at hp
        subst hp
        rw [List.mem_singleton] at hx
        subst hx
        rw [← hn]
        exact hs.1
    | stop => exact ih
    | cut hy =>
      have hn : _ = g.nodes := hn.resolve_right fun ⟨_, h⟩ => by cases h
      intro p hp x hx
      rcases List.mem_append.1 hp with hp | hp
      · exact ih p hp x hx
      · rw [List.mem_singleton] at hp
        subst hp
        rw [List.mem_singleton] at hx
        subst hx
        rw [← hn]
        exact (goodGraph_edge hgood (mem_neighbors.1 hy)).2.1
    | extend hy =>
      have hn : _ = g.nodes := hn.resolve_right fun ⟨_, h⟩ => by cases h
      intro p hp x hx
      rcases List.mem_append.1 hp with hp | hp
      · exact ih p (List.mem_append_left _ hp) x hx
      · rw [List.mem_singleton] at hp
        subst hp
        rcases List.mem_append.1 hx with hx | hx
        · exact ih _ (by simp [PState.all]) x hx
        · rw [List.mem_singleton] at hx
          subst hx
          rw [← hn]
          exact (goodGraph_edge hgood (mem_neighbors.1 hy)).2.1

theorem dots_positions (hd : d ≠ 0) {ps : List (Vec d)} (h : ps ≠ []) (k : ℕ) : ∃ a, plotPositions ps k = .ok [a] ∧ Dots a ps (.cycle k) := by
  unfold plotPositions
  rw [if_neg fun he => h ((transposed_eq_nil hd).1 he)]
  exact ⟨_, rfl, _, rfl, coordinates_transposed h⟩

/-- An object which is not empty can be drawn, and all of it is drawn. -/
theorem plotObject_spec (hd : d ≠ 0) {r : IdResult d} (hr : Drawable r) (fs : ℝ) (k : ℕ) :
    (∃ out, PlotObject (some fs) k r out) ∧ ∀ out, PlotObject (some fs) k r out → ∃ l, out = .ok l ∧ DrawsObject fs (.cycle k) r l := by
  obtain ⟨positions, dimension, shape⟩ := r
  unfold PlotObject DrawsObject
  rcases shape with _ | p | l
  · obtain ⟨a, h1, h2⟩ := dots_positions hd hr.1 k
    exact ⟨⟨_, rfl⟩, fun out h => ⟨[a], h.trans h1, a, rfl, h2⟩⟩
  · refine ⟨⟨_, .point⟩, fun out h => ?_⟩
    cases h
    exact ⟨_, rfl, _, rfl, _, rfl, by simp, fun i => by simp⟩
  · obtain ⟨hg, hne⟩ := hr.2 l rfl
    obtain ⟨⟨r, h⟩, hall⟩ := C66_plot hg (some fs)
    constructor
    · cases r with
      | lines paths => exact ⟨_, .lines h⟩
      | points ps => exact ⟨_, .points h⟩
    · intro out h
      cases h with
      | @lines l paths h =>
        obtain ⟨h1, h2⟩ := hall _ h
        have he : l.graph.edges ≠ [] := fun he => by have := h1 he; cases this
        obtain ⟨paths', e, hl⟩ := h2 he
        cases e
        refine ⟨_, rfl, ?_⟩
        simp only [if_neg he]
        obtain ⟨n, paths', hrun, hp'⟩ := h
        have : paths' = paths := by
          split at hp'
          · cases hp'
          · cases hp'; rfl
        subst this
        refine ⟨paths', ?_, edgesOnce_of_listsEdges hg hl, paths_nodes hg hrun⟩
        rw [List.forall₂_map_left_iff]
        refine List.forall₂_same.2 fun p hp => ⟨_, rfl, coordinates_transposed ?_⟩
        exact ((C66_paths hg (some fs)).2.2 n _ hrun).2 p hp
      | points h =>
        obtain ⟨h1, h2⟩ := hall _ h
        by_cases he : l.graph.edges = []
        · have := h1 he
          cases this
          obtain ⟨a, h3, h4⟩ := dots_positions hd hne k
          refine ⟨[a], h3, ?_⟩
          simp only [if_pos he]
          exact ⟨a, rfl, h4⟩
        · obtain ⟨_, e, -⟩ := h2 he
          cases e

theorem plotLoop_spec (hd : d ≠ 0) {rs : List (IdResult d)} (hr : ∀ r ∈ rs, Drawable r) (fs : ℝ) (a : Axes d) :
    (∃ out a', PlotLoop (some fs) rs a out a') ∧ ∀ out a', PlotLoop (some fs) rs a out a' → out = .ok () ∧ a'.limits = a.limits ∧ ∃ parts : List (List Artist), a'.artists = a.artists ++ parts.flatten ∧
      parts.length = rs.length ∧ ∀ i (h1 : i < rs.length) (h2 : i < parts.length), DrawsObject fs (.cycle ((a.nextColour + i) % a.cycleLength)) rs[i] parts[i] := by
  induction rs generalizing a with
  | nil =>
    refine ⟨⟨_, _, .nil⟩, fun out a' h => ?_⟩
    cases h
    exact ⟨rfl, rfl, [], by simp, rfl, fun i h1 => absurd h1 (by simp)⟩
  | cons r rs ih =>
    obtain ⟨⟨o, ho⟩, hall⟩ := plotObject_spec hd (hr r (by simp)) fs a.takeColour.1
    constructor
    · obtain ⟨l, rfl, -⟩ := hall o ho
      obtain ⟨⟨out, a', h⟩, -⟩ := ih (fun r hr' => hr r (by simp [hr'])) (a.takeColour.2.draw l)
      exact ⟨_, _, .cons ho h⟩
    · intro out a' h
      cases h with
      | error h => obtain ⟨l, h', -⟩ := hall _ h; cases h'
      | @cons _ _ l _ _ _ h0 h =>
        obtain ⟨l', h', hdraw⟩ := hall _ h0
        cases h'
        obtain ⟨h1, h2, parts, h3, h4, h5⟩ := (ih (fun r hr' => hr r (by simp [hr'])) _).2 _ _ h
        refine ⟨h1, h2, l :: parts, ?_, by simp [h4], ?_⟩
        · rw [h3]; simp [Axes.draw, Axes.takeColour]
        · intro i hi1 hi2
          cases i with
          | zero => exact hdraw
          | succ i =>
            have := h5 i (by simpa using hi1) (by simpa using hi2)
            simpa [Axes.draw, Axes.takeColour, Nat.add_assoc, Nat.add_comm 1 i] using this

/-- **C81**: in two or three dimensions, `identify.plot.result` draws every object completely, each in the next colour of the cycle. -/
theorem C81_result (hd : d = 2 ∨ d = 3) {c : IdContainer d} (hc : ∀ r ∈ c.results, Drawable r) (axis : Option (Axes d)) :
    (∃ out, PlotIdentified c axis out) ∧ ∀ out, PlotIdentified c axis out → ∃ parts : List (List Artist), Plotted axis out c.coord.limits parts.flatten ∧ parts.length = c.results.length ∧
      ∀ i (h1 : i < c.results.length) (h2 : i < parts.length),
        DrawsObject c.featureSize (.cycle ((match axis with | none => i % 10 | some ax => (ax.nextColour + i) % ax.cycleLength))) c.results[i] parts[i] := by
  have hd0 : d ≠ 0 := by omega
  have hs := setupPlot_ok hd c.coord.limits axis
  obtain ⟨⟨out, a', h⟩, hall⟩ := plotLoop_spec hd0 hc c.featureSize { axis.getD (Axes.fresh d) with limits := some c.coord.limits }
  constructor
  · have := (hall _ _ h).1
    subst this
    exact ⟨_, .ok hs h⟩
  · intro out h
    cases h with
    | setup h => rw [hs] at h; cases h
    | error h h' => rw [hs] at h; cases h; have := (hall _ _ h').1; cases this
    | ok h h' =>
      rw [hs] at h
      cases h
      obtain ⟨-, h2, parts, h3, h4, h5⟩ := hall _ _ h'
      refine ⟨parts, ⟨_, rfl, h2, ?_⟩, h4, ?_⟩
      · rw [h3]; cases axis <;> rfl
      · intro i h1 h2
        have := h5 i h1 h2
        cases axis with
        | none => simpa [Axes.fresh] using this
        | some ax => exact this

/-- The results of the identification can be drawn. -/
theorem drawable_identified {cs : CoordSys d} (hb : ProperBox cs) {fs : ℝ} (hfs : 0 < fs) {positions : List (Vec d)} {method : String} {out : IdContainer d}
    (h : RunFromPositions positions cs fs method (.ok out)) : ∀ r ∈ out.results, Drawable r := by
  have hI := C65_results hb hfs h
  intro r hr
  refine ⟨(hI.given r hr).1, fun l hl => ?_⟩
  have hdim : r.dimension = some 1 := by
    by_contra h1
    by_cases h0 : r.dimension = some 0
    · obtain ⟨p, hp, -⟩ := hI.point r hr h0
      rw [hp] at hl; cases hl
    · rw [hI.other r hr h0 h1] at hl; cases hl
  obtain ⟨l', e, ht⟩ := hI.line r hr hdim _ hl
  cases e
  refine ⟨ht.simple, fun hn => ?_⟩
  obtain ⟨x, hx⟩ := List.exists_mem_of_ne_nil _ (hI.given r hr).1
  rcases ht.covers x hx with h | ⟨y, h, -⟩ <;> rw [hn] at h <;> cases h

/-- **C81**: whatever `identify.run_from_positions` returns (in two or three dimensions) can be plotted without an exception, and every identified object is then drawn completely. -/
theorem C81_identified (hd : d = 2 ∨ d = 3) {cs : CoordSys d} (hb : ProperBox cs) {fs : ℝ} (hfs : 0 < fs) {positions : List (Vec d)} {method : String} {c : IdContainer d}
    (h : RunFromPositions positions cs fs method (.ok c)) :
    (∃ out, PlotIdentified c none out) ∧ ∀ out, PlotIdentified c none out → ∃ parts : List (List Artist), Plotted none out cs.limits parts.flatten ∧ parts.length = c.results.length ∧
      ∀ i (h1 : i < c.results.length) (h2 : i < parts.length), DrawsObject fs (.cycle (i % 10)) c.results[i] parts[i] := by
  obtain ⟨h1, h2⟩ := C81_result hd (drawable_identified hb hfs h) none
  have hI := C65_results hb hfs h
  refine ⟨h1, fun out ho => ?_⟩
  obtain ⟨parts, h3, h4, h5⟩ := h2 out ho
  rw [hI.coord] at h3
  rw [hI.featureSize] at h5
  exact ⟨parts, h3, h4, h5⟩

theorem coordinates_unique {coords : List (List ℝ)} (hd : d ≠ 0) {ps qs : List (Vec d)} (h1 : Coordinates coords ps) (h2 : Coordinates coords qs) : ps = qs := by
  have h : ∀ i : Fin d, (ps.map fun p => p i) = qs.map fun p => p i := fun i => Option.some.inj ((h1.2 i).symm.trans (h2.2 i))
  have hl : ps.length = qs.length := by simpa using congrArg List.length (h ⟨0, Nat.pos_of_ne_zero hd⟩)
  refine List.ext_getElem hl fun k hk1 hk2 => ?_
  funext i
  have := congrArg (fun l => l[k]?) (h i)
  simpa [hk1, hk2] using this

theorem showsPoint_dots (hd : d ≠ 0) {a : Artist} {ps : List (Vec d)} {ink : Ink} (h : Dots a ps ink) {p : Vec d} (hp : ShowsPoint a p) : p ∈ ps := by
  obtain ⟨c, rfl, hc⟩ := h
  obtain ⟨qs, ink', ⟨c', e, hc'⟩ | ⟨c', e, hc'⟩, hm⟩ := hp
  · cases e; rw [coordinates_unique hd hc hc']; exact hm
  · cases e

theorem showsPoint_polyline (hd : d ≠ 0) {a : Artist} {ps : List (Vec d)} {ink : Ink} (h : Polyline a ps ink) {p : Vec d} (hp : ShowsPoint a p) : p ∈ ps := by
  obtain ⟨c, rfl, hc⟩ := h
  obtain ⟨qs, ink', ⟨c', e, hc'⟩ | ⟨c', e, hc'⟩, hm⟩ := hp
  · cases e
  · cases e; rw [coordinates_unique hd hc hc']; exact hm

theorem average_in_limits {cs : CoordSys d} (hb : ProperBox cs) (hz : cs.periodic = true → ∀ i, cs.lower i = 0) {ps : List (Vec d)} (h : Visible cs.limits ps) {a : Vec d} (ha : cs.average ps = .ok a) :
    Visible cs.limits [a] := by
  intro p hp i
  rw [List.mem_singleton] at hp
  subst hp
  have hne : ps ≠ [] := by rintro rfl; cases ha
  cases hper : cs.periodic with
  | true =>
    obtain ⟨o, os, rfl⟩ := List.exists_cons_of_ne_nil hne
    simp only [CoordSys.average, hper, if_true, Except.ok.injEq] at ha
    rw [← ha]
    have hs : 0 < cs.size i := by unfold CoordSys.size; linarith [hb i]
    have h0 := hz hper i
    simp only [CoordSys.limits, h0]
    refine ⟨pmod_nonneg hs _, (pmod_lt hs _).le.trans ?_⟩
    unfold CoordSys.size
    rw [h0]; simp
  | false =>
    obtain ⟨h1, -, h2⟩ := C06_average_nonperiodic cs hper ps hne
    rw [h1] at ha
    cases ha
    exact h2 i _ _ fun p hp => h p hp i

/-- **C81**: if the positions are inside of the limits, then all that is drawn for a line or for a cluster without a shape is inside of the limits of the plot; so is a point, unless the space is periodic and a lower limit is
not zero (`C81_point_outside`). -/
theorem C81_visible (hd : d = 2 ∨ d = 3) {cs : CoordSys d} (hb : ProperBox cs) {fs : ℝ} (hfs : 0 < fs) {positions : List (Vec d)} {method : String} {c : IdContainer d}
    (h : RunFromPositions positions cs fs method (.ok c)) (hv : Visible cs.limits positions) {r : IdResult d} (hr : r ∈ c.results)
    (hp : (∃ p, r.shape = some (.point p)) → cs.periodic = true → ∀ i, cs.lower i = 0) {ink : Ink} {as : List Artist} (hdraw : DrawsObject fs ink r as) :
    ∀ a ∈ as, ∀ x : Vec d, ShowsPoint a x → Visible cs.limits [x] := by
  have hd0 : d ≠ 0 := by omega
  have hI := C65_results hb hfs h
  have hg := hI.given r hr
  have hvr : ∀ x ∈ r.positions, Visible cs.limits [x] := fun x hx p hp => by
    rw [List.mem_singleton] at hp; subst hp; exact hv _ (hg.2.2 _ hx)
  have hdim : ∀ s, r.shape = some s → (r.dimension = some 0 ∧ ∃ p, s = .point p ∧ cs.average r.positions = .ok p) ∨ ∃ l, s = .line l ∧ LineThrough cs fs r.positions l := by
    intro s hs
    by_cases h0 : r.dimension = some 0
    · obtain ⟨p, hp, ha⟩ := hI.point r hr h0
      rw [hp] at hs; cases hs
      exact .inl ⟨h0, p, rfl, ha⟩
    · by_cases h1 : r.dimension = some 1
      · exact .inr (hI.line r hr h1 s hs)
      · rw [hI.other r hr h0 h1] at hs; cases hs
  intro a ha x hx
  unfold DrawsObject at hdraw
  rcases hs : r.shape with _ | p | l
  · rw [hs] at hdraw
    obtain ⟨a', rfl, hdots⟩ := hdraw
    rw [List.mem_singleton] at ha; subst ha
    exact hvr x (showsPoint_dots hd0 hdots hx)
  · rw [hs] at hdraw
    obtain ⟨a', rfl, hdots⟩ := hdraw
    rw [List.mem_singleton] at ha; subst ha
    have hx := showsPoint_dots hd0 hdots hx
    rw [List.mem_singleton] at hx; subst hx
    rcases hdim _ hs with ⟨-, p, e, hav⟩ | ⟨_, e, -⟩
    · cases e
      exact average_in_limits hb (hp ⟨_, hs⟩) (fun y hy => hv y (hg.2.2 y hy)) hav
    · cases e
  · rw [hs] at hdraw
    rcases hdim _ hs with ⟨-, p, e, -⟩ | ⟨l', e, hl⟩
    · cases e
    cases e
    simp only at hdraw
    split at hdraw
    · obtain ⟨a', rfl, hdots⟩ := hdraw
      rw [List.mem_singleton] at ha; subst ha
      exact hvr x (hl.nodes x (showsPoint_dots hd0 hdots hx))
    · obtain ⟨paths, hf, -, hn⟩ := hdraw
      obtain ⟨k, hk, rfl⟩ := List.getElem_of_mem ha
      have hk' : k < paths.length := by rw [← hf.length_eq]; exact hk
      have := (List.forall₂_iff_get.1 hf).2 k hk hk'
      have hx := showsPoint_polyline hd0 this hx
      exact hvr x (hl.nodes x (hn _ (List.get_mem _ _) x hx))

theorem segmentsOf_eq_nil {α : Type} {p : List α} (h : segmentsOf p = []) : p.length ≤ 1 := by
  match p with
  | [] => simp
  | [_] => simp
  | x :: y :: l => simp [segmentsOf] at h

/-- **C81**, what cutting the lines at the boundary costs: if all the edges of a line are long (they cross the boundary), then only lines through a single point are drawn for it, which show nothing. -/
theorem C81_wrapping_line {fs : ℝ} {ink : Ink} {r : IdResult d} {as : List Artist} (h : DrawsObject fs ink r as) {l : NodalLine (Vec d)} (hl : r.shape = some (.line l)) (he : l.graph.edges ≠ [])
    (hlong : ∀ x y, l.graph.hasEdge x y → LongEdge (some fs) x y) : ∀ a ∈ as, ∃ p : List (Vec d), p.length ≤ 1 ∧ Polyline a p ink := by
  unfold DrawsObject at h
  rw [hl] at h
  simp only [if_neg he] at h
  obtain ⟨paths, hf, ⟨h1, -, -⟩, -⟩ := h
  intro a ha
  obtain ⟨k, hk, rfl⟩ := List.getElem_of_mem ha
  have hk' : k < paths.length := by rw [← hf.length_eq]; exact hk
  refine ⟨_, segmentsOf_eq_nil (List.eq_nil_iff_forall_not_mem.2 fun e hm => ?_), (List.forall₂_iff_get.1 hf).2 k hk hk'⟩
  have := h1 e (List.mem_flatMap.2 ⟨_, List.get_mem _ _, hm⟩)
  exact this.2 (hlong _ _ this.1)

/-- **C81**, the exception: in the periodic box `[-1, 1]²` the single position `(-1/2, -1/2)`, which is inside of the limits, is identified as a point which is drawn at `(3/2, 3/2)`, outside of them. -/
theorem C81_point_outside : ∃ (cs : CoordSys 2) (x : Vec 2) (c : IdContainer 2) (a : Artist) (ax : Axes 2), ProperBox cs ∧ InBox cs x ∧ RunFromPositions [x] cs 1 "ballistic" (.ok c) ∧
    PlotIdentified c none ⟨.ok true, some ax⟩ ∧ ax.limits = some cs.limits ∧ ax.artists = [a] ∧ ShowsPoint a (![3 / 2, 3 / 2] : Vec 2) ∧ ¬ Visible cs.limits [(![3 / 2, 3 / 2] : Vec 2)] := by
  have hb : ProperBox (CoordSys.ofLimits ![(-1, 1), (-1, 1)] true) := by
    intro i; fin_cases i <;> norm_num [CoordSys.ofLimits]
  have hx : InBox (CoordSys.ofLimits ![(-1, 1), (-1, 1)] true) ![-1 / 2, -1 / 2] := by
    intro i; fin_cases i <;> norm_num [CoordSys.ofLimits]
  obtain ⟨⟨r, hr⟩, hall⟩ := C65_never_raises hb (fs := 1) (by norm_num) [(![-1 / 2, -1 / 2] : Vec 2)] (method := "ballistic") (.inl rfl)
  obtain ⟨c, rfl, -⟩ := hall r hr
  have hI := C65_results hb (by norm_num) hr
  have hlen : c.results.length = 1 := by
    obtain ⟨i, -, hu⟩ := hI.once ![-1 / 2, -1 / 2] (by simp)
    have : ∀ j, j = i := fun j => hu j (by
      have hg := hI.given _ (List.get_mem c.results j)
      obtain ⟨y, hy⟩ := List.exists_mem_of_ne_nil _ hg.1
      have := hg.2.2 y hy
      rw [List.mem_singleton] at this
      rw [← this]; exact hy)
    have hc : Fintype.card (Fin c.results.length) = 1 := Fintype.card_eq_one_iff.2 ⟨i, this⟩
    simpa using hc
  obtain ⟨r0, e⟩ := List.length_eq_one_iff.1 hlen
  obtain ⟨r1, h1, hp1, h2, p, h3, -⟩ := C57_isolated_point hb (by norm_num) hr (x := ![-1 / 2, -1 / 2]) (by simp) (fun y hy hne => absurd (by simpa using hy) hne)
  rw [e, List.mem_singleton] at h1
  subst h1
  obtain ⟨p', h4, h5⟩ := hI.point r1 (by simp [e]) h2
  rw [h3] at h4
  cases h4
  have hp : p = ![3 / 2, 3 / 2] := by
    rw [hp1] at h5
    simp only [CoordSys.average, CoordSys.ofLimits, if_true, Except.ok.injEq] at h5
    rw [← h5]
    funext i
    fin_cases i <;> norm_num [CoordSys.mean, CoordSys.connectingVector, CoordSys.size, pmod]
  subst hp
  obtain ⟨⟨out, ho⟩, hpl⟩ := C81_identified (.inl rfl) hb (by norm_num) hr
  obtain ⟨parts, ⟨ax, rfl, hl, ha⟩, hlen', hdr⟩ := hpl out ho
  rw [hlen] at hlen'
  obtain ⟨as, rfl⟩ := List.length_eq_one_iff.1 hlen'
  have := hdr 0 (by omega) (by simp)
  simp only [e, List.getElem_cons_zero, DrawsObject, h3] at this
  obtain ⟨a, rfl, hdots⟩ := this
  refine ⟨_, ![-1 / 2, -1 / 2], c, a, ax, hb, hx, hr, ho, hl, by simpa using ha, ⟨_, _, .inl hdots, List.mem_singleton_self _⟩, fun hv => ?_⟩
  have := (hv _ (List.mem_singleton_self _) 0).2
  norm_num [CoordSys.limits, CoordSys.ofLimits] at this

/-! ### Examples -/

/-- The nodes of a state of the default search, plotted on axes where something has been drawn before: they are all shown, inside of the limits. -/
example : ∃ (p : CtlParams 3) (P : NMParams) (c : Ctl 3) (ax : Axes 3) (a : Artist), setup SearchArgs.defaults = .ok (p, P) ∧ ReachWith p (MinimizationOf P fun _ v => v = FVal.ofReal 0) c ∧
    c.state.result.nodes.values ≠ [] ∧ ax.artists.length = 1 ∧ Plotted (some ax) (plotPoints c.state.result (some ax)) c.state.result.coord.limits [a] ∧
    Dots a (c.state.result.nodes.values.map SRes.pos) (.values (c.state.result.nodes.values.map SRes.value)) ∧ Visible p.coord.limits (c.state.result.nodes.values.map SRes.pos) := by
  obtain ⟨p, P, c, h1, h2, h3⟩ := C71Demo.default_reach
  obtain ⟨-, -, -, -, -, -, -, -, hlim, hper, -⟩ := C71_settings h1
  have hb : ProperBox p.coord := fun i => by
    rw [(hlim i).1, (hlim i).2]
    norm_num [SearchArgs.defaults]
  obtain ⟨a, h4, h5⟩ := C80_points (.inr rfl) c.state.result (some ⟨none, [.line [[0, 1], [0, 1], [0, 0]] (.cycle 0)], 10, 1⟩)
  exact ⟨p, P, c, _, a, h1, h2, h3, rfl, h4, h5, C80_nodes_visible (by norm_num) hb (by rw [hper]; rfl) h2⟩

/-- A stencil of one triangle: its three edges, and the origin, are drawn. -/
example : ∃ new, Plotted none (plotStencil [[![0, 0], ![1, 0], (![0, 1] : Vec 2)]] none "" (some "") false "") (fun _ => (0, 1)) new ∧ new.length = 4 := by
  refine ⟨_, ⟨_, rfl, ?_, by simp [Axes.draw, Axes.fresh]; rfl⟩, rfl⟩
  rw [if_neg (by simp)]
  show some _ = some _
  congr 1
  funext i
  fin_cases i <;> norm_num

end NF
