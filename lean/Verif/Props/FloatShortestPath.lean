import Verif.Lemmas.FloatShortestPath
import Verif.Props.FloatBallistic
import Verif.Props.ShortestPath

/-!
# C115: the shortest-path line evaluation in double precision

`FL.SPRun L rnd fs g n s` : some execution of the shortest-path method on the graph `g`, with rounding, is in the state `s` after `n` steps; `.done rg` means that it has returned `rg`, `.error e` that it has raised `e`.
-/

noncomputable section
open Classical

namespace NF
open Spec NxGraph
variable {V : Type} {d : ℕ} {L : FL.SPLib V} {rnd : ℝ → ℝ}

/-- **C115.**  Whatever the rounding, on a connected graph with at least one node the shortest-path method never raises (in particular its assertion holds), makes at most `n (22 n + 3)` steps and can always go on until it
returns; the returned graph is a connected, non-empty (simple) subgraph, and every node of the cluster is in it or adjacent to one of its nodes. -/
theorem C115_shortest_path (hL : SPAccurate L) {g : NxGraph V ℝ} (hg : GoodGraph g) (hconn : Connected g) (hne : g.nodes ≠ []) (fs : ℝ) :
    (∀ n s, FL.SPRun L rnd fs g n s → n ≤ g.nodes.length * (22 * g.nodes.length + 3) ∧ (∀ e, s ≠ .error e) ∧ ((∃ rg, s = .done rg) ∨ ∃ s', FL.SPStep L rnd s s')) ∧
    (∃ n rg, FL.SPRun L rnd fs g n (.done rg)) ∧
    ∀ n rg, FL.SPRun L rnd fs g n (.done rg) → GoodGraph rg ∧ SubgraphOf rg g ∧ Connected rg ∧ rg.nodes ≠ [] ∧ Dominates rg g := by
  have h1 : ∀ n s, FL.SPRun L rnd fs g n s → n ≤ g.nodes.length * (22 * g.nodes.length + 3) ∧ (∀ e, s ≠ .error e) ∧ ((∃ rg, s = .done rg) ∨ ∃ s', FL.SPStep L rnd s s') := by
    intro n s hr
    obtain ⟨hi, hm⟩ := flSpRun_inv hL hg hconn hne hr
    refine ⟨by omega, ?_, flSpStep_total hL hi⟩
    rintro e rfl; exact hi
  refine ⟨h1, ?_, fun n rg hr => (flSpRun_inv hL hg hconn hne hr).1⟩
  by_contra hno
  push Not at hno
  have hall : ∀ n, ∃ s, FL.SPRun L rnd fs g n s := by
    intro n
    induction n with
    | zero =>
      obtain ⟨x, hx⟩ := List.exists_mem_of_ne_nil _ hne
      exact ⟨_, .init (.first hx)⟩
    | succ n ih =>
      obtain ⟨s, hs⟩ := ih
      rcases (h1 n s hs).2.2 with ⟨rg, rfl⟩ | ⟨s', hs'⟩
      · exact absurd hs (hno n rg)
      · exact ⟨s', .step hs hs'⟩
  obtain ⟨s, hs⟩ := hall (g.nodes.length * (22 * g.nodes.length + 3) + 1)
  have := (h1 _ s hs).1
  omega

/-- The clusters that are found in double precision are not empty. -/
theorem isCluster_ne {cs : CoordSys d} {fs : ℝ} {positions : List (Vec d)} {dist : Vec d → Vec d → ℝ} {g : NxGraph (Vec d) ℝ} (h : IsCluster rnd cs fs positions dist g) : g.nodes ≠ [] := by
  obtain ⟨-, pu, hu, hc⟩ := h
  unfold FL.createClusters at hc
  simp only at hc
  obtain ⟨s, hs, rfl⟩ := List.mem_map.1 hc
  have hg := goodGraph_fl (dist := dist) (fs := fs) hu.1
  obtain ⟨v, hv, h⟩ := (components_spec hg).1 s hs
  exact List.ne_nil_of_mem (mem_subgraph.2 ⟨hv, (h v).2 .refl⟩)

/-- **C115** for the clusters that are found in double precision. -/
theorem C115_cluster {L : FL.SPLib (Vec d)} (hL : SPAccurate L) {cs : CoordSys d} {fs : ℝ} {positions : List (Vec d)} {dist : Vec d → Vec d → ℝ} {g : NxGraph (Vec d) ℝ}
    (hc : IsCluster rnd cs fs positions dist g) :
    (∀ n s, FL.SPRun L rnd fs g n s → ∀ e, s ≠ .error e) ∧ (∃ n rg, FL.SPRun L rnd fs g n (.done rg)) ∧
    ∀ n rg, FL.SPRun L rnd fs g n (.done rg) → SubgraphOf rg g ∧ Connected rg ∧ rg.nodes ≠ [] ∧ Dominates rg g := by
  obtain ⟨h1, h2, h3⟩ := C115_shortest_path (rnd := rnd) hL (isCluster_spec hc).1 (isCluster_spec hc).2.1 (isCluster_ne hc) fs
  exact ⟨fun n s hr => (h1 n s hr).2.1, h2, fun n rg hr => (h3 n rg hr).2⟩

/-- The distances in the clusters that are found in double precision are not negative (as C115_first_path requires). -/
theorem C115_lengths (hr : IsNearest rnd) {cs : CoordSys d} {fs : ℝ} {positions : List (Vec d)} {dist : Vec d → Vec d → ℝ} {g : NxGraph (Vec d) ℝ} (hc : IsCluster rnd cs fs positions dist g) :
    ∀ e ∈ g.edges, 0 ≤ e.2.2 := by
  intro e he
  obtain ⟨hg, -, hmem, hd⟩ := isCluster_spec hc
  have hn := goodGraph_edge hg ⟨e, he, .inl ⟨rfl, rfl⟩⟩
  obtain ⟨s, -, hs⟩ := hc.1 _ (hmem _ hn.1) _ (hmem _ hn.2.1)
  rw [(hd e he).1, hs]
  exact rnd_nonneg hr (Real.sqrt_nonneg _)

/-! ## Which path is taken -/

theorem fl_edgeWeight_initial {g : NxGraph (Vec d) ℝ} {L : FL.SPLib (Vec d)} {fs : ℝ} {x y : Vec d} (h : g.hasEdge x y) :
    edgeWeight (FL.initialWeights L rnd fs g) x y = rnd (fs * rnd (rnd (g.edgeAttr x y / fs) + L.sq (rnd (g.edgeAttr x y / fs)))) ∧ ∃ e ∈ g.edges, joins e x y ∧ e.2.2 = g.edgeAttr x y := by
  have hfind : (FL.initialWeights L rnd fs g).edges.find? (fun e => decide (joins e x y)) =
      (g.edges.find? fun e => decide (joins e x y)).map fun e => (e.1, e.2.1, e.2.2, rnd (fs * rnd (rnd (e.2.2 / fs) + L.sq (rnd (e.2.2 / fs))))) := by
    unfold FL.initialWeights
    simp only [List.find?_map]
    congr 1
  unfold edgeWeight edgeAttr
  rw [hfind]
  cases hf : g.edges.find? (fun e => decide (joins e x y)) with
  | none =>
    obtain ⟨e, he, hj⟩ := h
    have := List.find?_eq_none.1 hf e he
    simp [hj] at this
  | some e =>
    have h2 : joins e x y := by have := List.find?_some hf; simpa using this
    exact ⟨rfl, e, List.mem_of_find?_eq_some hf, h2, rfl⟩

/-- The weight of an edge, up to rounding. -/
theorem fl_weight_err (hr : IsNearest rnd) {L : FL.SPLib V} (hL : SPAccurate L) {fs a : ℝ} (hfs : 0 < fs) (ha : 0 ≤ a) :
    |rnd (fs * rnd (rnd (a / fs) + L.sq (rnd (a / fs)))) - (a + a ^ 2 / fs)| ≤ (a + a ^ 2 / fs) / 2 ^ 39 := by
  set x := a / fs with hx
  have hx0 : 0 ≤ x := div_nonneg ha hfs.le
  have e : a + a ^ 2 / fs = fs * (x + x ^ 2) := by rw [hx]; field_simp
  have hu : ulp = 1 / 2 ^ 53 := by unfold ulp; norm_num
  have h1 := rel_err' hr x
  rw [abs_of_nonneg hx0] at h1
  set q := rnd x with hq
  have h1' := abs_le.1 h1
  have hup := ulp_pos
  have hus := ulp_small
  have hq0 : 0 ≤ q := by nlinarith
  have h2 := abs_le.1 (hL.sq q)
  set s := L.sq q with hs
  have hqq : |q ^ 2 - x ^ 2| ≤ 3 * ulp * x ^ 2 := by
    rw [abs_le]
    constructor <;> nlinarith [mul_nonneg hup.le hx0, sq_nonneg x, sq_nonneg (q - x), mul_nonneg hup.le (sq_nonneg x)]
  have h3 := abs_le.1 hqq
  set t := x + x ^ 2 with ht
  have ht0 : 0 ≤ t := by positivity
  have hx2 : x ^ 2 ≤ t := by linarith
  have hxt : x ≤ t := by nlinarith [sq_nonneg x]
  have hsum : |q + s - t| ≤ (4 * ulp + 1.01 / 2 ^ 40) * t := by
    rw [abs_le]
    have k1 : q ^ 2 ≤ 1.01 * x ^ 2 := by nlinarith [sq_nonneg x]
    constructor <;> nlinarith [sq_nonneg x, mul_nonneg hup.le ht0, mul_nonneg hup.le hx0, mul_nonneg hup.le (sq_nonneg x)]
  have step : ∀ {y z c w : ℝ}, |y - c| ≤ w * c → 0 ≤ c → |z - y| ≤ ulp * |y| → w ≤ 1 → |z - c| ≤ (w + 2 * ulp) * c := by
    intro y z c w h1 h2 h3 h4
    have h5 : |y| ≤ 2 * c := by
      have := abs_le.1 h1
      rw [abs_le]; constructor <;> nlinarith
    have h6 := mul_le_mul_of_nonneg_left h5 hup.le
    have := abs_sub_le z y c
    nlinarith
  have h4 := step hsum ht0 (rel_err' hr (q + s)) (by unfold ulp; norm_num)
  have h5 : |fs * rnd (q + s) - fs * t| ≤ (4 * ulp + 1.01 / 2 ^ 40 + 2 * ulp) * (fs * t) := by
    rw [← mul_sub, abs_mul, abs_of_pos hfs]
    have := mul_le_mul_of_nonneg_left h4 hfs.le
    linarith
  have h6 := step h5 (mul_nonneg hfs.le ht0) (rel_err' hr _) (by unfold ulp; norm_num)
  rw [e]
  refine h6.trans ?_
  have hc : 4 * ulp + 1.01 / 2 ^ 40 + 2 * ulp + 2 * ulp ≤ 1 / 2 ^ 39 := by
    unfold ulp
    norm_num
  have := mul_le_mul_of_nonneg_right hc (mul_nonneg hfs.le ht0)
  rw [one_div_mul_eq_div] at this
  exact this

/-- **C115**, which path is taken: the first path that is added to the result is a shortest one in the cluster graph, up to a relative error of `2⁻³⁷`, if an edge of length `x` counts `x + x² / feature_size`. -/
theorem C115_first_path (hr : IsNearest rnd) {L : FL.SPLib (Vec d)} (hL : SPAccurate L) {g : NxGraph (Vec d) ℝ} {fs : ℝ} (hfs : 0 < fs) (hpos : ∀ e ∈ g.edges, 0 ≤ e.2.2)
    {v : SPVars (Vec d)} {endPos s : Vec d} {todo : List (Vec d)} {tmp : NxGraph (Vec d) (ℝ × ℝ)} {single : Bool} {k : ℕ} (hrun : FL.SPRun L rnd fs g 3 (.forPath v endPos todo s tmp single k)) :
    ∃ p, g.IsPath s endPos p ∧ (∀ x y, v.rg.hasEdge x y ↔ (x, y) ∈ pathEdges p ∨ (y, x) ∈ pathEdges p) ∧
      ∀ q, g.IsPath s endPos q → ((pathEdges p).map fun e => g.edgeAttr e.1 e.2 + g.edgeAttr e.1 e.2 ^ 2 / fs).sum ≤
        (1 + 1 / 2 ^ 37) * ((pathEdges q).map fun e => g.edgeAttr e.1 e.2 + g.edgeAttr e.1 e.2 ^ 2 / fs).sum := by
  have hinit : ∀ s, FL.SPRun L rnd fs g 0 s → FL.SPInit L rnd fs g s := fun s h => by cases h; assumption
  cases hrun with
  | step h2 hst =>
  cases h2 with
  | step h1 hst2 =>
  cases h1 with
  | step h0 hst1 =>
  have h0 := hinit _ h0
  cases h0 with
  | empty => cases hst1
  | @first p0 hp0 =>
  cases hst1 with
  | finish => cases hst2
  | @newEnd _ e1 todo1 he1 hperm =>
  generalize hS : SPState.forStart _ e1 todo1 = S at hst2
  cases hst2 with
  | finish => cases hS
  | newEnd => cases hS
  | lastStart => cases hst
  | noPath => cases hst
  | lastPath => cases hS
  | assertion => cases hS
  | path => cases hS
  | @start v1 _ s1 todo2 hex =>
  cases hS
  -- no node of the result has an edge yet
  have hup : ∀ v2 : SPVars (Vec d), v2.rg = NxGraph.empty.addNode p0 → v2.one = [] → (FL.updateWeights rnd v2).work = v2.work := by
    intro v2 hrg hone
    have hn : (NxGraph.empty.addNode p0 : NxGraph (Vec d) Unit).nodes = [p0] := by simp [addNode, NxGraph.empty]
    have hd : (NxGraph.empty.addNode p0 : NxGraph (Vec d) Unit).degree p0 = 0 := by simp [degree, neighbors, addNode, NxGraph.empty]
    simp [FL.updateWeights, FL.updateHighDegree, FL.updateDegreeOne, hrg, hone, hn, hd]
  rw [hup _ rfl rfl] at hst
  simp only at hst
  cases hst with
  | @path _ _ _ _ _ _ _ path _ _ _ hsp _ =>
    have hsh := sameShape_hasEdge (flShape_initialWeights (L := L) (rnd := rnd) fs g)
    have hell : ∀ q, g.IsPath s endPos q → 0 ≤ ((pathEdges q).map fun e => g.edgeAttr e.1 e.2 + g.edgeAttr e.1 e.2 ^ 2 / fs).sum ∧
        |pathWeight (FL.initialWeights L rnd fs g) q - ((pathEdges q).map fun e => g.edgeAttr e.1 e.2 + g.edgeAttr e.1 e.2 ^ 2 / fs).sum| ≤
          ((pathEdges q).map fun e => g.edgeAttr e.1 e.2 + g.edgeAttr e.1 e.2 ^ 2 / fs).sum / 2 ^ 39 := by
      intro q hq
      unfold pathWeight
      have hedge := pathEdges_hasEdge hq.chain
      generalize pathEdges q = l at hedge ⊢
      induction l with
      | nil => simp
      | cons a l ih =>
        obtain ⟨i1, i2⟩ := ih fun e he => hedge e (List.mem_cons_of_mem _ he)
        obtain ⟨e1, e, he, -, e2⟩ := fl_edgeWeight_initial (rnd := rnd) (L := L) (fs := fs) (hedge a (by simp))
        have h0 : 0 ≤ g.edgeAttr a.1 a.2 := e2 ▸ hpos e he
        have h3 := fl_weight_err hr hL hfs h0
        rw [← e1] at h3
        have hx : 0 ≤ g.edgeAttr a.1 a.2 + g.edgeAttr a.1 a.2 ^ 2 / fs := by positivity
        simp only [List.map_cons, List.sum_cons]
        have k1 := abs_le.1 h3
        have k2 := abs_le.1 i2
        refine ⟨by linarith, abs_le.2 ⟨by linarith, by linarith⟩⟩
    have hpg : g.IsPath s endPos path := isPath_mono (fun x y => (hsh x y).1) (hL.isPath hsp)
    refine ⟨path, hpg, fun x y => ?_, fun q hq => ?_⟩
    · change ((pathEdges path).foldl (fun h e => h.addEdge e.1 e.2 ()) (NxGraph.empty.addNode p0)).hasEdge x y ↔ _
      rw [addPath_hasEdge, hasEdge_addNode]
      constructor
      · rintro (⟨e, he, -⟩ | h)
        · simp [NxGraph.empty] at he
        · exact h
      · exact .inr
    · have hw : ∀ e ∈ (FL.initialWeights L rnd fs g).edges, 0 ≤ e.2.2.2 := by
        intro e he
        unfold FL.initialWeights at he
        obtain ⟨k, hk, rfl⟩ := List.mem_map.1 he
        have h3 := abs_le.1 (fl_weight_err hr hL hfs (hpos k hk))
        have hx : 0 ≤ k.2.2 + k.2.2 ^ 2 / fs := by have := hpos k hk; positivity
        simp only
        linarith [div_le_self hx (by norm_num : (1 : ℝ) ≤ 2 ^ 39)]
      have h3 := hL.shortest hw hsp q (isPath_mono (fun x y => (hsh x y).2) hq)
      obtain ⟨p1, p2⟩ := hell path hpg
      obtain ⟨q1, q2⟩ := hell q hq
      have p3 := (abs_le.1 p2).1
      have q3 := (abs_le.1 q2).2
      generalize pathWeight (FL.initialWeights L rnd fs g) path = wp at *
      generalize pathWeight (FL.initialWeights L rnd fs g) q = wq at *
      generalize ((pathEdges path).map fun e => g.edgeAttr e.1 e.2 + g.edgeAttr e.1 e.2 ^ 2 / fs).sum = P at *
      generalize ((pathEdges q).map fun e => g.edgeAttr e.1 e.2 + g.edgeAttr e.1 e.2 ^ 2 / fs).sum = Q at *
      norm_num at p3 q3 h3 ⊢
      linarith

/-! ## Exact arithmetic -/

theorem fl_initialWeights_id (fs : ℝ) (g : NxGraph V ℝ) : FL.initialWeights exactSP id fs g = initialWeights fs g := rfl

theorem fl_updateNeighbourWeights_id (node : V) (m : ℝ) (g : NxGraph V (ℝ × ℝ)) : FL.updateNeighbourWeights id node m g = updateNeighbourWeights node m g := rfl

theorem fl_updateWeights_id (v : SPVars V) : FL.updateWeights id v = updateWeights v := rfl

/-- **C115 (exact arithmetic).**  Without rounding and with exact libraries, this model is the model of C61. -/
theorem C115_exact_arithmetic (fs : ℝ) {g : NxGraph V ℝ} (n : ℕ) (s : SPState V) : FL.SPRun exactSP id fs g n s ↔ SPRun fs g n s := by
  have hstep : ∀ {s s' : SPState V}, FL.SPStep exactSP id s s' ↔ SPStep s s' := by
    intro s s'
    constructor
    · intro h
      cases h with
      | finish h => exact .finish h
      | newEnd h1 h2 => exact .newEnd h1 h2
      | lastStart => exact .lastStart
      | start h => exact .start h
      | noPath h => exact .noPath h
      | lastPath h => exact .lastPath h
      | assertion h1 h2 _ h4 h5 h6 => exact .assertion h1 h2 h4 h5 h6
      | path h1 h2 _ h4 h5 => exact .path h1 h2 h4 h5
    · intro h
      cases h with
      | finish h => exact .finish h
      | newEnd h1 h2 => exact .newEnd h1 h2
      | lastStart => exact .lastStart
      | start h => exact .start h
      | noPath h => exact .noPath h
      | lastPath h => exact .lastPath h
      | assertion h1 h2 h4 h5 h6 => exact .assertion h1 h2 ⟨_, h4.1⟩ h4 h5 h6
      | path h1 h2 h4 h5 => exact .path h1 h2 ⟨_, h4.1⟩ h4 h5
  constructor
  · intro h
    induction h with
    | init hi =>
      cases hi with
      | empty h => exact .init (.empty h)
      | first h => exact .init (.first h)
    | step _ hst ih => exact .step ih (hstep.1 hst)
  · intro h
    induction h with
    | init hi =>
      cases hi with
      | empty h => exact .init (.empty h)
      | first h => exact .init (.first h)
    | step _ hst ih => exact .step ih (hstep.2 hst)


theorem flPathWeight_nonneg {g : NxGraph V (ℝ × ℝ)} (h : ∀ e ∈ g.edges, 0 ≤ e.2.2.2) (p : List V) : 0 ≤ pathWeight g p := by
  unfold pathWeight
  refine List.sum_nonneg fun x hx => ?_
  obtain ⟨e, -, rfl⟩ := List.mem_map.1 hx
  unfold edgeWeight
  cases hf : g.edges.find? (fun f => decide (joins f e.1 e.2)) with
  | none => exact le_rfl
  | some f => exact h f (List.mem_of_find?_eq_some hf)

theorem exactSP_accurate : SPAccurate (exactSP : FL.SPLib V) where
  sq x := by
    change |x ^ 2 - x ^ 2| ≤ _
    rw [sub_self, abs_zero]
    positivity
  isPath h := h.1
  shortest h hp q hq := (hp.2 q hq).trans (by have := flPathWeight_nonneg h q; linarith [div_nonneg (flPathWeight_nonneg h q) (by norm_num : (0 : ℝ) ≤ 2 ^ 40)])
  total hg hs h := exists_shortestPath hg hs h

/-! ## Examples -/

namespace C115Demo

/-- the hypotheses of C115_cluster and C115_shortest_path: two positions in a periodic box -/
example : ∃ (rnd : ℝ → ℝ) (dist : Vec 1 → Vec 1 → ℝ) (g : NxGraph (Vec 1) ℝ), IsNearest rnd ∧ SPAccurate (exactSP : FL.SPLib (Vec 1)) ∧ IsCluster rnd C114Demo.unit (1 / 4) [![1 / 4], ![3 / 8]] dist g ∧
    GoodGraph g ∧ Connected g ∧ g.nodes ≠ [] ∧ ∃ n rg, FL.SPRun exactSP rnd (1 / 4) g n (.done rg) ∧ Connected rg ∧ Dominates rg g := by
  obtain ⟨dist, g, hc, ha, hb⟩ := C114Demo.pair_cluster C102Demo.rndEven_nearest (a := 1 / 4) (b := 3 / 8) (by norm_num) (by norm_num)
  obtain ⟨-, ⟨n, rg, h2⟩, h3⟩ := C115_cluster exactSP_accurate hc
  exact ⟨_, dist, g, C102Demo.rndEven_nearest, exactSP_accurate, hc, (isCluster_spec hc).1, (isCluster_spec hc).2.1, isCluster_ne hc, n, rg, h2, (h3 n rg h2).2.1, (h3 n rg h2).2.2.2⟩

/-- in the graph of the positions 1, 1.5 and 2 the first path is found after three steps (hypotheses of `C115_first_path`) -/
example : ∃ rnd, IsNearest rnd ∧ (∀ e ∈ exG.edges, 0 ≤ e.2.2) ∧ ∃ v endPos todo s tmp single k, FL.SPRun exactSP rnd 0.6 exG 3 (.forPath v endPos todo s tmp single k) := by
  refine ⟨_, C102Demo.rndEven_nearest, fun e he => ?_, ?_⟩
  · rw [(mem_clusterEdges he).2.2.1]
    exact (C03_distance_metric exBox exBox_proper _ _ ![0]).1
  generalize C102Demo.rndEven = rnd
  have hgood := goodGraph_createGraph (cs := exBox) (fs := 0.6) ex_nodup
  have hsh := flShape_initialWeights (L := exactSP) (rnd := rnd) 0.6 exG
  have hne12 : (![1] : Vec 1) ≠ ![2] := fun h => by have := congrFun h 0; norm_num at this
  have h0 : FL.SPRun exactSP rnd 0.6 exG 0 _ := .init (.first (firstPos := ![1]) (by simp [exG, createGraph]))
  have hcand : (![2] : Vec 1) ∈ removeAll exG.nodes (closedNeighbors (FL.initialWeights exactSP rnd 0.6 exG) ![1]) := by
    refine mem_removeAll.2 ⟨by simp [exG, createGraph], ?_⟩
    rintro (h | h)
    · exact hne12 h.symm
    · have := (sameShape_hasEdge hsh _ _).1 (mem_neighbors.1 h)
      have := ((hasEdge_createGraph exBox_proper ex_nodup).1 this).2.2.2
      rw [ex_dist] at this; norm_num [abs_le] at this
  have h1 := FL.SPRun.step h0 (.newEnd hcand (List.Perm.refl _))
  have hpath : exG.IsPath ![1] ![2] [![1], ![1.5], ![2]] := ⟨rfl, rfl, by simp [ex_edge12, ex_edge23], ex_nodup⟩
  have h2 := FL.SPRun.step h1 (.start ⟨_, isPath_mono (fun x y h => (sameShape_hasEdge (sameShape_trans (flShape_updateWeights _) hsh) x y).2 h) hpath⟩)
  have hpath2 := isPath_mono (fun x y h => (sameShape_hasEdge (sameShape_trans (flShape_updateWeights (rnd := rnd) ⟨FL.initialWeights exactSP rnd 0.6 exG, removeAll (removeAll exG.nodes (closedNeighbors (FL.initialWeights exactSP rnd 0.6 exG) ![1]))
    (closedNeighbors (FL.initialWeights exactSP rnd 0.6 exG) ![2]), [![1]], NxGraph.empty.addNode ![1], [], []⟩) hsh) x y).2 h) hpath
  have hg2 := sameShape_good (sameShape_trans (flShape_updateWeights (rnd := rnd) ⟨FL.initialWeights exactSP rnd 0.6 exG, removeAll (removeAll exG.nodes (closedNeighbors (FL.initialWeights exactSP rnd 0.6 exG) ![1]))
    (closedNeighbors (FL.initialWeights exactSP rnd 0.6 exG) ![2]), [![1]], NxGraph.empty.addNode ![1], [], []⟩) hsh) hgood
  obtain ⟨p, hp⟩ := exists_shortestPath hg2 (s := ![1]) (t := ![2])
    (by rw [(sameShape_trans (flShape_updateWeights _) hsh).2]; simp [exG, createGraph]) ⟨_, hpath2⟩
  have hsingle : ∃ p, (FL.updateWeights rnd ⟨FL.initialWeights exactSP rnd 0.6 exG, removeAll (removeAll exG.nodes (closedNeighbors (FL.initialWeights exactSP rnd 0.6 exG) ![1]))
      (closedNeighbors (FL.initialWeights exactSP rnd 0.6 exG) ![2]), [![1]], NxGraph.empty.addNode ![1], [], []⟩).work.IsPath ![1] ![2] p ∧ p.length ≤ 5 := ⟨_, hpath2, by simp⟩
  exact ⟨_, _, _, _, _, _, _, FL.SPRun.step h2 (.path (by simp [maxNumPaths]) (by simp) ⟨_, hpath2⟩ hp (.inr (by simpa using hsingle)))⟩

end C115Demo

end NF
