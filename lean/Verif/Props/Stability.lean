import Verif.Spec.Stability
import Verif.Props.Components

/-! # C111: the identification does not depend on small changes of the positions, nor on how densely the nodes were sampled -/

noncomputable section
open Classical
namespace NF
open Spec CoordSys
variable {d : ℕ}

theorem close_symm {cs : CoordSys d} (hb : ProperBox cs) {ε : ℝ} {P P' : List (Vec d)} (h : Close cs ε P P') : Close cs ε P' P := by
  have hmet := C03_distance_metric cs hb
  refine ⟨fun x hx => ?_, fun x hx => ?_⟩
  · obtain ⟨y, hy, h1⟩ := h.2 x hx
    exact ⟨y, hy, by rw [(hmet x y y).2.1]; exact h1⟩
  · obtain ⟨y, hy, h1⟩ := h.1 x hx
    exact ⟨y, hy, by rw [(hmet y x x).2.1]; exact h1⟩

section
variable {cs : CoordSys d} (hb : ProperBox cs) {fs ε : ℝ} {P P' : List (Vec d)} (hc : Close cs ε P P') (hn : NoneBetween cs fs ε P)
include hb hc hn

/-- chains of the first sample are chains of the second -/
theorem close_chain (hε : 2 * ε ≤ fs) {x y x' y' : Vec d} (hx' : x' ∈ P') (hy' : y' ∈ P') (hxx : cs.distance x x' ≤ ε) (hyy : cs.distance y y' ≤ ε)
    (h : Chain cs fs P x y) : Chain cs fs P' x' y' := by
  have hmet := C03_distance_metric cs hb
  induction h generalizing y' with
  | refl =>
    refine .single ⟨hx', hy', ?_⟩
    have := (hmet x' x y').2.2.1
    rw [(hmet x' x x).2.1] at this
    linarith
  | @tail u v _ huv ih =>
    obtain ⟨u', hu', huu⟩ := hc.1 u huv.1
    refine (ih hu' huu).tail ⟨hu', hy', ?_⟩
    have h1 : cs.distance u v ≤ fs - 2 * ε := by
      rcases hn u huv.1 v huv.2.1 with h | h
      · exact h
      · have := huv.2.2
        have h0 : 0 ≤ ε := (hmet u u' u).1.trans huu
        linarith
    have h2 := (hmet u' u y').2.2.1
    have h3 := (hmet u v y').2.2.1
    rw [(hmet u' u u).2.1] at h2
    linarith

/-- chains of the second sample are chains of the first -/
theorem close_chain' (hε : 2 * ε ≤ fs) {x y x' y' : Vec d} (hx : x ∈ P) (hy : y ∈ P) (hxx : cs.distance x x' ≤ ε) (hyy : cs.distance y y' ≤ ε)
    (h : Chain cs fs P' x' y') : Chain cs fs P x y := by
  have hmet := C03_distance_metric cs hb
  have hle : ∀ u ∈ P, ∀ v ∈ P, cs.distance u v ≤ fs + 2 * ε → cs.distance u v ≤ fs := fun u hu v hv h => by
    have h0 : 0 ≤ ε := (hmet x x' x).1.trans hxx
    rcases hn u hu v hv with h1 | h1 <;> linarith
  induction h generalizing y with
  | refl =>
    refine .single ⟨hx, hy, ?_⟩
    have := (hmet x x' y).2.2.1
    rw [(hmet x' y y).2.1] at this
    linarith
  | @tail u v _ huv ih =>
    obtain ⟨u0, hu0, huu⟩ := hc.2 u huv.1
    refine (ih hu0 huu).tail ⟨hu0, hy, hle _ hu0 _ hy ?_⟩
    have h2 := (hmet u0 u y).2.2.1
    have h3 := (hmet u v y).2.2.1
    rw [(hmet v y y).2.1] at h3
    linarith [huv.2.2]

end

/-- **C111**: if two lists of positions are within `ε` of each other and no two positions of the first are about `feature_size` apart, then the identification finds the same objects from both: the results correspond one to one, and positions within `ε` of each other
are in corresponding results. -/
theorem C111_same_objects {cs : CoordSys d} (hb : ProperBox cs) {fs ε : ℝ} (hfs : 0 < fs) (hε : 2 * ε ≤ fs) {positions positions' : List (Vec d)} (hc : Close cs ε positions positions')
    (hn : NoneBetween cs fs ε positions) {method method' : String} {out out' : IdContainer d} (h : RunFromPositions positions cs fs method (.ok out))
    (h' : RunFromPositions positions' cs fs method' (.ok out')) : SameObjects cs ε positions positions' out out' := by
  have hI := C65_results hb hfs h
  have hI' := C65_results hb hfs h'
  have hpos : ∀ i : Fin out.results.length, ∃ x ∈ positions, x ∈ (out.results.get i).positions := fun i => by
    obtain ⟨hne, -, hsub⟩ := hI.given _ (List.get_mem out.results i)
    obtain ⟨x, hx⟩ := List.exists_mem_of_ne_nil _ hne
    exact ⟨x, hsub x hx, hx⟩
  choose p hp hpi using hpos
  choose q hq hpq using fun i => hc.1 (p i) (hp i)
  choose f hf hfu using fun i => hI'.once (q i) (hq i)
  have hmem : ∀ i, ∀ x ∈ positions, ∀ x' ∈ positions', cs.distance x x' ≤ ε → (x ∈ (out.results.get i).positions ↔ x' ∈ (out'.results.get (f i)).positions) := by
    intro i x hx x' hx' hxx
    constructor
    · intro h1
      have h2 := (hI.chains _ (hp i) x hx).1 ⟨_, List.get_mem _ i, hpi i, h1⟩
      obtain ⟨r, hr, h3, h4⟩ := (hI'.chains _ (hq i) x' hx').2 (close_chain hb hc hn hε (hq i) hx' (hpq i) hxx h2)
      obtain ⟨j, rfl⟩ := List.mem_iff_get.1 hr
      rw [← hfu i j h3]
      exact h4
    · intro h1
      have h2 := (hI'.chains _ (hq i) x' hx').1 ⟨_, List.get_mem _ _, hf i, h1⟩
      obtain ⟨r, hr, h3, h4⟩ := (hI.chains _ (hp i) x hx).2 (close_chain' hb hc hn hε (hp i) hx (hpq i) hxx h2)
      obtain ⟨j, rfl⟩ := List.mem_iff_get.1 hr
      rw [(hI.once (p i) (hp i)).unique (hpi i) h3]
      exact h4
  refine ⟨Equiv.ofBijective f ⟨fun i j hij => ?_, fun k => ?_⟩, hmem⟩
  · have := (hmem j (p i) (hp i) (q i) (hq i) (hpq i)).2 (hij ▸ hf i)
    exact (hI.once (p i) (hp i)).unique (hpi i) this
  · obtain ⟨hne, -, hsub⟩ := hI'.given _ (List.get_mem out'.results k)
    obtain ⟨x', hx'⟩ := List.exists_mem_of_ne_nil _ hne
    obtain ⟨x, hx, hxx⟩ := hc.2 x' (hsub x' hx')
    obtain ⟨i, hi, -⟩ := hI.once x hx
    exact ⟨i, (hI'.once x' (hsub x' hx')).unique ((hmem i x hx x' (hsub x' hx') hxx).1 hi) hx'⟩

/-- **C111**, in particular as many objects are found. -/
theorem C111_same_number {cs : CoordSys d} (hb : ProperBox cs) {fs ε : ℝ} (hfs : 0 < fs) (hε : 2 * ε ≤ fs) {positions positions' : List (Vec d)} (hc : Close cs ε positions positions')
    (hn : NoneBetween cs fs ε positions) {method method' : String} {out out' : IdContainer d} (h : RunFromPositions positions cs fs method (.ok out))
    (h' : RunFromPositions positions' cs fs method' (.ok out')) : out.results.length = out'.results.length := by
  obtain ⟨e, -⟩ := C111_same_objects hb hfs hε hc hn h h'
  simpa using Fintype.card_congr e

/-- **C111**, nodal points: if corresponding results are both points, and the positions of the first are within `r` of `z`, then the two nodal points are within `r` and `r + ε` of `z`, and so within `2 r + ε` of each other. -/
theorem C111_nodal_points {cs : CoordSys d} (hb : ProperBox cs) {fs ε : ℝ} (hfs : 0 < fs) (hε : 2 * ε ≤ fs) {positions positions' : List (Vec d)} (hc : Close cs ε positions positions')
    (hn : NoneBetween cs fs ε positions) {method method' : String} {out out' : IdContainer d} (h : RunFromPositions positions cs fs method (.ok out))
    (h' : RunFromPositions positions' cs fs method' (.ok out')) : ∃ e : Fin out.results.length ≃ Fin out'.results.length, ∀ i,
      (out.results.get i).dimension = some 0 → (out'.results.get (e i)).dimension = some 0 → ∀ (z : Vec d) (r : ℝ), (∀ k, 4 * (r + ε) < cs.upper k - cs.lower k) →
      (∀ x ∈ (out.results.get i).positions, cs.distance x z ≤ r) → ∃ q q', (out.results.get i).shape = some (.point q) ∧ (out'.results.get (e i)).shape = some (.point q') ∧
        cs.distance q z ≤ r ∧ cs.distance q' z ≤ r + ε ∧ cs.distance q q' ≤ 2 * r + ε := by
  have hmet := C03_distance_metric cs hb
  have hI := C65_results hb hfs h
  have hI' := C65_results hb hfs h'
  obtain ⟨e, he⟩ := C111_same_objects hb hfs hε hc hn h h'
  refine ⟨e, fun i h0 h0' z r hr hz => ?_⟩
  have hm := List.get_mem out.results i
  have hm' := List.get_mem out'.results (e i)
  obtain ⟨q, hq, hav⟩ := hI.point _ hm h0
  obtain ⟨q', hq', hav'⟩ := hI'.point _ hm' h0'
  have hε0 : 0 ≤ ε := by
    obtain ⟨x, hx⟩ := List.exists_mem_of_ne_nil _ (hI.given _ hm).1
    obtain ⟨x', -, hxx⟩ := hc.1 x ((hI.given _ hm).2.2 x hx)
    exact (hmet x x' x).1.trans hxx
  have h1 : cs.distance q z ≤ r := average_near hb (fun k => by linarith [hr k]) (hI.given _ hm).1 hz hav
  have h2 : cs.distance q' z ≤ r + ε := by
    refine average_near hb hr (hI'.given _ hm').1 (fun x' hx' => ?_) hav'
    obtain ⟨x, hx, hxx⟩ := hc.2 x' ((hI'.given _ hm').2.2 x' hx')
    have h3 := hz x ((he i x hx x' ((hI'.given _ hm').2.2 x' hx') hxx).2 hx')
    have h4 := (hmet x' x z).2.2.1
    rw [(hmet x' x x).2.1] at h4
    linarith
  refine ⟨q, q', hq, hq', h1, h2, ?_⟩
  have h3 := (hmet q z q').2.2.1
  rw [(hmet z q' q').2.1] at h3
  linarith

/-- **C111**, two searches: if the nodes that two searches with the same box and `feature_size` have found are within `ε` of each other (and those of the first are not about `feature_size` apart), `identify.run` finds the same objects. -/
theorem C111_searches {p p' : CtlParams d} (hd : DistinctInput p) (hd' : DistinctInput p') (hb : ProperBox p.coord) (hco : p'.coord = p.coord) (hfs : p'.featureSize = p.featureSize) (hpos : 0 < p.featureSize)
    {c c' : Ctl d} (hr : ReachAny p c) (hr' : ReachAny p' c') {ε : ℝ} (hε : 2 * ε ≤ p.featureSize)
    (hc : Close p.coord ε (c.state.result.nodes.values.map fun n => n.pos) (c'.state.result.nodes.values.map fun n => n.pos))
    (hn : NoneBetween p.coord p.featureSize ε (c.state.result.nodes.values.map fun n => n.pos)) {method method' : String} {out out' : IdContainer d}
    (h : IdentifyRun (.container c.state.result) method none (.ok out)) (h' : IdentifyRun (.container c'.state.result) method' none (.ok out')) :
    SameObjects p.coord ε (c.state.result.nodes.values.map fun n => n.pos) (c'.state.result.nodes.values.map fun n => n.pos) out out' := by
  have h1 := (C65_default_feature_size hd hr).1 h
  have h2 := (C65_default_feature_size hd' hr').1 h'
  rw [hco, hfs] at h2
  exact C111_same_objects hb hpos hε hc hn h1 h2

/-! ## Non-vacuity, and the condition is needed -/

namespace C111Demo

/-- the interval from 0 to 10, not periodic -/
def line : CoordSys 1 := ⟨fun _ => 0, fun _ => 10, false⟩

theorem line_proper : ProperBox line := fun _ => by simp [line]

/-- a position -/
def P (x : ℝ) : Vec 1 := fun _ => x

theorem dist_P (x y : ℝ) : line.distance (P x) (P y) = |x - y| := by
  rw [distance_eucl rfl]
  simp [eucl, P, Real.sqrt_sq_eq_abs]

/-- two objects, sampled by three and by four positions -/
example : ∃ out out', RunFromPositions [P 1, P 2, P 6] line 2 "ballistic" (.ok out) ∧ RunFromPositions [P 1.1, P 2.1, P 1.9, P 5.9] line 2 "shortest_path" (.ok out') ∧
    Close line 0.1 [P 1, P 2, P 6] [P 1.1, P 2.1, P 1.9, P 5.9] ∧ NoneBetween line 2 0.1 [P 1, P 2, P 6] := by
  obtain ⟨⟨r, hr⟩, h1⟩ := C65_never_raises line_proper (fs := 2) (by norm_num) [P 1, P 2, P 6] (.inl rfl)
  obtain ⟨⟨r', hr'⟩, h1'⟩ := C65_never_raises line_proper (fs := 2) (by norm_num) [P 1.1, P 2.1, P 1.9, P 5.9] (.inr rfl)
  obtain ⟨out, rfl, -⟩ := h1 r hr
  obtain ⟨out', rfl, -⟩ := h1' r' hr'
  refine ⟨out, out', hr, hr', ⟨?_, ?_⟩, ?_⟩
  · simp only [List.mem_cons, List.not_mem_nil, or_false, forall_eq_or_imp, forall_eq, exists_eq_or_imp, exists_eq_left, dist_P]
    norm_num [abs_le]
  · simp only [List.mem_cons, List.not_mem_nil, or_false, forall_eq_or_imp, forall_eq, exists_eq_or_imp, exists_eq_left, dist_P]
    norm_num [abs_le]
  · simp only [NoneBetween, List.mem_cons, List.not_mem_nil, or_false, forall_eq_or_imp, forall_eq, dist_P]
    norm_num

/-- points, moved -/
example : ∃ out out', RunFromPositions [P 1, P 6] line 2 "ballistic" (.ok out) ∧ RunFromPositions [P 1.1, P 5.9] line 2 "ballistic" (.ok out') ∧
    Close line 0.1 [P 1, P 6] [P 1.1, P 5.9] ∧ NoneBetween line 2 0.1 [P 1, P 6] ∧ (∃ r ∈ out.results, r.positions = [P 1] ∧ r.dimension = some 0) ∧ (∃ r ∈ out'.results, r.positions = [P 1.1] ∧ r.dimension = some 0) ∧
    ∀ k, 4 * (0 + 0.1) < line.upper k - line.lower k := by
  obtain ⟨⟨r, hr⟩, h1⟩ := C65_never_raises line_proper (fs := 2) (by norm_num) [P 1, P 6] (.inl rfl)
  obtain ⟨⟨r', hr'⟩, h1'⟩ := C65_never_raises line_proper (fs := 2) (by norm_num) [P 1.1, P 5.9] (.inl rfl)
  obtain ⟨out, rfl, -⟩ := h1 r hr
  obtain ⟨out', rfl, -⟩ := h1' r' hr'
  refine ⟨out, out', hr, hr', ⟨?_, ?_⟩, ?_, ?_, ?_, fun k => by norm_num [line]⟩
  · simp only [List.mem_cons, List.not_mem_nil, or_false, forall_eq_or_imp, forall_eq, exists_eq_or_imp, exists_eq_left, dist_P]
    norm_num [abs_le]
  · simp only [List.mem_cons, List.not_mem_nil, or_false, forall_eq_or_imp, forall_eq, exists_eq_or_imp, exists_eq_left, dist_P]
    norm_num [abs_le]
  · simp only [NoneBetween, List.mem_cons, List.not_mem_nil, or_false, forall_eq_or_imp, forall_eq, dist_P]
    norm_num
  · obtain ⟨r, hr, h1, h2, -⟩ := C57_isolated_point line_proper (by norm_num) hr (x := P 1) (by simp) (by
      simp only [List.mem_cons, List.not_mem_nil, or_false, forall_eq_or_imp, forall_eq, dist_P]
      norm_num)
    exact ⟨r, hr, h1, h2⟩
  · obtain ⟨r, hr, h1, h2, -⟩ := C57_isolated_point line_proper (by norm_num) hr' (x := P 1.1) (by simp) (by
      simp only [List.mem_cons, List.not_mem_nil, or_false, forall_eq_or_imp, forall_eq, dist_P]
      norm_num)
    exact ⟨r, hr, h1, h2⟩

/-- **C111**, the condition is needed: two positions exactly `feature_size` apart are one object, however little one of them is moved away they are two. -/
theorem _root_.NF.C111_edge_unstable {ε : ℝ} (hε : 0 < ε) {out out' : IdContainer 1} (h : RunFromPositions [P 1, P 3] line 2 "ballistic" (.ok out))
    (h' : RunFromPositions [P 1, P (3 + ε)] line 2 "ballistic" (.ok out')) : Close line ε [P 1, P 3] [P 1, P (3 + ε)] ∧ out.results.length = 1 ∧ out'.results.length = 2 := by
  have hI := C65_results line_proper (by norm_num) h
  have hI' := C65_results line_proper (by norm_num) h'
  have card : ∀ {a b : Vec 1} {o : IdContainer 1}, IdentifiedFrom [a, b] line 2 o → ∀ i j : Fin o.results.length, a ∈ (o.results.get i).positions → b ∈ (o.results.get j).positions →
      (Finset.univ : Finset (Fin o.results.length)) = {i, j} := by
    intro a b o hI i j hi hj
    ext k
    simp only [Finset.mem_univ, Finset.mem_insert, Finset.mem_singleton, true_iff]
    obtain ⟨hne, -, hsub⟩ := hI.given _ (List.get_mem o.results k)
    obtain ⟨x, hx⟩ := List.exists_mem_of_ne_nil _ hne
    have hx' := hsub x hx
    simp only [List.mem_cons, List.not_mem_nil, or_false] at hx'
    rcases hx' with rfl | rfl
    · exact .inl ((hI.once x (by simp)).unique hx hi)
    · exact .inr ((hI.once x (by simp)).unique hx hj)
  refine ⟨⟨?_, ?_⟩, ?_, ?_⟩
  · intro x hx
    simp only [List.mem_cons, List.not_mem_nil, or_false] at hx
    rcases hx with rfl | rfl
    · exact ⟨P 1, by simp, by rw [dist_P]; simpa using hε.le⟩
    · exact ⟨P (3 + ε), by simp, by rw [dist_P]; simp [abs_of_pos hε]⟩
  · intro x hx
    simp only [List.mem_cons, List.not_mem_nil, or_false] at hx
    rcases hx with rfl | rfl
    · exact ⟨P 1, by simp, by rw [dist_P]; simpa using hε.le⟩
    · exact ⟨P 3, by simp, by rw [dist_P]; simp [abs_of_pos hε]⟩
  · obtain ⟨r, hr, h1, h2⟩ := (hI.chains (P 1) (by simp) (P 3) (by simp)).2 (.single ⟨by simp, by simp, by rw [dist_P]; norm_num⟩)
    obtain ⟨i, rfl⟩ := List.mem_iff_get.1 hr
    have := congrArg Finset.card (card hI i i h1 h2)
    simpa using this
  · obtain ⟨i, hi, -⟩ := hI'.once (P 1) (by simp)
    obtain ⟨j, hj, -⟩ := hI'.once (P (3 + ε)) (by simp)
    have hij : i ≠ j := by
      rintro rfl
      have hch := (hI'.chains (P 1) (by simp) (P (3 + ε)) (by simp)).1 ⟨_, List.get_mem _ i, hi, hj⟩
      have : ∀ y, Chain line 2 [P 1, P (3 + ε)] (P 1) y → y = P 1 := by
        intro y hy
        induction hy with
        | refl => rfl
        | tail _ huv ih =>
          subst ih
          have h3 := huv.2.1
          simp only [List.mem_cons, List.not_mem_nil, or_false] at h3
          rcases h3 with rfl | rfl
          · rfl
          · have h4 := huv.2.2
            rw [dist_P, abs_le] at h4
            linarith [h4.1]
      have := congrFun (this _ hch) 0
      simp only [P] at this
      linarith
    have := congrArg Finset.card (card hI' i j hi hj)
    rw [Finset.card_pair hij] at this
    simpa using this

end C111Demo

end NF
