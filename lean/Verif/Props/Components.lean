import Verif.Props.Isolated
import Verif.Spec.Components
import Verif.Props.Chance
import Verif.Lemmas.Straight
import Mathlib.Topology.Connected.Clopen
import Mathlib.Topology.Instances.Real.Lemmas
import Mathlib.Analysis.Normed.Group.Constructions
import Mathlib.Analysis.Convex.Topology

/-!
# C100: the clusters are the connected pieces of the nodal set
-/

noncomputable section
open Classical

namespace NF
open Spec
variable {d : ℕ} {ι : Type}

theorem eucl_continuous (x : Vec d) : Continuous fun y : Vec d => eucl x y := by
  unfold eucl
  fun_prop

/-- Any two points of a connected set are joined by a chain of small steps in it. -/
theorem connected_chain {cs : CoordSys d} (hb : ProperBox cs) {Z : Set (Vec d)} (hZ : IsPreconnected Z) {δ : ℝ} (hδ : 0 < δ) {a b : Vec d} (ha : a ∈ Z) (hb' : b ∈ Z) :
    Relation.ReflTransGen (fun x y => x ∈ Z ∧ y ∈ Z ∧ cs.distance x y ≤ δ) a b := by
  have hmet := C03_distance_metric cs hb
  have hsymm : ∀ x y, Relation.ReflTransGen (fun x y => x ∈ Z ∧ y ∈ Z ∧ cs.distance x y ≤ δ) x y → Relation.ReflTransGen (fun x y => x ∈ Z ∧ y ∈ Z ∧ cs.distance x y ≤ δ) y x := by
    intro x y h
    induction h with
    | refl => exact .refl
    | @tail u v _ h ih => exact .head ⟨h.2.1, h.1, by rw [(hmet v u u).2.1]; exact h.2.2⟩ ih
  refine hZ.induction₂' (Relation.ReflTransGen fun x y => x ∈ Z ∧ y ∈ Z ∧ cs.distance x y ≤ δ) (fun x hx => ?_) ?_ ha hb'
  · have h0 : eucl x x < δ := by
      unfold eucl
      simpa using hδ
    have hn := (eucl_continuous x).continuousAt.eventually_lt continuousAt_const h0
    filter_upwards [nhdsWithin_le_nhds hn, self_mem_nhdsWithin] with y hy hyZ
    have : Relation.ReflTransGen (fun x y => x ∈ Z ∧ y ∈ Z ∧ cs.distance x y ≤ δ) x y := .single ⟨hx, hyZ, (distance_le_eucl hb x y).trans hy.le⟩
    exact ⟨this, hsymm _ _ this⟩
  · intro x y z _ _ _ h1 h2
    exact h1.trans h2

section
variable {cs : CoordSys d} (hb : ProperBox cs) {fs ε R : ℝ} {Z : ι → Set (Vec d)} {positions : List (Vec d)} (hS : Sampled cs fs ε R Z positions)
include hb hS

theorem sampled_unique {i j : ι} {x y z z' : Vec d} (hz : z ∈ Z i) (hz' : z' ∈ Z j) (hx : cs.distance x z ≤ ε) (hy : cs.distance y z' ≤ ε) (hxy : cs.distance x y ≤ fs) : i = j := by
  have hmet := C03_distance_metric cs hb
  by_contra hne
  have h1 := hS.apart i j hne z hz z' hz'
  have h2 := (hmet z x z').2.2.1
  have h3 := (hmet x y z').2.2.1
  rw [(hmet z x x).2.1] at h2
  linarith

theorem sampled_chain_to {i : ι} {x y : Vec d} (hx : ∃ z ∈ Z i, cs.distance x z ≤ ε) (h : Chain cs fs positions x y) : ∃ z ∈ Z i, cs.distance y z ≤ ε := by
  induction h with
  | refl => exact hx
  | tail _ hbc ih =>
    obtain ⟨z, hz, h1⟩ := ih
    obtain ⟨j, z', hz', h2⟩ := hS.near _ hbc.2.1
    rw [sampled_unique hb hS hz hz' h1 h2 hbc.2.2]
    exact ⟨z', hz', h2⟩

theorem sampled_chain {i : ι} {x y : Vec d} (hx : x ∈ positions) (hy : y ∈ positions) (hxi : ∃ z ∈ Z i, cs.distance x z ≤ ε) (hyi : ∃ z ∈ Z i, cs.distance y z ≤ ε) : Chain cs fs positions x y := by
  have hmet := C03_distance_metric cs hb
  obtain ⟨z, hz, hxz⟩ := hxi
  obtain ⟨z', hz', hyz'⟩ := hyi
  have hδ : 0 < fs - 2 * R := by linarith [hS.fine]
  have key : ∀ w, Relation.ReflTransGen (fun x y => x ∈ Z i ∧ y ∈ Z i ∧ cs.distance x y ≤ fs - 2 * R) z w → ∀ u ∈ positions, cs.distance u w ≤ R → Chain cs fs positions x u := by
    intro w hw
    induction hw with
    | refl =>
      intro u hu huz
      refine .single ⟨hx, hu, ?_⟩
      have h1 := (hmet x z u).2.2.1
      rw [(hmet z u u).2.1] at h1
      linarith [hS.precise]
    | @tail v w _ hvw ih =>
      intro u hu huw
      obtain ⟨t, ht, htv⟩ := hS.dense i v hvw.1
      refine (ih t ht htv).tail ⟨ht, hu, ?_⟩
      have h1 := (hmet t v u).2.2.1
      have h2 := (hmet v w u).2.2.1
      rw [(hmet w u u).2.1] at h2
      linarith [hvw.2.2]
  obtain ⟨u, hu, huz'⟩ := hS.dense i z' hz'
  refine (key z' (connected_chain hb (hS.connected i) hδ hz hz') u hu huz').tail ⟨hu, hy, ?_⟩
  have h1 := (hmet u z' y).2.2.1
  rw [(hmet z' y y).2.1] at h1
  linarith [hS.precise]

end

/-- **C100**.  If the positions sample a set of well separated connected pieces, then the identification gives exactly one result for each piece, made of the positions near this piece. -/
theorem C100_components {cs : CoordSys d} (hb : ProperBox cs) {fs : ℝ} (hfs : 0 < fs) {ε R : ℝ} {Z : ι → Set (Vec d)} {positions : List (Vec d)} (hS : Sampled cs fs ε R Z positions) {method : String} {out : IdContainer d}
    (h : RunFromPositions positions cs fs method (.ok out)) : OnePerPiece cs ε Z positions out := by
  have hmet := C03_distance_metric cs hb
  have hI := C65_results hb hfs h
  -- a position near each piece
  have hpos : ∀ i, ∃ x ∈ positions, ∃ z ∈ Z i, cs.distance x z ≤ ε := by
    intro i
    obtain ⟨z, hz⟩ := hS.nonempty i
    obtain ⟨x, hx, hxz⟩ := hS.dense i z hz
    obtain ⟨j, z', hz', hxz'⟩ := hS.near x hx
    have hε : 0 ≤ ε := (hmet x z' z').1.trans hxz'
    by_cases hij : i = j
    · subst hij
      exact ⟨x, hx, z', hz', hxz'⟩
    · exfalso
      have h1 := hS.apart i j hij z hz z' hz'
      have h2 := (hmet z x z').2.2.1
      rw [(hmet z x x).2.1] at h2
      linarith [hS.precise]
  choose p hp hpZ using hpos
  have hone := fun i => hI.once (p i) (hp i)
  choose f hf hfu using hone
  have hmem : ∀ i x, x ∈ (out.results.get (f i)).positions ↔ x ∈ positions ∧ ∃ z ∈ Z i, cs.distance x z ≤ ε := by
    intro i x
    have hr := List.get_mem out.results (f i)
    constructor
    · intro hx
      have hxp := (hI.given _ hr).2.2 x hx
      exact ⟨hxp, sampled_chain_to hb hS (hpZ i) ((hI.chains _ (hp i) x hxp).1 ⟨_, hr, hf i, hx⟩)⟩
    · rintro ⟨hx, hxi⟩
      obtain ⟨r, hr', h1, h2⟩ := (hI.chains _ (hp i) x hx).2 (sampled_chain hb hS (hp i) hx (hpZ i) hxi)
      obtain ⟨j, rfl⟩ := List.mem_iff_get.1 hr'
      rw [← hfu i j h1]
      exact h2
  refine ⟨Equiv.ofBijective f ⟨fun i j hij => ?_, fun k => ?_⟩, hmem⟩
  · have h1 := (hmem j (p i)).1 (hij ▸ hf i)
    obtain ⟨z, hz, hxz⟩ := hpZ i
    obtain ⟨-, z', hz', hxz'⟩ := h1
    refine sampled_unique hb hS hz hz' hxz hxz' ?_
    have h0 := (hmet (p i) z (p i)).2.2.1
    have h2 : cs.distance (p i) (p i) = 0 := (hmet (p i) (p i) (p i)).2.2.2.2 (by unfold SamePoint; split; exacts [⟨0, by funext i; simp [shift]⟩, rfl])
    rw [h2]
    exact hfs.le
  · have hr := List.get_mem out.results k
    obtain ⟨hne, -, hsub⟩ := hI.given _ hr
    obtain ⟨x, hx⟩ := List.exists_mem_of_ne_nil _ hne
    have hxp := hsub x hx
    obtain ⟨i, hxi⟩ := hS.near x hxp
    refine ⟨i, ?_⟩
    exact (hI.once x hxp).unique ((hmem i x).2 ⟨hxp, hxi⟩) hx

/-- **C100**, search and identification together.  The gap function is at most the threshold only within `ε` of the pieces, which are connected and well separated, and the nodes that have been found lie densely.  Then there is exactly
one result for each piece. -/
theorem C100_search (hdim : 1 ≤ d) {p : CtlParams d} (hd : DistinctInput p) (hb : ProperBox p.coord) (hfs : 0 < p.featureSize) {P : NMParams} (hft : P.ftol ≠ FVal.inf) (hc : P.fprimeCutoff = none)
    {G : Vec d → FVal → Prop} {ε R : ℝ} {Z : ι → Set (Vec d)} (hne : ∀ i, (Z i).Nonempty) (hconn : ∀ i, IsPreconnected (Z i)) (hapart : ∀ i j, i ≠ j → ∀ z ∈ Z i, ∀ z' ∈ Z j, p.featureSize + 2 * ε < p.coord.distance z z')
    (hG : ∀ x v, G x (FVal.ofReal v) → v ≤ p.gapThreshold → ∃ i, ∃ z ∈ Z i, p.coord.distance x z ≤ ε) (hfine : 2 * R < p.featureSize) (hprec : ε + R ≤ p.featureSize)
    {c : Ctl d} (hw : ReachWith p (MinimizationOf P G) c) (hdense : ∀ i, ∀ z ∈ Z i, ∃ n ∈ c.state.result.nodes.values, p.coord.distance n.pos z ≤ R)
    {method : String} {out : IdContainer d} (hr : IdentifyRun (.container c.state.result) method none (.ok out)) :
    OnePerPiece p.coord ε Z (c.state.result.nodes.values.map fun n => n.pos) out := by
  refine C100_components hb hfs (R := R) ⟨hne, hconn, hapart, fun x hx => ?_, fun i z hz => ?_, hfine, hprec⟩ ((C65_default_feature_size hd (reachWith_reach hw).any).1 hr)
  · obtain ⟨n, hn, rfl⟩ := List.mem_map.1 hx
    obtain ⟨v, -, h1, y, h2, h3⟩ := C45_nodes_below_threshold hdim hb hft hc hw hn
    obtain ⟨i, z, hz, hyz⟩ := hG y v h3 h1
    refine ⟨i, z, hz, ?_⟩
    have hmet := C03_distance_metric p.coord hb
    have e1 := ((hmet y n.pos n.pos).2.2.2).2 h2
    have e2 := (hmet n.pos y z).2.2.1
    rw [(hmet n.pos y y).2.1, e1] at e2
    linarith
  · obtain ⟨n, hn, h⟩ := hdense i z hz
    exact ⟨n.pos, List.mem_map.2 ⟨n, hn, rfl⟩, h⟩

/-! ### Examples -/

namespace C100Demo
open C98Demo (line P dist_P line_proper P_inj)

/-- a segment and a point of the interval `[0, 10]` -/
def Z : Bool → Set (Vec 1)
  | true => P '' Set.Icc 1 3
  | false => {P 8}

/-- positions which sample them -/
def positions : List (Vec 1) := [P 1, P 2.05, P 3, P 8.05]

theorem P_continuous : Continuous P := by
  unfold P
  fun_prop

theorem segment_connected (a b : ℝ) : IsPreconnected (P '' Set.Icc a b) := isPreconnected_Icc.image _ P_continuous.continuousOn

theorem sampled : Sampled line 1.5 0.1 0.6 Z positions := by
  refine ⟨?_, ?_, ?_, ?_, ?_, by norm_num, by norm_num⟩
  · rintro (_ | _)
    exacts [⟨_, rfl⟩, ⟨_, 1, by norm_num, rfl⟩]
  · rintro (_ | _)
    exacts [isPreconnected_singleton, segment_connected 1 3]
  · rintro (_ | _) (_ | _) hne
    · exact absurd rfl hne
    · rintro _ rfl _ ⟨t, ht, rfl⟩
      rw [dist_P, lt_abs]
      exact .inl (by linarith [ht.2])
    · rintro _ ⟨t, ht, rfl⟩ _ rfl
      rw [dist_P, lt_abs]
      exact .inr (by linarith [ht.2])
    · exact absurd rfl hne
  · intro x hx
    simp only [positions, List.mem_cons, List.not_mem_nil, or_false] at hx
    rcases hx with rfl | rfl | rfl | rfl
    · exact ⟨true, P 1, ⟨1, by norm_num, rfl⟩, by rw [dist_P]; norm_num⟩
    · exact ⟨true, P 2, ⟨2, by norm_num, rfl⟩, by rw [dist_P]; norm_num [abs_le]⟩
    · exact ⟨true, P 3, ⟨3, by norm_num, rfl⟩, by rw [dist_P]; norm_num⟩
    · exact ⟨false, P 8, rfl, by rw [dist_P]; norm_num [abs_le]⟩
  · rintro (_ | _)
    · rintro _ rfl
      exact ⟨P 8.05, by simp [positions], by rw [dist_P]; norm_num [abs_le]⟩
    · rintro _ ⟨t, ht, rfl⟩
      rcases le_total t 1.5 with h | h
      · exact ⟨P 1, by simp [positions], by rw [dist_P, abs_le]; constructor <;> linarith [ht.1]⟩
      · rcases le_total t 2.5 with h' | h'
        · exact ⟨P 2.05, by simp [positions], by rw [dist_P, abs_le]; constructor <;> norm_num at h h' ⊢ <;> linarith⟩
        · exact ⟨P 3, by simp [positions], by rw [dist_P, abs_le]; constructor <;> norm_num at h h' ⊢ <;> linarith [ht.2]⟩

/-- The identification gives two results, for the segment and for the point. -/
example : ∃ out, RunFromPositions positions line 1.5 "ballistic" (.ok out) ∧ OnePerPiece line 0.1 Z positions out ∧ out.results.length = 2 := by
  obtain ⟨⟨r, hr⟩, h2⟩ := C65_never_raises line_proper (fs := 1.5) (by norm_num) positions (method := "ballistic") (.inl rfl)
  obtain ⟨out, rfl, -⟩ := h2 r hr
  have h := C100_components line_proper (by norm_num) sampled hr
  obtain ⟨e, he⟩ := h
  refine ⟨out, hr, ⟨e, he⟩, ?_⟩
  simpa using (Fintype.card_congr e).symm

/-- C100 does not hold without enough positions on each piece: the ends of a segment alone, more than the feature size apart, give two results. -/
theorem _root_.NF.C100_sparse_splits {out : IdContainer 1} (h : RunFromPositions [P 1, P 3] line 1.5 "ballistic" (.ok out)) : ¬ OnePerPiece line 0.1 (fun _ : Unit => P '' Set.Icc 1 3) [P 1, P 3] out := by
  rintro ⟨e, he⟩
  have h1 := (he () (P 1)).2 ⟨by simp, P 1, ⟨1, by norm_num, rfl⟩, by rw [dist_P]; norm_num⟩
  have h3 := (he () (P 3)).2 ⟨by simp, P 3, ⟨3, by norm_num, rfl⟩, by rw [dist_P]; norm_num⟩
  have hc := ((C65_results line_proper (by norm_num) h).chains (P 1) (by simp) (P 3) (by simp)).1 ⟨_, List.get_mem out.results (e ()), h1, h3⟩
  have key : ∀ y, Chain line 1.5 [P 1, P 3] (P 1) y → y = P 1 := by
    intro y hy
    induction hy with
    | refl => rfl
    | tail _ hbc ih =>
      obtain ⟨-, hc, hd⟩ := hbc
      subst ih
      simp only [List.mem_cons, List.not_mem_nil, or_false] at hc
      rcases hc with rfl | rfl
      · rfl
      · rw [dist_P] at hd
        norm_num [abs_le] at hd
  exact absurd (P_inj (key _ hc)) (by norm_num)

/-- C100 does not hold for pieces which are within the feature size of each other: they give one result. -/
theorem _root_.NF.C100_close_merge {out : IdContainer 1} (h : RunFromPositions [P 1, P 2] line 1.5 "ballistic" (.ok out)) : ¬ OnePerPiece line 0.1 (fun i : Bool => {if i then P 1 else P 2}) [P 1, P 2] out := by
  rintro ⟨e, he⟩
  have h1 := (he true (P 1)).2 ⟨by simp, P 1, by simp, by rw [dist_P]; norm_num⟩
  have h2 : P 2 ∈ (out.results.get (e true)).positions := by
    have hI := C65_results line_proper (by norm_num) h
    obtain ⟨r, hr, hr1, hr2⟩ := (hI.chains (P 1) (by simp) (P 2) (by simp)).2 (.single ⟨by simp, by simp, by rw [dist_P]; norm_num [abs_le]⟩)
    obtain ⟨j, rfl⟩ := List.mem_iff_get.1 hr
    rw [(hI.once (P 1) (by simp)).unique h1 hr1]
    exact hr2
  obtain ⟨-, z, hz, hd⟩ := (he true (P 2)).1 h2
  simp only [if_true, Set.mem_singleton_iff] at hz
  rw [hz, dist_P] at hd
  norm_num [abs_le] at hd

open Demo in
open C45Demo hiding res reach in
open C78Demo in
/-- The hypotheses of `C100_search` are met by a search that has found a node at the tip of a cone; the identification gives one result. -/
example : ∃ c : Ctl 1, ReachWith params (MinimizationOf C78Demo.P G) c ∧ (∀ z ∈ ({Demo.pt 0} : Set (Vec 1)), ∃ n ∈ c.state.result.nodes.values, params.coord.distance n.pos z ≤ 1 / 40) ∧
    ∃ out, IdentifyRun (.container c.state.result) "ballistic" none (.ok out) ∧ OnePerPiece params.coord (1 / 40) (fun _ : Unit => {Demo.pt 0}) (c.state.result.nodes.values.map fun n => n.pos) out ∧ out.results.length = 1 := by
  have hn : (taskDone params c1 s (.plain res)).state.result.nodes.values ≠ [] := by
    have hres : (taskDone params c1 s (.plain res)).state.result = (c1.state.result.addResult (.plain res)).1 := by
      unfold taskDone
      simp only
      split <;> exact (processResult_cases params c1.state _).1
    rw [hres, Container.addResult_def, if_pos (by exact res_ok)]
    simp [CellList.values, CellList.addPoint]
  have hmet := C03_distance_metric params.coord geometry.1
  have hG : ∀ x v, G x (FVal.ofReal v) → v ≤ params.gapThreshold → params.coord.distance x (Demo.pt 0) ≤ 1 / 40 := by
    intro x v h hv
    have hv' : v = 40 * |x 0| := by
      have h : FVal.ofReal v = FVal.ofReal (40 * |x 0|) := h
      unfold FVal.ofReal at h
      exact_mod_cast h
    have : params.coord.distance x (Demo.pt 0) = |x 0| := by
      rw [C03_distance_nonperiodic _ rfl]
      simp [eucl, Demo.pt, Real.sqrt_sq_eq_abs]
    rw [this]
    have h1 : params.gapThreshold = 1 := rfl
    rw [h1] at hv
    linarith
  have hft : C78Demo.P.ftol ≠ FVal.inf := by simp [C78Demo.P, FVal.ofReal, FVal.inf]
  have hdense : ∀ z ∈ ({Demo.pt 0} : Set (Vec 1)), ∃ n ∈ (taskDone params c1 s (.plain res)).state.result.nodes.values, params.coord.distance n.pos z ≤ 1 / 40 := by
    rintro _ rfl
    obtain ⟨n, hn⟩ := List.exists_mem_of_ne_nil _ hn
    refine ⟨n, hn, ?_⟩
    obtain ⟨v, -, h1, y, h2, h3⟩ := C45_nodes_below_threshold le_rfl geometry.1 hft rfl reach hn
    have e0 := hG y v h3 h1
    have e1 := ((hmet y n.pos n.pos).2.2.2).2 h2
    have e2 := (hmet n.pos y (Demo.pt 0)).2.2.1
    rw [(hmet n.pos y y).2.1, e1] at e2
    linarith
  obtain ⟨⟨r, hr⟩, h2⟩ := C65_never_raises (cs := params.coord) geometry.1 (fs := params.featureSize) (by norm_num [params])
    ((taskDone params c1 s (.plain res)).state.result.nodes.values.map fun n => n.pos) (.inl rfl)
  obtain ⟨out, rfl, -⟩ := h2 r hr
  have hr' := (C65_default_feature_size distinct (reachWith_reach reach).any).2 hr
  have h := C100_search le_rfl distinct geometry.1 (by norm_num [params]) hft rfl (R := 1 / 40) (ε := 1 / 40) (Z := fun _ : Unit => {Demo.pt 0}) (fun _ => ⟨_, rfl⟩) (fun _ => isPreconnected_singleton)
    (fun i j hij => absurd rfl hij) (fun x v hx hv => ⟨(), _, rfl, hG x v hx hv⟩) (by norm_num [params]) (by norm_num [params]) reach (fun _ => hdense) hr'
  refine ⟨_, reach, hdense, out, hr', h, ?_⟩
  obtain ⟨e, -⟩ := h
  simpa using (Fintype.card_congr e).symm

end C100Demo

end NF
