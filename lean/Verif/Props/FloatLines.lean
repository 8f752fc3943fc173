import Verif.Props.FloatFind
import Verif.Props.FloatRun

/-!
# C117: search and identification in double precision, with lines

`FL.IdentifyBy R (.container c.state.result) method none r` : `identify.run` can have the result `r` (or raise), for the result of the search in its state `c`, with the default of `feature_size`.
-/

noncomputable section
open Classical

namespace NF
open Spec NxGraph CoordSys
variable {d : ℕ} {A : FL.CtlArith d} {p : CtlParams d} {Res : Simplex d → SRes d → Prop} {n : ℕ} {c : Ctl d} {R : FL.RunArith d} {M : Vec d} {method : String}

/-- The positions that the search has found are near the box. -/
theorem search_moderate (hS : FloatSearch A p Res) (hn : NearBox p Res) (h : FL.Reach A p Res n c) (hM : ModerateBox p.coord M) (hMb : ∀ i, |p.coord.lower i| + 2 * (p.coord.upper i - p.coord.lower i) ≤ M i)
    (hfew : (c.state.result.nodes.values.length : ℝ) / 2 ^ 53 ≤ 1 / 100) : Moderate p.coord (c.state.result.nodes.values.map fun r => r.pos) M := by
  have hin : ∀ x ∈ c.state.result.nodes.values.map (fun r => r.pos), FL.InReach p x := by
    intro x hx
    obtain ⟨q, hq, rfl⟩ := List.mem_map.1 hx
    exact ((FL.reach_src hS hn h).nodes q hq).1.2.1
  refine ⟨hM, fun x hx i => hin x hx i, fun x hx i => ?_, by rw [List.length_map]; exact hfew⟩
  have h1 := (hin x hx i).1
  have h2 : |x i| ≤ |x i - p.coord.lower i| + |p.coord.lower i| := by
    have := abs_add_le (x i - p.coord.lower i) (p.coord.lower i)
    rwa [sub_add_cancel] at this
  linarith [hMb i]

/-- The default feature size of the identification is that of the search, up to rounding. -/
theorem identifyBy_default (hS : FloatSearch A p Res) (hfs : 0 < p.featureSize) (hr : IsNearest R.id.rnd) (h : FL.Reach A p Res n c) :
    ∃ fs, 0 < fs ∧ |fs - p.featureSize| ≤ p.featureSize / 2 ^ 51 ∧
      ∀ r, FL.IdentifyBy R (.container c.state.result) method none r ↔ FL.RunBy R (c.state.result.nodes.values.map fun r => r.pos) p.coord fs method r := by
  have hcoord : c.state.result.coord = p.coord := (FL.good_reach hS h).1.cont.coord
  have hcut := FL.reach_cutoff hS h
  have h1 := default_featureSize hS.nearest hr hfs
  refine ⟨R.id.rnd (A.rnd (p.featureSize / 3) * 3), ?_, h1, fun r => ⟨fun hr => ?_, fun hr => .default rfl ?_⟩⟩
  · have h2 := (abs_le.1 h1).1
    norm_num at h2
    linarith
  · generalize ho : (none : Option ℝ) = o at hr
    cases hr with
    | noCutoff h => cases h
    | default h hrun => cases h; rwa [hcoord, hcut] at hrun
    | given => cases ho
  · rw [hcoord, hcut]
    exact hr

/-- **C117 (results).**  Identifying what a search has found, after any number of crashes and restarts, finished or not, with any method for lines and the default feature size (that of the search, up to rounding): the result describes the
nodes that the search has found, each once, by points and lines (C116). -/
theorem C117_results (hS : FloatSearch A p Res) (hn : NearBox p Res) (hfs : 0 < p.featureSize) (h : FL.Reach A p Res n c) (hB : IdAccurate R.id p.coord (c.state.result.nodes.values.map fun r => r.pos)) (hSP : SPAccurate R.sp)
    (hD : DSPaths R.ds) (hM : ModerateBox p.coord M) (hMb : ∀ i, |p.coord.lower i| + 2 * (p.coord.upper i - p.coord.lower i) ≤ M i) (hfew : (c.state.result.nodes.values.length : ℝ) / 2 ^ 53 ≤ 1 / 100)
    {out : IdContainer d} (hid : FL.IdentifyBy R (.container c.state.result) method none (.ok out)) :
    ∃ fs, |fs - p.featureSize| ≤ p.featureSize / 2 ^ 51 ∧ IdentifiedNearly R.id.rnd (c.state.result.nodes.values.map fun r => r.pos) p.coord fs (distanceError p.coord) out := by
  obtain ⟨fs, -, h1, h2⟩ := identifyBy_default (R := R) (method := method) hS hfs hB.nearest h
  exact ⟨fs, h1, C116_results hS.box hB (search_moderate hS hn h hM hMb hfew) hSP hD ((h2 _).1 hid)⟩

/-- **C117 (genuine).**  Every position in a cluster, and so every position on a line, is the normalized position of a point at which the gap function has returned a value below the threshold, up to the drift of restarts. -/
theorem C117_genuine (hd : 1 ≤ d) {P : NMParams} {G : Vec d → FVal → Prop} (hft : P.ftol ≠ FVal.inf) (hc : P.fprimeCutoff = none ∨ ∀ x, ¬ G x FVal.nan)
    (hR : ∀ s r, Res s r → FloatMinimizationOf A.rnd P G s r) (hS : FloatSearch A p Res) (hn : NearBox p Res) (hfs : 0 < p.featureSize) (h : FL.Reach A p Res n c)
    (hB : IdAccurate R.id p.coord (c.state.result.nodes.values.map fun r => r.pos)) (hSP : SPAccurate R.sp) (hD : DSPaths R.ds) (hM : ModerateBox p.coord M) (hMb : ∀ i, |p.coord.lower i| + 2 * (p.coord.upper i - p.coord.lower i) ≤ M i)
    (hfew : (c.state.result.nodes.values.length : ℝ) / 2 ^ 53 ≤ 1 / 100) {out : IdContainer d} (hid : FL.IdentifyBy R (.container c.state.result) method none (.ok out)) {r : IdResult d} (hr : r ∈ out.results) :
    (∀ x ∈ r.positions, ∃ (y : Vec d) (v : ℝ), G y (FVal.ofReal v) ∧ v ≤ p.gapThreshold ∧ p.coord.distance (FL.normalizePosition A.rnd p.coord y) x ≤ n * driftError p.coord) ∧
    ∀ l, r.shape = some (.line l) → ∀ x ∈ l.graph.nodes, ∃ (y : Vec d) (v : ℝ), G y (FVal.ofReal v) ∧ v ≤ p.gapThreshold ∧ p.coord.distance (FL.normalizePosition A.rnd p.coord y) x ≤ n * driftError p.coord := by
  obtain ⟨fs, -, hI⟩ := C117_results hS hn hfs h hB hSP hD hM hMb hfew hid
  have key : ∀ x ∈ r.positions, ∃ (y : Vec d) (v : ℝ), G y (FVal.ofReal v) ∧ v ≤ p.gapThreshold ∧ p.coord.distance (FL.normalizePosition A.rnd p.coord y) x ≤ n * driftError p.coord := by
    intro x hx
    obtain ⟨q, hq, rfl⟩ := List.mem_map.1 ((hI.given r hr).2.2 x hx)
    obtain ⟨v, -, hv, y, hy, hyq⟩ := C103_nodes_below_threshold hd hft hc hR hS hn h hq
    exact ⟨y, v, hy, hv, hyq⟩
  refine ⟨key, fun l hl x hx => key x ?_⟩
  by_cases h1 : r.dimension = some 1
  · obtain ⟨l', e, hl'⟩ := hI.line r hr h1 _ hl
    cases e
    exact hl'.nodes x hx
  · by_cases h0 : r.dimension = some 0
    · obtain ⟨q, e, -⟩ := hI.point r hr h0
      rw [e] at hl
      cases hl
    · rw [hI.other r hr h0 h1] at hl
      cases hl

/-- **C117 (complete).**  Every minimization that has been completed with a value below the threshold (a node) is in exactly one of the clusters, at its normalized position. -/
theorem C117_complete (hS : FloatSearch A p Res) (hn : NearBox p Res) (hfs : 0 < p.featureSize) (h : FL.Reach A p Res n c) (hB : IdAccurate R.id p.coord (c.state.result.nodes.values.map fun r => r.pos)) (hSP : SPAccurate R.sp)
    (hD : DSPaths R.ds) (hM : ModerateBox p.coord M) (hMb : ∀ i, |p.coord.lower i| + 2 * (p.coord.upper i - p.coord.lower i) ≤ M i) (hfew : (c.state.result.nodes.values.length : ℝ) / 2 ^ 53 ≤ 1 / 100)
    {out : IdContainer d} (hid : FL.IdentifyBy R (.container c.state.result) method none (.ok out)) {r : SRes d} (hr : r ∈ completedResults c.log) (hnode : IsNode p.gapThreshold r) :
    ∃! i : Fin out.results.length, FL.normalizePosition A.rnd p.coord r.pos ∈ (out.results.get i).positions := by
  obtain ⟨fs, -, hI⟩ := C117_results hS hn hfs h hB hSP hD hM hMb hfew hid
  have h1 : r.setPos (FL.normalizePosition A.rnd p.coord r.pos) ∈ c.state.result.minimizationResults :=
    (C103_results hS h).mem_iff.2 (List.mem_append_right _ (List.mem_map.2 ⟨r, hr, rfl⟩))
  have h2 := (C103_results_genuine hS hn h h1).2.2 (by
    unfold IsNode at hnode ⊢
    rwa [SRes.success_setPos, SRes.value_setPos])
  exact hI.once _ (List.mem_map.2 ⟨_, h2, SRes.pos_setPos _ _⟩)

/-- **C117 (never raises).**  With the method `shortest_path`, identifying what a search has found never raises and always finishes, and neither does it raise with the method `ballistic` if the box is not periodic; all clusters of dimension
one get a line. -/
theorem C117_never_raises (hS : FloatSearch A p Res) (hn : NearBox p Res) (hfs : 0 < p.featureSize) (h : FL.Reach A p Res n c) (hB : IdAccurate R.id p.coord (c.state.result.nodes.values.map fun r => r.pos)) (hSP : SPAccurate R.sp)
    (hBl : BlasAccurate R.blas) (hM : ModerateBox p.coord M) (hMb : ∀ i, |p.coord.lower i| + 2 * (p.coord.upper i - p.coord.lower i) ≤ M i) (hfew : (c.state.result.nodes.values.length : ℝ) / 2 ^ 53 ≤ 1 / 100)
    (hm : method = "shortest_path" ∨ method = "ballistic" ∧ p.coord.periodic = false) :
    (∃ r, FL.IdentifyBy R (.container c.state.result) method none r) ∧
    ∀ r, FL.IdentifyBy R (.container c.state.result) method none r → ∃ out, r = .ok out ∧ ∀ x ∈ out.results, x.dimension = some 1 → ∃ l, x.shape = some (.line l) := by
  obtain ⟨fs, h0, h1, h2⟩ := identifyBy_default (R := R) (method := method) hS hfs hB.nearest h
  have hMod := search_moderate hS hn h hM hMb hfew
  obtain ⟨⟨r, hr⟩, h3⟩ := C116_never_raises (fs := fs) (method := method) hS.box hB hMod h0.le hSP hBl (hm.imp id fun hb => ⟨hb.1, fun _ hc h2 => C114_resolved_open hb.2 hc h2⟩)
  exact ⟨⟨r, (h2 r).2 hr⟩, fun r hr => h3 r ((h2 r).1 hr)⟩

/-! ## Examples -/

namespace C117Demo
open C113Demo

variable {rnd : ℝ → ℝ} (hr : IsNearest rnd)
include hr

/-- the search of C113 meets the hypotheses -/
theorem meets {p : CtlParams 1} {P : NMParams} (hset : FL.setup rnd (FL.meshStencil rnd (fun _ : Fin 1 => 3) 2.5) args = .ok (p, P)) {c : Ctl 1}
    (hc : FloatReachLive (C103Demo.arith rnd) p (FloatLiveMinimization (C103Demo.arith rnd) p P gap) 1 c) :
    FloatSearch (C103Demo.arith rnd) p (AnyNodes (FloatLiveMinimization (C103Demo.arith rnd) p P gap)) ∧ p.coord.periodic = true ∧ 0 < p.featureSize ∧
    FL.Reach (C103Demo.arith rnd) p (AnyNodes (FloatLiveMinimization (C103Demo.arith rnd) p P gap)) 1 c ∧ ModerateBox p.coord (fun _ : Fin 1 => 40) ∧
    (∀ i, |p.coord.lower i| + 2 * (p.coord.upper i - p.coord.lower i) ≤ (fun _ : Fin 1 => (40 : ℝ)) i) ∧ (c.state.result.nodes.values.length : ℝ) / 2 ^ 53 ≤ 1 / 100 ∧
    c.state.result.nodes.values.length * distanceError p.coord ≤ p.featureSize / 101 := by
  obtain ⟨-, -, -, eft, efs, egap, hlim, eper, ⟨k, hk, eauto, -⟩, -, hmesh, -, -, erec, ecut, -, -, eforce, -⟩ := C104_settings hr hset
  have hm : p.mesh = FL.initialSimplices rnd p.coord fun _ => 100 := hmesh 100 rfl
  have hlim' : ∀ i, p.coord.lower i = -8 ∧ p.coord.upper i = 8 := fun i => by
    rw [(hlim i).1, (hlim i).2]
    norm_num [args, C106Demo.args]
  have hL : |(args.limits 0).2 - (args.limits 0).1| = 16 := by norm_num [args, C106Demo.args]
  have hS : FloatSearch (C103Demo.arith rnd) p (AnyNodes (FloatLiveMinimization (C103Demo.arith rnd) p P gap)) :=
    floatSearch_one (A := C103Demo.arith rnd) (n := 100) hr C106Demo.distances (C106Demo.auto_near hr) hset (by norm_num [args, C106Demo.args]) (C106Demo.limits 0) (.inl rfl) (by norm_num [args, C106Demo.args])
      (by norm_num [args, C106Demo.args]) (by norm_num) rfl (by norm_num [args, C106Demo.args]) (.inl rfl)
  have hmet := C03_distance_metric p.coord hS.box
  have hfs : p.featureSize = 1 := efs
  have hgap : p.gapThreshold = 1 / 20 := egap
  have hde : distanceError p.coord ≤ 1 / 10 ^ 9 := by
    rw [distanceError_one, (hlim' 0).1, (hlim' 0).2]
    norm_num
  have hdr : driftError p.coord ≤ 1 / 10 ^ 9 := by
    rw [driftError_one, (hlim' 0).1, (hlim' 0).2]
    norm_num
  have hdr0 : 0 ≤ driftError p.coord := Real.sqrt_nonneg _
  have hg : FloatGeometry p (AnyNodes (FloatLiveMinimization (C103Demo.arith rnd) p P gap)) := by
    refine ⟨by rw [hfs]; norm_num, .inl eper, .inl eper, ?_, by norm_num⟩
    rw [hfs]
    norm_num at hde ⊢
    linarith
  have hR : ∀ s r, AnyNodes (FloatLiveMinimization (C103Demo.arith rnd) p P gap) s r → FloatMinimizationOf (C103Demo.arith rnd).rnd P (fun x v => v = gap x) s r := by
    rintro s r ⟨nodes, B, fake, sim0, h1, h2, -, h4, h5⟩
    exact ⟨B, _, fake, sim0, h1, h2, fun _ _ => rfl, h4, h5⟩
  have hreach := FL.live_reach hc
  have hfew : c.state.result.nodes.values.length ≤ 1000 := by
    have h1 := (C110_evaluations_float le_rfl hR hS eforce hreach).1
    have h2 := C103_refinements_bounded hS hg erec hreach
    have h3 : p.mesh.length = 100 := by
      rw [hm, (C104_mesh_shape hr hS.box hS.floats fun i => by norm_num).1]
      simp
    have h4 : (p.stencil.getD []).length = 2 := by
      rw [eauto rfl, Option.getD_some]
      show (List.map _ _).length = 2
      rw [List.length_map, (C106Demo.auto_near hr).length_eq, (C50_auto 1).1]
      norm_num
    have h5 : packingBound (reachBox p.coord) (p.featureSize / 3 * (1 - 1 / 2 ^ 39) - distanceError p.coord) p.recheckCountCutoff.toNat ≤ 401 := by
      rw [show p.recheckCountCutoff = 0 from ecut, hfs]
      unfold packingBound reachBox
      simp only [(hlim' _).1, (hlim' _).2, Fin.prod_univ_one, Int.toNat_zero, zero_add, one_mul]
      refine Nat.succ_le_succ (Nat.floor_le_of_le ?_)
      have : (8 / 25 : ℝ) ≤ 1 / 3 * (1 - 1 / 2 ^ 39) - distanceError p.coord := by
        norm_num at hde ⊢
        linarith
      rw [div_le_iff₀ (by linarith)]
      push_cast
      linarith
    rw [Container.minimizationResults, List.length_append, h3, h4] at h1
    omega
  have hfew' : (c.state.result.nodes.values.length : ℝ) ≤ 1000 := by exact_mod_cast hfew
  have hM : ModerateBox p.coord (fun _ : Fin 1 => 40) := by
    refine ⟨by norm_num, fun i => by rw [(hlim' i).1, (hlim' i).2]; norm_num, ?_⟩
    rw [C112Demo.len_one, C112Demo.len_one, (hlim' 0).1, (hlim' 0).2]
    norm_num
  have hsmall : c.state.result.nodes.values.length * distanceError p.coord ≤ p.featureSize / 101 := by
    have hde0 : 0 ≤ distanceError p.coord := by unfold distanceError; positivity
    have := mul_le_mul hfew' hde hde0 (by norm_num)
    rw [hfs]
    norm_num at this ⊢
    linarith
  exact ⟨hS, eper, hg.positive, hreach, hM, fun i => by rw [(hlim' i).1, (hlim' i).2]; norm_num, (div_le_iff₀ (by norm_num)).2 (hfew'.trans (by norm_num)), hsmall⟩

/-- the hypotheses of the theorems: the search of C113 on a circle, with `shortest_path` -/
example : ∃ (A : FL.CtlArith 1) (R : FL.RunArith 1) (p : CtlParams 1) (P : NMParams) (c : Ctl 1) (out : IdContainer 1) (fs : ℝ), IsNearest A.rnd ∧ FloatReachLive A p (FloatLiveMinimization A p P gap) 1 c ∧ c.phase = .returned ∧
    FL.IdentifyBy R (.container c.state.result) "shortest_path" none (.ok out) ∧ IdentifiedNearly R.id.rnd (c.state.result.nodes.values.map fun r => r.pos) p.coord fs (distanceError p.coord) out := by
  obtain ⟨p, P, hset⟩ := setup_ok (rnd := C102Demo.rndEven)
  obtain ⟨c, h1, h2⟩ := returns C102Demo.rndEven_nearest hset
  obtain ⟨hS, hper, hfs, h, hM, hMb, hfew, -⟩ := meets C102Demo.rndEven_nearest hset h1
  let R : FL.RunArith 1 := ⟨C112Demo.arith C102Demo.rndEven p.coord, exactBlas, exactSP, C116Demo.exactDS _⟩
  have hB : IdAccurate R.id p.coord (c.state.result.nodes.values.map fun r => r.pos) := C112Demo.accurate C102Demo.rndEven_nearest p.coord _
  obtain ⟨⟨r, hid⟩, h3⟩ := C117_never_raises (R := R) hS (.inl hper) hfs h hB exactSP_accurate exactBlas_accurate hM hMb hfew (.inl rfl)
  obtain ⟨out, rfl, -⟩ := h3 r hid
  obtain ⟨fs, -, hI⟩ := C117_results (R := R) hS (.inl hper) hfs h hB exactSP_accurate (C116Demo.exactDS_paths _) hM hMb hfew hid
  exact ⟨C103Demo.arith C102Demo.rndEven, R, p, P, c, out, fs, C102Demo.rndEven_nearest, h1, h2, hid, hI⟩

end C117Demo

end NF
