import Verif.Spec.Exact
import Verif.Props.Live
import Verif.Props.Isolated

/-! # C88: in one dimension, search and identification together find the minima of the gap function, exactly -/

noncomputable section
open Classical
namespace NF
open Spec CoordSys Container NMDemo

theorem distance_le_abs {cs : CoordSys 1} (hb : ProperBox cs) (x y : Vec 1) : cs.distance x y ≤ |x 0 - y 0| := by
  have heu : ∀ z : Vec 1, eucl x z = |x 0 - z 0| := fun z => by simp [eucl, Real.sqrt_sq_eq_abs]
  by_cases hp : cs.periodic = true
  · refine ((C04_distance_is_min_over_images cs hb hp x y).2 0).trans_eq ?_
    rw [heu]
    simp [shift]
  · rw [C03_distance_nonperiodic cs (by simpa using hp), heu]

/-- in a valley, with the points below the threshold near isolated points, a point below the threshold is near the bottom -/
theorem valley_near {cs : CoordSys 1} (hb : ProperBox cs) {fs r t : ℝ} (hfs : 0 < fs) {Z : Set (Vec 1)} (hZ : Isolated cs fs r Z) {G : Vec 1 → FVal}
    (hG : ∀ x v, G x = FVal.ofReal v → v ≤ t → ∃ z ∈ Z, cs.distance x z ≤ r) {z : Vec 1} (hz : z ∈ Z) {g : ℝ → ℝ} {W : ℝ} (hv : Valley g (z 0) W)
    (hGg : ∀ x : Vec 1, |x 0 - z 0| ≤ W → G x = FVal.ofReal (g (x 0))) {x : ℝ} (hx : |x - z 0| ≤ W) (hgx : g x ≤ t) : |x - z 0| ≤ r := by
  by_contra hlt
  push Not at hlt
  have hr : 0 ≤ r := by
    have hle : g (z 0) ≤ g x := by
      obtain ⟨h1, h2⟩ := abs_le.1 hx
      rcases le_total x (z 0) with h | h
      · exact hv.falls.antitoneOn ⟨by linarith, h⟩ ⟨by linarith, le_rfl⟩ h
      · exact hv.rises.monotoneOn ⟨le_rfl, by linarith⟩ ⟨h, by linarith⟩ h
    obtain ⟨w, -, hw⟩ := hG z _ (hGg z (by rw [sub_self, abs_zero]; exact (abs_nonneg _).trans hx)) (hle.trans hgx)
    exact ((C03_distance_metric cs hb z w w).1).trans hw
  -- a point between the bottom and `x`, farther than `r` but not much
  obtain ⟨y, hy1, hy2, hy3, hy4⟩ : ∃ y, r < |y - z 0| ∧ |y - z 0| ≤ r + fs / 2 ∧ |y - z 0| ≤ W ∧ g y ≤ g x := by
    obtain ⟨h1, h2⟩ := abs_le.1 hx
    have hs0 : 0 < min (|x - z 0|) (r + fs / 2) := lt_min (hr.trans_lt hlt) (by linarith)
    have hs1 : r < min (|x - z 0|) (r + fs / 2) := lt_min hlt (by linarith)
    have hs2 : min (|x - z 0|) (r + fs / 2) ≤ r + fs / 2 := min_le_right _ _
    have hs3 : min (|x - z 0|) (r + fs / 2) ≤ |x - z 0| := min_le_left _ _
    set s := min (|x - z 0|) (r + fs / 2)
    rcases le_total x (z 0) with h | h
    · rw [abs_of_nonpos (by linarith)] at hs3
      refine ⟨z 0 - s, ?_, ?_, ?_, hv.falls.antitoneOn ⟨by linarith, h⟩ ⟨by linarith, by linarith⟩ (by linarith)⟩ <;>
      · rw [show z 0 - s - z 0 = -s by ring, abs_neg, abs_of_pos hs0]
        linarith
    · rw [abs_of_nonneg (by linarith)] at hs3
      refine ⟨z 0 + s, ?_, ?_, ?_, hv.rises.monotoneOn ⟨by linarith, by linarith⟩ ⟨h, by linarith⟩ (by linarith)⟩ <;>
      · rw [show z 0 + s - z 0 = s by ring, abs_of_pos hs0]
        linarith
  have hprec := hZ.precise
  obtain ⟨w, hw, hyw⟩ := hG (fun _ => y) _ (hGg _ hy3) (hy4.trans hgx)
  have hyz : cs.distance (fun _ => y) z ≤ |y - z 0| := distance_le_abs hb _ _
  by_cases hwz : w = z
  · subst hwz
    obtain ⟨z', hz', e⟩ := image_at_distance hb (fun _ => y) w
    rw [← e] at hyw
    unfold SamePoint at hz'
    split at hz'
    · obtain ⟨k, hk⟩ := hz'
      have hfit := hZ.fits 0
      have hk0 : w 0 = z' 0 + k 0 * (cs.upper 0 - cs.lower 0) := congrFun hk 0
      by_cases hkz : k 0 = 0
      · rw [hkz, Int.cast_zero, zero_mul, add_zero] at hk0
        rw [hk0] at hy1
        linarith
      · have h1 : (1 : ℝ) ≤ |((k 0 : ℤ) : ℝ)| := by exact_mod_cast Int.one_le_abs hkz
        have h2 : |((k 0 : ℤ) : ℝ) * (cs.upper 0 - cs.lower 0)| ≤ |y - w 0| + |y - z' 0| := by
          have := abs_sub (y - z' 0) (y - w 0)
          rw [show y - z' 0 - (y - w 0) = k 0 * (cs.upper 0 - cs.lower 0) by rw [hk0]; ring] at this
          linarith
        rw [abs_mul, abs_of_pos (by linarith : 0 < cs.upper 0 - cs.lower 0)] at h2
        nlinarith
    · subst hz'
      linarith
  · have h1 := hZ.apart z hz w hw (Ne.symm hwz)
    have hmet := C03_distance_metric cs hb
    have h2 := (hmet z (fun _ => y) w).2.2.1
    rw [(hmet z (fun _ => y) w).2.1] at h2
    linarith

/-- **C88**: let a one-dimensional search (interval or circle, default minimizer options, a mesh of `n ≥ 2` points) be such that the gap function is at most the threshold only near the points of `Z`, which are isolated compared with `feature_size`, and has a minimum
at each of these which the mesh cannot miss.  When the search returns, whatever the schedule, crashes and restarts, and its result is identified, then the identification gives exactly one point for each point of `Z`, within `r` of it, and nothing else. -/
theorem C88_exact {args : SearchArgs 1} {p : CtlParams 1} {P : NMParams} (hset : setup args = .ok (p, P)) (hl : (args.limits 0).1 ≠ (args.limits 0).2) (hf : 0 < args.featureSize)
    (hst : args.refinementStencil = .auto ∨ args.refinementStencil = .none)
    (hkw : args.nelderMead = NMKwargs.empty) {n : ℕ} (hn : 2 ≤ n) (hm : args.initialMeshSize = .inl (n : ℤ)) (hmesh : args.featureSize / 50 < |(args.limits 0).2 - (args.limits 0).1| / n)
    {G : Vec 1 → FVal} (hG : args.periodic = true → ∀ (x : Vec 1) (k : ℤ), G (fun i => x i + k * |(args.limits 0).2 - (args.limits 0).1|) = G x)
    {Z : Set (Vec 1)} {r : ℝ} (hZ : Isolated p.coord args.featureSize r Z) (hin : ∀ z ∈ Z, min (args.limits 0).1 (args.limits 0).2 ≤ z 0 ∧ z 0 < max (args.limits 0).1 (args.limits 0).2)
    (hlow : ∀ x v, G x = FVal.ofReal v → v ≤ args.gapThreshold → ∃ z ∈ Z, p.coord.distance x z ≤ r)
    (hclear : ∀ z ∈ Z, ClearMinimum (|(args.limits 0).2 - (args.limits 0).1| / ((n : ℝ) - 1)) args.featureSize args.gapThreshold G (z 0))
    {c : Ctl 1} (hc : ReachLive p (LiveMinimization p P G) c) (hret : c.phase = .returned)
    {method : String} {res : Except Err (IdContainer 1)} (hid : IdentifyRun (.container c.state.result) method none res) :
    ∃ out, res = .ok out ∧ ∃ e : Fin out.results.length ≃ Z, ∀ i, (out.results.get i).dimension = some 0 ∧
      ∃ q, (out.results.get i).shape = some (.point q) ∧ p.coord.distance q (e i) ≤ r := by
  obtain ⟨e1, e2, e3, e4, e5, -, e7, e8, elim, eper, -, eauto, enone, emesh⟩ := C71_settings hset
  simp only [hkw, NMKwargs.empty, Option.getD_none] at e1 e2 e3 e4 e5
  have hb : ProperBox p.coord := properBox_setup hset fun i => by rw [Subsingleton.elim i 0]; exact hl
  have hdist : DistinctInput p := distinct_setup hset (fun i => by rw [Subsingleton.elim i 0]; exact hl) hf hst
  have hfin : P.ftol ≠ FVal.inf := by
    rw [e2]
    intro h
    have : ((args.gapThreshold / 20 : ℝ) : EReal) = ⊤ := WithTop.coe_injective h
    exact EReal.coe_ne_top _ this
  have hwith : ReachWith p (MinimizationOf P fun x v => v = G x) c := live_with (fun l s r ⟨fake, sim0, h1, h2, h3⟩ => ⟨_, fake, sim0, fun _ _ => rfl, h2, h3⟩) hc
  obtain ⟨out, ho, honly⟩ := C78_search le_rfl hdist hb (by rw [e7]; exact hf) hfin (e5 trivial) (r := r) (Z := Z) (by rw [e7]; exact hZ)
    (fun x v hx hv => hlow x v hx.symm (by rw [← e8]; exact hv)) hwith hid
  refine ⟨out, ho, ?_⟩
  have hmet := C03_distance_metric p.coord hb
  have hsz : args.featureSize ≤ |(args.limits 0).2 - (args.limits 0).1| := by
    have := hZ.fits 0
    rwa [(elim 0).1, (elim 0).2, max_sub_min_eq_abs', abs_sub_comm] at this
  -- every point of `Z` has been found
  have hfound : ∀ z ∈ Z, ∃ x ∈ c.state.result.nodes.values.map (fun n => n.pos), p.coord.distance x z ≤ r := by
    intro z hz
    obtain ⟨g, W, δ, hv, hGg, hW, hδ, hδf, hδh, hflat, hthr⟩ := hclear z hz
    obtain ⟨nd, hnd, x, hx1, hx2, hx3⟩ := C86_search hset hl hf (.inr (by linarith)) hst hkw hn hm hG rfl hv hGg hW hmesh (hin z hz) hδ hδf hδh hflat hthr hc hret
    refine ⟨nd.pos, List.mem_map.2 ⟨nd, hnd, rfl⟩, ?_⟩
    have h1 := valley_near hb hf hZ hlow hz hv hGg hx2 hx3
    have h2 := distance_le_abs hb x z
    have h3 := (hmet nd.pos x z).2.2.1
    rw [(hmet nd.pos x z).2.1, ((hmet x nd.pos z).2.2.2).2 hx1] at h3
    linarith
  have huniq : ∀ z ∈ Z, ∃! i : Fin out.results.length, ∃ q, (out.results.get i).shape = some (.point q) ∧ p.coord.distance q z ≤ r := fun z hz => by
    obtain ⟨x, hx, hxz⟩ := hfound z hz
    exact honly.once z hz x hx hxz
  choose idx hidx1 hidx2 using huniq
  have hback : ∀ i : Fin out.results.length, ∃ z, ∃ hz : z ∈ Z, idx z hz = i ∧ (out.results.get i).dimension = some 0 ∧ ∃ q, (out.results.get i).shape = some (.point q) ∧ p.coord.distance q z ≤ r := fun i => by
    obtain ⟨z, hz, h1, h2, -⟩ := honly.each _ (List.get_mem out.results i)
    exact ⟨z, hz, (hidx2 z hz i h2).symm, h1, h2⟩
  have hinj : Function.Injective fun z : Z => idx z.1 z.2 := by
    rintro ⟨z, hz⟩ ⟨z', hz'⟩ h
    have h : idx z hz = idx z' hz' := h
    obtain ⟨q, hq1, hq2⟩ := hidx1 z hz
    obtain ⟨q', hq1', hq2'⟩ := hidx1 z' hz'
    rw [h, hq1'] at hq1
    obtain rfl : q' = q := by simpa using hq1
    by_contra hne
    have h1 := hZ.apart z hz z' hz' fun h => hne (Subtype.ext h)
    have h2 := (hmet z q' z').2.2.1
    rw [(hmet z q' z').2.1] at h2
    linarith
  have hsurj : Function.Surjective fun z : Z => idx z.1 z.2 := fun i => by
    obtain ⟨z, hz, h, -⟩ := hback i
    exact ⟨⟨z, hz⟩, h⟩
  refine ⟨(Equiv.ofBijective _ ⟨hinj, hsurj⟩).symm, fun i => ?_⟩
  obtain ⟨z, hz, h, h1, h2⟩ := hback i
  have : (Equiv.ofBijective _ ⟨hinj, hsurj⟩).symm i = ⟨z, hz⟩ := by
    rw [Equiv.symm_apply_eq]
    exact h.symm
  rw [this]
  exact ⟨h1, h2⟩

/-! ### The hypotheses can be met: a gap function on the unit circle with minima at 1/4 and 3/4 -/

namespace C88Demo

/-- a search on the circle of length 1, with 100 mesh points -/
def args : SearchArgs 1 := { C86Demo.args with gapThreshold := 1 / 6400 }

/-- the gap: the square of the distance to the nearest of 1/4, 3/4 -/
def gap (x : Vec 1) : FVal := FVal.ofReal (((2 * x 0 - 1 / 2 - round (2 * x 0 - 1 / 2)) / 2) ^ 2)

/-- the minima -/
def Z : Set (Vec 1) := {fun _ => 1 / 4, fun _ => 3 / 4}

theorem length_one : |(args.limits 0).2 - (args.limits 0).1| = 1 := by simp [args, C86Demo.args]

theorem gap_periodic (x : Vec 1) (k : ℤ) : gap (fun i => x i + k * |(args.limits 0).2 - (args.limits 0).1|) = gap x := by
  rw [length_one]
  unfold gap
  congr 2
  rw [show 2 * (x 0 + (k : ℝ) * 1) - 1 / 2 = 2 * x 0 - 1 / 2 + ((2 * k : ℤ) : ℝ) by push_cast; ring, round_add_intCast]
  push_cast
  ring

theorem gap_near {z : Vec 1} (hz : z ∈ Z) (x : Vec 1) (h : |x 0 - z 0| ≤ 1 / 5) : gap x = FVal.ofReal ((x 0 - z 0) ^ 2) := by
  obtain ⟨h1, h2⟩ := abs_le.1 h
  unfold gap
  congr 1
  rcases hz with rfl | rfl
  · have : round (2 * x 0 - 1 / 2) = 0 := by
      rw [round_eq_zero_iff]
      constructor <;> linarith
    rw [this]
    simp only [Int.cast_zero]
    ring
  · have : round (2 * x 0 - 1 / 2 - 1) = 0 := by
      rw [round_eq_zero_iff]
      constructor <;> linarith
    have : round (2 * x 0 - 1 / 2) = 1 := by
      rw [show 2 * x 0 - 1 / 2 = 2 * x 0 - 1 / 2 - 1 + ((1 : ℤ) : ℝ) by push_cast; ring, round_add_intCast, this]
      rfl
    rw [this]
    simp only [Int.cast_one]
    ring

theorem coord_eq {p : CtlParams 1} {P : NMParams} (hset : setup args = .ok (p, P)) : p.coord.periodic = true ∧ ∀ i, p.coord.lower i = 0 ∧ p.coord.upper i = 1 := by
  obtain ⟨-, -, -, -, -, -, -, -, h1, h2, -⟩ := C71_settings hset
  refine ⟨h2, fun i => ?_⟩
  rw [(h1 i).1, (h1 i).2]
  simp [args, C86Demo.args]

theorem proper {p : CtlParams 1} {P : NMParams} (hset : setup args = .ok (p, P)) : ProperBox p.coord := fun i => by
  rw [((coord_eq hset).2 i).1, ((coord_eq hset).2 i).2]; norm_num

theorem eucl_one (x y : Vec 1) : eucl x y = |x 0 - y 0| := by simp [eucl, Real.sqrt_sq_eq_abs]

theorem isolated {p : CtlParams 1} {P : NMParams} (hset : setup args = .ok (p, P)) : Isolated p.coord args.featureSize (1 / 80) Z := by
  obtain ⟨h1, h2⟩ := coord_eq hset
  have key : ∀ z z' : Vec 1, (z 0 - z' 0 = 1 / 2 ∨ z 0 - z' 0 = -(1 / 2)) → args.featureSize + 2 * (1 / 80) < p.coord.distance z z' := by
    intro z z' h
    obtain ⟨k, hk⟩ := (C04_distance_is_min_over_images p.coord (proper hset) h1 z z').1
    rw [hk, eucl_one]
    simp only [shift, (h2 0).1, (h2 0).2, args, C86Demo.args]
    have hpos : (1 : ℝ) / 10 + 2 * (1 / 80) < 1 / 2 := by norm_num
    refine hpos.trans_le ?_
    rw [le_abs]
    rcases h with h | h
    · rcases le_or_gt (k 0) 0 with hk | hk
      · left
        have : ((k 0 : ℤ) : ℝ) ≤ 0 := by exact_mod_cast hk
        linarith
      · right
        have : (1 : ℝ) ≤ (k 0 : ℤ) := by exact_mod_cast hk
        linarith
    · rcases lt_or_ge (k 0) 0 with hk | hk
      · left
        have : ((k 0 : ℤ) : ℝ) ≤ -1 := by exact_mod_cast Int.le_sub_one_of_lt hk
        linarith
      · right
        have : (0 : ℝ) ≤ (k 0 : ℤ) := by exact_mod_cast hk
        linarith
  refine ⟨?_, by norm_num [args, C86Demo.args], fun i => by rw [(h2 i).1, (h2 i).2]; norm_num [args, C86Demo.args]⟩
  rintro z (rfl | rfl) z' (rfl | rfl) hne
  · exact absurd rfl hne
  · exact key _ _ (.inr (by norm_num))
  · exact key _ _ (.inl (by norm_num))
  · exact absurd rfl hne

theorem low {p : CtlParams 1} {P : NMParams} (hset : setup args = .ok (p, P)) (x : Vec 1) (v : ℝ) (hv : gap x = FVal.ofReal v) (hle : v ≤ args.gapThreshold) :
    ∃ z ∈ Z, p.coord.distance x z ≤ 1 / 80 := by
  obtain ⟨h1, h2⟩ := coord_eq hset
  have e : ((2 * x 0 - 1 / 2 - round (2 * x 0 - 1 / 2)) / 2) ^ 2 = v := le_antisymm (ofReal_le.1 hv.le) (ofReal_le.1 hv.ge)
  have h3 : |(2 * x 0 - 1 / 2 - round (2 * x 0 - 1 / 2)) / 2| ≤ 1 / 80 := by
    refine abs_le_of_sq_le_sq ?_ (by norm_num)
    rw [e]
    refine hle.trans_eq ?_
    norm_num [args, C86Demo.args]
  have near : ∀ (z : Vec 1) (j : ℤ), x 0 - (z 0 + j) = (2 * x 0 - 1 / 2 - round (2 * x 0 - 1 / 2)) / 2 → p.coord.distance x z ≤ 1 / 80 := fun z j hj => by
    refine ((C04_distance_is_min_over_images p.coord (proper hset) h1 x z).2 fun _ => j).trans ?_
    rw [eucl_one]
    simp only [shift, (h2 0).1, (h2 0).2, sub_zero, mul_one]
    rw [hj]; exact h3
  rcases Int.even_or_odd' (round (2 * x 0 - 1 / 2)) with ⟨j, hj | hj⟩
  · refine ⟨_, .inl rfl, near _ j ?_⟩
    rw [hj]; push_cast; ring
  · refine ⟨_, .inr rfl, near _ j ?_⟩
    rw [hj]; push_cast; ring

theorem clear {z : Vec 1} (hz : z ∈ Z) : ClearMinimum (|(args.limits 0).2 - (args.limits 0).1| / ((100 : ℕ) - 1)) args.featureSize args.gapThreshold gap (z 0) := by
  rw [length_one]
  refine ⟨fun x => (x - z 0) ^ 2, 1 / 5, 1 / 2000, ⟨fun x hx y hy hxy => ?_, fun x hx y hy hxy => ?_⟩, gap_near hz, by norm_num [args, C86Demo.args], by norm_num,
    by norm_num [args, C86Demo.args], by norm_num, fun x y hx hy => ?_, fun x hx => ?_⟩
  · have h1 := hx.2; have h2 := hy.2
    show (y - z 0) ^ 2 < (x - z 0) ^ 2
    nlinarith
  · have h1 := hx.1; have h2 := hy.1
    show (x - z 0) ^ 2 < (y - z 0) ^ 2
    nlinarith
  · have h1 := sq_le_sq' (abs_le.1 hx).1 (abs_le.1 hx).2
    have h2 := sq_le_sq' (abs_le.1 hy).1 (abs_le.1 hy).2
    have h3 := sq_nonneg (x - z 0)
    have h4 := sq_nonneg (y - z 0)
    simp only [args]
    rw [abs_le]
    constructor <;> linarith
  · have h1 := sq_le_sq' (abs_le.1 hx).1 (abs_le.1 hx).2
    simp only [args, C86Demo.args] at h1 ⊢
    linarith

theorem setup_ok : ∃ p P, setup args = .ok (p, P) := by
  rw [setup_eq, if_pos]
  · exact ⟨_, _, rfl⟩
  · simp [meshSizes, args, C86Demo.args]

theorem card_Z : Nat.card Z = 2 := by
  have : (fun _ => 1 / 4 : Vec 1) ≠ fun _ => 3 / 4 := fun h => by
    have := congrFun h 0
    norm_num at this
  rw [Nat.card_coe_set_eq, Z, Set.ncard_pair this]

/-- every completed search finds exactly two points, by any method -/
theorem two_points {p : CtlParams 1} {P : NMParams} (hset : setup args = .ok (p, P)) {c : Ctl 1} (hc : ReachLive p (LiveMinimization p P gap) c) (hret : c.phase = .returned)
    {method : String} {res : Except Err (IdContainer 1)} (hid : IdentifyRun (.container c.state.result) method none res) : ∃ out, res = .ok out ∧ out.results.length = 2 := by
  obtain ⟨out, h1, e, -⟩ := C88_exact hset (by simp [args, C86Demo.args]) (by norm_num [args, C86Demo.args]) (.inl rfl) rfl (n := 100) (by norm_num) rfl
    (by rw [length_one]; norm_num [args, C86Demo.args]) (fun _ => gap_periodic) (isolated hset)
    (by rintro z (rfl | rfl) <;> norm_num [args, C86Demo.args]) (low hset) (fun z hz => clear hz) hc hret hid
  refine ⟨out, h1, ?_⟩
  have := Nat.card_congr e
  rwa [Nat.card_fin, card_Z] at this

/-- there are completed searches, and their results can be identified -/
example : ∃ p P c out, setup args = .ok (p, P) ∧ ReachLive p (LiveMinimization p P gap) c ∧ c.phase = .returned ∧ IdentifyRun (.container c.state.result) "ballistic" none (.ok out) ∧ out.results.length = 2 := by
  obtain ⟨p, P, h⟩ := setup_ok
  obtain ⟨c, h1, h2, -⟩ := C87_search h (by simp [args, C86Demo.args]) (by norm_num [args, C86Demo.args]) rfl rfl (by simp [args, C86Demo.args]) gap .start
  obtain ⟨-, -, -, -, -, -, e7, -⟩ := C71_settings h
  obtain ⟨⟨res, hres⟩, -⟩ := C65_never_raises (proper h) (fs := p.featureSize) (by rw [e7]; norm_num [args, C86Demo.args]) (c.state.result.nodes.values.map fun n => n.pos) (.inl rfl)
  have hd : DistinctInput p := distinct_setup h (by simp [args, C86Demo.args]) (by norm_num [args, C86Demo.args]) (.inl rfl)
  have hid := (C65_default_feature_size hd (reachWith_reach (live_with (R' := fun _ _ => True) (fun _ _ _ _ => trivial) h1)).any).2 hres
  obtain ⟨out, rfl, h3⟩ := two_points h h1 h2 hid
  exact ⟨p, P, c, out, h, h1, h2, hid, h3⟩

end C88Demo

end NF
