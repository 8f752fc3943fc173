import Verif.Spec.FloatFind
import Verif.Lemmas.FloatCutoff
import Verif.Props.FloatIdentify
import Verif.Props.Exact

/-! # C113: in one dimension, search and identification in double precision find the minima of the gap function, exactly -/

noncomputable section
open Classical

namespace NF
open Spec CoordSys
variable {d : ℕ}

/-- the default `feature_size` of the identification is that of the search, up to rounding -/
theorem default_featureSize {rnd rnd' : ℝ → ℝ} (hr : IsNearest rnd) (hr' : IsNearest rnd') {fs : ℝ} (hfs : 0 < fs) : |rnd' (rnd (fs / 3) * 3) - fs| ≤ fs / 2 ^ 51 := by
  have h1 := abs_le.1 (rel_err hr (fs / 3))
  have h2 := abs_le.1 (rel_err hr' (rnd (fs / 3) * 3))
  rw [abs_of_pos (by positivity : 0 < fs / 3)] at h1
  obtain ⟨h3, h4⟩ := h1
  have h0 : 0 ≤ rnd (fs / 3) * 3 := by
    norm_num at h3 ⊢
    linarith
  rw [abs_of_nonneg h0] at h2
  obtain ⟨h5, h6⟩ := h2
  rw [abs_le]
  norm_num at h3 h4 h5 h6 ⊢
  constructor <;> linarith

/-- if each point of `Z` has a position near it, the results of the identification belong to the points of `Z` one to one -/
theorem _root_.NF.Spec.PointsFound.equiv {cs : CoordSys d} (hb : ProperBox cs) {r r' : ℝ} {Z : Set (Vec d)} {positions : List (Vec d)} {out : IdContainer d} (h : PointsFound cs r r' Z positions out)
    (hapart : ∀ z ∈ Z, ∀ z' ∈ Z, z ≠ z' → 2 * r < cs.distance z z') (hall : ∀ z ∈ Z, ∃ x ∈ positions, cs.distance x z ≤ r) :
    ∃ e : Fin out.results.length ≃ Z, ∀ i, (out.results.get i).dimension = some 0 ∧ ∃ q, (out.results.get i).shape = some (.point q) ∧ cs.distance q (e i) ≤ r' := by
  have hmet := C03_distance_metric cs hb
  have hsame : ∀ z ∈ Z, ∀ z' ∈ Z, ∀ x, cs.distance x z ≤ r → cs.distance x z' ≤ r → z = z' := by
    intro z hz z' hz' x h1 h2
    by_contra hne
    have h3 := hapart z hz z' hz' hne
    have h4 := (hmet z x z').2.2.1
    rw [(hmet z x z').2.1] at h4
    linarith
  have heach : ∀ i : Fin out.results.length, _ := fun i => h.each _ (List.get_mem out.results i)
  choose z hz h1 h2 h3 h4 using heach
  have hinj : Function.Injective fun i => (⟨z i, hz i⟩ : Z) := by
    intro i j hij
    have hij : z i = z j := congrArg Subtype.val hij
    obtain ⟨p, hp⟩ := List.exists_mem_of_ne_nil _ (h3 i)
    have hp' := (h4 i p).1 hp
    exact (h.once p hp'.1).unique hp ((h4 j p).2 ⟨hp'.1, hij ▸ hp'.2⟩)
  have hsurj : Function.Surjective fun i => (⟨z i, hz i⟩ : Z) := by
    rintro ⟨w, hw⟩
    obtain ⟨x, hx, hxw⟩ := hall w hw
    obtain ⟨i, hi, -⟩ := h.once x hx
    exact ⟨i, Subtype.ext (hsame _ (hz i) _ hw x ((h4 i x).1 hi).2 hxw)⟩
  exact ⟨Equiv.ofBijective _ ⟨hinj, hsurj⟩, fun i => ⟨h1 i, h2 i⟩⟩

/-- the setting of C106_search meets the hypotheses of C103 -/
theorem floatSearch_one {A : FL.CtlArith 1} (hr : IsNearest A.rnd) (hD : ∀ cs x y, FL.Distance A.rnd cs x y (A.dist cs x y)) {auto : List (Simplex 1)} (hauto : NearSimplices (fun _ => 1 / 1000) auto (autoStencil 1))
    {args : SearchArgs 1} {p : CtlParams 1} {P : NMParams} (hset : FL.setup A.rnd auto args = .ok (p, P)) (hl : (args.limits 0).1 ≠ (args.limits 0).2) (hf : IsFloat (args.limits 0).1 ∧ IsFloat (args.limits 0).2)
    (hst : args.refinementStencil = .auto ∨ args.refinementStencil = .none) (hfs : 0 < args.featureSize)
    (hsz : |min (args.limits 0).1 (args.limits 0).2| + 2 * |(args.limits 0).2 - (args.limits 0).1| ≤ 2 ^ 30 * args.featureSize)
    {n : ℕ} (hn : 2 ≤ n) (hmesh : args.initialMeshSize = .inl (n : ℤ)) (hres : args.featureSize / 40 ≤ |(args.limits 0).2 - (args.limits 0).1| / n)
    {G : Vec 1 → FVal} (hnear : args.periodic = true ∨ (args.featureSize / 3 * (1 + 1 / 2 ^ 52) ≤ |(args.limits 0).2 - (args.limits 0).1| ∧ NearBox p (AnyNodes (FloatLiveMinimization A p P G)))) :
    FloatSearch A p (AnyNodes (FloatLiveMinimization A p P G)) := by
  obtain ⟨-, -, -, -, efs, egt, elim, eper, -, -, emesh, -⟩ := C104_settings hr hset
  set L := |(args.limits 0).2 - (args.limits 0).1| with hLdef
  have hlo : p.coord.lower 0 = min (args.limits 0).1 (args.limits 0).2 := (elim 0).1
  have hL : p.coord.upper 0 - p.coord.lower 0 = L := by
    rw [(elim 0).1, (elim 0).2, max_sub_min_eq_abs']
    exact abs_sub_comm _ _
  have hLpos : 0 < L := abs_pos.2 (sub_ne_zero.2 hl.symm)
  have hb : ProperBox p.coord := fun i => by rw [Subsingleton.elim i 0]; linarith
  have hfl : ∀ i, IsFloat (p.coord.lower i) ∧ IsFloat (p.coord.upper i) := by
    intro i
    rw [Subsingleton.elim i 0, (elim 0).1, (elim 0).2]
    constructor
    · rcases min_choice (args.limits 0).1 (args.limits 0).2 with e | e <;> rw [e]; exacts [hf.1, hf.2]
    · rcases max_choice (args.limits 0).1 (args.limits 0).2 with e | e <;> rw [e]; exacts [hf.1, hf.2]
  have hnR : (2 : ℝ) ≤ n := by exact_mod_cast hn
  have hl0 := abs_nonneg (p.coord.lower 0)
  rw [← hlo] at hsz
  have hn50 : n < 2 ^ 50 := by
    have h1 : args.featureSize / 40 * n ≤ L := by
      have := mul_le_mul_of_nonneg_right hres (by linarith : (0 : ℝ) ≤ n)
      rwa [div_mul_cancel₀ _ (by linarith)] at this
    have h2 : (n : ℝ) < 2 ^ 50 := by
      by_contra h3
      push Not at h3
      have := mul_le_mul_of_nonneg_left h3 (by linarith : 0 ≤ args.featureSize / 40)
      linarith
    exact_mod_cast h2
  -- the error of the mesh
  have hE : meshError p.coord 0 ≤ args.featureSize / 2 ^ 19 := by
    unfold meshError
    rw [hL, div_le_div_iff₀ (by positivity) (by positivity)]
    linarith
  have hE0 : 0 ≤ meshError p.coord 0 := by unfold meshError; rw [hL]; positivity
  set E := meshError p.coord 0 with hEdef
  have hmesh' : p.mesh = FL.initialSimplices A.rnd p.coord fun _ => n := by
    have := emesh n hmesh
    rwa [Int.toNat_natCast] at this
  have hnb : NearBox p (AnyNodes (FloatLiveMinimization A p P G)) := hnear.elim (fun h => .inl (eper.trans h)) fun h => h.2
  have hS : FloatSearch A p (AnyNodes (FloatLiveMinimization A p P G)) := by
    refine C104_setup hr hD hauto hset (fun i => by rw [Subsingleton.elim i 0]; exact hl) (fun i => by rw [Subsingleton.elim i 0]; exact hf) hmesh' (fun i => ?_) hst hfs (fun i => ?_) hnb
    · rw [Subsingleton.elim i 0, hL]
      refine ⟨hn50, ?_⟩
      have h1 : args.featureSize / 40 * n ≤ L := by
        have := mul_le_mul_of_nonneg_right hres (by linarith : (0 : ℝ) ≤ n)
        rwa [div_mul_cancel₀ _ (by linarith)] at this
      have h2 : (n : ℝ) * (2 * E) < n * (args.featureSize / 40) := mul_lt_mul_of_pos_left (by linarith) (by linarith)
      change 2 * (n : ℝ) * E < L
      linarith
    · rw [Subsingleton.elim i 0, hL]
      linarith
  exact hS

/-- **C113**: C88 in double precision.  Let a one-dimensional search (interval or circle, default minimizer options, a mesh of `n ≥ 2` points) be such that the gap function is at most the threshold only at points that are moved to within `r` of the points of `Z`, which are isolated compared with `feature_size`,
and has a minimum at each of these, of half-width `W`, that the mesh cannot miss.  When the search in double precision returns, whatever the schedule, crashes and up to `k` restarts, and its result is identified in double precision with the default `feature_size`, then the identification gives exactly one point for each
point of `Z` and nothing else: within `r` of it, up to the drift of the restarts and the rounding error of an average. -/
theorem C113_exact {A : FL.CtlArith 1} (hr : IsNearest A.rnd) (hD : ∀ cs x y, FL.Distance A.rnd cs x y (A.dist cs x y)) {auto : List (Simplex 1)} (hauto : NearSimplices (fun _ => 1 / 1000) auto (autoStencil 1))
    {args : SearchArgs 1} {p : CtlParams 1} {P : NMParams} (hset : FL.setup A.rnd auto args = .ok (p, P)) (hl : (args.limits 0).1 ≠ (args.limits 0).2) (hf : IsFloat (args.limits 0).1 ∧ IsFloat (args.limits 0).2)
    (hst : args.refinementStencil = .auto ∨ args.refinementStencil = .none) (hkw : args.nelderMead = NMKwargs.empty) (hfs : 0 < args.featureSize)
    (hsz : |min (args.limits 0).1 (args.limits 0).2| + 2 * |(args.limits 0).2 - (args.limits 0).1| ≤ 2 ^ 30 * args.featureSize)
    {n : ℕ} (hn : 2 ≤ n) (hmesh : args.initialMeshSize = .inl (n : ℤ)) (hres : args.featureSize / 40 ≤ |(args.limits 0).2 - (args.limits 0).1| / n)
    {G : Vec 1 → FVal} (hnear : args.periodic = true ∨ (args.featureSize / 3 * (1 + 1 / 2 ^ 52) ≤ |(args.limits 0).2 - (args.limits 0).1| ∧ NearBox p (AnyNodes (FloatLiveMinimization A p P G))))
    {Z : Set (Vec 1)} {r W : ℝ} (hin : ∀ z ∈ Z, min (args.limits 0).1 (args.limits 0).2 ≤ z 0 ∧ z 0 < max (args.limits 0).1 (args.limits 0).2)
    (hlow : ∀ x v, G x = FVal.ofReal v → v ≤ args.gapThreshold → ∃ z ∈ Z, p.coord.distance (FL.normalizePosition A.rnd p.coord x) z ≤ r)
    (hclear : ∀ z ∈ Z, FloatClearMinimum (|(args.limits 0).2 - (args.limits 0).1| / ((n : ℝ) - 1)) args.featureSize args.gapThreshold |(args.limits 0).2 - (args.limits 0).1| W G (z 0))
    {k : ℕ} (hsep : ∀ z ∈ Z, ∀ z' ∈ Z, z ≠ z' → W + args.featureSize / 2 + r + 2 * k * driftError p.coord < p.coord.distance z z')
    (hZ : ∀ fs, |fs - args.featureSize| ≤ args.featureSize / 2 ^ 51 → WellIsolated p.coord fs (r + k * driftError p.coord) (distanceError p.coord) Z)
    {c : Ctl 1} (hc : FloatReachLive A p (FloatLiveMinimization A p P G) k c) (hret : c.phase = .returned)
    {B : FL.IdArith 1} (hB : IdAccurate B p.coord (c.state.result.nodes.values.map fun r => r.pos)) {M : Vec 1} (hM : ModerateBox p.coord M)
    (hMb : ∀ i, |p.coord.lower i| + 2 * (p.coord.upper i - p.coord.lower i) ≤ M i) (hfew : (c.state.result.nodes.values.length : ℝ) / 2 ^ 53 ≤ 1 / 100)
    {res : Except Err (IdContainer 1)} (hid : FL.IdentifyRun B (.container c.state.result) none res) :
    ∃ out, res = .ok out ∧ ∃ e : Fin out.results.length ≃ Z, ∀ i, (out.results.get i).dimension = some 0 ∧
      ∃ q, (out.results.get i).shape = some (.point q) ∧ p.coord.distance q (e i) ≤ r + k * driftError p.coord + averageError p.coord M c.state.result.nodes.values.length := by
  obtain ⟨-, -, -, eft, efs, egt, elim, eper, -, -, emesh, -, -, -, -, -, -, -, emi, emf, efc, -⟩ := C104_settings hr hset
  simp only [hkw, NMKwargs.empty, Option.getD_none, true_implies] at eft emi emf efc
  obtain ⟨t, eft, ht⟩ := eft
  have hfin : P.ftol ≠ FVal.inf := by
    rw [eft]
    simp [FVal.ofReal, FVal.inf]
  have hS : FloatSearch A p (AnyNodes (FloatLiveMinimization A p P G)) := floatSearch_one hr hD hauto hset hl hf hst hfs hsz hn hmesh hres hnear
  have hNB : NearBox p (AnyNodes (FloatLiveMinimization A p P G)) := by
    rcases hnear with h | h
    · exact .inl (eper.trans h)
    · exact h.2
  have hR : ∀ s r, AnyNodes (FloatLiveMinimization A p P G) s r → FloatMinimizationOf A.rnd P (fun x v => v = G x) s r := by
    rintro s r ⟨nodes, B, fake, sim0, h1, h2, -, h4, h5⟩
    exact ⟨B, _, fake, sim0, h1, h2, fun _ _ => rfl, h4, h5⟩
  have hreach := FL.live_reach hc
  have hmet := C03_distance_metric p.coord hS.box
  cases hid with
  | noCutoff h => cases h
  | @default c' _ h hrun =>
    cases h
    have hcoord : c.state.result.coord = p.coord := (FL.good_reach hS hreach).1.cont.coord
    rw [hcoord, FL.reach_cutoff hS hreach] at hrun
    have hfs' := default_featureSize hr hB.nearest hfs
    rw [← efs] at hfs'
    have hWI := hZ _ (by rw [← efs]; exact hfs')
    obtain ⟨out, ho, hpf⟩ := C112_search le_rfl hfin (.inl efc) hR hS hNB hreach (r := r) (Z := Z) (fun x v hx hv => hlow x v hx.symm (by rw [← egt]; exact hv)) hWI hB hM hMb hfew hrun
    refine ⟨out, ho, hpf.equiv hS.box (fun z hz z' hz' hne => ?_) fun z hz => ?_⟩
    · have h1 := hWI.apart z hz z' hz' hne
      change B.rnd (FL.distCutoff A p * 3) + _ + _ < _ at h1
      have h2 : 0 ≤ distanceError p.coord := FL.distanceError_nonneg p.coord
      have h3 : 0 ≤ B.rnd (FL.distCutoff A p * 3) := by
        have := (abs_le.1 hfs').1
        rw [← efs] at hfs
        have h4 : p.featureSize / 2 ^ 51 ≤ p.featureSize := div_le_self hfs.le (by norm_num)
        unfold FL.distCutoff
        linarith
      linarith
    · obtain ⟨g, η, δ, v1, v2, v3, v4, v5, v6, v7, v8, v9, v10, v11, v12⟩ := hclear z hz
      obtain ⟨q, hq, hqz, v, -, hv, x, hx, hxq⟩ := C106_search hr hD hauto hset hl hf hst hkw hfs hsz hn hmesh hres hnear rfl v1 (hin z hz) v5 v6 v2 v3 v4 v7 v8 v9 v10 v11 v12 hc hret
      refine ⟨q.pos, List.mem_map.2 ⟨q, hq, rfl⟩, ?_⟩
      obtain ⟨z', hz', hxz'⟩ := hlow x v hx hv
      have h1 := (hmet q.pos (FL.normalizePosition A.rnd p.coord x) z').2.2.1
      have h2 := (hmet q.pos (FL.normalizePosition A.rnd p.coord x) z').2.1
      have h3 : p.coord.distance q.pos z' ≤ r + k * driftError p.coord := by linarith
      by_cases e : z = z'
      · rw [e]; exact h3
      · exfalso
        have h4 := hsep z hz z' hz' e
        have h5 := (hmet z q.pos z').2.2.1
        have h6 : p.coord.distance z q.pos ≤ W + args.featureSize / 2 + k * driftError p.coord := by
          rw [show z = fun _ => z 0 by funext i; rw [Subsingleton.elim i 0]]
          exact hqz
        linarith

/-! ## Non-vacuity: a circle of length 16 with minima at 4 and -4, in steps of `2⁻²⁰` -/
namespace C113Demo

def args : SearchArgs 1 := { C106Demo.args with gapThreshold := 1 / 20 }

/-- the gap: the distance to the nearest of 4 and -4, in steps of `2⁻²⁰` -/
def gap (x : Vec 1) : FVal := FVal.ofReal (C105Demo.g (|x 0| - 4))

def Z : Set (Vec 1) := {fun _ => 4, fun _ => -4}

variable {rnd : ℝ → ℝ} (hr : IsNearest rnd)
include hr

omit hr in
theorem setup_ok : ∃ p P, FL.setup rnd (FL.meshStencil rnd (fun _ : Fin 1 => 3) 2.5) args = .ok (p, P) := by
  rw [float_setup_eq, if_pos]
  · exact ⟨_, _, rfl⟩
  · simp [meshSizes, args, C106Demo.args]

/-- a search that has been restarted returns -/
theorem returns {p : CtlParams 1} {P : NMParams} (hset : FL.setup rnd (FL.meshStencil rnd (fun _ : Fin 1 => 3) 2.5) args = .ok (p, P)) :
    ∃ c, FloatReachLive (C103Demo.arith rnd) p (FloatLiveMinimization (C103Demo.arith rnd) p P gap) 1 c ∧ c.phase = .returned := by
  obtain ⟨-, -, -, -, efs, -, hlim, eper, -, -, hmesh, -⟩ := C104_settings hr hset
  have hm : p.mesh = FL.initialSimplices rnd p.coord fun _ => 100 := hmesh 100 rfl
  have hlim' : ∀ i, p.coord.lower i = -8 ∧ p.coord.upper i = 8 := fun i => by
    rw [(hlim i).1, (hlim i).2]
    norm_num [args, C106Demo.args]
  have hres : MeshResolved p.coord (fun _ => 100) := fun i => by
    unfold meshError
    rw [(hlim' i).1, (hlim' i).2]
    norm_num
  have hS : FloatSearch (C103Demo.arith rnd) p fun _ _ => True := C104_setup (A := C103Demo.arith rnd) hr C106Demo.distances (C106Demo.auto_near hr) hset (fun i => by norm_num [args, C106Demo.args]) C106Demo.limits hm hres (.inl rfl) (by norm_num [args, C106Demo.args])
    (fun i => by rw [(hlim' i).1, (hlim' i).2]; norm_num [args, C106Demo.args]) (.inl eper)
  obtain ⟨c0, h0, -, -, h1, -, h2, -⟩ := FL.start_ok hS none none (by simp)
  obtain ⟨h3, c1, c', h4, h5, h6⟩ := C108_search (A := C103Demo.arith rnd) (n := 0) hr C106Demo.distances (C106Demo.auto_near hr) hset (fun i => by norm_num [args, C106Demo.args]) C106Demo.limits hm hres rfl (by norm_num [args, C106Demo.args])
    (fun i => by rw [(hlim' i).1, (hlim' i).2]; norm_num [args, C106Demo.args])
    (by rw [distanceError_one, (hlim' 0).1, (hlim' 0).2]; norm_num [args, C106Demo.args]) (by norm_num) rfl rfl (by norm_num [args, C106Demo.args]) gap (.start h0)
  refine ⟨c', ?_, h6⟩
  clear h6
  induction h5 with
  | refl => exact .crash (.start h0) h4
  | tail _ hs ih => exact .step ih hs

omit hr in
theorem g_neg (x : ℝ) : C105Demo.g (-x) = C105Demo.g x := by
  unfold C105Demo.g
  rw [abs_neg]

/-- both minima are clear -/
theorem clear {z : Vec 1} (hz : z ∈ Z) : FloatClearMinimum (|(args.limits 0).2 - (args.limits 0).1| / ((100 : ℕ) - 1)) args.featureSize args.gapThreshold |(args.limits 0).2 - (args.limits 0).1| 3 gap (z 0) := by
  have hz' : |z 0| = 4 := by
    rcases hz with rfl | rfl <;> norm_num
  have hL : |(args.limits 0).2 - (args.limits 0).1| = 16 := by norm_num [args, C106Demo.args]
  rw [hL]
  refine ⟨fun x => C105Demo.g (x - z 0), 1 / 2 ^ 20, 1 / 2500, ⟨?_, ?_⟩, by rw [hz']; norm_num, ?_, ?_, by norm_num [args, C106Demo.args], by norm_num, by norm_num, by norm_num, by norm_num [args, C106Demo.args],
    by norm_num, ?_, ?_⟩
  · intro x y _ _ h1 h2 h3
    have h0 : (0 : ℝ) < 1 / 2 ^ 20 := by norm_num
    exact C105Demo.steps (by rw [abs_of_nonpos (by linarith), abs_of_nonpos (by linarith)]; linarith)
  · intro x y _ _ h1 h2 h3
    have h0 : (0 : ℝ) < 1 / 2 ^ 20 := by norm_num
    exact C105Demo.steps (by rw [abs_of_nonneg (by linarith), abs_of_nonneg (by linarith)]; linarith)
  · intro x _ hx
    unfold gap
    congr 1
    rcases hz with rfl | rfl
    · have := abs_le.1 hx
      rw [abs_of_pos (by linarith)]
    · have := abs_le.1 hx
      rw [abs_of_neg (by linarith), ← g_neg]
      congr 1
      ring
  · intro x _ hx
    exact C105Demo.values_float (by rw [sub_zero]; linarith)
  · intro x y _ _ hx hy
    have e1 := C105Demo.near (x - z 0)
    have e2 := C105Demo.near (y - z 0)
    have h1 := abs_nonneg (x - z 0)
    have h2 := abs_nonneg (y - z 0)
    have : |C105Demo.g (x - z 0) - C105Demo.g (y - z 0)| ≤ 1 / 500 := by rw [abs_le]; constructor <;> linarith
    exact this.trans (by norm_num [args])
  · intro x _ hx
    have : args.featureSize / 30 ≤ args.gapThreshold := by norm_num [args, C106Demo.args]
    exact (C105Demo.near _).1.trans (hx.trans this)

/-- the hypotheses of C113 are met: the search, which has been restarted, and the identification find exactly the two points -/
theorem finds {p : CtlParams 1} {P : NMParams} (hset : FL.setup rnd (FL.meshStencil rnd (fun _ : Fin 1 => 3) 2.5) args = .ok (p, P)) {c : Ctl 1}
    (hc : FloatReachLive (C103Demo.arith rnd) p (FloatLiveMinimization (C103Demo.arith rnd) p P gap) 1 c) (hret : c.phase = .returned) {res : Except Err (IdContainer 1)}
    (hid : FL.IdentifyRun (C112Demo.arith rnd p.coord) (.container c.state.result) none res) :
    ∃ out, res = .ok out ∧ ∃ e : Fin out.results.length ≃ Z, ∀ i, (out.results.get i).dimension = some 0 ∧ ∃ q, (out.results.get i).shape = some (.point q) ∧ p.coord.distance q (e i) ≤ 0.051 := by
  obtain ⟨-, -, -, eft, efs, egap, hlim, eper, ⟨k, hk, eauto, -⟩, -, hmesh, -, -, erec, ecut, -, -, eforce, -⟩ := C104_settings hr hset
  have hm : p.mesh = FL.initialSimplices rnd p.coord fun _ => 100 := hmesh 100 rfl
  have hlim' : ∀ i, p.coord.lower i = -8 ∧ p.coord.upper i = 8 := fun i => by
    rw [(hlim i).1, (hlim i).2]
    norm_num [args, C106Demo.args]
  have hL : |(args.limits 0).2 - (args.limits 0).1| = 16 := by norm_num [args, C106Demo.args]
  have hS : FloatSearch (C103Demo.arith rnd) p (AnyNodes (FloatLiveMinimization (C103Demo.arith rnd) p P gap)) :=
    floatSearch_one (A := C103Demo.arith rnd) (n := 100) hr C106Demo.distances (C106Demo.auto_near hr) hset (by norm_num [args, C106Demo.args]) (C106Demo.limits 0) (.inl rfl) (by norm_num [args, C106Demo.args])
      (by norm_num [args, C106Demo.args]) (by norm_num) rfl (by norm_num [args, C106Demo.args]) (.inl rfl)
  have hmet := C03_distance_metric p.coord hS.box
  have hfs : p.featureSize = 1 := efs
  have hgap : p.gapThreshold = 1 / 20 := egap
  have hde : distanceError p.coord ≤ 1 / 10 ^ 9 := by
    rw [distanceError_one, (hlim' 0).1, (hlim' 0).2]
    norm_num
  have hdr : driftError p.coord ≤ 1 / 10 ^ 9 := by
    rw [driftError_one, (hlim' 0).1, (hlim' 0).2]
    norm_num
  have hdr0 : 0 ≤ driftError p.coord := Real.sqrt_nonneg _
  have hg : FloatGeometry p (AnyNodes (FloatLiveMinimization (C103Demo.arith rnd) p P gap)) := by
    refine ⟨by rw [hfs]; norm_num, .inl eper, .inl eper, ?_, by norm_num⟩
    rw [hfs]
    norm_num at hde ⊢
    linarith
  have hR : ∀ s r, AnyNodes (FloatLiveMinimization (C103Demo.arith rnd) p P gap) s r → FloatMinimizationOf (C103Demo.arith rnd).rnd P (fun x v => v = gap x) s r := by
    rintro s r ⟨nodes, B, fake, sim0, h1, h2, -, h4, h5⟩
    exact ⟨B, _, fake, sim0, h1, h2, fun _ _ => rfl, h4, h5⟩
  have hreach := FL.live_reach hc
  have hfew : c.state.result.nodes.values.length ≤ 1000 := by
    have h1 := (C110_evaluations_float le_rfl hR hS eforce hreach).1
    have h2 := C103_refinements_bounded hS hg erec hreach
    have h3 : p.mesh.length = 100 := by
      rw [hm, (C104_mesh_shape hr hS.box hS.floats fun i => by norm_num).1]
      simp
    have h4 : (p.stencil.getD []).length = 2 := by
      rw [eauto rfl, Option.getD_some]
      show (List.map _ _).length = 2
      rw [List.length_map, (C106Demo.auto_near hr).length_eq, (C50_auto 1).1]
      norm_num
    have h5 : packingBound (reachBox p.coord) (p.featureSize / 3 * (1 - 1 / 2 ^ 39) - distanceError p.coord) p.recheckCountCutoff.toNat ≤ 401 := by
      rw [show p.recheckCountCutoff = 0 from ecut, hfs]
      unfold packingBound reachBox
      simp only [(hlim' _).1, (hlim' _).2, Fin.prod_univ_one, Int.toNat_zero, zero_add, one_mul]
      refine Nat.succ_le_succ (Nat.floor_le_of_le ?_)
      have : (8 / 25 : ℝ) ≤ 1 / 3 * (1 - 1 / 2 ^ 39) - distanceError p.coord := by
        norm_num at hde ⊢
        linarith
      rw [div_le_iff₀ (by linarith)]
      push_cast
      linarith
    rw [Container.minimizationResults, List.length_append, h3, h4] at h1
    omega
  have hfew' : (c.state.result.nodes.values.length : ℝ) ≤ 1000 := by exact_mod_cast hfew
  have hM : ModerateBox p.coord (fun _ : Fin 1 => 40) := by
    refine ⟨by norm_num, fun i => by rw [(hlim' i).1, (hlim' i).2]; norm_num, ?_⟩
    rw [C112Demo.len_one, C112Demo.len_one, (hlim' 0).1, (hlim' 0).2]
    norm_num
  -- the two points are 8 apart
  have h8 : ∀ z ∈ Z, ∀ z' ∈ Z, z ≠ z' → 8 ≤ p.coord.distance z z' := by
    have key : 8 ≤ p.coord.distance (fun _ => 4) fun _ => -4 := by
      obtain ⟨w, hw, e⟩ := image_at_distance hS.box (fun _ => 4) fun _ => -4
      rw [← e]
      have hper : p.coord.periodic = true := eper
      unfold SamePoint at hw
      rw [if_pos hper] at hw
      obtain ⟨j, hj⟩ := hw
      have h1 : (-4 : ℝ) = w 0 + j 0 * (p.coord.upper 0 - p.coord.lower 0) := congrFun hj 0
      rw [(hlim' 0).1, (hlim' 0).2] at h1
      have h2 : (4 : ℝ) - w 0 = ((8 + 16 * j 0 : ℤ) : ℝ) := by push_cast; linarith
      rw [h2, ← Int.cast_abs]
      have : (8 : ℤ) ≤ |8 + 16 * j 0| := by
        rcases abs_cases (8 + 16 * j 0) with h | h <;> omega
      exact_mod_cast this
    rintro z (rfl | rfl) z' (rfl | rfl) hne
    · exact absurd rfl hne
    · exact key
    · rw [(hmet (fun _ => -4) (fun _ => 4) (fun _ => 4)).2.1]; exact key
    · exact absurd rfl hne
  have hG : ∀ x v, (fun x v => v = gap x) x (FVal.ofReal v) → v ≤ p.gapThreshold → (∀ i, |x i - p.coord.lower i| ≤ 2 * (p.coord.upper i - p.coord.lower i)) ∧
      ∃ z ∈ Z, p.coord.distance x z ≤ 1 / 20 + 1 / 2 ^ 20 := by
    intro x v hv hle
    have hv' : v = C105Demo.g (|x 0| - 4) := by
      have : FVal.ofReal v = FVal.ofReal (C105Demo.g (|x 0| - 4)) := hv
      simpa [FVal.ofReal] using this
    have hx : |(|x 0| - 4)| ≤ 1 / 20 + 1 / 2 ^ 20 := by
      have := (C105Demo.near (|x 0| - 4)).2
      rw [hv', hgap] at hle
      linarith
    refine ⟨fun i => ?_, ?_⟩
    · obtain rfl := Subsingleton.elim 0 i
      rw [(hlim' 0).1, (hlim' 0).2]
      have h1 := abs_le.1 hx
      have h2 := neg_abs_le (x 0)
      have h3 := le_abs_self (x 0)
      rw [abs_le]
      norm_num at h1 ⊢
      constructor <;> linarith
    · rcases le_total 0 (x 0) with h | h
      · rw [abs_of_nonneg h] at hx
        exact ⟨fun _ => 4, .inl rfl, (distance_le_abs hS.box _ _).trans hx⟩
      · rw [abs_of_nonpos h] at hx
        refine ⟨fun _ => -4, .inr rfl, (distance_le_abs hS.box _ _).trans ?_⟩
        rw [abs_sub_comm]
        rw [show (-4 : ℝ) - x 0 = -x 0 - 4 by ring]
        exact hx
  obtain ⟨out, ho, e, he⟩ := C113_exact (A := C103Demo.arith rnd) (n := 100) (Z := Z) (W := 3) (r := 1 / 20 + 1 / 2 ^ 20 + 2 * driftError p.coord) (M := fun _ => 40) hr C106Demo.distances (C106Demo.auto_near hr) hset
    (by norm_num [args, C106Demo.args]) (C106Demo.limits 0) (.inl rfl) rfl (by norm_num [args, C106Demo.args]) (by norm_num [args, C106Demo.args]) (by norm_num) rfl (by norm_num [args, C106Demo.args]) (.inl rfl)
    (fun z hz => by rcases hz with rfl | rfl <;> norm_num [args, C106Demo.args]) (fun x v hx hv => C112_near_box (G := fun x v => v = gap x) hS hG x v hx.symm (by rw [hgap]; exact hv))
    (fun z hz => clear hr hz) (fun z hz z' hz' hne => by
      have := h8 z hz z' hz' hne
      have h1 : args.featureSize = 1 := rfl
      rw [h1]
      norm_num at hdr ⊢
      linarith)
    (fun fs hfs => by
      have h1 : args.featureSize = 1 := rfl
      rw [h1] at hfs
      have h2 := abs_le.1 hfs
      norm_num at hdr hde h2
      refine ⟨fun z hz z' hz' hne => ?_, ?_, fun i => ?_⟩
      · have := h8 z hz z' hz' hne
        norm_num
        linarith
      · norm_num
        linarith
      · rw [(hlim' i).1, (hlim' i).2]
        linarith) hc hret (C112Demo.accurate hr p.coord _) hM (fun i => by rw [(hlim' i).1, (hlim' i).2]; norm_num) ((div_le_iff₀ (by norm_num)).2 (hfew'.trans (by norm_num))) hid
  refine ⟨out, ho, e, fun i => ?_⟩
  obtain ⟨h1, q, h2, h3⟩ := he i
  refine ⟨h1, q, h2, h3.trans ?_⟩
  have hav : averageError p.coord (fun _ : Fin 1 => 40) c.state.result.nodes.values.length ≤ 1 / 10 ^ 9 := by
    unfold averageError
    rw [C112Demo.len_one, (hlim' 0).1, (hlim' 0).2, abs_of_nonneg (by positivity)]
    norm_num
    linarith
  norm_num at hdr hav ⊢
  linarith

/-- such searches exist: rounding to nearest with ties to even -/
example : ∃ (A : FL.CtlArith 1) (B : FL.IdArith 1) (p : CtlParams 1) (P : NMParams) (c : Ctl 1) (out : IdContainer 1), IsNearest A.rnd ∧ FloatReachLive A p (FloatLiveMinimization A p P gap) 1 c ∧ c.phase = .returned ∧
    FL.IdentifyRun B (.container c.state.result) none (.ok out) ∧ ∃ e : Fin out.results.length ≃ Z, ∀ i, (out.results.get i).dimension = some 0 ∧ ∃ q, (out.results.get i).shape = some (.point q) ∧ p.coord.distance q (e i) ≤ 0.051 := by
  obtain ⟨p, P, hset⟩ := setup_ok (rnd := C102Demo.rndEven)
  obtain ⟨c, h1, h2⟩ := returns C102Demo.rndEven_nearest hset
  obtain ⟨res, hres⟩ := C112_total (C112Demo.arith C102Demo.rndEven p.coord) (c.state.result.nodes.values.map fun n => n.pos) c.state.result.coord (C102Demo.rndEven (c.state.result.distCutoff * 3))
  have hid : FL.IdentifyRun (C112Demo.arith C102Demo.rndEven p.coord) (.container c.state.result) none res := .default rfl hres
  obtain ⟨out, rfl, h⟩ := finds C102Demo.rndEven_nearest hset h1 h2 hid
  exact ⟨C103Demo.arith C102Demo.rndEven, _, p, P, c, out, C102Demo.rndEven_nearest, h1, h2, hid, h⟩

end C113Demo

end NF
