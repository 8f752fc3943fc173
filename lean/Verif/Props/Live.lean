import Verif.Lemmas.Live
import Verif.Props.OneDim
import Verif.Props.Recover

/-! # C86: in one dimension, a search finds a node in every valley that is wide enough for the mesh -/

noncomputable section
open Classical
namespace NF
open Spec CoordSys Container NMDemo
variable {d : ℕ}

/-- **C86**, the fake potential of a search is as assumed: if a minimization sees, in its calls, containers whose nodes are among `nodes` (the container only grows: C12), then each call returns 0 or the point is near one of `nodes`. -/
theorem C86_fake_potential {p : CtlParams d} (hg : GoodGeometry p) (ops : ℕ → List (ContainerOp d)) {nodes : List (SRes d)}
    (hn : ∀ n, ∀ r ∈ (history p.coord p.gapThreshold p.distCutoff (ops n)).nodes.values, r ∈ nodes) :
    LiveFake p nodes fun n => fakePotential (history p.coord p.gapThreshold p.distCutoff (ops n)) p.distCutoff := by
  intro n x
  have := C14_fake_potential p.coord p.gapThreshold p.distCutoff (ops n) hg.1 (goodGeometry_dc hg) (goodGeometry_sz hg) p.distCutoff le_rfl x
  beta_reduce
  rw [this]
  split
  · rename_i h
    obtain ⟨r, hr, -, h2⟩ := h
    exact .inr ⟨r, hn n r hr, h2⟩
  · exact .inl rfl

/-- **C86**, in any dimension: when a search returns, every simplex of the initial mesh and every stencil simplex around a refined position has been dealt with; where it has been minimized, the fake potential was zero, apart from
points near nodes of the result. -/
theorem C86_exploration_complete {p : CtlParams d} (hd : DistinctInput p) (hg : GoodGeometry p) {R : List (SRes d) → Simplex d → SRes d → Prop}
    (hm : ∀ l l' : List (SRes d), (∀ r ∈ l, r ∈ l') → ∀ s r, R l s r → R l' s r) {c : Ctl d} (h : ReachLive p R c) (hret : c.phase = .returned) :
    ∀ s ∈ p.mesh ++ stencilSimplices p c.state.result.refined.values, Explored p (R c.state.result.nodes.values) c.state.result (normalizeSimplex s) := by
  intro s hs
  refine ((live_reach hd hg hm h).1.2.kept s hs).resolve_left ?_
  obtain ⟨h1, h2, h3, -⟩ := C24_return_means_finished hd (reachWith_reach (live_with (R' := fun _ _ => True) (fun _ _ _ _ => trivial) h)).any hret
  simp [outstanding, h1, h2, h3]

/-- the distance is that to some image -/
theorem image_at_distance {cs : CoordSys 1} (hb : ProperBox cs) (x y : Vec 1) : ∃ z, SamePoint cs z y ∧ |x 0 - z 0| = cs.distance x y := by
  have heu : ∀ z : Vec 1, eucl x z = |x 0 - z 0| := fun z => by
    simp [eucl, Real.sqrt_sq_eq_abs]
  by_cases hp : cs.periodic = true
  · obtain ⟨k, hk⟩ := (C04_distance_is_min_over_images cs hb hp x y).1
    refine ⟨shift cs k y, ?_, by rw [hk, heu]⟩
    unfold SamePoint
    rw [if_pos hp]
    refine ⟨fun i => - k i, ?_⟩
    funext i
    simp [shift]
  · refine ⟨y, samePoint_refl _ _, ?_⟩
    rw [C03_distance_nonperiodic cs (by simpa using hp), heu]

theorem node_of_result {p : CtlParams d} {c : Ctl d} (hh : HistInv p c) {r : SRes d} (hm : movedTo r (p.coord.normalizePosition r.pos) ∈ c.state.result.minimizationResults)
    (hn : IsNode p.gapThreshold r) : movedTo r (p.coord.normalizePosition r.pos) ∈ c.state.result.nodes.values := by
  obtain ⟨⟨ops, h1, -⟩, -⟩ := hh
  obtain ⟨-, -, -, f4, f5, -⟩ := h1.fields
  rcases List.mem_append.1 hm with h | h
  · exact h
  · exfalso
    change _ ∈ c.state.result.rejected at h
    rw [f5, (C12_nodes_and_rejected p.coord p.gapThreshold p.distCutoff ops).2.1] at h
    obtain ⟨r1, hr1, e⟩ := List.mem_map.1 h
    have h2 := of_decide_eq_true (List.mem_filter.1 hr1).2
    refine h2 ⟨?_, ?_⟩
    · have := congrArg SRes.success e
      simp only [movedTo, SRes.success_setPos] at this
      rw [this]; exact hn.1
    · have := congrArg SRes.value e
      simp only [movedTo, SRes.value_setPos] at this
      rw [this]; exact hn.2

/-- **C86**: let the gap function of a one-dimensional search have a valley around `m` at whose bottom it is below the threshold, and let the initial mesh contain a segment near `m` that is small compared to the valley (and longer than the tolerance).  If the
search returns, whatever the schedule, crashes and restarts, with or without the fake potential, then one of its nodes is in the valley (up to a lattice vector, if the space is periodic), where the gap is below the threshold. -/
theorem C86_finds_node {p : CtlParams 1} (hd : DistinctInput p) (hg : GoodGeometry p) {P : NMParams} (hftol : P.ftol ≠ FVal.inf) (hc : P.fprimeCutoff = none)
    {G : Vec 1 → FVal} (hG : ∀ x y, SamePoint p.coord x y → G x = G y) {g : ℝ → ℝ} {m W W' R δ : ℝ} {K : ℕ} (hv : Valley g m W)
    (hGg : ∀ x : Vec 1, |x 0 - m| ≤ W → G x = FVal.ofReal (g (x 0))) (hW : W' + p.featureSize / 3 ≤ W) (hR : 4 * R ≤ W') (hxW : 20 * P.xtol ≤ W')
    (hδ : 0 < δ) (hδx : δ ≤ P.xtol) (hft : ∀ x y, |x - m| ≤ 3 * δ → |y - m| ≤ 3 * δ → Within P.ftol (FVal.ofReal (g x)) (FVal.ofReal (g y)))
    (hK : R ≤ 2 ^ K * δ) (hK' : 5 * P.xtol ≤ 2 ^ K * δ) (hit : 3 * K + 4 < P.iterLimit 1) (hfe : 6 * K + 8 < P.fevLimit 1)
    (hthr : ∀ x, |x - m| ≤ 2 * P.xtol → g x ≤ p.gapThreshold)
    {a b : Vec 1} (hab : [a, b] ∈ p.mesh) (ha : |a 0 - m| + |b 0 - a 0| ≤ R) (hb : |b 0 - m| + |b 0 - a 0| ≤ R) (hx : P.xtol < |b 0 - a 0|)
    {c : Ctl 1} (h : ReachLive p (LiveMinimization p P G) c) (hret : c.phase = .returned) :
    ∃ r ∈ c.state.result.nodes.values, ∃ x, SamePoint p.coord x r.pos ∧ |x 0 - m| ≤ W ∧ g (x 0) ≤ p.gapThreshold := by
  have hfs : 0 < p.featureSize / 3 := goodGeometry_dc hg
  have hx0 : 0 < P.xtol := hδ.trans_le hδx
  have hwith : ReachWith p (MinimizationOf P fun x v => v = G x) c := live_with (fun l s r ⟨fake, sim0, h1, h2, h3⟩ => ⟨_, fake, sim0, fun _ _ => rfl, h2, h3⟩) h
  -- a node near a point of the inner valley is what is wanted
  have near : ∀ (x : Vec 1) (r : SRes 1), r ∈ c.state.result.nodes.values → |x 0 - m| ≤ W' → p.coord.distance x r.pos < p.featureSize / 3 →
      ∃ r ∈ c.state.result.nodes.values, ∃ x, SamePoint p.coord x r.pos ∧ |x 0 - m| ≤ W ∧ g (x 0) ≤ p.gapThreshold := by
    intro x r hr hxm hdist
    obtain ⟨z, hz, hzd⟩ := image_at_distance hg.1 x r.pos
    obtain ⟨v, -, hvt, y, hy, hGy⟩ := C45_nodes_below_threshold le_rfl hg.1 hftol hc hwith hr
    have hzW : |z 0 - m| ≤ W := by
      have := abs_add_le (z 0 - x 0) (x 0 - m)
      rw [show z 0 - x 0 + (x 0 - m) = z 0 - m by ring, abs_sub_comm (z 0) (x 0)] at this
      linarith
    refine ⟨r, hr, z, hz, hzW, ?_⟩
    have e : FVal.ofReal (g (z 0)) = FVal.ofReal v := by
      rw [← hGg z hzW, hGy, hG z _ hz, hG y _ hy]
    have : g (z 0) = v := le_antisymm (ofReal_le.1 e.le) (ofReal_le.1 e.ge)
    rw [this]; exact hvt
  have hperm : (normalizeSimplex [a, b]).Perm [a, b] := normalizeSimplex_perm _
  have hmem : ∀ v ∈ normalizeSimplex [a, b], v = a ∨ v = b := fun v hv => by
    have := hperm.mem_iff.1 hv
    simpa using this
  have hRW : R ≤ W' := by
    have : 0 ≤ R := le_trans (by positivity) ha
    linarith
  have hvert : ∀ v, v = a ∨ v = b → |v 0 - m| ≤ W' := by
    have := abs_nonneg (b 0 - a 0)
    rintro v (rfl | rfl) <;> linarith
  rcases C86_exploration_complete hd hg (liveMinimization_mono p P G) h hret [a, b] (List.mem_append_left _ hab) with ⟨r, ⟨fake, sim0, hfake, hsim, htwo⟩, hres⟩ | ⟨hpos, -⟩
  · by_cases hq : ∀ q, fake = some q → ∀ n (x : Vec 1), |x 0 - m| ≤ W' → q n x = FVal.ofReal 0
    · have hf : ∀ (n : ℕ) (x : Vec 1), |x 0 - m| ≤ W' → (fun (_ : ℕ) => G) n x = FVal.ofReal (g (x 0)) := fun n x hx => hGg x (by linarith)
      have hv' : Valley g m W' := ⟨hv.falls.mono (Set.Icc_subset_Icc (by linarith) le_rfl), hv.rises.mono (Set.Icc_subset_Icc le_rfl (by linarith))⟩
      have hl : List.ofFn sim0 = [sim0 0, sim0 1] := by simp [List.ofFn_succ]
      have h01 : (sim0 0 = a ∧ sim0 1 = b) ∨ (sim0 0 = b ∧ sim0 1 = a) := by
        rw [hsim, hl] at hperm
        rcases List.perm_pair.1 hperm with h | h <;> simp only [List.cons.injEq, and_true] at h
        · exact .inl h
        · exact .inr h
      have hD : |sim0 1 0 - sim0 0 0| = |b 0 - a 0| := by
        rcases h01 with ⟨e1, e2⟩ | ⟨e1, e2⟩ <;> rw [e1, e2]
        exact abs_sub_comm _ _
      have hs : ∀ i, |sim0 i 0 - m| + |sim0 1 0 - sim0 0 0| ≤ R := by
        intro i
        rw [hD]
        rcases h01 with ⟨e1, e2⟩ | ⟨e1, e2⟩ <;> fin_cases i <;> simp only [Fin.zero_eta, Fin.mk_one, e1, e2] <;> assumption
      obtain ⟨hsuc, hnear⟩ := C85_finds_minimum hv' hR hxW hc hδ hδx hft hK hK' hit hfe hf hq hs (hD ▸ hx) htwo
      obtain ⟨v, hfin⟩ := C43_two_step_finite le_rfl htwo hsuc hftol (.inl hc)
      obtain ⟨k, -, hval⟩ := C44_true_function le_rfl htwo (by rw [hfin]; exact ofReal_ne_nan _)
      have hrW : |r.pos 0 - m| ≤ W' := by linarith
      rw [show G r.pos = _ from hf k r.pos hrW] at hval
      have hle := hthr _ hnear
      have hnode : IsNode p.gapThreshold r := ⟨hsuc, fun hgt => by
        rw [hval] at hgt
        have := flt.1 hgt
        linarith⟩
      refine ⟨_, node_of_result (live_reach hd hg (liveMinimization_mono p P G) h).1.1.2 hres hnode, r.pos, ?_, by linarith, hle⟩
      simp only [movedTo, SRes.pos_setPos]
      exact samePoint_normalize hg.1 _
    · push Not at hq
      obtain ⟨q, hq1, n, x, hxm, hne⟩ := hq
      obtain ⟨r', hr', hd'⟩ := (hfake q hq1 n x).resolve_left hne
      exact near x r' hr' hxm hd'
  · obtain ⟨v, hv1⟩ := List.exists_mem_of_length_pos hpos
    obtain ⟨hv2, hv3⟩ := List.mem_filter.1 hv1
    obtain ⟨r', hr', -, hd'⟩ := of_decide_eq_true hv3
    exact near v r' hr' (hvert v (hmem v hv2)) hd'

theorem meshSimplex_one (lower upper : Vec 1) (m : Fin 1 → ℕ) (v : Vec 1) :
    meshSimplex lower upper m v = [v, fun _ => v 0 + (upper 0 - lower 0) / (2 * m 0)] := by
  unfold meshSimplex
  rw [List.ofFn_succ, List.ofFn_succ, List.ofFn_zero]
  congr 1
  · funext k; simp [simplexStencil]
  · congr 1
    funext k
    have : k = 0 := Subsingleton.elim _ _
    subst this
    simp [simplexStencil]

/-- **C86**, in terms of the arguments of `search.run`, with the default options of the minimizer: a one-dimensional search with a mesh of `n` points on an interval (or circle) of length `L`, that is with spacing at most `h = L / (n - 1)`, finds a node in
every valley of width `6 * h + feature_size` to both sides, whose bottom is below the threshold as far as `feature_size / 50` and flat enough for the tolerance (`gap_threshold / 20`) as far as some `3 * δ`, where `δ` may be as small as `h * 2 ^ (-29)`. -/
theorem C86_search {args : SearchArgs 1} {p : CtlParams 1} {P : NMParams} (hset : setup args = .ok (p, P)) (hl : (args.limits 0).1 ≠ (args.limits 0).2) (hf : 0 < args.featureSize)
    (hsz : args.periodic = true ∨ args.featureSize / 3 ≤ |(args.limits 0).2 - (args.limits 0).1|) (hst : args.refinementStencil = .auto ∨ args.refinementStencil = .none)
    (hkw : args.nelderMead = NMKwargs.empty) {n : ℕ} (hn : 2 ≤ n) (hm : args.initialMeshSize = .inl (n : ℤ))
    {G : Vec 1 → FVal} (hG : args.periodic = true → ∀ (x : Vec 1) (k : ℤ), G (fun i => x i + k * |(args.limits 0).2 - (args.limits 0).1|) = G x)
    {g : ℝ → ℝ} {m W h δ : ℝ} (hh : h = |(args.limits 0).2 - (args.limits 0).1| / ((n : ℝ) - 1)) (hv : Valley g m W)
    (hGg : ∀ x : Vec 1, |x 0 - m| ≤ W → G x = FVal.ofReal (g (x 0))) (hW : 6 * h + args.featureSize ≤ W)
    (hmesh : args.featureSize / 50 < |(args.limits 0).2 - (args.limits 0).1| / n) (hin : min (args.limits 0).1 (args.limits 0).2 ≤ m ∧ m < max (args.limits 0).1 (args.limits 0).2)
    (hδ : 0 < δ) (hδf : δ ≤ args.featureSize / 100) (hδh : h ≤ 2 ^ 29 * δ) (hflat : ∀ x y, |x - m| ≤ 3 * δ → |y - m| ≤ 3 * δ → |g x - g y| ≤ args.gapThreshold / 20)
    (hthr : ∀ x, |x - m| ≤ args.featureSize / 50 → g x ≤ args.gapThreshold)
    {c : Ctl 1} (hc : ReachLive p (LiveMinimization p P G) c) (hret : c.phase = .returned) :
    ∃ r ∈ c.state.result.nodes.values, ∃ x, SamePoint p.coord x r.pos ∧ |x 0 - m| ≤ W ∧ g (x 0) ≤ args.gapThreshold := by
  obtain ⟨e1, e2, e3, e4, e5, -, e7, e8, elim, eper, -, eauto, enone, emesh⟩ := C71_settings hset
  simp only [hkw, NMKwargs.empty, Option.getD_none] at e1 e2 e3 e4 e5
  have hb : ProperBox p.coord := properBox_setup hset fun i => by rw [Subsingleton.elim i 0]; exact hl
  have hL : p.coord.upper 0 - p.coord.lower 0 = |(args.limits 0).2 - (args.limits 0).1| := by
    rw [(elim 0).1, (elim 0).2, max_sub_min_eq_abs']
    exact abs_sub_comm _ _
  set L := |(args.limits 0).2 - (args.limits 0).1| with hLdef
  have hLpos : 0 < L := abs_pos.2 (sub_ne_zero.2 hl.symm)
  have hgeo : GoodGeometry p := ⟨hb, by rw [e7]; exact hf, hsz.imp (fun h => eper.trans h) fun h i => by
    rw [Subsingleton.elim i 0, hL, e7]; exact h⟩
  have hdist : DistinctInput p := distinct_setup hset (fun i => by rw [Subsingleton.elim i 0]; exact hl) hf hst
  have hnR : (2 : ℝ) ≤ n := by exact_mod_cast hn
  have hh0 : 0 < h := by rw [hh]; exact div_pos hLpos (by linarith)
  have hnh : L / n ≤ h := by
    rw [hh]
    exact div_le_div_of_nonneg_left hLpos.le (by linarith) (by linarith)
  -- a segment of the mesh near `m`
  obtain ⟨s, hs, v, rest, rfl, hv1⟩ := C48_mesh_covers hb (m := fun _ => n) (fun _ => by omega) (x := fun _ => m) (fun i => by
    rw [Subsingleton.elim i 0, (elim 0).1, (elim 0).2]; exact ⟨hin.1, hin.2.le⟩) (fun _ i => by
    rw [Subsingleton.elim i 0, (elim 0).1, (elim 0).2]; exact hin)
  have hspace : meshSpacing p.coord.periodic (p.coord.upper 0 - p.coord.lower 0) n ≤ h := by
    unfold meshSpacing
    rw [hL]
    split
    · exact hnh
    · rw [if_neg (by omega), hh]
  obtain ⟨hv2, hv3⟩ := hv1 0
  have hab : [v, fun _ => v 0 + L / (2 * n)] ∈ p.mesh := by
    have h2 := emesh n hm
    rw [Int.toNat_natCast] at h2
    rw [h2]
    obtain ⟨w, hw, e⟩ := List.mem_map.1 hs
    rw [meshSimplex_one] at e
    have e' : w = v := (List.cons.inj e).1
    subst e'
    have := meshSimplex_one p.coord.lower p.coord.upper (fun _ => n) w
    rw [hL] at this
    rw [← this]
    exact List.mem_map.2 ⟨w, hw, rfl⟩
  have hseg : L / (2 * n) = L / n / 2 := by rw [div_div, mul_comm]
  have hseg0 : 0 < L / n := div_pos hLpos (by linarith)
  have hb0 : (fun _ : Fin 1 => v 0 + L / (2 * n)) 0 - v 0 = L / n / 2 := by rw [hseg]; ring
  have hfin : P.ftol ≠ FVal.inf := by
    rw [e2]
    intro h
    have : ((args.gapThreshold / 20 : ℝ) : EReal) = ⊤ := WithTop.coe_injective h
    exact EReal.coe_ne_top _ this
  refine e8 ▸ C86_finds_node hdist hgeo (P := P) hfin (e5 trivial) (G := G) ?_ (g := g) (m := m) (W := W) (W' := W - args.featureSize / 3) (R := 3 / 2 * h) (δ := δ) (K := 31)
    hv hGg (by rw [e7]; linarith) (by linarith) (by rw [e1]; linarith) hδ (by rw [e1]; exact hδf) ?_ (by norm_num at hδh ⊢; linarith) ?_
    (by rw [e3 trivial]; norm_num) (by rw [e4 trivial]; norm_num) ?_ hab ?_ ?_ ?_ hc hret
  · intro x y hxy
    unfold SamePoint at hxy
    split at hxy
    · rename_i hp
      obtain ⟨k, rfl⟩ := hxy
      rw [← hG (eper.symm.trans hp) x (k 0)]
      congr 1
      funext i
      rw [Subsingleton.elim i 0, shift, hL]
    · rw [hxy]
  · intro x y hx hy
    rw [e2, within_of_abs]
    exact hflat x y hx hy
  · rw [e1]
    have h2 : args.featureSize / 50 < h := hmesh.trans_le hnh
    norm_num at hδh ⊢
    linarith
  · intro x hx
    rw [e8]
    exact hthr x (by rw [e1] at hx; linarith)
  · rw [hb0, abs_of_pos (by linarith : 0 < L / n / 2), abs_of_nonpos (by linarith)]
    linarith
  · rw [hb0, abs_of_pos (by linarith : 0 < L / n / 2)]
    have : |v 0 + L / (2 * n) - m| ≤ h := by
      rw [abs_le, hseg]
      constructor <;> linarith
    show |v 0 + L / (2 * n) - m| + _ ≤ _
    linarith
  · rw [hb0, e1, abs_of_pos (by linarith)]
    linarith

/-! ### The hypotheses can be met: a search on the unit circle -/

namespace C86Demo

/-- a search on the circle of length 1, with 100 mesh points -/
def args : SearchArgs 1 where
  limits := fun _ => (0, 1)
  periodic := true
  saveFile := false
  initialMeshSize := .inl 100
  forceInitialMesh := false
  refinementStencil := .auto
  gapThreshold := 1 / 100
  featureSize := 1 / 10
  nelderMead := NMKwargs.empty
  numMinimizeParallel := 50
  recheckPosDist := true
  recheckCountCutoff := 0
  simplexCheckCutoff := 0

/-- the gap: the square of the distance to 1/2, on the circle -/
def gap (x : Vec 1) : FVal := FVal.ofReal ((x 0 - 1 / 2 - round (x 0 - 1 / 2)) ^ 2)

theorem gap_periodic (x : Vec 1) (k : ℤ) : gap (fun i => x i + k * |(args.limits 0).2 - (args.limits 0).1|) = gap x := by
  unfold gap
  congr 2
  simp only [args, sub_zero, abs_one, mul_one]
  rw [show x 0 + (k : ℝ) - 1 / 2 = x 0 - 1 / 2 + k by ring, round_add_intCast]
  push_cast
  ring

theorem gap_near (x : Vec 1) (h : |x 0 - 1 / 2| ≤ 1 / 4) : gap x = FVal.ofReal ((x 0 - 1 / 2) ^ 2) := by
  have : round (x 0 - 1 / 2) = 0 := by
    rw [round_eq_zero_iff]
    obtain ⟨h1, h2⟩ := abs_le.1 h
    constructor <;> linarith
  unfold gap
  rw [this]; simp

theorem valley : Valley (fun x => (x - 1 / 2) ^ 2) (1 / 2) (1 / 4) where
  falls x hx y hy hxy := by
    have h1 := hx.2; have h2 := hy.2
    show (y - 1 / 2) ^ 2 < (x - 1 / 2) ^ 2
    nlinarith
  rises x hx y hy hxy := by
    have h1 := hx.1; have h2 := hy.1
    show (x - 1 / 2) ^ 2 < (y - 1 / 2) ^ 2
    nlinarith

theorem setup_ok : ∃ p P, setup args = .ok (p, P) := by
  rw [setup_eq, if_pos]
  · exact ⟨_, _, rfl⟩
  · simp [meshSizes, args]

/-- the hypotheses of `C86_search` are met: when the search returns, it has found a node within 1/10 of 1/2 (up to an integer) -/
theorem finds {p : CtlParams 1} {P : NMParams} (hset : setup args = .ok (p, P)) {c : Ctl 1} (hc : ReachLive p (LiveMinimization p P gap) c) (hret : c.phase = .returned) :
    ∃ r ∈ c.state.result.nodes.values, ∃ x, SamePoint p.coord x r.pos ∧ |x 0 - 1 / 2| ≤ 1 / 10 := by
  obtain ⟨r, hr, x, h1, h2, h3⟩ := C86_search hset (by simp [args]) (by norm_num [args]) (.inl rfl) (.inl rfl) rfl (n := 100) (by norm_num) rfl (G := gap) (fun _ => gap_periodic)
    (g := fun x => (x - 1 / 2) ^ 2) (m := 1 / 2) (W := 1 / 4) (h := 1 / 99) (δ := 1 / 1000) (by norm_num [args]) valley gap_near (by norm_num [args]) (by norm_num [args])
    (by norm_num [args]) (by norm_num) (by norm_num [args]) (by norm_num) (fun x y hx hy => by
      have h1 := sq_le_sq' (abs_le.1 hx).1 (abs_le.1 hx).2
      have h2 := sq_le_sq' (abs_le.1 hy).1 (abs_le.1 hy).2
      have h3 := sq_nonneg (x - 1 / 2)
      have h4 := sq_nonneg (y - 1 / 2)
      simp only [args]
      rw [abs_le]
      constructor <;> linarith) (fun x hx => by
      have h1 := sq_le_sq' (abs_le.1 hx).1 (abs_le.1 hx).2
      simp only [args] at h1 ⊢
      linarith) hc hret
  refine ⟨r, hr, x, h1, ?_⟩
  simp only [args] at h3
  exact abs_le_of_sq_le_sq (h3.trans_eq (by norm_num)) (by norm_num)

/-- such a search exists and does return -/
example : ∃ p P c, setup args = .ok (p, P) ∧ ReachLive p (LiveMinimization p P gap) c ∧ c.phase = .returned ∧
    ∃ r ∈ c.state.result.nodes.values, ∃ x, SamePoint p.coord x r.pos ∧ |x 0 - 1 / 2| ≤ 1 / 10 := by
  obtain ⟨p, P, h⟩ := setup_ok
  obtain ⟨c, h1, h2, -⟩ := C87_search h (by simp [args]) (by norm_num [args]) rfl rfl (by simp [args]) gap .start
  exact ⟨p, P, c, h, h1, h2, finds h h1 h2⟩

/-- the fake potential of that search, when it has found a node at 1/2, and the nodes are those of the final result -/
example {p : CtlParams 1} {P : NMParams} (hset : setup args = .ok (p, P)) (r : SRes 1) :
    LiveFake p (history p.coord p.gapThreshold p.distCutoff [.addResult r]).nodes.values
      fun n => fakePotential (history p.coord p.gapThreshold p.distCutoff (if n ≤ 5 then [] else [.addResult r])) p.distCutoff := by
  refine C86_fake_potential ⟨properBox_setup hset (by simp [args]), ?_, .inl ?_⟩ _ fun n q hq => ?_
  · rw [(C71_settings hset).2.2.2.2.2.2.1]; norm_num [args]
  · rw [(C71_settings hset).2.2.2.2.2.2.2.2.2.1]; rfl
  · split at hq
    · exact absurd (show q ∈ ([] : List (SRes 1)) from hq) (by simp)
    · exact hq

end C86Demo

end NF
