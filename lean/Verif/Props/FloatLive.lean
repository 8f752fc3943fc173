import Verif.Lemmas.FloatNormalize
import Verif.Props.FloatController
import Verif.Props.FloatSetup
import Verif.Props.NoisyValley
import Verif.Props.Live

/-! # C106: in one dimension and in double precision, a search finds a node in every valley that is wide enough for the mesh; C107: the fake potential in double precision -/

noncomputable section
open Classical
namespace NF
open Spec CoordSys Container NMDemo
variable {d : ℕ}

theorem two_step_float {A : FL.Arith d} (hr : IsNearest A.rnd) (hd : 1 ≤ d) {P : NMParams} {f : ℕ → Vec d → FVal} {fake : Option (ℕ → Vec d → FVal)} {sim0 : Sim d} {r : SRes d}
    (h : IsFloatTwoStep A P f fake sim0 r) (h0 : ∀ i k, IsFloat (sim0 i k)) (k : Fin d) : IsFloat (r.pos k) := by
  cases fake with
  | none =>
    obtain ⟨r0, ev, rfl, h1⟩ := C102_no_fake h
    exact (C102_floats hr hd h1 h0).2.2 k
  | some q =>
    obtain ⟨first, second, ev1, ev2, S, -, -, -, h1, e, -⟩ := C102_two_step hd h
    rw [e]
    exact (C102_floats hr hd h1 fun i k => (hr _).1).2.2 k

theorem floatLive_mono (A : FL.CtlArith d) (p : CtlParams d) (P : NMParams) (G : Vec d → FVal) (l l' : List (SRes d)) (h : ∀ r ∈ l, r ∈ l') (s : Simplex d) (r : SRes d)
    (hr : FloatLiveMinimization A p P G l s r) : FloatLiveMinimization A p P G l' s r := by
  obtain ⟨B, fake, sim0, h1, h2, h3, h4, h5⟩ := hr
  refine ⟨B, fake, sim0, h1, h2, fun q hq n x => (h3 q hq n x).imp id ?_, h4, h5⟩
  rintro ⟨r, hr, hv⟩
  exact ⟨r, h r hr, hv⟩

/-- **C106**: in one dimension and in double precision, with crashes, restarts and all schedules: a search that returns has found a node in every valley of the gap function (of half-width `W` around `m`, where the values need only decrease towards `m`, and increase beyond it, between points more than
`η` apart, as the values of a function computed with rounding do) that a segment `a`, `b` of the mesh is in, and whose values near `m` are not above the threshold and closer to each other than `ftol`.  The node, whose value is that of the gap function somewhere and not above the threshold, is no farther
from `m` than `W + feature_size / 3`, up to rounding, although the minimizations with the fake potential are kept away from the nodes found before.  (`R`, `δ`, `K` and `K1` say how many iterations are needed.) -/
theorem C106_finds_node {A : FL.CtlArith 1} {p : CtlParams 1} {P : NMParams} {G : Vec 1 → FVal} (hS : FloatSearch A p (AnyNodes (FloatLiveMinimization A p P G)))
    (hg : FloatGeometry p (AnyNodes (FloatLiveMinimization A p P G))) (hftol : P.ftol ≠ FVal.inf) (hc : P.fprimeCutoff = none)
    {g : ℝ → ℝ} {m W η R δ : ℝ} {K K1 : ℕ} (hv : NoisyValley g m W η) (hm : p.coord.lower 0 ≤ m ∧ m ≤ p.coord.upper 0) (hW : 0 ≤ W) (hW' : W ≤ p.coord.upper 0 - p.coord.lower 0)
    (hη : (|m| + W) / 2 ^ 48 ≤ η) (hGg : ∀ x : Vec 1, IsFloat (x 0) → |x 0 - m| ≤ W → G x = FVal.ofReal (g (x 0))) (hgf : ∀ x, IsFloat x → |x - m| ≤ W → IsFloat (g x))
    (hR : 5 * R + 46 * η ≤ W) (hxW : 21 * P.xtol ≤ W) (hδ0 : 0 < δ) (hδ : 100 * η ≤ δ) (hδx : δ + 7 * η ≤ P.xtol)
    (hft : ∀ x y, IsFloat x → IsFloat y → |x - m| ≤ 4 * δ → |y - m| ≤ 4 * δ → FloatWithin A.rnd P.ftol (FVal.ofReal (g x)) (FVal.ofReal (g y)))
    (hthr : ∀ x, IsFloat x → |x - m| ≤ 2 * P.xtol + 150 * η → g x ≤ p.gapThreshold)
    {a b : Vec 1} (hab : [a, b] ∈ p.mesh) (hfa : IsFloat (a 0)) (hfb : IsFloat (b 0)) (ha : |a 0 - m| + |b 0 - a 0| ≤ R) (hb : |b 0 - m| + |b 0 - a 0| ≤ R) (hx : P.xtol + η < |b 0 - a 0|)
    (hK : R ≤ 2 ^ K * δ) (hK' : 7 * P.xtol ≤ 2 ^ K * δ) (hK1 : R ≤ 2 ^ K1 * (|b 0 - a 0| - η)) (hit : 3 * K + K1 + 8 < P.iterLimit 1) (hfe : 6 * K + 2 * K1 + 14 < P.fevLimit 1)
    {n : ℕ} {c : Ctl 1} (h : FloatReachLive A p (FloatLiveMinimization A p P G) n c) (hret : c.phase = .returned) :
    ∃ r ∈ c.state.result.nodes.values, p.coord.distance (fun _ => m) r.pos ≤ W + p.featureSize / 3 * (1 + 1 / 2 ^ 52) + distanceError p.coord + (n + 2) * driftError p.coord ∧
      ∃ v : ℝ, r.value = FVal.ofReal v ∧ v ≤ p.gapThreshold ∧ ∃ x, G x = FVal.ofReal v ∧ p.coord.distance (FL.normalizePosition A.rnd p.coord x) r.pos ≤ n * driftError p.coord := by
  have hR0 : 0 ≤ R := le_trans (by positivity) ha
  have hη0 : 0 ≤ η := le_trans (by positivity) hη
  have hdr := FL.drift_nonneg p.coord
  have hde := FL.distanceError_nonneg p.coord
  have hfs := hg.positive
  have hcov : FL.cover p = p.featureSize / 3 * (1 + 1 / 2 ^ 52) + distanceError p.coord := rfl
  have hcov0 : 0 ≤ FL.cover p := by rw [hcov]; positivity
  have h21 : 2 * P.xtol + 150 * η ≤ W := by linarith
  -- the triangle inequality, from a point of the valley
  have tri : ∀ x y z : Vec 1, p.coord.distance x z ≤ p.coord.distance x y + p.coord.distance y z := fun x y z => (C03_distance_metric p.coord hS.box x y z).2.2.1
  have hvalley : ∀ x : Vec 1, p.coord.distance (fun _ => m) x ≤ |x 0 - m| := by
    intro x
    have := distance_le_sum hS.box (fun _ => m) x
    rw [Fin.sum_univ_one, abs_sub_comm] at this
    exact this
  have haround : ∀ x : Vec 1, |x 0 - m| ≤ W → FL.Around p x := by
    intro x hx i
    rw [Subsingleton.elim i 0]
    have := abs_le.1 hx
    rw [abs_le]; constructor <;> linarith [this.1, this.2, hm.1, hm.2]
  have hnn : ∀ k : ℕ, (0 : ℝ) ≤ (k + 2) * driftError p.coord := fun k => by positivity
  let Goal : ℕ → List (SRes 1) → Prop := fun k l => ∃ r ∈ l, p.coord.distance (fun _ => m) r.pos ≤ W + FL.cover p + (k + 2) * driftError p.coord
  have near : ∀ (k : ℕ) (l : List (SRes 1)), (∀ r ∈ l, FL.StoredNode A p r) → ∀ (x : Vec 1) (r : SRes 1), r ∈ l → |x 0 - m| ≤ W → ∀ v, FL.Distance A.rnd p.coord x r.pos v → v < FL.distCutoff A p → Goal k l := by
    intro k l hl x r hr hxm v hv hlt
    have h1 := FL.near_of_computed hS hg (haround x hxm) (fun i => ((hl r hr).1 i).1) hv hlt
    refine ⟨r, hr, ?_⟩
    have := tri (fun _ => m) x r.pos
    linarith [hvalley x, hnn k]
  have hperm : (normalizeSimplex [a, b]).Perm [a, b] := normalizeSimplex_perm _
  have hmem : ∀ v ∈ normalizeSimplex [a, b], v = a ∨ v = b := fun v hv => by
    have := hperm.mem_iff.1 hv
    simpa using this
  have hvert : ∀ v, v = a ∨ v = b → |v 0 - m| ≤ W := by
    have := abs_nonneg (b 0 - a 0)
    rintro v (rfl | rfl) <;> linarith
  have hGo : FL.GoalOk A p (FloatLiveMinimization A p P G) (normalizeSimplex [a, b]) Goal := by
    refine ⟨?_, ?_, ?_, ?_, ?_⟩
    · rintro k l l' hll ⟨r, hr, h1⟩
      exact ⟨r, hll r hr, h1⟩
    · rintro k l ⟨r, hr, h1⟩
      refine ⟨r, hr, h1.trans ?_⟩
      push_cast
      linarith
    · rintro k l hl ⟨r, hr, h1⟩
      refine ⟨_, List.mem_map.2 ⟨r, hr, rfl⟩, ?_⟩
      obtain ⟨hin, r0, hf0, e⟩ := hl r hr
      have h2 := (FL.stored_reload hS hf0 (e ▸ hin)).1
      rw [← e] at h2
      have := tri (fun _ => m) r.pos (FL.stored A p r.reload).pos
      push_cast
      linarith
    · rintro k l r hl ⟨B, fake, sim0, hB, hBv, hfake, hsim, htwo⟩ -
      by_cases hq : ∀ q, fake = some q → ∀ n (x : Vec 1), |x 0 - m| ≤ W → q n x = FVal.ofReal 0
      · have hrB : IsNearest B.rnd := hB ▸ hS.nearest
        have hl : List.ofFn sim0 = [sim0 0, sim0 1] := by simp [List.ofFn_succ]
        have h01 : (sim0 0 = a ∧ sim0 1 = b) ∨ (sim0 0 = b ∧ sim0 1 = a) := by
          rw [hsim, hl] at hperm
          rcases List.perm_pair.1 hperm with h | h <;> simp only [List.cons.injEq, and_true] at h
          · exact .inl h
          · exact .inr h
        have hD : |sim0 1 0 - sim0 0 0| = |b 0 - a 0| := by
          rcases h01 with ⟨e1, e2⟩ | ⟨e1, e2⟩ <;> rw [e1, e2]
          exact abs_sub_comm _ _
        have hs : ∀ i, |sim0 i 0 - m| + |sim0 1 0 - sim0 0 0| ≤ R := by
          intro i
          rw [hD]
          rcases h01 with ⟨e1, e2⟩ | ⟨e1, e2⟩ <;> fin_cases i <;> simp only [Fin.zero_eta, Fin.mk_one, e1, e2] <;> assumption
        have hfl : ∀ i, IsFloat (sim0 i 0) := by
          intro i
          rcases h01 with ⟨e1, e2⟩ | ⟨e1, e2⟩ <;> fin_cases i <;> simp only [Fin.zero_eta, Fin.mk_one, e1, e2] <;> assumption
        have hf : ∀ (n : ℕ) (x : Vec 1), IsFloat (x 0) → |x 0 - m| ≤ W → (fun (_ : ℕ) => G) n x = FVal.ofReal (g (x 0)) := fun n x => hGg x
        obtain ⟨hsuc, hnear⟩ := C105_finds_minimum hrB hBv hv hW hη hR hxW hc hδ0 hδ hδx (by rw [hB]; exact hft) hf hgf hq hfl hs (hD ▸ hx) hK hK' (hD ▸ hK1) hit hfe htwo
        obtain ⟨v, hfin⟩ := C102_two_step_finite hrB le_rfl htwo hsuc hftol (.inl hc)
        obtain ⟨k', -, hval⟩ := C102_true_function le_rfl htwo (by rw [hfin]; exact ofReal_ne_nan _)
        have hrf : IsFloat (r.pos 0) := two_step_float hrB le_rfl htwo (fun i k => by rw [Subsingleton.elim k 0]; exact hfl i) 0
        have hrW : |r.pos 0 - m| ≤ W := by linarith
        rw [show G r.pos = _ from hf k' r.pos hrf hrW] at hval
        have hle := hthr _ hrf hnear
        have hnode : IsNode p.gapThreshold r := ⟨hsuc, fun hgt => by
          rw [hval] at hgt
          have := flt.1 hgt
          linarith⟩
        rw [if_pos hnode]
        refine ⟨FL.stored A p r, by simp, ?_⟩
        rw [FL.stored_pos]
        have h1 := FL.normalize_near hS (haround _ hrW)
        have h2 := tri (fun _ => m) r.pos (FL.normalizePosition A.rnd p.coord r.pos)
        have h3 : (0 : ℝ) ≤ k * driftError p.coord := by positivity
        linarith [hvalley r.pos]
      · push Not at hq
        obtain ⟨q, hq1, n', x, hxm, hne⟩ := hq
        obtain ⟨r', hr', v, hv1, hv2⟩ := (hfake q hq1 n' x).resolve_left hne
        obtain ⟨r2, hr2, h2⟩ := near k l hl x r' hr' hxm v hv1 hv2
        refine ⟨r2, ?_, h2⟩
        split
        · exact List.mem_append_left _ hr2
        · exact hr2
    · intro k l hl v hv r hr hlt
      exact near k l hl v r hr (hvert v (hmem v hv)) _ (hS.distances p.coord v r.pos) hlt
  have hreach := FL.live_reach h
  obtain ⟨h1, h2, h3, -⟩ := C103_returned hS hreach hret
  obtain ⟨-, hinv, -⟩ := FL.live_goal hS hg.near (floatLive_mono A p P G) hab hGo h
  obtain ⟨r, hr, hd⟩ : Goal n c.state.result.nodes.flat := hinv.resolve_left (by simp [outstanding, h1, h2, h3])
  refine ⟨r, hr, by rw [hcov] at hd; linarith, ?_⟩
  obtain ⟨v, k1, k2, x, k3, k4⟩ := C103_nodes_below_threshold (G := fun x v => v = G x) le_rfl hftol (.inl hc) (fun s r ⟨l, B, fake, sim0, e1, e2, e3, e4, e5⟩ => ⟨B, fun _ => G, fake, sim0, e1, e2, fun _ _ => rfl, e4, e5⟩) hS hg.near hreach (r := r) hr
  exact ⟨v, k1, k2, x, k3.symm, k4⟩

theorem driftError_one (cs : CoordSys 1) : driftError cs = |(6 * (cs.upper 0 - cs.lower 0) + |cs.lower 0|) / 2 ^ 53| := by
  unfold driftError
  rw [Fin.sum_univ_one, Real.sqrt_sq_eq_abs]

theorem distanceError_one (cs : CoordSys 1) : distanceError cs = 88 / 2 ^ 53 * |cs.upper 0 - cs.lower 0| := by
  unfold distanceError
  rw [Fin.sum_univ_one, Real.sqrt_sq_eq_abs]
  norm_num

/-- a segment of the mesh near a given point -/
theorem float_segment {rnd : ℝ → ℝ} (hr : IsNearest rnd) {cs : CoordSys 1} (hb : ProperBox cs) (hf : ∀ i, IsFloat (cs.lower i) ∧ IsFloat (cs.upper i)) {n : ℕ} (hn : 2 ≤ n) (hn' : n < 2 ^ 50) {m : ℝ}
    (hm : cs.lower 0 ≤ m ∧ m < cs.upper 0) :
    ∃ a b : Vec 1, [a, b] ∈ FL.initialSimplices rnd cs (fun _ => n) ∧ IsFloat (a 0) ∧ IsFloat (b 0) ∧ |b 0 - a 0 - (cs.upper 0 - cs.lower 0) / n / 2| ≤ 2 * meshError cs 0 ∧
      a 0 - meshError cs 0 ≤ m ∧ m ≤ a 0 + (cs.upper 0 - cs.lower 0) / (n - 1) + meshError cs 0 := by
  have hL : 0 < cs.upper 0 - cs.lower 0 := sub_pos.2 (hb 0)
  have hnR : (2 : ℝ) ≤ n := by exact_mod_cast hn
  obtain ⟨s, hs, v, rest, rfl, hv⟩ := C104_mesh_covers hr hb hf (m := fun _ => n) (fun _ => ⟨by omega, hn'⟩) (x := fun _ => m) (fun i => by rw [Subsingleton.elim i 0]; exact ⟨hm.1, hm.2.le⟩)
    (fun _ i => by rw [Subsingleton.elim i 0]; exact hm)
  have hnear := C104_mesh_near hr hb hf (m := fun _ => n) fun _ => hn'
  obtain ⟨s', hs', h2⟩ : ∃ s' ∈ initialSimplices cs (fun _ => n), List.Forall₂ (fun v v' : Vec 1 => ∀ k, |v k - v' k| ≤ meshError cs k) (v :: rest) s' := by
    unfold NearSimplices at hnear
    revert hs hnear
    generalize FL.initialSimplices rnd cs (fun _ => n) = l
    generalize initialSimplices cs (fun _ => n) = l'
    intro hs hnear
    induction hnear with
    | nil => cases hs
    | cons h1 _ ih =>
      rcases List.mem_cons.1 hs with rfl | hs
      · exact ⟨_, by simp, h1⟩
      · obtain ⟨s', h3, h4⟩ := ih hs
        exact ⟨s', List.mem_cons_of_mem _ h3, h4⟩
  obtain ⟨w, -, rfl⟩ := List.mem_map.1 hs'
  rw [meshSimplex_one] at h2
  obtain ⟨-, hfl, -⟩ := (C104_mesh_shape hr hb hf (m := fun _ => n) fun _ => hn').2 _ hs
  cases h2 with
  | @cons _ _ _ _ h3 h4 =>
    cases h4 with
    | @cons b _ rest' _ h5 h6 =>
      cases h6
      refine ⟨v, b, hs, hfl v (by simp) 0, hfl b (by simp) 0, ?_, (hv 0).1, (hv 0).2.trans ?_⟩
      · have e1 := abs_le.1 (h3 0)
        have e2 := abs_le.1 (h5 0)
        have e3 : (cs.upper 0 - cs.lower 0) / (2 * (n : ℝ)) = (cs.upper 0 - cs.lower 0) / n / 2 := by rw [div_div, mul_comm]
        simp only [e3] at e2
        rw [abs_le]; constructor <;> linarith [e1.1, e1.2, e2.1, e2.2]
      · unfold meshSpacing
        have h1 : (cs.upper 0 - cs.lower 0) / n ≤ (cs.upper 0 - cs.lower 0) / (n - 1) := div_le_div_of_nonneg_left hL.le (by linarith) (by linarith)
        split
        · linarith
        · rw [if_neg (by omega)]

/-- **C106**, in terms of the arguments of `search.run`: a search in one dimension, with the default tolerances and limits of the minimization and `n ≥ 2` mesh points, of spacing `h`, at least `feature_size / 40` apart, finds a node in every valley that is at least `11 h + feature_size` wide on both sides, no
farther from the bottom than `W + feature_size / 2` (and `driftError` for each of the `k` restarts). -/
theorem C106_search {A : FL.CtlArith 1} (hr : IsNearest A.rnd) (hD : ∀ cs x y, FL.Distance A.rnd cs x y (A.dist cs x y)) {auto : List (Simplex 1)} (hauto : NearSimplices (fun _ => 1 / 1000) auto (autoStencil 1))
    {args : SearchArgs 1} {p : CtlParams 1} {P : NMParams} (hset : FL.setup A.rnd auto args = .ok (p, P)) (hl : (args.limits 0).1 ≠ (args.limits 0).2) (hf : IsFloat (args.limits 0).1 ∧ IsFloat (args.limits 0).2)
    (hst : args.refinementStencil = .auto ∨ args.refinementStencil = .none) (hkw : args.nelderMead = NMKwargs.empty) (hfs : 0 < args.featureSize)
    (hsz : |min (args.limits 0).1 (args.limits 0).2| + 2 * |(args.limits 0).2 - (args.limits 0).1| ≤ 2 ^ 30 * args.featureSize)
    {n : ℕ} (hn : 2 ≤ n) (hmesh : args.initialMeshSize = .inl (n : ℤ)) (hres : args.featureSize / 40 ≤ |(args.limits 0).2 - (args.limits 0).1| / n)
    {G : Vec 1 → FVal} (hnear : args.periodic = true ∨ (args.featureSize / 3 * (1 + 1 / 2 ^ 52) ≤ |(args.limits 0).2 - (args.limits 0).1| ∧ NearBox p (AnyNodes (FloatLiveMinimization A p P G))))
    {g : ℝ → ℝ} {m W η h δ : ℝ} (hh : h = |(args.limits 0).2 - (args.limits 0).1| / ((n : ℝ) - 1)) (hv : NoisyValley g m W η)
    (hin : min (args.limits 0).1 (args.limits 0).2 ≤ m ∧ m < max (args.limits 0).1 (args.limits 0).2) (hW : 11 * h + args.featureSize ≤ W) (hW' : W ≤ |(args.limits 0).2 - (args.limits 0).1|)
    (hη : (|m| + W) / 2 ^ 48 ≤ η) (hGg : ∀ x : Vec 1, IsFloat (x 0) → |x 0 - m| ≤ W → G x = FVal.ofReal (g (x 0))) (hgf : ∀ x, IsFloat x → |x - m| ≤ W → IsFloat (g x))
    (hδ0 : 0 < δ) (hδ : 100 * η ≤ δ) (hδf : δ ≤ args.featureSize / 200) (hδh : h ≤ 2 ^ 27 * δ)
    (hflat : ∀ x y, IsFloat x → IsFloat y → |x - m| ≤ 4 * δ → |y - m| ≤ 4 * δ → |g x - g y| ≤ args.gapThreshold / 21)
    (hthr : ∀ x, IsFloat x → |x - m| ≤ args.featureSize / 30 → g x ≤ args.gapThreshold)
    {k : ℕ} {c : Ctl 1} (hc : FloatReachLive A p (FloatLiveMinimization A p P G) k c) (hret : c.phase = .returned) :
    ∃ r ∈ c.state.result.nodes.values, p.coord.distance (fun _ => m) r.pos ≤ W + args.featureSize / 2 + k * driftError p.coord ∧
      ∃ v : ℝ, r.value = FVal.ofReal v ∧ v ≤ args.gapThreshold ∧ ∃ x, G x = FVal.ofReal v ∧ p.coord.distance (FL.normalizePosition A.rnd p.coord x) r.pos ≤ k * driftError p.coord := by
  obtain ⟨-, exx, -, eft, efs, egt, elim, eper, -, -, emesh, -, -, -, -, -, -, -, emi, emf, efc, -⟩ := C104_settings hr hset
  simp only [hkw, NMKwargs.empty, Option.getD_none, true_implies] at exx eft emi emf efc
  obtain ⟨t, eft, ht⟩ := eft
  set L := |(args.limits 0).2 - (args.limits 0).1| with hLdef
  have hlo : p.coord.lower 0 = min (args.limits 0).1 (args.limits 0).2 := (elim 0).1
  have hL : p.coord.upper 0 - p.coord.lower 0 = L := by
    rw [(elim 0).1, (elim 0).2, max_sub_min_eq_abs']
    exact abs_sub_comm _ _
  have hLpos : 0 < L := abs_pos.2 (sub_ne_zero.2 hl.symm)
  have hb : ProperBox p.coord := fun i => by rw [Subsingleton.elim i 0]; linarith
  have hfl : ∀ i, IsFloat (p.coord.lower i) ∧ IsFloat (p.coord.upper i) := by
    intro i
    rw [Subsingleton.elim i 0, (elim 0).1, (elim 0).2]
    constructor
    · rcases min_choice (args.limits 0).1 (args.limits 0).2 with e | e <;> rw [e]; exacts [hf.1, hf.2]
    · rcases max_choice (args.limits 0).1 (args.limits 0).2 with e | e <;> rw [e]; exacts [hf.1, hf.2]
  have hnR : (2 : ℝ) ≤ n := by exact_mod_cast hn
  have hl0 := abs_nonneg (p.coord.lower 0)
  rw [← hlo] at hsz
  have hn50 : n < 2 ^ 50 := by
    have h1 : args.featureSize / 40 * n ≤ L := by
      have := mul_le_mul_of_nonneg_right hres (by linarith : (0 : ℝ) ≤ n)
      rwa [div_mul_cancel₀ _ (by linarith)] at this
    have h2 : (n : ℝ) < 2 ^ 50 := by
      by_contra h3
      push Not at h3
      have := mul_le_mul_of_nonneg_left h3 (by linarith : 0 ≤ args.featureSize / 40)
      linarith
    exact_mod_cast h2
  -- the error of the mesh
  have hE : meshError p.coord 0 ≤ args.featureSize / 2 ^ 19 := by
    unfold meshError
    rw [hL, div_le_div_iff₀ (by positivity) (by positivity)]
    linarith
  have hE0 : 0 ≤ meshError p.coord 0 := by unfold meshError; rw [hL]; positivity
  set E := meshError p.coord 0 with hEdef
  have hmesh' : p.mesh = FL.initialSimplices A.rnd p.coord fun _ => n := by
    have := emesh n hmesh
    rwa [Int.toNat_natCast] at this
  have hnb : NearBox p (AnyNodes (FloatLiveMinimization A p P G)) := hnear.elim (fun h => .inl (eper.trans h)) fun h => h.2
  have hS : FloatSearch A p (AnyNodes (FloatLiveMinimization A p P G)) := by
    refine C104_setup hr hD hauto hset (fun i => by rw [Subsingleton.elim i 0]; exact hl) (fun i => by rw [Subsingleton.elim i 0]; exact hf) hmesh' (fun i => ?_) hst hfs (fun i => ?_) hnb
    · rw [Subsingleton.elim i 0, hL]
      refine ⟨hn50, ?_⟩
      have h1 : args.featureSize / 40 * n ≤ L := by
        have := mul_le_mul_of_nonneg_right hres (by linarith : (0 : ℝ) ≤ n)
        rwa [div_mul_cancel₀ _ (by linarith)] at this
      have h2 : (n : ℝ) * (2 * E) < n * (args.featureSize / 40) := mul_lt_mul_of_pos_left (by linarith) (by linarith)
      change 2 * (n : ℝ) * E < L
      linarith
    · rw [Subsingleton.elim i 0, hL]
      linarith
  have hde : distanceError p.coord ≤ args.featureSize / 2 ^ 16 := by
    rw [distanceError_one, hL, abs_of_pos hLpos]
    linarith
  have hdr : driftError p.coord ≤ args.featureSize / 2 ^ 20 := by
    rw [driftError_one, hL, abs_of_nonneg (by positivity), div_le_div_iff₀ (by positivity) (by positivity)]
    linarith
  have hg : FloatGeometry p (AnyNodes (FloatLiveMinimization A p P G)) := by
    refine ⟨by rw [efs]; exact hfs, hnear.imp (fun h => eper.trans h) fun h i => ?_, hnb, ?_, by norm_num⟩
    · rw [Subsingleton.elim i 0, hL, efs]; exact h.1
    · rw [efs]
      have : args.featureSize / 3 * (1 / 2) ≤ args.featureSize / 3 * (1 - 1 / 2 ^ 39) := mul_le_mul_of_nonneg_left (by norm_num) (by linarith)
      linarith
  have hnh : L / n ≤ h := by
    rw [hh]
    exact div_le_div_of_nonneg_left hLpos.le (by linarith) (by linarith)
  have hnh2 : h ≤ 2 * (L / n) := by
    rw [hh, div_le_iff₀ (by linarith), show 2 * (L / n) * ((n : ℝ) - 1) = L * (2 * ((n : ℝ) - 1) / n) by ring]
    refine le_mul_of_one_le_right hLpos.le ?_
    rw [le_div_iff₀ (by linarith)]; linarith
  obtain ⟨a, b, hab, hfa, hfb, hseg, ha1, ha2⟩ := float_segment hr hb hfl hn hn50 (m := m) (by rw [(elim 0).1, (elim 0).2]; exact hin)
  rw [hL] at hseg ha2
  rw [← hh] at ha2
  rw [← hEdef] at hseg ha1 ha2
  rw [← hmesh'] at hab
  have hsg := abs_le.1 hseg
  obtain ⟨D, hDdef⟩ : ∃ D, D = |b 0 - a 0| := ⟨_, rfl⟩
  have hDpos : D = b 0 - a 0 := by rw [hDdef, abs_of_pos (by linarith)]
  have hx := abs_le.1 exx
  rw [abs_of_pos (by linarith : 0 < args.featureSize / 100)] at hx
  have hη0 : 0 ≤ η := le_trans (by have : 0 ≤ W := by linarith
                                   positivity) hη
  have hxl : P.xtol ≤ args.featureSize / 99 := by linarith [hx.2]
  have hxg : args.featureSize / 101 ≤ P.xtol := by linarith [hx.1]
  have hfin : P.ftol ≠ FVal.inf := by
    rw [eft]
    intro h
    have : ((t : ℝ) : EReal) = ⊤ := WithTop.coe_injective h
    exact EReal.coe_ne_top _ this
  have pft : ∀ x y, IsFloat x → IsFloat y → |x - m| ≤ 4 * δ → |y - m| ≤ 4 * δ → FloatWithin A.rnd P.ftol (FVal.ofReal (g x)) (FVal.ofReal (g y)) := by
    intro x y fx fy hx' hy'
    have h1 := hflat x y fx fy hx' hy'
    have h0 : 0 ≤ args.gapThreshold := by linarith [abs_nonneg (g x - g y)]
    rw [eft, fl_within_of_abs]
    have h2 := rel_err hr (g x - g y)
    have h3 := abs_add_le (A.rnd (g x - g y) - (g x - g y)) (g x - g y)
    rw [sub_add_cancel] at h3
    rw [abs_of_nonneg (by linarith : 0 ≤ args.gapThreshold / 20)] at ht
    have := (abs_le.1 ht).1
    linarith
  have pthr : ∀ x, IsFloat x → |x - m| ≤ 2 * P.xtol + 150 * η → g x ≤ p.gapThreshold := by
    intro x fx hx'
    rw [egt]
    exact hthr x fx (by linarith)
  have pa : |a 0 - m| + |b 0 - a 0| ≤ 2 * h := by
    rw [← hDdef, hDpos]
    have : |a 0 - m| ≤ h + E := by rw [abs_le]; constructor <;> linarith
    linarith
  have pb : |b 0 - m| + |b 0 - a 0| ≤ 2 * h := by
    rw [← hDdef, hDpos]
    have : |b 0 - m| ≤ h + E := by rw [abs_le]; constructor <;> linarith
    linarith
  have px : P.xtol + η < |b 0 - a 0| := by rw [← hDdef, hDpos]; linarith
  have pK1 : 2 * h ≤ 2 ^ 4 * (|b 0 - a 0| - η) := by rw [← hDdef, hDpos]; linarith
  obtain ⟨r, h1, h2, v, h3, h4, h5⟩ := C106_finds_node hS hg hfin efc hv ⟨by rw [hlo]; exact hin.1, by rw [(elim 0).2]; exact hin.2.le⟩ (by linarith) (by rw [hL]; exact hW') hη hGg hgf (R := 2 * h) (δ := δ) (K := 29) (K1 := 4)
    (by linarith) (by linarith) hδ0 hδ (by linarith) pft pthr hab hfa hfb pa pb px (by norm_num at hδh ⊢; linarith) (by norm_num at hδh ⊢; linarith) pK1 (by rw [NMParams.iterLimit, emi]; norm_num) (by rw [NMParams.fevLimit, emf]; norm_num) hc hret
  refine ⟨r, h1, h2.trans ?_, v, h3, egt ▸ h4, h5⟩
  rw [efs]
  linarith

/-! ## C107: the fake potential in double precision -/

theorem fake_near {A : FL.CtlArith d} {p : CtlParams d} {res : Container d} (hi : FL.ContInv A p res) (dist : Vec d → Vec d → ℝ) (w : ℝ) (x : Vec d) :
    FL.fakePotential A dist res w x = FVal.inf ∧ (∃ r ∈ res.nodes.values, r.pos ≠ x ∧ dist x r.pos < w ∧ FL.getIndex A.rnd res.nodes (FL.getFrac A.rnd p.coord r.pos) ∈ res.nodes.calculateNeighbourIndices (FL.getIndex A.rnd res.nodes (FL.getFrac A.rnd p.coord x))) ∨
    FL.fakePotential A dist res w x = FVal.ofReal 0 ∧ ¬ ∃ r ∈ res.nodes.values, r.pos ≠ x ∧ dist x r.pos < w ∧ FL.getIndex A.rnd res.nodes (FL.getFrac A.rnd p.coord r.pos) ∈ res.nodes.calculateNeighbourIndices (FL.getIndex A.rnd res.nodes (FL.getFrac A.rnd p.coord x)) := by
  have key : (FL.allNeighbourDistances A dist res x).any (fun y => decide (y < w)) = true ↔
      ∃ r ∈ res.nodes.values, r.pos ≠ x ∧ dist x r.pos < w ∧ FL.getIndex A.rnd res.nodes (FL.getFrac A.rnd p.coord r.pos) ∈ res.nodes.calculateNeighbourIndices (FL.getIndex A.rnd res.nodes (FL.getFrac A.rnd p.coord x)) := by
    have e : FL.allNeighbourDistances A dist res x = (((FL.neighbourValues A res.nodes (FL.getFrac A.rnd p.coord x)).filter fun r => decide (∃ i, r.pos i ≠ x i)).map fun r => r.pos).map fun q => dist x q := by
      unfold FL.allNeighbourDistances
      simp only [hi.coord]
      split
      · rename_i h; rw [h]; rfl
      · rfl
    rw [e, List.any_eq_true]
    simp only [List.mem_map, List.mem_filter, FL.mem_neighbourValues hi.ninv, decide_eq_true_eq]
    constructor
    · rintro ⟨y, ⟨q, ⟨r, ⟨⟨h1, h2⟩, i, h3⟩, rfl⟩, rfl⟩, h4⟩
      exact ⟨r, h1, fun e => h3 (by rw [e]), h4, h2⟩
    · rintro ⟨r, h1, h2, h3, h4⟩
      refine ⟨_, ⟨_, ⟨r, ⟨⟨h1, h4⟩, ?_⟩, rfl⟩, rfl⟩, h3⟩
      by_contra hc
      push Not at hc
      exact h2 (funext hc)
  unfold FL.fakePotential
  by_cases h : (FL.allNeighbourDistances A dist res x).any (fun y => decide (y < w)) = true
  · left; exact ⟨if_pos h, key.1 h⟩
  · right; exact ⟨if_neg h, fun h' => h (key.2 h')⟩

/-- **C107**: in double precision the fake potential is 0 or infinite, at every point up to 2 lengths of the box from its lower limits, whatever the order in which numpy adds the squares of a distance: infinite if a node (other than at the point itself) is nearer than `feature_size / 3`, by more than
the error of a distance; and only if one is nearer than `feature_size / 3` plus that error. -/
theorem C107_fake_potential {A : FL.CtlArith d} {p : CtlParams d} {Res : Simplex d → SRes d → Prop} (hS : FloatSearch A p Res) (hg : FloatGeometry p Res) {dist : Vec d → Vec d → ℝ} (hdist : ∀ x y, FL.Distance A.rnd p.coord x y (dist x y))
    {n : ℕ} {c : Ctl d} (h : FL.Reach A p Res n c) {x : Vec d} (hx : ∀ i, |x i - p.coord.lower i| ≤ 2 * (p.coord.upper i - p.coord.lower i)) {v : FVal}
    (hv : v = FL.fakePotential A dist c.state.result (FL.distCutoff A p) x) :
    (v = FVal.ofReal 0 ∨ v = FVal.inf) ∧
    (∀ r ∈ c.state.result.nodes.values, r.pos ≠ x → p.coord.distance x r.pos < p.featureSize / 3 * (1 - 1 / 2 ^ 39) - distanceError p.coord → v = FVal.inf) ∧
    (v = FVal.inf → ∃ r ∈ c.state.result.nodes.values, r.pos ≠ x ∧ p.coord.distance x r.pos < p.featureSize / 3 * (1 + 1 / 2 ^ 52) + distanceError p.coord) := by
  have hi := (FL.good_reach hS h).1.cont
  have hpos : ∀ r ∈ c.state.result.nodes.values, FL.InReach p r.pos := fun r hr => ((FL.reach_src hS hg.near h).nodes r hr).1.2.1
  have hne : FVal.ofReal 0 ≠ FVal.inf := by
    intro h
    have : ((0 : ℝ) : EReal) = ⊤ := WithTop.coe_injective h
    exact EReal.coe_ne_top _ this
  obtain ⟨hd1, hd2, hd3⟩ := FL.cutoff_bounds hS hg
  have h0 : 0 < p.featureSize / 3 := by have := hg.positive; positivity
  subst hv
  have hfn := fake_near hi dist (FL.distCutoff A p) x
  refine ⟨hfn.elim (fun h => .inr h.1) fun h => .inl h.1, fun r hr hrx hlt => ?_, fun hinf => ?_⟩
  · refine (hfn.resolve_right fun hf => hf.2 ⟨r, hr, hrx, ?_, ?_⟩).1
    · have herr := (abs_le.1 (FL.dist_err_around hS hg.dim hx (fun i => (hpos r hr i).1) (hdist x r.pos))).2
      have : p.featureSize / 3 * (1 - 1 / 2 ^ 39) < p.featureSize / 3 * (1 - 1 / 2 ^ 53) := mul_lt_mul_of_pos_left (by norm_num) h0
      linarith
    · have hle : p.coord.distance x r.pos ≤ FL.distCutoff A p * (1 - 1 / 2 ^ 40) := by
        have h1 : p.featureSize / 3 * (1 - 1 / 2 ^ 53) * (1 - 1 / 2 ^ 40) ≤ FL.distCutoff A p * (1 - 1 / 2 ^ 40) := mul_le_mul_of_nonneg_right hd1 (by norm_num)
        have h2 : p.featureSize / 3 * (1 - 1 / 2 ^ 39) ≤ p.featureSize / 3 * (1 - 1 / 2 ^ 53) * (1 - 1 / 2 ^ 40) := by
          rw [mul_assoc]; exact mul_le_mul_of_nonneg_left (by norm_num) h0.le
        have := FL.distanceError_nonneg p.coord
        linarith
      have hsz : p.coord.periodic = true ∨ ∀ i, FL.distCutoff A p ≤ p.coord.upper i - p.coord.lower i := by
        refine hg.long.imp id fun h i => ?_
        refine hd2.trans (le_trans ?_ (h i))
        exact mul_le_mul_of_nonneg_left (by norm_num) h0.le
      exact C74_near_found hS.nearest hS.box hd3 hsz hi.nper hi.nnum x r.pos hx (hpos r hr) hle
  · obtain ⟨r, hr, hrx, hlt, -⟩ := (hfn.resolve_right fun hf => hne (hf.1.symm.trans hinf)).2
    exact ⟨r, hr, hrx, FL.near_of_computed hS hg hx (fun i => (hpos r hr i).1) (hdist x r.pos) hlt⟩

/-- **C107** (what a minimization sees): if the calls of the fake potential are made at any points in time, each with the nodes that are known then, it returns 0 unless the computed distance to a node known at the end is below the cutoff: the condition of C106. -/
theorem C107_live {A : FL.CtlArith d} {p : CtlParams d} {Res : Simplex d → SRes d → Prop} (hS : FloatSearch A p Res) {dist : Vec d → Vec d → ℝ} (hdist : ∀ x y, FL.Distance A.rnd p.coord x y (dist x y))
    {n : ℕ} {c : ℕ → Ctl d} (h : ∀ k, FL.Reach A p Res n (c k)) {nodes : List (SRes d)} (hn : ∀ k, ∀ r ∈ (c k).state.result.nodes.values, r ∈ nodes) :
    FloatLiveFake A p nodes fun k => FL.fakePotential A dist (c k).state.result (FL.distCutoff A p) := by
  intro k x
  rcases fake_near (FL.good_reach hS (h k)).1.cont dist (FL.distCutoff A p) x with ⟨-, r, hr, -, h1, -⟩ | ⟨h1, -⟩
  · exact .inr ⟨r, hn k r hr, _, hdist x r.pos, h1⟩
  · exact .inl h1

/-- non-vacuity of C107: a search that has found a node at 1/2: the fake potential is infinite at 11/20 (the cutoff of the demonstration is 1/10) and 0 at 9/10 -/
example : ∃ (A : FL.CtlArith 1) (c : Ctl 1) (dist : Vec 1 → Vec 1 → ℝ), FL.Reach A Demo.params C103Demo.DemoRes 0 c ∧ (∀ x y, FL.Distance A.rnd Demo.params.coord x y (dist x y)) ∧
    FL.fakePotential A dist c.state.result (FL.distCutoff A Demo.params) (Demo.pt (11 / 20)) = FVal.inf ∧ FL.fakePotential A dist c.state.result (FL.distCutoff A Demo.params) (Demo.pt (9 / 10)) = FVal.ofReal 0 := by
  obtain ⟨c, h1, h2, h3, -⟩ := C103Demo.returns C102Demo.rndEven_nearest
  have hS := C103Demo.search C102Demo.rndEven_nearest
  have hD : ∀ x y, FL.Distance (C103Demo.arith C102Demo.rndEven).rnd Demo.params.coord x y ((C103Demo.arith C102Demo.rndEven).dist Demo.params.coord x y) := fun x y => (distance_exists C102Demo.rndEven Demo.params.coord x y).choose_spec
  have hde : distanceError Demo.params.coord = 88 / 2 ^ 53 := by rw [distanceError_one]; norm_num [Demo.params, Demo.pt]
  have hdist : ∀ a : ℝ, Demo.params.coord.distance (Demo.pt a) Demo.node.pos = |a - 1 / 2| := by
    intro a
    simp [CoordSys.distance, CoordSys.norm, CoordSys.distDelta, Demo.params, Demo.pt, Demo.node, SRes.pos]
    rw [Real.sqrt_sq_eq_abs, abs_sub_comm]
  refine ⟨_, c, _, h1, hD, ?_, ?_⟩
  · refine (C107_fake_potential hS C103Demo.geometry hD h1 (x := Demo.pt (11 / 20)) (fun i => ?_) rfl).2.1 Demo.node (by rw [h3]; simp) ?_ ?_
    · norm_num [Demo.params, Demo.pt]
    · intro h
      have := congrFun h 0
      norm_num [Demo.pt, Demo.node, SRes.pos, SRes.main] at this
    · rw [hdist, hde]
      norm_num [Demo.params]
  · have := C107_fake_potential hS C103Demo.geometry hD h1 (x := Demo.pt (9 / 10)) (fun i => by norm_num [Demo.params, Demo.pt]) rfl
    refine this.1.resolve_right fun h => ?_
    obtain ⟨r, hr, -, h4⟩ := this.2.2 h
    rw [h3, List.mem_singleton] at hr
    subst hr
    rw [hdist, hde] at h4
    norm_num [Demo.params] at h4

/-- ... and the fake potential of that search is one that C106 allows, for the nodes it has found -/
example : ∃ (A : FL.CtlArith 1) (nodes : List (SRes 1)) (fake : ℕ → Vec 1 → FVal), FloatLiveFake A Demo.params nodes fake ∧ nodes ≠ [] := by
  obtain ⟨c, h1, h2, h3, -⟩ := C103Demo.returns C102Demo.rndEven_nearest
  exact ⟨_, c.state.result.nodes.values, _, C107_live (C103Demo.search C102Demo.rndEven_nearest) (fun x y => (distance_exists C102Demo.rndEven Demo.params.coord x y).choose_spec) (c := fun _ => c) (fun _ => h1) fun _ r hr => hr, by rw [h3]; simp⟩

end NF
