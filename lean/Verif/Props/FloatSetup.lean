import Verif.Lemmas.FloatStencil
import Verif.Props.FloatController
import Verif.Props.Setup

/-! # C104: the set-up of a search in floating-point arithmetic -/

noncomputable section
open Classical

namespace NF
open Spec CoordSys

variable {d : ℕ} {rnd : ℝ → ℝ} {cs : CoordSys d} {m : Fin d → ℕ}

/-! ## The initial mesh -/

theorem vertex_in_box (hr : IsNearest rnd) (hb : ProperBox cs) (hf : ∀ i, IsFloat (cs.lower i) ∧ IsFloat (cs.upper i)) (hm : ∀ i, m i < 2 ^ 50) {v : Vec d}
    (hv : v ∈ FL.meshVertices rnd cs.lower cs.upper m cs.periodic false) (k : Fin d) : cs.lower k ≤ v k ∧ v k ≤ cs.upper k ∧ IsFloat (v k) := by
  have h1 := (FL.mem_meshVertices.1 hv).1 k
  unfold FL.linspace at h1
  obtain ⟨i, hi, e⟩ := List.mem_map.1 h1
  have := FL.linspace_point hr (hb k) (hf k).1 (hf k).2 (List.mem_range.1 hi) (hm k) (!cs.periodic)
  simp only at this
  rw [e] at this
  exact this.2

theorem float_meshSimplex (hr : IsNearest rnd) {v : Vec d} (hv : ∀ k, IsFloat (v k)) :
    FL.meshSimplex rnd cs.lower cs.upper m v = v :: List.ofFn fun i : Fin d => fun k => if k = i then rnd (v k + rnd (rnd (cs.upper k - cs.lower k) / (2 * m k))) else v k := by
  unfold FL.meshSimplex
  rw [List.ofFn_succ]
  congr 1
  · funext k
    rw [(FL.simplexStencil_zero rnd cs.lower cs.upper m k).1, add_zero, rnd_of_isFloat hr (hv k)]
  · congr 1
    funext i k
    rw [(FL.simplexStencil_succ rnd cs.lower cs.upper m i k).1]
    split
    · rfl
    · rw [add_zero, rnd_of_isFloat hr (hv k)]

/-- **C104** (mesh): the initial mesh that is computed agrees, vertex by vertex, with the exact one (C46), up to `(2 |lower| + 16 (upper - lower)) / 2 ^ 53` in each coordinate. -/
theorem C104_mesh_near (hr : IsNearest rnd) (hb : ProperBox cs) (hf : ∀ i, IsFloat (cs.lower i) ∧ IsFloat (cs.upper i)) (hm : ∀ i, m i < 2 ^ 50) :
    NearSimplices (fun k => (2 * |cs.lower k| + 16 * (cs.upper k - cs.lower k)) / 2 ^ 53) (FL.initialSimplices rnd cs m) (initialSimplices cs m) :=
  FL.mesh_near hr hb hf hm _

/-- **C104** (size and position of the mesh): there are as many simplices as the product of the mesh sizes says, with `dim + 1` vertices each; the first vertex is in the box, limits included, also after rounding. -/
theorem C104_mesh_shape (hr : IsNearest rnd) (hb : ProperBox cs) (hf : ∀ i, IsFloat (cs.lower i) ∧ IsFloat (cs.upper i)) (hm : ∀ i, m i < 2 ^ 50) :
    (FL.initialSimplices rnd cs m).length = ∏ i, m i ∧
    ∀ s ∈ FL.initialSimplices rnd cs m, s.length = d + 1 ∧ (∀ v ∈ s, ∀ i, IsFloat (v i)) ∧ ∃ v rest, s = v :: rest ∧ ∀ i, cs.lower i ≤ v i ∧ v i ≤ cs.upper i := by
  have hn := C104_mesh_near hr hb hf hm
  refine ⟨by rw [List.Forall₂.length_eq hn, (C46_mesh_size_and_position hb m).1], fun s hs => ?_⟩
  obtain ⟨v, hv, rfl⟩ := List.mem_map.1 hs
  have hv' := vertex_in_box hr hb hf hm hv
  refine ⟨by simp [FL.meshSimplex], fun w hw i => ?_, ?_⟩
  · obtain ⟨j, rfl⟩ := List.mem_ofFn.1 hw
    exact (hr _).1
  · exact ⟨v, _, float_meshSimplex hr fun k => (hv' k).2.2, fun i => ⟨(hv' i).1, (hv' i).2.1⟩⟩

/-- **C104** (corners): the lower corner of the box is the first vertex of a simplex of the mesh, exactly; and, in a non-periodic box with at least two points in each direction, so is every other corner. -/
theorem C104_mesh_corners (hr : IsNearest rnd) (hf : ∀ i, IsFloat (cs.lower i) ∧ IsFloat (cs.upper i)) (hm : ∀ i, 1 ≤ m i) {v : Vec d}
    (hv : v = cs.lower ∨ (cs.periodic = false ∧ (∀ i, 2 ≤ m i) ∧ ∀ i, v i = cs.lower i ∨ v i = cs.upper i)) : ∃ s ∈ FL.initialSimplices rnd cs m, ∃ rest, s = v :: rest := by
  have hfl : ∀ k, IsFloat (v k) := by
    intro k
    rcases hv with rfl | ⟨-, -, hv⟩
    · exact (hf k).1
    · rcases hv k with h | h <;> rw [h]
      exacts [(hf k).1, (hf k).2]
  have hmem : v ∈ FL.meshVertices rnd cs.lower cs.upper m cs.periodic false := by
    refine FL.mem_meshVertices.2 ⟨fun i => ?_, by simp⟩
    unfold FL.linspace
    have low : v i = cs.lower i → v i ∈ (List.range (m i)).map fun k : ℕ => if (!cs.periodic) = true ∧ 1 < m i ∧ k + 1 = m i then cs.upper i
        else rnd (rnd ((k : ℝ) * rnd (rnd (cs.upper i - cs.lower i) / (if (!cs.periodic) = true then (m i : ℝ) - 1 else m i))) + cs.lower i) := by
      intro e
      refine List.mem_map.2 ⟨0, List.mem_range.2 (hm i), ?_⟩
      rw [if_neg (by rintro ⟨-, h1, h2⟩; omega)]
      simp only [Nat.cast_zero, zero_mul]
      rw [rnd_of_isFloat hr isFloat_zero, zero_add, rnd_of_isFloat hr (hf i).1, e]
    rcases hv with rfl | ⟨hp, h2, hv⟩
    · exact low rfl
    · rcases hv i with h | h
      · exact low h
      · have := h2 i
        refine List.mem_map.2 ⟨m i - 1, List.mem_range.2 (by omega), ?_⟩
        rw [if_pos ⟨by simp [hp], by omega, by omega⟩, h]
  exact ⟨_, List.mem_map.2 ⟨v, hmem, rfl⟩, _, float_meshSimplex hr hfl⟩

/-- **C104** (mesh, C47): if the mesh is not finer than the rounding, no two of the computed simplices are the same and none is degenerate. -/
theorem C104_mesh_distinct_independent (hr : IsNearest rnd) (hb : ProperBox cs) (hf : ∀ i, IsFloat (cs.lower i) ∧ IsFloat (cs.upper i)) (hm : MeshResolved cs m) :
    DistinctSimplices (FL.initialSimplices rnd cs m) ∧
    ∀ s ∈ FL.initialSimplices rnd cs m, ∃ h : s.length = d + 1, AffineIndependent ℝ fun j : Fin (d + 1) => s.get (Fin.cast h.symm j) := by
  refine ⟨FL.distinct_of_near (C104_mesh_near hr hb hf fun i => (hm i).1) (FL.separated_mesh hb _ _ (gap := fun k => 2 * meshError cs k) fun k => ?_) fun k => le_rfl, fun s hs => ?_⟩
  · have := (hm k).2
    linarith
  · obtain ⟨v, hv, rfl⟩ := List.mem_map.1 hs
    have hv' := vertex_in_box hr hb hf (fun i => (hm i).1) hv
    refine ⟨by simp [FL.meshSimplex], ?_⟩
    obtain ⟨g, hg⟩ : ∃ g : Vec d, g = fun k => rnd (v k + rnd (rnd (cs.upper k - cs.lower k) / (2 * m k))) - v k := ⟨_, rfl⟩
    have g0 : ∀ k, 0 < g k := by
      intro k
      have h1 := FL.one_le_of_mem hv k
      have h2 := FL.raise_err hr (hb k) h1 (hv' k).1 (hv' k).2.1
      have h3 := (abs_le.1 h2).1
      have h4 := (hm k).2
      have hL : 0 < cs.upper k - cs.lower k := sub_pos.2 (hb k)
      have m1 : (0 : ℝ) < m k := by exact_mod_cast h1
      have h5 : meshError cs k < (cs.upper k - cs.lower k) / (2 * m k) := by
        rw [lt_div_iff₀ (by positivity)]
        linarith
      have h6 : (|cs.lower k| + 3 * (cs.upper k - cs.lower k)) / 2 ^ 53 ≤ meshError cs k := by
        unfold meshError
        refine div_le_div_of_nonneg_right ?_ (by positivity)
        linarith [abs_nonneg (cs.lower k)]
      rw [hg]
      simp only
      linarith
    have hai := affineIndependent_mesh (l := fun _ => 0) (u := fun k => 2 * g k) (fun i => by have := g0 i; linarith) (m := fun _ => 1) (fun _ => le_rfl) v
    convert hai using 2 with j
    unfold FL.meshSimplex
    rw [List.get_ofFn]
    funext k
    simp only [Fin.cast_cast, Fin.cast_eq_self]
    induction j using Fin.cases with
    | zero => rw [(FL.simplexStencil_zero rnd cs.lower cs.upper m k).1, (FL.simplexStencil_zero rnd (fun _ => 0) (fun k => 2 * g k) (fun _ => 1) k).2, add_zero, rnd_of_isFloat hr (hv' k).2.2]
    | succ i =>
      rw [(FL.simplexStencil_succ rnd cs.lower cs.upper m i k).1, (FL.simplexStencil_succ rnd (fun _ => 0) (fun k => 2 * g k) (fun _ => 1) i k).2]
      split
      · rw [hg]; simp only; push_cast; ring
      · rw [add_zero, rnd_of_isFloat hr (hv' k).2.2]

/-- **C104** (mesh, C48): every point of the box is, in each coordinate, between the first vertex of one of the computed simplices and the next point of the mesh, up to the error of the mesh. -/
theorem C104_mesh_covers (hr : IsNearest rnd) (hb : ProperBox cs) (hf : ∀ i, IsFloat (cs.lower i) ∧ IsFloat (cs.upper i)) (hm : ∀ i, 1 ≤ m i ∧ m i < 2 ^ 50) {x : Vec d}
    (hx : ∀ i, cs.lower i ≤ x i ∧ x i ≤ cs.upper i) (hxp : cs.periodic = true → InBox cs x) :
    ∃ s ∈ FL.initialSimplices rnd cs m, ∃ v rest, s = v :: rest ∧
      ∀ i, v i - meshError cs i ≤ x i ∧ x i ≤ v i + meshSpacing cs.periodic (cs.upper i - cs.lower i) (m i) + meshError cs i := by
  obtain ⟨s, hs, v, rest, rfl, h1⟩ := C48_mesh_covers hb (fun i => (hm i).1) hx hxp
  have hn := C104_mesh_near hr hb hf fun i => (hm i).2
  obtain ⟨s', hs', h2⟩ : ∃ s' ∈ FL.initialSimplices rnd cs m, List.Forall₂ (fun v v' : Vec d => ∀ k, |v k - v' k| ≤ meshError cs k) s' (v :: rest) := by
    unfold NearSimplices at hn
    revert hs hn
    generalize FL.initialSimplices rnd cs m = l
    generalize initialSimplices cs m = l'
    intro hs hn
    induction hn with
    | nil => cases hs
    | @cons a b _ _ hab _ ih =>
      rcases List.mem_cons.1 hs with h | h
      · exact ⟨a, by simp, h ▸ hab⟩
      · obtain ⟨s', h3, h4⟩ := ih h
        exact ⟨s', by simp [h3], h4⟩
  cases h2 with
  | @cons v' _ rest' _ hv _ =>
    refine ⟨_, hs', v', rest', rfl, fun i => ?_⟩
    have := abs_le.1 (hv i)
    constructor <;> linarith [h1 i, this.1, this.2]

/-! ## The stencil -/

/-- **C104** (the stencil `'auto'`): outside of two and three dimensions, the array that `get_auto_stencil` computes agrees with the exact stencil (C50), up to `1/1000` (in fact up to rounding). -/
theorem C104_auto_mesh_stencil (hr : IsNearest rnd) (h2 : d ≠ 2) (h3 : d ≠ 3) : NearSimplices (fun _ => 1 / 1000) (FL.meshStencil rnd (fun _ : Fin d => 3) 2.5) (autoStencil d) := by
  have e : autoStencil d = meshStencil (fun _ => 3) 2.5 := by
    unfold autoStencil
    split
    · exact absurd rfl h2
    · exact absurd rfl h3
    · rfl
  rw [e]
  exact FL.auto_mesh_near hr d

/-- **C104** (the stencil is resolved): if the array for `'auto'` is right up to `1/1000`, then no two of its simplices coincide after it is scaled and moved, with rounding, to a position that is not farther from 0 than `2 ^ 43` times `dist_cutoff`. -/
theorem C104_stencil_distinct {A : FL.CtlArith d} (hr : IsNearest A.rnd) {auto : List (Simplex d)} (ha : NearSimplices (fun _ => 1 / 1000) auto (autoStencil d)) {x : Vec d} {c : ℝ} (hc : 0 < c)
    (hx : ∀ k, |x k| ≤ 2 ^ 43 * c) : DistinctSimplices (FL.translateStencil A x (FL.scaleStencil A.rnd auto c)) :=
  FL.placed_distinct hr ha hc hx

/-! ## The settings -/

theorem float_setup_eq (rnd : ℝ → ℝ) (auto : List (Simplex d)) (a : SearchArgs d) : FL.setup rnd auto a =
    if (meshSizes a).length = d ∧ ∀ m ∈ meshSizes a, 0 ≤ m then
      .ok ({ coord := CoordSys.ofLimits a.limits a.periodic, gapThreshold := a.gapThreshold, featureSize := a.featureSize,
             stencil := FL.stencilOf rnd auto (rnd (a.featureSize / 3)) a.refinementStencil, numMinimizeParallel := a.numMinimizeParallel,
             recheckPosDist := a.recheckPosDist, recheckCountCutoff := a.recheckCountCutoff, simplexCheckCutoff := a.simplexCheckCutoff,
             saveFile := a.saveFile,
             mesh := FL.initialSimplices rnd (CoordSys.ofLimits a.limits a.periodic) fun i => ((meshSizes a).getD i 0).toNat,
             forceInitialMesh := a.forceInitialMesh }, FL.nmParamsOf rnd a.nelderMead a.gapThreshold (rnd (a.featureSize / 3)))
    else .error .value := by
  unfold FL.setup checkDimensions meshSizes
  cases a.initialMeshSize with
  | inl n =>
    simp only [List.length_ofFn, List.length_replicate, if_true, true_and]
    split_ifs with h1 h2 h2
    · obtain ⟨m, hm, hlt⟩ := h1
      exact absurd (h2 m hm) (by omega)
    · rfl
    · rfl
    · push Not at h1
      exact absurd h1 h2
  | inr l =>
    simp only [List.length_ofFn]
    by_cases hl : d = l.length
    · rw [if_pos hl]
      simp only
      split_ifs with h1 h2 h2
      · obtain ⟨m, hm, hlt⟩ := h1
        exact absurd (h2.2 m hm) (by omega)
      · rfl
      · rfl
      · push Not at h1
        exact absurd ⟨hl.symm, h1⟩ h2
    · rw [if_neg hl, if_neg (fun h => hl h.1.symm)]

/-- **C104** (errors): a set-up is refused with the same error as in exact arithmetic (C71), and in the same cases. -/
theorem C104_setup_errors (rnd : ℝ → ℝ) (auto : List (Simplex d)) (a : SearchArgs d) (e : Err) : FL.setup rnd auto a = .error e ↔ setup a = .error e := by
  rw [float_setup_eq, setup_eq]
  split_ifs <;> simp

/-- **C104** (without rounding): if nothing is rounded, the set-up is the one of the rest of the model. -/
theorem C104_exact_arithmetic (a : SearchArgs d) : FL.setup id (autoStencil d) a = setup a := by
  have hlin : ∀ (l u : ℝ) (n : ℕ) (e : Bool), FL.linspace id l u n e = linspace l u n e := by
    intro l u n e
    unfold FL.linspace linspace
    refine List.map_congr_left fun k _ => ?_
    split
    · rename_i h
      obtain ⟨rfl, h1, h2⟩ := h
      have hk : ((n : ℝ) - 1) = k := by rw [← h2]; push_cast; ring
      have hk0 : (k : ℝ) ≠ 0 := by exact_mod_cast (by omega : k ≠ 0)
      simp only [if_true, hk]
      field_simp
      ring
    · simp only [id]; ring
  have hmesh : ∀ (cs : CoordSys d) (m : Fin d → ℕ), FL.initialSimplices id cs m = initialSimplices cs m := by
    intro cs m
    unfold FL.initialSimplices initialSimplices FL.generateMeshSimplices generateMeshSimplices FL.meshVertices meshVertices
    simp only [hlin, Bool.false_eq_true, if_false]
    rfl
  have hst : FL.stencilOf id (autoStencil d) (id (a.featureSize / 3)) a.refinementStencil = stencilOf (a.featureSize / 3) a.refinementStencil := by
    cases a.refinementStencil <;> rfl
  rw [float_setup_eq, setup_eq]
  simp only [hmesh, hst]
  rfl

theorem prod_err {a a' b b' z r : ℝ} (hr0 : 0 < r) (hr1 : r ≤ 1 / 100) (ha : |a' - a| ≤ r * |a|) (hb : |b' - b| ≤ r * |b|) (hz : |z - a' * b'| ≤ r * |a' * b'|) : |z - a * b| ≤ 4 * r * |a * b| := by
  rw [abs_mul] at hz ⊢
  have a0 := abs_nonneg a
  have b0 := abs_nonneg b
  have h1 : |a'| ≤ (1 + r) * |a| := by have := abs_sub_abs_le_abs_sub a' a; linarith
  have h2 : |b'| ≤ (1 + r) * |b| := by have := abs_sub_abs_le_abs_sub b' b; linarith
  have h3 : |a'| * |b'| ≤ (1 + r) ^ 2 * (|a| * |b|) := by
    calc |a'| * |b'| ≤ ((1 + r) * |a|) * ((1 + r) * |b|) := mul_le_mul h1 h2 (abs_nonneg _) (by positivity)
      _ = _ := by ring
  have h4 : |a' * b' - a * b| ≤ r * (2 + r) * (|a| * |b|) := by
    have e : a' * b' - a * b = (a' - a) * b' + a * (b' - b) := by ring
    rw [e]
    refine (abs_add_le _ _).trans ?_
    rw [abs_mul, abs_mul]
    have e1 : |a' - a| * |b'| ≤ (r * |a|) * ((1 + r) * |b|) := mul_le_mul ha h2 (abs_nonneg _) (by positivity)
    have e2 : |a| * |b' - b| ≤ |a| * (r * |b|) := mul_le_mul_of_nonneg_left hb a0
    nlinarith
  have h5 := abs_sub_le z (a' * b') (a * b)
  have h6 : r * (|a'| * |b'|) ≤ r * ((1 + r) ^ 2 * (|a| * |b|)) := mul_le_mul_of_nonneg_left h3 hr0.le
  have ab := mul_nonneg a0 b0
  have h7 : r * (2 + r) + r * (1 + r) ^ 2 ≤ 4 * r := by
    have : (2 + r) + (1 + r) ^ 2 ≤ 4 := by nlinarith
    nlinarith
  have h8 : (r * (2 + r) + r * (1 + r) ^ 2) * (|a| * |b|) ≤ 4 * r * (|a| * |b|) := mul_le_mul_of_nonneg_right h7 ab
  have h9 : (r * (2 + r) + r * (1 + r) ^ 2) * (|a| * |b|) = r * (2 + r) * (|a| * |b|) + r * ((1 + r) ^ 2 * (|a| * |b|)) := by ring
  linarith

/-- **C104** (settings): the options of the user take effect as given, and the mesh and the stencil are those of this section; the tolerances that the user does not give are `feature_size / 100` and `gap_threshold / 20`, and the
stencil is scaled by `feature_size / 3`, up to rounding. -/
theorem C104_settings (hr : IsNearest rnd) {auto : List (Simplex d)} {a : SearchArgs d} {p : CtlParams d} {P : NMParams} (h : FL.setup rnd auto a = .ok (p, P)) :
    (∀ x, a.nelderMead.xtol = some x → P.xtol = x) ∧ (a.nelderMead.xtol = none → |P.xtol - a.featureSize / 100| ≤ |a.featureSize / 100| / 2 ^ 51) ∧
    (∀ x, a.nelderMead.ftol = some x → P.ftol = x) ∧ (a.nelderMead.ftol = none → ∃ t : ℝ, P.ftol = FVal.ofReal t ∧ |t - a.gapThreshold / 20| ≤ |a.gapThreshold / 20| / 2 ^ 51) ∧
    p.featureSize = a.featureSize ∧ p.gapThreshold = a.gapThreshold ∧
    (∀ i, p.coord.lower i = min (a.limits i).1 (a.limits i).2 ∧ p.coord.upper i = max (a.limits i).1 (a.limits i).2) ∧ p.coord.periodic = a.periodic ∧
    (∃ c, |c - a.featureSize / 3| ≤ |a.featureSize / 3| / 2 ^ 53 ∧ (a.refinementStencil = .auto → p.stencil = some (FL.scaleStencil rnd auto c)) ∧
      ∀ st, a.refinementStencil = .given st → p.stencil = some (FL.scaleStencil rnd st c)) ∧
    (p.stencil = none ↔ a.refinementStencil = .none) ∧
    (∀ n, a.initialMeshSize = .inl n → p.mesh = FL.initialSimplices rnd p.coord fun _ => n.toNat) ∧
    (∀ l, a.initialMeshSize = .inr l → p.mesh = FL.initialSimplices rnd p.coord fun i => (l.getD i 0).toNat) ∧
    p.numMinimizeParallel = a.numMinimizeParallel ∧ p.recheckPosDist = a.recheckPosDist ∧ p.recheckCountCutoff = a.recheckCountCutoff ∧
    p.simplexCheckCutoff = a.simplexCheckCutoff ∧ p.saveFile = a.saveFile ∧ p.forceInitialMesh = a.forceInitialMesh ∧
    P.maxiter = a.nelderMead.maxiter.getD none ∧ P.maxfev = a.nelderMead.maxfev.getD none ∧ P.fprimeCutoff = a.nelderMead.fprimeCutoff.getD none ∧ P.keepHistory = a.nelderMead.keepHistory.getD true := by
  have RE := rel_err hr
  rw [float_setup_eq] at h
  split_ifs at h with hm
  cases h
  refine ⟨?_, ?_, ?_, ?_, rfl, rfl, ?_, rfl, ⟨rnd (a.featureSize / 3), ?_, ?_, ?_⟩, ?_, ?_, ?_, rfl, rfl, rfl, rfl, rfl, rfl, rfl, rfl, rfl, rfl⟩
  · intro x hx; simp [FL.nmParamsOf, hx]
  · intro hx
    simp only [FL.nmParamsOf, hx, Option.getD_none]
    have := prod_err (by norm_num) (by norm_num) (RE 0.03) (RE (a.featureSize / 3)) (RE _)
    rw [show (0.03 : ℝ) * (a.featureSize / 3) = a.featureSize / 100 by ring] at this
    refine this.trans (le_of_eq ?_)
    ring
  · intro x hx; simp [FL.nmParamsOf, hx]
  · intro hx
    refine ⟨rnd (rnd 0.05 * a.gapThreshold), by simp only [FL.nmParamsOf, hx, Option.getD_none], ?_⟩
    have := prod_err (b := a.gapThreshold) (by norm_num) (by norm_num) (RE 0.05) (b' := a.gapThreshold) (by rw [sub_self, abs_zero]; positivity) (RE _)
    rw [show (0.05 : ℝ) * a.gapThreshold = a.gapThreshold / 20 by ring] at this
    refine this.trans (le_of_eq ?_)
    ring
  · intro i
    simp only [CoordSys.ofLimits]
    split_ifs with hle
    · simp [hle]
    · have := le_of_not_ge hle
      simp [this]
  · have := RE (a.featureSize / 3)
    linarith
  · intro h; simp only [h, FL.stencilOf]
  · intro st h; simp only [h, FL.stencilOf]
  · cases a.refinementStencil <;> simp [FL.stencilOf]
  · intro n h
    have e : meshSizes a = List.replicate d n := by unfold meshSizes; rw [h]
    simp only [e]
    congr 1
    funext i
    simp [List.getD_eq_getElem?_getD]
  · intro l h
    have e : meshSizes a = l := by unfold meshSizes; rw [h]
    simp only [e]

/-! ## The hypotheses of C103 -/

/-- **C104** (set-up): a search with the mesh that the library makes, and with the stencil `'auto'` or none, meets the conditions under which the guarantees of C103 hold, if the limits are floats, the mesh is not finer than the
rounding, the box is not larger than `2 ^ 41` times the feature size and not that far from the origin, and the array for `'auto'` is right up to `1/1000`. -/
theorem C104_setup {A : FL.CtlArith d} (hr : IsNearest A.rnd) (hD : ∀ cs x y, FL.Distance A.rnd cs x y (A.dist cs x y)) {auto : List (Simplex d)} (ha : NearSimplices (fun _ => 1 / 1000) auto (autoStencil d))
    {a : SearchArgs d} {p : CtlParams d} {P : NMParams} (hset : FL.setup A.rnd auto a = .ok (p, P)) (hl : ∀ i, (a.limits i).1 ≠ (a.limits i).2) (hf : ∀ i, IsFloat (a.limits i).1 ∧ IsFloat (a.limits i).2)
    {m : Fin d → ℕ} (hmesh : p.mesh = FL.initialSimplices A.rnd p.coord m) (hm : MeshResolved p.coord m) (hst : a.refinementStencil = .auto ∨ a.refinementStencil = .none) (hfs : 0 < a.featureSize)
    (hsz : ∀ i, |p.coord.lower i| + 2 * (p.coord.upper i - p.coord.lower i) ≤ 2 ^ 41 * a.featureSize) {Res : Simplex d → SRes d → Prop} (hn : NearBox p Res) : FloatSearch A p Res := by
  obtain ⟨-, -, -, -, e5, -, hlim, hper, ⟨c, hc, hauto, -⟩, hnone, -⟩ := C104_settings hr hset
  have hb : ProperBox p.coord := fun i => by rw [(hlim i).1, (hlim i).2]; exact min_lt_max.2 (hl i)
  have hfl : ∀ i, IsFloat (p.coord.lower i) ∧ IsFloat (p.coord.upper i) := by
    intro i
    rw [(hlim i).1, (hlim i).2]
    constructor
    · rcases min_choice (a.limits i).1 (a.limits i).2 with h | h <;> rw [h]
      exacts [(hf i).1, (hf i).2]
    · rcases max_choice (a.limits i).1 (a.limits i).2 with h | h <;> rw [h]
      exacts [(hf i).1, (hf i).2]
  refine ⟨hr, hD, hb, hfl, by rw [hmesh]; exact (C104_mesh_distinct_independent hr hb hfl hm).1, fun st h s r hres => ?_⟩
  rcases hst with hst | hst
  · have e := hauto hst
    rw [h] at e
    cases e
    have hc' : a.featureSize / 4 ≤ c := by
      rw [abs_of_pos (show 0 < a.featureSize / 3 by linarith)] at hc
      have := (abs_le.1 hc).1
      norm_num at this ⊢
      linarith
    refine C104_stencil_distinct hr ha (by linarith) fun i => ?_
    have h1 : |FL.normalizePosition A.rnd p.coord r.pos i - p.coord.lower i| ≤ 2 * (p.coord.upper i - p.coord.lower i) := by
      cases hp : p.coord.periodic with
      | true => exact (C74_normalized_in_reach hr hb hfl hp _ i).1
      | false =>
        rw [FL.normalizePosition_open _ hp]
        rcases hn with hn | hn
        · rw [hp] at hn; cases hn
        · exact hn s r hres i
    have h2 := abs_sub_abs_le_abs_sub (FL.normalizePosition A.rnd p.coord r.pos i) (p.coord.lower i)
    have h3 := hsz i
    have h4 : (2 : ℝ) ^ 41 * a.featureSize = 2 ^ 43 * (a.featureSize / 4) := by ring
    have h5 : (2 : ℝ) ^ 43 * (a.featureSize / 4) ≤ 2 ^ 43 * c := mul_le_mul_of_nonneg_left hc' (by positivity)
    linarith
  · rw [hnone.2 hst] at h; cases h

/-- The default arguments, as floats. -/
def floatDefaults (rnd : ℝ → ℝ) : SearchArgs 3 := { SearchArgs.defaults with gapThreshold := rnd 1e-6, featureSize := rnd 2e-3 }

/-- **C104** (defaults): a search with the default arguments, in three dimensions, starts with 1000 simplices, none of them degenerate and no two the same, and refines with 30; and whatever the minimizations give, it meets the
conditions of C103 (so it raises no exceptions of its own, loses no results, covers the nodes with refinements and ends). -/
theorem C104_default {A : FL.CtlArith 3} (hr : IsNearest A.rnd) (hD : ∀ cs x y, FL.Distance A.rnd cs x y (A.dist cs x y)) {auto : List (Simplex 3)} (ha : NearSimplices (fun _ => 1 / 1000) auto (autoStencil 3)) :
    ∃ p P, FL.setup A.rnd auto (floatDefaults A.rnd) = .ok (p, P) ∧ p.mesh.length = 1000 ∧ (∃ st, p.stencil = some st ∧ st.length = 30) ∧ DistinctSimplices p.mesh ∧
      (∀ s ∈ p.mesh, ∃ h : s.length = 3 + 1, AffineIndependent ℝ fun j : Fin (3 + 1) => s.get (Fin.cast h.symm j)) ∧ ∀ Res, FloatSearch A p Res ∧ FloatGeometry p Res := by
  obtain ⟨p, P, hset⟩ : ∃ p P, FL.setup A.rnd auto (floatDefaults A.rnd) = .ok (p, P) := by
    rw [float_setup_eq, if_pos]
    · exact ⟨_, _, rfl⟩
    · simp [meshSizes, floatDefaults, SearchArgs.defaults]
  obtain ⟨-, -, -, -, e5, -, hlim, hper, ⟨c, hc, hauto, -⟩, hnone, hmesh, -⟩ := C104_settings hr hset
  have hlim' : ∀ i, p.coord.lower i = 0 ∧ p.coord.upper i = 1 := fun i => by
    rw [(hlim i).1, (hlim i).2]
    simp [floatDefaults, SearchArgs.defaults]
  have hm : p.mesh = FL.initialSimplices A.rnd p.coord fun _ => 10 := hmesh 10 rfl
  have one : IsFloat (1 : ℝ) := by simpa using isFloat_int (n := 1) (by norm_num)
  have hb : ProperBox p.coord := fun i => by rw [(hlim' i).1, (hlim' i).2]; norm_num
  have hfl : ∀ i, IsFloat (p.coord.lower i) ∧ IsFloat (p.coord.upper i) := fun i => by
    rw [(hlim' i).1, (hlim' i).2]; exact ⟨isFloat_zero, one⟩
  have hres : MeshResolved p.coord (fun _ => 10) := fun i => by
    unfold meshError
    rw [(hlim' i).1, (hlim' i).2]
    norm_num
  have hfs : 1 / 1000 ≤ A.rnd 2e-3 := by
    have := (abs_le.1 (rel_err hr 2e-3)).1
    rw [abs_of_pos (by norm_num)] at this
    norm_num at this ⊢
    linarith
  have efs : p.featureSize = A.rnd 2e-3 := e5
  have hperi : p.coord.periodic = true := hper
  have hs : ∀ Res, FloatSearch A p Res := fun Res => by
    refine C104_setup hr hD ha hset (fun i => by simp [floatDefaults, SearchArgs.defaults]) (fun i => ⟨?_, ?_⟩) hm hres (.inl rfl) (by show 0 < A.rnd 2e-3; linarith) (fun i => ?_) (.inl hperi)
    · exact isFloat_zero
    · exact one
    · rw [(hlim' i).1, (hlim' i).2]
      show _ ≤ 2 ^ 41 * A.rnd 2e-3
      norm_num at hfs ⊢
      linarith
  obtain ⟨d1, d2⟩ := C104_mesh_distinct_independent hr hb hfl hres
  refine ⟨p, P, hset, ?_, ⟨_, hauto rfl, ?_⟩, by rw [hm]; exact d1, by rw [hm]; exact d2, fun Res => ⟨hs Res, ?_⟩⟩
  · rw [hm, (C104_mesh_shape hr hb hfl fun i => (hres i).1).1]
    simp
  · rw [FL.scaleStencil, List.length_map, List.Forall₂.length_eq ha, (C50_auto 3).1]
    simp
  · refine ⟨by rw [efs]; linarith, .inl hperi, .inl hperi, ?_, by norm_num⟩
    have hs3 : Real.sqrt (∑ i, (p.coord.upper i - p.coord.lower i) ^ 2) ≤ 2 := by
      apply Real.sqrt_le_iff.2
      refine ⟨by norm_num, ?_⟩
      simp only [Fin.sum_univ_three, (hlim' _).1, (hlim' _).2]
      norm_num
    unfold distanceError
    rw [efs]
    have h1 : (8 * (((3 : ℕ) : ℝ) + 10) / 2 ^ 53) * Real.sqrt (∑ i, (p.coord.upper i - p.coord.lower i) ^ 2) ≤ (8 * (((3 : ℕ) : ℝ) + 10) / 2 ^ 53) * 2 :=
      mul_le_mul_of_nonneg_left hs3 (by positivity)
    refine lt_of_le_of_lt h1 ?_
    norm_num at hfs ⊢
    linarith

/-- **C104** (the default search, in numbers): with the default arguments, whatever the gap function and the minimizations give, the search raises only exceptions of the gap function, it does not go on for ever, and when it
returns, after `n` restarts at most, every node is nearer than `0.000667 + n * 2e-15` to the centre of a refinement, and there are at most `1000 + 30 k` minimizations in the session if `k` centres were refined (in all sessions). -/
theorem C104_default_search {A : FL.CtlArith 3} (hr : IsNearest A.rnd) (hD : ∀ cs x y, FL.Distance A.rnd cs x y (A.dist cs x y)) {auto : List (Simplex 3)} (ha : NearSimplices (fun _ => 1 / 1000) auto (autoStencil 3)) :
    ∃ p P, FL.setup A.rnd auto (floatDefaults A.rnd) = .ok (p, P) ∧ ∀ (Res : Simplex 3 → SRes 3 → Prop) (n : ℕ),
      (∀ c, FL.Reach A p Res n c → ∀ e, c.phase = .raised e → ∃ s id, e = .gap id ∧ (s, e) ∈ c.failed) ∧
      (∀ c, FL.Reach A p Res n c → c.phase = .returned → ∀ r ∈ c.state.result.nodes.values, ∃ q ∈ c.state.result.refined.values, p.coord.distance r.pos q < 0.000667 + n * 2e-15) ∧
      (∀ c, FL.Reach A p Res n c → (scheduledSimplices c.log).length ≤ 1000 + 30 * c.state.result.refined.values.length) ∧
      ∀ f : ℕ → Ctl 3, FL.Reach A p Res n (f 0) → ¬ FloatFairRun A p Res f := by
  obtain ⟨p, P, hset, hml, ⟨st, hst, hsl⟩, -, -, h⟩ := C104_default hr hD ha
  obtain ⟨-, -, -, -, e5, -, hlim, hper, -, -, -, -, hpar, hre, hrc, -, hsf, hforce, -⟩ := C104_settings hr hset
  have hlim' : ∀ i, p.coord.lower i = 0 ∧ p.coord.upper i = 1 := fun i => by
    rw [(hlim i).1, (hlim i).2]
    simp [floatDefaults, SearchArgs.defaults]
  have efs : p.featureSize = A.rnd 2e-3 := e5
  refine ⟨p, P, hset, fun Res n => ⟨fun c hc e he => ?_, fun c hc hret r hr' => ?_, fun c hc => ?_, fun f hf => ?_⟩⟩
  · rcases C103_exceptions (h Res).1 hc he with ⟨s, id, rfl, h1⟩ | ⟨-, h1⟩
    · exact ⟨s, id, rfl, h1⟩
    · rw [hsf] at h1
      simp [floatDefaults, SearchArgs.defaults] at h1
  · obtain ⟨q, hq, hlt⟩ := C103_nodes_covered (h Res).1 (h Res).2 (by rw [hst]; simp) (.inr (by rw [hrc]; simp [floatDefaults, SearchArgs.defaults])) hc hret hr'
    refine ⟨q, hq, lt_of_lt_of_le hlt ?_⟩
    have hfs : A.rnd 2e-3 ≤ 2e-3 * (1 + 1 / 2 ^ 53) := by
      have := (abs_le.1 (rel_err hr 2e-3)).2
      rw [abs_of_pos (by norm_num)] at this
      linarith
    have hs3 : Real.sqrt (∑ i, (p.coord.upper i - p.coord.lower i) ^ 2) ≤ 2 := by
      apply Real.sqrt_le_iff.2
      refine ⟨by norm_num, ?_⟩
      simp only [Fin.sum_univ_three, (hlim' _).1, (hlim' _).2]
      norm_num
    have h1 : distanceError p.coord ≤ (8 * (((3 : ℕ) : ℝ) + 10) / 2 ^ 53) * 2 := by
      unfold distanceError
      exact mul_le_mul_of_nonneg_left hs3 (by positivity)
    have h2 : driftError p.coord ≤ 2e-15 := by
      unfold driftError
      apply Real.sqrt_le_iff.2
      refine ⟨by norm_num, ?_⟩
      simp only [Fin.sum_univ_three, (hlim' _).1, (hlim' _).2]
      norm_num
    have h3 : (n : ℝ) * driftError p.coord ≤ n * 2e-15 := mul_le_mul_of_nonneg_left h2 (by positivity)
    rw [efs]
    norm_num at h1 hfs h3 ⊢
    linarith
  · have := FL.scheduled_bound (h Res).1 (by rw [hforce]; simp [floatDefaults, SearchArgs.defaults]) hc le_rfl
    rw [hml, hst] at this
    simpa [hsl] using this
  · exact C103_terminates (h Res).1 (h Res).2 (by rw [hre]; simp [floatDefaults, SearchArgs.defaults]) (by rw [hpar]; simp [floatDefaults, SearchArgs.defaults]) f hf

/-! ## The hypotheses can be met -/

namespace C104Demo

/-- a box and a mesh -/
def box : CoordSys 2 := ⟨fun _ => 0, fun _ => 1, false⟩

theorem box_floats : ∀ i, IsFloat (box.lower i) ∧ IsFloat (box.upper i) := fun _ => ⟨isFloat_zero, C102Demo.float_one⟩

theorem box_proper : ProperBox box := fun _ => by norm_num [box]

theorem box_resolved : MeshResolved box fun _ => 100 := fun i => by norm_num [meshError, box]

/-- the theorems about the mesh, for a mesh of 10000 simplices -/
example : (FL.initialSimplices C102Demo.rndEven box fun _ => 100).length = 10000 ∧ DistinctSimplices (FL.initialSimplices C102Demo.rndEven box fun _ => 100) ∧
    (∃ s ∈ FL.initialSimplices C102Demo.rndEven box fun _ => 100, ∃ rest, s = ![0, 1] :: rest) ∧
    ∃ s ∈ FL.initialSimplices C102Demo.rndEven box fun _ => 100, ∃ v rest, s = v :: rest ∧ ∀ i, v i - meshError box i ≤ 1 / 3 ∧ 1 / 3 ≤ v i + meshSpacing false 1 100 + meshError box i := by
  refine ⟨?_, (C104_mesh_distinct_independent C102Demo.rndEven_nearest box_proper box_floats box_resolved).1, ?_, ?_⟩
  · rw [(C104_mesh_shape C102Demo.rndEven_nearest box_proper box_floats fun i => (box_resolved i).1).1]
    simp
  · refine C104_mesh_corners C102Demo.rndEven_nearest box_floats (fun _ => by norm_num) (.inr ⟨rfl, fun _ => by norm_num, fun i => ?_⟩)
    fin_cases i <;> simp [box]
  · obtain ⟨s, hs, v, rest, e, h⟩ := C104_mesh_covers (x := fun _ => 1 / 3) C102Demo.rndEven_nearest box_proper box_floats (m := fun _ => 100) (fun _ => by norm_num) (fun _ => by norm_num [box]) (by simp [box])
    refine ⟨s, hs, v, rest, e, fun i => ?_⟩
    have := h i
    simpa [box] using this

/-- the exact stencils are right up to `1/1000`, and so is, in four dimensions, the computed one -/
example : (∀ d, NearSimplices (fun _ => 1 / 1000) (autoStencil d) (autoStencil d)) ∧ NearSimplices (fun _ => 1 / 1000) (FL.meshStencil C102Demo.rndEven (fun _ : Fin 4 => 3) 2.5) (autoStencil 4) := by
  refine ⟨fun d => ?_, C104_auto_mesh_stencil C102Demo.rndEven_nearest (by norm_num) (by norm_num)⟩
  unfold NearSimplices
  rw [List.forall₂_same]
  intro s _
  rw [List.forall₂_same]
  intro v _ k
  norm_num

/-- an arithmetic, and the default search -/
example : ∃ A : FL.CtlArith 3, ∃ p P, FL.setup A.rnd (autoStencil 3) (floatDefaults A.rnd) = .ok (p, P) ∧ p.mesh.length = 1000 ∧ FloatSearch A p fun _ _ => True := by
  obtain ⟨p, P, h1, h2, -, -, -, h3⟩ := C104_default (A := ⟨C102Demo.rndEven, fun cs x y => (distance_exists C102Demo.rndEven cs x y).choose⟩) C102Demo.rndEven_nearest
    (fun cs x y => (distance_exists C102Demo.rndEven cs x y).choose_spec) (auto := autoStencil 3) (by
      unfold NearSimplices
      rw [List.forall₂_same]
      intro s _
      rw [List.forall₂_same]
      intro v _ k
      norm_num)
  exact ⟨_, p, P, h1, h2, (h3 _).1⟩

/-- **C104** (witness): a mesh finer than the rounding is not as it should be: in the box from `1` to `1 + 2 ^ -52`, with two points, there is a simplex whose vertices coincide. -/
theorem _root_.NF.C104_unresolved_mesh {rnd : ℝ → ℝ} (hr : IsNearest rnd) :
    ∃ cs : CoordSys 1, ProperBox cs ∧ (∀ i, IsFloat (cs.lower i) ∧ IsFloat (cs.upper i)) ∧ [(fun _ => 1), fun _ => 1] ∈ FL.initialSimplices rnd cs fun _ => 2 := by
  have f1 : IsFloat ((1 : ℝ) + 1 / 2 ^ 52) := ⟨2 ^ 52 + 1, -52, by norm_num, by norm_num [zpow_neg]⟩
  have f2 : IsFloat ((1 : ℝ) / 2 ^ 52) := ⟨1, -52, by norm_num, by norm_num [zpow_neg]⟩
  have f3 : IsFloat ((1 : ℝ) / 2 ^ 54) := ⟨1, -54, by norm_num, by norm_num [zpow_neg]⟩
  obtain ⟨cs, hcs⟩ : ∃ cs : CoordSys 1, cs = ⟨fun _ => 1, fun _ => 1 + 1 / 2 ^ 52, false⟩ := ⟨_, rfl⟩
  have hl : ∀ i, cs.lower i = 1 := fun i => by rw [hcs]
  have hu : ∀ i, cs.upper i = 1 + 1 / 2 ^ 52 := fun i => by rw [hcs]
  have hfl : ∀ i, IsFloat (cs.lower i) ∧ IsFloat (cs.upper i) := fun i => by rw [hl, hu]; exact ⟨C102Demo.float_one, f1⟩
  refine ⟨cs, fun i => by rw [hl, hu]; norm_num, hfl, ?_⟩
  obtain ⟨s, hs, rest, e⟩ := C104_mesh_corners hr hfl (m := fun _ => 2) (fun _ => by norm_num) (.inl rfl)
  obtain ⟨v, hv, rfl⟩ := List.mem_map.1 hs
  have hv0 : v = cs.lower := by
    rw [float_meshSimplex hr (cs := cs)] at e
    · exact (List.cons.inj e).1
    · exact fun k => (vertex_in_box hr (fun i => by rw [hl, hu]; norm_num) hfl (fun _ => by norm_num) hv k).2.2
  subst hv0
  rw [float_meshSimplex hr (fun k => (hfl k).1)] at hs
  convert hs using 1
  have e1 : cs.lower = fun _ => 1 := funext hl
  have e2 : rnd (1 + rnd (rnd (1 / 2 ^ 52) / (2 * ((2 : ℕ) : ℝ)))) = 1 := by
    rw [rnd_of_isFloat hr f2, show (1 : ℝ) / 2 ^ 52 / (2 * ((2 : ℕ) : ℝ)) = 1 / 2 ^ 54 by norm_num, rnd_of_isFloat hr f3]
    exact C103Demo.rnd_one hr (by norm_num) (by norm_num)
  rw [e1]
  simp only [List.ofFn_succ, List.ofFn_zero, hu, add_sub_cancel_left]
  congr 2
  funext k
  have : k = 0 := Subsingleton.elim _ _
  rw [if_pos this, e2]

end C104Demo

end NF
