import Verif.Props.FloatUnitsDim
import Verif.Lemmas.FloatUnitsSP
import Verif.Lemmas.FloatUnitsBallistic
import Verif.Lemmas.FloatUnitsDS
import Verif.Spec.FloatShortestPath
import Verif.Props.FloatRun

/-!
# C119, continued: the identification with the evaluation of lines
-/

noncomputable section
open Classical

namespace NF
open Spec FL
variable {d : ℕ}

namespace Spec

/-- The libraries of the shortest-path method, if powers of two are units: the paths that networkx can return do not depend on the unit.  (`sq` is only used for numbers without a unit.) -/
def BinarySP (L : FL.SPLib (Vec d)) : Prop :=
  ∀ (k : ℤ) (g : NxGraph (Vec d) (ℝ × ℝ)) (s t : Vec d) (p : List (Vec d)), L.dijkstra g s t p →
    L.dijkstra ⟨g.nodes.map fun x i => 2 ^ k * x i, g.edges.map fun e => (fun i => 2 ^ k * e.1 i, fun i => 2 ^ k * e.2.1 i, 2 ^ k * e.2.2.1, 2 ^ k * e.2.2.2)⟩ (fun i => 2 ^ k * s i) (fun i => 2 ^ k * t i)
      (p.map fun x i => 2 ^ k * x i)

/-- The computed length of a vector is multiplied by the power of two. -/
def BinaryNorm (B : FL.Blas d) : Prop :=
  ∀ (k : ℤ) (v : Vec d) (x : ℝ), B.nrm2 v x → B.nrm2 (fun i => 2 ^ k * v i) (2 ^ k * x)

/-- A graph of the dominating-set method in the new unit: the distances are multiplied by the power of two, the weights by its fourth power. -/
def binaryDSGraph (k : ℤ) (g : NxGraph (Vec d) DSAttr) : NxGraph (Vec d) DSAttr :=
  ⟨g.nodes.map fun x i => 2 ^ k * x i, g.edges.map fun e => (fun i => 2 ^ k * e.1 i, fun i => 2 ^ k * e.2.1 i, ⟨2 ^ k * e.2.2.dist, e.2.2.weight.map fun w => (2 ^ k) ^ 4 * w⟩)⟩

/-- The libraries of the dominating-set method, if powers of two are units: the power, the lengths of shortest paths and the shortest paths that networkx can return.  (`f` and `f'` are the lengths of the edges in the
two units.) -/
structure BinaryDS (L : FL.DSLib (Vec d)) : Prop where
  pow4 : ∀ (k : ℤ) x, L.pow4 (2 ^ k * x) = (2 ^ k) ^ 4 * L.pow4 x
  length : ∀ (k : ℤ) (g : NxGraph (Vec d) DSAttr) (f f' : Vec d → Vec d → ℝ) (s t : Vec d), (∀ x y, f' (fun i => 2 ^ k * x i) (fun i => 2 ^ k * y i) = 2 ^ k * f x y) →
    L.length (binaryDSGraph k g) f' (fun i => 2 ^ k * s i) (fun i => 2 ^ k * t i) = (L.length g f s t).map fun x => 2 ^ k * x
  path : ∀ (k m : ℤ) (g : NxGraph (Vec d) DSAttr) (f f' : Vec d → Vec d → ℝ) (s t : Vec d) (p : List (Vec d)),
    (∀ x y, g.hasEdge x y → f' (fun i => 2 ^ k * x i) (fun i => 2 ^ k * y i) = 2 ^ m * f x y) → L.path g f s t p →
    L.path (binaryDSGraph k g) f' (fun i => 2 ^ k * s i) (fun i => 2 ^ k * t i) (p.map fun x i => 2 ^ k * x i)

/-- What is needed of the libraries for the evaluation of lines by each of the three methods. -/
inductive BinaryLines (R : FL.RunArith d) : String → Prop
  | shortest : BinarySP R.sp → BinaryLines R "shortest_path"
  | ballistic : BinaryNorm R.blas → BinaryLines R "ballistic"
  | dominating : BinaryDS R.ds → BinaryLines R "dominating_set"

/-- A line in the new unit. -/
def binaryLine (k : ℤ) (l : NodalLine (Vec d)) : NodalLine (Vec d) :=
  ⟨⟨l.graph.nodes.map fun x i => 2 ^ k * x i, l.graph.edges.map fun e => (fun i => 2 ^ k * e.1 i, fun i => 2 ^ k * e.2.1 i, ())⟩, l.degreeCount⟩

end Spec

theorem bin_lineResult {A B : Type} (k : ℤ) (c : A → B) (g : NxGraph (Vec d) A) : lineResult (.ok (g.map (binEmb d k) c)) = (lineResult (.ok g)).map (binaryLine k) := by
  simp only [lineResult, Except.map, createDegreeCount_map (binEmb d k).injective, NxGraph.strip_map]
  rfl

theorem bin_lineResult' (k : ℤ) (a : ℝ) (r : Except Err (NxGraph (Vec d) DSAttr)) : lineResult (dsResult (binEmb d k) a r) = (lineResult r).map (binaryLine k) := by
  cases r with
  | error e => rfl
  | ok g => exact bin_lineResult k _ g

theorem Spec.BinaryDS.units {L : FL.DSLib (Vec d)} (hL : BinaryDS L) (k : ℤ) : DSUnits (binEmb d k) (2 ^ k) L L where
  pow4 := hL.pow4 k
  length g x y := hL.length k g _ _ x y fun x y => edgeDist_map (binEmb d k).injective g x y
  pathD h := hL.path k k _ _ _ _ _ _ (fun x y _ => edgeDist_map (binEmb d k).injective _ x y) h
  pathW hw h := hL.path k (k * 4) _ _ _ _ _ _ (fun x y hxy => by
    rw [zpow_mul]
    exact edgeW_map (binEmb d k).injective _ hw hxy) h

section run
variable {R : RunArith d} (hA : BinaryIdArith R.id) (k : ℤ)
include hA

/-- **C119**, lines by the methods 'shortest_path', 'dominating_set' and (without periodic boundaries) 'ballistic': whatever `evaluate_line` can return or raise, it can in the new unit, converted. -/
theorem C119_line {method : String} (hL : BinaryLines R method) {dist' : Vec d → Vec d → ℝ} (hd : ∀ x y, dist' (fun i => 2 ^ k * x i) (fun i => 2 ^ k * y i) = 2 ^ k * R.id.dist x y) {cs : CoordSys d} (hp : method = "ballistic" → cs.periodic = false) {fs : ℝ} {g : NxGraph (Vec d) ℝ}
    {r : Except Err (NodalLine (Vec d))} (h : FL.EvaluateLine R g cs fs method r) :
    FL.EvaluateLine { R with id := ⟨R.id.rnd, dist', R.id.svd⟩ } (binaryGraph k g) (binaryCoord k cs) (2 ^ k * fs) method (r.map (binaryLine k)) := by
  cases hL with
  | shortest hL =>
    have hrun : ∀ {n s}, FL.SPRun R.sp R.id.rnd fs g n s → FL.SPRun R.sp R.id.rnd (2 ^ k * fs) (binaryGraph k g) n (s.map (binEmb d k) (2 ^ k)) := fun h =>
      fl_spRun_map hA.rnd k (binEmb d k).injective (fun h => hL k _ _ _ _ h) h
    generalize hm : "shortest_path" = m at h
    cases h with
    | invalid h1 => exact absurd hm.symm h1
    | ballistic => simp at hm
    | ballisticError => simp at hm
    | dominating => simp at hm
    | shortest h =>
      rw [← bin_lineResult k (id : Unit → Unit)]
      exact .shortest (R := { R with id := ⟨R.id.rnd, dist', R.id.svd⟩ }) (hrun h)
    | shortestError h => exact .shortestError (R := { R with id := ⟨R.id.rnd, dist', R.id.svd⟩ }) (hrun h)
  | ballistic hL =>
    have hrun : ∀ {n s}, FL.BRun R.blas R.id.rnd g cs fs n s → FL.BRun R.blas R.id.rnd (binaryGraph k g) (binaryCoord k cs) (2 ^ k * fs) n (s.map (binEmb d k) id) := fun h =>
      bin_bRun hA.rnd k (hL k) (hp rfl) h
    generalize hm : "ballistic" = m at h
    cases h with
    | invalid _ _ h1 => exact absurd hm.symm h1
    | shortest => simp at hm
    | shortestError => simp at hm
    | dominating => simp at hm
    | ballistic h =>
      rw [← bin_lineResult k (id : Unit → Unit)]
      exact .ballistic (R := { R with id := ⟨R.id.rnd, dist', R.id.svd⟩ }) (hrun h)
    | ballisticError h => exact .ballisticError (R := { R with id := ⟨R.id.rnd, dist', R.id.svd⟩ }) (hrun h)
  | dominating hL =>
    generalize hm : "dominating_set" = m at h
    cases h with
    | invalid _ h1 _ => exact absurd hm.symm h1
    | shortest => simp at hm
    | shortestError => simp at hm
    | ballistic => simp at hm
    | ballisticError => simp at hm
    | @dominating r h =>
      rw [← bin_lineResult' k (2 ^ k)]
      exact .dominating (R := { R with id := ⟨R.id.rnd, dist', R.id.svd⟩ }) (fl_evalDominating_map (binEmb d k).injective hA.rnd (hL.units k) (fun x _ y _ => hd x y) h)

theorem bin_identifyClusterBy {dist' : Vec d → Vec d → ℝ} {cs : CoordSys d} (hp : cs.periodic = false) {method : String} {g : NxGraph (Vec d) ℝ} {fs : ℝ}
    (hline : ∀ r, FL.EvaluateLine R g cs fs method r →
      FL.EvaluateLine { R with id := ⟨R.id.rnd, dist', R.id.svd⟩ } (binaryGraph k g) (binaryCoord k cs) (2 ^ k * fs) method (r.map (binaryLine k)))
    {r : Except Err (IdResult d)} (h : FL.IdentifyClusterBy R cs fs method g r) :
    ∃ r', FL.IdentifyClusterBy { R with id := ⟨R.id.rnd, dist', R.id.svd⟩ } (binaryCoord k cs) (2 ^ k * fs) method (binaryGraph k g) r' ∧ MovedOne (binEmb d k) (fun p q => q = binEmb d k p) r r' := by
  have hdim : ∀ {o}, FL.CalculateDimension R.id g cs fs 3 (some 5) (some 10) o →
      FL.CalculateDimension ⟨R.id.rnd, dist', R.id.svd⟩ (binaryGraph k g) (binaryCoord k cs) (2 ^ k * fs) 3 (some 5) (some 10) o :=
    fun h => calculateDimension_dist (C119_dimension hA k (sameAssertions_plain hA.rnd k hp g) h)
  cases h with
  | dimError h => exact ⟨_, .dimError (hdim h), .error _⟩
  | @shapeError dim e h1 h2 =>
    refine ⟨_, .shapeError (hdim h1) ?_, .error _⟩
    cases h2 with
    | pointError h =>
      refine .pointError ?_
      have hnil : ∀ l : List (Vec d), FL.Average R.id.rnd cs l (.error e) → FL.Average R.id.rnd (binaryCoord k cs) (l.map fun x i => 2 ^ k * x i) (.error e) := fun l h => by
        cases h with
        | empty => exact .empty
        | raises h => rw [hp] at h; cases h
      exact hnil _ h
    | lineError h h1 h2 => exact .lineError (hline _ h) h1 h2
  | @ok dim shape h1 h2 =>
    have hs : ∃ s', FL.EvaluateClusterBy { R with id := ⟨R.id.rnd, dist', R.id.svd⟩ } (binaryGraph k g) (binaryCoord k cs) (2 ^ k * fs) method dim (.ok s') ∧
        MovedShape (binEmb d k) (fun p q => q = binEmb d k p) shape s' := by
      cases h2 with
      | point h => exact ⟨_, .point (C119_point hA.rnd k h fun h => by rw [hp] at h; cases h), rfl⟩
      | line h => exact ⟨_, .line (hline _ h), rfl⟩
      | lineWarning h he => exact ⟨_, .lineWarning (hline _ h) he, trivial⟩
      | other h1 h2 => exact ⟨_, .other h1 h2, trivial⟩
    obtain ⟨s', h3, h4⟩ := hs
    exact ⟨_, .ok (hdim h1) h3, .ok (movedResult_of h4)⟩

/-- **C119**, the identification in a box without periodic boundaries, with lines by the method 'shortest_path' (the default of `run_from_positions`), 'ballistic' (the default of `identify`) or 'dominating_set': whatever `run_from_positions` can return (or raise), it can return in the new
unit, with converted positions, points and lines and the same dimensions. -/
theorem C119_run {method : String} (hL : BinaryLines R method) {dist' : Vec d → Vec d → ℝ} (hd : ∀ x y, dist' (fun i => 2 ^ k * x i) (fun i => 2 ^ k * y i) = 2 ^ k * R.id.dist x y) {cs : CoordSys d} (hp : cs.periodic = false)
    {positions : List (Vec d)} {fs : ℝ} {r : Except Err (IdContainer d)} (h : FL.RunBy R positions cs fs method r) :
    ∃ r', FL.RunBy { R with id := ⟨R.id.rnd, dist', R.id.svd⟩ } (positions.map fun x i => 2 ^ k * x i) (binaryCoord k cs) (2 ^ k * fs) method r' ∧
      MovedOutcome (fun x i => 2 ^ k * x i) (fun p q => q = fun i => 2 ^ k * p i) r r' := by
  have key : ∀ {posUnique : List (Vec d)} {outcomes}, IsUniqueList positions posUnique → List.Forall₂ (FL.IdentifyClusterBy R cs fs method) (FL.createClusters R.id.dist fs posUnique) outcomes →
      IsUniqueList (positions.map (binEmb d k)) (posUnique.map (binEmb d k)) ∧ ∃ outcomes',
        List.Forall₂ (FL.IdentifyClusterBy { R with id := ⟨R.id.rnd, dist', R.id.svd⟩ } (binaryCoord k cs) (2 ^ k * fs) method)
          (FL.createClusters dist' (2 ^ k * fs) (posUnique.map (binEmb d k))) outcomes' ∧ List.Forall₂ (MovedOne (binEmb d k) fun p q => q = binEmb d k p) outcomes outcomes' := by
    intro posUnique outcomes hu ho
    refine ⟨⟨(List.nodup_map_iff (binEmb d k).injective).2 hu.1, fun x => by simp only [List.mem_map, hu.2]⟩, ?_⟩
    have hc : FL.createClusters dist' (2 ^ k * fs) (posUnique.map (binEmb d k)) = (FL.createClusters R.id.dist fs posUnique).map (binaryGraph k) := C119_clusters k hd fs posUnique
    rw [hc]
    obtain ⟨m', h1, h2⟩ := forall₂_exists ho
      (A' := fun g r => FL.IdentifyClusterBy { R with id := ⟨R.id.rnd, dist', R.id.svd⟩ } (binaryCoord k cs) (2 ^ k * fs) method (binaryGraph k g) r)
      (Q := MovedOne (binEmb d k) fun p q => q = binEmb d k p) fun g _ r hr => bin_identifyClusterBy hA k hp (fun _ h => C119_line hA k hL hd (fun _ => hp) h) hr
    exact ⟨m', by rwa [List.forall₂_map_left_iff], h2⟩
  cases h with
  | @ok posUnique outcomes rs hu ho hc =>
    obtain ⟨h1, m', h2, h3⟩ := key hu ho
    have h4 := collect_map h3
    rw [hc] at h4
    cases h5 : collect m' with
    | error e => rw [h5] at h4; exact h4.elim
    | ok rs' => rw [h5] at h4; exact ⟨_, .ok h1 h2 h5, .ok h4⟩
  | @error posUnique outcomes e hu ho hc =>
    obtain ⟨h1, m', h2, h3⟩ := key hu ho
    have h4 := collect_map h3
    rw [hc] at h4
    cases h5 : collect m' with
    | error e' => rw [h5] at h4; obtain rfl := h4; exact ⟨_, .error h1 h2 h5, .error _⟩
    | ok rs' => rw [h5] at h4; exact h4.elim

end run

/-! ## The hypotheses are met -/

/-- Exact shortest paths do not depend on the unit. -/
theorem exactSP_binary : BinarySP (exactSP : FL.SPLib (Vec d)) := fun k _ _ _ _ h => isShortestPath_map (binEmb d k).injective (two_zpow_pos k) h

/-- Exact lengths are multiplied by the power of two. -/
theorem exactBlas_binary : BinaryNorm (exactBlas : FL.Blas d) := by
  rintro k v x rfl
  exact (len_smul' (two_zpow_pos k).le v).symm

/-- Exact powers and shortest paths do not depend on the unit. -/
theorem exactDS_binary : BinaryDS (C116Demo.exactDS (Vec d)) where
  pow4 k x := mul_pow _ _ _
  length k g f f' s t h := shortestLength_map (binEmb d k).injective (dsAttr (2 ^ k)) (two_zpow_pos k) h s t
  path k m g f f' s t p h hp := (isShortest_map (binEmb d k).injective (dsAttr (2 ^ k)) (two_zpow_pos m) h).2 hp

namespace C119Demo

/-- arithmetic with ties to even, exact libraries, one dimension -/
def run1 : FL.RunArith 1 := ⟨{ id1 with dist := ctl1.dist exBox }, exactBlas, exactSP, C116Demo.exactDS _⟩

theorem run1_accurate (positions : List (Vec 1)) : IdAccurate run1.id exBox positions where
  nearest := rndTiesToEven_nearest
  dist p _ q _ := ctl1_distance exBox p q
  svd v := by
    show |[|v 0|].prod - len v| ≤ _
    have : [|v 0|].prod = len v := by simp [len, Real.sqrt_sq_eq_abs]
    rw [this, sub_self, abs_zero]
    exact div_nonneg (Real.sqrt_nonneg _) (by norm_num)

end C119Demo

/-- Three positions in the interval `[0, 10]`, of which two are joined: identified in metres and in (about) nanometres, with either method for lines. -/
example (method : String) (hm : method = "shortest_path" ∨ method = "ballistic") : ∃ r r', FL.RunBy C119Demo.run1 [![1.125], ![0.875], ![9]] exBox 2 method (.ok r) ∧
    FL.RunBy { C119Demo.run1 with id := { C119Demo.id1 with dist := C119Demo.ctl1.dist (binaryCoord 30 exBox) } } ([![1.125], ![0.875], (![9] : Vec 1)].map fun x i => 2 ^ (30 : ℤ) * x i) (binaryCoord 30 exBox)
      (2 ^ (30 : ℤ) * 2) method r' ∧ MovedOutcome (fun x i => 2 ^ (30 : ℤ) * x i) (fun p q => q = fun i => 2 ^ (30 : ℤ) * p i) (.ok r) r' := by
  obtain ⟨⟨r, hr⟩, h2⟩ := C116_never_raises_open (R := C119Demo.run1) exBox_proper rfl (C119Demo.run1_accurate _) C116Demo.demo_moderate (fs := 2) (by norm_num) exactSP_accurate exactBlas_accurate
    hm
  obtain ⟨out, rfl, -⟩ := h2 r hr
  have hL : BinaryLines C119Demo.run1 method := by
    rcases hm with rfl | rfl
    · exact .shortest exactSP_binary
    · exact .ballistic exactBlas_binary
  obtain ⟨r', h3, h4⟩ := C119_run (R := C119Demo.run1) ⟨C119Demo.id1_binary.rnd, C119Demo.id1_binary.svd⟩ 30 hL (fun x y => C119Demo.ctl1_binary.dist 30 exBox x y) rfl hr
  exact ⟨out, r', hr, h3, h4⟩

/-- the same with the dominating-set method -/
example : ∃ r r', FL.RunBy C119Demo.run1 [![1.125], ![0.875], ![9]] exBox 2 "dominating_set" r ∧
    FL.RunBy { C119Demo.run1 with id := { C119Demo.id1 with dist := C119Demo.ctl1.dist (binaryCoord 30 exBox) } } ([![1.125], ![0.875], (![9] : Vec 1)].map fun x i => 2 ^ (30 : ℤ) * x i) (binaryCoord 30 exBox)
      (2 ^ (30 : ℤ) * 2) "dominating_set" r' ∧ MovedOutcome (fun x i => 2 ^ (30 : ℤ) * x i) (fun p q => q = fun i => 2 ^ (30 : ℤ) * p i) r r' := by
  obtain ⟨⟨r, hr⟩, -⟩ := C116_dominating_run (R := C119Demo.run1) (fs := 2) exBox_proper (C119Demo.run1_accurate _) C116Demo.demo_moderate (C116Demo.exactDS_paths _) (C116Demo.exactDS_total _)
  obtain ⟨r', h3, h4⟩ := C119_run (R := C119Demo.run1) ⟨C119Demo.id1_binary.rnd, C119Demo.id1_binary.svd⟩ 30 (.dominating exactDS_binary) (fun x y => C119Demo.ctl1_binary.dist 30 exBox x y) rfl hr
  exact ⟨r, r', hr, h3, h4⟩

end NF
