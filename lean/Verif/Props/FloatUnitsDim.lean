import Verif.Props.FloatUnits
import Verif.Lemmas.SimilarRun
import Verif.Props.FloatIdentify

/-!
# C119, continued: the dimension of a cluster
-/

noncomputable section
open Classical

namespace NF
open Spec FL
variable {d : ℕ}

namespace Spec

/-- The arithmetic of the identification, if powers of two are units: the rounding, and the product of the singular values (LAPACK is not modelled), which is a volume. -/
structure BinaryIdArith (A : FL.IdArith d) : Prop where
  rnd : BinaryRounding A.rnd
  svd : ∀ (k : ℤ) (rows : List (Vec d)), A.svd (rows.map fun v i => 2 ^ k * v i) = 2 ^ (k * rows.length) * A.svd rows

/-- A cluster in the new unit. -/
def binaryGraph (k : ℤ) (g : NxGraph (Vec d) ℝ) : NxGraph (Vec d) ℝ := ⟨g.nodes.map fun x i => 2 ^ k * x i, g.edges.map fun e => (fun i => 2 ^ k * e.1 i, fun i => 2 ^ k * e.2.1 i, 2 ^ k * e.2.2)⟩

/-- In the new unit, `connecting_vector` of neighbours passes its assertion if and only if it does in the old one. -/
def SameAssertions (rnd : ℝ → ℝ) (k : ℤ) (cs : CoordSys d) (g : NxGraph (Vec d) ℝ) : Prop :=
  ∀ x, ∀ y ∈ g.neighbors x, ∀ r, FL.Connecting rnd cs y x r → FL.Connecting rnd (binaryCoord k cs) (fun i => 2 ^ k * y i) (fun i => 2 ^ k * x i) (r.map fun v i => 2 ^ k * v i)

end Spec

/-- Without periodic boundaries there are no assertions. -/
theorem sameAssertions_plain {rnd : ℝ → ℝ} (hr : BinaryRounding rnd) (k : ℤ) {cs : CoordSys d} (hp : cs.periodic = false) (g : NxGraph (Vec d) ℝ) : SameAssertions rnd k cs g := by
  intro x y _ r h
  cases h with
  | plain _ =>
    have := FL.Connecting.plain (rnd := rnd) (c := binaryCoord k cs) (pos1 := fun i => 2 ^ k * y i) (pos2 := fun i => 2 ^ k * x i) hp
    have he : FL.connectingVector rnd (binaryCoord k cs) (fun i => 2 ^ k * y i) (fun i => 2 ^ k * x i) = fun i => 2 ^ k * FL.connectingVector rnd cs y x i := by
      funext i
      exact C119_connecting_vector hr k cs y x i
    rw [he] at this
    exact this
  | passed h1 => rw [hp] at h1; cases h1
  | failed h1 => rw [hp] at h1; cases h1

section dim
variable {rnd : ℝ → ℝ} (hr : BinaryRounding rnd) (c : ℤ)
include hr

theorem bin_meanOf {l : List ℝ} {a : ℝ} (h : MeanOf rnd l a) : MeanOf rnd (l.map fun x => 2 ^ c * x) (2 ^ c * a) := by
  obtain ⟨s, hs, rfl⟩ := h
  exact ⟨_, bin_rndSum hr c hs, by rw [List.length_map, bin_rnd_div c hr]⟩

theorem bin_varOf {l : List ℝ} {v : ℝ} (h : VarOf rnd l v) : VarOf rnd (l.map fun x => 2 ^ c * x) (2 ^ (2 * c) * v) := by
  obtain ⟨m, hm, hv⟩ := h
  refine ⟨2 ^ c * m, bin_meanOf hr c hm, ?_⟩
  have := bin_meanOf hr (2 * c) hv
  rw [List.map_map] at this ⊢
  convert this using 2
  funext x
  simp only [Function.comp_apply]
  rw [bin_rnd_sub c hr, mul_pow, ← zpow_natCast ((2 : ℝ) ^ c) 2, ← zpow_mul, mul_comm c, ← hr]
  rfl

theorem bin_cond (var n limit avg : ℝ) : rnd (Real.sqrt (rnd (2 ^ (2 * c) * var / n))) < rnd (|rnd (2 ^ c * limit - 2 ^ c * avg)| / 2) ↔ rnd (Real.sqrt (rnd (var / n))) < rnd (|rnd (limit - avg)| / 2) := by
  have h1 : rnd (Real.sqrt (rnd (2 ^ (2 * c) * var / n))) = 2 ^ c * rnd (Real.sqrt (rnd (var / n))) := by
    rw [bin_rnd_div (2 * c) hr, Real.sqrt_mul (two_zpow_pos _).le, mul_comm 2 c, zpow_mul, ← hr]
    congr 2
    exact Real.sqrt_sq (two_zpow_pos c).le
  have h2 : rnd (|rnd (2 ^ c * limit - 2 ^ c * avg)| / 2) = 2 ^ c * rnd (|rnd (limit - avg)| / 2) := by
    rw [bin_rnd_sub c hr, abs_mul, abs_of_pos (two_zpow_pos c), bin_rnd_div c hr]
  rw [h1, h2, mul_lt_mul_iff_of_pos_left (two_zpow_pos c)]

theorem bin_decideLoop {limit : ℝ} {minNb : ℤ} {results : List ℝ} {volumes : List (Except Err ℝ)} {r : Except Err (Option Bool)} (h : DecideLoop rnd limit minNb results volumes r) :
    DecideLoop rnd (2 ^ c * limit) minNb (results.map fun x => 2 ^ c * x) (volumes.map fun o => o.map fun x => 2 ^ c * x) r := by
  have happ : ∀ (l : List ℝ) (v : ℝ), (l ++ [v]).map (fun x => 2 ^ c * x) = l.map (fun x => 2 ^ c * x) ++ [2 ^ c * v] := fun l v => by simp
  induction h with
  | finished => exact .finished
  | @early results v rest avg var h1 h2 h3 h4 h5 =>
    have he : decide (limit < avg) = decide (2 ^ c * limit < 2 ^ c * avg) := decide_eq_decide.2 (mul_lt_mul_iff_of_pos_left (two_zpow_pos c)).symm
    rw [he]
    exact DecideLoop.early (limit := 2 ^ c * limit) (minNb := minNb) (by rwa [List.length_map]) (by rwa [List.length_map]) (bin_meanOf hr c h3) (bin_varOf hr c h4) (by rw [List.length_map]; exact (bin_cond hr c _ _ _ _).2 h5)
  | undecided h1 h2 h3 h4 h5 _ ih =>
    rw [happ] at ih
    exact .undecided (by rwa [List.length_map]) (by rwa [List.length_map]) (bin_meanOf hr c h3) (bin_varOf hr c h4) (by rw [List.length_map]; exact fun h => h5 ((bin_cond hr c _ _ _ _).1 h)) ih
  | tooFew h1 _ ih =>
    rw [happ] at ih
    exact .tooFew (by rwa [List.length_map]) ih
  | undecidedRaises h1 h2 h3 h4 h5 =>
    exact .undecidedRaises (by rwa [List.length_map]) (by rwa [List.length_map]) (bin_meanOf hr c h3) (bin_varOf hr c h4) (by rw [List.length_map]; exact fun h => h5 ((bin_cond hr c _ _ _ _).1 h))
  | tooFewRaises h1 => exact .tooFewRaises (by rwa [List.length_map])

theorem bin_limit (fs : ℝ) (dim : ℕ) (v : ℝ) : limitValue rnd (2 ^ c * fs) dim v = 2 ^ (c * dim) * limitValue rnd fs dim v := by
  have h1 : ∀ x : ℝ, rnd (rnd (2 ^ (c * dim) * x * v) / 2) = 2 ^ (c * dim) * rnd (rnd (x * v) / 2) := fun x => by rw [mul_assoc, hr, bin_rnd_div _ hr]
  unfold limitValue
  by_cases hd : dim = 1
  · subst hd
    simp only [if_true]
    have := h1 fs
    simpa using this
  · simp only [if_neg hd]
    rw [← h1, mul_pow, ← zpow_natCast ((2 : ℝ) ^ c) dim, ← zpow_mul, hr]

end dim

section dimension
variable {A : IdArith d} (hA : BinaryIdArith A) (k : ℤ)

/-- conversion of positions -/
def binEmb (d : ℕ) (k : ℤ) : Vec d ↪ Vec d := ⟨fun x i => 2 ^ k * x i, fun x y h => funext fun i => mul_left_cancel₀ (two_zpow_pos k).ne' (congrFun h i)⟩

include hA

theorem bin_volume {cs : CoordSys d} {g : NxGraph (Vec d) ℝ} (hg : SameAssertions A.rnd k cs g) {pos : Vec d} {t : Finset (Vec d)} (ht : ∀ y ∈ t, y ∈ g.neighbors pos) {r : Except Err ℝ} (h : Volume A cs pos t r) :
    Volume A (binaryCoord k cs) (fun i => 2 ^ k * pos i) (t.map (binEmb d k)) (r.map fun x => 2 ^ (k * t.card) * x) := by
  cases h with
  | @ok tuple vectors h1 h2 h3 =>
    have hlen : (vectors.length : ℤ) = t.card := by
      rw [← h3.length_eq]
      have : tuple.toFinset = t := by ext x; simp [h2]
      rw [← this, List.toFinset_card_of_nodup h1]
    have := Volume.ok (A := A) (cs := binaryCoord k cs) (pos := fun i => 2 ^ k * pos i) (t := t.map (binEmb d k)) (tuple := tuple.map (binEmb d k)) (vectors := vectors.map fun v i => 2 ^ k * v i)
      (h1.map (binEmb d k).injective) (fun x => by simp only [List.mem_map, Finset.mem_map, h2]) (by
        rw [List.forall₂_map_left_iff, List.forall₂_map_right_iff]
        have hm : ∀ x ∈ tuple, x ∈ g.neighbors pos := fun x hx => ht x ((h2 x).1 hx)
        clear h1 h2 hlen
        induction h3 with
        | nil => exact .nil
        | cons hx _ ih => exact .cons (hg pos _ (hm _ (List.mem_cons_self ..)) _ hx) (ih fun x hx => hm x (List.mem_cons_of_mem _ hx)))
    rw [hA.svd, hlen] at this
    exact this
  | @raises n e h1 h2 => exact .raises (neighbour := fun i => 2 ^ k * n i) (Finset.mem_map_of_mem (binEmb d k) h1) (hg pos n (ht n h1) _ h2)

omit hA in
theorem binaryGraph_neighbors (g : NxGraph (Vec d) ℝ) (x : Vec d) : (binaryGraph k g).neighbors (fun i => 2 ^ k * x i) = (g.neighbors x).map (binEmb d k) :=
  NxGraph.neighbors_map (binEmb d k).injective (fun v => 2 ^ k * v) g x

theorem bin_volumes {cs : CoordSys d} {g : NxGraph (Vec d) ℝ} (hg : SameAssertions A.rnd k cs g) {pos : Vec d} {dim : ℕ} {out : List (Finset (Vec d))} {volumes : List (Except Err ℝ)}
    (ho : ∀ t ∈ out, t ∈ (g.neighbors pos).toFinset.powersetCard dim) (h : List.Forall₂ (Volume A cs pos) out volumes) :
    List.Forall₂ (Volume A (binaryCoord k cs) fun i => 2 ^ k * pos i) (out.map fun t => t.map (binEmb d k)) (volumes.map fun o => o.map fun x => 2 ^ (k * dim) * x) := by
  rw [List.forall₂_map_left_iff, List.forall₂_map_right_iff]
  induction h with
  | nil => exact .nil
  | @cons t o _ _ hx _ ih =>
    refine .cons ?_ (ih fun t ht => ho t (List.mem_cons_of_mem _ ht))
    have := Finset.mem_powersetCard.1 (ho t (List.mem_cons_self ..))
    have h1 := bin_volume hA k hg (fun y hy => List.mem_toFinset.1 (this.1 hy)) hx
    rw [this.2] at h1
    exact h1

theorem bin_hasDimension {cs : CoordSys d} {g : NxGraph (Vec d) ℝ} (hg : SameAssertions A.rnd k cs g) {fs : ℝ} {minNb : Option ℤ} {x : Vec d} {dim : ℕ} {r : Except Err Bool} (h : FL.HasDimension A g cs fs minNb x dim r) :
    FL.HasDimension A (binaryGraph k g) (binaryCoord k cs) (2 ^ k * fs) minNb (fun i => 2 ^ k * x i) dim r := by
  have hn := binaryGraph_neighbors k g x
  have hnf : ((g.neighbors x).map (binEmb d k)).toFinset = (g.neighbors x).toFinset.map (binEmb d k) := by
    ext y
    simp only [List.mem_toFinset, List.mem_map, Finset.mem_map]
  have hd : ∀ {ph used out}, Drawing (g.neighbors x).toFinset dim (minNb.getD (g.neighbors x).length) ph used out →
      Drawing ((binaryGraph k g).neighbors fun i => 2 ^ k * x i).toFinset dim (minNb.getD ((binaryGraph k g).neighbors fun i => 2 ^ k * x i).length) (ph.map (binEmb d k))
        (used.map (Finset.mapEmbedding (binEmb d k)).toEmbedding) (out.map fun t => t.map (binEmb d k)) := fun h => by
    rw [hn, hnf, List.length_map]
    exact drawing_map (binEmb d k) h
  have hloop : ∀ {v volumes r}, DecideLoop A.rnd (limitValue A.rnd fs dim v) (minNb.getD (g.neighbors x).length) [] volumes r →
      DecideLoop A.rnd (limitValue A.rnd (2 ^ k * fs) dim v) (minNb.getD ((binaryGraph k g).neighbors fun i => 2 ^ k * x i).length) [] (volumes.map fun o => o.map fun x => 2 ^ (k * dim) * x) r := fun h => by
    rw [hn, List.length_map, bin_limit hA.rnd]
    exact bin_decideLoop hA.rnd (k * dim) h
  cases h with
  | tooLarge h => exact .tooLarge h
  | unknown h1 h2 => exact .unknown h1 h2
  | early h1 h2 h3 h4 h5 => exact .early h1 h2 (hd h3) (bin_volumes hA k hg (drawing_spec h3).2.1 h4) (hloop h5)
  | raises h1 h2 h3 h4 h5 => exact .raises h1 h2 (hd h3) (bin_volumes hA k hg (drawing_spec h3).2.1 h4) (hloop h5)
  | none h1 h2 h3 => exact .none h1 h2 (hd h3)
  | @all v used out volumes avg h1 h2 h3 h4 h5 h6 h7 =>
    have h4' : List.Forall₂ (Volume A cs x) out (volumes.map .ok) := by rw [List.forall₂_map_right_iff]; exact h4
    have hm : (volumes.map (Except.ok (ε := Err))).map (fun o => o.map fun x => 2 ^ (k * dim) * x) = (volumes.map fun x => 2 ^ (k * (dim : ℤ)) * x).map .ok := by
      rw [List.map_map, List.map_map]; rfl
    have hv := bin_volumes hA k hg (drawing_spec h3).2.1 h4'
    have hl := hloop h5
    rw [hm] at hv hl
    rw [List.forall₂_map_right_iff] at hv
    have := FL.HasDimension.all h1 h2 (hd h3) hv hl (by rwa [ne_eq, List.map_eq_nil_iff]) (bin_meanOf hA.rnd (k * dim) h7)
    have he : decide (limitValue A.rnd fs dim v < avg) = decide (limitValue A.rnd (2 ^ k * fs) dim v < 2 ^ (k * (dim : ℤ)) * avg) := by
      rw [decide_eq_decide, bin_limit hA.rnd, mul_lt_mul_iff_of_pos_left (two_zpow_pos _)]
    rw [he]
    exact this

/-- **C119**, the dimension: whatever dimension `calculate_dimension` can find for a cluster (or exception it can raise), it can find in the new unit, too. -/
theorem C119_dimension {cs : CoordSys d} {g : NxGraph (Vec d) ℝ} (hg : SameAssertions A.rnd k cs g) {fs : ℝ} {maxDim : ℤ} {minPos minNb : Option ℤ} {r : Except Err (Option ℤ)}
    (h : FL.CalculateDimension A g cs fs maxDim minPos minNb r) : FL.CalculateDimension A (binaryGraph k g) (binaryCoord k cs) (2 ^ k * fs) maxDim minPos minNb r := by
  obtain ⟨order, outcomes, h1, h2, rfl⟩ := h
  refine ⟨order.map fun x i => 2 ^ k * x i, outcomes, h1.map _, ?_, rfl⟩
  rw [List.forall₂_map_left_iff]
  refine h2.imp fun x o ho => ?_
  obtain ⟨has, h3, rfl⟩ := ho
  exact ⟨has, fun dim => bin_hasDimension hA k hg (h3 dim), rfl⟩

omit hA in
/-- The dimension does not depend on the distances, only on the edges of the graph. -/
theorem calculateDimension_dist {dist' : Vec d → Vec d → ℝ} {cs : CoordSys d} {g : NxGraph (Vec d) ℝ} {fs : ℝ} {maxDim : ℤ} {minPos minNb : Option ℤ} {r : Except Err (Option ℤ)}
    (h : FL.CalculateDimension A g cs fs maxDim minPos minNb r) : FL.CalculateDimension ⟨A.rnd, dist', A.svd⟩ g cs fs maxDim minPos minNb r := by
  have hv : ∀ {pos t o}, Volume A cs pos t o → Volume ⟨A.rnd, dist', A.svd⟩ cs pos t o := fun h => by
    cases h with
    | ok h1 h2 h3 => exact .ok (A := ⟨A.rnd, dist', A.svd⟩) h1 h2 h3
    | raises h1 h2 => exact .raises h1 h2
  obtain ⟨order, outcomes, h1, h2, rfl⟩ := h
  refine ⟨order, outcomes, h1, h2.imp fun x o ho => ?_, rfl⟩
  obtain ⟨has, h3, rfl⟩ := ho
  refine ⟨has, fun dim => ?_, rfl⟩
  have := h3 dim
  generalize has dim = o at this
  cases this with
  | tooLarge h => exact .tooLarge h
  | unknown h1 h2 => exact .unknown h1 h2
  | early h1 h2 h3 h4 h5 => exact .early (A := ⟨A.rnd, dist', A.svd⟩) h1 h2 h3 (h4.imp fun _ _ h => hv h) h5
  | raises h1 h2 h3 h4 h5 => exact .raises (A := ⟨A.rnd, dist', A.svd⟩) h1 h2 h3 (h4.imp fun _ _ h => hv h) h5
  | none h1 h2 h3 => exact .none (A := ⟨A.rnd, dist', A.svd⟩) h1 h2 h3
  | all h1 h2 h3 h4 h5 h6 h7 => exact .all (A := ⟨A.rnd, dist', A.svd⟩) h1 h2 h3 (h4.imp fun _ _ h => hv h) h5 h6 h7

omit hA in
theorem movedShape_refl (f : Vec d → Vec d) : ∀ s : Option (Shape d), ∃ s', MovedShape f (fun p q => q = f p) s s'
  | none => ⟨none, trivial⟩
  | some (.point p) => ⟨some (.point (f p)), rfl⟩
  | some (.line l) => ⟨some (.line ⟨l.graph.map f id, l.degreeCount⟩), rfl⟩

theorem bin_identifyCluster {dist' : Vec d → Vec d → ℝ} {cs : CoordSys d} (hp : cs.periodic = false) {g : NxGraph (Vec d) ℝ} {fs : ℝ} {r : Except Err (IdResult d)} (h : FL.IdentifyCluster A cs fs g r) :
    ∃ r', FL.IdentifyCluster ⟨A.rnd, dist', A.svd⟩ (binaryCoord k cs) (2 ^ k * fs) (binaryGraph k g) r' ∧ MovedOne (binEmb d k) (fun p q => q = binEmb d k p) r r' := by
  have hdim : ∀ {o}, FL.CalculateDimension A g cs fs 3 (some 5) (some 10) o → FL.CalculateDimension ⟨A.rnd, dist', A.svd⟩ (binaryGraph k g) (binaryCoord k cs) (2 ^ k * fs) 3 (some 5) (some 10) o :=
    fun h => calculateDimension_dist (C119_dimension hA k (sameAssertions_plain hA.rnd k hp g) h)
  cases h with
  | dimError h => exact ⟨_, .dimError (hdim h), .error _⟩
  | @shapeError dim e h1 h2 =>
    refine ⟨_, .shapeError (hdim h1) ?_, .error _⟩
    cases h2 with
    | pointError h =>
      refine .pointError ?_
      have hnil : ∀ l : List (Vec d), FL.Average A.rnd cs l (.error e) → FL.Average A.rnd (binaryCoord k cs) (l.map fun x i => 2 ^ k * x i) (.error e) := fun l h => by
        cases h with
        | empty => exact .empty
        | raises h => rw [hp] at h; cases h
      exact hnil _ h
    | line => exact .line
  | @ok dim shape h1 h2 =>
    have hs : ∃ s', FL.EvaluateCluster ⟨A.rnd, dist', A.svd⟩ (binaryGraph k g) (binaryCoord k cs) dim (.ok s') ∧ MovedShape (binEmb d k) (fun p q => q = binEmb d k p) shape s' := by
      cases h2 with
      | point h => exact ⟨_, .point (C119_point hA.rnd k h fun h => by rw [hp] at h; cases h), rfl⟩
      | line =>
        obtain ⟨s', h⟩ := movedShape_refl (binEmb d k) shape
        exact ⟨s', .line, h⟩
      | other h1 h2 => exact ⟨_, .other h1 h2, trivial⟩
    obtain ⟨s', h3, h4⟩ := hs
    exact ⟨_, .ok (hdim h1) h3, .ok (movedResult_of h4)⟩

/-- **C119**, the identification in a box without periodic boundaries: whatever `run_from_positions` can return (or raise), it can return in the new unit, with converted positions and points and the same dimensions.
(What `evaluate_line` does with rounding is not part of this model.) -/
theorem C119_identify {dist' : Vec d → Vec d → ℝ} (hd : ∀ x y, dist' (fun i => 2 ^ k * x i) (fun i => 2 ^ k * y i) = 2 ^ k * A.dist x y) {cs : CoordSys d} (hp : cs.periodic = false)
    {positions : List (Vec d)} {fs : ℝ} {r : Except Err (IdContainer d)} (h : FL.RunFromPositions A positions cs fs r) :
    ∃ r', FL.RunFromPositions ⟨A.rnd, dist', A.svd⟩ (positions.map fun x i => 2 ^ k * x i) (binaryCoord k cs) (2 ^ k * fs) r' ∧
      MovedOutcome (fun x i => 2 ^ k * x i) (fun p q => q = fun i => 2 ^ k * p i) r r' := by
  have key : ∀ {posUnique : List (Vec d)} {outcomes}, IsUniqueList positions posUnique → List.Forall₂ (FL.IdentifyCluster A cs fs) (FL.createClusters A.dist fs posUnique) outcomes →
      IsUniqueList (positions.map (binEmb d k)) (posUnique.map (binEmb d k)) ∧ ∃ outcomes', List.Forall₂ (FL.IdentifyCluster ⟨A.rnd, dist', A.svd⟩ (binaryCoord k cs) (2 ^ k * fs))
        (FL.createClusters dist' (2 ^ k * fs) (posUnique.map (binEmb d k))) outcomes' ∧ List.Forall₂ (MovedOne (binEmb d k) fun p q => q = binEmb d k p) outcomes outcomes' := by
    intro posUnique outcomes hu ho
    refine ⟨⟨(List.nodup_map_iff (binEmb d k).injective).2 hu.1, fun x => by simp only [List.mem_map, hu.2]⟩, ?_⟩
    have hc : FL.createClusters dist' (2 ^ k * fs) (posUnique.map (binEmb d k)) = (FL.createClusters A.dist fs posUnique).map (binaryGraph k) := C119_clusters k hd fs posUnique
    rw [hc]
    obtain ⟨m', h1, h2⟩ := forall₂_exists ho (A' := fun g r => FL.IdentifyCluster ⟨A.rnd, dist', A.svd⟩ (binaryCoord k cs) (2 ^ k * fs) (binaryGraph k g) r)
      (Q := MovedOne (binEmb d k) fun p q => q = binEmb d k p) fun g _ r hr => bin_identifyCluster hA k hp hr
    exact ⟨m', by rwa [List.forall₂_map_left_iff], h2⟩
  cases h with
  | @ok posUnique outcomes rs hu ho hc =>
    obtain ⟨h1, m', h2, h3⟩ := key hu ho
    have h4 := collect_map h3
    rw [hc] at h4
    cases h5 : collect m' with
    | error e => rw [h5] at h4; exact h4.elim
    | ok rs' => rw [h5] at h4; exact ⟨_, .ok h1 h2 h5, .ok h4⟩
  | @error posUnique outcomes e hu ho hc =>
    obtain ⟨h1, m', h2, h3⟩ := key hu ho
    have h4 := collect_map h3
    rw [hc] at h4
    cases h5 : collect m' with
    | error e' => rw [h5] at h4; obtain rfl := h4; exact ⟨_, .error h1 h2 h5, .error _⟩
    | ok rs' => rw [h5] at h4; exact h4.elim

end dimension

/-! ## The hypotheses are met -/

namespace C119Demo

/-- the arithmetic in one dimension -/
def id1 : FL.IdArith 1 := ⟨rndTiesToEven, ctl1.dist ⟨0, 1, false⟩, fun rows => (rows.map fun v => |v 0|).prod⟩

theorem id1_binary : BinaryIdArith id1 := by
  refine ⟨rndTiesToEven_binary, fun k rows => ?_⟩
  change ((rows.map fun v i => 2 ^ k * v i).map fun v : Vec 1 => |v 0|).prod = 2 ^ (k * rows.length) * (rows.map fun v => |v 0|).prod
  induction rows with
  | nil => simp
  | cons v rows ih =>
    rw [List.map_cons, List.map_cons, List.prod_cons, ih, List.map_cons, List.prod_cons, List.length_cons, abs_mul, abs_of_pos (two_zpow_pos k)]
    push_cast
    rw [mul_add, zpow_add₀ (by norm_num), mul_one]
    ring

end C119Demo

/-- A cluster with one position in a box without periodic boundaries: in nanometres, too, `calculate_dimension` raises or finds a dimension. -/
example (lo up x : Vec 1) : ∃ r, FL.CalculateDimension C119Demo.id1 (binaryGraph 30 ⟨[x], []⟩) (binaryCoord 30 ⟨lo, up, false⟩) (2 ^ (30 : ℤ) * 0.01) 3 (some 5) (some 10) r := by
  have hd : ∀ dim, FL.HasDimension C119Demo.id1 ⟨[x], []⟩ ⟨lo, up, false⟩ 0.01 (some 10) x dim (.ok false) ∨ FL.HasDimension C119Demo.id1 ⟨[x], []⟩ ⟨lo, up, false⟩ 0.01 (some 10) x dim (.error .notImplemented) := by
    intro dim
    rcases Nat.lt_or_ge 1 dim with h | h
    · exact .inl (.tooLarge h)
    interval_cases dim
    · exact .inr (.unknown (by simp) rfl)
    · left
      have hn : (⟨[x], []⟩ : NxGraph (Vec 1) ℝ).neighbors x = [] := by simp [NxGraph.neighbors]
      refine .none (v := 0.5) (used := ∅) (by simp) rfl ?_
      rw [hn]
      have := Drawing.startRest (nbrs := ([] : List (Vec 1)).toFinset) (dim := 1) (minNb := (some (10 : ℤ)).getD (([] : List (Vec 1)).length)) (by simp)
      rwa [show Finset.powersetCard 1 ([] : List (Vec 1)).toFinset = ∅ from rfl] at this
  choose! has hh using fun dim => (show ∃ o, FL.HasDimension C119Demo.id1 ⟨[x], []⟩ ⟨lo, up, false⟩ 0.01 (some 10) x dim o from by rcases hd dim with h | h <;> exact ⟨_, h⟩)
  exact ⟨_, C119_dimension C119Demo.id1_binary 30 (sameAssertions_plain rndTiesToEven_binary 30 rfl _)
    ⟨[x], _, .refl _, .cons ⟨has, hh, rfl⟩ .nil, rfl⟩⟩

/-- Every list of positions on a line can be identified in metres and in (about) nanometres, with results that are converted; the distance in the new box is the one computed with rounding. -/
example (lo up : Vec 1) (positions : List (Vec 1)) :
    ∃ r r', FL.RunFromPositions { C119Demo.id1 with dist := C119Demo.ctl1.dist ⟨lo, up, false⟩ } positions ⟨lo, up, false⟩ 0.01 r ∧
      FL.RunFromPositions { C119Demo.id1 with dist := C119Demo.ctl1.dist (binaryCoord 30 ⟨lo, up, false⟩) } (positions.map fun x i => 2 ^ (30 : ℤ) * x i) (binaryCoord 30 ⟨lo, up, false⟩) (2 ^ (30 : ℤ) * 0.01) r' ∧
      MovedOutcome (fun x i => 2 ^ (30 : ℤ) * x i) (fun p q => q = fun i => 2 ^ (30 : ℤ) * p i) r r' := by
  obtain ⟨r, hr⟩ := C112_total { C119Demo.id1 with dist := C119Demo.ctl1.dist ⟨lo, up, false⟩ } positions ⟨lo, up, false⟩ 0.01
  obtain ⟨r', h1, h2⟩ := C119_identify (A := { C119Demo.id1 with dist := C119Demo.ctl1.dist ⟨lo, up, false⟩ }) ⟨C119Demo.id1_binary.rnd, C119Demo.id1_binary.svd⟩ 30
    (fun x y => C119Demo.ctl1_binary.dist 30 ⟨lo, up, false⟩ x y) rfl hr
  exact ⟨r, r', hr, h1, h2⟩

end NF
