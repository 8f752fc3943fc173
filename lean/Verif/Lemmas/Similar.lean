import Verif.Lemmas.GraphMap
import Verif.Lemmas.Graph
import Verif.Lemmas.Dimension

/-! # Lemmas: clusters, dimension and the ballistic method for similar positions -/

noncomputable section
open Classical

namespace NF
open Spec
variable {d : ℕ}

/-- The positions in `S`, moved by `f`, look in `cs'` like the original ones in `cs`, up to a factor `a` and a rotation `R`. -/
structure Similar (cs cs' : CoordSys d) (S : Set (Vec d)) (f : Vec d → Vec d) (a : ℝ) (R : Vec d → Vec d) : Prop where
  pos : 0 < a
  inj : Function.Injective f
  dist : ∀ x ∈ S, ∀ y ∈ S, cs'.distance (f x) (f y) = a * cs.distance x y
  vec : ∀ x ∈ S, ∀ y ∈ S, ∀ i, cs'.connectingVector (f x) (f y) i = a * R (cs.connectingVector x y) i
  smul : ∀ (c : ℝ) (v : Vec d) i, R (fun i => c * v i) i = c * R v i
  dot : ∀ u v : Vec d, dot (R u) (R v) = dot u v

/-- All nodes and edges are in `S`. -/
def GraphIn {A : Type} (S : Set (Vec d)) (g : NxGraph (Vec d) A) : Prop := (∀ x ∈ g.nodes, x ∈ S) ∧ ∀ e ∈ g.edges, e.1 ∈ S ∧ e.2.1 ∈ S

/-- The distances in the other unit. -/
abbrev NxGraph.simap (g : NxGraph (Vec d) ℝ) (f : Vec d → Vec d) (a : ℝ) : NxGraph (Vec d) ℝ := g.map f (a * ·)

theorem graphIn_neighbors {A : Type} {S : Set (Vec d)} {g : NxGraph (Vec d) A} (h : ∀ e ∈ g.edges, e.1 ∈ S ∧ e.2.1 ∈ S) {x y : Vec d} (hy : y ∈ g.neighbors x) : x ∈ S ∧ y ∈ S := by
  unfold NxGraph.neighbors at hy
  obtain ⟨e, he, h'⟩ := List.mem_filterMap.1 hy
  split_ifs at h' with h1 h2
  · cases h'; exact ⟨h1 ▸ (h e he).1, (h e he).2⟩
  · cases h'; exact ⟨h2 ▸ (h e he).2, (h e he).1⟩

section
variable {cs cs' : CoordSys d} {S : Set (Vec d)} {f : Vec d → Vec d} {a : ℝ} {R : Vec d → Vec d} (hs : Similar cs cs' S f a R)
include hs

theorem similar_norm {x y : Vec d} (hx : x ∈ S) (hy : y ∈ S) : CoordSys.norm (cs'.connectingVector (f x) (f y)) = a * CoordSys.norm (cs.connectingVector x y) := by
  unfold CoordSys.norm
  have h := hs.dot (cs.connectingVector x y) (cs.connectingVector x y)
  unfold NF.dot at h
  have h1 : ∑ i, cs'.connectingVector (f x) (f y) i ^ 2 = a ^ 2 * ∑ i, cs.connectingVector x y i ^ 2 := by
    simp only [pow_two] at h ⊢
    rw [← h, Finset.mul_sum]
    refine Finset.sum_congr rfl fun i _ => ?_
    rw [hs.vec x hx y hy]
    ring
  rw [h1, Real.sqrt_mul (sq_nonneg a), Real.sqrt_sq hs.pos.le]

theorem similar_unitVec {x y : Vec d} (hx : x ∈ S) (hy : y ∈ S) : unitVec cs' (f x) (f y) = R (unitVec cs x y) := by
  funext i
  have h : unitVec cs x y = fun i => (CoordSys.norm (cs.connectingVector x y))⁻¹ * cs.connectingVector x y i := by
    funext i
    rw [unitVec, div_eq_inv_mul]
  rw [h, hs.smul, unitVec, hs.vec x hx y hy, similar_norm hs hx hy, mul_div_mul_left _ _ hs.pos.ne', div_eq_inv_mul]

/-! ## Clusters -/

theorem clusterEdges_map (fs : ℝ) {l : List (Vec d)} (hl : ∀ x ∈ l, x ∈ S) :
    clusterEdges cs' (a * fs) (l.map f) = (clusterEdges cs fs l).map fun e => (f e.1, f e.2.1, a * e.2.2) := by
  induction l with
  | nil => rfl
  | cons x l ih =>
    rw [List.map_cons, clusterEdges, clusterEdges, List.map_append, ih fun y hy => hl y (List.mem_cons_of_mem _ hy)]
    congr 1
    have hx := hl x List.mem_cons_self
    have hd : ∀ y ∈ l, cs'.distance (f x) (f y) = a * cs.distance x y := fun y hy => hs.dist x hx y (hl y (List.mem_cons_of_mem _ hy))
    rw [filter_map_congr f (p := fun y => cs'.distance (f x) y ≤ a * fs) (q := fun y => cs.distance x y ≤ fs), List.map_map, List.map_map]
    · refine List.map_congr_left fun y hy => ?_
      simp only [Function.comp_apply, hd y (List.mem_of_mem_filter hy)]
    · intro y hy
      rw [hd y hy, mul_le_mul_iff_of_pos_left hs.pos]

theorem createClusters_map (fs : ℝ) {l : List (Vec d)} (hl : ∀ x ∈ l, x ∈ S) : createClusters cs' (a * fs) (l.map f) = (createClusters cs fs l).map fun g => g.simap f a := by
  have h : createGraph cs' (a * fs) (l.map f) = (createGraph cs fs l).simap f a := by
    unfold createGraph
    rw [clusterEdges_map hs fs hl]
    rfl
  unfold createClusters
  simp only [h, NxGraph.connectedComponents_map hs.inj, List.map_map]
  refine List.map_congr_left fun c _ => ?_
  exact NxGraph.subgraph_map _ _ fun x => NxGraph.mem_map_iff hs.inj

omit hs in
theorem graphIn_clusterEdges {fs : ℝ} {l : List (Vec d)} (hl : ∀ x ∈ l, x ∈ S) : ∀ e ∈ clusterEdges cs fs l, e.1 ∈ S ∧ e.2.1 ∈ S := by
  induction l with
  | nil => intro e he; cases he
  | cons x l ih =>
    intro e he
    rw [clusterEdges, List.mem_append] at he
    rcases he with he | he
    · obtain ⟨y, hy, rfl⟩ := List.mem_map.1 he
      exact ⟨hl x List.mem_cons_self, hl y (List.mem_cons_of_mem _ (List.mem_of_mem_filter hy))⟩
    · exact ih (fun y hy => hl y (List.mem_cons_of_mem _ hy)) e he

omit hs in
theorem graphIn_clusters {fs : ℝ} {l : List (Vec d)} (hl : ∀ x ∈ l, x ∈ S) : ∀ g ∈ createClusters cs fs l, GraphIn S g := by
  intro g hg
  obtain ⟨c, -, rfl⟩ := List.mem_map.1 hg
  exact ⟨fun x hx => hl x (List.mem_of_mem_filter hx), fun e he => graphIn_clusterEdges hl e (List.mem_of_mem_filter he)⟩

/-! ## Dimension -/

omit hs in
theorem finset_map_bij {V W : Type} (e : V ↪ W) (t : Finset V) : Function.Bijective (fun i : t => (⟨e i.1, Finset.mem_map_of_mem e i.2⟩ : (t.map e : Finset W))) := by
  constructor
  · intro i j h
    exact Subtype.ext (e.injective (congrArg Subtype.val h))
  · rintro ⟨y, hy⟩
    obtain ⟨x, hx, rfl⟩ := Finset.mem_map.1 hy
    exact ⟨⟨x, hx⟩, rfl⟩

theorem getVolume_map {x : Vec d} (hx : x ∈ S) {t : Finset (Vec d)} (ht : ∀ y ∈ t, y ∈ S) : getVolume cs' (f x) (t.map ⟨f, hs.inj⟩) = a ^ t.card * getVolume cs x t := by
  unfold getVolume
  have h1 : Matrix.det (Matrix.of fun i j : (t.map ⟨f, hs.inj⟩ : Finset (Vec d)) => ∑ k, cs'.connectingVector i.1 (f x) k * cs'.connectingVector j.1 (f x) k) =
      (a ^ 2) ^ t.card * Matrix.det (Matrix.of fun i j : t => ∑ k, cs.connectingVector i.1 x k * cs.connectingVector j.1 x k) := by
    rw [← Matrix.det_submatrix_equiv_self (Equiv.ofBijective _ (finset_map_bij ⟨f, hs.inj⟩ t))]
    have : ((Matrix.of fun i j : (t.map ⟨f, hs.inj⟩ : Finset (Vec d)) => ∑ k, cs'.connectingVector i.1 (f x) k * cs'.connectingVector j.1 (f x) k).submatrix
        (Equiv.ofBijective _ (finset_map_bij ⟨f, hs.inj⟩ t)) (Equiv.ofBijective _ (finset_map_bij ⟨f, hs.inj⟩ t))) = (a ^ 2) • (Matrix.of fun i j : t => ∑ k, cs.connectingVector i.1 x k * cs.connectingVector j.1 x k) := by
      ext i j
      have h := hs.dot (cs.connectingVector i.1 x) (cs.connectingVector j.1 x)
      unfold NF.dot at h
      simp only [Matrix.submatrix_apply, Matrix.of_apply, Matrix.smul_apply, smul_eq_mul]
      rw [← h, Finset.mul_sum]
      refine Finset.sum_congr rfl fun k _ => ?_
      have hi : ((Equiv.ofBijective _ (finset_map_bij ⟨f, hs.inj⟩ t)) i).1 = f i.1 := rfl
      have hj : ((Equiv.ofBijective _ (finset_map_bij ⟨f, hs.inj⟩ t)) j).1 = f j.1 := rfl
      rw [hi, hj, hs.vec _ (ht _ i.2) _ hx, hs.vec _ (ht _ j.2) _ hx]
      ring
    rw [this, Matrix.det_smul, Fintype.card_coe]
  rw [h1, abs_mul, abs_of_nonneg (pow_nonneg (sq_nonneg a) _), Real.sqrt_mul (pow_nonneg (sq_nonneg a) _)]
  congr 1
  rw [← pow_mul, mul_comm, pow_mul, Real.sqrt_sq (pow_nonneg hs.pos.le _)]

/-- The phase of a drawing with renamed neighbours. -/
def DrawPhase.map {V W : Type} (f : V ↪ W) : DrawPhase V → DrawPhase W
  | .random => .random
  | .rest t => .rest (t.map (Finset.mapEmbedding f).toEmbedding)

omit hs in
theorem drawing_map {V W : Type} (f : V ↪ W) {nbrs : Finset V} {dim : ℕ} {minNb : ℤ} {ph : DrawPhase V} {used : Finset (Finset V)} {out : List (Finset V)} (h : Drawing nbrs dim minNb ph used out) :
    Drawing (nbrs.map f) dim minNb (ph.map f) (used.map (Finset.mapEmbedding f).toEmbedding) (out.map fun t => t.map f) := by
  have hinj : Function.Injective fun t : Finset V => t.map f := Finset.map_injective f
  have hmem : ∀ (t : Finset V) (u : Finset (Finset V)), t.map f ∈ u.map (Finset.mapEmbedding f).toEmbedding ↔ t ∈ u := fun t u => by
    rw [Finset.mem_map]
    exact ⟨fun ⟨s, hs, e⟩ => hinj e ▸ hs, fun h => ⟨t, h, rfl⟩⟩
  have hsd : ∀ s t : Finset (Finset V), (s \ t).map (Finset.mapEmbedding f).toEmbedding = s.map (Finset.mapEmbedding f).toEmbedding \ t.map (Finset.mapEmbedding f).toEmbedding := fun s t =>
    Finset.map_sdiff _ _
  induction h with
  | startRandom h => exact .startRandom (by rwa [Finset.card_map])
  | startRest h =>
    have := Drawing.startRest (nbrs := nbrs.map f) (dim := dim) (minNb := minNb) (by rwa [Finset.card_map])
    rw [Finset.powersetCard_map] at this
    exact this
  | @sample used out t _ h1 h2 h3 ih =>
    have := Drawing.sample (t := t.map f) ih (by rwa [Finset.card_map, Finset.card_map]) (by rw [Finset.powersetCard_map, hmem]; exact h2) (by rwa [hmem])
    rw [List.map_append, Finset.map_insert]
    exact this
  | @switch used out _ h1 ih =>
    have := Drawing.switch ih (by rwa [Finset.card_map, Finset.card_map])
    rw [Finset.powersetCard_map, ← hsd] at this
    exact this
  | @batch tuples used out vals _ h1 h2 h3 h4 ih =>
    have := Drawing.batch (vals := vals.map fun t => t.map f) ih (by rwa [ne_eq, Finset.map_eq_empty]) (h2.map hinj)
      (fun t ht => by obtain ⟨s, hs, rfl⟩ := List.mem_map.1 ht; exact (hmem s tuples).2 (h3 s hs)) (by rw [List.length_map, Finset.card_map, h4])
    rw [List.map_append]
    have he : (vals.map fun t => t.map f).toFinset = vals.toFinset.map (Finset.mapEmbedding f).toEmbedding := by
      ext t
      simp only [List.mem_toFinset, List.mem_map, Finset.mem_map]
      rfl
    rw [he, ← hsd] at this
    exact this

omit hs in
theorem average_map (c : ℝ) (l : List ℝ) : average (l.map (c * ·)) = c * average l := by
  unfold average
  rw [List.length_map, List.sum_map_mul_left, List.map_id', mul_div_assoc]

omit hs in
theorem variance_map (c : ℝ) (l : List ℝ) : variance (l.map (c * ·)) = c ^ 2 * variance l := by
  unfold variance
  rw [← average_map, List.map_map, List.map_map, average_map]
  congr 1
  refine List.map_congr_left fun x _ => ?_
  simp only [Function.comp_apply]
  ring

omit hs in
theorem decideLoop_map {c : ℝ} (hc : 0 < c) (limit : ℝ) (minNb : ℤ) (results rest : List ℝ) : decideLoop (c * limit) minNb (results.map (c * ·)) (rest.map (c * ·)) = decideLoop limit minNb results rest := by
  induction rest generalizing results with
  | nil => rfl
  | cons v rest ih =>
    rw [List.map_cons, decideLoop, decideLoop, List.length_map, average_map, variance_map]
    have h1 : |c * limit - c * average results| / 2 = c * (|limit - average results| / 2) := by
      rw [← mul_sub, abs_mul, abs_of_pos hc]
      ring
    have h2 : Real.sqrt (c ^ 2 * variance results / (results.length - 1)) = c * Real.sqrt (variance results / (results.length - 1)) := by
      rw [mul_div_assoc, Real.sqrt_mul (sq_nonneg c), Real.sqrt_sq hc.le]
    rw [h1, h2]
    have h3 : results.map (c * ·) ++ [c * v] = (results ++ [v]).map (c * ·) := by simp
    rw [h3, ih]
    simp only [gt_iff_lt, mul_lt_mul_iff_of_pos_left hc]

theorem hasDimension_map {g : NxGraph (Vec d) ℝ} (hg : GraphIn S g) {fs : ℝ} {minNb : Option ℤ} {x : Vec d} {dim : ℕ} {r : Except Err Bool} (h : HasDimension g cs fs minNb x dim r) :
    HasDimension (g.simap f a) cs' (a * fs) minNb (f x) dim r := by
  have hn : (g.simap f a).neighbors (f x) = (g.neighbors x).map f := NxGraph.neighbors_map hs.inj _ g x
  have hnf : ((g.neighbors x).map f).toFinset = (g.neighbors x).toFinset.map ⟨f, hs.inj⟩ := by
    ext y
    simp only [List.mem_toFinset, List.mem_map, Finset.mem_map]
    rfl
  have hv : ∀ {ph used out}, Drawing (g.neighbors x).toFinset dim (minNb.getD (g.neighbors x).length) ph used out →
      (out.map fun t => t.map ⟨f, hs.inj⟩).map (getVolume cs' (f x)) = (out.map (getVolume cs x)).map (a ^ dim * ·) := by
    intro ph used out hd
    rw [List.map_map, List.map_map]
    refine List.map_congr_left fun t ht => ?_
    have ht := (drawing_spec hd).2.1 t ht
    rw [Finset.mem_powersetCard] at ht
    simp only [Function.comp_apply]
    rcases t.eq_empty_or_nonempty with rfl | ⟨y, hy⟩
    · have h0 : dim = 0 := by rw [← ht.2]; rfl
      subst h0
      simp [getVolume]
    · have hx : x ∈ S := (graphIn_neighbors hg.2 (List.mem_toFinset.1 (ht.1 hy))).1
      rw [← ht.2]
      exact getVolume_map hs hx fun z hz => (graphIn_neighbors hg.2 (List.mem_toFinset.1 (ht.1 hz))).2
  have hl : ∀ v, (a * fs) ^ dim * v / 2 = a ^ dim * (fs ^ dim * v / 2) := fun v => by rw [mul_pow]; ring
  have hc : 0 < a ^ dim := pow_pos hs.pos dim
  cases h with
  | tooLarge h => exact .tooLarge h
  | unknown h1 h2 => exact .unknown h1 h2
  | @early v ph used out b h1 h2 h3 h4 =>
    have h3' := drawing_map ⟨f, hs.inj⟩ h3
    refine .early (out := out.map fun t => t.map ⟨f, hs.inj⟩) h1 h2 (by rw [hn, hnf, List.length_map]; exact h3') ?_
    rw [hn, List.length_map, hv h3, hl]
    have := decideLoop_map hc (fs ^ dim * v / 2) (minNb.getD (g.neighbors x).length) [] (out.map (getVolume cs x))
    rw [← h4, ← this]
    rfl
  | @all v used out h1 h2 h3 h4 =>
    have h3' := drawing_map ⟨f, hs.inj⟩ h3
    have := HasDimension.all (g := g.simap f a) (cs := cs') (featureSize := a * fs) (minNeighbourEvaluations := minNb) (pos := f x) (out := out.map fun t => t.map ⟨f, hs.inj⟩) h1 h2
      (by rw [hn, hnf, List.length_map]; exact h3') (by
        rw [hn, List.length_map, hv h3, hl]
        have := decideLoop_map hc (fs ^ dim * v / 2) (minNb.getD (g.neighbors x).length) [] (out.map (getVolume cs x))
        rw [← h4, ← this]
        rfl)
    rw [hv h3, hl, average_map] at this
    convert this using 3
    rw [gt_iff_lt, gt_iff_lt, mul_lt_mul_iff_of_pos_left hc, ne_eq, ne_eq, List.map_eq_nil_iff]

theorem calculateDimension_map {g : NxGraph (Vec d) ℝ} (hg : GraphIn S g) {fs : ℝ} {maxDim : ℤ} {minPos minNb : Option ℤ} {r : Except Err (Option ℤ)} (h : CalculateDimension g cs fs maxDim minPos minNb r) :
    CalculateDimension (g.simap f a) cs' (a * fs) maxDim minPos minNb r := by
  obtain ⟨order, outcomes, h1, h2, rfl⟩ := h
  refine ⟨order.map f, outcomes, h1.map f, ?_, rfl⟩
  rw [List.forall₂_map_left_iff]
  refine h2.imp fun x o ho => ?_
  obtain ⟨has, h3, rfl⟩ := ho
  exact ⟨has, fun dim => hasDimension_map hs hg (h3 dim), rfl⟩

/-! ## Ballistic -/

theorem edgeAttr_map (g : NxGraph (Vec d) ℝ) (x y : Vec d) : (g.simap f a).edgeAttr (f x) (f y) = a * g.edgeAttr x y := by
  unfold NxGraph.edgeAttr
  rw [NxGraph.find_map hs.inj]
  cases g.edges.find? fun e => decide (NxGraph.joins e x y) with
  | none => simp
  | some e => rfl

theorem usableNeighbors_map {g : NxGraph (Vec d) ℝ} (hg : GraphIn S g) (x : Vec d) : usableNeighbors (g.simap f a) cs' (f x) = (usableNeighbors g cs x).map f := by
  unfold usableNeighbors
  rw [NxGraph.neighbors_map hs.inj]
  refine filter_map_congr f fun y hy => ?_
  have := graphIn_neighbors hg.2 hy
  rw [similar_norm hs this.1 this.2, mul_pos_iff_of_pos_left hs.pos]

theorem directionAngle_map {x y : Vec d} (hx : x ∈ S) (hy : y ∈ S) (prev : Option (Vec d)) : directionAngle cs' (f x) (prev.map R) (f y) = directionAngle cs x prev y := by
  cases prev with
  | none => rfl
  | some p =>
    simp only [directionAngle, Option.map_some]
    rw [similar_unitVec hs hx hy, hs.dot]

omit hs in
theorem usable_in {g : NxGraph (Vec d) ℝ} (hg : GraphIn S g) {x y : Vec d} (h : y ∈ usableNeighbors g cs x) : x ∈ S ∧ y ∈ S := graphIn_neighbors hg.2 (List.mem_of_mem_filter h)

theorem candidateNodes_map {g : NxGraph (Vec d) ℝ} (hg : GraphIn S g) (x : Vec d) (prev : Option (Vec d)) : candidateNodes (g.simap f a) cs' (f x) (prev.map R) = (candidateNodes g cs x prev).map f := by
  unfold candidateNodes
  rw [usableNeighbors_map hs hg]
  refine filter_map_congr f fun y hy => ?_
  have := usable_in hg hy
  rw [directionAngle_map hs this.1 this.2]

omit hs in
theorem candidate_in {g : NxGraph (Vec d) ℝ} (hg : GraphIn S g) {x y : Vec d} {prev : Option (Vec d)} (h : y ∈ candidateNodes g cs x prev) : x ∈ S ∧ y ∈ S := usable_in hg (List.mem_of_mem_filter h)

theorem ballisticWeight_map {g : NxGraph (Vec d) ℝ} (hg : GraphIn S g) {fs : ℝ} (rg : NxGraph (Vec d) Unit) {x y : Vec d} (hx : x ∈ S) (hy : y ∈ S) (prev : Option (Vec d)) :
    ballisticWeight (g.simap f a) cs' (a * fs) (rg.map f id) (f x) (prev.map R) (f y) = ballisticWeight g cs fs rg x prev y := by
  have h1 : ((candidateNodes (g.simap f a) cs' (f x) (prev.map R)).map fun m => max (NF.dot (unitVec cs' (f x) (f y)) (unitVec cs' (f x) m)) 0) =
      ((candidateNodes g cs x prev).map fun m => max (NF.dot (unitVec cs x y) (unitVec cs x m)) 0) := by
    rw [candidateNodes_map hs hg, List.map_map]
    refine List.map_congr_left fun m hm => ?_
    simp only [Function.comp_apply]
    rw [similar_unitVec hs hx hy, similar_unitVec hs hx (candidate_in hg hm).2, hs.dot]
  have h2 : f y ∈ (rg.map f id).nodes ↔ y ∈ rg.nodes := NxGraph.mem_map_iff hs.inj
  have h3 : distanceNormalized (g.simap f a) (a * fs) (f x) (f y) = distanceNormalized g fs x y := by
    unfold distanceNormalized
    rw [edgeAttr_map hs, mul_div_mul_left _ _ hs.pos.ne']
  unfold ballisticWeight
  rw [h1, directionAngle_map hs hx hy, h3]
  simp only [h2, NxGraph.degree_map hs.inj]

/-- A result of `get_next_pos` for the moved positions. -/
def mapNext (f R : Vec d → Vec d) (r : Except Err (Option (Vec d × Vec d))) : Except Err (Option (Vec d × Vec d)) := r.map (Option.map fun p => (f p.1, R p.2))

theorem nextPos_map {g : NxGraph (Vec d) ℝ} (hg : GraphIn S g) {fs : ℝ} {rg : NxGraph (Vec d) Unit} {x : Vec d} {prev : Option (Vec d)} {r : Except Err (Option (Vec d × Vec d))} (h : NextPos g cs fs rg x prev r) :
    NextPos (g.simap f a) cs' (a * fs) (rg.map f id) (f x) (prev.map R) (mapNext f R r) := by
  have hn : (g.simap f a).neighbors (f x) = (g.neighbors x).map f := NxGraph.neighbors_map hs.inj _ g x
  cases h with
  | noNeighbors h => exact .noNeighbors (by rw [hn, h]; rfl)
  | allCoincide h1 h2 h3 => exact .allCoincide (by rwa [hn, ne_eq, List.map_eq_nil_iff]) (by rw [usableNeighbors_map hs hg, h2]; rfl) (by rwa [ne_eq, Option.map_eq_none_iff])
  | nothing h1 h2 h3 =>
    refine .nothing (by rwa [hn, ne_eq, List.map_eq_nil_iff]) ?_ (by rw [candidateNodes_map hs hg, h3]; rfl)
    rw [usableNeighbors_map hs hg, ne_eq, List.map_eq_nil_iff, Option.map_eq_none_iff]
    exact h2
  | @chosen n h1 h2 =>
    have hx := candidate_in hg h1
    have : mapNext f R (.ok (some (n, unitVec cs x n))) = .ok (some (f n, unitVec cs' (f x) (f n))) := by
      rw [similar_unitVec hs hx.1 hx.2]
      rfl
    rw [this]
    refine .chosen ?_ ?_
    · rw [candidateNodes_map hs hg]
      exact List.mem_map.2 ⟨n, h1, rfl⟩
    · intro m hm
      rw [candidateNodes_map hs hg] at hm
      obtain ⟨m, hm', rfl⟩ := List.mem_map.1 hm
      rw [ballisticWeight_map hs hg rg hx.1 (candidate_in hg hm').2, ballisticWeight_map hs hg rg hx.1 hx.2]
      exact h2 m hm'

/-- A state of the method for the moved positions. -/
def BState.map (f R : Vec d → Vec d) : BState d → BState d
  | .outer rg ev => .outer (rg.map f id) (ev.map f)
  | .loop rg ev pending node prev onGraph => .loop (rg.map f id) (ev.map f) (pending.map f) (f node) (prev.map R) onGraph
  | .done rg => .done (rg.map f id)
  | .error e => .error e

/-- The edges found so far are in `S`. -/
def BIn (S : Set (Vec d)) : BState d → Prop
  | .outer rg _ => ∀ e ∈ rg.edges, e.1 ∈ S ∧ e.2.1 ∈ S
  | .loop rg _ _ _ _ _ => ∀ e ∈ rg.edges, e.1 ∈ S ∧ e.2.1 ∈ S
  | .done _ => True
  | .error _ => True

omit hs in
theorem edgesIn_addNode {rg : NxGraph (Vec d) Unit} (h : ∀ e ∈ rg.edges, e.1 ∈ S ∧ e.2.1 ∈ S) (x : Vec d) : ∀ e ∈ (rg.addNode x).edges, e.1 ∈ S ∧ e.2.1 ∈ S := by
  unfold NxGraph.addNode
  split_ifs <;> exact h

omit hs in
theorem edgesIn_addEdge {rg : NxGraph (Vec d) Unit} (h : ∀ e ∈ rg.edges, e.1 ∈ S ∧ e.2.1 ∈ S) {x y : Vec d} (hx : x ∈ S) (hy : y ∈ S) : ∀ e ∈ (rg.addEdge x y ()).edges, e.1 ∈ S ∧ e.2.1 ∈ S := by
  intro e he
  have hn := edgesIn_addNode (edgesIn_addNode h x) y
  unfold NxGraph.addEdge at he
  dsimp only at he
  split_ifs at he
  · obtain ⟨e', he', rfl⟩ := List.mem_map.1 he
    have := hn e' he'
    split_ifs <;> exact this
  · rcases List.mem_append.1 he with he | he
    · exact hn e he
    · cases List.mem_singleton.1 he
      exact ⟨hx, hy⟩

omit hs in
theorem bStep_in {g : NxGraph (Vec d) ℝ} (hg : GraphIn S g) {fs : ℝ} {s s' : BState d} (hb : BIn S s) (h : BStep g cs fs s s') : BIn S s' := by
  cases h with
  | finish _ => trivial
  | endNode _ _ _ => exact edgesIn_addNode (S := S) hb _
  | newStart _ _ _ => exact edgesIn_addNode (S := S) hb _
  | noStart _ _ _ => trivial
  | @next rg ev pending node prev onGraph r h =>
    have hb : ∀ e ∈ rg.edges, e.1 ∈ S ∧ e.2.1 ∈ S := hb
    cases h with
    | noNeighbors _ => trivial
    | allCoincide _ _ _ => trivial
    | nothing _ _ _ =>
      cases prev with
      | none => trivial
      | some p => exact hb
    | @chosen n h1 _ =>
      have := candidate_in hg h1
      have he := edgesIn_addEdge hb this.1 this.2
      simp only [afterNext]
      split_ifs
      · exact hb
      · exact he
      · exact he

theorem afterNext_map (rg : NxGraph (Vec d) Unit) (ev : List (Vec d)) (pending : Option (Vec d)) (x : Vec d) (prev : Option (Vec d)) (onGraph : Bool) (r : Except Err (Option (Vec d × Vec d))) :
    afterNext (rg.map f id) (ev.map f) (pending.map f) (f x) (prev.map R) onGraph (mapNext f R r) = (afterNext rg ev pending x prev onGraph r).map f R := by
  have hex : ∀ ev : List (Vec d), exitLoop (rg.map f id) (ev.map f) (pending.map f) = (exitLoop rg ev pending).map f R := by
    intro ev
    unfold exitLoop
    cases pending <;> simp [BState.map]
  rcases r with e | - | ⟨n, dir⟩
  · rfl
  · cases prev with
    | none => rfl
    | some p =>
      have := hex (ev ++ [x])
      rw [List.map_append] at this
      exact this
  · have hm : f n ∈ (rg.map f id).nodes ↔ n ∈ rg.nodes := NxGraph.mem_map_iff hs.inj
    have ha : (rg.map f id).addEdge (f x) (f n) () = (rg.addEdge x n ()).map f id := NxGraph.addEdge_map hs.inj (id : Unit → Unit) rg x n ()
    simp only [afterNext, mapNext, Except.map, Option.map_some]
    rw [ha]
    by_cases h1 : n ∈ rg.nodes
    · rw [if_pos h1, if_pos (hm.2 h1)]
      cases onGraph
      · rfl
      · exact hex ev
    · rw [if_neg h1, if_neg fun h => h1 (hm.1 h)]
      rfl

theorem newEndNodes_map (rg : NxGraph (Vec d) Unit) (ev : List (Vec d)) : newEndNodes (rg.map f id) (ev.map f) = (newEndNodes rg ev).map f := by
  unfold newEndNodes
  refine filter_map_congr f fun x _ => ?_
  rw [NxGraph.degree_map hs.inj, NxGraph.mem_map_iff hs.inj]

theorem startCandidates_map (g : NxGraph (Vec d) ℝ) (rg : NxGraph (Vec d) Unit) : startCandidates (g.simap f a) (rg.map f id) = (startCandidates g rg).map f := by
  unfold startCandidates
  refine filter_map_congr f fun x _ => not_congr ?_
  have hm : ∀ y, f y ∈ (rg.map f id).nodes ↔ y ∈ rg.nodes := fun y => NxGraph.mem_map_iff hs.inj
  constructor
  · rintro ⟨e, he, h⟩
    obtain ⟨e, he', rfl⟩ := List.mem_map.1 he
    refine ⟨e, he', ?_⟩
    simpa only [hm, hs.inj.eq_iff] using h
  · rintro ⟨e, he, h⟩
    refine ⟨_, List.mem_map.2 ⟨e, he, rfl⟩, ?_⟩
    simpa only [hm, hs.inj.eq_iff] using h

theorem bStep_map {g : NxGraph (Vec d) ℝ} (hg : GraphIn S g) {fs : ℝ} {s s' : BState d} (hb : BIn S s) (h : BStep g cs fs s s') : BStep (g.simap f a) cs' (a * fs) (s.map f R) (s'.map f R) := by
  have hd : ∀ rg : NxGraph (Vec d) Unit, (g.simap f a).isDominatingSet (fun x => x ∈ (rg.map f id).nodes) ↔ g.isDominatingSet (fun x => x ∈ rg.nodes) := fun rg =>
    NxGraph.isDominatingSet_map hs.inj _ g fun x => NxGraph.mem_map_iff hs.inj
  have ha : ∀ (rg : NxGraph (Vec d) Unit) (x : Vec d), (rg.map f id).addNode (f x) = (rg.addNode x).map f id := fun rg x => NxGraph.addNode_map hs.inj id rg x
  cases h with
  | finish h => exact .finish ((hd _).2 h)
  | @endNode rg ev node nbr h1 h2 h3 =>
    have hm : nbr ∈ rg.neighbors node := List.mem_of_head? h3
    have hb' := graphIn_neighbors hb hm
    have := BStep.endNode (g := g.simap f a) (cs := cs') (fs := a * fs) (rg := rg.map f id) (ev := ev.map f) (node := f node) (nbr := f nbr) (fun h => h1 ((hd _).1 h))
      (by rw [newEndNodes_map hs]; exact List.mem_map.2 ⟨node, h2, rfl⟩) (by rw [NxGraph.neighbors_map hs.inj, List.head?_map, h3]; rfl)
    rw [ha, similar_unitVec hs hb'.1 hb'.2] at this
    have hneg : (fun i => -(R (unitVec cs node nbr) i)) = R fun i => -(unitVec cs node nbr i) := by
      funext i
      have := hs.smul (-1) (unitVec cs node nbr) i
      simp only [neg_mul, one_mul] at this
      exact this.symm
    rw [hneg] at this
    exact this
  | @newStart rg ev node h1 h2 h3 =>
    have := BStep.newStart (g := g.simap f a) (cs := cs') (fs := a * fs) (rg := rg.map f id) (ev := ev.map f) (node := f node) (fun h => h1 ((hd _).1 h))
      (by rw [newEndNodes_map hs, h2]; rfl) (by rw [startCandidates_map hs]; exact List.mem_map.2 ⟨node, h3, rfl⟩)
    rw [ha] at this
    exact this
  | @noStart rg ev h1 h2 h3 =>
    exact BStep.noStart (fun h => h1 ((hd _).1 h)) (by rw [newEndNodes_map hs, h2]; rfl) (by rw [startCandidates_map hs, h3]; rfl)
  | @next rg ev pending node prev onGraph r h =>
    rw [← afterNext_map hs]
    exact .next (nextPos_map hs hg h)

theorem bRun_map {g : NxGraph (Vec d) ℝ} (hg : GraphIn S g) {fs : ℝ} {n : ℕ} {s : BState d} (h : BRun g cs fs n s) : BRun (g.simap f a) cs' (a * fs) n (s.map f R) ∧ BIn S s := by
  induction h with
  | init => exact ⟨.init, by intro e he; cases he⟩
  | step _ hst ih => exact ⟨.step ih.1 (bStep_map hs hg ih.2 hst), bStep_in hg ih.2 hst⟩

end

end NF
