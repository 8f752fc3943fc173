import Verif.Spec.Isolated
import Verif.Props.Identify

/-! # C78: isolated nodal points are identified as points -/

noncomputable section
open Classical

namespace NF
open Spec NxGraph CoordSys
variable {d : ℕ}

theorem len_smul (c : ℝ) (v : Vec d) : len (fun i => c * v i) = |c| * len v := by
  unfold len
  rw [show (∑ i, (c * v i) ^ 2) = c ^ 2 * ∑ i, v i ^ 2 by rw [Finset.mul_sum]; exact Finset.sum_congr rfl fun i _ => by ring, Real.sqrt_mul (sq_nonneg c), Real.sqrt_sq_eq_abs]

theorem len_sum_le {r : ℝ} : ∀ (l : List (Vec d)), (∀ v ∈ l, len v ≤ r) → len (fun i => (l.map fun v => v i).sum) ≤ l.length * r := by
  intro l
  induction l with
  | nil => intro _; simp [len]
  | cons v l ih =>
    intro h
    have h1 := ih fun w hw => h w (by simp [hw])
    have h2 := h v (by simp)
    have h3 := len_add_le v fun i => (l.map fun v => v i).sum
    simp only [List.map_cons, List.sum_cons, List.length_cons]
    push_cast
    linarith

/-- The mean of positions near `z` is near `z`. -/
theorem mean_near {r : ℝ} {l : List (Vec d)} (hne : l ≠ []) (z : Vec d) (h : ∀ v ∈ l, eucl v z ≤ r) : eucl (fun i => (l.map fun v => v i).sum / l.length) z ≤ r := by
  have hn : (0 : ℝ) < l.length := by exact_mod_cast List.length_pos_iff.2 hne
  have h1 := len_sum_le (r := r) (l.map fun v => fun i => v i - z i) (by
    intro w hw
    obtain ⟨v, hv, rfl⟩ := List.mem_map.1 hw
    exact h v hv)
  have h2 : eucl (fun i => (l.map fun v => v i).sum / l.length) z = len fun i => (1 / (l.length : ℝ)) * ((l.map fun v => fun i => v i - z i).map fun v => v i).sum := by
    unfold eucl len
    congr 1
    refine Finset.sum_congr rfl fun i _ => ?_
    congr 1
    have : ∀ l : List (Vec d), ((l.map fun v => fun i => v i - z i).map fun v => v i).sum = (l.map fun v => v i).sum - l.length * z i := by
      intro l
      induction l with
      | nil => simp
      | cons v l ih => simp only [List.map_cons, List.sum_cons, List.length_cons, ih]; push_cast; ring
    beta_reduce
    rw [this]
    field_simp
  rw [h2, len_smul, abs_of_pos (by positivity)]
  simp only [List.length_map] at h1
  calc _ ≤ (1 / (l.length : ℝ)) * (l.length * r) := by
        refine mul_le_mul_of_nonneg_left h1 (by positivity)
    _ = r := by field_simp

/-- The average of positions near `z` is near `z`. -/
theorem average_near {cs : CoordSys d} (hb : ProperBox cs) {r : ℝ} (hr : ∀ i, 4 * r < cs.upper i - cs.lower i) {ps : List (Vec d)} (hne : ps ≠ []) {z : Vec d}
    (h : ∀ p ∈ ps, cs.distance p z ≤ r) {a : Vec d} (ha : cs.average ps = .ok a) : cs.distance a z ≤ r := by
  cases hp : cs.periodic with
  | false =>
    rw [(C06_average_nonperiodic cs hp ps hne).1] at ha
    cases ha
    rw [distance_eucl hp]
    exact mean_near hne z fun v hv => by rw [← distance_eucl hp]; exact h v hv
  | true =>
    have hex : ∀ p : Vec d, ∃ u, Congr cs p u ∧ cs.distance p z = eucl u z := by
      intro p
      obtain ⟨k, hk⟩ := (C04_distance_is_min_over_images cs hb hp z p).1
      refine ⟨shift cs k p, ⟨k, rfl⟩, ?_⟩
      rw [(C03_distance_metric cs hb p z z).2.1, hk]
      unfold eucl
      congr 1
      exact Finset.sum_congr rfl fun i _ => by ring
    choose u hu1 hu2 using hex
    have hnear : ∀ v ∈ ps.map u, eucl v z ≤ r := by
      intro v hv
      obtain ⟨p, hpm, rfl⟩ := List.mem_map.1 hv
      rw [← hu2]
      exact h p hpm
    have hcoord : ∀ v ∈ ps.map u, ∀ i, |v i - z i| ≤ r := fun v hv i => (abs_le_len (fun i => v i - z i) i).trans (hnear v hv)
    have hun : Unwraps cs ps (ps.map u) := by
      refine ⟨?_, fun v hv w hw i => ?_⟩
      · rw [List.forall₂_map_right_iff, List.forall₂_same]
        exact fun p _ => hu1 p
      · have h1 := abs_le.1 (hcoord v hv i)
        have h2 := abs_le.1 (hcoord w hw i)
        have := hr i
        rw [abs_lt]
        constructor <;> linarith
    obtain ⟨a', ha', hc, -⟩ := C06_average_is_mean cs hb hp ps (ps.map u) hne hun
    rw [ha] at ha'
    cases ha'
    have hm := mean_near (by simpa using hne) z hnear
    rw [(C04_distance_shift_invariant cs hb hp _ z a z hc ⟨fun _ => 0, by funext i; simp [shift]⟩).1]
    refine le_trans ?_ hm
    rw [(C03_distance_metric cs hb _ z z).2.1]
    have := (C04_distance_is_min_over_images cs hb hp z (fun i => ((ps.map u).map fun u => u i).sum / (ps.map u).length)).2 fun _ => 0
    refine this.trans (le_of_eq ?_)
    unfold eucl
    congr 1
    exact Finset.sum_congr rfl fun i _ => by simp [shift]; ring

/-- A cluster of positions that are close to each other has dimension zero. -/
theorem dimension_tiny (hd : 1 ≤ d) {g : NxGraph (Vec d) ℝ} (hg : GoodGraph g) (hne : g.nodes ≠ []) {cs : CoordSys d} (hb : ProperBox cs) {fs : ℝ}
    (hclose : ∀ x y, g.hasEdge x y → cs.distance y x ≤ fs / 4) {r : Except Err (Option ℤ)} (h : CalculateDimension g cs fs 3 (some 5) (some 10) r) : r = .ok (some 0) := by
  have hmaj := C55_majority hg hne (by norm_num) (by norm_num) h
  have hz : ∀ p (x : ℤ), GetDimension g cs fs 3 (some 10) p (.ok x) → x = 0 := fun p x hx => (C69_point_or_more hb (by norm_num) hd hx).1 fun n hn => hclose p n hn
  cases r with
  | error e =>
    have := (hmaj.2.2 e rfl).2.1
    norm_num at this
  | ok o =>
    cases o with
    | some x =>
      obtain ⟨ev, dims, -, -, hF, -, -, -, hx, -⟩ := hmaj.1 x rfl
      obtain ⟨p, -, hp⟩ := forall₂_mem_right hF hx
      rw [hz p x hp]
    | none =>
      obtain ⟨ev, dims, hperm, hF, hlt⟩ := hmaj.2.1 rfl
      have hall : ∀ x ∈ dims, x = 0 := by
        intro x hx
        obtain ⟨p, -, hp⟩ := forall₂_mem_right hF hx
        exact hz p x hp
      have := hlt 0
      rw [List.count_eq_length.2 fun b hb => (hall b hb).symm] at this
      omega

/-- **C78**, for given positions: if all positions are within `r` of points that are far from each other, then the identification gives points only, one for each of those that have been found, and not
farther than `r` from it.  It never raises, whatever `evaluate_line_method` is. -/
theorem C78_points (hd : 1 ≤ d) {cs : CoordSys d} (hb : ProperBox cs) {fs r : ℝ} (hfs : 0 < fs) {Z : Set (Vec d)} (hZ : Isolated cs fs r Z) {positions : List (Vec d)}
    (hnear : ∀ x ∈ positions, ∃ z ∈ Z, cs.distance x z ≤ r) {method : String} {res : Except Err (IdContainer d)} (h : RunFromPositions positions cs fs method res) :
    ∃ out, res = .ok out ∧ OnlyPointsNear cs r Z positions out := by
  have hmet := C03_distance_metric cs hb
  -- positions near the same point are close, positions near different points are far apart
  have hsame : ∀ z ∈ Z, ∀ z' ∈ Z, ∀ x y, cs.distance x z ≤ r → cs.distance y z' ≤ r → cs.distance x y ≤ fs → z = z' := by
    intro z hz z' hz' x y hx hy hxy
    by_contra hne
    have h1 := hZ.apart z hz z' hz' hne
    have h2 := (hmet z x z').2.2.1
    have h3 := (hmet x y z').2.2.1
    rw [(hmet z x x).2.1] at h2
    linarith
  have hclose : ∀ z x y, cs.distance x z ≤ r → cs.distance y z ≤ r → cs.distance x y ≤ fs / 4 := by
    intro z x y hx hy
    have h1 := (hmet x z y).2.2.1
    rw [(hmet z y y).2.1] at h1
    have := hZ.precise
    linarith
  have hchain : ∀ z ∈ Z, ∀ x y, cs.distance x z ≤ r → Chain cs fs positions x y → cs.distance y z ≤ r := by
    intro z hz x y hx hch
    induction hch with
    | refl => exact hx
    | tail _ hbc ih =>
      obtain ⟨z', hz', h1⟩ := hnear _ hbc.2.1
      rw [hsame z hz z' hz' _ _ ih h1 hbc.2.2]
      exact h1
  -- clusters
  have hcl : ∀ {pu}, IsUniqueList positions pu → ∀ g ∈ createClusters cs fs pu, GoodGraph g ∧ g.nodes ≠ [] ∧
      ∃ z ∈ Z, ∀ x, x ∈ g.nodes ↔ x ∈ positions ∧ cs.distance x z ≤ r := by
    intro pu hu g hg
    have hP := (C51_clusters_partition cs fs hu).2 g hg
    refine ⟨(C54_cluster_graph hb fs hu hg).1, hP.1, ?_⟩
    obtain ⟨x0, hx0⟩ := List.exists_mem_of_ne_nil _ hP.1
    obtain ⟨z, hz, hxz⟩ := hnear x0 (hP.2.2 x0 hx0)
    refine ⟨z, hz, fun x => ⟨fun hx => ⟨hP.2.2 x hx, ?_⟩, fun ⟨hx, hxr⟩ => ?_⟩⟩
    · exact hchain z hz x0 x hxz ((C52_clusters_are_chains hb fs hu x0 x).1 ⟨g, hg, hx0, hx⟩).2.2
    · have hlt : cs.distance x0 x ≤ fs := (hclose z x0 x hxz hxr).trans (by linarith)
      obtain ⟨c, hc, h1, h2⟩ := (C52_clusters_are_chains hb fs hu x0 x).2 ⟨hP.2.2 x0 hx0, hx, .single ⟨hP.2.2 x0 hx0, hx, hlt⟩⟩
      obtain ⟨i, hi, huniq⟩ := (C51_clusters_partition cs fs hu).1 x0 (hP.2.2 x0 hx0)
      obtain ⟨a, ha⟩ := List.get_of_mem hg
      obtain ⟨b, hb'⟩ := List.get_of_mem hc
      have e1 := huniq a (by simp only [ha]; exact hx0)
      have e2 := huniq b (by simp only [hb']; exact h1)
      rw [← ha, e1, ← e2, hb']
      exact h2
  have hdimz : ∀ {pu}, IsUniqueList positions pu → ∀ g ∈ createClusters cs fs pu, ∀ o, CalculateDimension g cs fs 3 (some 5) (some 10) o → o = .ok (some 0) := by
    intro pu hu g hg o ho
    obtain ⟨h1, h2, z, hz, h3⟩ := hcl hu g hg
    refine dimension_tiny hd h1 h2 hb (fun x y hxy => ?_) ho
    obtain ⟨hx, hy, -⟩ := ((C54_cluster_graph hb fs hu hg).2.2.1 x y).1 hxy
    exact hclose z y x ((h3 y).1 hy).2 ((h3 x).1 hx).2
  have hnoerr : ∀ {pu}, IsUniqueList positions pu → ∀ g ∈ createClusters cs fs pu, ∀ e, ¬ IdentifyCluster cs fs method g (.error e) := by
    intro pu hu g hg e he
    obtain ⟨h1, h2, z, hz, h3⟩ := hcl hu g hg
    generalize hr : (Except.error e : Except Err (IdResult d)) = o at he
    cases he with
    | dimError hc => cases hdimz hu g hg _ hc
    | @shapeError dim e' hc hs =>
      have := hdimz hu g hg _ hc
      cases this
      obtain ⟨p, hp⟩ := average_ok cs h2
      generalize ho : (Except.error e' : Except Err (Option (Shape d))) = o at hs
      generalize hdm : some (0 : ℤ) = dm at hs
      cases hs with
      | point => cases ho
      | pointError hav => rw [hp] at hav; cases hav
      | line => cases ho
      | lineWarning => cases ho
      | lineError => cases hdm
      | other => cases ho
    | ok => cases hr
  obtain ⟨out, rfl⟩ : ∃ out, res = .ok out := by
    cases h with
    | ok => exact ⟨_, rfl⟩
    | error hu hall hc =>
      obtain ⟨g, hg, hge⟩ := forall₂_mem_right hall (collect_error hc)
      exact absurd hge (hnoerr hu g hg _)
  refine ⟨out, rfl, ?_⟩
  have hI := C65_results hb hfs h
  obtain ⟨-, -, pu, hu, hall⟩ := runFromPositions_ok h
  have heach : ∀ x ∈ out.results, ∃ z ∈ Z, x.dimension = some 0 ∧ (∃ q, x.shape = some (.point q) ∧ cs.distance q z ≤ r) ∧
      ∀ p, p ∈ x.positions ↔ p ∈ positions ∧ cs.distance p z ≤ r := by
    intro x hx
    obtain ⟨g, hg, hgx⟩ := forall₂_mem_right hall hx
    obtain ⟨e1, e2, -⟩ := identifyCluster_positions hgx
    obtain ⟨h1, h2, z, hz, h3⟩ := hcl hu g hg
    have hdim : x.dimension = some 0 := Except.ok.inj (hdimz hu g hg _ e2)
    obtain ⟨q, hq, hav⟩ := hI.point x hx hdim
    refine ⟨z, hz, hdim, ⟨q, hq, ?_⟩, fun p => by rw [e1]; exact h3 p⟩
    refine average_near hb (fun i => ?_) (hI.given x hx).1 (fun p hp => ?_) hav
    · have := hZ.precise
      have := hZ.fits i
      linarith
    · rw [e1] at hp
      exact ((h3 p).1 hp).2
  refine ⟨heach, fun z hz p hp hpz => ?_⟩
  obtain ⟨i, hi, huniq⟩ := hI.once p hp
  have hmatch : ∀ j, (∃ q, (out.results.get j).shape = some (.point q) ∧ cs.distance q z ≤ r) → p ∈ (out.results.get j).positions := by
    rintro j ⟨q, hq, hqz⟩
    obtain ⟨z', hz', -, ⟨q', hq', hqz'⟩, hpos⟩ := heach _ (List.get_mem _ j)
    rw [hq] at hq'
    cases hq'
    have : z = z' := hsame z hz z' hz' q q hqz hqz' (by
      rw [((hmet q q q).2.2.2).2 (by unfold SamePoint; split; exacts [⟨0, by funext i; simp [shift]⟩, rfl])]
      exact hfs.le)
    subst this
    exact (hpos p).2 ⟨hp, hpz⟩
  refine ⟨i, ?_, fun j hj => huniq j (hmatch j hj)⟩
  obtain ⟨z', hz', -, ⟨q, hq, hqz⟩, hpos⟩ := heach _ (List.get_mem _ i)
  have hpz' := ((hpos p).1 hi).2
  have : z = z' := hsame z hz z' hz' p p hpz hpz' (by
      rw [((hmet p p p).2.2.2).2 (by unfold SamePoint; split; exacts [⟨0, by funext i; simp [shift]⟩, rfl])]
      exact hfs.le)
  subst this
  exact ⟨q, hq, hqz⟩

/-- **C78**, search and identification together: if the gap function is at most the threshold only within `r` of points that are far from each other (compared with `feature_size`), then the
identification of the result of a search, at any moment, consists of points within `r` of these. -/
theorem C78_search (hdim : 1 ≤ d) {p : CtlParams d} (hd : DistinctInput p) (hb : ProperBox p.coord) (hfs : 0 < p.featureSize) {P : NMParams} (hft : P.ftol ≠ FVal.inf) (hc : P.fprimeCutoff = none)
    {G : Vec d → FVal → Prop} {r : ℝ} {Z : Set (Vec d)} (hZ : Isolated p.coord p.featureSize r Z)
    (hG : ∀ x v, G x (FVal.ofReal v) → v ≤ p.gapThreshold → ∃ z ∈ Z, p.coord.distance x z ≤ r)
    {c : Ctl d} (hw : ReachWith p (MinimizationOf P G) c) {method : String} {res : Except Err (IdContainer d)} (hr : IdentifyRun (.container c.state.result) method none res) :
    ∃ out, res = .ok out ∧ OnlyPointsNear p.coord r Z (c.state.result.nodes.values.map fun n => n.pos) out := by
  refine C78_points hdim hb hfs hZ (fun x hx => ?_) ((C65_default_feature_size hd (reachWith_reach hw).any).1 hr)
  obtain ⟨n, hn, rfl⟩ := List.mem_map.1 hx
  obtain ⟨v, -, h1, y, h2, h3⟩ := C45_nodes_below_threshold hdim hb hft hc hw hn
  obtain ⟨z, hz, hyz⟩ := hG y v h3 h1
  refine ⟨z, hz, ?_⟩
  have hmet := C03_distance_metric p.coord hb
  have e1 := ((hmet y n.pos n.pos).2.2.2).2 h2
  have e2 := (hmet n.pos y z).2.2.1
  rw [(hmet n.pos y y).2.1, e1] at e2
  linarith

/-- **C78**, for cones: if the gap function grows at least linearly, with slope `k`, around the points of `Z`, then the points that are identified are within `gap_threshold / k` of them. -/
theorem C78_cones (hdim : 1 ≤ d) {p : CtlParams d} (hd : DistinctInput p) (hb : ProperBox p.coord) (hfs : 0 < p.featureSize) {P : NMParams} (hft : P.ftol ≠ FVal.inf) (hc : P.fprimeCutoff = none)
    {G : Vec d → FVal → Prop} {k : ℝ} (hk : 0 < k) {Z : Set (Vec d)} (hZ : Isolated p.coord p.featureSize (p.gapThreshold / k) Z)
    (hG : ∀ x v, G x (FVal.ofReal v) → ∃ z ∈ Z, k * p.coord.distance x z ≤ v)
    {c : Ctl d} (hw : ReachWith p (MinimizationOf P G) c) {method : String} {res : Except Err (IdContainer d)} (hr : IdentifyRun (.container c.state.result) method none res) :
    ∃ out, res = .ok out ∧ OnlyPointsNear p.coord (p.gapThreshold / k) Z (c.state.result.nodes.values.map fun n => n.pos) out := by
  refine C78_search hdim hd hb hfs hft hc hZ (fun x v hx hv => ?_) hw hr
  obtain ⟨z, hz, h⟩ := hG x v hx
  exact ⟨z, hz, by rw [le_div_iff₀ hk]; linarith⟩

/-! ### Examples -/

/-- Two points of the interval `[0, 10]`, with positions around the first one: the identification gives one point for each. -/
example : Isolated exBox 2 (1 / 4) {(![1] : Vec 1), ![9]} ∧ (∀ x ∈ [(![1.125] : Vec 1), ![0.875], ![9]], ∃ z ∈ ({![1], ![9]} : Set (Vec 1)), exBox.distance x z ≤ 1 / 4) ∧
    ∃ out, RunFromPositions [(![1.125] : Vec 1), ![0.875], ![9]] exBox 2 "ballistic" (.ok out) ∧ OnlyPointsNear exBox (1 / 4) {![1], ![9]} [![1.125], ![0.875], ![9]] out := by
  have h1 : Isolated exBox 2 (1 / 4) {(![1] : Vec 1), ![9]} := by
    refine ⟨?_, by norm_num, fun i => by simp [exBox]; norm_num⟩
    rintro z (rfl | rfl) z' (rfl | rfl) hne
    · exact absurd rfl hne
    · rw [ex_dist]; norm_num
    · rw [ex_dist]; norm_num
    · exact absurd rfl hne
  have h2 : ∀ x ∈ [(![1.125] : Vec 1), ![0.875], ![9]], ∃ z ∈ ({![1], ![9]} : Set (Vec 1)), exBox.distance x z ≤ 1 / 4 := by
    intro x hx
    simp only [List.mem_cons, List.not_mem_nil, or_false] at hx
    rcases hx with rfl | rfl | rfl
    · exact ⟨_, .inl rfl, by rw [ex_dist]; norm_num [abs_le]⟩
    · exact ⟨_, .inl rfl, by rw [ex_dist]; norm_num [abs_le]⟩
    · exact ⟨_, .inr rfl, by rw [ex_dist]; norm_num⟩
  obtain ⟨⟨r, hr⟩, -⟩ := C65_never_raises exBox_proper (fs := 2) (by norm_num) [(![1.125] : Vec 1), ![0.875], ![9]] (.inl rfl)
  obtain ⟨out, rfl, h3⟩ := C78_points le_rfl exBox_proper (by norm_num) h1 h2 hr
  exact ⟨h1, h2, out, hr, h3⟩

namespace C78Demo
open Demo C45Demo

/-- a cone of slope 40 around 0 -/
def cone : ℕ → Vec 1 → FVal := fun _ x => FVal.ofReal (40 * |x 0|)

/-- the same as a relation -/
def G (x : Vec 1) (v : FVal) : Prop := v = FVal.ofReal (40 * |x 0|)

/-- tolerances with which the initial simplex is converged -/
def P : NMParams := ⟨1, FVal.ofReal 10, none, none, none, true⟩

/-- the result of the minimization -/
def res : MinRes 1 := rootNelderMead P (fun v => Tuple.sort v) cone C45Demo.sim

theorem absDiff_ofReal (a b : ℝ) : FVal.absDiff (FVal.ofReal a) (FVal.ofReal b) = FVal.ofReal |a - b| := by
  simp only [FVal.ofReal, FVal.absDiff]
  rw [if_neg (by simp), if_neg (by
    rintro (h | h | h | h)
    exacts [EReal.coe_ne_top _ h, EReal.coe_ne_bot _ h, EReal.coe_ne_top _ h, EReal.coe_ne_bot _ h])]
  simp

theorem res_ok : res.success = true ∧ ¬ FVal.gt res.value (FVal.ofReal 1) := by
  set σ := Tuple.sort fun i => cone i (C45Demo.sim i) with hσ
  have hf : (nmInit P (fun v => Tuple.sort v) cone C45Demo.sim).fsim = fun i => FVal.ofReal (40 * |C45Demo.sim (σ i) 0|) := rfl
  have hsim : (nmInit P (fun v => Tuple.sort v) cone C45Demo.sim).sim = fun i => C45Demo.sim (σ i) := rfl
  have hv : ∀ i, 0 ≤ 40 * |C45Demo.sim i 0| ∧ 40 * |C45Demo.sim i 0| ≤ 10 := by
    intro i
    rcases sim_mem i with h | h <;> rw [h] <;> norm_num [Demo.pt]
  have hstop : ¬ nmContinue P (nmInit P (fun v => Tuple.sort v) cone C45Demo.sim) := by
    intro hc
    apply hc.2.2.2
    refine ⟨fun i k => ?_, fun i => ?_⟩
    · rw [hsim]
      change |C45Demo.sim (σ _) k - C45Demo.sim (σ _) k| ≤ 1
      rcases sim_mem (σ i.succ) with h | h <;> rcases sim_mem (σ 0) with h' | h' <;> rw [h, h'] <;> norm_num [Demo.pt]
    · rw [hf]
      beta_reduce
      rw [absDiff_ofReal]
      refine ⟨NMDemo.ofReal_ne_nan _, NMDemo.ofReal_ne_nan _, not_lt.1 fun h => ?_⟩
      have := NMDemo.ofReal_lt.1 h
      rw [lt_abs] at this
      have h1 := hv (σ i.succ)
      have h2 := hv (σ 0)
      rcases this with h | h <;> linarith
  have hrun : nmRun P (fun v => Tuple.sort v) cone C45Demo.sim = nmInit P (fun v => Tuple.sort v) cone C45Demo.sim := by
    unfold nmRun
    rw [nmLoop, if_neg hstop]
  have hst : nmStatus P (nmInit P (fun v => Tuple.sort v) cone C45Demo.sim) = 0 := by
    unfold nmStatus
    have h1 : (nmInit P (fun v => Tuple.sort v) cone C45Demo.sim).tr.ncalls = 2 := by simp [nmInit, nmSort, ncalls_calls]
    have h2 : (nmInit P (fun v => Tuple.sort v) cone C45Demo.sim).iterations = 1 := rfl
    rw [h1, h2]
    simp [P, NMParams.fevLimit, NMParams.iterLimit, fprimeExceeded]
  unfold res rootNelderMead
  rw [hrun]
  refine ⟨by simp [nmResult, hst], ?_⟩
  have hmono : Monotone fun i : Fin 2 => cone (σ i) (C45Demo.sim (σ i)) := Tuple.monotone_sort fun i : Fin 2 => cone i (C45Demo.sim i)
  change ¬ FVal.gt (npMin (nmInit P (fun v => Tuple.sort v) cone C45Demo.sim).fsim) _
  rw [npMin_eq (by rw [hf]; exact hmono), hf]
  simp only [NMDemo.ofReal_ne_nan, if_false]
  intro h
  have h0 := NMDemo.flt.1 h
  obtain ⟨j, hj⟩ : ∃ j, C45Demo.sim j = Demo.pt 0 := by
    have hm : Demo.pt 0 ∈ Demo.s := (List.mergeSort_perm _ _).mem_iff.2 (by simp)
    obtain ⟨n, hn⟩ := List.get_of_mem hm
    exact ⟨Fin.cast s_len n, hn⟩
  have h3 := hmono (Fin.zero_le (σ.symm j))
  simp only [cone, Equiv.apply_symm_apply, hj] at h3
  have h4 : 40 * |C45Demo.sim (σ 0) 0| ≤ 40 * |Demo.pt 0 0| := not_lt.1 fun h => not_lt.2 h3 (NMDemo.ofReal_lt.2 h)
  simp only [Demo.pt, abs_zero, mul_zero] at h4
  linarith

theorem reach : ReachWith params (MinimizationOf P G) (taskDone params c1 s (.plain res)) := by
  have h1 : ReachWith params (MinimizationOf P G) c1 :=
    .tail .start (.step (.tickFill c0 c1 rfl rfl (Or.inl (fun h => by have := h.2; rw [q0] at this; cases this)) fill0))
      (by intro s r h; simp [c1] at h)
  refine .tail h1 (.step (.done c1 s _ (by simp [c1, c0, startFresh, startFrom]) (by simp [c1]) (by intro _ _ _ h; cases h))) ?_
  intro s' r' h
  have : s' = s ∧ r' = .plain res := by
    rw [taskDone_of_mem _ run1] at h
    simpa [c1] using h
  obtain ⟨rfl, rfl⟩ := this
  exact ⟨cone, none, C45Demo.sim, fun _ _ => rfl, s_eq, fun v => Tuple.sort v, fun v => Tuple.monotone_sort v, rfl⟩

/-- The hypotheses of the theorems are met by a search that has found a node; the identification gives points only. -/
example : ∃ c : Ctl 1, ReachWith params (MinimizationOf P G) c ∧ c.state.result.nodes.values ≠ [] ∧ Isolated params.coord params.featureSize (params.gapThreshold / 40) {Demo.pt 0} ∧
    (∀ x v, G x (FVal.ofReal v) → ∃ z ∈ ({Demo.pt 0} : Set (Vec 1)), 40 * params.coord.distance x z ≤ v) ∧
    ∃ out, IdentifyRun (.container c.state.result) "ballistic" none (.ok out) ∧ OnlyPointsNear params.coord (1 / 40) {Demo.pt 0} (c.state.result.nodes.values.map fun n => n.pos) out := by
  have hn : (taskDone params c1 s (.plain res)).state.result.nodes.values ≠ [] := by
    have hres : (taskDone params c1 s (.plain res)).state.result = (c1.state.result.addResult (.plain res)).1 := by
      unfold taskDone
      simp only
      split <;> exact (processResult_cases params c1.state _).1
    rw [hres, Container.addResult_def, if_pos (by exact res_ok)]
    simp [CellList.values, CellList.addPoint]
  have hI : Isolated params.coord params.featureSize (params.gapThreshold / 40) {Demo.pt 0} := by
    refine ⟨?_, by norm_num [params], fun i => by norm_num [params, Demo.pt]⟩
    rintro z rfl z' rfl h
    exact absurd rfl h
  have hG : ∀ x v, G x (FVal.ofReal v) → ∃ z ∈ ({Demo.pt 0} : Set (Vec 1)), 40 * params.coord.distance x z ≤ v := by
    intro x v h
    refine ⟨_, rfl, ?_⟩
    have hv : v = 40 * |x 0| := by
      have h : FVal.ofReal v = FVal.ofReal (40 * |x 0|) := h
      unfold FVal.ofReal at h
      exact_mod_cast h
    rw [hv, distance_eucl rfl]
    refine mul_le_mul_of_nonneg_left (le_of_eq ?_) (by norm_num)
    simp [eucl, Demo.pt, Real.sqrt_sq_eq_abs]
  obtain ⟨⟨r, hr⟩, -⟩ := C65_never_raises (cs := params.coord) geometry.1 (fs := params.featureSize) (by norm_num [params])
    ((taskDone params c1 s (.plain res)).state.result.nodes.values.map fun n => n.pos) (.inl rfl)
  have hr' := (C65_default_feature_size distinct (reachWith_reach reach).any).2 hr
  obtain ⟨out, rfl, h⟩ := C78_cones le_rfl distinct geometry.1 (by norm_num [params]) (by simp [P, FVal.ofReal, FVal.inf]) rfl (by norm_num : (0 : ℝ) < 40) hI hG reach hr'
  exact ⟨_, reach, hn, hI, hG, out, hr', by simpa [params] using h⟩

end C78Demo

end NF
