import Verif.Lemmas.FloatErr
import Verif.Lemmas.GraphMap

/-! # C97: rounding errors of distances, of connecting vectors and of clusters -/

noncomputable section
open Classical
namespace NF
open Spec CoordSys
variable {d : ℕ} {rnd : ℝ → ℝ}

/-- C97 (distances, periodic box).  The distance computed in floating-point arithmetic, in whatever order the squares are summed, differs from the exact distance by at most `2 (d + 10) 2⁻⁵³` times the diagonal of the box. -/
theorem C97_distance_periodic (hr : IsNearest rnd) {cs : CoordSys d} (hb : ProperBox cs) (hper : cs.periodic = true) (hd : ((d : ℝ) + 1) / 2 ^ 53 ≤ 1 / 2) {p q : Vec d}
    (hpq : ∀ i, |q i - p i| ≤ 5 * (cs.upper i - cs.lower i)) {v : ℝ} (h : FL.Distance rnd cs p q v) :
    |v - cs.distance p q| ≤ 2 * (d + 10) / 2 ^ 53 * len (fun i => cs.upper i - cs.lower i) := by
  have := fl_distance_err hr hb hper (by unfold ulp; linarith) hpq h
  refine this.trans (le_of_eq ?_)
  unfold ulp
  rw [show (fun i => cs.upper i - cs.lower i) = cs.size from rfl]
  ring

/-- C97 (distances, no periodic box).  Without periodic boundary conditions the relative error is at most `2 (d + 2) 2⁻⁵³`. -/
theorem C97_distance_open (hr : IsNearest rnd) {cs : CoordSys d} (hper : cs.periodic = false) (hd : ((d : ℝ) + 1) / 2 ^ 53 ≤ 1 / 2) {p q : Vec d} {v : ℝ} (h : FL.Distance rnd cs p q v) :
    |v - len (fun i => p i - q i)| ≤ 2 * (d + 2) / 2 ^ 53 * len (fun i => p i - q i) := by
  have := fl_distance_err_open hr hper (by unfold ulp; linarith) h
  rw [distance_eucl hper] at this
  refine this.trans (le_of_eq ?_)
  unfold ulp
  show _ * len (fun i => p i - q i) = _
  ring

theorem rndSum_exists (rnd : ℝ → ℝ) (l : List ℝ) : ∃ s, FL.RndSum rnd l s := by
  induction l with
  | nil => exact ⟨0, .nil⟩
  | cons x l ih =>
    rcases l with _ | ⟨y, l⟩
    · exact ⟨x, .one x⟩
    · obtain ⟨s, hs⟩ := ih
      exact ⟨_, FL.RndSum.add (l := [x]) (by simp) (by simp) (.one x) hs⟩

theorem distance_exists (rnd : ℝ → ℝ) (cs : CoordSys d) (p q : Vec d) : ∃ v, FL.Distance rnd cs p q v := by
  obtain ⟨s, hs⟩ := rndSum_exists rnd (List.ofFn fun i => rnd (FL.distDelta rnd cs p q i ^ 2))
  exact ⟨_, s, hs, rfl⟩

/-! ## Without rounding -/

theorem rndSum_id {l : List ℝ} {s : ℝ} (h : FL.RndSum id l s) : s = l.sum := by
  induction h with
  | nil => rfl
  | one x => simp
  | add _ _ _ _ ih ih' => simp [ih, ih']
  | perm _ hp ih => rw [ih, hp.sum_eq]

/-- C97 (without rounding).  If nothing is rounded, the operations of the floating-point model are the exact ones of the rest of the model. -/
theorem C97_exact_arithmetic {cs : CoordSys d} (hb : ProperBox cs) (fs : ℝ) (pu : List (Vec d)) (p q : Vec d) (v : ℝ) :
    (FL.Distance id cs p q v ↔ v = cs.distance p q) ∧ FL.connectingVector id cs p q = cs.connectingVector p q ∧ FL.createClusters cs.distance fs pu = createClusters cs fs pu := by
  have hdd : FL.distDelta id cs p q = cs.distDelta p q := by
    funext i
    unfold FL.distDelta CoordSys.distDelta FL.size CoordSys.size
    simp only [id]
    rw [npMod_id _ (sub_pos.2 (hb i))]
  refine ⟨?_, ?_, ?_⟩
  · unfold FL.Distance
    rw [hdd]
    have e : (List.ofFn fun i => id (cs.distDelta p q i ^ 2)).sum = ∑ i, cs.distDelta p q i ^ 2 := by
      rw [List.sum_ofFn]; rfl
    constructor
    · rintro ⟨s, hs, rfl⟩
      rw [rndSum_id hs, e]
      rfl
    · rintro rfl
      obtain ⟨s, hs⟩ := rndSum_exists id (List.ofFn fun i => id (cs.distDelta p q i ^ 2))
      refine ⟨s, hs, ?_⟩
      rw [rndSum_id hs, e]
      rfl
  · funext i
    unfold FL.connectingVector CoordSys.connectingVector FL.size CoordSys.size
    simp only [id]
    rw [npMod_id _ (sub_pos.2 (hb i))]
  · have : ∀ l : List (Vec d), FL.clusterEdges cs.distance fs l = clusterEdges cs fs l := fun l => by
      induction l with
      | nil => rfl
      | cons a l ih => rw [FL.clusterEdges, clusterEdges, ih]
    unfold FL.createClusters createClusters createGraph
    rw [this]

/-! ## Clusters -/

theorem clusterEdges_strip {dist dist' : Vec d → Vec d → ℝ} {fs : ℝ} {l : List (Vec d)} (hn : l.Nodup) (h : ∀ p ∈ l, ∀ q ∈ l, p ≠ q → (dist p q ≤ fs ↔ dist' p q ≤ fs)) :
    (FL.clusterEdges dist fs l).map (fun e => (e.1, e.2.1, ())) = (FL.clusterEdges dist' fs l).map (fun e => (e.1, e.2.1, ())) := by
  induction l with
  | nil => rfl
  | cons a l ih =>
    obtain ⟨ha, hn⟩ := List.nodup_cons.1 hn
    rw [FL.clusterEdges, FL.clusterEdges, List.map_append, List.map_append, ih hn fun p hp q hq => h p (by simp [hp]) q (by simp [hq])]
    congr 1
    rw [List.map_map, List.map_map]
    have : (l.filter fun nbr => decide (dist a nbr ≤ fs)) = l.filter fun nbr => decide (dist' a nbr ≤ fs) := by
      refine List.filter_congr fun x hx => ?_
      rw [decide_eq_decide]
      exact h a (by simp) x (by simp [hx]) fun e => ha (e ▸ hx)
    rw [this]
    rfl

theorem hasEdge_of_map_eq {V A B : Type} {g : NxGraph V A} {g' : NxGraph V B} (h : g.map id (fun _ => ()) = g'.map id (fun _ => ())) (x y : V) : g.hasEdge x y ↔ g'.hasEdge x y := by
  have h1 := NxGraph.hasEdge_map Function.injective_id (fun _ : A => ()) (g := g) (x := x) (y := y)
  have h2 := NxGraph.hasEdge_map Function.injective_id (fun _ : B => ()) (g := g') (x := x) (y := y)
  rw [h] at h1
  exact h1.symm.trans h2

/-- Clusters depend on the comparisons of the distances with the feature size only. -/
theorem createClusters_congr {dist dist' : Vec d → Vec d → ℝ} {fs : ℝ} {l : List (Vec d)} (hn : l.Nodup) (h : ∀ p ∈ l, ∀ q ∈ l, p ≠ q → (dist p q ≤ fs ↔ dist' p q ≤ fs)) :
    List.Forall₂ (fun g g' => g.nodes = g'.nodes ∧ ∀ x y, g.hasEdge x y ↔ g'.hasEdge x y) (FL.createClusters dist fs l) (FL.createClusters dist' fs l) := by
  set g : NxGraph (Vec d) ℝ := ⟨l, FL.clusterEdges dist fs l⟩ with hg
  set g' : NxGraph (Vec d) ℝ := ⟨l, FL.clusterEdges dist' fs l⟩ with hg'
  have e : g.map id (fun _ => ()) = g'.map id (fun _ => ()) := by
    unfold NxGraph.map
    simp only [NxGraph.mk.injEq, hg, hg', true_and]
    exact clusterEdges_strip hn h
  have hc : g.connectedComponents = g'.connectedComponents := by
    have h1 := NxGraph.connectedComponents_map Function.injective_id (fun _ : ℝ => ()) g
    have h2 := NxGraph.connectedComponents_map Function.injective_id (fun _ : ℝ => ()) g'
    rw [e, h2] at h1
    simpa using h1.symm
  have : FL.createClusters dist fs l = g.connectedComponents.map fun nodes => g.subgraph fun x => x ∈ nodes := rfl
  rw [this]
  have : FL.createClusters dist' fs l = g'.connectedComponents.map fun nodes => g'.subgraph fun x => x ∈ nodes := rfl
  rw [this, hc, List.forall₂_map_left_iff, List.forall₂_map_right_iff, List.forall₂_same]
  intro nodes _
  have hs : (g.subgraph fun x => x ∈ nodes).map id (fun _ => ()) = (g'.subgraph fun x => x ∈ nodes).map id (fun _ => ()) := by
    rw [← NxGraph.subgraph_map (f := id) (fun _ : ℝ => ()) g (s := fun x => x ∈ nodes) (s' := fun x => x ∈ nodes) fun _ => Iff.rfl, e,
      NxGraph.subgraph_map (f := id) (fun _ : ℝ => ()) g' (s := fun x => x ∈ nodes) (s' := fun x => x ∈ nodes) fun _ => Iff.rfl]
  exact ⟨rfl, hasEdge_of_map_eq hs⟩

/-- C97 (clusters).  If no two of the positions have a distance within the rounding error of `feature_size`, the clusters computed in floating-point arithmetic are those of exact arithmetic: as many, in the same order, with the same
positions and the same edges. -/
theorem C97_same_clusters (hr : IsNearest rnd) {cs : CoordSys d} (hb : ProperBox cs) (hd : ((d : ℝ) + 1) / 2 ^ 53 ≤ 1 / 2) {positions pu : List (Vec d)} (hu : IsUniqueList positions pu)
    (hin : ∀ p ∈ positions, ∀ i, cs.lower i ≤ p i ∧ p i ≤ cs.upper i) {dist : Vec d → Vec d → ℝ} (hdist : ∀ p ∈ positions, ∀ q ∈ positions, FL.Distance rnd cs p q (dist p q)) {fs : ℝ}
    (hsep : ∀ p ∈ positions, ∀ q ∈ positions, p ≠ q → 2 * (d + 10) / 2 ^ 53 * len (fun i => cs.upper i - cs.lower i) < |cs.distance p q - fs|) :
    List.Forall₂ (fun g g' => g.nodes = g'.nodes ∧ ∀ x y, g.hasEdge x y ↔ g'.hasEdge x y) (FL.createClusters dist fs pu) (createClusters cs fs pu) := by
  rw [← (C97_exact_arithmetic hb fs pu 0 0 0).2.2]
  refine createClusters_congr hu.1 fun p hp q hq hne => ?_
  have hp' := (hu.2 p).1 hp
  have hq' := (hu.2 q).1 hq
  have hs := hsep p hp' q hq' hne
  have he : |dist p q - cs.distance p q| ≤ 2 * (d + 10) / 2 ^ 53 * len (fun i => cs.upper i - cs.lower i) := by
    cases hper : cs.periodic
    · have h1 := C97_distance_open hr hper hd (hdist p hp' q hq')
      rw [distance_eucl hper]
      refine h1.trans ?_
      have h2 : len (fun i => p i - q i) ≤ len (fun i => cs.upper i - cs.lower i) := len_mono fun i => by
        rw [abs_of_pos (sub_pos.2 (hb i))]
        have a := hin p hp' i
        have b := hin q hq' i
        exact abs_le.2 ⟨by linarith, by linarith⟩
      refine mul_le_mul ?_ h2 (len_nonneg _) (by positivity)
      gcongr
      norm_num
    · refine C97_distance_periodic hr hb hper hd (fun i => ?_) (hdist p hp' q hq')
      have a := hin p hp' i
      have b := hin q hq' i
      have c := hb i
      exact abs_le.2 ⟨by linarith, by linarith⟩
  have he' := abs_le.1 he
  rcases lt_abs.1 hs with h | h
  · exact ⟨fun h' => by linarith, fun h' => by linarith⟩
  · exact ⟨fun h' => by linarith, fun h' => by linarith⟩

/-! ## The assertion in `connecting_vector` -/

theorem fl_connecting (hr : IsNearest rnd) {cs : CoordSys d} (hb : ProperBox cs) (hper : cs.periodic = true) (p q : Vec d) (i : Fin d) (hpq : |q i - p i| ≤ 5 * cs.size i) :
    (∃ k : ℤ, |FL.connectingVector rnd cs p q i - (q i - p i + k * cs.size i)| ≤ 15 * (ulp * cs.size i)) ∧ |FL.connectingVector rnd cs p q i| ≤ 0.51 * cs.size i ∧
    |FL.connectingVector rnd cs p q i| ≤ |cs.connectingVector p q i| + 16 * (ulp * cs.size i) := by
  have hS := size_pos hb i
  have hs := fl_size_pos hr hb i
  have hse := abs_le.1 (fl_size_err hr hb i)
  obtain ⟨k, -, hk, h0, h1⟩ := fl_delta hr hb p q i hpq
  have hu := ulp_pos
  have hu1 := ulp_small
  rw [abs_connectingVector hb, distDelta_periodic hper, abs_of_nonneg (wrap_nonneg hS _)]
  obtain ⟨k', hk'e⟩ := wrap_attained hS (q i - p i)
  change wrap (q i - p i) (cs.size i) = _ at hk'e
  unfold FL.connectingVector
  simp only [hper, if_true]
  set s := FL.size rnd cs i with hsd
  set S := cs.size i with hSd
  set m := FL.npMod rnd (rnd (q i - p i)) s with hm
  set x := q i - p i with hx
  have hus : ulp * s ≤ 1.01 * (ulp * S) := by nlinarith [mul_pos hu hS]
  have huS := mul_pos hu hS
  have h2 := rel_err' hr (m - s)
  rw [abs_of_nonpos (by linarith : m - s ≤ 0)] at h2
  have h2' := abs_le.1 (h2.trans (mul_le_mul_of_nonneg_left (by linarith : -(m - s) ≤ s) hu.le))
  have hk' := abs_le.1 hk
  have husmall : ulp * S ≤ 1 / 1000000 * S := mul_le_mul_of_nonneg_right hu1 hS.le
  -- the exact one, from above
  have hup : min (s - m) m ≤ wrap x S + 14 * (ulp * S) := by
    rw [hk'e]
    have hj : x + (k' : ℝ) * S = (x + k * S) + ((k' - k : ℤ) : ℝ) * S := by push_cast; ring
    rw [hj]
    rcases le_or_gt 0 (k' - k) with h | h
    · refine (min_le_right _ _).trans (le_trans ?_ (add_le_add (le_abs_self _) le_rfl))
      have : (0 : ℝ) ≤ ((k' - k : ℤ) : ℝ) * S := mul_nonneg (by exact_mod_cast h) hS.le
      linarith
    · refine (min_le_left _ _).trans (le_trans ?_ (add_le_add (neg_le_abs _) le_rfl))
      have h1' : ((k' - k : ℤ) : ℝ) ≤ -1 := by exact_mod_cast (by omega : k' - k ≤ -1)
      have : ((k' - k : ℤ) : ℝ) * S ≤ -1 * S := mul_le_mul_of_nonneg_right h1' hS.le
      linarith
  have hmm : ∀ r, |r| ≤ min (s - m) m + 1.02 * (ulp * S) → |r| ≤ 0.51 * S ∧ |r| ≤ wrap x S + 16 * (ulp * S) := fun r hr' => by
    have := min_le_left (s - m) m
    have := min_le_right (s - m) m
    constructor <;> linarith
  split
  · rename_i hc
    refine ⟨⟨k - 1, ?_⟩, ?_⟩
    · push_cast
      exact abs_le.2 ⟨by linarith, by linarith⟩
    · refine hmm _ ?_
      have hneg : rnd (m - s) ≤ 0 := rnd_le hr isFloat_zero (by linarith)
      rw [abs_of_nonpos hneg, min_def]
      split <;> linarith
  · rename_i hc
    refine ⟨⟨k, hk.trans (by linarith)⟩, hmm _ ?_⟩
    rw [abs_of_nonneg h0, min_def]
    split <;> linarith

theorem connecting_exists (rnd : ℝ → ℝ) (cs : CoordSys d) (p q : Vec d) : ∃ r, FL.Connecting rnd cs p q r := by
  cases h : cs.periodic
  · exact ⟨_, .plain h⟩
  · obtain ⟨v, hv⟩ := distance_exists rnd cs (fun i => rnd (FL.connectingVector rnd cs p q i + p i)) q
    by_cases hl : v < rnd 1e-8
    · exact ⟨_, .passed h hv hl⟩
    · exact ⟨_, .failed h hv hl⟩

theorem fl_returns (hr : IsNearest rnd) {cs : CoordSys d} (hb : ProperBox cs) (hper : cs.periodic = true) {p q : Vec d}
    (hpq : ∀ i, |q i - p i| ≤ 2 * cs.size i) (hp : ∀ i, |p i| * ulp ≤ cs.size i) :
    (∀ i, |q i - rnd (FL.connectingVector rnd cs p q i + p i)| ≤ 5 * cs.size i) ∧
    cs.distance (fun i => rnd (FL.connectingVector rnd cs p q i + p i)) q ≤ 16 * ulp * len cs.size + ulp * len p := by
  have hu := ulp_pos
  have hu1 := ulp_small
  have key : ∀ i, ∃ k : ℤ, |q i - rnd (FL.connectingVector rnd cs p q i + p i) + k * cs.size i| ≤ 16 * ulp * cs.size i + ulp * |p i| ∧
      |q i - rnd (FL.connectingVector rnd cs p q i + p i)| ≤ 5 * cs.size i := fun i => by
    have hS := size_pos hb i
    have husmall : ulp * cs.size i ≤ 1 / 1000000 * cs.size i := mul_le_mul_of_nonneg_right hu1 hS.le
    obtain ⟨⟨k, hk⟩, hle, -⟩ := fl_connecting hr hb hper p q i ((hpq i).trans (by linarith))
    set r := FL.connectingVector rnd cs p q i
    have h1 := rel_err' hr (r + p i)
    have h2 : ulp * |r + p i| ≤ 0.51 * (ulp * cs.size i) + ulp * |p i| := by
      have := mul_le_mul_of_nonneg_left (abs_add_le r (p i)) hu.le
      have := mul_le_mul_of_nonneg_left hle hu.le
      nlinarith
    have h1' := abs_le.1 (h1.trans h2)
    have hk' := abs_le.1 hk
    have hle' := abs_le.1 hle
    have hpq' := abs_le.1 (hpq i)
    have hpi := hp i
    have huS := mul_pos hu hS
    refine ⟨k, abs_le.2 ⟨by linarith, by linarith⟩, abs_le.2 ⟨?_, ?_⟩⟩ <;> linarith
  refine ⟨fun i => (key i).choose_spec.2, ?_⟩
  have h1 : cs.distance (fun i => rnd (FL.connectingVector rnd cs p q i + p i)) q ≤ len (fun i => 16 * ulp * cs.size i + ulp * |p i|) := by
    rw [distance_eq_len]
    refine len_mono fun i => ?_
    have hS := size_pos hb i
    obtain ⟨k, hk, -⟩ := key i
    rw [distDelta_periodic hper, abs_of_nonneg (wrap_nonneg hS _), abs_of_nonneg (a := 16 * ulp * cs.size i + ulp * |p i|) (by positivity)]
    exact (wrap_le hS _ k).trans hk
  refine h1.trans ((len_add_le _ _).trans ?_)
  rw [len_smul' (by positivity) cs.size, len_smul' hu.le]
  exact le_of_eq (by rw [len_congr (v := fun i => |p i|) (w := p) fun i => abs_abs _])

/-- C97 (the assertion holds).  `connecting_vector` does not raise AssertionError if the box and the first position are moderate: `(2 d + 36)` times the diagonal of the box plus the length of the first position is at most 9·10⁷.
The result connects the first position with an image of the second one, up to `15 · 2⁻⁵³` times the size of the box, and it is not longer than the exact shortest vector, up to `16 · 2⁻⁵³` times the size of the box (both in every dimension). -/
theorem C97_connecting_vector (hr : IsNearest rnd) {cs : CoordSys d} (hb : ProperBox cs) (hper : cs.periodic = true) (hd : ((d : ℝ) + 1) / 2 ^ 53 ≤ 1 / 2) {p q : Vec d}
    (hpq : ∀ i, |q i - p i| ≤ 2 * (cs.upper i - cs.lower i)) (hp : ∀ i, |p i| / 2 ^ 53 ≤ cs.upper i - cs.lower i)
    (hM : (2 * d + 36) * len (fun i => cs.upper i - cs.lower i) + len p ≤ 9 * 10 ^ 7) {r : Except Err (Vec d)} (h : FL.Connecting rnd cs p q r) :
    ∃ w, r = .ok w ∧ (∀ i, ∃ k : ℤ, |w i - (q i - p i + k * (cs.upper i - cs.lower i))| ≤ 15 / 2 ^ 53 * (cs.upper i - cs.lower i)) ∧
      ∀ i, |w i| ≤ |cs.connectingVector p q i| + 16 / 2 ^ 53 * (cs.upper i - cs.lower i) := by
  have hu := ulp_pos
  have hu1 := ulp_small
  have hd' : ((d : ℝ) + 1) * ulp ≤ 1 / 2 := by unfold ulp; linarith
  have hw : (∀ i, ∃ k : ℤ, |FL.connectingVector rnd cs p q i - (q i - p i + k * (cs.upper i - cs.lower i))| ≤ 15 / 2 ^ 53 * (cs.upper i - cs.lower i)) ∧
      ∀ i, |FL.connectingVector rnd cs p q i| ≤ |cs.connectingVector p q i| + 16 / 2 ^ 53 * (cs.upper i - cs.lower i) := by
    refine ⟨fun i => ?_, fun i => ?_⟩
    all_goals
      have hS : 0 < cs.size i := size_pos hb i
      obtain ⟨⟨k, hk⟩, -, hle⟩ := fl_connecting hr hb hper p q i ((hpq i).trans (by show 2 * cs.size i ≤ _; linarith))
    · exact ⟨k, hk.trans (le_of_eq (by unfold ulp CoordSys.size; ring))⟩
    · exact hle.trans (le_of_eq (by unfold ulp CoordSys.size; ring))
  have hlt : ∀ v, FL.Distance rnd cs (fun i => rnd (FL.connectingVector rnd cs p q i + p i)) q v → v < rnd 1e-8 := fun v hv => by
    obtain ⟨h1, h2⟩ := fl_returns hr hb hper hpq (fun i => by have := hp i; unfold ulp; show _ ≤ cs.upper i - cs.lower i; linarith)
    have h3 := (abs_le.1 (fl_distance_err hr hb hper hd' h1 hv)).2
    have h4 := (abs_le.1 (rel_err' hr 1e-8)).1
    rw [abs_of_pos (by norm_num)] at h4
    have h5 : v ≤ ulp * ((2 * d + 36) * len cs.size + len p) := by nlinarith
    have h6 := h5.trans (mul_le_mul_of_nonneg_left hM hu.le)
    have h7 : ulp * (9 * 10 ^ 7) < 1e-8 - ulp * 1e-8 := by unfold ulp; norm_num
    linarith
  cases h with
  | plain h => rw [hper] at h; cases h
  | passed _ _ _ => exact ⟨_, rfl, hw⟩
  | failed _ hv hn => exact absurd (hlt _ hv) hn

/-! ## The hypotheses can be met -/

example : ∃ rnd : ℝ → ℝ, IsNearest rnd := ⟨rnd53, C74_rounding_exists⟩

namespace C97Demo
/-- The unit cube. -/
def cube : CoordSys 3 := ⟨fun _ => 0, fun _ => 1, true⟩
theorem cube_proper : ProperBox cube := fun _ => by simp [cube]
theorem cube_len : len (fun i => cube.upper i - cube.lower i) ≤ 2 := by
  unfold len
  rw [Real.sqrt_le_iff]
  norm_num [cube]

/-- In the unit cube, distances are correct up to 10⁻¹⁴. -/
example (hr : IsNearest rnd) {p q : Vec 3} (hp : ∀ i, 0 ≤ p i ∧ p i ≤ 1) (hq : ∀ i, 0 ≤ q i ∧ q i ≤ 1) {v : ℝ} (h : FL.Distance rnd cube p q v) : |v - cube.distance p q| ≤ 1e-14 := by
  have := C97_distance_periodic hr cube_proper rfl (by norm_num) (fun i => abs_le.2 ⟨by simp [cube]; linarith [(hp i).2, (hq i).1], by simp [cube]; linarith [(hp i).1, (hq i).2]⟩) h
  refine this.trans (le_trans (mul_le_mul_of_nonneg_left cube_len (by positivity)) ?_)
  norm_num

/-- In the unit cube, the assertion of `connecting_vector` always holds. -/
example (hr : IsNearest rnd) {p q : Vec 3} (hp : ∀ i, 0 ≤ p i ∧ p i ≤ 1) (hq : ∀ i, 0 ≤ q i ∧ q i ≤ 1) {r} (h : FL.Connecting rnd cube p q r) : ∃ w, r = .ok w := by
  have hpl : len p ≤ 2 := by
    refine le_trans (len_mono (w := fun _ => 1) fun i => ?_) (by unfold len; rw [Real.sqrt_le_iff]; norm_num)
    rw [abs_of_nonneg (hp i).1]; simpa using (hp i).2
  have hc := cube_len
  obtain ⟨w, hw, -⟩ := C97_connecting_vector hr cube_proper rfl (by norm_num)
    (fun i => abs_le.2 ⟨by simp [cube]; linarith [(hp i).2, (hq i).1], by simp [cube]; linarith [(hp i).1, (hq i).2]⟩)
    (fun i => by rw [abs_of_nonneg (hp i).1]; simp only [cube, sub_zero]; have := (hp i).2; norm_num; linarith) (by norm_num; linarith) h
  exact ⟨w, hw⟩

/-! ### A large box -/

/-- A periodic box of length 2³¹. -/
def big : CoordSys 1 := ⟨fun _ => 0, fun _ => 2 ^ 31, true⟩
/-- a quarter of the length -/
def far : Vec 1 := fun _ => 2 ^ 29
/-- a position near the lower limit -/
def near : Vec 1 := fun _ => 1 / 2 ^ 26

theorem float_pow (n : ℤ) : IsFloat ((2 : ℝ) ^ n) := ⟨1, n, by norm_num, by simp⟩

theorem rnd_diff (hr : IsNearest rnd) : rnd (1 / 2 ^ 26 - 2 ^ 29) = -2 ^ 29 := by
  set x : ℝ := 1 / 2 ^ 26 - 2 ^ 29 with hx
  obtain ⟨⟨m, e, hm, he⟩, hn⟩ := hr x
  have h1 := hn (-2 ^ 29) ⟨-1, 29, by norm_num, by norm_num⟩
  have e1 : |(-2 ^ 29 : ℝ) - x| = 1 / 2 ^ 26 := by rw [hx]; norm_num
  rw [e1] at h1
  have h1' := abs_le.1 h1
  have hf : IsFloat (-rnd x) := ⟨-m, e, by simpa using hm, by rw [he]; push_cast; ring⟩
  have hge : (2 : ℝ) ^ (28 : ℤ) ≤ -rnd x := by
    have : (2 : ℝ) ^ (28 : ℤ) = 2 ^ 28 := by norm_num
    rw [this]
    have h2 := h1'.2
    rw [hx] at h2
    norm_num at h2 ⊢
    linarith
  obtain ⟨z, hz⟩ := C74Demo.float_multiple hf 28 hge
  have e2 : (2 : ℝ) ^ ((28 : ℤ) - 52) = 1 / 2 ^ 24 := by norm_num [zpow_neg]
  rw [e2] at hz
  have hzl : (z : ℝ) < 2 ^ 53 + 1 := by
    have h2 := h1'.1
    rw [show rnd x = -(z * (1 / 2 ^ 24)) by linarith, hx] at h2
    norm_num at h2 ⊢
    linarith
  have hzg : (2 : ℝ) ^ 53 - 1 < z := by
    have h2 := h1'.2
    rw [show rnd x = -(z * (1 / 2 ^ 24)) by linarith, hx] at h2
    norm_num at h2 ⊢
    linarith
  have hz2 : z = 2 ^ 53 := by
    have a : z < 2 ^ 53 + 1 := by exact_mod_cast hzl
    have b : 2 ^ 53 - 1 < z := by exact_mod_cast hzg
    omega
  rw [show rnd x = -(z * (1 / 2 ^ 24)) by linarith, hz2]
  norm_num

theorem size_big (hr : IsNearest rnd) : FL.size rnd big 0 = 2 ^ 31 := by
  have : IsFloat ((2 : ℝ) ^ 31) := by have := float_pow 31; exact_mod_cast this
  simpa [FL.size, big] using rnd_of_isFloat hr this

theorem cv_big (hr : IsNearest rnd) : FL.connectingVector rnd big far near 0 = -2 ^ 29 := by
  unfold FL.connectingVector
  simp only []
  rw [if_pos (show big.periodic = true from rfl), size_big hr]
  have e0 : near 0 - far 0 = 1 / 2 ^ 26 - 2 ^ 29 := rfl
  rw [e0, rnd_diff hr]
  have f3 : IsFloat (3 * 2 ^ 29 : ℝ) := ⟨3, 29, by norm_num, by norm_num⟩
  have fm : IsFloat (-2 ^ 29 : ℝ) := ⟨-1, 29, by norm_num, by norm_num⟩
  have ef : FL.fmod (-2 ^ 29) (2 ^ 31) = -2 ^ 29 := by
    have : truncInt ((-2 ^ 29 : ℝ) / 2 ^ 31) = 0 := by
      unfold truncInt
      norm_num
    unfold FL.fmod
    rw [this]
    norm_num
  have em : FL.npMod rnd (-2 ^ 29) (2 ^ 31) = 3 * 2 ^ 29 := by
    unfold FL.npMod
    simp only [ef]
    rw [if_pos ⟨by norm_num, by norm_num⟩, show (-2 ^ 29 + 2 ^ 31 : ℝ) = 3 * 2 ^ 29 by norm_num, rnd_of_isFloat hr f3]
  rw [em, show (3 * 2 ^ 29 - 2 ^ 31 : ℝ) = -2 ^ 29 by norm_num, rnd_of_isFloat hr fm, if_pos (by norm_num)]

/-- C97 (the assertion can fail).  In a periodic box of length 2³¹ there are positions, inside of the box and exact floats, for which `connecting_vector` raises AssertionError, with every rounding to nearest: the difference of the
positions is rounded, and the vector leads to a point that is 1.5·10⁻⁸ away from the second position. -/
theorem _root_.NF.C97_assertion_fails (hr : IsNearest rnd) :
    (∀ i, big.lower i ≤ far i ∧ far i ≤ big.upper i ∧ big.lower i ≤ near i ∧ near i ≤ big.upper i ∧ IsFloat (far i) ∧ IsFloat (near i)) ∧ (∃ r, FL.Connecting rnd big far near r) ∧
    ∀ r, FL.Connecting rnd big far near r → r = .error .assertion := by
  refine ⟨fun i => ⟨by norm_num [big, far], by norm_num [big, far], by norm_num [big, near], by norm_num [big, near], ?_, ?_⟩, connecting_exists rnd big far near, fun r h => ?_⟩
  · have := float_pow 29; norm_num at this; norm_num [far]; exact this
  · have := float_pow (-26); simpa [near] using this
  have key : ∀ v, FL.Distance rnd big (fun i => rnd (FL.connectingVector rnd big far near i + far i)) near v → v = 1 / 2 ^ 26 := by
    rintro v ⟨s, hs, rfl⟩
    have f26 : IsFloat (1 / 2 ^ 26 : ℝ) := by have := float_pow (-26); simpa using this
    have f52 : IsFloat (1 / 2 ^ 52 : ℝ) := by have := float_pow (-52); simpa using this
    have ed : FL.distDelta rnd big (fun i => rnd (FL.connectingVector rnd big far near i + far i)) near 0 = 1 / 2 ^ 26 := by
      unfold FL.distDelta
      simp only []
      rw [if_pos (show big.periodic = true from rfl), size_big hr, cv_big hr]
      rw [show (-2 ^ 29 + far 0 : ℝ) = 0 by simp [far], rnd_of_isFloat hr isFloat_zero, sub_zero]
      rw [show near 0 = 1 / 2 ^ 26 from rfl, rnd_of_isFloat hr f26]
      have ef : FL.fmod (1 / 2 ^ 26) (2 ^ 31) = 1 / 2 ^ 26 := by
        have : truncInt ((1 / 2 ^ 26 : ℝ) / 2 ^ 31) = 0 := by
          unfold truncInt
          norm_num
        unfold FL.fmod
        rw [this]
        norm_num
      have em : FL.npMod rnd (1 / 2 ^ 26) (2 ^ 31) = 1 / 2 ^ 26 := by
        unfold FL.npMod
        simp only [ef]
        rw [if_neg (by norm_num)]
      rw [em]
      exact min_eq_right (le_rnd hr f26 (by norm_num))
    have el : (List.ofFn fun i => rnd (FL.distDelta rnd big (fun i => rnd (FL.connectingVector rnd big far near i + far i)) near i ^ 2)) = [1 / 2 ^ 52] := by
      rw [List.ofFn_succ, List.ofFn_zero, ed, show ((1 / 2 ^ 26 : ℝ)) ^ 2 = 1 / 2 ^ 52 by norm_num, rnd_of_isFloat hr f52]
    rw [el] at hs
    obtain ⟨b1, b2, -⟩ := rndSum_bounds hr hs (by simp)
    have es : s = (1 / 2 ^ 26) ^ 2 := by
      simp at b1 b2
      rw [le_antisymm b2 b1]
      norm_num
    rw [es, Real.sqrt_sq (by positivity), rnd_of_isFloat hr f26]
  have hsmall : rnd 1e-8 ≤ 1 / 2 ^ 26 := by
    have f26 : IsFloat (1 / 2 ^ 26 : ℝ) := by have := float_pow (-26); simpa using this
    exact rnd_le hr f26 (by norm_num)
  cases h with
  | plain h => cases h
  | passed _ hv hl => rw [key _ hv] at hl; linarith
  | failed _ _ _ => rfl

/-! ### Clusters -/
/-- Two clusters in the unit cube: the distances are 0.125 and at least 0.375. -/
example (hr : IsNearest rnd) {dist : Vec 3 → Vec 3 → ℝ} (hdist : ∀ p ∈ [(fun _ => 0 : Vec 3), ![0.125, 0, 0], ![0.5, 0, 0]], ∀ q ∈ [(fun _ => 0 : Vec 3), ![0.125, 0, 0], ![0.5, 0, 0]], FL.Distance rnd cube p q (dist p q)) :
    List.Forall₂ (fun g g' => g.nodes = g'.nodes ∧ ∀ x y, g.hasEdge x y ↔ g'.hasEdge x y) (FL.createClusters dist 0.25 [(fun _ => 0 : Vec 3), ![0.125, 0, 0], ![0.5, 0, 0]])
      (createClusters cube 0.25 [(fun _ => 0 : Vec 3), ![0.125, 0, 0], ![0.5, 0, 0]]) := by
  have hx : ∀ a b : ℝ, 0 ≤ b - a → b - a ≤ 1 / 2 → cube.distance ![a, 0, 0] ![b, 0, 0] = b - a ∧ cube.distance ![b, 0, 0] ![a, 0, 0] = b - a := fun a b h0 h1 => by
    have hw : wrap (b - a) 1 = b - a := by
      refine le_antisymm ?_ ?_
      · have := wrap_le one_pos (b - a) 0
        simpa [abs_of_nonneg h0] using this
      · obtain ⟨k, hk⟩ := wrap_attained one_pos (b - a)
        rw [hk]
        rcases le_or_gt 0 k with h | h
        · have : (0 : ℝ) ≤ k := by exact_mod_cast h
          exact le_trans (by linarith) (le_abs_self _)
        · have : (k : ℝ) ≤ -1 := by exact_mod_cast (by omega : k ≤ -1)
          exact le_trans (by linarith) (neg_le_abs _)
    have hw' : wrap (a - b) 1 = b - a := by rw [← neg_sub, wrap_neg one_pos, hw]
    have hz : wrap (0 - 0) 1 = 0 := (wrap_eq_zero one_pos _).2 ⟨0, by simp⟩
    have hs : ∀ i, cube.size i = 1 := fun i => by simp [CoordSys.size, cube]
    constructor <;>
    · rw [distance_eq_len]
      unfold len
      simp only [distDelta_periodic (show cube.periodic = true from rfl), Fin.sum_univ_three, hs]
      simp only [Matrix.cons_val_zero, Matrix.cons_val_one, Matrix.cons_val]
      simp only [hw, hw', hz]
      rw [show (b - a) ^ 2 + 0 ^ 2 + 0 ^ 2 = (b - a) ^ 2 by ring, Real.sqrt_sq h0]
  have e0 : (fun _ => 0 : Vec 3) = ![0, 0, 0] := by funext i; fin_cases i <;> rfl
  refine C97_same_clusters hr cube_proper (by norm_num) (positions := [(fun _ => 0 : Vec 3), ![0.125, 0, 0], ![0.5, 0, 0]]) ⟨?_, fun _ => Iff.rfl⟩ ?_ hdist ?_
  · rw [e0]
    simp only [List.nodup_cons, List.mem_cons, List.not_mem_nil, or_false, not_or, not_false_eq_true, List.nodup_nil, and_true]
    refine ⟨⟨fun h => ?_, fun h => ?_⟩, fun h => ?_⟩ <;>
    · have := congrFun h 0
      norm_num at this
  · intro p hp i
    simp only [List.mem_cons, List.not_mem_nil, or_false] at hp
    rcases hp with rfl | rfl | rfl <;> fin_cases i <;> norm_num [cube]
  · have hbnd : 2 * (((3 : ℕ) : ℝ) + 10) / 2 ^ 53 * len (fun i => cube.upper i - cube.lower i) < 1 / 100 :=
      lt_of_le_of_lt (mul_le_mul_of_nonneg_left cube_len (by positivity)) (by norm_num)
    rw [e0]
    intro p hp q hq hne
    refine hbnd.trans ?_
    have a1 := hx 0 0.125 (by norm_num) (by norm_num)
    have a2 := hx 0 0.5 (by norm_num) (by norm_num)
    have a3 := hx 0.125 0.5 (by norm_num) (by norm_num)
    simp only [List.mem_cons, List.not_mem_nil, or_false] at hp hq
    rcases hp with rfl | rfl | rfl <;> rcases hq with rfl | rfl | rfl <;> first | exact absurd rfl hne | (simp only [a1.1, a1.2, a2.1, a2.2, a3.1, a3.2]; rw [lt_abs]; norm_num)

end C97Demo
end NF
