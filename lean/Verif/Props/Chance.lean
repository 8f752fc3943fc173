import Verif.Lemmas.Chance
import Verif.Props.Curve

/-! # C98: how the identified dimension depends on chance -/

noncomputable section
open Classical
namespace NF
open Spec
variable {d : ℕ}

theorem neighbors_card_le {g : NxGraph (Vec d) ℝ} (hg : GoodGraph g) {pos : Vec d} (hp : pos ∈ g.nodes) : (g.neighbors pos).toFinset.card + 1 ≤ g.nodes.length := by
  have hsub : insert pos (g.neighbors pos).toFinset ⊆ g.nodes.toFinset := by
    intro x hx
    rcases Finset.mem_insert.1 hx with rfl | hx
    · exact List.mem_toFinset.2 hp
    · exact List.mem_toFinset.2 (goodGraph_edge hg (mem_neighbors.1 (List.mem_toFinset.1 hx))).2.1
  have hnot : pos ∉ (g.neighbors pos).toFinset := fun h => (goodGraph_edge hg (mem_neighbors.1 (List.mem_toFinset.1 h))).2.2 rfl
  have := Finset.card_le_card hsub
  rw [Finset.card_insert_of_notMem hnot, List.toFinset_card_of_nodup hg.nodup] at this
  exact this

/-- Two clusters with the same nodes and edges. -/
theorem dimension_unique {g g' : NxGraph (Vec d) ℝ} (hg : GoodGraph g) (hne : g.nodes ≠ []) (hlen : g.nodes.length ≤ 6) (hperm : g.nodes.Perm g'.nodes) (hgg : ∀ x n, g.hasEdge x n ↔ g'.hasEdge x n)
    {cs : CoordSys d} {fs : ℝ} {r r' : Except Err (Option ℤ)} (h : CalculateDimension g cs fs 3 (some 5) (some 10) r) (h' : CalculateDimension g' cs fs 3 (some 5) (some 10) r') : r = r' := by
  choose F hF using getDimension_total g cs fs 3 (some 10)
  have huniq : ∀ p ∈ g.nodes, ∀ o, GetDimension g cs fs 3 (some 10) p o → o = F p := fun p hp o ho =>
    getDimension_unique (fun _ => Iff.rfl) (by have := neighbors_card_le hg hp; omega) ho (hF p)
  have huniq' : ∀ p ∈ g.nodes, ∀ o, GetDimension g' cs fs 3 (some 10) p o → o = F p := fun p hp o ho =>
    (getDimension_unique (hgg p) (by have := neighbors_card_le hg hp; omega) (hF p) ho).symm
  have hok : ∀ p, ∃ x, F p = .ok x := fun p => by
    cases hf : F p with
    | ok x => exact ⟨x, rfl⟩
    | error e =>
      have := hF p
      rw [hf] at this
      have := ((getDimension_spec this (by norm_num)).1 e rfl).2.1
      norm_num at this
  choose f hf using hok
  have key : ∀ {g' : NxGraph (Vec d) ℝ} {r}, g.nodes.Perm g'.nodes → (∀ p ∈ g.nodes, ∀ o, GetDimension g' cs fs 3 (some 10) p o → o = F p) → CalculateDimension g' cs fs 3 (some 5) (some 10) r →
      ∃ dims : List ℤ, dims.Perm (g.nodes.map f) ∧ r = calcLoop (some 5) 0 (dims.map .ok) [] := by
    rintro g' r hp hu ⟨order, outcomes, ho, hall, rfl⟩
    refine ⟨order.map f, (ho.trans hp.symm).map f, ?_⟩
    congr 1
    have hmem : ∀ p ∈ order, p ∈ g.nodes := fun p h => hp.mem_iff.2 (ho.mem_iff.1 h)
    clear ho
    induction hall with
    | nil => rfl
    | cons h1 _ ih =>
      rw [List.map_cons, List.map_cons, ← ih fun p h => hmem p (List.mem_cons_of_mem _ h), hu _ (hmem _ List.mem_cons_self) _ h1, hf]
  obtain ⟨dims, p1, rfl⟩ := key (.refl _) huniq h
  obtain ⟨dims', p2, rfl⟩ := key hperm huniq' h'
  have hp : dims.Perm dims' := p1.trans p2.symm
  have l1 : dims.length = g.nodes.length := by rw [p1.length_eq, List.length_map]
  have l2 : dims'.length = g.nodes.length := by rw [p2.length_eq, List.length_map]
  have hpos := List.length_pos_iff.2 hne
  have n1 : dims ≠ [] := by rintro rfl; simp at l1; omega
  have n2 : dims' ≠ [] := by rintro rfl; simp at l2; omega
  obtain ⟨a1, a2, a3⟩ := calcLoop_small n1 (by omega)
  obtain ⟨b1, b2, b3⟩ := calcLoop_small n2 (by omega)
  cases h1 : calcLoop (some 5) 0 (dims.map .ok) [] with
  | error e => exact absurd h1 (a1 e)
  | ok o =>
    cases h2 : calcLoop (some 5) 0 (dims'.map .ok) [] with
    | error e => exact absurd h2 (b1 e)
    | ok o' =>
      cases o with
      | none =>
        cases o' with
        | none => rfl
        | some y =>
          have c1 := a3 h1 y
          have c2 := b2 y h2
          rw [hp.count_eq] at c1
          omega
      | some x =>
        have c1 := a2 x h1
        rw [hp.count_eq] at c1
        cases o' with
        | none => have c2 := b3 h2 x; omega
        | some y =>
          have c2 := b2 y h2
          by_cases hxy : x = y
          · rw [hxy]
          · exfalso
            have : dims'.count x + dims'.count y ≤ dims'.length := by
              have e := List.length_eq_countP_add_countP (p := fun z => z == x) (l := dims')
              have e2 : dims'.count y ≤ dims'.countP (fun z => !(z == x)) := by
                unfold List.count
                refine List.countP_mono_left fun z _ hz => ?_
                simp only [beq_iff_eq] at hz
                subst hz
                simpa using Ne.symm hxy
              have e3 : dims'.count x = dims'.countP (fun z => z == x) := rfl
              have e4 : dims'.countP (fun z => !(z == x)) = dims'.countP (fun a => decide ¬(a == x) = true) := by
                congr 1
                funext z
                cases hz : (z == x) <;> simp
              omega
            omega

/-- C98 (small clusters).  For a cluster of at most six positions the dimension does not depend on chance: two identifications of the same positions, with whatever order of iteration, shuffling and sampling, agree on its dimension. -/
theorem C98_small_clusters {cs : CoordSys d} (hb : ProperBox cs) {fs : ℝ} {positions positions' : List (Vec d)} (hsame : ∀ x, x ∈ positions ↔ x ∈ positions') {method method' : String} {out out' : IdContainer d}
    (h : RunFromPositions positions cs fs method (.ok out)) (h' : RunFromPositions positions' cs fs method' (.ok out')) :
    ∀ r ∈ out.results, r.positions.length ≤ 6 → ∀ r' ∈ out'.results, (∃ x, x ∈ r.positions ∧ x ∈ r'.positions) → r'.positions.Perm r.positions ∧ r'.dimension = r.dimension := by
  intro r hr hlen r' hr' ⟨x, hx, hx'⟩
  obtain ⟨-, -, pu, hu, hall⟩ := runFromPositions_ok h
  obtain ⟨-, -, pu', hu', hall'⟩ := runFromPositions_ok h'
  obtain ⟨g, hg, hgr⟩ := forall₂_mem_right hall hr
  obtain ⟨g', hg', hgr'⟩ := forall₂_mem_right hall' hr'
  obtain ⟨e1, e2, -⟩ := identifyCluster_positions hgr
  obtain ⟨e1', e2', -⟩ := identifyCluster_positions hgr'
  obtain ⟨gg, -, hedge, -⟩ := C54_cluster_graph hb fs hu hg
  obtain ⟨gg', -, hedge', -⟩ := C54_cluster_graph hb fs hu' hg'
  obtain ⟨hne, hnd, hsub⟩ := (C51_clusters_partition cs fs hu).2 g hg
  obtain ⟨-, hnd', -⟩ := (C51_clusters_partition cs fs hu').2 g' hg'
  rw [e1] at hx hlen
  rw [e1'] at hx'
  obtain ⟨g2, hg2, hmem⟩ := (C53_order_independent hb fs hu hu' hsame).2 g hg
  have : g2 = g' := by
    obtain ⟨i, rfl⟩ := List.mem_iff_get.1 hg2
    obtain ⟨j, rfl⟩ := List.mem_iff_get.1 hg'
    rw [((C51_clusters_partition cs fs hu').1 x ((hsame x).1 (hsub x hx))).unique ((hmem x).1 hx) hx']
  subst this
  have hperm : g.nodes.Perm g2.nodes := (List.perm_ext_iff_of_nodup hnd hnd').2 hmem
  refine ⟨by rw [e1, e1']; exact hperm.symm, ?_⟩
  have := dimension_unique gg hne hlen hperm (fun a b => by rw [hedge, hedge', hmem, hmem]) e2 e2'
  exact (Except.ok.inj this).symm

/-- C98 (the full evaluation is possible).  Whatever the cluster, the comparison of the average volume over *all* tuples of neighbours is a possible outcome of the test for a dimension. -/
theorem C98_exhaustive_possible {g : NxGraph (Vec d) ℝ} (cs : CoordSys d) (fs : ℝ) (minNb : Option ℤ) (pos : Vec d) {dim : ℕ} (hd : dim ≤ d) {v : ℝ} (hv : exactValue dim = some v)
    {ts : List (Finset (Vec d))} (hnd : ts.Nodup) (hts : ∀ t, t ∈ ts ↔ (∀ n ∈ t, g.hasEdge pos n) ∧ t.card = dim) (hne : ts ≠ []) :
    HasDimension g cs fs minNb pos dim (.ok (decide (fs ^ dim * v / 2 < average (ts.map (getVolume cs pos))))) := by
  have := hasDimension_exhaustive (cs := cs) (fs := fs) (minNb := minNb) hd hv hnd fun t => by
    rw [hts, Finset.mem_powersetCard]
    constructor
    · exact fun h => ⟨fun n hn => List.mem_toFinset.2 (mem_neighbors.2 (h.1 n hn)), h.2⟩
    · exact fun h => ⟨fun n hn => mem_neighbors.1 (List.mem_toFinset.1 (h.1 hn)), h.2⟩
  simpa [hne] using this

/-- C98 (equal draws decide).  If `min_neighbour_evaluations` tuples (and at least two) of neighbours have the same volume, and there are others, then it is possible that the test looks at these only, and decides by their volume. -/
theorem C98_equal_draws {g : NxGraph (Vec d) ℝ} {cs : CoordSys d} {fs : ℝ} {minNb : ℤ} {pos : Vec d} {dim : ℕ} (hd : dim ≤ d) {v : ℝ} (hv : exactValue dim = some v) {c : ℝ}
    (hc : c ≠ fs ^ dim * v / 2) {l : List (Finset (Vec d))} (hnd : l.Nodup) (hl : ∀ t ∈ l, t.card = dim ∧ ∀ n ∈ t, g.hasEdge pos n) (hlen : (l.length : ℤ) = max minNb 2)
    (hvol : ∀ t ∈ l, getVolume cs pos t = c) (hmore : ∃ t : Finset (Vec d), t.card = dim ∧ (∀ n ∈ t, g.hasEdge pos n) ∧ t ∉ l) :
    HasDimension g cs fs (some minNb) pos dim (.ok (decide (c > fs ^ dim * v / 2))) :=
  hasDimension_const hd hv hc hnd hl hlen hvol hmore

/-- Every possible choice of dimensions occurs in some run. -/
theorem run_with_dims {cs : CoordSys d} (hb : ProperBox cs) {fs : ℝ} (hfs : 0 < fs) {positions pu : List (Vec d)} (hu : IsUniqueList positions pu) (D : Option ℤ)
    (hD : ∀ g ∈ createClusters cs fs pu, CalculateDimension g cs fs 3 (some 5) (some 10) (.ok D)) :
    ∃ out, RunFromPositions positions cs fs "ballistic" (.ok out) ∧ out.results.length = (createClusters cs fs pu).length ∧ ∀ r ∈ out.results, r.dimension = D := by
  have hcl : ∀ g ∈ createClusters cs fs pu, ∃ r, IdentifyCluster cs fs "ballistic" g (.ok r) ∧ r.dimension = D := by
    intro g hg
    have hne := ((C51_clusters_partition cs fs hu).2 g hg).1
    obtain ⟨p, hp⟩ := average_ok cs hne
    have hr := hD g hg
    by_cases h0 : D = some 0
    · subst h0; exact ⟨_, .ok hr (.point hp), rfl⟩
    · by_cases h1 : D = some 1
      · subst h1
        obtain ⟨-, n, rg, h2⟩ := C59_ballistic_terminates hb hu hg (spread_of_dim_one hb hfs hu hg hr)
        exact ⟨_, .ok hr (.line (.ballistic h2)), rfl⟩
      · exact ⟨_, .ok hr (.other h0 h1), rfl⟩
  have hex : ∀ l : List (NxGraph (Vec d) ℝ), (∀ c ∈ l, ∃ r, IdentifyCluster cs fs "ballistic" c (.ok r) ∧ r.dimension = D) →
      ∃ rs, List.Forall₂ (fun c r => IdentifyCluster cs fs "ballistic" c (.ok r)) l rs ∧ rs.length = l.length ∧ ∀ r ∈ rs, r.dimension = D := by
    intro l
    induction l with
    | nil => exact fun _ => ⟨[], .nil, rfl, by simp⟩
    | cons c l ih =>
      intro h
      obtain ⟨r, hr, hrd⟩ := h c List.mem_cons_self
      obtain ⟨rs, hrs, hlen, hall⟩ := ih fun c hc => h c (List.mem_cons_of_mem _ hc)
      exact ⟨r :: rs, .cons hr hrs, by simp [hlen], by simpa using ⟨hrd, hall⟩⟩
  obtain ⟨rs, hrs, hlen, hall⟩ := hex _ hcl
  exact ⟨_, .ok hu (outcomes := rs.map .ok) (by rwa [List.forall₂_map_right_iff]) (collect_eq_ok.2 rfl), hlen, hall⟩

/-- If some order of the nodes begins with five positions, four of which have this dimension, then the cluster can get this dimension. -/
theorem dimension_possible {g : NxGraph (Vec d) ℝ} {cs : CoordSys d} {fs : ℝ} {first rest : List (Vec d)} (hperm : (first ++ rest).Perm g.nodes) (h5 : first.length = 5) {k : ℤ} {dims : List ℤ}
    (hF : List.Forall₂ (fun p x => GetDimension g cs fs 3 (some 10) p (.ok x)) first dims) (hk : 4 ≤ dims.count k) : CalculateDimension g cs fs 3 (some 5) (some 10) (.ok (some k)) := by
  choose F hFt using getDimension_total g cs fs 3 (some 10)
  refine ⟨first ++ rest, dims.map .ok ++ rest.map F, hperm, ?_, ?_⟩
  · refine List.rel_append (by rw [List.forall₂_map_right_iff]; exact hF) ?_
    rw [List.forall₂_map_right_iff, List.forall₂_same]
    exact fun x _ => hFt x
  · have hl : dims.length = 5 := by rw [← hF.length_eq, h5]
    have hcc : checkCount (dims.foldl Counter.add []) = .ok (true, k) := by
      obtain ⟨x, hx, ⟨h, hmaj⟩ | ⟨h, hmaj⟩⟩ := (checkCount_spec (dims := dims)).2 (by rintro rfl; simp at hl)
      · have : x = k := by
          by_contra hne
          have : dims.count x + dims.count k ≤ dims.length := by
            have e := List.length_eq_countP_add_countP (p := fun z => z == x) (l := dims)
            have e2 : dims.count k ≤ dims.countP (fun a => decide ¬(a == x) = true) := by
              unfold List.count
              refine List.countP_mono_left fun z _ hz => ?_
              simp only [beq_iff_eq] at hz
              subst hz
              simpa using Ne.symm hne
            have e3 : dims.count x = dims.countP (fun z => z == x) := rfl
            omega
          omega
        rw [h, this]
      · have := hmaj k
        omega
    match dims, hl with
    | [a, b, c, e, f], _ =>
      cases hr : rest.map F with
      | nil =>
        simp only [List.map_cons, List.map_nil, List.append_nil, calcLoop]
        norm_num
        simp only [List.foldl_cons, List.foldl_nil] at hcc
        rw [hcc]
      | cons o os =>
        simp only [List.map_cons, List.map_nil, List.cons_append, List.nil_append, calcLoop]
        norm_num
        simp only [List.foldl_cons, List.foldl_nil] at hcc
        rw [hcc]

/-- Positions which are all connected to one of them are one cluster. -/
theorem one_cluster {cs : CoordSys d} (hb : ProperBox cs) {fs : ℝ} {ps pu : List (Vec d)} (hnd : ps.Nodup) {x₀ : Vec d} (hx₀ : x₀ ∈ ps) (hchain : ∀ x ∈ ps, Chain cs fs ps x₀ x) (hu : IsUniqueList ps pu)
    {g : NxGraph (Vec d) ℝ} (hg : g ∈ createClusters cs fs pu) : ps.Perm g.nodes := by
  obtain ⟨hne, hnd', hsub⟩ := (C51_clusters_partition cs fs hu).2 g hg
  refine (List.perm_ext_iff_of_nodup hnd hnd').2 fun x => ⟨fun hx => ?_, hsub x⟩
  obtain ⟨v, hv⟩ := List.exists_mem_of_ne_nil _ hne
  have join : ∀ y ∈ ps, ∀ c ∈ createClusters cs fs pu, y ∈ c.nodes → x₀ ∈ c.nodes := by
    intro y hy c hc hyc
    obtain ⟨c', hc', h1, h2⟩ := (C52_clusters_are_chains hb fs hu x₀ y).2 ⟨hx₀, hy, hchain y hy⟩
    obtain ⟨i, rfl⟩ := List.mem_iff_get.1 hc
    obtain ⟨j, rfl⟩ := List.mem_iff_get.1 hc'
    rw [((C51_clusters_partition cs fs hu).1 y hy).unique hyc h2]
    exact h1
  have hv0 := join v (hsub v hv) g hg hv
  obtain ⟨c', hc', h1, h2⟩ := (C52_clusters_are_chains hb fs hu x₀ x).2 ⟨hx₀, hx, hchain x hx⟩
  obtain ⟨i, rfl⟩ := List.mem_iff_get.1 hg
  obtain ⟨j, rfl⟩ := List.mem_iff_get.1 hc'
  rw [((C51_clusters_partition cs fs hu).1 x₀ hx₀).unique hv0 h1]
  exact h2

/-! ## A point or a line -/

namespace C98Demo
/-- an interval -/
def line : CoordSys 1 := ⟨fun _ => 0, fun _ => 10, false⟩
theorem line_proper : ProperBox line := fun _ => by norm_num [line]
/-- a position on it -/
def P (t : ℝ) : Vec 1 := fun _ => t
theorem dist_P (s t : ℝ) : line.distance (P s) (P t) = |s - t| := by
  rw [C03_distance_nonperiodic _ rfl]
  simp only [eucl, Finset.univ_unique, Fin.default_eq_zero, Finset.sum_singleton, P]
  exact Real.sqrt_sq_eq_abs _
theorem P_inj {s t : ℝ} (h : P s = P t) : s = t := congrFun h 0

/-- five positions close to each other, and a chain of four, with steps of 0.6, at a distance of 1 -/
def nine : List (Vec 1) := [P 0, P 0.05, P 0.1, P 0.15, P 0.2, P 1.2, P 1.8, P 2.4, P 3]

theorem mem_nine {x : Vec 1} : x ∈ nine ↔ x = P 0 ∨ x = P 0.05 ∨ x = P 0.1 ∨ x = P 0.15 ∨ x = P 0.2 ∨ x = P 1.2 ∨ x = P 1.8 ∨ x = P 2.4 ∨ x = P 3 := by simp [nine]

theorem nine_chain : ∀ x ∈ nine, Chain line 1 nine (P 0) x := by
  have st : ∀ s t : ℝ, P s ∈ nine → P t ∈ nine → |s - t| ≤ 1 → Chain line 1 nine (P 0) (P s) → Chain line 1 nine (P 0) (P t) := fun s t hs ht hst h => h.tail ⟨hs, ht, by rw [dist_P]; exact hst⟩
  have h0 : Chain line 1 nine (P 0) (P 0) := .refl
  have h5 := st 0 0.2 (by simp [nine]) (by simp [nine]) (by norm_num [abs_le]) h0
  have h6 := st 0.2 1.2 (by simp [nine]) (by simp [nine]) (by norm_num [abs_le]) h5
  have h7 := st 1.2 1.8 (by simp [nine]) (by simp [nine]) (by norm_num [abs_le]) h6
  have h8 := st 1.8 2.4 (by simp [nine]) (by simp [nine]) (by norm_num [abs_le]) h7
  have h9 := st 2.4 3 (by simp [nine]) (by simp [nine]) (by norm_num [abs_le]) h8
  intro x hx
  rcases mem_nine.1 hx with rfl | rfl | rfl | rfl | rfl | rfl | rfl | rfl | rfl
  · exact h0
  · exact st 0 0.05 (by simp [nine]) (by simp [nine]) (by norm_num [abs_le]) h0
  · exact st 0 0.1 (by simp [nine]) (by simp [nine]) (by norm_num [abs_le]) h0
  · exact st 0 0.15 (by simp [nine]) (by simp [nine]) (by norm_num [abs_le]) h0
  · exact h5
  · exact h6
  · exact h7
  · exact h8
  · exact h9

theorem nine_nodup : nine.Nodup := by
  have : nine = [0, 0.05, 0.1, 0.15, 0.2, 1.2, 1.8, 2.4, 3].map P := rfl
  rw [this]
  refine List.Nodup.map (fun a b h => P_inj h) ?_
  simp only [List.nodup_cons, List.mem_cons, List.not_mem_nil, or_false, not_or, not_false_eq_true, List.nodup_nil, and_true]
  norm_num

theorem nine_one {pu : List (Vec 1)} (hu : IsUniqueList nine pu) {g : NxGraph (Vec 1) ℝ} (hg : g ∈ createClusters line 1 pu) : nine.Perm g.nodes :=
  one_cluster line_proper nine_nodup (by simp [nine]) nine_chain hu hg

theorem getDimension_ok (g : NxGraph (Vec d) ℝ) (cs : CoordSys d) (fs : ℝ) (pos : Vec d) : ∃ x, GetDimension g cs fs 3 (some 10) pos (.ok x) := by
  obtain ⟨r, hr⟩ := getDimension_total g cs fs 3 (some 10) pos
  cases r with
  | ok x => exact ⟨x, hr⟩
  | error e =>
    have := ((getDimension_spec hr (by norm_num)).1 e rfl).2.1
    norm_num at this

theorem nine_dims {pu : List (Vec 1)} (hu : IsUniqueList nine pu) {g : NxGraph (Vec 1) ℝ} (hg : g ∈ createClusters line 1 pu) :
    (∀ t ∈ [0, 0.05, 0.1, (0.15 : ℝ)], GetDimension g line 1 3 (some 10) (P t) (.ok 0)) ∧ ∀ t ∈ [1.2, 1.8, 2.4, (3 : ℝ)], GetDimension g line 1 3 (some 10) (P t) (.ok 1) := by
  have hp := nine_one hu hg
  obtain ⟨-, -, hedge, -⟩ := C54_cluster_graph line_proper 1 hu hg
  constructor
  · intro t ht
    obtain ⟨x, hx⟩ := getDimension_ok g line 1 (P t)
    have := (C69_point_or_more line_proper (by norm_num) le_rfl hx).1 fun n hn => by
      obtain ⟨-, h2, -, h4⟩ := (hedge _ _).1 hn
      simp only [List.mem_cons, List.not_mem_nil, or_false] at ht
      rcases mem_nine.1 (hp.mem_iff.2 h2) with rfl | rfl | rfl | rfl | rfl | rfl | rfl | rfl | rfl <;> rw [dist_P] at h4 ⊢ <;> rcases ht with rfl | rfl | rfl | rfl <;>
        first
        | (exfalso; norm_num [abs_le] at h4; done)
        | (norm_num [abs_le])
    rwa [this] at hx
  · intro t ht
    obtain ⟨x, hx⟩ := getDimension_ok g line 1 (P t)
    have hle := ((getDimension_spec hx (by norm_num)).2 x rfl).2.2.1
    have hmem : P t ∈ nine := by
      simp only [List.mem_cons, List.not_mem_nil, or_false] at ht
      rcases ht with rfl | rfl | rfl | rfl <;> simp [nine]
    have hnbr : ∃ n, g.hasEdge (P t) n := by
      simp only [List.mem_cons, List.not_mem_nil, or_false] at ht
      have h1 : P 1.8 ∈ g.nodes := hp.mem_iff.1 (by simp [nine])
      have h2 : P 2.4 ∈ g.nodes := hp.mem_iff.1 (by simp [nine])
      rcases ht with rfl | rfl | rfl | rfl
      · exact ⟨P 1.8, (hedge _ _).2 ⟨hp.mem_iff.1 hmem, h1, fun h => by have := P_inj h; norm_num at this, by rw [dist_P]; norm_num [abs_le]⟩⟩
      · exact ⟨P 2.4, (hedge _ _).2 ⟨hp.mem_iff.1 hmem, h2, fun h => by have := P_inj h; norm_num at this, by rw [dist_P]; norm_num [abs_le]⟩⟩
      · exact ⟨P 1.8, (hedge _ _).2 ⟨hp.mem_iff.1 hmem, h1, fun h => by have := P_inj h; norm_num at this, by rw [dist_P]; norm_num [abs_le]⟩⟩
      · exact ⟨P 2.4, (hedge _ _).2 ⟨hp.mem_iff.1 hmem, h2, fun h => by have := P_inj h; norm_num at this, by rw [dist_P]; norm_num [abs_le]⟩⟩
    have := (C69_point_or_more line_proper (by norm_num) le_rfl hx).2 hnbr fun n hn => by
      obtain ⟨-, h2, h3, h4⟩ := (hedge _ _).1 hn
      simp only [List.mem_cons, List.not_mem_nil, or_false] at ht
      rcases mem_nine.1 (hp.mem_iff.2 h2) with rfl | rfl | rfl | rfl | rfl | rfl | rfl | rfl | rfl <;> rw [dist_P] at h4 ⊢ <;> rcases ht with rfl | rfl | rfl | rfl <;>
        first
        | exact absurd rfl h3
        | (exfalso; norm_num [abs_le] at h4; done)
        | (norm_num [abs_le, lt_abs])
    have : x = 1 := by push_cast at hle; omega
    rwa [this] at hx

/-- C98 (a point or a line).  Nine positions form one cluster, and the same call to `identify.run_from_positions` may report it as a point or as a line, depending on the shuffled order in which positions are evaluated. -/
theorem _root_.NF.C98_point_or_line : ∃ out out', RunFromPositions nine line 1 "ballistic" (.ok out) ∧ RunFromPositions nine line 1 "ballistic" (.ok out') ∧
    out.results ≠ [] ∧ out'.results ≠ [] ∧ (∀ r ∈ out.results, r.positions.Perm nine ∧ r.dimension = some 0) ∧ ∀ r ∈ out'.results, r.positions.Perm nine ∧ r.dimension = some 1 := by
  have hu : IsUniqueList nine nine := ⟨nine_nodup, fun _ => Iff.rfl⟩
  have hne : createClusters line 1 nine ≠ [] := by
    obtain ⟨i, -⟩ := (C51_clusters_partition line 1 hu).1 (P 0) (by simp [nine])
    intro h
    have := List.length_pos_iff.1 (lt_of_le_of_lt (Nat.zero_le _) i.isLt)
    exact this h
  have hpos : ∀ {out}, RunFromPositions nine line 1 "ballistic" (.ok out) → ∀ r ∈ out.results, r.positions.Perm nine := fun h r hr => by
    obtain ⟨-, -, pu, hu, hall⟩ := runFromPositions_ok h
    obtain ⟨g, hg, hgr⟩ := forall₂_mem_right hall hr
    rw [(identifyCluster_positions hgr).1]
    exact (nine_one hu hg).symm
  obtain ⟨out, h1, l1, d1⟩ := run_with_dims line_proper one_pos hu (some 0) fun g hg => by
    obtain ⟨x, hx⟩ := getDimension_ok g line 1 (P 0.2)
    have hd := (nine_dims hu hg).1
    refine dimension_possible (first := [P 0, P 0.05, P 0.1, P 0.15, P 0.2]) (rest := [P 1.2, P 1.8, P 2.4, P 3]) (nine_one hu hg) rfl (dims := [0, 0, 0, 0, x])
      (.cons (hd 0 (by simp)) (.cons (hd 0.05 (by simp)) (.cons (hd 0.1 (by simp)) (.cons (hd 0.15 (by simp)) (.cons hx .nil))))) ?_
    simp only [List.count_cons, List.count_nil]
    simp
  obtain ⟨out', h2, l2, d2⟩ := run_with_dims line_proper one_pos hu (some 1) fun g hg => by
    obtain ⟨x, hx⟩ := getDimension_ok g line 1 (P 0.2)
    have hd := (nine_dims hu hg).2
    refine dimension_possible (first := [P 1.2, P 1.8, P 2.4, P 3, P 0.2]) (rest := [P 0, P 0.05, P 0.1, P 0.15]) ?_ rfl (dims := [1, 1, 1, 1, x])
      (.cons (hd 1.2 (by simp)) (.cons (hd 1.8 (by simp)) (.cons (hd 2.4 (by simp)) (.cons (hd 3 (by simp)) (.cons hx .nil))))) ?_
    · refine List.Perm.trans ?_ (nine_one hu hg)
      refine (List.perm_ext_iff_of_nodup ?_ nine_nodup).2 fun y => ?_
      · have : [P 1.2, P 1.8, P 2.4, P 3, P 0.2] ++ [P 0, P 0.05, P 0.1, P 0.15] = [1.2, 1.8, 2.4, 3, 0.2, 0, 0.05, 0.1, 0.15].map P := rfl
        rw [this]
        refine List.Nodup.map (fun a b h => P_inj h) ?_
        simp only [List.nodup_cons, List.mem_cons, List.not_mem_nil, or_false, not_or, not_false_eq_true, List.nodup_nil, and_true]
        norm_num
      · rw [mem_nine]
        simp only [List.cons_append, List.nil_append, List.mem_cons, List.not_mem_nil, or_false]
        tauto
    · simp only [List.count_cons, List.count_nil]
      simp
  refine ⟨out, out', h1, h2, ?_, ?_, fun r hr => ⟨hpos h1 r hr, d1 r hr⟩, fun r hr => ⟨hpos h2 r hr, d2 r hr⟩⟩
  · intro h
    rw [h] at l1
    exact hne (List.length_eq_zero_iff.1 l1.symm)
  · intro h
    rw [h] at l2
    exact hne (List.length_eq_zero_iff.1 l2.symm)

/-- The hypotheses of `C98_small_clusters` are met: two of the nine positions. -/
example : ∃ out, RunFromPositions [P 0, P 0.5] line 1 "ballistic" (.ok out) ∧ ∀ r ∈ out.results, r.positions.length ≤ 6 := by
  obtain ⟨⟨r, hr⟩, h⟩ := C65_never_raises line_proper one_pos [P 0, P 0.5] (.inl rfl)
  obtain ⟨out, rfl, -⟩ := h r hr
  refine ⟨out, hr, fun r hr' => ?_⟩
  obtain ⟨-, -, pu, hu, hall⟩ := runFromPositions_ok hr
  obtain ⟨g, hg, hgr⟩ := forall₂_mem_right hall hr'
  rw [(identifyCluster_positions hgr).1]
  obtain ⟨-, hnd, hsub⟩ := (C51_clusters_partition line 1 hu).2 g hg
  have := (List.subperm_of_subset hnd hsub).length_le
  simp at this
  omega

/-! ## Six is the best possible -/

/-- three positions close to each other, one at a distance of 0.3, and three more -/
def seven : List (Vec 1) := [P 0, P 0.02, P 0.04, P 0.34, P 1.1, P 1.7, P 2.3]

theorem mem_seven {x : Vec 1} : x ∈ seven ↔ x = P 0 ∨ x = P 0.02 ∨ x = P 0.04 ∨ x = P 0.34 ∨ x = P 1.1 ∨ x = P 1.7 ∨ x = P 2.3 := by simp [seven]

theorem seven_chain : ∀ x ∈ seven, Chain line 1 seven (P 0) x := by
  have st : ∀ s t : ℝ, P s ∈ seven → P t ∈ seven → |s - t| ≤ 1 → Chain line 1 seven (P 0) (P s) → Chain line 1 seven (P 0) (P t) := fun s t hs ht hst h => h.tail ⟨hs, ht, by rw [dist_P]; exact hst⟩
  have h0 : Chain line 1 seven (P 0) (P 0) := .refl
  have h3 := st 0 0.34 (by simp [seven]) (by simp [seven]) (by norm_num [abs_le]) h0
  have h4 := st 0.34 1.1 (by simp [seven]) (by simp [seven]) (by norm_num [abs_le]) h3
  have h5 := st 1.1 1.7 (by simp [seven]) (by simp [seven]) (by norm_num [abs_le]) h4
  intro x hx
  rcases mem_seven.1 hx with rfl | rfl | rfl | rfl | rfl | rfl | rfl
  · exact h0
  · exact st 0 0.02 (by simp [seven]) (by simp [seven]) (by norm_num [abs_le]) h0
  · exact st 0 0.04 (by simp [seven]) (by simp [seven]) (by norm_num [abs_le]) h0
  · exact h3
  · exact h4
  · exact h5
  · exact st 1.7 2.3 (by simp [seven]) (by simp [seven]) (by norm_num [abs_le]) h5

theorem seven_nodup : seven.Nodup := by
  have : seven = [0, 0.02, 0.04, 0.34, 1.1, 1.7, 2.3].map P := rfl
  rw [this]
  refine List.Nodup.map (fun a b h => P_inj h) ?_
  simp only [List.nodup_cons, List.mem_cons, List.not_mem_nil, or_false, not_or, not_false_eq_true, List.nodup_nil, and_true]
  norm_num

theorem seven_one {pu : List (Vec 1)} (hu : IsUniqueList seven pu) {g : NxGraph (Vec 1) ℝ} (hg : g ∈ createClusters line 1 pu) : seven.Perm g.nodes :=
  one_cluster line_proper seven_nodup (by simp [seven]) seven_chain hu hg

/-- A position with exactly three neighbours, at short distances on average, can be taken for a point. -/
theorem three_near {g : NxGraph (Vec 1) ℝ} {t a b c : ℝ} (hab : a ≠ b) (hac : a ≠ c) (hbc : b ≠ c) (hn : ∀ n, g.hasEdge (P t) n ↔ n = P a ∨ n = P b ∨ n = P c) (hs : |a - t| + |b - t| + |c - t| ≤ 0.75) :
    GetDimension g line 1 3 (some 10) (P t) (.ok 0) := by
  have hab' : P a ≠ P b := fun h => hab (P_inj h)
  have hac' : P a ≠ P c := fun h => hac (P_inj h)
  have hbc' : P b ≠ P c := fun h => hbc (P_inj h)
  have h1 := C98_exhaustive_possible (g := g) line 1 (some 10) (P t) (dim := 1) le_rfl (v := 0.5) rfl (ts := [{P a}, {P b}, {P c}]) (by simp [hab', hac', hbc']) (fun s => by
    simp only [List.mem_cons, List.not_mem_nil, or_false, hn]
    constructor
    · rintro (rfl | rfl | rfl) <;> simp
    · rintro ⟨h1, h2⟩
      obtain ⟨x, rfl⟩ := Finset.card_eq_one.1 h2
      rcases h1 x (by simp) with rfl | rfl | rfl <;> simp) (by simp)
  have hf : decide ((1 : ℝ) ^ 1 * 0.5 / 2 < average ([({P a} : Finset (Vec 1)), {P b}, {P c}].map (getVolume line (P t)))) = false := by
    rw [decide_eq_false_iff_not, not_lt]
    simp only [List.map_cons, List.map_nil, getVolume_singleton line_proper, dist_P, average, List.sum_cons, List.sum_nil, List.length_cons, List.length_nil]
    push_cast
    linarith
  rw [hf] at h1
  choose F hF using fun dim => hasDimension_total g line 1 (some 10) (P t) dim
  refine ⟨fun dim => if dim = 1 then .ok false else F dim, fun dim => ?_, ?_⟩
  · simp only
    split_ifs with h
    · subst h; exact h1
    · exact hF dim
  · have hrange : List.range' 1 (3 : ℤ).toNat = [1, 2, 3] := rfl
    rw [hrange]
    simp [getDimensionLoop]

theorem seven_dims {pu : List (Vec 1)} (hu : IsUniqueList seven pu) {g : NxGraph (Vec 1) ℝ} (hg : g ∈ createClusters line 1 pu) :
    (∀ t ∈ [0, 0.02, (0.04 : ℝ)], GetDimension g line 1 3 (some 10) (P t) (.ok 0)) ∧ ∀ t ∈ [0.34, 1.1, 1.7, (2.3 : ℝ)], GetDimension g line 1 3 (some 10) (P t) (.ok 1) := by
  have hp := seven_one hu hg
  obtain ⟨-, -, hedge, -⟩ := C54_cluster_graph line_proper 1 hu hg
  have hE : ∀ s t : ℝ, g.hasEdge (P s) (P t) ↔ P s ∈ seven ∧ P t ∈ seven ∧ s ≠ t ∧ |t - s| ≤ 1 := fun s t => by
    rw [hedge, ← hp.mem_iff, ← hp.mem_iff, dist_P, abs_sub_comm]
    exact and_congr_right fun _ => and_congr_right fun _ => and_congr_left fun _ => not_congr ⟨fun h => P_inj h, fun h => by rw [h]⟩
  have hin : ∀ {x n}, g.hasEdge x n → n ∈ seven := fun h => hp.mem_iff.2 ((hedge _ _).1 h).2.1
  constructor
  · intro t ht
    simp only [List.mem_cons, List.not_mem_nil, or_false] at ht
    have near : ∀ n, g.hasEdge (P t) n → n = P 0 ∨ n = P 0.02 ∨ n = P 0.04 ∨ n = P 0.34 := by
      intro n hn
      have h4 := ((hedge _ _).1 hn).2.2.2
      rcases mem_seven.1 (hin hn) with rfl | rfl | rfl | rfl | rfl | rfl | rfl
      · exact .inl rfl
      · exact .inr (.inl rfl)
      · exact .inr (.inr (.inl rfl))
      · exact .inr (.inr (.inr rfl))
      all_goals
        exfalso
        rw [dist_P] at h4
        rcases ht with rfl | rfl | rfl <;> norm_num [abs_le] at h4
    have ne : ∀ n, g.hasEdge (P t) n → n ≠ P t := fun n hn h => ((hedge _ _).1 hn).2.2.1 h.symm
    rcases ht with rfl | rfl | rfl
    · refine three_near (a := 0.02) (b := 0.04) (c := 0.34) (by norm_num) (by norm_num) (by norm_num) (fun n => ⟨fun h => (near n h).resolve_left (ne n h), ?_⟩) (by norm_num [abs_of_pos])
      rintro (rfl | rfl | rfl) <;> rw [hE] <;> refine ⟨by simp [seven], by simp [seven], by norm_num, by norm_num [abs_le]⟩
    · refine three_near (a := 0) (b := 0.04) (c := 0.34) (by norm_num) (by norm_num) (by norm_num) (fun n => ⟨fun h => (near n h).imp_right fun h' => h'.resolve_left (ne n h), ?_⟩) (by norm_num [abs_of_pos])
      rintro (rfl | rfl | rfl) <;> rw [hE] <;> refine ⟨by simp [seven], by simp [seven], by norm_num, by norm_num [abs_le]⟩
    · refine three_near (a := 0) (b := 0.02) (c := 0.34) (by norm_num) (by norm_num) (by norm_num) (fun n => ⟨fun h => (near n h).imp_right fun h' => h'.imp_right fun h'' => h''.resolve_left (ne n h), ?_⟩) (by
        norm_num [abs_of_pos, abs_of_neg])
      rintro (rfl | rfl | rfl) <;> rw [hE] <;> refine ⟨by simp [seven], by simp [seven], by norm_num, by norm_num [abs_le]⟩
  · intro t ht
    obtain ⟨x, hx⟩ := getDimension_ok g line 1 (P t)
    have hle := ((getDimension_spec hx (by norm_num)).2 x rfl).2.2.1
    simp only [List.mem_cons, List.not_mem_nil, or_false] at ht
    have hnbr : ∃ n, g.hasEdge (P t) n := by
      rcases ht with rfl | rfl | rfl | rfl
      · exact ⟨P 1.1, (hE _ _).2 ⟨by simp [seven], by simp [seven], by norm_num, by norm_num [abs_le]⟩⟩
      · exact ⟨P 1.7, (hE _ _).2 ⟨by simp [seven], by simp [seven], by norm_num, by norm_num [abs_le]⟩⟩
      · exact ⟨P 1.1, (hE _ _).2 ⟨by simp [seven], by simp [seven], by norm_num, by norm_num [abs_le]⟩⟩
      · exact ⟨P 1.7, (hE _ _).2 ⟨by simp [seven], by simp [seven], by norm_num, by norm_num [abs_le]⟩⟩
    have := (C69_point_or_more line_proper (by norm_num) le_rfl hx).2 hnbr fun n hn => by
      have h3 := ((hedge _ _).1 hn).2.2.1
      rcases mem_seven.1 (hin hn) with rfl | rfl | rfl | rfl | rfl | rfl | rfl <;> rw [dist_P] <;> rcases ht with rfl | rfl | rfl | rfl <;>
        first
        | exact absurd rfl h3
        | (norm_num [lt_abs])
    have : x = 1 := by push_cast at hle; omega
    rwa [this] at hx

/-- C98 (six is the best possible).  Seven positions form one cluster, which may be reported as a line or as having no definite dimension. -/
theorem _root_.NF.C98_seven : seven.length = 7 ∧ ∃ out out', RunFromPositions seven line 1 "ballistic" (.ok out) ∧ RunFromPositions seven line 1 "ballistic" (.ok out') ∧
    out.results ≠ [] ∧ out'.results ≠ [] ∧ (∀ r ∈ out.results, r.positions.Perm seven ∧ r.dimension = some 1) ∧ ∀ r ∈ out'.results, r.positions.Perm seven ∧ r.dimension = none := by
  refine ⟨rfl, ?_⟩
  have hu : IsUniqueList seven seven := ⟨seven_nodup, fun _ => Iff.rfl⟩
  have hne : createClusters line 1 seven ≠ [] := by
    obtain ⟨i, -⟩ := (C51_clusters_partition line 1 hu).1 (P 0) (by simp [seven])
    exact List.length_pos_iff.1 (lt_of_le_of_lt (Nat.zero_le _) i.isLt)
  have hpos : ∀ {out}, RunFromPositions seven line 1 "ballistic" (.ok out) → ∀ r ∈ out.results, r.positions.Perm seven := fun h r hr => by
    obtain ⟨-, -, pu, hu, hall⟩ := runFromPositions_ok h
    obtain ⟨g, hg, hgr⟩ := forall₂_mem_right hall hr
    rw [(identifyCluster_positions hgr).1]
    exact (seven_one hu hg).symm
  obtain ⟨out, h1, l1, d1⟩ := run_with_dims line_proper one_pos hu (some 1) fun g hg => by
    obtain ⟨d0, d1⟩ := seven_dims hu hg
    refine dimension_possible (first := [P 0.34, P 1.1, P 1.7, P 2.3, P 0]) (rest := [P 0.02, P 0.04]) ?_ rfl (dims := [1, 1, 1, 1, 0])
      (.cons (d1 0.34 (by simp)) (.cons (d1 1.1 (by simp)) (.cons (d1 1.7 (by simp)) (.cons (d1 2.3 (by simp)) (.cons (d0 0 (by simp)) .nil))))) (by decide)
    refine List.Perm.trans ?_ (seven_one hu hg)
    refine (List.perm_ext_iff_of_nodup ?_ seven_nodup).2 fun y => ?_
    · have : [P 0.34, P 1.1, P 1.7, P 2.3, P 0] ++ [P 0.02, P 0.04] = [0.34, 1.1, 1.7, 2.3, 0, 0.02, 0.04].map P := rfl
      rw [this]
      refine List.Nodup.map (fun a b h => P_inj h) ?_
      simp only [List.nodup_cons, List.mem_cons, List.not_mem_nil, or_false, not_or, not_false_eq_true, List.nodup_nil, and_true]
      norm_num
    · rw [mem_seven]
      simp only [List.cons_append, List.nil_append, List.mem_cons, List.not_mem_nil, or_false]
      tauto
  obtain ⟨out', h2, l2, d2⟩ := run_with_dims line_proper one_pos hu none fun g hg => by
    obtain ⟨d0, d1⟩ := seven_dims hu hg
    refine ⟨seven, [0, 0, 0, 1, 1, 1, 1].map .ok, seven_one hu hg,
      .cons (d0 0 (by simp)) (.cons (d0 0.02 (by simp)) (.cons (d0 0.04 (by simp)) (.cons (d1 0.34 (by simp)) (.cons (d1 1.1 (by simp)) (.cons (d1 1.7 (by simp)) (.cons (d1 2.3 (by simp)) .nil)))))), ?_⟩
    simp only [List.map_cons, List.map_nil, calcLoop, checkCount, Counter.total]
    norm_num [Counter.add, Counter.mostCommon]
  refine ⟨out, out', h1, h2, ?_, ?_, fun r hr => ⟨hpos h1 r hr, d1 r hr⟩, fun r hr => ⟨hpos h2 r hr, d2 r hr⟩⟩
  · intro h
    rw [h] at l1
    exact hne (List.length_eq_zero_iff.1 l1.symm)
  · intro h
    rw [h] at l2
    exact hne (List.length_eq_zero_iff.1 l2.symm)

/-! ## A line or a plane -/

/-- a square -/
def square : CoordSys 2 := ⟨fun _ => 0, fun _ => 10, false⟩
theorem square_proper : ProperBox square := fun _ => by norm_num [square]
/-- a position on it -/
def node (p : ℕ × ℕ) : Vec 2 := ![(p.1 : ℝ), (p.2 : ℝ)]
theorem node_inj : Function.Injective node := fun p q h => by
  have h0 := congrFun h 0
  have h1 := congrFun h 1
  simp only [node, Matrix.cons_val_zero, Matrix.cons_val_one] at h0 h1
  exact Prod.ext (by exact_mod_cast h0) (by exact_mod_cast h1)
theorem conn_node (p q : ℕ × ℕ) : square.connectingVector (node p) (node q) = ![(q.1 : ℝ) - p.1, (q.2 : ℝ) - p.2] := by
  funext i
  fin_cases i <;> simp [CoordSys.connectingVector, square, node]
theorem dist_node (p q : ℕ × ℕ) : square.distance (node p) (node q) = Real.sqrt (((p.1 : ℝ) - q.1) ^ 2 + ((p.2 : ℝ) - q.2) ^ 2) := by
  rw [C03_distance_nonperiodic _ rfl]
  simp [eucl, Fin.sum_univ_two, node]

/-- the indices of the positions -/
def cells : List (ℕ × ℕ) := (List.range 8).product (List.range 8)
theorem mem_cells {p : ℕ × ℕ} : p ∈ cells ↔ p.1 < 8 ∧ p.2 < 8 := by
  obtain ⟨a, b⟩ := p
  simp [cells]
/-- 64 positions which fill a part of the square evenly -/
def grid : List (Vec 2) := cells.map node
theorem mem_grid {x : Vec 2} : x ∈ grid ↔ ∃ p : ℕ × ℕ, (p.1 < 8 ∧ p.2 < 8) ∧ node p = x := by simp only [grid, List.mem_map, mem_cells]
theorem grid_nodup : grid.Nodup := List.Nodup.map node_inj (by unfold cells; decide)

theorem grid_chain : ∀ x ∈ grid, Chain square 3 grid (node (0, 0)) x := by
  have h1 : ∀ j, j < 8 → Chain square 3 grid (node (0, 0)) (node (0, j)) := by
    intro j
    induction j with
    | zero => exact fun _ => .refl
    | succ j ih =>
      intro hj
      refine (ih (by omega)).tail ⟨mem_grid.2 ⟨_, ⟨by norm_num, by simp; omega⟩, rfl⟩, mem_grid.2 ⟨_, ⟨by norm_num, by simpa using hj⟩, rfl⟩, ?_⟩
      rw [dist_node]
      refine Real.sqrt_le_iff.2 ⟨by norm_num, ?_⟩
      push_cast
      ring_nf
      norm_num
  have h2 : ∀ i, i < 8 → ∀ j, j < 8 → Chain square 3 grid (node (0, 0)) (node (i, j)) := by
    intro i
    induction i with
    | zero => exact fun _ => h1
    | succ i ih =>
      intro hi j hj
      refine (ih (by omega) j hj).tail ⟨mem_grid.2 ⟨_, ⟨by simp; omega, by simpa using hj⟩, rfl⟩, mem_grid.2 ⟨_, ⟨by simpa using hi, by simpa using hj⟩, rfl⟩, ?_⟩
      rw [dist_node]
      refine Real.sqrt_le_iff.2 ⟨by norm_num, ?_⟩
      push_cast
      ring_nf
      norm_num
  intro x hx
  obtain ⟨⟨i, j⟩, ⟨hi, hj⟩, rfl⟩ := mem_grid.1 hx
  exact h2 i hi j hj

theorem grid_one {pu : List (Vec 2)} (hu : IsUniqueList grid pu) {g : NxGraph (Vec 2) ℝ} (hg : g ∈ createClusters square 3 pu) : grid.Perm g.nodes :=
  one_cluster square_proper grid_nodup (mem_grid.2 ⟨(0, 0), by norm_num, rfl⟩) grid_chain hu hg

/-- ten pairs of neighbours of (3, 3) in a straight line with it -/
def flatPairs : List ((ℕ × ℕ) × (ℕ × ℕ)) :=
  [((0, 3), (1, 3)), ((0, 3), (2, 3)), ((0, 3), (4, 3)), ((0, 3), (5, 3)), ((1, 3), (2, 3)), ((1, 3), (4, 3)), ((1, 3), (5, 3)), ((2, 3), (4, 3)), ((2, 3), (5, 3)), ((4, 3), (5, 3))]
/-- ten pairs which span a parallelogram of area 2 -/
def widePairs : List ((ℕ × ℕ) × (ℕ × ℕ)) :=
  [((4, 3), (3, 5)), ((4, 3), (3, 1)), ((2, 3), (3, 5)), ((2, 3), (3, 1)), ((5, 3), (3, 4)), ((5, 3), (3, 2)), ((1, 3), (3, 4)), ((1, 3), (3, 2)), ((4, 4), (4, 2)), ((4, 4), (2, 4))]

/-- the positions of a pair, seen from another position -/
def pairAt (c : ℕ × ℕ) (q : (ℕ × ℕ) × (ℕ × ℕ)) : Finset (Vec 2) := (({q.1, q.2} : Finset (ℕ × ℕ)).map (addLeftEmbedding c)).map ⟨node, node_inj⟩

theorem pairAt_eq (c : ℕ × ℕ) (q : (ℕ × ℕ) × (ℕ × ℕ)) : pairAt c q = {node (c + q.1), node (c + q.2)} := by
  unfold pairAt
  ext x
  simp only [Finset.mem_map, Finset.mem_insert, Finset.mem_singleton, addLeftEmbedding_apply, Function.Embedding.coeFn_mk]
  constructor
  · rintro ⟨_, ⟨y, rfl | rfl, rfl⟩, rfl⟩ <;> simp
  · rintro (rfl | rfl)
    · exact ⟨_, ⟨_, .inl rfl, rfl⟩, rfl⟩
    · exact ⟨_, ⟨_, .inr rfl, rfl⟩, rfl⟩

theorem pairAt_nodup (c : ℕ × ℕ) {l : List ((ℕ × ℕ) × (ℕ × ℕ))} (h : (l.map fun q => ({q.1, q.2} : Finset (ℕ × ℕ))).Nodup) : (l.map (pairAt c)).Nodup := by
  have : l.map (pairAt c) = (l.map fun q => ({q.1, q.2} : Finset (ℕ × ℕ))).map fun t => (t.map (addLeftEmbedding c)).map ⟨node, node_inj⟩ := by
    rw [List.map_map]; rfl
  rw [this]
  exact h.map fun a b h => Finset.map_injective _ (Finset.map_injective _ h)

theorem volume_pairAt (c : ℕ × ℕ) {q : (ℕ × ℕ) × (ℕ × ℕ)} (hq : q.1 ≠ q.2) :
    getVolume square (node (c + (3, 3))) (pairAt c q) = |((3 : ℝ) - q.1.1) * (3 - q.2.2) - (3 - q.1.2) * (3 - q.2.1)| := by
  rw [pairAt_eq, getVolume_pair _ _ (fun h => hq (add_left_cancel (node_inj h))), conn_node, conn_node]
  refine Eq.trans ?_ (Real.sqrt_sq_eq_abs _)
  congr 1
  simp only [dot, Fin.sum_univ_two, Matrix.cons_val_zero, Matrix.cons_val_one, Prod.fst_add, Prod.snd_add]
  rw [← abs_of_nonneg (sq_nonneg (((3 : ℝ) - q.1.1) * (3 - q.2.2) - (3 - q.1.2) * (3 - q.2.1)))]
  congr 1
  push_cast
  ring

theorem grid_edge {pu : List (Vec 2)} (hu : IsUniqueList grid pu) {g : NxGraph (Vec 2) ℝ} (hg : g ∈ createClusters square 3 pu) {c : ℕ × ℕ} (hc : c.1 ≤ 1 ∧ c.2 ≤ 1) {p : ℕ × ℕ} (hp : p.1 ≤ 6 ∧ p.2 ≤ 6) (hne : p ≠ (3, 3))
    (hd : ((p.1 : ℤ) - 3) ^ 2 + ((p.2 : ℤ) - 3) ^ 2 ≤ 9) : g.hasEdge (node (c + (3, 3))) (node (c + p)) := by
  obtain ⟨-, -, hedge, -⟩ := C54_cluster_graph square_proper 3 hu hg
  have hm := (grid_one hu hg).mem_iff (a := node (c + (3, 3)))
  have hm' := (grid_one hu hg).mem_iff (a := node (c + p))
  refine (hedge _ _).2 ⟨hm.1 (mem_grid.2 ⟨_, ⟨?_, ?_⟩, rfl⟩), hm'.1 (mem_grid.2 ⟨_, ⟨?_, ?_⟩, rfl⟩), fun h => hne (add_left_cancel (node_inj h)).symm, ?_⟩
  · simp only [Prod.fst_add]; omega
  · simp only [Prod.snd_add]; omega
  · simp only [Prod.fst_add]; omega
  · simp only [Prod.snd_add]; omega
  · rw [dist_node]
    refine Real.sqrt_le_iff.2 ⟨by norm_num, ?_⟩
    have : ((p.1 : ℝ) - 3) ^ 2 + ((p.2 : ℝ) - 3) ^ 2 ≤ 9 := by exact_mod_cast hd
    simp only [Prod.fst_add, Prod.snd_add]
    push_cast
    linarith

/-- Both outcomes of the test for two dimensions are possible. -/
theorem grid_has {pu : List (Vec 2)} (hu : IsUniqueList grid pu) {g : NxGraph (Vec 2) ℝ} (hg : g ∈ createClusters square 3 pu) {c : ℕ × ℕ} (hc : c.1 ≤ 1 ∧ c.2 ≤ 1) (b : Bool) :
    HasDimension g square 3 (some 10) (node (c + (3, 3))) 2 (.ok b) := by
  have hpi := Real.pi_pos
  have hpi3 := Real.pi_gt_three
  have hcard : ∀ q : (ℕ × ℕ) × (ℕ × ℕ), q.1 ≠ q.2 → (pairAt c q).card = 2 := fun q hq => by
    unfold pairAt
    rw [Finset.card_map, Finset.card_map, Finset.card_pair hq]
  have hedges : ∀ q : (ℕ × ℕ) × (ℕ × ℕ), ((q.1.1 ≤ 6 ∧ q.1.2 ≤ 6) ∧ q.1 ≠ (3, 3) ∧ ((q.1.1 : ℤ) - 3) ^ 2 + ((q.1.2 : ℤ) - 3) ^ 2 ≤ 9) →
      ((q.2.1 ≤ 6 ∧ q.2.2 ≤ 6) ∧ q.2 ≠ (3, 3) ∧ ((q.2.1 : ℤ) - 3) ^ 2 + ((q.2.2 : ℤ) - 3) ^ 2 ≤ 9) → ∀ n ∈ pairAt c q, g.hasEdge (node (c + (3, 3))) n := by
    rintro q ⟨h1, h2, h3⟩ ⟨k1, k2, k3⟩ n hn
    rw [pairAt_eq, Finset.mem_insert, Finset.mem_singleton] at hn
    rcases hn with rfl | rfl
    · exact grid_edge hu hg hc h1 h2 h3
    · exact grid_edge hu hg hc k1 k2 k3
  cases b with
  | false =>
    have := C98_equal_draws (g := g) (cs := square) (fs := 3) (minNb := 10) (pos := node (c + (3, 3))) (dim := 2) le_rfl (v := 8 / (9 * Real.pi)) rfl (c := 0) (by positivity)
      (l := flatPairs.map (pairAt c)) (pairAt_nodup c (by decide)) ?_ rfl ?_ ⟨pairAt c ((4, 3), (3, 4)), hcard _ (by decide), hedges _ (by decide) (by decide), ?_⟩
    · have e : decide ((0 : ℝ) > 3 ^ 2 * (8 / (9 * Real.pi)) / 2) = false := by
        rw [decide_eq_false_iff_not, not_lt]
        positivity
      rwa [e] at this
    · intro t ht
      obtain ⟨q, hq, rfl⟩ := List.mem_map.1 ht
      have : ∀ q ∈ flatPairs, q.1 ≠ q.2 ∧ ((q.1.1 ≤ 6 ∧ q.1.2 ≤ 6) ∧ q.1 ≠ (3, 3) ∧ ((q.1.1 : ℤ) - 3) ^ 2 + ((q.1.2 : ℤ) - 3) ^ 2 ≤ 9) ∧
        ((q.2.1 ≤ 6 ∧ q.2.2 ≤ 6) ∧ q.2 ≠ (3, 3) ∧ ((q.2.1 : ℤ) - 3) ^ 2 + ((q.2.2 : ℤ) - 3) ^ 2 ≤ 9) := by decide
      exact ⟨hcard q (this q hq).1, hedges q (this q hq).2.1 (this q hq).2.2⟩
    · intro t ht
      obtain ⟨q, hq, rfl⟩ := List.mem_map.1 ht
      have : ∀ q ∈ flatPairs, q.1 ≠ q.2 ∧ ((3 : ℤ) - q.1.1) * (3 - q.2.2) - (3 - q.1.2) * (3 - q.2.1) = 0 := by decide
      rw [volume_pairAt c (this q hq).1, abs_eq_zero]
      exact_mod_cast (this q hq).2
    · intro h
      obtain ⟨q, hq, e⟩ := List.mem_map.1 h
      have e' : ({q.1, q.2} : Finset (ℕ × ℕ)) = {(4, 3), (3, 4)} := Finset.map_injective _ (Finset.map_injective _ e)
      have : ∀ q ∈ flatPairs, ({q.1, q.2} : Finset (ℕ × ℕ)) ≠ {(4, 3), (3, 4)} := by decide
      exact this q hq e'
  | true =>
    have hlt : (3 : ℝ) ^ 2 * (8 / (9 * Real.pi)) / 2 < 2 := by
      rw [div_lt_iff₀ (by norm_num), ← mul_div_assoc, div_lt_iff₀ (by positivity)]
      linarith
    have := C98_equal_draws (g := g) (cs := square) (fs := 3) (minNb := 10) (pos := node (c + (3, 3))) (dim := 2) le_rfl (v := 8 / (9 * Real.pi)) rfl (c := 2) hlt.ne'
      (l := widePairs.map (pairAt c)) (pairAt_nodup c (by decide)) ?_ rfl ?_ ⟨pairAt c ((4, 3), (3, 4)), hcard _ (by decide), hedges _ (by decide) (by decide), ?_⟩
    · have e : decide ((2 : ℝ) > 3 ^ 2 * (8 / (9 * Real.pi)) / 2) = true := by
        rw [decide_eq_true_iff]
        exact hlt
      rwa [e] at this
    · intro t ht
      obtain ⟨q, hq, rfl⟩ := List.mem_map.1 ht
      have : ∀ q ∈ widePairs, q.1 ≠ q.2 ∧ ((q.1.1 ≤ 6 ∧ q.1.2 ≤ 6) ∧ q.1 ≠ (3, 3) ∧ ((q.1.1 : ℤ) - 3) ^ 2 + ((q.1.2 : ℤ) - 3) ^ 2 ≤ 9) ∧
        ((q.2.1 ≤ 6 ∧ q.2.2 ≤ 6) ∧ q.2 ≠ (3, 3) ∧ ((q.2.1 : ℤ) - 3) ^ 2 + ((q.2.2 : ℤ) - 3) ^ 2 ≤ 9) := by decide
      exact ⟨hcard q (this q hq).1, hedges q (this q hq).2.1 (this q hq).2.2⟩
    · intro t ht
      obtain ⟨q, hq, rfl⟩ := List.mem_map.1 ht
      have : ∀ q ∈ widePairs, q.1 ≠ q.2 ∧ |((3 : ℤ) - q.1.1) * (3 - q.2.2) - (3 - q.1.2) * (3 - q.2.1)| = 2 := by decide
      rw [volume_pairAt c (this q hq).1]
      exact_mod_cast (this q hq).2
    · intro h
      obtain ⟨q, hq, e⟩ := List.mem_map.1 h
      have e' : ({q.1, q.2} : Finset (ℕ × ℕ)) = {(4, 3), (3, 4)} := Finset.map_injective _ (Finset.map_injective _ e)
      have : ∀ q ∈ widePairs, ({q.1, q.2} : Finset (ℕ × ℕ)) ≠ {(4, 3), (3, 4)} := by decide
      exact this q hq e'

theorem grid_dim {pu : List (Vec 2)} (hu : IsUniqueList grid pu) {g : NxGraph (Vec 2) ℝ} (hg : g ∈ createClusters square 3 pu) {c : ℕ × ℕ} (hc : c.1 ≤ 1 ∧ c.2 ≤ 1) :
    GetDimension g square 3 3 (some 10) (node (c + (3, 3))) (.ok 1) ∧ GetDimension g square 3 3 (some 10) (node (c + (3, 3))) (.ok 2) := by
  obtain ⟨x, hx⟩ := getDimension_ok g square 3 (node (c + (3, 3)))
  obtain ⟨-, -, hedge, -⟩ := C54_cluster_graph square_proper 3 hu hg
  have h1 := (C69_point_or_more square_proper (by norm_num) (by norm_num) hx).2 ⟨_, grid_edge hu hg hc (p := (3, 4)) (by norm_num) (by decide) (by norm_num)⟩ fun n hn => by
    obtain ⟨m1, m2, m3, -⟩ := (hedge _ _).1 hn
    obtain ⟨p, -, rfl⟩ := mem_grid.1 ((grid_one hu hg).mem_iff.2 m2)
    obtain ⟨q, -, hq⟩ := mem_grid.1 ((grid_one hu hg).mem_iff.2 m1)
    rw [← hq] at m3 ⊢
    have hpq : p ≠ q := fun e => m3 (by rw [e])
    rw [dist_node]
    have : (1 : ℝ) ≤ ((p.1 : ℝ) - q.1) ^ 2 + ((p.2 : ℝ) - q.2) ^ 2 := by
      have : (1 : ℤ) ≤ ((p.1 : ℤ) - q.1) ^ 2 + ((p.2 : ℤ) - q.2) ^ 2 := by
        by_contra hlt
        have e1 : ((p.1 : ℤ) - q.1) ^ 2 = 0 := by nlinarith [sq_nonneg ((p.1 : ℤ) - q.1), sq_nonneg ((p.2 : ℤ) - q.2)]
        have e2 : ((p.2 : ℤ) - q.2) ^ 2 = 0 := by nlinarith [sq_nonneg ((p.1 : ℤ) - q.1), sq_nonneg ((p.2 : ℤ) - q.2)]
        have e1 := pow_eq_zero_iff (two_ne_zero) |>.1 e1
        have e2 := pow_eq_zero_iff (two_ne_zero) |>.1 e2
        exact hpq (Prod.ext (by omega) (by omega))
      exact_mod_cast this
    have := Real.le_sqrt_of_sq_le (x := 1) (by simpa using this)
    linarith
  obtain ⟨has, hhas, hr⟩ := hx
  have hrange : List.range' 1 (3 : ℤ).toNat = [1, 2, 3] := rfl
  rw [hrange] at hr
  have ht : has 1 = .ok true := by
    unfold getDimensionLoop at hr
    match hh : has 1 with
    | .error e => rw [hh] at hr; cases hr
    | .ok true => rfl
    | .ok false =>
      rw [hh] at hr
      have := Except.ok.inj hr
      push_cast at this
      omega
  have h3 : has 3 = .ok false := hasDimension_large (hhas 3) (by norm_num)
  have key : ∀ b : Bool, GetDimension g square 3 3 (some 10) (node (c + (3, 3))) (.ok (if b then 2 else 1)) := by
    intro b
    refine ⟨fun dim => if dim = 2 then .ok b else has dim, fun dim => ?_, ?_⟩
    · simp only
      split_ifs with h
      · subst h; exact grid_has hu hg hc b
      · exact hhas dim
    · rw [hrange]
      cases b <;> simp [getDimensionLoop, ht, h3]
  exact ⟨key false, key true⟩

/-- C98 (a line or a plane).  64 positions fill a part of a plane evenly.  The same call to `identify.run_from_positions` may report them as a line or as a plane, depending on which neighbours are drawn. -/
theorem _root_.NF.C98_line_or_plane : ∃ out out', RunFromPositions grid square 3 "ballistic" (.ok out) ∧ RunFromPositions grid square 3 "ballistic" (.ok out') ∧
    out.results ≠ [] ∧ out'.results ≠ [] ∧ (∀ r ∈ out.results, r.positions.Perm grid ∧ r.dimension = some 1) ∧ ∀ r ∈ out'.results, r.positions.Perm grid ∧ r.dimension = some 2 := by
  have hu : IsUniqueList grid grid := ⟨grid_nodup, fun _ => Iff.rfl⟩
  have hne : createClusters square 3 grid ≠ [] := by
    obtain ⟨i, -⟩ := (C51_clusters_partition square 3 hu).1 (node (0, 0)) (mem_grid.2 ⟨(0, 0), by norm_num, rfl⟩)
    exact List.length_pos_iff.1 (lt_of_le_of_lt (Nat.zero_le _) i.isLt)
  have hpos : ∀ {out}, RunFromPositions grid square 3 "ballistic" (.ok out) → ∀ r ∈ out.results, r.positions.Perm grid := fun h r hr => by
    obtain ⟨-, -, pu, hu, hall⟩ := runFromPositions_ok h
    obtain ⟨g, hg, hgr⟩ := forall₂_mem_right hall hr
    rw [(identifyCluster_positions hgr).1]
    exact (grid_one hu hg).symm
  have key : ∀ k : ℤ, (∀ g ∈ createClusters square 3 grid, ∀ c : ℕ × ℕ, c.1 ≤ 1 ∧ c.2 ≤ 1 → GetDimension g square 3 3 (some 10) (node (c + (3, 3))) (.ok k)) →
      ∀ g ∈ createClusters square 3 grid, CalculateDimension g square 3 3 (some 5) (some 10) (.ok (some k)) := by
    intro k hk g hg
    obtain ⟨x, hx⟩ := getDimension_ok g square 3 (node (0, 0))
    have hsub : List.Subperm ([((0, 0) + (3, 3) : ℕ × ℕ), (0, 1) + (3, 3), (1, 0) + (3, 3), (1, 1) + (3, 3), (0, 0)].map node) grid := by
      unfold grid
      refine (List.subperm_of_subset (by decide) fun p hp => mem_cells.2 ?_).map node_inj
      revert p
      decide
    obtain ⟨l, hl, hls⟩ := hsub
    obtain ⟨rest, hrest'⟩ := hls.exists_perm_append
    have hrest := hrest'.trans (hl.append_right rest)
    refine dimension_possible (rest := rest) (hrest.symm.trans (grid_one hu hg)) (by simp) (dims := [k, k, k, k, x])
      (.cons (hk g hg (0, 0) (by norm_num)) (.cons (hk g hg (0, 1) (by norm_num)) (.cons (hk g hg (1, 0) (by norm_num)) (.cons (hk g hg (1, 1) (by norm_num)) (.cons hx .nil))))) ?_
    simp only [List.count_cons, List.count_nil]
    simp
  obtain ⟨out, h1, l1, d1⟩ := run_with_dims square_proper (by norm_num) hu (some 1) (key 1 fun g hg c hc => (grid_dim hu hg hc).1)
  obtain ⟨out', h2, l2, d2⟩ := run_with_dims square_proper (by norm_num) hu (some 2) (key 2 fun g hg c hc => (grid_dim hu hg hc).2)
  refine ⟨out, out', h1, h2, ?_, ?_, fun r hr => ⟨hpos h1 r hr, d1 r hr⟩, fun r hr => ⟨hpos h2 r hr, d2 r hr⟩⟩
  · intro h
    rw [h] at l1
    exact hne (List.length_eq_zero_iff.1 l1.symm)
  · intro h
    rw [h] at l2
    exact hne (List.length_eq_zero_iff.1 l2.symm)

end C98Demo
end NF
