import Verif.Props.Moved
import Verif.Props.Isolated
import Verif.Spec.Axes
import Verif.Props.Chance

/-!
# C99: the names and the directions of the axes do not matter for the identification
-/

noncomputable section
open Classical

namespace NF
open Spec
variable {d : ℕ}

/-! ## Another order -/

theorem similar_reorder (σ : Equiv.Perm (Fin d)) (cs : CoordSys d) : Similar cs (reorderBox σ cs) Set.univ (reorder σ) 1 (reorder σ) where
  pos := one_pos
  inj x y h := by
    funext i
    have := congrFun h (σ.symm i)
    simpa [reorder] using this
  dist x _ y _ := by
    rw [one_mul]
    unfold CoordSys.distance CoordSys.norm
    congr 1
    exact Equiv.sum_comp σ fun i => cs.distDelta x y i ^ 2
  vec x _ y _ i := by rw [one_mul]; rfl
  smul _ _ _ := rfl
  dot u v := Equiv.sum_comp σ fun i => u i * v i

theorem average_reorder (σ : Equiv.Perm (Fin d)) (cs : CoordSys d) (l : List (Vec d)) (p : Vec d) (h : cs.average l = .ok p) : (reorderBox σ cs).average (l.map (reorder σ)) = .ok (reorder σ p) := by
  have hmean : ∀ l : List (Vec d), CoordSys.mean (l.map (reorder σ)) = reorder σ (CoordSys.mean l) := by
    intro l
    funext i
    unfold CoordSys.mean reorder
    simp only [List.map_map, List.length_map]
    rfl
  cases l with
  | nil => cases h
  | cons o l =>
    unfold CoordSys.average at h ⊢
    rw [List.map_cons]
    dsimp only at h ⊢
    have hp : (reorderBox σ cs).periodic = cs.periodic := rfl
    rw [hp]
    by_cases hpp : cs.periodic
    · rw [if_pos hpp] at h ⊢
      cases h
      congr 1
      have : ((reorder σ o :: l.map (reorder σ)).map fun pos => (reorderBox σ cs).connectingVector (reorder σ o) pos) = ((o :: l).map fun pos => cs.connectingVector o pos).map (reorder σ) := by
        rw [← List.map_cons (f := reorder σ), List.map_map, List.map_map]
        rfl
      rw [this, hmean]
      rfl
    · rw [if_neg hpp] at h ⊢
      cases h
      rw [← List.map_cons (f := reorder σ), hmean]

theorem reorder_symm (σ : Equiv.Perm (Fin d)) (x : Vec d) : reorder σ.symm (reorder σ x) = x := by
  funext i
  simp [reorder]

theorem reorder_symm' (σ : Equiv.Perm (Fin d)) (x : Vec d) : reorder σ (reorder σ.symm x) = x := by
  funext i
  simp [reorder]

/-- **C99** (names of the axes).  With the coordinates in another order, exactly the same results are possible, in the new coordinates. -/
theorem C99_reorder (σ : Equiv.Perm (Fin d)) (positions : List (Vec d)) (cs : CoordSys d) (fs : ℝ) (method : String) :
    SameOutcomes (MovedOutcome (reorder σ) fun p q => q = reorder σ p) (RunFromPositions positions cs fs method) (RunFromPositions (positions.map (reorder σ)) (reorderBox σ cs) fs method) := by
  have hcs : reorderBox σ.symm (reorderBox σ cs) = cs := by
    unfold reorderBox
    dsimp only
    rw [reorder_symm, reorder_symm]
  have := similar_sameOutcomes (similar_reorder σ cs) (f' := reorder σ.symm) (R' := reorder σ.symm) (P := fun p q => q = reorder σ p) (P' := fun p q => q = reorder σ.symm p) (reorder_symm σ) (reorder_symm' σ)
    (reorder_symm σ) (reorder_symm' σ) (fun l _ p h => ⟨_, average_reorder σ cs l p h, rfl⟩) (fun l _ p h => ⟨_, by
      have := average_reorder σ.symm (reorderBox σ cs) l p h
      rwa [hcs] at this, rfl⟩) (fun p q h => by rw [h, reorder_symm']) (positions := positions) (fun _ _ => trivial) fs method
  rwa [one_mul] at this

/-! ## Other directions -/

theorem mirror_mirror (cs : CoordSys d) (M : Set (Fin d)) (x : Vec d) : mirror cs M (mirror cs M x) = x := by
  funext i
  unfold mirror
  split_ifs <;> ring

/-- The change of the directions, without the change of the origin. -/
def flip (M : Set (Fin d)) (v : Vec d) : Vec d := fun i => if i ∈ M then -v i else v i

theorem flip_flip (M : Set (Fin d)) (v : Vec d) : flip M (flip M v) = v := by
  funext i
  unfold flip
  split_ifs <;> ring

theorem pmod_neg {x s : ℝ} (hs : 0 < s) (h : pmod x s ≠ 0) : pmod (-x) s = s - pmod x s := by
  obtain ⟨k, hk⟩ := pmod_exists x s
  have h1 : -x = (s - pmod x s) + ((k - 1 : ℤ) : ℝ) * s := by
    rw [hk]
    push_cast
    ring
  have h0 := pmod_nonneg hs x
  have h2 := pmod_lt hs x
  rw [h1, pmod_add_int_mul hs]
  exact pmod_eq_self (by linarith) (by have := lt_of_le_of_ne h0 (Ne.symm h); linarith)

theorem pmod_neg_zero {x s : ℝ} (hs : 0 < s) (h : pmod x s = 0) : pmod (-x) s = 0 := by
  obtain ⟨k, hk⟩ := pmod_exists x s
  have h1 : -x = 0 + (k : ℝ) * s := by linarith
  rw [h1, pmod_add_int_mul hs]
  exact pmod_eq_self le_rfl hs

theorem mirror_vectors {cs : CoordSys d} (hb : ProperBox cs) {M : Set (Fin d)} {x y : Vec d} (h : cs.periodic = true → ¬ HalfApart cs M x y) :
    cs.connectingVector (mirror cs M x) (mirror cs M y) = flip M (cs.connectingVector x y) ∧ cs.distance (mirror cs M x) (mirror cs M y) = cs.distance x y := by
  have hdiff : ∀ i, mirror cs M y i - mirror cs M x i = if i ∈ M then -(y i - x i) else y i - x i := by
    intro i
    unfold mirror
    split_ifs <;> ring
  by_cases hp : cs.periodic
  · have hs := fun i => CoordSys.size_pos hb i
    constructor
    · funext i
      simp only [CoordSys.connectingVector, hp, if_true, hdiff, flip]
      by_cases hi : i ∈ M
      · simp only [hi, if_true]
        by_cases h0 : pmod (y i - x i) (cs.size i) = 0
        · rw [pmod_neg_zero (hs i) h0, h0]
          have := hs i
          rw [if_neg (by linarith)]
          ring
        · rw [pmod_neg (hs i) h0]
          have hne : pmod (y i - x i) (cs.size i) ≠ cs.size i / 2 := by
            intro e
            obtain ⟨k, hk⟩ := pmod_exists (y i - x i) (cs.size i)
            refine h hp ⟨i, hi, -k, ?_⟩
            rw [e] at hk
            simp only [CoordSys.size] at hk
            push_cast
            linarith
          rcases lt_or_gt_of_ne hne with hlt | hgt
          · rw [if_pos (by linarith), if_neg (by linarith)]
            ring
          · rw [if_neg (by linarith), if_pos (by linarith)]
            ring
      · simp only [hi, if_false]
    · unfold CoordSys.distance
      congr 1
      funext i
      simp only [CoordSys.distDelta, hp, if_true, hdiff]
      by_cases hi : i ∈ M
      · simp only [hi, if_true]
        by_cases h0 : pmod (y i - x i) (cs.size i) = 0
        · rw [pmod_neg_zero (hs i) h0, h0]
        · rw [pmod_neg (hs i) h0, min_comm]
          congr 1
          ring
      · simp only [hi, if_false]
  · constructor
    · funext i
      simp only [CoordSys.connectingVector, hp, hdiff, flip]
      rfl
    · unfold CoordSys.distance CoordSys.norm
      congr 1
      refine Finset.sum_congr rfl fun i _ => ?_
      simp only [CoordSys.distDelta, hp, hdiff]
      simp only [Bool.false_eq_true, if_false]
      split_ifs <;> ring

theorem similar_mirror {cs : CoordSys d} (hb : ProperBox cs) (M : Set (Fin d)) {S : Set (Vec d)} (h : cs.periodic = true → ∀ x ∈ S, ∀ y ∈ S, ¬ HalfApart cs M x y) : Similar cs cs S (mirror cs M) 1 (flip M) where
  pos := one_pos
  inj := Function.LeftInverse.injective (mirror_mirror cs M)
  dist x hx y hy := by rw [(mirror_vectors hb fun hp => h hp x hx y hy).2, one_mul]
  vec x hx y hy i := by rw [(mirror_vectors hb fun hp => h hp x hx y hy).1, one_mul]
  smul c v i := by unfold flip; split_ifs <;> ring
  dot u v := by
    unfold NF.dot
    refine Finset.sum_congr rfl fun i _ => ?_
    unfold flip
    split_ifs <;> ring

theorem mean_flip (M : Set (Fin d)) (l : List (Vec d)) : CoordSys.mean (l.map (flip M)) = flip M (CoordSys.mean l) := by
  funext i
  unfold CoordSys.mean flip
  simp only [List.map_map, List.length_map]
  by_cases hi : i ∈ M
  · simp only [hi, if_true]
    have : ∀ l : List (Vec d), (l.map ((fun p => p i) ∘ fun v i => if i ∈ M then -v i else v i)).sum = -(l.map fun p => p i).sum := by
      intro l
      induction l with
      | nil => simp
      | cons a l ih => simp only [List.map_cons, List.sum_cons, ih, Function.comp_apply, hi, if_true]; ring
    rw [this, neg_div]
  · simp only [hi, if_false]
    congr 2
    refine List.map_congr_left fun p _ => ?_
    simp only [Function.comp_apply, hi, if_false]

theorem average_mirror {cs : CoordSys d} (hb : ProperBox cs) (M : Set (Fin d)) {S : Set (Vec d)} (h : cs.periodic = true → ∀ x ∈ S, ∀ y ∈ S, ¬ HalfApart cs M x y) (l : List (Vec d)) (hl : ∀ x ∈ l, x ∈ S) (p : Vec d)
    (h' : cs.average l = .ok p) : ∃ q, cs.average (l.map (mirror cs M)) = .ok q ∧ SamePoint cs (mirror cs M p) q := by
  cases l with
  | nil => cases h'
  | cons o l =>
    unfold CoordSys.average at h' ⊢
    rw [List.map_cons]
    dsimp only at h' ⊢
    unfold SamePoint
    by_cases hp : cs.periodic
    · rw [if_pos hp] at h' ⊢
      cases h'
      refine ⟨_, rfl, ?_⟩
      rw [if_pos hp]
      have hm : ((mirror cs M o :: l.map (mirror cs M)).map fun pos => cs.connectingVector (mirror cs M o) pos) = ((o :: l).map fun pos => cs.connectingVector o pos).map (flip M) := by
        rw [← List.map_cons, List.map_map, List.map_map]
        exact List.map_congr_left fun x hx => (mirror_vectors hb fun hp => h hp o (hl o List.mem_cons_self) x (hl x hx)).1
      rw [hm, mean_flip]
      generalize CoordSys.mean ((o :: l).map fun pos => cs.connectingVector o pos) = m
      have hk : ∀ i, ∃ k : ℤ, pmod (mirror cs M o i + flip M m i) (cs.size i) = mirror cs M (fun i => pmod (o i + m i) (cs.size i)) i + k * (cs.upper i - cs.lower i) := by
        intro i
        obtain ⟨k1, h1⟩ := pmod_exists (mirror cs M o i + flip M m i) (cs.size i)
        obtain ⟨k2, h2⟩ := pmod_exists (o i + m i) (cs.size i)
        rw [h1]
        unfold mirror flip
        by_cases hi : i ∈ M
        · simp only [hi, if_true, CoordSys.size]
          refine ⟨k1 + k2, ?_⟩
          simp only [CoordSys.size] at h2
          rw [h2]
          push_cast
          ring
        · simp only [hi, if_false, CoordSys.size]
          refine ⟨k1 - k2, ?_⟩
          simp only [CoordSys.size] at h2
          rw [h2]
          push_cast
          ring
      choose k hk using hk
      exact ⟨k, funext hk⟩
    · rw [if_neg hp] at h' ⊢
      cases h'
      refine ⟨_, rfl, ?_⟩
      rw [if_neg hp]
      rw [← List.map_cons (f := mirror cs M)]
      generalize hL : o :: l = L
      have hlen : (L.length : ℝ) ≠ 0 := by rw [← hL]; simp; positivity
      funext i
      unfold CoordSys.mean mirror
      simp only [List.map_map, List.length_map]
      by_cases hi : i ∈ M
      · simp only [hi, if_true]
        have : ∀ l : List (Vec d), (l.map ((fun p => p i) ∘ fun x i => if i ∈ M then cs.lower i + cs.upper i - x i else x i)).sum = l.length * (cs.lower i + cs.upper i) - (l.map fun p => p i).sum := by
          intro l
          induction l with
          | nil => simp
          | cons a l ih => simp only [List.map_cons, List.sum_cons, ih, Function.comp_apply, hi, if_true, List.length_cons]; push_cast; ring
        rw [this]
        field_simp
      · simp only [hi, if_false]
        congr 2
        refine List.map_congr_left fun p _ => ?_
        simp only [Function.comp_apply, hi, if_false]

theorem halfApart_mirror {cs : CoordSys d} {M : Set (Fin d)} {x y : Vec d} (h : HalfApart cs M (mirror cs M x) (mirror cs M y)) : HalfApart cs M x y := by
  obtain ⟨i, hi, k, hk⟩ := h
  refine ⟨i, hi, -k - 1, ?_⟩
  simp only [mirror, hi, if_true] at hk
  push_cast
  linarith

/-- **C99** (directions of the axes).  When the coordinates in `M` are counted from the other end of the box, exactly the same results are possible, in the new coordinates, provided that no two positions are an odd number of
half box lengths apart in one of these coordinates (if the space is periodic). -/
theorem C99_mirror {cs : CoordSys d} (hb : ProperBox cs) (M : Set (Fin d)) {positions : List (Vec d)} (h : cs.periodic = true → ∀ x ∈ positions, ∀ y ∈ positions, ¬ HalfApart cs M x y) (fs : ℝ) (method : String) :
    SameOutcomes (MovedOutcome (mirror cs M) fun p q => SamePoint cs (mirror cs M p) q) (RunFromPositions positions cs fs method) (RunFromPositions (positions.map (mirror cs M)) cs fs method) := by
  have := similar_sameOutcomes (similar_mirror hb M (S := {x | x ∈ positions}) h) (f' := mirror cs M) (R' := flip M) (P := fun p q => SamePoint cs (mirror cs M p) q) (P' := fun p q => SamePoint cs (mirror cs M p) q)
    (mirror_mirror cs M) (mirror_mirror cs M) (flip_flip M) (flip_flip M) (average_mirror hb M h) (average_mirror hb M (fun hp x hx y hy hxy => by
      obtain ⟨x, hx, rfl⟩ := hx
      obtain ⟨y, hy, rfl⟩ := hy
      exact h hp x hx y hy (halfApart_mirror hxy))) (fun p q hpq => by
      unfold SamePoint at hpq ⊢
      split_ifs at hpq ⊢ with hp
      · obtain ⟨k, rfl⟩ := hpq
        refine ⟨fun i => if i ∈ M then k i else -k i, ?_⟩
        funext i
        simp only [mirror, shift]
        split_ifs <;> push_cast <;> ring
      · rw [← hpq, mirror_mirror]) (positions := positions) (fun x hx => hx) fs method
  rwa [one_mul] at this


/-! ## The exception is needed -/

namespace C99Demo
/-- a periodic interval -/
def ring : CoordSys 1 := ⟨fun _ => 0, fun _ => 1, true⟩
theorem ring_proper : ProperBox ring := fun _ => by norm_num [ring]
/-- a position on it -/
def P (t : ℝ) : Vec 1 := fun _ => t
theorem P_inj {s t : ℝ} (h : P s = P t) : s = t := congrFun h 0
theorem conn_P (k : ℤ) {s t r : ℝ} (h0 : 0 ≤ r) (h1 : r ≤ 1 / 2) (h : t - s = r + k) : ring.connectingVector (P s) (P t) = P r := by
  funext i
  have : pmod (t - s) 1 = r := pmod_unique k h0 (by linarith) (by rw [h]; ring)
  simp only [CoordSys.connectingVector, ring, P, CoordSys.size, sub_zero, this, if_true]
  rw [if_neg (by linarith)]
theorem conn_P' (k : ℤ) {s t r : ℝ} (h0 : 1 / 2 < r) (h1 : r < 1) (h : t - s = r + k) : ring.connectingVector (P s) (P t) = P (r - 1) := by
  funext i
  have : pmod (t - s) 1 = r := pmod_unique k (by linarith) (by linarith) (by rw [h]; ring)
  simp only [CoordSys.connectingVector, ring, P, CoordSys.size, sub_zero, this, if_true]
  rw [if_pos (by linarith)]

theorem dist_le (x y : Vec 1) : ring.distance x y ≤ 1 / 2 := by
  unfold CoordSys.distance CoordSys.norm
  refine Real.sqrt_le_iff.2 ⟨by norm_num, ?_⟩
  simp only [Finset.univ_unique, Fin.default_eq_zero, Finset.sum_singleton, CoordSys.distDelta, ring, CoordSys.size, if_true, sub_zero]
  have h0 := pmod_nonneg one_pos (y 0 - x 0)
  have h1 := pmod_lt one_pos (y 0 - x 0)
  rcases min_cases (1 - pmod (y 0 - x 0) 1) (pmod (y 0 - x 0) 1) with ⟨h, h'⟩ | ⟨h, h'⟩ <;> rw [h] <;> nlinarith

/-- With a large feature size every cluster is a point. -/
theorem all_points {ps pu : List (Vec 1)} (hu : IsUniqueList ps pu) {g : NxGraph (Vec 1) ℝ} (hg : g ∈ createClusters ring 3 pu) {o : Except Err (Option ℤ)} (h : CalculateDimension g ring 3 3 (some 5) (some 10) o) : o = .ok (some 0) :=
  dimension_tiny le_rfl (C54_cluster_graph ring_proper 3 hu hg).1 ((C51_clusters_partition ring 3 hu).2 g hg).1 ring_proper (fun x y _ => (dist_le y x).trans (by norm_num)) h

theorem run_average {ps : List (Vec 1)} {out : IdContainer 1} (h : RunFromPositions ps ring 3 "ballistic" (.ok out)) {r : IdResult 1} (hr : r ∈ out.results) {p : Vec 1} (hp : r.shape = some (.point p)) : ring.average r.positions = .ok p := by
  obtain ⟨-, -, pu, hu, hall⟩ := runFromPositions_ok h
  obtain ⟨g, hg, hgr⟩ := forall₂_mem_right hall hr
  obtain ⟨-, e2, -⟩ := identifyCluster_positions hgr
  obtain ⟨q, h1, h2⟩ := (C65_results ring_proper (by norm_num) h).point r hr (Except.ok.inj (all_points hu hg e2))
  rw [hp] at h1
  cases h1
  exact h2

theorem dist_three (x y : Vec 1) : ring.distance x y ≤ 3 := (dist_le x y).trans (by norm_num)

theorem run_perm {ps : List (Vec 1)} (hnd : ps.Nodup) {x₀ : Vec 1} (hx₀ : x₀ ∈ ps) {out : IdContainer 1} (h : RunFromPositions ps ring 3 "ballistic" (.ok out)) {r : IdResult 1} (hr : r ∈ out.results) : ps.Perm r.positions := by
  obtain ⟨-, -, pu, hu, hall⟩ := runFromPositions_ok h
  obtain ⟨g, hg, hgr⟩ := forall₂_mem_right hall hr
  rw [(identifyCluster_positions hgr).1]
  exact one_cluster ring_proper hnd hx₀ (fun x hx => .single ⟨hx₀, hx, dist_three _ _⟩) hu hg

/-- The positions in this order are averaged in some run. -/
theorem run_exists {ps : List (Vec 1)} (hnd : ps.Nodup) {x₀ : Vec 1} (hx₀ : x₀ ∈ ps) {p : Vec 1} (hp : ring.average ps = .ok p) :
    ∃ out, RunFromPositions ps ring 3 "ballistic" (.ok out) ∧ ∃ r ∈ out.results, r.shape = some (.point p) := by
  have hu : IsUniqueList ps ps := ⟨hnd, fun _ => Iff.rfl⟩
  have hg : ∀ g ∈ createClusters ring 3 ps, IdentifyCluster ring 3 "ballistic" g (.ok ⟨g.nodes, some 0, some (.point p)⟩) := by
    intro g hg
    have hperm := one_cluster ring_proper hnd hx₀ (fun x hx => .single ⟨hx₀, hx, dist_three _ _⟩) hu hg
    have hsub : g.nodes.Sublist ps := by
      unfold createClusters at hg
      obtain ⟨n, -, rfl⟩ := List.mem_map.1 hg
      exact List.filter_sublist
    obtain ⟨r, hr⟩ := C55_total g ring 3 3 (some 5) (some 10)
    have e := all_points hu hg hr
    rw [e] at hr
    refine .ok hr (.point ?_)
    rw [hsub.eq_of_length hperm.length_eq.symm]
    exact hp
  have hne : createClusters ring 3 ps ≠ [] := by
    obtain ⟨i, -⟩ := (C51_clusters_partition ring 3 hu).1 x₀ hx₀
    exact List.length_pos_iff.1 (lt_of_le_of_lt (Nat.zero_le _) i.isLt)
  obtain ⟨g, hgm⟩ := List.exists_mem_of_ne_nil _ hne
  refine ⟨⟨ring, 3, (createClusters ring 3 ps).map fun g => ⟨g.nodes, some 0, some (.point p)⟩⟩,
    .ok hu (outcomes := ((createClusters ring 3 ps).map fun g => (⟨g.nodes, some 0, some (.point p)⟩ : IdResult 1)).map .ok) ?_ (collect_eq_ok.2 rfl), _, List.mem_map.2 ⟨g, hgm, rfl⟩, rfl⟩
  rw [List.map_map, List.forall₂_map_right_iff, List.forall₂_same]
  exact hg

theorem mean_perm {l l' : List (Vec 1)} (h : l.Perm l') : CoordSys.mean l = CoordSys.mean l' := by
  funext i
  unfold CoordSys.mean
  rw [(h.map _).sum_eq, h.length_eq]

/-- the positions -/
def three : List (Vec 1) := [P 0, P 0.5, P 0.1]

theorem three_nodup : three.Nodup := by
  have : three = [0, 0.5, 0.1].map P := rfl
  rw [this]
  refine List.Nodup.map (fun a b h => P_inj h) ?_
  simp only [List.nodup_cons, List.mem_cons, List.not_mem_nil, or_false, not_or, not_false_eq_true, List.nodup_nil, and_true]
  norm_num

theorem mirror_P (t : ℝ) : mirror ring Set.univ (P t) = P (1 - t) := by
  funext i
  simp [mirror, ring, P]

theorem three_average {l : List (Vec 1)} (hl : three.Perm l) {p : Vec 1} (h : ring.average l = .ok p) : p = P 0.2 ∨ p = P (8 / 15) := by
  cases l with
  | nil => cases h
  | cons o t =>
    unfold CoordSys.average at h
    dsimp only at h
    rw [if_pos (show ring.periodic = true from rfl), ← mean_perm (hl.map _)] at h
    have h := (Except.ok.inj h).symm
    have ho : o ∈ three := hl.mem_iff.2 List.mem_cons_self
    simp only [three, List.mem_cons, List.not_mem_nil, or_false] at ho
    simp only [three, List.map_cons, List.map_nil] at h
    rcases ho with rfl | rfl | rfl
    · left
      rw [h, conn_P 0 (r := 0) (by norm_num) (by norm_num) (by norm_num), conn_P 0 (r := 0.5) (by norm_num) (by norm_num) (by norm_num), conn_P 0 (r := 0.1) (by norm_num) (by norm_num) (by norm_num)]
      funext i
      refine pmod_unique 0 (by norm_num [P]) (by norm_num [P, CoordSys.size, ring]) ?_
      norm_num [CoordSys.mean, P, CoordSys.size, ring]
    · right
      rw [h, conn_P (-1) (r := 0.5) (by norm_num) (by norm_num) (by norm_num), conn_P 0 (r := 0) (by norm_num) (by norm_num) (by norm_num), conn_P' (-1) (r := 0.6) (by norm_num) (by norm_num) (by norm_num)]
      funext i
      refine pmod_unique 0 (by norm_num [P]) (by norm_num [P, CoordSys.size, ring]) ?_
      norm_num [CoordSys.mean, P, CoordSys.size, ring]
    · left
      rw [h, conn_P' (-1) (r := 0.9) (by norm_num) (by norm_num) (by norm_num), conn_P 0 (r := 0.4) (by norm_num) (by norm_num) (by norm_num), conn_P 0 (r := 0) (by norm_num) (by norm_num) (by norm_num)]
      funext i
      refine pmod_unique 0 (by norm_num [P]) (by norm_num [P, CoordSys.size, ring]) ?_
      norm_num [CoordSys.mean, P, CoordSys.size, ring]

/-- C99 (the exception is needed).  Three positions in a periodic interval, two of them half its length apart: the mirrored positions can give a point which is not the mirror image of any point that the original ones can give. -/
theorem _root_.NF.C99_half_apart : (∃ x ∈ three, ∃ y ∈ three, HalfApart ring Set.univ x y) ∧ ∃ out', RunFromPositions (three.map (mirror ring Set.univ)) ring 3 "ballistic" (.ok out') ∧
    ∃ r' ∈ out'.results, ∃ q, r'.shape = some (.point q) ∧ ∀ out, RunFromPositions three ring 3 "ballistic" (.ok out) → ∀ r ∈ out.results, ∀ p, r.shape = some (.point p) → ¬ SamePoint ring (mirror ring Set.univ p) q := by
  refine ⟨⟨P 0, by simp [three], P 0.5, by simp [three], 0, trivial, 0, by norm_num [P, ring]⟩, ?_⟩
  have hm : three.map (mirror ring Set.univ) = [P 1, P 0.5, P 0.9] := by
    simp only [three, List.map_cons, List.map_nil, mirror_P]
    norm_num
  have hav : ring.average [P 1, P 0.5, P 0.9] = .ok (P (2 / 15)) := by
    unfold CoordSys.average
    dsimp only
    rw [if_pos (show ring.periodic = true from rfl)]
    congr 1
    simp only [List.map_cons, List.map_nil]
    rw [conn_P 0 (r := 0) (by norm_num) (by norm_num) (by norm_num), conn_P (-1) (r := 0.5) (by norm_num) (by norm_num) (by norm_num), conn_P' (-1) (r := 0.9) (by norm_num) (by norm_num) (by norm_num)]
    funext i
    refine pmod_unique 1 (by norm_num [P]) (by norm_num [P, CoordSys.size, ring]) ?_
    norm_num [CoordSys.mean, P, CoordSys.size, ring]
  have hnd : (three.map (mirror ring Set.univ)).Nodup := three_nodup.map (Function.LeftInverse.injective (mirror_mirror ring _))
  rw [hm] at hnd ⊢
  obtain ⟨out', h1, r', hr', h2⟩ := run_exists hnd (x₀ := P 1) (by simp) hav
  refine ⟨out', h1, r', hr', _, h2, fun out h r hr p hp hs => ?_⟩
  have h3 := three_average (run_perm three_nodup (x₀ := P 0) (by simp [three]) h hr) (run_average h hr hp)
  unfold SamePoint at hs
  rw [if_pos (show ring.periodic = true from rfl)] at hs
  obtain ⟨k, hk⟩ := hs
  have hk := congrFun hk 0
  rcases h3 with rfl | rfl
  · rw [mirror_P] at hk
    simp only [shift, P, ring] at hk
    have : (15 * (k 0 : ℝ)) = -10 := by linarith
    have : 15 * k 0 = -10 := by exact_mod_cast this
    omega
  · rw [mirror_P] at hk
    simp only [shift, P, ring] at hk
    have : (15 * (k 0 : ℝ)) = -5 := by linarith
    have : 15 * k 0 = -5 := by exact_mod_cast this
    omega

/-- The hypotheses of `C99_mirror` are met by two positions on both sides of the boundary. -/
example : ∀ x ∈ [P 0.9, P 0.2], ∀ y ∈ [P 0.9, P 0.2], ¬ HalfApart ring Set.univ x y := by
  rintro x hx y hy ⟨i, -, k, hk⟩
  simp only [List.mem_cons, List.not_mem_nil, or_false] at hx hy
  rcases hx with rfl | rfl <;> rcases hy with rfl | rfl <;> simp only [P, ring] at hk
  · have : (2 * k : ℝ) = -1 := by linarith
    have : 2 * k = -1 := by exact_mod_cast this
    omega
  · have : (10 * k : ℝ) = -12 := by linarith
    have : 10 * k = -12 := by exact_mod_cast this
    omega
  · have : (10 * k : ℝ) = 2 := by linarith
    have : 10 * k = 2 := by exact_mod_cast this
    omega
  · have : (2 * k : ℝ) = -1 := by linarith
    have : 2 * k = -1 := by exact_mod_cast this
    omega

/-- A box with different sides, whose axes are exchanged. -/
example : reorderBox (Equiv.swap 0 1) (⟨![0, 1], ![2, 7], true⟩ : CoordSys 2) = ⟨![1, 0], ![7, 2], true⟩ ∧ reorder (Equiv.swap 0 1) (![1, 5] : Vec 2) = ![5, 1] := by
  have h : ∀ a b : ℝ, reorder (Equiv.swap 0 1) (![a, b] : Vec 2) = ![b, a] := by
    intro a b
    funext i
    fin_cases i <;> simp [reorder]
  unfold reorderBox
  simp only [h, and_self]

end C99Demo
end NF
