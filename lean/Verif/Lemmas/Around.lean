import Verif.Lemmas.CircleGraph
import Verif.Lemmas.OpenLine
import Mathlib.Algebra.Order.ToIntervalMod

/-! # The ballistic method on a line that goes round a circle -/

noncomputable section
open Classical
namespace NF
open Spec NxGraph
variable {d : ℕ}

/-- The positions of the cluster are on a closed line of length `L`, at `τ`; `σ` is the way from a position to a neighbour, positive if it goes forward. -/
structure Around (g : NxGraph (Vec d) ℝ) (cs : CoordSys d) (fs L : ℝ) (τ : Vec d → ℝ) (σ : Vec d → Vec d → ℝ) : Prop where
  len : 0 < L
  step : ∀ x y, g.hasEdge x y → ∃ k : ℤ, τ y = τ x + σ x y + k * L
  short : ∀ x y, g.hasEdge x y → |σ x y| < L / 3
  anti : ∀ x y, g.hasEdge x y → σ y x = -σ x y
  inj : ∀ x ∈ g.nodes, ∀ y ∈ g.nodes, ∀ k : ℤ, τ y = τ x + k * L → x = y
  between : ∀ x y z, g.hasEdge x y → 0 < σ x y → z ∈ g.nodes → ∀ (r : ℝ) (k : ℤ), 0 < r → r < σ x y → τ z = τ x + r + k * L →
    g.hasEdge x z ∧ g.hasEdge z y ∧ cs.distance x z ≤ cs.distance x y ∧ cs.distance z y ≤ cs.distance x y
  apart : ∀ x y, g.hasEdge x y → fs ≤ 1000 * cs.distance x y
  on : ∀ x y z, g.hasEdge x y → g.hasEdge y z → (0 < σ x y * σ y z → 5 / 6 < dot (unitVec cs y z) (unitVec cs x y)) ∧ (σ x y * σ y z < 0 → dot (unitVec cs y z) (unitVec cs x y) ≤ 0)
  fan : ∀ x y z, g.hasEdge x y → g.hasEdge x z → (0 < σ x y * σ x z → 5 / 6 < dot (unitVec cs x y) (unitVec cs x z)) ∧ (σ x y * σ x z < 0 → dot (unitVec cs x y) (unitVec cs x z) ≤ 0)
  forth : ∀ x ∈ g.nodes, ∃ y, g.hasEdge x y ∧ 0 < σ x y
  back : ∀ x ∈ g.nodes, ∃ y, g.hasEdge x y ∧ σ x y < 0

section
variable {g : NxGraph (Vec d) ℝ} {cs : CoordSys d} {fs L : ℝ} {τ : Vec d → ℝ} {σ : Vec d → Vec d → ℝ}

theorem int_eq_zero_of_small {L r : ℝ} (hL : 0 < L) {k : ℤ} (h : r = k * L) (hr : |r| < L) : k = 0 := by
  rw [h, abs_mul, abs_of_pos hL] at hr
  have : |(k : ℝ)| < 1 := by
    by_contra hge
    push Not at hge
    nlinarith
  have h2 : |k| < 1 := by exact_mod_cast this
  exact Int.abs_lt_one_iff.1 h2

theorem Around.ne (hg : GoodGraph g) (h : Around g cs fs L τ σ) {x y : Vec d} (hxy : g.hasEdge x y) : σ x y ≠ 0 := by
  intro h0
  obtain ⟨k, hk⟩ := h.step x y hxy
  rw [h0, add_zero] at hk
  have := goodGraph_edge hg hxy
  exact this.2.2 (h.inj x this.1 y this.2.1 k hk)

/-- The other way round. -/
theorem Around.neg (hb : ProperBox cs) (h : Around g cs fs L τ σ) : Around g cs fs L (fun x => -τ x) (fun x y => -σ x y) := by
  refine ⟨h.len, fun x y hxy => ?_, fun x y hxy => by rw [abs_neg]; exact h.short x y hxy, fun x y hxy => by rw [h.anti x y hxy], fun x hx y hy k hk => ?_, fun x y z hxy hs hz r k hr hrs hk => ?_,
    h.apart, fun x y z hxy hyz => by rw [neg_mul_neg]; exact h.on x y z hxy hyz, fun x y z hxy hyz => by rw [neg_mul_neg]; exact h.fan x y z hxy hyz, fun x hx => ?_, fun x hx => ?_⟩
  · obtain ⟨k, hk⟩ := h.step x y hxy
    exact ⟨-k, by rw [hk]; push_cast; ring⟩
  · exact h.inj x hx y hy (-k) (by push_cast; linarith)
  · obtain ⟨j, hj⟩ := h.step x y hxy
    have hyx := hasEdge_symm.1 hxy
    have ha := h.anti x y hxy
    obtain ⟨h1, h2, h3, h4⟩ := h.between y x z hyx (by rw [ha]; exact hs) hz (-σ x y - r) (-k - j) (by linarith) (by rw [ha]; linarith) (by push_cast; linarith)
    refine ⟨hasEdge_symm.1 h2, hasEdge_symm.1 h1, ?_, ?_⟩
    · rw [(C03_distance_metric cs hb x z z).2.1, (C03_distance_metric cs hb x y y).2.1]; exact h4
    · rw [(C03_distance_metric cs hb z y y).2.1, (C03_distance_metric cs hb x y y).2.1]; exact h3
  · obtain ⟨y, h1, h2⟩ := h.back x hx
    exact ⟨y, h1, by linarith⟩
  · obtain ⟨y, h1, h2⟩ := h.forth x hx
    exact ⟨y, h1, by linarith⟩

/-- How far forward from `s` the position is. -/
def ahead (L : ℝ) (hL : 0 < L) (τ : Vec d → ℝ) (s x : Vec d) : ℝ := toIcoMod hL 0 (τ x - τ s)

theorem ahead_mem {hL : 0 < L} (s x : Vec d) : 0 ≤ ahead L hL τ s x ∧ ahead L hL τ s x < L := by
  have := toIcoMod_mem_Ico hL 0 (τ x - τ s)
  simpa [ahead] using this

theorem ahead_eq {hL : 0 < L} (s x : Vec d) : ∃ k : ℤ, τ x = τ s + ahead L hL τ s x + k * L := by
  refine ⟨toIcoDiv hL 0 (τ x - τ s), ?_⟩
  have := toIcoMod_add_toIcoDiv_zsmul hL 0 (τ x - τ s)
  unfold ahead
  rw [zsmul_eq_mul] at this
  linarith

theorem ahead_self {hL : 0 < L} (s : Vec d) : ahead L hL τ s s = 0 := by
  obtain ⟨k, hk⟩ := ahead_eq (τ := τ) (hL := hL) s s
  obtain ⟨h1, h2⟩ := ahead_mem (τ := τ) (hL := hL) s s
  have := int_eq_zero_of_small hL (r := ahead L hL τ s s) (k := -k) (by push_cast; linarith) (by rw [abs_of_nonneg h1]; exact h2)
  have h0 : k = 0 := by omega
  rw [h0] at hk
  push_cast at hk
  linarith

theorem ahead_unique {hL : 0 < L} {s x : Vec d} {r : ℝ} {k : ℤ} (h : τ x = τ s + r + k * L) (h0 : 0 ≤ r) (h1 : r < L) : ahead L hL τ s x = r := by
  obtain ⟨j, hj⟩ := ahead_eq (τ := τ) (hL := hL) s x
  obtain ⟨h2, h3⟩ := ahead_mem (τ := τ) (hL := hL) s x
  have := int_eq_zero_of_small hL (r := ahead L hL τ s x - r) (k := k - j) (by push_cast; linarith) (by rw [abs_lt]; constructor <;> linarith)
  have e : k = j := by omega
  subst e
  linarith

theorem ahead_inj (h : Around g cs fs L τ σ) {hL : 0 < L} {s x y : Vec d} (hx : x ∈ g.nodes) (hy : y ∈ g.nodes) (he : ahead L hL τ s x = ahead L hL τ s y) : x = y := by
  obtain ⟨j, hj⟩ := ahead_eq (τ := τ) (hL := hL) s x
  obtain ⟨k, hk⟩ := ahead_eq (τ := τ) (hL := hL) s y
  exact h.inj x hx y hy (k - j) (by push_cast; linarith)

/-- A step forward: either it stays before `s`, or it reaches `s`, or it goes beyond. -/
theorem ahead_step (h : Around g cs fs L τ σ) {hL : 0 < L} {s x y : Vec d} (hs : s ∈ g.nodes) (hxy : g.hasEdge x y) (hy : y ∈ g.nodes) (hpos : 0 < σ x y) :
    (ahead L hL τ s y = ahead L hL τ s x + σ x y) ∨ (y = s ∧ ahead L hL τ s x + σ x y = L) ∨
    (L < ahead L hL τ s x + σ x y ∧ g.hasEdge x s ∧ σ x s = L - ahead L hL τ s x ∧ 0 < σ x s ∧ cs.distance x s ≤ cs.distance x y ∧ y ≠ s) := by
  obtain ⟨j, hj⟩ := ahead_eq (τ := τ) (hL := hL) s x
  obtain ⟨k, hk⟩ := h.step x y hxy
  obtain ⟨a1, a2⟩ := ahead_mem (τ := τ) (hL := hL) s x
  have hsh := (abs_lt.1 (h.short x y hxy)).2
  rcases lt_trichotomy (ahead L hL τ s x + σ x y) L with hlt | heq | hgt
  · left
    exact ahead_unique (k := j + k) (by push_cast; linarith) (by linarith) hlt
  · right; left
    refine ⟨?_, heq⟩
    exact (h.inj s hs y hy (j + k + 1) (by push_cast; linarith)).symm
  · right; right
    obtain ⟨b1, -, b3, -⟩ := h.between x y s hxy hpos hs (L - ahead L hL τ s x) (-j - 1) (by linarith) (by linarith) (by push_cast; linarith)
    obtain ⟨m, hm⟩ := h.step x s b1
    have hss := abs_lt.1 (h.short x s b1)
    have := int_eq_zero_of_small h.len (r := L - ahead L hL τ s x - σ x s) (k := m + j + 1) (by push_cast; linarith) (by rw [abs_lt]; constructor <;> linarith)
    have e : (m : ℝ) + j + 1 = 0 := by exact_mod_cast this
    refine ⟨hgt, b1, ?_, ?_, b3, ?_⟩
    · nlinarith
    · have : σ x s = L - ahead L hL τ s x := by nlinarith
      linarith
    · rintro rfl
      have : σ x y = L - ahead L hL τ y x := by nlinarith
      linarith

/-! ## Weights -/

/-- `w` points forward. -/
def Forward (g : NxGraph (Vec d) ℝ) (cs : CoordSys d) (σ : Vec d → Vec d → ℝ) (node w : Vec d) : Prop :=
  ∀ n, g.hasEdge node n → (0 < σ node n → 5 / 6 < dot (unitVec cs node n) w) ∧ (σ node n < 0 → dot (unitVec cs node n) w ≤ 0) ∧ dot (unitVec cs node n) w ≤ 1

/-- the neighbours ahead -/
def aheadOf (g : NxGraph (Vec d) ℝ) (σ : Vec d → Vec d → ℝ) (x : Vec d) : List (Vec d) := (g.neighbors x).filter fun m => decide (0 < σ x m)

theorem mem_aheadOf {x m : Vec d} : m ∈ aheadOf g σ x ↔ g.hasEdge x m ∧ 0 < σ x m := by
  unfold aheadOf
  rw [List.mem_filter, mem_neighbors, decide_eq_true_eq]

/-- the sum of the products with the neighbours ahead -/
def fanSum (g : NxGraph (Vec d) ℝ) (cs : CoordSys d) (σ : Vec d → Vec d → ℝ) (x n : Vec d) : ℝ :=
  ((aheadOf g σ x).map fun m => max (dot (unitVec cs x n) (unitVec cs x m)) 0).sum

/-- the factor for nodes of the result -/
def resultFactor (rg : NxGraph (Vec d) Unit) (n : Vec d) : ℝ :=
  (1 + 0.2 * (if n ∈ rg.nodes then 1 else 0)) * (1 + 1 * (if n ∈ rg.nodes ∧ rg.degree n > 2 then 1 else 0)) * (1 + 1 * (if n ∈ rg.nodes ∧ rg.degree n = 1 then 1 else 0))

/-- the factor for the distance -/
def distFactor (cs : CoordSys d) (fs : ℝ) (x n : Vec d) : ℝ := 1 + 5 * (cs.distance x n / fs)

theorem unit_dot_le_one (hb : ProperBox cs) {a b a' b' : Vec d} (h : 0 < cs.distance a b) (h' : 0 < cs.distance a' b') : dot (unitVec cs a b) (unitVec cs a' b') ≤ 1 := by
  have h1 := Finset.sum_mul_sq_le_sq_mul_sq Finset.univ (unitVec cs a b) (unitVec cs a' b')
  have h2 := dot_unitVec_self hb h
  have h3 := dot_unitVec_self hb h'
  have e : ∀ v : Vec d, ∑ i, v i ^ 2 = dot v v := fun v => Finset.sum_congr rfl fun i _ => by ring
  rw [e, e, h2, h3] at h1
  have : dot (unitVec cs a b) (unitVec cs a' b') ^ 2 ≤ 1 := by unfold dot; linarith
  nlinarith

theorem Around.pos (hfs : 0 < fs) (h : Around g cs fs L τ σ) {x y : Vec d} (hxy : g.hasEdge x y) : 0 < cs.distance x y := by
  have := h.apart x y hxy
  linarith

theorem forward_step (hb : ProperBox cs) (hfs : 0 < fs) (h : Around g cs fs L τ σ) {x y : Vec d} (hxy : g.hasEdge x y) (hpos : 0 < σ x y) : Forward g cs σ y (unitVec cs x y) := by
  intro n hn
  obtain ⟨h1, h2⟩ := h.on x y n hxy hn
  exact ⟨fun h0 => h1 (mul_pos hpos h0), fun h0 => h2 (mul_neg_of_pos_of_neg hpos h0), unit_dot_le_one hb (h.pos hfs hn) (h.pos hfs hxy)⟩

theorem candidates_forward (hg : GoodGraph g) (hb : ProperBox cs) (hfs : 0 < fs) (h : Around g cs fs L τ σ) {node w : Vec d} (hw : Forward g cs σ node w) :
    candidateNodes g cs node (some w) = aheadOf g σ node := by
  unfold candidateNodes usableNeighbors aheadOf
  rw [List.filter_filter]
  refine List.filter_congr fun m hm => ?_
  have hm := mem_neighbors.1 hm
  rw [← Bool.decide_and, decide_eq_decide, norm_connectingVector hb]
  have hp := h.pos hfs hm
  obtain ⟨h1, h2, -⟩ := hw m hm
  simp only [hp, and_true, directionAngle]
  refine ⟨fun h0 => ?_, fun h0 => by have := h1 h0; linarith⟩
  by_contra hneg
  have := lt_of_le_of_ne (not_lt.1 hneg) (h.ne hg hm)
  exact absurd (h2 this) (not_le.2 h0)

theorem fan_none (hg : GoodGraph g) (hb : ProperBox cs) (hfs : 0 < fs) (h : Around g cs fs L τ σ) {x n : Vec d} (hn : g.hasEdge x n) (hpos : 0 < σ x n) :
    ((candidateNodes g cs x none).map fun m => max (dot (unitVec cs x n) (unitVec cs x m)) 0).sum = fanSum g cs σ x n := by
  have e : candidateNodes g cs x none = g.neighbors x := by
    unfold candidateNodes usableNeighbors
    rw [List.filter_filter, List.filter_eq_self]
    intro m hm
    rw [norm_connectingVector hb]
    simp [h.pos hfs (mem_neighbors.1 hm), directionAngle]
  rw [e]
  unfold fanSum aheadOf
  have key : ∀ l : List (Vec d), (∀ m ∈ l, g.hasEdge x m) → (l.map fun m => max (dot (unitVec cs x n) (unitVec cs x m)) 0).sum =
      ((l.filter fun m => decide (0 < σ x m)).map fun m => max (dot (unitVec cs x n) (unitVec cs x m)) 0).sum := by
    intro l
    induction l with
    | nil => intro _; rfl
    | cons m l ih =>
      intro hl
      have ih := ih fun m hm => hl m (List.mem_cons_of_mem _ hm)
      have hm := hl m List.mem_cons_self
      by_cases h0 : 0 < σ x m
      · rw [List.filter_cons_of_pos (by simpa using h0), List.map_cons, List.map_cons, List.sum_cons, List.sum_cons, ih]
      · rw [List.filter_cons_of_neg (by simpa using h0), List.map_cons, List.sum_cons, ih]
        have hlt := lt_of_le_of_ne (not_lt.1 h0) (h.ne hg hm)
        rw [max_eq_right ((h.fan x n m hn hm).2 (mul_neg_of_pos_of_neg hpos hlt)), zero_add]
  exact key _ fun m hm => mem_neighbors.1 hm

theorem fanSum_bounds (hb : ProperBox cs) (hfs : 0 < fs) (h : Around g cs fs L τ σ) {x n : Vec d} (hn : g.hasEdge x n) (hpos : 0 < σ x n) :
    5 / 6 * ((aheadOf g σ x).length : ℝ) ≤ fanSum g cs σ x n ∧ fanSum g cs σ x n ≤ (aheadOf g σ x).length ∧ 1 ≤ ((aheadOf g σ x).length : ℝ) := by
  have key : ∀ l : List (Vec d), (∀ m ∈ l, g.hasEdge x m ∧ 0 < σ x m) → 5 / 6 * (l.length : ℝ) ≤ (l.map fun m => max (dot (unitVec cs x n) (unitVec cs x m)) 0).sum ∧
      (l.map fun m => max (dot (unitVec cs x n) (unitVec cs x m)) 0).sum ≤ l.length := by
    intro l
    induction l with
    | nil => intro _; simp
    | cons m l ih =>
      intro hl
      obtain ⟨i1, i2⟩ := ih fun m hm => hl m (List.mem_cons_of_mem _ hm)
      obtain ⟨m1, m2⟩ := hl m List.mem_cons_self
      have a1 := (h.fan x n m hn m1).1 (mul_pos hpos m2)
      have a2 := unit_dot_le_one hb (h.pos hfs hn) (h.pos hfs m1)
      rw [List.map_cons, List.sum_cons, List.length_cons, max_eq_left (by linarith)]
      push_cast
      constructor <;> linarith
  obtain ⟨k1, k2⟩ := key (aheadOf g σ x) fun m hm => mem_aheadOf.1 hm
  refine ⟨k1, k2, ?_⟩
  have := List.length_pos_of_mem (mem_aheadOf.2 ⟨hn, hpos⟩)
  exact_mod_cast this

theorem weight_eq (hb : ProperBox cs) (hfs : 0 < fs) (hattr : ∀ e ∈ g.edges, e.2.2 = cs.distance e.1 e.2.1) (h : Around g cs fs L τ σ) {rg : NxGraph (Vec d) Unit} {x n : Vec d} {prev : Option (Vec d)}
    (hn : g.hasEdge x n) : ballisticWeight g cs fs rg x prev n =
      ((candidateNodes g cs x prev).map fun m => max (dot (unitVec cs x n) (unitVec cs x m)) 0).sum * directionAngle cs x prev n * resultFactor rg n / distFactor cs fs x n := by
  unfold ballisticWeight distanceNormalized resultFactor distFactor
  have hge : ¬ cs.distance x n / fs < 1e-3 := by
    rw [div_lt_iff₀ hfs]
    have := h.apart x n hn
    norm_num
    linarith
  rw [edgeAttr_eq hb hattr hn, if_neg hge]
  ring

theorem distFactor_pos (hfs : 0 < fs) (h : Around g cs fs L τ σ) {x n : Vec d} (hn : g.hasEdge x n) : 0 < distFactor cs fs x n := by
  have := h.pos hfs hn
  unfold distFactor
  positivity

/-- `n` is the best neighbour of `s` ahead. -/
def First (g : NxGraph (Vec d) ℝ) (cs : CoordSys d) (fs : ℝ) (σ : Vec d → Vec d → ℝ) (s n : Vec d) : Prop :=
  g.hasEdge s n ∧ 0 < σ s n ∧ ∀ m, g.hasEdge s m → 0 < σ s m → fanSum g cs σ s m / distFactor cs fs s m ≤ fanSum g cs σ s n / distFactor cs fs s n

/-- The start of the loop is preferred to what lies beyond it. -/
theorem closes (hg : GoodGraph g) (hb : ProperBox cs) (hfs : 0 < fs) (hattr : ∀ e ∈ g.edges, e.2.2 = cs.distance e.1 e.2.1) (h : Around g cs fs L τ σ) {rg : NxGraph (Vec d) Unit} {c w s n : Vec d}
    (hw : Forward g cs σ c w) (hs : g.hasEdge c s) (hs0 : 0 < σ c s) (hn : g.hasEdge c n) (hn0 : 0 < σ c n) (hd : cs.distance c s ≤ cs.distance c n) (hs1 : s ∈ rg.nodes) (hs2 : rg.degree s = 1)
    (hn2 : n ∈ rg.nodes → rg.degree n = 2) : ballisticWeight g cs fs rg c (some w) n < ballisticWeight g cs fs rg c (some w) s := by
  rw [weight_eq hb hfs hattr h hn, weight_eq hb hfs hattr h hs, candidates_forward hg hb hfs h hw]
  change fanSum g cs σ c n * dot (unitVec cs c n) w * _ / _ < fanSum g cs σ c s * dot (unitVec cs c s) w * _ / _
  obtain ⟨b0, b1, b2⟩ := fanSum_bounds hb hfs h hn hn0
  obtain ⟨b3, -, -⟩ := fanSum_bounds hb hfs h hs hs0
  have w1 := (hw n hn).1 hn0
  have w2 := (hw n hn).2.2
  have w3 := (hw s hs).1 hs0
  have r1 : resultFactor rg s = 2.4 := by unfold resultFactor; rw [if_pos hs1, if_neg (by rw [hs2]; simp), if_pos ⟨hs1, hs2⟩]; norm_num
  have r2 : resultFactor rg n ≤ 1.2 ∧ 0 < resultFactor rg n := by
    unfold resultFactor
    by_cases hm : n ∈ rg.nodes
    · rw [if_pos hm, if_neg (by rw [hn2 hm]; simp), if_neg (by rw [hn2 hm]; simp)]; norm_num
    · rw [if_neg hm, if_neg (fun h => hm h.1), if_neg (fun h => hm h.1)]; norm_num
  have d1 := distFactor_pos hfs h hn
  have d2 := distFactor_pos hfs h hs
  have d3 : distFactor cs fs c s ≤ distFactor cs fs c n := by
    unfold distFactor
    have := div_le_div_of_nonneg_right hd hfs.le
    linarith
  generalize ((aheadOf g σ c).length : ℝ) = K at *
  generalize fanSum g cs σ c n = A at *
  generalize fanSum g cs σ c s = B at *
  generalize dot (unitVec cs c n) w = u at *
  generalize dot (unitVec cs c s) w = v at *
  have h1 : A * u * resultFactor rg n ≤ K * 1 * 1.2 := by
    have hA : 0 < A := by linarith
    have : A * u ≤ K * 1 := mul_le_mul b1 w2 (by linarith) (by linarith)
    exact mul_le_mul this r2.1 r2.2.le (by linarith)
  have h2 : K * 1 * 1.2 < B * v * 2.4 := by
    have : (5 / 6 * K) * (5 / 6) ≤ B * v := mul_le_mul b3 w3.le (by norm_num) (by linarith)
    nlinarith
  rw [r1]
  have hBv : 0 < B * v * 2.4 := by linarith
  calc A * u * resultFactor rg n / distFactor cs fs c n < B * v * 2.4 / distFactor cs fs c n := div_lt_div_of_pos_right (by linarith) d1
    _ ≤ B * v * 2.4 / distFactor cs fs c s := div_le_div_of_nonneg_left hBv.le d2 d3

/-- At the start of the closed loop, a node of the loop is preferred. -/
theorem stays (hg : GoodGraph g) (hb : ProperBox cs) (hfs : 0 < fs) (hattr : ∀ e ∈ g.edges, e.2.2 = cs.distance e.1 e.2.1) (h : Around g cs fs L τ σ) {rg : NxGraph (Vec d) Unit} {s w n1 n : Vec d}
    (hw : Forward g cs σ s w) (hf : First g cs fs σ s n1) (h1 : n1 ∈ rg.nodes) (hn : g.hasEdge s n) (hn0 : 0 < σ s n) (hn2 : n ∉ rg.nodes) :
    ballisticWeight g cs fs rg s (some w) n < ballisticWeight g cs fs rg s (some w) n1 := by
  obtain ⟨f1, f2, f3⟩ := hf
  rw [weight_eq hb hfs hattr h hn, weight_eq hb hfs hattr h f1, candidates_forward hg hb hfs h hw]
  change fanSum g cs σ s n * dot (unitVec cs s n) w * _ / _ < fanSum g cs σ s n1 * dot (unitVec cs s n1) w * _ / _
  have b1 := fanSum_bounds hb hfs h hn hn0
  have b2 := fanSum_bounds hb hfs h f1 f2
  have w1 := (hw n hn).1 hn0
  have w2 := (hw n hn).2.2
  have w3 := (hw n1 f1).1 f2
  have r1 : 1.2 ≤ resultFactor rg n1 := by
    unfold resultFactor; rw [if_pos h1]; split_ifs <;> norm_num
  have r2 : resultFactor rg n = 1 := by
    unfold resultFactor; rw [if_neg hn2, if_neg (fun h => hn2 h.1), if_neg (fun h => hn2 h.1)]; norm_num
  have d1 := distFactor_pos hfs h hn
  have d2 := distFactor_pos hfs h f1
  have hle := f3 n hn hn0
  rw [r2]
  have hP : 0 < fanSum g cs σ s n1 / distFactor cs fs s n1 := div_pos (by linarith [b2.1, b2.2.2]) d2
  have hQ : 0 < fanSum g cs σ s n / distFactor cs fs s n := div_pos (by linarith [b1.1, b1.2.2]) d1
  have e1 : fanSum g cs σ s n * dot (unitVec cs s n) w * 1 / distFactor cs fs s n = fanSum g cs σ s n / distFactor cs fs s n * dot (unitVec cs s n) w := by ring
  have e2 : fanSum g cs σ s n1 * dot (unitVec cs s n1) w * resultFactor rg n1 / distFactor cs fs s n1 = fanSum g cs σ s n1 / distFactor cs fs s n1 * (dot (unitVec cs s n1) w * resultFactor rg n1) := by ring
  rw [e1, e2]
  have : 1 < dot (unitVec cs s n1) w * resultFactor rg n1 := by nlinarith
  calc _ ≤ fanSum g cs σ s n / distFactor cs fs s n * 1 := mul_le_mul_of_nonneg_left w2 hQ.le
    _ ≤ fanSum g cs σ s n1 / distFactor cs fs s n1 * 1 := by linarith
    _ < _ := mul_lt_mul_of_pos_left this hP

/-! ## The invariant -/

/-- the two directions -/
def Orient (τ : Vec d → ℝ) (σ : Vec d → Vec d → ℝ) (τ' : Vec d → ℝ) (σ' : Vec d → Vec d → ℝ) : Prop := (τ' = τ ∧ σ' = σ) ∨ (τ' = (fun x => -τ x) ∧ σ' = fun x y => -σ x y)

/-- The path, given backwards, goes forward. -/
def Trail (g : NxGraph (Vec d) ℝ) (σ : Vec d → Vec d → ℝ) (t : Vec d → ℝ) (p : List (Vec d)) : Prop :=
  p.IsChain fun x y => g.hasEdge y x ∧ 0 < σ y x ∧ t x = t y + σ y x

/-- The result is a loop that goes round once. -/
def ClosedOnce (g : NxGraph (Vec d) ℝ) (L : ℝ) (σ : Vec d → Vec d → ℝ) (rg : NxGraph (Vec d) Unit) : Prop :=
  ∃ s p, CircleGraph rg s p ∧ (∀ x y, Consecutive (s :: p ++ [s]) x y → g.hasEdge x y ∧ 0 < σ x y) ∧ sumAlong σ (s :: p ++ [s]) = L ∧ g.isDominatingSet fun x => x ∈ rg.nodes

/-- The invariant of `find_loop`. -/
inductive LoopInv (g : NxGraph (Vec d) ℝ) (cs : CoordSys d) (fs L : ℝ) (hL : 0 < L) (τ : Vec d → ℝ) (σ : Vec d → Vec d → ℝ) (rg : NxGraph (Vec d) Unit) (node : Vec d) : Option (Vec d) → Bool → Prop
  | start : rg = NxGraph.empty.addNode node → LoopInv g cs fs L hL τ σ rg node none false
  | path {τ' σ' w l n1 s q} : Orient τ σ τ' σ' → Forward g cs σ' node w → PathGraph rg (node :: l) → Trail g σ' (ahead L hL τ' s) (node :: l) → node :: l = q ++ [n1, s] → First g cs fs σ' s n1 →
      LoopInv g cs fs L hL τ σ rg node (some w) false
  | closed {τ' σ' w n1} : Orient τ σ τ' σ' → Forward g cs σ' node w → ClosedOnce g L σ' rg → n1 ∈ rg.nodes → First g cs fs σ' node n1 → LoopInv g cs fs L hL τ σ rg node (some w) true

/-- The invariant. -/
def AInv (g : NxGraph (Vec d) ℝ) (cs : CoordSys d) (fs L : ℝ) (hL : 0 < L) (τ : Vec d → ℝ) (σ : Vec d → Vec d → ℝ) : BState d → Prop
  | .outer rg ev => (rg = NxGraph.empty ∧ ev = []) ∨ ∃ τ' σ', Orient τ σ τ' σ' ∧ ClosedOnce g L σ' rg
  | .loop rg ev pending node prev onGraph => pending = none ∧ ev = [] ∧ LoopInv g cs fs L hL τ σ rg node prev onGraph
  | .done rg => ∃ τ' σ', Orient τ σ τ' σ' ∧ ClosedOnce g L σ' rg
  | .error _ => False

theorem Orient.around (hb : ProperBox cs) (h : Around g cs fs L τ σ) {τ' : Vec d → ℝ} {σ' : Vec d → Vec d → ℝ} (ho : Orient τ σ τ' σ') : Around g cs fs L τ' σ' := by
  rcases ho with ⟨rfl, rfl⟩ | ⟨rfl, rfl⟩
  · exact h
  · exact h.neg hb

theorem Orient.neg {τ' : Vec d → ℝ} {σ' : Vec d → Vec d → ℝ} (ho : Orient τ σ τ' σ') : Orient τ σ (fun x => -τ' x) (fun x y => -σ' x y) := by
  rcases ho with ⟨rfl, rfl⟩ | ⟨rfl, rfl⟩
  · exact .inr ⟨rfl, rfl⟩
  · left
    constructor
    · funext x; simp
    · funext x y; simp

theorem trail_falls {t : Vec d → ℝ} {p : List (Vec d)} (h : Trail g σ t p) : p.Pairwise fun x y => t y < t x := by
  have hc : p.IsChain fun x y => t y < t x := List.IsChain.imp (fun x y h => by linarith [h.2.1, h.2.2]) h
  have : IsTrans (Vec d) fun x y => t y < t x := ⟨fun a b c h1 h2 => h2.trans h1⟩
  exact List.isChain_iff_pairwise.1 hc

theorem trail_between (h : Around g cs fs L τ σ) {hL : 0 < L} {s x y z : Vec d} (hz : z ∈ g.nodes) (hyx : g.hasEdge y x) (hpos : 0 < σ y x) (h1 : ahead L hL τ s y < ahead L hL τ s z)
    (h2 : ahead L hL τ s z < ahead L hL τ s y + σ y x) : g.hasEdge z y := by
  obtain ⟨j, hj⟩ := ahead_eq (τ := τ) (hL := hL) s y
  obtain ⟨k, hk⟩ := ahead_eq (τ := τ) (hL := hL) s z
  exact hasEdge_symm.1 (h.between y x z hyx hpos hz (ahead L hL τ s z - ahead L hL τ s y) (k - j) (by linarith) (by linarith) (by push_cast; linarith)).1

theorem trail_dominates (h : Around g cs fs L τ σ) {hL : 0 < L} {s z : Vec d} (hz : z ∈ g.nodes) : ∀ (l : List (Vec d)) (x : Vec d), (∀ y ∈ x :: l, y ∈ g.nodes) → Trail g σ (ahead L hL τ s) (x :: l) →
    ahead L hL τ s z ≤ ahead L hL τ s x → (x :: l).getLast? = some s → z ∈ x :: l ∨ ∃ y ∈ x :: l, g.hasEdge z y := by
  intro l
  induction l with
  | nil =>
    intro x hm _ h1 h2
    obtain rfl : x = s := by simpa using h2
    left
    rw [List.mem_singleton]
    refine ahead_inj h (hL := hL) (s := x) hz (hm x (by simp)) (le_antisymm h1 ?_)
    rw [ahead_self]
    exact (ahead_mem _ _).1
  | cons y l ih =>
    intro x hm hch h1 h2
    obtain ⟨⟨e1, e2, e3⟩, hch'⟩ := List.isChain_cons_cons.1 hch
    rcases le_or_gt (ahead L hL τ s z) (ahead L hL τ s y) with hle | hgt
    · rcases ih y (fun w hw => hm w (by simp [hw])) hch' hle (by rw [List.getLast?_cons_cons] at h2; exact h2) with h' | ⟨w, hw, h'⟩
      · exact .inl (by simp [List.mem_cons.1 h'])
      · exact .inr ⟨w, List.mem_cons_of_mem _ hw, h'⟩
    · rcases h1.eq_or_lt with e | e
      · exact .inl (by rw [ahead_inj h hz (hm x (by simp)) e]; simp)
      · exact .inr ⟨y, by simp, trail_between h hz e1 e2 hgt (by linarith)⟩

theorem sumAlong_snoc (f : Vec d → Vec d → ℝ) : ∀ (l : List (Vec d)) (x a : Vec d), (l ++ [x]).length ≠ 0 → sumAlong f (l ++ [x] ++ [a]) = sumAlong f (l ++ [x]) + f x a := by
  intro l
  induction l with
  | nil => intro x a _; simp [sumAlong]
  | cons y l ih =>
    intro x a _
    cases l with
    | nil => simp [sumAlong]
    | cons z l =>
      have := ih x a (by simp)
      simp only [List.cons_append, sumAlong] at this ⊢
      linarith

theorem sumAlong_trail {t : Vec d → ℝ} : ∀ (l : List (Vec d)) (x : Vec d), Trail g σ t (x :: l) → ∀ s, (x :: l).getLast? = some s → sumAlong σ (x :: l).reverse = t x - t s := by
  intro l
  induction l with
  | nil =>
    intro x _ s hs
    obtain rfl : x = s := by simpa using hs
    simp [sumAlong]
  | cons y l ih =>
    intro x hch s hs
    obtain ⟨⟨-, -, e3⟩, hch'⟩ := List.isChain_cons_cons.1 hch
    have := ih y hch' s (by rw [List.getLast?_cons_cons] at hs; exact hs)
    rw [List.reverse_cons, List.reverse_cons, sumAlong_snoc σ _ _ _ (by simp), ← List.reverse_cons, this, e3]
    ring

/-- Closing the path. -/
theorem closedOnce_of_trail (h : Around g cs fs L τ σ) {hL : 0 < L} {rg : NxGraph (Vec d) Unit} {c s : Vec d} {l : List (Vec d)} (hsub : ∀ x ∈ c :: l, x ∈ g.nodes) (hp : PathGraph rg (c :: l))
    (ht : Trail g σ (ahead L hL τ s) (c :: l)) (hlast : (c :: l).getLast? = some s) (hcs : g.hasEdge c s) (hpos : 0 < σ c s) (hsum : ahead L hL τ s c + σ c s = L) :
    ClosedOnce g L σ (rg.addEdge c s ()) := by
  have hshort : ∀ x y, g.hasEdge x y → σ x y < L / 3 := fun x y hxy => (abs_lt.1 (h.short x y hxy)).2
  have h3 : 3 ≤ (c :: l).length := by
    match l, hp, ht, hlast with
    | [], _, _, hlast =>
      obtain rfl : c = s := by simpa using hlast
      rw [ahead_self] at hsum
      have := hshort _ _ hcs
      linarith
    | [y], _, ht, hlast =>
      obtain rfl : y = s := by simpa using hlast
      obtain ⟨⟨e1, -, e3⟩, -⟩ := List.isChain_cons_cons.1 ht
      rw [ahead_self] at e3
      have := hshort _ _ hcs
      have := hshort _ _ e1
      linarith
    | _ :: _ :: _, _, _, _ => simp
  have hhead : (c :: l).reverse.head? = some s := by rw [List.head?_reverse]; exact hlast
  obtain ⟨p, hrev⟩ : ∃ p, (c :: l).reverse = s :: p := by
    cases hr : (c :: l).reverse with
    | nil => simp at hr
    | cons a p => rw [hr] at hhead; simp at hhead; exact ⟨p, by rw [hhead]⟩
  have hlr : (s :: p).getLast? = some c := by rw [← hrev, List.getLast?_reverse]; rfl
  have hcirc := PathGraph.close (hrev ▸ PathGraph.reverse hp) (by rw [← hrev, List.length_reverse]; exact h3) hlr
  refine ⟨s, p, hcirc, fun x y hxy => ?_, ?_, ?_⟩
  · rw [consecutive_snoc, ← hrev, consecutive_reverse] at hxy
    rcases hxy with hxy | ⟨hx, rfl⟩
    · obtain ⟨a, b, hab⟩ := hxy
      have ht := ht
      rw [Trail, hab, List.isChain_append] at ht
      have := (List.isChain_cons_cons.1 ht.2.1).1
      exact ⟨this.1, this.2.1⟩
    · rw [hrev, hlr] at hx
      obtain rfl := Option.some.inj hx
      exact ⟨hcs, hpos⟩
  · have e := sumAlong_trail l c ht s hlast
    rw [ahead_self] at e
    have e2 : (c :: l).reverse = l.reverse ++ [c] := by simp
    rw [show s :: p ++ [s] = l.reverse ++ [c] ++ [s] by rw [← e2, hrev], sumAlong_snoc σ _ _ _ (by simp), ← e2, e]
    linarith
  · intro z hz hzn
    have hmem : ∀ y, y ∈ c :: l → y ∈ (rg.addEdge c s ()).nodes := fun y hy => mem_addEdge.2 (.inl ((hp.2.1 y).1 hy))
    rcases le_or_gt (ahead L hL τ s z) (ahead L hL τ s c) with hle | hgt
    · rcases trail_dominates h hz l c hsub ht hle hlast with h' | ⟨w, hw, h'⟩
      · exact absurd (hmem z h') hzn
      · exact ⟨w, mem_neighbors.2 h', hmem w hw⟩
    · exact ⟨c, mem_neighbors.2 (trail_between h hz hcs hpos hgt (by rw [hsum]; exact (ahead_mem _ _).2)), hmem c (by simp)⟩

theorem aInv_step (hl : LineCluster g cs fs) (hfs : 0 < fs) {hL : 0 < L} (h0 : Around g cs fs L τ σ) {s s' : BState d} (hs : BInv g cs s) (hc : AInv g cs fs L hL τ σ s)
    (hst : BStep g cs fs s s') : AInv g cs fs L hL τ σ s' := by
  have hdir : ∀ {τ' σ'}, Orient τ σ τ' σ' → Around g cs fs L τ' σ' := fun h => Orient.around hl.box h0 h
  cases hst with
  | @finish rg ev hd =>
    rcases hc with ⟨rfl, -⟩ | h
    · obtain ⟨a, ha, -⟩ := hl.pos
      obtain ⟨y, -, hy⟩ := hd a ha (by simp [NxGraph.empty])
      simp [NxGraph.empty] at hy
    · exact h
  | @endNode rg ev node nbr hd hn hnbr =>
    obtain ⟨n1, n2, n3⟩ := mem_newEndNodes.1 hn
    rcases hc with ⟨rfl, -⟩ | ⟨τ', σ', h1, s, p, h2, -⟩
    · simp [NxGraph.empty] at n1
    · rw [← nbrCount_eq_degree hs.good, CircleGraph.degrees hs.good h2 n1] at n2
      omega
  | @newStart rg ev node hd hn hcand =>
    rcases hc with ⟨rfl, rfl⟩ | ⟨τ', σ', h1, s, p, h2, -, -, h3⟩
    · exact ⟨rfl, rfl, .start rfl⟩
    · exact absurd h3 hd
  | noStart hd _ hcand => exact absurd hcand (startCandidates_ne hd)
  | @next rg ev pending node prev onGraph r hr =>
    obtain ⟨hrg, hnode, -⟩ : RgInv g cs rg ∧ node ∈ rg.nodes ∧ ∀ s, pending = some s → s ∈ g.nodes := hs
    obtain ⟨rfl, rfl, hinv⟩ := hc
    have hng := hrg.sub.1 _ hnode
    -- with a direction, there is always a candidate
    have hsome : ∀ {τ' σ' w}, Orient τ σ τ' σ' → prev = some w → Forward g cs σ' node w → r ≠ .ok none := by
      rintro τ' σ' w ho rfl hw rfl
      have hcand : candidateNodes g cs node (some w) = [] := by cases hr with | nothing _ _ h => exact h
      rw [candidates_forward hl.good hl.box hfs (hdir ho) hw] at hcand
      obtain ⟨y, h1, h2⟩ := (hdir ho).forth node hng
      have := mem_aheadOf.2 ⟨h1, h2⟩
      rw [hcand] at this
      simp at this
    rcases nextPos_spec hl hng hr with ⟨rfl, hprev⟩ | ⟨n, rfl, hn⟩
    · cases hinv with
      | start => exact absurd rfl hprev
      | path ho hw => exact absurd rfl (hsome ho rfl hw)
      | closed ho hw => exact absurd rfl (hsome ho rfl hw)
    · obtain ⟨c1, c2, c3⟩ := (mem_candidate hl.box).1 hn
      have hgn := (goodGraph_edge hl.good c1).2.1
      have hmax : ∀ m ∈ candidateNodes g cs node prev, ballisticWeight g cs fs rg node prev m ≤ ballisticWeight g cs fs rg node prev n := by
        generalize hrr : (Except.ok (some (n, unitVec cs node n)) : Except Err (Option (Vec d × Vec d))) = rr at hr
        cases hr with
        | noNeighbors => cases hrr
        | allCoincide => cases hrr
        | nothing => cases hrr
        | chosen h1 h2 =>
          simp only [Except.ok.injEq, Option.some.injEq, Prod.mk.injEq] at hrr
          rw [hrr.1]
          exact h2
      cases hinv with
      | start hrgeq =>
        have hnot : n ∉ rg.nodes := by
          rw [hrgeq, mem_addNode]
          rintro (h | h)
          · simp [NxGraph.empty] at h
          · exact (goodGraph_edge hl.good c1).2.2 h.symm
        have key : ∀ τ' σ', Orient τ σ τ' σ' → 0 < σ' node n → LoopInv g cs fs L hL τ σ (rg.addEdge node n ()) n (some (unitVec cs node n)) false := by
          intro τ' σ' ho hpos
          have ha := hdir ho
          refine .path ho (forward_step hl.box hfs ha c1 hpos) (PathGraph.extend (x := node) (l := []) (by rw [hrgeq]; exact pathGraph_single node) (by simpa using (goodGraph_edge hl.good c1).2.2.symm))
            (s := node) (n1 := n) (q := []) ?_ rfl ⟨c1, hpos, fun m hm hmpos => ?_⟩
          · refine List.isChain_cons_cons.2 ⟨⟨c1, hpos, ?_⟩, List.isChain_singleton _⟩
            rcases ahead_step ha (hL := hL) (s := node) hng c1 hgn hpos with h | ⟨h, -⟩ | ⟨h, -⟩
            · exact h
            · exact absurd h.symm (goodGraph_edge hl.good c1).2.2
            · have := (abs_lt.1 (ha.short _ _ c1)).2
              rw [ahead_self] at h
              linarith
          · have hmr : m ∉ rg.nodes := by
              rw [hrgeq, mem_addNode]
              rintro (h | h)
              · simp [NxGraph.empty] at h
              · exact (goodGraph_edge hl.good hm).2.2 h.symm
            have hw := hmax m ((mem_candidate hl.box).2 ⟨hm, ha.pos hfs hm, by simp [directionAngle]⟩)
            rw [weight_eq hl.box hfs hl.attr ha hm, weight_eq hl.box hfs hl.attr ha c1, fan_none hl.good hl.box hfs ha hm hmpos, fan_none hl.good hl.box hfs ha c1 hpos] at hw
            have r2 : ∀ k, k ∉ rg.nodes → resultFactor rg k = 1 := fun k hk => by
              unfold resultFactor; rw [if_neg hk, if_neg (fun h => hk h.1), if_neg (fun h => hk h.1)]; norm_num
            rw [r2 m hmr, r2 n hnot] at hw
            simpa [directionAngle] using hw
        simp only [afterNext, if_neg hnot]
        refine ⟨rfl, rfl, ?_⟩
        rcases lt_or_gt_of_ne (h0.ne hl.good c1) with hneg | hpos
        · exact key _ _ (.inr ⟨rfl, rfl⟩) (by linarith)
        · exact key _ _ (.inl ⟨rfl, rfl⟩) hpos
      | @path τ' σ' w l n1 s q ho hw hp ht hq hf =>
        have ha := hdir ho
        rw [candidates_forward hl.good hl.box hfs ha hw] at hn hmax
        obtain ⟨-, hpos⟩ := mem_aheadOf.1 hn
        have hsm : s ∈ node :: l := by rw [hq]; simp
        have hsg : s ∈ g.nodes := hrg.sub.1 s ((hp.2.1 s).1 hsm)
        have hlast : (node :: l).getLast? = some s := by rw [hq]; simp
        have hlen : 2 ≤ (node :: l).length := by rw [hq]; simp
        have hfalls := trail_falls ht
        have hle : ∀ y ∈ node :: l, ahead L hL τ' s y ≤ ahead L hL τ' s node := by
          intro y hy
          rcases List.mem_cons.1 hy with rfl | hy
          · exact le_rfl
          · exact ((List.pairwise_cons.1 hfalls).1 y hy).le
        rcases ahead_step ha (hL := hL) hsg c1 hgn hpos with h | ⟨rfl, h⟩ | ⟨hgt, b1, b2, b3, b4, b5⟩
        · have hnot : n ∉ node :: l := fun hm => by
            have := hle n hm
            linarith
          have hnot' : n ∉ rg.nodes := fun hm => hnot ((hp.2.1 n).2 hm)
          simp only [afterNext, if_neg hnot']
          exact ⟨rfl, rfl, .path ho (forward_step hl.box hfs ha c1 hpos) (PathGraph.extend hp hnot) (List.isChain_cons_cons.2 ⟨⟨c1, hpos, h⟩, ht⟩) (q := n :: q) (by rw [hq]; rfl) hf⟩
        · have hmem : n ∈ rg.nodes := (hp.2.1 n).1 hsm
          simp only [afterNext, if_pos hmem]
          refine ⟨rfl, rfl, .closed ho (forward_step hl.box hfs ha c1 hpos) (closedOnce_of_trail ha (fun x hx => hrg.sub.1 x ((hp.2.1 x).1 hx)) hp ht hlast c1 hpos h) ?_ hf⟩
          exact mem_addEdge.2 (.inl ((hp.2.1 n1).1 (by rw [hq]; simp)))
        · exfalso
          have hnode0 : 0 < ahead L hL τ' s node := by
            have := (abs_lt.1 (ha.short _ _ c1)).2
            have := (ahead_mem (τ := τ') (hL := hL) s node).1
            linarith [ha.len]
          have hns : node ≠ s := by
            rintro rfl
            rw [ahead_self] at hnode0
            exact lt_irrefl _ hnode0
          have hs2 : rg.degree s = 1 := by
            rw [← nbrCount_eq_degree hrg.good]
            rcases PathGraph.degrees hrg.good hp hlen hsm with h | h
            · exact h.1
            · exact absurd hlast h.2.2
          refine absurd (hmax s (mem_aheadOf.2 ⟨b1, b3⟩)) (not_le.2 (closes hl.good hl.box hfs hl.attr ha hw b1 b3 c1 hpos b4 ((hp.2.1 s).1 hsm) hs2 fun hm => ?_))
          rw [← nbrCount_eq_degree hrg.good]
          rcases PathGraph.degrees hrg.good hp hlen ((hp.2.1 n).2 hm) with ⟨-, h | h⟩ | h
          · simp only [List.head?_cons, Option.some.injEq] at h
            exact absurd h (goodGraph_edge hl.good c1).2.2
          · rw [hlast] at h
            exact absurd (Option.some.inj h).symm b5
          · exact h.1
      | @closed τ' σ' w n1 ho hw hcl hn1 hf =>
        have ha := hdir ho
        rw [candidates_forward hl.good hl.box hfs ha hw] at hn hmax
        obtain ⟨-, hpos⟩ := mem_aheadOf.1 hn
        have hmem : n ∈ rg.nodes := by
          by_contra hnot
          exact absurd (hmax n1 (mem_aheadOf.2 ⟨hf.1, hf.2.1⟩)) (not_le.2 (stays hl.good hl.box hfs hl.attr ha hw hf hn1 c1 hpos hnot))
        simp only [afterNext, if_pos hmem]
        exact .inr ⟨τ', σ', ho, hcl⟩

/-- On a closed line, the ballistic method gives a loop that goes round once. -/
theorem ballistic_loop (hl : LineCluster g cs fs) (hfs : 0 < fs) (h : Around g cs fs L τ σ) {n : ℕ} {rg : NxGraph (Vec d) Unit} (hr : BRun g cs fs n (.done rg)) :
    ∃ τ' σ', Orient τ σ τ' σ' ∧ ClosedOnce g L σ' rg := by
  have key : ∀ {n s}, BRun g cs fs n s → AInv g cs fs L h.len τ σ s := by
    intro n s hr
    induction hr with
    | init => exact .inl ⟨rfl, rfl⟩
    | step hr hst ih => exact aInv_step hl hfs h (bRun_inv hl hr).1 ih hst
  exact key hr

end
end NF
