import Verif.Lemmas.Stencil
import Verif.Props.Coord

/-! # C46 - C50: the initial mesh and the refinement stencils -/

noncomputable section
open Classical

namespace NF
open Spec
variable {d : ℕ}

/-! ## C46 -/

/-- C46.  The initial mesh has `∏ mesh_size` simplices.  Each has `dim + 1` vertices; its first vertex lies within the limits, and the others are obtained from it
by moving up by at most half a mesh cell.  If the box is periodic, all vertices are in the half-open box. -/
theorem C46_mesh_size_and_position {cs : CoordSys d} (hb : ProperBox cs) (m : Fin d → ℕ) :
    (initialSimplices cs m).length = ∏ i, m i ∧
    ∀ s ∈ initialSimplices cs m, s.length = d + 1 ∧
      (∃ v rest, s = v :: rest ∧ (∀ i, cs.lower i ≤ v i ∧ v i ≤ cs.upper i) ∧
        ∀ w ∈ s, ∀ i, v i ≤ w i ∧ w i ≤ v i + (cs.upper i - cs.lower i) / (2 * m i)) ∧
      (cs.periodic = true → ∀ w ∈ s, InBox cs w) := by
  constructor
  · unfold initialSimplices generateMeshSimplices meshVertices
    simp [length_productList, length_linspace]
  · intro s hs
    obtain ⟨v, hv, rfl⟩ := List.mem_map.1 hs
    have hv := (mem_meshVertices.1 hv).1
    refine ⟨by simp [meshSimplex], ⟨v, _, meshSimplex_eq _ _ _ _, fun i => ?_, fun w hw i => base_le hb hw i⟩, ?_⟩
    · have := linspace_mem_Icc (hb i) (hv i)
      exact ⟨this.1, this.2.1⟩
    · intro hp w hw i
      have h1 := linspace_mem_Icc (hb i) (hv i)
      have h2 := base_le hb hw i
      have h3 := h1.2.2 (by simp [hp])
      have hsz : 0 < cs.upper i - cs.lower i := by have := hb i; linarith
      obtain ⟨k, hk, -⟩ := mem_linspace.1 (hv i)
      have hm : (0 : ℝ) < m i := by exact_mod_cast (by omega : 0 < m i)
      have h4 : (cs.upper i - cs.lower i) / (2 * m i) < (cs.upper i - cs.lower i) / m i := by
        apply div_lt_div_of_pos_left hsz hm
        linarith
      exact ⟨by linarith, by linarith⟩

/-- C46, the limit of the claim: in a box which is not periodic the mesh always has simplices with vertices above the upper limit (in every dimension with at
least two mesh points). -/
theorem C46_nonperiodic_sticks_out {cs : CoordSys d} (hb : ProperBox cs) (hp : cs.periodic = false) {m : Fin d → ℕ} (hm : ∀ i, 1 ≤ m i) (i : Fin d)
    (hi : 2 ≤ m i) : ∃ s ∈ initialSimplices cs m, ∃ w ∈ s, cs.upper i < w i := by
  have hmi : (2 : ℝ) ≤ m i := by exact_mod_cast hi
  have hsz : 0 < cs.upper i - cs.lower i := by have := hb i; linarith
  refine ⟨_, List.mem_map.2 ⟨fun k => if k = i then cs.upper i else cs.lower k, mem_meshVertices.2 ⟨fun k => ?_, by simp⟩, rfl⟩, _,
    mem_meshSimplex.2 (.inr ⟨i, rfl⟩), ?_⟩
  · split
    · rename_i e; subst e
      refine mem_linspace.2 ⟨m k - 1, by omega, ?_⟩
      rw [hp, Nat.cast_sub (by omega)]
      simp only [Bool.not_false, if_true, Nat.cast_one]
      have : (m k : ℝ) - 1 ≠ 0 := by linarith
      field_simp
      ring
    · exact mem_linspace.2 ⟨0, hm k, by simp⟩
  · simp only [if_true]
    have : 0 < (cs.upper i - cs.lower i) / (2 * m i) := by positivity
    linarith

/-! ## C47 -/

/-- C47.  The simplices of the mesh are pairwise different, even as sets of vertices, and each is non-degenerate. -/
theorem C47_mesh_distinct_independent {cs : CoordSys d} (hb : ProperBox cs) {m : Fin d → ℕ} (hm : ∀ i, 1 ≤ m i) :
    DistinctSimplices (initialSimplices cs m) ∧
    ∀ s ∈ initialSimplices cs m, ∃ h : s.length = d + 1, AffineIndependent ℝ fun j : Fin (d + 1) => s.get (Fin.cast h.symm j) := by
  refine ⟨distinct_mesh hb m _ _, fun s hs => ?_⟩
  obtain ⟨v, -, rfl⟩ := List.mem_map.1 hs
  refine ⟨by simp [meshSimplex], ?_⟩
  convert affineIndependent_mesh hb hm v using 2 with j
  unfold meshSimplex
  rw [List.get_ofFn]
  rfl

theorem distinct_scale {st : List (Simplex d)} (h : DistinctSimplices st) {c : ℝ} (hc : c ≠ 0) : DistinctSimplices (scaleStencil st c) := by
  unfold DistinctSimplices scaleStencil at *
  rw [List.pairwise_map]
  refine h.imp fun {a b} hne hp => hne ?_
  have hinj : Function.Injective fun v : Vec d => fun k => v k * c := fun v w hvw => by
    funext k
    exact mul_right_cancel₀ hc (congrFun hvw k)
  exact (List.map_perm_map_iff hinj).1 hp

theorem distinct_auto (d : ℕ) : DistinctSimplices (autoStencil d) := by
  unfold autoStencil
  split
  · exact circle_distinct
  · exact sphere_distinct _
  · exact distinct_mesh (fun _ => by norm_num) _ _ _

/-- C47, stencils: the stencils the library makes do not contain a simplex twice. -/
theorem C47_stencil_distinct :
    (∀ n, DistinctSimplices (circleStencil n)) ∧ (∀ n, DistinctSimplices (sphereStencil n)) ∧
    (∀ (d : ℕ) (m : Fin d → ℕ) (dm : ℝ), 0 < dm → DistinctSimplices (meshStencil m dm)) ∧ ∀ d, DistinctSimplices (autoStencil d) :=
  ⟨fun _ => circle_distinct, sphere_distinct, fun _ m _ h => distinct_mesh (fun _ => by linarith) m _ _, distinct_auto⟩

/-- C47, its use: a search with the mesh the library makes, and with no stencil or the `'auto'` one, meets the condition `DistinctInput` under which the other theorems about searches
are proved (C16, C21 - C34). -/
theorem C47_distinct_input {p : CtlParams d} (hb : ProperBox p.coord) (hf : 0 < p.featureSize) {m : Fin d → ℕ} (hm : p.mesh = initialSimplices p.coord m)
    (hs : p.stencil = none ∨ p.stencil = some (scaleStencil (autoStencil d) (p.featureSize / 3))) : DistinctInput p := by
  refine ⟨by rw [hm]; exact distinct_mesh hb m _ _, fun st hst => ?_⟩
  rcases hs with hs | hs
  · rw [hs] at hst; cases hst
  · rw [hs] at hst
    cases hst
    exact distinct_scale (distinct_auto d) (by linarith)

/-! ## C48 -/

/-- The distance of neighbouring mesh points of `m` points on an interval of length `size`: the `m` points of a periodic mesh exclude the upper limit, those of a mesh which is not periodic
include it. -/
def meshSpacing (periodic : Bool) (size : ℝ) (m : ℕ) : ℝ :=
  if periodic then size / m else if m = 1 then size else size / ((m : ℝ) - 1)

theorem linspace_cover {l u : ℝ} (h : l < u) {m : ℕ} (hm : 1 ≤ m) (p : Bool) {x : ℝ} (hx : l ≤ x) (hx' : x ≤ u) (hxp : p = true → x < u) :
    ∃ v ∈ linspace l u m (!p), v ≤ x ∧ x ≤ v + meshSpacing p (u - l) m := by
  have hul : 0 < u - l := by linarith
  have key : ∀ step : ℝ, 0 < step → x < l + m * step → ∃ k < m, l + k * step ≤ x ∧ x ≤ l + k * step + step := by
    intro step hs hlt
    have h0 : 0 ≤ (x - l) / step := div_nonneg (by linarith) hs.le
    refine ⟨⌊(x - l) / step⌋₊, ?_, ?_, ?_⟩
    · rw [Nat.floor_lt h0, div_lt_iff₀ hs]; linarith
    · have := Nat.floor_le h0
      rw [le_div_iff₀ hs] at this
      linarith
    · have := (Nat.lt_floor_add_one ((x - l) / step)).le
      rw [div_le_iff₀ hs] at this
      linarith
  have hm' : (1 : ℝ) ≤ m := by exact_mod_cast hm
  cases p with
  | true =>
    have hs : 0 < (u - l) / m := by positivity
    have e : (m : ℝ) * ((u - l) / m) = u - l := by field_simp
    obtain ⟨k, hk, h1, h2⟩ := key _ hs (by rw [e]; have := hxp rfl; linarith)
    exact ⟨_, mem_linspace.2 ⟨k, hk, by simp⟩, h1, by simpa [meshSpacing] using h2⟩
  | false =>
    by_cases h1 : m = 1
    · subst h1
      exact ⟨l, mem_linspace.2 ⟨0, by omega, by simp⟩, hx, by simp [meshSpacing]; linarith⟩
    · have hm2 : (2 : ℝ) ≤ m := by exact_mod_cast (by omega : 2 ≤ m)
      have hm1 : (0 : ℝ) < (m : ℝ) - 1 := by linarith
      have hs : 0 < (u - l) / ((m : ℝ) - 1) := by positivity
      have e : (m : ℝ) * ((u - l) / ((m : ℝ) - 1)) = u - l + (u - l) / ((m : ℝ) - 1) := by field_simp; ring
      obtain ⟨k, hk, h3, h4⟩ := key _ hs (by rw [e]; linarith)
      refine ⟨_, mem_linspace.2 ⟨k, hk, by simp⟩, h3, ?_⟩
      simp only [meshSpacing, Bool.false_eq_true, if_false, if_neg h1]
      exact h4

/-- C48.  Every point of the box lies, in each coordinate, at most one mesh spacing above the first vertex of some simplex of the mesh. -/
theorem C48_mesh_covers {cs : CoordSys d} (hb : ProperBox cs) {m : Fin d → ℕ} (hm : ∀ i, 1 ≤ m i) {x : Vec d}
    (hx : ∀ i, cs.lower i ≤ x i ∧ x i ≤ cs.upper i) (hxp : cs.periodic = true → InBox cs x) :
    ∃ s ∈ initialSimplices cs m, ∃ v rest, s = v :: rest ∧
      ∀ i, v i ≤ x i ∧ x i ≤ v i + meshSpacing cs.periodic (cs.upper i - cs.lower i) (m i) := by
  choose v hv h1 h2 using fun i => linspace_cover (hb i) (hm i) cs.periodic (hx i).1 (hx i).2 fun hp => (hxp hp i).2
  exact ⟨_, List.mem_map.2 ⟨v, mem_meshVertices.2 ⟨hv, by simp⟩, rfl⟩, v, _, meshSimplex_eq _ _ _ _, fun i => ⟨h1 i, h2 i⟩⟩

/-! ## C49 -/

theorem abs_le_of_sum {v : Vec d} {r : ℝ} (hr : 0 ≤ r) (h : ∑ k, v k ^ 2 ≤ r ^ 2) (i : Fin d) : |v i| ≤ r := by
  have h1 : v i ^ 2 ≤ ∑ k, v k ^ 2 := Finset.single_le_sum (f := fun k => v k ^ 2) (fun k _ => sq_nonneg _) (Finset.mem_univ i)
  exact abs_le_of_sq_le_sq (h1.trans h) hr

theorem auto_vertex {s : Simplex d} (hs : s ∈ autoStencil d) {v : Vec d} (hv : v ∈ s) :
    1 < ∑ k, v k ^ 2 ∧ ∀ i, |v i| ≤ 10 / 3 := by
  unfold autoStencil at hs
  split at hs
  · obtain ⟨phi, -, rfl⟩ := List.mem_map.1 hs
    obtain ⟨j, rfl⟩ := List.mem_ofFn.1 hv
    have h1 := rotate_norm phi (circleSimplex 5 j)
    constructor
    · rw [h1]; have := (circle_norm (n := 5) (by norm_num) j).1; norm_num at this ⊢; linarith
    · refine abs_le_of_sum (by norm_num) ?_
      rw [h1]
      have h3 : Real.sqrt 3 ^ 2 = 3 := Real.sq_sqrt (by norm_num)
      have h4 : 0 ≤ Real.sqrt 3 := Real.sqrt_nonneg _
      have h5 : Real.sqrt 3 ≤ 2 := by nlinarith
      fin_cases j <;> simp [circleSimplex, Fin.sum_univ_two] <;> nlinarith
  · obtain ⟨i, hi, rfl⟩ := mem_sphere.1 hs
    obtain ⟨j, rfl⟩ := List.mem_ofFn.1 hv
    obtain ⟨h1, -, -, h2⟩ := sphere_vertex hi j
    simp only at h1 h2
    obtain ⟨s1, -, s3, -⟩ := sphereSimplex_spec 30 (by norm_num) j
    constructor
    · refine lt_of_lt_of_le ?_ h1; norm_num
    · refine abs_le_of_sum (by norm_num) ?_
      rw [h2]
      have h3 : sphereSimplex 30 j 0 ≤ 1 := by
        have := abs_le_of_sum (v := sphereSimplex 30 j) (r := 1) (by norm_num) (s3.trans (by norm_num)) 0
        exact (le_abs_self _).trans this
      norm_num at s3
      norm_num
      linarith
  · obtain ⟨b, hb, rfl⟩ := List.mem_map.1 hs
    obtain ⟨hb1, hb2⟩ := mem_meshVertices.1 hb
    have hval : ∀ i, b i = -2.5 ∨ b i = 0 ∨ b i = 2.5 := fun i => by
      obtain ⟨k, hk, e⟩ := mem_linspace.1 (hb1 i)
      rw [e]
      interval_cases k <;> norm_num
    have hw : ∀ k, ∃ t : ℝ, v k = b k + t ∧ 0 ≤ t ∧ t ≤ 5 / 6 := fun k => by
      have := base_le (l := fun _ => (-2.5 : ℝ)) (u := fun _ => 2.5) (fun _ => by norm_num) hv k
      exact ⟨v k - b k, by ring, by linarith [this.1], by have := this.2; norm_num at this; linarith⟩
    constructor
    · obtain ⟨i, hi⟩ := not_forall.1 (hb2 rfl)
      have hne : b i ≠ 0 := fun h => hi (by rw [h]; norm_num)
      have h1 : v i ^ 2 ≤ ∑ k, v k ^ 2 := Finset.single_le_sum (f := fun k => v k ^ 2) (fun k _ => sq_nonneg _) (Finset.mem_univ i)
      refine lt_of_lt_of_le ?_ h1
      obtain ⟨t, ht, t0, t1⟩ := hw i
      rcases hval i with h | h | h
      · rw [ht, h]; nlinarith
      · exact absurd h hne
      · rw [ht, h]; nlinarith
    · intro i
      obtain ⟨t, ht, t0, t1⟩ := hw i
      rw [ht, abs_le]
      rcases hval i with h | h | h <;> rw [h] <;> constructor <;> linarith

/-- C49.  Every vertex of the simplices around a refined position is farther than `dist_cutoff = feature_size / 3` from the position, if the default stencil is used (and
the box, if it is periodic, is larger than `13 / 9` feature sizes, so that no image of the position is near). -/
theorem C49_auto_outside_cutoff {cs : CoordSys d} (hb : ProperBox cs) {fs : ℝ} (hf : 0 < fs)
    (hsz : cs.periodic = true → ∀ i, 13 / 9 * fs < cs.upper i - cs.lower i) (pos : Vec d) {s : Simplex d}
    (hs : s ∈ translateStencil pos (scaleStencil (autoStencil d) (fs / 3))) {w : Vec d} (hw : w ∈ s) :
    fs / 3 < cs.distance pos w := by
  obtain ⟨s1, hs1, rfl⟩ := List.mem_map.1 hs
  obtain ⟨s0, hs0, rfl⟩ := List.mem_map.1 hs1
  obtain ⟨w1, hw1, rfl⟩ := List.mem_map.1 hw
  obtain ⟨v, hv, rfl⟩ := List.mem_map.1 hw1
  obtain ⟨h1, h2⟩ := auto_vertex hs0 hv
  have hbase : fs / 3 < Real.sqrt (∑ i, (v i * (fs / 3)) ^ 2) := by
    apply Real.lt_sqrt_of_sq_lt
    simp only [mul_pow]
    rw [← Finset.sum_mul]
    have : 0 < (fs / 3) ^ 2 := by positivity
    nlinarith
  cases hp : cs.periodic with
  | false =>
    rw [C03_distance_nonperiodic cs hp]
    unfold eucl
    refine lt_of_lt_of_eq hbase ?_
    congr 1
    exact Finset.sum_congr rfl fun i _ => by ring
  | true =>
    obtain ⟨⟨k, hk⟩, -⟩ := C04_distance_is_min_over_images cs hb hp pos (fun i => pos i + v i * (fs / 3))
    rw [hk]
    unfold eucl
    by_cases hk0 : ∀ i, k i = 0
    · refine lt_of_lt_of_eq hbase ?_
      congr 1
      exact Finset.sum_congr rfl fun i _ => by unfold shift; rw [hk0 i]; push_cast; ring
    · obtain ⟨i, hi⟩ := not_forall.1 hk0
      have hki : (1 : ℝ) ≤ |(k i : ℝ)| := by exact_mod_cast Int.one_le_abs hi
      have h3 : fs / 3 < |pos i - shift cs k (fun i => pos i + v i * (fs / 3)) i| := by
        unfold shift
        have e : pos i - (pos i + v i * (fs / 3) + (k i : ℝ) * (cs.upper i - cs.lower i)) =
          -((k i : ℝ) * (cs.upper i - cs.lower i) - -(v i * (fs / 3))) := by ring
        simp only
        rw [e, abs_neg]
        refine lt_of_lt_of_le ?_ (abs_sub_abs_le_abs_sub _ _)
        have hs1 := hsz hp i
        rw [abs_mul, abs_neg, abs_mul, abs_of_pos (by linarith : 0 < cs.upper i - cs.lower i), abs_of_pos (by linarith : 0 < fs / 3)]
        have := h2 i
        nlinarith
      apply Real.lt_sqrt_of_sq_lt
      refine lt_of_lt_of_le ?_ (Finset.single_le_sum (f := fun i => (pos i - shift cs k (fun i => pos i + v i * (fs / 3)) i) ^ 2)
        (fun k _ => sq_nonneg _) (Finset.mem_univ i))
      rw [← sq_abs (pos i - _)]
      have : 0 < fs / 3 := by positivity
      nlinarith

/-- C49, circle and sphere stencils with any number of points: all vertices are at least 1.5 (circle) or 1.1 (sphere) `dist_cutoff` away from the centre (the
stencil is scaled by `dist_cutoff` later). -/
theorem C49_circle_sphere_outside (n : ℕ) :
    (∀ s ∈ circleStencil n, ∀ v ∈ s, 1.5 ≤ len v) ∧ (∀ s ∈ sphereStencil n, ∀ v ∈ s, 1.1 ≤ len v) := by
  constructor
  · intro s hs v hv
    obtain ⟨phi, hphi, rfl⟩ := List.mem_map.1 hs
    obtain ⟨j, rfl⟩ := List.mem_ofFn.1 hv
    obtain ⟨k, hk, -⟩ := mem_linspace.1 hphi
    apply Real.le_sqrt_of_sq_le
    rw [rotate_norm]
    have := (circle_norm (n := n) (by omega) j).1
    norm_num at this ⊢
    exact this
  · intro s hs v hv
    obtain ⟨i, hi, rfl⟩ := mem_sphere.1 hs
    obtain ⟨j, rfl⟩ := List.mem_ofFn.1 hv
    apply Real.le_sqrt_of_sq_le
    have := (sphere_vertex hi j).1
    simp only at this
    norm_num at this ⊢
    exact this

/-! ## C50 -/

theorem linspace_symm {D : ℝ} {m : ℕ} (hD : 1 / 10 ^ 8 * (m : ℝ) < D) {x : ℝ} (hx : x ∈ linspace (-D) D m true) (h : |x| ≤ 1 / 10 ^ 8) :
    x = 0 ∧ Odd m ∧ 3 ≤ m := by
  obtain ⟨k, hk, rfl⟩ := mem_linspace.1 hx
  simp only [if_true] at *
  have hkm : (k : ℝ) + 1 ≤ m := by exact_mod_cast hk
  have hk0 : (0 : ℝ) ≤ k := by positivity
  by_cases h1 : m = 1
  · have : k = 0 := by omega
    subst h1 this
    simp at h hD
    rw [abs_of_pos (by linarith)] at h
    linarith
  · have hm2 : (2 : ℝ) ≤ m := by exact_mod_cast (by omega : 2 ≤ m)
    have hm1 : (0 : ℝ) < (m : ℝ) - 1 := by linarith
    have e : -D + (k : ℝ) * ((D - -D) / ((m : ℝ) - 1)) = D * ((2 * (k : ℝ) - ((m : ℝ) - 1)) / ((m : ℝ) - 1)) := by
      field_simp; ring
    have hDp : 0 < D := by
      have : (0 : ℝ) < 1 / 10 ^ 8 * m := by positivity
      linarith
    by_cases hz : 2 * k + 1 = m
    · have hz' : 2 * (k : ℝ) + 1 = m := by exact_mod_cast hz
      refine ⟨?_, ⟨k, hz.symm⟩, by omega⟩
      rw [e, ← hz']; ring
    · exfalso
      have h2 : (1 : ℝ) ≤ |2 * (k : ℝ) - ((m : ℝ) - 1)| := by
        have : (1 : ℤ) ≤ |2 * (k : ℤ) - ((m : ℤ) - 1)| := Int.one_le_abs (by omega)
        exact_mod_cast this
      rw [e, abs_mul, abs_div, abs_of_pos hDp, abs_of_pos hm1] at h
      have h3 : 1 / ((m : ℝ) - 1) ≤ |2 * (k : ℝ) - ((m : ℝ) - 1)| / ((m : ℝ) - 1) := by gcongr
      have h4 : D * (1 / ((m : ℝ) - 1)) ≤ 1 / 10 ^ 8 := le_trans (mul_le_mul_of_nonneg_left h3 hDp.le) h
      rw [mul_one_div, div_le_iff₀ hm1] at h4
      linarith

theorem zero_mem_linspace {D : ℝ} {m : ℕ} (ho : Odd m) (h3 : 3 ≤ m) : (0 : ℝ) ∈ linspace (-D) D m true := by
  obtain ⟨k, hk⟩ := ho
  refine mem_linspace.2 ⟨k, by omega, ?_⟩
  have hk1 : (1 : ℝ) ≤ k := by exact_mod_cast (by omega : 1 ≤ k)
  simp only [if_true, hk]
  push_cast
  have : (k : ℝ) ≠ 0 := by linarith
  rw [show (2 * (k : ℝ) + 1 - 1) = 2 * k by ring]
  field_simp
  ring

/-- C50, mesh stencil: it has one simplex of `dim + 1` vertices for every mesh point except the origin, which is a mesh point exactly if all mesh sizes are odd and not 1.  (`dist_multiplier` must
not be tiny: the program treats points closer than `1e-8` to the origin as the origin.) -/
theorem C50_mesh_stencil (m : Fin d → ℕ) {D : ℝ} (hD0 : 0 < D) (hD : ∀ i, 1 / 10 ^ 8 * (m i : ℝ) < D) :
    (meshStencil m D).length = ∏ i, m i - (if ∀ i, Odd (m i) ∧ 3 ≤ m i then 1 else 0) ∧ ∀ s ∈ meshStencil m D, s.length = d + 1 := by
  constructor
  · unfold meshStencil generateMeshSimplices meshVertices
    simp only [if_true, List.length_map, Bool.not_false]
    set l := productList fun i => linspace (-D) D (m i) true with hl
    have hlen : l.length = ∏ i, m i := by rw [hl, length_productList]; simp [length_linspace]
    have hnd : l.Nodup := nodup_productList fun i => nodup_linspace (by linarith) _ _
    have hiff : ∀ v ∈ l, allcloseZero v ↔ v = 0 := fun v hv => by
      constructor
      · intro h; funext i; exact (linspace_symm (hD i) (mem_productList.1 hv i) (h i)).1
      · rintro rfl i; simp
    have e1 : l.filter (fun v => decide (¬ allcloseZero v)) = l.filter (fun v => decide (v ≠ 0)) :=
      List.filter_congr fun v hv => by simp [hiff v hv]
    have e2 : l.filter (fun v => decide (v ≠ 0)) = l.erase 0 := by
      rw [hnd.erase_eq_filter]
      exact List.filter_congr fun v _ => by
        by_cases h : v = 0 <;> simp [h]
    rw [e1, e2, List.length_erase, hlen]
    have hmem : (0 : Vec d) ∈ l ↔ ∀ i, Odd (m i) ∧ 3 ≤ m i := by
      rw [hl, mem_productList]
      constructor
      · exact fun h i => (linspace_symm (hD i) (h i) (by simp)).2
      · exact fun h i => zero_mem_linspace (h i).1 (h i).2
    by_cases h : ∀ i, Odd (m i) ∧ 3 ≤ m i
    · rw [if_pos (hmem.2 h), if_pos h]
    · rw [if_neg fun hh => h (hmem.1 hh), if_neg h]; rfl
  · intro s hs
    obtain ⟨v, -, rfl⟩ := List.mem_map.1 hs
    simp [meshSimplex]

/-- C50, circle and sphere stencils: `num_points` triangles, respectively tetrahedra. -/
theorem C50_circle_sphere (n : ℕ) :
    (circleStencil n).length = n ∧ (∀ s ∈ circleStencil n, s.length = 3) ∧ (sphereStencil n).length = n ∧ (∀ s ∈ sphereStencil n, s.length = 4) := by
  refine ⟨by simp [circleStencil, length_linspace], fun s hs => ?_, by simp [sphereStencil, fibonacciPoints], fun s hs => ?_⟩
  · obtain ⟨phi, -, rfl⟩ := List.mem_map.1 hs; simp
  · obtain ⟨i, -, rfl⟩ := mem_sphere.1 hs; simp

/-- C50, the `'auto'` stencil: 5 simplices in two dimensions, 30 in three, `3 ^ dim - 1` otherwise; always with `dim + 1` vertices. -/
theorem C50_auto (d : ℕ) :
    (autoStencil d).length = (if d = 2 then 5 else if d = 3 then 30 else 3 ^ d - 1) ∧ ∀ s ∈ autoStencil d, s.length = d + 1 := by
  unfold autoStencil
  split
  · exact ⟨by simp [(C50_circle_sphere 5).1], (C50_circle_sphere 5).2.1⟩
  · exact ⟨by simp [(C50_circle_sphere 30).2.2.1], (C50_circle_sphere 30).2.2.2⟩
  · rename_i h2 h3
    have := C50_mesh_stencil (d := d) (fun _ => 3) (D := 2.5) (by norm_num) (fun _ => by norm_num)
    rw [if_neg (by simpa using h2), if_neg (by simpa using h3)]
    refine ⟨?_, this.2⟩
    rw [this.1, if_pos fun _ => ⟨by decide, le_rfl⟩]
    simp

/-! ## Examples: the hypotheses can be met -/

/-- A periodic and an open square box with a 2x3 mesh. -/
example (p : Bool) : (initialSimplices (⟨fun _ => 0, fun _ => 1, p⟩ : CoordSys 2) ![2, 3]).length = 6 := by
  rw [(C46_mesh_size_and_position (fun _ => by norm_num) _).1]
  simp

example : ∃ s ∈ initialSimplices (⟨fun _ => 0, fun _ => 1, false⟩ : CoordSys 2) ![2, 3], ∃ w ∈ s, (1 : ℝ) < w 1 :=
  C46_nonperiodic_sticks_out (cs := ⟨fun _ => 0, fun _ => 1, false⟩) (fun _ => by norm_num) rfl (by intro i; fin_cases i <;> simp) 1 (by simp)

example (pos : Vec 3) : ∃ s ∈ translateStencil pos (scaleStencil (autoStencil 3) (0.3 / 3)), ∀ w ∈ s,
    (0.3 / 3 : ℝ) < (⟨fun _ => 0, fun _ => 1, true⟩ : CoordSys 3).distance pos w := by
  have hl := (C50_auto 3).1
  have : ∃ s, s ∈ autoStencil 3 := List.exists_mem_of_length_pos (by rw [hl]; norm_num)
  obtain ⟨s, hs⟩ := this
  refine ⟨_, List.mem_map.2 ⟨_, List.mem_map.2 ⟨s, hs, rfl⟩, rfl⟩, fun w hw => ?_⟩
  refine C49_auto_outside_cutoff (fun _ => by norm_num) (by norm_num) (fun _ i => by norm_num) pos
    (List.mem_map.2 ⟨_, List.mem_map.2 ⟨s, hs, rfl⟩, rfl⟩) hw

end NF
