import Verif.Lemmas.SimilarRun
import Verif.Lemmas.UnitsInv
import Verif.Lemmas.Coord
import Mathlib.LinearAlgebra.FiniteDimensional.Basic
import Mathlib.LinearAlgebra.Matrix.DotProduct

/-! # Lemmas: changes of units, periodic images and isometries are similarities -/

noncomputable section
open Classical

namespace NF
open Spec
variable {d : ℕ}

/-! ## Units -/

theorem units_connectingVector (u : Units d) (cs : CoordSys d) (x y : Vec d) (i : Fin d) :
    (u.coord cs).connectingVector (u.pos x) (u.pos y) i = u.scale * cs.connectingVector x y i := by
  have h : u.pos y i - u.pos x i = u.scale * (y i - x i) := by simp only [Units.pos]; ring
  have hp : (u.coord cs).periodic = cs.periodic := rfl
  simp only [CoordSys.connectingVector, h, hp, units_size, pmod_scale u.scale_pos]
  by_cases hpp : cs.periodic
  · rw [if_pos hpp, if_pos hpp, ← mul_sub, ← mul_neg, if_congr (mul_lt_mul_iff_of_pos_left u.scale_pos) rfl rfl]
    split_ifs <;> rfl
  · rw [if_neg hpp, if_neg hpp]

theorem similar_units (u : Units d) (cs : CoordSys d) : Similar cs (u.coord cs) Set.univ u.pos u.scale id where
  pos := u.scale_pos
  inj := units_pos_inj u
  dist _ _ _ _ := units_distance u cs _ _
  vec _ _ _ _ i := units_connectingVector u cs _ _ i
  smul _ _ _ := rfl
  dot _ _ := rfl

theorem units_average (u : Units d) (cs : CoordSys d) (l : List (Vec d)) (p : Vec d) (h : cs.average l = .ok p) :
    ∃ q, (u.coord cs).average (l.map u.pos) = .ok q ∧ SamePoint (u.coord cs) (u.pos p) q := by
  have hp : (u.coord cs).periodic = cs.periodic := rfl
  cases l with
  | nil => cases h
  | cons o l =>
    unfold CoordSys.average at h ⊢
    rw [List.map_cons]
    dsimp only at h ⊢
    rw [hp]
    unfold SamePoint
    rw [hp]
    by_cases hpp : cs.periodic
    · rw [if_pos hpp] at h ⊢
      cases h
      refine ⟨_, rfl, ?_⟩
      rw [if_pos hpp]
      have hm : ∀ i, CoordSys.mean ((u.pos o :: l.map u.pos).map fun pos => (u.coord cs).connectingVector (u.pos o) pos) i =
          u.scale * CoordSys.mean ((o :: l).map fun pos => cs.connectingVector o pos) i := by
        intro i
        rw [← List.map_cons (f := u.pos)]
        unfold CoordSys.mean
        simp only [List.map_map, List.length_map]
        rw [← mul_div_assoc, ← List.sum_map_mul_left]
        congr 2
        refine List.map_congr_left fun x _ => ?_
        exact units_connectingVector u cs o x i
      have hk : ∀ i, ∃ k : ℤ, pmod (u.pos o i + CoordSys.mean ((u.pos o :: l.map u.pos).map fun pos => (u.coord cs).connectingVector (u.pos o) pos) i) ((u.coord cs).size i) =
          u.pos (fun i => pmod (o i + CoordSys.mean ((o :: l).map fun pos => cs.connectingVector o pos) i) (cs.size i)) i + k * ((u.coord cs).upper i - (u.coord cs).lower i) := by
        intro i
        obtain ⟨k1, h1⟩ := pmod_exists (u.pos o i + CoordSys.mean ((u.pos o :: l.map u.pos).map fun pos => (u.coord cs).connectingVector (u.pos o) pos) i) ((u.coord cs).size i)
        obtain ⟨k2, h2⟩ := pmod_exists (o i + CoordSys.mean ((o :: l).map fun pos => cs.connectingVector o pos) i) (cs.size i)
        refine ⟨k1 - k2, ?_⟩
        rw [h1, hm]
        simp only [Units.pos, h2, Units.coord]
        have : (u.coord cs).size i = u.scale * cs.size i := units_size u cs i
        simp only [Units.coord, Units.pos, CoordSys.size] at this ⊢
        push_cast
        ring
      choose k hk using hk
      exact ⟨k, funext hk⟩
    · rw [if_neg hpp] at h ⊢
      cases h
      refine ⟨_, rfl, ?_⟩
      rw [if_neg hpp]
      funext i
      rw [← List.map_cons (f := u.pos)]
      unfold CoordSys.mean Units.pos
      simp only [List.map_map, List.length_map]
      have hsum : ∀ m : List (Vec d), (m.map ((fun p => p i) ∘ fun x k => u.scale * x k + u.origin k)).sum = u.scale * (m.map fun p => p i).sum + m.length * u.origin i := by
        intro m
        induction m with
        | nil => simp
        | cons x m ih =>
          simp only [List.map_cons, List.sum_cons, ih, List.length_cons, Function.comp_apply]
          push_cast
          ring
      rw [hsum]
      have hn : (((o :: l).length : ℕ) : ℝ) ≠ 0 := by simp; positivity
      field_simp

theorem units_pos_inv (u : Units d) (x : Vec d) : u.pos (u.inv.pos x) = x := by
  have := units_inv_pos u.inv x
  rwa [units_inv_inv] at this

theorem units_samePoint (u : Units d) (cs : CoordSys d) {p q : Vec d} (h : SamePoint cs (u.inv.pos p) q) : SamePoint (u.coord cs) (u.pos q) p := by
  unfold SamePoint at h ⊢
  have hp : (u.coord cs).periodic = cs.periodic := rfl
  rw [hp]
  by_cases hpp : cs.periodic
  · rw [if_pos hpp] at h ⊢
    obtain ⟨k, rfl⟩ := h
    refine ⟨fun i => -k i, ?_⟩
    have hx := units_pos_inv u p
    funext i
    have hi := congrFun hx i
    simp only [shift, Units.pos, Units.coord] at hi ⊢
    push_cast
    linear_combination -hi
  · rw [if_neg hpp] at h ⊢
    rw [← h, units_pos_inv]

/-! ## Moves of a periodic box -/

theorem list_exists_perm {V : Type} (f : V → V) (l : List V) (hf : Set.InjOn f {x | x ∈ l}) : ∃ e : Equiv.Perm V, ∀ x ∈ l, e x = f x := by
  induction l with
  | nil => exact ⟨1, by simp⟩
  | cons y l ih =>
    obtain ⟨e, he⟩ := ih (hf.mono fun x hx => List.mem_cons_of_mem _ hx)
    by_cases hy : y ∈ l
    · refine ⟨e, fun x hx => ?_⟩
      rcases List.mem_cons.1 hx with rfl | hx
      · exact he _ hy
      · exact he x hx
    · refine ⟨e.trans (Equiv.swap (e y) (f y)), fun x hx => ?_⟩
      rcases List.mem_cons.1 hx with rfl | hx
      · simp
      · have hxy : x ≠ y := fun h => hy (h ▸ hx)
        have h1 : e x ≠ e y := e.injective.ne hxy
        have h2 : f x ≠ f y := fun h => hxy (hf (List.mem_cons_of_mem _ hx) List.mem_cons_self h)
        rw [Equiv.trans_apply, Equiv.swap_apply_of_ne_of_ne h1 (by rw [he x hx]; exact h2), he x hx]

theorem connectingVector_moved {cs : CoordSys d} (hb : ProperBox cs) (hp : cs.periodic = true) {t x y x' y' : Vec d} (hx : Congr cs (fun i => x i + t i) x') (hy : Congr cs (fun i => y i + t i) y') :
    cs.connectingVector x' y' = cs.connectingVector x y ∧ cs.distance x' y' = cs.distance x y := by
  obtain ⟨k, rfl⟩ := hx
  obtain ⟨k', rfl⟩ := hy
  have h : ∀ i, pmod (shift cs k' (fun i => y i + t i) i - shift cs k (fun i => x i + t i) i) (cs.size i) = pmod (y i - x i) (cs.size i) := by
    intro i
    rw [← pmod_add_int_mul (CoordSys.size_pos hb i) (y i - x i) (k' i - k i)]
    congr 1
    simp only [shift, CoordSys.size]
    push_cast
    ring
  constructor
  · funext i
    simp only [CoordSys.connectingVector, hp, if_true, h]
  · unfold CoordSys.distance
    congr 1
    funext i
    simp only [CoordSys.distDelta, hp, if_true, h]

theorem similar_moved {cs : CoordSys d} (hb : ProperBox cs) (hp : cs.periodic = true) {t : Vec d} {f : Vec d → Vec d} (hinj : Function.Injective f) {S : Set (Vec d)}
    (h : ∀ x ∈ S, Congr cs (fun i => x i + t i) (f x)) : Similar cs cs S f 1 id where
  pos := one_pos
  inj := hinj
  dist x hx y hy := by rw [(connectingVector_moved hb hp (h x hx) (h y hy)).2, one_mul]
  vec x hx y hy i := by rw [(connectingVector_moved hb hp (h x hx) (h y hy)).1, one_mul]; rfl
  smul _ _ _ := rfl
  dot _ _ := rfl

theorem average_moved {cs : CoordSys d} (hb : ProperBox cs) (hp : cs.periodic = true) {t : Vec d} {f : Vec d → Vec d} {S : Set (Vec d)} (h : ∀ x ∈ S, Congr cs (fun i => x i + t i) (f x))
    (l : List (Vec d)) (hl : ∀ x ∈ l, x ∈ S) (p : Vec d) (h' : cs.average l = .ok p) : ∃ q, cs.average (l.map f) = .ok q ∧ Congr cs (fun i => p i + t i) q := by
  cases l with
  | nil => cases h'
  | cons o l =>
    unfold CoordSys.average at h' ⊢
    rw [List.map_cons]
    dsimp only at h' ⊢
    rw [hp, if_pos rfl] at h' ⊢
    cases h'
    refine ⟨_, rfl, ?_⟩
    have ho := h o (hl o List.mem_cons_self)
    have hm : ((f o :: l.map f).map fun pos => cs.connectingVector (f o) pos) = ((o :: l).map fun pos => cs.connectingVector o pos) := by
      rw [← List.map_cons, List.map_map]
      exact List.map_congr_left fun x hx => (connectingVector_moved hb hp ho (h x (hl x hx))).1
    rw [hm]
    obtain ⟨k0, h0⟩ := ho
    have hk : ∀ i, ∃ k : ℤ, pmod (f o i + CoordSys.mean ((o :: l).map fun pos => cs.connectingVector o pos) i) (cs.size i) =
        pmod (o i + CoordSys.mean ((o :: l).map fun pos => cs.connectingVector o pos) i) (cs.size i) + t i + k * (cs.upper i - cs.lower i) := by
      intro i
      obtain ⟨k1, h1⟩ := pmod_exists (f o i + CoordSys.mean ((o :: l).map fun pos => cs.connectingVector o pos) i) (cs.size i)
      obtain ⟨k2, h2⟩ := pmod_exists (o i + CoordSys.mean ((o :: l).map fun pos => cs.connectingVector o pos) i) (cs.size i)
      refine ⟨k1 - k2 + k0 i, ?_⟩
      rw [h1, h2, h0]
      simp only [shift, CoordSys.size]
      push_cast
      ring
    choose k hk using hk
    exact ⟨k, funext hk⟩

/-! ## Isometries -/

theorem eucl_sq (x y : Vec d) : eucl x y ^ 2 = dot (x - y) (x - y) := by
  unfold eucl
  rw [Real.sq_sqrt (Finset.sum_nonneg fun i _ => sq_nonneg _)]
  unfold dot
  exact Finset.sum_congr rfl fun i _ => by simp only [Pi.sub_apply]; ring

/-- A map which multiplies all distances by `a` is linear up to the factor and the origin. -/
theorem isometry_linear {T : Vec d → Vec d} {a : ℝ} (ha : 0 < a) (hT : ∀ x y, eucl (T x) (T y) = a * eucl x y) :
    ∃ L : Vec d ≃ₗ[ℝ] Vec d, (∀ x i, T x i = a * L x i + T 0 i) ∧ ∀ u v, dot (L u) (L v) = dot u v := by
  let R : Vec d → Vec d := fun x => a⁻¹ • (T x - T 0)
  have hR0 : R 0 = 0 := by simp [R]
  have hd : ∀ u v : Vec d, NF.dot u v = u ⬝ᵥ v := fun _ _ => rfl
  have hdist : ∀ x y, (R x - R y) ⬝ᵥ (R x - R y) = (x - y) ⬝ᵥ (x - y) := by
    intro x y
    have h : R x - R y = a⁻¹ • (T x - T y) := by simp only [R, ← smul_sub]; congr 1; abel
    have h2 := congrArg (· ^ 2) (hT x y)
    simp only [mul_pow, eucl_sq, hd] at h2
    rw [h, smul_dotProduct, dotProduct_smul, h2, smul_eq_mul, smul_eq_mul]
    field_simp
  have hnorm : ∀ x, R x ⬝ᵥ R x = x ⬝ᵥ x := fun x => by
    have := hdist x 0
    rwa [hR0, sub_zero, sub_zero] at this
  have hdot : ∀ x y, R x ⬝ᵥ R y = x ⬝ᵥ y := by
    intro x y
    have h := hdist x y
    simp only [sub_dotProduct, dotProduct_sub, hnorm] at h
    rw [dotProduct_comm (R y), dotProduct_comm y x] at h
    linarith
  have hadd : ∀ x y, R (x + y) = R x + R y := by
    intro x y
    rw [← sub_eq_zero, ← dotProduct_self_eq_zero]
    simp only [sub_dotProduct, dotProduct_sub, add_dotProduct, dotProduct_add, hdot]
    ring
  have hsmul : ∀ (c : ℝ) x, R (c • x) = c • R x := by
    intro c x
    rw [← sub_eq_zero, ← dotProduct_self_eq_zero]
    simp only [sub_dotProduct, dotProduct_sub, smul_dotProduct, dotProduct_smul, hdot, smul_eq_mul]
    ring
  let L : Vec d →ₗ[ℝ] Vec d := ⟨⟨R, hadd⟩, hsmul⟩
  have hLinj : Function.Injective L := by
    rw [injective_iff_map_eq_zero]
    intro x hx
    rw [← dotProduct_self_eq_zero, ← hnorm]
    have : R x = 0 := hx
    rw [this, zero_dotProduct]
  refine ⟨LinearEquiv.ofInjectiveEndo L hLinj, fun x i => ?_, fun u v => hdot u v⟩
  have : (LinearEquiv.ofInjectiveEndo L hLinj) x = R x := rfl
  rw [this]
  simp only [R, Pi.smul_apply, Pi.sub_apply, smul_eq_mul]
  field_simp
  ring

theorem distance_nonperiodic {cs : CoordSys d} (h : cs.periodic = false) (x y : Vec d) : cs.distance x y = eucl x y := by
  unfold CoordSys.distance CoordSys.norm eucl
  congr 1
  refine Finset.sum_congr rfl fun i _ => ?_
  simp only [CoordSys.distDelta, h, Bool.false_eq_true, if_false]
  ring

theorem similar_isometry {cs cs' : CoordSys d} (hp : cs.periodic = false) (hp' : cs'.periodic = false) {T : Vec d → Vec d} {a : ℝ} (ha : 0 < a) (hT : ∀ x y, eucl (T x) (T y) = a * eucl x y)
    {L : Vec d ≃ₗ[ℝ] Vec d} (hL : ∀ x i, T x i = a * L x i + T 0 i) (hd : ∀ u v, dot (L u) (L v) = dot u v) : Similar cs cs' Set.univ T a L where
  pos := ha
  inj := by
    intro x y h
    apply L.injective
    funext i
    have := congrFun h i
    rw [hL x, hL y] at this
    exact mul_left_cancel₀ ha.ne' (add_right_cancel this)
  dist x _ y _ := by rw [distance_nonperiodic hp, distance_nonperiodic hp', hT]
  vec x _ y _ i := by
    have hv : cs.connectingVector x y = fun i => y i - x i := by
      funext i
      simp only [CoordSys.connectingVector, hp, Bool.false_eq_true, if_false]
    rw [hv]
    simp only [CoordSys.connectingVector, hp', Bool.false_eq_true, if_false]
    have : L (fun i => y i - x i) = L y - L x := by rw [← map_sub]; rfl
    rw [this, hL y, hL x]
    simp only [Pi.sub_apply]
    ring
  smul c v i := by
    have : L (fun i => c * v i) = c • L v := by rw [← map_smul]; rfl
    rw [this]; rfl
  dot := hd

theorem average_nonperiodic {cs cs' : CoordSys d} (hp : cs.periodic = false) (hp' : cs'.periodic = false) {T : Vec d → Vec d} {a : ℝ} {L : Vec d →ₗ[ℝ] Vec d} {o : Vec d} (hL : ∀ x i, T x i = a * L x i + o i)
    (l : List (Vec d)) (p : Vec d) (h' : cs.average l = .ok p) : ∃ q, cs'.average (l.map T) = .ok q ∧ q = T p := by
  cases l with
  | nil => cases h'
  | cons x l =>
    unfold CoordSys.average at h' ⊢
    rw [List.map_cons]
    dsimp only at h' ⊢
    rw [hp, if_neg (by simp)] at h'
    rw [hp', if_neg (by simp)]
    cases h'
    refine ⟨_, rfl, ?_⟩
    have hm : ∀ m : List (Vec d), CoordSys.mean m = ((m.length : ℝ)⁻¹) • m.sum := by
      intro m
      funext i
      unfold CoordSys.mean
      have : m.sum i = (m.map fun p => p i).sum := by
        induction m with
        | nil => rfl
        | cons y m ih => simp only [List.sum_cons, List.map_cons, Pi.add_apply, ih]
      simp only [Pi.smul_apply, smul_eq_mul, this]
      rw [div_eq_inv_mul]
    have hs : ∀ m : List (Vec d), ∀ i, (m.map T).sum i = a * L m.sum i + m.length * o i := by
      intro m i
      induction m with
      | nil => simp
      | cons y m ih =>
        simp only [List.map_cons, List.sum_cons, Pi.add_apply, ih, map_add, List.length_cons, hL y]
        push_cast
        ring
    rw [← List.map_cons (f := T)]
    funext i
    rw [hm, hL, hm, List.length_map, map_smul]
    simp only [Pi.smul_apply, smul_eq_mul, hs]
    have hn : (((x :: l).length : ℕ) : ℝ) ≠ 0 := by simp; positivity
    field_simp

end NF
