import Verif.Lemmas.SimilarMoves
import Verif.Props.Identify

/-!
# C82, C83, C84: the identification does not depend on units, on where the periodic box begins, or on the orientation
-/

noncomputable section
open Classical

namespace NF
open Spec
variable {d : ℕ}

/-! ## C82 -/

/-- **C82**, `run_from_positions`: with another origin and another unit of length, exactly the same results are possible, in the new coordinates.  (The position of a point may be another image of
the same point.) -/
theorem C82_positions (u : Units d) (positions : List (Vec d)) (cs : CoordSys d) (fs : ℝ) (method : String) :
    SameOutcomes (MovedOutcome u.pos fun p q => SamePoint (u.coord cs) (u.pos p) q) (RunFromPositions positions cs fs method)
      (RunFromPositions (positions.map u.pos) (u.coord cs) (u.scale * fs) method) := by
  refine similar_sameOutcomes (similar_units u cs) (f' := u.inv.pos) (R' := id) (P' := fun p q => SamePoint cs (u.inv.pos p) q) (units_inv_pos u) (units_pos_inv u) (fun _ => rfl) (fun _ => rfl)
    (fun l _ p h => units_average u cs l p h) (fun l _ p h => ?_) (fun p q h => units_samePoint u cs h) (fun _ _ => trivial) fs method
  have := units_average u.inv (u.coord cs) l p h
  rwa [units_inv_coord] at this

/-- **C82**, `identify.run`: the result of a search in other units, with the feature size (if it is given) in the new unit. -/
theorem C82_units (u : Units d) (input : IdInput d) (fs : Option ℝ) (method : String) :
    SameOutcomes (MovedOutcome u.pos fun p q => SamePoint (u.coord input.unwrap.coord) (u.pos p) q) (IdentifyRun input method fs)
      (IdentifyRun (u.input input) method (fs.map fun x => u.scale * x)) := by
  have hpos : ∀ c : Container d, ((u.container c).nodes.values.map fun n => n.pos) = (c.nodes.values.map fun n => n.pos).map u.pos := by
    intro c
    show ((c.nodes.values.map u.frame.sres).map fun n => n.pos) = _
    rw [List.map_map, List.map_map]
    exact List.map_congr_left fun r _ => units_sres_pos u r
  have key : ∀ (c : Container d) (f : ℝ), SameOutcomes (MovedOutcome u.pos fun p q => SamePoint (u.coord c.coord) (u.pos p) q)
      (RunFromPositions (c.nodes.values.map fun n => n.pos) c.coord f method)
      (RunFromPositions ((u.container c).nodes.values.map fun n => n.pos) (u.container c).coord (u.scale * f) method) := by
    intro c f
    rw [hpos]
    exact C82_positions u _ c.coord f method
  have hcut : ∀ c : Container d, (u.container c).distCutoff * 3 = u.scale * (c.distCutoff * 3) := fun c => mul_assoc _ _ _
  have hun : (u.input input).unwrap = u.container input.unwrap := by cases input <;> rfl
  constructor
  · intro r h
    cases h with
    | @noCutoff c h => subst h; exact ⟨_, .noCutoff rfl, .error _⟩
    | @default c r h hr =>
      subst h
      obtain ⟨r', h1, h2⟩ := (key c _).1 r hr
      exact ⟨r', .default (c := u.container c) rfl (by rw [hcut]; exact h1), h2⟩
    | @given f r hr =>
      obtain ⟨r', h1, h2⟩ := (key _ _).1 r hr
      exact ⟨r', .given (by rw [hun]; exact h1), h2⟩
  · intro r h
    cases fs with
    | none =>
      cases input with
      | container c =>
        cases h with
        | noCutoff h => cases h
        | default h hr =>
          cases h
          rw [hcut] at hr
          obtain ⟨r', h1, h2⟩ := (key c _).2 r hr
          exact ⟨r', .default rfl h1, h2⟩
      | state c =>
        cases h with
        | noCutoff h => exact ⟨_, .noCutoff rfl, .error _⟩
        | default h hr => cases h
    | some f =>
      cases h with
      | given hr =>
        rw [hun] at hr
        obtain ⟨r', h1, h2⟩ := (key _ _).2 r hr
        exact ⟨r', .given h1, h2⟩

/-! ## C83 -/

theorem movedOutcome_congr {f g : Vec d → Vec d} {P : Vec d → Vec d → Prop} {positions : List (Vec d)} (hfg : ∀ x ∈ positions, f x = g x) {cs : CoordSys d} (hb : ProperBox cs) {fs : ℝ} (hfs : 0 < fs)
    {method : String} {r r' : Except Err (IdContainer d)} (hr : RunFromPositions positions cs fs method r) (h : MovedOutcome f P r r') : MovedOutcome g P r r' := by
  cases h with
  | error e => exact .error e
  | @ok out out' h =>
    refine .ok ?_
    have hid := C65_results hb hfs hr
    refine (List.forall₂_iff_get.2 ⟨h.length_eq, fun i hi hi' => ?_⟩)
    have hx := (List.forall₂_iff_get.1 h).2 i hi hi'
    have hmem := List.get_mem out.results ⟨i, hi⟩
    generalize out.results.get ⟨i, hi⟩ = x at hx hmem
    generalize out'.results.get ⟨i, hi'⟩ = y at hx
    have hp := (hid.given x hmem).2.2
    refine ⟨?_, hx.dimension, hx.none, hx.point, ?_⟩
    · rw [hx.positions]
      exact List.map_congr_left fun z hz => hfg z (hp z hz)
    · intro l hl
      obtain ⟨l', h1, h2, h3, h4⟩ := hx.line l hl
      have hdim : x.dimension = some 1 := by
        by_contra hne
        by_cases h0 : x.dimension = some 0
        · obtain ⟨p, h, -⟩ := hid.point x hmem h0
          rw [h] at hl; cases hl
        · rw [hid.other x hmem h0 hne] at hl; cases hl
      obtain ⟨l0, e, ht⟩ := hid.line x hmem hdim _ hl
      cases e
      have hn : ∀ z ∈ l.graph.nodes, f z = g z := fun z hz => hfg z (hp z (ht.nodes z hz))
      refine ⟨l', h1, ?_, ?_, h4⟩
      · rw [h2]
        exact List.map_congr_left hn
      · rw [h3]
        refine List.map_congr_left fun e he => ?_
        have := goodGraph_edge ht.simple (x := e.1) (y := e.2.1) ⟨e, he, .inl ⟨rfl, rfl⟩⟩
        rw [hn _ this.1, hn _ this.2.1]

/-- **C83**: in a periodic box, all positions are moved by the same vector `t`, and each of them is replaced by any of its images (different ones by different ones).  Then exactly the same results
are possible, for the moved positions. -/
theorem C83_periodic_moves {cs : CoordSys d} (hb : ProperBox cs) (hp : cs.periodic = true) {fs : ℝ} (hfs : 0 < fs) (positions : List (Vec d)) (t : Vec d) {f : Vec d → Vec d}
    (hinj : Set.InjOn f {x | x ∈ positions}) (hf : ∀ x ∈ positions, Congr cs (fun i => x i + t i) (f x)) (method : String) :
    SameOutcomes (MovedOutcome f fun p q => Congr cs (fun i => p i + t i) q) (RunFromPositions positions cs fs method) (RunFromPositions (positions.map f) cs fs method) := by
  obtain ⟨e, he⟩ := list_exists_perm f positions hinj
  have hf' : ∀ x ∈ {x | x ∈ positions}, Congr cs (fun i => x i + t i) (e x) := fun x hx => by rw [he x hx]; exact hf x hx
  have hback : ∀ p q : Vec d, Congr cs (fun i => p i + t i) q → Congr cs (fun i => q i + -t i) p := by
    rintro p q ⟨k, rfl⟩
    refine ⟨fun i => -k i, ?_⟩
    funext i
    simp only [shift]
    push_cast
    ring
  have hsim := similar_moved hb hp e.injective hf'
  have hmap : positions.map f = positions.map e := List.map_congr_left fun x hx => (he x hx).symm
  have key := similar_sameOutcomes hsim (f' := e.symm) (R' := id) (P := fun p q => Congr cs (fun i => p i + t i) q) (P' := fun p q => Congr cs (fun i => p i + -t i) q)
    e.symm_apply_apply e.apply_symm_apply (fun _ => rfl) (fun _ => rfl)
    (average_moved hb hp hf') (average_moved hb hp (t := fun i => -t i) (fun y hy => by
      obtain ⟨x, hx, rfl⟩ := hy
      rw [e.symm_apply_apply]
      exact hback _ _ (hf' x hx))) (fun p q h => by
      obtain ⟨k, rfl⟩ := h
      refine ⟨fun i => -k i, ?_⟩
      funext i
      simp only [shift]
      push_cast
      ring) (positions := positions) (fun x hx => hx) fs method
  rw [one_mul, ← hmap] at key
  exact ⟨fun r h => (key.1 r h).imp fun r' h' => ⟨h'.1, movedOutcome_congr he hb hfs h h'.2⟩, fun r' h => (key.2 r' h).imp fun r h' => ⟨h'.1, movedOutcome_congr he hb hfs h'.1 h'.2⟩⟩

/-! ## C84 -/

/-- **C84**: without periodic boundaries, the positions are moved by a map which multiplies all distances by the same factor (a rotation, a reflection, a translation, a change of the unit, or all of
them).  Then exactly the same results are possible, for the moved positions and the feature size in the new unit; points are moved in the same way.  The limits do not matter at all. -/
theorem C84_rigid_motions {cs cs' : CoordSys d} (hp : cs.periodic = false) (hp' : cs'.periodic = false) {T : Vec d → Vec d} {a : ℝ} (ha : 0 < a) (hT : ∀ x y, eucl (T x) (T y) = a * eucl x y)
    (positions : List (Vec d)) (fs : ℝ) (method : String) :
    SameOutcomes (MovedOutcome T fun p q => q = T p) (RunFromPositions positions cs fs method) (RunFromPositions (positions.map T) cs' (a * fs) method) := by
  obtain ⟨L, hL, hd⟩ := isometry_linear ha hT
  have hsim := similar_isometry hp hp' ha hT hL hd
  let T' : Vec d → Vec d := fun y i => a⁻¹ * L.symm y i + (-(a⁻¹ * L.symm (T 0) i))
  have hT1 : ∀ x, T' (T x) = x := by
    intro x
    funext i
    have : T x = a • L x + T 0 := by funext i; rw [hL x i]; rfl
    simp only [T']
    rw [this, map_add, map_smul, L.symm_apply_apply]
    simp only [Pi.add_apply, Pi.smul_apply, smul_eq_mul]
    field_simp
    ring
  have hT2 : ∀ y, T (T' y) = y := by
    intro y
    funext i
    have : T' y = a⁻¹ • (L.symm y - L.symm (T 0)) := by
      funext i
      simp only [T', Pi.smul_apply, Pi.sub_apply, smul_eq_mul]
      ring
    rw [hL, this, map_smul, map_sub, L.apply_symm_apply, L.apply_symm_apply]
    simp only [Pi.sub_apply, Pi.smul_apply, smul_eq_mul]
    field_simp
    ring
  exact similar_sameOutcomes hsim (f' := T') (R' := L.symm) (P := fun p q => q = T p) (P' := fun p q => q = T' p) hT1 hT2 L.symm_apply_apply L.apply_symm_apply
    (fun l _ p h => average_nonperiodic hp hp' (L := L.toLinearMap) (o := T 0) hL l p h)
    (fun l _ p h => average_nonperiodic hp' hp (L := L.symm.toLinearMap) (fun _ _ => rfl) l p h)
    (fun p q h => by rw [h, hT2]) (fun _ _ => trivial) fs method

/-! ### Examples -/
namespace C82Demo

def u : Units 1 := ⟨2, 1, ![3], by norm_num, by norm_num⟩

/-- `1`, `1.5`, `2` and `9` in the interval `[0, 10]` become `5`, `6`, `7` and `21` in the interval `[3, 23]`, and the isolated point `9` becomes the isolated point `21`. -/
example : ([![1], ![1.5], ![2], (![9] : Vec 1)].map u.pos = [![5], ![6], ![7], ![21]]) ∧ ∃ out out', RunFromPositions [![1], ![1.5], ![2], (![9] : Vec 1)] exBox 0.6 "ballistic" (.ok out) ∧
    RunFromPositions ([![1], ![1.5], ![2], (![9] : Vec 1)].map u.pos) (u.coord exBox) (2 * 0.6) "ballistic" (.ok out') ∧
    (∃ r ∈ out.results, r.positions = [![9]] ∧ r.dimension = some 0) ∧ ∃ r ∈ out'.results, r.positions = [![21]] ∧ r.dimension = some 0 ∧ ∃ q, r.shape = some (.point q) := by
  have hpos : ∀ x : ℝ, u.pos ![x] = ![2 * x + 3] := by
    intro x
    funext i
    fin_cases i
    simp [u, Units.pos]
  refine ⟨by simp only [List.map_cons, List.map_nil, hpos]; norm_num, ?_⟩
  obtain ⟨⟨r, hr⟩, h2⟩ := C65_never_raises exBox_proper (fs := 0.6) (by norm_num) [![1], ![1.5], ![2], (![9] : Vec 1)] (method := "ballistic") (.inl rfl)
  obtain ⟨out, rfl, -⟩ := h2 r hr
  obtain ⟨r', hr', hm⟩ := (C82_positions u _ exBox 0.6 "ballistic").1 _ hr
  cases hm with
  | @ok _ out' hm =>
    obtain ⟨x, hx, h3, h4, p, h5, -⟩ := C57_isolated_point exBox_proper (by norm_num) hr (x := ![9]) (by simp) (by
      intro y hy hne
      simp only [List.mem_cons, List.not_mem_nil, or_false] at hy
      rcases hy with rfl | rfl | rfl | rfl
      · rw [ex_dist]; norm_num
      · rw [ex_dist]; norm_num
      · rw [ex_dist]; norm_num
      · exact absurd rfl hne)
    refine ⟨out, out', hr, hr', ⟨x, hx, h3, h4⟩, ?_⟩
    obtain ⟨y, hy, hxy⟩ := forall₂_mem_left hm hx
    refine ⟨y, hy, ?_, by rw [hxy.dimension, h4], ?_⟩
    · rw [hxy.positions, h3, List.map_cons, List.map_nil, hpos]
      norm_num
    · obtain ⟨q, h6, -⟩ := hxy.point p h5
      exact ⟨q, h6⟩

/-- a periodic box -/
def ring : CoordSys 1 := ⟨fun _ => 0, fun _ => 1, true⟩

/-- The hypotheses of `C83_periodic_moves` are met by two positions on both sides of the boundary, which are moved by `0.3`; one of them is replaced by an image. -/
example : ProperBox ring ∧ ring.periodic = true ∧ ∃ f : Vec 1 → Vec 1, f ![0.9] = ![0.2] ∧ f ![0.1] = ![0.4] ∧ Set.InjOn f {x | x ∈ [![0.9], (![0.1] : Vec 1)]} ∧
    (∀ x ∈ [![0.9], (![0.1] : Vec 1)], Congr ring (fun i => x i + (![0.3] : Vec 1) i) (f x)) ∧ ∃ r, RunFromPositions [![0.9], (![0.1] : Vec 1)] ring 0.3 "ballistic" r := by
  have hb : ProperBox ring := fun _ => by norm_num [ring]
  have hne : (![0.1] : Vec 1) ≠ ![0.9] := fun h => by have := congrFun h 0; norm_num at this
  have hne' : (![0.4] : Vec 1) ≠ ![0.2] := fun h => by have := congrFun h 0; norm_num at this
  refine ⟨hb, rfl, fun x => if x = ![0.9] then ![0.2] else ![0.4], if_pos rfl, if_neg hne, ?_, ?_, (C65_never_raises hb (by norm_num) _ (.inl rfl)).1⟩
  · intro x hx y hy h
    simp only [Set.mem_ofPred_eq, List.mem_cons, List.not_mem_nil, or_false] at hx hy
    rcases hx with rfl | rfl <;> rcases hy with rfl | rfl
    · rfl
    · simp only [if_true, if_neg hne] at h
      exact absurd h.symm hne'
    · simp only [if_true, if_neg hne] at h
      exact absurd h hne'
    · rfl
  · intro x hx
    simp only [List.mem_cons, List.not_mem_nil, or_false] at hx
    rcases hx with rfl | rfl
    · refine ⟨fun _ => -1, ?_⟩
      beta_reduce
      rw [if_pos rfl]
      funext i
      fin_cases i
      norm_num [shift, ring]
    · refine ⟨fun _ => 0, ?_⟩
      beta_reduce
      rw [if_neg hne]
      funext i
      fin_cases i
      norm_num [shift, ring]

/-- The hypotheses of `C84_rigid_motions` are met by a rotation by a right angle with another unit. -/
example : ∃ T : Vec 2 → Vec 2, (∀ x y, eucl (T x) (T y) = 3 * eucl x y) ∧ T ![1, 0] = ![5, 3] := by
  refine ⟨fun x => ![5 - 3 * x 1, 3 * x 0], fun x y => ?_, ?_⟩
  · unfold eucl
    rw [show (3 : ℝ) = Real.sqrt (3 ^ 2) by rw [Real.sqrt_sq (by norm_num)], ← Real.sqrt_mul (by norm_num), Real.sqrt_sq (by norm_num)]
    congr 1
    simp only [Fin.sum_univ_two, Matrix.cons_val_zero, Matrix.cons_val_one]
    ring
  · funext i
    fin_cases i <;> simp

end C82Demo

end NF
