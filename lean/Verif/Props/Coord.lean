import Verif.Lemmas.Coord

/-! # Properties C01–C07: the coordinate system -/

noncomputable section
namespace NF
open Spec CoordSys
variable {d : ℕ}

/-- A concrete box used in the examples: `[-1, 1] × [0, 3]`, periodic or not. -/
def exampleBox (periodic : Bool) : CoordSys 2 :=
  CoordSys.ofLimits ![(1, -1), (0, 3)] periodic

theorem exampleBox_proper (b : Bool) : ProperBox (exampleBox b) := by
  intro i
  fin_cases i <;> norm_num [exampleBox, CoordSys.ofLimits]

/-! ## C01 -/

/-- **C01** (periodic): fractional coordinates lie in `[0,1)`, and mapping them back gives the normalized
position. -/
theorem C01_frac_periodic (c : CoordSys d) (hb : ProperBox c) (hp : c.periodic = true) (p : Vec d) :
    (∀ i, 0 ≤ c.getFrac p i ∧ c.getFrac p i < 1) ∧ c.getPos (c.getFrac p) = c.normalizePosition p := by
  constructor
  · intro i
    simp only [getFrac, hp, if_true]
    exact ⟨pmod_nonneg one_pos _, pmod_lt one_pos _⟩
  · funext i
    have hs := size_pos hb i
    simp only [getPos, getFrac, normalizePosition, hp, if_true]
    congr 1
    unfold pmod
    rw [div_one]
    field_simp

/-- **C01** (periodic): the map back from fractional coordinates in `[0,1)` is inverted by `get_frac`. -/
theorem C01_frac_periodic_inverse (c : CoordSys d) (hb : ProperBox c) (hp : c.periodic = true) (f : Vec d)
    (hf : ∀ i, 0 ≤ f i ∧ f i < 1) : c.getFrac (c.getPos f) = f := by
  funext i
  have hs := size_pos hb i
  simp only [getPos, getFrac, hp, if_true]
  rw [add_sub_cancel_right, mul_div_cancel_right₀ _ hs.ne', pmod_eq_self (hf i).1 (hf i).2]

/-- **C01** (non-periodic): `get_pos` and `get_frac` are exact inverses. -/
theorem C01_frac_nonperiodic (c : CoordSys d) (hb : ProperBox c) (hp : c.periodic = false) (p : Vec d) :
    c.getPos (c.getFrac p) = p ∧ c.getFrac (c.getPos p) = p := by
  constructor <;> funext i <;> have hs := size_pos hb i <;>
    simp [getPos, getFrac, hp]
  · field_simp; ring
  · field_simp

example : ProperBox (exampleBox true) ∧ (exampleBox true).periodic = true := ⟨exampleBox_proper _, rfl⟩
example : ProperBox (exampleBox false) ∧ (exampleBox false).periodic = false := ⟨exampleBox_proper _, rfl⟩

/-! ## C02 -/

/-- **C02** (periodic): `normalize_position` maps into the box, to an image of the same point, is
idempotent, and two positions have the same normal form iff they are images of each other. -/
theorem C02_normalize_periodic (c : CoordSys d) (hb : ProperBox c) (hp : c.periodic = true) (p : Vec d) :
    InBox c (c.normalizePosition p) ∧ Congr c p (c.normalizePosition p) ∧
    c.normalizePosition (c.normalizePosition p) = c.normalizePosition p ∧
    ∀ q, c.normalizePosition p = c.normalizePosition q ↔ Congr c p q := by
  have hin : ∀ p, InBox c (c.normalizePosition p) := by
    intro p i
    have hs := size_pos hb i
    have h0 := pmod_nonneg hs (p i - c.lower i)
    have h1 := pmod_lt hs (p i - c.lower i)
    simp only [normalizePosition, hp, if_true]
    unfold size at *
    constructor <;> linarith
  refine ⟨hin p, ?_, ?_, ?_⟩
  · choose k hk using fun i => pmod_exists (p i - c.lower i) (c.size i)
    refine ⟨k, ?_⟩
    funext i
    rw [shift_apply]
    simp only [normalizePosition, hp, if_true]
    rw [hk]; ring
  · funext i
    have := hin p i
    generalize c.normalizePosition p = q at this ⊢
    simp only [normalizePosition, hp, if_true]
    rw [pmod_eq_self (by linarith) (by unfold size; linarith)]
    ring
  · intro q
    have key : ∀ i, c.normalizePosition p i = c.normalizePosition q i ↔
        ∃ k : ℤ, q i = p i + k * c.size i := by
      intro i
      simp only [normalizePosition, hp, if_true, add_left_inj]
      rw [pmod_eq_iff (size_pos hb i)]
      exact exists_congr fun k => ⟨fun h => by linarith, fun h => by linarith⟩
    rw [funext_iff]
    simp_rw [key]
    constructor
    · intro h
      choose k hk using h
      exact ⟨k, funext hk⟩
    · rintro ⟨k, hk⟩ i
      exact ⟨k i, congrFun hk i⟩

/-- **C02** (non-periodic): `normalize_position` is the identity. -/
theorem C02_normalize_nonperiodic (c : CoordSys d) (hp : c.periodic = false) (p : Vec d) :
    c.normalizePosition p = p := by
  funext i; simp [normalizePosition, hp]

example : (exampleBox true).normalizePosition ![5/2, -1] = ![1/2, 2] := by
  funext i
  fin_cases i
  · simp only [normalizePosition, exampleBox, CoordSys.ofLimits, size]
    norm_num [pmod]
  · simp only [normalizePosition, exampleBox, CoordSys.ofLimits, size]
    norm_num [pmod]

/-! ## C03 -/

/-- **C03**: `distance` is a metric on the points of the (possibly periodic) space. -/
theorem C03_distance_metric (c : CoordSys d) (hb : ProperBox c) (p q r : Vec d) :
    0 ≤ c.distance p q ∧
    c.distance p q = c.distance q p ∧
    c.distance p r ≤ c.distance p q + c.distance q r ∧
    (c.distance p q = 0 ↔ SamePoint c p q) := by
  refine ⟨len_nonneg _, ?_, ?_, ?_⟩
  · rw [distance_eq_len, distance_eq_len]
    apply len_congr
    intro i
    rcases hp : c.periodic with _ | _
    · rw [distDelta_nonperiodic hp, distDelta_nonperiodic hp, abs_sub_comm]
    · rw [distDelta_periodic hp, distDelta_periodic hp, ← neg_sub, wrap_neg (size_pos hb i)]
  · simp only [distance_eq_len]
    refine le_trans (len_mono ?_) (len_add_le _ _)
    intro i
    rcases hp : c.periodic with _ | _
    · simp only [distDelta_nonperiodic hp]
      exact le_of_eq (by congr 1; ring)
    · simp only [distDelta_periodic hp]
      have hs := size_pos hb i
      rw [abs_of_nonneg (wrap_nonneg hs _), abs_of_nonneg (add_nonneg (wrap_nonneg hs _) (wrap_nonneg hs _))]
      have := wrap_add_le hs (q i - p i) (r i - q i)
      rwa [show q i - p i + (r i - q i) = r i - p i by ring] at this
  · rw [distance_eq_len, len_eq_zero]
    unfold SamePoint
    rcases hp : c.periodic with _ | _
    · simp only [distDelta_nonperiodic hp, Bool.false_eq_true, if_false]
      constructor
      · intro h; funext i; linarith [h i]
      · rintro rfl i; ring
    · simp only [distDelta_periodic hp, if_true]
      simp_rw [fun i => wrap_eq_zero (size_pos hb i) (q i - p i)]
      constructor
      · intro h
        choose k hk using h
        exact ⟨k, funext fun i => by rw [shift_apply]; linarith [hk i]⟩
      · rintro ⟨k, rfl⟩ i
        exact ⟨k i, by rw [shift_apply]; ring⟩

/-- **C03** (non-periodic): it is the ordinary Euclidean distance. -/
theorem C03_distance_nonperiodic (c : CoordSys d) (hp : c.periodic = false) (p q : Vec d) :
    c.distance p q = eucl p q := distance_eucl hp p q

example : ∃ p q : Vec 2, p ≠ q ∧ SamePoint (exampleBox true) p q := by
  refine ⟨![0, 0], shift (exampleBox true) ![1, -2] ![0, 0], ?_, ?_⟩
  · intro h
    have := congrFun h 0
    norm_num [shift, exampleBox, CoordSys.ofLimits] at this
  · simp only [SamePoint, exampleBox, CoordSys.ofLimits, if_true]
    exact ⟨_, rfl⟩

/-! ## C04 -/

/-- **C04**: the periodic distance is the minimum, over all lattice images of `q`, of the Euclidean
distance to `p`: it is attained by some image and no image is closer. -/
theorem C04_distance_is_min_over_images (c : CoordSys d) (hb : ProperBox c) (hp : c.periodic = true)
    (p q : Vec d) :
    (∃ k, c.distance p q = eucl p (shift c k q)) ∧ ∀ k, c.distance p q ≤ eucl p (shift c k q) := by
  have heucl : ∀ k, eucl p (shift c k q) = len (fun i => q i - p i + k i * c.size i) := by
    intro k
    unfold eucl
    change len (fun i => p i - shift c k q i) = _
    apply len_congr
    intro i
    rw [abs_sub_comm, shift_apply]
    congr 1; ring
  rw [distance_eq_len]
  constructor
  · choose k hk using fun i => wrap_attained (size_pos hb i) (q i - p i)
    refine ⟨k, ?_⟩
    rw [heucl]
    apply len_congr
    intro i
    rw [distDelta_periodic hp, abs_of_nonneg (wrap_nonneg (size_pos hb i) _), hk]
  · intro k
    rw [heucl]
    apply len_mono
    intro i
    rw [distDelta_periodic hp, abs_of_nonneg (wrap_nonneg (size_pos hb i) _)]
    exact wrap_le (size_pos hb i) _ _

/-- **C04**: the distance does not change when either argument is replaced by an image, and never exceeds
half the box diagonal. -/
theorem C04_distance_shift_invariant (c : CoordSys d) (hb : ProperBox c) (hp : c.periodic = true)
    (p q p' q' : Vec d) (hpp : Congr c p p') (hqq : Congr c q q') :
    c.distance p' q' = c.distance p q ∧ c.distance p q ≤ eucl c.lower c.upper / 2 := by
  obtain ⟨k, rfl⟩ := hpp
  obtain ⟨l, rfl⟩ := hqq
  constructor
  · rw [distance_eq_len, distance_eq_len]
    apply len_congr
    intro i
    rw [distDelta_periodic hp, distDelta_periodic hp]
    congr 1
    rw [shift_apply, shift_apply]
    rw [show q i + l i * c.size i - (p i + k i * c.size i)
      = q i - p i + ((l i - k i : ℤ) : ℝ) * c.size i by push_cast; ring]
    exact wrap_add_int_mul (size_pos hb i) _ _
  · have : eucl c.lower c.upper / 2 = len (fun i => c.size i / 2) := by
      have e : ∑ i, (c.size i / 2) ^ 2 = (∑ i, (c.lower i - c.upper i) ^ 2) / 4 := by
        rw [Finset.sum_div]
        apply Finset.sum_congr rfl
        intro i _
        unfold size; ring
      unfold eucl len
      rw [e, Real.sqrt_div (Finset.sum_nonneg fun i _ => sq_nonneg _),
        show (4:ℝ) = 2 ^ 2 by norm_num, Real.sqrt_sq (by norm_num)]
    rw [this, distance_eq_len]
    apply len_mono
    intro i
    have hs := size_pos hb i
    rw [distDelta_periodic hp, abs_of_nonneg (wrap_nonneg hs _), abs_of_nonneg (by linarith)]
    exact wrap_le_half _

example : ∃ p q : Vec 2, ¬ p = q ∧ Congr (exampleBox true) p q :=
  ⟨![0, 0], shift (exampleBox true) ![1, 0] ![0, 0], by
    intro h; have := congrFun h 0; norm_num [shift, exampleBox, CoordSys.ofLimits] at this, _, rfl⟩

/-! ## C05 -/

/-- **C05**: the assertion inside `connecting_vector` never fires, and the returned vector leads from
`p` to `q` (to an image of `q`, if periodic), and is as long as the distance. -/
theorem C05_connecting_vector (c : CoordSys d) (hb : ProperBox c) (p q : Vec d) :
    ∃ v, c.connectingVectorChecked p q = .ok v ∧ v = c.connectingVector p q ∧
      SamePoint c (p + v) q ∧ len v = c.distance p q ∧
      (c.periodic = true → ∀ i, -((c.upper i - c.lower i) / 2) < v i ∧ v i ≤ (c.upper i - c.lower i) / 2) ∧
      (c.periodic = false → v = q - p) := by
  have hlen : len (c.connectingVector p q) = c.distance p q := by
    rw [distance_eq_len]; exact len_congr (abs_connectingVector hb p q)
  have hsame : SamePoint c (p + c.connectingVector p q) q := by
    unfold SamePoint
    rcases hp : c.periodic with _ | _
    · simp only [Bool.false_eq_true, if_false]
      funext i
      simp [connectingVector, hp]
    · simp only [if_true]
      choose k hk using fun i => connectingVector_congr hp p q i
      refine ⟨-k, ?_⟩
      funext i
      rw [shift_apply, Pi.add_apply, hk]
      simp
      ring
  refine ⟨c.connectingVector p q, ?_, rfl, hsame, hlen, ?_, ?_⟩
  · unfold connectingVectorChecked
    have : c.distance (c.connectingVector p q + p) q = 0 := by
      rw [(C03_distance_metric c hb _ _ 0).2.2.2, add_comm]
      exact hsame
    simp only [this]
    norm_num
  · intro hp i
    have hs := size_pos hb i
    have h0 := pmod_nonneg hs (q i - p i)
    have h1 := pmod_lt hs (q i - p i)
    simp only [connectingVector, hp, if_true]
    have : c.upper i - c.lower i = c.size i := rfl
    rw [this]
    split
    · constructor <;> linarith
    · constructor <;> linarith
  · intro hp
    funext i
    simp [connectingVector, hp]

/-- **C05**: no vector leading from `p` to (an image of) `q` is shorter. -/
theorem C05_connecting_vector_shortest (c : CoordSys d) (hb : ProperBox c) (p q w : Vec d)
    (hw : SamePoint c (p + w) q) : len (c.connectingVector p q) ≤ len w := by
  have hlen : len (c.connectingVector p q) = c.distance p q := by
    rw [distance_eq_len]; exact len_congr (abs_connectingVector hb p q)
  rw [hlen]
  unfold SamePoint at hw
  rcases hp : c.periodic with _ | _
  · simp only [hp, Bool.false_eq_true, if_false] at hw
    rw [distance_eq_len]
    apply len_mono
    intro i
    rw [distDelta_nonperiodic hp, ← hw]
    simp
  · simp only [hp, if_true] at hw
    obtain ⟨k, rfl⟩ := hw
    rw [distance_eq_len]
    apply len_mono
    intro i
    rw [distDelta_periodic hp, abs_of_nonneg (wrap_nonneg (size_pos hb i) _)]
    refine (wrap_le (size_pos hb i) _ (-k i)).trans (le_of_eq ?_)
    rw [shift_apply, Pi.add_apply]
    congr 1; push_cast; ring

example : SamePoint (exampleBox true) (![0, 0] + ![2, 3]) ![0, 0] := by
  simp only [SamePoint, exampleBox, CoordSys.ofLimits, if_true]
  refine ⟨![-1, -1], ?_⟩
  funext i
  fin_cases i <;> norm_num [shift]

/-! ## C06 -/

/-- `us` is a choice of images of the positions `ps` which all lie within less than half a box length of each
other, in every dimension: an unwrapping of a small cluster. -/
def Unwraps (c : CoordSys d) (ps us : List (Vec d)) : Prop :=
  List.Forall₂ (Congr c) ps us ∧
  ∀ u ∈ us, ∀ v ∈ us, ∀ i, |u i - v i| < (c.upper i - c.lower i) / 2

/-- **C06** (periodic), the part that holds: for a non-empty cluster that fits in half the box, `average`
returns the point that is an image of the ordinary mean of the unwrapped cluster, with components in `[0, size)`.
*Missing* with respect to C06: the result is not always within the limits, see
`C06_average_outside_limits`. -/
theorem C06_average_is_mean (c : CoordSys d) (hb : ProperBox c) (hp : c.periodic = true)
    (ps us : List (Vec d)) (hne : ps ≠ []) (hu : Unwraps c ps us) :
    ∃ a, c.average ps = .ok a ∧
      Congr c (fun i => (us.map (fun u => u i)).sum / us.length) a ∧
      ∀ i, 0 ≤ a i ∧ a i < c.upper i - c.lower i := by
  obtain ⟨hF, hsp⟩ := hu
  cases hF with
  | nil => exact absurd rfl hne
  | @cons o u0 ps us h0 hrest =>
    have hall : List.Forall₂ (Congr c) (o :: ps) (u0 :: us) := .cons h0 hrest
    have hcv : ∀ p u, Congr c p u → u ∈ u0 :: us → c.connectingVector o p = fun i => u i - u0 i := by
      intro p u hpu hmem
      funext i
      have hs := size_pos hb i
      obtain ⟨k, rfl⟩ := hpu
      obtain ⟨l, rfl⟩ := h0
      have hd := hsp _ hmem _ (List.mem_cons_self ..) i
      rw [abs_lt] at hd
      rw [shift_apply, shift_apply] at hd ⊢
      have hsz : c.upper i - c.lower i = c.size i := rfl
      rw [hsz] at hd
      simp only [connectingVector, hp, if_true]
      by_cases hneg : (p i + k i * c.size i - (o i + l i * c.size i)) < 0
      · have : pmod (p i - o i) (c.size i)
            = p i + k i * c.size i - (o i + l i * c.size i) + c.size i := by
          apply pmod_unique (l i - k i - 1)
          · linarith
          · linarith
          · push_cast; ring
        rw [this, if_pos (by linarith)]
        ring
      · have : pmod (p i - o i) (c.size i)
            = p i + k i * c.size i - (o i + l i * c.size i) := by
          apply pmod_unique (l i - k i)
          · linarith
          · linarith
          · push_cast; ring
        rw [this, if_neg (by linarith)]
    have hmap : (o :: ps).map (fun p => c.connectingVector o p) = (u0 :: us).map (fun u i => u i - u0 i) := by
      have : ∀ (ps us : List (Vec d)), List.Forall₂ (Congr c) ps us →
          (∀ p u, Congr c p u → u ∈ us → c.connectingVector o p = fun i => u i - u0 i) →
          ps.map (fun p => c.connectingVector o p) = us.map (fun u i => u i - u0 i) := by
        intro ps us h
        induction h with
        | nil => intros; rfl
        | cons h1 h2 ih =>
          intro hc
          simp only [List.map_cons]
          rw [hc _ _ h1 (List.mem_cons_self ..)]
          congr 1
          exact ih (fun p u hpu hu => hc p u hpu (List.mem_cons_of_mem _ hu))
      exact this _ _ hall hcv
    simp only [average, hp, if_true, hmap]
    refine ⟨_, rfl, ?_, fun i => ⟨pmod_nonneg (size_pos hb i) _, pmod_lt (size_pos hb i) _⟩⟩
    obtain ⟨l, rfl⟩ := h0
    have hmean : ∀ i, mean ((shift c l o :: us).map (fun u i => u i - shift c l o i)) i
        = ((shift c l o :: us).map (fun u => u i)).sum / ((shift c l o :: us).length : ℝ) - shift c l o i := by
      intro i
      unfold mean
      rw [List.map_map, List.length_map]
      have hsum : ∀ (vs : List (Vec d)), (vs.map ((fun p => p i) ∘ fun u i => u i - shift c l o i)).sum
          = (vs.map (fun u => u i)).sum - vs.length * shift c l o i := by
        intro vs
        induction vs with
        | nil => simp
        | cons v vs ih =>
          simp only [List.map_cons, List.sum_cons, Function.comp, List.length_cons] at ih ⊢
          rw [ih]; push_cast; ring
      rw [hsum]
      have : ((shift c l o :: us).length : ℝ) ≠ 0 := by simp only [List.length_cons]; positivity
      field_simp
    choose k hk using fun i => pmod_exists (o i + mean ((shift c l o :: us).map (fun u i => u i - shift c l o i)) i) (c.size i)
    refine ⟨fun i => k i - l i, ?_⟩
    funext i
    rw [shift_apply, hk, hmean]
    have : shift c l o i = o i + l i * c.size i := rfl
    push_cast
    linarith

/-- **C06** (periodic): the average of a small cluster depends neither on the order of the positions, nor on
which images of them are given. -/
theorem C06_average_order_images (c : CoordSys d) (hb : ProperBox c) (hp : c.periodic = true)
    (ps qs us vs : List (Vec d)) (hne : ps ≠ []) (hu : Unwraps c ps us) (hv : Unwraps c qs vs)
    (hperm : us.Perm vs) : c.average ps = c.average qs := by
  have hqne : qs ≠ [] := by
    intro h
    subst h
    have h1 := List.forall₂_nil_left_iff.1 hv.1
    subst h1
    have h2 := List.perm_nil.1 hperm
    subst h2
    exact hne (List.forall₂_nil_right_iff.1 hu.1)
  obtain ⟨a, ha, ⟨k, hak⟩, har⟩ := C06_average_is_mean c hb hp ps us hne hu
  obtain ⟨b, hb', ⟨l, hbl⟩, hbr⟩ := C06_average_is_mean c hb hp qs vs hqne hv
  rw [ha, hb']
  congr 1
  funext i
  have hmean : (us.map (fun u => u i)).sum / (us.length : ℝ) = (vs.map (fun u => u i)).sum / (vs.length : ℝ) := by
    rw [(hperm.map _).sum_eq, hperm.length_eq]
  have h1 := congrFun hak i
  have h2 := congrFun hbl i
  rw [shift_apply] at h1 h2
  have h3 : pmod (b i) (c.size i) = a i :=
    pmod_unique (l i - k i) (har i).1 (har i).2 (by push_cast; rw [h1, h2, hmean]; ring)
  rw [← h3]
  exact pmod_eq_self (hbr i).1 (hbr i).2

/-- **C06** for boxes with lower limits zero: the average also lies within the limits. -/
theorem C06_average_in_box_of_lower_zero (c : CoordSys d) (hb : ProperBox c) (hp : c.periodic = true)
    (h0 : ∀ i, c.lower i = 0) (ps us : List (Vec d)) (hne : ps ≠ []) (hu : Unwraps c ps us) :
    ∃ a, c.average ps = .ok a ∧ InBox c a := by
  obtain ⟨a, ha, -, har⟩ := C06_average_is_mean c hb hp ps us hne hu
  refine ⟨a, ha, fun i => ?_⟩
  have := har i
  rw [h0 i] at *
  constructor <;> linarith

/-- **C06 is false of the code** in general: in the periodic box `[-1, 1]` the average of the single position
`-1/2` is `3/2`, outside the limits: line 103 takes the remainder without subtracting the lower limit. -/
theorem C06_average_outside_limits :
    ∃ (c : CoordSys 1) (p a : Vec 1), ProperBox c ∧ c.periodic = true ∧ InBox c p ∧
      c.average [p] = .ok a ∧ ¬ InBox c a := by
  refine ⟨CoordSys.ofLimits ![(-1, 1)] true, ![-1/2], ![3/2], ?_, rfl, ?_, ?_, ?_⟩
  · intro i; fin_cases i; norm_num [CoordSys.ofLimits]
  · intro i; fin_cases i; norm_num [CoordSys.ofLimits]
  · simp only [average, CoordSys.ofLimits, if_true]
    congr 1
    funext i
    fin_cases i
    norm_num [mean, connectingVector, size, pmod]
  · intro h
    have := (h 0).2
    norm_num [CoordSys.ofLimits] at this

/-- **C06** (non-periodic): the average is the ordinary mean, independent of the order, and lies between
the smallest and the largest coordinate. -/
theorem C06_average_nonperiodic (c : CoordSys d) (hp : c.periodic = false) (ps : List (Vec d)) (hne : ps ≠ []) :
    c.average ps = .ok (fun i => (ps.map (fun u => u i)).sum / ps.length) ∧
    (∀ qs, ps.Perm qs → c.average qs = c.average ps) ∧
    (∀ i lo hi, (∀ p ∈ ps, lo ≤ p i ∧ p i ≤ hi) →
      lo ≤ (ps.map (fun u => u i)).sum / ps.length ∧ (ps.map (fun u => u i)).sum / ps.length ≤ hi) := by
  have hav : ∀ ps : List (Vec d), ps ≠ [] → c.average ps = .ok (fun i => (ps.map (fun u => u i)).sum / ps.length) := by
    intro ps hne
    cases ps with
    | nil => exact absurd rfl hne
    | cons o ps => simp only [average, hp, Bool.false_eq_true, if_false]; rfl
  refine ⟨hav ps hne, ?_, ?_⟩
  · intro qs hq
    have hqne : qs ≠ [] := fun h => hne (by subst h; exact hq.eq_nil)
    rw [hav qs hqne, hav ps hne]
    congr 1
    funext i
    rw [(hq.map _).sum_eq, hq.length_eq]
  · intro i lo hi h
    have hpos : (0:ℝ) < ps.length := by exact_mod_cast List.length_pos_iff.2 hne
    have h1 : ∀ l : List (Vec d), (∀ p ∈ l, lo ≤ p i ∧ p i ≤ hi) →
        l.length * lo ≤ (l.map (fun u => u i)).sum ∧ (l.map (fun u => u i)).sum ≤ l.length * hi := by
      intro l
      induction l with
      | nil => simp
      | cons a l ih =>
        intro hl
        have := ih (fun p hp => hl p (List.mem_cons_of_mem _ hp))
        have := hl a (List.mem_cons_self ..)
        simp only [List.map_cons, List.sum_cons, List.length_cons]
        push_cast
        constructor <;> linarith
    obtain ⟨h2, h3⟩ := h1 ps h
    constructor
    · rw [le_div_iff₀ hpos]; linarith
    · rw [div_le_iff₀ hpos]; linarith

/-- The average of an empty list raises. -/
theorem C06_average_empty (c : CoordSys d) : c.average [] = .error .index := rfl

example : Unwraps (exampleBox true) [![1, 0], ![-7/8, 1]] [![1, 0], ![9/8, 1]] := by
  constructor
  · refine .cons ⟨![0, 0], ?_⟩ (.cons ⟨![1, 0], ?_⟩ .nil) <;> funext i <;> fin_cases i <;>
      norm_num [shift, exampleBox, CoordSys.ofLimits]
  · intro u hu v hv i
    simp only [List.mem_cons, List.not_mem_nil, or_false] at hu hv
    rcases hu with rfl | rfl <;> rcases hv with rfl | rfl <;> fin_cases i <;>
      norm_num [exampleBox, CoordSys.ofLimits, abs_lt]

/-! ## C07 -/

/-- **C07**: swapping the two entries of any of the limits changes nothing, and the size is
non-negative. -/
theorem C07_limits_order (limits : Fin d → ℝ × ℝ) (swapped : Fin d → Bool) (periodic : Bool) :
    CoordSys.ofLimits (fun i => if swapped i then ((limits i).2, (limits i).1) else limits i) periodic
      = CoordSys.ofLimits limits periodic ∧
    ∀ i, 0 ≤ (CoordSys.ofLimits limits periodic).size i ∧
      (CoordSys.ofLimits limits periodic).lower i = min (limits i).1 (limits i).2 ∧
      (CoordSys.ofLimits limits periodic).upper i = max (limits i).1 (limits i).2 := by
  constructor
  · unfold CoordSys.ofLimits
    congr 1 <;> funext i <;> by_cases h : swapped i <;> simp only [h, if_true, if_false, Bool.false_eq_true] <;>
      split_ifs <;> linarith
  · intro i
    simp only [CoordSys.ofLimits, size]
    refine ⟨?_, ?_, ?_⟩
    · split_ifs <;> linarith
    · rw [min_def]
    · rw [max_def]

end NF
