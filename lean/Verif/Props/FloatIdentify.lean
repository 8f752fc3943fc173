import Verif.Spec.FloatIdentify
import Verif.Props.FloatAverage
import Verif.Props.FloatRecover
import Verif.Props.Evaluations
import Verif.Props.Isolated
import Verif.Lemmas.Straight

/-! # C112: the identification in double precision -/

noncomputable section
open Classical

namespace NF
open Spec CoordSys
variable {d : ℕ} {rnd : ℝ → ℝ}

/-! ## The vote -/

theorem rnd_two_thirds (hr : IsNearest rnd) : 2 / 3 - 1 / 3 / 2 ^ 53 ≤ rnd (2 / 3) ∧ rnd (2 / 3) ≤ 2 / 3 := by
  have hc : IsFloat (6004799503160661 / 2 ^ 53) := ⟨6004799503160661, -53, by norm_num, by norm_num⟩
  have h1 := (hr (2 / 3)).2 _ hc
  rw [show |(6004799503160661 : ℝ) / 2 ^ 53 - 2 / 3| = 1 / 3 / 2 ^ 53 by rw [abs_of_neg] <;> norm_num] at h1
  obtain ⟨h2, h3⟩ := abs_le.1 h1
  refine ⟨by linarith, ?_⟩
  by_contra hlt
  push Not at hlt
  obtain ⟨m, e, hm, hx⟩ := (hr (2 / 3)).1
  rw [hx] at h3 hlt
  rcases le_or_gt (-53) e with he | he
  · obtain ⟨n, hn⟩ := Int.eq_ofNat_of_zero_le (show 0 ≤ e + 53 by omega)
    have e3 : (m : ℝ) * (2 : ℝ) ^ e = ((m * 2 ^ n : ℤ) : ℝ) / 2 ^ 53 := by
      have : e = (n : ℤ) - 53 := by omega
      rw [this, zpow_sub₀ (by norm_num)]
      push_cast
      rw [zpow_natCast, mul_div_assoc]; norm_num
    rw [e3] at h3 hlt
    have g1 : (6004799503160661 : ℤ) < m * 2 ^ n := by
      have : ((6004799503160661 : ℤ) : ℝ) < ((m * 2 ^ n : ℤ) : ℝ) := by
        rw [lt_div_iff₀ (by positivity)] at hlt
        push_cast at hlt ⊢
        norm_num at hlt ⊢
        linarith
      exact_mod_cast this
    have g2 : m * 2 ^ n < (6004799503160662 : ℤ) := by
      have : ((m * 2 ^ n : ℤ) : ℝ) < ((6004799503160662 : ℤ) : ℝ) := by
        have h4 : ((m * 2 ^ n : ℤ) : ℝ) / 2 ^ 53 ≤ 2 / 3 + 1 / 3 / 2 ^ 53 := by linarith
        rw [div_le_iff₀ (by positivity)] at h4
        push_cast at h4 ⊢
        norm_num at h4 ⊢
        linarith
      exact_mod_cast this
    omega
  · have g1 : (m : ℝ) * (2 : ℝ) ^ e ≤ (2 ^ 53 - 1) * (2 : ℝ) ^ (-54 : ℤ) := by
      have gm : (m : ℝ) ≤ 2 ^ 53 - 1 := by
        have : m ≤ 2 ^ 53 - 1 := by have := abs_lt.1 hm; omega
        exact_mod_cast this
      calc _ ≤ (2 ^ 53 - 1) * (2 : ℝ) ^ e := mul_le_mul_of_nonneg_right gm (by positivity)
        _ ≤ _ := mul_le_mul_of_nonneg_left (zpow_le_zpow_right₀ (by norm_num) (by omega)) (by norm_num)
    have := hlt.trans_le g1
    norm_num at this

/-- The comparison of `_check_count` in double precision is that of the exact numbers. -/
theorem two_thirds_exact (hr : IsNearest rnd) {n k : ℕ} (hn : n ≤ 2 ^ 50) (hk : k ≤ n) : rnd (rnd (2 / 3) * n) ≤ k ↔ (2 / 3 : ℝ) * n ≤ k := by
  obtain ⟨h1, h2⟩ := rnd_two_thirds hr
  have hn0 : (0 : ℝ) ≤ n := Nat.cast_nonneg n
  have hn' : (n : ℝ) ≤ 2 ^ 50 := by exact_mod_cast hn
  have hkf : IsFloat (k : ℝ) := by
    have h0 : (k : ℤ) ≤ 2 ^ 50 := by exact_mod_cast hk.trans hn
    have := isFloat_int (n := (k : ℤ)) (by rw [abs_of_nonneg (by positivity)]; omega)
    simpa using this
  constructor
  · intro h
    by_contra hlt
    push Not at hlt
    have hint : 3 * k + 1 ≤ 2 * n := by
      have : ((3 * k : ℕ) : ℝ) < ((2 * n : ℕ) : ℝ) := by push_cast; linarith
      have : 3 * k < 2 * n := by exact_mod_cast this
      omega
    have hint' : (3 : ℝ) * k + 1 ≤ 2 * n := by exact_mod_cast hint
    have h3 : (2 / 3 - 1 / 3 / 2 ^ 53) * n ≤ rnd (2 / 3) * n := mul_le_mul_of_nonneg_right h1 hn0
    have h4 := rel_err' hr (rnd (2 / 3) * n)
    have h5 : rnd (2 / 3) * n ≤ n := by nlinarith
    have h60 : (0 : ℝ) ≤ 2 / 3 - 1 / 3 / 2 ^ 53 := by norm_num
    have h6 : 0 ≤ rnd (2 / 3) * n := mul_nonneg (h60.trans h1) hn0
    rw [abs_of_nonneg h6] at h4
    have h7 : ulp * (rnd (2 / 3) * n) ≤ 1 / 8 := by
      calc ulp * (rnd (2 / 3) * n) ≤ ulp * 2 ^ 50 := mul_le_mul_of_nonneg_left (h5.trans hn') ulp_pos.le
        _ = 1 / 8 := by unfold ulp; norm_num
    have h8 := (abs_le.1 h4).1
    have h9 : 1 / 3 / 2 ^ 53 * (n : ℝ) ≤ 1 / 24 := by
      calc 1 / 3 / 2 ^ 53 * (n : ℝ) ≤ 1 / 3 / 2 ^ 53 * 2 ^ 50 := mul_le_mul_of_nonneg_left hn' (by norm_num)
        _ = _ := by norm_num
    rw [sub_mul] at h3
    linarith
  · intro h
    refine rnd_le hr hkf (le_trans ?_ h)
    exact mul_le_mul_of_nonneg_right h2 hn0

theorem mostCommon_le_total : ∀ (c : Counter) {x : ℤ} {n : ℕ}, Counter.mostCommon c = some (x, n) → n ≤ c.total := by
  intro c
  induction c with
  | nil => intro x n h; simp [Counter.mostCommon] at h
  | cons a c ih =>
    obtain ⟨y, m⟩ := a
    intro x n h
    have ht : Counter.total ((y, m) :: c) = m + Counter.total c := by simp [Counter.total]
    rw [Counter.mostCommon] at h
    cases hc : Counter.mostCommon c with
    | none => rw [hc] at h; simp at h; omega
    | some b =>
      obtain ⟨z, l⟩ := b
      have := ih hc
      rw [hc] at h
      simp only at h
      split at h <;> simp at h <;> omega

theorem total_add : ∀ (c : Counter) (x : ℤ), (c.add x).total = c.total + 1 := by
  intro c x
  induction c with
  | nil => simp [Counter.add, Counter.total]
  | cons a c ih =>
    obtain ⟨y, m⟩ := a
    rw [Counter.add]
    split
    · simp [Counter.total]; omega
    · simp only [Counter.total, List.map_cons, List.sum_cons] at ih ⊢; omega

theorem checkCount_exact (hr : IsNearest rnd) {c : Counter} (hc : c.total ≤ 2 ^ 50) : FL.checkCount rnd c = checkCount c := by
  unfold FL.checkCount checkCount
  cases h : c.mostCommon with
  | none => rfl
  | some b =>
    obtain ⟨x, n⟩ := b
    simp only [two_thirds_exact hr hc (mostCommon_le_total c h)]

theorem calcLoop_exact (hr : IsNearest rnd) (minPos : Option ℤ) : ∀ (l : List (Except Err ℤ)) (i : ℕ) (c : Counter), c.total + l.length ≤ 2 ^ 50 → FL.calcLoop rnd minPos i l c = calcLoop minPos i l c := by
  intro l
  induction l with
  | nil =>
    intro i c hc
    unfold FL.calcLoop calcLoop
    rw [checkCount_exact hr (by simpa using hc)]
    rcases checkCount c with e | ⟨_ | _, x⟩ <;> rfl
  | cons o l ih =>
    intro i c hc
    rw [List.length_cons] at hc
    unfold FL.calcLoop calcLoop
    rw [checkCount_exact hr (by omega)]
    have e : (match o with
        | .error e => .error e
        | .ok dim => FL.calcLoop rnd minPos (i + 1) l (c.add dim) : Except Err (Option ℤ)) = match o with
        | .error e => .error e
        | .ok dim => calcLoop minPos (i + 1) l (c.add dim) := by
      cases o with
      | error e => rfl
      | ok x => exact ih (i + 1) (c.add x) (by rw [total_add]; omega)
    cases minPos with
    | none => rfl
    | some m =>
      simp only
      split
      · rcases checkCount c with e' | ⟨_ | _, x⟩
        · rfl
        · exact e
        · rfl
      · exact e

/-- **C112** (the vote): the dimension that is reported for a cluster in double precision has been found for at least two thirds of the positions that have been evaluated, in exact arithmetic: the
rounding of `(2 / 3) * total` is harmless for up to `2 ^ 50` positions.  As in C55, the evaluation does not stop later than necessary, and `None` is returned only if no two thirds of all results agree. -/
theorem C112_majority {A : FL.IdArith d} (hr : IsNearest A.rnd) {g : NxGraph (Vec d) ℝ} (hg : g.nodes.Nodup) (hne : g.nodes ≠ []) (hn : g.nodes.length ≤ 2 ^ 50) {cs : CoordSys d} {fs : ℝ} {maxDim m : ℤ}
    (hm : 1 ≤ m) {minNb : Option ℤ} {r : Except Err (Option ℤ)} (h : FL.CalculateDimension A g cs fs maxDim (some m) minNb r) :
    (∀ x, r = .ok (some x) → ∃ (evaluated : List (Vec d)) (dims : List ℤ), evaluated.Nodup ∧ (∀ p ∈ evaluated, p ∈ g.nodes) ∧
      List.Forall₂ (fun p dim => FL.GetDimension A g cs fs maxDim minNb p (.ok dim)) evaluated dims ∧
      min m g.nodes.length ≤ dims.length ∧ 2 * dims.length ≤ 3 * dims.count x ∧
      ∀ k : ℕ, m ≤ k → k < dims.length → ∀ y, 3 * (dims.take k).count y < 2 * k) ∧
    (r = .ok none → ∃ (evaluated : List (Vec d)) (dims : List ℤ), evaluated.Perm g.nodes ∧
      List.Forall₂ (fun p dim => FL.GetDimension A g cs fs maxDim minNb p (.ok dim)) evaluated dims ∧ ∀ x, 3 * dims.count x < 2 * dims.length) ∧
    (∀ e, r = .error e → ∃ p ∈ g.nodes, FL.GetDimension A g cs fs maxDim minNb p (.error e)) := by
  obtain ⟨order, outcomes, hperm, hall, rfl⟩ := h
  have hlen : order.length = outcomes.length := hall.length_eq
  have hpl := hperm.length_eq
  have hne' : outcomes ≠ [] := by
    intro h0
    rw [h0] at hlen
    rw [hlen] at hpl
    exact hne (List.length_eq_zero_iff.1 hpl.symm)
  rw [calcLoop_exact hr _ outcomes 0 [] (by simp only [Counter.total, List.map_nil, List.sum_nil]; omega)]
  have hspec := calcLoop_spec hm outcomes [] (.inr hne') (by simp)
  simp only [List.length_nil, List.foldl_nil, List.nil_append, zero_add] at hspec
  obtain ⟨h1, h2, h3⟩ := hspec
  have hpre : ∀ dims : List ℤ, dims.map Except.ok <+: outcomes →
      List.Forall₂ (fun p dim => FL.GetDimension A g cs fs maxDim minNb p (.ok dim)) (order.take dims.length) dims := by
    intro dims hp
    have ht := List.forall₂_take dims.length hall
    have e : outcomes.take dims.length = dims.map .ok := by
      have := List.prefix_iff_eq_take.1 hp
      rw [List.length_map] at this
      exact this.symm
    rw [e, List.forall₂_map_right_iff] at ht
    exact ht
  refine ⟨?_, ?_, ?_⟩
  · intro x hx
    obtain ⟨dims, hp, -, hmin, hthird, hk⟩ := h2 x hx
    refine ⟨order.take dims.length, dims, (hperm.nodup_iff.2 hg).sublist (List.take_sublist _ _), fun p hp' => hperm.mem_iff.1 (List.mem_of_mem_take hp'), hpre dims hp, ?_, hthird, hk⟩
    rw [← hpl, hlen]; exact hmin
  · intro hx
    obtain ⟨dims, rfl, hmaj⟩ := h3 hx
    have hF := hpre dims List.prefix_rfl
    rw [show order.take dims.length = order by rw [List.take_of_length_le]; simp [hlen]] at hF
    exact ⟨order, dims, hperm, hF, hmaj⟩
  · intro e he
    obtain ⟨p, hp, hpe⟩ := forall₂_mem_right hall (h1 e he)
    exact ⟨p, hperm.mem_iff.1 hp, hpe⟩

/-! ## A result always exists -/

theorem meanOf_exists (rnd : ℝ → ℝ) (l : List ℝ) : ∃ a, FL.MeanOf rnd l a := by
  obtain ⟨s, hs⟩ := rndSum_exists rnd l
  exact ⟨_, s, hs, rfl⟩

theorem varOf_exists (rnd : ℝ → ℝ) (l : List ℝ) : ∃ a, FL.VarOf rnd l a := by
  obtain ⟨m, hm⟩ := meanOf_exists rnd l
  obtain ⟨v, hv⟩ := meanOf_exists rnd (l.map fun x => rnd (rnd (x - m) ^ 2))
  exact ⟨v, m, hm, hv⟩

theorem fl_decideLoop_total (rnd : ℝ → ℝ) (limit : ℝ) (minNb : ℤ) : ∀ (vols : List (Except Err ℝ)) (results : List ℝ), ∃ r, FL.DecideLoop rnd limit minNb results vols r := by
  intro vols
  induction vols with
  | nil => exact fun results => ⟨_, .finished⟩
  | cons v vols ih =>
    intro results
    by_cases hc : minNb ≤ results.length ∧ 1 < results.length
    · obtain ⟨avg, ha⟩ := meanOf_exists rnd results
      obtain ⟨var, hv⟩ := varOf_exists rnd results
      by_cases hlt : rnd (Real.sqrt (rnd (var / (results.length - 1)))) < rnd (|rnd (limit - avg)| / 2)
      · exact ⟨_, .early hc.1 hc.2 ha hv hlt⟩
      · cases v with
        | error e => exact ⟨_, .undecidedRaises hc.1 hc.2 ha hv hlt⟩
        | ok x =>
          obtain ⟨r, hr⟩ := ih (results ++ [x])
          exact ⟨r, .undecided hc.1 hc.2 ha hv hlt hr⟩
    · cases v with
      | error e => exact ⟨_, .tooFewRaises hc⟩
      | ok x =>
        obtain ⟨r, hr⟩ := ih (results ++ [x])
        exact ⟨r, .tooFew hc hr⟩

theorem fl_decideLoop_none {rnd : ℝ → ℝ} {limit : ℝ} {minNb : ℤ} {vols : List (Except Err ℝ)} {results : List ℝ} {r : Except Err (Option Bool)} (h : FL.DecideLoop rnd limit minNb results vols r)
    (hr : r = .ok none) : ∃ vs : List ℝ, vols = vs.map .ok := by
  induction h with
  | finished => exact ⟨[], rfl⟩
  | early => cases hr
  | undecided _ _ _ _ _ _ ih => obtain ⟨vs, rfl⟩ := ih hr; exact ⟨_ :: vs, rfl⟩
  | tooFew _ _ ih => obtain ⟨vs, rfl⟩ := ih hr; exact ⟨_ :: vs, rfl⟩
  | undecidedRaises => cases hr
  | tooFewRaises => cases hr

theorem volume_total (A : FL.IdArith d) (cs : CoordSys d) (pos : Vec d) (t : Finset (Vec d)) : ∃ r, FL.Volume A cs pos t r := by
  by_cases h : ∃ n ∈ t, ∃ e, FL.Connecting A.rnd cs n pos (.error e)
  · obtain ⟨n, hn, e, he⟩ := h
    exact ⟨_, .raises hn he⟩
  · push Not at h
    refine ⟨_, .ok (tuple := t.toList) (vectors := t.toList.map fun n => FL.connectingVector A.rnd cs n pos) t.nodup_toList (by simp) ?_⟩
    rw [List.forall₂_map_right_iff, List.forall₂_same]
    intro n hn
    obtain ⟨r, hr⟩ := connecting_exists A.rnd cs n pos
    cases r with
    | error e => exact absurd hr (h n (by simpa using hn) e)
    | ok v =>
      have : v = FL.connectingVector A.rnd cs n pos := by cases hr <;> rfl
      rwa [this] at hr

theorem fl_hasDimension_total (A : FL.IdArith d) (g : NxGraph (Vec d) ℝ) (cs : CoordSys d) (fs : ℝ) (minNb : Option ℤ) (pos : Vec d) (dim : ℕ) : ∃ r, FL.HasDimension A g cs fs minNb pos dim r := by
  by_cases h : d < dim
  · exact ⟨_, .tooLarge h⟩
  cases hv : FL.exactValue A.rnd dim with
  | none => exact ⟨_, .unknown h hv⟩
  | some v =>
    obtain ⟨u, o, hd⟩ := drawing_exists (g.neighbors pos).toFinset dim (minNb.getD (g.neighbors pos).length)
    choose vol hvol using volume_total A cs pos
    have hF : List.Forall₂ (FL.Volume A cs pos) o (o.map vol) := by
      rw [List.forall₂_map_right_iff, List.forall₂_same]
      exact fun t _ => hvol t
    obtain ⟨r, hr⟩ := fl_decideLoop_total A.rnd (FL.limitValue A.rnd fs dim v) (minNb.getD (g.neighbors pos).length) (o.map vol) []
    rcases r with e | _ | b
    · exact ⟨_, .raises h hv hd hF hr⟩
    · by_cases ho : o = []
      · subst ho
        exact ⟨_, .none h hv hd⟩
      · obtain ⟨vs, hvs⟩ := fl_decideLoop_none hr rfl
        obtain ⟨avg, ha⟩ := meanOf_exists A.rnd vs
        rw [hvs] at hr hF
        rw [List.forall₂_map_right_iff] at hF
        exact ⟨_, .all h hv hd hF hr ho ha⟩
    · exact ⟨_, .early h hv hd hF hr⟩

theorem fl_calculateDimension_total (A : FL.IdArith d) (g : NxGraph (Vec d) ℝ) (cs : CoordSys d) (fs : ℝ) (maxDim : ℤ) (minPos minNb : Option ℤ) : ∃ r, FL.CalculateDimension A g cs fs maxDim minPos minNb r := by
  choose has hhas using fl_hasDimension_total A g cs fs minNb
  refine ⟨_, g.nodes, g.nodes.map fun p => getDimensionLoop (has p) maxDim (List.range' 1 maxDim.toNat), .refl _, ?_, rfl⟩
  rw [List.forall₂_map_right_iff, List.forall₂_same]
  exact fun x _ => ⟨has x, hhas x, rfl⟩

/-- **C112** (a result always exists): whatever the rounding, the distances and the singular values are, the identification has a result or raises an exception. -/
theorem C112_total (A : FL.IdArith d) (positions : List (Vec d)) (cs : CoordSys d) (fs : ℝ) : ∃ r, FL.RunFromPositions A positions cs fs r := by
  have hid : ∀ g, ∃ r, FL.IdentifyCluster A cs fs g r := by
    intro g
    obtain ⟨r, hr⟩ := fl_calculateDimension_total A g cs fs 3 (some 5) (some 10)
    cases r with
    | error e => exact ⟨_, .dimError hr⟩
    | ok dim =>
      by_cases h0 : dim = some 0
      · subst h0
        obtain ⟨p, hp⟩ := C109_average_total A.rnd cs g.nodes
        cases p with
        | error e => exact ⟨_, .shapeError hr (.pointError hp)⟩
        | ok p => exact ⟨_, .ok hr (.point hp)⟩
      · by_cases h1 : dim = some 1
        · subst h1
          exact ⟨_, .ok hr (.line (r := .ok none))⟩
        · exact ⟨_, .ok hr (.other h0 h1)⟩
  choose f hf using hid
  have hu : IsUniqueList positions positions.dedup := ⟨List.nodup_dedup _, fun x => List.mem_dedup⟩
  have hF : List.Forall₂ (FL.IdentifyCluster A cs fs) (FL.createClusters A.dist fs positions.dedup) ((FL.createClusters A.dist fs positions.dedup).map f) := by
    rw [List.forall₂_map_right_iff, List.forall₂_same]
    exact fun x _ => hf x
  cases hc : collect ((FL.createClusters A.dist fs positions.dedup).map f) with
  | error e => exact ⟨_, .error hu hF hc⟩
  | ok rs => exact ⟨_, .ok hu hF hc⟩

/-! ## Isolated points -/

theorem fl_meanOf_le {rnd : ℝ → ℝ} (hr : IsNearest rnd) {l : List ℝ} {a B : ℝ} (h : FL.MeanOf rnd l a) (hne : l ≠ []) (hB : ∀ x ∈ l, |x| ≤ B) (hn : (l.length : ℝ) * ulp ≤ 1 / 100) : a ≤ 1.02 * B := by
  obtain ⟨s, hs, rfl⟩ := h
  have h1 := abs_le.1 (mean_err hr hs hne hB (by linarith))
  have hl : (0 : ℝ) < l.length := by exact_mod_cast List.length_pos_iff.2 hne
  have hB0 : 0 ≤ B := by
    obtain ⟨x, hx⟩ := List.exists_mem_of_ne_nil l hne
    exact (abs_nonneg x).trans (hB x hx)
  have h2 : l.sum / l.length ≤ B := by
    rw [div_le_iff₀ hl]
    have : l.sum ≤ (l.map fun _ => B).sum := List.sum_le_sum (f := id) (fun x hx => (le_abs_self x).trans (hB x hx)) |>.trans' (by simp)
    simpa [mul_comm] using this
  have h3 : 2 * (l.length : ℝ) * ulp * B ≤ 0.02 * B := mul_le_mul_of_nonneg_right (by linarith) hB0
  linarith [h1.2]

theorem fl_decideLoop_small {rnd : ℝ → ℝ} (hr : IsNearest rnd) {limit B : ℝ} {minNb : ℤ} (hB : 1.02 * B ≤ limit) {vols : List (Except Err ℝ)} {results : List ℝ} {r : Except Err (Option Bool)}
    (h : FL.DecideLoop rnd limit minNb results vols r) (h1 : ∀ x ∈ results, |x| ≤ B) (h2 : ∀ o ∈ vols, ∃ x, o = .ok x ∧ |x| ≤ B)
    (hn : ((results.length + vols.length : ℕ) : ℝ) * ulp ≤ 1 / 100) : r = .ok none ∨ r = .ok (some false) := by
  have hu := ulp_pos
  induction h with
  | finished => exact .inl rfl
  | @early results v rest avg var _ hlen ha _ _ =>
    right
    have : avg ≤ 1.02 * B := fl_meanOf_le hr ha (by rintro rfl; simp at hlen) h1 (by
      push_cast at hn
      have : (0 : ℝ) ≤ ((v :: rest).length : ℝ) * ulp := by positivity
      linarith)
    rw [decide_eq_false (by linarith)]
  | @undecided results v rest avg var r _ _ _ _ _ _ ih =>
    refine ih ?_ (fun o ho => h2 o (by simp [ho])) (by simpa [add_assoc, add_comm, add_left_comm] using hn)
    intro x hx
    rcases List.mem_append.1 hx with hx | hx
    · exact h1 x hx
    · obtain ⟨y, hy, hy'⟩ := h2 (.ok v) (by simp)
      cases hy
      rw [List.mem_singleton.1 hx]; exact hy'
  | @tooFew results v rest r _ _ ih =>
    refine ih ?_ (fun o ho => h2 o (by simp [ho])) (by simpa [add_assoc, add_comm, add_left_comm] using hn)
    intro x hx
    rcases List.mem_append.1 hx with hx | hx
    · exact h1 x hx
    · obtain ⟨y, hy, hy'⟩ := h2 (.ok v) (by simp)
      cases hy
      rw [List.mem_singleton.1 hx]; exact hy'
  | @undecidedRaises results e rest => obtain ⟨x, hx, -⟩ := h2 (.error e) (by simp); cases hx
  | @tooFewRaises results e rest => obtain ⟨x, hx, -⟩ := h2 (.error e) (by simp); cases hx

theorem fl_calcLoop_zero {rnd : ℝ → ℝ} (hr : IsNearest rnd) {m : ℤ} (hm : 1 ≤ m) : ∀ (l : List (Except Err ℤ)) (i k : ℕ) (c : Counter), (c = [] ∧ k = 0 ∧ l ≠ [] ∨ c = [(0, k)]) → (k = 0 → i = 0) → k + l.length ≤ 2 ^ 50 →
    (∀ o ∈ l, o = .ok 0) → FL.calcLoop rnd (some m) i l c = .ok (some 0) := by
  have hcheck : ∀ k : ℕ, k ≤ 2 ^ 50 → FL.checkCount rnd [(0, k)] = .ok (true, 0) := by
    intro k hk
    have : (2 / 3 : ℝ) * k ≤ k := by have : (0 : ℝ) ≤ k := Nat.cast_nonneg k; linarith
    have h2 := (two_thirds_exact hr hk le_rfl).2 this
    simp only [FL.checkCount, Counter.mostCommon, Counter.total, List.map_cons, List.map_nil, List.sum_cons, List.sum_nil, add_zero, h2, decide_true]
  intro l
  induction l with
  | nil =>
    intro i k c hc hi hn _
    rcases hc with ⟨-, -, h⟩ | rfl
    · exact absurd rfl h
    · simp only [FL.calcLoop, hcheck k (by simpa using hn)]
  | cons o l ih =>
    intro i k c hc hi hn ho
    have ho1 := ho o (by simp)
    subst ho1
    rw [List.length_cons] at hn
    have hnext : FL.calcLoop rnd (some m) (i + 1) l (Counter.add c 0) = .ok (some 0) := by
      refine ih (i + 1) (k + 1) _ (.inr ?_) (by omega) (by omega) fun o ho' => ho o (by simp [ho'])
      rcases hc with ⟨rfl, rfl, -⟩ | rfl
      · rfl
      · simp [Counter.add]
    unfold FL.calcLoop
    simp only [hnext]
    split
    · rename_i hmi
      rcases hc with ⟨rfl, rfl, -⟩ | rfl
      · have := hi rfl
        omega
      · simp only [hcheck k (by omega)]
    · rfl

/-- A cluster of positions that are close to each other has dimension zero. -/
theorem fl_dimension_tiny {A : FL.IdArith d} (hr : IsNearest A.rnd) (hsvd : ∀ v, |A.svd [v] - len v| ≤ len v / 2 ^ 40) {g : NxGraph (Vec d) ℝ} (hne : g.nodes ≠ [])
    (hN : (g.nodes.length : ℝ) * ulp ≤ 1 / 100) {cs : CoordSys d} {fs V : ℝ} (hedge : ∀ x y, g.hasEdge x y → y ∈ g.nodes)
    (hvol : ∀ x ∈ g.nodes, ∀ y, g.hasEdge x y → ∀ o, FL.Connecting A.rnd cs y x o → ∃ w, o = .ok w ∧ len w ≤ V)
    (hlim : 1.02 * ((1 + 1 / 2 ^ 40) * V) ≤ FL.limitValue A.rnd fs 1 0.5) {r : Except Err (Option ℤ)} (h : FL.CalculateDimension A g cs fs 3 (some 5) (some 10) r) : r = .ok (some 0) := by
  have hV : ∀ x ∈ g.nodes, ∀ t : Finset (Vec d), t ⊆ (g.neighbors x).toFinset → t.card = 1 → ∀ o, FL.Volume A cs x t o → ∃ v, o = .ok v ∧ |v| ≤ (1 + 1 / 2 ^ 40) * V := by
    intro x hx t ht hc o ho
    obtain ⟨y, rfl⟩ := Finset.card_eq_one.1 hc
    have hy : g.hasEdge x y := by
      have := ht (Finset.mem_singleton_self y)
      rw [List.mem_toFinset] at this
      exact mem_neighbors.1 this
    cases ho with
    | @raises n e hn hcon =>
      rw [Finset.mem_singleton] at hn
      subst hn
      obtain ⟨w, hw, -⟩ := hvol x hx n hy _ hcon
      cases hw
    | @ok tuple vectors hnd hmem hF =>
      have htup : tuple = [y] := by
        rcases tuple with _ | ⟨a, _ | ⟨b, l⟩⟩
        · have := (hmem y).2 (by simp); simp at this
        · have := (hmem a).1 (by simp); simp at this; rw [this]
        · have h1 := (hmem a).1 (by simp)
          have h2 := (hmem b).1 (by simp)
          simp at h1 h2
          rw [h1, h2] at hnd
          simp at hnd
      subst htup
      cases hF with
      | @cons _ w _ _ h1 h2 =>
        cases h2
        obtain ⟨w', hw', hl⟩ := hvol x hx y hy _ h1
        cases hw'
        refine ⟨_, rfl, ?_⟩
        have h3 := abs_le.1 (hsvd w)
        have h0 := len_nonneg w
        have hl1 : len w / 2 ^ 40 ≤ V / 2 ^ 40 := div_le_div_of_nonneg_right hl (by positivity)
        have hl2 : len w / 2 ^ 40 ≤ len w := div_le_self h0 (by norm_num)
        rw [abs_of_nonneg (by linarith [h3.1])]
        linarith [h3.2]
  have hhas : ∀ x ∈ g.nodes, ∀ o, FL.HasDimension A g cs fs (some 10) x 1 o → o = .ok false := by
    intro x hx o ho
    have hcount : ∀ {ph used out}, Drawing (g.neighbors x).toFinset 1 ((some (10 : ℤ)).getD (g.neighbors x).length) ph used out → (out.length : ℝ) * ulp ≤ 1 / 100 := by
      intro ph used out hdr
      obtain ⟨h1, h2, -⟩ := drawing_spec hdr
      have h3 : out.length ≤ g.nodes.length := by
        rw [← List.toFinset_card_of_nodup h1]
        calc out.toFinset.card ≤ ((g.neighbors x).toFinset.powersetCard 1).card := Finset.card_le_card fun t ht => h2 t (List.mem_toFinset.1 ht)
          _ = (g.neighbors x).toFinset.card := by rw [Finset.card_powersetCard, Nat.choose_one_right]
          _ ≤ g.nodes.toFinset.card := Finset.card_le_card fun y hy => by
            rw [List.mem_toFinset] at hy ⊢
            exact hedge x y (mem_neighbors.1 hy)
          _ ≤ _ := List.toFinset_card_le _
      have : (out.length : ℝ) ≤ g.nodes.length := by exact_mod_cast h3
      exact (mul_le_mul_of_nonneg_right this ulp_pos.le).trans hN
    have hout : ∀ {ph used out}, Drawing (g.neighbors x).toFinset 1 ((some (10 : ℤ)).getD (g.neighbors x).length) ph used out → ∀ t ∈ out, ∀ o, FL.Volume A cs x t o → ∃ v, o = .ok v ∧ |v| ≤ (1 + 1 / 2 ^ 40) * V := by
      intro ph used out hdr t ht o ho
      obtain ⟨h1, h2⟩ := Finset.mem_powersetCard.1 ((drawing_spec hdr).2.1 t ht)
      exact hV x hx t h1 h2 o ho
    cases ho with
    | tooLarge => rfl
    | unknown _ h => simp [FL.exactValue] at h
    | @early v ph used out volumes b _ hv hdr hF hloop =>
      simp only [FL.exactValue, Option.some.injEq] at hv
      subst hv
      have := fl_decideLoop_small hr hlim hloop (by simp) (fun o ho => by obtain ⟨t, ht, hto⟩ := forall₂_mem_right hF ho; exact hout hdr t ht o hto)
        (by rw [← hF.length_eq]; simpa using hcount hdr)
      rcases this with h | h
      · cases h
      · cases h; rfl
    | @raises v ph used out volumes e _ hv hdr hF hloop =>
      simp only [FL.exactValue, Option.some.injEq] at hv
      subst hv
      have := fl_decideLoop_small hr hlim hloop (by simp) (fun o ho => by obtain ⟨t, ht, hto⟩ := forall₂_mem_right hF ho; exact hout hdr t ht o hto)
        (by rw [← hF.length_eq]; simpa using hcount hdr)
      rcases this with h | h <;> cases h
    | none => rfl
    | @all v used out volumes avg _ hv hdr hF hloop hone hav =>
      simp only [FL.exactValue, Option.some.injEq] at hv
      subst hv
      have : avg ≤ 1.02 * ((1 + 1 / 2 ^ 40) * V) := fl_meanOf_le hr hav (by rintro rfl; cases hF; exact hone rfl) (fun y hy => by
        obtain ⟨t, ht, hto⟩ := forall₂_mem_right hF hy
        obtain ⟨v, hv, hv'⟩ := hout hdr t ht _ hto
        cases hv
        exact hv') (by rw [← hF.length_eq]; exact hcount hdr)
      rw [decide_eq_false (by linarith)]
  have hget : ∀ x ∈ g.nodes, ∀ o, FL.GetDimension A g cs fs 3 (some 10) x o → o = .ok 0 := by
    rintro x hx o ⟨has, h1, rfl⟩
    have := hhas x hx _ (h1 1)
    show getDimensionLoop has 3 [1, 2, 3] = _
    simp [getDimensionLoop, this]
  obtain ⟨order, outcomes, hperm, hall, rfl⟩ := h
  refine fl_calcLoop_zero hr (by norm_num) outcomes 0 0 [] (.inl ⟨rfl, rfl, ?_⟩) (fun _ => rfl) ?_ ?_
  · rintro rfl
    cases hall
    exact hne hperm.symm.eq_nil
  · rw [zero_add, ← hall.length_eq, hperm.length_eq]
    have h1 : (g.nodes.length : ℝ) ≤ 2 ^ 50 := by
      unfold ulp at hN
      have : (g.nodes.length : ℝ) / 2 ^ 53 ≤ 1 / 100 := by linarith
      rw [div_le_iff₀ (by positivity)] at this
      exact this.trans (by norm_num)
    exact_mod_cast h1
  · intro o ho
    obtain ⟨x, hx, hxo⟩ := forall₂_mem_right hall ho
    exact hget x (hperm.mem_iff.1 hx) o hxo

theorem moderate_sub {cs : CoordSys d} {positions : List (Vec d)} {M : Vec d} (hM : Moderate cs positions M) {p q : Vec d} (hp : p ∈ positions) (hq : q ∈ positions) (i : Fin d) :
    |q i - p i| ≤ 4 * (cs.upper i - cs.lower i) ∧ (cs.periodic = true → |q i - p i| ≤ 2 * (cs.upper i - cs.lower i)) := by
  obtain ⟨a1, a2⟩ := hM.inside p hp i
  obtain ⟨b1, b2⟩ := hM.inside q hq i
  have a1 := abs_le.1 a1
  have b1 := abs_le.1 b1
  refine ⟨abs_le.2 ⟨by linarith, by linarith⟩, fun h => ?_⟩
  have := a2 h
  have := b2 h
  exact abs_le.2 ⟨by linarith, by linarith⟩

theorem moderate_dist (hr : IsNearest rnd) {cs : CoordSys d} (hb : ProperBox cs) {positions : List (Vec d)} {M : Vec d} (hM : Moderate cs positions M) {p q : Vec d} (hp : p ∈ positions) (hq : q ∈ positions)
    {v : ℝ} (h : FL.Distance rnd cs p q v) : |v - cs.distance p q| ≤ distanceError cs := by
  have hl := len_nonneg fun i => cs.upper i - cs.lower i
  have hd0 : (0 : ℝ) ≤ d := Nat.cast_nonneg d
  have hS := fun i => sub_pos.2 (hb i)
  show _ ≤ 8 * (d + 10) / 2 ^ 53 * len (fun i => cs.upper i - cs.lower i)
  cases hper : cs.periodic with
  | true =>
    refine (C97_distance_periodic hr hb hper hM.box.dim (fun i => ((moderate_sub hM hp hq i).1).trans (by linarith [hS i])) h).trans ?_
    exact mul_le_mul_of_nonneg_right (div_le_div_of_nonneg_right (by linarith) (by positivity)) hl
  | false =>
    have h1 := C97_distance_open hr hper hM.box.dim h
    rw [distance_eucl hper]
    have h2 : len (fun i => p i - q i) ≤ 4 * len fun i => cs.upper i - cs.lower i := by
      refine (len_mono (w := fun i => 4 * (cs.upper i - cs.lower i)) fun i => ?_).trans (le_of_eq (by rw [len_smul, abs_of_pos (by norm_num)]))
      rw [abs_of_pos (by linarith [hS i] : 0 < 4 * (cs.upper i - cs.lower i)), abs_sub_comm]
      exact (moderate_sub hM hp hq i).1
    calc _ ≤ 2 * (d + 2) / 2 ^ 53 * len (fun i => p i - q i) := h1
      _ ≤ 2 * (d + 2) / 2 ^ 53 * (4 * len fun i => cs.upper i - cs.lower i) := mul_le_mul_of_nonneg_left h2 (by positivity)
      _ = 8 * (d + 2) / 2 ^ 53 * len (fun i => cs.upper i - cs.lower i) := by ring
      _ ≤ _ := mul_le_mul_of_nonneg_right (div_le_div_of_nonneg_right (by linarith) (by positivity)) hl

theorem moderate_clusters (hr : IsNearest rnd) {cs : CoordSys d} (hb : ProperBox cs) {positions pu : List (Vec d)} {M : Vec d} (hM : Moderate cs positions M) (hu : IsUniqueList positions pu)
    {dist : Vec d → Vec d → ℝ} (hdist : ∀ p ∈ positions, ∀ q ∈ positions, FL.Distance rnd cs p q (dist p q)) {fs : ℝ}
    (hsep : ∀ p ∈ positions, ∀ q ∈ positions, p ≠ q → distanceError cs < |cs.distance p q - fs|) :
    List.Forall₂ (fun g g' => g.nodes = g'.nodes ∧ ∀ x y, g.hasEdge x y ↔ g'.hasEdge x y) (FL.createClusters dist fs pu) (createClusters cs fs pu) := by
  rw [← (C97_exact_arithmetic hb fs pu 0 0 0).2.2]
  refine createClusters_congr hu.1 fun p hp q hq hne => ?_
  have hp' := (hu.2 p).1 hp
  have hq' := (hu.2 q).1 hq
  have hs := hsep p hp' q hq' hne
  have he := abs_le.1 (moderate_dist hr hb hM hp' hq' (hdist p hp' q hq'))
  rw [lt_abs] at hs
  constructor
  · intro h
    rcases hs with hs | hs <;> linarith
  · intro h
    rcases hs with hs | hs <;> linarith

/-- The vectors between positions that are close to each other. -/
theorem fl_connecting_len (hr : IsNearest rnd) {cs : CoordSys d} (hb : ProperBox cs) {positions : List (Vec d)} {M : Vec d} (hM : Moderate cs positions M) {p q : Vec d} (hp : p ∈ positions) (hq : q ∈ positions)
    {o : Except Err (Vec d)} (h : FL.Connecting rnd cs p q o) : ∃ w, o = .ok w ∧ len w ≤ cs.distance p q + distanceError cs := by
  have hS := fun i => sub_pos.2 (hb i)
  have hlS := len_nonneg fun i => cs.upper i - cs.lower i
  have hδ : 16 / 2 ^ 53 * len (fun i => cs.upper i - cs.lower i) ≤ distanceError cs := by
    show _ ≤ 8 * (d + 10) / 2 ^ 53 * len (fun i => cs.upper i - cs.lower i)
    refine mul_le_mul_of_nonneg_right (div_le_div_of_nonneg_right ?_ (by positivity)) hlS
    have : (0 : ℝ) ≤ d := Nat.cast_nonneg d
    linarith
  have hin := fun i => moderate_sub hM hp hq i
  obtain ⟨v, -, hv, -, hlen, -, hopen⟩ := C05_connecting_vector cs hb p q
  have key : ∃ w, o = .ok w ∧ ∀ i, |w i| ≤ |v i| + 16 / 2 ^ 53 * (cs.upper i - cs.lower i) := by
    cases hper : cs.periodic with
    | true =>
      obtain ⟨w, hw, -, hw2⟩ := C97_connecting_vector hr hb hper hM.box.dim (fun i => (hin i).2 hper) (fun i => (div_le_div_of_nonneg_right (hM.bound p hp i) (by positivity)).trans (hM.box.resolved i))
        (by
          have : len p ≤ len M := len_mono fun i => (hM.bound p hp i).trans (le_abs_self _)
          linarith [hM.box.small]) h
      rw [← hv] at hw2
      exact ⟨w, hw, hw2⟩
    | false =>
      cases h with
      | plain _ =>
        refine ⟨_, rfl, fun i => ?_⟩
        simp only [FL.connectingVector, hper, Bool.false_eq_true, if_false]
        rw [hopen hper]
        have h1 := rel_err' hr (q i - p i)
        have h2 : ulp * |q i - p i| ≤ 16 / 2 ^ 53 * (cs.upper i - cs.lower i) := by
          refine (mul_le_mul_of_nonneg_left (hin i).1 ulp_pos.le).trans ?_
          have := hS i
          unfold ulp
          nlinarith
        have h3 := abs_sub_abs_le_abs_sub (rnd (q i - p i)) (q i - p i)
        simp only [Pi.sub_apply]
        linarith
      | passed hp => rw [hper] at hp; cases hp
      | failed hp => rw [hper] at hp; cases hp
  obtain ⟨w, hw, hwi⟩ := key
  refine ⟨w, hw, ?_⟩
  calc len w ≤ len (fun i => |v i| + 16 / 2 ^ 53 * (cs.upper i - cs.lower i)) := len_mono fun i => (hwi i).trans (le_abs_self _)
    _ ≤ len (fun i => |v i|) + len (fun i => 16 / 2 ^ 53 * (cs.upper i - cs.lower i)) := len_add_le _ _
    _ ≤ _ := by
      rw [len_smul, abs_of_pos (by positivity)]
      have : len (fun i => |v i|) ≤ len v := len_mono fun i => by rw [abs_abs]
      rw [← hlen]
      linarith

/-- The computed average of positions near `z` is near `z`. -/
theorem fl_average_near (hr : IsNearest rnd) {cs : CoordSys d} (hb : ProperBox cs) {positions : List (Vec d)} {M : Vec d} (hM : Moderate cs positions M) {r : ℝ}
    (hrs : ∀ i, 4.5 * r < cs.upper i - cs.lower i) {ps : List (Vec d)} (hne : ps ≠ []) (hsub : ∀ p ∈ ps, p ∈ positions) (hlen : ps.length ≤ positions.length) {z : Vec d}
    (hz : ∀ p ∈ ps, cs.distance p z ≤ r) {o : Except Err (Vec d)} (h : FL.EvaluatePoint rnd cs ps o) : ∃ a, o = .ok a ∧ cs.distance a z ≤ r + averageError cs M positions.length := by
  have hS := fun i => sub_pos.2 (hb i)
  have hM0 : ∀ i, 0 ≤ M i := fun i => by
    obtain ⟨p, hp⟩ := List.exists_mem_of_ne_nil ps hne
    exact (abs_nonneg _).trans (hM.bound p (hsub p hp) i)
  have hn : (ps.length : ℝ) ≤ positions.length := by exact_mod_cast hlen
  have hn' : (ps.length : ℝ) / 2 ^ 53 ≤ 1 / 100 := (div_le_div_of_nonneg_right hn (by positivity)).trans hM.few
  have hmet := C03_distance_metric cs hb
  have hr4 : ∀ i, 4 * r < cs.upper i - cs.lower i := fun i => by
    obtain ⟨p, hp⟩ := List.exists_mem_of_ne_nil ps hne
    have h0 : 0 ≤ r := le_trans (hmet p z z).1 (hz p hp)
    linarith [hrs i]
  obtain ⟨b, hbav⟩ := average_ok cs hne
  have hbz := average_near hb hr4 hne hz hbav
  have hE : ∀ i, 0 ≤ (2 * (positions.length : ℝ) + 20) * (cs.upper i - cs.lower i + M i) / 2 ^ 53 := fun i => by
    have := hS i
    have := hM0 i
    positivity
  cases hper : cs.periodic with
  | false =>
    obtain ⟨a, rfl, ha⟩ := C109_average_open hr hper hne (by linarith) (fun p hp => hM.bound p (hsub p hp)) h
    refine ⟨a, rfl, ?_⟩
    rw [(C06_average_nonperiodic cs hper ps hne).1] at hbav
    cases hbav
    have h1 : cs.distance a (fun i => (ps.map fun p => p i).sum / ps.length) ≤ averageError cs M positions.length := by
      rw [distance_eucl hper]
      refine len_mono fun i => (ha i).trans ?_
      rw [abs_of_nonneg (hE i)]
      have := hS i
      have h2 := hM0 i
      have h3 : (0 : ℝ) ≤ positions.length := Nat.cast_nonneg _
      rw [div_mul_eq_mul_div]
      refine div_le_div_of_nonneg_right ?_ (by positivity)
      have h4 : 2 * (ps.length : ℝ) * M i ≤ 2 * positions.length * M i := mul_le_mul_of_nonneg_right (by linarith) h2
      have h5 : 0 ≤ (2 * (positions.length : ℝ) + 20) * (cs.upper i - cs.lower i) := by positivity
      linarith
    have h2 := (hmet a (fun i => (ps.map fun p => p i).sum / ps.length) z).2.2.1
    have h3 : cs.distance (fun i => (ps.map fun p => p i).sum / ps.length) z ≤ r := hbz
    linarith
  | true =>
    have hex : ∀ p : Vec d, ∃ u, Congr cs p u ∧ cs.distance p z = eucl u z := by
      intro p
      obtain ⟨k, hk⟩ := (C04_distance_is_min_over_images cs hb hper z p).1
      refine ⟨shift cs k p, ⟨k, rfl⟩, ?_⟩
      rw [(C03_distance_metric cs hb p z z).2.1, hk]
      unfold eucl
      congr 1
      exact Finset.sum_congr rfl fun i _ => by ring
    choose u hu1 hu2 using hex
    have hcoord : ∀ v ∈ ps.map u, ∀ i, |v i - z i| ≤ r := by
      intro v hv i
      obtain ⟨p, hpm, rfl⟩ := List.mem_map.1 hv
      refine (abs_le_len (fun i => u p i - z i) i).trans ?_
      show eucl (u p) z ≤ r
      rw [← hu2]
      exact hz p hpm
    have hus : List.Forall₂ (Congr cs) ps (ps.map u) := by
      rw [List.forall₂_map_right_iff, List.forall₂_same]
      exact fun p _ => hu1 p
    have hhalf : ∀ v ∈ ps.map u, ∀ w ∈ ps.map u, ∀ i, |v i - w i| ≤ (1 / 2 - 1 / 2 ^ 48) * (cs.upper i - cs.lower i) := by
      intro v hv w hw i
      have h1 := abs_le.1 (hcoord v hv i)
      have h2 := abs_le.1 (hcoord w hw i)
      have h3 := hrs i
      have h4 : 1 / 2 ^ 48 * (cs.upper i - cs.lower i) ≤ 0.01 * (cs.upper i - cs.lower i) := mul_le_mul_of_nonneg_right (by norm_num) (hS i).le
      rw [sub_mul, abs_le]
      constructor <;> linarith
    have hpq : ∀ p ∈ ps, ∀ q ∈ ps, ∀ i, |q i - p i| ≤ 2 * (cs.upper i - cs.lower i) := by
      exact fun p hp q hq i => (moderate_sub hM (hsub p hp) (hsub q hq) i).2 hper
    obtain ⟨a, rfl⟩ := (C109_average_periodic hr hb hper hne hn' hus hhalf hpq (fun p hp => hM.bound p (hsub p hp)) h).2 hM.box.dim hM.box.resolved hM.box.small
    refine ⟨a, rfl, ?_⟩
    have h1 := C109_nodal_point hr hb hper hne hn' hus hhalf hpq (fun p hp => hM.bound p (hsub p hp)) h (.refl _) hbav
    have hn0 : (0 : ℝ) ≤ positions.length := Nat.cast_nonneg _
    have h2 : (len fun i => ((2 * (ps.length : ℝ) + 20) * (cs.upper i - cs.lower i) + 3 * M i) / 2 ^ 53) ≤ averageError cs M positions.length := by
      refine len_mono fun i => ?_
      have g1 := hS i
      have g2 := hM0 i
      rw [abs_of_nonneg (hE i), abs_of_nonneg (by positivity)]
      refine div_le_div_of_nonneg_right ?_ (by positivity)
      have h4 : (2 * (ps.length : ℝ) + 20) * (cs.upper i - cs.lower i) ≤ (2 * positions.length + 20) * (cs.upper i - cs.lower i) := mul_le_mul_of_nonneg_right (by linarith) g1.le
      have h5 : 3 * M i ≤ (2 * (positions.length : ℝ) + 20) * M i := mul_le_mul_of_nonneg_right (by linarith) g2
      linarith
    have h3 := (hmet a b z).2.2.1
    linarith

theorem existsUnique_map {α β : Type} (f : α → List β) (p : β) (l : List α) {l' : List (List β)} (e : l.map f = l') :
    (∃! i : Fin l.length, p ∈ f (l.get i)) ↔ ∃! i : Fin l'.length, p ∈ l'.get i := by
  subst e
  constructor
  · rintro ⟨i, hi, hu⟩
    refine ⟨⟨i, by simp⟩, by simpa using hi, fun j hj => ?_⟩
    have := hu ⟨j, by simpa using j.2⟩ (by simpa using hj)
    ext
    simpa using congrArg Fin.val this
  · rintro ⟨i, hi, hu⟩
    refine ⟨⟨i, by simpa using i.2⟩, by simpa using hi, fun j hj => ?_⟩
    have := hu ⟨j, by simp⟩ (by simpa using hj)
    ext
    simpa using congrArg Fin.val this

set_option maxHeartbeats 1000000 in
/-- **C112** (isolated points): C78 for double precision.  If all positions are within `r` of points that are far from each other, compared with `feature_size`, `r` and the rounding errors, then the
identification in double precision gives points only, one for each of those that have been found, and not farther than `r` and the rounding error of an average from it.  It never raises. -/
theorem C112_points {A : FL.IdArith d} {cs : CoordSys d} (hb : ProperBox cs) {positions : List (Vec d)} (hA : IdAccurate A cs positions) {M : Vec d} (hM : Moderate cs positions M) {fs r : ℝ}
    {Z : Set (Vec d)} (hZ : WellIsolated cs fs r (distanceError cs) Z) (hnear : ∀ x ∈ positions, ∃ z ∈ Z, cs.distance x z ≤ r) {res : Except Err (IdContainer d)}
    (h : FL.RunFromPositions A positions cs fs res) :
    ∃ out, res = .ok out ∧ PointsFound cs r (r + averageError cs M positions.length) Z positions out := by
  have hr := hA.nearest
  have hmet := C03_distance_metric cs hb
  have hδ0 : 0 ≤ distanceError cs := mul_nonneg (by positivity) (Real.sqrt_nonneg _)
  have hprec := hZ.precise
  have hr0 : ∀ x ∈ positions, 0 ≤ r := fun x hx => by
    obtain ⟨z, -, hxz⟩ := hnear x hx
    exact le_trans (hmet x z z).1 hxz
  -- positions near the same point are close, positions near different points are far apart
  have hfar : ∀ z ∈ Z, ∀ z' ∈ Z, ∀ x y, cs.distance x z ≤ r → cs.distance y z' ≤ r → cs.distance x y ≤ fs + distanceError cs → z = z' := by
    intro z hz z' hz' x y hx hy hxy
    by_contra hne
    have h1 := hZ.apart z hz z' hz' hne
    have h2 := (hmet z x z').2.2.1
    have h3 := (hmet x y z').2.2.1
    rw [(hmet z x x).2.1] at h2
    linarith
  have hclose : ∀ z x y, cs.distance x z ≤ r → cs.distance y z ≤ r → cs.distance x y ≤ 2 * r := by
    intro z x y hx hy
    have h1 := (hmet x z y).2.2.1
    rw [(hmet z y y).2.1] at h1
    linarith
  have hsep : ∀ p ∈ positions, ∀ q ∈ positions, p ≠ q → distanceError cs < |cs.distance p q - fs| := by
    intro p hp q hq _
    obtain ⟨z, hz, hpz⟩ := hnear p hp
    obtain ⟨z', hz', hqz⟩ := hnear q hq
    rw [lt_abs]
    by_cases hzz : z = z'
    · subst hzz
      right
      have := hclose z p q hpz hqz
      have := hr0 p hp
      linarith
    · left
      by_contra hle
      exact hzz (hfar z hz z' hz' p q hpz hqz (by linarith))
  have hchain : ∀ z ∈ Z, ∀ x y, cs.distance x z ≤ r → Chain cs fs positions x y → cs.distance y z ≤ r := by
    intro z hz x y hx hch
    induction hch with
    | refl => exact hx
    | tail _ hbc ih =>
      obtain ⟨z', hz', h1⟩ := hnear _ hbc.2.1
      rw [hfar z hz z' hz' _ _ ih h1 (hbc.2.2.trans (by linarith))]
      exact h1
  -- clusters
  have hcl : ∀ {pu}, IsUniqueList positions pu → ∀ g ∈ createClusters cs fs pu, GoodGraph g ∧ g.nodes ≠ [] ∧ (∀ x ∈ g.nodes, x ∈ positions) ∧
      ∃ z ∈ Z, ∀ x, x ∈ g.nodes ↔ x ∈ positions ∧ cs.distance x z ≤ r := by
    intro pu hu g hg
    have hP := (C51_clusters_partition cs fs hu).2 g hg
    refine ⟨(C54_cluster_graph hb fs hu hg).1, hP.1, hP.2.2, ?_⟩
    obtain ⟨x0, hx0⟩ := List.exists_mem_of_ne_nil _ hP.1
    obtain ⟨z, hz, hxz⟩ := hnear x0 (hP.2.2 x0 hx0)
    refine ⟨z, hz, fun x => ⟨fun hx => ⟨hP.2.2 x hx, ?_⟩, fun ⟨hx, hxr⟩ => ?_⟩⟩
    · exact hchain z hz x0 x hxz ((C52_clusters_are_chains hb fs hu x0 x).1 ⟨g, hg, hx0, hx⟩).2.2
    · have hlt : cs.distance x0 x ≤ fs := (hclose z x0 x hxz hxr).trans (by linarith [hr0 x hx])
      obtain ⟨c, hc, h1, h2⟩ := (C52_clusters_are_chains hb fs hu x0 x).2 ⟨hP.2.2 x0 hx0, hx, .single ⟨hP.2.2 x0 hx0, hx, hlt⟩⟩
      obtain ⟨i, hi, huniq⟩ := (C51_clusters_partition cs fs hu).1 x0 (hP.2.2 x0 hx0)
      obtain ⟨a, ha⟩ := List.get_of_mem hg
      obtain ⟨b, hb'⟩ := List.get_of_mem hc
      have e1 := huniq a (by simp only [ha]; exact hx0)
      have e2 := huniq b (by simp only [hb']; exact h1)
      rw [← ha, e1, ← e2, hb']
      exact h2
  -- every cluster that is computed has a point as its only possible result
  have hone : ∀ {pu}, IsUniqueList positions pu → ∀ g ∈ FL.createClusters A.dist fs pu, ∀ o, FL.IdentifyCluster A cs fs g o → ∃ q, o = .ok ⟨g.nodes, some 0, some (.point q)⟩ ∧
      g.nodes ≠ [] ∧ ∃ z ∈ Z, cs.distance q z ≤ r + averageError cs M positions.length ∧ ∀ x, x ∈ g.nodes ↔ x ∈ positions ∧ cs.distance x z ≤ r := by
    intro pu hu g hg o ho
    have hsame := moderate_clusters hr hb hM hu hA.dist hsep
    obtain ⟨g', hg', hnodes, hedges⟩ : ∃ g' ∈ createClusters cs fs pu, g.nodes = g'.nodes ∧ ∀ x y, g.hasEdge x y ↔ g'.hasEdge x y := by
      have := List.Forall₂.flip hsame
      exact forall₂_mem_right this hg
    obtain ⟨hgood, hne, hpos, z, hz, hzn⟩ := hcl hu g' hg'
    have hE := (C54_cluster_graph hb fs hu hg').2.2.1
    rw [← hnodes] at hne hpos hzn
    have hlen : g.nodes.length ≤ positions.length := by
      have hnd : g.nodes.Nodup := hnodes ▸ hgood.nodup
      rw [← List.toFinset_card_of_nodup hnd]
      exact (Finset.card_le_card fun x hx => by rw [List.mem_toFinset] at hx ⊢; exact hpos x hx).trans (List.toFinset_card_le _)
    have hlen' : (g.nodes.length : ℝ) ≤ positions.length := by exact_mod_cast hlen
    obtain ⟨x0, hx0⟩ := List.exists_mem_of_ne_nil _ hne
    have hr00 := hr0 x0 (hpos x0 hx0)
    have hdim : ∀ o, FL.CalculateDimension A g cs fs 3 (some 5) (some 10) o → o = .ok (some 0) := by
      intro o ho
      refine fl_dimension_tiny hr hA.svd hne ?_ (V := 2 * r + distanceError cs) ?_ ?_ ?_ ho
      · have := hM.few
        have h1 := mul_le_mul_of_nonneg_right hlen' ulp_pos.le
        refine h1.trans (le_trans (le_of_eq ?_) this)
        unfold ulp; ring
      · intro x y hxy
        rw [hnodes]
        exact ((hE x y).1 ((hedges x y).1 hxy)).2.1
      · intro x hx y hxy o ho
        obtain ⟨hx', hy', -⟩ := (hE x y).1 ((hedges x y).1 hxy)
        rw [← hnodes] at hx' hy'
        obtain ⟨w, hw, hlw⟩ := fl_connecting_len hr hb hM (hpos y hy') (hpos x hx') ho
        have := hclose z y x ((hzn y).1 hy').2 ((hzn x).1 hx').2
        exact ⟨w, hw, by linarith⟩
      · unfold FL.limitValue
        simp only [if_true]
        have hfs : 0 ≤ fs := by linarith
        have e1 := abs_le.1 (rel_err' hr (fs * 0.5))
        rw [abs_of_nonneg (by positivity)] at e1
        have hu1 := ulp_small
        have hu0 := ulp_pos
        have f1 : ulp * (fs * 0.5) ≤ 1 / 1000000 * (fs * 0.5) := mul_le_mul_of_nonneg_right hu1 (by positivity)
        have e2 := abs_le.1 (rel_err' hr (A.rnd (fs * 0.5) / 2))
        have f0 : 0 ≤ A.rnd (fs * 0.5) / 2 := by linarith [e1.1]
        rw [abs_of_nonneg f0] at e2
        have f2 : ulp * (A.rnd (fs * 0.5) / 2) ≤ 1 / 1000000 * (A.rnd (fs * 0.5) / 2) := mul_le_mul_of_nonneg_right hu1 f0
        have f3 : (1 + 1 / 2 ^ 40) * (2 * r + distanceError cs) ≤ 1.0001 * (2 * r + distanceError cs) := mul_le_mul_of_nonneg_right (by norm_num) (by linarith)
        linarith [e1.1, e2.1]
    have hpt : ∀ o, FL.EvaluatePoint A.rnd cs g.nodes o → ∃ q, o = .ok q ∧ cs.distance q z ≤ r + averageError cs M positions.length := by
      intro o ho
      refine fl_average_near hr hb hM (fun i => ?_) hne hpos hlen (fun p hp => ((hzn p).1 hp).2) ho
      have := hZ.fits i
      linarith
    cases ho with
    | dimError hc => cases hdim _ hc
    | @shapeError dim e hc hs =>
      have := hdim _ hc
      cases this
      generalize hdm : some (0 : ℤ) = dm at hs
      generalize ho : (Except.error e : Except Err (Option (Shape d))) = o at hs
      cases hs with
      | point => cases ho
      | pointError hp => obtain ⟨q, hq, -⟩ := hpt _ hp; cases hq
      | line => cases hdm
      | other => cases ho
    | @ok dim shape hc hs =>
      have := hdim _ hc
      cases this
      generalize hdm : some (0 : ℤ) = dm at hs
      generalize ho : (Except.ok shape : Except Err (Option (Shape d))) = o at hs
      cases hs with
      | point hp =>
        obtain ⟨q, hq, hqz⟩ := hpt _ hp
        cases hq
        cases ho
        exact ⟨_, rfl, hne, z, hz, hqz, hzn⟩
      | pointError => cases ho
      | line => cases hdm
      | other h0 => exact absurd hdm.symm h0
  obtain ⟨pu, outcomes, rs, hu, hF, hc, rfl⟩ : ∃ pu outcomes rs, IsUniqueList positions pu ∧ List.Forall₂ (FL.IdentifyCluster A cs fs) (FL.createClusters A.dist fs pu) outcomes ∧
      collect outcomes = .ok rs ∧ res = .ok ⟨cs, fs, rs⟩ := by
    cases h with
    | @ok pu outcomes rs hu hF hc => exact ⟨pu, outcomes, rs, hu, hF, hc, rfl⟩
    | @error pu outcomes e hu hF hc =>
      obtain ⟨g, hg, hge⟩ := forall₂_mem_right hF (collect_error hc)
      obtain ⟨q, hq, -⟩ := hone hu g hg _ hge
      cases hq
  rw [collect_eq_ok] at hc
  subst hc
  rw [List.forall₂_map_right_iff] at hF
  refine ⟨_, rfl, fun x hx => ?_, fun p hp => ?_⟩
  · obtain ⟨g, hg, hgx⟩ := forall₂_mem_right hF hx
    obtain ⟨q, hq, hne, z, hz, hqz, hzn⟩ := hone hu g hg _ hgx
    cases hq
    exact ⟨z, hz, rfl, ⟨q, rfl, hqz⟩, hne, hzn⟩
  · have e1 : rs.map (fun x => x.positions) = (FL.createClusters A.dist fs pu).map fun g => g.nodes := by
      have : ∀ (l : List (NxGraph (Vec d) ℝ)) (l' : List (IdResult d)), List.Forall₂ (fun g x => FL.IdentifyCluster A cs fs g (.ok x)) l l' → l'.map (fun x => x.positions) = l.map fun g => g.nodes := by
        intro l l' hF
        induction hF with
        | nil => rfl
        | cons h _ ih =>
          rw [List.map_cons, List.map_cons, ih]
          congr 1
          cases h; rfl
      exact this _ _ hF
    have e2 : (FL.createClusters A.dist fs pu).map (fun g => g.nodes) = (createClusters cs fs pu).map fun g => g.nodes := by
      have := moderate_clusters hr hb hM hu hA.dist hsep
      generalize FL.createClusters A.dist fs pu = l at this
      generalize createClusters cs fs pu = l' at this
      induction this with
      | nil => rfl
      | cons h _ ih => rw [List.map_cons, List.map_cons, ih, h.1]
    rw [existsUnique_map (fun x : IdResult d => x.positions) p rs (e1.trans e2), ← existsUnique_map (fun g : NxGraph (Vec d) ℝ => g.nodes) p _ rfl]
    exact (C51_clusters_partition cs fs hu).1 p hp

/-- **C112** (search and identification): if the gap function is at most the threshold only at points which, moved into the box by the search, are within `r` of points that are far from each other, then the identification in double
precision of the nodes of a search in double precision, at any moment and after any number `n` of restarts, consists of points within `r` of these, up to the drift of the restarts and the rounding error of an average. -/
theorem C112_search (hd : 1 ≤ d) {A : FL.CtlArith d} {p : CtlParams d} {Res : Simplex d → SRes d → Prop} {P : NMParams} {G : Vec d → FVal → Prop} (hft : P.ftol ≠ FVal.inf)
    (hc : P.fprimeCutoff = none ∨ ∀ x, ¬ G x FVal.nan) (hR : ∀ s r, Res s r → FloatMinimizationOf A.rnd P G s r) (hS : FloatSearch A p Res) (hn : NearBox p Res) {n : ℕ} {c : Ctl d} (h : FL.Reach A p Res n c)
    {r fs : ℝ} {Z : Set (Vec d)} (hG : ∀ x v, G x (FVal.ofReal v) → v ≤ p.gapThreshold → ∃ z ∈ Z, p.coord.distance (FL.normalizePosition A.rnd p.coord x) z ≤ r)
    (hZ : WellIsolated p.coord fs (r + n * driftError p.coord) (distanceError p.coord) Z)
    {B : FL.IdArith d} (hB : IdAccurate B p.coord (c.state.result.nodes.values.map fun r => r.pos)) {M : Vec d} (hM : ModerateBox p.coord M)
    (hMb : ∀ i, |p.coord.lower i| + 2 * (p.coord.upper i - p.coord.lower i) ≤ M i) (hfew : (c.state.result.nodes.values.length : ℝ) / 2 ^ 53 ≤ 1 / 100)
    {res : Except Err (IdContainer d)} (hrun : FL.RunFromPositions B (c.state.result.nodes.values.map fun r => r.pos) p.coord fs res) :
    ∃ out, res = .ok out ∧ PointsFound p.coord (r + n * driftError p.coord) (r + n * driftError p.coord + averageError p.coord M c.state.result.nodes.values.length) Z
      (c.state.result.nodes.values.map fun r => r.pos) out := by
  have hsrc := FL.reach_src hS hn h
  have hmet := C03_distance_metric p.coord hS.box
  have hin : ∀ x ∈ c.state.result.nodes.values.map (fun r => r.pos), FL.InReach p x := by
    intro x hx
    obtain ⟨q, hq, rfl⟩ := List.mem_map.1 hx
    exact (hsrc.nodes q hq).1.2.1
  have hMod : Moderate p.coord (c.state.result.nodes.values.map fun r => r.pos) M := by
    refine ⟨hM, fun x hx i => hin x hx i, fun x hx i => ?_, by rw [List.length_map]; exact hfew⟩
    have h1 := (hin x hx i).1
    have h2 : |x i| ≤ |x i - p.coord.lower i| + |p.coord.lower i| := by
      have := abs_add_le (x i - p.coord.lower i) (p.coord.lower i)
      rwa [sub_add_cancel] at this
    linarith [hMb i]
  have := C112_points hS.box hB hMod hZ (fun x hx => ?_) hrun
  · rwa [List.length_map] at this
  obtain ⟨q, hq, rfl⟩ := List.mem_map.1 hx
  obtain ⟨v, -, hv, y, hy, hyq⟩ := C103_nodes_below_threshold hd hft hc hR hS hn h hq
  obtain ⟨z, hz, hyz⟩ := hG y v hy hv
  refine ⟨z, hz, ?_⟩
  have h1 := (hmet q.pos (FL.normalizePosition A.rnd p.coord y) z).2.2.1
  have h2 := (hmet q.pos (FL.normalizePosition A.rnd p.coord y) z).2.1
  linarith

/-- the condition of C112_search holds if the gap function is at most the threshold only near the box and within `r` of the points, up to the error of moving a position into the box -/
theorem C112_near_box {A : FL.CtlArith d} {p : CtlParams d} {Res : Simplex d → SRes d → Prop} {G : Vec d → FVal → Prop} (hS : FloatSearch A p Res) {r : ℝ} {Z : Set (Vec d)}
    (hG : ∀ x v, G x (FVal.ofReal v) → v ≤ p.gapThreshold → (∀ i, |x i - p.coord.lower i| ≤ 2 * (p.coord.upper i - p.coord.lower i)) ∧ ∃ z ∈ Z, p.coord.distance x z ≤ r) :
    ∀ x v, G x (FVal.ofReal v) → v ≤ p.gapThreshold → ∃ z ∈ Z, p.coord.distance (FL.normalizePosition A.rnd p.coord x) z ≤ r + 2 * driftError p.coord := by
  intro y v hy hv
  have hmet := C03_distance_metric p.coord hS.box
  obtain ⟨har, z, hz, hyz⟩ := hG y v hy hv
  refine ⟨z, hz, ?_⟩
  have h1 := FL.normalize_near hS har
  have h3 := (hmet (FL.normalizePosition A.rnd p.coord y) y z).2.2.1
  have h5 := (hmet (FL.normalizePosition A.rnd p.coord y) y z).2.1
  linarith

/-! ## Without rounding -/

/-- Exact arithmetic: nothing is rounded, and the product of the singular values of a matrix is the square root of the determinant of the Gram matrix of its rows. -/
def FL.exactIdArith (cs : CoordSys d) : FL.IdArith d :=
  ⟨id, cs.distance, fun l => Real.sqrt |Matrix.det (Matrix.of fun i j : Fin l.length => ∑ k, l.get i k * l.get j k)|⟩

theorem meanOf_id {l : List ℝ} {a : ℝ} : FL.MeanOf id l a ↔ a = average l := by
  constructor
  · rintro ⟨s, hs, rfl⟩
    rw [rndSum_id hs]; rfl
  · rintro rfl
    obtain ⟨s, hs⟩ := rndSum_exists id l
    exact ⟨s, hs, by rw [rndSum_id hs]; rfl⟩

theorem varOf_id {l : List ℝ} {a : ℝ} : FL.VarOf id l a ↔ a = variance l := by
  constructor
  · rintro ⟨m, hm, hv⟩
    rw [meanOf_id] at hm hv
    subst hm
    exact hv
  · rintro rfl
    exact ⟨average l, meanOf_id.2 rfl, meanOf_id.2 rfl⟩

theorem decideLoop_id {limit : ℝ} {minNb : ℤ} : ∀ {vols results : List ℝ} {r : Except Err (Option Bool)}, FL.DecideLoop id limit minNb results (vols.map .ok) r → r = .ok (decideLoop limit minNb results vols) := by
  intro vols
  induction vols with
  | nil =>
    intro results r h
    cases h
    rfl
  | cons v vols ih =>
    intro results r h
    rw [List.map_cons] at h
    rw [decideLoop]
    cases h with
    | @early _ _ _ avg var h1 h2 h3 h4 h5 =>
      rw [meanOf_id] at h3
      rw [varOf_id] at h4
      subst h3 h4
      rw [if_pos ⟨h1, h2, h5⟩]
    | @undecided _ _ _ avg var _ h1 h2 h3 h4 h5 h6 =>
      rw [meanOf_id] at h3
      rw [varOf_id] at h4
      subst h3 h4
      rw [if_neg fun h => h5 h.2.2]
      exact ih h6
    | tooFew h1 h2 =>
      rw [if_neg fun h => h1 ⟨h.1, h.2.1⟩]
      exact ih h2

theorem connecting_id {cs : CoordSys d} (hb : ProperBox cs) {p q : Vec d} {o : Except Err (Vec d)} (h : FL.Connecting id cs p q o) : o = .ok (cs.connectingVector p q) := by
  have hcv : FL.connectingVector id cs p q = cs.connectingVector p q := (C97_exact_arithmetic hb 0 [] p q 0).2.1
  cases h with
  | plain => rw [hcv]
  | passed => rw [hcv]
  | @failed v hper hv hlt =>
    exfalso
    rw [(C97_exact_arithmetic hb 0 [] _ _ _).1, hcv] at hv
    obtain ⟨w, h1, h2, h3, -⟩ := C05_connecting_vector cs hb p q
    subst h2
    unfold CoordSys.connectingVectorChecked at h1
    apply hlt
    have e : (fun i => id (cs.connectingVector p q i + p i)) = cs.connectingVector p q + p := rfl
    rw [e] at hv
    simp only [hper] at h1
    rw [hv]
    show _ < (1e-8 : ℝ)
    by_contra hcon
    simp [hcon] at h1

theorem volume_id {cs : CoordSys d} (hb : ProperBox cs) {pos : Vec d} {t : Finset (Vec d)} {o : Except Err ℝ} (h : FL.Volume (FL.exactIdArith cs) cs pos t o) : o = .ok (getVolume cs pos t) := by
  cases h with
  | raises _ hc => have := connecting_id hb hc; cases this
  | @ok tuple vectors hnd hmem hF =>
    have hv : vectors = tuple.map fun n => cs.connectingVector n pos := by
      clear hnd hmem
      induction hF with
      | nil => rfl
      | cons h _ ih =>
        rw [List.map_cons, ih]
        congr 1
        have := connecting_id hb h
        cases this; rfl
    subst hv
    congr 1
    unfold getVolume FL.exactIdArith
    simp only
    congr 2
    let e : Fin (tuple.map fun n => cs.connectingVector n pos).length ≃ t :=
      (finCongr (List.length_map _)).trans ((List.Nodup.getEquiv tuple hnd).trans (Equiv.subtypeEquivRight hmem))
    rw [← Matrix.det_submatrix_equiv_self e]
    congr 1
    ext i j
    simp [e, Matrix.of_apply, Matrix.submatrix_apply]

theorem hasDimension_id {g : NxGraph (Vec d) ℝ} {cs : CoordSys d} (hb : ProperBox cs) {fs : ℝ} {minNb : Option ℤ} {pos : Vec d} {dim : ℕ} {r : Except Err Bool} :
    FL.HasDimension (FL.exactIdArith cs) g cs fs minNb pos dim r ↔ HasDimension g cs fs minNb pos dim r := by
  have hev : FL.exactValue id dim = exactValue dim := by
    rcases dim with _ | _ | _ | _ | n <;> rfl
  have hlv : ∀ v, FL.limitValue (FL.exactIdArith cs).rnd fs dim v = fs ^ dim * v / 2 := by
    intro v
    unfold FL.limitValue
    split
    · rename_i h; rw [h, pow_one]; rfl
    · rfl
  have hvols : ∀ {out : List (Finset (Vec d))} {vols}, List.Forall₂ (FL.Volume (FL.exactIdArith cs) cs pos) out vols → vols = (out.map (getVolume cs pos)).map .ok := by
    intro out vols hF
    induction hF with
    | nil => rfl
    | cons h _ ih => rw [List.map_cons, List.map_cons, ← ih, volume_id hb h]
  have hvols' : ∀ {out : List (Finset (Vec d))} {vols}, List.Forall₂ (fun t x => FL.Volume (FL.exactIdArith cs) cs pos t (.ok x)) out vols → vols = out.map (getVolume cs pos) := by
    intro out vols hF
    induction hF with
    | nil => rfl
    | cons h _ ih =>
      rw [List.map_cons, ← ih]
      congr 1
      have := volume_id hb h
      cases this; rfl
  have hex : ∀ out : List (Finset (Vec d)), List.Forall₂ (fun t x => FL.Volume (FL.exactIdArith cs) cs pos t (.ok x)) out (out.map (getVolume cs pos)) := by
    intro out
    rw [List.forall₂_map_right_iff, List.forall₂_same]
    intro t _
    obtain ⟨o, ho⟩ := volume_total (FL.exactIdArith cs) cs pos t
    rwa [volume_id hb ho] at ho
  have hloop : ∀ (limit : ℝ) (k : ℤ) (vols : List ℝ), FL.DecideLoop id limit k [] (vols.map .ok) (.ok (decideLoop limit k [] vols)) := by
    intro limit k vols
    obtain ⟨o, ho⟩ := fl_decideLoop_total id limit k (vols.map .ok) []
    have := decideLoop_id ho
    rwa [this] at ho
  constructor
  · intro h
    cases h with
    | tooLarge h => exact .tooLarge h
    | unknown h1 h2 => exact .unknown h1 (hev ▸ h2)
    | @early v phase used out volumes b h1 h2 h3 h4 h5 =>
      rw [hvols h4] at h5
      have h6 := decideLoop_id h5
      rw [hlv] at h6
      exact .early h1 (hev ▸ h2) h3 (Except.ok.inj h6).symm
    | @raises v phase used out volumes e h1 h2 h3 h4 h5 =>
      rw [hvols h4] at h5
      have h6 := decideLoop_id h5
      cases h6
    | @none v used h1 h2 h3 =>
      have := HasDimension.all (cs := cs) (featureSize := fs) (pos := pos) h1 (hev ▸ h2) h3 (by rfl)
      simpa using this
    | @all v used out volumes avg h1 h2 h3 h4 h5 h6 h7 =>
      rw [hvols' h4] at h5 h7
      have h8 := decideLoop_id h5
      rw [hlv] at h8
      have h9 : avg = average (out.map (getVolume cs pos)) := meanOf_id.1 h7
      have := HasDimension.all (cs := cs) (featureSize := fs) (pos := pos) h1 (hev ▸ h2) h3 (Except.ok.inj h8).symm
      rw [hlv, h9]
      simpa [h6] using this
  · intro h
    cases h with
    | tooLarge h => exact .tooLarge h
    | unknown h1 h2 => exact .unknown h1 (hev.trans h2)
    | @early v phase used out b h1 h2 h3 h4 =>
      have h5 := hloop (fs ^ dim * v / 2) (minNb.getD (g.neighbors pos).length) (out.map (getVolume cs pos))
      rw [h4, ← hlv] at h5
      refine .early h1 (hev.trans h2) h3 ?_ h5
      rw [List.forall₂_map_right_iff]
      exact hex out
    | @all v used out h1 h2 h3 h4 =>
      by_cases ho : out = []
      · subst ho
        simpa using FL.HasDimension.none (A := FL.exactIdArith cs) (cs := cs) (featureSize := fs) h1 (hev.trans h2) h3
      · have h5 := hloop (fs ^ dim * v / 2) (minNb.getD (g.neighbors pos).length) (out.map (getVolume cs pos))
        rw [h4, ← hlv] at h5
        have := FL.HasDimension.all (A := FL.exactIdArith cs) (cs := cs) (featureSize := fs) h1 (hev.trans h2) h3 (hex out) h5 ho (meanOf_id.2 rfl)
        rw [hlv v] at this
        simpa [ho] using this

/-- **C112** (without rounding): if nothing is rounded, the possible dimensions of a cluster are those of the exact model (C55, C56), and the position of a nodal point is the exact average. -/
theorem C112_exact_arithmetic {cs : CoordSys d} (hb : ProperBox cs) (g : NxGraph (Vec d) ℝ) (fs : ℝ) (maxDim : ℤ) (minPos minNb : Option ℤ) :
    (∀ r, FL.CalculateDimension (FL.exactIdArith cs) g cs fs maxDim minPos minNb r ↔ CalculateDimension g cs fs maxDim minPos minNb r) ∧
    ∀ r, FL.EvaluatePoint (FL.exactIdArith cs).rnd cs g.nodes r ↔ r = cs.average g.nodes := by
  refine ⟨fun r => ?_, fun r => (C109_exact_arithmetic hb g.nodes r 0).1⟩
  have hget : FL.GetDimension (FL.exactIdArith cs) g cs fs maxDim minNb = GetDimension g cs fs maxDim minNb := by
    funext pos r
    unfold FL.GetDimension GetDimension
    simp only [hasDimension_id hb]
  have hcount : ∀ c, FL.checkCount id c = checkCount c := by
    intro c
    unfold FL.checkCount checkCount
    rfl
  have hcalc : ∀ l i c, FL.calcLoop id minPos i l c = calcLoop minPos i l c := by
    intro l
    induction l with
    | nil =>
      intro i c
      unfold FL.calcLoop calcLoop
      rw [hcount]
      rcases checkCount c with e | ⟨_ | _, x⟩ <;> rfl
    | cons o l ih =>
      intro i c
      unfold FL.calcLoop calcLoop
      rw [hcount]
      have e : (match o with
          | .error e => .error e
          | .ok dim => FL.calcLoop id minPos (i + 1) l (c.add dim) : Except Err (Option ℤ)) = match o with
          | .error e => .error e
          | .ok dim => calcLoop minPos (i + 1) l (c.add dim) := by
        cases o with
        | error e => rfl
        | ok x => exact ih (i + 1) (c.add x)
      cases minPos with
      | none => rfl
      | some m =>
        simp only
        split
        · rcases checkCount c with e' | ⟨_ | _, x⟩
          · rfl
          · exact e
          · rfl
        · exact e
  unfold FL.CalculateDimension CalculateDimension
  rw [hget]
  constructor
  · rintro ⟨order, outcomes, h1, h2, rfl⟩
    exact ⟨order, outcomes, h1, h2, hcalc _ _ _⟩
  · rintro ⟨order, outcomes, h1, h2, rfl⟩
    exact ⟨order, outcomes, h1, h2, (hcalc _ _ _).symm⟩

/-! ## Non-vacuity -/
namespace C112Demo

/-- an arithmetic in which singular values are computed exactly -/
def arith (rnd : ℝ → ℝ) (cs : CoordSys d) : FL.IdArith d := ⟨rnd, fun x y => (distance_exists rnd cs x y).choose, fun l => match l with | [v] => len v | _ => 0⟩

theorem accurate {rnd : ℝ → ℝ} (hr : IsNearest rnd) (cs : CoordSys d) (positions : List (Vec d)) : IdAccurate (arith rnd cs) cs positions where
  nearest := hr
  dist p _ q _ := (distance_exists rnd cs p q).choose_spec
  svd v := by
    show |len v - len v| ≤ _
    rw [sub_self, abs_zero]
    exact div_nonneg (Real.sqrt_nonneg _) (by norm_num)

theorem len_one (v : Vec 1) : len v = |v 0| := by
  simp [len, Real.sqrt_sq_eq_abs]

theorem box_moderate : ModerateBox exBox (fun _ : Fin 1 => 40) where
  dim := by norm_num
  resolved i := by
    fin_cases i
    norm_num [exBox]
  small := by
    rw [len_one, len_one]
    norm_num [exBox]

/-- the hypotheses of C112_points: three positions near the points 1 and 9 of the interval `[0, 10]`, two of which are near 1 -/
example : ∃ (A : FL.IdArith 1) (positions : List (Vec 1)) (res : Except Err (IdContainer 1)), IdAccurate A exBox positions ∧ FL.RunFromPositions A positions exBox 2 res ∧
    ∃ out, res = .ok out ∧ PointsFound exBox (1 / 8) (1 / 8 + 1 / 10 ^ 12) {![1], ![9]} positions out ∧ out.results ≠ [] := by
  obtain ⟨res, hres⟩ := C112_total (arith C102Demo.rndEven exBox) [![1.125], ![0.875], (![9] : Vec 1)] exBox 2
  have hde : distanceError exBox ≤ 1 / 1000 := by
    rw [distanceError_one]
    norm_num [exBox]
  have hM : Moderate exBox [![1.125], ![0.875], (![9] : Vec 1)] (fun _ => 40) := by
    refine ⟨box_moderate, ?_, ?_, by norm_num⟩
    · intro p hp i
      simp only [List.mem_cons, List.not_mem_nil, or_false] at hp
      fin_cases i
      rcases hp with rfl | rfl | rfl <;> norm_num [exBox, abs_le]
    · intro p hp i
      simp only [List.mem_cons, List.not_mem_nil, or_false] at hp
      fin_cases i
      rcases hp with rfl | rfl | rfl <;> norm_num [abs_le]
  have hZ : WellIsolated exBox 2 (1 / 8) (distanceError exBox) {![1], ![9]} := by
    refine ⟨?_, by linarith, fun i => by fin_cases i; norm_num [exBox]⟩
    rintro z (rfl | rfl) z' (rfl | rfl) hne
    · exact absurd rfl hne
    · rw [ex_dist]; norm_num; linarith
    · rw [ex_dist]; norm_num; linarith
    · exact absurd rfl hne
  have hnear : ∀ x ∈ [![1.125], ![0.875], (![9] : Vec 1)], ∃ z ∈ ({![1], ![9]} : Set (Vec 1)), exBox.distance x z ≤ 1 / 8 := by
    intro x hx
    simp only [List.mem_cons, List.not_mem_nil, or_false] at hx
    rcases hx with rfl | rfl | rfl
    · exact ⟨![1], by simp, by rw [ex_dist]; norm_num [abs_le]⟩
    · exact ⟨![1], by simp, by rw [ex_dist]; norm_num [abs_le]⟩
    · exact ⟨![9], by simp, by rw [ex_dist]; norm_num [abs_le]⟩
  have hacc := accurate C102Demo.rndEven_nearest exBox [![1.125], ![0.875], (![9] : Vec 1)]
  obtain ⟨out, ho, hf⟩ := C112_points exBox_proper hacc hM hZ hnear hres
  have hav : averageError exBox (fun _ => 40) 3 ≤ 1 / 10 ^ 12 := by
    unfold averageError
    rw [len_one]
    norm_num [exBox]
  refine ⟨_, _, res, hacc, hres, out, ho, ⟨fun x hx => ?_, hf.once⟩, ?_⟩
  · obtain ⟨z, hz, h1, ⟨q, h2, h3⟩, h4, h5⟩ := hf.each x hx
    exact ⟨z, hz, h1, ⟨q, h2, h3.trans (by simpa using hav)⟩, h4, h5⟩
  · intro h0
    obtain ⟨i, -⟩ := hf.once ![9] (by simp)
    rw [h0] at i
    exact Fin.elim0 i

/-- the hypotheses of C112_majority: a cluster of two positions -/
example : ∃ (A : FL.IdArith 1) (g : NxGraph (Vec 1) ℝ) (r : Except Err (Option ℤ)), IsNearest A.rnd ∧ g.nodes.Nodup ∧ g.nodes.length = 2 ∧ FL.CalculateDimension A g exBox 2 3 (some 5) (some 10) r := by
  obtain ⟨r, hr⟩ := fl_calculateDimension_total (arith C102Demo.rndEven exBox) (createGraph exBox 2 [![1], (![1.5] : Vec 1)]) exBox 2 3 (some 5) (some 10)
  refine ⟨_, _, r, C102Demo.rndEven_nearest, ?_, ?_, hr⟩
  · show [![1], (![1.5] : Vec 1)].Nodup
    simp only [List.nodup_cons, List.mem_cons, List.not_mem_nil, or_false, not_false_eq_true, List.nodup_nil, and_true]
    intro h
    have := congrFun h 0
    norm_num at this
  · rfl

/-- the hypotheses of C112_search: the search of C106 and C108 for `|x|` in steps of `2⁻²⁰` on a circle, after a restart; its nodes are identified as one point at 0 -/
example : ∃ (p : CtlParams 1) (c : Ctl 1) (res : Except Err (IdContainer 1)), c.phase = .returned ∧ c.state.result.nodes.values ≠ [] ∧
    FL.RunFromPositions (arith C102Demo.rndEven p.coord) (c.state.result.nodes.values.map fun r => r.pos) p.coord 6 res ∧
    ∃ out r', res = .ok out ∧ r' < 0.51 ∧ PointsFound p.coord r' 0.52 {fun _ => 0} (c.state.result.nodes.values.map fun r => r.pos) out := by
  have hr := C102Demo.rndEven_nearest
  obtain ⟨p, P, hset⟩ := C106Demo.setup_ok (rnd := C102Demo.rndEven)
  obtain ⟨c, hc, hret⟩ := C106Demo.returns hr hset
  obtain ⟨q, hq, -⟩ := C106Demo.finds hr hset hc hret
  obtain ⟨-, -, -, eft, efs, egap, hlim, eper, ⟨k, hk, eauto, -⟩, -, hmesh, -, -, erec, ecut, -, -, eforce, -⟩ := C104_settings hr hset
  have hm : p.mesh = FL.initialSimplices C102Demo.rndEven p.coord fun _ => 100 := hmesh 100 rfl
  have hlim' : ∀ i, p.coord.lower i = -8 ∧ p.coord.upper i = 8 := fun i => by
    rw [(hlim i).1, (hlim i).2]
    norm_num [C106Demo.args]
  have hres : MeshResolved p.coord (fun _ => 100) := fun i => by
    unfold meshError
    rw [(hlim' i).1, (hlim' i).2]
    norm_num
  have hS : FloatSearch (C103Demo.arith C102Demo.rndEven) p (AnyNodes (FloatLiveMinimization (C103Demo.arith C102Demo.rndEven) p P C106Demo.gap)) :=
    C104_setup (A := C103Demo.arith C102Demo.rndEven) hr C106Demo.distances (C106Demo.auto_near hr) hset (fun i => by norm_num [C106Demo.args]) C106Demo.limits hm hres (.inl rfl) (by norm_num [C106Demo.args])
    (fun i => by rw [(hlim' i).1, (hlim' i).2]; norm_num [C106Demo.args]) (.inl eper)
  have hfs : p.featureSize = 1 := efs
  have hgap : p.gapThreshold = 1 / 2 := egap
  have hde : distanceError p.coord ≤ 1 / 10 ^ 9 := by
    rw [distanceError_one, (hlim' 0).1, (hlim' 0).2]
    norm_num
  have hdr : driftError p.coord ≤ 1 / 10 ^ 9 := by
    rw [driftError_one, (hlim' 0).1, (hlim' 0).2]
    norm_num
  have hdr0 : 0 ≤ driftError p.coord := Real.sqrt_nonneg _
  have hg : FloatGeometry p (AnyNodes (FloatLiveMinimization (C103Demo.arith C102Demo.rndEven) p P C106Demo.gap)) := by
    refine ⟨by rw [hfs]; norm_num, .inl eper, .inl eper, ?_, by norm_num⟩
    rw [hfs]
    norm_num at hde ⊢
    linarith
  have hR : ∀ s r, AnyNodes (FloatLiveMinimization (C103Demo.arith C102Demo.rndEven) p P C106Demo.gap) s r →
      FloatMinimizationOf (C103Demo.arith C102Demo.rndEven).rnd P (fun x v => v = C106Demo.gap x) s r := by
    rintro s r ⟨nodes, B, fake, sim0, h1, h2, -, h4, h5⟩
    exact ⟨B, _, fake, sim0, h1, h2, fun _ _ => rfl, h4, h5⟩
  have hreach := FL.live_reach hc
  have hft : P.ftol ≠ FVal.inf := by
    obtain ⟨t, ht, -⟩ := eft rfl
    rw [ht]
    simp [FVal.ofReal, FVal.inf]
  have hfew : c.state.result.nodes.values.length ≤ 1000 := by
    have h1 := (C110_evaluations_float le_rfl hR hS eforce hreach).1
    have h2 := C103_refinements_bounded hS hg erec hreach
    have h3 : p.mesh.length = 100 := by
      rw [hm, (C104_mesh_shape hr hS.box hS.floats fun i => (hres i).1).1]
      simp
    have h4 : (p.stencil.getD []).length = 2 := by
      rw [eauto rfl, Option.getD_some]
      show (List.map _ _).length = 2
      rw [List.length_map, (C106Demo.auto_near hr).length_eq, (C50_auto 1).1]
      norm_num
    have h5 : packingBound (reachBox p.coord) (p.featureSize / 3 * (1 - 1 / 2 ^ 39) - distanceError p.coord) p.recheckCountCutoff.toNat ≤ 401 := by
      rw [show p.recheckCountCutoff = 0 from ecut, hfs]
      unfold packingBound reachBox
      simp only [(hlim' _).1, (hlim' _).2, Fin.prod_univ_one, Int.toNat_zero, zero_add, one_mul]
      refine Nat.succ_le_succ (Nat.floor_le_of_le ?_)
      have : (8 / 25 : ℝ) ≤ 1 / 3 * (1 - 1 / 2 ^ 39) - distanceError p.coord := by
        norm_num at hde ⊢
        linarith
      rw [div_le_iff₀ (by linarith)]
      push_cast
      linarith
    rw [Container.minimizationResults, List.length_append, h3, h4] at h1
    omega
  obtain ⟨res, hres'⟩ := C112_total (arith C102Demo.rndEven p.coord) (c.state.result.nodes.values.map fun r => r.pos) p.coord 6
  have hM : ModerateBox p.coord (fun _ : Fin 1 => 40) := by
    refine ⟨by norm_num, fun i => by rw [(hlim' i).1, (hlim' i).2]; norm_num, ?_⟩
    rw [len_one, len_one, (hlim' 0).1, (hlim' 0).2]
    norm_num
  have hZ : WellIsolated p.coord 6 ((1 / 2 + 1 / 2 ^ 20) + 2 * driftError p.coord + (1 : ℕ) * driftError p.coord) (distanceError p.coord) {fun _ => 0} := by
    refine ⟨?_, ?_, fun i => by rw [(hlim' i).1, (hlim' i).2]; norm_num⟩
    · rintro z rfl z' rfl hne
      exact absurd rfl hne
    · push_cast
      norm_num at hde hdr ⊢
      linarith
  have hG : ∀ x v, (fun x v => v = C106Demo.gap x) x (FVal.ofReal v) → v ≤ p.gapThreshold → (∀ i, |x i - p.coord.lower i| ≤ 2 * (p.coord.upper i - p.coord.lower i)) ∧
      ∃ z ∈ ({fun _ => 0} : Set (Vec 1)), p.coord.distance x z ≤ 1 / 2 + 1 / 2 ^ 20 := by
    intro x v hv hle
    have hv' : v = C105Demo.g (x 0) := by
      have : FVal.ofReal v = FVal.ofReal (C105Demo.g (x 0)) := hv
      simpa [FVal.ofReal] using this
    have hx : |x 0| ≤ 1 / 2 + 1 / 2 ^ 20 := by
      have := (C105Demo.near (x 0)).2
      rw [hv', hgap] at hle
      linarith
    refine ⟨fun i => ?_, _, rfl, ?_⟩
    · obtain rfl := Subsingleton.elim 0 i
      rw [(hlim' 0).1, (hlim' 0).2]
      rw [abs_le] at hx ⊢
      norm_num at hx ⊢
      constructor <;> linarith
    · refine (distance_le_eucl hS.box _ _).trans ?_
      simpa [eucl, Real.sqrt_sq_eq_abs] using hx
  have hfew' : (c.state.result.nodes.values.length : ℝ) ≤ 1000 := by exact_mod_cast hfew
  obtain ⟨out, ho, hf⟩ := C112_search le_rfl hft (.inr fun x h => by simp [C106Demo.gap, FVal.ofReal, FVal.nan] at h) hR hS (.inl eper) hreach (r := 1 / 2 + 1 / 2 ^ 20 + 2 * driftError p.coord) (Z := {fun _ => 0}) (C112_near_box (G := fun x v => v = C106Demo.gap x) hS hG) hZ (accurate hr p.coord _) hM
    (fun i => by rw [(hlim' i).1, (hlim' i).2]; norm_num) ((div_le_iff₀ (by norm_num)).2 (hfew'.trans (by norm_num))) hres'
  refine ⟨p, c, res, hret, List.ne_nil_of_mem hq, hres', out, (1 / 2 + 1 / 2 ^ 20) + 2 * driftError p.coord + (1 : ℕ) * driftError p.coord, ho, ?_, ⟨fun x hx => ?_, hf.once⟩⟩
  · push_cast
    norm_num at hdr ⊢
    linarith
  · obtain ⟨z, hz, h1, ⟨q, h2, h3⟩, h4, h5⟩ := hf.each x hx
    refine ⟨z, hz, h1, ⟨q, h2, h3.trans ?_⟩, h4, h5⟩
    have hav : averageError p.coord (fun _ : Fin 1 => 40) c.state.result.nodes.values.length ≤ 1 / 10 ^ 9 := by
      unfold averageError
      rw [len_one, (hlim' 0).1, (hlim' 0).2, abs_of_nonneg (by positivity)]
      norm_num
      linarith
    push_cast
    norm_num at hdr hav ⊢
    linarith

end C112Demo

end NF
