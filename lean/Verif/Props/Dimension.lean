import Verif.Lemmas.Dimension

/-! # C55 - C57, C68, C69: the dimension of a cluster -/

noncomputable section
open Classical

namespace NF
open Spec
variable {d : ℕ}

/-! ## C55 -/

/-- C55.  `calculate_dimension` evaluates different positions of the cluster, one after the other (`evaluated`, with the results `dims`).

* It returns a dimension only if at least two thirds of the results agree on it, and only after `min_pos_evaluations` positions, or all of them; and it
  stops the first time that this is the case.
* The dimension is one of the results, and between 0 and `max_dim`, and at most the number of coordinates.
* It returns `None` only after evaluating all positions, if no two thirds of the results agree.
* With the default `max_dim = 3` (or smaller), or at most three coordinates, it does not raise. -/
theorem C55_majority {g : NxGraph (Vec d) ℝ} (hg : GoodGraph g) (hne : g.nodes ≠ []) {cs : CoordSys d} {fs : ℝ} {maxDim m : ℤ} (hmd : 0 ≤ maxDim) (hm : 1 ≤ m) {minNb : Option ℤ}
    {r : Except Err (Option ℤ)} (h : CalculateDimension g cs fs maxDim (some m) minNb r) :
    (∀ x, r = .ok (some x) → ∃ (evaluated : List (Vec d)) (dims : List ℤ), evaluated.Nodup ∧ (∀ p ∈ evaluated, p ∈ g.nodes) ∧
      List.Forall₂ (fun p dim => GetDimension g cs fs maxDim minNb p (.ok dim)) evaluated dims ∧
      min m g.nodes.length ≤ dims.length ∧ 2 * dims.length ≤ 3 * dims.count x ∧
      (∀ k : ℕ, m ≤ k → k < dims.length → ∀ y, 3 * (dims.take k).count y < 2 * k) ∧
      x ∈ dims ∧ 0 ≤ x ∧ x ≤ maxDim ∧ x ≤ d) ∧
    (r = .ok none → ∃ (evaluated : List (Vec d)) (dims : List ℤ), evaluated.Perm g.nodes ∧
      List.Forall₂ (fun p dim => GetDimension g cs fs maxDim minNb p (.ok dim)) evaluated dims ∧ ∀ x, 3 * dims.count x < 2 * dims.length) ∧
    (∀ e, r = .error e → e = .notImplemented ∧ 4 ≤ maxDim ∧ 4 ≤ d) := by
  obtain ⟨order, outcomes, hperm, hall, rfl⟩ := h
  have hlen : order.length = outcomes.length := hall.length_eq
  have hne' : outcomes ≠ [] := by
    intro h0
    rw [h0] at hlen
    have := hperm.length_eq
    rw [hlen] at this
    exact hne (List.length_eq_zero_iff.1 this.symm)
  have hspec := calcLoop_spec hm outcomes [] (.inr hne') (by simp)
  simp only [List.length_nil, List.foldl_nil, List.nil_append, zero_add] at hspec
  obtain ⟨h1, h2, h3⟩ := hspec
  have hpre : ∀ dims : List ℤ, dims.map Except.ok <+: outcomes →
      List.Forall₂ (fun p dim => GetDimension g cs fs maxDim minNb p (.ok dim)) (order.take dims.length) dims := by
    intro dims hp
    have ht := List.forall₂_take dims.length hall
    have e : outcomes.take dims.length = dims.map .ok := by
      have := List.prefix_iff_eq_take.1 hp
      rw [List.length_map] at this
      exact this.symm
    rw [e, List.forall₂_map_right_iff] at ht
    exact ht
  refine ⟨fun x hx => ?_, fun hx => ?_, fun e he => ?_⟩
  · obtain ⟨dims, hp, hdne, hmin, hmaj, hearly⟩ := h2 x hx
    have hF := hpre dims hp
    have hxd : x ∈ dims := by
      by_contra hx'
      rw [List.count_eq_zero_of_not_mem hx'] at hmaj
      have := List.length_pos_iff.2 hdne
      omega
    obtain ⟨i, hi, rfl⟩ := List.getElem_of_mem hxd
    have hgd := (List.forall₂_iff_get.1 hF).2 i (by rw [hF.length_eq]; exact hi) hi
    have hr := (getDimension_spec hgd hmd).2 _ rfl
    refine ⟨order.take dims.length, dims, (hperm.nodup_iff.2 hg.nodup).sublist (List.take_sublist _ _),
      fun p hp' => hperm.mem_iff.1 (List.mem_of_mem_take hp'), hF, ?_, hmaj, hearly, hxd, hr.1, hr.2.1, hr.2.2.1⟩
    rw [← hperm.length_eq, hlen]
    exact hmin
  · obtain ⟨dims, rfl, hmaj⟩ := h3 hx
    have hF := hpre dims List.prefix_rfl
    rw [show order.take dims.length = order by rw [List.take_of_length_le]; simp [hlen]] at hF
    exact ⟨order, dims, hperm, hF, hmaj⟩
  · have := h1 e he
    obtain ⟨i, hi, hie⟩ := List.getElem_of_mem this
    have hgd := (List.forall₂_iff_get.1 hall).2 i (by rw [hlen]; exact hi) hi
    have hie' : outcomes.get ⟨i, hi⟩ = .error e := hie
    rw [hie'] at hgd
    exact (getDimension_spec hgd hmd).1 e rfl

/-- C55, a result always exists: whatever the cluster, the evaluation can always be completed. -/
theorem C55_total (g : NxGraph (Vec d) ℝ) (cs : CoordSys d) (fs : ℝ) (maxDim : ℤ) (minPos minNb : Option ℤ) : ∃ r, CalculateDimension g cs fs maxDim minPos minNb r := by
  choose f hf using getDimension_total g cs fs maxDim minNb
  refine ⟨_, g.nodes, g.nodes.map f, .refl _, ?_, rfl⟩
  rw [List.forall₂_map_right_iff, List.forall₂_same]
  exact fun x _ => hf x

/-- C55 does not hold with `min_pos_evaluations = None`, though line 54 provides for it: line 59 compares with `None`, which raises a `TypeError`. -/
theorem C55_none_raises {g : NxGraph (Vec d) ℝ} (hne : g.nodes ≠ []) {cs : CoordSys d} {fs : ℝ} {maxDim : ℤ} {minNb : Option ℤ}
    {r : Except Err (Option ℤ)} (h : CalculateDimension g cs fs maxDim none minNb r) : r = .error .type := by
  obtain ⟨order, outcomes, hperm, hall, rfl⟩ := h
  cases outcomes with
  | nil =>
    have := hall.length_eq
    rw [hperm.length_eq] at this
    exact absurd (List.length_eq_zero_iff.1 this) hne
  | cons o os => rfl

/-- C55 does not hold with `min_pos_evaluations = 0` either: an empty count raises an `IndexError`. -/
theorem C55_zero_raises {g : NxGraph (Vec d) ℝ} {cs : CoordSys d} {fs : ℝ} {maxDim m : ℤ} (hm : m ≤ 0) {minNb : Option ℤ}
    {r : Except Err (Option ℤ)} (h : CalculateDimension g cs fs maxDim (some m) minNb r) : r = .error .index := by
  obtain ⟨order, outcomes, hperm, hall, rfl⟩ := h
  cases outcomes with
  | nil => rfl
  | cons o os =>
    simp only [calcLoop]
    rw [if_pos (by simpa using hm)]
    rfl

/-! ## C56 -/

/-- C56.  Whatever the random choices, `draw_neighbour_tuple` never yields the same tuple of neighbours twice; when it ends, it has yielded all of them. -/
theorem C56_tuples_once {V : Type} {nbrs : Finset V} {dim : ℕ} {minNb : ℤ} {ph : DrawPhase V} {used : Finset (Finset V)} {out : List (Finset V)}
    (h : Drawing nbrs dim minNb ph used out) :
    out.Nodup ∧ (∀ t ∈ out, t ⊆ nbrs ∧ t.card = dim) ∧
    (ph = .rest ∅ → (∀ t, t ⊆ nbrs → t.card = dim → t ∈ out) ∧ out.length = nbrs.card.choose dim) := by
  obtain ⟨h1, h2, -⟩ := drawing_spec h
  refine ⟨h1, fun t ht => Finset.mem_powersetCard.1 (h2 t ht), ?_⟩
  rintro rfl
  exact ⟨fun t ht hc => drawing_mem h t (Finset.mem_powersetCard.2 ⟨ht, hc⟩), (drawing_all h).2⟩

/-- C56, no choice leads to a dead end: from every reachable situation the generator can finish. -/
theorem C56_can_finish {V : Type} {nbrs : Finset V} {dim : ℕ} {minNb : ℤ} {ph : DrawPhase V} {used : Finset (Finset V)} {out : List (Finset V)}
    (h : Drawing nbrs dim minNb ph used out) : ∃ used' out', out <+: out' ∧ Drawing nbrs dim minNb (.rest ∅) used' out' := by
  cases ph with
  | random => exact drawing_finish_random _ _ _ rfl h
  | rest tuples => exact drawing_finish_rest _ _ _ _ rfl h

/-- C56, the decision: `_has_dimension` compares the average volume over different tuples of neighbours with half the value for a ball of radius `feature_size` (`limit`).  Either the tuples are
all combinations, or they are at least `min_neighbour_evaluations` (and two) many and the average differs from the limit by more than twice its standard error. -/
theorem C56_decision {g : NxGraph (Vec d) ℝ} {cs : CoordSys d} {fs : ℝ} {minNb : Option ℤ} {pos : Vec d} {dim : ℕ} {b : Bool}
    (h : HasDimension g cs fs minNb pos dim (.ok b)) (hd : dim ≤ d) :
    ∃ v, exactValue dim = some v ∧ ∃ ts : List (Finset (Vec d)), ts.Nodup ∧ (∀ t ∈ ts, (∀ n ∈ t, g.hasEdge pos n) ∧ t.card = dim) ∧
      (b = true ↔ ts ≠ [] ∧ fs ^ dim * v / 2 < average (ts.map (getVolume cs pos))) ∧
      ((∀ t : Finset (Vec d), (∀ n ∈ t, g.hasEdge pos n) → t.card = dim → t ∈ ts) ∨
        (minNb.getD (g.neighbors pos).length ≤ ts.length ∧ 1 < ts.length ∧
          2 * Real.sqrt (variance (ts.map (getVolume cs pos)) / (ts.length - 1)) < |fs ^ dim * v / 2 - average (ts.map (getVolume cs pos))|)) := by
  have hmem : ∀ t : Finset (Vec d), t ∈ (g.neighbors pos).toFinset.powersetCard dim ↔ (∀ n ∈ t, g.hasEdge pos n) ∧ t.card = dim := fun t => by
    rw [Finset.mem_powersetCard]
    constructor
    · exact fun h => ⟨fun n hn => mem_neighbors.1 (List.mem_toFinset.1 (h.1 hn)), h.2⟩
    · exact fun h => ⟨fun n hn => List.mem_toFinset.2 (mem_neighbors.2 (h.1 n hn)), h.2⟩
  obtain ⟨v, hv, ts, h1, h2, h3, h4⟩ := hasDimension_ok h hd
  refine ⟨v, hv, ts, h1, fun t ht => (hmem t).1 (h2 t ht), ?_, ?_⟩
  · rw [h3, decide_eq_true_eq]
  · rcases h4 with h4 | ⟨h4, h5, h6⟩
    · exact .inl fun t ht hc => h4 t ((hmem t).2 ⟨ht, hc⟩)
    · exact .inr ⟨h4, h5, by linarith⟩

/-! ## C57 -/

theorem getDimension_isolated {g : NxGraph (Vec d) ℝ} {cs : CoordSys d} {fs : ℝ} {maxDim : ℤ} (hm : 1 ≤ maxDim) {minNb : Option ℤ} {pos : Vec d} (hn : g.neighbors pos = [])
    {r : Except Err ℤ} (h : GetDimension g cs fs maxDim minNb pos r) : r = .ok 0 := by
  have key : ∀ b, HasDimension g cs fs minNb pos 1 b → b = .ok false := by
    intro b hb
    by_cases hd : d < 1
    · exact hasDimension_large hb hd
    · cases b with
      | error e =>
        obtain ⟨-, h4, -⟩ := hasDimension_error hb le_rfl
        omega
      | ok b =>
        obtain ⟨v, -, ts, -, hts, hb', -⟩ := C56_decision hb (by omega)
        have : ts = [] := by
          cases ts with
          | nil => rfl
          | cons t ts =>
            obtain ⟨ht, hc⟩ := hts t List.mem_cons_self
            obtain ⟨n, hn'⟩ := Finset.card_pos.1 (by omega : 0 < t.card)
            have := mem_neighbors.2 (ht n hn')
            rw [hn] at this
            simp at this
        cases b with
        | false => rfl
        | true => exact absurd this (hb'.1 rfl).1
  obtain ⟨has, hh, rfl⟩ := h
  have h1 := key _ (hh 1)
  obtain ⟨n, hn⟩ : ∃ n, maxDim.toNat = n + 1 := ⟨maxDim.toNat - 1, by omega⟩
  rw [hn, List.range'_succ, getDimensionLoop, h1]
  rfl

/-- C57.  A cluster which consists of a single position has dimension 0. -/
theorem C57_isolated_dimension {g : NxGraph (Vec d) ℝ} (hg : GoodGraph g) {pos : Vec d} (hnodes : g.nodes = [pos]) {cs : CoordSys d} {fs : ℝ} {maxDim m : ℤ} (hmd : 1 ≤ maxDim) (hm : 1 ≤ m)
    {minNb : Option ℤ} {r : Except Err (Option ℤ)} (h : CalculateDimension g cs fs maxDim (some m) minNb r) : r = .ok (some 0) := by
  have hn : g.neighbors pos = [] := by
    by_contra hne
    obtain ⟨n, hn⟩ := List.exists_mem_of_ne_nil _ hne
    obtain ⟨-, h2, h3⟩ := goodGraph_edge hg (mem_neighbors.1 hn)
    rw [hnodes] at h2
    exact h3 (List.mem_singleton.1 h2).symm
  obtain ⟨order, outcomes, hperm, hall, rfl⟩ := h
  rw [hnodes, List.perm_singleton] at hperm
  subst hperm
  cases hall with
  | cons h0 hrest =>
    cases hrest
    rw [getDimension_isolated hmd hn h0]
    simp only [calcLoop]
    rw [if_neg (by simp; omega)]
    simp [checkCount, Counter.add, Counter.mostCommon, Counter.total]
    norm_num

/-! ## C68, C69 -/

/-- C68.  If the neighbours of a position all lie (seen from the position) in a linear space of dimension less than `k`, the dimension found there is less than `k`: a position whose neighbours are on a
straight line through it is never taken for part of a surface, one whose neighbours are in a plane through it never for part of a volume. -/
theorem C68_flat {g : NxGraph (Vec d) ℝ} {cs : CoordSys d} {fs : ℝ} (hfs : 0 < fs) {maxDim : ℤ} (hmd : 0 ≤ maxDim) {minNb : Option ℤ} {pos : Vec d} {W : Submodule ℝ (Vec d)} {k : ℕ}
    (hk : Module.finrank ℝ W < k) (hW : ∀ n, g.hasEdge pos n → cs.connectingVector n pos ∈ W) {x : ℤ} (h : GetDimension g cs fs maxDim minNb pos (.ok x)) : x < k := by
  by_contra hle
  push Not at hle
  obtain ⟨h0, h1, h2, h3, -⟩ := (getDimension_spec h hmd).2 x rfl
  obtain ⟨v, hv, ts, -, hts, hb, -⟩ := C56_decision (h3 k (by omega) hle) (by omega)
  obtain ⟨hne, hlt⟩ := hb.1 rfl
  have hzero : ∀ y ∈ ts.map (getVolume cs pos), y ≤ 0 := by
    intro y hy
    obtain ⟨t, ht, rfl⟩ := List.mem_map.1 hy
    obtain ⟨ht1, ht2⟩ := hts t ht
    exact (getVolume_flat (by rw [ht2]; exact hk) fun n hn => hW n (ht1 n hn)).le
  have := average_le (by simpa using hne) hzero
  have hvp := exactValue_pos hv
  have : 0 < fs ^ k * v / 2 := by positivity
  linarith

/-- C68, whole clusters: if this holds at every position of a cluster, the dimension of the cluster is less than `k` (or undetermined). -/
theorem C68_flat_cluster {g : NxGraph (Vec d) ℝ} (hg : GoodGraph g) (hne : g.nodes ≠ []) {cs : CoordSys d} {fs : ℝ} (hfs : 0 < fs) {maxDim m : ℤ} (hmd : 0 ≤ maxDim) (hm : 1 ≤ m) {minNb : Option ℤ} {k : ℕ}
    (hW : ∀ pos ∈ g.nodes, ∃ W : Submodule ℝ (Vec d), Module.finrank ℝ W < k ∧ ∀ n, g.hasEdge pos n → cs.connectingVector n pos ∈ W)
    {x : ℤ} (h : CalculateDimension g cs fs maxDim (some m) minNb (.ok (some x))) : x < k := by
  obtain ⟨ev, dims, -, hev, hF, -, -, -, hx, -⟩ := (C55_majority hg hne hmd hm h).1 x rfl
  obtain ⟨i, hi, rfl⟩ := List.getElem_of_mem hx
  have hi' : i < ev.length := by rw [hF.length_eq]; exact hi
  have hgd := (List.forall₂_iff_get.1 hF).2 i hi' hi
  obtain ⟨W, h1, h2⟩ := hW (ev.get ⟨i, hi'⟩) (hev _ (List.get_mem _ _))
  exact C68_flat hfs hmd h1 h2 hgd

/-- C69.  A position has dimension 0 if all its neighbours are within a quarter of `feature_size`, and at least 1 if it has neighbours and all are farther away than that. -/
theorem C69_point_or_more {g : NxGraph (Vec d) ℝ} {cs : CoordSys d} (hb : ProperBox cs) {fs : ℝ} {maxDim : ℤ} (hmd : 1 ≤ maxDim) {minNb : Option ℤ} {pos : Vec d} (hd : 1 ≤ d)
    {x : ℤ} (h : GetDimension g cs fs maxDim minNb pos (.ok x)) :
    ((∀ n, g.hasEdge pos n → cs.distance n pos ≤ fs / 4) → x = 0) ∧
    ((∃ n, g.hasEdge pos n) → (∀ n, g.hasEdge pos n → fs / 4 < cs.distance n pos) → 1 ≤ x) := by
  obtain ⟨h0, h1, -, h3, h4⟩ := (getDimension_spec h (by omega)).2 x rfl
  have hvol : ∀ ts : List (Finset (Vec d)), (∀ t ∈ ts, (∀ n ∈ t, g.hasEdge pos n) ∧ t.card = 1) → ∀ y ∈ ts.map (getVolume cs pos), ∃ n, g.hasEdge pos n ∧ y = cs.distance n pos := by
    intro ts hts y hy
    obtain ⟨t, ht, rfl⟩ := List.mem_map.1 hy
    obtain ⟨ht1, ht2⟩ := hts t ht
    obtain ⟨n, rfl⟩ := Finset.card_eq_one.1 ht2
    exact ⟨n, ht1 n (by simp), getVolume_singleton hb pos n⟩
  have hlim : fs ^ 1 * 0.5 / 2 = fs / 4 := by ring
  constructor
  · intro hn
    by_contra hx
    have h5 := h3 1 le_rfl (by omega)
    obtain ⟨v, hv, ts, -, hts, hb', -⟩ := C56_decision h5 hd
    simp only [exactValue, Option.some.injEq] at hv
    subst hv
    obtain ⟨hne, hlt⟩ := hb'.1 rfl
    rw [hlim] at hlt
    have := average_le (l := ts.map (getVolume cs pos)) (by simpa using hne) (c := fs / 4) fun y hy => by
      obtain ⟨n, hn1, rfl⟩ := hvol ts hts y hy
      exact hn n hn1
    linarith
  · rintro ⟨n, hn⟩ hfar
    by_contra hx
    have hx0 : x = 0 := by omega
    subst hx0
    have h5 := h4 (by omega)
    obtain ⟨v, hv, ts, -, hts, hb', hall⟩ := C56_decision (dim := 1) h5 hd
    simp only [exactValue, Option.some.injEq] at hv
    subst hv
    have hne : ts ≠ [] := by
      rcases hall with hall | hall
      · exact List.ne_nil_of_mem (hall {n} (by simpa using hn) (by simp))
      · rintro rfl; simp at hall
    have : fs / 4 < average (ts.map (getVolume cs pos)) := average_lt (by simpa using hne) fun y hy => by
      obtain ⟨n, hn1, rfl⟩ := hvol ts hts y hy
      exact hfar n hn1
    have := hb'.2 ⟨hne, by rw [hlim]; exact this⟩
    cases this

/-! ## Examples -/

/-- Two positions half a feature size apart, in the open interval `[0, 10]`: the hypotheses of C55 and C69 are met, and the dimension is 1. -/
example : CalculateDimension (createGraph (⟨fun _ => 0, fun _ => 10, false⟩ : CoordSys 1) 1 [![1], ![1.5]]) ⟨fun _ => 0, fun _ => 10, false⟩ 1 3 (some 5) (some 10) (.ok (some 1)) := by
  have hb : ProperBox (⟨fun _ => 0, fun _ => 10, false⟩ : CoordSys 1) := fun _ => by norm_num
  have hne : (![1] : Vec 1) ≠ ![1.5] := fun h => by have := congrFun h 0; norm_num at this
  have hnd : [![1], (![1.5] : Vec 1)].Nodup := by simp [hne]
  have hg := goodGraph_createGraph (cs := (⟨fun _ => 0, fun _ => 10, false⟩ : CoordSys 1)) (fs := 1) hnd
  have hdist : (⟨fun _ => 0, fun _ => 10, false⟩ : CoordSys 1).distance ![1] ![1.5] = 0.5 := by
    rw [C03_distance_nonperiodic _ rfl]
    simp only [eucl, Finset.univ_unique, Fin.default_eq_zero, Finset.sum_singleton, Matrix.cons_val_fin_one]
    rw [show ((1 : ℝ) - 1.5) ^ 2 = 0.5 ^ 2 by norm_num]
    exact Real.sqrt_sq (by norm_num)
  obtain ⟨r, hr⟩ := C55_total (createGraph (⟨fun _ => 0, fun _ => 10, false⟩ : CoordSys 1) 1 [![1], ![1.5]]) ⟨fun _ => 0, fun _ => 10, false⟩ 1 3 (some 5) (some 10)
  have h := C55_majority hg (by simp [createGraph]) (by norm_num) (by norm_num) hr
  -- at both positions the dimension is 1
  have hone : ∀ p ∈ [![1], (![1.5] : Vec 1)], ∀ x, GetDimension (createGraph (⟨fun _ => 0, fun _ => 10, false⟩ : CoordSys 1) 1 [![1], ![1.5]]) ⟨fun _ => 0, fun _ => 10, false⟩ 1 3 (some 10) p (.ok x) → x = 1 := by
    intro p hp x hx
    have hle := ((getDimension_spec hx (by norm_num)).2 x rfl).2.2.1
    have hge := (C69_point_or_more hb (by norm_num) le_rfl hx).2
    have : 1 ≤ x := by
      have hp' : p = ![1] ∨ p = ![1.5] := by simpa using hp
      rcases hp' with rfl | rfl
      · refine hge ⟨![1.5], (hasEdge_createGraph hb hnd).2 ⟨by simp, by simp, hne, by rw [hdist]; norm_num⟩⟩ fun n hn => ?_
        obtain ⟨-, hn2, hn3, -⟩ := (hasEdge_createGraph hb hnd).1 hn
        have : n = ![1.5] := by
          rcases (by simpa using hn2 : n = ![1] ∨ n = ![1.5]) with rfl | rfl
          · exact absurd rfl hn3
          · rfl
        rw [this, dist_comm' hb, hdist]; norm_num
      · refine hge ⟨![1], (hasEdge_createGraph hb hnd).2 ⟨by simp, by simp, hne.symm, by rw [dist_comm' hb, hdist]; norm_num⟩⟩ fun n hn => ?_
        obtain ⟨-, hn2, hn3, -⟩ := (hasEdge_createGraph hb hnd).1 hn
        have : n = ![1] := by
          rcases (by simpa using hn2 : n = ![1] ∨ n = ![1.5]) with rfl | rfl
          · rfl
          · exact absurd rfl hn3
        rw [this, hdist]; norm_num
    push_cast at hle
    omega
  have hdims : ∀ (ev : List (Vec 1)) (dims : List ℤ), (∀ p ∈ ev, p ∈ [![1], (![1.5] : Vec 1)]) →
      List.Forall₂ (fun p dim => GetDimension (createGraph (⟨fun _ => 0, fun _ => 10, false⟩ : CoordSys 1) 1 [![1], ![1.5]]) ⟨fun _ => 0, fun _ => 10, false⟩ 1 3 (some 10) p (.ok dim)) ev dims →
      ∀ x ∈ dims, x = 1 := by
    intro ev dims hev hF x hx
    obtain ⟨i, hi, rfl⟩ := List.getElem_of_mem hx
    have hi' : i < ev.length := by rw [hF.length_eq]; exact hi
    exact hone _ (hev _ (List.get_mem _ ⟨i, hi'⟩)) _ ((List.forall₂_iff_get.1 hF).2 i hi' hi)
  cases r with
  | error e => obtain ⟨-, h4, -⟩ := h.2.2 e rfl; omega
  | ok o =>
    cases o with
    | some x =>
      obtain ⟨ev, dims, -, hev, hF, -, -, -, hx, -⟩ := h.1 x rfl
      rw [← hdims ev dims hev hF x hx]
      exact hr
    | none =>
      exfalso
      obtain ⟨ev, dims, hev, hF, hmaj⟩ := h.2.1 rfl
      have h1 := hdims ev dims (fun p hp => hev.mem_iff.1 hp) hF
      have h2 := hmaj 1
      have h3 : dims.count 1 = dims.length := List.count_eq_length.2 fun b hb => (h1 b hb).symm
      rw [h3] at h2
      omega

end NF
