import Verif.Props.Dimension

/-! # Lemmas: the random choices of `_dimension.py` -/

noncomputable section
open Classical
namespace NF
open Spec
variable {d : ℕ}

/-! ## Drawing in any order -/

theorem drawing_batches {V : Type} {nbrs : Finset V} {dim : ℕ} {minNb : ℤ} (n : ℕ) : ∀ (tuples used : Finset (Finset V)) (out l : List (Finset V)), l.length = n → l.Nodup → l.toFinset = tuples →
    Drawing nbrs dim minNb (.rest tuples) used out → ∃ used', Drawing nbrs dim minNb (.rest ∅) used' (out ++ l) := by
  induction n using Nat.strong_induction_on with
  | _ n ih =>
    intro tuples used out l hn hnd hl h
    subst hl
    rcases l with _ | ⟨x, l⟩
    · exact ⟨used, by simpa using h⟩
    · set L := x :: l with hL
      have hcard : L.toFinset.card = L.length := List.toFinset_card_of_nodup hnd
      have hne : L.toFinset ≠ ∅ := by
        intro e
        rw [e] at hcard
        simp [hL] at hcard
      have hb := Drawing.batch (vals := L.take 10) h hne (hnd.sublist (List.take_sublist _ _)) (fun t ht => List.mem_toFinset.2 (List.mem_of_mem_take ht))
        (by rw [hcard, List.length_take])
      have hset : (L.drop 10).toFinset = L.toFinset \ (L.take 10).toFinset := by
        have hd := hnd
        rw [← List.take_append_drop 10 L, List.nodup_append] at hd
        ext t
        rw [Finset.mem_sdiff, List.mem_toFinset, List.mem_toFinset, List.mem_toFinset]
        constructor
        · exact fun ht => ⟨List.mem_of_mem_drop ht, fun ht' => hd.2.2 t ht' t ht rfl⟩
        · rintro ⟨h1, h2⟩
          rw [← List.take_append_drop 10 L, List.mem_append] at h1
          exact h1.resolve_left h2
      obtain ⟨u, hu⟩ := ih (L.drop 10).length (by rw [List.length_drop, ← hn]; simp [hL]) _ used _ (L.drop 10) rfl (hnd.sublist (List.drop_sublist _ _)) hset hb
      refine ⟨u, ?_⟩
      rwa [List.append_assoc, List.take_append_drop] at hu

theorem drawing_samples {V : Type} {nbrs : Finset V} {dim : ℕ} {minNb : ℤ} : ∀ (l out : List (Finset V)), (out ++ l).Nodup → (out ++ l).toFinset = nbrs.powersetCard dim →
    Drawing nbrs dim minNb .random out.toFinset out → ∃ used', Drawing nbrs dim minNb (.rest ∅) used' (out ++ l) := by
  intro l
  induction l with
  | nil =>
    intro out hnd hl h
    rw [List.append_nil] at hnd hl ⊢
    have hnot : ¬ (out.toFinset.card : ℝ) < (nbrs.card.choose dim : ℝ) / 2 := by
      rw [hl, Finset.card_powersetCard]
      have : (0 : ℝ) ≤ (nbrs.card.choose dim : ℝ) := by positivity
      linarith
    have hs := Drawing.switch h hnot
    rw [hl, Finset.sdiff_self] at hs
    exact ⟨_, hs⟩
  | cons t l ih =>
    intro out hnd hl h
    have hd := List.nodup_append.1 hnd
    by_cases hlt : (out.toFinset.card : ℝ) < (nbrs.card.choose dim : ℝ) / 2
    · have ht : t ∈ nbrs.powersetCard dim := by rw [← hl]; simp
      have htu : t ∉ out.toFinset := fun h' => hd.2.2 t (List.mem_toFinset.1 h') t (by simp) rfl
      have hs := Drawing.sample h hlt ht htu
      have e : insert t out.toFinset = (out ++ [t]).toFinset := by ext; simp
      rw [e] at hs
      have := ih (out ++ [t]) (by simpa using hnd) (by simpa using hl) hs
      simpa using this
    · refine drawing_batches _ _ _ _ (t :: l) rfl hd.2.1 ?_ (Drawing.switch h hlt)
      rw [← hl]
      ext s
      simp only [Finset.mem_sdiff, List.mem_toFinset, List.mem_append]
      constructor
      · exact fun hs => ⟨.inr hs, fun hs' => hd.2.2 s hs' s hs rfl⟩
      · exact fun hs => hs.1.resolve_left hs.2

/-- The tuples can be drawn in every order. -/
theorem drawing_any_order {V : Type} {nbrs : Finset V} {dim : ℕ} (minNb : ℤ) {l : List (Finset V)} (hnd : l.Nodup) (hl' : ∀ t, t ∈ l ↔ t ∈ nbrs.powersetCard dim) :
    ∃ used, Drawing nbrs dim minNb (.rest ∅) used l := by
  have hl : l.toFinset = nbrs.powersetCard dim := by ext t; rw [List.mem_toFinset, hl']
  by_cases h : 10 * minNb < (nbrs.card.choose dim : ℤ)
  · simpa using drawing_samples l [] (by simpa using hnd) (by simpa using hl) (by simpa using Drawing.startRandom h)
  · simpa using drawing_batches _ _ _ [] l rfl hnd hl (Drawing.startRest h)

/-! ## The loop over the tuples -/

theorem decideLoop_none {limit : ℝ} {minNb : ℤ} : ∀ (rest results : List ℝ), ((results.length + rest.length : ℕ) : ℤ) ≤ minNb → decideLoop limit minNb results rest = none := by
  intro rest
  induction rest with
  | nil => intro results _; rfl
  | cons v rest ih =>
    intro results h
    rw [decideLoop, if_neg]
    · refine ih _ ?_
      rw [List.length_append, List.length_singleton]
      rw [List.length_cons] at h
      omega
    · rw [List.length_cons] at h
      exact fun h' => by have := h'.1; push_cast at h; omega

theorem drawing_length {V : Type} {nbrs : Finset V} {dim : ℕ} {minNb : ℤ} {ph : DrawPhase V} {used : Finset (Finset V)} {out : List (Finset V)}
    (h : Drawing nbrs dim minNb ph used out) : out.length ≤ nbrs.card.choose dim := by
  obtain ⟨h1, h2, -⟩ := drawing_spec h
  rw [← List.toFinset_card_of_nodup h1, ← Finset.card_powersetCard]
  exact Finset.card_le_card fun t ht => h2 t (List.mem_toFinset.1 ht)

theorem average_perm {l l' : List ℝ} (h : l.Perm l') : average l = average l' := by
  unfold average
  rw [h.sum_eq, h.length_eq]

/-- With few tuples `_has_dimension` evaluates all of them, and the result does not depend on their order. -/
theorem hasDimension_unique {g g' : NxGraph (Vec d) ℝ} {cs : CoordSys d} {fs : ℝ} {m : ℤ} {pos : Vec d} {dim : ℕ} (hgg : ∀ n, g.hasEdge pos n ↔ g'.hasEdge pos n)
    (hn : ((g.neighbors pos).toFinset.card.choose dim : ℤ) ≤ m ∨ d < dim ∨ exactValue dim = none)
    {r r' : Except Err Bool} (h : HasDimension g cs fs (some m) pos dim r) (h' : HasDimension g' cs fs (some m) pos dim r') : r = r' := by
  have hsame : (g'.neighbors pos).toFinset = (g.neighbors pos).toFinset := by
    ext n
    rw [List.mem_toFinset, List.mem_toFinset, mem_neighbors, mem_neighbors, hgg]
  by_cases hd : d < dim
  · rw [hasDimension_large h hd, hasDimension_large h' hd]
  · cases hv : exactValue dim with
    | none =>
      cases h with
      | tooLarge h => exact absurd h hd
      | early _ hv' => rw [hv] at hv'; cases hv'
      | all _ hv' => rw [hv] at hv'; cases hv'
      | unknown _ _ =>
        cases h' with
        | tooLarge h => exact absurd h hd
        | early _ hv' => rw [hv] at hv'; cases hv'
        | all _ hv' => rw [hv] at hv'; cases hv'
        | unknown _ _ => rfl
    | some v =>
      have hn' := hn.resolve_right fun h => h.elim hd fun e => by rw [hv] at e; cases e
      have key : ∀ {g : NxGraph (Vec d) ℝ} {r}, ((g.neighbors pos).toFinset.card.choose dim : ℤ) ≤ m → HasDimension g cs fs (some m) pos dim r → ∃ out : List (Finset (Vec d)), out.Nodup ∧ (∀ t, t ∈ out ↔ t ∈ (g.neighbors pos).toFinset.powersetCard dim) ∧
          r = .ok (decide (out ≠ [] ∧ average (out.map (getVolume cs pos)) > fs ^ dim * v / 2)) := by
        intro g r hn' h
        cases h with
        | tooLarge h => exact absurd h hd
        | unknown _ hv' => rw [hv] at hv'; cases hv'
        | early _ _ hdr hl =>
          exfalso
          rw [decideLoop_none] at hl
          · cases hl
          · have := drawing_length hdr
            simp only [List.length_nil, zero_add, List.length_map, Option.getD_some]
            omega
        | all _ hv' hdr _ =>
          rw [hv] at hv'
          cases hv'
          exact ⟨_, (drawing_spec hdr).1, fun t => ⟨(drawing_spec hdr).2.1 t, drawing_mem hdr t⟩, rfl⟩
      obtain ⟨o, n1, s1, rfl⟩ := key hn' h
      obtain ⟨o', n2, s2, rfl⟩ := key (by rw [hsame]; exact hn') h'
      have hp : o.Perm o' := (List.perm_ext_iff_of_nodup n1 n2).2 fun t => by
        rw [s1, s2, hsame]
      rw [average_perm (hp.map _)]
      have : o ≠ [] ↔ o' ≠ [] := not_congr ⟨fun e => by rw [e] at hp; exact hp.nil_eq.symm, fun e => by rw [e] at hp; exact hp.eq_nil⟩
      simp only [this]

/-! ## Sorted lists -/

/-- In a descending list, the average of the first entries is not below that of all. -/
theorem average_prefix {l l' : List ℝ} (h : (l ++ l').Pairwise (· ≥ ·)) (hl : l ≠ []) : average (l ++ l') ≤ average l := by
  have hlp : (0 : ℝ) < l.length := by exact_mod_cast List.length_pos_iff.2 hl
  -- the rest is below the minimum of the first part
  obtain ⟨-, -, hle⟩ := List.pairwise_append.1 h
  have hrest : l'.sum * l.length ≤ l.sum * l'.length := by
    clear h hl hlp
    induction l' with
    | nil => simp
    | cons y l' ih =>
      have ih := ih fun a ha b hb => hle a ha b (List.mem_cons_of_mem _ hb)
      have hy : y * l.length ≤ l.sum := by
        have := List.card_nsmul_le_sum l y fun a ha => hle a ha y List.mem_cons_self
        rw [nsmul_eq_mul] at this
        linarith
      rw [List.sum_cons, List.length_cons]
      push_cast
      nlinarith
  unfold average
  rw [div_le_div_iff₀ (by rw [List.length_append]; push_cast; positivity) hlp, List.sum_append, List.length_append]
  push_cast
  nlinarith

theorem average_neg (l : List ℝ) : average (l.map fun x => -x) = -average l := by
  unfold average
  have : (l.map fun x => -x).sum = -l.sum := by
    induction l with
    | nil => simp
    | cons a l ih => rw [List.map_cons, List.sum_cons, ih, List.sum_cons]; ring
  rw [this, List.length_map, neg_div]

theorem average_prefix' {l l' : List ℝ} (h : (l ++ l').Pairwise (· ≤ ·)) (hl : l ≠ []) : average l ≤ average (l ++ l') := by
  have := average_prefix (l := l.map fun x => -x) (l' := l'.map fun x => -x) (by
    rw [← List.map_append, List.pairwise_map]
    exact h.imp fun h => neg_le_neg h) (by simpa using hl)
  rw [← List.map_append, average_neg, average_neg] at this
  linarith

/-- The result of evaluating all tuples is always possible. -/
theorem hasDimension_exhaustive {g : NxGraph (Vec d) ℝ} {cs : CoordSys d} {fs : ℝ} {minNb : Option ℤ} {pos : Vec d} {dim : ℕ} (hd : dim ≤ d) {v : ℝ} (hv : exactValue dim = some v)
    {ts : List (Finset (Vec d))} (hnd : ts.Nodup) (hts : ∀ t, t ∈ ts ↔ t ∈ (g.neighbors pos).toFinset.powersetCard dim) :
    HasDimension g cs fs minNb pos dim (.ok (decide (ts ≠ [] ∧ average (ts.map (getVolume cs pos)) > fs ^ dim * v / 2))) := by
  -- sort by volume
  by_cases hb : average (ts.map (getVolume cs pos)) > fs ^ dim * v / 2
  · set l := ts.mergeSort fun a b => decide (getVolume cs pos b ≤ getVolume cs pos a) with hl
    have hp : l.Perm ts := List.mergeSort_perm _ _
    have hs : (l.map (getVolume cs pos)).Pairwise (· ≥ ·) := by
      rw [List.pairwise_map]
      have := List.pairwise_mergeSort (le := fun a b => decide (getVolume cs pos b ≤ getVolume cs pos a)) (fun a b c h1 h2 => by simp at h1 h2 ⊢; linarith)
        (fun a b => by simp; exact le_total _ _) ts
      exact this.imp fun h => by simpa using h
    have hset : ∀ t, t ∈ l ↔ t ∈ (g.neighbors pos).toFinset.powersetCard dim := fun t => by rw [hp.mem_iff, hts]
    obtain ⟨used, hdr⟩ := drawing_any_order (minNb.getD (g.neighbors pos).length) (hp.nodup_iff.2 hnd) hset
    have eb : (decide (ts ≠ [] ∧ average (ts.map (getVolume cs pos)) > fs ^ dim * v / 2)) = decide (l ≠ [] ∧ average (l.map (getVolume cs pos)) > fs ^ dim * v / 2) := by
      rw [average_perm (hp.map _)]
      have : ts ≠ [] ↔ l ≠ [] := not_congr ⟨fun e => by rw [e] at hp; exact hp.eq_nil, fun e => by rw [e] at hp; exact hp.nil_eq.symm⟩
      simp only [this]
    cases hl' : decideLoop (fs ^ dim * v / 2) (minNb.getD (g.neighbors pos).length) [] (l.map (getVolume cs pos)) with
    | none => rw [eb]; exact .all (by omega) hv hdr hl'
    | some b =>
      obtain ⟨more, hm, -, h1, -, rfl⟩ := decideLoop_spec _ _ hl'
      simp only [List.nil_append] at h1
      obtain ⟨rest, hrest⟩ := hm
      have hne : more ≠ [] := by rintro rfl; simp at h1
      have hav : fs ^ dim * v / 2 < average more := by
        refine lt_of_lt_of_le ?_ (average_prefix (l' := rest) (by rw [hrest]; exact hs) hne)
        rw [hrest, average_perm (hp.map _)]
        exact hb
      have : decide (ts ≠ [] ∧ average (ts.map (getVolume cs pos)) > fs ^ dim * v / 2) = decide (average ([] ++ more) > fs ^ dim * v / 2) := by
        rw [decide_eq_decide, List.nil_append]
        refine iff_of_true ⟨?_, hb⟩ hav
        rintro rfl
        have : l = [] := hp.eq_nil
        rw [this] at hrest
        simp at hrest
        exact hne hrest.1
      rw [this]
      exact .early (by omega) hv hdr hl'
  · set l := ts.mergeSort fun a b => decide (getVolume cs pos a ≤ getVolume cs pos b) with hl
    have hp : l.Perm ts := List.mergeSort_perm _ _
    have hs : (l.map (getVolume cs pos)).Pairwise (· ≤ ·) := by
      rw [List.pairwise_map]
      have := List.pairwise_mergeSort (le := fun a b => decide (getVolume cs pos a ≤ getVolume cs pos b)) (fun a b c h1 h2 => by simp at h1 h2 ⊢; linarith)
        (fun a b => by simp; exact le_total _ _) ts
      exact this.imp fun h => by simpa using h
    have hset : ∀ t, t ∈ l ↔ t ∈ (g.neighbors pos).toFinset.powersetCard dim := fun t => by rw [hp.mem_iff, hts]
    obtain ⟨used, hdr⟩ := drawing_any_order (minNb.getD (g.neighbors pos).length) (hp.nodup_iff.2 hnd) hset
    have eb : (decide (ts ≠ [] ∧ average (ts.map (getVolume cs pos)) > fs ^ dim * v / 2)) = decide (l ≠ [] ∧ average (l.map (getVolume cs pos)) > fs ^ dim * v / 2) := by
      rw [average_perm (hp.map _)]
      have : ts ≠ [] ↔ l ≠ [] := not_congr ⟨fun e => by rw [e] at hp; exact hp.eq_nil, fun e => by rw [e] at hp; exact hp.nil_eq.symm⟩
      simp only [this]
    cases hl' : decideLoop (fs ^ dim * v / 2) (minNb.getD (g.neighbors pos).length) [] (l.map (getVolume cs pos)) with
    | none => rw [eb]; exact .all (by omega) hv hdr hl'
    | some b =>
      obtain ⟨more, hm, -, h1, -, rfl⟩ := decideLoop_spec _ _ hl'
      simp only [List.nil_append] at h1
      obtain ⟨rest, hrest⟩ := hm
      have hne : more ≠ [] := by rintro rfl; simp at h1
      have hav : ¬ fs ^ dim * v / 2 < average more := by
        refine not_lt.2 (le_trans (average_prefix' (l' := rest) (by rw [hrest]; exact hs) hne) ?_)
        rw [hrest, average_perm (hp.map _)]
        exact not_lt.1 hb
      have : decide (ts ≠ [] ∧ average (ts.map (getVolume cs pos)) > fs ^ dim * v / 2) = decide (average ([] ++ more) > fs ^ dim * v / 2) := by
        rw [decide_eq_decide, List.nil_append]
        exact iff_of_false (fun h => hb h.2) hav
      rw [this]
      exact .early (by omega) hv hdr hl'

/-! ## Draws with equal volumes -/

theorem average_const {l : List ℝ} (hne : l ≠ []) {c : ℝ} (h : ∀ x ∈ l, x = c) : average l = c := by
  have : l = List.replicate l.length c := List.eq_replicate_of_mem h
  unfold average
  have hl : (l.length : ℝ) ≠ 0 := by exact_mod_cast (List.length_pos_iff.2 hne).ne'
  rw [this, List.sum_replicate, List.length_replicate, nsmul_eq_mul, mul_div_cancel_left₀ _ hl]

theorem variance_const {l : List ℝ} {c : ℝ} (h : ∀ x ∈ l, x = c) : variance l = 0 := by
  rcases eq_or_ne l [] with rfl | hne
  · simp [variance, average]
  · unfold variance
    rw [average_const hne h]
    refine average_const (by simpa using hne) fun x hx => ?_
    obtain ⟨y, hy, rfl⟩ := List.mem_map.1 hx
    rw [h y hy]
    ring

theorem decideLoop_const {limit c : ℝ} (hc : c ≠ limit) {minNb : ℤ} : ∀ (l results rest : List ℝ), rest ≠ [] → (∀ x ∈ results ++ l, x = c) → 2 ≤ (results ++ l).length → ((results ++ l).length : ℤ) = max minNb 2 →
    decideLoop limit minNb results (l ++ rest) = some (decide (c > limit)) := by
  intro l
  induction l with
  | nil =>
    intro results rest hr hall h2 hlen
    rw [List.append_nil] at hall h2 hlen
    obtain ⟨v, rest, rfl⟩ := List.exists_cons_of_ne_nil hr
    have hne : results ≠ [] := by rintro rfl; simp at h2
    rw [List.nil_append, decideLoop, if_pos, average_const hne hall]
    refine ⟨by rw [hlen]; exact le_max_left _ _, by omega, ?_⟩
    rw [average_const hne hall, variance_const hall, zero_div, Real.sqrt_zero]
    have : 0 < |limit - c| := abs_pos.2 (sub_ne_zero.2 hc.symm)
    linarith
  | cons x l ih =>
    intro results rest hr hall h2 hlen
    rw [List.cons_append, decideLoop, if_neg]
    · refine ih (results ++ [x]) rest hr (by simpa using hall) (by simpa using h2) (by simpa using hlen)
    · rintro ⟨h3, h4, -⟩
      rw [List.length_append, List.length_cons] at hlen
      push_cast at hlen
      rcases max_choice minNb 2 with h | h <;> rw [h] at hlen <;> omega

/-- If the first draws all have the same volume, they decide. -/
theorem hasDimension_const {g : NxGraph (Vec d) ℝ} {cs : CoordSys d} {fs : ℝ} {minNb : ℤ} {pos : Vec d} {dim : ℕ} (hd : dim ≤ d) {v : ℝ} (hv : exactValue dim = some v) {c : ℝ}
    (hc : c ≠ fs ^ dim * v / 2) {l : List (Finset (Vec d))} (hnd : l.Nodup) (hl : ∀ t ∈ l, t.card = dim ∧ ∀ n ∈ t, g.hasEdge pos n) (hlen : (l.length : ℤ) = max minNb 2)
    (hvol : ∀ t ∈ l, getVolume cs pos t = c) (hmore : ∃ t : Finset (Vec d), t.card = dim ∧ (∀ n ∈ t, g.hasEdge pos n) ∧ t ∉ l) :
    HasDimension g cs fs (some minNb) pos dim (.ok (decide (c > fs ^ dim * v / 2))) := by
  have hmem : ∀ t : Finset (Vec d), t ∈ (g.neighbors pos).toFinset.powersetCard dim ↔ t.card = dim ∧ ∀ n ∈ t, g.hasEdge pos n := fun t => by
    rw [Finset.mem_powersetCard]
    constructor
    · exact fun h => ⟨h.2, fun n hn => mem_neighbors.1 (List.mem_toFinset.1 (h.1 hn))⟩
    · exact fun h => ⟨fun n hn => List.mem_toFinset.2 (mem_neighbors.2 (h.2 n hn)), h.1⟩
  set rest := ((g.neighbors pos).toFinset.powersetCard dim).toList.filter (fun t => decide (t ∉ l)) with hrest
  have hmr : ∀ t, t ∈ rest ↔ t ∈ (g.neighbors pos).toFinset.powersetCard dim ∧ t ∉ l := fun t => by rw [hrest, List.mem_filter, Finset.mem_toList, decide_eq_true_eq]
  have hnd' : (l ++ rest).Nodup := by
    rw [List.nodup_append]
    refine ⟨hnd, (Finset.nodup_toList _).filter _, fun a ha b hb => ?_⟩
    rintro rfl
    exact ((hmr a).1 hb).2 ha
  have hset : ∀ t, t ∈ l ++ rest ↔ t ∈ (g.neighbors pos).toFinset.powersetCard dim := by
    intro t
    rw [List.mem_append, hmr]
    constructor
    · rintro (h | h)
      · exact (hmem t).2 (hl t h)
      · exact h.1
    · exact fun h => (Classical.em (t ∈ l)).imp id fun h' => ⟨h, h'⟩
  obtain ⟨used, hdr⟩ := drawing_any_order minNb hnd' hset
  refine .early (by omega) hv hdr ?_
  rw [List.map_append]
  refine decideLoop_const hc _ _ _ ?_ ?_ ?_ ?_
  · obtain ⟨t, h1, h2, h3⟩ := hmore
    have : t ∈ rest := (hmr t).2 ⟨(hmem t).2 ⟨h1, h2⟩, h3⟩
    simpa using List.ne_nil_of_mem this
  · intro x hx
    rw [List.nil_append] at hx
    obtain ⟨t, ht, rfl⟩ := List.mem_map.1 hx
    exact hvol t ht
  · rw [List.nil_append, List.length_map]
    have := le_max_right minNb 2
    omega
  · simpa using hlen

/-! ## Small clusters -/

theorem getDimension_unique {g g' : NxGraph (Vec d) ℝ} {cs : CoordSys d} {fs : ℝ} {pos : Vec d} (hgg : ∀ n, g.hasEdge pos n ↔ g'.hasEdge pos n) (hn : (g.neighbors pos).toFinset.card ≤ 5) {r r' : Except Err ℤ}
    (h : GetDimension g cs fs 3 (some 10) pos r) (h' : GetDimension g' cs fs 3 (some 10) pos r') : r = r' := by
  obtain ⟨has, hh, rfl⟩ := h
  obtain ⟨has', hh', rfl⟩ := h'
  have : has = has' := by
    funext dim
    refine hasDimension_unique hgg ?_ (hh dim) (hh' dim)
    by_cases hv : exactValue dim = none
    · exact .inr (.inr hv)
    · left
      have hdim : dim = 1 ∨ dim = 2 ∨ dim = 3 := by
        match dim with
        | 0 => exact absurd rfl hv
        | 1 => simp
        | 2 => simp
        | 3 => simp
        | n + 4 => exact absurd rfl hv
      have key : ∀ n ≤ 5, n.choose dim ≤ 10 := by
        intro n hn
        rcases hdim with rfl | rfl | rfl <;> interval_cases n <;> decide
      have := key _ hn
      show _ ≤ (10 : ℤ)
      exact_mod_cast this
  rw [this]

theorem calcLoop_small {dims : List ℤ} (hne : dims ≠ []) (hlen : dims.length ≤ 6) :
    (∀ e, calcLoop (some 5) 0 (dims.map .ok) [] ≠ .error e) ∧ (∀ x, calcLoop (some 5) 0 (dims.map .ok) [] = .ok (some x) → 2 * dims.length ≤ 3 * dims.count x) ∧
    (calcLoop (some 5) 0 (dims.map .ok) [] = .ok none → ∀ x, 3 * dims.count x < 2 * dims.length) := by
  have hspec := calcLoop_spec (m := 5) (by norm_num) (dims.map .ok) [] (.inr (by simpa using hne)) (by simp)
  simp only [List.length_nil, List.foldl_nil, List.nil_append, zero_add] at hspec
  obtain ⟨h1, h2, h3⟩ := hspec
  refine ⟨fun e he => ?_, fun x hx => ?_, fun h => ?_⟩
  · obtain ⟨y, -, hy⟩ := List.mem_map.1 (h1 e he)
    cases hy
  · obtain ⟨more, hp, -, hmin, hmaj, -⟩ := h2 x hx
    have hp' : more <+: dims := by
      have := List.prefix_iff_eq_take.1 hp
      rw [List.length_map, ← List.map_take] at this
      have hinj : Function.Injective (Except.ok : ℤ → Except Err ℤ) := fun a b h => by cases h; rfl
      rw [List.map_injective_iff.2 hinj this]
      exact List.take_prefix _ _
    rw [List.length_map] at hmin
    have hle := hp'.length_le
    have hcount := hp'.sublist.count_le x
    rcases Nat.lt_or_ge more.length dims.length with hlt | hge
    · have : dims.length = 6 ∧ more.length = 5 := by
        rcases min_choice (5 : ℤ) dims.length with h | h <;> rw [h] at hmin <;> omega
      omega
    · rw [List.IsPrefix.eq_of_length_le hp' hge] at hmaj
      exact hmaj
  · obtain ⟨more, hm, hlt⟩ := h3 h
    have hinj : Function.Injective (Except.ok : ℤ → Except Err ℤ) := fun a b h => by cases h; rfl
    rw [List.map_injective_iff.2 hinj hm]
    exact hlt

end NF
