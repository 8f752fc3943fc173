import Verif.Model.Dimension
import Verif.Props.Cluster
import Mathlib.LinearAlgebra.Matrix.ToLinearEquiv
import Mathlib.LinearAlgebra.Dimension.Finite
import Mathlib.LinearAlgebra.FiniteDimensional.Basic

/-! # Lemmas about the dimension of a cluster -/

noncomputable section
open Classical

namespace NF
open Spec
variable {d : ℕ}

/-! ## Counter -/

theorem count_foldl_mem (dims : List ℤ) : ∀ (c : Counter) (seen : List ℤ),
    ((c.map Prod.fst).Nodup ∧ (∀ x n, (x, n) ∈ c → n = seen.count x) ∧ (∀ x ∈ seen, ∃ n, (x, n) ∈ c) ∧ c.total = seen.length) →
    let c' := dims.foldl Counter.add c
    (c'.map Prod.fst).Nodup ∧ (∀ x n, (x, n) ∈ c' → n = (seen ++ dims).count x) ∧ (∀ x ∈ seen ++ dims, ∃ n, (x, n) ∈ c') ∧
      c'.total = (seen ++ dims).length := by
  have hadd : ∀ (c : Counter) (x : ℤ), (c.map Prod.fst).Nodup →
      (∀ y, y ∈ (c.add x).map Prod.fst ↔ y ∈ c.map Prod.fst ∨ y = x) ∧ ((c.add x).map Prod.fst).Nodup ∧
      (∀ y n, (y, n) ∈ c.add x → (y ≠ x ∧ (y, n) ∈ c) ∨ (y = x ∧ ((n = 1 ∧ x ∉ c.map Prod.fst) ∨ ∃ m, n = m + 1 ∧ (x, m) ∈ c))) ∧
      (c.add x).total = c.total + 1 := by
    intro c x
    induction c with
    | nil => intro _; simp [Counter.add, Counter.total]
    | cons p c ih =>
      obtain ⟨y, n⟩ := p
      intro hn
      rw [List.map_cons, List.nodup_cons] at hn
      obtain ⟨h1, h2, h3, h4⟩ := ih hn.2
      rw [Counter.add]
      split
      · rename_i hyx
        subst hyx
        refine ⟨fun z => by simp; tauto, by simpa using hn, fun z m hz => ?_, by simp [Counter.total]; omega⟩
        rcases List.mem_cons.1 hz with hz' | hz'
        · cases hz'; exact .inr ⟨rfl, .inr ⟨n, rfl, List.mem_cons_self⟩⟩
        · have hne : z ≠ y := by
            rintro rfl
            exact hn.1 (List.mem_map.2 ⟨_, hz', rfl⟩)
          exact .inl ⟨hne, List.mem_cons_of_mem _ hz'⟩
      · rename_i hyx
        refine ⟨fun z => ?_, ?_, fun z m hz => ?_, ?_⟩
        · rw [List.map_cons, List.mem_cons, h1, List.map_cons, List.mem_cons, or_assoc]
        · rw [List.map_cons, List.nodup_cons, h1]
          exact ⟨fun h => h.elim hn.1 hyx, h2⟩
        · rcases List.mem_cons.1 hz with hz | hz
          · cases hz; exact .inl ⟨hyx, List.mem_cons_self⟩
          · rcases h3 z m hz with ⟨hzx, hz'⟩ | ⟨rfl, ⟨rfl, hz'⟩ | ⟨k, hk, hz'⟩⟩
            · exact .inl ⟨hzx, List.mem_cons_of_mem _ hz'⟩
            · refine .inr ⟨rfl, .inl ⟨rfl, ?_⟩⟩
              rw [List.map_cons, List.mem_cons]
              exact fun h => h.elim (fun e => hyx e.symm) hz'
            · exact .inr ⟨rfl, .inr ⟨k, hk, List.mem_cons_of_mem _ hz'⟩⟩
        · simp only [Counter.total, List.map_cons, List.sum_cons] at h4 ⊢
          omega
  induction dims with
  | nil => intro c seen h; simpa using h
  | cons x dims ih =>
    rintro c seen ⟨h1, h2, h3, h4⟩
    obtain ⟨a1, a2, a3, a4⟩ := hadd c x h1
    have := ih (c.add x) (seen ++ [x]) ⟨a2, fun y n hy => ?_, fun y hy => ?_, by rw [a4, h4]; simp⟩
    · simpa using this
    · rcases a3 y n hy with ⟨hyx, hy'⟩ | ⟨rfl, ⟨rfl, hy'⟩ | ⟨m, rfl, hy'⟩⟩
      · rw [List.count_append, List.count_singleton, if_neg (by simpa using fun e => hyx e.symm)]
        rw [h2 y n hy', add_zero]
      · rw [List.count_append, List.count_singleton, if_pos (by simp)]
        have : y ∉ seen := fun hmem => by
          obtain ⟨n, hn⟩ := h3 y hmem
          exact hy' (List.mem_map.2 ⟨_, hn, rfl⟩)
        rw [List.count_eq_zero_of_not_mem this]
      · rw [List.count_append, List.count_singleton, if_pos (by simp), h2 y m hy']
    · have hmem : y ∈ (c.add x).map Prod.fst := by
        rw [a1]
        rcases List.mem_append.1 hy with hy | hy
        · obtain ⟨n, hn⟩ := h3 y hy
          exact .inl (List.mem_map.2 ⟨_, hn, rfl⟩)
        · exact .inr (by simpa using hy)
      obtain ⟨p, hp, rfl⟩ := List.mem_map.1 hmem
      exact ⟨p.2, hp⟩

theorem mostCommon_spec (c : Counter) : (c.mostCommon = none ↔ c = []) ∧
    ∀ x n, c.mostCommon = some (x, n) → (x, n) ∈ c ∧ ∀ y m, (y, m) ∈ c → m ≤ n := by
  induction c with
  | nil => simp [Counter.mostCommon]
  | cons p c ih =>
    obtain ⟨y, k⟩ := p
    rw [Counter.mostCommon]
    split
    · rename_i h
      have hc := ih.1.1 h
      subst hc
      simp only [reduceCtorEq, List.cons_ne_nil, Option.some.injEq, Prod.mk.injEq, true_and]
      rintro x n ⟨rfl, rfl⟩
      simp
    · rename_i z m h
      obtain ⟨h1, h2⟩ := ih.2 z m h
      split
      · rename_i hlt
        simp only [reduceCtorEq, List.cons_ne_nil, Option.some.injEq, Prod.mk.injEq, true_and]
        rintro x n ⟨rfl, rfl⟩
        refine ⟨List.mem_cons_of_mem _ h1, fun a b hab => ?_⟩
        rcases List.mem_cons.1 hab with hab | hab
        · cases hab; omega
        · exact h2 a b hab
      · rename_i hlt
        simp only [reduceCtorEq, List.cons_ne_nil, Option.some.injEq, Prod.mk.injEq, true_and]
        rintro x n ⟨rfl, rfl⟩
        refine ⟨List.mem_cons_self, fun a b hab => ?_⟩
        rcases List.mem_cons.1 hab with hab | hab
        · cases hab; exact le_rfl
        · have := h2 a b hab; omega

/-- `_check_count` after counting the values `dims`. -/
theorem checkCount_spec {dims : List ℤ} : (dims = [] → checkCount (dims.foldl Counter.add []) = .error .index) ∧
    (dims ≠ [] → ∃ x, x ∈ dims ∧ (checkCount (dims.foldl Counter.add []) = .ok (true, x) ∧ 2 * dims.length ≤ 3 * dims.count x ∨
      checkCount (dims.foldl Counter.add []) = .ok (false, x) ∧ ∀ y, 3 * dims.count y < 2 * dims.length)) := by
  have h := count_foldl_mem dims [] [] (by simp [Counter.total])
  simp only [List.nil_append] at h
  obtain ⟨-, h2, h3, h4⟩ := h
  constructor
  · rintro rfl; rfl
  · intro hne
    obtain ⟨z, hz⟩ := List.exists_mem_of_ne_nil _ hne
    obtain ⟨k, hk⟩ := h3 z hz
    have hms := mostCommon_spec (dims.foldl Counter.add [])
    unfold checkCount
    cases hm : Counter.mostCommon (dims.foldl Counter.add []) with
    | none => rw [hms.1.1 hm] at hk; simp at hk
    | some p =>
      obtain ⟨x, n⟩ := p
      obtain ⟨hx, hmax⟩ := hms.2 x n hm
      have hn := h2 x n hx
      have hle : ∀ y, dims.count y ≤ n := fun y => by
        by_cases hy : y ∈ dims
        · obtain ⟨m, hm⟩ := h3 y hy
          rw [← h2 y m hm]
          exact hmax y m hm
        · rw [List.count_eq_zero_of_not_mem hy]; omega
      have hxd : x ∈ dims := by
        by_contra hx'
        have h0 : 0 < dims.count z := List.count_pos_iff.2 hz
        rw [List.count_eq_zero_of_not_mem hx'] at hn
        have := hle z
        omega
      refine ⟨x, hxd, ?_⟩
      simp only
      rw [h4]
      by_cases hmaj : (2 / 3 : ℝ) * dims.length ≤ n
      · left
        refine ⟨by simp [hmaj], ?_⟩
        have : (2 : ℝ) * dims.length ≤ 3 * n := by linarith
        rw [← hn]
        exact_mod_cast this
      · right
        refine ⟨by simp [hmaj], fun y => ?_⟩
        push Not at hmaj
        have h5 : (3 : ℝ) * n < 2 * dims.length := by linarith
        have h6 : 3 * n < 2 * dims.length := by exact_mod_cast h5
        have := hle y
        omega

theorem calcLoop_spec {m : ℤ} (hm : 1 ≤ m) : ∀ (rest : List (Except Err ℤ)) (dims : List ℤ), (dims ≠ [] ∨ rest ≠ []) →
    (∀ k : ℕ, m ≤ (k : ℤ) → k < dims.length → ∀ y, 3 * (dims.take k).count y < 2 * k) →
    let r := calcLoop (some m) dims.length rest (dims.foldl Counter.add [])
    (∀ e, r = .error e → .error e ∈ rest) ∧
    (∀ x, r = .ok (some x) → ∃ more, more.map .ok <+: rest ∧ dims ++ more ≠ [] ∧ min m (dims.length + rest.length : ℕ) ≤ ((dims ++ more).length : ℤ) ∧
      2 * (dims ++ more).length ≤ 3 * (dims ++ more).count x ∧
      ∀ k : ℕ, m ≤ (k : ℤ) → k < (dims ++ more).length → ∀ y, 3 * ((dims ++ more).take k).count y < 2 * k) ∧
    (r = .ok none → ∃ more, rest = more.map .ok ∧ ∀ x, 3 * (dims ++ more).count x < 2 * (dims ++ more).length) := by
  intro rest
  induction rest with
  | nil =>
    intro dims hne hearly
    have hne : dims ≠ [] := by simpa using hne
    obtain ⟨x, hx, ⟨h, hmaj⟩ | ⟨h, hmaj⟩⟩ := (checkCount_spec (dims := dims)).2 hne
    · simp only [calcLoop, h]
      refine ⟨by simp, ?_, by simp⟩
      intro y hy
      simp only [Except.ok.injEq, Option.some.injEq] at hy
      subst hy
      exact ⟨[], by simp, by simpa using hne, by simp, by simpa using hmaj, by simpa using hearly⟩
    · simp only [calcLoop, h]
      refine ⟨by simp, by simp, fun _ => ⟨[], rfl, by simpa using hmaj⟩⟩
  | cons o rest ih =>
    intro dims hne hearly
    clear hne
    -- the part of the loop after the check
    have hnext : (m ≤ (dims.length : ℤ) → ∀ y, 3 * dims.count y < 2 * dims.length) →
        let r := (match o with
          | .error e => .error e
          | .ok dim => calcLoop (some m) (dims.length + 1) rest ((dims.foldl Counter.add []).add dim) : Except Err (Option ℤ))
        (∀ e, r = .error e → .error e ∈ o :: rest) ∧
        (∀ x, r = .ok (some x) → ∃ more, more.map .ok <+: o :: rest ∧ dims ++ more ≠ [] ∧
          min m (dims.length + (o :: rest).length : ℕ) ≤ ((dims ++ more).length : ℤ) ∧
          2 * (dims ++ more).length ≤ 3 * (dims ++ more).count x ∧
          ∀ k : ℕ, m ≤ (k : ℤ) → k < (dims ++ more).length → ∀ y, 3 * ((dims ++ more).take k).count y < 2 * k) ∧
        (r = .ok none → ∃ more, o :: rest = more.map .ok ∧ ∀ x, 3 * (dims ++ more).count x < 2 * (dims ++ more).length) := by
      intro hno
      cases o with
      | error e => simp
      | ok dim =>
        have := ih (dims ++ [dim]) (by simp) (fun k hk1 hk2 y => by
          rw [List.length_append, List.length_singleton] at hk2
          rcases Nat.lt_or_ge k dims.length with h | h
          · rw [List.take_append_of_le_length h.le]
            exact hearly k hk1 h y
          · have : k = dims.length := by omega
            subst this
            rw [List.take_left]
            exact hno hk1 y)
        simp only [List.length_append, List.length_singleton, List.foldl_append, List.foldl_cons, List.foldl_nil] at this
        obtain ⟨i1, i2, i3⟩ := this
        refine ⟨fun e he => List.mem_cons_of_mem _ (i1 e he), fun x hx => ?_, fun h => ?_⟩
        · obtain ⟨more, j1, j2, j3, j4, j5⟩ := i2 x hx
          refine ⟨dim :: more, ?_, by simp, ?_, ?_, ?_⟩
          · rw [List.map_cons]; exact (List.prefix_cons_inj _).2 j1
          · simp only [List.length_cons, List.length_append] at j3 ⊢
            rw [show dims.length + (rest.length + 1) = dims.length + 1 + rest.length by omega]
            refine j3.trans ?_
            simp
            omega
          · rw [show dims ++ dim :: more = dims ++ [dim] ++ more by simp, List.length_append, List.length_append]; exact j4
          · intro k hk1 hk2 y
            rw [show dims ++ dim :: more = dims ++ [dim] ++ more by simp] at hk2 ⊢
            rw [List.length_append, List.length_append] at hk2
            exact j5 k hk1 hk2 y
        · obtain ⟨more, rfl, j⟩ := i3 h
          exact ⟨dim :: more, rfl, by rw [show dims ++ dim :: more = dims ++ [dim] ++ more by simp, List.length_append, List.length_append]; exact j⟩
    simp only [calcLoop]
    by_cases hi : m ≤ (dims.length : ℤ)
    · rw [if_pos hi]
      have hdne : dims ≠ [] := by
        rintro rfl
        simp at hi
        omega
      obtain ⟨x, hx, ⟨h, hmaj⟩ | ⟨h, hmaj⟩⟩ := (checkCount_spec (dims := dims)).2 hdne
      · rw [h]
        refine ⟨by simp, ?_, by simp⟩
        intro y hy
        simp only [Except.ok.injEq, Option.some.injEq] at hy
        subst hy
        exact ⟨[], by simp, by simpa using hdne, by simp; omega, by simpa using hmaj, by simpa using hearly⟩
      · rw [h]
        exact hnext fun _ => hmaj
    · rw [if_neg hi]
      exact hnext fun h => absurd h hi

/-! ## Drawing tuples -/

theorem drawing_spec {V : Type} {nbrs : Finset V} {dim : ℕ} {minNb : ℤ} {ph : DrawPhase V} {used : Finset (Finset V)} {out : List (Finset V)}
    (h : Drawing nbrs dim minNb ph used out) : out.Nodup ∧ (∀ t ∈ out, t ∈ nbrs.powersetCard dim) ∧
      (match ph with
      | .random => used = out.toFinset
      | .rest tuples => tuples = nbrs.powersetCard dim \ out.toFinset) := by
  induction h with
  | startRandom _ => simp
  | startRest _ => simp
  | @sample used out t _ _ h1 h2 ih =>
    obtain ⟨i1, i2, i3⟩ := ih
    simp only at i3
    subst i3
    refine ⟨?_, ?_, by simp only [List.toFinset_append, List.toFinset_cons, List.toFinset_nil]; ext; simp⟩
    · rw [List.nodup_append]
      refine ⟨i1, by simp, fun a ha b hb => ?_⟩
      simp at hb; subst hb
      rintro rfl
      exact h2 (by simpa using ha)
    · intro s hs
      rcases List.mem_append.1 hs with hs | hs
      · exact i2 s hs
      · simp at hs; subst hs; exact h1
  | switch _ _ ih =>
    obtain ⟨i1, i2, i3⟩ := ih
    simp only at i3
    exact ⟨i1, i2, by simp [i3]⟩
  | @batch tuples used out vals _ _ h1 h2 _ ih =>
    obtain ⟨i1, i2, i3⟩ := ih
    simp only at i3
    refine ⟨?_, ?_, ?_⟩
    · rw [List.nodup_append]
      refine ⟨i1, h1, fun a ha b hb => ?_⟩
      rintro rfl
      have := h2 a hb
      rw [i3, Finset.mem_sdiff] at this
      exact this.2 (by simpa using ha)
    · intro s hs
      rcases List.mem_append.1 hs with hs | hs
      · exact i2 s hs
      · have := h2 s hs
        rw [i3, Finset.mem_sdiff] at this
        exact this.1
    · simp only
      rw [i3, List.toFinset_append]
      ext x
      simp only [Finset.mem_sdiff, Finset.mem_union]
      tauto

theorem drawing_finish_rest {V : Type} {nbrs : Finset V} {dim : ℕ} {minNb : ℤ} : ∀ (n : ℕ) (tuples used : Finset (Finset V)) (out : List (Finset V)),
    tuples.card = n → Drawing nbrs dim minNb (.rest tuples) used out → ∃ used' out', out <+: out' ∧ Drawing nbrs dim minNb (.rest ∅) used' out' := by
  intro n
  induction n using Nat.strong_induction_on with
  | _ n ih =>
    intro tuples used out hn h
    by_cases he : tuples = ∅
    · subst he; exact ⟨used, out, List.prefix_rfl, h⟩
    · have hpos : 0 < tuples.card := Finset.card_pos.2 (Finset.nonempty_iff_ne_empty.2 he)
      have hb := Drawing.batch (vals := tuples.toList.take (min 10 tuples.card)) h he (tuples.nodup_toList.sublist (List.take_sublist _ _))
        (fun t ht => by simpa using List.mem_of_mem_take ht) (by simp)
      have hlt : (tuples \ (tuples.toList.take (min 10 tuples.card)).toFinset).card < n := by
        rw [Finset.card_sdiff_of_subset (fun t ht => by simpa using List.mem_of_mem_take (List.mem_toFinset.1 ht)),
          List.toFinset_card_of_nodup (tuples.nodup_toList.sublist (List.take_sublist _ _))]
        simp
        omega
      obtain ⟨u, o, h1, h2⟩ := ih _ hlt _ _ _ rfl hb
      exact ⟨u, o, (List.prefix_append _ _).trans h1, h2⟩

theorem drawing_finish_random {V : Type} {nbrs : Finset V} {dim : ℕ} {minNb : ℤ} : ∀ (n : ℕ) (used : Finset (Finset V)) (out : List (Finset V)),
    nbrs.card.choose dim - used.card = n → Drawing nbrs dim minNb .random used out →
    ∃ used' out', out <+: out' ∧ Drawing nbrs dim minNb (.rest ∅) used' out' := by
  intro n
  induction n using Nat.strong_induction_on with
  | _ n ih =>
    intro used out hn h
    by_cases hlt : (used.card : ℝ) < (nbrs.card.choose dim : ℝ) / 2
    · have hlt' : used.card < nbrs.card.choose dim := by
        have h0 : (0 : ℝ) ≤ (nbrs.card.choose dim : ℝ) := by positivity
        have : (used.card : ℝ) < (nbrs.card.choose dim : ℝ) := by linarith
        exact_mod_cast this
      have : ∃ t ∈ nbrs.powersetCard dim, t ∉ used := by
        by_contra hcon
        push Not at hcon
        have := Finset.card_le_card hcon
        rw [Finset.card_powersetCard] at this
        omega
      obtain ⟨t, ht, htu⟩ := this
      obtain ⟨u, o, h1, h2⟩ := ih (nbrs.card.choose dim - (insert t used).card) (by rw [Finset.card_insert_of_notMem htu]; omega) _ _ rfl (.sample h hlt ht htu)
      exact ⟨u, o, (List.prefix_append _ _).trans h1, h2⟩
    · exact drawing_finish_rest _ _ _ _ rfl (.switch h hlt)

theorem drawing_exists {V : Type} (nbrs : Finset V) (dim : ℕ) (minNb : ℤ) : ∃ used out, Drawing nbrs dim minNb (.rest ∅) used out := by
  by_cases h : 10 * minNb < (nbrs.card.choose dim : ℤ)
  · obtain ⟨u, o, -, h⟩ := drawing_finish_random _ _ _ rfl (Drawing.startRandom h)
    exact ⟨u, o, h⟩
  · obtain ⟨u, o, -, h⟩ := drawing_finish_rest _ _ _ _ rfl (Drawing.startRest h)
    exact ⟨u, o, h⟩

/-- After the last tuple all of them have been drawn, once. -/
theorem drawing_all {V : Type} {nbrs : Finset V} {dim : ℕ} {minNb : ℤ} {used : Finset (Finset V)} {out : List (Finset V)}
    (h : Drawing nbrs dim minNb (.rest ∅) used out) : out.toFinset = nbrs.powersetCard dim ∧ out.length = nbrs.card.choose dim := by
  obtain ⟨h1, h2, h3⟩ := drawing_spec h
  simp only at h3
  have : out.toFinset = nbrs.powersetCard dim := by
    apply Finset.Subset.antisymm
    · intro t ht; exact h2 t (List.mem_toFinset.1 ht)
    · exact Finset.sdiff_eq_empty_iff_subset.1 h3.symm
  exact ⟨this, by rw [← List.toFinset_card_of_nodup h1, this, Finset.card_powersetCard]⟩

theorem drawing_mem {V : Type} {nbrs : Finset V} {dim : ℕ} {minNb : ℤ} {used : Finset (Finset V)} {out : List (Finset V)}
    (h : Drawing nbrs dim minNb (.rest ∅) used out) : ∀ t ∈ nbrs.powersetCard dim, t ∈ out := fun t ht => by
  rw [← (drawing_all h).1] at ht
  exact List.mem_toFinset.1 ht

theorem decideLoop_spec {limit : ℝ} {minNb : ℤ} {b : Bool} : ∀ (rest results : List ℝ), decideLoop limit minNb results rest = some b →
    ∃ more, more <+: rest ∧ minNb ≤ (results ++ more).length ∧ 1 < (results ++ more).length ∧
      |limit - average (results ++ more)| / 2 > Real.sqrt (variance (results ++ more) / ((results ++ more).length - 1)) ∧
      b = decide (average (results ++ more) > limit) := by
  intro rest
  induction rest with
  | nil => intro results h; simp [decideLoop] at h
  | cons v rest ih =>
    intro results h
    rw [decideLoop] at h
    split at h
    · rename_i hc
      simp only [Option.some.injEq] at h
      refine ⟨[], List.nil_prefix, ?_⟩
      rw [List.append_nil]
      exact ⟨hc.1, hc.2.1, hc.2.2, h.symm⟩
    · obtain ⟨more, h1, h2⟩ := ih _ h
      refine ⟨v :: more, (List.prefix_cons_inj _).2 h1, ?_⟩
      rw [List.append_assoc, List.singleton_append] at h2
      exact h2

/-- `_has_dimension` always has a result. -/
theorem hasDimension_total (g : NxGraph (Vec d) ℝ) (cs : CoordSys d) (fs : ℝ) (minNb : Option ℤ) (pos : Vec d) (dim : ℕ) :
    ∃ r, HasDimension g cs fs minNb pos dim r := by
  by_cases h : d < dim
  · exact ⟨_, .tooLarge h⟩
  · cases hv : exactValue dim with
    | none => exact ⟨_, .unknown h hv⟩
    | some v =>
      obtain ⟨u, o, hd⟩ := drawing_exists (g.neighbors pos).toFinset dim (minNb.getD (g.neighbors pos).length)
      cases hl : decideLoop (fs ^ dim * v / 2) (minNb.getD (g.neighbors pos).length) [] (o.map (getVolume cs pos)) with
      | none => exact ⟨_, .all h hv hd hl⟩
      | some b => exact ⟨_, .early h hv hd hl⟩

/-- A characterization of the results of `_has_dimension`, by a list of different tuples. -/
theorem hasDimension_ok {g : NxGraph (Vec d) ℝ} {cs : CoordSys d} {fs : ℝ} {minNb : Option ℤ} {pos : Vec d} {dim : ℕ} {b : Bool}
    (h : HasDimension g cs fs minNb pos dim (.ok b)) (hd : dim ≤ d) :
    ∃ v, exactValue dim = some v ∧ ∃ ts : List (Finset (Vec d)), ts.Nodup ∧ (∀ t ∈ ts, t ∈ (g.neighbors pos).toFinset.powersetCard dim) ∧
      b = decide (ts ≠ [] ∧ average (ts.map (getVolume cs pos)) > fs ^ dim * v / 2) ∧
      ((∀ t ∈ (g.neighbors pos).toFinset.powersetCard dim, t ∈ ts) ∨
        (minNb.getD (g.neighbors pos).length ≤ ts.length ∧ 1 < ts.length ∧
          |fs ^ dim * v / 2 - average (ts.map (getVolume cs pos))| / 2 > Real.sqrt (variance (ts.map (getVolume cs pos)) / (ts.length - 1)))) := by
  cases h with
  | tooLarge h => omega
  | @early v ph used out _ _ hv hdr hl =>
    obtain ⟨h1, h2, -⟩ := drawing_spec hdr
    obtain ⟨more, m1, m2, m3, m4, m5⟩ := decideLoop_spec _ _ hl
    simp only [List.nil_append] at m2 m3 m4 m5
    obtain ⟨k, hk⟩ : ∃ k, more = (out.take k).map (getVolume cs pos) := by
      refine ⟨more.length, ?_⟩
      rw [List.map_take]
      exact List.prefix_iff_eq_take.1 m1
    have hlen : more.length = (out.take k).length := by rw [hk]; simp
    refine ⟨v, hv, out.take k, h1.sublist (List.take_sublist _ _), fun t ht => h2 t (List.mem_of_mem_take ht), ?_, .inr ⟨?_, ?_, ?_⟩⟩
    · rw [m5, ← hk]
      have : out.take k ≠ [] := fun e => by rw [hlen, e] at m3; simp at m3
      simp [this]
    · rw [← hlen]; exact m2
    · rw [← hlen]; exact m3
    · rw [← hk, ← hlen]; exact m4
  | @all v used out _ hv hdr hl =>
    obtain ⟨h1, h2, -⟩ := drawing_spec hdr
    exact ⟨v, hv, out, h1, h2, rfl, .inl (drawing_mem hdr)⟩

/-! ## The loop over the dimensions -/

theorem getDimensionLoop_spec (has : ℕ → Except Err Bool) (maxDim : ℤ) : ∀ (n k : ℕ), k + n = maxDim.toNat + 1 → 0 ≤ maxDim → 1 ≤ k →
    (∀ j : ℕ, 1 ≤ j → j < k → has j = .ok true) →
    (∀ e, getDimensionLoop has maxDim (List.range' k n) = .error e → ∃ j : ℕ, 1 ≤ j ∧ (j : ℤ) ≤ maxDim ∧ has j = .error e ∧ ∀ i : ℕ, 1 ≤ i → i < j → has i = .ok true) ∧
    ∀ x, getDimensionLoop has maxDim (List.range' k n) = .ok x →
      0 ≤ x ∧ x ≤ maxDim ∧ (∀ j : ℕ, 1 ≤ j → (j : ℤ) ≤ x → has j = .ok true) ∧ (x < maxDim → has (x + 1).toNat = .ok false) := by
  intro n
  induction n with
  | zero =>
    intro k hk h0 h1 hj
    simp only [List.range'_zero, getDimensionLoop]
    refine ⟨by simp, fun x hx => ?_⟩
    simp only [Except.ok.injEq] at hx
    subst hx
    exact ⟨h0, le_rfl, fun j hj1 hj2 => hj j hj1 (by omega), fun h => absurd h (lt_irrefl _)⟩
  | succ n ih =>
    intro k hk h0 h1 hj
    rw [List.range'_succ, getDimensionLoop]
    cases hh : has k with
    | error e =>
      refine ⟨fun e' he => ?_, by simp⟩
      simp only [Except.error.injEq] at he
      subst he
      exact ⟨k, h1, by omega, hh, hj⟩
    | ok b =>
      cases b with
      | false =>
        refine ⟨by simp, fun x hx => ?_⟩
        simp only [Except.ok.injEq] at hx
        subst hx
        refine ⟨by omega, by omega, fun j hj1 hj2 => hj j hj1 (by omega), fun _ => ?_⟩
        rw [show ((k : ℤ) - 1 + 1).toNat = k by omega]
        exact hh
      | true =>
        exact ih (k + 1) (by omega) h0 (by omega) fun j hj1 hj2 => by
          rcases Nat.lt_succ_iff_lt_or_eq.1 hj2 with h | rfl
          exacts [hj j hj1 h, hh]

theorem hasDimension_large {g : NxGraph (Vec d) ℝ} {cs : CoordSys d} {fs : ℝ} {minNb : Option ℤ} {pos : Vec d} {dim : ℕ} {r : Except Err Bool}
    (h : HasDimension g cs fs minNb pos dim r) (hd : d < dim) : r = .ok false := by
  cases h with
  | tooLarge _ => rfl
  | unknown h => exact absurd hd h
  | early h => exact absurd hd h
  | all h => exact absurd hd h

theorem hasDimension_error {g : NxGraph (Vec d) ℝ} {cs : CoordSys d} {fs : ℝ} {minNb : Option ℤ} {pos : Vec d} {dim : ℕ} {e : Err}
    (h : HasDimension g cs fs minNb pos dim (.error e)) (h1 : 1 ≤ dim) : e = .notImplemented ∧ 4 ≤ dim ∧ dim ≤ d := by
  cases h with
  | unknown h hv =>
    refine ⟨rfl, ?_, by omega⟩
    by_contra hlt
    have : dim = 1 ∨ dim = 2 ∨ dim = 3 := by omega
    rcases this with rfl | rfl | rfl <;> simp [exactValue] at hv

/-- The range of `_get_dimension`. -/
theorem getDimension_spec {g : NxGraph (Vec d) ℝ} {cs : CoordSys d} {fs : ℝ} {maxDim : ℤ} {minNb : Option ℤ} {pos : Vec d} {r : Except Err ℤ}
    (h : GetDimension g cs fs maxDim minNb pos r) (hm : 0 ≤ maxDim) :
    (∀ e, r = .error e → e = .notImplemented ∧ 4 ≤ maxDim ∧ 4 ≤ d) ∧
    ∀ x, r = .ok x → 0 ≤ x ∧ x ≤ maxDim ∧ x ≤ d ∧
      (∀ j : ℕ, 1 ≤ j → (j : ℤ) ≤ x → HasDimension g cs fs minNb pos j (.ok true)) ∧
      (x < maxDim → HasDimension g cs fs minNb pos (x + 1).toNat (.ok false)) := by
  obtain ⟨has, hh, rfl⟩ := h
  obtain ⟨h1, h2⟩ := getDimensionLoop_spec has maxDim maxDim.toNat 1 (by omega) hm le_rfl (by intro j h1 h2; omega)
  refine ⟨fun e he => ?_, fun x hx => ?_⟩
  · obtain ⟨j, hj1, hj2, hj3, -⟩ := h1 e he
    have := hh j
    rw [hj3] at this
    obtain ⟨h3, h4, h5⟩ := hasDimension_error this hj1
    exact ⟨h3, by omega, by omega⟩
  · obtain ⟨h3, h4, h5, h6⟩ := h2 x hx
    refine ⟨h3, h4, ?_, fun j hj1 hj2 => by rw [← h5 j hj1 hj2]; exact hh j, fun hlt => by rw [← h6 hlt]; exact hh _⟩
    by_contra hgt
    push Not at hgt
    have := h5 x.toNat (by omega) (by omega)
    have h7 := hasDimension_large (hh x.toNat) (by omega)
    rw [this] at h7
    cases h7

theorem getDimension_total (g : NxGraph (Vec d) ℝ) (cs : CoordSys d) (fs : ℝ) (maxDim : ℤ) (minNb : Option ℤ) (pos : Vec d) :
    ∃ r, GetDimension g cs fs maxDim minNb pos r := by
  choose has hh using hasDimension_total g cs fs minNb pos
  exact ⟨_, has, hh, rfl⟩

/-! ## Volumes -/

theorem average_lt {l : List ℝ} (hne : l ≠ []) {c : ℝ} (h : ∀ x ∈ l, c < x) : c < average l := by
  unfold average
  have hl : (0 : ℝ) < l.length := by exact_mod_cast List.length_pos_iff.2 hne
  rw [lt_div_iff₀ hl]
  clear hl
  induction l with
  | nil => exact absurd rfl hne
  | cons x l ih =>
    have hx := h x List.mem_cons_self
    rw [List.sum_cons, List.length_cons]
    push_cast
    by_cases hl : l = []
    · subst hl; simpa using hx
    · have := ih hl fun y hy => h y (List.mem_cons_of_mem _ hy)
      nlinarith

theorem average_le {l : List ℝ} (hne : l ≠ []) {c : ℝ} (h : ∀ x ∈ l, x ≤ c) : average l ≤ c := by
  unfold average
  have hl : (0 : ℝ) < l.length := by exact_mod_cast List.length_pos_iff.2 hne
  rw [div_le_iff₀ hl]
  clear hl hne
  induction l with
  | nil => simp
  | cons x l ih =>
    have hx := h x List.mem_cons_self
    rw [List.sum_cons, List.length_cons]
    push_cast
    have := ih fun y hy => h y (List.mem_cons_of_mem _ hy)
    linarith

/-- If the connecting vectors lie in a space of smaller dimension, the volume vanishes. -/
theorem getVolume_flat {cs : CoordSys d} {pos : Vec d} {t : Finset (Vec d)} {W : Submodule ℝ (Vec d)} (hW : Module.finrank ℝ W < t.card)
    (h : ∀ n ∈ t, cs.connectingVector n pos ∈ W) : getVolume cs pos t = 0 := by
  unfold getVolume
  have hdet : Matrix.det (Matrix.of fun i j : t => ∑ k, cs.connectingVector i.1 pos k * cs.connectingVector j.1 pos k) = 0 := by
    rw [← Matrix.exists_mulVec_eq_zero_iff]
    let f : t → W := fun i => ⟨cs.connectingVector i.1 pos, h i.1 i.2⟩
    have hdep : ¬ LinearIndependent ℝ f := by
      intro hli
      have := hli.fintype_card_le_finrank
      rw [Fintype.card_coe] at this
      omega
    rw [Fintype.not_linearIndependent_iff] at hdep
    obtain ⟨c, hc, i, hi⟩ := hdep
    refine ⟨c, fun h0 => hi (by rw [h0]; rfl), ?_⟩
    have hc' : ∀ k, ∑ j : t, c j * cs.connectingVector j.1 pos k = 0 := fun k => by
      have := congrFun (congrArg Subtype.val hc) k
      simpa [f, Finset.sum_apply] using this
    funext i
    simp only [Matrix.mulVec, dotProduct, Matrix.of_apply, Pi.zero_apply, Finset.sum_mul]
    rw [Finset.sum_comm]
    refine Finset.sum_eq_zero fun k _ => ?_
    have : ∑ j : t, cs.connectingVector i.1 pos k * cs.connectingVector j.1 pos k * c j =
        cs.connectingVector i.1 pos k * ∑ j : t, c j * cs.connectingVector j.1 pos k := by
      rw [Finset.mul_sum]
      exact Finset.sum_congr rfl fun j _ => by ring
    rw [this, hc' k, mul_zero]
  rw [hdet]
  simp

/-- The volume spanned by one neighbour is its distance. -/
theorem getVolume_singleton {cs : CoordSys d} (hb : ProperBox cs) (pos n : Vec d) : getVolume cs pos {n} = cs.distance n pos := by
  obtain ⟨v, -, hv, -, hlen, -⟩ := C05_connecting_vector cs hb n pos
  rw [← hlen, hv]
  unfold getVolume len
  have : Unique ({n} : Finset (Vec d)) := ⟨⟨⟨n, by simp⟩⟩, fun a => Subtype.ext (Finset.mem_singleton.1 a.2)⟩
  rw [Matrix.det_eq_elem_of_subsingleton _ (⟨n, by simp⟩ : ({n} : Finset (Vec d)))]
  simp only [Matrix.of_apply]
  rw [abs_of_nonneg (Finset.sum_nonneg fun k _ => mul_self_nonneg _)]
  congr 1
  exact Finset.sum_congr rfl fun k _ => by ring

theorem exactValue_pos {dim : ℕ} {v : ℝ} (h : exactValue dim = some v) : 0 < v := by
  have := Real.pi_pos
  unfold exactValue at h
  split at h <;> simp only [Option.some.injEq, reduceCtorEq] at h <;> subst h <;> positivity

end NF
