import Verif.Lemmas.Coord
import Verif.Model.Container
import Mathlib.Data.List.Nodup
import Mathlib.Tactic.IntervalCases

/-! # Helper lemmas about cell lists -/

noncomputable section
open Classical
namespace NF
open Spec CoordSys

/-! ## `itertools.product` -/

theorem mem_product {α : Type*} : {d : ℕ} → {ls : Fin d → List α} → {f : Fin d → α} →
    (f ∈ product ls ↔ ∀ i, f i ∈ ls i)
  | 0, ls, f => by simp [product, Subsingleton.elim f Fin.elim0]
  | d + 1, ls, f => by
    simp only [product, List.mem_flatMap, List.mem_map]
    constructor
    · rintro ⟨a, ha, g, hg, rfl⟩ i
      refine Fin.cases ?_ ?_ i
      · simpa using ha
      · intro j; simpa [Fin.tail] using mem_product.1 hg j
    · intro h
      refine ⟨f 0, h 0, Fin.tail f, mem_product.2 fun i => h i.succ, Fin.cons_self_tail f⟩

theorem length_product {α : Type*} : {d : ℕ} → (ls : Fin d → List α) →
    (product ls).length = ∏ i, (ls i).length
  | 0, ls => by simp [product]
  | d + 1, ls => by
    rw [Fin.prod_univ_succ]
    simp only [product, List.length_flatMap, List.length_map, length_product (Fin.tail ls)]
    simp [Fin.tail]

theorem nodup_product {α : Type*} : {d : ℕ} → {ls : Fin d → List α} → (∀ i, (ls i).Nodup) →
    (product ls).Nodup
  | 0, ls, _ => by simp [product]
  | d + 1, ls, h => by
    simp only [product]
    rw [List.nodup_flatMap]
    constructor
    · intro a _
      apply List.Nodup.map
      · intro f g hfg; exact (Fin.cons_inj.1 hfg).2
      · exact nodup_product fun i => h i.succ
    · refine (h 0).imp ?_
      intro a b hab f hf hg
      simp only [List.mem_map] at hf hg
      obtain ⟨f', -, rfl⟩ := hf
      obtain ⟨g', -, e⟩ := hg
      exact hab (Fin.cons_inj.1 e).1.symm

theorem mem_neighbourOffset {d : ℕ} {o : Idx d} :
    o ∈ CellList.neighbourOffset d ↔ ∀ i, o i = -1 ∨ o i = 0 ∨ o i = 1 := by
  simp [CellList.neighbourOffset, mem_product]

theorem nodup_neighbourOffset (d : ℕ) : (CellList.neighbourOffset d).Nodup :=
  nodup_product fun _ => by decide

/-! ## truncation -/

theorem truncInt_of_nonneg {x : ℝ} (h : 0 ≤ x) : truncInt x = ⌊x⌋ := by simp [truncInt, h]

theorem truncInt_mono {x y : ℝ} (h : x ≤ y) : truncInt x ≤ truncInt y := by
  unfold truncInt
  split <;> split
  · exact Int.floor_mono h
  · linarith
  · rename_i h1 h2
    calc ⌈x⌉ ≤ 0 := Int.ceil_le.2 (by push_cast; linarith)
      _ ≤ ⌊y⌋ := Int.floor_nonneg.2 h2
  · exact Int.ceil_mono h

theorem truncInt_add_one_le (x : ℝ) {y : ℝ} (h : y < x + 1) : truncInt y ≤ truncInt x + 1 := by
  unfold truncInt
  split <;> split
  · have : ⌊y⌋ < ⌊x⌋ + 2 := by
      rw [Int.floor_lt]; push_cast
      have := Int.lt_floor_add_one x; linarith
    omega
  · rename_i h1 h2
    have : -1 < x := by linarith
    have : ⌈x⌉ ≥ 0 := by
      have : (-1 : ℤ) < ⌈x⌉ := Int.lt_ceil.2 (by push_cast; linarith)
      omega
    have : ⌊y⌋ < 1 := by rw [Int.floor_lt]; push_cast; linarith
    omega
  · rename_i h1 h2
    have : ⌈y⌉ ≤ 0 := Int.ceil_le.2 (by push_cast; linarith)
    have : 0 ≤ ⌊x⌋ := Int.floor_nonneg.2 h2
    omega
  · have : ⌈y⌉ ≤ ⌈x⌉ + 1 := by
      rw [Int.ceil_le]; push_cast
      have := Int.le_ceil x; linarith
    exact this

theorem abs_truncInt_sub_le {x y : ℝ} (h : |y - x| < 1) : |truncInt y - truncInt x| ≤ 1 := by
  rw [abs_lt] at h
  have h1 := truncInt_add_one_le x (y := y) (by linarith)
  have h2 := truncInt_add_one_le y (y := x) (by linarith)
  rw [abs_le]; omega

namespace CellList
variable {d : ℕ} {α : Type}

/-- Invariant: the cells are the flat list sorted by index. -/
structure Inv (c : CellList d α) (frac : α → Vec d) : Prop where
  cells : ∀ idx, c.cells idx = c.flat.filter fun v => decide (c.getIndex (frac v) = idx)

theorem Inv.mk' (n : Fin d → ℕ) (p : Bool) (frac : α → Vec d) : Inv (mk' n p : CellList d α) frac :=
  ⟨fun idx => by simp [CellList.mk']⟩

theorem getIndex_congr {β : Type} {c : CellList d α} {c' : CellList d β} (h1 : c.periodic = c'.periodic)
    (h2 : c.numCells = c'.numCells) (f : Vec d) : c.getIndex f = c'.getIndex f := by
  funext i
  simp [getIndex, total, h1, h2]

theorem getIndex_addPoint (c : CellList d α) (f : Vec d) (v : α) (g : Vec d) :
    (c.addPoint f v).getIndex g = c.getIndex g := rfl

theorem Inv.addPoint {c : CellList d α} {frac : α → Vec d} (h : Inv c frac) (v : α) :
    Inv (c.addPoint (frac v) v) frac := by
  constructor
  intro idx
  simp only [getIndex_addPoint]
  by_cases e : c.getIndex (frac v) = idx
  · subst e
    simp [CellList.addPoint, h.cells, List.filter_append]
    exact List.filter_congr fun x _ => decide_eq_decide.2 Iff.rfl
  · have : idx ≠ c.getIndex (frac v) := fun h => e h.symm
    simp [CellList.addPoint, h.cells, List.filter_append, e, this]
    exact List.filter_congr fun x _ => decide_eq_decide.2 Iff.rfl

theorem mem_neighbourValues {c : CellList d α} {frac : α → Vec d} (h : Inv c frac) (f : Vec d) (v : α) :
    v ∈ c.neighbourValues f ↔
      v ∈ c.flat ∧ c.getIndex (frac v) ∈ c.calculateNeighbourIndices (c.getIndex f) := by
  simp only [neighbourValues, List.mem_flatMap, h.cells, List.mem_filter, decide_eq_true_eq]
  constructor
  · rintro ⟨i, hi, hv, rfl⟩; exact ⟨hv, hi⟩
  · rintro ⟨hv, hi⟩; exact ⟨_, hi, hv, rfl⟩

theorem mem_calculateNeighbourIndices_periodic {c : CellList d α} (h : c.periodic = true) (a b : Idx d) :
    b ∈ c.calculateNeighbourIndices a ↔
      ∃ o : Idx d, (∀ i, o i = -1 ∨ o i = 0 ∨ o i = 1) ∧ ∀ i, (a i + o i) % c.numCells i = b i := by
  simp only [calculateNeighbourIndices, h, if_true, List.mem_map, mem_neighbourOffset, total]
  constructor
  · rintro ⟨x, ⟨o, ho, rfl⟩, rfl⟩
    exact ⟨o, ho, fun i => rfl⟩
  · rintro ⟨o, ho, hb⟩
    exact ⟨_, ⟨o, ho, rfl⟩, funext hb⟩

theorem mem_calculateNeighbourIndices_nonperiodic {c : CellList d α} (h : c.periodic = false) (a b : Idx d) :
    b ∈ c.calculateNeighbourIndices a ↔
      (∀ i, |b i - a i| ≤ 1) ∧ ∀ i, 0 ≤ b i ∧ b i < c.numCells i + 2 := by
  simp only [calculateNeighbourIndices, h, total]
  simp only [Bool.false_eq_true, if_false, List.mem_filter, List.mem_map, mem_neighbourOffset,
    decide_eq_true_eq]
  constructor
  · rintro ⟨⟨o, ho, rfl⟩, h1, h2⟩
    refine ⟨fun i => ?_, fun i => ⟨h1 i, h2 i⟩⟩
    simp only [Pi.add_apply, add_sub_cancel_left]
    rcases ho i with e | e | e <;> simp [e]
  · rintro ⟨h1, h2⟩
    refine ⟨⟨b - a, fun i => ?_, by abel⟩, fun i => (h2 i).1, fun i => (h2 i).2⟩
    have := abs_le.1 (h1 i)
    simp only [Pi.sub_apply]
    omega

/-- the index lies in the array -/
theorem getIndex_range_periodic {c : CellList d α} (h : c.periodic = true) {f : Vec d}
    (hf : ∀ i, 0 ≤ f i ∧ f i < 1) (hn : ∀ i, 0 < c.numCells i) (i : Fin d) :
    0 ≤ c.getIndex f i ∧ c.getIndex f i < c.numCells i := by
  have hn' : (0 : ℝ) < c.numCells i := by exact_mod_cast hn i
  have h0 : 0 ≤ f i * c.numCells i := mul_nonneg (hf i).1 hn'.le
  simp only [getIndex, h, if_true, truncInt_of_nonneg h0]
  refine ⟨Int.floor_nonneg.2 h0, Int.floor_lt.2 ?_⟩
  push_cast
  have := (hf i).2
  nlinarith

theorem getIndex_range_nonperiodic {c : CellList d α} (h : c.periodic = false) (f : Vec d) (i : Fin d) :
    0 ≤ c.getIndex f i ∧ c.getIndex f i < c.numCells i + 2 := by
  simp only [getIndex, h, total, Bool.false_eq_true, if_false]
  omega

end CellList

/-! ## the number of cells -/

theorem numCellsFor_pos {d : ℕ} (cs : CoordSys d) (dc : ℝ) (i : Fin d) : 0 < numCellsFor cs dc i := by
  unfold numCellsFor
  split
  · norm_num
  · have : (1 : ℤ) ≤ min 100 (max 1 (truncInt (cs.size i / dc))) := by omega
    omega

theorem numCellsFor_le {d : ℕ} (cs : CoordSys d) (dc : ℝ) (i : Fin d) : numCellsFor cs dc i ≤ 100 := by
  unfold numCellsFor
  split
  · norm_num
  · have : min 100 (max 1 (truncInt (cs.size i / dc))) ≤ (100 : ℤ) := by omega
    omega

/-- With more than one cell, a cell is at least as long as the cutoff. -/
theorem numCellsFor_mul_le {d : ℕ} {cs : CoordSys d} {dc : ℝ} (hdc : 0 < dc) (hs : ProperBox cs) (i : Fin d)
    (h : 2 ≤ numCellsFor cs dc i ∨ dc ≤ cs.size i) : numCellsFor cs dc i * dc ≤ cs.size i := by
  have hsz := size_pos hs i
  have hq : 0 ≤ cs.size i / dc := (div_pos hsz hdc).le
  have ht : (truncInt (cs.size i / dc) : ℝ) * dc ≤ cs.size i := by
    rw [truncInt_of_nonneg hq]
    have := Int.floor_le (cs.size i / dc)
    calc _ ≤ cs.size i / dc * dc := mul_le_mul_of_nonneg_right this hdc.le
      _ = cs.size i := div_mul_cancel₀ _ hdc.ne'
  have key : numCellsFor cs dc i = 1 ∨ (numCellsFor cs dc i : ℤ) ≤ truncInt (cs.size i / dc) := by
    unfold numCellsFor
    rw [if_neg hdc.ne']
    have : (1 : ℤ) ≤ min 100 (max 1 (truncInt (cs.size i / dc))) := by omega
    omega
  rcases key with e | e
  · rcases h with h | h
    · omega
    · rw [e]; simpa using h
  · have : (numCellsFor cs dc i : ℝ) ≤ truncInt (cs.size i / dc) := by exact_mod_cast e
    nlinarith

namespace CellList
variable {d : ℕ} {α : Type}

theorem near_index_periodic {cs : CoordSys d} (hb : ProperBox cs) (hp : cs.periodic = true) {dc : ℝ} (hdc : 0 < dc)
    (p q : Vec d) (i : Fin d) (hd : cs.distDelta p q i < dc) :
    ∃ o : ℤ, (o = -1 ∨ o = 0 ∨ o = 1) ∧
      (⌊cs.getFrac p i * numCellsFor cs dc i⌋ + o) % (numCellsFor cs dc i : ℤ)
        = ⌊cs.getFrac q i * numCellsFor cs dc i⌋ := by
  have hs := size_pos hb i
  set n := numCellsFor cs dc i with hn
  have hnpos : 0 < n := numCellsFor_pos cs dc i
  have hnR : (0 : ℝ) < n := by exact_mod_cast hnpos
  have fracR : ∀ x : Vec d, 0 ≤ cs.getFrac x i ∧ cs.getFrac x i < 1 := by
    intro x
    simp only [CoordSys.getFrac, hp, if_true]
    exact ⟨pmod_nonneg one_pos _, pmod_lt one_pos _⟩
  have hq0 : 0 ≤ ⌊cs.getFrac q i * n⌋ := Int.floor_nonneg.2 (mul_nonneg (fracR q).1 hnR.le)
  have hq1 : ⌊cs.getFrac q i * n⌋ < n := by
    rw [Int.floor_lt]; push_cast; have := (fracR q).2; nlinarith
  rcases Nat.lt_or_ge n 2 with h1 | h2
  · have e : n = 1 := by omega
    refine ⟨0, by simp, ?_⟩
    rw [e] at hq0 hq1 ⊢
    push_cast at hq0 hq1 ⊢
    rw [Int.emod_one]
    omega
  · have hle := numCellsFor_mul_le hdc hb i (Or.inl h2)
    rw [← hn] at hle
    rw [distDelta_periodic hp] at hd
    obtain ⟨k, hk⟩ := wrap_attained hs (q i - p i)
    obtain ⟨a, ha⟩ := pmod_exists ((p i - cs.lower i) / cs.size i) 1
    obtain ⟨b, hb'⟩ := pmod_exists ((q i - cs.lower i) / cs.size i) 1
    have ep : cs.getFrac p i = (p i - cs.lower i) / cs.size i + a := by
      simp only [CoordSys.getFrac, hp, if_true]; rw [ha]; ring
    have eq : cs.getFrac q i = (q i - cs.lower i) / cs.size i + b := by
      simp only [CoordSys.getFrac, hp, if_true]; rw [hb']; ring
    rw [hk] at hd
    set m : ℤ := k + a - b with hm
    have e1 : cs.getFrac q i * n + ((m * n : ℤ) : ℝ) - cs.getFrac p i * n
        = (q i - p i + k * cs.size i) * (n / cs.size i) := by
      rw [ep, eq, hm]; push_cast; field_simp; ring
    have e2 : |cs.getFrac q i * n + ((m * n : ℤ) : ℝ) - cs.getFrac p i * n| < 1 := by
      rw [e1, abs_mul, abs_of_pos (div_pos hnR hs)]
      calc _ < dc * (n / cs.size i) := mul_lt_mul_of_pos_right hd (div_pos hnR hs)
        _ = n * dc / cs.size i := by ring
        _ ≤ 1 := by rw [div_le_one hs]; exact hle
    rw [abs_lt] at e2
    set u := cs.getFrac p i * n
    set w := cs.getFrac q i * n
    have e3 : ⌊w + ((m * n : ℤ) : ℝ)⌋ = ⌊w⌋ + m * n := Int.floor_add_intCast _ _
    have l1 : ⌊w + ((m * n : ℤ) : ℝ)⌋ < ⌊u⌋ + 2 := by
      rw [Int.floor_lt]; push_cast; have := Int.lt_floor_add_one u; push_cast at e2; linarith
    have l2 : ⌊u⌋ < ⌊w + ((m * n : ℤ) : ℝ)⌋ + 2 := by
      rw [Int.floor_lt]; push_cast; have := Int.lt_floor_add_one (w + ((m * n : ℤ) : ℝ))
      push_cast at this e2 ⊢; linarith
    rw [e3] at l1 l2
    refine ⟨⌊w⌋ + m * n - ⌊u⌋, by omega, ?_⟩
    have : ⌊u⌋ + (⌊w⌋ + m * n - ⌊u⌋) = ⌊w⌋ + m * n := by ring
    rw [this, Int.add_mul_emod_self_right, Int.emod_eq_of_lt hq0 hq1]

theorem near_index_nonperiodic {cs : CoordSys d} (hb : ProperBox cs) (hp : cs.periodic = false) {dc : ℝ} (hdc : 0 < dc)
    (p q : Vec d) (i : Fin d) (hd : |q i - p i| < dc) (hsz : dc ≤ cs.size i) :
    |truncInt (cs.getFrac q i * numCellsFor cs dc i) - truncInt (cs.getFrac p i * numCellsFor cs dc i)| ≤ 1 := by
  have hs := size_pos hb i
  have hnR : (0 : ℝ) < numCellsFor cs dc i := by exact_mod_cast numCellsFor_pos cs dc i
  apply abs_truncInt_sub_le
  have hle := numCellsFor_mul_le hdc hb i (Or.inr hsz)
  have e : cs.getFrac q i * numCellsFor cs dc i - cs.getFrac p i * numCellsFor cs dc i
      = (q i - p i) * (numCellsFor cs dc i / cs.size i) := by
    simp only [CoordSys.getFrac, hp, Bool.false_eq_true, if_false]; field_simp; ring
  rw [e, abs_mul, abs_of_pos (div_pos hnR hs)]
  calc _ < dc * (numCellsFor cs dc i / cs.size i) := mul_lt_mul_of_pos_right hd (div_pos hnR hs)
    _ = numCellsFor cs dc i * dc / cs.size i := by ring
    _ ≤ 1 := by rw [div_le_one hs]; exact hle

/-- The central completeness statement: a point within the cutoff lies in a neighbouring cell. -/
theorem near_mem_neighbours {cs : CoordSys d} (hb : ProperBox cs) {dc : ℝ} (hdc : 0 < dc)
    (hsz : cs.periodic = true ∨ ∀ i, dc ≤ cs.size i)
    {c : CellList d α} (hper : c.periodic = cs.periodic) (hn : c.numCells = numCellsFor cs dc)
    (p q : Vec d) (hd : cs.distance p q < dc) :
    c.getIndex (cs.getFrac q) ∈ c.calculateNeighbourIndices (c.getIndex (cs.getFrac p)) := by
  have hcomp : ∀ i, |cs.distDelta p q i| < dc := fun i =>
    lt_of_le_of_lt (abs_le_len _ i) (by rwa [distance_eq_len] at hd)
  cases hp : cs.periodic with
  | true =>
    have hcp : c.periodic = true := by rw [hper, hp]
    rw [mem_calculateNeighbourIndices_periodic hcp]
    have hnR : ∀ i, (0 : ℝ) ≤ numCellsFor cs dc i := fun i => Nat.cast_nonneg _
    have idx : ∀ (x : Vec d) i, c.getIndex (cs.getFrac x) i = ⌊cs.getFrac x i * numCellsFor cs dc i⌋ := by
      intro x i
      have : 0 ≤ cs.getFrac x i := by
        simp only [CoordSys.getFrac, hp, if_true]; exact pmod_nonneg one_pos _
      simp only [getIndex, hcp, if_true, hn]
      exact truncInt_of_nonneg (mul_nonneg this (hnR i))
    have := fun i => near_index_periodic hb hp hdc p q i (lt_of_abs_lt (hcomp i))
    choose o ho1 ho2 using this
    refine ⟨o, ho1, fun i => ?_⟩
    rw [idx, idx, hn]
    exact ho2 i
  | false =>
    have hcp : c.periodic = false := by rw [hper, hp]
    have hsz' : ∀ i, dc ≤ cs.size i := by simpa [hp] using hsz
    rw [mem_calculateNeighbourIndices_nonperiodic hcp]
    refine ⟨fun i => ?_, fun i => getIndex_range_nonperiodic hcp _ i⟩
    have := near_index_nonperiodic hb hp hdc p q i
      (by have := hcomp i; rwa [distDelta_nonperiodic hp] at this) (hsz' i)
    simp only [getIndex, hcp, total, Bool.false_eq_true, if_false, hn]
    rw [abs_le] at this ⊢
    omega

end CellList
end NF

namespace NF
open Spec CoordSys

/-! ## multiplicities -/

theorem countP_product {α : Type*} : {d : ℕ} → (ls : Fin d → List α) → (P : Fin d → α → Bool) →
    (product ls).countP (fun f => decide (∀ i, P i (f i) = true)) = ∏ i, (ls i).countP (P i)
  | 0, ls, P => by simp [product]
  | d + 1, ls, P => by
    have ih := countP_product (Fin.tail ls) (fun i => P i.succ)
    rw [Fin.prod_univ_succ]
    change _ = _ * ∏ i : Fin d, (Fin.tail ls i).countP (P i.succ)
    rw [← ih]
    simp only [product, List.countP_flatMap]
    have : ∀ a : α, (product (Fin.tail ls)).countP
        ((fun f : Fin (d + 1) → α => decide (∀ i, P i (f i) = true)) ∘ fun f => Fin.cons a f)
        = if P 0 a = true then (product (Fin.tail ls)).countP
            (fun f => decide (∀ i : Fin d, P i.succ (f i) = true)) else 0 := by
      intro a
      split
      · rename_i h
        apply List.countP_congr
        intro f _
        simp [Fin.forall_fin_succ, h]
      · rename_i h
        rw [List.countP_eq_zero]
        intro f _
        simp [Fin.forall_fin_succ, h]
    simp only [Function.comp_def] at this ⊢
    induction ls 0 with
    | nil => simp
    | cons a l ih =>
      rw [List.map_cons, List.sum_cons, ih, List.countP_map, List.countP_cons]
      simp only [Function.comp_def]
      rw [this a]
      split <;> ring

namespace CellList
variable {d : ℕ} {α : Type}

theorem count_neighbourValues [BEq α] [LawfulBEq α] {c : CellList d α} {frac : α → Vec d} (h : Inv c frac) (f : Vec d) (v : α) :
    (c.neighbourValues f).count v =
      (c.calculateNeighbourIndices (c.getIndex f)).count (c.getIndex (frac v)) * c.flat.count v := by
  unfold neighbourValues
  rw [List.count_flatMap]
  induction c.calculateNeighbourIndices (c.getIndex f) with
  | nil => simp
  | cons a l ih =>
    rw [List.map_cons, List.sum_cons, ih, List.count_cons]
    simp only [Function.comp, h.cells]
    by_cases e : a = c.getIndex (frac v)
    · subst e
      rw [List.count_filter (by simp)]
      simp; ring
    · have e' : ¬ c.getIndex (frac v) = a := fun h => e h.symm
      rw [List.count_eq_zero_of_not_mem (by simp [e'])]
      simp [e]

theorem count_calculate_periodic {c : CellList d α} (hp : c.periodic = true) (a b : Idx d) :
    (c.calculateNeighbourIndices a).count b
      = ∏ i, ([-1, 0, 1] : List ℤ).countP fun o => decide ((a i + o) % c.numCells i = b i) := by
  rw [← countP_product]
  simp only [calculateNeighbourIndices, hp, if_true, List.map_map, List.count, List.countP_map,
    neighbourOffset]
  apply List.countP_congr
  intro o _
  simp [total, hp, funext_iff]

theorem nodup_calculate_nonperiodic {c : CellList d α} (hp : c.periodic = false) (a : Idx d) :
    (c.calculateNeighbourIndices a).Nodup := by
  simp only [calculateNeighbourIndices, hp, Bool.false_eq_true, if_false]
  apply List.Nodup.filter
  exact (nodup_neighbourOffset d).map (add_right_injective a)

end CellList
end NF
