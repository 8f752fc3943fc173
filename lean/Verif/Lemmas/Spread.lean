import Verif.Lemmas.Hist
import Mathlib.Data.Fintype.BigOperators
import Mathlib.Data.Fintype.Pi

/-! # Refinement centres: spread, coverage, packing -/

noncomputable section
open Classical
namespace NF
open Spec CoordSys Container
variable {d : ℕ}

/-- every element of the list has at most `K` earlier ones nearer than `dc` -/
def SpreadList (cs : CoordSys d) (dc : ℝ) (K : ℕ) (L : List (Vec d)) : Prop :=
  ∀ L1 x L2, L = L1 ++ x :: L2 → (L1.filter fun q => decide (cs.distance x q < dc)).length ≤ K

theorem SpreadList.nil (cs : CoordSys d) (dc : ℝ) (K : ℕ) : SpreadList cs dc K [] := by
  intro L1 x L2 h; simp at h

theorem SpreadList.snoc {cs : CoordSys d} {dc : ℝ} {K : ℕ} {L : List (Vec d)} (h : SpreadList cs dc K L) {x : Vec d}
    (hx : (L.filter fun q => decide (cs.distance x q < dc)).length ≤ K) : SpreadList cs dc K (L ++ [x]) := by
  intro L1 y L2 e
  rcases List.eq_nil_or_concat L2 with rfl | ⟨L3, z, rfl⟩
  · have := List.append_inj' (s₁ := L) (t₁ := [x]) (s₂ := L1) (t₂ := [y]) e rfl
    obtain ⟨rfl, h2⟩ := this
    cases h2
    exact hx
  · have e' : L ++ [x] = (L1 ++ y :: L3) ++ [z] := by rw [e]; simp
    have := List.append_inj' e' rfl
    exact h L1 y L3 this.1

theorem SpreadList.prefix {cs : CoordSys d} {dc : ℝ} {K : ℕ} {L L' : List (Vec d)} (h : SpreadList cs dc K (L ++ L')) :
    SpreadList cs dc K L := by
  intro L1 x L2 e
  exact h L1 x (L2 ++ L') (by rw [e]; simp)

/-- a set of diameter less than `dc` contains at most `K + 1` of them -/
theorem SpreadList.cluster {cs : CoordSys d} {dc : ℝ} {K : ℕ} {L : List (Vec d)} (h : SpreadList cs dc K L) (Q : Vec d → Prop)
    (hQ : ∀ x ∈ L, ∀ y ∈ L, Q x → Q y → cs.distance x y < dc) : (L.filter fun x => decide (Q x)).length ≤ K + 1 := by
  induction L using List.reverseRecOn with
  | nil => simp
  | append_singleton L x ih =>
    have hx := h L x [] rfl
    rw [List.filter_append, List.length_append]
    by_cases hq : Q x
    · have : (L.filter fun x => decide (Q x)).length ≤ (L.filter fun q => decide (cs.distance x q < dc)).length := by
        rw [← List.countP_eq_length_filter, ← List.countP_eq_length_filter]
        apply List.countP_mono_left
        intro y hy hqy
        simp only [decide_eq_true_eq] at hqy ⊢
        exact hQ x (by simp) y (by simp [hy]) hq hqy
      have h1 : ([x].filter fun x => decide (Q x)).length ≤ 1 := by simpa using List.length_filter_le (fun x => decide (Q x)) [x]
      omega
    · have h1 : ([x].filter fun x => decide (Q x)) = [] := by simp [hq]
      rw [h1]
      simpa using ih h.prefix fun a ha b hb => hQ a (by simp [ha]) b (by simp [hb])

theorem length_eq_sum {α β : Type*} (f : α → β) (S : Finset β) (L : List α) (h : ∀ x ∈ L, f x ∈ S) :
    L.length = ∑ a ∈ S, (L.filter fun x => decide (f x = a)).length := by
  induction L with
  | nil => simp
  | cons x L ih =>
    have h1 := ih fun y hy => h y (List.mem_cons_of_mem _ hy)
    have h2 : ∀ a, ((x :: L).filter fun y => decide (f y = a)).length
        = (if f x = a then 1 else 0) + (L.filter fun y => decide (f y = a)).length := by
      intro a
      by_cases e : f x = a
      · simp [e]; omega
      · simp [e]
    simp only [h2, Finset.sum_add_distrib, List.length_cons, Finset.sum_ite_eq, h x List.mem_cons_self, if_true]
    omega

theorem distance_le_sum {cs : CoordSys d} (hb : ProperBox cs) (x y : Vec d) : cs.distance x y ≤ ∑ i, |x i - y i| := by
  have h1 : cs.distance x y ≤ len (fun i => y i - x i) := by
    rw [distance_eq_len]
    apply len_mono
    intro i
    cases hp : cs.periodic with
    | true =>
      rw [distDelta_periodic hp]
      have h0 := wrap_nonneg (size_pos hb i) (y i - x i)
      have := wrap_le (size_pos hb i) (y i - x i) 0
      rw [abs_of_nonneg h0]
      simpa using this
    | false => rw [distDelta_nonperiodic hp]
  refine h1.trans ?_
  rw [len, Real.sqrt_le_left (Finset.sum_nonneg fun i _ => abs_nonneg _)]
  calc ∑ i, (y i - x i) ^ 2 = ∑ i, |x i - y i| ^ 2 := by
        apply Finset.sum_congr rfl; intro i _; rw [sq_abs]; ring
    _ ≤ (∑ i, |x i - y i|) ^ 2 := Finset.sum_sq_le_sq_sum_of_nonneg fun i _ => abs_nonneg _

/-- the number of cells of a packing grid in one direction -/
def packCells (cs : CoordSys d) (dc : ℝ) (i : Fin d) : ℕ := ⌊cs.size i * (d + 1) / dc⌋₊ + 1

/-- the cell of a packing grid -/
def packCell (box : CoordSys d) (dc : ℝ) (x : Vec d) : Fin d → ℕ := fun i => ⌊(x i - box.lower i) * (d + 1) / dc⌋₊

/-- the cells of a packing grid -/
def packGrid (box : CoordSys d) (dc : ℝ) : Finset (Fin d → ℕ) := Fintype.piFinset fun i => Finset.range (packCells box dc i)

theorem card_packGrid (box : CoordSys d) (dc : ℝ) : (packGrid box dc).card = ∏ i, packCells box dc i := by
  rw [packGrid, Fintype.card_piFinset]; simp

theorem packCell_mem {box : CoordSys d} {dc : ℝ} (hdc : 0 < dc) {x : Vec d} (hx : ∀ i, x i ≤ box.upper i) : packCell box dc x ∈ packGrid box dc := by
  have hd1 : (0 : ℝ) < d + 1 := by positivity
  rw [packGrid, Fintype.mem_piFinset]
  intro i
  rw [Finset.mem_range, packCells, Nat.lt_succ_iff]
  apply Nat.floor_le_floor
  have := hx i
  apply div_le_div_of_nonneg_right _ hdc.le
  apply mul_le_mul_of_nonneg_right _ hd1.le
  simp only [CoordSys.size]; linarith

theorem packCell_close {cs : CoordSys d} (hb : ProperBox cs) {box : CoordSys d} {dc : ℝ} (hdc : 0 < dc) {x y : Vec d} (hx : ∀ i, box.lower i ≤ x i) (hy : ∀ i, box.lower i ≤ y i)
    (h : packCell box dc x = packCell box dc y) : cs.distance x y < dc := by
  have hd1 : (0 : ℝ) < d + 1 := by positivity
  have hclose : ∀ i, |x i - y i| < dc / (d + 1) := by
    intro i
    have e : ⌊(x i - box.lower i) * (d + 1) / dc⌋₊ = ⌊(y i - box.lower i) * (d + 1) / dc⌋₊ := congrFun h i
    have px : 0 ≤ (x i - box.lower i) * (d + 1) / dc := by
      have := hx i
      apply div_nonneg (mul_nonneg (by linarith) hd1.le) hdc.le
    have py : 0 ≤ (y i - box.lower i) * (d + 1) / dc := by
      have := hy i
      apply div_nonneg (mul_nonneg (by linarith) hd1.le) hdc.le
    have a1 := Nat.floor_le px
    have a2 := Nat.lt_floor_add_one ((x i - box.lower i) * (d + 1) / dc)
    have a3 := Nat.floor_le py
    have a4 := Nat.lt_floor_add_one ((y i - box.lower i) * (d + 1) / dc)
    rw [e] at a1 a2
    have b1 : (x i - box.lower i) * (d + 1) / dc - (y i - box.lower i) * (d + 1) / dc < 1 := by linarith
    have b2 : (y i - box.lower i) * (d + 1) / dc - (x i - box.lower i) * (d + 1) / dc < 1 := by linarith
    have c1 : (x i - box.lower i) * (d + 1) / dc - (y i - box.lower i) * (d + 1) / dc = (x i - y i) * ((d + 1) / dc) := by
      field_simp; ring
    have c2 : (y i - box.lower i) * (d + 1) / dc - (x i - box.lower i) * (d + 1) / dc = -((x i - y i) * ((d + 1) / dc)) := by
      field_simp; ring
    rw [c1] at b1
    rw [c2] at b2
    have hpos : 0 < (d + 1 : ℝ) / dc := by positivity
    have e2 : dc / (d + 1) = ((d + 1 : ℝ) / dc)⁻¹ := by rw [inv_div]
    rw [e2, abs_lt]
    constructor
    · rw [neg_lt, ← one_div, lt_div_iff₀ hpos]; linarith
    · rw [← one_div, lt_div_iff₀ hpos]; linarith
  calc cs.distance x y ≤ ∑ i, |x i - y i| := distance_le_sum hb x y
    _ ≤ ∑ _i : Fin d, dc / (d + 1) := Finset.sum_le_sum fun i _ => (hclose i).le
    _ = d * (dc / (d + 1)) := by simp
    _ < dc := by
      rw [mul_div_assoc', div_lt_iff₀ hd1]; nlinarith

/-- the packing argument for points in any box -/
theorem packing_within {cs : CoordSys d} (box : CoordSys d) (hb : ProperBox cs) {dc : ℝ} (hdc : 0 < dc) {K : ℕ} {L : List (Vec d)}
    (h : SpreadList cs dc K L) (hbox : ∀ x ∈ L, ∀ i, box.lower i ≤ x i ∧ x i ≤ box.upper i) : L.length ≤ (K + 1) * ∏ i, packCells box dc i := by
  rw [length_eq_sum (packCell box dc) (packGrid box dc) L fun x hx => packCell_mem hdc fun i => (hbox x hx i).2]
  calc _ ≤ ∑ _a ∈ packGrid box dc, (K + 1) := by
        apply Finset.sum_le_sum
        intro a _
        apply h.cluster (fun x => packCell box dc x = a)
        intro x hx y hy hxa hya
        exact packCell_close hb hdc (fun i => (hbox x hx i).1) (fun i => (hbox y hy i).1) (hxa.trans hya.symm)
    _ = (K + 1) * ∏ i, packCells box dc i := by rw [Finset.sum_const, card_packGrid, smul_eq_mul, mul_comm]

theorem packing {cs : CoordSys d} (hb : ProperBox cs) {dc : ℝ} (hdc : 0 < dc) {K : ℕ} {L : List (Vec d)}
    (h : SpreadList cs dc K L) (hbox : ∀ x ∈ L, InBox cs x) : L.length ≤ (K + 1) * ∏ i, packCells cs dc i :=
  packing_within cs hb hdc h fun x hx i => ⟨(hbox x hx i).1, (hbox x hx i).2.le⟩

end NF
