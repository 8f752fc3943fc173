import Verif.Model.Mesh
import Verif.Spec.Controller
import Mathlib.Algebra.BigOperators.Fin
import Mathlib.LinearAlgebra.AffineSpace.Independent
import Mathlib.Tactic.FieldSimp
import Mathlib.Tactic.Linarith
import Mathlib.Tactic.Positivity

/-! # Lemmas about the mesh -/

noncomputable section
open Classical

namespace NF
open Spec
variable {d : ℕ}

theorem mem_productList {ls : Fin d → List ℝ} {v : Vec d} : v ∈ productList ls ↔ ∀ i, v i ∈ ls i := by
  induction d with
  | zero => simp [productList]; funext i; exact i.elim0
  | succ d ih =>
    simp only [productList, List.mem_flatMap, List.mem_map]
    constructor
    · rintro ⟨x, hx, w, hw, rfl⟩ i
      refine Fin.cases (by simpa using hx) (fun j => ?_) i
      simpa using ih.1 hw j
    · intro h
      exact ⟨v 0, h 0, fun i => v i.succ, ih.2 fun i => h i.succ, Fin.cons_self_tail v⟩

theorem length_productList (ls : Fin d → List ℝ) : (productList ls).length = ∏ i, (ls i).length := by
  induction d with
  | zero => simp [productList]
  | succ d ih =>
    simp [productList, List.length_flatMap, ih, Fin.prod_univ_succ, List.map_const', List.sum_replicate]

theorem nodup_productList {ls : Fin d → List ℝ} (h : ∀ i, (ls i).Nodup) : (productList ls).Nodup := by
  induction d with
  | zero => simp [productList]
  | succ d ih =>
    simp only [productList]
    rw [List.nodup_flatMap]
    refine ⟨fun x _ => (List.nodup_map_iff ?_).2 (ih fun i => h i.succ), ?_⟩
    · intro a b hab
      exact (Fin.cons_injective2 hab).2
    · refine (h 0).imp fun {x y} hxy => ?_
      intro v hv hw
      simp only [List.mem_map] at hv hw
      obtain ⟨a, -, rfl⟩ := hv
      obtain ⟨b, -, hb⟩ := hw
      exact hxy (Fin.cons_injective2 hb).1.symm

theorem length_linspace (l u : ℝ) (m : ℕ) (e : Bool) : (linspace l u m e).length = m := by simp [linspace]

theorem mem_linspace {l u : ℝ} {m : ℕ} {e : Bool} {x : ℝ} :
    x ∈ linspace l u m e ↔ ∃ k < m, x = l + k * ((u - l) / (if e then (m : ℝ) - 1 else m)) := by
  simp only [linspace, List.mem_map, List.mem_range]
  constructor <;> rintro ⟨k, hk, h⟩ <;> exact ⟨k, hk, h.symm⟩

theorem step_pos {l u : ℝ} (h : l < u) {m k : ℕ} (hk : k < m) (e : Bool) (h0 : k ≠ 0) :
    0 < (u - l) / (if e then (m : ℝ) - 1 else m) := by
  have hm : (2 : ℝ) ≤ m := by exact_mod_cast (by omega : 2 ≤ m)
  apply div_pos (by linarith)
  split <;> linarith

theorem nodup_linspace {l u : ℝ} (h : l < u) (m : ℕ) (e : Bool) : (linspace l u m e).Nodup := by
  refine (List.nodup_map_iff_inj_on List.nodup_range).2 fun i hi j hj hij => ?_
  simp only [List.mem_range] at hi hj
  by_contra hne
  have hp : 0 < (u - l) / (if e then (m : ℝ) - 1 else m) := by
    by_cases h0 : i = 0
    · exact step_pos h hj e (by omega)
    · exact step_pos h hi e h0
  have : (i : ℝ) = j := by
    have := add_left_cancel hij
    exact mul_right_cancel₀ hp.ne' this
  exact hne (by exact_mod_cast this)

theorem linspace_mem_Icc {l u : ℝ} (h : l < u) {m : ℕ} {e : Bool} {x : ℝ} (hx : x ∈ linspace l u m e) :
    l ≤ x ∧ x ≤ u ∧ (e = false → x + (u - l) / m ≤ u) := by
  obtain ⟨k, hk, rfl⟩ := mem_linspace.1 hx
  have hk' : (k : ℝ) + 1 ≤ m := by exact_mod_cast hk
  have hm : (0 : ℝ) < m := by have : (0 : ℝ) ≤ k := by positivity
                              linarith
  have hul : 0 < u - l := by linarith
  cases e with
  | false =>
    simp only [Bool.false_eq_true, if_false]
    have e1 : (k : ℝ) * ((u - l) / m) + (u - l) / m = (u - l) * ((k + 1) / m) := by field_simp
    have e2 : (u - l) * (((k : ℝ) + 1) / m) ≤ u - l := by
      have : ((k : ℝ) + 1) / m ≤ 1 := (div_le_one hm).2 hk'
      nlinarith
    have e3 : 0 ≤ (u - l) / m := by positivity
    have e4 : 0 ≤ (k : ℝ) * ((u - l) / m) := by positivity
    refine ⟨by linarith, by linarith, fun _ => by linarith⟩
  | true =>
    simp only [if_true]
    refine ⟨?_, ?_, by simp⟩
    · by_cases h0 : k = 0
      · simp [h0]
      · have := step_pos h hk true h0
        simp only [if_true] at this
        have : 0 ≤ (k : ℝ) * ((u - l) / ((m : ℝ) - 1)) := by positivity
        linarith
    · by_cases h0 : k = 0
      · simp [h0]; linarith
      · have hm1 : (0 : ℝ) < (m : ℝ) - 1 := by
          have : (1 : ℝ) ≤ k := by exact_mod_cast (by omega : 1 ≤ k)
          linarith
        have e1 : (k : ℝ) * ((u - l) / ((m : ℝ) - 1)) = (u - l) * (k / (m - 1)) := by field_simp
        have : (k : ℝ) / (m - 1) ≤ 1 := (div_le_one hm1).2 (by linarith)
        nlinarith

theorem mem_meshVertices {l u : Vec d} {m : Fin d → ℕ} {p s : Bool} {v : Vec d} :
    v ∈ meshVertices l u m p s ↔ (∀ i, v i ∈ linspace (l i) (u i) (m i) (!p)) ∧ (s = true → ¬ allcloseZero v) := by
  unfold meshVertices
  simp only
  split
  · rename_i hs
    simp [List.mem_filter, mem_productList, hs]
  · rename_i hs
    simp [mem_productList, hs]

theorem nodup_meshVertices {l u : Vec d} (h : ∀ i, l i < u i) (m : Fin d → ℕ) (p s : Bool) : (meshVertices l u m p s).Nodup := by
  unfold meshVertices
  simp only
  have := nodup_productList fun i => nodup_linspace (h i) (m i) (!p)
  split
  · exact this.filter _
  · exact this

theorem meshSimplex_eq (l u : Vec d) (m : Fin d → ℕ) (v : Vec d) : meshSimplex l u m v =
    v :: List.ofFn fun i : Fin d => fun k => v k + (if k = i then (u i - l i) / (2 * m i) else 0) := by
  unfold meshSimplex
  rw [List.ofFn_succ]
  congr 1
  · funext k; simp [simplexStencil]
  · congr 1
    funext i k
    simp only [simplexStencil, Fin.cons_succ, Pi.single_apply]

theorem mem_meshSimplex {l u : Vec d} {m : Fin d → ℕ} {v w : Vec d} : w ∈ meshSimplex l u m v ↔
    w = v ∨ ∃ i, w = fun k => v k + (if k = i then (u i - l i) / (2 * m i) else 0) := by
  rw [meshSimplex_eq, List.mem_cons, List.mem_ofFn]
  constructor <;> rintro (h | ⟨i, h⟩) <;> first | exact .inl h | exact .inr ⟨i, h.symm⟩

theorem base_le {l u : Vec d} (h : ∀ i, l i < u i) {m : Fin d → ℕ} {v w : Vec d} (hw : w ∈ meshSimplex l u m v) (k : Fin d) :
    v k ≤ w k ∧ w k ≤ v k + (u k - l k) / (2 * m k) := by
  have hn : 0 ≤ (u k - l k) / (2 * m k) := by
    have := h k
    apply div_nonneg (by linarith) (by positivity)
  rcases mem_meshSimplex.1 hw with rfl | ⟨i, rfl⟩
  · exact ⟨le_rfl, by linarith⟩
  · simp only
    split
    · rename_i e; subst e; exact ⟨by linarith, le_rfl⟩
    · exact ⟨by linarith, by linarith⟩

theorem perm_base {l u : Vec d} (h : ∀ i, l i < u i) {m : Fin d → ℕ} {v w : Vec d}
    (hp : (meshSimplex l u m v).Perm (meshSimplex l u m w)) : v = w := by
  have h1 : v ∈ meshSimplex l u m w := hp.mem_iff.1 (mem_meshSimplex.2 (.inl rfl))
  have h2 : w ∈ meshSimplex l u m v := hp.mem_iff.2 (mem_meshSimplex.2 (.inl rfl))
  funext k
  exact le_antisymm (base_le h h2 k).1 (base_le h h1 k).1

theorem distinct_mesh {l u : Vec d} (h : ∀ i, l i < u i) (m : Fin d → ℕ) (p s : Bool) :
    DistinctSimplices (generateMeshSimplices l u m p s) := by
  unfold DistinctSimplices generateMeshSimplices
  rw [List.pairwise_map]
  exact (nodup_meshVertices h m p s).imp fun hne hp => hne (perm_base h hp)

theorem affineIndependent_mesh {l u : Vec d} (h : ∀ i, l i < u i) {m : Fin d → ℕ} (hm : ∀ i, 1 ≤ m i) (v : Vec d) :
    AffineIndependent ℝ (fun j : Fin (d + 1) => fun k => v k + simplexStencil l u m j k) := by
  rw [affineIndependent_iff_of_fintype]
  intro w hw0 hw
  rw [Finset.weightedVSub_eq_linear_combination (hw := hw0)] at hw
  have hcoord : ∀ i : Fin d, w i.succ = 0 := fun i => by
    have := congrFun hw i
    simp only [Finset.sum_apply, Pi.smul_apply, smul_eq_mul, Pi.zero_apply, mul_add, Finset.sum_add_distrib] at this
    rw [← Finset.sum_mul, hw0, zero_mul, zero_add, Fin.sum_univ_succ] at this
    simp only [simplexStencil, Fin.cons_zero, mul_zero, Fin.cons_succ, zero_add, Pi.single_apply] at this
    simp only [mul_ite, mul_zero, Finset.sum_ite_eq, Finset.mem_univ, if_true] at this
    have hpos : (u i - l i) / (2 * m i) ≠ 0 := by
      have h1 := h i
      have h2 : (1 : ℝ) ≤ m i := by exact_mod_cast hm i
      apply (div_pos (by linarith) (by linarith)).ne'
    rcases mul_eq_zero.1 this with h | h
    · exact h
    · exact absurd h hpos
  intro j
  refine Fin.cases ?_ hcoord j
  rw [Fin.sum_univ_succ] at hw0
  simpa [hcoord] using hw0

end NF
