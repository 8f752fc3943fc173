import Verif.Spec.Volume
import Verif.Lemmas.NelderMead
import Mathlib.LinearAlgebra.Matrix.NonsingularInverse
import Mathlib.LinearAlgebra.Matrix.ToLin

/-! # Determinants of simplices -/

noncomputable section
open Classical
namespace NF
open Spec

variable {d : ℕ}

/-- the matrix with rows `(1, S i)` -/
def hmat (S : Sim d) : Matrix (Fin (d + 1)) (Fin (d + 1)) ℝ := Matrix.of fun i => Fin.cons 1 (S i)

theorem det_hmat (S : Sim d) : (hmat S).det = (Matrix.of fun i j : Fin d => S i.succ j - S 0 j).det := by
  have h1 : (hmat S).det = (Matrix.of fun i : Fin (d + 1) => if i = 0 then Fin.cons 1 (S 0) else (Fin.cons 0 fun j => S i j - S 0 j : Fin (d + 1) → ℝ)).det := by
    refine Matrix.det_eq_of_forall_row_eq_smul_add_const (fun i => if i = 0 then 0 else 1) 0 (by simp) fun i j => ?_
    by_cases hi : i = 0
    · subst hi; simp [hmat]
    · refine Fin.cases ?_ (fun j => ?_) j <;> simp [hmat, hi]
  rw [h1, Matrix.det_succ_column_zero, Finset.sum_eq_single 0]
  · simp only [Fin.val_zero, pow_zero, one_mul, Matrix.of_apply, if_true, Fin.cons_zero]
    congr 1
  · intro i _ hi
    simp [hi]
  · simp

theorem volume_eq (S : Sim d) : volume S = |(hmat S).det| / d.factorial := by rw [det_hmat, volume]

theorem volume_perm (S : Sim d) (σ : Equiv.Perm (Fin (d + 1))) : volume (S ∘ σ) = volume S := by
  rw [volume_eq, volume_eq]
  have : hmat (S ∘ σ) = (hmat S).submatrix σ id := rfl
  rw [this, Matrix.det_permute, abs_mul]
  congr 1
  rcases Int.units_eq_one_or (Equiv.Perm.sign σ) with h | h <;> rw [h] <;> simp

theorem hmat_update (S : Sim d) (i : Fin (d + 1)) (x : Vec d) : hmat (Function.update S i x) = (hmat S).updateRow i (Fin.cons 1 x) := by
  ext a b
  by_cases h : a = i
  · subst h; simp [hmat, Matrix.updateRow_self]
  · simp [hmat, h, Matrix.updateRow_ne]

theorem volume_point (hd : 1 ≤ d) (S : Sim d) (c : ℝ) : volume (Function.update S (Fin.last d) (nmPoint S c)) = |c| * volume S := by
  rw [volume_eq, volume_eq, hmat_update]
  have hrow : (Fin.cons 1 (nmPoint S c) : Fin (d + 1) → ℝ) = (∑ i : Fin d, ((1 + c) / d) • hmat S i.castSucc) + (-c) • hmat S (Fin.last d) := by
    have hd' : (d : ℝ) ≠ 0 := by exact_mod_cast (by omega : d ≠ 0)
    funext j
    refine Fin.cases ?_ (fun j => ?_) j
    · simp [hmat]; field_simp; ring
    · simp only [Fin.cons_succ, nmPoint, xbar, Pi.add_apply, Finset.sum_apply, Pi.smul_apply, smul_eq_mul, hmat, Matrix.of_apply]
      rw [← Finset.mul_sum]
      ring
  have hsum : (Fin.cons 1 (nmPoint S c) : Fin (d + 1) → ℝ) = ∑ k, (Fin.lastCases (-c) (fun _ => (1 + c) / d) k : ℝ) • hmat S k := by
    rw [Fin.sum_univ_castSucc, hrow]
    simp
  rw [hsum, Matrix.det_updateRow_sum]
  simp only [Fin.lastCases_last, smul_eq_mul, abs_mul, abs_neg]
  ring

theorem volume_homothety (S : Sim d) (t : ℝ) : volume (fun i k => S 0 k + t * (S i k - S 0 k)) = |t| ^ d * volume S := by
  unfold volume
  have : (Matrix.of fun i j : Fin d => (S 0 j + t * (S i.succ j - S 0 j)) - (S 0 j + t * (S 0 j - S 0 j))) =
      t • Matrix.of fun i j : Fin d => S i.succ j - S 0 j := by
    ext i j
    simp
  rw [this, Matrix.det_smul, abs_mul, abs_pow]
  simp
  ring

theorem volume_move (hd : 1 ≤ d) (f : ℕ → Vec d → FVal) (s : NMState d) :
    ∃ c ∈ ({1, 2, 1 / 2, 1 / 2 ^ d} : Set ℝ), volume (nmMove f s).sim = c * volume s.sim := by
  have hp : ∀ c x v tr, (∃ t, x = nmPoint s.sim t ∧ |t| = c) → volume (setLast s x v tr).sim = c * volume s.sim := by
    rintro c x v tr ⟨t, rfl, rfl⟩
    exact volume_point hd s.sim t
  have hsh : ∀ tr, volume (nmShrink f s tr).sim = 1 / 2 ^ d * volume s.sim := fun tr => by
    have : (nmShrink f s tr).sim = fun i k => s.sim 0 k + 0.5 * (s.sim i k - s.sim 0 k) := by
      funext i
      refine Fin.cases ?_ (fun i => ?_) i
      · simp [nmShrink]
      · simp [nmShrink]
    rw [this, volume_homothety]
    congr 1
    rw [abs_of_nonneg (by norm_num), show (0.5 : ℝ) = 1 / 2 by norm_num, one_div_pow]
  unfold nmMove
  simp only
  split_ifs
  · exact ⟨2, by simp, hp _ _ _ _ ⟨_, rfl, by norm_num⟩⟩
  · exact ⟨1, by simp, hp _ _ _ _ ⟨_, rfl, by norm_num⟩⟩
  · exact ⟨1, by simp, hp _ _ _ _ ⟨_, rfl, by norm_num⟩⟩
  · exact ⟨1 / 2, by simp, hp _ _ _ _ ⟨_, rfl, by rw [abs_of_nonneg] <;> norm_num⟩⟩
  · exact ⟨1 / 2 ^ d, by simp, hsh _⟩
  · exact ⟨1 / 2, by simp, hp _ _ _ _ ⟨_, rfl, by rw [abs_of_nonpos] <;> norm_num⟩⟩
  · exact ⟨1 / 2 ^ d, by simp, hsh _⟩

theorem volume_iter (hd : 1 ≤ d) (P : NMParams) (argsort : Argsort d) (f : ℕ → Vec d → FVal) (s : NMState d) :
    ∃ c ∈ ({1, 2, 1 / 2, 1 / 2 ^ d} : Set ℝ), volume (nmIter P argsort f s).sim = c * volume s.sim := by
  obtain ⟨c, hc, h⟩ := volume_move hd f s
  refine ⟨c, hc, ?_⟩
  rw [← h]
  exact volume_perm _ _

theorem volume_nonneg (S : Sim d) : 0 ≤ volume S := by unfold volume; positivity

theorem affineIndependent_iff_volume (S : Sim d) : AffineIndependent ℝ S ↔ volume S ≠ 0 := by
  rw [affineIndependent_iff_linearIndependent_vsub ℝ S 0]
  rw [← linearIndependent_equiv (finSuccAboveEquiv (0 : Fin (d + 1)))]
  have e : ((fun i : {x // x ≠ (0 : Fin (d + 1))} => (S i -ᵥ S 0 : Vec d)) ∘ finSuccAboveEquiv (0 : Fin (d + 1))) =
      (Matrix.of fun i j : Fin d => S i.succ j - S 0 j).row := by
    funext i j
    simp [finSuccAboveEquiv_apply, Matrix.row]
  rw [e, Matrix.linearIndependent_rows_iff_isUnit, Matrix.isUnit_iff_isUnit_det, isUnit_iff_ne_zero, volume]
  have : (d.factorial : ℝ) ≠ 0 := by exact_mod_cast d.factorial_ne_zero
  rw [Ne, Ne, div_eq_zero_iff, not_or, abs_eq_zero]
  exact ⟨fun h => ⟨h, this⟩, fun h => h.1⟩

end NF
