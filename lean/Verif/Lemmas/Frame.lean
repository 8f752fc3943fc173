import Verif.Spec.Frame
import Verif.Lemmas.NelderMead
import Mathlib.Data.Fin.Tuple.Sort

/-! # Lemmas: the minimizer in other coordinates and units -/

noncomputable section
open Classical

namespace NF
open Spec
variable {d : ℕ}

/-! ## Values -/

theorem fval_cases (v : FVal) : v = FVal.nan ∨ v = FVal.inf ∨ v = FVal.ninf ∨ ∃ r, v = FVal.ofReal r := by
  cases v with
  | none => exact .inl rfl
  | some x =>
    induction x with
    | bot => exact .inr (.inr (.inl rfl))
    | top => exact .inr (.inl rfl)
    | coe r => exact .inr (.inr (.inr ⟨r, rfl⟩))

theorem fval_real_lt {a b : ℝ} : FVal.ofReal a < FVal.ofReal b ↔ a < b := by
  unfold FVal.ofReal
  rw [WithTop.coe_lt_coe, EReal.coe_lt_coe_iff]

theorem fval_real_inj {a b : ℝ} : FVal.ofReal a = FVal.ofReal b ↔ a = b := by
  unfold FVal.ofReal
  rw [WithTop.coe_inj, EReal.coe_eq_coe_iff]

theorem fval_real_lt_inf (a : ℝ) : FVal.ofReal a < FVal.inf := WithTop.coe_lt_coe.2 (EReal.coe_lt_top a)
theorem fval_ninf_lt_real (a : ℝ) : FVal.ninf < FVal.ofReal a := WithTop.coe_lt_coe.2 (EReal.bot_lt_coe a)
theorem fval_ninf_lt_inf : FVal.ninf < FVal.inf := WithTop.coe_lt_coe.2 bot_lt_top
theorem fval_lt_nan {v : FVal} (h : v ≠ FVal.nan) : v < FVal.nan := lt_top_iff_ne_top.2 h
theorem fval_real_ne_nan (a : ℝ) : FVal.ofReal a ≠ FVal.nan := WithTop.coe_ne_top
theorem fval_inf_ne_nan : FVal.inf ≠ FVal.nan := WithTop.coe_ne_top
theorem fval_ninf_ne_nan : FVal.ninf ≠ FVal.nan := WithTop.coe_ne_top

theorem frame_val_nan (u : Frame d) : u.val FVal.nan = FVal.nan := rfl
theorem frame_val_inf (u : Frame d) : u.val FVal.inf = FVal.inf := by
  change (if (⊤ : EReal) = ⊤ then FVal.inf else if (⊤ : EReal) = ⊥ then FVal.ninf else FVal.ofReal (u.energy * (⊤ : EReal).toReal)) = _
  rw [if_pos rfl]
theorem frame_val_ninf (u : Frame d) : u.val FVal.ninf = FVal.ninf := by
  change (if (⊥ : EReal) = ⊤ then FVal.inf else if (⊥ : EReal) = ⊥ then FVal.ninf else FVal.ofReal (u.energy * (⊥ : EReal).toReal)) = _
  rw [if_neg bot_ne_top, if_pos rfl]
theorem frame_val_real (u : Frame d) (r : ℝ) : u.val (FVal.ofReal r) = FVal.ofReal (u.energy * r) := by
  change (if (r : EReal) = ⊤ then FVal.inf else if (r : EReal) = ⊥ then FVal.ninf else FVal.ofReal (u.energy * (r : EReal).toReal)) = _
  rw [if_neg (EReal.coe_ne_top r), if_neg (EReal.coe_ne_bot r), EReal.toReal_coe]

theorem frame_val_strictMono (u : Frame d) : StrictMono u.val := by
  intro a b h
  rcases fval_cases a with rfl | rfl | rfl | ⟨r, rfl⟩
  · exact absurd h not_top_lt
  · rcases fval_cases b with rfl | rfl | rfl | ⟨s, rfl⟩
    · rw [frame_val_nan, frame_val_inf]; exact h
    · exact absurd h (lt_irrefl _)
    · exact absurd h (lt_asymm fval_ninf_lt_inf)
    · exact absurd h (lt_asymm (fval_real_lt_inf s))
  · rcases fval_cases b with rfl | rfl | rfl | ⟨s, rfl⟩
    · rw [frame_val_nan, frame_val_ninf]; exact h
    · rw [frame_val_inf, frame_val_ninf]; exact h
    · exact absurd h (lt_irrefl _)
    · rw [frame_val_real, frame_val_ninf]; exact fval_ninf_lt_real _
  · rcases fval_cases b with rfl | rfl | rfl | ⟨s, rfl⟩
    · rw [frame_val_nan, frame_val_real]; exact fval_lt_nan (fval_real_ne_nan _)
    · rw [frame_val_inf, frame_val_real]; exact fval_real_lt_inf _
    · exact absurd h (lt_asymm (fval_ninf_lt_real r))
    · rw [frame_val_real, frame_val_real, fval_real_lt]
      exact mul_lt_mul_of_pos_left (fval_real_lt.1 h) u.energy_pos

theorem frame_val_inj (u : Frame d) {a b : FVal} : u.val a = u.val b ↔ a = b := (frame_val_strictMono u).injective.eq_iff

theorem frame_val_eq_nan (u : Frame d) {a : FVal} : u.val a = FVal.nan ↔ a = FVal.nan := by
  rw [← frame_val_nan u, frame_val_inj, frame_val_nan]

theorem frame_lt (u : Frame d) {a b : FVal} : FVal.lt (u.val a) (u.val b) ↔ FVal.lt a b := by
  unfold FVal.lt
  rw [Ne, Ne, frame_val_eq_nan, frame_val_eq_nan, (frame_val_strictMono u).lt_iff_lt]

theorem frame_le (u : Frame d) {a b : FVal} : FVal.le (u.val a) (u.val b) ↔ FVal.le a b := by
  unfold FVal.le
  rw [Ne, Ne, frame_val_eq_nan, frame_val_eq_nan, (frame_val_strictMono u).le_iff_le]

theorem frame_gt (u : Frame d) {a b : FVal} : FVal.gt (u.val a) (u.val b) ↔ FVal.gt a b := frame_lt u

theorem absDiff_real (a b : ℝ) : FVal.absDiff (FVal.ofReal a) (FVal.ofReal b) = FVal.ofReal |a - b| := by
  simp only [FVal.ofReal, FVal.absDiff]
  rw [if_neg (by simp), if_neg (by
    rintro (h | h | h | h)
    exacts [EReal.coe_ne_top _ h, EReal.coe_ne_bot _ h, EReal.coe_ne_top _ h, EReal.coe_ne_bot _ h])]
  simp

theorem absDiff_inf_real (a : ℝ) : FVal.absDiff FVal.inf (FVal.ofReal a) = FVal.inf := by
  simp [FVal.ofReal, FVal.inf, FVal.absDiff]
theorem absDiff_real_inf (a : ℝ) : FVal.absDiff (FVal.ofReal a) FVal.inf = FVal.inf := by
  simp [FVal.ofReal, FVal.inf, FVal.absDiff]
theorem absDiff_ninf_real (a : ℝ) : FVal.absDiff FVal.ninf (FVal.ofReal a) = FVal.inf := by
  simp [FVal.ofReal, FVal.inf, FVal.ninf, FVal.absDiff]
theorem absDiff_real_ninf (a : ℝ) : FVal.absDiff (FVal.ofReal a) FVal.ninf = FVal.inf := by
  simp [FVal.ofReal, FVal.inf, FVal.ninf, FVal.absDiff]
theorem absDiff_inf_ninf : FVal.absDiff FVal.inf FVal.ninf = FVal.inf := by
  simp [FVal.inf, FVal.ninf, FVal.absDiff]
theorem absDiff_ninf_inf : FVal.absDiff FVal.ninf FVal.inf = FVal.inf := by
  simp [FVal.inf, FVal.ninf, FVal.absDiff]
theorem absDiff_inf_inf : FVal.absDiff FVal.inf FVal.inf = FVal.nan := by
  simp [FVal.inf, FVal.absDiff]
theorem absDiff_ninf_ninf : FVal.absDiff FVal.ninf FVal.ninf = FVal.nan := by
  simp [FVal.ninf, FVal.absDiff]
theorem absDiff_nan_left (a : FVal) : FVal.absDiff FVal.nan a = FVal.nan := by
  simp [FVal.nan, FVal.absDiff]
theorem absDiff_nan_right (a : FVal) : FVal.absDiff a FVal.nan = FVal.nan := by
  rcases fval_cases a with rfl | rfl | rfl | ⟨r, rfl⟩ <;> rfl

theorem frame_absDiff (u : Frame d) (a b : FVal) : FVal.absDiff (u.val a) (u.val b) = u.val (FVal.absDiff a b) := by
  rcases fval_cases a with rfl | rfl | rfl | ⟨r, rfl⟩ <;> rcases fval_cases b with rfl | rfl | rfl | ⟨s, rfl⟩ <;>
    simp only [frame_val_nan, frame_val_inf, frame_val_ninf, frame_val_real, absDiff_real, absDiff_inf_real, absDiff_real_inf, absDiff_ninf_real, absDiff_real_ninf, absDiff_inf_ninf,
      absDiff_ninf_inf, absDiff_inf_inf, absDiff_ninf_ninf, absDiff_nan_left, absDiff_nan_right]
  rw [← mul_sub, abs_mul, abs_of_pos u.energy_pos]

theorem fadd_real (a b : ℝ) : FVal.add (FVal.ofReal a) (FVal.ofReal b) = FVal.ofReal (a + b) := by
  simp [FVal.ofReal, FVal.add]
theorem fadd_inf_real (a : ℝ) : FVal.add FVal.inf (FVal.ofReal a) = FVal.inf := by
  simp [FVal.ofReal, FVal.inf, FVal.add]
theorem fadd_real_inf (a : ℝ) : FVal.add (FVal.ofReal a) FVal.inf = FVal.inf := by
  simp [FVal.ofReal, FVal.inf, FVal.add]
theorem fadd_ninf_real (a : ℝ) : FVal.add FVal.ninf (FVal.ofReal a) = FVal.ninf := by
  simp [FVal.ofReal, FVal.ninf, FVal.add]
theorem fadd_real_ninf (a : ℝ) : FVal.add (FVal.ofReal a) FVal.ninf = FVal.ninf := by
  simp [FVal.ofReal, FVal.ninf, FVal.add]
theorem fadd_inf_ninf : FVal.add FVal.inf FVal.ninf = FVal.nan := by
  simp [FVal.inf, FVal.ninf, FVal.add]
theorem fadd_ninf_inf : FVal.add FVal.ninf FVal.inf = FVal.nan := by
  simp [FVal.inf, FVal.ninf, FVal.add]
theorem fadd_inf_inf : FVal.add FVal.inf FVal.inf = FVal.inf := by
  simp [FVal.inf, FVal.add]
theorem fadd_ninf_ninf : FVal.add FVal.ninf FVal.ninf = FVal.ninf := by
  simp [FVal.ninf, FVal.add]
theorem fadd_nan_left (a : FVal) : FVal.add FVal.nan a = FVal.nan := by
  simp [FVal.nan, FVal.add]
theorem fadd_nan_right (a : FVal) : FVal.add a FVal.nan = FVal.nan := by
  rcases fval_cases a with rfl | rfl | rfl | ⟨r, rfl⟩ <;> rfl

theorem frame_add (u : Frame d) (a b : FVal) : FVal.add (u.val a) (u.val b) = u.val (FVal.add a b) := by
  rcases fval_cases a with rfl | rfl | rfl | ⟨r, rfl⟩ <;> rcases fval_cases b with rfl | rfl | rfl | ⟨s, rfl⟩ <;>
    simp only [frame_val_nan, frame_val_inf, frame_val_ninf, frame_val_real, fadd_real, fadd_inf_real, fadd_real_inf, fadd_ninf_real, fadd_real_ninf, fadd_inf_ninf,
      fadd_ninf_inf, fadd_inf_inf, fadd_ninf_ninf, fadd_nan_left, fadd_nan_right]
  rw [← mul_add]

theorem divReal_nan (b : ℝ) : FVal.divReal FVal.nan b = FVal.nan := rfl
theorem divReal_inf (b : ℝ) : FVal.divReal FVal.inf b = if 0 ≤ b then FVal.inf else FVal.ninf := by
  change (if b = 0 then (if (⊤ : EReal) = 0 then FVal.nan else if 0 < (⊤ : EReal) then FVal.inf else FVal.ninf) else (((⊤ / (b : EReal) : EReal)) : WithTop EReal)) = _
  rcases lt_trichotomy b 0 with h | rfl | h
  · rw [if_neg h.ne, if_neg (not_le.2 h), EReal.top_div_of_neg_ne_bot (by exact_mod_cast h) (EReal.coe_ne_bot b)]
    rfl
  · simp
  · rw [if_neg h.ne', if_pos h.le, EReal.top_div_of_pos_ne_top (by exact_mod_cast h) (EReal.coe_ne_top b)]
    rfl
theorem divReal_ninf (b : ℝ) : FVal.divReal FVal.ninf b = if 0 ≤ b then FVal.ninf else FVal.inf := by
  change (if b = 0 then (if (⊥ : EReal) = 0 then FVal.nan else if 0 < (⊥ : EReal) then FVal.inf else FVal.ninf) else (((⊥ / (b : EReal) : EReal)) : WithTop EReal)) = _
  rcases lt_trichotomy b 0 with h | rfl | h
  · rw [if_neg h.ne, if_neg (not_le.2 h), EReal.bot_div_of_neg_ne_bot (by exact_mod_cast h) (EReal.coe_ne_bot b)]
    rfl
  · simp
  · rw [if_neg h.ne', if_pos h.le, EReal.bot_div_of_pos_ne_top (by exact_mod_cast h) (EReal.coe_ne_top b)]
    rfl
theorem divReal_real (r b : ℝ) : FVal.divReal (FVal.ofReal r) b =
    if b = 0 then (if r = 0 then FVal.nan else if 0 < r then FVal.inf else FVal.ninf) else FVal.ofReal (r / b) := by
  change (if b = 0 then (if (r : EReal) = 0 then FVal.nan else if 0 < (r : EReal) then FVal.inf else FVal.ninf) else ((((r : EReal) / (b : EReal) : EReal)) : WithTop EReal)) = _
  simp only [EReal.coe_eq_zero, EReal.coe_pos]
  split
  · rfl
  · rw [← EReal.coe_div]; rfl

/-- Division, and comparison of the quotient, in other units. -/
theorem frame_div_gt (u : Frame d) (a : FVal) (b c : ℝ) :
    FVal.gt (FVal.divReal (u.val a) (u.scale * b)) (FVal.ofReal (u.energy / u.scale * c)) ↔ FVal.gt (FVal.divReal a b) (FVal.ofReal c) := by
  have hs := u.scale_pos
  have he := u.energy_pos
  have hb : u.scale * b = 0 ↔ b = 0 := by simp [hs.ne']
  have hb' : 0 ≤ u.scale * b ↔ 0 ≤ b := by constructor <;> intro h <;> nlinarith
  have hlt : ∀ v w : ℝ, FVal.gt (FVal.ofReal v) (FVal.ofReal w) ↔ w < v := fun v w =>
    ⟨fun h => fval_real_lt.1 h.2.2, fun h => ⟨fval_real_ne_nan _, fval_real_ne_nan _, fval_real_lt.2 h⟩⟩
  have hinf : ∀ w : ℝ, FVal.gt FVal.inf (FVal.ofReal w) ↔ True := fun w =>
    ⟨fun _ => trivial, fun _ => ⟨fval_real_ne_nan _, fval_inf_ne_nan, fval_real_lt_inf w⟩⟩
  have hninf : ∀ w : ℝ, FVal.gt FVal.ninf (FVal.ofReal w) ↔ False := fun w =>
    ⟨fun h => absurd h.2.2 (lt_asymm (fval_ninf_lt_real w)), False.elim⟩
  have hnan : ∀ w : ℝ, FVal.gt FVal.nan (FVal.ofReal w) ↔ False := fun w => ⟨fun h => absurd rfl h.2.1, False.elim⟩
  rcases fval_cases a with rfl | rfl | rfl | ⟨r, rfl⟩
  · rw [frame_val_nan, divReal_nan, divReal_nan, hnan, hnan]
  · rw [frame_val_inf, divReal_inf, divReal_inf]
    simp only [hb']
    split
    · rw [hinf, hinf]
    · rw [hninf, hninf]
  · rw [frame_val_ninf, divReal_ninf, divReal_ninf]
    simp only [hb']
    split
    · rw [hninf, hninf]
    · rw [hinf, hinf]
  · rw [frame_val_real, divReal_real, divReal_real]
    simp only [hb, mul_eq_zero, he.ne', false_or, mul_pos_iff_of_pos_left he]
    split
    · split
      · rw [hnan, hnan]
      · split
        · rw [hinf, hinf]
        · rw [hninf, hninf]
    · rw [hlt, hlt, mul_div_mul_comm, mul_lt_mul_iff_of_pos_left (div_pos he hs)]

theorem frame_npMin (u : Frame d) {n : ℕ} (v : Fin (n + 1) → FVal) : npMin (fun i => u.val (v i)) = u.val (npMin v) := by
  unfold npMin
  simp only [frame_val_eq_nan]
  split
  · rfl
  · exact (Finset.apply_inf'_eq_inf'_comp (g := u.val) Finset.univ_nonempty (fun a b => (frame_val_strictMono u).monotone.map_inf a b)).symm

/-! ## Positions -/

theorem frame_pos_inj (u : Frame d) : Function.Injective u.pos := by
  intro x y h
  funext k
  have := congrFun h (u.perm.symm k)
  simp only [Frame.pos, Equiv.apply_symm_apply, add_left_inj] at this
  rcases u.sign_eq (u.perm.symm k) with h1 | h1 <;> rw [h1] at this
  · exact mul_left_cancel₀ (a := u.scale) u.scale_pos.ne' (by linarith)
  · exact mul_left_cancel₀ (a := u.scale) u.scale_pos.ne' (by linarith)

theorem frame_diff (u : Frame d) (x y : Vec d) (k : Fin d) : |u.pos x k - u.pos y k| = u.scale * |x (u.perm k) - y (u.perm k)| := by
  have : u.pos x k - u.pos y k = u.scale * (u.sign k * (x (u.perm k) - y (u.perm k))) := by simp only [Frame.pos]; ring
  rw [this, abs_mul, abs_mul, abs_of_pos u.scale_pos]
  rcases u.sign_eq k with h | h <;> rw [h] <;> simp

theorem frame_sq (u : Frame d) (x y : Vec d) : ∑ k, (u.pos x k - u.pos y k) ^ 2 = u.scale ^ 2 * ∑ k, (x k - y k) ^ 2 := by
  rw [Finset.mul_sum, ← Equiv.sum_comp u.perm fun k => u.scale ^ 2 * (x k - y k) ^ 2]
  refine Finset.sum_congr rfl fun k _ => ?_
  rw [← sq_abs, frame_diff, mul_pow, sq_abs]

/-- A change of coordinates commutes with affine combinations of two points. -/
theorem frame_affine (u : Frame d) (a : ℝ) (x y : Vec d) :
    u.pos (fun k => (1 + a) * x k - a * y k) = fun k => (1 + a) * u.pos x k - a * u.pos y k := by
  funext k
  simp only [Frame.pos]
  ring

theorem frame_affine' (u : Frame d) (a : ℝ) (x y : Vec d) :
    u.pos (fun k => x k + a * (y k - x k)) = fun k => u.pos x k + a * (u.pos y k - u.pos x k) := by
  funext k
  simp only [Frame.pos]
  ring

/-- a simplex in other coordinates -/
def Spec.Frame.sim (u : Frame d) (s : Sim d) : Sim d := fun i => u.pos (s i)

theorem frame_xbar (u : Frame d) (s : Sim d) : u.pos (xbar s) = xbar (u.sim s) := by
  funext k
  have hd : (d : ℝ) ≠ 0 := by
    have := k.pos
    exact_mod_cast this.ne'
  simp only [Frame.pos, xbar, Frame.sim, Finset.sum_add_distrib, Finset.sum_const, Finset.card_univ, Fintype.card_fin, nsmul_eq_mul, ← Finset.mul_sum]
  field_simp

theorem frame_point (u : Frame d) (s : Sim d) (a : ℝ) : u.pos (nmPoint s a) = nmPoint (u.sim s) a := by
  unfold nmPoint
  rw [frame_affine, frame_xbar]
  rfl

theorem frame_blowup (u : Frame d) (s : Sim d) : u.sim (blowup s) = blowup (u.sim s) := by
  funext i
  exact frame_affine' u 1.5 (s 0) (s i)

theorem frame_fprime (u : Frame d) (s : Sim d) (v : FVal) (c : ℝ) :
    FVal.gt (fprimeEstimate (u.sim s) (u.val v)) (FVal.ofReal (u.energy / u.scale * c)) ↔ FVal.gt (fprimeEstimate s v) (FVal.ofReal c) := by
  unfold fprimeEstimate
  rw [← frame_div_gt u v]
  have h : (Finset.univ.sup' Finset.univ_nonempty fun ij : Fin (d + 1) × Fin (d + 1) => ∑ k, (u.sim s ij.2 k - u.sim s ij.1 k) ^ 2) =
      u.scale ^ 2 * Finset.univ.sup' Finset.univ_nonempty fun ij : Fin (d + 1) × Fin (d + 1) => ∑ k, (s ij.2 k - s ij.1 k) ^ 2 := by
    have hm : Monotone fun x : ℝ => u.scale ^ 2 * x := fun x y h => mul_le_mul_of_nonneg_left h (sq_nonneg _)
    rw [Finset.apply_sup'_eq_sup'_comp (g := fun x : ℝ => u.scale ^ 2 * x) Finset.univ_nonempty (fun a b => hm.map_sup a b)]
    refine Finset.sup'_congr _ rfl fun ij _ => ?_
    exact frame_sq u _ _
  rw [h, Real.sqrt_mul (sq_nonneg _), Real.sqrt_sq u.scale_pos.le]

theorem frame_fprimeExceeded (u : Frame d) (P : NMParams) (s : Sim d) (v : FVal) : fprimeExceeded (u.nm P) (u.sim s) (u.val v) ↔ fprimeExceeded P s v := by
  unfold fprimeExceeded
  cases h : P.fprimeCutoff with
  | none => simp [Frame.nm, h]
  | some c =>
    simp only [Frame.nm, h, Option.map_some]
    exact frame_fprime u s v c

/-! ## The loop -/

/-- the trace in other units -/
def Spec.Frame.trace (u : Frame d) (t : Trace d) : Trace d := ⟨t.ncalls, u.evals t.evals⟩

/-- the variables of the loop in other units -/
def Spec.Frame.st (u : Frame d) (s : NMState d) : NMState d where
  sim := u.sim s.sim
  fsim := fun i => u.val (s.fsim i)
  tr := u.trace s.tr
  iterations := s.iterations
  simplexHistory := s.simplexHistory.map u.sim
  funHistory := s.funHistory.map fun v i => u.val (v i)

variable {u : Frame d} {f f' : ℕ → Vec d → FVal}

theorem frame_call (hf : u.SameFunction f f') (t : Trace d) (x : Vec d) : (u.trace t).call f' (u.pos x) = u.trace (t.call f x) := by
  simp [Trace.call, Frame.trace, Frame.evals, hf t.ncalls x]

theorem frame_calls (hf : u.SameFunction f f') (xs : List (Vec d)) (t : Trace d) : (u.trace t).calls f' (xs.map u.pos) = u.trace (t.calls f xs) := by
  induction xs generalizing t with
  | nil => rfl
  | cons x xs ih =>
    simp only [Trace.calls, List.map_cons, List.foldl_cons, frame_call hf] at ih ⊢
    exact ih _

theorem frame_setLast (s : NMState d) (x : Vec d) (v : FVal) (t : Trace d) : setLast (u.st s) (u.pos x) (u.val v) (u.trace t) = u.st (setLast s x v t) := by
  unfold setLast Frame.st
  simp only [NMState.mk.injEq, and_true]
  constructor
  · funext i
    unfold Frame.sim
    by_cases h : i = Fin.last d
    · subst h; simp
    · simp [Function.update_of_ne h]
  · funext i
    by_cases h : i = Fin.last d
    · subst h; simp
    · simp [Function.update_of_ne h]

theorem frame_shrink (hf : u.SameFunction f f') (s : NMState d) (t : Trace d) : nmShrink f' (u.st s) (u.trace t) = u.st (nmShrink f s t) := by
  have hpt : ∀ j, (fun k => u.sim s.sim 0 k + 0.5 * (u.sim s.sim j k - u.sim s.sim 0 k)) = u.pos fun k => s.sim 0 k + 0.5 * (s.sim j k - s.sim 0 k) :=
    fun j => (frame_affine' u 0.5 _ _).symm
  unfold nmShrink
  simp only [Frame.st]
  simp only [hpt, NMState.mk.injEq, and_true]
  refine ⟨?_, ?_, ?_⟩
  · funext i
    refine Fin.cases ?_ (fun j => ?_) i
    · simp [Frame.sim]
    · simp only [Fin.cons_succ, Frame.sim]
      exact (frame_affine' u 0.5 _ _).symm
  · funext i
    refine Fin.cases ?_ (fun j => ?_) i
    · simp
    · simp only [Fin.cons_succ, Frame.trace]
      exact hf _ _
  · rw [← frame_calls hf, List.map_ofFn]
    congr 2
    funext j
    exact hpt j.succ

theorem frame_move (hf : u.SameFunction f f') (s : NMState d) : nmMove f' (u.st s) = u.st (nmMove f s) := by
  have hp : ∀ a, nmPoint (u.st s).sim a = u.pos (nmPoint s.sim a) := fun a => (frame_point u s.sim a).symm
  have ht : (u.st s).tr = u.trace s.tr := rfl
  have hn : ∀ t : Trace d, (u.trace t).ncalls = t.ncalls := fun _ => rfl
  have hfs : ∀ i, (u.st s).fsim i = u.val (s.fsim i) := fun _ => rfl
  unfold nmMove
  simp only [hp, ht, frame_call hf, hn, hf _ _, hfs, frame_lt, frame_le, frame_setLast, frame_shrink hf]
  split_ifs <;> rfl

/-- the corresponding `np.argsort` -/
def Spec.Frame.argsort (u : Frame d) (a : Argsort d) : Argsort d := fun v =>
  if h : ∃ w : Fin (d + 1) → FVal, v = fun i => u.val (w i) then a h.choose else Tuple.sort v

theorem frame_argsort (u : Frame d) (a : Argsort d) (w : Fin (d + 1) → FVal) : u.argsort a (fun i => u.val (w i)) = a w := by
  unfold Frame.argsort
  have h : ∃ w' : Fin (d + 1) → FVal, (fun i => u.val (w i)) = fun i => u.val (w' i) := ⟨w, rfl⟩
  rw [dif_pos h]
  congr 1
  funext i
  exact (frame_val_inj u).1 (congrFun h.choose_spec i).symm

theorem frame_isArgsort (u : Frame d) {a : Argsort d} (h : IsArgsort a) : IsArgsort (u.argsort a) := by
  intro v
  by_cases hv : ∃ w : Fin (d + 1) → FVal, v = fun i => u.val (w i)
  · obtain ⟨w, rfl⟩ := hv
    rw [frame_argsort]
    exact fun i j hij => (frame_val_strictMono u).monotone (h w hij)
  · have : u.argsort a v = Tuple.sort v := by unfold Frame.argsort; rw [dif_neg hv]
    rw [this]
    exact Tuple.monotone_sort v

theorem frame_sort (a : Argsort d) (s : NMState d) : nmSort (u.argsort a) (u.st s) = u.st (nmSort a s) := by
  have h : u.argsort a (u.st s).fsim = a s.fsim := frame_argsort u a s.fsim
  unfold nmSort
  rw [h]
  rfl

theorem frame_iter (P : NMParams) (a : Argsort d) (hf : u.SameFunction f f') (s : NMState d) : nmIter (u.nm P) (u.argsort a) f' (u.st s) = u.st (nmIter P a f s) := by
  unfold nmIter
  simp only [frame_move hf, frame_sort]
  have hk : (u.nm P).keepHistory = P.keepHistory := rfl
  rw [hk]
  simp only [Frame.st, NMState.mk.injEq, true_and]
  constructor
  · split_ifs <;> simp
  · split_ifs <;> simp

theorem frame_converged (P : NMParams) (s : NMState d) : nmConverged (u.nm P) (u.st s) ↔ nmConverged P s := by
  unfold nmConverged
  have h1 : (∀ i : Fin d, ∀ k, |(u.st s).sim i.succ k - (u.st s).sim 0 k| ≤ (u.nm P).xtol) ↔ ∀ i : Fin d, ∀ k, |s.sim i.succ k - s.sim 0 k| ≤ P.xtol := by
    refine forall_congr' fun i => ?_
    rw [← Equiv.forall_congr_right u.perm (q := fun k => |s.sim i.succ k - s.sim 0 k| ≤ P.xtol)]
    refine forall_congr' fun k => ?_
    change |u.pos (s.sim i.succ) k - u.pos (s.sim 0) k| ≤ u.scale * P.xtol ↔ _
    rw [frame_diff, mul_le_mul_iff_of_pos_left u.scale_pos]
  have h2 : (∀ i : Fin d, FVal.le (FVal.absDiff ((u.st s).fsim 0) ((u.st s).fsim i.succ)) (u.nm P).ftol) ↔ ∀ i : Fin d, FVal.le (FVal.absDiff (s.fsim 0) (s.fsim i.succ)) P.ftol := by
    refine forall_congr' fun i => ?_
    change FVal.le (FVal.absDiff (u.val (s.fsim 0)) (u.val (s.fsim i.succ))) (u.val P.ftol) ↔ _
    rw [frame_absDiff, frame_le]
  rw [h1, h2]

theorem frame_continue (P : NMParams) (s : NMState d) : nmContinue (u.nm P) (u.st s) ↔ nmContinue P s := by
  unfold nmContinue
  rw [frame_converged]
  have h : fprimeExceeded (u.nm P) (u.st s).sim ((u.st s).fsim 0) ↔ fprimeExceeded P s.sim (s.fsim 0) := frame_fprimeExceeded u P _ _
  rw [h]
  rfl

theorem frame_loop (P : NMParams) (a : Argsort d) (hf : u.SameFunction f f') (s : NMState d) : nmLoop (u.nm P) (u.argsort a) f' (u.st s) = u.st (nmLoop P a f s) := by
  induction hn : P.iterLimit d - s.iterations using Nat.strong_induction_on generalizing s with
  | _ n ih =>
    rw [nmLoop, nmLoop.eq_1 P a f s]
    by_cases hc : nmContinue P s
    · rw [if_pos ((frame_continue P s).2 hc), if_pos hc, frame_iter P a hf]
      refine ih _ ?_ _ rfl
      have h1 := hc.2.1
      have : (nmIter P a f s).iterations = s.iterations + 1 := by simp [nmIter, nmSort, nmMove_iterations]
      omega
    · rw [if_neg (fun h => hc ((frame_continue P s).1 h)), if_neg hc]

theorem frame_init (P : NMParams) (a : Argsort d) (hf : u.SameFunction f f') (s : Sim d) : nmInit (u.nm P) (u.argsort a) f' (u.sim s) = u.st (nmInit P a f s) := by
  have h : (⟨u.sim s, fun i => f' i (u.sim s i), Trace.calls f' ⟨0, []⟩ (List.ofFn (u.sim s)), 1, [], []⟩ : NMState d) =
      u.st ⟨s, fun i => f i (s i), Trace.calls f ⟨0, []⟩ (List.ofFn s), 1, [], []⟩ := by
    unfold Frame.st
    simp only [NMState.mk.injEq, true_and, List.map_nil, and_true]
    refine ⟨funext fun i => hf _ _, ?_⟩
    rw [← frame_calls hf, List.map_ofFn]
    rfl
  unfold nmInit
  simp only
  rw [h, frame_sort]
  have hk : (u.nm P).keepHistory = P.keepHistory := rfl
  rw [hk]
  simp only [Frame.st, NMState.mk.injEq, true_and]
  exact ⟨by simp, by split_ifs <;> simp⟩

theorem frame_run (P : NMParams) (a : Argsort d) (hf : u.SameFunction f f') (s : Sim d) : nmRun (u.nm P) (u.argsort a) f' (u.sim s) = u.st (nmRun P a f s) := by
  unfold nmRun
  rw [frame_init P a hf, frame_loop P a hf]

theorem frame_status (P : NMParams) (s : NMState d) : nmStatus (u.nm P) (u.st s) = nmStatus P s := by
  unfold nmStatus
  have h : fprimeExceeded (u.nm P) (u.st s).sim (npMin (u.st s).fsim) ↔ fprimeExceeded P s.sim (npMin s.fsim) := by
    change fprimeExceeded (u.nm P) (u.sim s.sim) (npMin fun i => u.val (s.fsim i)) ↔ _
    rw [frame_npMin, frame_fprimeExceeded]
  simp only [h]
  rfl

theorem frame_result (P : NMParams) (s : NMState d) : nmResult (u.nm P) (u.st s) = u.minRes (nmResult P s) := by
  unfold nmResult Frame.minRes
  simp only [frame_status, MinRes.mk.injEq, true_and]
  refine ⟨rfl, frame_npMin u _, rfl, rfl, ?_⟩
  have hk : (u.nm P).keepHistory = P.keepHistory := rfl
  rw [hk]
  refine ⟨rfl, ?_⟩
  split_ifs <;> rfl

theorem frame_root (P : NMParams) (a : Argsort d) (hf : u.SameFunction f f') (s : Sim d) : rootNelderMead (u.nm P) (u.argsort a) f' (u.sim s) = u.minRes (rootNelderMead P a f s) := by
  unfold rootNelderMead
  rw [frame_run P a hf, frame_result]

theorem frame_runMinimization (P : NMParams) (a : Argsort d) (hf : u.SameFunction f f') {fake fake' : Option (ℕ → Vec d → FVal)}
    (hfake : (fake = none ∧ fake' = none) ∨ ∃ g g', fake = some g ∧ fake' = some g' ∧ u.SameFunction g g') (s : Sim d) :
    runMinimization (u.nm P) (u.argsort a) f' fake' (u.sim s) = u.sres (runMinimization P a f fake s) := by
  rcases hfake with ⟨rfl, rfl⟩ | ⟨g, g', rfl, rfl, hg⟩
  · simp only [runMinimization, Frame.sres, frame_root P a hf]
  · have hsum : u.SameFunction (addFakePotential g f) (addFakePotential g' f') := fun n x => by
      simp only [addFakePotential, hf n x, hg n x, frame_add]
    have hP : ({ u.nm P with ftol := FVal.inf } : NMParams) = u.nm { P with ftol := FVal.inf } := by
      simp [Frame.nm, frame_val_inf]
    simp only [runMinimization, Frame.sres, hP, frame_root _ a hsum, Option.map_none]
    congr 1
    have h2 : u.SameFunction (fun n => f ((rootNelderMead { P with ftol := FVal.inf } a (addFakePotential g f) s).numFev + n))
        (fun n => f' ((u.minRes (rootNelderMead { P with ftol := FVal.inf } a (addFakePotential g f) s)).numFev + n)) := fun n x => hf _ x
    rw [← frame_root P a h2, frame_blowup]
    congr 2
    have : (u.minRes (rootNelderMead { P with ftol := FVal.inf } a (addFakePotential g f) s)).simplexHistory =
        (rootNelderMead { P with ftol := FVal.inf } a (addFakePotential g f) s).simplexHistory.map u.sim := rfl
    rw [this]
    generalize (rootNelderMead { P with ftol := FVal.inf } a (addFakePotential g f) s).simplexHistory = l
    cases l using List.reverseRecOn with
    | nil => rfl
    | append_singleton l x => simp

end NF
