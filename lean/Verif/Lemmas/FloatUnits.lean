import Verif.Spec.FloatUnits
import Verif.Lemmas.Frame

/-! # Lemmas: the minimizer in double precision, in units that differ by powers of two -/

noncomputable section
open Classical

namespace NF
open Spec
variable {d : ℕ}

theorem two_zpow_pos (k : ℤ) : (0 : ℝ) < 2 ^ k := by positivity

theorem bin_pos (k j : ℤ) (x : Vec d) : (binaryUnits k j : Frame d).pos x = fun i => 2 ^ k * x i := by
  funext i
  simp [binaryUnits, Frame.pos]

theorem bin_scale (k j : ℤ) : (binaryUnits k j : Frame d).scale = 2 ^ k := rfl
theorem bin_energy (k j : ℤ) : (binaryUnits k j : Frame d).energy = 2 ^ j := rfl

variable {A : FL.Arith d} (k j : ℤ)

theorem bin_sim (s : Sim d) (i : Fin (d + 1)) (l : Fin d) : (binaryUnits k j : Frame d).sim s i l = 2 ^ k * s i l := by
  unfold Frame.sim
  rw [bin_pos]

theorem bin_rnd_div {rnd : ℝ → ℝ} (h : BinaryRounding rnd) (x y : ℝ) : rnd (2 ^ k * x / y) = 2 ^ k * rnd (x / y) := by
  rw [mul_div_assoc, h]

theorem bin_rnd_sub {rnd : ℝ → ℝ} (h : BinaryRounding rnd) (x y : ℝ) : rnd (2 ^ k * x - 2 ^ k * y) = 2 ^ k * rnd (x - y) := by
  rw [← mul_sub, h]

theorem bin_rnd_add {rnd : ℝ → ℝ} (h : BinaryRounding rnd) (x y : ℝ) : rnd (2 ^ k * x + 2 ^ k * y) = 2 ^ k * rnd (x + y) := by
  rw [← mul_add, h]

theorem bin_rnd_mul {rnd : ℝ → ℝ} (h : BinaryRounding rnd) (c x : ℝ) : rnd (c * (2 ^ k * x)) = 2 ^ k * rnd (c * x) := by
  rw [mul_left_comm, h]

/-! ## Values -/

theorem fl_absDiff_real (rnd : ℝ → ℝ) (a b : ℝ) : FL.absDiff rnd (FVal.ofReal a) (FVal.ofReal b) = FVal.ofReal |rnd (a - b)| := by
  simp only [FVal.ofReal, FL.absDiff]
  rw [if_neg (by simp), if_neg (by
    rintro (h | h | h | h)
    exacts [EReal.coe_ne_top _ h, EReal.coe_ne_bot _ h, EReal.coe_ne_top _ h, EReal.coe_ne_bot _ h])]
  simp

theorem fl_roundFVal_real (rnd : ℝ → ℝ) (a : ℝ) : FL.roundFVal rnd (FVal.ofReal a) = FVal.ofReal (rnd a) := by
  simp [FL.roundFVal, FVal.ofReal]
theorem fl_roundFVal_inf (rnd : ℝ → ℝ) : FL.roundFVal rnd FVal.inf = FVal.inf := by simp [FL.roundFVal, FVal.inf]
theorem fl_roundFVal_ninf (rnd : ℝ → ℝ) : FL.roundFVal rnd FVal.ninf = FVal.ninf := by simp [FL.roundFVal, FVal.ninf]
theorem fl_roundFVal_nan (rnd : ℝ → ℝ) : FL.roundFVal rnd FVal.nan = FVal.nan := rfl

theorem bin_absDiff {rnd : ℝ → ℝ} (h : BinaryRounding rnd) (a b : FVal) :
    FL.absDiff rnd ((binaryUnits k j : Frame d).val a) ((binaryUnits k j : Frame d).val b) = (binaryUnits k j : Frame d).val (FL.absDiff rnd a b) := by
  rcases fval_cases a with rfl | rfl | rfl | ⟨r, rfl⟩ <;> rcases fval_cases b with rfl | rfl | rfl | ⟨s, rfl⟩ <;>
    simp only [frame_val_nan, frame_val_inf, frame_val_ninf, frame_val_real, fl_absDiff_real, bin_energy]
  case inr.inr.inr.inr.inr.inr => rw [bin_rnd_sub j h, abs_mul, abs_of_pos (two_zpow_pos j)]
  all_goals simp [FL.absDiff, FVal.nan, FVal.inf, FVal.ninf, FVal.ofReal, Frame.val]
  all_goals
    rw [← EReal.coe_mul]
    first
      | exact EReal.coe_ne_top _
      | exact EReal.coe_ne_bot _

theorem bin_roundFVal {rnd : ℝ → ℝ} (h : BinaryRounding rnd) (a : FVal) :
    FL.roundFVal rnd ((binaryUnits k j : Frame d).val a) = (binaryUnits k j : Frame d).val (FL.roundFVal rnd a) := by
  rcases fval_cases a with rfl | rfl | rfl | ⟨r, rfl⟩
  · rfl
  · rw [frame_val_inf, fl_roundFVal_inf, frame_val_inf]
  · rw [frame_val_ninf, fl_roundFVal_ninf, frame_val_ninf]
  · rw [frame_val_real, fl_roundFVal_real, fl_roundFVal_real, frame_val_real, bin_energy, h]

/-- Division in other units. -/
theorem bin_divReal (a : FVal) (b : ℝ) : FVal.divReal ((binaryUnits k j : Frame d).val a) (2 ^ k * b) = (binaryUnits 0 (j - k) : Frame d).val (FVal.divReal a b) := by
  have hs := two_zpow_pos k
  have he := two_zpow_pos j
  have hb : (2 : ℝ) ^ k * b = 0 ↔ b = 0 := by simp [hs.ne']
  have hb' : 0 ≤ (2 : ℝ) ^ k * b ↔ 0 ≤ b := by constructor <;> intro h <;> nlinarith
  rcases fval_cases a with rfl | rfl | rfl | ⟨r, rfl⟩
  · rfl
  · rw [frame_val_inf, divReal_inf, divReal_inf]
    simp only [hb']
    split
    · rw [frame_val_inf]
    · rw [frame_val_ninf]
  · rw [frame_val_ninf, divReal_ninf, divReal_ninf]
    simp only [hb']
    split
    · rw [frame_val_ninf]
    · rw [frame_val_inf]
  · rw [frame_val_real, divReal_real, divReal_real]
    simp only [hb, bin_energy, mul_eq_zero, he.ne', false_or, mul_pos_iff_of_pos_left he]
    split
    · split
      · rfl
      · split
        · rw [frame_val_inf]
        · rw [frame_val_ninf]
    · rw [frame_val_real, bin_energy, mul_div_mul_comm, zpow_sub₀ (by norm_num)]

/-! ## Points -/

theorem bin_xbar (h : BinaryArith A) (s : Sim d) (l : Fin d) : FL.xbar A ((binaryUnits k j : Frame d).sim s) l = 2 ^ k * FL.xbar A s l := by
  unfold FL.xbar
  simp only [bin_sim]
  rw [h.reduce, bin_rnd_div k h.rnd]

theorem bin_outer (h : BinaryArith A) (s : Sim d) (c : ℝ) : FL.nmOuter A ((binaryUnits k j : Frame d).sim s) c = (binaryUnits k j : Frame d).pos (FL.nmOuter A s c) := by
  rw [bin_pos]
  funext l
  unfold FL.nmOuter
  rw [bin_xbar k j h, bin_sim, bin_rnd_mul k h.rnd, bin_rnd_mul k h.rnd, bin_rnd_sub k h.rnd]

theorem bin_inner (h : BinaryArith A) (s : Sim d) : FL.nmInner A ((binaryUnits k j : Frame d).sim s) = (binaryUnits k j : Frame d).pos (FL.nmInner A s) := by
  rw [bin_pos]
  funext l
  unfold FL.nmInner
  rw [bin_xbar k j h, bin_sim, bin_rnd_mul k h.rnd, bin_rnd_mul k h.rnd, bin_rnd_add k h.rnd]

theorem bin_scaleFrom (h : BinaryArith A) (c : ℝ) (x y : Vec d) :
    FL.scaleFrom A c ((binaryUnits k j : Frame d).pos x) ((binaryUnits k j : Frame d).pos y) = (binaryUnits k j : Frame d).pos (FL.scaleFrom A c x y) := by
  simp only [bin_pos]
  funext l
  unfold FL.scaleFrom
  rw [bin_rnd_sub k h.rnd, bin_rnd_mul k h.rnd, bin_rnd_add k h.rnd]

theorem bin_blowup (h : BinaryArith A) (s : Sim d) : (binaryUnits k j : Frame d).sim (FL.blowup A s) = FL.blowup A ((binaryUnits k j : Frame d).sim s) := by
  funext i
  exact (bin_scaleFrom k j h 1.5 (s 0) (s i)).symm

theorem bin_fprimeEstimate (h : BinaryArith A) (s : Sim d) (v : FVal) :
    FL.fprimeEstimate A ((binaryUnits k j : Frame d).sim s) ((binaryUnits k j : Frame d).val v) = (binaryUnits 0 (j - k) : Frame d).val (FL.fprimeEstimate A s v) := by
  unfold FL.fprimeEstimate
  have h1 : (Finset.univ.sup' Finset.univ_nonempty fun ij : Fin (d + 1) × Fin (d + 1) =>
      if ij.1 < ij.2 then A.sum fun l => A.rnd (A.rnd ((binaryUnits k j : Frame d).sim s ij.2 l - (binaryUnits k j : Frame d).sim s ij.1 l) ^ 2) else 0) =
      (2 : ℝ) ^ (2 * k) * Finset.univ.sup' Finset.univ_nonempty fun ij : Fin (d + 1) × Fin (d + 1) =>
        if ij.1 < ij.2 then A.sum fun l => A.rnd (A.rnd (s ij.2 l - s ij.1 l) ^ 2) else 0 := by
    have hm : Monotone fun x : ℝ => (2 : ℝ) ^ (2 * k) * x := fun x y h => mul_le_mul_of_nonneg_left h (two_zpow_pos _).le
    rw [Finset.apply_sup'_eq_sup'_comp (g := fun x : ℝ => (2 : ℝ) ^ (2 * k) * x) Finset.univ_nonempty (fun a b => hm.map_sup a b)]
    refine Finset.sup'_congr _ rfl fun ij _ => ?_
    simp only [Function.comp]
    split
    · rw [← h.sum]
      congr 1
      funext l
      rw [bin_sim, bin_sim, bin_rnd_sub k h.rnd, mul_pow, ← zpow_natCast ((2 : ℝ) ^ k) 2, ← zpow_mul, mul_comm k]
      exact h.rnd (2 * k) _
    · simp
  have h2 : ∀ x : ℝ, Real.sqrt ((2 : ℝ) ^ (2 * k) * x) = 2 ^ k * Real.sqrt x := by
    intro x
    rw [Real.sqrt_mul (two_zpow_pos _).le, mul_comm 2 k, zpow_mul]
    congr 1
    exact Real.sqrt_sq (two_zpow_pos k).le
  rw [h1, h2, h.rnd, bin_divReal, bin_roundFVal 0 (j - k) h.rnd]

theorem bin_fprimeExceeded (h : BinaryArith A) (P : NMParams) (s : Sim d) (v : FVal) :
    FL.fprimeExceeded A ((binaryUnits k j : Frame d).nm P) ((binaryUnits k j : Frame d).sim s) ((binaryUnits k j : Frame d).val v) ↔ FL.fprimeExceeded A P s v := by
  unfold FL.fprimeExceeded
  cases hc : P.fprimeCutoff with
  | none => simp [Frame.nm, hc]
  | some c =>
    simp only [Frame.nm, hc, Option.map_some]
    rw [bin_fprimeEstimate k j h]
    have : FVal.ofReal ((binaryUnits k j : Frame d).energy / (binaryUnits k j : Frame d).scale * c) = (binaryUnits 0 (j - k) : Frame d).val (FVal.ofReal c) := by
      rw [frame_val_real, bin_energy, bin_energy, bin_scale, zpow_sub₀ (by norm_num)]
    rw [this, frame_gt]

/-! ## The loop -/

variable {f f' : ℕ → Vec d → FVal}

theorem bin_shrink (h : BinaryArith A) (hf : (binaryUnits k j : Frame d).SameFunction f f') (s : NMState d) (t : Trace d) :
    FL.nmShrink A f' ((binaryUnits k j : Frame d).st s) ((binaryUnits k j : Frame d).trace t) = (binaryUnits k j : Frame d).st (FL.nmShrink A f s t) := by
  have hpt : ∀ i, FL.scaleFrom A 0.5 ((binaryUnits k j : Frame d).sim s.sim 0) ((binaryUnits k j : Frame d).sim s.sim i) = (binaryUnits k j : Frame d).pos (FL.scaleFrom A 0.5 (s.sim 0) (s.sim i)) :=
    fun i => bin_scaleFrom k j h 0.5 _ _
  unfold FL.nmShrink
  simp only [Frame.st]
  simp only [hpt, NMState.mk.injEq, and_true]
  refine ⟨?_, ?_, ?_⟩
  · funext i
    refine Fin.cases ?_ (fun i => ?_) i
    · simp [Frame.sim]
    · simp only [Fin.cons_succ, Frame.sim]
  · funext i
    refine Fin.cases ?_ (fun i => ?_) i
    · simp
    · simp only [Fin.cons_succ, Frame.trace]
      exact hf _ _
  · rw [← frame_calls hf, List.map_ofFn]
    rfl

theorem bin_move (h : BinaryArith A) (hf : (binaryUnits k j : Frame d).SameFunction f f') (s : NMState d) :
    FL.nmMove A f' ((binaryUnits k j : Frame d).st s) = (binaryUnits k j : Frame d).st (FL.nmMove A f s) := by
  have hp : ∀ a, FL.nmOuter A ((binaryUnits k j : Frame d).st s).sim a = (binaryUnits k j : Frame d).pos (FL.nmOuter A s.sim a) := fun a => bin_outer k j h s.sim a
  have hq : FL.nmInner A ((binaryUnits k j : Frame d).st s).sim = (binaryUnits k j : Frame d).pos (FL.nmInner A s.sim) := bin_inner k j h s.sim
  have ht : ((binaryUnits k j : Frame d).st s).tr = (binaryUnits k j : Frame d).trace s.tr := rfl
  have hn : ∀ t : Trace d, ((binaryUnits k j : Frame d).trace t).ncalls = t.ncalls := fun _ => rfl
  have hfs : ∀ i, ((binaryUnits k j : Frame d).st s).fsim i = (binaryUnits k j : Frame d).val (s.fsim i) := fun _ => rfl
  unfold FL.nmMove
  simp only [hp, hq, ht, frame_call hf, hn, hf _ _, hfs, frame_lt, frame_le, frame_setLast, bin_shrink k j h hf]
  split_ifs <;> rfl

theorem bin_iter (h : BinaryArith A) (P : NMParams) (a : Argsort d) (hf : (binaryUnits k j : Frame d).SameFunction f f') (s : NMState d) :
    FL.nmIter A ((binaryUnits k j : Frame d).nm P) ((binaryUnits k j : Frame d).argsort a) f' ((binaryUnits k j : Frame d).st s) = (binaryUnits k j : Frame d).st (FL.nmIter A P a f s) := by
  unfold FL.nmIter
  simp only [bin_move k j h hf, frame_sort]
  have hk : ((binaryUnits k j : Frame d).nm P).keepHistory = P.keepHistory := rfl
  rw [hk]
  simp only [Frame.st, NMState.mk.injEq, true_and]
  constructor
  · split_ifs <;> simp
  · split_ifs <;> simp

theorem bin_converged (h : BinaryArith A) (P : NMParams) (s : NMState d) :
    FL.nmConverged A ((binaryUnits k j : Frame d).nm P) ((binaryUnits k j : Frame d).st s) ↔ FL.nmConverged A P s := by
  unfold FL.nmConverged
  refine and_congr (forall_congr' fun i => forall_congr' fun l => ?_) (forall_congr' fun i => ?_)
  · change |A.rnd ((binaryUnits k j : Frame d).sim s.sim i.succ l - (binaryUnits k j : Frame d).sim s.sim 0 l)| ≤ 2 ^ k * P.xtol ↔ _
    rw [bin_sim, bin_sim, bin_rnd_sub k h.rnd, abs_mul, abs_of_pos (two_zpow_pos k), mul_le_mul_iff_of_pos_left (two_zpow_pos k)]
  · change FVal.le (FL.absDiff A.rnd ((binaryUnits k j : Frame d).val (s.fsim 0)) ((binaryUnits k j : Frame d).val (s.fsim i.succ))) ((binaryUnits k j : Frame d).val P.ftol) ↔ _
    rw [bin_absDiff k j h.rnd, frame_le]

theorem bin_continue (h : BinaryArith A) (P : NMParams) (s : NMState d) :
    FL.nmContinue A ((binaryUnits k j : Frame d).nm P) ((binaryUnits k j : Frame d).st s) ↔ FL.nmContinue A P s := by
  unfold FL.nmContinue
  rw [bin_converged k j h]
  have h1 : FL.fprimeExceeded A ((binaryUnits k j : Frame d).nm P) ((binaryUnits k j : Frame d).st s).sim (((binaryUnits k j : Frame d).st s).fsim 0) ↔ FL.fprimeExceeded A P s.sim (s.fsim 0) :=
    bin_fprimeExceeded k j h P _ _
  rw [h1]
  rfl

theorem bin_loop (h : BinaryArith A) (P : NMParams) (a : Argsort d) (hf : (binaryUnits k j : Frame d).SameFunction f f') (s : NMState d) :
    FL.nmLoop A ((binaryUnits k j : Frame d).nm P) ((binaryUnits k j : Frame d).argsort a) f' ((binaryUnits k j : Frame d).st s) = (binaryUnits k j : Frame d).st (FL.nmLoop A P a f s) := by
  induction hn : P.iterLimit d - s.iterations using Nat.strong_induction_on generalizing s with
  | _ n ih =>
    rw [FL.nmLoop, FL.nmLoop.eq_1 A P a f s]
    by_cases hc : FL.nmContinue A P s
    · rw [if_pos ((bin_continue k j h P s).2 hc), if_pos hc, bin_iter k j h P a hf]
      refine ih _ ?_ _ rfl
      have h1 := hc.2.1
      have : (FL.nmIter A P a f s).iterations = s.iterations + 1 := by simp [FL.nmIter, nmSort, FL.nmMove_iterations]
      omega
    · rw [if_neg (fun h' => hc ((bin_continue k j h P s).1 h')), if_neg hc]

theorem bin_run (h : BinaryArith A) (P : NMParams) (a : Argsort d) (hf : (binaryUnits k j : Frame d).SameFunction f f') (s : Sim d) :
    FL.nmRun A ((binaryUnits k j : Frame d).nm P) ((binaryUnits k j : Frame d).argsort a) f' ((binaryUnits k j : Frame d).sim s) = (binaryUnits k j : Frame d).st (FL.nmRun A P a f s) := by
  unfold FL.nmRun
  rw [frame_init P a hf, bin_loop k j h P a hf]

theorem bin_status (h : BinaryArith A) (P : NMParams) (s : NMState d) :
    FL.nmStatus A ((binaryUnits k j : Frame d).nm P) ((binaryUnits k j : Frame d).st s) = FL.nmStatus A P s := by
  unfold FL.nmStatus
  have h1 : FL.fprimeExceeded A ((binaryUnits k j : Frame d).nm P) ((binaryUnits k j : Frame d).st s).sim (npMin ((binaryUnits k j : Frame d).st s).fsim) ↔ FL.fprimeExceeded A P s.sim (npMin s.fsim) := by
    change FL.fprimeExceeded A ((binaryUnits k j : Frame d).nm P) ((binaryUnits k j : Frame d).sim s.sim) (npMin fun i => (binaryUnits k j : Frame d).val (s.fsim i)) ↔ _
    rw [frame_npMin, bin_fprimeExceeded k j h]
  simp only [h1]
  rfl

theorem bin_root (h : BinaryArith A) (P : NMParams) (a : Argsort d) (hf : (binaryUnits k j : Frame d).SameFunction f f') (s : Sim d) :
    FL.rootNelderMead A ((binaryUnits k j : Frame d).nm P) ((binaryUnits k j : Frame d).argsort a) f' ((binaryUnits k j : Frame d).sim s) =
      (binaryUnits k j : Frame d).minRes (FL.rootNelderMead A P a f s) := by
  unfold FL.rootNelderMead
  rw [bin_run k j h P a hf]
  unfold FL.nmResult Frame.minRes
  simp only [bin_status k j h, MinRes.mk.injEq, true_and]
  refine ⟨rfl, frame_npMin _ _, rfl, rfl, rfl, ?_⟩
  have hk : ((binaryUnits k j : Frame d).nm P).keepHistory = P.keepHistory := rfl
  rw [hk]
  split_ifs <;> rfl

theorem bin_runMinimization (h : BinaryArith A) (P : NMParams) (a : Argsort d) (hf : (binaryUnits k j : Frame d).SameFunction f f') {fake fake' : Option (ℕ → Vec d → FVal)}
    (hfake : (fake = none ∧ fake' = none) ∨ ∃ g g', fake = some g ∧ fake' = some g' ∧ (binaryUnits k j : Frame d).SameFunction g g') (s : Sim d) :
    FL.runMinimization A ((binaryUnits k j : Frame d).nm P) ((binaryUnits k j : Frame d).argsort a) f' fake' ((binaryUnits k j : Frame d).sim s) =
      (binaryUnits k j : Frame d).sres (FL.runMinimization A P a f fake s) := by
  rcases hfake with ⟨rfl, rfl⟩ | ⟨g, g', rfl, rfl, hg⟩
  · simp only [FL.runMinimization, Frame.sres, bin_root k j h P a hf]
  · have hsum : (binaryUnits k j : Frame d).SameFunction (FL.addFakePotential A g f) (FL.addFakePotential A g' f') := fun n x => by
      simp only [FL.addFakePotential, hf n x, hg n x, frame_add]
      exact bin_roundFVal k j h.rnd _
    have hP : ({ (binaryUnits k j : Frame d).nm P with ftol := FVal.inf } : NMParams) = (binaryUnits k j : Frame d).nm { P with ftol := FVal.inf } := by
      simp [Frame.nm, frame_val_inf]
    simp only [FL.runMinimization, Frame.sres, hP, bin_root k j h _ a hsum, Option.map_none]
    congr 1
    have h2 : (binaryUnits k j : Frame d).SameFunction (fun n => f ((FL.rootNelderMead A { P with ftol := FVal.inf } a (FL.addFakePotential A g f) s).numFev + n))
        (fun n => f' (((binaryUnits k j : Frame d).minRes (FL.rootNelderMead A { P with ftol := FVal.inf } a (FL.addFakePotential A g f) s)).numFev + n)) := fun n x => hf _ x
    rw [← bin_root k j h P a h2, bin_blowup k j h]
    congr 2
    have : ((binaryUnits k j : Frame d).minRes (FL.rootNelderMead A { P with ftol := FVal.inf } a (FL.addFakePotential A g f) s)).simplexHistory =
        (FL.rootNelderMead A { P with ftol := FVal.inf } a (FL.addFakePotential A g f) s).simplexHistory.map (binaryUnits k j : Frame d).sim := rfl
    rw [this]
    generalize (FL.rootNelderMead A { P with ftol := FVal.inf } a (FL.addFakePotential A g f) s).simplexHistory = l
    cases l using List.reverseRecOn with
    | nil => rfl
    | append_singleton l x => simp

end NF
