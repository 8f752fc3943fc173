import Verif.Spec.McKinnon
import Verif.Props.NelderMead
import Verif.Lemmas.Frame
import Mathlib.Data.Fin.Tuple.Sort

/-! # C89: beyond one dimension, success of a minimization does not mean that a minimum has been found -/

noncomputable section
open Classical
namespace NF
open Spec NMDemo

namespace McK

/-- `λ₁ = (1 + √33) / 8 ≈ 0.843` -/
def a : ℝ := (1 + Real.sqrt 33) / 8
/-- `λ₂ = (1 - √33) / 8 ≈ -0.593` -/
def b : ℝ := (1 - Real.sqrt 33) / 8

theorem sqrt_bounds : 5.74 < Real.sqrt 33 ∧ Real.sqrt 33 < 5.75 := by
  constructor
  · rw [Real.lt_sqrt (by norm_num)]; norm_num
  · rw [Real.sqrt_lt' (by norm_num)]; norm_num

theorem a_sq : a ^ 2 = a / 4 + 1 / 2 := by
  have h := Real.sq_sqrt (show (0:ℝ) ≤ 33 by norm_num)
  unfold a
  nlinarith

theorem b_sq : b ^ 2 = b / 4 + 1 / 2 := by
  have h := Real.sq_sqrt (show (0:ℝ) ≤ 33 by norm_num)
  unfold b
  nlinarith

theorem a_bounds : 0.8425 < a ∧ a < 0.84375 := by
  obtain ⟨h1, h2⟩ := sqrt_bounds
  unfold a
  constructor <;> linarith

theorem b_bounds : -0.59375 < b ∧ b < -0.5925 := by
  obtain ⟨h1, h2⟩ := sqrt_bounds
  unfold b
  constructor <;> linarith

/-- the vertices -/
def v (c : ℝ) (n : ℕ) : Vec 2 := ![c * a ^ n, c * b ^ n]

section
variable {c : ℝ} (hc : 1 ≤ c)
include hc

theorem t_pos (n : ℕ) : 0 < c * a ^ n := mul_pos (by linarith) (pow_pos (by linarith [a_bounds.1]) n)

theorem u_bound (n : ℕ) : |c * b ^ n| ≤ (c * a ^ n) ^ 2 := by
  have h : |b ^ n| ≤ (a ^ n) ^ 2 := by
    rw [abs_pow, ← pow_mul, mul_comm, pow_mul]
    refine pow_le_pow_left₀ (abs_nonneg _) ?_ n
    rw [abs_of_neg (by linarith [b_bounds.2]), a_sq]
    linarith [a_bounds.1, b_bounds.1]
  rw [abs_mul, abs_of_pos (by linarith), mul_pow]
  have : c ≤ c ^ 2 := by nlinarith
  exact mul_le_mul this h (abs_nonneg _) (by positivity)

theorem g_v (n : ℕ) : valleyFloor (v c n) = 6 * (c * a ^ n) ^ 2 + (c * b ^ n + 1 / 2) ^ 2 := by
  have := t_pos hc n
  unfold valleyFloor v
  rw [if_neg]
  · simp
  · simpa using this

omit hc in
theorem g_zero : valleyFloor (fun _ => 0) = 1 / 4 := by
  unfold valleyFloor; norm_num

/-- the vertices get better and better ... -/
theorem g_decr (n : ℕ) : valleyFloor (v c (n + 1)) < valleyFloor (v c n) := by
  rw [g_v hc, g_v hc, pow_succ a n, pow_succ b n, ← mul_assoc, ← mul_assoc, mul_pow (c * a ^ n) a, a_sq]
  have hu := abs_le.1 (u_bound hc n)
  have ht := t_pos hc n
  obtain ⟨a1, a2⟩ := a_bounds
  obtain ⟨b1, b2⟩ := b_bounds
  set t := (c * a ^ n) ^ 2
  have ht : 0 < t := by positivity
  set u := c * b ^ n
  have e : (u * b + 1 / 2) ^ 2 = u ^ 2 * b ^ 2 + u * b + 1 / 4 := by ring
  rw [e, b_sq]
  nlinarith [sq_nonneg u, mul_nonneg ht.le (show 0 ≤ 0.84375 - a by linarith), mul_nonneg (show 0 ≤ t + u by linarith) (show 0 ≤ 1 - b by linarith),
    mul_nonneg ht.le (show 0 ≤ b + 0.59375 by linarith), mul_nonneg (sq_nonneg u) (show 0 ≤ -b by linarith)]

/-- ... but never as good as the origin, -/
theorem g_pos (n : ℕ) : valleyFloor (fun _ => 0) < valleyFloor (v c n) := by
  rw [g_v hc, g_zero]
  have hu := abs_le.1 (u_bound hc n)
  have ht := t_pos hc n
  have ht : 0 < (c * a ^ n) ^ 2 := by positivity
  nlinarith [sq_nonneg (c * b ^ n)]

/-- and the reflected point is never better than the worst -/
theorem g_refl (n : ℕ) : valleyFloor (v c n) ≤ valleyFloor fun k => v c (n + 1) k - v c n k := by
  have ha := a_bounds
  have hneg : c * a ^ (n + 1) - c * a ^ n ≤ 0 := by
    rw [pow_succ]; nlinarith [t_pos hc n]
  have e : valleyFloor (fun k => v c (n + 1) k - v c n k) = 360 * (c * a ^ (n + 1) - c * a ^ n) ^ 2 + (c * b ^ (n + 1) - c * b ^ n + 1 / 2) ^ 2 := by
    unfold valleyFloor v
    rw [if_pos]
    · simp
    · simpa using hneg
  rw [e, g_v hc, pow_succ a n, pow_succ b n, ← mul_assoc, ← mul_assoc]
  have hu := abs_le.1 (u_bound hc n)
  have ht := t_pos hc n
  obtain ⟨a1, a2⟩ := a_bounds
  obtain ⟨b1, b2⟩ := b_bounds
  have ht' : 0 < (c * a ^ n) ^ 2 := by positivity
  have e1 : (c * a ^ n * a - c * a ^ n) ^ 2 = (c * a ^ n) ^ 2 * (1 - a) ^ 2 := by ring
  rw [e1]
  set t := (c * a ^ n) ^ 2
  set u := c * b ^ n
  have e2 : (u * b - u + 1 / 2) ^ 2 - (u + 1 / 2) ^ 2 = u ^ 2 * (b ^ 2 - 2 * b) + u * (b - 2) := by ring
  have h1 : (0.02441 : ℝ) ≤ (1 - a) ^ 2 := by nlinarith
  have h2 : u * (b - 2) ≥ -(t * (2 - b)) := by nlinarith
  have h3 : 0 ≤ u ^ 2 * (b ^ 2 - 2 * b) := mul_nonneg (sq_nonneg _) (by nlinarith)
  nlinarith

omit hc in
/-- the inside contraction gives the next vertex -/
theorem v_next (n : ℕ) (k : Fin 2) : v c (n + 2) k = v c (n + 1) k / 4 + v c n k / 2 := by
  have h1 : c * a ^ (n + 2) = c * a ^ (n + 1) / 4 + c * a ^ n / 2 := by rw [pow_add, a_sq, pow_succ]; ring
  have h2 : c * b ^ (n + 2) = c * b ^ (n + 1) / 4 + c * b ^ n / 2 := by rw [pow_add, b_sq, pow_succ]; ring
  fin_cases k
  · simpa [v] using h1
  · simpa [v] using h2

end

/-- the function as the minimizer sees it -/
def f : ℕ → Vec 2 → FVal := fun _ x => FVal.ofReal (valleyFloor x)

/-- the simplex after `n` iterations -/
def S (c : ℝ) (n : ℕ) : Sim 2 := ![fun _ => 0, v c (n + 1), v c n]

theorem argsort_unique {n : ℕ} {w : Fin n → FVal} (hw : Function.Injective w) {σ τ : Equiv.Perm (Fin n)} (h1 : Monotone (w ∘ σ)) (h2 : Monotone (w ∘ τ)) : σ = τ := by
  have := Tuple.unique_monotone h1 h2
  exact Equiv.ext fun i => hw (congrFun this i)

theorem S_zero : S 1 0 = mcKinnonSimplex := by
  unfold S mcKinnonSimplex v a b
  funext i k
  fin_cases i <;> fin_cases k <;> simp

theorem blowup_S (c : ℝ) (n : ℕ) : blowup (S c n) = S (1.5 * c) n := by
  funext i k
  fin_cases i <;> fin_cases k <;> simp [blowup, S, v, mul_assoc]

theorem mono3 {x y z : FVal} (h1 : x ≤ y) (h2 : y ≤ z) : Monotone ![x, y, z] := by
  rw [Fin.monotone_iff_le_succ]
  intro i
  fin_cases i
  · exact h1
  · exact h2

/-- the state after `n` iterations -/
structure At (c : ℝ) (n0 n : ℕ) (s : NMState 2) : Prop where
  sim : s.sim = S c (n0 + n)
  fsim : s.fsim = ![FVal.ofReal (1 / 4), FVal.ofReal (valleyFloor (v c (n0 + n + 1))), FVal.ofReal (valleyFloor (v c (n0 + n)))]
  iter : s.iterations = n + 1
  calls : s.tr.ncalls = 3 + 2 * n
  hist : s.simplexHistory.getLast? = some s.sim

theorem inj3 {x y z : FVal} (h1 : x < y) (h2 : y < z) : Function.Injective ![x, y, z] := by
  have : StrictMono ![x, y, z] := by
    rw [Fin.strictMono_iff_lt_succ]
    intro i
    fin_cases i
    · exact h1
    · exact h2
  exact this.injective

theorem sort_id {argsort : (Fin 3 → FVal) → Equiv.Perm (Fin 3)} (ha : IsArgsort argsort) {x y z : FVal} (h1 : x < y) (h2 : y < z) : argsort ![x, y, z] = 1 :=
  argsort_unique (inj3 h1 h2) (ha _) (by simpa using mono3 h1.le h2.le)

theorem sort_swap {argsort : (Fin 3 → FVal) → Equiv.Perm (Fin 3)} (ha : IsArgsort argsort) {x y z : FVal} (h1 : x < z) (h2 : z < y) :
    argsort ![x, y, z] = Equiv.swap 1 2 := by
  have e : ![x, y, z] ∘ (Equiv.swap 1 2 : Equiv.Perm (Fin 3)) = ![x, z, y] := by
    funext i; fin_cases i <;> rfl
  refine argsort_unique ?_ (ha _) (by rw [e]; exact mono3 h1.le h2.le)
  have := inj3 h1 h2
  rw [← e] at this
  exact (Equiv.injective_comp (Equiv.swap 1 2) ![x, y, z]).1 this

section
variable {c : ℝ} (hc : 1 ≤ c)
include hc

theorem lt1 (n : ℕ) : FVal.ofReal (1 / 4) < FVal.ofReal (valleyFloor (v c n)) := by
  rw [ofReal_lt, ← g_zero]; exact g_pos hc n

theorem lt2 (n : ℕ) : FVal.ofReal (valleyFloor (v c (n + 1))) < FVal.ofReal (valleyFloor (v c n)) := ofReal_lt.2 (g_decr hc n)

theorem at_init {P : NMParams} {argsort : (Fin 3 → FVal) → Equiv.Perm (Fin 3)} (ha : IsArgsort argsort) (n0 : ℕ) : At c n0 0 (nmInit P argsort f (S c n0)) := by
  have hf : (fun i : Fin 3 => f i (S c n0 i)) = ![FVal.ofReal (1 / 4), FVal.ofReal (valleyFloor (v c (n0 + 1))), FVal.ofReal (valleyFloor (v c n0))] := by
    funext i
    fin_cases i
    · simp [f, S, g_zero]
    · simp [f, S]
    · simp [f, S]
  have he := sort_id ha (lt1 hc (n0 + 1)) (lt2 hc n0)
  constructor
  · simp only [nmInit, nmSort, hf, he]
    rfl
  · simp only [nmInit, nmSort, hf, he]
    rfl
  · simp [nmInit, nmSort]
  · simp [nmInit, nmSort, Trace.calls, Trace.call, List.ofFn_succ]
  · simp [nmInit, nmSort]

omit hc in
theorem point_eq (n : ℕ) (q : ℝ) : nmPoint (S c n) q = fun k => (1 + q) * (v c (n + 1) k / 2) - q * v c n k := by
  funext k
  simp [nmPoint, xbar, S, Fin.sum_univ_two, show (Fin.last 2) = (2 : Fin 3) from rfl, show (Fin.castSucc (1 : Fin 2)) = (1 : Fin 3) from rfl]

theorem at_move {n0 n : ℕ} {s : NMState 2} (h : At c n0 n s) : (nmMove f s).sim = ![fun _ => 0, v c (n0 + n + 1), v c (n0 + n + 2)] ∧
    (nmMove f s).fsim = ![FVal.ofReal (1 / 4), FVal.ofReal (valleyFloor (v c (n0 + n + 1))), FVal.ofReal (valleyFloor (v c (n0 + n + 2)))] ∧
    (nmMove f s).tr.ncalls = 3 + 2 * (n + 1) := by
  obtain ⟨h1, h2, h3, h4, -⟩ := h
  generalize n0 + n = N at *
  have r1 : nmPoint (S c N) 1 = fun k => v c (N + 1) k - v c N k := by rw [point_eq]; funext k; ring
  have r2 : nmPoint (S c N) (-0.5) = v c (N + 2) := by rw [point_eq]; funext k; rw [v_next]; ring
  have c3 : ¬ FVal.lt (f s.tr.ncalls (nmPoint s.sim 1)) (s.fsim (Fin.last 2)) := by
    rw [h1, r1, h2]
    show ¬ FVal.lt (FVal.ofReal _) (FVal.ofReal _)
    rw [flt]
    exact not_lt.2 (g_refl hc N)
  have c2 : ¬ FVal.lt (f s.tr.ncalls (nmPoint s.sim 1)) (s.fsim (secondLast 2)) := by
    rw [h1, r1, h2]
    show ¬ FVal.lt (FVal.ofReal _) (FVal.ofReal _)
    rw [flt]
    exact not_lt.2 ((g_decr hc N).le.trans (g_refl hc N))
  have c1 : ¬ FVal.lt (f s.tr.ncalls (nmPoint s.sim 1)) (s.fsim 0) := by
    rw [h1, r1, h2]
    show ¬ FVal.lt (FVal.ofReal _) (FVal.ofReal _)
    rw [flt, ← g_zero]
    exact not_lt.2 ((g_pos hc N).le.trans (g_refl hc N))
  have c4 : FVal.lt (f (s.tr.call f (nmPoint s.sim 1)).ncalls (nmPoint s.sim (-0.5))) (s.fsim (Fin.last 2)) := by
    rw [h1, r2, h2]
    show FVal.lt (FVal.ofReal _) (FVal.ofReal _)
    rw [flt]
    exact (g_decr hc (N + 1)).trans (g_decr hc N)
  have e : nmMove f s = setLast s (nmPoint s.sim (-0.5)) (f (s.tr.call f (nmPoint s.sim 1)).ncalls (nmPoint s.sim (-0.5)))
      ((s.tr.call f (nmPoint s.sim 1)).call f (nmPoint s.sim (-0.5))) := by
    simp only [nmMove, if_neg c1, if_neg c2, if_neg c3, if_pos c4]
  rw [e, h1, r2]
  refine ⟨?_, ?_, ?_⟩
  · simp only [setLast, h1]
    funext i
    fin_cases i <;> rfl
  · simp only [setLast, h2]
    funext i
    fin_cases i <;> rfl
  · simp only [setLast, Trace.call, h4]; ring

theorem at_iter {P : NMParams} {argsort : (Fin 3 → FVal) → Equiv.Perm (Fin 3)} (ha : IsArgsort argsort) {n0 n : ℕ} {s : NMState 2} (h : At c n0 n s) :
    At c n0 (n + 1) (nmIter P argsort f s) := by
  obtain ⟨m1, m2, m3⟩ := at_move hc h
  have he := sort_swap ha (lt1 hc (n0 + n + 2)) (lt2 hc (n0 + n + 1))
  constructor
  · simp only [nmIter, nmSort, m1, m2]
    rw [he]
    funext i; fin_cases i <;> rfl
  · simp only [nmIter, nmSort, m2]
    rw [he]
    funext i; fin_cases i <;> rfl
  · simp only [nmIter, nmSort, nmMove_iterations, h.iter]
  · simp only [nmIter, nmSort, m3]
  · simp only [nmIter]
    split_ifs <;> simp

/-- where the loop ends -/
theorem at_loop {P : NMParams} {argsort : (Fin 3 → FVal) → Equiv.Perm (Fin 3)} (ha : IsArgsort argsort) (n0 : ℕ) (s : NMState 2) : ∀ n, At c n0 n s →
    ∃ m, n ≤ m ∧ At c n0 m (nmLoop P argsort f s) ∧ ¬ nmContinue P (nmLoop P argsort f s) ∧ ∀ M, n ≤ M → (∀ t, At c n0 M t → ¬ nmContinue P t) → m ≤ M := by
  induction s using nmLoop.induct (P := P) (argsort := argsort) (f := f) with
  | case1 s hcont ih =>
    intro n h
    obtain ⟨m, k1, k2, k3, k4⟩ := ih (n + 1) (at_iter hc ha h)
    rw [nmLoop, if_pos hcont]
    refine ⟨m, by omega, k2, k3, fun M hM hM' => ?_⟩
    rcases hM.eq_or_lt with e | e
    · exact absurd hcont (hM' s (e ▸ h))
    · exact k4 M e hM'
  | case2 s hcont =>
    intro n h
    rw [nmLoop, if_neg hcont]
    exact ⟨n, le_rfl, h, hcont, fun M hM _ => hM⟩

omit hc in
theorem a_le_one : a ≤ 1 := by linarith [a_bounds.2]
omit hc in
theorem a_nonneg : 0 ≤ a := by linarith [a_bounds.1]

theorem v_abs (n : ℕ) (k : Fin 2) : |v c n k| ≤ c * a ^ n := by
  have ht := t_pos hc n
  fin_cases k
  · show |c * a ^ n| ≤ _
    rw [abs_of_pos ht]
  · show |c * b ^ n| ≤ _
    rw [abs_mul, abs_of_pos (by linarith : 0 < c), abs_pow]
    refine mul_le_mul_of_nonneg_left (pow_le_pow_left₀ (abs_nonneg _) ?_ n) (by linarith)
    rw [abs_of_neg (by linarith [b_bounds.2])]
    linarith [a_bounds.1, b_bounds.1]

theorem g_near (n : ℕ) : valleyFloor (v c n) - 1 / 4 ≤ 8 * c ^ 2 * a ^ n := by
  have hv := abs_le.1 (v_abs hc n 1)
  change -(c * a ^ n) ≤ c * b ^ n ∧ c * b ^ n ≤ c * a ^ n at hv
  rw [g_v hc]
  have ht := t_pos hc n
  have ht0 : 0 ≤ a ^ n := pow_nonneg a_nonneg n
  have h1 : a ^ n ≤ 1 := pow_le_one₀ a_nonneg a_le_one
  have h2 : (c * a ^ n) ^ 2 ≤ c ^ 2 * a ^ n := by
    rw [mul_pow]
    exact mul_le_mul_of_nonneg_left (by nlinarith) (by positivity)
  have h3 : (c * b ^ n) ^ 2 ≤ (c * a ^ n) ^ 2 := by
    rw [sq_le_sq, abs_of_pos ht]
    exact v_abs hc n 1
  have h4 : c * a ^ n ≤ c ^ 2 * a ^ n := mul_le_mul_of_nonneg_right (by nlinarith) ht0
  nlinarith

theorem at_conv {P : NMParams} {n0 n : ℕ} {s : NMState 2} (h : At c n0 n s) {t : ℝ} (hx : c * a ^ n ≤ P.xtol) (hf : P.ftol = FVal.ofReal t) (ht : 8 * c ^ 2 * a ^ n ≤ t) :
    nmConverged P s := by
  obtain ⟨h1, h2, -, -, -⟩ := h
  have hc0 : 0 ≤ c := by linarith
  have hle : ∀ m, n ≤ m → a ^ m ≤ a ^ n := fun m hm => pow_le_pow_of_le_one a_nonneg a_le_one hm
  have hxm : ∀ m, n ≤ m → ∀ k, |v c m k| ≤ P.xtol := fun m hm k => (v_abs hc m k).trans ((mul_le_mul_of_nonneg_left (hle m hm) hc0).trans hx)
  constructor
  · rw [h1]
    intro i k
    fin_cases i
    · show |v c (n0 + n + 1) k - 0| ≤ _
      rw [sub_zero]; exact hxm _ (by omega) k
    · show |v c (n0 + n) k - 0| ≤ _
      rw [sub_zero]; exact hxm _ (by omega) k
  · rw [h2, hf]
    have key : ∀ m, n ≤ m → FVal.le (FVal.absDiff (FVal.ofReal (1 / 4)) (FVal.ofReal (valleyFloor (v c m)))) (FVal.ofReal t) := by
      intro m hm
      rw [absDiff_real]
      refine ⟨ofReal_ne_nan _, ofReal_ne_nan _, not_lt.1 fun hlt => ?_⟩
      rw [ofReal_lt, abs_of_neg (by have := g_pos hc m; rw [g_zero] at this; linarith)] at hlt
      have h8 := mul_le_mul_of_nonneg_left (hle m hm) (show 0 ≤ 8 * c ^ 2 by positivity)
      linarith [g_near hc m]
    intro i
    fin_cases i
    · exact key (n0 + n + 1) (by omega)
    · exact key (n0 + n) (by omega)

/-- what a run returns -/
theorem run {P : NMParams} {argsort : (Fin 3 → FVal) → Equiv.Perm (Fin 3)} (ha : IsArgsort argsort) (n0 : ℕ) :
    (rootNelderMead P argsort f (S c n0)).pos = (fun _ => 0) ∧ (rootNelderMead P argsort f (S c n0)).value = FVal.ofReal (1 / 4) ∧
    ∃ n, (rootNelderMead P argsort f (S c n0)).simplexHistory.getLast? = some (S c n) := by
  obtain ⟨m, -, hm, -, -⟩ := at_loop (P := P) hc ha n0 _ 0 (at_init hc ha n0)
  change At c n0 m (nmRun P argsort f (S c n0)) at hm
  refine ⟨?_, ?_, n0 + m, ?_⟩
  · show (nmRun P argsort f (S c n0)).sim 0 = _
    rw [hm.sim]; rfl
  · show npMin (nmRun P argsort f (S c n0)).fsim = _
    rw [hm.fsim, npMin_eq (mono3 (lt1 hc (n0 + m + 1)).le (lt2 hc (n0 + m)).le), if_neg]
    · rfl
    · exact ofReal_ne_nan _
  · show (nmRun P argsort f (S c n0)).simplexHistory.getLast? = _
    rw [hm.hist, hm.sim]

theorem run_success {P : NMParams} {argsort : (Fin 3 → FVal) → Equiv.Perm (Fin 3)} (ha : IsArgsort argsort) (n0 : ℕ) (hcut : P.fprimeCutoff = none) {t : ℝ}
    (hf : P.ftol = FVal.ofReal t) {N : ℕ} (hx : c * 0.85 ^ N ≤ P.xtol) (ht : 8 * c ^ 2 * 0.85 ^ N ≤ t) (h1 : N + 1 < P.iterLimit 2) (h2 : 2 * N + 3 < P.fevLimit 2) :
    (rootNelderMead P argsort f (S c n0)).success = true := by
  obtain ⟨m, -, hm, -, hM⟩ := at_loop (P := P) hc ha n0 _ 0 (at_init hc ha n0)
  have hp : a ^ N ≤ 0.85 ^ N := pow_le_pow_left₀ a_nonneg (by linarith [a_bounds.2]) N
  have hmN := hM N (Nat.zero_le _) fun s hs hcont => hcont.2.2.2 (at_conv hc hs
    ((mul_le_mul_of_nonneg_left hp (by linarith)).trans hx) hf ((mul_le_mul_of_nonneg_left hp (by positivity)).trans ht))
  change At c n0 m (nmRun P argsort f (S c n0)) at hm
  have : nmStatus P (nmRun P argsort f (S c n0)) = 0 := by
    unfold nmStatus
    rw [if_neg, if_neg, if_neg]
    · unfold fprimeExceeded; rw [hcut]; exact id
    · rw [hm.iter]; omega
    · rw [hm.calls]; omega
  show decide (nmStatus P (nmRun P argsort f (S c n0)) = 0) = true
  rw [this]; rfl

end

/-- adding the fake potential of an empty result changes nothing -/
theorem add_fake : addFakePotential (fun _ _ => FVal.ofReal 0) f = f := by
  funext n x
  show FVal.add (FVal.ofReal _) (FVal.ofReal 0) = FVal.ofReal _
  simp [FVal.add, FVal.ofReal]

end McK

open McK in
/-- **C89**: there is a strictly convex function of two variables, with minimum 0, and a simplex such that the minimization - with any parameters, however small
the tolerances and large the limits - returns the point `(0, 0)` with the value 1/4 ... -/
theorem C89_stalls {P : NMParams} {r : MinRes 2} {evals : List (Vec 2 × FVal)}
    (h : IsMinimization P (fun _ x => FVal.ofReal (valleyFloor x)) mcKinnonSimplex r evals) : r.pos = (fun _ => 0) ∧ r.value = FVal.ofReal (1 / 4) := by
  obtain ⟨argsort, ha, rfl, -⟩ := h
  rw [← S_zero]
  have := run (P := P) le_rfl ha 0
  exact ⟨this.1, this.2.1⟩

open McK in
/-- ... and reports success, if the limits are large enough. -/
theorem C89_success {P : NMParams} {r : MinRes 2} {evals : List (Vec 2 × FVal)}
    (h : IsMinimization P (fun _ x => FVal.ofReal (valleyFloor x)) mcKinnonSimplex r evals) (hc : P.fprimeCutoff = none) {t : ℝ} (hf : P.ftol = FVal.ofReal t)
    {N : ℕ} (hx : 0.85 ^ N ≤ P.xtol) (ht : 8 * 0.85 ^ N ≤ t) (h1 : N + 1 < P.iterLimit 2) (h2 : 2 * N + 3 < P.fevLimit 2) : r.success = true := by
  obtain ⟨argsort, ha, rfl, -⟩ := h
  rw [← S_zero]
  exact run_success le_rfl ha 0 hc hf (by linarith) (by linarith) h1 h2

/-- Tolerances of `10⁻¹⁰` are reached within the default limits. -/
theorem C89_default {P : NMParams} {r : MinRes 2} {evals : List (Vec 2 × FVal)}
    (h : IsMinimization P (fun _ x => FVal.ofReal (valleyFloor x)) mcKinnonSimplex r evals) (hx : P.xtol = 1e-10) (hf : P.ftol = FVal.ofReal 1e-10)
    (hi : P.maxiter = none) (he : P.maxfev = none) (hc : P.fprimeCutoff = none) : r.success = true := by
  refine C89_success h hc hf (N := 160) ?_ ?_ ?_ ?_
  · rw [hx]; norm_num
  · norm_num
  · rw [NMParams.iterLimit, hi]; decide
  · rw [NMParams.fevLimit, he]; decide

open McK in
/-- The second run of `run_minimization`, from the enlarged simplex, does not help: with the fake potential of a search that has found nothing yet,
the result is the same. -/
theorem C89_two_step {P : NMParams} {r : SRes 2}
    (h : IsTwoStep P (fun _ x => FVal.ofReal (valleyFloor x)) (some fun _ _ => FVal.ofReal 0) mcKinnonSimplex r) :
    r.pos = (fun _ => 0) ∧ r.value = FVal.ofReal (1 / 4) ∧
    (P.fprimeCutoff = none → P.xtol = 1e-10 → P.ftol = FVal.ofReal 1e-10 → P.maxiter = none → P.maxfev = none → r.success = true) := by
  obtain ⟨argsort, ha, rfl⟩ := h
  obtain ⟨n, hn⟩ := (run (P := { P with ftol := FVal.inf }) le_rfl ha 0).2.2
  have hl : (rootNelderMead { P with ftol := FVal.inf } argsort f (S 1 0)).simplexHistory.getLastD mcKinnonSimplex = S 1 n := by
    rw [List.getLastD_eq_getLast?, hn]; rfl
  have e : (runMinimization P argsort f (some fun _ _ => FVal.ofReal 0) mcKinnonSimplex) =
      .joined (rootNelderMead P argsort f (S (1.5 * 1) n)) (rootNelderMead { P with ftol := FVal.inf } argsort f (S 1 0)) none := by
    simp only [runMinimization, add_fake]
    rw [← blowup_S, ← hl, S_zero]
    rfl
  change SRes.pos (runMinimization P argsort f (some fun _ _ => FVal.ofReal 0) mcKinnonSimplex) = _ ∧
    SRes.value (runMinimization P argsort f (some fun _ _ => FVal.ofReal 0) mcKinnonSimplex) = _ ∧
    (_ → _ → _ → _ → _ → SRes.success (runMinimization P argsort f (some fun _ _ => FVal.ofReal 0) mcKinnonSimplex) = true)
  rw [e]
  have hr := run (P := P) (show 1 ≤ 1.5 * (1 : ℝ) by norm_num) ha n
  refine ⟨hr.1, hr.2.1, fun hc hx hf hi he => ?_⟩
  refine run_success (by norm_num) ha n hc hf (N := 170) ?_ ?_ ?_ ?_
  · rw [hx]; norm_num
  · norm_num
  · rw [NMParams.iterLimit, hi]; decide
  · rw [NMParams.fevLimit, he]; decide

/-- the minimum is 0, attained only at `(0, -1/2)`, -/
theorem C89_minimum (x : Vec 2) : 0 ≤ valleyFloor x ∧ (valleyFloor x = 0 ↔ x = ![0, -1 / 2]) := by
  have key : ∀ c : ℝ, 0 < c → 0 ≤ c * x 0 ^ 2 + (x 1 + 1 / 2) ^ 2 ∧ (c * x 0 ^ 2 + (x 1 + 1 / 2) ^ 2 = 0 ↔ x = ![0, -1 / 2]) := by
    intro c hc
    refine ⟨by positivity, fun h => ?_, fun h => ?_⟩
    · have h1 : 0 ≤ c * x 0 ^ 2 := by positivity
      have h2 : 0 ≤ (x 1 + 1 / 2) ^ 2 := by positivity
      have h3 : c * x 0 ^ 2 = 0 := by linarith
      have h4 : (x 1 + 1 / 2) ^ 2 = 0 := by linarith
      have h5 : x 0 = 0 := by simpa [hc.ne'] using h3
      have h6 : x 1 + 1 / 2 = 0 := by simpa using h4
      funext i
      fin_cases i
      · simpa using h5
      · show x 1 = -1 / 2
        linarith
    · rw [h]; norm_num
  unfold valleyFloor
  split_ifs
  · exact key 360 (by norm_num)
  · exact key 6 (by norm_num)

/-- and the function is strictly convex -/
theorem C89_convex : StrictConvexOn ℝ Set.univ valleyFloor := by
  have e : ∀ x, valleyFloor x = 6 * x 0 ^ 2 + 354 * (max (-x 0) 0) ^ 2 + (x 1 + 1 / 2) ^ 2 := by
    intro x
    unfold valleyFloor
    split_ifs with h
    · rw [max_eq_left (by linarith)]; ring
    · rw [max_eq_right (by linarith)]; ring
  refine ⟨convex_univ, fun x _ y _ hxy p q hp hq hpq => ?_⟩
  rw [e, e, e]
  simp only [Pi.add_apply, Pi.smul_apply, smul_eq_mul]
  have hq' : q = 1 - p := by linarith
  have hm : max (-(p * x 0 + q * y 0)) 0 ≤ p * max (-x 0) 0 + q * max (-y 0) 0 := by
    refine max_le ?_ (by positivity)
    nlinarith [le_max_left (-x 0) 0, le_max_left (-y 0) 0]
  have hm0 : 0 ≤ max (-(p * x 0 + q * y 0)) 0 := le_max_right _ _
  set m := max (-(p * x 0 + q * y 0)) 0
  set mx := max (-x 0) 0
  set my := max (-y 0) 0
  have h1 : m ^ 2 ≤ p * mx ^ 2 + q * my ^ 2 := by
    have : m ^ 2 ≤ (p * mx + q * my) ^ 2 := pow_le_pow_left₀ hm0 hm 2
    have e2 : p * mx ^ 2 + q * my ^ 2 - (p * mx + q * my) ^ 2 = p * q * (mx - my) ^ 2 := by rw [hq']; ring
    have : 0 ≤ p * q * (mx - my) ^ 2 := by positivity
    linarith
  have h2 : 0 < p * q * (6 * (x 0 - y 0) ^ 2 + (x 1 - y 1) ^ 2) := by
    refine mul_pos (mul_pos hp hq) ?_
    by_contra hcon
    have h3 : (x 0 - y 0) ^ 2 = 0 := by nlinarith [sq_nonneg (x 0 - y 0), sq_nonneg (x 1 - y 1)]
    have h4 : (x 1 - y 1) ^ 2 = 0 := by nlinarith [sq_nonneg (x 0 - y 0), sq_nonneg (x 1 - y 1)]
    refine hxy (funext fun i => ?_)
    fin_cases i
    · exact sub_eq_zero.1 (by simpa using h3)
    · exact sub_eq_zero.1 (by simpa using h4)
  have e3 : p * (6 * x 0 ^ 2 + (x 1 + 1 / 2) ^ 2) + q * (6 * y 0 ^ 2 + (y 1 + 1 / 2) ^ 2)
      - (6 * (p * x 0 + q * y 0) ^ 2 + (p * x 1 + q * y 1 + 1 / 2) ^ 2) = p * q * (6 * (x 0 - y 0) ^ 2 + (x 1 - y 1) ^ 2) := by
    rw [hq']; ring
  nlinarith

/-- the hypotheses of `C89_default` are met: there is such a minimization -/
example : ∃ r evals, IsMinimization ⟨1e-10, FVal.ofReal 1e-10, none, none, none, true⟩ (fun _ x => FVal.ofReal (valleyFloor x)) mcKinnonSimplex r evals ∧
    r.success = true ∧ r.value = FVal.ofReal (1 / 4) := by
  obtain ⟨r, evals, h⟩ := isMinimization_exists ⟨1e-10, FVal.ofReal 1e-10, none, none, none, true⟩ (fun _ x => FVal.ofReal (valleyFloor x)) mcKinnonSimplex
  exact ⟨r, evals, h, C89_default h rfl rfl rfl rfl rfl, (C89_stalls h).2⟩

end NF
