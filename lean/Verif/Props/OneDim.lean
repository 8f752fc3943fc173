import Verif.Spec.Valley
import Verif.Lemmas.OneDimRun

/-! # C85: in one dimension, a minimization that starts in a valley finds its bottom -/

noncomputable section
open Classical
namespace NF
open Spec NMDemo

/-- how a successful run ends -/
theorem success_shape {g : ℝ → ℝ} {m W R : ℝ} (hv : Valley g m W) (hR : 4 * R ≤ W) {P : NMParams} (hc : P.fprimeCutoff = none) {argsort : Argsort 1} (ha : IsArgsort argsort)
    {f : ℕ → Vec 1 → FVal} (hf : ∀ n (x : Vec 1), |x 0 - m| ≤ W → f n x = FVal.ofReal (g (x 0))) {sim0 : Sim 1} (hne : sim0 0 0 ≠ sim0 1 0)
    (hs : ∀ i, |sim0 i 0 - m| + |sim0 1 0 - sim0 0 0| ≤ R)
    (hD : P.xtol < |sim0 1 0 - sim0 0 0| ∨ ∀ i, (∀ j, g (sim0 i 0) ≤ g (sim0 j 0)) → |sim0 i 0 - m| ≤ 2 * |sim0 1 0 - sim0 0 0|)
    (hsuc : (rootNelderMead P argsort f sim0).success = true) :
    ∃ a b, At1 g (nmRun P argsort f sim0) a b ∧ a ≠ b ∧ |b - a| ≤ P.xtol ∧ |a - m| ≤ 2 * |b - a| := by
  obtain ⟨D0, hD0, hD'⟩ : ∃ D0, P.xtol < D0 ∧ (D0 ≤ |sim0 1 0 - sim0 0 0| ∨
      ∀ i, (∀ j, g (sim0 i 0) ≤ g (sim0 j 0)) → |sim0 i 0 - m| ≤ 2 * |sim0 1 0 - sim0 0 0|) := by
    rcases hD with h | h
    · exact ⟨_, h, .inl le_rfl⟩
    · exact ⟨P.xtol + 1, by linarith, .inr h⟩
  obtain ⟨a, b, h1, h2, h3⟩ := run_near (P := P) hv hR ha hf hne hs hD'
  obtain ⟨S, F, e1, -, -, -, -, e6, -⟩ := C39_success_converged (d := 1) le_rfl ⟨argsort, ha, rfl, rfl⟩ hsuc (.inl hc)
  have hi := nmInv_run (d := 1) le_rfl ha f P sim0
  have eS : S = (nmRun P argsort f sim0).sim := by
    have := e1.symm.trans hi.simLast
    exact Option.some.inj this
  have hx : |b - a| ≤ P.xtol := by
    have := e6 1 0
    rw [eS, h1.xb] at this
    change |b - (nmRun P argsort f sim0).sim 0 0| ≤ _ at this
    rwa [h1.xa] at this
  refine ⟨a, b, h1, h2, hx, ?_⟩
  have ht : |tau m a b| ≤ 2 := by
    rcases h3 with ⟨-, h | h⟩ | h | h
    · linarith
    · exact h
    · exact h.2.1
    · exact h.2.1
  rw [tau_dist h2]
  exact mul_le_mul_of_nonneg_right ht (abs_nonneg _)

/-- **C85**, one run: let the function have a valley around `m` (of any shape: strictly falling, then strictly rising), and let it be arbitrary outside.  If a run of the minimizer starts from two points
so far inside the valley that four times (their distance from `m` plus the length of the segment) is within the valley, and it ends successfully, then it has found the bottom of the valley, up to twice the tolerance. -/
theorem C85_success_is_minimum {g : ℝ → ℝ} {m W R : ℝ} (hv : Valley g m W) (hR : 4 * R ≤ W) {P : NMParams} (hc : P.fprimeCutoff = none)
    {f : ℕ → Vec 1 → FVal} (hf : ∀ n (x : Vec 1), |x 0 - m| ≤ W → f n x = FVal.ofReal (g (x 0))) {sim0 : Sim 1}
    (hs : ∀ i, |sim0 i 0 - m| + |sim0 1 0 - sim0 0 0| ≤ R) (hx0 : 0 ≤ P.xtol) (hx : P.xtol < |sim0 1 0 - sim0 0 0|) {r : MinRes 1} {evals : List (Vec 1 × FVal)}
    (h : IsMinimization P f sim0 r evals) (hsuc : r.success = true) : |r.pos 0 - m| ≤ 2 * P.xtol := by
  obtain ⟨argsort, ha, rfl, rfl⟩ := h
  have hne : sim0 0 0 ≠ sim0 1 0 := fun e => by
    rw [e, sub_self, abs_zero] at hx
    linarith
  obtain ⟨a, b, h1, -, h3, h4⟩ := success_shape hv hR hc ha hf hne hs (.inl hx) hsuc
  change |(nmRun P argsort f sim0).sim 0 0 - m| ≤ _
  rw [h1.xa]
  linarith

theorem add_zero_fval (v : ℝ) : FVal.add (FVal.ofReal v) (FVal.ofReal 0) = FVal.ofReal v := by
  simp [FVal.add, FVal.ofReal]

theorem absDiff_ofReal (a b : ℝ) : FVal.absDiff (FVal.ofReal a) (FVal.ofReal b) = FVal.ofReal |a - b| := by
  unfold FVal.absDiff FVal.ofReal
  show (if (a : EReal) = ⊤ ∧ (b : EReal) = ⊤ ∨ (a : EReal) = ⊥ ∧ (b : EReal) = ⊥ then FVal.nan else _) = _
  simp

theorem within_inf (a b : ℝ) : Within FVal.inf (FVal.ofReal a) (FVal.ofReal b) := by
  unfold Within
  rw [absDiff_ofReal]
  exact ⟨ofReal_ne_nan _, WithTop.coe_ne_top, WithTop.coe_le_coe.2 le_top⟩

theorem within_of_abs {t a b : ℝ} : Within (FVal.ofReal t) (FVal.ofReal a) (FVal.ofReal b) ↔ |a - b| ≤ t := by
  unfold Within
  rw [absDiff_ofReal, fle]

/-- **C85**: under the same hypotheses, if also the tolerance for the values is met near the bottom and the limits on iterations and calls are logarithmic in the size of the start over the tolerance (the
default limits, 200, are enough for a ratio of `2 ^ 31`), then the minimization ends successfully and finds the bottom: also with a fake potential, which is zero in the valley. -/
theorem C85_finds_minimum {g : ℝ → ℝ} {m W R δ : ℝ} {K : ℕ} (hv : Valley g m W) (hR : 4 * R ≤ W) {P : NMParams} (hxW : 20 * P.xtol ≤ W) (hc : P.fprimeCutoff = none) (hδ : 0 < δ) (hδx : δ ≤ P.xtol)
    (hft : ∀ x y, |x - m| ≤ 3 * δ → |y - m| ≤ 3 * δ → Within P.ftol (FVal.ofReal (g x)) (FVal.ofReal (g y)))
    (hK : R ≤ 2 ^ K * δ) (hK' : 5 * P.xtol ≤ 2 ^ K * δ) (hit : 3 * K + 4 < P.iterLimit 1) (hfe : 6 * K + 8 < P.fevLimit 1)
    {f : ℕ → Vec 1 → FVal} (hf : ∀ n (x : Vec 1), |x 0 - m| ≤ W → f n x = FVal.ofReal (g (x 0)))
    {fake : Option (ℕ → Vec 1 → FVal)} (hfake : ∀ q, fake = some q → ∀ n (x : Vec 1), |x 0 - m| ≤ W → q n x = FVal.ofReal 0) {sim0 : Sim 1}
    (hs : ∀ i, |sim0 i 0 - m| + |sim0 1 0 - sim0 0 0| ≤ R) (hx : P.xtol < |sim0 1 0 - sim0 0 0|) {r : SRes 1} (h : IsTwoStep P f fake sim0 r) :
    r.success = true ∧ |r.pos 0 - m| ≤ 2 * P.xtol := by
  obtain ⟨argsort, ha, rfl⟩ := h
  have hx0 : 0 < P.xtol := hδ.trans_le hδx
  have hne : sim0 0 0 ≠ sim0 1 0 := fun e => by
    rw [e, sub_self, abs_zero] at hx
    linarith
  cases fake with
  | none =>
    have hsuc := run_succeeds hv hR hδ hK hδx hft hc hit hfe ha hf hne hs (.inl (hδx.trans hx.le))
    exact ⟨hsuc, C85_success_is_minimum hv hR hc hf hs hx0.le hx ⟨argsort, ha, rfl, rfl⟩ hsuc⟩
  | some q =>
    have hq := hfake q rfl
    have hf1 : ∀ n (x : Vec 1), |x 0 - m| ≤ W → addFakePotential q f n x = FVal.ofReal (g (x 0)) := fun n x hxW => by
      rw [addFakePotential, hf n x hxW, hq n x hxW, add_zero_fval]
    have hsuc1 := run_succeeds (P := { P with ftol := FVal.inf }) hv hR hδ hK hδx (fun _ _ _ _ => within_inf _ _) hc hit hfe ha hf1 hne hs (.inl (hδx.trans hx.le))
    obtain ⟨a, b, h1, h2, h3, h4⟩ := success_shape (P := { P with ftol := FVal.inf }) hv hR hc ha hf1 hne hs (.inl hx) hsuc1
    have h3 : |b - a| ≤ P.xtol := h3
    have hi := nmInv_run (d := 1) le_rfl ha (addFakePotential q f) { P with ftol := FVal.inf } sim0
    set S := (nmRun { P with ftol := FVal.inf } argsort (addFakePotential q f) sim0).sim with hS
    have elast : (rootNelderMead { P with ftol := FVal.inf } argsort (addFakePotential q f) sim0).simplexHistory.getLastD sim0 = S := by
      rw [List.getLastD_eq_getLast?]
      have : (rootNelderMead { P with ftol := FVal.inf } argsort (addFakePotential q f) sim0).simplexHistory.getLast? = some S := hi.simLast
      rw [this]; rfl
    have e0 : blowup S 0 0 = a := by simp [blowup, h1.xa, hS]
    have e1 : blowup S 1 0 = a + 1.5 * (b - a) := by simp [blowup, h1.xa, h1.xb, hS]
    have eD : |blowup S 1 0 - blowup S 0 0| = 1.5 * |b - a| := by
      rw [e0, e1, add_sub_cancel_left, abs_mul]; norm_num
    have hpos : 0 < |b - a| := abs_pos.2 (sub_ne_zero.2 h2.symm)
    have hb' : |a + 1.5 * (b - a) - m| ≤ 3.5 * |b - a| := by
      have := abs_add_le (a - m) (1.5 * (b - a))
      rw [abs_mul, show |(1.5 : ℝ)| = 1.5 by norm_num, show a - m + 1.5 * (b - a) = a + 1.5 * (b - a) - m by ring] at this
      linarith
    have hne2 : blowup S 0 0 ≠ blowup S 1 0 := fun e => by
      rw [e, sub_self, abs_zero] at eD
      linarith
    have hs2 : ∀ i, |blowup S i 0 - m| + |blowup S 1 0 - blowup S 0 0| ≤ 5 * P.xtol := by
      intro i
      rw [eD]
      fin_cases i
      · show |blowup S 0 0 - m| + _ ≤ _
        rw [e0]; linarith
      · show |blowup S 1 0 - m| + _ ≤ _
        rw [e1]; linarith
    have hbest : ∀ i, (∀ j, g (blowup S i 0) ≤ g (blowup S j 0)) → |blowup S i 0 - m| ≤ 2 * |blowup S 1 0 - blowup S 0 0| := by
      intro i hi
      rw [eD]
      fin_cases i
      · show |blowup S 0 0 - m| ≤ _
        rw [e0]; linarith
      · show |blowup S 1 0 - m| ≤ _
        have hle : g (blowup S 1 0) ≤ g (blowup S 0 0) := hi 0
        rw [e0, e1] at hle
        rw [e1]
        set b' := a + 1.5 * (b - a) with hb'def
        have ha' : |a - m| ≤ W := by linarith
        have hbW : |b' - m| ≤ W := by linarith
        rw [abs_le] at ha' hbW
        rcases le_total a m with ham | ham <;> rcases le_total a b with hab | hab
        · rw [abs_of_nonneg (sub_nonneg.2 hab)] at *
          rw [abs_of_nonpos (sub_nonpos.2 ham)] at h4
          rw [abs_le]; constructor <;> linarith
        · exfalso
          have : a < b → False := fun h => by linarith
          have hlt : b' < a := by
            have : b < a := lt_of_le_of_ne hab h2.symm
            linarith
          have := hv.falls (show b' ∈ Set.Icc (m - W) m from ⟨by linarith, by linarith⟩) (show a ∈ Set.Icc (m - W) m from ⟨by linarith, ham⟩) hlt
          linarith
        · exfalso
          have hlt : a < b' := by
            have : a < b := lt_of_le_of_ne hab h2
            linarith
          have := hv.rises (show a ∈ Set.Icc m (m + W) from ⟨ham, by linarith⟩) (show b' ∈ Set.Icc m (m + W) from ⟨by linarith, by linarith⟩) hlt
          linarith
        · rw [abs_of_nonpos (sub_nonpos.2 hab)] at *
          rw [abs_of_nonneg (sub_nonneg.2 ham)] at h4
          rw [abs_le]; constructor <;> linarith
    have hR2 : 4 * (5 * P.xtol) ≤ W := by linarith
    simp only [runMinimization, SRes.success, SRes.pos]
    rw [elast]
    set N := (rootNelderMead { P with ftol := FVal.inf } argsort (addFakePotential q f) sim0).numFev
    have hf2 : ∀ n (x : Vec 1), |x 0 - m| ≤ W → (fun n => f (N + n)) n x = FVal.ofReal (g (x 0)) := fun n x hx => hf _ x hx
    have hsuc2 := run_succeeds hv hR2 hδ hK' hδx hft hc hit hfe ha hf2 hne2 hs2 (.inr hbest)
    obtain ⟨a2, b2, k1, k2, k3, k4⟩ := success_shape hv hR2 hc ha hf2 hne2 hs2 (.inr hbest) hsuc2
    refine ⟨hsuc2, ?_⟩
    change |(nmRun P argsort (fun n => f (N + n)) (blowup S)).sim 0 0 - m| ≤ _
    rw [k1.xa]
    linarith

/-! ## Non-vacuity: `x²`, from 1 and 2, with tolerances 1/100 and the default limits -/
namespace C85Demo

def sim : Sim 1 := fun i _ => if i = 0 then 1 else 2
def P : NMParams := ⟨1 / 100, FVal.ofReal (1 / 100), none, none, none, true⟩
def f (_ : ℕ) (x : Vec 1) : FVal := FVal.ofReal (x 0 ^ 2)

theorem valley : Valley (fun x => x ^ 2) 0 12 where
  falls x hx y hy hxy := by
    have h1 := hx.2; have h2 := hy.2
    show y ^ 2 < x ^ 2
    nlinarith
  rises x hx y hy hxy := by
    have h1 := hx.1; have h2 := hy.1
    show x ^ 2 < y ^ 2
    nlinarith

theorem start (i : Fin 2) : |sim i 0 - 0| + |sim 1 0 - sim 0 0| ≤ 3 := by
  fin_cases i <;> norm_num [sim]

/-- with or without a fake potential (zero here), the minimization of `x²` from 1 and 2 ends within 1/50 of the minimum -/
theorem runs {fake : Option (ℕ → Vec 1 → FVal)} (hfake : ∀ q, fake = some q → ∀ n x, q n x = FVal.ofReal 0) {r : SRes 1} (h : IsTwoStep P f fake sim r) :
    r.success = true ∧ |r.pos 0| ≤ 1 / 50 := by
  have := C85_finds_minimum (R := 3) (δ := 1 / 100) (K := 9) valley (by norm_num) (P := P) (by norm_num [P]) rfl (by norm_num) le_rfl ?_ (by norm_num) (by norm_num [P])
    (by norm_num [NMParams.iterLimit, P]) (by norm_num [NMParams.fevLimit, P]) (fun n x _ => rfl) (fun q hq n x _ => hfake q hq n x) start (by norm_num [sim, P]) h
  · refine ⟨this.1, ?_⟩
    have := this.2
    rw [sub_zero] at this
    exact this.trans (by norm_num [P])
  · intro x y hx hy
    rw [sub_zero] at hx hy
    show Within (FVal.ofReal (1 / 100)) _ _
    rw [within_of_abs, abs_le]
    have h1 := sq_le_sq' (abs_le.1 hx).1 (abs_le.1 hx).2
    have h2 := sq_le_sq' (abs_le.1 hy).1 (abs_le.1 hy).2
    have h3 := sq_nonneg x
    have h4 := sq_nonneg y
    constructor <;> nlinarith

example : ∃ r, IsTwoStep P f (some fun _ _ => FVal.ofReal 0) sim r ∧ r.success = true ∧ |r.pos 0| ≤ 1 / 50 := by
  have h : IsTwoStep P f (some fun _ _ => FVal.ofReal 0) sim (runMinimization P (fun v => Tuple.sort v) f (some fun _ _ => FVal.ofReal 0) sim) :=
    ⟨_, fun v => Tuple.monotone_sort v, rfl⟩
  exact ⟨_, h, runs (fun q hq n x => by rw [← Option.some.inj hq]) h⟩

example : ∃ r evals, IsMinimization P f sim r evals ∧ r.success = true ∧ |r.pos 0| ≤ 1 / 50 := by
  obtain ⟨r, evals, h⟩ := isMinimization_exists P f sim
  have h2 : IsTwoStep P f none sim (.plain r) := by
    obtain ⟨argsort, ha, rfl, -⟩ := h
    exact ⟨argsort, ha, rfl⟩
  exact ⟨r, evals, h, runs (fun q hq => by cases hq) h2⟩

end C85Demo

end NF
