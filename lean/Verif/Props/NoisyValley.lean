import Verif.Lemmas.NoisyRun
import Verif.Props.OneDim
import Verif.Props.FloatSearch

/-! # C105: in one dimension, a minimization that starts in a valley finds its bottom also in double precision, with noise -/

noncomputable section
open Classical
namespace NF
open Spec NMDemo

theorem eta_ulp {m W η : ℝ} (hW : 0 ≤ W) (hη : (|m| + W) / 2 ^ 48 ≤ η) : 0 ≤ η ∧ 26 * (ulp * (|m| + W)) ≤ η := by
  have h0 : 0 ≤ |m| + W := add_nonneg (abs_nonneg _) hW
  have e : 32 * (ulp * (|m| + W)) = (|m| + W) / 2 ^ 48 := by unfold ulp; ring
  have := mul_nonneg ulp_pos.le h0
  constructor <;> linarith

/-- how a successful run ends -/
theorem fl_success_shape {A : FL.Arith 1} (hr : IsNearest A.rnd) (hA : A.Valid) {g : ℝ → ℝ} {m W η : ℝ} (hv : NoisyValley g m W η) (hη0 : 0 ≤ η) (hη : 26 * (ulp * (|m| + W)) ≤ η) {H D0 X : ℝ} (hHW : 5 * H + 46 * η ≤ W)
    (hX : 11 * η ≤ X) (hD0 : 4 * η < D0) {P : NMParams} (hc : P.fprimeCutoff = none) (hxD : P.xtol + η < D0) {argsort : Argsort 1} (ha : IsArgsort argsort) {f : ℕ → Vec 1 → FVal}
    (hf : ∀ n (x : Vec 1), IsFloat (x 0) → |x 0 - m| ≤ W → f n x = FVal.ofReal (g (x 0))) {sim0 : Sim 1}
    (hfl : ∀ i, IsFloat (sim0 i 0)) (hH : ∀ i, |sim0 i 0 - m| ≤ H) (hH' : |sim0 1 0 - sim0 0 0| ≤ H)
    (hN : ∀ i, (∀ j, g (sim0 i 0) ≤ g (sim0 j 0)) → D0 ≤ |sim0 1 0 - sim0 0 0| ∨ |sim0 i 0 - m| ≤ 2 * |sim0 1 0 - sim0 0 0| + 3 * η ∨ |sim0 i 0 - m| ≤ X)
    (hsuc : (FL.rootNelderMead A P argsort f sim0).success = true) :
    ∃ a b, At1 g (FL.nmRun A P argsort f sim0) a b ∧ IsFloat a ∧ IsFloat b ∧ |b - a| ≤ P.xtol + η ∧ |a - m| ≤ 2 * |b - a| + X + 9 * η := by
  obtain ⟨a, b, h1, h2, h3, h4⟩ := fl_run_near (P := P) hr hA hv hη0 hη hHW hX hD0 ha hf hfl hH hH' hN
  obtain ⟨S, F, e1, -, -, -, -, e6, -⟩ := fl_success (d := 1) le_rfl ⟨argsort, ha, rfl, rfl⟩ hsuc (.inl hc)
  have hi := FL.nmInv_run A (d := 1) le_rfl ha f P sim0
  have eS : S = (FL.nmRun A P argsort f sim0).sim := by
    have := e1.symm.trans hi.simLast
    exact Option.some.inj this
  have hx : |A.rnd (b - a)| ≤ P.xtol := by
    have := e6 0 0
    rw [eS, show (0 : Fin 1).succ = (1 : Fin 2) from rfl, h1.xb] at this
    change |A.rnd (b - (FL.nmRun A P argsort f sim0).sim 0 0)| ≤ _ at this
    rwa [h1.xa] at this
  have hba : |b - a| ≤ P.xtol + η := by
    have := (rnd_diff_le hr hη h2.2 h3.2).2
    linarith
  exact ⟨a, b, h1, h2.1, h3.1, hba, h4.resolve_left (by linarith)⟩

/-- **C105**, one run: let the function, as computed in double precision, have a valley around `m` (of any shape, and with noise: only points more than `η` apart need be in the right order, where `η` is at least a few units
in the last place), and let it be arbitrary outside.  If a run of the minimizer starts from two points inside the valley and ends successfully, then it has found the bottom of the valley, up to twice the tolerance and 22 `η`. -/
theorem C105_success_is_minimum {A : FL.Arith 1} (hr : IsNearest A.rnd) (hA : A.Valid) {g : ℝ → ℝ} {m W η R : ℝ} (hv : NoisyValley g m W η) (hW : 0 ≤ W) (hη : (|m| + W) / 2 ^ 48 ≤ η) (hR : 5 * R + 46 * η ≤ W)
    {P : NMParams} (hc : P.fprimeCutoff = none) {f : ℕ → Vec 1 → FVal} (hf : ∀ n (x : Vec 1), IsFloat (x 0) → |x 0 - m| ≤ W → f n x = FVal.ofReal (g (x 0))) {sim0 : Sim 1} (hfl : ∀ i, IsFloat (sim0 i 0))
    (hs : ∀ i, |sim0 i 0 - m| ≤ R) (hs' : |sim0 1 0 - sim0 0 0| ≤ R) (hx0 : 4 * η < |sim0 1 0 - sim0 0 0|) (hx : P.xtol + η < |sim0 1 0 - sim0 0 0|) {r : MinRes 1} {evals : List (Vec 1 × FVal)}
    (h : IsFloatMinimization A P f sim0 r evals) (hsuc : r.success = true) : |r.pos 0 - m| ≤ 2 * P.xtol + 22 * η := by
  obtain ⟨argsort, ha, rfl, rfl⟩ := h
  obtain ⟨hη0, hη'⟩ := eta_ulp hW hη
  obtain ⟨a, b, h1, -, -, h3, h4⟩ := fl_success_shape hr hA hv hη0 hη' hR le_rfl hx0 hc hx ha hf hfl hs hs' (fun i _ => .inl le_rfl) hsuc
  change |(FL.nmRun A P argsort f sim0).sim 0 0 - m| ≤ _
  rw [h1.xa]
  linarith

theorem fl_absDiff_ofReal (rnd : ℝ → ℝ) (a b : ℝ) : FL.absDiff rnd (FVal.ofReal a) (FVal.ofReal b) = FVal.ofReal |rnd (a - b)| := by
  unfold FL.absDiff FVal.ofReal
  show (if (a : EReal) = ⊤ ∧ (b : EReal) = ⊤ ∨ (a : EReal) = ⊥ ∧ (b : EReal) = ⊥ then FVal.nan else _) = _
  simp

theorem fl_within_inf (rnd : ℝ → ℝ) (a b : ℝ) : FloatWithin rnd FVal.inf (FVal.ofReal a) (FVal.ofReal b) := by
  unfold FloatWithin
  rw [fl_absDiff_ofReal]
  exact ⟨ofReal_ne_nan _, WithTop.coe_ne_top, WithTop.coe_le_coe.2 le_top⟩

theorem fl_within_of_abs {rnd : ℝ → ℝ} {t a b : ℝ} : FloatWithin rnd (FVal.ofReal t) (FVal.ofReal a) (FVal.ofReal b) ↔ |rnd (a - b)| ≤ t := by
  unfold FloatWithin
  rw [fl_absDiff_ofReal, fle]

theorem roundFVal_ofReal (rnd : ℝ → ℝ) (v : ℝ) : FL.roundFVal rnd (FVal.ofReal v) = FVal.ofReal (rnd v) := by
  unfold FL.roundFVal FVal.ofReal
  show (if (v : EReal) = ⊤ ∨ (v : EReal) = ⊥ then _ else _) = _
  simp

/-- **C105**: under the same hypotheses, if the tolerance for the positions is well above the noise, the tolerance for the values is met near the bottom, and the limits on iterations and calls are logarithmic in the size of
the start over the tolerance, then the minimization ends successfully and finds the bottom: also with a fake potential, which is zero in the valley. -/
theorem C105_finds_minimum {A : FL.Arith 1} (hr : IsNearest A.rnd) (hA : A.Valid) {g : ℝ → ℝ} {m W η R δ : ℝ} {K K1 : ℕ} (hv : NoisyValley g m W η) (hW : 0 ≤ W) (hη : (|m| + W) / 2 ^ 48 ≤ η) (hR : 5 * R + 46 * η ≤ W)
    {P : NMParams} (hxW : 21 * P.xtol ≤ W) (hc : P.fprimeCutoff = none) (hδ0 : 0 < δ) (hδ : 100 * η ≤ δ) (hδx : δ + 7 * η ≤ P.xtol)
    (hft : ∀ x y, IsFloat x → IsFloat y → |x - m| ≤ 4 * δ → |y - m| ≤ 4 * δ → FloatWithin A.rnd P.ftol (FVal.ofReal (g x)) (FVal.ofReal (g y)))
    {f : ℕ → Vec 1 → FVal} (hf : ∀ n (x : Vec 1), IsFloat (x 0) → |x 0 - m| ≤ W → f n x = FVal.ofReal (g (x 0))) (hgf : ∀ x, IsFloat x → |x - m| ≤ W → IsFloat (g x))
    {fake : Option (ℕ → Vec 1 → FVal)} (hfake : ∀ q, fake = some q → ∀ n (x : Vec 1), |x 0 - m| ≤ W → q n x = FVal.ofReal 0) {sim0 : Sim 1} (hfl : ∀ i, IsFloat (sim0 i 0))
    (hs : ∀ i, |sim0 i 0 - m| + |sim0 1 0 - sim0 0 0| ≤ R) (hx : P.xtol + η < |sim0 1 0 - sim0 0 0|)
    (hK : R ≤ 2 ^ K * δ) (hK' : 7 * P.xtol ≤ 2 ^ K * δ) (hK1 : R ≤ 2 ^ K1 * (|sim0 1 0 - sim0 0 0| - η)) (hit : 3 * K + K1 + 8 < P.iterLimit 1) (hfe : 6 * K + 2 * K1 + 14 < P.fevLimit 1)
    {r : SRes 1} (h : IsFloatTwoStep A P f fake sim0 r) : r.success = true ∧ |r.pos 0 - m| ≤ 2 * P.xtol + 150 * η := by
  obtain ⟨argsort, ha, rfl⟩ := h
  obtain ⟨hη0, hη'⟩ := eta_ulp hW hη
  have hD0 := abs_nonneg (sim0 1 0 - sim0 0 0)
  have hs1 : ∀ i, |sim0 i 0 - m| ≤ R := fun i => by linarith [hs i]
  have hs2 : |sim0 1 0 - sim0 0 0| ≤ R := by linarith [hs 0, abs_nonneg (sim0 0 0 - m)]
  have hfar : (∀ i, |sim0 i 0 - m| + |sim0 1 0 - sim0 0 0| ≤ R ∧ (|sim0 1 0 - sim0 0 0| - η) + η ≤ |sim0 1 0 - sim0 0 0|) := fun i => ⟨hs i, by linarith⟩
  cases fake with
  | none =>
    have hsuc := fl_run_succeeds hr hA hv hη0 hη' hR hδ hδ0 (by linarith) (by linarith) hK hK1 hδx hft hc (by omega) (by omega) ha hf hfl hs1 hs2 (.inl hfar)
    refine ⟨hsuc, ?_⟩
    have := C105_success_is_minimum hr hA hv hW hη hR hc hf hfl hs1 hs2 (by linarith) hx ⟨argsort, ha, rfl, rfl⟩ hsuc
    exact this.trans (by linarith)
  | some q =>
    have hq := hfake q rfl
    have hf1 : ∀ n (x : Vec 1), IsFloat (x 0) → |x 0 - m| ≤ W → FL.addFakePotential A q f n x = FVal.ofReal (g (x 0)) := fun n x hxf hxW => by
      rw [FL.addFakePotential, hf n x hxf hxW, hq n x hxW, add_zero_fval, roundFVal_ofReal, rnd_of_isFloat hr (hgf _ hxf hxW)]
    have hsuc1 := fl_run_succeeds (P := { P with ftol := FVal.inf }) hr hA hv hη0 hη' hR hδ hδ0 (by linarith) (by linarith) hK hK1 hδx (fun x y _ _ _ _ => fl_within_inf A.rnd (g x) (g y)) hc
      (show 3 * K + K1 + 5 < P.iterLimit 1 by omega) (show 6 * K + 2 * K1 + 10 < P.fevLimit 1 by omega) ha hf1 hfl hs1 hs2 (.inl hfar)
    obtain ⟨a, b, h1, fa, fb, h3, h4⟩ := fl_success_shape (P := { P with ftol := FVal.inf }) hr hA hv hη0 hη' hR le_rfl (show 4 * η < |sim0 1 0 - sim0 0 0| by linarith) hc hx ha hf1 hfl hs1 hs2 (fun i _ => .inl le_rfl) hsuc1
    have h3 : |b - a| ≤ P.xtol + η := h3
    have hi := FL.nmInv_run A (d := 1) le_rfl ha (FL.addFakePotential A q f) { P with ftol := FVal.inf } sim0
    set S := (FL.nmRun A { P with ftol := FVal.inf } argsort (FL.addFakePotential A q f) sim0).sim with hS
    have xa : S 0 0 = a := h1.xa
    have xb : S 1 0 = b := h1.xb
    have elast : (FL.rootNelderMead A { P with ftol := FVal.inf } argsort (FL.addFakePotential A q f) sim0).simplexHistory.getLastD sim0 = S := by
      rw [List.getLastD_eq_getLast?]
      have : (FL.rootNelderMead A { P with ftol := FVal.inf } argsort (FL.addFakePotential A q f) sim0).simplexHistory.getLast? = some S := hi.simLast
      rw [this]; rfl
    have hxtol : 100 * η ≤ P.xtol := by linarith
    have haW : |a - m| ≤ W := by linarith
    have hbm : |b - m| ≤ |b - a| + |a - m| := by
      have := abs_add_le (b - a) (a - m)
      rwa [show b - a + (a - m) = b - m by ring] at this
    have hbW : |b - m| ≤ W := by linarith
    have e0 : FL.blowup A S 0 0 = a := by
      show A.rnd (S 0 0 + A.rnd (1.5 * A.rnd (S 0 0 - S 0 0))) = a
      rw [xa, sub_self, rnd_of_isFloat hr isFloat_zero, mul_zero, rnd_of_isFloat hr isFloat_zero, add_zero, rnd_of_isFloat hr fa]
    have hB : ∀ x, |x - m| ≤ W → |x| ≤ |m| + W := fun x hx => by
      have := abs_add_le m (x - m)
      rw [add_sub_cancel] at this
      linarith
    obtain ⟨c, hc'⟩ : ∃ c, c = FL.blowup A S 1 0 := ⟨_, rfl⟩
    have e1 : |c - (a + 1.5 * (b - a))| ≤ η := by
      rw [hc']
      have := scale_err hr (c := 1.5) (by norm_num) (by norm_num) (x0 := S 0) (x := S 1) (k := 0) (B := |m| + W) (by rw [xa]; exact hB _ haW) (by rw [xb]; exact hB _ hbW)
      rw [xa, xb] at this
      have hu0 : 0 ≤ ulp * (|m| + W) := mul_nonneg ulp_pos.le (add_nonneg (abs_nonneg _) hW)
      exact this.trans (by linarith)
    have fc : IsFloat c := hc' ▸ (hr _).1
    have e15 : (1.5 : ℝ) = 3 / 2 := by norm_num
    rw [e15] at e1
    have e1' := abs_le.1 e1
    have eD : |c - a| ≤ 3 / 2 * |b - a| + η ∧ 3 / 2 * |b - a| ≤ |c - a| + η := by
      have q1 := abs_add_le (c - (a + 3 / 2 * (b - a))) (3 / 2 * (b - a))
      rw [show c - (a + 3 / 2 * (b - a)) + 3 / 2 * (b - a) = c - a by ring, abs_mul, show |(3 / 2 : ℝ)| = 3 / 2 by norm_num] at q1
      have q2 := abs_sub_abs_le_abs_sub (3 / 2 * (b - a)) (c - a)
      rw [abs_sub_comm (3 / 2 * (b - a)), show c - a - 3 / 2 * (b - a) = c - (a + 3 / 2 * (b - a)) by ring, abs_mul, show |(3 / 2 : ℝ)| = 3 / 2 by norm_num] at q2
      constructor <;> linarith
    obtain ⟨D1, hD1⟩ : ∃ D1, D1 = |c - a| := ⟨_, rfl⟩
    rw [← hD1] at eD
    have ham : |a - m| ≤ 4 / 3 * D1 + 22 * η := by linarith
    have hcm : |c - m| ≤ D1 + |a - m| := by
      have := abs_add_le (c - a) (a - m)
      rwa [show c - a + (a - m) = c - m by ring, ← hD1] at this
    have hD10 : 0 ≤ D1 := hD1 ▸ abs_nonneg _
    have hsim : ∀ (p : ℝ → Prop), p a → p c → ∀ i, p (FL.blowup A S i 0) := by
      intro p h0 h1 i
      fin_cases i
      · show p (FL.blowup A S 0 0)
        rw [e0]; exact h0
      · show p (FL.blowup A S 1 0)
        rw [← hc']; exact h1
    have hDb : |FL.blowup A S 1 0 - FL.blowup A S 0 0| = D1 := by rw [e0, ← hc', hD1]
    have hfl2 : ∀ i, IsFloat (FL.blowup A S i 0) := hsim _ fa fc
    have hH2 : ∀ i, |FL.blowup A S i 0 - m| ≤ 4 * P.xtol := hsim (fun x => |x - m| ≤ 4 * P.xtol) (by linarith) (by linarith)
    have hH2' : |FL.blowup A S 1 0 - FL.blowup A S 0 0| ≤ 4 * P.xtol := by rw [hDb]; linarith
    have hN2 : ∀ i, (∀ j, g (FL.blowup A S i 0) ≤ g (FL.blowup A S j 0)) → P.xtol + η + δ ≤ |FL.blowup A S 1 0 - FL.blowup A S 0 0| ∨
        |FL.blowup A S i 0 - m| ≤ 2 * |FL.blowup A S 1 0 - FL.blowup A S 0 0| + 3 * η ∨ |FL.blowup A S i 0 - m| ≤ 120 * η := by
      rw [hDb]
      intro i hi
      right
      rcases le_or_gt D1 (30 * η) with hsm | hbig
      · right
        exact hsim (fun x => |x - m| ≤ 120 * η) (by linarith) (by linarith) i
      · left
        revert hi
        fin_cases i
        · intro _
          show |FL.blowup A S 0 0 - m| ≤ _
          rw [e0]; linarith
        · intro hi
          have hle : g (FL.blowup A S 1 0) ≤ g (FL.blowup A S 0 0) := hi 0
          show |FL.blowup A S 1 0 - m| ≤ _
          rw [e0, ← hc'] at hle
          rw [← hc']
          have ia : In IsFloat m W a := ⟨fa, haW⟩
          have ic : In IsFloat m W c := ⟨fc, by linarith⟩
          have ham' := abs_le.1 ham
          rcases le_total a c with hac | hac
          · rw [abs_of_nonneg (sub_nonneg.2 hac)] at hD1
            have := hv.sees.r ic ia (by linarith) hle
            rw [abs_le]
            constructor <;> linarith
          · rw [abs_of_nonpos (sub_nonpos.2 hac)] at hD1
            have := hv.sees.l ic ia (by linarith) hle
            rw [abs_le]
            constructor <;> linarith
    simp only [FL.runMinimization, SRes.success, SRes.pos]
    rw [elast]
    set N := (FL.rootNelderMead A { P with ftol := FVal.inf } argsort (FL.addFakePotential A q f) sim0).numFev
    have hf2 : ∀ n (x : Vec 1), IsFloat (x 0) → |x 0 - m| ≤ W → (fun n => f (N + n)) n x = FVal.ofReal (g (x 0)) := fun n x hxf hx => hf _ x hxf hx
    have hHW2 : 5 * (4 * P.xtol) + 46 * η ≤ W := by linarith
    have hsuc2 : (FL.rootNelderMead A P argsort (fun n => f (N + n)) (FL.blowup A S)).success = true := by
      rcases le_or_gt D1 (δ + 6 * η) with hsm | hbig
      · refine fl_run_succeeds (R := 0) (d0 := δ) (K := K) (K1 := K1) hr hA hv hη0 hη' hHW2 hδ hδ0 hδ hδ0 (by positivity) (by positivity) hδx hft hc (by omega) (by omega) ha hf2 hfl2 hH2 hH2' (.inr ?_)
        rw [hDb]
        exact ⟨hsm, hsim (fun x => |x - m| ≤ 4 * δ) (by linarith) (by linarith)⟩
      · refine fl_run_succeeds (R := 4 * (D1 - η)) (d0 := D1 - η) (K := K) (K1 := 2) hr hA hv hη0 hη' hHW2 hδ hδ0 (by linarith) (by linarith) (by linarith) (by norm_num) hδx hft hc (by omega) (by omega) ha hf2 hfl2 hH2 hH2' (.inl ?_)
        rw [hDb]
        exact hsim (fun x => |x - m| + D1 ≤ 4 * (D1 - η) ∧ D1 - η + η ≤ D1) ⟨by linarith, by linarith⟩ ⟨by linarith, by linarith⟩
    obtain ⟨a2, b2, k1, -, -, k3, k4⟩ := fl_success_shape hr hA hv hη0 hη' hHW2 (X := 120 * η) (D0 := P.xtol + η + δ) (by linarith) (by linarith) hc (by linarith) ha hf2 hfl2 hH2 hH2' hN2 hsuc2
    refine ⟨hsuc2, ?_⟩
    change |(FL.nmRun A P argsort (fun n => f (N + n)) (FL.blowup A S)).sim 0 0 - m| ≤ _
    rw [k1.xa]
    linarith

/-- The valleys of C85 are such valleys, for every `η`. -/
theorem C105_exact_valley {g : ℝ → ℝ} {m W : ℝ} (h : Valley g m W) {η : ℝ} (hη : 0 ≤ η) : NoisyValley g m W η where
  falls x y _ _ h1 h2 h3 := h.falls ⟨h1, by linarith⟩ ⟨by linarith, h3⟩ (by linarith)
  rises x y _ _ h1 h2 h3 := h.rises ⟨h1, by linarith⟩ ⟨by linarith, h3⟩ (by linarith)

/-! ## Non-vacuity: `|x|`, but known only in steps of `2⁻²⁰`, from 1 and 2, with tolerance 1/100 and the default limits -/
namespace C105Demo

def g (x : ℝ) : ℝ := ⌊2 ^ 20 * |x|⌋ / 2 ^ 20
def f (_ : ℕ) (x : Vec 1) : FVal := FVal.ofReal (g (x 0))
def P : NMParams := ⟨1 / 100, FVal.ofReal (1 / 10), none, none, none, true⟩

theorem steps {x y : ℝ} (h : |x| + 1 / 2 ^ 20 < |y|) : g x < g y := by
  have h1 : ⌊2 ^ 20 * |x|⌋ < ⌊2 ^ 20 * |y|⌋ := by
    have h2 : 2 ^ 20 * |x| + 1 ≤ 2 ^ 20 * |y| := by linarith
    have := Int.floor_mono h2
    rw [Int.floor_add_one] at this
    linarith
  unfold g
  have : (⌊2 ^ 20 * |x|⌋ : ℝ) < ⌊2 ^ 20 * |y|⌋ := by exact_mod_cast h1
  exact div_lt_div_of_pos_right this (by norm_num)

theorem near (x : ℝ) : g x ≤ |x| ∧ |x| - 1 / 2 ^ 20 ≤ g x := by
  have h1 := Int.floor_le (2 ^ 20 * |x|)
  have h2 := Int.lt_floor_add_one (2 ^ 20 * |x|)
  unfold g
  constructor
  · rw [div_le_iff₀ (by norm_num)]; linarith
  · rw [le_div_iff₀ (by norm_num), sub_mul, show (1 : ℝ) / 2 ^ 20 * 2 ^ 20 = 1 by norm_num]; linarith

/-- It is not a valley of C85: it is constant between the steps. -/
theorem not_exact : ¬ Valley g 0 16 := by
  intro h
  have := h.rises (show (1 : ℝ) ∈ Set.Icc (0 : ℝ) (0 + 16) by constructor <;> norm_num) (show (1 + 1 / 2 ^ 21 : ℝ) ∈ Set.Icc (0 : ℝ) (0 + 16) by constructor <;> norm_num) (by norm_num)
  have e : g 1 = g (1 + 1 / 2 ^ 21) := by
    unfold g
    rw [show ⌊(2 : ℝ) ^ 20 * |1|⌋ = 2 ^ 20 by rw [Int.floor_eq_iff]; norm_num, show ⌊(2 : ℝ) ^ 20 * |1 + 1 / 2 ^ 21|⌋ = 2 ^ 20 by rw [Int.floor_eq_iff, abs_of_pos (by norm_num)]; norm_num]
  linarith

theorem valley : NoisyValley g 0 16 (1 / 2 ^ 20) where
  falls x y _ _ _ h2 h3 := steps (by rw [abs_of_nonpos h3, abs_of_nonpos (by linarith [show (0 : ℝ) < 1 / 2 ^ 20 by norm_num])]; linarith)
  rises x y _ _ h1 h2 _ := steps (by rw [abs_of_nonneg h1, abs_of_nonneg (by linarith [show (0 : ℝ) < 1 / 2 ^ 20 by norm_num])]; linarith)

theorem values_float {x : ℝ} (h : |x - 0| ≤ 16) : IsFloat (g x) := by
  rw [sub_zero] at h
  refine ⟨⌊2 ^ 20 * |x|⌋, -20, ?_, by unfold g; norm_num [zpow_neg, div_eq_mul_inv]⟩
  have h0 : 0 ≤ ⌊2 ^ 20 * |x|⌋ := Int.floor_nonneg.2 (by positivity)
  rw [abs_of_nonneg h0]
  have : ⌊2 ^ 20 * |x|⌋ ≤ 2 ^ 24 := by
    have h1 : (⌊2 ^ 20 * |x|⌋ : ℝ) ≤ 2 ^ 24 := (Int.floor_le _).trans (by linarith)
    exact_mod_cast h1
  exact this.trans_lt (by norm_num)

theorem sim_float (i : Fin 2) : IsFloat (C85Demo.sim i 0) := by
  fin_cases i
  · exact ⟨1, 0, by norm_num, by norm_num [C85Demo.sim]⟩
  · exact ⟨2, 0, by norm_num, by norm_num [C85Demo.sim]⟩

theorem start (i : Fin 2) : |C85Demo.sim i 0 - 0| + |C85Demo.sim 1 0 - C85Demo.sim 0 0| ≤ 3 := C85Demo.start i

theorem runs {A : FL.Arith 1} (hr : IsNearest A.rnd) (hA : A.Valid) {fake : Option (ℕ → Vec 1 → FVal)} (hfake : ∀ q, fake = some q → ∀ n x, q n x = FVal.ofReal 0) {r : SRes 1}
    (h : IsFloatTwoStep A P f fake C85Demo.sim r) : r.success = true ∧ |r.pos 0| ≤ 1 / 40 := by
  have := C105_finds_minimum (R := 3) (δ := 1 / 200) (K := 10) (K1 := 2) hr hA valley (by norm_num) (by norm_num) (by norm_num) (P := P) (by norm_num [P]) rfl (by norm_num) (by norm_num) (by norm_num [P]) ?_
    (fun n x _ _ => rfl) (fun x _ hx => values_float hx) (fun q hq n x _ => hfake q hq n x) sim_float start (by norm_num [C85Demo.sim, P]) (by norm_num) (by norm_num [P]) (by norm_num [C85Demo.sim])
    (by norm_num [NMParams.iterLimit, P]) (by norm_num [NMParams.fevLimit, P]) h
  · refine ⟨this.1, ?_⟩
    have := this.2
    rw [sub_zero] at this
    exact this.trans (by norm_num [P])
  · intro x y hx hy h1 h2
    rw [sub_zero] at h1 h2
    show FloatWithin A.rnd (FVal.ofReal (1 / 10)) _ _
    rw [fl_within_of_abs]
    have e1 := near x
    have e2 := near y
    have e3 := rel_err hr (g x - g y)
    have e4 : |g x - g y| ≤ 1 / 40 := by
      rw [abs_le]
      have := abs_nonneg x
      have := abs_nonneg y
      constructor <;> linarith
    have e5 := abs_add_le (A.rnd (g x - g y) - (g x - g y)) (g x - g y)
    rw [sub_add_cancel] at e5
    linarith

example : ∃ r, IsFloatTwoStep (C102Demo.arith 1 C102Demo.rndEven) P f (some fun _ _ => FVal.ofReal 0) C85Demo.sim r ∧ r.success = true ∧ |r.pos 0| ≤ 1 / 40 := by
  have h : IsFloatTwoStep (C102Demo.arith 1 C102Demo.rndEven) P f (some fun _ _ => FVal.ofReal 0) C85Demo.sim (FL.runMinimization (C102Demo.arith 1 C102Demo.rndEven) P (fun v => Tuple.sort v) f (some fun _ _ => FVal.ofReal 0) C85Demo.sim) :=
    ⟨_, fun v => Tuple.monotone_sort v, rfl⟩
  exact ⟨_, h, runs C102Demo.rndEven_nearest (C102Demo.arith_valid 1 C102Demo.rndEven) (fun q hq n x => by rw [← Option.some.inj hq]) h⟩

example : ∃ r evals, IsFloatMinimization (C102Demo.arith 1 C102Demo.rndEven) P f C85Demo.sim r evals ∧ r.success = true ∧ |r.pos 0 - 0| ≤ 2 * P.xtol + 22 * (1 / 2 ^ 20) := by
  have h : IsFloatMinimization (C102Demo.arith 1 C102Demo.rndEven) P f C85Demo.sim _ _ := ⟨fun v => Tuple.sort v, fun v => Tuple.monotone_sort v, rfl, rfl⟩
  have hs := (runs C102Demo.rndEven_nearest (C102Demo.arith_valid 1 C102Demo.rndEven) (fake := none) (fun q hq => by cases hq) ⟨fun v => Tuple.sort v, fun v => Tuple.monotone_sort v, rfl⟩).1
  refine ⟨_, _, h, hs, ?_⟩
  exact C105_success_is_minimum C102Demo.rndEven_nearest (C102Demo.arith_valid 1 C102Demo.rndEven) valley (by norm_num) (by norm_num) (R := 3) (by norm_num) rfl (fun n x _ _ => rfl) sim_float
    (fun i => by linarith [start i, abs_nonneg (C85Demo.sim 1 0 - C85Demo.sim 0 0)]) (by norm_num [C85Demo.sim]) (by norm_num [C85Demo.sim]) (by norm_num [C85Demo.sim, P]) h hs

end C105Demo

end NF
