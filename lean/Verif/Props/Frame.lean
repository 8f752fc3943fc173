import Verif.Lemmas.UnitsInv
import Verif.Lemmas.Coord
import Verif.Props.Setup

/-!
# C79: the choice of coordinates and units does not matter
-/

noncomputable section
open Classical

namespace NF
open Spec
variable {d : ℕ}

/-- **C79**, the minimizer: in other coordinates (listed in another order, counted in the opposite direction, from another origin, in another unit, with another unit of the function values) it makes
the same calls and returns the same result, up to the change of coordinates. -/
theorem C79_minimizer (u : Frame d) {P : NMParams} {f f' : ℕ → Vec d → FVal} (hf : u.SameFunction f f') {s : Sim d} {r : MinRes d} {evals : List (Vec d × FVal)}
    (h : IsMinimization P f s r evals) : IsMinimization (u.nm P) f' (fun i => u.pos (s i)) (u.minRes r) (u.evals evals) := by
  obtain ⟨a, ha, rfl, rfl⟩ := h
  exact ⟨u.argsort a, frame_isArgsort u ha, (frame_root P a hf s).symm, by
    have := congrArg (fun t => t.tr.evals) (frame_run P a hf s)
    exact this.symm⟩

/-- **C79**, `run_minimization`. -/
theorem C79_two_step (u : Frame d) {P : NMParams} {f f' : ℕ → Vec d → FVal} (hf : u.SameFunction f f') {fake fake' : Option (ℕ → Vec d → FVal)}
    (hfake : (fake = none ∧ fake' = none) ∨ ∃ g g', fake = some g ∧ fake' = some g' ∧ u.SameFunction g g') {s : Sim d} {r : SRes d}
    (h : IsTwoStep P f fake s r) : IsTwoStep (u.nm P) f' fake' (fun i => u.pos (s i)) (u.sres r) := by
  obtain ⟨a, ha, rfl⟩ := h
  exact ⟨u.argsort a, frame_isArgsort u ha, (frame_runMinimization P a hf hfake s).symm⟩

/-- **C79**, the fake potential. -/
theorem C79_fake_potential (u : Units d) (c : Container d) (w : ℝ) (x : Vec d) :
    fakePotential (u.container c) (u.scale * w) (u.pos x) = u.frame.val (fakePotential c w x) := units_fake u c w x

/-! ### Periodic functions -/

/-- a move by whole box lengths -/
def latticeFrame (cs : CoordSys d) (k : Fin d → ℤ) : Frame d :=
  ⟨1, 1, 1, fun _ => 1, fun i => (k i : ℝ) * (cs.upper i - cs.lower i), one_pos, one_pos, fun _ => .inl rfl⟩

theorem latticeFrame_pos (cs : CoordSys d) (k : Fin d → ℤ) (x : Vec d) : (latticeFrame cs k).pos x = shift cs k x := by
  funext i
  simp [latticeFrame, Frame.pos, shift]

theorem latticeFrame_val (cs : CoordSys d) (k : Fin d → ℤ) (v : FVal) : (latticeFrame cs k).val v = v := by
  rcases fval_cases v with rfl | rfl | rfl | ⟨r, rfl⟩
  · rfl
  · exact frame_val_inf _
  · exact frame_val_ninf _
  · rw [frame_val_real]
    simp [latticeFrame]

theorem latticeFrame_nm (cs : CoordSys d) (k : Fin d → ℤ) (P : NMParams) : (latticeFrame cs k).nm P = P := by
  unfold Frame.nm
  rw [latticeFrame_val]
  simp [latticeFrame]

/-- **C79**, periodic functions: the minimization that starts with an image of a simplex gives the image of the result; it is stored with the same position, and it has the same value, success, and
numbers of evaluations and iterations. -/
theorem C79_periodic {cs : CoordSys d} (hb : ProperBox cs) (hp : cs.periodic = true) (k : Fin d → ℤ) {P : NMParams} {f : ℕ → Vec d → FVal} (hf : ∀ n x, f n (shift cs k x) = f n x)
    {fake : Option (ℕ → Vec d → FVal)} (hfake : ∀ g, fake = some g → ∀ n x, g n (shift cs k x) = g n x) {s : Sim d} {r : SRes d} (h : IsTwoStep P f fake s r) :
    ∃ r', IsTwoStep P f fake (fun i => shift cs k (s i)) r' ∧ r'.pos = shift cs k r.pos ∧ cs.normalizePosition r'.pos = cs.normalizePosition r.pos ∧ r'.value = r.value ∧
      r'.success = r.success ∧ r'.status = r.status ∧ r'.numFev = r.numFev ∧ r'.numIter = r.numIter := by
  have hs : (latticeFrame cs k).SameFunction f f := fun n x => by rw [latticeFrame_pos, latticeFrame_val, hf]
  have h1 := C79_two_step (latticeFrame cs k) hs (fake := fake) (fake' := fake) (by
    cases fake with
    | none => exact .inl ⟨rfl, rfl⟩
    | some g => exact .inr ⟨g, g, rfl, rfl, fun n x => by rw [latticeFrame_pos, latticeFrame_val, hfake g rfl]⟩) h
  rw [latticeFrame_nm] at h1
  simp only [latticeFrame_pos] at h1
  have hpos : ((latticeFrame cs k).sres r).pos = shift cs k r.pos := by
    rw [← latticeFrame_pos]
    cases r with
    | plain r => rfl
    | joined ch an pa => cases pa <;> rfl
  refine ⟨_, h1, hpos, ?_, ?_, ?_, ?_, ?_, ?_⟩
  · rw [hpos]
    funext i
    have h0 : 0 < cs.upper i - cs.lower i := sub_pos.2 (hb i)
    simp only [CoordSys.normalizePosition, hp, if_true, shift, CoordSys.size, pmod]
    have e : (r.pos i + (k i : ℝ) * (cs.upper i - cs.lower i) - cs.lower i) / (cs.upper i - cs.lower i) = (r.pos i - cs.lower i) / (cs.upper i - cs.lower i) + (k i : ℤ) := by
      field_simp
      ring
    rw [e, Int.floor_add_intCast]
    push_cast
    ring
  · rw [units_sres_value, latticeFrame_val]
  · exact units_sres_success _ r
  · cases r <;> rfl
  · cases r <;> rfl
  · cases r <;> rfl

/-! ### Searches -/

/-- **C79**, the arguments: given in other units, they make the parameters of the same search in other units. -/
theorem C79_setup (u : Units d) (a : SearchArgs d) : setup (u.args a) = (setup a).map fun t => (u.params t.1, u.frame.nm t.2) := units_setup u a

theorem units_gap_inj (u : Frame d) {G : Vec d → FVal → Prop} {x : Vec d} {v : FVal} : u.gap G (u.pos x) (u.val v) ↔ G x v := by
  constructor
  · rintro ⟨x', v', h1, h2, h3⟩
    cases frame_pos_inj u h1
    cases (frame_val_inj u).1 h2
    exact h3
  · exact fun h => ⟨x, v, rfl, rfl, h⟩

/-- A minimization of the gap function in other units. -/
theorem units_minimizationOf (u : Units d) {P : NMParams} {G : Vec d → FVal → Prop} {s : Simplex d} {r : SRes d} (h : MinimizationOf P G s r) :
    MinimizationOf (u.frame.nm P) (u.frame.gap G) (u.simplex s) (u.frame.sres r) := by
  obtain ⟨f, fake, sim0, hG, rfl, hr⟩ := h
  have hsurj : Function.Surjective u.frame.pos := by
    intro y
    refine ⟨fun k => (y k - u.origin k) / u.scale, ?_⟩
    rw [units_pos_eq]
    funext k
    simp only [Units.pos]
    field_simp [u.scale_pos.ne']
    ring
  have hex : ∀ g : ℕ → Vec d → FVal, ∃ g', u.frame.SameFunction g g' := fun g =>
    ⟨fun n y => u.frame.val (g n (Function.surjInv hsurj y)), fun n x => by
      have : Function.surjInv hsurj (u.frame.pos x) = x := frame_pos_inj u.frame (Function.surjInv_eq hsurj _)
      simp only [this]⟩
  obtain ⟨f', hf'⟩ := hex f
  have hG' : ∀ n y, u.frame.gap G y (f' n y) := by
    intro n y
    obtain ⟨x, rfl⟩ := hsurj y
    rw [hf' n x]
    exact ⟨x, _, rfl, rfl, hG n x⟩
  have hs : u.simplex (List.ofFn sim0) = List.ofFn fun i => u.frame.pos (sim0 i) := by
    unfold Units.simplex
    rw [List.map_ofFn]
    congr 1
    funext i
    exact (units_pos_eq u _).symm
  cases fake with
  | none => exact ⟨f', none, _, hG', hs, C79_two_step u.frame hf' (.inl ⟨rfl, rfl⟩) hr⟩
  | some g =>
    obtain ⟨g', hg'⟩ := hex g
    exact ⟨f', some g', _, hG', hs, C79_two_step u.frame hf' (.inr ⟨g, g', rfl, rfl, hg'⟩) hr⟩

theorem units_step (u : Units d) {p : CtlParams d} {c c' : Ctl d} (h : Step p c c') : Step (u.params p) (u.ctl c) (u.ctl c') := by
  have hf : ∀ c : Ctl d, c.failed = [] → (u.ctl c).failed = [] := fun c h => by simp [Units.ctl, h]
  have hfill : ∀ {c : Ctl d} {e : Option Err} {c' : Ctl d}, fill p c = (e, c') → fill (u.params p) (u.ctl c) = (e, u.ctl c') := fun {c e c'} h => by rw [units_fill, h]
  have htask : ∀ {c : Ctl d} {s : Simplex d}, s ∈ c.tasks → u.simplex s ∈ (u.ctl c).tasks := fun h => List.mem_map_of_mem h
  cases h with
  | tickRaise s e enum h1 h2 h3 =>
    have := Step.tickRaise (p := u.params p) (u.ctl c) (u.simplex s) e _ h1 (List.mem_map.2 ⟨(s, e), h2, rfl⟩) (units_enum u c h3)
    rwa [units_doSave] at this
  | tickReturn enum h1 h2 h3 h4 =>
    have := Step.tickReturn (p := u.params p) (u.ctl c) _ h1 (hf c h2) (fun h => h3 ((units_loop u c).1 h)) (units_enum u c h4)
    rwa [units_doSave] at this
  | tickFill _ h1 h2 h3 h4 => exact .tickFill _ _ h1 (hf c h2) ((units_loop u c).2 h3) (hfill h4)
  | tickFillRaise c' e enum h1 h2 h3 h4 h5 =>
    have := Step.tickFillRaise (p := u.params p) (u.ctl c) (u.ctl c') e _ h1 (hf c h2) ((units_loop u c).2 h3) (hfill h4) (units_enum u c' h5)
    rwa [units_doSave] at this
  | exitSaveFail h1 h2 h3 =>
    exact .exitSaveFail (u.ctl c) h1 (h2.imp (fun h => by simpa [Units.ctl] using h) fun h h' => h ((units_loop u c).1 h')) h3
  | fillRaiseSaveFail c' e h1 h2 h3 h4 h5 =>
    exact .fillRaiseSaveFail (u.ctl c) (u.ctl c') e h1 (hf c h2) ((units_loop u c).2 h3) (hfill h4) h5
  | done s r h1 h2 h3 =>
    rw [← units_taskDone]
    exact .done _ _ _ h1 (htask h2) (units_sres_none u.frame h3)
  | fail s id h1 h2 =>
    rw [← units_taskFail]
    exact .fail _ _ id h1 (htask h2)
  | save enum h1 h2 =>
    rw [← units_doSave]
    exact .save _ _ h1 (units_enum u c h2)
  | saveFail h1 h2 => exact .saveFail _ h1 h2

theorem units_reach (u : Units d) {p : CtlParams d} {P : NMParams} {G : Vec d → FVal → Prop} {c : Ctl d} (hw : ReachWith p (MinimizationOf P G) c) :
    ReachWith (u.params p) (MinimizationOf (u.frame.nm P) (u.frame.gap G)) (u.ctl c) := by
  induction hw with
  | start => rw [← units_startFresh]; exact .start
  | @tail c c' h hs hr ih =>
    refine .tail ih ?_ ?_
    · cases hs with
      | step hs => exact .step (units_step u hs)
      | crash => rw [← units_restart]; exact .crash _
    · intro s r hm
      obtain ⟨e, he, heq⟩ := List.mem_map.1 hm
      cases e <;> simp only [Units.logEntry, reduceCtorEq] at heq
      cases heq
      exact units_minimizationOf u (hr _ _ he)

/-- **C79**, the search: with arguments and gap function in other units, exactly the same things can happen, in the other units. -/
theorem C79_search (u : Units d) {a : SearchArgs d} {p : CtlParams d} {P : NMParams} (ha : setup a = .ok (p, P)) {G : Vec d → FVal → Prop} :
    setup (u.args a) = .ok (u.params p, u.frame.nm P) ∧
      ∀ c', ReachWith (u.params p) (MinimizationOf (u.frame.nm P) (u.frame.gap G)) c' ↔ ∃ c, c' = u.ctl c ∧ ReachWith p (MinimizationOf P G) c := by
  refine ⟨by rw [C79_setup, ha]; rfl, fun c' => ⟨fun h => ⟨u.inv.ctl c', ?_, ?_⟩, ?_⟩⟩
  · have := units_inv_ctl u.inv c'
    rw [units_inv_inv] at this
    exact this.symm
  · have := units_reach u.inv h
    rwa [units_inv_params, units_inv_nm, units_inv_gap] at this
  · rintro ⟨c, rfl, h⟩
    exact units_reach u h

/-- **C79**, what the user sees: the nodes that are found are the same, in the new coordinates, with the same values, in the new units, in the same order; the search is over, or has raised an
exception, if the other one has. -/
theorem C79_nodes (u : Units d) (c : Ctl d) :
    (u.ctl c).state.result.nodes.values.map (fun n => (n.pos, n.value)) = c.state.result.nodes.values.map (fun n => ((fun k => u.scale * n.pos k + u.origin k), u.frame.val n.value)) ∧
      (u.ctl c).phase = c.phase := by
  refine ⟨?_, rfl⟩
  change (c.state.result.nodes.values.map u.frame.sres).map _ = _
  rw [List.map_map]
  congr 1
  funext n
  simp only [Function.comp_apply, units_sres_pos, units_sres_value]
  rfl

/-! ### Examples -/

namespace C79Demo

/-- coordinates counted in the opposite direction, in half the unit, from another origin; the gap in a third of the unit -/
def flip : Frame 1 := ⟨2, 3, 1, fun _ => -1, fun _ => 1, by norm_num, by norm_num, fun _ => .inr rfl⟩

/-- other units and another origin in three dimensions -/
def units : Units 3 := ⟨10, 1000, ![1, 2, 3], by norm_num, by norm_num⟩

/-- A function and the same function in other coordinates: `x` becomes `1 - 2 x`. -/
theorem flip_same : flip.SameFunction (fun _ x => FVal.ofReal |x 0|) (fun _ y => FVal.ofReal (3 * |(1 - y 0) / 2|)) := by
  intro n x
  rw [frame_val_real]
  have : flip.pos x 0 = 1 - 2 * x 0 := by simp [flip, Frame.pos]; ring
  simp only [this]
  congr 2
  congr 1
  ring

/-- The hypotheses of `C79_minimizer` are met, by every simplex and all options; and the new coordinates are really different. -/
example (P : NMParams) (s : Sim 1) : ∃ r evals, IsMinimization P (fun _ x => FVal.ofReal |x 0|) s r evals ∧
    IsMinimization (flip.nm P) (fun _ y => FVal.ofReal (3 * |(1 - y 0) / 2|)) (fun i => flip.pos (s i)) (flip.minRes r) (flip.evals evals) ∧ (flip.minRes r).pos 0 = 1 - 2 * r.pos 0 := by
  obtain ⟨r, ev, h⟩ := isMinimization_exists P (fun _ x => FVal.ofReal |x 0|) s
  refine ⟨r, ev, h, C79_minimizer flip flip_same h, ?_⟩
  simp [Frame.minRes, flip, Frame.pos]
  ring

/-- The default search, in other units. -/
example : ∃ p P c, setup SearchArgs.defaults = .ok (p, P) ∧ setup (units.args SearchArgs.defaults) = .ok (units.params p, units.frame.nm P) ∧
    (units.args SearchArgs.defaults).limits = ![(1, 11), (2, 12), (3, 13)] ∧
    ReachWith (units.params p) (MinimizationOf (units.frame.nm P) (units.frame.gap fun _ v => v = FVal.ofReal 0)) (units.ctl c) ∧ (units.ctl c).state.result.nodes.values ≠ [] := by
  obtain ⟨p, P, c, h1, h2, h3⟩ := C71Demo.default_reach
  obtain ⟨h4, h5⟩ := C79_search units h1 (G := fun _ v => v = FVal.ofReal 0)
  refine ⟨p, P, c, h1, h4, ?_, (h5 _).2 ⟨c, rfl, h2⟩, ?_⟩
  · funext i
    fin_cases i <;> norm_num [Units.args, units, SearchArgs.defaults]
  · intro h
    apply h3
    have : c.state.result.nodes.values.map units.frame.sres = [] := h
    simpa using this

/-- The hypotheses of `C79_periodic` are met by a periodic function. -/
example : ∃ (cs : CoordSys 1) (f : ℕ → Vec 1 → FVal), ProperBox cs ∧ cs.periodic = true ∧ (∀ k n x, f n (shift cs k x) = f n x) ∧ f 0 ![0] ≠ f 0 ![1 / 2] := by
  refine ⟨⟨fun _ => 0, fun _ => 1, true⟩, fun _ x => FVal.ofReal (Int.fract (x 0)), fun _ => by norm_num, rfl, fun k n x => ?_, ?_⟩
  · simp [shift]
  · rw [Ne, fval_real_inj]
    norm_num [Int.fract]

end C79Demo

end NF
