import Verif.Lemmas.FloatRecover
import Verif.Props.FloatLive

/-! # C108: in double precision, too, a search can be completed after any history -/

noncomputable section
open Classical
namespace NF
open Spec CoordSys Container
variable {d : ℕ}

/-- **C108**: in double precision, after any history (any schedule, exceptions, failed saves, crashes, restarts), a search with rechecking can be completed: if it is running and no minimization has failed, it can go on, without a restart, until it returns;
and in any case it can be restarted, whereupon it can go on until it returns; provided that every minimization it needs (of the mesh and stencil simplices) can end. -/
theorem C108_can_complete {A : FL.CtlArith d} {p : CtlParams d} {R : List (SRes d) → Simplex d → SRes d → Prop} (hS : FloatSearch A p (AnyNodes R)) (hg : FloatGeometry p (AnyNodes R))
    (hrec : p.recheckPosDist = true) (hN : 1 ≤ p.numMinimizeParallel) (hst : p.stencil ≠ none)
    {Q : Simplex d → Prop} (hn : ∀ s, Q s → Q (normalizeSimplex s)) (hmesh : ∀ s ∈ p.mesh, Q s) (hsten : ∀ st, p.stencil = some st → ∀ pos, ∀ s ∈ FL.translateStencil A pos st, Q s)
    (hend : ∀ l s, Q s → ∃ r, R l s r ∧ ∀ ch an pa, r = .joined ch an pa → pa = none)
    {n : ℕ} {c : Ctl d} (h : FloatReachLive A p R n c) :
    (c.phase = .running → c.failed = [] → ∃ c', FloatContinues A p R c c' ∧ c'.phase = .returned) ∧
    ∃ c0 c', FL.startFrom A p c.disk c.disk = .ok c0 ∧ FloatContinues A p R c0 c' ∧ c'.phase = .returned := by
  have hcont : ∀ {n : ℕ} {c c' : Ctl d}, FloatReachLive A p R n c → FloatContinues A p R c c' → FloatReachLive A p R n c' := by
    intro n c c' h h'
    induction h' with
    | refl => exact h
    | tail _ hs ih => exact .step ih hs
  have key : ∀ (n : ℕ) (c : Ctl d), FloatReachLive A p R n c → c.phase = .running → c.failed = [] → ∃ c', FloatContinues A p R c c' ∧ c'.phase = .returned := by
    clear h c n
    intro n c h hph hf
    by_contra hno
    push Not at hno
    -- the executions that run one minimization at a time
    let I : Type := {x : Ctl d // FloatContinues A p R c x ∧ x.phase = .running ∧ x.failed = []}
    have hreach : ∀ x : I, FL.Reach A p (AnyNodes R) n x.1 := fun x => FL.live_reach (hcont h x.2.1)
    have hnext : ∀ x : I, ∃ y : I, FL.Step A p (R x.1.state.result.nodes.values) x.1 y.1 ∧
        (x.1.tasks = [] → (x.1.failed = [] ∧ loopCondition x.1 ∧ FL.fill A p x.1 = (none, y.1))) ∧ (x.1.tasks ≠ [] → y.1.tasks = x.1.tasks.tail) := by
      intro x'
      have hre := hreach x'
      obtain ⟨x, h2, h3, h4⟩ := x'
      have hQ := FL.simpInv_reach hS hn hmesh hsten hre
      have hA := (FL.good_reach hS hre).1
      cases ht : x.tasks with
      | nil =>
        have henum : x.state.simplexQueue.running.toList.Nodup ∧ ∀ y, y ∈ x.state.simplexQueue.running.toList ↔ y ∈ x.state.simplexQueue.running :=
          ⟨Finset.nodup_toList _, fun x => Finset.mem_toList⟩
        by_cases hc : loopCondition x
        · obtain ⟨e, y, hy⟩ : ∃ e y, FL.fill A p x = (e, y) := ⟨_, _, rfl⟩
          obtain ⟨hy1, hy2, hy3⟩ := FL.fill_phase hS hA hy
          cases e with
          | some err => exact absurd (hy3 err rfl).2 hst
          | none =>
            have hs : FL.Step A p (R x.state.result.nodes.values) x y := .tickFill x y h3 h4 hc hy
            exact ⟨⟨y, .tail h2 hs, hy1.trans h3, hy2.trans h4⟩, hs, fun _ => ⟨h4, hc, hy⟩, fun h => absurd rfl h⟩
        · exfalso
          exact hno _ (.tail h2 (.tickReturn x _ h3 h4 hc henum)) rfl
      | cons s rest =>
        have hmem : s ∈ x.tasks := by rw [ht]; simp
        obtain ⟨r, hr1, hr2⟩ := hend x.state.result.nodes.values s (hQ.tasks s hmem)
        have hs : FL.Step A p (R x.state.result.nodes.values) x (FL.taskDone A p x s r) := .done x s r (by rw [h3]; simp) hmem hr2 hr1
        obtain ⟨st, e, -⟩ := FL.taskDone_ok hS hA hmem r
        exact ⟨⟨FL.taskDone A p x s r, .tail h2 hs, by rw [e]; exact h3, by rw [e]; exact h4⟩, hs,
          fun h => by simp at h, fun _ => by show (FL.taskDone A p x s r).tasks = rest; rw [e]; simp [ht]⟩
    choose next hn1 hn2 hn3 using hnext
    let f : ℕ → I := fun n => next^[n] ⟨c, .refl, hph, hf⟩
    have hf1 : ∀ n, f (n + 1) = next (f n) := fun n => Function.iterate_succ_apply' _ _ _
    have hempty : ∀ n, ∃ m ≥ n, (f m).1.tasks = [] := by
      intro n
      induction hk : (f n).1.tasks.length generalizing n with
      | zero => exact ⟨n, le_rfl, List.length_eq_zero_iff.1 hk⟩
      | succ k ih =>
        have hne : (f n).1.tasks ≠ [] := by intro h; rw [h] at hk; cases hk
        obtain ⟨m, hm1, hm2⟩ := ih (n + 1) (by rw [hf1, hn3 _ hne, List.length_tail, hk]; rfl)
        exact ⟨m, by omega, hm2⟩
    refine C103_terminates hS hg hrec hN (fun n => (f n).1) (hreach (f 0)) ⟨fun n => ?_, fun n => ?_, fun n s hs => ?_⟩
    · show FL.Step A p (AnyNodes R) (f n).1 (f (n + 1)).1
      rw [hf1]; exact (hn1 _).weaken fun s r h => ⟨_, h⟩
    · obtain ⟨m, h1, h2⟩ := hempty n
      refine ⟨m, h1, .inr ?_⟩
      show (f m).1.failed = [] ∧ loopCondition (f m).1 ∧ FL.fill A p (f m).1 = (none, (f (m + 1)).1)
      rw [hf1]; exact hn2 _ h2
    · obtain ⟨m, h1, h2⟩ := hempty n
      exact ⟨m, h1, by rw [h2]; simp⟩
  refine ⟨key n c h, ?_⟩
  obtain ⟨c0, h0, -, -, h1, -, h2, -⟩ := FL.start_ok hS c.disk c.disk (FL.good_reach hS (FL.live_reach h)).2
  obtain ⟨c', h3, h4⟩ := key (n + 1) c0 (.crash h h0) h1 h2
  exact ⟨c0, c', h0, h3, h4⟩

theorem forall₂_mem {α β : Type} {r : α → β → Prop} {l : List α} {l' : List β} (h : List.Forall₂ r l l') {x : α} (hx : x ∈ l) : ∃ y ∈ l', r x y := by
  induction h with
  | nil => simp at hx
  | cons h1 _ ih =>
    rcases List.mem_cons.1 hx with rfl | hx
    · exact ⟨_, by simp, h1⟩
    · obtain ⟨y, h2, h3⟩ := ih hx
      exact ⟨y, List.mem_cons_of_mem _ h2, h3⟩

/-- a minimization in floating-point arithmetic always ends -/
theorem floatLive_total (A : FL.CtlArith d) (p : CtlParams d) (P : NMParams) (G : Vec d → FVal) (l : List (SRes d)) {s : Simplex d} (hs : s.length = d + 1) :
    ∃ r, FloatLiveMinimization A p P G l s r ∧ ∀ ch an pa, r = .joined ch an pa → pa = none := by
  have hof : s = List.ofFn fun i : Fin (d + 1) => s.get (i.cast hs.symm) := by
    refine List.ext_get (by simp [hs]) fun n h1 h2 => ?_
    simp only [List.get_eq_getElem, List.getElem_ofFn, Fin.val_cast]
  exact ⟨_, ⟨C102Demo.arith d A.rnd, none, _, rfl, C102Demo.arith_valid d A.rnd, by simp, hof, fun v => Tuple.sort v, fun v => Tuple.monotone_sort v, rfl⟩, fun ch an pa h => by simp [FL.runMinimization] at h⟩

/-- **C108**, in terms of the arguments of `search.run`, in any dimension, for any gap function and any mesh that is not finer than the rounding: a periodic search with rechecking and the `'auto'` stencil can be completed after any history, in double precision. -/
theorem C108_search {A : FL.CtlArith d} (hr : IsNearest A.rnd) (hD : ∀ cs x y, FL.Distance A.rnd cs x y (A.dist cs x y)) {auto : List (Simplex d)} (ha : NearSimplices (fun _ => 1 / 1000) auto (autoStencil d))
    {a : SearchArgs d} {p : CtlParams d} {P : NMParams} (hset : FL.setup A.rnd auto a = .ok (p, P)) (hl : ∀ i, (a.limits i).1 ≠ (a.limits i).2) (hf : ∀ i, IsFloat (a.limits i).1 ∧ IsFloat (a.limits i).2)
    {m : Fin d → ℕ} (hmesh : p.mesh = FL.initialSimplices A.rnd p.coord m) (hm : MeshResolved p.coord m) (hst : a.refinementStencil = .auto) (hfs : 0 < a.featureSize)
    (hsz : ∀ i, |p.coord.lower i| + 2 * (p.coord.upper i - p.coord.lower i) ≤ 2 ^ 41 * a.featureSize) (hsmall : distanceError p.coord < a.featureSize / 3 * (1 - 1 / 2 ^ 39))
    (hdim : ((d : ℝ) + 1) / 2 ^ 53 ≤ 1 / 2) (hper : a.periodic = true) (hrec : a.recheckPosDist = true) (hN : 1 ≤ a.numMinimizeParallel)
    (G : Vec d → FVal) {n : ℕ} {c : Ctl d} (h : FloatReachLive A p (FloatLiveMinimization A p P G) n c) :
    (c.phase = .running → c.failed = [] → ∃ c', FloatContinues A p (FloatLiveMinimization A p P G) c c' ∧ c'.phase = .returned) ∧
    ∃ c0 c', FL.startFrom A p c.disk c.disk = .ok c0 ∧ FloatContinues A p (FloatLiveMinimization A p P G) c0 c' ∧ c'.phase = .returned := by
  obtain ⟨-, -, -, -, efs, -, hlim, eper, ⟨k, hk, eauto, -⟩, hnone, -, -, epar, erec, -⟩ := C104_settings hr hset
  have hperi : p.coord.periodic = true := eper.trans hper
  have hS : FloatSearch A p (AnyNodes (FloatLiveMinimization A p P G)) := C104_setup hr hD ha hset hl hf hmesh hm (.inl hst) hfs hsz (.inl hperi)
  have hg : FloatGeometry p (AnyNodes (FloatLiveMinimization A p P G)) := ⟨by rw [efs]; exact hfs, .inl hperi, .inl hperi, by rw [efs]; exact hsmall, hdim⟩
  refine C108_can_complete (Q := fun s => s.length = d + 1) hS hg (erec.trans hrec) (by rw [epar]; exact hN) (by rw [eauto hst]; simp) ?_ ?_ ?_ ?_ h
  · intro s hs
    show (normalizeSimplex s).length = _
    rw [(normalizeSimplex_perm s).length_eq]; exact hs
  · intro s hs
    rw [hmesh] at hs
    exact ((C104_mesh_shape hr hS.box hS.floats fun i => (hm i).1).2 s hs).1
  · intro st hst' pos s hs
    rw [eauto hst] at hst'
    obtain rfl := Option.some.inj hst'
    obtain ⟨t, ht, rfl⟩ := List.mem_map.1 hs
    obtain ⟨u, hu, rfl⟩ := List.mem_map.1 ht
    obtain ⟨u', hu', hnear⟩ : ∃ u' ∈ autoStencil d, List.Forall₂ (fun v v' : Vec d => ∀ k, |v k - v' k| ≤ 1 / 1000) u u' := by
      exact forall₂_mem ha hu
    simp only [List.length_map]
    rw [hnear.length_eq]
    exact (C50_auto d).2 u' hu'
  · intro l s hs
    exact floatLive_total A p P G l hs

/-- **C108** (defaults): the search with the default arguments, in three dimensions and in double precision, returns for every gap function if it is let run, and can be completed after any history. -/
theorem C108_default {A : FL.CtlArith 3} (hr : IsNearest A.rnd) (hD : ∀ cs x y, FL.Distance A.rnd cs x y (A.dist cs x y)) {auto : List (Simplex 3)} (ha : NearSimplices (fun _ => 1 / 1000) auto (autoStencil 3)) (G : Vec 3 → FVal) :
    ∃ p P, FL.setup A.rnd auto (floatDefaults A.rnd) = .ok (p, P) ∧
      (∃ c, FloatReachLive A p (FloatLiveMinimization A p P G) 0 c ∧ c.phase = .returned) ∧
      ∀ n c, FloatReachLive A p (FloatLiveMinimization A p P G) n c →
        (c.phase = .running → c.failed = [] → ∃ c', FloatContinues A p (FloatLiveMinimization A p P G) c c' ∧ c'.phase = .returned) ∧
        ∃ c0 c', FL.startFrom A p c.disk c.disk = .ok c0 ∧ FloatContinues A p (FloatLiveMinimization A p P G) c0 c' ∧ c'.phase = .returned := by
  obtain ⟨p, P, hset, hlen, -, -, hind, hSg⟩ := C104_default hr hD ha
  obtain ⟨-, -, -, -, efs, -, hlim, eper, ⟨k, hk, eauto, -⟩, hnone, hmesh, -⟩ := C104_settings hr hset
  have hlim' : ∀ i, p.coord.lower i = 0 ∧ p.coord.upper i = 1 := fun i => by
    rw [(hlim i).1, (hlim i).2]
    simp [floatDefaults, SearchArgs.defaults]
  have hm : p.mesh = FL.initialSimplices A.rnd p.coord fun _ => 10 := hmesh 10 rfl
  have one : IsFloat (1 : ℝ) := by simpa using isFloat_int (n := 1) (by norm_num)
  have hres : MeshResolved p.coord (fun _ => 10) := fun i => by
    unfold meshError
    rw [(hlim' i).1, (hlim' i).2]
    norm_num
  have hfs : 1 / 1000 ≤ A.rnd 2e-3 := by
    have := (abs_le.1 (rel_err hr 2e-3)).1
    rw [abs_of_pos (by norm_num)] at this
    norm_num at this ⊢
    linarith
  have hrc := fun n c (h : FloatReachLive A p (FloatLiveMinimization A p P G) n c) =>
    C108_search hr hD ha hset (fun i => by simp [floatDefaults, SearchArgs.defaults]) (fun i => ⟨isFloat_zero, one⟩) hm hres rfl (by show 0 < A.rnd 2e-3; linarith)
      (fun i => by
        rw [(hlim' i).1, (hlim' i).2]
        show _ ≤ 2 ^ 41 * A.rnd 2e-3
        norm_num at hfs ⊢
        linarith) (by rw [← efs]; exact (hSg fun _ _ => True).2.small) (by norm_num) rfl rfl (by simp [floatDefaults, SearchArgs.defaults]) G h
  refine ⟨p, P, hset, ?_, hrc⟩
  obtain ⟨c0, h0, -, -, h1, -, h2, -⟩ := FL.start_ok (hSg fun _ _ => True).1 none none (by simp)
  obtain ⟨c', h3, h4⟩ := (hrc 0 c0 (.start h0)).1 h1 h2
  refine ⟨c', ?_, h4⟩
  clear h4
  induction h3 with
  | refl => exact .start h0
  | tail _ hs ih => exact .step ih hs

/-! ## Non-vacuity of C106 and C108: a periodic search on a circle of length 16, for `|x|` in steps of `2⁻²⁰` -/
namespace C106Demo

def args : SearchArgs 1 where
  limits := fun _ => (-8, 8)
  periodic := true
  saveFile := true
  initialMeshSize := .inl 100
  forceInitialMesh := false
  refinementStencil := .auto
  gapThreshold := 1 / 2
  featureSize := 1
  nelderMead := NMKwargs.empty
  numMinimizeParallel := 50
  recheckPosDist := true
  recheckCountCutoff := 0
  simplexCheckCutoff := 0

def gap (x : Vec 1) : FVal := FVal.ofReal (C105Demo.g (x 0))

variable {rnd : ℝ → ℝ} (hr : IsNearest rnd)
include hr

theorem auto_near : NearSimplices (fun _ => 1 / 1000) (FL.meshStencil rnd (fun _ : Fin 1 => 3) 2.5) (autoStencil 1) := C104_auto_mesh_stencil hr (by norm_num) (by norm_num)

omit hr in
theorem setup_ok : ∃ p P, FL.setup rnd (FL.meshStencil rnd (fun _ : Fin 1 => 3) 2.5) args = .ok (p, P) := by
  rw [float_setup_eq, if_pos]
  · exact ⟨_, _, rfl⟩
  · simp [meshSizes, args]

omit hr in
theorem distances : ∀ cs x y, FL.Distance rnd cs x y ((C103Demo.arith rnd).dist cs x y) := fun cs x y => (distance_exists rnd cs x y).choose_spec

omit hr in
theorem limits : ∀ i, IsFloat (args.limits i).1 ∧ IsFloat (args.limits i).2 := fun i =>
  ⟨⟨-8, 0, by norm_num, by norm_num [args]⟩, ⟨8, 0, by norm_num, by norm_num [args]⟩⟩

/-- the hypotheses of C108 are met -/
theorem returns {p : CtlParams 1} {P : NMParams} (hset : FL.setup rnd (FL.meshStencil rnd (fun _ : Fin 1 => 3) 2.5) args = .ok (p, P)) :
    ∃ c, FloatReachLive (C103Demo.arith rnd) p (FloatLiveMinimization (C103Demo.arith rnd) p P gap) 1 c ∧ c.phase = .returned := by
  obtain ⟨-, -, -, -, efs, -, hlim, eper, -, -, hmesh, -⟩ := C104_settings hr hset
  have hm : p.mesh = FL.initialSimplices rnd p.coord fun _ => 100 := hmesh 100 rfl
  have hlim' : ∀ i, p.coord.lower i = -8 ∧ p.coord.upper i = 8 := fun i => by
    rw [(hlim i).1, (hlim i).2]
    norm_num [args]
  have hres : MeshResolved p.coord (fun _ => 100) := fun i => by
    unfold meshError
    rw [(hlim' i).1, (hlim' i).2]
    norm_num
  have hS : FloatSearch (C103Demo.arith rnd) p fun _ _ => True := C104_setup (A := C103Demo.arith rnd) hr distances (auto_near hr) hset (fun i => by norm_num [args]) limits hm hres (.inl rfl) (by norm_num [args])
    (fun i => by rw [(hlim' i).1, (hlim' i).2]; norm_num [args]) (.inl eper)
  obtain ⟨c0, h0, -, -, h1, -, h2, -⟩ := FL.start_ok hS none none (by simp)
  obtain ⟨h3, c1, c', h4, h5, h6⟩ := C108_search (A := C103Demo.arith rnd) (n := 0) hr distances (auto_near hr) hset (fun i => by norm_num [args]) limits hm hres rfl (by norm_num [args])
    (fun i => by rw [(hlim' i).1, (hlim' i).2]; norm_num [args])
    (by rw [distanceError_one, (hlim' 0).1, (hlim' 0).2]; norm_num [args]) (by norm_num) rfl rfl (by norm_num [args]) gap (.start h0)
  refine ⟨c', ?_, h6⟩
  clear h6
  induction h5 with
  | refl => exact .crash (.start h0) h4
  | tail _ hs ih => exact .step ih hs

omit hr in
theorem valley : NoisyValley C105Demo.g 0 3 (1 / 2 ^ 20) where
  falls x y h1 h2 h3 h4 h5 := C105Demo.valley.falls x y h1 h2 (by linarith) h4 h5
  rises x y h1 h2 h3 h4 h5 := C105Demo.valley.rises x y h1 h2 h3 h4 (by linarith)

/-- the hypotheses of C106 are met: the search, which has been restarted, has found a node within 3.6 of 0 -/
theorem finds {p : CtlParams 1} {P : NMParams} (hset : FL.setup rnd (FL.meshStencil rnd (fun _ : Fin 1 => 3) 2.5) args = .ok (p, P)) {c : Ctl 1}
    (hc : FloatReachLive (C103Demo.arith rnd) p (FloatLiveMinimization (C103Demo.arith rnd) p P gap) 1 c) (hret : c.phase = .returned) :
    ∃ r ∈ c.state.result.nodes.values, p.coord.distance (fun _ => 0) r.pos ≤ 3.6 := by
  obtain ⟨-, -, -, -, efs, -, hlim, eper, -, -, hmesh, -⟩ := C104_settings hr hset
  have hlim' : ∀ i, p.coord.lower i = -8 ∧ p.coord.upper i = 8 := fun i => by
    rw [(hlim i).1, (hlim i).2]
    norm_num [args]
  obtain ⟨r, h1, h2, -⟩ := C106_search (A := C103Demo.arith rnd) hr distances (auto_near hr) hset (by norm_num [args]) (limits 0) (.inl rfl) rfl (by norm_num [args]) (by norm_num [args])
    (n := 100) (by norm_num) rfl (by norm_num [args]) (.inl rfl) (g := C105Demo.g) (m := 0) (W := 3) (η := 1 / 2 ^ 20) (h := 16 / 99) (δ := 1 / 500) (by norm_num [args]) valley (by norm_num [args]) (by norm_num [args]) (by norm_num [args])
    (by norm_num) (fun x _ _ => rfl) (fun x _ hx => C105Demo.values_float (hx.trans (by norm_num))) (by norm_num) (by norm_num) (by norm_num [args]) (by norm_num) (fun x y _ _ hx hy => by
      rw [sub_zero] at hx hy
      have e1 := C105Demo.near x
      have e2 := C105Demo.near y
      have h1 := abs_nonneg x
      have h2 := abs_nonneg y
      have : |C105Demo.g x - C105Demo.g y| ≤ 1 / 100 := by rw [abs_le]; constructor <;> linarith
      exact this.trans (by norm_num [args]))
    (fun x _ hx => by
      rw [sub_zero] at hx
      have : args.featureSize / 30 ≤ args.gapThreshold := by norm_num [args]
      exact (C105Demo.near x).1.trans (hx.trans this)) hc hret
  refine ⟨r, h1, h2.trans ?_⟩
  rw [driftError_one, (hlim' 0).1, (hlim' 0).2]
  norm_num [args]

/-- such searches exist: rounding to nearest with ties to even -/
example : ∃ (A : FL.CtlArith 1) (p : CtlParams 1) (P : NMParams) (c : Ctl 1), IsNearest A.rnd ∧ FloatReachLive A p (FloatLiveMinimization A p P gap) 1 c ∧ c.phase = .returned ∧ ∃ r ∈ c.state.result.nodes.values, p.coord.distance (fun _ => 0) r.pos ≤ 3.6 := by
  obtain ⟨p, P, hset⟩ := setup_ok (rnd := C102Demo.rndEven)
  obtain ⟨c, h1, h2⟩ := returns C102Demo.rndEven_nearest hset
  exact ⟨C103Demo.arith C102Demo.rndEven, p, P, c, C102Demo.rndEven_nearest, h1, h2, finds C102Demo.rndEven_nearest hset h1 h2⟩

end C106Demo

end NF
