import Verif.Lemmas.Live
import Verif.Props.Refinement
import Verif.Props.Centres
import Verif.Props.Volume
import Verif.Props.Setup

/-! # C87: a search can be completed after any history -/

noncomputable section
open Classical
namespace NF
open Spec CoordSys Container
variable {d : ℕ}

theorem live_log {p : CtlParams d} {R : List (SRes d) → Simplex d → SRes d → Prop} {c : Ctl d} (h : ReachLive p R c) :
    ∀ s r, LogEntry.completed s r ∈ c.log → R c.state.result.nodes.values s r := by
  cases h with
  | start => intro s r h; simp [startFresh, startFrom] at h
  | tail _ _ hr => exact hr

theorem restart_fresh (p : CtlParams d) (c : Ctl d) : (restart p c).phase = .running ∧ (restart p c).failed = [] ∧ (restart p c).tasks = [] ∧ (restart p c).log = [] :=
  ⟨rfl, rfl, rfl, rfl⟩

theorem fill_no_raise {p : CtlParams d} (hst : p.stencil ≠ none) (c : Ctl d) : ∃ c', fill p c = (none, c') ∧ c'.phase = c.phase ∧ c'.failed = c.failed := by
  obtain ⟨e, c', h⟩ : ∃ e c', fill p c = (e, c') := ⟨_, _, rfl⟩
  obtain ⟨c1, h1, ⟨rfl, rfl, -⟩ | ⟨err, -, h2⟩⟩ := fill_induction (P := fun x => x.phase = c.phase ∧ x.failed = c.failed)
    (fun a b h hab => ⟨(fillStep_disk hab).2.1.trans h.1, (fillStep_disk hab).2.2.1.trans h.2⟩) c ⟨rfl, rfl⟩ _ _ h
  · exact ⟨_, h, h1⟩
  · exact absurd (fillStep_raise h2).2.1 hst

theorem fill_completed {p : CtlParams d} {c c' : Ctl d} (h : fill p c = (none, c')) : ∀ s r, LogEntry.completed s r ∈ c'.log → LogEntry.completed s r ∈ c.log := by
  obtain ⟨c1, h1, ⟨-, rfl, -⟩ | ⟨err, h2, -⟩⟩ := fill_induction (P := fun x => ∀ s r, LogEntry.completed s r ∈ x.log → LogEntry.completed s r ∈ c.log)
    (fun a b h hab s r hs => h s r (by
      obtain ⟨-, ⟨x, rest, hq, -, rfl⟩ | ⟨x, rest, hq, -, rfl⟩ | ⟨pos, rest, st, hq, hpq, -, hst, rfl⟩ |
        ⟨pos, rest, hq, hpq, -, -, rfl⟩⟩ := fillStep_next hab <;> simpa using hs)) c (fun _ _ h => h) _ _ h
  · exact h1
  · cases h2

/-- **C87**: after any history (any schedule, exceptions, failed saves, crashes, restarts), a search that is periodic, or finds nodes only in a bounded region, can still be completed: once it is restarted, or if it is still running and no minimization has failed, there is a continuation in which it returns, provided that every
minimization it needs (of the mesh and stencil simplices) can end. -/
theorem C87_can_complete {p : CtlParams d} (hd : DistinctInput p) (hg : GoodGeometry p)
    (hN : 1 ≤ p.numMinimizeParallel) (hst : p.stencil ≠ none) {R : List (SRes d) → Simplex d → SRes d → Prop}
    {lo hi : Vec d} (hreg : p.coord.periodic = true ∨ ∀ c, ReachLive p R c → ∀ r ∈ c.state.result.nodes.values, ∀ i, lo i ≤ r.pos i ∧ r.pos i ≤ hi i)
    (hm : ∀ l l' : List (SRes d), (∀ r ∈ l, r ∈ l') → ∀ s r, R l s r → R l' s r)
    {Q : Simplex d → Prop} (hn : ∀ s, Q s → Q (normalizeSimplex s)) (hmesh : ∀ s ∈ p.mesh, Q s) (hsten : ∀ st, p.stencil = some st → ∀ pos, ∀ s ∈ translateStencil pos st, Q s)
    (hend : ∀ l s, Q s → ∃ r, R l s r ∧ ∀ ch an pa, r = .joined ch an pa → pa = none)
    {c : Ctl d} (h : ReachLive p R c) : ∃ c', ReachLive p R c' ∧ c'.phase = .returned ∧ (c.phase = .running → c.failed = [] → ReachFrom p c c') := by
  have hrs : ReachLive p R (restart p c) := .tail h (.crash c) fun s r hs => by simp [restart, startFrom] at hs
  suffices key : ∀ c, ReachLive p R c → c.phase = .running → c.failed = [] → ∃ c', ReachLive p R c' ∧ c'.phase = .returned ∧ ReachFrom p c c' by
    by_cases hc : c.phase = .running ∧ c.failed = []
    · obtain ⟨c', h1, h2, h3⟩ := key c h hc.1 hc.2
      exact ⟨c', h1, h2, fun _ _ => h3⟩
    · obtain ⟨c', h1, h2, -⟩ := key _ hrs rfl rfl
      exact ⟨c', h1, h2, fun h3 h4 => absurd ⟨h3, h4⟩ hc⟩
  clear hrs h c
  intro c h hph hf
  by_contra hno
  push Not at hno
  -- the executions that run one minimization at a time
  let I : Type := {x : Ctl d // ReachLive p R x ∧ ReachFrom p c x ∧ x.phase = .running ∧ x.failed = []}
  have hnext : ∀ x : I, ∃ y : I, Step p x.1 y.1 ∧ (x.1.tasks = [] → Turn p x.1 y.1) ∧ (x.1.tasks ≠ [] → y.1.tasks = x.1.tasks.tail) := by
    rintro ⟨x, h1, h2, h3, h4⟩
    have hQ := (simpInv_reach (Q := Q) hn hmesh hsten (live_with (R' := fun _ _ => True) (fun _ _ _ _ => trivial) h1)).1
    have hA : Acct p x := (live_reach hd hg hm h1).1.1.1.1
    cases ht : x.tasks with
    | nil =>
      have henum : x.state.simplexQueue.running.toList.Nodup ∧ ∀ y, y ∈ x.state.simplexQueue.running.toList ↔ y ∈ x.state.simplexQueue.running :=
        ⟨Finset.nodup_toList _, fun x => Finset.mem_toList⟩
      by_cases hc : loopCondition x
      · obtain ⟨y, hy, hy1, hy2⟩ := fill_no_raise hst x
        have hs : Step p x y := .tickFill x y h3 h4 hc hy
        refine ⟨⟨y, .tail h1 (.step hs) fun s r hsr => hm _ _ (step_nodes hs) s r (live_log h1 s r (fill_completed hy s r hsr)), .tail h2 hs, hy1.trans h3, hy2.trans h4⟩,
          hs, fun _ => .inr ⟨h4, hc, hy⟩, fun h => absurd rfl h⟩
      · exfalso
        have hs : Step p x { doSave p x x.state.simplexQueue.running.toList with phase := .returned } := .tickReturn x _ h3 h4 hc henum
        refine hno _ (.tail h1 (.step hs) fun s r hsr => hm _ _ (step_nodes hs) s r (live_log h1 s r ?_)) rfl (.tail h2 hs)
        have := (doSave_same p x x.state.simplexQueue.running.toList).2.2.1
        rwa [← this]
    | cons s rest =>
      have hmem : s ∈ x.tasks := by rw [ht]; simp
      obtain ⟨r, hr1, hr2⟩ := hend x.state.result.nodes.values s (hQ.tasks s hmem)
      have hs : Step p x (taskDone p x s r) := .done x s r (by rw [h3]; simp) hmem hr2
      have e := taskDone_of_mem (p := p) r ((hA.run s).1 (List.mem_append_left _ hmem))
      refine ⟨⟨taskDone p x s r, .tail h1 (.step hs) fun s' r' hsr => ?_, .tail h2 hs, by rw [e]; exact h3, by rw [e]; exact h4⟩, hs,
        fun h => by simp at h, fun _ => by show (taskDone p x s r).tasks = rest; rw [e]; simp [ht]⟩
      refine hm _ _ (step_nodes hs) s' r' ?_
      have hsr : LogEntry.completed s' r' ∈ (taskDone p x s r).log := hsr
      rw [e] at hsr
      rcases List.mem_append.1 hsr with h | h
      · exact live_log h1 s' r' h
      · simp only [List.mem_singleton, LogEntry.completed.injEq] at h
        rw [h.1, h.2]; exact hr1
  choose next hn1 hn2 hn3 using hnext
  let f : ℕ → I := fun n => next^[n] ⟨c, h, .refl, hph, hf⟩
  have hf1 : ∀ n, f (n + 1) = next (f n) := fun n => Function.iterate_succ_apply' _ _ _
  have hempty : ∀ n, ∃ m ≥ n, (f m).1.tasks = [] := by
    intro n
    induction hk : (f n).1.tasks.length generalizing n with
    | zero => exact ⟨n, le_rfl, List.length_eq_zero_iff.1 hk⟩
    | succ k ih =>
      have hne : (f n).1.tasks ≠ [] := by intro h; rw [h] at hk; cases hk
      obtain ⟨m, hm1, hm2⟩ := ih (n + 1) (by rw [hf1, hn3 _ hne, List.length_tail, hk]; rfl)
      exact ⟨m, by omega, hm2⟩
  have hnofair : ¬ FairRun p fun n => (f n).1 := by
    have h0 := reachWith_reach (live_with (R' := fun _ _ => True) (fun _ _ _ _ => trivial) h)
    rcases hreg with hp | hreg
    · exact C28_terminates hd hg hp hN (fun n => (f n).1) h0
    · exact terminates_within hd hg hN ⟨lo, hi, false⟩ (fun n => (f n).1) h0 fun n _ => hreg _ (f n).2.1
  refine hnofair ⟨fun n => ?_, fun n => ?_, fun n s hs => ?_⟩
  · show Step p (f n).1 (f (n + 1)).1
    rw [hf1]; exact hn1 _
  · obtain ⟨m, h1, h2⟩ := hempty n
    refine ⟨m, h1, ?_⟩
    show Turn p (f m).1 (f (m + 1)).1
    rw [hf1]; exact hn2 _ h2
  · obtain ⟨m, h1, h2⟩ := hempty n
    exact ⟨m, h1, by rw [h2]; simp⟩

/-- a minimization always ends -/
theorem liveMinimization_total (p : CtlParams d) (P : NMParams) (G : Vec d → FVal) (l : List (SRes d)) {s : Simplex d} (hs : s.length = d + 1) :
    ∃ r, LiveMinimization p P G l s r ∧ ∀ ch an pa, r = .joined ch an pa → pa = none := by
  have hof : s = List.ofFn fun i : Fin (d + 1) => s.get (i.cast hs.symm) := by
    refine List.ext_get (by simp [hs]) fun n h1 h2 => ?_
    simp only [List.get_eq_getElem, List.getElem_ofFn, Fin.val_cast]
  exact ⟨_, ⟨none, _, by simp, hof, fun v => Tuple.sort v, fun v => Tuple.monotone_sort v, rfl⟩, fun ch an pa h => by simp [runMinimization] at h⟩

theorem liveMinimization_mono (p : CtlParams d) (P : NMParams) (G : Vec d → FVal) (l l' : List (SRes d)) (hl : ∀ r ∈ l, r ∈ l') (s : Simplex d) (r : SRes d)
    (h : LiveMinimization p P G l s r) : LiveMinimization p P G l' s r := by
  obtain ⟨fake, sim0, h1, h2, h3⟩ := h
  exact ⟨fake, sim0, fun q hq n x => (h1 q hq n x).imp id fun ⟨r, hr, hx⟩ => ⟨r, hl r hr, hx⟩, h2, h3⟩

theorem distinct_setup {a : SearchArgs d} {p : CtlParams d} {P : NMParams} (hset : setup a = .ok (p, P)) (hl : ∀ i, (a.limits i).1 ≠ (a.limits i).2) (hf : 0 < a.featureSize)
    (hst : a.refinementStencil = .auto ∨ a.refinementStencil = .none) : DistinctInput p := by
  have hb := properBox_setup hset hl
  obtain ⟨-, -, -, -, -, -, e7, -, -, -, -, eauto, enone, -⟩ := C71_settings hset
  have hset' := hset
  rw [setup_eq] at hset'
  split_ifs at hset' with hm
  injection hset' with hset'
  have hp := (congrArg Prod.fst hset').symm
  simp only at hp
  have hmesh : p.mesh = initialSimplices p.coord fun i => ((meshSizes a).getD i 0).toNat := by rw [hp]
  refine C47_distinct_input hb (by rw [e7]; exact hf) hmesh ?_
  rcases hst with h | h
  · right
    rw [eauto h, e7]
    unfold scaleStencil
    congr 1
    refine List.map_congr_left fun s _ => List.map_congr_left fun v _ => ?_
    funext k
    simp [mul_comm]
  · exact .inl (enone.2 h)

theorem can_complete {a : SearchArgs d} {p : CtlParams d} {P : NMParams} (hset : setup a = .ok (p, P)) (hl : ∀ i, (a.limits i).1 ≠ (a.limits i).2) (hf : 0 < a.featureSize)
    (hst : a.refinementStencil = .auto) (hN : 1 ≤ a.numMinimizeParallel) (G : Vec d → FVal) (hsz : GoodGeometry p) {lo hi : Vec d}
    (hreg : p.coord.periodic = true ∨ ∀ c, ReachLive p (LiveMinimization p P G) c → ∀ r ∈ c.state.result.nodes.values, ∀ i, lo i ≤ r.pos i ∧ r.pos i ≤ hi i)
    {c : Ctl d} (h : ReachLive p (LiveMinimization p P G) c) :
    ∃ c', ReachLive p (LiveMinimization p P G) c' ∧ c'.phase = .returned ∧ (c.phase = .running → c.failed = [] → ReachFrom p c c') := by
  have hb := properBox_setup hset hl
  obtain ⟨-, -, -, -, -, -, e7, -, -, eper, -, eauto, -, -⟩ := C71_settings hset
  have hset' := hset
  rw [setup_eq] at hset'
  split_ifs at hset' with hm
  injection hset' with hset'
  have hp := (congrArg Prod.fst hset').symm
  simp only at hp
  refine C87_can_complete (Q := fun s => s.length = d + 1) ?_ hsz (by rw [hp]; exact hN)
    (by rw [eauto hst]; simp) hreg (liveMinimization_mono p P G) ?_ ?_ ?_ ?_ h
  · exact distinct_setup hset hl hf (.inl hst)
  · intro s hs
    show (normalizeSimplex s).length = _
    rw [(normalizeSimplex_perm s).length_eq]; exact hs
  · intro s hs
    rw [hp] at hs
    exact ((C46_mesh_size_and_position (by have := hb; rw [hp] at this; exact this) _).2 s hs).1
  · intro st hst' pos s hs
    rw [eauto hst] at hst'
    obtain rfl := Option.some.inj hst'
    obtain ⟨t, ht, rfl⟩ := List.mem_map.1 hs
    obtain ⟨u, hu, rfl⟩ := List.mem_map.1 ht
    simpa using (C50_auto d).2 u hu
  · intro l s hs
    exact liveMinimization_total p P G l hs

/-- **C87**, in terms of the arguments of `search.run`: a periodic search in any dimension, with the `'auto'` stencil, with or without rechecking and with at least one parallel minimization, for any gap function and mesh size, can be completed after any history. -/
theorem C87_search {a : SearchArgs d} {p : CtlParams d} {P : NMParams} (hset : setup a = .ok (p, P)) (hl : ∀ i, (a.limits i).1 ≠ (a.limits i).2) (hf : 0 < a.featureSize)
    (hper : a.periodic = true) (hst : a.refinementStencil = .auto) (hN : 1 ≤ a.numMinimizeParallel) (G : Vec d → FVal)
    {c : Ctl d} (h : ReachLive p (LiveMinimization p P G) c) :
    ∃ c', ReachLive p (LiveMinimization p P G) c' ∧ c'.phase = .returned ∧ (c.phase = .running → c.failed = [] → ReachFrom p c c') := by
  obtain ⟨-, -, -, -, -, -, e7, -, -, eper, -⟩ := C71_settings hset
  have hper' : p.coord.periodic = true := eper.trans hper
  exact can_complete (lo := 0) (hi := 0) hset hl hf hst hN G ⟨properBox_setup hset hl, by rw [e7]; exact hf, .inl hper'⟩ (.inl hper') h

/-- **C87**, in a space that is not periodic: the same holds if the gap function is above the threshold outside a bounded region. -/
theorem C87_search_nonperiodic (hd1 : 1 ≤ d) {a : SearchArgs d} {p : CtlParams d} {P : NMParams} (hset : setup a = .ok (p, P)) (hl : ∀ i, (a.limits i).1 ≠ (a.limits i).2) (hf : 0 < a.featureSize)
    (hsz : ∀ i, a.featureSize / 3 ≤ |(a.limits i).2 - (a.limits i).1|) (hper : a.periodic = false) (hst : a.refinementStencil = .auto) (hN : 1 ≤ a.numMinimizeParallel)
    (hft : P.ftol ≠ FVal.inf) (hc : P.fprimeCutoff = none) (G : Vec d → FVal) {lo hi : Vec d} (hG : HighOutside (fun x v => v = G x) a.gapThreshold lo hi)
    {c : Ctl d} (h : ReachLive p (LiveMinimization p P G) c) :
    ∃ c', ReachLive p (LiveMinimization p P G) c' ∧ c'.phase = .returned ∧ (c.phase = .running → c.failed = [] → ReachFrom p c c') := by
  obtain ⟨-, -, -, -, -, -, e7, e8, hlim, eper, -⟩ := C71_settings hset
  have hgood : GoodGeometry p := by
    refine ⟨properBox_setup hset hl, by rw [e7]; exact hf, .inr fun i => ?_⟩
    rw [e7, (hlim i).1, (hlim i).2, max_sub_min_eq_abs]
    exact hsz i
  refine can_complete (lo := lo) (hi := hi) hset hl hf hst hN G hgood (Or.inr fun c hc' => ?_) h
  have hwith : ReachWith p (MinimizationOf P fun x v => v = G x) c := live_with (fun l s r ⟨fake, sim0, h1, h2, h3⟩ => ⟨_, fake, sim0, fun _ _ => rfl, h2, h3⟩) hc'
  exact (region_centres hd1 (distinct_setup hset hl hf (.inl hst)) hgood (eper.trans hper) hft hc (by rw [e8]; exact hG) hwith).1

/-- non-vacuity: the default search, started afresh, can be completed, whatever the gap function -/
example (G : Vec 3 → FVal) : ∃ p P, setup SearchArgs.defaults = .ok (p, P) ∧ ∃ c, ReachLive p (LiveMinimization p P G) c ∧ c.phase = .returned := by
  obtain ⟨p, P, h, -⟩ := C71_default_search
  refine ⟨p, P, h, ?_⟩
  obtain ⟨c, h1, h2, -⟩ := C87_search h (by simp [SearchArgs.defaults]) (by norm_num [SearchArgs.defaults]) rfl rfl (by simp [SearchArgs.defaults]) G .start
  exact ⟨c, h1, h2⟩

/-- non-vacuity: a search in unbounded space, with the default settings otherwise, for the gap function `x² + y² + z²`, can be completed -/
example : ∃ p P, setup { SearchArgs.defaults with periodic := false } = .ok (p, P) ∧ ∃ c, ReachLive p (LiveMinimization p P fun x : Vec 3 => FVal.ofReal (∑ i, x i ^ 2)) c ∧ c.phase = .returned := by
  obtain ⟨⟨p, P⟩, hset⟩ : ∃ q, setup { SearchArgs.defaults with periodic := false } = .ok q := by
    cases h : setup { SearchArgs.defaults with periodic := false } with
    | ok q => exact ⟨q, rfl⟩
    | error e =>
      rcases (C71_setup_errors { SearchArgs.defaults with periodic := false }).1.1 ⟨e, h⟩ with ⟨n, hn, -, e⟩ | ⟨l, e, -⟩
      · cases e; omega
      · cases e
  obtain ⟨-, e2, -, -, e5, -⟩ := C71_settings hset
  refine ⟨p, P, hset, ?_⟩
  obtain ⟨c, h1, h2, -⟩ := C87_search_nonperiodic (lo := fun _ => -1) (hi := fun _ => 1) (by norm_num) hset (by simp [SearchArgs.defaults]) (by norm_num [SearchArgs.defaults])
    (by intro i; norm_num [SearchArgs.defaults]) rfl rfl (by simp [SearchArgs.defaults]) (by rw [e2]; simp [SearchArgs.defaults, NMKwargs.empty, FVal.ofReal, FVal.inf]) (e5 rfl)
    (fun x => FVal.ofReal (∑ i, x i ^ 2)) (by
      intro x v hv hle i
      have e : v = ∑ i, x i ^ 2 := by
        unfold FVal.ofReal at hv
        exact_mod_cast hv
      have h1 : x i ^ 2 ≤ ∑ i, x i ^ 2 := Finset.single_le_sum (f := fun i => x i ^ 2) (fun i _ => sq_nonneg _) (Finset.mem_univ i)
      have h2 : v ≤ 1 := hle.trans (by norm_num [SearchArgs.defaults])
      constructor <;> nlinarith) .start
  exact ⟨c, h1, h2⟩

end NF
