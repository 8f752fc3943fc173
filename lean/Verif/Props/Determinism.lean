import Verif.Lemmas.Determinism
import Verif.Lemmas.Demo

/-! # C70: a search with one minimization at a time is reproducible -/

noncomputable section
open Classical
namespace NF
open Spec CoordSys
variable {d : ℕ}

theorem micro_fixed_or_longer (p : CtlParams d) (R : Minimizer d) (c : Ctl d) :
    micro p R c = c ∨ c.log.length < (micro p R c).log.length := by
  unfold micro
  split
  · right
    split
    · unfold taskDone
      simp only
      split <;> simp [Ctl.strip]
    · simp [taskFail, Ctl.strip]
  · split_ifs
    · split
      · rename_i c' h
        right
        cases hf : fillStep p c with
        | stop => rw [hf] at h; cases h
        | raise => rw [hf] at h; cases h
        | next c1 =>
          rw [hf] at h
          simp only [FillStep.strip] at h
          injection h with h
          subst h
          obtain ⟨-, ⟨y, rest, hq, -, e⟩ | ⟨y, rest, hq, -, e⟩ | ⟨pos, rest, st, hq, hpq, -, hst, e⟩ |
            ⟨pos, rest, hq, hpq, -, -, e⟩⟩ := fillStep_next hf <;> rw [e] <;> simp [Ctl.strip]
      · exact Or.inl rfl
    · exact Or.inl rfl

theorem iterate_same_log (p : CtlParams d) (R : Minimizer d) (c : Ctl d) {k l : ℕ} (h : k ≤ l)
    (hlog : ((micro p R)^[k] c).log = ((micro p R)^[l] c).log) : (micro p R)^[k] c = (micro p R)^[l] c := by
  rcases h.eq_or_lt with rfl | h
  · rfl
  · refine (iterate_fixed h.le ?_).symm
    rcases micro_fixed_or_longer p R ((micro p R)^[k] c) with h1 | h1
    · exact h1
    · exfalso
      have h2 := (log_iterate p R c (Nat.succ_le_of_lt h)).length_le
      rw [Nat.succ_eq_add_one, Function.iterate_succ_apply', ← hlog] at h2
      omega

/-- **C70** (1): one minimization at a time, a deterministic minimization: of any two moments of any two searches with the same parameters and the same initial state, the
history of one (simplices scheduled, skipped and completed, with their results, positions refined and discarded, in order) is the beginning of
that of the other. -/
theorem C70_same_history {p : CtlParams d} (hd : DistinctInput p) (hp : p.numMinimizeParallel ≤ 1) (R : Minimizer d)
    {disk disk' initial : Option (Saved d)} (hi : ∀ sv, initial = some sv → WellFormedSaved sv) {c c' : Ctl d}
    (h : ReachDet p R (startFrom p disk initial) c) (h' : ReachDet p R (startFrom p disk' initial) c') :
    c.log <+: c'.log ∨ c'.log <+: c.log := by
  obtain ⟨-, -, k, hk⟩ := at_reach hd hp hi h
  obtain ⟨-, -, l, hl⟩ := at_reach hd hp hi h'
  have e : (startFrom p disk' initial).strip = (startFrom p disk initial).strip := rfl
  rw [← hk.log, ← hl.log, e]
  rcases le_total k l with hkl | hkl
  · exact Or.inl (log_iterate p R _ hkl)
  · exact Or.inr (log_iterate p R _ hkl)

/-- **C70** (2): at moments with the same history the results are the same, in the same order. -/
theorem C70_same_results {p : CtlParams d} (hd : DistinctInput p) (hp : p.numMinimizeParallel ≤ 1) (R : Minimizer d)
    {disk disk' initial : Option (Saved d)} (hi : ∀ sv, initial = some sv → WellFormedSaved sv) {c c' : Ctl d}
    (h : ReachDet p R (startFrom p disk initial) c) (h' : ReachDet p R (startFrom p disk' initial) c') (hlog : c.log = c'.log) :
    c.state.result.nodes.values = c'.state.result.nodes.values ∧ c.state.result.rejected = c'.state.result.rejected ∧
      c.state.result.refined.values = c'.state.result.refined.values := by
  obtain ⟨-, -, k, hk⟩ := at_reach hd hp hi h
  obtain ⟨-, -, l, hl⟩ := at_reach hd hp hi h'
  have e : (startFrom p disk' initial).strip = (startFrom p disk initial).strip := rfl
  have hz : (micro p R)^[k] (startFrom p disk initial).strip = (micro p R)^[l] (startFrom p disk initial).strip := by
    have h1 := hk.log
    have h2 := hl.log
    rw [e] at h2
    have h3 := h1.trans (hlog.trans h2.symm)
    rcases le_total k l with hkl | hkl
    · exact iterate_same_log p R _ hkl h3
    · exact (iterate_same_log p R _ hkl h3.symm).symm
  obtain ⟨-, -, -, a4, a5, a6⟩ := hk.result.fields
  obtain ⟨-, -, -, b4, b5, b6⟩ := hl.result.fields
  rw [e, ← hz] at b4 b5 b6
  exact ⟨by rw [← a4, ← b4], by rw [← a5, ← b5], by rw [← a6, ← b6]⟩

/-- **C70** (3): if both searches have ended, then their history and their results are the same, and they ended in the same way: both returned or both raised the
same exception (unless one of them could not write the save file). -/
theorem C70_same_outcome {p : CtlParams d} (hd : DistinctInput p) (hp : p.numMinimizeParallel ≤ 1) (R : Minimizer d)
    {disk disk' initial : Option (Saved d)} (hi : ∀ sv, initial = some sv → WellFormedSaved sv) {c c' : Ctl d}
    (h : ReachDet p R (startFrom p disk initial) c) (h' : ReachDet p R (startFrom p disk' initial) c') (he : Ended c) (he' : Ended c') :
    c.log = c'.log ∧ c.state.result.nodes.values = c'.state.result.nodes.values ∧ c.state.result.rejected = c'.state.result.rejected ∧
      c.state.result.refined.values = c'.state.result.refined.values ∧
      (c.phase ≠ .raised .io → c'.phase ≠ .raised .io → c.phase = c'.phase) := by
  obtain ⟨-, hq, k, hk⟩ := at_reach hd hp hi h
  obtain ⟨-, hq', l, hl⟩ := at_reach hd hp hi h'
  have e : (startFrom p disk' initial).strip = (startFrom p disk initial).strip := rfl
  have hz : (micro p R)^[k] (startFrom p disk initial).strip = (micro p R)^[l] (startFrom p disk initial).strip := by
    rcases le_total k l with hkl | hkl
    · exact (iterate_fixed hkl (hk.ended he)).symm
    · exact iterate_fixed hkl (hl.ended he')
  have hlog : c.log = c'.log := by rw [← hk.log, ← hl.log, e, hz]
  obtain ⟨r1, r2, r3⟩ := C70_same_results hd hp R hi h h' hlog
  have hf : c.failed = c'.failed := by rw [← hk.failed, ← hl.failed, e, hz]
  have hret := hk.returned
  have hret' := hl.returned
  have hra := hk.raised
  have hra' := hl.raised
  rw [e, ← hz, ← hf] at hret' hra'
  refine ⟨hlog, r1, r2, r3, fun hio hio' => ?_⟩
  unfold Ended at he he'
  cases hc : c.phase with
  | running => exact absurd hc he
  | returned =>
    cases hc' : c'.phase with
    | running => exact absurd hc' he'
    | returned => rfl
    | raised e' =>
      exfalso
      obtain ⟨f1, f2⟩ := hret hc
      rcases hra' e' hc' with ⟨g, -⟩ | ⟨s, g⟩ | ⟨-, -, g⟩
      · exact hio' (by rw [hc', g])
      · rw [f1] at g; cases g
      · exact f2 g
  | raised e =>
    cases hc' : c'.phase with
    | running => exact absurd hc' he'
    | returned =>
      exfalso
      obtain ⟨f1, f2⟩ := hret' hc'
      rcases hra e hc with ⟨g, -⟩ | ⟨s, g⟩ | ⟨-, -, g⟩
      · exact hio (by rw [hc, g])
      · rw [f1] at g; cases g
      · exact f2 g
    | raised e' =>
      congr 1
      rcases hra e hc with ⟨g, -⟩ | ⟨s, g⟩ | ⟨g, g1, -⟩
      · exact absurd (by rw [hc, g]) hio
      · rcases hra' e' hc' with ⟨g', -⟩ | ⟨s', g'⟩ | ⟨-, g', -⟩
        · exact absurd (by rw [hc', g']) hio'
        · have hlen := hq.one
          have hpos := List.length_pos_of_mem g
          obtain ⟨a, ha⟩ := List.length_eq_one_iff.1 (show c.failed.length = 1 by omega)
          rw [ha] at g g'
          have h1 : (s, e) = a := by simpa using g
          have h2 : (s', e') = a := by simpa using g'
          have := h1.trans h2.symm
          exact (Prod.mk.inj this).2
        · rw [g'] at g; cases g
      · rcases hra' e' hc' with ⟨g', -⟩ | ⟨s', g'⟩ | ⟨g', -, -⟩
        · exact absurd (by rw [hc', g']) hio'
        · rw [g1] at g'; cases g'
        · rw [g, g']

/-- **C70** (4): the fake potential depends only on the list of nodes: so a minimization with a deterministic gap function, with or without fake potential, is a deterministic
minimization in the sense of `Minimizer`. -/
theorem C70_fake_potential {p : CtlParams d} (hd : DistinctInput p) {c c' : Ctl d} (h : ReachAny p c) (h' : ReachAny p c')
    (hn : c.state.result.nodes.values = c'.state.result.nodes.values) (width : ℝ) :
    fakePotential c.state.result width = fakePotential c'.state.result width := by
  have i := (good_any hd h).1.cont
  have i' := (good_any hd h').1.cont
  have key : ∀ f, c.state.result.nodes.neighbourValues f = c'.state.result.nodes.neighbourValues f := by
    intro f
    have hidx : ∀ g, c.state.result.nodes.getIndex g = c'.state.result.nodes.getIndex g := by
      intro g
      unfold CellList.getIndex CellList.total
      rw [i.nper, i'.nper, i.nnum, i'.nnum]
    have hcells : c.state.result.nodes.cells = c'.state.result.nodes.cells := by
      funext idx
      rw [i.ninv.cells, i'.ninv.cells]
      have : c.state.result.nodes.flat = c'.state.result.nodes.flat := hn
      rw [this]
      simp only [hidx]
    unfold CellList.neighbourValues
    rw [hcells, hidx]
    unfold CellList.calculateNeighbourIndices CellList.total
    rw [i.nper, i'.nper, i.nnum, i'.nnum]
  funext x
  unfold fakePotential Container.allNeighbourDistances Container.neighbourIterator
  rw [i.coord, i'.coord, key]


/-! ### Non-vacuity: the demonstration runs are runs with a deterministic minimization -/

namespace C70Demo
open Demo

/-- finds the node from the initial simplex, and ends above the threshold from any other -/
def R : Minimizer 1 := fun _ x => if x = s then .ok node else .ok bad
/-- raises an exception instead -/
def Rf : Minimizer 1 := fun _ x => if x = s then .ok node else .error 7

theorem same_log {c c' : Ctl 1} {M : Minimizer 1} (h : c'.log = c.log) : Obeys M c c' := by
  intro new e
  have : new = [] := by rw [h] at e; simpa using e
  subst this
  simp

theorem det1 (M : Minimizer 1) : ReachDet params M c0 c1 := by
  refine .tail .refl (.tickFill c0 c1 rfl rfl (Or.inl (fun h => by have := h.2; rw [q0] at this; cases this)) fill0) ?_
  intro new e
  have h1 : c1.log = [.scheduled s] := rfl
  have h0 : c0.log = [] := rfl
  rw [h1, h0, List.nil_append] at e
  subst e
  simp

theorem log2 : c2.log = [.scheduled s, .completed s node] := by rw [c2_eq]

theorem det2 (M : Minimizer 1) (hM : ∀ l, M l s = .ok node) : ReachDet params M c0 c2 := by
  refine .tail (det1 M) (.done c1 s node (by simp [c1, c0, startFresh, startFrom]) (by simp [c1]) (by intro _ _ _ h; simp [node] at h)) ?_
  intro new e
  have h1 : c1.log = [.scheduled s] := rfl
  have e' : c2.log = c1.log ++ new := e
  rw [log2, h1] at e'
  have : new = [.completed s node] := by simpa using e'.symm
  subst this
  refine ⟨?_, by simp⟩
  intro x r hx
  have : x = s ∧ r = node := by simpa using hx
  rw [this.1, this.2]
  exact hM _

theorem det3 (M : Minimizer 1) (hM : ∀ l, M l s = .ok node) : ReachDet params M c0 c3 := by
  refine .tail (det2 M hM) (.tickFill c2 c3 (by rw [c2_eq]; rfl) (by rw [c2_eq]; rfl)
    (Or.inr (by simp [ObjQueue.hasQueued, pos2])) fill2) ?_
  intro new e
  have h3 : c3.log = [.scheduled s, .completed s node, .refined (pt (1/2)), .scheduled t] := rfl
  rw [log2, h3] at e
  have : new = [.refined (pt (1/2)), .scheduled t] := by simpa using e.symm
  subst this
  simp

/-- the search that returns -/
theorem det5 : ReachDet params R c0 c5 := by
  have h4 : ReachDet params R c0 c4 := by
    refine .tail (det3 R fun l => by simp [R]) (.done c3 t bad (by rw [phase3]; simp) (by simp [c3]) (by intro _ _ _ h; simp [bad] at h)) ?_
    intro new e
    have e' : c4.log = c3.log ++ new := e
    have h4 : c4.log = c3.log ++ [.completed t bad] := by rw [c4_eq]
    rw [h4] at e'
    have : new = [.completed t bad] := (List.append_cancel_left e').symm
    subst this
    refine ⟨?_, by simp⟩
    intro x r hx
    have : x = t ∧ r = bad := by simpa using hx
    rw [this.1, this.2]
    simp [R, t_ne_s]
  refine .tail h4 (.tickReturn c4 [] (by rw [c4_eq]; exact phase3) (by rw [c4_eq]; exact failed3) finished4
    (by rw [running4]; simp)) (same_log ?_)
  exact (doSave_same params c4 []).2.2.1

/-- the search that raises -/
theorem det5f : ReachDet params Rf c0 c5f := by
  have h4 : ReachDet params Rf c0 c4f := by
    refine .tail (det3 Rf fun l => by simp [Rf]) (.fail c3 t 7 (by rw [phase3]; simp) (by simp [c3])) ?_
    intro new e
    have : new = [.failed t] := by simpa [c4f, taskFail] using e.symm
    subst this
    refine ⟨by simp, ?_⟩
    intro x hx
    obtain rfl : x = t := by simpa using hx
    exact ⟨7, by simp [Rf, t_ne_s], by simp [c4f, taskFail]⟩
  refine .tail h4 (.tickRaise c4f t (.gap 7) [t] phase3 (by simp [c4f, taskFail]) ?_) (same_log ?_)
  · refine ⟨by simp, fun x => ?_⟩
    have h := (good_reach distinct reach4f).1.run x
    rw [← h]
    have hf : c4f.failed = [(t, .gap 7)] := by simp [c4f, taskFail, failed3]
    have ht : c4f.tasks = [] := by simp [c4f, taskFail, c3]
    rw [hf, ht]; simp
  · exact (doSave_same params c4f [t]).2.2.1

example : DistinctInput params ∧ params.numMinimizeParallel ≤ 1 ∧ (∃ c, ReachDet params R (startFrom params none none) c ∧ c.phase = .returned) ∧
    ∃ c, ReachDet params Rf (startFrom params none none) c ∧ c.phase = .raised (.gap 7) :=
  ⟨distinct, le_refl _, ⟨c5, det5, rfl⟩, c5f, det5f, rfl⟩

end C70Demo

/-! ### With two minimizations at a time the nodes can be different -/

namespace C70Two
open Demo

/-- two initial simplices, minimized at the same time -/
def p2 : CtlParams 1 where
  coord := ⟨pt 0, pt 1, false⟩
  gapThreshold := 1
  featureSize := 3 / 10
  stencil := none
  numMinimizeParallel := 2
  recheckPosDist := true
  recheckCountCutoff := 0
  simplexCheckCutoff := 5
  saveFile := false
  mesh := [[pt 0], [pt (1/2)]]
  forceInitialMesh := false

/-- one initial simplex -/
def a : Simplex 1 := [pt 0]
/-- the other one -/
def b : Simplex 1 := [pt (1/2)]

theorem a_ne_b : a ≠ b := by
  intro h
  have : pt 0 = pt (1/2) := by simpa [a, b] using h
  have := congrFun this 0
  norm_num [pt] at this

/-- a node at the first vertex of the simplex -/
def nodeAt (x : Simplex 1) : SRes 1 := .plain ⟨x.headD (pt 0), FVal.ofReal 0, 1, 1, 0, true, "", [], none⟩

/-- finds a node at the first vertex, unless there is already a node (which repels the minimization) -/
def R2 : Minimizer 1 := fun l x => if l = [] then .ok (nodeAt x) else .ok bad

theorem check2 (res : Container 1) (x : Simplex 1) (h : x.length ≤ 5) : checkSimplex p2 res x = true := by
  by_contra hc
  have hc : checkSimplexLoop p2 res 0 x = false := by simpa [checkSimplex] using hc
  rw [checkSimplexLoop_eq_false_iff _ _ _ _ (Or.inl (by simp [p2]))] at hc
  have h1 := hc.2
  have h2 := List.length_filter_le (fun v => (res.neighbourDistances v).any fun x => decide (x < p2.distCutoff)) x
  simp only [p2] at h1 h2
  omega

/-- the start -/
def e0 : Ctl 1 := startFrom p2 none none

theorem norm_single (x : Vec 1) : normalizeSimplex [x] = [x] := by simp [normalizeSimplex]

theorem eq0 : e0.state.simplexQueue.base.queued = [a, b] := by
  change normalizeSimplices p2.mesh = _
  simp [normalizeSimplices, p2, norm_single, a, b]

/-- both minimizations are running -/
def e1 : Ctl 1 := { e0 with
  state := { e0.state with simplexQueue := (e0.state.simplexQueue.popTo a [b]).popTo b [] }
  tasks := [a, b]
  log := [.scheduled a, .scheduled b] }

theorem run1_mem {x : Simplex 1} : x ∈ e1.state.simplexQueue.running ↔ x = b ∨ x = a := by
  change x ∈ ((e0.state.simplexQueue.popTo a [b]).popTo b []).running ↔ _
  rw [RunQueue.mem_popTo, RunQueue.mem_popTo]
  have : e0.state.simplexQueue.running = ∅ := rfl
  rw [this]; simp

theorem fill_e0 : fill p2 e0 = (none, e1) := by
  set e0' : Ctl 1 := { e0 with
    state := { e0.state with simplexQueue := e0.state.simplexQueue.popTo a [b] }
    tasks := [a]
    log := [.scheduled a] } with he
  have h1 : fillStep p2 e0 = .next e0' := by
    unfold fillStep
    rw [if_neg (by
      have : e0.state.simplexQueue.running = ∅ := rfl
      simp [RunQueue.numRunning, this, p2])]
    rw [RunQueue.popQueued_cons eq0]
    simp only
    rw [if_pos (check2 _ _ (by simp [a]))]
    rfl
  have r0' : e0'.state.simplexQueue.running.card = 1 := by
    have : e0'.state.simplexQueue.running = insert a ∅ := rfl
    rw [this, Finset.card_insert_of_notMem (by simp)]
    rfl
  have h2 : fillStep p2 e0' = .next e1 := by
    unfold fillStep
    rw [if_neg (by simp [RunQueue.numRunning, r0', p2])]
    rw [RunQueue.popQueued_cons (show e0'.state.simplexQueue.base.queued = [b] from rfl)]
    simp only
    rw [if_pos (check2 _ _ (by simp [b]))]
    rfl
  have h3 : fillStep p2 e1 = .stop := by
    unfold fillStep
    rw [if_pos]
    have : 1 < e1.state.simplexQueue.running.card :=
      Finset.one_lt_card.2 ⟨a, run1_mem.2 (Or.inr rfl), b, run1_mem.2 (Or.inl rfl), a_ne_b⟩
    simp only [RunQueue.numRunning, p2]
    omega
  rw [fill_next h1, fill_next h2, fill_stop h3]

theorem det1 : ReachDet p2 R2 e0 e1 := by
  refine .tail .refl (.tickFill e0 e1 rfl rfl (Or.inl fun h => by have := h.2; rw [eq0] at this; cases this) fill_e0) ?_
  intro new e
  have h1 : e1.log = [.scheduled a, .scheduled b] := rfl
  have h0 : e0.log = [] := rfl
  rw [h1, h0, List.nil_append] at e
  subst e
  simp

/-- the two minimizations end in this order, and the search returns -/
theorem run {x y : Simplex 1} (hx : x ∈ e1.tasks) (hy : y ∈ e1.tasks) (hxy : x ≠ y) (hall : ∀ z ∈ e1.tasks, z = x ∨ z = y)
    (hnx : p2.coord.normalizePosition (nodeAt x).pos = (nodeAt x).pos) :
    ∃ c, ReachDet p2 R2 e0 c ∧ c.phase = .returned ∧ c.state.result.nodes.values = [(nodeAt x).setPos (nodeAt x).pos] := by
  have hmem : ∀ z ∈ e1.tasks, z ∈ e1.state.simplexQueue.running := by
    intro z hz
    rw [run1_mem]
    have : z = a ∨ z = b := by simpa [e1] using hz
    exact this.symm
  have q2 := taskDone_of_mem (p := p2) (nodeAt x) (hmem x hx)
  set e2 := taskDone p2 e1 x (nodeAt x) with he2
  have hyt : y ∈ e2.tasks := by rw [q2]; exact (List.mem_erase_of_ne (Ne.symm hxy)).2 hy
  have hyr : y ∈ e2.state.simplexQueue.running := by
    rw [q2]
    simp only [RunQueue.mem_finishOf]
    exact ⟨Ne.symm hxy, hmem y hy⟩
  have q3 := taskDone_of_mem (p := p2) bad hyr
  set e3 := taskDone p2 e2 y bad with he3
  have res2 : e2.state.result = (e1.state.result.addResult (nodeAt x)).1 := by
    rw [q2]; exact (processResult_cases p2 e1.state (nodeAt x)).1
  have n1 : e1.state.result.nodes.values = [] := rfl
  have isN : IsNode 1 (nodeAt x) := by
    refine ⟨rfl, ?_⟩
    simp [nodeAt, SRes.value, SRes.main, FVal.gt, FVal.lt, FVal.ofReal]
  have n2 : e2.state.result.nodes.values = [(nodeAt x).setPos (nodeAt x).pos] := by
    rw [res2, Container.addResult_def, if_pos (show IsNode e1.state.result.gapThreshold (nodeAt x) from isN)]
    change e1.state.result.nodes.values ++ [Container.stored p2.coord (nodeAt x)] = _
    rw [n1, Container.stored, hnx]
    rfl
  have n3 : e3.state.result.nodes.values = e2.state.result.nodes.values := by
    rw [q3]
    simp only
    rw [(processResult_cases p2 e2.state bad).1, Container.addResult_def, if_neg]
    have : e2.state.result.gapThreshold = 1 := by
      rw [res2, Container.addResult_def]; split <;> rfl
    rw [this]
    exact bad_not_node (by norm_num)
  have d2 : ReachDet p2 R2 e0 e2 := by
    refine .tail det1 (.done e1 x (nodeAt x) (by simp [e1, e0, startFrom]) hx (by intro _ _ _ h; simp [nodeAt] at h)) ?_
    intro new e
    have e : e2.log = e1.log ++ new := e
    rw [q2] at e
    have : new = [.completed x (nodeAt x)] := (List.append_cancel_left e).symm
    subst this
    refine ⟨?_, by simp⟩
    intro z r hz
    have : z = x ∧ r = nodeAt x := by simpa using hz
    rw [this.1, this.2]
    simp [R2, n1]
  have ph2 : e2.phase = .running := by rw [q2]; rfl
  have d3 : ReachDet p2 R2 e0 e3 := by
    refine .tail d2 (.done e2 y bad (by rw [ph2]; simp) hyt (by intro _ _ _ h; simp [bad] at h)) ?_
    intro new e
    have e : e3.log = e2.log ++ new := e
    rw [q3] at e
    have : new = [.completed y bad] := (List.append_cancel_left e).symm
    subst this
    refine ⟨?_, by simp⟩
    intro z r hz
    have : z = y ∧ r = bad := by simpa using hz
    rw [this.1, this.2]
    simp [R2, n2]
  have run3 : e3.state.simplexQueue.running = ∅ := by
    apply Finset.eq_empty_of_forall_notMem
    intro z hz
    rw [q3] at hz
    simp only [RunQueue.mem_finishOf] at hz
    obtain ⟨h1, h2⟩ := hz
    rw [q2] at h2
    simp only [RunQueue.mem_finishOf] at h2
    have h3 : z ∈ e1.tasks := by simpa [e1] using (run1_mem.1 h2.2).symm
    rcases hall z h3 with h | h
    · exact h2.1 h
    · exact h1 h
  have que3 : e3.state.simplexQueue.base.queued = [] := by rw [q3]; simp only [RunQueue.finishOf_queued]; rw [q2]; rfl
  have pos3 : e3.state.positionQueue.queued = [] := by
    have k2 : e2.state.positionQueue.queued = [] := by
      rw [q2]
      obtain ⟨-, -, ⟨-, h, -⟩ | ⟨h, -⟩⟩ := processResult_cases p2 e1.state (nodeAt x)
      · cases h
      · simp only [h]; rfl
    rw [q3]
    obtain ⟨-, -, ⟨-, h, -⟩ | ⟨h, -⟩⟩ := processResult_cases p2 e2.state bad
    · cases h
    · simp only [h]; exact k2
  have stop3 : ¬ loopCondition e3 := by
    rintro (h | h)
    · exact h ⟨run3, que3⟩
    · simp [ObjQueue.hasQueued, pos3] at h
  have ph3 : e3.phase = .running := by rw [q3]; exact ph2
  have f3 : e3.failed = [] := by rw [q3]; simp only; rw [q2]; rfl
  refine ⟨_, .tail d3 (.tickReturn e3 [] ph3 f3 stop3 (by rw [run3]; simp)) (C70Demo.same_log ?_), rfl, ?_⟩
  · exact (doSave_same p2 e3 []).2.2.1
  · change (doSave p2 e3 []).state.result.nodes.values = _
    rw [(doSave_same p2 e3 []).2.2.2.2.2.2.2.2.1, n3, n2]

theorem normalize_p2 (x : Vec 1) : p2.coord.normalizePosition x = x := by
  funext i
  simp [normalizePosition, p2]

/-- **C70** (5): the restriction to one minimization at a time is needed: with two, the same deterministic minimization can give different nodes, depending only
on which one ends first. -/
theorem _root_.NF.C70_parallel_not_reproducible : ∃ (p : CtlParams 1) (R : Minimizer 1) (c c' : Ctl 1), DistinctInput p ∧ p.numMinimizeParallel = 2 ∧
    ReachDet p R (startFrom p none none) c ∧ ReachDet p R (startFrom p none none) c' ∧ c.phase = .returned ∧ c'.phase = .returned ∧
    ∃ r ∈ c.state.result.nodes.values, ∀ r' ∈ c'.state.result.nodes.values, r.pos ≠ r'.pos := by
  have ha : a ∈ e1.tasks := by simp [e1]
  have hb : b ∈ e1.tasks := by simp [e1]
  obtain ⟨c, h1, h2, h3⟩ := run ha hb a_ne_b (fun z hz => by simpa [e1] using hz) (normalize_p2 _)
  obtain ⟨c', h1', h2', h3'⟩ := run hb ha a_ne_b.symm (fun z hz => by simpa [e1, or_comm] using hz) (normalize_p2 _)
  refine ⟨p2, R2, c, c', ⟨?_, by simp [p2]⟩, rfl, h1, h1', h2, h2', ?_⟩
  · simp only [p2, DistinctSimplices, List.pairwise_cons, List.mem_singleton, forall_eq, List.not_mem_nil, false_imp_iff, implies_true,
      List.Pairwise.nil, and_true]
    intro h
    have := List.perm_singleton.1 h
    exact a_ne_b this
  · rw [h3, h3']
    refine ⟨_, List.mem_singleton_self _, ?_⟩
    intro r' hr'
    obtain rfl := List.mem_singleton.1 hr'
    rw [SRes.pos_setPos, SRes.pos_setPos]
    intro h
    have := congrFun h 0
    norm_num [nodeAt, SRes.pos, SRes.main, a, b, pt] at this

end C70Two

end NF
