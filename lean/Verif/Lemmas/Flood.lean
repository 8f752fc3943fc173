import Verif.Lemmas.Work

/-! # How much a search without rechecking can do

A result is queued for refinement only if no refined position is near.  So every cell of a grid is refined for the first time at some moment, and what is queued in this cell later on was queued before. -/

noncomputable section
open Classical
namespace NF
open Spec CoordSys Container
variable {d : ℕ}

/-- `1 + S + ... + S ^ (m - 1)` -/
def geo (S m : ℕ) : ℕ := ∑ j ∈ Finset.range m, S ^ j

theorem geo_zero (S : ℕ) : geo S 0 = 0 := rfl

theorem geo_succ (S m : ℕ) : geo S (m + 1) = S * geo S m + 1 := by
  unfold geo
  rw [Finset.sum_range_succ', Finset.mul_sum]
  simp [pow_succ, mul_comm]

theorem geo_mono (S m : ℕ) : geo S m ≤ geo S (m + 1) := by
  unfold geo
  rw [Finset.sum_range_succ]
  exact Nat.le_add_right _ _

section potential
variable {α ι : Type*} (S : ℕ) (cell : α → ι) (T : Finset ι)

/-- the cells of the grid without a refined position -/
def open' (L : List α) : ℕ := (T.filter fun a => ∀ x ∈ L, cell x ≠ a).card

/-- number of elements of `Q` in a cell with (without) an element of `L` -/
def inOld (L Q : List α) : ℕ := Q.countP fun x => decide (∃ y ∈ L, cell y = cell x)
def inNew (L Q : List α) : ℕ := Q.countP fun x => decide (¬ ∃ y ∈ L, cell y = cell x)

/-- an upper bound on the number of refinements to come, given the refined positions `L`, the queued ones `Q` and the number of outstanding simplices -/
def potential (L Q : List α) (u : ℕ) : ℕ :=
  geo S (open' cell T L) * (u + inNew cell L Q) + geo S (open' cell T L + 1) * inOld cell L Q

variable {S cell T}

theorem potential_mono {L Q : List α} {u v : ℕ} (h : u ≤ v) : potential S cell T L Q u ≤ potential S cell T L Q v := by
  unfold potential
  have := Nat.mul_le_mul_left (geo S (open' cell T L)) (Nat.add_le_add_right h (inNew cell L Q))
  omega

theorem potential_drop {L Q : List α} {u : ℕ} (x : α) : potential S cell T L Q u ≤ potential S cell T L (x :: Q) u := by
  unfold potential
  have h1 : inNew cell L Q ≤ inNew cell L (x :: Q) := by unfold inNew; rw [List.countP_cons]; omega
  have h2 : inOld cell L Q ≤ inOld cell L (x :: Q) := by unfold inOld; rw [List.countP_cons]; omega
  gcongr

theorem potential_add {L Q : List α} {u : ℕ} {x : α} (h : ∀ y ∈ L, cell y ≠ cell x) : potential S cell T L (Q ++ [x]) u = potential S cell T L Q (u + 1) := by
  have hn : ¬ ∃ y ∈ L, cell y = cell x := fun ⟨y, hy, e⟩ => h y hy e
  have h1 : inNew cell L (Q ++ [x]) = inNew cell L Q + 1 := by unfold inNew; simp [List.countP_append, hn]
  have h2 : inOld cell L (Q ++ [x]) = inOld cell L Q := by unfold inOld; simp [List.countP_append, hn]
  unfold potential
  rw [h1, h2]
  ring

theorem potential_refine {L Q : List α} {u : ℕ} {x : α} (hx : cell x ∈ T) : potential S cell T (L ++ [x]) Q (u + S) + 1 ≤ potential S cell T L (x :: Q) u := by
  by_cases hold : ∃ y ∈ L, cell y = cell x
  · have e0 : ∀ a, (∀ y ∈ L ++ [x], cell y ≠ a) ↔ ∀ y ∈ L, cell y ≠ a := by
      intro a
      constructor
      · exact fun h y hy => h y (by simp [hy])
      · intro h y hy
        rcases List.mem_append.1 hy with hy | hy
        · exact h y hy
        · rw [List.mem_singleton.1 hy]
          obtain ⟨z, hz, e⟩ := hold
          rw [← e]; exact h z hz
    have e1 : open' cell T (L ++ [x]) = open' cell T L := by
      unfold open'
      simp only [e0]
    have e2 : ∀ z, (∃ y ∈ L ++ [x], cell y = cell z) ↔ ∃ y ∈ L, cell y = cell z := by
      intro z
      have := e0 (cell z)
      constructor
      · intro h
        by_contra hc
        push Not at hc
        obtain ⟨y, hy, e⟩ := h
        exact this.2 hc y hy e
      · rintro ⟨y, hy, e⟩; exact ⟨y, by simp [hy], e⟩
    have e3 : inNew cell (L ++ [x]) Q = inNew cell L Q := by unfold inNew; simp only [e2]
    have e4 : inOld cell (L ++ [x]) Q = inOld cell L Q := by unfold inOld; simp only [e2]
    have e5 : inNew cell L (x :: Q) = inNew cell L Q := by unfold inNew; rw [List.countP_cons]; simp [hold]
    have e6 : inOld cell L (x :: Q) = inOld cell L Q + 1 := by unfold inOld; rw [List.countP_cons]; simp [hold]
    unfold potential
    rw [e1, e3, e4, e5, e6, geo_succ]
    apply le_of_eq
    ring
  · have e1 : open' cell T L = open' cell T (L ++ [x]) + 1 := by
      unfold open'
      rw [← Finset.card_insert_of_notMem (a := cell x) (by simp)]
      congr 1
      ext a
      simp only [Finset.mem_filter, Finset.mem_insert]
      constructor
      · rintro ⟨h1, h2⟩
        by_cases e : a = cell x
        · exact .inl e
        · refine .inr ⟨h1, fun y hy => ?_⟩
          rcases List.mem_append.1 hy with hy | hy
          · exact h2 y hy
          · rw [List.mem_singleton.1 hy]; exact fun h => e h.symm
      · rintro (rfl | ⟨h1, h2⟩)
        · exact ⟨hx, fun y hy e => hold ⟨y, hy, e⟩⟩
        · exact ⟨h1, fun y hy => h2 y (by simp [hy])⟩
    -- the elements of `Q` in the cell that has become old
    obtain ⟨k, h1, h2⟩ : ∃ k, inNew cell L Q = inNew cell (L ++ [x]) Q + k ∧ inOld cell (L ++ [x]) Q = inOld cell L Q + k := by
      refine ⟨Q.countP fun z => decide (cell z = cell x), ?_, ?_⟩
      · induction Q with
        | nil => simp [inNew]
        | cons z Q ih =>
          simp only [inNew, List.countP_cons, List.mem_append, List.mem_singleton, or_and_right, exists_or, exists_eq_left] at ih ⊢
          by_cases c1 : cell z = cell x
          · have c2 : ¬ ∃ y ∈ L, cell y = cell z := by rw [c1]; exact hold
            simp [c1, hold] at ih ⊢
            omega
          · have c3 : ¬ cell x = cell z := fun h => c1 h.symm
            simp [c1, c3] at ih ⊢
            omega
      · induction Q with
        | nil => simp [inOld]
        | cons z Q ih =>
          simp only [inOld, List.countP_cons, List.mem_append, List.mem_singleton, or_and_right, exists_or, exists_eq_left] at ih ⊢
          by_cases c1 : cell z = cell x
          · have c2 : ¬ ∃ y ∈ L, cell y = cell z := by rw [c1]; exact hold
            simp [c1, hold] at ih ⊢
            omega
          · have c3 : ¬ cell x = cell z := fun h => c1 h.symm
            simp [c1, c3] at ih ⊢
            omega
    have e5 : inNew cell L (x :: Q) = inNew cell L Q + 1 := by unfold inNew; rw [List.countP_cons]; simp [hold]
    have e6 : inOld cell L (x :: Q) = inOld cell L Q := by unfold inOld; rw [List.countP_cons]; simp [hold]
    unfold potential
    rw [e1, e5, e6, h1, h2]
    set m := open' cell T (L ++ [x])
    set n := inNew cell (L ++ [x]) Q
    set o := inOld cell L Q
    have g1 := geo_mono S m
    have g2 := geo_mono S (m + 1)
    have g3 := geo_succ S m
    calc geo S m * (u + S + n) + geo S (m + 1) * (o + k) + 1
        = geo S m * (u + n) + geo S (m + 1) * o + geo S (m + 1) * k + (S * geo S m + 1) := by ring
      _ = geo S m * (u + n) + geo S (m + 1) * o + geo S (m + 1) * k + geo S (m + 1) := by rw [← g3]
      _ ≤ geo S (m + 1) * (u + n) + geo S (m + 1 + 1) * o + geo S (m + 1) * k + geo S (m + 1) := by gcongr
      _ = geo S (m + 1) * (u + (n + k + 1)) + geo S (m + 1 + 1) * o := by ring

end potential

/-- the container that is made from a save file -/
def savedResult (p : CtlParams d) (sv : Saved d) : Container d := Container.create p.coord sv.results p.gapThreshold p.distCutoff sv.refined

/-- the positions in `L` are those of nodes of `res` -/
def OfNodes (res : Container d) (L : List (Vec d)) : Prop := ∀ x ∈ L, ∃ r ∈ res.nodes.values, r.pos = x

theorem OfNodes.mono {res res' : Container d} {L : List (Vec d)} (h : OfNodes res L) (hn : ∀ r ∈ res.nodes.values, r ∈ res'.nodes.values) :
    OfNodes res' L := fun x hx => by
  obtain ⟨r, hr, e⟩ := h x hx
  exact ⟨r, hn r hr, e⟩

theorem addResult_nodes (c : Container d) (r : SRes d) : ∀ x ∈ c.nodes.values, x ∈ (c.addResult r).1.nodes.values := by
  intro x hx
  rw [addResult_def]
  split
  · simp only [CellList.values, CellList.addPoint] at hx ⊢
    exact List.mem_append_left _ hx
  · exact hx

theorem addResult_node_mem {c : Container d} {r : SRes d} (h : (c.addResult r).2 = true) :
    ∃ x ∈ (c.addResult r).1.nodes.values, x.pos = c.coord.normalizePosition r.pos := by
  rw [addResult_def] at h ⊢
  split at h
  · rename_i hn
    rw [if_pos hn]
    refine ⟨stored c.coord r, ?_, by simp [stored]⟩
    simp [CellList.values, CellList.addPoint]
  · cases h

/-- what is refined or queued are positions of nodes -/
def Centres (p : CtlParams d) (c : Ctl d) : Prop :=
  OfNodes c.state.result (c.state.result.refined.flat ++ c.state.positionQueue.queued) ∧
      ∀ sv, c.disk = some sv → OfNodes (savedResult p sv) (sv.refined ++ sv.positions)

theorem elem_centres {p : CtlParams d} (hb : ProperBox p.coord) : Elem p (fun c => Good p c ∧ HistInv p c) (Centres p) := by
  refine Elem.and ⟨?_, ?_, ?_, ?_, ?_, ?_⟩ (elem_disk fun c enum hg he => ?_)
  · intro c c' hg hP hs
    obtain ⟨-, ⟨x, rest, hq, -, rfl⟩ | ⟨x, rest, hq, -, rfl⟩ | ⟨pos, rest, st, hq, hpq, hck, hst, rfl⟩ |
      ⟨pos, rest, hq, hpq, -, -, rfl⟩⟩ := fillStep_next hs
    · exact hP
    · exact hP
    · rw [hpq] at hP
      intro x hx
      obtain ⟨r, hr, e⟩ := hP x (by simpa [Container.setRefined, CellList.addPoint] using hx)
      exact ⟨r, hr, e⟩
    · rw [hpq] at hP
      intro x hx
      refine hP x ?_
      rcases List.mem_append.1 hx with hx | hx
      · exact List.mem_append_left _ hx
      · exact List.mem_append_right _ (List.mem_cons_of_mem _ hx)
  · intro c e c' hg hP hs
    obtain ⟨-, -, pos, rest, hpq, rfl⟩ := fillStep_raise hs
    rw [hpq] at hP
    intro x hx
    refine hP x ?_
    rcases List.mem_append.1 hx with hx | hx
    · exact List.mem_append_left _ hx
    · exact List.mem_append_right _ (List.mem_cons_of_mem _ hx)
  · intro c s r hg hP hs hr
    have hrun : s ∈ c.state.simplexQueue.running := (hg.1.1.run s).1 (List.mem_append_left _ hs)
    rw [taskDone_of_mem r hrun]
    obtain ⟨h1, -, h3⟩ := processResult_cases p c.state r
    simp only
    rw [h1, (addResult_refined _ _).1]
    have hP' := hP.mono (addResult_nodes c.state.result r)
    rcases h3 with ⟨h0, -, -, h4⟩ | ⟨h4, -⟩
    · rw [h4]
      rcases objAddObjects c.state.positionQueue (p.coord.normalizePosition r.pos) with ⟨-, h5⟩ | ⟨-, h5⟩
      · rw [h5]; exact hP'
      · rw [h5]
        intro x hx
        simp only at hx
        rw [← List.append_assoc] at hx
        rcases List.mem_append.1 hx with hx | hx
        · exact hP' x hx
        · obtain rfl := List.mem_singleton.1 hx
          rw [← hg.1.1.cont.coord]
          exact addResult_node_mem h0
    · rw [h4]; exact hP'
  · intro c s id hg hP hs; exact hP
  · intro c enum hg hP he
    have := doSave_same p c enum
    unfold OfNodes
    rw [this.2.2.2.2.2.2.1, this.2.2.2.2.2.2.2.1, this.2.2.2.2.2.2.2.2.1]
    exact hP
  · intro c ph hg hP; exact hP
  · have hrec := recreate hb hg.1.2.1
    have e : (savedResult p (c.state.snapshot enum)).nodes.values = c.state.result.nodes.values := hrec.1
    intro x hx
    rw [e]
    exact hg.2 x hx
theorem centres_start (p : CtlParams d) : Centres p (startFresh p) := ⟨fun x hx => (by cases hx), by simp [startFresh, startFrom]⟩

theorem centres_restart {p : CtlParams d} {c : Ctl d} (hP : Centres p c) : Centres p (restart p c) := by
  refine ⟨?_, hP.2⟩
  unfold restart
  cases hdk : c.disk with
  | none => exact fun x hx => by cases hx
  | some sv =>
    have := hP.2 sv hdk
    have e : (startFrom p (some sv) (some sv)).state.result.refined.flat = sv.refined :=
      (create_contents p.coord sv.results p.gapThreshold p.distCutoff sv.refined).2.2
    rw [e]
    exact this


theorem ofNodes_reach {p : CtlParams d} (hd : DistinctInput p) (hb : ProperBox p.coord) {c : Ctl d} (h : Reach p c) : Centres p c :=
  reach_of_elem hd (elem_centres hb) (centres_start p) (fun _ _ _ hP => centres_restart hP) h


/-- a partition of the region `Reg` into finitely many cells whose points are near each other -/
structure Cells {ι : Type} (p : CtlParams d) (Reg : Vec d → Prop) (cell : Vec d → ι) (T : Finset ι) : Prop where
  mem : ∀ x, Reg x → cell x ∈ T
  close : ∀ x y, Reg x → Reg y → cell x = cell y → p.coord.distance x y < p.distCutoff

/-- refinements made and still to come, as long as all nodes are in the region -/
def Flood {ι : Type} (p : CtlParams d) (Reg : Vec d → Prop) (cell : Vec d → ι) (T : Finset ι) (K : ℕ) (c : Ctl d) : Prop :=
  (∀ r ∈ c.state.result.nodes.values, Reg r.pos) →
    c.state.result.refined.flat.length + potential (stencilSize p) cell T c.state.result.refined.flat c.state.positionQueue.queued (outstanding c).length ≤ K

/-- what passes the check for refinement at the end of a minimization is not near a refined position -/
theorem check_zero_far {p : CtlParams d} (hg : GoodGeometry p) {res : Container d} (h : res.Inv p.coord p.gapThreshold p.distCutoff) {x : Vec d}
    (hc : checkPosRefinement p res x 0 = true) : ∀ q ∈ res.refined.flat, ¬ p.coord.distance x q < p.distCutoff := by
  intro q hq hlt
  have h1 := near_count_le h hg.1 (goodGeometry_dc hg) (goodGeometry_sz hg) x
  have h2 : ¬ (checkPosRefinement p res x 0 = false) := by simp [hc]
  rw [checkPos_eq_false_iff] at h2
  have h3 : 0 < (res.refined.flat.filter fun q => decide (p.coord.distance x q < p.distCutoff)).length :=
    List.length_pos_of_mem (List.mem_filter.2 ⟨hq, decide_eq_true hlt⟩)
  have h4 : 0 < ((res.refinedNeighbourDistances x).filter fun y => decide (y < p.distCutoff)).length := by omega
  refine h2 ⟨fun e => ?_, by exact_mod_cast h4⟩
  rw [e] at h4
  simp at h4

theorem elem_flood {ι : Type} {p : CtlParams d} (hg : GoodGeometry p) {Reg : Vec d → Prop} {cell : Vec d → ι} {T : Finset ι} (hC : Cells p Reg cell T) {K : ℕ} :
    Elem p (fun c => (Good p c ∧ HistInv p c) ∧ Centres p c) (Flood p Reg cell T K) where
  fill := by
    rintro c c' ⟨hG, hN⟩ h hs hreg
    obtain ⟨-, ⟨x, rest, hq, -, rfl⟩ | ⟨x, rest, hq, -, rfl⟩ | ⟨pos, rest, st, hq, hpq, hck, hst, rfl⟩ |
        ⟨pos, rest, hq, hpq, -, -, rfl⟩⟩ := fillStep_next hs
    · have h1 := h hreg
      refine le_trans (Nat.add_le_add_left (potential_mono ?_) _) h1
      simp only [outstanding, hq, List.length_append, List.length_cons, List.length_nil, RunQueue.popTo_queued, List.length_map]
      omega
    · have h1 := h hreg
      refine le_trans (Nat.add_le_add_left (potential_mono ?_) _) h1
      simp only [outstanding, hq, List.length_append, List.length_cons, RunQueue.popTo_queued, RunQueue.finishOf_queued, List.length_map]
      omega
    · have h1 := h hreg
      rw [hpq] at h1
      have hx : cell pos ∈ T := by
        obtain ⟨r, hr, e⟩ := hN.1 pos (List.mem_append_right _ (by rw [hpq]; simp))
        exact hC.mem pos (e ▸ hreg r hr)
      have h2 := potential_refine (S := stencilSize p) (L := c.state.result.refined.flat) (Q := rest) (u := (outstanding c).length) hx
      have hl := addObjects_length c.state.simplexQueue (normalizeSimplices (translateStencil pos st))
      rw [length_normalizeSimplices, translateStencil, List.length_map] at hl
      have hS : stencilSize p = st.length := by simp [stencilSize, hst]
      change (c.state.result.refined.flat ++ [pos]).length + potential (stencilSize p) cell T (c.state.result.refined.flat ++ [pos]) rest _ ≤ K
      refine le_trans (Nat.add_le_add_left (potential_mono (v := (outstanding c).length + stencilSize p) ?_) _) ?_
      · simp only [outstanding, List.length_append, List.length_map, hS, translateStencil] at hl ⊢
        omega
      · rw [List.length_append, List.length_singleton]
        omega
    · have h1 := h hreg
      rw [hpq] at h1
      exact le_trans (Nat.add_le_add_left (potential_drop pos) _) h1
  raise := by
    rintro c e c' hG h hs hreg
    obtain ⟨-, -, pos, rest, hpq, rfl⟩ := fillStep_raise hs
    have h1 := h hreg
    rw [hpq] at h1
    exact le_trans (Nat.add_le_add_left (potential_drop pos) _) h1
  done := by
    rintro c s r ⟨hG, hN⟩ h hs hr
    have hrun : s ∈ c.state.simplexQueue.running := (hG.1.1.run s).1 (List.mem_append_left _ hs)
    rw [taskDone_of_mem r hrun]
    obtain ⟨g1, -, g3⟩ := processResult_cases p c.state r
    have hlen := List.length_erase_of_mem hs
    have hpos : 0 < c.tasks.length := List.length_pos_of_mem hs
    intro hreg
    simp only at hreg ⊢
    rw [g1] at hreg ⊢
    rw [(addResult_refined _ _).1]
    have h1 := h fun r' hr' => hreg r' (addResult_nodes _ _ r' hr')
    rcases g3 with ⟨g0, -, g2, g4⟩ | ⟨g4, -⟩
    · rw [g4]
      rcases objAddObjects c.state.positionQueue (p.coord.normalizePosition r.pos) with ⟨-, h5⟩ | ⟨-, h5⟩ <;> rw [h5]
      · refine le_trans (Nat.add_le_add_left (potential_mono ?_) _) h1
        simp only [outstanding, List.length_append, List.length_map, RunQueue.finishOf_queued, hlen]
        omega
      · simp only
        rw [potential_add]
        · refine le_trans (Nat.add_le_add_left (potential_mono ?_) _) h1
          simp only [outstanding, List.length_append, List.length_map, RunQueue.finishOf_queued, hlen]
          omega
        · intro q hq e
          have hfar := check_zero_far hg (hG.1.1.cont.addResult r) g2 q (by rw [(addResult_refined _ _).1]; exact hq)
          obtain ⟨r1, hr1, e1⟩ := addResult_node_mem g0
          rw [hG.1.1.cont.coord] at e1
          obtain ⟨r2, hr2, e2⟩ := hN.1 q (List.mem_append_left _ hq)
          refine hfar (hC.close _ _ (e1 ▸ hreg r1 hr1) ?_ e.symm)
          rw [← e2]
          exact hreg r2 (addResult_nodes _ _ r2 hr2)
    · rw [g4]
      refine le_trans (Nat.add_le_add_left (potential_mono ?_) _) h1
      simp only [outstanding, List.length_append, List.length_map, RunQueue.finishOf_queued, hlen]
      omega
  fail := by
    rintro c s id hG h hs hreg
    have hlen := List.length_erase_of_mem hs
    have hpos : 0 < c.tasks.length := List.length_pos_of_mem hs
    refine le_trans (Nat.add_le_add_left (potential_mono ?_) _) (h hreg)
    simp only [outstanding, taskFail, List.length_append, List.length_cons, List.length_nil, List.length_map, hlen]
    omega
  save := by
    intro c enum hG hP he
    rcases doSave_eq p c enum with ⟨-, -, e⟩ | ⟨-, e⟩ <;> rw [e] <;> exact hP
  phase := fun c ph hG hP => hP

/-- the same for a save file -/
def FloodSaved {ι : Type} (p : CtlParams d) (Reg : Vec d → Prop) (cell : Vec d → ι) (T : Finset ι) (K : ℕ) (sv : Saved d) : Prop :=
  (∀ r ∈ (savedResult p sv).nodes.values, Reg r.pos) → sv.refined.length + potential (stencilSize p) cell T sv.refined sv.positions sv.simplices.length ≤ K

theorem open_nil {α ι : Type*} (cell : α → ι) (T : Finset ι) : open' cell T [] = T.card := by simp [open']

/-- **The bound for searches without rechecking**, over all sessions -/
theorem flood_reach {ι : Type} {p : CtlParams d} (hd : DistinctInput p) (hg : GoodGeometry p) {Reg : Vec d → Prop} {cell : Vec d → ι} {T : Finset ι} (hC : Cells p Reg cell T)
    (hforce : p.forceInitialMesh = false) {c : Ctl d} (h : Reach p c) : Flood p Reg cell T (geo (stencilSize p) T.card * p.mesh.length) c := by
  have key : Centres p c ∧ Flood p Reg cell T (geo (stencilSize p) T.card * p.mesh.length) c ∧
      ∀ sv, c.disk = some sv → FloodSaved p Reg cell T (geo (stencilSize p) T.card * p.mesh.length) sv := by
    refine reach_of_elem hd (P := fun c => Centres p c ∧ Flood p Reg cell T (geo (stencilSize p) T.card * p.mesh.length) c ∧
      ∀ sv, c.disk = some sv → FloodSaved p Reg cell T (geo (stencilSize p) T.card * p.mesh.length) sv) ?_ ?_ ?_ h
    · refine (elem_centres hg.1).and ((elem_flood hg hC).and (elem_disk fun c enum hG he => ?_))
      obtain ⟨⟨hG1, hN⟩, hF⟩ := hG
      intro hreg
      have hrec := recreate hg.1 hG1.2.1
      have e : (savedResult p (c.state.snapshot enum)).nodes.values = c.state.result.nodes.values := hrec.1
      rw [e] at hreg
      refine le_trans (Nat.add_le_add_left (potential_mono ?_) _) (hF hreg)
      have e1 : enum.length = (c.tasks ++ c.failed.map Prod.fst).length := by
        apply List.Perm.length_eq
        have nd := (List.nodup_append.1 (List.nodup_append.1 hG1.1.1.nodup).2.1).1
        rw [List.perm_ext_iff_of_nodup he.1 nd]
        intro s; rw [he.2, hG1.1.1.run]
      change (enum ++ c.state.simplexQueue.base.queued).length ≤ _
      simp only [outstanding, List.length_append] at e1 ⊢
      omega
    · refine ⟨centres_start p, fun _ => ?_, by simp [startFresh, startFrom]⟩
      have e1 : (startFresh p).state.result.refined.flat = [] := (create_contents p.coord [] p.gapThreshold p.distCutoff []).2.2
      have e2 : (startFresh p).state.positionQueue.queued = [] := rfl
      have e3 : (outstanding (startFresh p)).length = p.mesh.length := by
        simp [startFresh, startFrom, createStateFrom, outstanding, RunQueue.create, ObjQueue.create, length_normalizeSimplices]
      rw [e1, e2, e3]
      simp [potential, inNew, inOld, open_nil]
    · intro c hG hH hP
      refine ⟨centres_restart hP.1, ?_, hP.2.2⟩
      unfold restart
      cases hdk : c.disk with
      | none =>
        intro _
        have e1 : (startFrom p none none).state.result.refined.flat = [] := (create_contents p.coord [] p.gapThreshold p.distCutoff []).2.2
        have e2 : (startFrom p none none).state.positionQueue.queued = [] := rfl
        have e3 : (outstanding (startFrom p none none)).length = p.mesh.length := by
          simp [startFrom, createStateFrom, outstanding, RunQueue.create, ObjQueue.create, length_normalizeSimplices]
        rw [e1, e2, e3]
        simp [potential, inNew, inOld, open_nil]
      | some sv =>
        intro hreg
        have h1 := hP.2.2 sv hdk hreg
        have e1 : (startFrom p (some sv) (some sv)).state.result.refined.flat = sv.refined :=
          (create_contents p.coord sv.results p.gapThreshold p.distCutoff sv.refined).2.2
        have e2 : (startFrom p (some sv) (some sv)).state.positionQueue.queued = sv.positions := rfl
        have e3 : (outstanding (startFrom p (some sv) (some sv))).length = sv.simplices.length := by
          simp [startFrom, createStateFrom, outstanding, RunQueue.create, ObjQueue.create, length_normalizeSimplices, hforce]
        rw [e1, e2, e3]
        exact h1
  exact key.2.1

/-- from any state on, without crashes, only boundedly many refinements follow -/
theorem flood_from {ι : Type} {p : CtlParams d} (hd : DistinctInput p) (hg : GoodGeometry p) {Reg : Vec d → Prop} {cell : Vec d → ι} {T : Finset ι} (hC : Cells p Reg cell T)
    {f : ℕ → Ctl d} (h0 : Reach p (f 0)) (hstep : ∀ n, Step p (f n) (f (n + 1))) : ∃ K, ∀ n, Flood p Reg cell T K (f n) := by
  refine ⟨(f 0).state.result.refined.flat.length +
      potential (stencilSize p) cell T (f 0).state.result.refined.flat (f 0).state.positionQueue.queued (outstanding (f 0)).length, fun n => ?_⟩
  have e1 : Elem p (fun _ => True) (fun c => ((Good p c ∧ HistInv p c) ∧ Centres p c) ∧ Flood p Reg cell T ((f 0).state.result.refined.flat.length +
      potential (stencilSize p) cell T (f 0).state.result.refined.flat (f 0).state.positionQueue.queued (outstanding (f 0)).length) c) :=
    (((elem_good hd).and (elem_hist.mono fun _ _ => trivial)).and ((elem_centres hg.1).mono fun c h => h.2)).and ((elem_flood hg hC).mono fun c h => h.2)
  have : ((Good p (f n) ∧ HistInv p (f n)) ∧ Centres p (f n)) ∧ Flood p Reg cell T ((f 0).state.result.refined.flat.length +
      potential (stencilSize p) cell T (f 0).state.result.refined.flat (f 0).state.positionQueue.queued (outstanding (f 0)).length) (f n) := by
    induction n with
    | zero => exact ⟨⟨⟨good_reach hd h0, hist_reach h0⟩, ofNodes_reach hd hg.1 h0⟩, fun _ => le_rfl⟩
    | succ n ih => exact e1.step ih (hstep n)
  exact this.2

end NF
