import Verif.Lemmas.Elem
import Verif.Lemmas.Spread

/-! # Invariants about refinement centres -/

noncomputable section
open Classical
namespace NF
open Spec CoordSys Container
variable {d : ℕ}

theorem reach_of_elem {p : CtlParams d} (hd : DistinctInput p) {P : Ctl d → Prop}
    (he : Elem p (fun c => Good p c ∧ HistInv p c) P) (h0 : P (startFresh p))
    (hcrash : ∀ c, Good p c → HistInv p c → P c → P (restart p c)) {c : Ctl d} (h : Reach p c) : P c := by
  have e1 : Elem p (fun _ => True) (fun c => (Good p c ∧ HistInv p c) ∧ P c) :=
    ((elem_good hd).and (elem_hist.mono fun _ _ => trivial)).and (he.mono fun c h => h.2)
  have := Reach.induction (P := fun c => (Good p c ∧ HistInv p c) ∧ P c) (p := p) ?_ (fun c c' h hs => e1.step h hs) ?_ h
  · exact this.2
  · exact ⟨⟨⟨acct_start hd none none (by simp), by simp [startFresh, startFrom]⟩,
      hist_start p none none (by simp), by simp [startFresh, startFrom]⟩, h0⟩
  · rintro c ⟨⟨hg, hh⟩, hP⟩
    exact ⟨⟨⟨acct_start hd c.disk c.disk hg.2, hg.2⟩, hist_start p c.disk c.disk hh.2, hh.2⟩, hcrash c hg hh hP⟩

/-- a property of the refined and queued positions (and of what the file says about them) that is preserved when a position is moved from the queue to the
refined ones after having been checked, or dropped, or added to the queue after a minimization -/
theorem reach_positions {p : CtlParams d} (hd : DistinctInput p) {P : List (Vec d) → List (Vec d) → Prop}
    (h0 : P [] [])
    (hrefine : ∀ res : Container d, res.Inv p.coord p.gapThreshold p.distCutoff → ∀ x xs, P res.refined.flat (x :: xs) →
      (p.recheckPosDist = false ∨ checkPosRefinement p res x p.recheckCountCutoff = true) → P (res.refined.flat ++ [x]) xs)
    (hdrop : ∀ L x xs, P L (x :: xs) → P L xs)
    (hadd : ∀ L xs x, P L xs → P L (xs ++ [p.coord.normalizePosition x])) {c : Ctl d} (h : Reach p c) :
    P c.state.result.refined.flat c.state.positionQueue.queued ∧ ∀ sv, c.disk = some sv → P sv.refined sv.positions := by
  refine reach_of_elem hd (P := fun c => P c.state.result.refined.flat c.state.positionQueue.queued ∧
    ∀ sv, c.disk = some sv → P sv.refined sv.positions) ?_ ?_ ?_ h
  · refine Elem.and ⟨?_, ?_, ?_, ?_, ?_, ?_⟩ (elem_disk fun c enum hg he => hg.2)
    · intro c c' hg hP hs
      obtain ⟨-, ⟨x, rest, hq, -, rfl⟩ | ⟨x, rest, hq, -, rfl⟩ | ⟨pos, rest, st, hq, hpq, hck, hst, rfl⟩ |
        ⟨pos, rest, hq, hpq, -, -, rfl⟩⟩ := fillStep_next hs
      · exact hP
      · exact hP
      · rw [hpq] at hP
        exact hrefine _ hg.1.1.cont pos rest hP hck
      · rw [hpq] at hP
        exact hdrop _ pos rest hP
    · intro c e c' hg hP hs
      obtain ⟨-, -, pos, rest, hpq, rfl⟩ := fillStep_raise hs
      rw [hpq] at hP
      exact hdrop _ pos rest hP
    · intro c s r hg hP hs hr
      have hrun : s ∈ c.state.simplexQueue.running := (hg.1.1.run s).1 (List.mem_append_left _ hs)
      rw [taskDone_of_mem r hrun]
      obtain ⟨h1, -, h3⟩ := processResult_cases p c.state r
      simp only
      rw [h1, (addResult_refined _ _).1]
      rcases h3 with ⟨-, -, -, h4⟩ | ⟨h4, -⟩
      · rw [h4]
        rcases objAddObjects c.state.positionQueue (p.coord.normalizePosition r.pos) with ⟨-, h5⟩ | ⟨-, h5⟩
        · rw [h5]; exact hP
        · rw [h5]; exact hadd _ _ _ hP
      · rw [h4]; exact hP
    · intro c s id hg hP hs; exact hP
    · intro c enum hg hP he
      have := doSave_same p c enum
      rw [this.2.2.2.2.2.2.1, this.2.2.2.2.2.2.2.1]
      exact hP
    · intro c ph hg hP; exact hP
  · exact ⟨h0, by simp [startFresh, startFrom]⟩
  · intro c hg hh hP
    refine ⟨?_, hP.2⟩
    unfold restart
    cases hdk : c.disk with
    | none => exact h0
    | some sv =>
      have := hP.2 sv hdk
      have e : (startFrom p (some sv) (some sv)).state.result.refined.flat = sv.refined :=
        (create_contents p.coord sv.results p.gapThreshold p.distCutoff sv.refined).2.2
      rw [e]
      exact this

theorem reach_spread {p : CtlParams d} (hd : DistinctInput p) (hg : GoodGeometry p) (hr : p.recheckPosDist = true) {c : Ctl d}
    (h : Reach p c) : SpreadList p.coord p.distCutoff p.recheckCountCutoff.toNat c.state.result.refined.flat := by
  refine (reach_positions hd (P := fun L _ => SpreadList p.coord p.distCutoff p.recheckCountCutoff.toNat L)
    (SpreadList.nil _ _ _) ?_ (fun L x xs h => h) (fun L xs x h => h) h).1
  intro res hinv x xs hL hck
  apply hL.snoc
  rcases hck with hck | hck
  · rw [hr] at hck; cases hck
  · have h1 := near_count_le hinv hg.1 (goodGeometry_dc hg) (goodGeometry_sz hg) x
    have h2 : ¬ (checkPosRefinement p res x p.recheckCountCutoff = false) := by simp [hck]
    rw [checkPos_eq_false_iff] at h2
    by_cases hemp : res.refinedNeighbourDistances x = []
    · rw [hemp] at h1; simp only [List.filter_nil, List.length_nil] at h1; omega
    · have h3 : ¬ (p.recheckCountCutoff < ((res.refinedNeighbourDistances x).filter fun y => decide (y < p.distCutoff)).length) :=
        fun h => h2 ⟨hemp, h⟩
      omega

theorem reach_inBox {p : CtlParams d} (hd : DistinctInput p) (hb : ProperBox p.coord) (hp : p.coord.periodic = true) {c : Ctl d}
    (h : Reach p c) : ∀ x ∈ c.state.result.refined.flat ++ c.state.positionQueue.queued, InBox p.coord x := by
  refine (reach_positions hd (P := fun L xs => ∀ x ∈ L ++ xs, InBox p.coord x) (by simp) ?_ ?_ ?_ h).1
  · intro res _ x xs h _ y hy
    apply h y
    simpa using hy
  · intro L x xs h y hy
    apply h y
    rcases List.mem_append.1 hy with hy | hy
    · exact List.mem_append_left _ hy
    · exact List.mem_append_right _ (List.mem_cons_of_mem _ hy)
  · intro L xs x h y hy
    rw [← List.append_assoc] at hy
    rcases List.mem_append.1 hy with hy | hy
    · exact h y hy
    · rw [List.mem_singleton.1 hy]
      exact (C02_normalize_periodic p.coord hb hp x).1

theorem distance_self {cs : CoordSys d} (hb : ProperBox cs) (x : Vec d) : cs.distance x x = 0 := by
  rw [(C03_distance_metric cs hb x x x).2.2.2]
  unfold SamePoint
  split
  · exact ⟨fun _ => 0, by funext i; simp [shift]⟩
  · rfl

/-! ## coverage -/

/-- closer than the cutoff to a refined position -/
def Covered (p : CtlParams d) (L : List (Vec d)) (x : Vec d) : Prop := ∃ q ∈ L, p.coord.distance x q < p.distCutoff

theorem Covered.mono {p : CtlParams d} {L L' : List (Vec d)} {x : Vec d} (h : Covered p L x) (hL : ∀ q ∈ L, q ∈ L') : Covered p L' x := by
  obtain ⟨q, hq, hd⟩ := h
  exact ⟨q, hL q hq, hd⟩

theorem covered_of_check {p : CtlParams d} {res : Container d} {g dc : ℝ} (hinv : res.Inv p.coord g dc) {x : Vec d}
    {cut : ℤ} (hc : 0 ≤ cut) (h : checkPosRefinement p res x cut = false) : Covered p res.refined.flat x := by
  rw [checkPos_eq_false_iff] at h
  have hpos : 0 < ((res.refinedNeighbourDistances x).filter fun y => decide (y < p.distCutoff)).length := by omega
  obtain ⟨y, hy⟩ := List.exists_mem_of_length_pos hpos
  obtain ⟨hy1, hy2⟩ := List.mem_filter.1 hy
  obtain ⟨q, hq, rfl⟩ := distances_are_of_refined hinv x hy1
  exact ⟨q, hq, by simpa using hy2⟩

/-- every node is covered or queued -/
def NodesOK (p : CtlParams d) (res : Container d) (xs : List (Vec d)) : Prop :=
  ∀ r ∈ res.nodes.values, Covered p res.refined.flat r.pos ∨ r.pos ∈ xs

def CovInv (p : CtlParams d) (c : Ctl d) : Prop :=
  NodesOK p c.state.result c.state.positionQueue.queued ∧
  ∀ x ∈ c.state.positionQueue.all, Covered p c.state.result.refined.flat x ∨ x ∈ c.state.positionQueue.queued

theorem elem_cov {p : CtlParams d} (hg : GoodGeometry p) (hst : p.stencil.isSome = true)
    (hrc : p.recheckPosDist = false ∨ 0 ≤ p.recheckCountCutoff) :
    Elem p (fun c => Good p c ∧ HistInv p c) (CovInv p) where
  fill := by
    intro c c' hG hP hs
    obtain ⟨-, ⟨x, rest, hq, -, rfl⟩ | ⟨x, rest, hq, -, rfl⟩ | ⟨pos, rest, st, hq, hpq, hck, hst, rfl⟩ |
        ⟨pos, rest, hq, hpq, hrp, hck, rfl⟩⟩ := fillStep_next hs
    · exact hP
    · exact hP
    · have key : ∀ x, (Covered p c.state.result.refined.flat x ∨ x ∈ pos :: rest) →
          (Covered p (c.state.result.refined.flat ++ [pos]) x ∨ x ∈ rest) := by
        rintro x (h | h)
        · exact Or.inl (h.mono fun q hq => List.mem_append_left _ hq)
        · rcases List.mem_cons.1 h with rfl | h
          · exact Or.inl ⟨x, by simp, by rw [distance_self hg.1]; exact goodGeometry_dc hg⟩
          · exact Or.inr h
      rw [CovInv, NodesOK, hpq] at hP
      exact ⟨fun r hr => key _ (hP.1 r hr), fun x hx => key _ (hP.2 x hx)⟩
    · have hcov : Covered p c.state.result.refined.flat pos := by
        rcases hrc with h | h
        · rw [hrp] at h; cases h
        · exact covered_of_check hG.1.1.cont h hck
      have key : ∀ x, (Covered p c.state.result.refined.flat x ∨ x ∈ pos :: rest) →
          (Covered p c.state.result.refined.flat x ∨ x ∈ rest) := by
        rintro x (h | h)
        · exact Or.inl h
        · rcases List.mem_cons.1 h with rfl | h
          · exact Or.inl hcov
          · exact Or.inr h
      rw [CovInv, NodesOK, hpq] at hP
      exact ⟨fun r hr => key _ (hP.1 r hr), fun x hx => key _ (hP.2 x hx)⟩
  raise := by
    intro c e c' hG hP hs
    obtain ⟨-, hn, -⟩ := fillStep_raise hs
    rw [hn] at hst; cases hst
  done := by
    intro c s r hG hP hs hr
    have hrun : s ∈ c.state.simplexQueue.running := (hG.1.1.run s).1 (List.mem_append_left _ hs)
    rw [taskDone_of_mem r hrun]
    obtain ⟨h1, -, h3⟩ := processResult_cases p c.state r
    have hinv := hG.1.1.cont
    have hinv' := hinv.addResult r
    have hflat := (addResult_refined c.state.result r).1
    have hnodes : ∀ x ∈ (c.state.result.addResult r).1.nodes.values, x ∈ c.state.result.nodes.values ∨
        ((c.state.result.addResult r).2 = true ∧ x.pos = p.coord.normalizePosition r.pos) := by
      intro x hx
      rw [addResult_def] at hx ⊢
      split
      · rename_i hnode
        rw [if_pos hnode] at hx
        simp only [CellList.values, CellList.addPoint, List.mem_append, List.mem_singleton] at hx
        rcases hx with hx | hx
        · exact Or.inl hx
        · right; rw [hx]; simp [stored, hinv.coord]
      · rename_i hnode
        rw [if_neg hnode] at hx
        exact Or.inl hx
    have hold : ∀ {x}, Covered p c.state.result.refined.flat x → Covered p (c.state.result.addResult r).1.refined.flat x := by
      intro x hx; rw [hflat]; exact hx
    refine ⟨?_, ?_⟩
    · intro x hx
      simp only [h1] at hx ⊢
      rcases hnodes x hx with hx | ⟨hadd, hx⟩
      · rcases hP.1 x hx with h | h
        · exact Or.inl (hold h)
        · right
          rcases h3 with ⟨-, -, -, h4⟩ | ⟨h4, -⟩
          · rw [h4]
            rcases objAddObjects c.state.positionQueue (p.coord.normalizePosition r.pos) with ⟨-, h5⟩ | ⟨-, h5⟩
            · rw [h5]; exact h
            · rw [h5]; exact List.mem_append_left _ h
          · rw [h4]; exact h
      · rw [hx]
        rcases h3 with ⟨-, -, -, h4⟩ | ⟨-, h4⟩
        · rw [h4]
          rcases objAddObjects c.state.positionQueue (p.coord.normalizePosition r.pos) with ⟨h6, h5⟩ | ⟨-, h5⟩
          · rw [h5]
            rcases hP.2 _ h6 with h | h
            · exact Or.inl (hold h)
            · exact Or.inr h
          · rw [h5]; exact Or.inr (by simp)
        · exact Or.inl (covered_of_check hinv' le_rfl (h4 hadd hst))
    · intro x hx
      simp only [h1] at hx ⊢
      rcases h3 with ⟨-, -, -, h4⟩ | ⟨h4, -⟩
      · rw [h4] at hx ⊢
        rcases objAddObjects c.state.positionQueue (p.coord.normalizePosition r.pos) with ⟨-, h5⟩ | ⟨-, h5⟩
        · rw [h5] at hx ⊢
          exact (hP.2 x hx).imp hold id
        · rw [h5] at hx ⊢
          rcases hx with hx | hx
          · exact (hP.2 x hx).imp hold fun h => List.mem_append_left _ h
          · exact Or.inr (List.mem_append_right _ hx)
      · rw [h4] at hx ⊢
        exact (hP.2 x hx).imp hold id
  fail := fun c s id hG hP hs => hP
  save := by
    intro c enum hG hP he
    have := doSave_same p c enum
    rcases doSave_eq p c enum with ⟨-, -, e⟩ | ⟨-, e⟩ <;> rw [e] <;> exact hP
  phase := fun c ph hG hP => hP

theorem reach_cov {p : CtlParams d} (hd : DistinctInput p) (hg : GoodGeometry p) (hst : p.stencil.isSome = true)
    (hrc : p.recheckPosDist = false ∨ 0 ≤ p.recheckCountCutoff) {c : Ctl d} (h : Reach p c) : CovInv p c := by
  have hstart : ∀ sv disk, NodesOK p (Container.create p.coord sv.results p.gapThreshold p.distCutoff sv.refined) sv.positions →
      CovInv p (startFrom p disk (some sv)) := fun sv disk h => ⟨h, fun x hx => Or.inr hx⟩
  refine (reach_of_elem hd (P := fun c => CovInv p c ∧ ∀ sv, c.disk = some sv →
    NodesOK p (Container.create p.coord sv.results p.gapThreshold p.distCutoff sv.refined) sv.positions) ?_ ?_ ?_ h).1
  · refine (elem_cov hg hst hrc).and (elem_disk ?_)
    rintro c enum ⟨⟨-, hh⟩, hc⟩ -
    have hrec := recreate hg.1 hh.1
    simp only at hrec
    intro r hr
    simp only [CtlState.snapshot] at hr ⊢
    rw [hrec.1] at hr
    rw [hrec.2.2.1]
    exact hc.1 r hr
  · refine ⟨⟨?_, ?_⟩, by simp [startFresh, startFrom]⟩
    · intro r hr
      have : (startFresh p).state.result.nodes.values = [] :=
        (create_contents p.coord [] p.gapThreshold p.distCutoff []).1
      rw [this] at hr; cases hr
    · intro x hx; exact Or.inr hx
  · intro c _ _ hP
    refine ⟨?_, hP.2⟩
    unfold restart
    cases hdk : c.disk with
    | none =>
      refine ⟨?_, fun x hx => Or.inr hx⟩
      intro r hr
      have : (startFresh p).state.result.nodes.values = [] :=
        (create_contents p.coord [] p.gapThreshold p.distCutoff []).1
      have hr : r ∈ (startFresh p).state.result.nodes.values := hr
      rw [this] at hr; cases hr
    | some sv => exact hstart sv _ (hP.2 sv hdk)

end NF
