import Verif.Model.Hdf5

/-! # Reading what has been written -/

noncomputable section
open Classical
namespace NF
variable {d : ℕ}

@[simp] theorem andThen_ok {α β : Type} (a : α) (f : α → Except Err β) : andThen (.ok a) f = f a := rfl
@[simp] theorem andThen_error {α β : Type} (e : Err) (f : α → Except Err β) : andThen (.error e) f = .error e := rfl

theorem andThen_eq_ok {α β : Type} {x : Except Err α} {f : α → Except Err β} {b : β} (h : andThen x f = .ok b) : ∃ a, x = .ok a ∧ f a = .ok b := by
  cases x with
  | error e => cases h
  | ok a => exact ⟨a, rfl, h⟩

theorem collect_map_ok {α R : Type} {f : α → Except Err R} {g : α → R} : ∀ {l : List α}, (∀ x ∈ l, f x = .ok (g x)) → collect (l.map f) = .ok (l.map g) := by
  intro l
  induction l with
  | nil => intro _; rfl
  | cons x l ih =>
    intro h
    rw [List.map_cons, h x (by simp)]
    simp only [collect, ih fun y hy => h y (by simp [hy]), List.map_cons]

theorem collect_map_ok_id {α : Type} {f : α → Except Err α} {l : List α} (h : ∀ x ∈ l, f x = .ok x) : collect (l.map f) = .ok l := by
  rw [collect_map_ok (g := fun x => x) h, List.map_id']

theorem collect_map_eq_ok {α R : Type} {f : α → Except Err R} : ∀ {l : List α} {rs : List R}, collect (l.map f) = .ok rs → List.Forall₂ (fun x r => f x = .ok r) l rs := by
  intro l
  induction l with
  | nil => intro rs h; cases h; exact .nil
  | cons x l ih =>
    intro rs h
    rw [List.map_cons] at h
    cases hx : f x with
    | error e => rw [hx] at h; cases h
    | ok r =>
      rw [hx] at h
      cases hc : collect (l.map f) with
      | error e => simp only [collect, hc] at h; cases h
      | ok rs' =>
        simp only [collect, hc] at h
        cases h
        exact .cons hx (ih hc)

theorem collect_map_of_forall₂ {α β R : Type} {f : β → Except Err R} {S : α → β → Prop} {T : α → R → Prop} (hf : ∀ a b, S a b → ∃ r, f b = .ok r ∧ T a r) :
    ∀ {l : List α} {m : List β}, List.Forall₂ S l m → ∃ rs, collect (m.map f) = .ok rs ∧ List.Forall₂ T l rs := by
  intro l m h
  induction h with
  | nil => exact ⟨[], rfl, .nil⟩
  | cons hab _ ih =>
    obtain ⟨r, hr, ht⟩ := hf _ _ hab
    obtain ⟨rs, hrs, hts⟩ := ih
    exact ⟨r :: rs, by simp only [List.map_cons, hr, collect, hrs], .cons ht hts⟩

/-! ## Arrays -/

@[simp] theorem FVal.toReal_ofReal (x : ℝ) : (FVal.ofReal x).toReal = x := by
  simp [FVal.toReal, FVal.ofReal]

theorem chunks_flatMap {α β : Type} {f : α → List β} {k : ℕ} : ∀ {l : List α}, (∀ a ∈ l, (f a).length = k) → chunks l.length k (l.flatMap f) = l.map f := by
  intro l
  induction l with
  | nil => intro _; rfl
  | cons a l ih =>
    intro h
    have ha := h a (by simp)
    simp only [List.length_cons, chunks, List.flatMap_cons, List.map_cons]
    rw [List.take_append_of_le_length (by omega), List.take_of_length_le (by omega), List.drop_append_of_le_length (by omega), List.drop_eq_nil_of_le (by omega),
      List.nil_append, ih fun x hx => h x (by simp [hx])]

namespace NdArray

/-- the number of entries is that of the shape -/
def WF (a : NdArray) : Prop := a.data.length = a.shape.prod

theorem ofVec_wf (v : Vec d) : WF (ofVec v) := by simp [WF, ofVec]
@[simp] theorem ofVec_shape (v : Vec d) : (ofVec v).shape = [d] := rfl

/-- Arrays of one shape can be stacked, and the rows are what has been stacked. -/
theorem stack_ok {l : List NdArray} {sh : List ℕ} (h : ∀ a ∈ l, a.shape = sh) (hw : ∀ a ∈ l, WF a) :
    ∃ a, stack l = .ok a ∧ a.rows = .ok l ∧ WF a ∧ a.shape = if l = [] then [0] else l.length :: sh := by
  cases l with
  | nil => exact ⟨_, rfl, rfl, rfl, rfl⟩
  | cons a l =>
    have ha := h a (by simp)
    have hs : ∀ b ∈ l, b.shape = a.shape := fun b hb => by rw [ha, h b (by simp [hb])]
    have hlen : ∀ b ∈ a :: l, b.data.length = a.shape.prod := fun b hb => by rw [hw b hb, h b hb, ha]
    refine ⟨⟨(l.length + 1) :: a.shape, (a :: l).flatMap NdArray.data⟩, by simp only [stack]; rw [if_pos hs], ?_, ?_, ?_⟩
    · simp only [rows]
      rw [show l.length + 1 = (a :: l).length from rfl, chunks_flatMap hlen, List.map_map]
      congr 1
      conv_rhs => rw [← List.map_id (a :: l)]
      refine List.map_congr_left fun b hb => ?_
      simp only [Function.comp, id, ha, ← h b hb]
    · simp only [WF, List.length_flatMap, List.prod_cons]
      rw [List.map_congr_left hlen]
      simp
      ring
    · simp [ha]

theorem stack_rows {l : List NdArray} {sh : List ℕ} (h : ∀ a ∈ l, a.shape = sh) (hw : ∀ a ∈ l, WF a) {a : NdArray} (ha : stack l = .ok a) : a.rows = .ok l := by
  obtain ⟨b, hb, h2, -⟩ := stack_ok h hw
  rw [hb] at ha
  cases ha
  exact h2

@[simp] theorem toVec_ofVec (v : Vec d) : toVec d (ofVec v) = .ok v := by
  simp only [toVec, ofVec, if_true]
  congr 1
  funext i
  simp [List.getD_eq_getElem?_getD]

theorem vecs_ok (l : List (Vec d)) : ∃ a, stack (l.map ofVec) = .ok a ∧ a.toVecs d = .ok l ∧ WF a ∧ a.shape = if l = [] then [0] else [l.length, d] := by
  obtain ⟨a, h1, h2, h3, h4⟩ := stack_ok (l := l.map ofVec) (sh := [d]) (by simp) (by
    intro a ha
    obtain ⟨v, -, rfl⟩ := List.mem_map.1 ha
    exact ofVec_wf v)
  refine ⟨a, h1, ?_, h3, by simpa using h4⟩
  simp only [toVecs, h2, List.map_map]
  exact collect_map_ok_id fun v _ => by simp

theorem toFVals_ofFn {n : ℕ} (f : Fin n → FVal) : toFVals n ⟨[n], List.ofFn f⟩ = .ok f := by
  simp only [toFVals, if_true]
  congr 1
  funext i
  simp [List.getD_eq_getElem?_getD]

theorem sim_ok {n : ℕ} (S : Fin n → Vec d) : ∃ a, ofSim S = .ok a ∧ toSim n d a = .ok S ∧ WF a ∧ a.shape = if n = 0 then [0] else [n, d] := by
  obtain ⟨a, h1, h2, h3, h4⟩ := vecs_ok (List.ofFn S)
  refine ⟨a, ?_, ?_, h3, ?_⟩
  · rw [List.map_ofFn] at h1; exact h1
  · simp only [toSim, h2, List.length_ofFn, dite_true]
    congr 1
    funext i
    simp
  · rw [h4]
    simp only [List.ofFn_eq_nil_iff, List.length_ofFn]

end NdArray

/-- Histories are written and read back. -/
theorem history_ok {n : ℕ} (l : List (Fin n → Vec d)) : ∃ a, historyArray l = .ok a ∧ readHistory n (.floats a) = .ok l := by
  choose g hg using fun S : Fin n → Vec d => NdArray.sim_ok S
  have h0 : collect (l.map NdArray.ofSim) = .ok (l.map g) := collect_map_ok fun S _ => (hg S).1
  obtain ⟨a, h1, h2, -⟩ := NdArray.stack_ok (l := l.map g) (sh := if n = 0 then [0] else [n, d]) (by
    intro b hb
    obtain ⟨S, -, rfl⟩ := List.mem_map.1 hb
    exact (hg S).2.2.2) (by
    intro b hb
    obtain ⟨S, -, rfl⟩ := List.mem_map.1 hb
    exact (hg S).2.2.1)
  refine ⟨a, by simp only [historyArray, h0, andThen_ok, h1], ?_⟩
  simp only [readHistory, H5.asFloats, andThen_ok, h2, List.map_map]
  exact collect_map_ok_id fun S _ => (hg S).2.1

theorem funHistory_ok {n : ℕ} (l : List (Fin n → FVal)) : ∃ a, funHistoryArray l = .ok a ∧ readFunHistory n (.floats a) = .ok l := by
  obtain ⟨a, h1, h2, -⟩ := NdArray.stack_ok (l := l.map fun f => ⟨[n], List.ofFn f⟩) (sh := [n]) (by simp) (by
    intro b hb
    obtain ⟨f, -, rfl⟩ := List.mem_map.1 hb
    simp [NdArray.WF])
  refine ⟨a, h1, ?_⟩
  simp only [readFunHistory, H5.asFloats, andThen_ok, h2, List.map_map]
  exact collect_map_ok_id fun f _ => NdArray.toFVals_ofFn f

/-! ## Lists -/

theorem find_idx (l : List H5) : ∀ (k i : ℕ), i < l.length → ((l.zipIdx k).map fun e => (H5Key.idx e.2, e.1)).find? (fun e => decide (e.1 = H5Key.idx (k + i))) = some (H5Key.idx (k + i), l.getD i (.int 0)) := by
  induction l with
  | nil => intro k i hi; simp at hi
  | cons x l ih =>
    intro k i hi
    cases i with
    | zero => simp
    | succ i =>
      have := ih (k + 1) i (by simpa using hi)
      rw [show k + 1 + i = k + (i + 1) from by omega] at this
      rw [List.zipIdx_cons, List.map_cons, List.find?_cons]
      simp only [H5Key.idx.injEq, show (k = k + (i + 1)) = False from by simp, decide_false]
      rw [this]
      simp

@[simp] theorem toList_ofList (l : List H5) : (H5.ofList l).toList = .ok l := by
  have hn : (H5.ofList l).numIdx = l.length := by
    simp only [H5.ofList, H5.tagged, H5.numIdx]
    rw [List.filter_cons_of_neg (by simp), List.filter_eq_self.2]
    · simp
    · intro e he
      obtain ⟨p, -, rfl⟩ := List.mem_map.1 he
      rfl
  simp only [H5.toList, hn]
  rw [collect_map_ok (g := fun i => l.getD i (.int 0))]
  · congr 1
    apply List.ext_getElem <;> simp
    intro i h
    simp [h]
  · intro i hi
    have hi := List.mem_range.1 hi
    have := find_idx l 0 i hi
    simp only [Nat.zero_add] at this
    simp only [H5.get, H5.ofList, H5.tagged]
    rw [List.find?_cons_of_neg (by simp), this]

theorem readList_ofList {α : Type} (f : H5 → Except Err α) (l : List H5) : readList f (.ofList l) = collect (l.map f) := by
  simp [readList]

/-! ## Results of a minimization -/

theorem minRes_ok (r : MinRes d) : ∃ h, r.toH5 = .ok h ∧ MinRes.fromH5 h = .ok r ∧ h.tag = .ok "nodefinder.minimization_result" := by
  obtain ⟨pos, value, ni, nf, st, su, ms, sh, fh⟩ := r
  obtain ⟨a, ha, ha'⟩ := history_ok sh
  cases fh with
  | none =>
    refine ⟨_, by simp only [MinRes.toH5, ha, andThen_ok]; rfl, ?_, ?_⟩
    · simp [MinRes.fromH5, readEntry, H5.entry, H5.get, H5.tagged, H5.fval, H5.has, H5.asFloats, H5.asFVal, H5.asNat, H5.asBool, H5.asStr, ha']
    · simp [H5.tag, H5.entry, H5.get, H5.tagged, H5.asStr]
  | some l =>
    obtain ⟨b, hb, hb'⟩ := funHistory_ok l
    refine ⟨_, by simp only [MinRes.toH5, ha, hb, andThen_ok]; rfl, ?_, ?_⟩
    · simp [MinRes.fromH5, readEntry, H5.entry, H5.get, H5.tagged, H5.fval, H5.has, H5.asFloats, H5.asFVal, H5.asNat, H5.asBool, H5.asStr, ha', hb']
    · simp [H5.tag, H5.entry, H5.get, H5.tagged, H5.asStr]

theorem sres_ok (r : SRes d) : ∃ h, r.toH5 = .ok h ∧ SRes.fromH5 h = .ok r.reload := by
  cases r with
  | plain r =>
    obtain ⟨h, h1, h2, h3⟩ := minRes_ok r
    exact ⟨h, h1, by simp [SRes.fromH5, h3, h2, SRes.reload]⟩
  | joined c a p =>
    obtain ⟨ha, h1, h2, -⟩ := minRes_ok a
    obtain ⟨hc, h3, h4, -⟩ := minRes_ok c
    refine ⟨_, by simp only [SRes.toH5, h1, h3, andThen_ok]; rfl, ?_⟩
    simp [SRes.fromH5, H5.tag, readEntry, H5.entry, H5.get, H5.tagged, H5.asStr, h2, h4, SRes.reload]

/-! ## Coordinate systems -/

theorem coordSys_readable (c : CoordSys d) : ∃ h, c.toH5 = .ok h ∧ CoordSys.fromH5 h = .ok (CoordSys.ofLimits (fun i => (c.lower i, c.upper i)) c.periodic) := by
  obtain ⟨a, h1, h2, -⟩ := NdArray.sim_ok (fun i => ![c.lower i, c.upper i] : Fin d → Vec 2)
  have h1' : NdArray.stack (List.ofFn fun i => NdArray.ofVec ![c.lower i, c.upper i]) = .ok a := h1
  refine ⟨_, by simp only [CoordSys.toH5, h1', andThen_ok]; rfl, ?_⟩
  simp [CoordSys.fromH5, readEntry, H5.entry, H5.get, H5.tagged, H5.asFloats, H5.asBool, h2]

theorem coordSys_ok {c : CoordSys d} (hc : ∀ i, c.lower i ≤ c.upper i) : ∃ h, c.toH5 = .ok h ∧ CoordSys.fromH5 h = .ok c := by
  obtain ⟨h, h1, h2⟩ := coordSys_readable c
  refine ⟨h, h1, h2.trans ?_⟩
  congr 1
  cases c
  simp only [CoordSys.ofLimits]
  congr 1
  · funext i; exact if_pos (hc i)
  · funext i; exact if_pos (hc i)

/-! ## Containers and queues -/

theorem container_ok {c : Container d} (hc : ∀ i, c.coord.lower i ≤ c.coord.upper i) :
    ∃ h, c.toH5 = .ok h ∧ Container.fromH5 h = .ok (Container.create c.coord (c.minimizationResults.map SRes.reload) c.gapThreshold c.distCutoff c.refined.values) := by
  obtain ⟨hcs, h1, h2⟩ := coordSys_ok hc
  choose g hg using fun r : SRes d => sres_ok r
  have h3 : collect (c.minimizationResults.map SRes.toH5) = .ok (c.minimizationResults.map g) := collect_map_ok fun r _ => (hg r).1
  refine ⟨_, by simp only [Container.toH5, h1, h3, andThen_ok]; rfl, ?_⟩
  have h4 : collect ((c.minimizationResults.map g).map SRes.fromH5) = .ok (c.minimizationResults.map SRes.reload) := by
    rw [List.map_map]
    exact collect_map_ok fun r _ => (hg r).2
  have h5 : collect ((c.refined.values.map fun p => H5.floats (NdArray.ofVec p)).map fun x => andThen x.asFloats (NdArray.toVec d)) = .ok c.refined.values := by
    rw [List.map_map]
    exact collect_map_ok_id fun p _ => by simp [H5.asFloats]
  simp [Container.fromH5, readEntry, H5.entry, H5.get, H5.tagged, H5.real, H5.has, H5.asReal, H5.asFVal, h2, readList_ofList, -List.map_map, h4, h5]

theorem simplices_ok {l : List (Simplex d)} {n : ℕ} (hl : ∀ s ∈ l, s.length = n) : ∃ a, simplicesArray l = .ok a ∧ readSimplices a = .ok l := by
  choose g hg using fun s : Simplex d => NdArray.vecs_ok s
  have h0 : collect (l.map fun s => NdArray.stack (s.map NdArray.ofVec)) = .ok (l.map g) := collect_map_ok fun s _ => (hg s).1
  obtain ⟨a, h1, h2, -⟩ := NdArray.stack_ok (l := l.map g) (sh := if n = 0 then [0] else [n, d]) (by
    intro b hb
    obtain ⟨s, hs, rfl⟩ := List.mem_map.1 hb
    rw [(hg s).2.2.2]
    have := hl s hs
    by_cases h : s = []
    · subst h; simp at this; simp [← this]
    · rw [if_neg h, if_neg (by intro h0; rw [h0] at this; exact h (List.length_eq_zero_iff.1 this)), this]) (by
    intro b hb
    obtain ⟨S, -, rfl⟩ := List.mem_map.1 hb
    exact (hg S).2.2.1)
  refine ⟨a, by simp only [simplicesArray, h0, andThen_ok, h1], ?_⟩
  simp only [readSimplices, andThen_ok, h2, List.map_map]
  exact collect_map_ok_id fun s _ => (hg s).2.1

/-- The whole state. -/
theorem ctlState_ok {s : CtlState d} {enum : List (Simplex d)} (hc : ∀ i, s.result.coord.lower i ≤ s.result.coord.upper i) {n : ℕ}
    (hl : ∀ x ∈ s.simplexQueue.objects enum, x.length = n) :
    ∃ h, s.toH5 enum = .ok h ∧ CtlState.fromH5 h = .ok
      ⟨Container.create s.result.coord (s.result.minimizationResults.map SRes.reload) s.result.gapThreshold s.result.distCutoff s.result.refined.values,
        RunQueue.create (normalizeSimplices (s.simplexQueue.objects enum)), ObjQueue.create s.positionQueue.objects⟩ := by
  obtain ⟨hr, h1, h2⟩ := container_ok hc
  obtain ⟨a, h3, h4⟩ := simplices_ok hl
  obtain ⟨b, h5, h6, -⟩ := NdArray.vecs_ok s.positionQueue.objects
  refine ⟨_, by simp only [CtlState.toH5, h1, simplexQueueToH5, h3, positionQueueToH5, h5, andThen_ok]; rfl, ?_⟩
  simp [CtlState.fromH5, simplexQueueFromH5, positionQueueFromH5, readEntry, H5.entry, H5.get, H5.tagged, H5.asFloats, h2, h4, h6]

end NF
