import Verif.Lemmas.Hdf5
import Verif.Spec.Hdf5
import Verif.Props.Shape
import Verif.Props.Identify
import Verif.Props.Restart
import Verif.Props.Volume

/-! # Saving and loading (C76, C77) -/

noncomputable section
open Classical
namespace NF
open Spec CoordSys Container
variable {d : ℕ}

/-! ## Search results -/

/-- **C76.**  A result of a minimization that has not been stored yet (or is no two-step result) is read back as it is, with all its attributes. -/
theorem C76_result {r : SRes d} (hf : FreshResult r) : ∃ h, r.toH5 = .ok h ∧ SRes.fromH5 h = .ok r := by
  obtain ⟨h, h1, h2⟩ := sres_ok r
  refine ⟨h, h1, ?_⟩
  rw [h2]
  cases r with
  | plain r => rfl
  | joined c a p => rw [show p = none from hf]; rfl

/-- Any result is read back with the same attributes, except that a two-step result has the position of its second run (not normalized). -/
theorem C76_result_attributes (r : SRes d) : ∃ h r', r.toH5 = .ok h ∧ SRes.fromH5 h = .ok r' ∧ r'.value = r.value ∧ r'.success = r.success ∧ r'.status = r.status ∧
    r'.numFev = r.numFev ∧ r'.numIter = r.numIter ∧ r'.simplexHistory = r.simplexHistory ∧ r'.funHistory = r.funHistory ∧ r'.pos = r.main.pos := by
  obtain ⟨h, h1, h2⟩ := sres_ok r
  refine ⟨h, r.reload, h1, h2, ?_⟩
  cases r <;> exact ⟨rfl, rfl, rfl, rfl, rfl, rfl, rfl, rfl⟩

theorem container_contents {p : CtlParams d} (hb : ProperBox p.coord) {c : Ctl d} (h : Reach p c) :
    SameContents c.state.result
      (Container.create c.state.result.coord (c.state.result.minimizationResults.map SRes.reload) c.state.result.gapThreshold c.state.result.distCutoff c.state.result.refined.values) := by
  have hh := (hist_reach h).1
  have hrec := recreate hb hh
  simp only at hrec
  obtain ⟨ops, h1, -⟩ := hh
  obtain ⟨f1, f2, f3, -⟩ := h1.fields
  have i1 := (Inv.history p.coord p.gapThreshold p.distCutoff ops)
  have g1 : c.state.result.coord = p.coord := f1.trans i1.coord
  have g2 : c.state.result.gapThreshold = p.gapThreshold := f2.trans i1.gap
  have g3 : c.state.result.distCutoff = p.distCutoff := f3.trans i1.dist
  rw [g1, g2, g3]
  have i2 := Inv.create (cs := p.coord) (g := p.gapThreshold) (dc := p.distCutoff) (c.state.result.minimizationResults.map SRes.reload) c.state.result.refined.values
  exact ⟨i2.coord.trans g1.symm, i2.gap.trans g2.symm, i2.dist.trans g3.symm, hrec.1, hrec.2.1, congrArg CellList.values hrec.2.2.1⟩

theorem stored_reload {cs : CoordSys d} (hb : ProperBox cs) {r0 : SRes d} (hf : FreshRes r0) (c : Container d) (hc : c.coord = cs) :
    c.addResult (stored cs r0).reload = c.addResult (stored cs r0) := by
  cases r0 with
  | plain m => rfl
  | joined ch an pa =>
    have e : pa = none := hf ch an pa rfl
    subst e
    simp [Container.addResult, stored, SRes.setPos, SRes.reload, SRes.pos, SRes.success, SRes.value, SRes.main, hc, normalize_idem hb]

theorem foldl_addResult_reload {cs : CoordSys d} (hb : ProperBox cs) : ∀ {l : List (SRes d)} {c : Container d}, c.coord = cs → (∀ r ∈ l, ∃ r0, FreshRes r0 ∧ r = stored cs r0) →
    (l.map SRes.reload).foldl (fun c r => (c.addResult r).1) c = l.foldl (fun c r => (c.addResult r).1) c := by
  intro l
  induction l with
  | nil => intro c _ _; rfl
  | cons r l ih =>
    intro c hc h
    obtain ⟨r0, h0, rfl⟩ := h r (by simp)
    simp only [List.map_cons, List.foldl_cons]
    rw [stored_reload hb h0 c hc]
    exact ih (by rw [addResult_def]; split <;> exact hc) fun r hr => h r (by simp [hr])

/-- **C76.**  The result of a search, saved with `io.save` and loaded with `io.load`, at any moment of the search: the same nodes, rejected results and refined positions in the same order, and
the same settings. -/
theorem C76_container {p : CtlParams d} (hb : ProperBox p.coord) {c : Ctl d} (h : Reach p c) :
    ∃ f r, c.state.result.toH5 = .ok f ∧ Container.fromH5 f = .ok r ∧ SameContents c.state.result r := by
  have hs := container_contents hb h
  obtain ⟨ops, h1, -⟩ := (hist_reach h).1
  have g1 : c.state.result.coord = p.coord := h1.fields.1.trans (Inv.history p.coord p.gapThreshold p.distCutoff ops).coord
  obtain ⟨f, h2, h3⟩ := container_ok (c := c.state.result) fun i => by rw [g1]; exact (hb i).le
  exact ⟨f, _, h2, h3, hs⟩

/-- All simplices of a search have the number of vertices of those of the mesh and the stencil. -/
theorem vertexCount_reach {p : CtlParams d} {n : ℕ} (hn : VertexCount p n) {c : Ctl d} (h : Reach p c) : SimpInv (fun s => s.length = n) c := by
  have hw : ReachWith p (fun _ _ => True) c := by
    induction h with
    | start => exact .start
    | tail _ hs ih => exact .tail ih hs fun _ _ _ => trivial
  refine (simpInv_reach (Q := fun s => s.length = n) (fun s hs => ?_) hn.1 (fun st hst pos s hs => ?_) hw).1
  · rw [(normalizeSimplex_perm s).length_eq]; exact hs
  · obtain ⟨t, ht, rfl⟩ := List.mem_map.1 hs
    simpa using hn.2 st hst t ht

/-- The simplices of the mesh and the default stencil have `dim + 1` vertices, so do those of a given stencil of the documented shape. -/
theorem C76_vertexCount {a : SearchArgs d} {p : CtlParams d} {P : NMParams} (hset : setup a = .ok (p, P)) {n : ℤ} (hm : a.initialMeshSize = .inl n)
    (hl : ∀ i, (a.limits i).1 ≠ (a.limits i).2) (hs : ∀ st, a.refinementStencil = .given st → ∀ s ∈ st, s.length = d + 1) : VertexCount p (d + 1) := by
  obtain ⟨-, -, -, -, -, -, -, -, -, -, hgiven, hauto, hnone, hmesh⟩ := C71_settings hset
  constructor
  · intro s hs
    rw [hmesh n hm] at hs
    exact ((C46_mesh_size_and_position (properBox_setup hset hl) _).2 s hs).1
  · intro st hst s hs'
    cases hr : a.refinementStencil with
    | none => rw [hnone.2 hr] at hst; cases hst
    | auto =>
      rw [hauto hr] at hst
      obtain rfl := Option.some.inj hst
      obtain ⟨t, ht, rfl⟩ := List.mem_map.1 hs'
      simpa using (C50_auto d).2 t ht
    | given st0 =>
      rw [hgiven st0 hr] at hst
      obtain rfl := Option.some.inj hst
      obtain ⟨t, ht, rfl⟩ := List.mem_map.1 hs'
      simpa using hs st0 hr t ht

/-- **C76.**  Saving the state of a search works, at any moment of the search, and loading gives the same contents of the container, the same queued positions, and the running simplices followed by
the queued ones, all of them queued. -/
theorem C76_state {p : CtlParams d} (hd : DistinctInput p) (hb : ProperBox p.coord) {n : ℕ} (hn : VertexCount p n) {c : Ctl d} (h : Reach p c)
    {enum : List (Simplex d)} (he : IsEnum enum c.state.simplexQueue.running) :
    ∃ f s, c.state.toH5 enum = .ok f ∧ CtlState.fromH5 f = .ok s ∧ SameContents c.state.result s.result ∧
      s.simplexQueue.base.queued = enum ++ c.state.simplexQueue.base.queued ∧ s.simplexQueue.running = ∅ ∧ s.positionQueue.queued = c.state.positionQueue.queued := by
  have hs := container_contents hb h
  obtain ⟨ops, h1, -⟩ := (hist_reach h).1
  have g1 : c.state.result.coord = p.coord := h1.fields.1.trans (Inv.history p.coord p.gapThreshold p.distCutoff ops).coord
  have hi := vertexCount_reach hn h
  have hok := snapshot_ok (good_reach hd h).1 he
  obtain ⟨f, h2, h3⟩ := ctlState_ok (s := c.state) (enum := enum) (n := n) (fun i => by rw [g1]; exact (hb i).le) (by
    intro x hx
    rcases List.mem_append.1 hx with hx | hx
    · exact hi.running x ((he.2 x).1 hx)
    · exact hi.queued x hx)
  refine ⟨f, _, h2, h3, hs, ?_, rfl, rfl⟩
  exact normalizeSimplices_of_norm hok.norm

/-- **C76.**  A search that goes on from the file of an earlier search starts exactly from the state that the model of the search assumes (`CtlState.snapshot`); the other settings of the search may be
different ones, as long as the box is the same. -/
theorem C76_restart {p : CtlParams d} (hd : DistinctInput p) (hb : ProperBox p.coord) {n : ℕ} (hn : VertexCount p n) {c : Ctl d} (h : Reach p c)
    {enum : List (Simplex d)} (he : IsEnum enum c.state.simplexQueue.running) (p' : CtlParams d) (hp : p'.coord = p.coord) :
    ∃ f s, c.state.toH5 enum = .ok f ∧ CtlState.fromH5 f = .ok s ∧ createStateFrom p' (some s.toSaved) = createStateFrom p' (some (c.state.snapshot enum)) := by
  obtain ⟨f, s, h1, h2, h3, h4, h5, h6⟩ := C76_state hd hb hn h he
  refine ⟨f, s, h1, h2, ?_⟩
  obtain ⟨ops, k1, k2⟩ := (hist_reach h).1
  obtain ⟨f1, f2, f3, f4, f5, f6⟩ := k1.fields
  have hstored : ∀ r ∈ c.state.result.minimizationResults, ∃ r0, FreshRes r0 ∧ r = stored p.coord r0 := by
    intro r hr
    have : r ∈ (history p.coord p.gapThreshold p.distCutoff ops).minimizationResults := by
      simpa only [Container.minimizationResults, f4, f5] using hr
    have := (C12_minimization_results_complete p.coord p.gapThreshold p.distCutoff ops).mem_iff.1 this
    obtain ⟨r0, hr0, rfl⟩ := List.mem_map.1 this
    exact ⟨r0, k2 r0 hr0, rfl⟩
  have hres : s.result.minimizationResults = c.state.result.minimizationResults := by
    simp only [Container.minimizationResults, h3.nodes, h3.rejected]
  have e : Container.create p'.coord s.result.minimizationResults p'.gapThreshold p'.distCutoff s.result.refined.values =
      Container.create p'.coord (c.state.result.minimizationResults.map SRes.reload) p'.gapThreshold p'.distCutoff c.state.result.refined.values := by
    unfold Container.create
    rw [foldl_addResult_reload hb hp hstored, hres, h3.refined]
  have e2 : s.toSaved.simplices = (c.state.snapshot enum).simplices := h4
  have e3 : s.toSaved.positions = (c.state.snapshot enum).positions := h6
  simp only [createStateFrom]
  rw [e2, e3]
  congr 1

theorem stack_shapes {l : List NdArray} {a : NdArray} (h : NdArray.stack l = .ok a) : ∀ x ∈ l, ∀ y ∈ l, x.shape = y.shape := by
  cases l with
  | nil => simp
  | cons b l =>
    simp only [NdArray.stack] at h
    split at h
    · rename_i hs
      have : ∀ x ∈ b :: l, x.shape = b.shape := by
        intro x hx
        rcases List.mem_cons.1 hx with rfl | hx
        · rfl
        · exact hs x hx
      intro x hx y hy
      rw [this x hx, this y hy]
    · cases h

theorem simplices_shapes {l : List (Simplex d)} {a : NdArray} (h : simplicesArray l = .ok a) : ∀ x ∈ l, ∀ y ∈ l, x.length = y.length := by
  obtain ⟨m, h1, h2⟩ := andThen_eq_ok h
  have h3 := collect_map_eq_ok h1
  have hsh : ∀ x ∈ l, ∃ b ∈ m, b.shape = if x = [] then [0] else [x.length, d] := by
    intro x hx
    obtain ⟨b, hb, e⟩ := forall₂_mem_left h3 hx
    obtain ⟨b', e', -, -, e2⟩ := NdArray.vecs_ok x
    rw [e'] at e
    cases e
    exact ⟨b, hb, e2⟩
  intro x hx y hy
  obtain ⟨b, hb, e1⟩ := hsh x hx
  obtain ⟨c, hc, e2⟩ := hsh y hy
  have := stack_shapes h2 b hb c hc
  rw [e1, e2] at this
  by_cases hx0 : x = [] <;> by_cases hy0 : y = [] <;> simp [hx0, hy0] at this ⊢
  exact this

/-- With simplices of different numbers of vertices (from a stencil that does not fit) the state cannot be saved. -/
theorem C76_ragged (s : CtlState d) {enum : List (Simplex d)} {x y : Simplex d} (hx : x ∈ s.simplexQueue.objects enum) (hy : y ∈ s.simplexQueue.objects enum)
    (hxy : x.length ≠ y.length) : ∃ e, s.toH5 enum = .error e := by
  cases h : s.toH5 enum with
  | error e => exact ⟨e, rfl⟩
  | ok f =>
    obtain ⟨r, -, h⟩ := andThen_eq_ok h
    obtain ⟨q, h1, -⟩ := andThen_eq_ok h
    obtain ⟨a, h2, -⟩ := andThen_eq_ok h1
    exact absurd (simplices_shapes h2 x hx y hy) hxy

/-! ## Results of the identification -/

theorem edges_ok (es : List (Vec d × Vec d)) : ∃ l a, collect (es.map fun e => NdArray.stack [NdArray.ofVec e.1, NdArray.ofVec e.2]) = .ok l ∧ NdArray.stack l = .ok a ∧
    andThen a.rows (fun l => collect (l.map readEdge)) = .ok es := by
  choose g hg using fun e : Vec d × Vec d => NdArray.vecs_ok [e.1, e.2]
  have h0 : collect (es.map fun e => NdArray.stack [NdArray.ofVec e.1, NdArray.ofVec e.2]) = .ok (es.map g) := collect_map_ok fun e _ => (hg e).1
  obtain ⟨a, h1, h2, -⟩ := NdArray.stack_ok (l := es.map g) (sh := [2, d]) (by
    intro b hb
    obtain ⟨s, hs, rfl⟩ := List.mem_map.1 hb
    rw [(hg s).2.2.2]
    simp) (by
    intro b hb
    obtain ⟨S, -, rfl⟩ := List.mem_map.1 hb
    exact (hg S).2.2.1)
  refine ⟨_, a, h0, h1, ?_⟩
  simp only [h2, andThen_ok, List.map_map]
  exact collect_map_ok_id fun e _ => by simp only [Function.comp, readEdge, (hg e).2.1, andThen_ok]

theorem counter_ok (c : Counter) : readCounter (counterH5 c) = .ok c := by
  simp only [readCounter, counterH5, readEntry, H5.entry, H5.get, H5.tagged]
  rw [List.find?_cons_of_neg (by simp), List.find?_cons_of_pos (by simp)]
  simp only [readList_ofList, List.map_map]
  exact collect_map_ok_id fun e _ => by simp [readEntry, H5.entry, H5.get, H5.asInt, H5.asNat]

theorem savedLine_ok (s : SavedLine (Vec d)) : ∃ h, s.toH5 = .ok h ∧ SavedLine.fromH5 h = .ok s ∧ h.tag = .ok "nodefinder.nodal_line" := by
  obtain ⟨ns, es, dc⟩ := s
  obtain ⟨a, h1, h2, -⟩ := NdArray.vecs_ok ns
  cases es with
  | none =>
    refine ⟨_, by simp only [SavedLine.toH5, h1, andThen_ok]; rfl, ?_, ?_⟩
    · simp [SavedLine.fromH5, readEntry, H5.entry, H5.get, H5.tagged, H5.has, H5.asFloats, h2, counter_ok]
    · simp [H5.tag, H5.entry, H5.get, H5.tagged, H5.asStr]
  | some es =>
    obtain ⟨l, b, h3, h4, h5⟩ := edges_ok es
    obtain ⟨l2, h6, h7⟩ := andThen_eq_ok h5
    refine ⟨_, by simp only [SavedLine.toH5, h1, h3, h4, andThen_ok]; rfl, ?_, ?_⟩
    · simp [SavedLine.fromH5, readEntry, H5.entry, H5.get, H5.tagged, H5.has, H5.asFloats, h2, counter_ok, h6, h7]
    · simp [H5.tag, H5.entry, H5.get, H5.tagged, H5.asStr]

theorem shape_ok {s : Option (Shape d)} (hg : ∀ l, s = some (.line l) → GoodGraph l.graph) {h : H5} (hs : ShapeToH5 s h) : ∃ s', readShape h = .ok s' ∧ SameObjectShape s s' := by
  cases hs with
  | none => exact ⟨none, by simp [readShape, h5None, H5.tag, H5.entry, H5.get, H5.tagged, H5.asStr], .none⟩
  | point p => exact ⟨some (.point p), by simp [readShape, readEntry, H5.tag, H5.entry, H5.get, H5.tagged, H5.asStr, H5.asFloats], .point p⟩
  | @line l s h h1 h2 =>
    obtain ⟨h', e1, e2, e3⟩ := savedLine_ok s
    rw [e1] at h2
    cases h2
    obtain ⟨r1, r2, -, r4, r5⟩ := C64_line_roundtrip (hg l rfl) h1
    exact ⟨some (.line (lineFromHdf5 s)), by simp [readShape, e2, e3], .line ⟨r1, r2, r4, r5⟩⟩

theorem shape_readable {s : Option (Shape d)} {h : H5} (hs : ShapeToH5 s h) : ∃ s' : Option (Shape d), readShape h = .ok s' := by
  cases hs with
  | none => exact ⟨none, by simp [readShape, h5None, H5.tag, H5.entry, H5.get, H5.tagged, H5.asStr]⟩
  | point p => exact ⟨some (.point p), by simp [readShape, readEntry, H5.tag, H5.entry, H5.get, H5.tagged, H5.asStr, H5.asFloats]⟩
  | @line l s h h1 h2 =>
    obtain ⟨h', e1, e2, e3⟩ := savedLine_ok s
    rw [e1] at h2
    cases h2
    exact ⟨some (.line (lineFromHdf5 s)), by simp [readShape, e2, e3]⟩

theorem shape_writable (s : Option (Shape d)) : ∃ h, ShapeToH5 s h := by
  match s with
  | none => exact ⟨_, .none⟩
  | some (.point p) => exact ⟨_, .point p⟩
  | some (.line l) =>
    by_cases he : l.graph.edges = []
    · obtain ⟨h, h1, -⟩ := savedLine_ok ⟨l.graph.nodes, none, l.degreeCount⟩
      exact ⟨h, .line (.noEdges he (.refl _)) h1⟩
    · obtain ⟨h, h1, -⟩ := savedLine_ok ⟨l.graph.nodes, some (l.graph.edges.map fun e => (e.1, e.2.1)), l.degreeCount⟩
      exact ⟨h, .line (.edges he ⟨l.graph.edges, .refl _, by
        rw [List.forall₂_map_right_iff]
        exact List.forall₂_same.2 fun e _ => .inl rfl⟩ (.refl _)) h1⟩

theorem idResult_ok {r : IdResult d} (hg : ∀ l, r.shape = some (.line l) → GoodGraph l.graph) {h : H5} (hr : IdResultToH5 r h) :
    ∃ r', IdResult.fromH5 .attribute h = .ok r' ∧ SameIdResult r r' := by
  cases hr with
  | @mk hs a h1 h2 =>
    obtain ⟨s', e1, e2⟩ := shape_ok hg h1
    obtain ⟨b, e3, e4, -⟩ := NdArray.vecs_ok r.positions
    rw [e3] at h2
    cases h2
    refine ⟨⟨r.positions, r.dimension, s'⟩, ?_, ⟨rfl, rfl, e2⟩⟩
    cases hd : r.dimension <;>
      simp [IdResult.fromH5, dimensionEntry, readDimension, unitItemInt, dimensionH5, h5None, readEntry, H5.tag, H5.entry, H5.get, H5.tagged, H5.asStr, H5.asFloats, H5.asInt, e1, e4]

/-- **C77.**  The result of the identification can always be saved, and (with an `h5py` that raises an AttributeError when a group is indexed with `()`) it is read back with the same coordinate system,
feature size, and results in the same order, with the same positions, dimensions and shapes. -/
theorem C77_roundtrip {cs : CoordSys d} (hb : ProperBox cs) {fs : ℝ} (hfs : 0 < fs) {positions : List (Vec d)} {method : String} {out : IdContainer d}
    (h : RunFromPositions positions cs fs method (.ok out)) :
    (∃ f, IdContainerToH5 out f) ∧ ∀ f, IdContainerToH5 out f →
      ∃ out', IdContainer.fromH5 .attribute f = .ok out' ∧ out'.coord = out.coord ∧ out'.featureSize = out.featureSize ∧ List.Forall₂ SameIdResult out.results out'.results := by
  have hid := C65_results hb hfs h
  have hgood : ∀ r ∈ out.results, ∀ l, r.shape = some (.line l) → GoodGraph l.graph := by
    intro r hr l hl
    by_cases h0 : r.dimension = some 0
    · obtain ⟨p, hp, -⟩ := hid.point r hr h0
      rw [hp] at hl; cases hl
    · by_cases h1 : r.dimension = some 1
      · obtain ⟨l', e, ht⟩ := hid.line r hr h1 _ hl
        cases e
        exact ht.simple
      · rw [hid.other r hr h0 h1] at hl; cases hl
  obtain ⟨hcs, c1, c2⟩ := coordSys_ok (c := out.coord) fun i => by rw [hid.coord]; exact (hb i).le
  constructor
  · have : ∃ rs, List.Forall₂ IdResultToH5 out.results rs := by
      generalize out.results = l
      induction l with
      | nil => exact ⟨[], .nil⟩
      | cons r l ih =>
        obtain ⟨rs, hrs⟩ := ih
        obtain ⟨hs, h1⟩ := shape_writable r.shape
        obtain ⟨a, h2, -⟩ := NdArray.vecs_ok r.positions
        exact ⟨_, .cons (.mk h1 h2) hrs⟩
    obtain ⟨rs, hrs⟩ := this
    exact ⟨_, .mk c1 hrs⟩
  · intro f hf
    cases hf with
    | @mk cs' rs h1 h2 =>
      rw [c1] at h1
      cases h1
      have h2' : List.Forall₂ (fun r h => r ∈ out.results ∧ IdResultToH5 r h) out.results rs := by
        have : List.Forall₂ (fun r h => r ∈ out.results) out.results rs := by
          rw [List.forall₂_iff_get]
          exact ⟨h2.length_eq, fun i h _ => List.get_mem _ _⟩
        rw [List.forall₂_iff_get] at h2 this ⊢
        exact ⟨h2.1, fun i h h' => ⟨this.2 i h h', h2.2 i h h'⟩⟩
      obtain ⟨rs', e1, e2⟩ := collect_map_of_forall₂ (f := IdResult.fromH5 .attribute) (T := SameIdResult) (fun r h hr => idResult_ok (hgood r hr.1) hr.2) h2'
      refine ⟨⟨out.coord, out.featureSize, rs'⟩, ?_, rfl, rfl, e2⟩
      simp [IdContainer.fromH5, readEntry, H5.entry, H5.get, H5.tagged, H5.real, H5.asReal, H5.asFVal, c2, readList_ofList, e1]

/-- **C77**, a limitation: with an `h5py` that raises another exception in this case (version 3 raises a TypeError), a result of the identification that is not empty is saved without complaint, but can never be
loaded again. -/
theorem C77_other_h5py {e : Err} (he : e ≠ .attribute) {out : IdContainer d} (hne : out.results ≠ []) {f : H5} (hf : IdContainerToH5 out f) :
    IdContainer.fromH5 (d := d) e f = .error e := by
  cases hf with
  | @mk cs' rs h1 h2 =>
    obtain ⟨h, c1, c2⟩ := coordSys_readable out.coord
    rw [c1] at h1
    cases h1
    have : collect (rs.map (IdResult.fromH5 (d := d) e)) = .error e := by
      generalize out.results = os at h2 hne
      cases h2 with
      | nil => exact absurd rfl hne
      | @cons r f l l' hrf _ =>
        have hr : IdResult.fromH5 (d := d) e f = .error e := by
          cases hrf with
          | @mk hs a h1 h2 =>
            obtain ⟨s', hs'⟩ := shape_readable h1
            cases hd : r.dimension <;>
              simp [IdResult.fromH5, dimensionEntry, unitItemInt, dimensionH5, h5None, readEntry, H5.entry, H5.get, H5.tagged, hs', he]
        simp [List.map_cons, hr, collect]
    simp [IdContainer.fromH5, readEntry, H5.entry, H5.get, H5.tagged, c2, readList_ofList, this]

/-! ## The hypotheses can be met -/

theorem vertexCount_demo : VertexCount Demo.params 2 := by
  constructor
  · intro s hs; simp [Demo.params] at hs; simp [hs]
  · intro st hst s hs
    simp only [Demo.params, Option.some.injEq] at hst
    subst hst
    simp only [List.mem_singleton] at hs
    simp [hs]

/-- A state of the demonstration search with a node, a refined position and a running simplex. -/
example : ∃ enum f s, IsEnum enum Demo.c3.state.simplexQueue.running ∧ Demo.c3.state.toH5 enum = .ok f ∧ CtlState.fromH5 f = .ok s ∧
    SameContents Demo.c3.state.result s.result ∧ Demo.t ∈ s.simplexQueue.base.queued := by
  have he : IsEnum Demo.c3.state.simplexQueue.running.toList Demo.c3.state.simplexQueue.running := ⟨Finset.nodup_toList _, fun x => Finset.mem_toList⟩
  obtain ⟨f, s, h1, h2, h3, h4, -, -⟩ := C76_state Demo.distinct Demo.geometry.1 vertexCount_demo Demo.reach3 he
  refine ⟨_, f, s, he, h1, h2, h3, ?_⟩
  rw [h4]
  refine List.mem_append_left _ (Finset.mem_toList.2 ?_)
  change Demo.t ∈ ((Demo.c2.state.simplexQueue.addObjects [Demo.t]).popTo Demo.t []).running
  simp

/-- The default search meets the condition on the number of vertices. -/
example : ∃ p P, setup SearchArgs.defaults = .ok (p, P) ∧ VertexCount p 4 := by
  obtain ⟨p, P, c, h, -⟩ := C71Demo.default_reach
  exact ⟨p, P, h, C76_vertexCount h (n := 10) rfl (by intro i; simp [SearchArgs.defaults]) (by intro st h; simp [SearchArgs.defaults] at h)⟩

/-- A queue with simplices of different size. -/
example : ∃ e, ({ Demo.c0.state with simplexQueue := RunQueue.create [[fun _ => 0], [fun _ => 0, fun _ => 1]] } : CtlState 1).toH5 [] = .error e :=
  C76_ragged _ (x := [fun _ => 0]) (y := [fun _ => 0, fun _ => 1]) (by simp [RunQueue.objects, RunQueue.create, ObjQueue.objects, ObjQueue.create]) (by simp [RunQueue.objects, RunQueue.create, ObjQueue.objects, ObjQueue.create]) (by simp)

/-- `1`, `1.5`, `2` and `9` in the interval `[0, 10]`, with `feature_size = 0.6`: identified, saved and loaded; and not loaded with the newer `h5py`. -/
example : ∃ (out : IdContainer 1) (f : H5) (out' : IdContainer 1), RunFromPositions [![1], ![1.5], ![2], (![9] : Vec 1)] exBox 0.6 "ballistic" (.ok out) ∧ IdContainerToH5 out f ∧
    IdContainer.fromH5 .attribute f = .ok out' ∧ out'.results ≠ [] ∧ IdContainer.fromH5 (d := 1) .type f = .error .type := by
  obtain ⟨⟨r, hr⟩, h2⟩ := C65_never_raises exBox_proper (fs := 0.6) (by norm_num) [![1], ![1.5], ![2], (![9] : Vec 1)] (.inl rfl)
  obtain ⟨out, rfl, -⟩ := h2 r hr
  obtain ⟨⟨f, hf⟩, h3⟩ := C77_roundtrip exBox_proper (by norm_num) hr
  obtain ⟨out', h4, -, -, h5⟩ := h3 f hf
  have hne : out.results ≠ [] := by
    obtain ⟨i, -⟩ := (C65_results exBox_proper (by norm_num) hr).once ![1] (by simp)
    intro h
    have := i.2
    simp [h] at this
  refine ⟨out, f, out', hr, hf, h4, ?_, C77_other_h5py (by simp) hne hf⟩
  intro h
  rw [h] at h5
  cases h6 : out.results with
  | nil => exact hne h6
  | cons a l => rw [h6] at h5; cases h5

end NF
