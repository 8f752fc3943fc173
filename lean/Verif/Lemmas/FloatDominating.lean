import Verif.Spec.FloatDominating
import Verif.Lemmas.FloatRun

/-! # Lemmas for the dominating-set line evaluation in double precision -/

noncomputable section
open Classical

namespace NF
open Spec NxGraph
variable {V A B : Type} {rnd : ℝ → ℝ}

/-- The graph of a cluster: `lam` are the computed lengths of its edges, `δ` the exact distances, `dist` the computed ones; `η` bounds the errors. -/
structure NearGeo (g : NxGraph V ℝ) (lam δ dist : V → V → ℝ) (fs η : ℝ) : Prop where
  good : GoodGraph g
  conn : Connected g
  far : ∀ x y, g.hasEdge x y → δ x y ≤ fs + η
  close : ∀ x ∈ g.nodes, ∀ y ∈ g.nodes, x ≠ y → δ x y ≤ fs - η → g.hasEdge x y
  attr : ∀ e ∈ g.edges, e.2.2 = lam e.1 e.2.1
  symmL : ∀ x y, lam x y = lam y x
  nonnegL : ∀ x y, 0 ≤ lam x y
  near : ∀ x y, g.hasEdge x y → |lam x y - δ x y| ≤ η
  dist : ∀ x ∈ g.nodes, ∀ y ∈ g.nodes, |dist x y - δ x y| ≤ η
  symm : ∀ x y, δ x y = δ y x
  nonneg : ∀ x y, 0 ≤ δ x y
  triangle : ∀ x y z, δ x z ≤ δ x y + δ y z
  self : ∀ x, δ x x = 0
  pos : 0 < fs
  err : 0 ≤ η
  few : g.nodes.length * η ≤ fs / 100

variable {L : FL.DSLib V} {g : NxGraph V ℝ} {lam δ dist : V → V → ℝ} {fs η : ℝ}

theorem NearGeo.small (h : NearGeo g lam δ dist fs η) {a : V} (ha : a ∈ g.nodes) : η ≤ fs / 100 := by
  have h1 : (1 : ℝ) ≤ g.nodes.length := by exact_mod_cast List.length_pos_of_mem ha
  have h2 := h.few
  have h3 := h.err
  nlinarith

theorem NearGeo.walk (h : NearGeo g lam δ dist fs η) : ∀ {p : List V} {a b : V}, IsWalk (FL.dsGraphCopy L g) a b p → δ a b ≤ pathLength lam p + p.length * η := by
  intro p
  induction p with
  | nil => rintro a b ⟨h, -, -⟩; simp at h
  | cons x l ih =>
    rintro a b ⟨h1, h2, h3⟩
    simp at h1
    subst h1
    have he := h.err
    cases l with
    | nil => simp at h2; subst h2; rw [pathLength_single, h.self]; simpa using he
    | cons y l =>
      rw [List.isChain_cons_cons] at h3
      have h5 := ih ⟨rfl, by simpa using h2, h3.2⟩
      rw [pathLength_cons]
      have h6 := h.triangle x y b
      have h7 := (abs_le.1 (h.near x y ((sameShape_hasEdge (flSameShape_copy L g) x y).1 h3.1))).1
      push_cast [List.length_cons] at h5 ⊢
      linarith

theorem NearGeo.within (h : NearGeo g lam δ dist fs η) {a b : V} (ha : a ∈ g.nodes) {c : ℝ} (hc : Within (FL.dsGraphCopy L g) lam a b c) : δ a b ≤ c + fs / 100 := by
  obtain ⟨w, hw, hl⟩ := hc
  obtain ⟨q, hq, hql⟩ := exists_path_le_walk h.nonnegL _ w le_rfl hw
  have h1 := h.walk (.of_path hq)
  have hgC := sameShape_good (flSameShape_copy L g) h.good
  have h2 : q.length ≤ g.nodes.length := (List.subperm_of_subset hq.nodup fun x hx => by
    have := isPath_mem hgC hq (by rw [(flSameShape_copy L g).2]; exact ha) x hx
    rwa [(flSameShape_copy L g).2] at this).length_le
  have h3 : (q.length : ℝ) ≤ g.nodes.length := by exact_mod_cast h2
  have h4 := mul_le_mul_of_nonneg_right h3 h.err
  have h5 := h.few
  linarith

theorem flDistOK_copy (h : ∀ e ∈ g.edges, e.2.2 = lam e.1 e.2.1) : DistOK (FL.dsGraphCopy L g) lam := by
  intro e he
  obtain ⟨k, hk, rfl⟩ := List.mem_map.1 he
  exact h k hk

theorem edgeDist_nonneg {s : NxGraph V DSAttr} (hd : DistOK s lam) (hn : ∀ x y, 0 ≤ lam x y) : ∀ x y, 0 ≤ edgeDist s x y := by
  intro x y
  unfold edgeDist attr?
  cases hf : s.edges.find? (fun e => decide (NxGraph.joins e x y)) with
  | none => simp
  | some k =>
    simp only [Option.map_some, Option.getD_some]
    rw [hd k (List.mem_of_find?_eq_some hf)]
    exact hn _ _

/-- What the library computes, in terms of `Within`. -/
theorem flLength_spec (hL : DSAccurate L) {s : NxGraph V DSAttr} (hs : ∀ x y, lam x y = lam y x) (hn : ∀ x y, 0 ≤ lam x y) (hd : DistOK s lam) {a b : V} {x : ℝ} (h : L.length s (edgeDist s) a b = some x) :
    Within s lam a b (1.001 * x) ∧ (∀ c, Within s lam a b c → x ≤ 1.001 * c) ∧ 0 ≤ x := by
  obtain ⟨⟨p, hp, hpl⟩, h2⟩ := hL.length (edgeDist_nonneg hd hn) h
  have hlen : ∀ p, s.IsPath a b p → pathLength (edgeDist s) p = pathLength lam p := fun p hp => pathLength_congr (fun x y h => edgeDist_eq hs hd h) hp.chain
  rw [hlen p hp] at hpl
  refine ⟨⟨p, .of_path hp, hpl⟩, ?_, by have := pathLength_nonneg hn p; linarith⟩
  rintro c ⟨w, hw, hc⟩
  obtain ⟨q, hq1, hq2⟩ := exists_path_le_walk hn _ w le_rfl hw
  have := h2 q hq1
  rw [hlen q hq1] at this
  linarith

/-! ## Patching -/

theorem flPatchInv_init (h : NearGeo g lam δ dist fs η) (D : List V) : PatchInv g lam D (dsSubgraph g D) where
  good := sameShape_good (sameShape_dsSubgraph g D) (goodGraph_subgraph h.good _)
  distOK := distOK_sub h.attr
  le _ _ h := h
  subG _ _ h := (hasEdge_dsSubgraph.1 h).1
  nodes _ h := (mem_dsSubgraph.1 h).1
  dom _ h := h
  noWeight e he _ _ := by
    obtain ⟨k, hk, rfl⟩ := List.mem_map.1 he
    rfl

theorem flPatchInv_addEdge (h : NearGeo g lam δ dist fs η) {D : List V} {sub : NxGraph V DSAttr} (hs : PatchInv g lam D sub) {x y : V} (hxy : g.hasEdge x y)
    (hD : ¬ (x ∈ D ∧ y ∈ D)) {a : DSAttr} (ha : a.dist = lam x y) : PatchInv g lam D (sub.addEdge x y a) where
  good := goodGraph_addEdge hs.good (goodGraph_edge h.good hxy).2.2 _ _
  distOK e he := by
    rcases mem_edges_addEdge he with he | ⟨hj, rfl⟩
    · exact hs.distOK e he
    · rw [ha]
      rcases hj with ⟨h1, h2⟩ | ⟨h1, h2⟩
      · rw [h1, h2]
      · rw [h1, h2, h.symmL]
  le u v huv := hasEdge_addEdge.2 (.inl (hs.le u v huv))
  subG u v huv := by
    rcases hasEdge_addEdge.1 huv with huv | ⟨rfl, rfl⟩ | ⟨rfl, rfl⟩
    exacts [hs.subG u v huv, hxy, hasEdge_symm.1 hxy]
  nodes z hz := by
    have := goodGraph_edge h.good hxy
    rcases mem_addEdge.1 hz with hz | rfl | rfl
    exacts [hs.nodes z hz, this.1, this.2.1]
  dom z hz := mem_addEdge.2 (.inl (hs.dom z hz))
  noWeight e he h1 h2 := by
    rcases mem_edges_addEdge he with he | ⟨hj, -⟩
    · exact hs.noWeight e he h1 h2
    · rcases hj with ⟨h3, h4⟩ | ⟨h3, h4⟩
      · exact absurd ⟨h3 ▸ h1, h4 ▸ h2⟩ hD
      · exact absurd ⟨h4 ▸ h2, h3 ▸ h1⟩ hD

theorem flPatchHole_spec (h : NearGeo g lam δ dist fs η) {D : List V} {sub : NxGraph V DSAttr} (hs : PatchInv g lam D sub) {p : List V}
    (hp : ∀ e ∈ pathEdges p, g.hasEdge e.1 e.2) (hn : ∀ x ∈ p, x ∈ g.nodes) (hD : ∀ e ∈ pathEdges p, ¬ (e.1 ∈ D ∧ e.2 ∈ D)) :
    PatchInv g lam D (patchHole sub (FL.dsGraphCopy L g) p) ∧ (∀ x y, sub.hasEdge x y → (patchHole sub (FL.dsGraphCopy L g) p).hasEdge x y) ∧
    ∀ e ∈ pathEdges p, (patchHole sub (FL.dsGraphCopy L g) p).hasEdge e.1 e.2 := by
  unfold patchHole
  have h1 : ∀ (l : List V) (sub : NxGraph V DSAttr), PatchInv g lam D sub → (∀ x ∈ l, x ∈ g.nodes) →
      PatchInv g lam D (l.foldl (fun s x => s.addNode x) sub) ∧ ∀ x y, sub.hasEdge x y → (l.foldl (fun s x => s.addNode x) sub).hasEdge x y := by
    intro l
    induction l with
    | nil => intro sub hs _; exact ⟨hs, fun _ _ h => h⟩
    | cons a l ih =>
      intro sub hs hl
      obtain ⟨k1, k2⟩ := ih (sub.addNode a) (patchInv_addNode hs (hl a (by simp))) fun x hx => hl x (by simp [hx])
      exact ⟨k1, fun x y hxy => k2 x y (hasEdge_addNode.2 hxy)⟩
  have h2 : ∀ (l : List (V × V)) (sub : NxGraph V DSAttr), PatchInv g lam D sub → (∀ e ∈ l, g.hasEdge e.1 e.2) → (∀ e ∈ l, ¬ (e.1 ∈ D ∧ e.2 ∈ D)) →
      let r := l.foldl (fun s e => match (FL.dsGraphCopy L g).attr? e.1 e.2 with | some a => s.addEdge e.1 e.2 a | none => s) sub
      PatchInv g lam D r ∧ (∀ x y, sub.hasEdge x y → r.hasEdge x y) ∧ ∀ e ∈ l, r.hasEdge e.1 e.2 := by
    intro l
    induction l with
    | nil => intro sub hs _ _; exact ⟨hs, fun _ _ h => h, by simp⟩
    | cons a l ih =>
      intro sub hs hl hlD
      obtain ⟨e, he, hj, hattr⟩ := attr_some ((sameShape_hasEdge (flSameShape_copy L g) _ _).2 (hl a (by simp)))
      have hdist : e.2.2.dist = lam a.1 a.2 := by
        rw [flDistOK_copy h.attr e he]
        rcases hj with ⟨h1, h2⟩ | ⟨h1, h2⟩
        · rw [h1, h2]
        · rw [h1, h2, h.symmL]
      have hk := ih (sub.addEdge a.1 a.2 e.2.2) (flPatchInv_addEdge h hs (hl a (by simp)) (hlD a (by simp)) hdist) (fun e he => hl e (by simp [he])) fun e he => hlD e (by simp [he])
      simp only [List.foldl_cons, hattr] at hk ⊢
      obtain ⟨k1, k2, k3⟩ := hk
      refine ⟨k1, fun x y hxy => k2 x y (hasEdge_addEdge.2 (.inl hxy)), fun f hf => ?_⟩
      rcases List.mem_cons.1 hf with rfl | hf
      · exact k2 _ _ (hasEdge_addEdge.2 (.inr (.inl ⟨rfl, rfl⟩)))
      · exact k3 f hf
  obtain ⟨k1, k2⟩ := h1 p.tail.dropLast sub hs fun x hx => hn x (List.mem_of_mem_tail (List.dropLast_subset _ hx))
  obtain ⟨m1, m2, m3⟩ := h2 (pathEdges p) _ k1 hp hD
  exact ⟨m1, fun x y hxy => m2 x y (k2 x y hxy), m3⟩

theorem flToPatch_spec {sub graph : NxGraph V DSAttr} : ∀ {ps : List (V × V)} {l}, FL.toPatch L rnd sub graph dist fs ps = .ok l →
    (∀ q ∈ ps, ∃ o, FL.patchEntry L rnd sub graph dist fs q.1 q.2 = .ok o ∧ ∀ t, o = some t → t ∈ l) ∧ ∀ t ∈ l, ∃ q ∈ ps, FL.patchEntry L rnd sub graph dist fs q.1 q.2 = .ok (some t) := by
  intro ps
  induction ps with
  | nil => intro l h; simp [FL.toPatch] at h; subst h; simp
  | cons q ps ih =>
    intro l h
    obtain ⟨a, b⟩ := q
    simp only [FL.toPatch] at h
    cases he : FL.patchEntry L rnd sub graph dist fs a b with
    | error e => rw [he] at h; simp at h
    | ok o =>
      rw [he] at h
      cases hr : FL.toPatch L rnd sub graph dist fs ps with
      | error e => rw [hr] at h; simp at h
      | ok l' =>
        rw [hr] at h
        simp only [Except.ok.injEq] at h
        subst h
        obtain ⟨i1, i2⟩ := ih hr
        constructor
        · intro q hq
          rcases List.mem_cons.1 hq with rfl | hq
          · exact ⟨o, he, fun t ht => by simp [ht]⟩
          · obtain ⟨o', h1, h2⟩ := i1 q hq
            exact ⟨o', h1, fun t ht => List.mem_append_right _ (h2 t ht)⟩
        · intro t ht
          rcases List.mem_append.1 ht with ht | ht
          · cases o with
            | none => simp at ht
            | some t' => simp at ht; subst ht; exact ⟨(a, b), by simp, he⟩
          · obtain ⟨q, h1, h2⟩ := i2 t ht
            exact ⟨q, by simp [h1], h2⟩

theorem flPatchEntry_some {sub graph : NxGraph V DSAttr} {a b : V} {t : V × V × ℝ} (h : FL.patchEntry L rnd sub graph dist fs a b = .ok (some t)) :
    t.1 = a ∧ t.2.1 = b ∧ L.length graph (edgeDist graph) a b = some t.2.2 ∧ t.2.2 < rnd (2 * fs) := by
  unfold FL.patchEntry at h
  split_ifs at h
  · cases h1 : L.length sub (edgeDist sub) a b with
    | none => rw [h1] at h; simp at h
    | some r =>
      rw [h1] at h
      simp only at h
      split_ifs at h
      · cases h2 : L.length graph (edgeDist graph) a b with
        | none => rw [h2] at h; simp at h
        | some o =>
          rw [h2] at h
          simp only at h
          split_ifs at h with h3
          · simp only [Except.ok.injEq, Option.some.injEq] at h; subst h; exact ⟨rfl, rfl, rfl, h3.2⟩
          · simp at h
      · simp at h
  · simp at h

theorem rnd_small (hr : IsNearest rnd) {x : ℝ} (hx : 0 ≤ x) : |rnd x - x| ≤ x / 1000000 := by
  have h := rel_err' hr x
  rw [abs_of_nonneg hx] at h
  have hu : ulp ≤ 1 / 1000000 := by unfold ulp; norm_num
  have := mul_le_mul_of_nonneg_right hu hx
  linarith

/-- What a pair that needs no patch satisfies. -/
theorem flPatchEntry_bound (hr : IsNearest rnd) (hL : DSAccurate L) (h : NearGeo g lam δ dist fs η) {D : List V} {a b : V} (ha : a ∈ (dsSubgraph g D).nodes) (hb : b ∈ (dsSubgraph g D).nodes) {c : ℝ} (hfs : fs - η < δ a b)
    (hc : Within (FL.dsGraphCopy L g) lam a b c) (hc2 : c ≤ 1.9 * fs) {o} (he : FL.patchEntry L rnd (dsSubgraph g D) (FL.dsGraphCopy L g) dist fs a b = .ok o) :
    (∃ t, o = some t ∧ t.1 = a ∧ t.2.1 = b ∧ 0 ≤ t.2.2 ∧ t.2.2 ≤ 1.001 * c) ∨ Within (dsSubgraph g D) lam a b (2 * c) := by
  have hag := (mem_dsSubgraph.1 ha).1
  have hδ := h.within hag hc
  have hpos := h.pos
  have hsm := h.small hag
  have hdist := abs_le.1 (h.dist a hag b (mem_dsSubgraph.1 hb).1)
  have hS := (flPatchInv_init h D).distOK
  have r2 := abs_le.1 (rnd_small hr (x := 2 * fs) (by linarith))
  have r1 := abs_le.1 (rnd_small hr (x := 1.001) (by norm_num))
  unfold FL.patchEntry at he
  rw [if_pos (by norm_num at *; linarith)] at he
  cases h1 : L.length (dsSubgraph g D) (edgeDist (dsSubgraph g D)) a b with
  | none => rw [h1] at he; simp at he
  | some r =>
    rw [h1] at he
    simp only at he
    obtain ⟨hr1, -, -⟩ := flLength_spec hL h.symmL h.nonnegL hS h1
    split_ifs at he with h2
    · cases h3 : L.length (FL.dsGraphCopy L g) (edgeDist (FL.dsGraphCopy L g)) a b with
      | none => rw [h3] at he; simp at he
      | some o' =>
        rw [h3] at he
        simp only at he
        obtain ⟨-, ho2, ho3⟩ := flLength_spec hL h.symmL h.nonnegL (flDistOK_copy h.attr) h3
        have ho := ho2 c hc
        have hm : rnd 1.001 * o' ≤ 1.00101 * o' := mul_le_mul_of_nonneg_right (by norm_num at *; linarith) ho3
        have hm0 : 0 ≤ rnd 1.001 * o' := mul_nonneg (by norm_num at *; linarith) ho3
        have r3 := abs_le.1 (rnd_small hr hm0)
        split_ifs at he with h4
        · simp only [Except.ok.injEq] at he
          exact .inl ⟨_, he.symm, rfl, rfl, ho3, ho⟩
        · refine .inr (within_mono (fun _ _ h => h) ?_ hr1)
          by_contra hlt
          push Not at hlt
          apply h4
          constructor <;> (norm_num at *; linarith)
    · refine .inr (within_mono (fun _ _ h => h) ?_ hr1)
      push Not at h2
      have hd0 : 0 ≤ dist a b := by norm_num at *; linarith
      have hm : rnd 1.001 * dist a b ≤ 1.00101 * dist a b := mul_le_mul_of_nonneg_right (by norm_num at *; linarith) hd0
      have hm0 : 0 ≤ rnd 1.001 * dist a b := mul_nonneg (by norm_num at *; linarith) hd0
      have r3 := abs_le.1 (rnd_small hr hm0)
      rcases le_max_iff.1 h2 with h5 | h5 <;> (norm_num at *; linarith)

end NF
