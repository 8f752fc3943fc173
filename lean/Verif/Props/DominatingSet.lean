import Verif.Lemmas.DominatingSet
import Verif.Props.ShortestPath

/-!
# Properties of the dominating-set line evaluation (C62)

`EvalDominating g dist fs r` : the dominating-set method can give the result `r` (a graph or an exception) for the graph `g`.
-/

noncomputable section
open Classical

namespace NF
open Spec NxGraph
variable {V : Type} {d : ℕ}

/-- Splitting a path at one of its edges. -/
theorem split_at_edge : ∀ {p : List V} {u v : V}, (u, v) ∈ pathEdges p → ∃ a c, p = a ++ u :: v :: c := by
  intro p
  induction p with
  | nil => intro u v h; simp [pathEdges] at h
  | cons x l ih =>
    intro u v h
    cases l with
    | nil => simp [pathEdges] at h
    | cons y l =>
      have h' : (u, v) = (x, y) ∨ (u, v) ∈ pathEdges (y :: l) := by simpa [pathEdges] using h
      rcases h' with h' | h'
      · simp only [Prod.mk.injEq] at h'
        obtain ⟨rfl, rfl⟩ := h'
        exact ⟨[], l, rfl⟩
      · obtain ⟨a, c, hac⟩ := ih h'
        exact ⟨x :: a, c, by rw [hac]; rfl⟩

/-- While holes are patched, no edge between two nodes of the dominating set gets a weight. -/
theorem patchLoop_inv {g : NxGraph V ℝ} {δ : V → V → ℝ} {fs : ℝ} (h : GeoCluster g δ fs) {D : List V} (hDn : ∀ x ∈ D, x ∈ g.nodes)
    (hind : ∀ x ∈ D, ∀ y ∈ D, g.hasEdge x y → fs / 3 ≤ δ x y) {l : List (V × V × ℝ)}
    (hl : toPatch (dsSubgraph g D) (dsGraphCopy g) δ fs (pairs2 (dsSubgraph g D).nodes) = .ok l) :
    ∀ {rest : List (V × V × ℝ)} {sub : NxGraph V DSAttr} {r}, PatchLoop (dsGraphCopy g) rest sub r → ∀ done : List (V × V × ℝ),
    (∀ t, t ∈ done ++ rest ↔ t ∈ l) → (done ++ rest).Pairwise (fun a b => a.2.2 ≤ b.2.2) → PatchInv g δ D sub → (∀ t ∈ done, Within sub δ t.1 t.2.1 (2 * t.2.2)) →
    r = .error .noPath ∨ ∃ sub', r = .ok sub' ∧ PatchInv g δ D sub' := by
  intro rest sub r hr
  have hgC := sameShape_good (sameShape_copy g) h.good
  have hmemS : ∀ x ∈ D, x ∈ (dsSubgraph g D).nodes := fun x hx => mem_dsSubgraph.2 ⟨hDn x hx, hx⟩
  obtain ⟨htp1, htp2⟩ := toPatch_spec hl
  -- pairs which are closer than the current one are already fine
  have claimA : ∀ {sub : NxGraph V DSAttr} {done rest : List (V × V × ℝ)} {o : ℝ}, PatchInv g δ D sub → (∀ t, t ∈ done ++ rest ↔ t ∈ l) → (∀ t ∈ rest, o ≤ t.2.2) →
      (∀ t ∈ done, Within sub δ t.1 t.2.1 (2 * t.2.2)) → o < 2 * fs → ∀ a ∈ D, ∀ b ∈ D, ∀ c, Within (dsGraphCopy g) δ a b c → c < o → Within sub δ a b (2 * c) := by
    intro sub done rest o hs hmem hle hdone ho a ha b hb c hc hco
    have hδ : δ a b ≤ c := by obtain ⟨w, hw, hl⟩ := hc; exact (walk_ge h.triangle h.self hw).trans hl
    have hδ0 := h.nonneg a b
    by_cases hab : a = b
    · subst hab
      exact within_mono (fun _ _ h => h) (by linarith) (within_refl sub δ a)
    by_cases hnear : δ a b ≤ fs
    · have hE : (dsSubgraph g D).hasEdge a b := hasEdge_dsSubgraph.2 ⟨(h.edge a b).2 ⟨hDn a ha, hDn b hb, hab, hnear⟩, ha, hb⟩
      exact within_mono (fun _ _ h => h) (by linarith) (within_edge (hs.le a b hE))
    push Not at hnear
    have key : ∀ x ∈ D, ∀ y ∈ D, (x, y) ∈ pairs2 (dsSubgraph g D).nodes → fs < δ x y → Within (dsGraphCopy g) δ x y c → Within sub δ x y (2 * c) := by
      intro x hx y hy hxy hfar hw
      obtain ⟨e, he, het⟩ := htp1 _ hxy
      rcases patchEntry_bound h (hmemS x hx) hfar hw (by linarith) he with ⟨t, rfl, rfl, rfl, htc⟩ | hS
      · have htl := het t rfl
        rcases List.mem_append.1 ((hmem t).2 htl) with ht | ht
        · exact within_mono (fun _ _ h => h) (by linarith) (hdone t ht)
        · have := hle t ht; linarith
      · exact within_mono hs.le le_rfl hS
    rcases pairs2_mem (hmemS a ha) (hmemS b hb) hab with hp | hp
    · exact key a ha b hb hp hnear hc
    · exact within_symm h.symm (key b hb a ha hp (by rw [h.symm]; exact hnear) (within_symm h.symm hc))
  induction hr with
  | @nil sub => intro done _ _ hs _; exact .inr ⟨sub, rfl, hs⟩
  | noPath => intro _ _ _ _ _; exact .inl rfl
  | @skip sub a b o rest r x hx hle _ ih =>
    intro done hmem hsort hs hdone
    have hab : (a, b, o) ∈ l := (hmem _).1 (by simp)
    obtain ⟨q, hq, hqe⟩ := htp2 _ hab
    have ha : a ∈ sub.nodes := hs.dom a (by
      have h1 := (patchEntry_some hqe).1
      have h2 := (mem_pairs2 (a := q.1) (b := q.2) hq).1
      simp only at h1; rw [← h1] at h2; exact h2)
    refine ih (done ++ [(a, b, o)]) (fun t => by rw [List.append_assoc]; exact hmem t) (by rw [List.append_assoc]; exact hsort) hs fun t ht => ?_
    rcases List.mem_append.1 ht with ht | ht
    · exact hdone t ht
    · simp at ht; subst ht
      exact within_mono (fun _ _ h => h) (not_lt.1 hle) ((shortest_spec hs.good h.symm h.nonneg hs.distOK ha).2 x hx).1
  | @patch sub a b o rest r x p hx hgt hp _ ih =>
    intro done hmem hsort hs hdone
    have hab : (a, b, o) ∈ l := (hmem _).1 (by simp)
    obtain ⟨q, hq, hqe⟩ := htp2 _ hab
    obtain ⟨e1, e2, e3, e4⟩ := patchEntry_some hqe
    simp only at e1 e2 e3 e4
    have hqm := mem_pairs2 (a := q.1) (b := q.2) hq
    rw [← e1, ← e2] at hqm
    rw [← e1, ← e2] at e3
    have haD := (mem_dsSubgraph.1 hqm.1)
    have ha : a ∈ sub.nodes := hs.dom a hqm.1
    have hbD := (mem_dsSubgraph.1 hqm.2)
    have hshort := (shortest_spec hs.good h.symm h.nonneg hs.distOK (t := b) ha).2 x hx
    have hCspec := (shortest_spec hgC h.symm h.nonneg (distOK_copy h.attr) (s := a) (t := b) haD.1).2 o e3
    have hE : ∀ u v, (dsGraphCopy g).hasEdge u v ↔ g.hasEdge u v := sameShape_hasEdge (sameShape_copy g)
    have hplen : pathLength δ p = o := by
      have hpd : pathLength (edgeDist (dsGraphCopy g)) p = pathLength δ p := pathLength_congr (fun u v huv => edgeDist_eq h.symm (distOK_copy h.attr) huv) hp.1.chain
      apply le_antisymm
      · obtain ⟨w, hw, hwl⟩ := hCspec.1
        obtain ⟨q', hq1, hq2⟩ := exists_path_le_walk h.nonneg _ w le_rfl hw
        have h1 := hp.2 q' hq1
        rw [hpd, pathLength_congr (fun u v huv => edgeDist_eq h.symm (distOK_copy h.attr) huv) hq1.chain] at h1
        linarith
      · exact hCspec.2 _ ⟨p, .of_path hp.1, le_rfl⟩
    have hlerest : ∀ t ∈ (a, b, o) :: rest, o ≤ t.2.2 := by
      intro t ht
      rcases List.mem_cons.1 ht with rfl | ht
      · exact le_rfl
      · have := (List.pairwise_append.1 hsort).2.1
        exact (List.pairwise_cons.1 this).1 t ht
    have hpe : ∀ e ∈ pathEdges p, g.hasEdge e.1 e.2 := fun e he => (hE _ _).1 (pathEdges_hasEdge hp.1.chain e he)
    have hnoD : ∀ e ∈ pathEdges p, ¬ (e.1 ∈ D ∧ e.2 ∈ D) := by
      rintro ⟨u, v⟩ he ⟨hu, hv⟩
      simp only at hu hv
      obtain ⟨s1, s2, rfl⟩ := split_at_edge he
      have huv := hpe _ he
      simp only at huv
      have hd := hind u hu v hv huv
      have hlen := pathLength_append δ s1 u (v :: s2)
      rw [pathLength_cons] at hlen
      have n1 := pathLength_nonneg h.nonneg (s1 ++ [u])
      have n2 := pathLength_nonneg h.nonneg (v :: s2)
      have hfs := h.pos
      obtain ⟨c1, c2, c3⟩ := (⟨hp.1.head, hp.1.last, hp.1.chain⟩ : IsWalk _ a b _)
      have w1 : IsWalk (dsGraphCopy g) a u (s1 ++ [u]) := ⟨by cases s1 <;> simpa using c1, by simp, by
        rw [show s1 ++ u :: v :: s2 = (s1 ++ [u]) ++ v :: s2 by simp, List.isChain_append] at c3; exact c3.1⟩
      have w2 : IsWalk (dsGraphCopy g) v b (v :: s2) := ⟨rfl, by
        rw [show s1 ++ u :: v :: s2 = (s1 ++ [u]) ++ v :: s2 by simp, List.getLast?_append] at c2
        cases hg : (v :: s2).getLast? with
        | none => simp at hg
        | some y => rw [hg] at c2; simpa using c2, by
        rw [show s1 ++ u :: v :: s2 = (s1 ++ [u]) ++ v :: s2 by simp, List.isChain_append] at c3; exact c3.2.1⟩
      have k1 := claimA hs hmem hlerest hdone e4 a haD.2 u hu _ ⟨_, w1, le_rfl⟩ (by linarith)
      have k2 := claimA hs hmem hlerest hdone e4 v hv b hbD.2 _ ⟨_, w2, le_rfl⟩ (by linarith)
      have k3 := within_edge (δ := δ) (hs.le u v (hasEdge_dsSubgraph.2 ⟨huv, hu, hv⟩))
      have k4 := hshort.2 _ (within_trans (within_trans k1 k3) k2)
      linarith
    have hpn : ∀ x ∈ p, x ∈ g.nodes := fun x hx => by
      have := isPath_mem hgC hp.1 (by rw [(sameShape_copy g).2]; exact haD.1) x hx
      rwa [(sameShape_copy g).2] at this
    obtain ⟨m1, m2, m3⟩ := patchHole_spec h hs hpe hpn hnoD
    refine ih (done ++ [(a, b, o)]) (fun t => by rw [List.append_assoc]; exact hmem t) (by rw [List.append_assoc]; exact hsort) m1 fun t ht => ?_
    rcases List.mem_append.1 ht with ht | ht
    · exact within_mono m2 le_rfl (hdone t ht)
    · simp at ht; subst ht
      refine ⟨p, ⟨hp.1.head, hp.1.last, ?_⟩, by rw [hplen]; have := pathLength_nonneg h.nonneg p; simp only; linarith⟩
      have hch : ∀ (q : List V), (∀ e ∈ pathEdges q, (patchHole sub (dsGraphCopy g) p).hasEdge e.1 e.2) → q.IsChain (patchHole sub (dsGraphCopy g) p).hasEdge := by
        intro q
        induction q with
        | nil => intro _; simp
        | cons x q ihq =>
          intro hq
          cases q with
          | nil => simp
          | cons y q =>
            rw [List.isChain_cons_cons]
            exact ⟨hq (x, y) (by simp [pathEdges]), ihq fun e he => hq e (by simp only [pathEdges, List.tail_cons, List.zip_cons_cons] at he ⊢; exact List.mem_cons_of_mem _ he)⟩
      exact hch p m3

/-- **C62** (for any symmetric distance with the triangle inequality): the dominating-set method returns only if one node is closer than a third of `feature_size` to all other nodes of the cluster, and
then it returns the graph with this single node and no edge.  Otherwise it raises `NetworkXNoPath` or a `TypeError`. -/
theorem C62_general {g : NxGraph V ℝ} {δ : V → V → ℝ} {fs : ℝ} (h : GeoCluster g δ fs) {r} (hr : EvalDominating g δ fs r) :
    r = .error .noPath ∨ r = .error .type ∨ ∃ v ∈ g.nodes, ∃ rg, r = .ok rg ∧ rg.nodes = [v] ∧ rg.edges = [] ∧ ∀ x ∈ g.nodes, x ≠ v → δ x v < fs / 3 := by
  have hpatchErr : ∀ {sub graph : NxGraph V DSAttr} {ps e}, toPatch sub graph δ fs ps = .error e → e = .noPath := by
    intro sub graph ps
    induction ps with
    | nil => intro e h; simp [toPatch] at h
    | cons q ps ih =>
      intro e h
      obtain ⟨a, b⟩ := q
      simp only [toPatch] at h
      cases he : patchEntry sub graph δ fs a b with
      | error e' =>
        rw [he] at h
        simp only [Except.error.injEq] at h
        subst h
        unfold patchEntry at he
        split_ifs at he
        · cases h1 : shortestLength sub (edgeDist sub) a b with
          | none => rw [h1] at he; simp at he; exact he.symm
          | some r =>
            rw [h1] at he
            simp only at he
            split_ifs at he
            cases h2 : shortestLength graph (edgeDist graph) a b with
            | none => rw [h2] at he; simp at he; exact he.symm
            | some o => rw [h2] at he; simp only at he; split_ifs at he
      | ok o =>
        rw [he] at h
        cases h3 : toPatch sub graph δ fs ps with
        | error e' => rw [h3] at h; simp at h; subst h; exact ih h3
        | ok l => rw [h3] at h; simp at h
  cases hr with
  | collect _ he => exact .inl (by rw [hpatchErr he])
  | @patch D l sorted e hD hl hperm hsort hloop =>
    left
    cases hloop' : (Except.error e : Except Err (NxGraph V DSAttr)) with
    | ok _ => cases hloop'
    | error e' =>
      cases hloop'
      have : ∀ {ls sub} {r : Except Err (NxGraph V DSAttr)}, PatchLoop (dsGraphCopy g) ls sub r → ∀ e, r = .error e → e = .noPath := by
        intro ls sub r hlp
        induction hlp with
        | nil => intro e he; cases he
        | noPath => intro e he; cases he; rfl
        | skip _ _ _ ih => exact ih
        | patch _ _ _ _ ih => exact ih
      rw [this hloop e rfl]
  | @remove D l sorted sub r hD hl hperm hsort hloop hrem =>
    obtain ⟨d1, d2, d3, -, d5, d6⟩ := greedy_spec (good_reduced h.good fs) hD
    have hDn : ∀ x ∈ D, x ∈ g.nodes := d3
    have hind : ∀ x ∈ D, ∀ y ∈ D, g.hasEdge x y → fs / 3 ≤ δ x y := fun x hx y hy hxy => by
      by_contra hlt
      exact d5 x hx y hy ((hasEdge_reduced h).2 ⟨hxy, not_le.1 hlt⟩)
    have hdom : ∀ x ∈ g.nodes, ∃ y ∈ D, δ x y < fs / 3 := by
      intro x hx
      have := h.pos
      rcases d6 x hx with h1 | h1 | ⟨y, hy, h1⟩
      · exact ⟨x, h1, by rw [h.self]; linarith⟩
      · simp at h1
      · exact ⟨y, hy, by rw [h.symm]; exact ((hasEdge_reduced h).1 h1).2⟩
    rcases patchLoop_inv h hDn hind hl hloop [] (fun t => by simpa using hperm.mem_iff) (by simpa using hsort) (patchInv_init h D) (by simp) with he | ⟨sub', he, hs⟩
    · cases he
    simp only [Except.ok.injEq] at he
    subst he
    obtain ⟨a, ha⟩ := List.exists_mem_of_ne_nil _ d1
    by_cases hsingle : ∀ b ∈ D, b = a
    · -- one node only
      right; right
      have hD1 : D = [a] := by
        cases D with
        | nil => simp at ha
        | cons b l =>
          have hb := hsingle b (by simp)
          cases l with
          | nil => rw [hb]
          | cons c l =>
            have hc := hsingle c (by simp)
            rw [hb, hc] at d2
            simp at d2
      subst hD1
      have hnodes : (dsSubgraph g [a]).nodes = [a] := by
        have hnd : (dsSubgraph g [a]).nodes.Nodup := (patchInv_init h [a]).good.nodup
        have hm : ∀ x, x ∈ (dsSubgraph g [a]).nodes ↔ x = a := fun x => by
          rw [mem_dsSubgraph, List.mem_singleton]
          exact ⟨fun h => h.2, fun h => ⟨h ▸ hDn a ha, h⟩⟩
        cases hn : (dsSubgraph g [a]).nodes with
        | nil => have := (hm a).2 rfl; rw [hn] at this; simp at this
        | cons b l =>
          rw [hn] at hm hnd
          have hb := (hm b).1 (by simp)
          cases l with
          | nil => rw [hb]
          | cons c l =>
            have hc := (hm c).1 (by simp)
            rw [hb, hc] at hnd
            simp at hnd
      have hedges : (dsSubgraph g [a]).edges = [] := by
        apply List.eq_nil_iff_forall_not_mem.2
        intro e he
        have : (dsSubgraph g [a]).hasEdge e.1 e.2.1 := ⟨e, he, .inl ⟨rfl, rfl⟩⟩
        obtain ⟨h1, h2, h3⟩ := hasEdge_dsSubgraph.1 this
        simp at h2 h3
        exact (goodGraph_edge h.good h1).2.2 (h2.trans h3.symm)
      have hl' : l = [] := by
        rw [hnodes] at hl
        simp [pairs2, toPatch] at hl
        exact hl
      subst hl'
      have := hperm.eq_nil
      subst this
      cases hloop
      cases hrem with
      | noWeight he _ => rw [hedges] at he; simp at he
      | @ok so r _ hp _ hrl =>
        rw [hedges] at hp
        have := hp.eq_nil
        subst this
        cases hrl
        refine ⟨a, hDn a ha, _, rfl, hnodes, hedges, fun x hx hxa => ?_⟩
        obtain ⟨y, hy, hlt⟩ := hdom x hx
        simp at hy
        subst hy
        exact hlt
    · -- two nodes of the dominating set are closer than two feature sizes
      push Not at hsingle
      obtain ⟨b, hb, hba⟩ := hsingle
      obtain ⟨c, hc, hca, hnear⟩ : ∃ c ∈ D, c ≠ a ∧ δ a c < 2 * fs := by
        by_contra hno
        push Not at hno
        have key : ∀ x, Reach g a x → δ x a < fs / 3 := by
          intro x hx
          have hpos := h.pos
          induction hx with
          | refl => rw [h.self]; linarith
          | @tail y z hy hyz ih =>
            have hz := (h.edge y z).1 hyz
            obtain ⟨w, hw, hzw⟩ := hdom z hz.2.1
            by_cases hwa : w = a
            · rw [← hwa]; exact hzw
            · have h1 := hno w hw hwa
              have h2 := h.triangle a y w
              have h3 := h.triangle y z w
              have h4 := h.symm a y
              linarith [hz.2.2.2]
        have h1 := key b (h.conn a (hDn a ha) b (hDn b hb))
        by_cases hadj : g.hasEdge b a
        · have := hind b hb a ha hadj; linarith
        · exact hadj ((h.edge b a).2 ⟨hDn b hb, hDn a ha, hba, by have := h.pos; linarith⟩)
      -- so they are connected by edges of the subgraph
      have hmS : ∀ x ∈ D, x ∈ (dsSubgraph g D).nodes := fun x hx => mem_dsSubgraph.2 ⟨hDn x hx, hx⟩
      have hedge : ∀ x ∈ D, ∀ y ∈ D, x ≠ y → δ x y < 2 * fs → (x, y) ∈ pairs2 (dsSubgraph g D).nodes → ∃ u v, (dsSubgraph g D).hasEdge u v := by
        intro x hx y hy hxy hlt hp
        obtain ⟨o, ho, -⟩ := (toPatch_spec hl).1 _ hp
        simp only at ho
        unfold patchEntry at ho
        rw [if_pos hlt] at ho
        cases hsl : shortestLength (dsSubgraph g D) (edgeDist (dsSubgraph g D)) x y with
        | none => rw [hsl] at ho; simp at ho
        | some q =>
          obtain ⟨⟨w, hw, -⟩, -⟩ := (shortest_spec (patchInv_init h D).good h.symm h.nonneg (distOK_sub h.attr) (hmS x hx)).2 q hsl
          obtain ⟨w1, w2, w3⟩ := hw
          cases w with
          | nil => simp at w1
          | cons u w =>
            cases w with
            | nil => simp at w1 w2; exact absurd (w1.symm.trans w2) hxy
            | cons v w => rw [List.isChain_cons_cons] at w3; exact ⟨u, v, w3.1⟩
      obtain ⟨u, v, huv⟩ : ∃ u v, (dsSubgraph g D).hasEdge u v := by
        rcases pairs2_mem (hmS a ha) (hmS c hc) (Ne.symm hca) with hp | hp
        · exact hedge a ha c hc (Ne.symm hca) hnear hp
        · exact hedge c hc a ha hca (by rw [h.symm]; exact hnear) hp
      obtain ⟨-, huD, hvD⟩ := hasEdge_dsSubgraph.1 huv
      obtain ⟨e, he, hj⟩ := hs.le u v huv
      have hew : e.2.2.weight = none := by
        apply hs.noWeight e he
        · rcases hj with ⟨h1, -⟩ | ⟨h1, -⟩ <;> rw [h1] <;> assumption
        · rcases hj with ⟨-, h1⟩ | ⟨-, h1⟩ <;> rw [h1] <;> assumption
      right; left
      cases hrem with
      | noWeight => rfl
      | ok hw => exact absurd hew (hw e he)

theorem geoCluster_of_cluster {cs : CoordSys d} (hb : ProperBox cs) {fs : ℝ} (hfs : 0 < fs) {positions posUnique : List (Vec d)} (hu : IsUniqueList positions posUnique)
    {c : NxGraph (Vec d) ℝ} (hc : c ∈ createClusters cs fs posUnique) : GeoCluster c cs.distance fs := by
  obtain ⟨h1, h2, h3, h4⟩ := C54_cluster_graph hb fs hu hc
  have hm := C03_distance_metric cs hb
  exact ⟨h1, h2, h3, h4, fun x y => (hm x y x).2.1, fun x y => (hm x y x).1, fun x y z => (hm x y z).2.2.1,
    fun x => ((hm x x x).2.2.2).2 (by unfold SamePoint; split; exacts [⟨0, by funext i; simp [shift]⟩, rfl]), hfs⟩

/-! ## There always is a result -/

theorem greedy_exists {g : NxGraph V Unit} (hne : g.nodes ≠ []) : ∃ D, Greedy g D [] := by
  obtain ⟨v, hv⟩ := List.exists_mem_of_ne_nil _ hne
  have key : ∀ (n : ℕ) (D rem : List V), rem.length ≤ n → Greedy g D rem → ∃ D, Greedy g D [] := by
    intro n
    induction n with
    | zero => intro D rem h hg; rw [List.length_eq_zero_iff.1 (Nat.le_zero.1 h)] at hg; exact ⟨D, hg⟩
    | succ n ih =>
      intro D rem h hg
      cases rem with
      | nil => exact ⟨D, hg⟩
      | cons w rem =>
        refine ih _ _ ?_ (hg.add (v := w) (by simp))
        simp only [List.filter_cons, ne_eq, not_true_eq_false, false_and, decide_false, Bool.false_eq_true, if_false]
        exact (List.length_filter_le _ _).trans (by simpa using h)
  exact key _ _ _ le_rfl (.start hv)

theorem patchLoop_exists {graph : NxGraph V DSAttr} : ∀ (l : List (V × V × ℝ)) (sub : NxGraph V DSAttr), (∀ t ∈ l, ∃ p, IsShortest graph (edgeDist graph) t.1 t.2.1 p) →
    ∃ r, PatchLoop graph l sub r := by
  intro l
  induction l with
  | nil => intro sub _; exact ⟨_, .nil⟩
  | cons t l ih =>
    intro sub h
    obtain ⟨a, b, o⟩ := t
    cases hs : shortestLength sub (edgeDist sub) a b with
    | none => exact ⟨_, .noPath hs⟩
    | some x =>
      by_cases hx : x > 2 * o
      · obtain ⟨p, hp⟩ := h (a, b, o) (by simp)
        obtain ⟨r, hr⟩ := ih (patchHole sub graph p) fun t ht => h t (by simp [ht])
        exact ⟨r, .patch hs hx hp hr⟩
      · obtain ⟨r, hr⟩ := ih sub fun t ht => h t (by simp [ht])
        exact ⟨r, .skip hs hx hr⟩

theorem removeLoop_exists : ∀ (l : List (V × V)) (sub : NxGraph V DSAttr), GoodGraph sub → (∀ e ∈ l, e.1 ∈ sub.nodes ∧ Reach sub e.1 e.2) → ∃ r, RemoveLoop l sub r := by
  intro l
  induction l with
  | nil => intro sub _ _; exact ⟨_, .nil⟩
  | cons e l ih =>
    intro sub hg h
    obtain ⟨x, y⟩ := e
    obtain ⟨h1, h2⟩ := h (x, y) (by simp)
    obtain ⟨p, hp⟩ := exists_shortest hg (edgeW sub) h1 (exists_path_of_reach h2)
    by_cases hlen : p.length > 2
    · have hpath := hp.1
      have hrem : ∀ u v, Reach sub u v → Reach (sub.removeEdge x y) u v := by
        -- the path does not use the edge
        have hxy : Reach (sub.removeEdge x y) x y := by
          have hchain : p.IsChain (sub.removeEdge x y).hasEdge := by
            rw [List.isChain_iff_getElem]
            intro i hi
            refine hasEdge_removeEdge.2 ⟨List.isChain_iff_getElem.1 hpath.chain i hi, ?_⟩
            have hx0 : p[0] = x := by
              have := hpath.head
              rw [List.head?_eq_getElem?, List.getElem?_eq_getElem (by omega)] at this
              simpa using this
            have hy1 : p[p.length - 1] = y := by
              have := hpath.last
              rw [List.getLast?_eq_getElem?, List.getElem?_eq_getElem (by omega)] at this
              simpa using this
            rintro (⟨k1, k2⟩ | ⟨k1, k2⟩)
            · have a1 := (List.Nodup.getElem_inj_iff hpath.nodup).1 (k1.trans hx0.symm)
              have a2 := (List.Nodup.getElem_inj_iff hpath.nodup).1 (k2.trans hy1.symm)
              omega
            · have a2 := (List.Nodup.getElem_inj_iff hpath.nodup).1 (k2.trans hx0.symm)
              omega
          have : ∀ (q : List V) (a : V), q.head? = some a → q.getLast? = some y → q.IsChain (sub.removeEdge x y).hasEdge → Reach (sub.removeEdge x y) a y := by
            intro q
            induction q with
            | nil => intro a h; simp at h
            | cons b q ihq =>
              intro a h1 h2 h3
              simp at h1
              subst h1
              cases q with
              | nil => simp at h2; subst h2; exact .refl
              | cons c q =>
                rw [List.isChain_cons_cons] at h3
                exact .head h3.1 (ihq c rfl (by simpa using h2) h3.2)
          exact this p x hpath.head hpath.last hchain
        intro u v huv
        induction huv with
        | refl => exact .refl
        | @tail b c _ hbc ih =>
          by_cases hne : (b = x ∧ c = y) ∨ (b = y ∧ c = x)
          · rcases hne with ⟨rfl, rfl⟩ | ⟨rfl, rfl⟩
            · exact ih.trans hxy
            · exact ih.trans (reach_symm hxy)
          · exact ih.tail (hasEdge_removeEdge.2 ⟨hbc, hne⟩)
      have hg' : GoodGraph (sub.removeEdge x y) := ⟨hg.nodup, fun e he => hg.left e (List.mem_filter.1 he).1, fun e he => hg.right e (List.mem_filter.1 he).1,
        fun e he => hg.noLoop e (List.mem_filter.1 he).1, hg.single.filter _⟩
      obtain ⟨r, hr⟩ := ih (sub.removeEdge x y) hg' fun e he => ⟨(h e (by simp [he])).1, hrem _ _ (h e (by simp [he])).2⟩
      exact ⟨r, .cons hp (by rw [if_pos hlen]; exact hr)⟩
    · obtain ⟨r, hr⟩ := ih sub hg fun e he => h e (by simp [he])
      exact ⟨r, .cons hp (by rw [if_neg hlen]; exact hr)⟩

theorem exists_sorted {α : Type} (f : α → ℝ) (l : List α) : ∃ s : List α, List.Perm s l ∧ s.Pairwise (fun a b => f a ≤ f b) := by
  refine ⟨l.mergeSort (fun a b => decide (f a ≤ f b)), List.mergeSort_perm _ _, ?_⟩
  have := List.pairwise_mergeSort (le := fun a b => decide (f a ≤ f b)) (fun a b c h1 h2 => by simp at *; linarith)
    (fun a b => by simpa using le_total (f a) (f b)) l
  exact this.imp fun h => by simpa using h

/-- The method always has a result. -/
theorem evalDominating_exists {g : NxGraph V ℝ} {δ : V → V → ℝ} {fs : ℝ} (h : GeoCluster g δ fs) (hne : g.nodes ≠ []) : ∃ r, EvalDominating g δ fs r := by
  obtain ⟨D, hD⟩ := greedy_exists (g := dsReduced fs g) hne
  cases hl : toPatch (dsSubgraph g D) (dsGraphCopy g) δ fs (pairs2 (dsSubgraph g D).nodes) with
  | error e => exact ⟨_, .collect hD hl⟩
  | ok l =>
    obtain ⟨sorted, hperm, hsort⟩ := exists_sorted (fun t : V × V × ℝ => t.2.2) l
    obtain ⟨r, hr⟩ := patchLoop_exists (graph := dsGraphCopy g) sorted (dsSubgraph g D) fun t ht => by
      obtain ⟨q, -, hq⟩ := (toPatch_spec hl).2 t (hperm.mem_iff.1 ht)
      obtain ⟨h1, h2, h3, -⟩ := patchEntry_some hq
      rw [h1, h2]
      unfold shortestLength at h3
      split_ifs at h3 with hex
      exact hex
    cases r with
    | error e => exact ⟨_, .patch hD hl hperm hsort hr⟩
    | ok sub =>
      obtain ⟨-, -, d3, -, d5, -⟩ := greedy_spec (good_reduced h.good fs) hD
      have hind : ∀ x ∈ D, ∀ y ∈ D, g.hasEdge x y → fs / 3 ≤ δ x y := fun x hx y hy hxy => by
        by_contra hlt
        exact d5 x hx y hy ((hasEdge_reduced h).2 ⟨hxy, not_le.1 hlt⟩)
      have hs : PatchInv g δ D sub := by
        rcases patchLoop_inv h d3 hind hl hr [] (fun t => by simpa using hperm.mem_iff) (by simpa using hsort) (patchInv_init h D) (by simp) with he | ⟨sub', he, hs⟩
        · cases he
        · simp only [Except.ok.injEq] at he; subst he; exact hs
      by_cases hw : ∃ e ∈ sub.edges, e.2.2.weight = none
      · obtain ⟨e, he, hew⟩ := hw
        exact ⟨_, .remove hD hl hperm hsort hr (.noWeight he hew)⟩
      · push Not at hw
        obtain ⟨so, hp, hs'⟩ := exists_sorted (fun e : V × V × DSAttr => -e.2.2.weight.getD 0) sub.edges
        obtain ⟨r, hrl⟩ := removeLoop_exists (so.map fun e => (e.1, e.2.1)) sub hs.good fun e he => by
          obtain ⟨k, hk, rfl⟩ := List.mem_map.1 he
          have hk := hp.mem_iff.1 hk
          exact ⟨hs.good.left k hk, .single ⟨k, hk, .inl ⟨rfl, rfl⟩⟩⟩
        exact ⟨_, .remove hD hl hperm hsort hr (.ok hw hp (hs'.imp fun h => by linarith) hrl)⟩

/-- **C62.**  On a cluster, the dominating-set method returns only if one position is closer than a third of `feature_size` to all others, and then it returns the graph with this single node and no
edges (which dominates the cluster).  Otherwise it raises `NetworkXNoPath` or a `TypeError`. -/
theorem C62_dominating_set {cs : CoordSys d} (hb : ProperBox cs) {fs : ℝ} (hfs : 0 < fs) {positions posUnique : List (Vec d)} (hu : IsUniqueList positions posUnique)
    {c : NxGraph (Vec d) ℝ} (hc : c ∈ createClusters cs fs posUnique) {r} (hr : EvalDominating c cs.distance fs r) :
    r = .error .noPath ∨ r = .error .type ∨
    ∃ v ∈ c.nodes, ∃ rg, r = .ok rg ∧ rg.nodes = [v] ∧ rg.edges = [] ∧ (∀ x ∈ c.nodes, x ≠ v → cs.distance x v < fs / 3) ∧ SubgraphOf rg c ∧ Dominates rg c := by
  rcases C62_general (geoCluster_of_cluster hb hfs hu hc) hr with h | h | ⟨v, hv, rg, rfl, h1, h2, h3⟩
  · exact .inl h
  · exact .inr (.inl h)
  · refine .inr (.inr ⟨v, hv, rg, rfl, h1, h2, h3, ⟨?_, ?_⟩, fun x hx => ?_⟩)
    · rw [h1]; simpa using hv
    · rintro x y ⟨e, he, -⟩; rw [h2] at he; simp at he
    · rw [h1]
      by_cases hxv : x = v
      · exact .inl (by simp [hxv])
      · refine .inr ⟨v, by simp, ((C54_cluster_graph hb fs hu hc).2.2.1 x v).2 ⟨hx, hv, hxv, ?_⟩⟩
        linarith [h3 x hx hxv]

/-- The method always gives a result (it always stops). -/
theorem C62_terminates {cs : CoordSys d} (hb : ProperBox cs) {fs : ℝ} (hfs : 0 < fs) {positions posUnique : List (Vec d)} (hu : IsUniqueList positions posUnique)
    {c : NxGraph (Vec d) ℝ} (hc : c ∈ createClusters cs fs posUnique) : ∃ r, EvalDominating c cs.distance fs r :=
  evalDominating_exists (geoCluster_of_cluster hb hfs hu hc) ((C51_clusters_partition cs fs hu).2 c hc).1

/-- So it raises for every cluster in which no position is that close to all others, whatever the choices. -/
theorem C62_raises {cs : CoordSys d} (hb : ProperBox cs) {fs : ℝ} (hfs : 0 < fs) {positions posUnique : List (Vec d)} (hu : IsUniqueList positions posUnique)
    {c : NxGraph (Vec d) ℝ} (hc : c ∈ createClusters cs fs posUnique) (hspread : ∀ v ∈ c.nodes, ∃ x ∈ c.nodes, fs / 3 ≤ cs.distance x v) {r}
    (hr : EvalDominating c cs.distance fs r) : r = .error .noPath ∨ r = .error .type := by
  rcases C62_dominating_set hb hfs hu hc hr with h | h | ⟨v, hv, rg, -, -, -, h3, -⟩
  · exact .inl h
  · exact .inr h
  · obtain ⟨x, hx, hlt⟩ := hspread v hv
    by_cases hxv : x = v
    · subst hxv
      have := (geoCluster_of_cluster hb hfs hu hc).self x
      linarith
    · have := h3 x hx hxv; linarith

/-- The hypotheses are met: the cluster which contains `1`, `1.5` and `2`, with `feature_size = 0.6`, is spread out, and the method has a result. -/
example : ∃ c ∈ createClusters exBox 0.6 [![1], ![1.5], ![2]], (∀ v ∈ c.nodes, ∃ x ∈ c.nodes, (0.6 : ℝ) / 3 ≤ exBox.distance x v) ∧ ∃ r, EvalDominating c exBox.distance 0.6 r := by
  have hu : IsUniqueList [![1], ![1.5], (![2] : Vec 1)] [![1], ![1.5], ![2]] := ⟨ex_nodup, fun _ => Iff.rfl⟩
  have hch : Chain exBox 0.6 [![1], ![1.5], ![2]] ![1] ![1.5] := .single ⟨by simp, by simp, by rw [ex_dist]; norm_num [abs_le]⟩
  obtain ⟨c, hc, h1, h2⟩ := (C52_clusters_are_chains exBox_proper 0.6 hu ![1] ![1.5]).2 ⟨by simp, by simp, hch⟩
  refine ⟨c, hc, fun v hv => ?_, evalDominating_exists (geoCluster_of_cluster exBox_proper (by norm_num) hu hc) (List.ne_nil_of_mem h1)⟩
  obtain ⟨t, rfl⟩ : ∃ t : ℝ, v = ![t] := ⟨v 0, by funext i; fin_cases i; rfl⟩
  by_cases ht : t ≤ 1.25
  · exact ⟨_, h2, by rw [ex_dist]; rw [abs_of_nonneg (by linarith)]; linarith⟩
  · push Not at ht
    exact ⟨_, h1, by rw [ex_dist]; rw [abs_of_nonpos (by linarith)]; linarith⟩

end NF
