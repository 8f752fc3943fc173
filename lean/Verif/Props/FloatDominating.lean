import Verif.Lemmas.FloatDominating
import Verif.Props.FloatLines

/-!
# C118: the dominating-set line evaluation in double precision

`FL.EvalDominating L rnd g dist fs r` : the dominating-set method can give the result `r` (a graph or an exception) for the graph `g`, where `dist` are the computed distances.
-/

noncomputable section
open Classical

namespace NF
open Spec NxGraph CoordSys
variable {V A B : Type} {d : ℕ} {rnd : ℝ → ℝ} {L : FL.DSLib V} {g : NxGraph V ℝ} {lam δ dist : V → V → ℝ} {fs η : ℝ}

set_option maxHeartbeats 4000000 in
/-- While holes are patched, no edge between two nodes of the dominating set gets a weight. -/
theorem flPatchLoop_weights (hr : IsNearest rnd) (hL : DSAccurate L) (h : NearGeo g lam δ dist fs η) {D : List V} (hDn : ∀ x ∈ D, x ∈ g.nodes)
    (hind : ∀ x ∈ D, ∀ y ∈ D, g.hasEdge x y → rnd (fs / 3) ≤ lam x y) {l : List (V × V × ℝ)}
    (hl : FL.toPatch L rnd (dsSubgraph g D) (FL.dsGraphCopy L g) dist fs (pairs2 (dsSubgraph g D).nodes) = .ok l) :
    ∀ {rest : List (V × V × ℝ)} {sub : NxGraph V DSAttr} {r}, FL.PatchLoop L rnd (FL.dsGraphCopy L g) rest sub r → ∀ done : List (V × V × ℝ),
    (∀ t, t ∈ done ++ rest ↔ t ∈ l) → (done ++ rest).Pairwise (fun a b => a.2.2 ≤ b.2.2) → PatchInv g lam D sub → (∀ t ∈ done, Within sub lam t.1 t.2.1 (2 * t.2.2 + 0.005 * fs)) →
    r = .error .noPath ∨ ∃ sub', r = .ok sub' ∧ PatchInv g lam D sub' := by
  intro rest sub r hrun
  have hpos := h.pos
  have hgC := sameShape_good (flSameShape_copy L g) h.good
  have hmemS : ∀ x ∈ D, x ∈ (dsSubgraph g D).nodes := fun x hx => mem_dsSubgraph.2 ⟨hDn x hx, hx⟩
  obtain ⟨htp1, htp2⟩ := flToPatch_spec hl
  have r2 := abs_le.1 (rnd_small hr (x := 2 * fs) (by linarith))
  have r3 := abs_le.1 (rnd_small hr (x := fs / 3) (by linarith))
  -- pairs which are clearly closer than the current one are already fine
  have claimA : ∀ {sub : NxGraph V DSAttr} {done rest : List (V × V × ℝ)} {o : ℝ}, PatchInv g lam D sub → (∀ t, t ∈ done ++ rest ↔ t ∈ l) → (∀ t ∈ rest, o ≤ t.2.2) →
      (∀ t ∈ done, Within sub lam t.1 t.2.1 (2 * t.2.2 + 0.005 * fs)) → o < rnd (2 * fs) → ∀ a ∈ D, ∀ b ∈ D, ∀ c, 0 ≤ c → Within (FL.dsGraphCopy L g) lam a b c → c ≤ o - 0.3 * fs →
      Within sub lam a b (2 * c + 0.03 * fs) := by
    intro sub done rest o hs hmem hle hdone ho a ha b hb c hc0 hc hco
    have hδ := h.within (hDn a ha) hc
    have hsm := h.small (hDn a ha)
    by_cases hab : a = b
    · subst hab
      exact within_mono (fun _ _ h => h) (by norm_num; linarith) (within_refl sub lam a)
    by_cases hnear : δ a b ≤ fs - η
    · have hG := h.close a (hDn a ha) b (hDn b hb) hab hnear
      have hE : (dsSubgraph g D).hasEdge a b := hasEdge_dsSubgraph.2 ⟨hG, ha, hb⟩
      have hlam := abs_le.1 (h.near a b hG)
      exact within_mono (fun _ _ h => h) (by norm_num; linarith) (within_edge (hs.le a b hE))
    push Not at hnear
    have key : ∀ x ∈ D, ∀ y ∈ D, (x, y) ∈ pairs2 (dsSubgraph g D).nodes → fs - η < δ x y → Within (FL.dsGraphCopy L g) lam x y c → Within sub lam x y (2 * c + 0.03 * fs) := by
      intro x hx y hy hxy hfar hw
      obtain ⟨e, he, het⟩ := htp1 _ hxy
      have hc19 : c ≤ 1.9 * fs := by norm_num at *; linarith
      rcases flPatchEntry_bound hr hL h (hmemS x hx) (hmemS y hy) hfar hw hc19 he with ⟨t, rfl, rfl, rfl, -, htc⟩ | hS
      · have htl := het t rfl
        rcases List.mem_append.1 ((hmem t).2 htl) with ht | ht
        · exact within_mono (fun _ _ h => h) (by norm_num at *; linarith) (hdone t ht)
        · have := hle t ht
          exfalso
          norm_num at *
          linarith
      · exact within_mono hs.le (by norm_num; linarith) hS
    rcases pairs2_mem (hmemS a ha) (hmemS b hb) hab with hp | hp
    · exact key a ha b hb hp hnear hc
    · exact within_symm h.symmL (key b hb a ha hp (by rw [h.symm]; exact hnear) (within_symm h.symmL hc))
  induction hrun with
  | @nil sub => intro done _ _ hs _; exact .inr ⟨sub, rfl, hs⟩
  | noPath => intro _ _ _ _ _; exact .inl rfl
  | @skip sub a b o rest r x hx hle _ ih =>
    intro done hmem hsort hs hdone
    have hab : (a, b, o) ∈ l := (hmem _).1 (by simp)
    obtain ⟨q, hq, hqe⟩ := htp2 _ hab
    obtain ⟨-, -, e3, e4⟩ := flPatchEntry_some hqe
    simp only at e3 e4
    obtain ⟨-, -, ho0⟩ := flLength_spec hL h.symmL h.nonnegL (flDistOK_copy h.attr) e3
    refine ih (done ++ [(a, b, o)]) (fun t => by rw [List.append_assoc]; exact hmem t) (by rw [List.append_assoc]; exact hsort) hs fun t ht => ?_
    rcases List.mem_append.1 ht with ht | ht
    · exact hdone t ht
    · simp at ht; subst ht
      have r4 := abs_le.1 (rnd_small hr (x := 2 * o) (by linarith))
      refine within_mono (fun _ _ h => h) ?_ (flLength_spec hL h.symmL h.nonnegL hs.distOK hx).1
      push Not at hle
      norm_num at *
      linarith
  | @patch sub a b o rest r x p hx hgt hp _ ih =>
    intro done hmem hsort hs hdone
    have hab : (a, b, o) ∈ l := (hmem _).1 (by simp)
    obtain ⟨q, hq, hqe⟩ := htp2 _ hab
    obtain ⟨e1, e2, e3, e4⟩ := flPatchEntry_some hqe
    simp only at e1 e2 e3 e4
    have hqm := mem_pairs2 (a := q.1) (b := q.2) hq
    rw [← e1, ← e2] at hqm
    rw [← e1, ← e2] at e3
    have haD := (mem_dsSubgraph.1 hqm.1)
    have hbD := (mem_dsSubgraph.1 hqm.2)
    have hshort := (flLength_spec hL h.symmL h.nonnegL hs.distOK hx).2.1
    obtain ⟨⟨w, hw, hwl⟩, -, ho0⟩ := flLength_spec hL h.symmL h.nonnegL (flDistOK_copy h.attr) e3
    have hE : ∀ u v, (FL.dsGraphCopy L g).hasEdge u v ↔ g.hasEdge u v := sameShape_hasEdge (flSameShape_copy L g)
    have hpath := hL.paths hp
    have hcongr : ∀ {q}, (FL.dsGraphCopy L g).IsPath a b q → pathLength (edgeDist (FL.dsGraphCopy L g)) q = pathLength lam q := fun hq =>
      pathLength_congr (fun u v huv => edgeDist_eq h.symmL (flDistOK_copy h.attr) huv) hq.chain
    have hplen : pathLength lam p ≤ 1.001 * (1.001 * o) := by
      obtain ⟨q', hq1, hq2⟩ := exists_path_le_walk h.nonnegL _ w le_rfl hw
      have h1 := hL.shortest (edgeDist_nonneg (flDistOK_copy h.attr) h.nonnegL) hp q' hq1
      rw [hcongr hpath, hcongr hq1] at h1
      norm_num at *
      linarith
    have hlerest : ∀ t ∈ (a, b, o) :: rest, o ≤ t.2.2 := by
      intro t ht
      rcases List.mem_cons.1 ht with rfl | ht
      · exact le_rfl
      · have := (List.pairwise_append.1 hsort).2.1
        exact (List.pairwise_cons.1 this).1 t ht
    have hpe : ∀ e ∈ pathEdges p, g.hasEdge e.1 e.2 := fun e he => (hE _ _).1 (pathEdges_hasEdge hpath.chain e he)
    have hnoD : ∀ e ∈ pathEdges p, ¬ (e.1 ∈ D ∧ e.2 ∈ D) := by
      rintro ⟨u, v⟩ he ⟨hu, hv⟩
      simp only at hu hv
      obtain ⟨s1, s2, rfl⟩ := split_at_edge he
      have huv := hpe _ he
      simp only at huv
      have hd := hind u hu v hv huv
      have hlen := pathLength_append lam s1 u (v :: s2)
      rw [pathLength_cons] at hlen
      have n1 := pathLength_nonneg h.nonnegL (s1 ++ [u])
      have n2 := pathLength_nonneg h.nonnegL (v :: s2)
      obtain ⟨c1, c2, c3⟩ := (⟨hpath.head, hpath.last, hpath.chain⟩ : IsWalk _ a b _)
      have w1 : IsWalk (FL.dsGraphCopy L g) a u (s1 ++ [u]) := ⟨by cases s1 <;> simpa using c1, by simp, by
        rw [show s1 ++ u :: v :: s2 = (s1 ++ [u]) ++ v :: s2 by simp, List.isChain_append] at c3; exact c3.1⟩
      have w2 : IsWalk (FL.dsGraphCopy L g) v b (v :: s2) := ⟨rfl, by
        rw [show s1 ++ u :: v :: s2 = (s1 ++ [u]) ++ v :: s2 by simp, List.getLast?_append] at c2
        cases hg : (v :: s2).getLast? with
        | none => simp at hg
        | some y => rw [hg] at c2; simpa using c2, by
        rw [show s1 ++ u :: v :: s2 = (s1 ++ [u]) ++ v :: s2 by simp, List.isChain_append] at c3; exact c3.2.1⟩
      have q1 : pathLength lam (s1 ++ [u]) ≤ o - 0.3 * fs := by norm_num at *; linarith
      have q2 : pathLength lam (v :: s2) ≤ o - 0.3 * fs := by norm_num at *; linarith
      have k1 := claimA hs hmem hlerest hdone e4 a haD.2 u hu _ n1 ⟨_, w1, le_rfl⟩ q1
      have k2 := claimA hs hmem hlerest hdone e4 v hv b hbD.2 _ n2 ⟨_, w2, le_rfl⟩ q2
      have k3 := within_edge (δ := lam) (hs.le u v (hasEdge_dsSubgraph.2 ⟨huv, hu, hv⟩))
      have k4 := hshort _ (within_trans (within_trans k1 k3) k2)
      have r4 := abs_le.1 (rnd_small hr (x := 2 * o) (by linarith))
      norm_num at *
      linarith
    have hpn : ∀ x ∈ p, x ∈ g.nodes := fun x hx => by
      have := isPath_mem hgC hpath (by rw [(flSameShape_copy L g).2]; exact haD.1) x hx
      rwa [(flSameShape_copy L g).2] at this
    obtain ⟨m1, m2, m3⟩ := flPatchHole_spec (L := L) h hs hpe hpn hnoD
    refine ih (done ++ [(a, b, o)]) (fun t => by rw [List.append_assoc]; exact hmem t) (by rw [List.append_assoc]; exact hsort) m1 fun t ht => ?_
    rcases List.mem_append.1 ht with ht | ht
    · exact within_mono m2 le_rfl (hdone t ht)
    · simp at ht; subst ht
      refine ⟨p, ⟨hpath.head, hpath.last, ?_⟩, by norm_num at *; linarith⟩
      have hch : ∀ (q : List V), (∀ e ∈ pathEdges q, (patchHole sub (FL.dsGraphCopy L g) p).hasEdge e.1 e.2) → q.IsChain (patchHole sub (FL.dsGraphCopy L g) p).hasEdge := by
        intro q
        induction q with
        | nil => intro _; simp
        | cons x q ihq =>
          intro hq
          cases q with
          | nil => simp
          | cons y q =>
            rw [List.isChain_cons_cons]
            exact ⟨hq (x, y) (by simp [pathEdges]), ihq fun e he => hq e (by simp only [pathEdges, List.tail_cons, List.zip_cons_cons] at he ⊢; exact List.mem_cons_of_mem _ he)⟩
      exact hch p m3

theorem flHasEdge_reduced (h : NearGeo g lam δ dist fs η) {x y : V} : (FL.dsReduced rnd fs g).hasEdge x y ↔ g.hasEdge x y ∧ lam x y < rnd (fs / 3) := by
  unfold FL.dsReduced hasEdge
  simp only [List.mem_map, List.mem_filter, decide_eq_true_eq]
  constructor
  · rintro ⟨e, ⟨k, ⟨hk1, hk2⟩, rfl⟩, hj⟩
    refine ⟨⟨k, hk1, hj⟩, ?_⟩
    rw [h.attr k hk1] at hk2
    rcases hj with ⟨h1, h2⟩ | ⟨h1, h2⟩
    · simp only at h1 h2; rwa [h1, h2] at hk2
    · simp only at h1 h2; rw [h1, h2] at hk2; rwa [h.symmL]
  · rintro ⟨⟨k, hk1, hj⟩, hlt⟩
    refine ⟨_, ⟨k, ⟨hk1, ?_⟩, rfl⟩, hj⟩
    rw [h.attr k hk1]
    rcases hj with ⟨h1, h2⟩ | ⟨h1, h2⟩
    · rw [h1, h2]; exact hlt
    · rw [h1, h2, h.symmL]; exact hlt

/-- **C118** (for any symmetric distance with the triangle inequality, and computed distances near it). -/
theorem C118_general (hr : IsNearest rnd) (hL : DSAccurate L) (h : NearGeo g lam δ dist fs η) {r} (hrun : FL.EvalDominating L rnd g dist fs r) :
    r = .error .noPath ∨ r = .error .type ∨ ∃ v ∈ g.nodes, ∃ rg, r = .ok rg ∧ rg.nodes = [v] ∧ rg.edges = [] ∧ ∀ x ∈ g.nodes, x ≠ v → g.hasEdge v x ∧ lam v x < rnd (fs / 3) := by
  have hpos := h.pos
  have r2 := abs_le.1 (rnd_small hr (x := 2 * fs) (by linarith))
  have r3 := abs_le.1 (rnd_small hr (x := fs / 3) (by linarith))
  cases hrun with
  | collect _ he => exact .inl (by rw [flToPatch_error he])
  | @patch D l sorted e hD hl hperm hsort hloop =>
    left
    have : ∀ {ls sub} {r : Except Err (NxGraph V DSAttr)}, FL.PatchLoop L rnd (FL.dsGraphCopy L g) ls sub r → ∀ e, r = .error e → e = .noPath := by
      intro ls sub r hlp
      induction hlp with
      | nil => intro e he; cases he
      | noPath => intro e he; cases he; rfl
      | skip _ _ _ ih => exact ih
      | patch _ _ _ _ ih => exact ih
    rw [this hloop e rfl]
  | @remove D l sorted sub r hD hl hperm hsort hloop hrem =>
    obtain ⟨d1, d2, d3, -, d5, d6⟩ := greedy_spec (flGood_reduced h.good fs) hD
    have hDn : ∀ x ∈ D, x ∈ g.nodes := d3
    have hind : ∀ x ∈ D, ∀ y ∈ D, g.hasEdge x y → rnd (fs / 3) ≤ lam x y := fun x hx y hy hxy => by
      by_contra hlt
      exact d5 x hx y hy ((flHasEdge_reduced h).2 ⟨hxy, not_le.1 hlt⟩)
    have hdom : ∀ x ∈ g.nodes, x ∈ D ∨ ∃ y ∈ D, g.hasEdge y x ∧ lam y x < rnd (fs / 3) := by
      intro x hx
      rcases d6 x hx with h1 | h1 | ⟨y, hy, h1⟩
      · exact .inl h1
      · simp at h1
      · exact .inr ⟨y, hy, (flHasEdge_reduced h).1 h1⟩
    rcases flPatchLoop_weights hr hL h hDn hind hl hloop [] (fun t => by simpa using hperm.mem_iff) (by simpa using hsort) (flPatchInv_init h D) (by simp) with he | ⟨sub', he, hs⟩
    · cases he
    simp only [Except.ok.injEq] at he
    subst he
    obtain ⟨a, ha⟩ := List.exists_mem_of_ne_nil _ d1
    have hsm := h.small (hDn a ha)
    by_cases hsingle : ∀ b ∈ D, b = a
    · -- one node only
      right; right
      have hD1 : D = [a] := by
        cases D with
        | nil => simp at ha
        | cons b l =>
          have hb := hsingle b (by simp)
          cases l with
          | nil => rw [hb]
          | cons c l =>
            have hc := hsingle c (by simp)
            rw [hb, hc] at d2
            simp at d2
      subst hD1
      have hnodes : (dsSubgraph g [a]).nodes = [a] := by
        have hnd : (dsSubgraph g [a]).nodes.Nodup := (flPatchInv_init h [a]).good.nodup
        have hm : ∀ x, x ∈ (dsSubgraph g [a]).nodes ↔ x = a := fun x => by
          rw [mem_dsSubgraph, List.mem_singleton]
          exact ⟨fun h => h.2, fun h => ⟨h ▸ hDn a ha, h⟩⟩
        cases hn : (dsSubgraph g [a]).nodes with
        | nil => have := (hm a).2 rfl; rw [hn] at this; simp at this
        | cons b l =>
          rw [hn] at hm hnd
          have hb := (hm b).1 (by simp)
          cases l with
          | nil => rw [hb]
          | cons c l =>
            have hc := (hm c).1 (by simp)
            rw [hb, hc] at hnd
            simp at hnd
      have hedges : (dsSubgraph g [a]).edges = [] := by
        apply List.eq_nil_iff_forall_not_mem.2
        intro e he
        have : (dsSubgraph g [a]).hasEdge e.1 e.2.1 := ⟨e, he, .inl ⟨rfl, rfl⟩⟩
        obtain ⟨h1, h2, h3⟩ := hasEdge_dsSubgraph.1 this
        simp at h2 h3
        exact (goodGraph_edge h.good h1).2.2 (h2.trans h3.symm)
      have hl' : l = [] := by
        rw [hnodes] at hl
        simp [pairs2, FL.toPatch] at hl
        exact hl
      subst hl'
      have := hperm.eq_nil
      subst this
      cases hloop
      cases hrem with
      | noWeight he _ => rw [hedges] at he; simp at he
      | @ok so r _ hp _ hrl =>
        rw [hedges] at hp
        have := hp.eq_nil
        subst this
        cases hrl
        refine ⟨a, hDn a ha, _, rfl, hnodes, hedges, fun x hx hxa => ?_⟩
        rcases hdom x hx with h1 | ⟨y, hy, h1⟩
        · simp at h1
          exact absurd h1 hxa
        · simp at hy
          subst hy
          exact h1
    · -- two nodes of the dominating set are closer than two feature sizes
      push Not at hsingle
      obtain ⟨b, hb, hba⟩ := hsingle
      obtain ⟨c, hc, hca, hnear⟩ : ∃ c ∈ D, c ≠ a ∧ δ a c < 1.9 * fs := by
        by_contra hno
        push Not at hno
        have hclose : ∀ y z, g.hasEdge y z ∧ lam y z < rnd (fs / 3) → δ y z ≤ 0.35 * fs := by
          rintro y z ⟨h1, h2⟩
          have := abs_le.1 (h.near y z h1)
          norm_num at *
          linarith
        have key : ∀ x, Spec.Reach g a x → x = a ∨ (g.hasEdge a x ∧ lam a x < rnd (fs / 3)) := by
          intro x hx
          induction hx with
          | refl => exact .inl rfl
          | @tail y z hy hyz ih =>
            have hz := (goodGraph_edge h.good hyz).2.1
            have hyz' := h.far y z hyz
            have hay : δ a y ≤ 0.35 * fs := by
              rcases ih with rfl | ih
              · rw [h.self]; norm_num; linarith
              · exact hclose a y ih
            have h2 := h.triangle a y z
            rcases hdom z hz with hzD | ⟨w, hw, hzw⟩
            · by_cases hza : z = a
              · exact .inl hza
              · have h1 := hno z hzD hza
                exfalso
                norm_num at *
                linarith
            · by_cases hwa : w = a
              · exact .inr (hwa ▸ hzw)
              · have h1 := hno w hw hwa
                have h3 := h.triangle a z w
                have h4 := hclose w z hzw
                rw [h.symm w z] at h4
                exfalso
                norm_num at *
                linarith
        rcases key b (h.conn a (hDn a ha) b (hDn b hb)) with h1 | h1
        · exact hba h1
        · have := hind a ha b hb h1.1
          linarith [h1.2]
      -- so they are connected by edges of the subgraph
      have hmS : ∀ x ∈ D, x ∈ (dsSubgraph g D).nodes := fun x hx => mem_dsSubgraph.2 ⟨hDn x hx, hx⟩
      have hedge : ∀ x ∈ D, ∀ y ∈ D, x ≠ y → δ x y < 1.9 * fs → (x, y) ∈ pairs2 (dsSubgraph g D).nodes → ∃ u v, (dsSubgraph g D).hasEdge u v := by
        intro x hx y hy hxy hlt hp
        obtain ⟨o, ho, -⟩ := (flToPatch_spec hl).1 _ hp
        simp only at ho
        have hdxy := abs_le.1 (h.dist x (hDn x hx) y (hDn y hy))
        unfold FL.patchEntry at ho
        rw [if_pos (by norm_num at *; linarith)] at ho
        cases hsl : L.length (dsSubgraph g D) (edgeDist (dsSubgraph g D)) x y with
        | none => rw [hsl] at ho; simp at ho
        | some q =>
          obtain ⟨⟨w, hw, -⟩, -, -⟩ := flLength_spec hL h.symmL h.nonnegL (flPatchInv_init h D).distOK hsl
          obtain ⟨w1, w2, w3⟩ := hw
          cases w with
          | nil => simp at w1
          | cons u w =>
            cases w with
            | nil => simp at w1 w2; exact absurd (w1.symm.trans w2) hxy
            | cons v w => rw [List.isChain_cons_cons] at w3; exact ⟨u, v, w3.1⟩
      obtain ⟨u, v, huv⟩ : ∃ u v, (dsSubgraph g D).hasEdge u v := by
        rcases pairs2_mem (hmS a ha) (hmS c hc) (Ne.symm hca) with hp | hp
        · exact hedge a ha c hc (Ne.symm hca) hnear hp
        · exact hedge c hc a ha hca (by rw [h.symm]; exact hnear) hp
      obtain ⟨-, huD, hvD⟩ := hasEdge_dsSubgraph.1 huv
      obtain ⟨e, he, hj⟩ := hs.le u v huv
      have hew : e.2.2.weight = none := by
        apply hs.noWeight e he
        · rcases hj with ⟨h1, -⟩ | ⟨h1, -⟩ <;> rw [h1] <;> assumption
        · rcases hj with ⟨-, h1⟩ | ⟨-, h1⟩ <;> rw [h1] <;> assumption
      right; left
      cases hrem with
      | noWeight => rfl
      | ok hw => exact absurd hew (hw e he)

/-! ## Clusters of positions -/

variable {cs : CoordSys d} {positions : List (Vec d)} {M : Vec d}

theorem attr_comm {g : NxGraph V A} (x y : V) : g.attr? x y = g.attr? y x := by
  unfold attr?
  congr 2
  funext e
  have : joins e x y ↔ joins e y x := by
    unfold joins
    tauto
  simp only [this]

theorem attr_eq {g : NxGraph V A} (hg : GoodGraph g) {e : V × V × A} (he : e ∈ g.edges) : g.attr? e.1 e.2.1 = some e.2.2 := by
  obtain ⟨k, hk, hj, h⟩ := attr_some (g := g) ⟨e, he, .inl ⟨rfl, rfl⟩⟩
  rw [h]
  obtain ⟨i, rfl⟩ := List.mem_iff_get.1 hk
  obtain ⟨j, rfl⟩ := List.mem_iff_get.1 he
  have hs := List.pairwise_iff_get.1 hg.single
  rcases lt_trichotomy i j with hij | hij | hij
  · refine absurd ?_ (hs i j hij)
    unfold joins at hj ⊢
    rcases hj with ⟨h1, h2⟩ | ⟨h1, h2⟩
    · exact .inl ⟨h1.symm, h2.symm⟩
    · exact .inr ⟨h2.symm, h1.symm⟩
  · rw [hij]
  · exact absurd hj (hs j i hij)

/-- A cluster of positions meets the hypotheses of `C118_general`. -/
theorem nearGeo_of_cluster (hr : IsNearest rnd) (hb : ProperBox cs) (hM : Moderate cs positions M) (hfs : 0 < fs) {dist : Vec d → Vec d → ℝ} {g : NxGraph (Vec d) ℝ} (hc : IsCluster rnd cs fs positions dist g)
    (hsmall : positions.length * distanceError cs ≤ fs / 100) : NearGeo g (fun x y => (g.attr? x y).getD 0) cs.distance dist fs (distanceError cs) := by
  obtain ⟨hg, hconn, hmem, hd⟩ := isCluster_spec hc
  have hmet := C03_distance_metric cs hb
  have hnn := C115_lengths hr hc
  have hde : 0 ≤ distanceError cs := by unfold distanceError; positivity
  have herr : ∀ x ∈ g.nodes, ∀ y ∈ g.nodes, |dist x y - cs.distance x y| ≤ distanceError cs := fun x hx y hy =>
    moderate_dist hr hb hM (hmem x hx) (hmem y hy) (hc.1 x (hmem x hx) y (hmem y hy))
  have hnear : ∀ x y, g.hasEdge x y → |(g.attr? x y).getD 0 - cs.distance x y| ≤ distanceError cs ∧ (g.attr? x y).getD 0 ≤ fs := by
    intro x y hxy
    obtain ⟨n1, n2, -⟩ := goodGraph_edge hg hxy
    obtain ⟨e, he, hj, ha⟩ := attr_some hxy
    rw [ha, Option.getD_some]
    refine ⟨?_, (hd e he).2⟩
    rw [(hd e he).1]
    rcases hj with ⟨h1, h2⟩ | ⟨h1, h2⟩
    · rw [h1, h2]; exact herr x n1 y n2
    · rw [h1, h2, (hmet x y x).2.1]; exact herr y n2 x n1
  refine ⟨hg, hconn, fun x y hxy => ?_, fun x hx y hy hne hxy => ?_, fun e he => ?_, fun x y => ?_, fun x y => ?_, fun x y hxy => (hnear x y hxy).1, herr, fun x y => (hmet x y x).2.1,
    fun x y => (hmet x y x).1, fun x y z => (hmet x y z).2.2.1, fun x => ?_, hfs, hde, ?_⟩
  · obtain ⟨h1, h2⟩ := hnear x y hxy
    have := (abs_le.1 h1).1
    linarith
  · have h1 := (abs_le.1 (herr x hx y hy)).2
    have h2 := (abs_le.1 (herr y hy x hx)).2
    rw [(hmet y x x).2.1] at h2
    obtain ⟨-, pu, hu, hcc⟩ := hc
    unfold FL.createClusters at hcc
    simp only at hcc
    obtain ⟨s, hs, rfl⟩ := List.mem_map.1 hcc
    obtain ⟨x1, x2⟩ := mem_subgraph.1 hx
    obtain ⟨y1, y2⟩ := mem_subgraph.1 hy
    exact hasEdge_subgraph.2 ⟨flClusterEdges_mem x1 y1 hne (by linarith) (by linarith), x2, y2⟩
  · rw [attr_eq hg he, Option.getD_some]
  · rw [attr_comm]
  · by_cases hxy : g.hasEdge x y
    · obtain ⟨e, he, -, ha⟩ := attr_some hxy
      rw [ha, Option.getD_some]
      exact hnn e he
    · have : g.attr? x y = none := by
        unfold attr?
        rw [Option.map_eq_none_iff, List.find?_eq_none]
        intro e he h
        exact hxy ⟨e, he, by simpa using h⟩
      rw [this, Option.getD_none]
  · exact ((hmet x x x).2.2.2).2 (by unfold SamePoint; split; exacts [⟨0, by funext i; simp [shift]⟩, rfl])
  · have h1 : g.nodes.length ≤ positions.length := (List.subperm_of_subset hg.nodup hmem).length_le
    have h2 : (g.nodes.length : ℝ) ≤ positions.length := by exact_mod_cast h1
    exact (mul_le_mul_of_nonneg_right h2 hde).trans hsmall

/-- **C118 (the method).**  On a cluster of positions near a moderate box, if the errors of all distances together are below a hundredth of `feature_size`: in double precision, too, the dominating-set method returns only if one position is
closer than a third of `feature_size` (up to the errors) to all the others, and then it returns the graph with this single node and no edges.  Otherwise it raises `NetworkXNoPath` or a `TypeError`. -/
theorem C118_dominating_set (hr : IsNearest rnd) (hb : ProperBox cs) (hM : Moderate cs positions M) (hfs : 0 < fs) {L : FL.DSLib (Vec d)} (hL : DSAccurate L) {dist : Vec d → Vec d → ℝ}
    {g : NxGraph (Vec d) ℝ} (hc : IsCluster rnd cs fs positions dist g) (hsmall : positions.length * distanceError cs ≤ fs / 100) {r : Except Err (NxGraph (Vec d) DSAttr)}
    (h : FL.EvalDominating L rnd g dist fs r) :
    r = .error .noPath ∨ r = .error .type ∨
    ∃ v ∈ g.nodes, ∃ rg, r = .ok rg ∧ rg.nodes = [v] ∧ rg.edges = [] ∧ (∀ x ∈ g.nodes, x ≠ v → cs.distance x v < fs / 3 * (1 + 1 / 1000000) + distanceError cs) ∧ SubgraphOf rg g ∧ Dominates rg g := by
  have hgeo := nearGeo_of_cluster hr hb hM hfs hc hsmall
  rcases C118_general hr hL hgeo h with h | h | ⟨v, hv, rg, rfl, h1, h2, h3⟩
  · exact .inl h
  · exact .inr (.inl h)
  · refine .inr (.inr ⟨v, hv, rg, rfl, h1, h2, fun x hx hxv => ?_, ⟨?_, ?_⟩, fun x hx => ?_⟩)
    · obtain ⟨h4, h5⟩ := h3 x hx hxv
      have h6 := (abs_le.1 (hgeo.near v x h4)).1
      have h7 := (abs_le.1 (rnd_small hr (x := fs / 3) (by linarith))).2
      rw [hgeo.symm]
      linarith
    · rw [h1]; simpa using hv
    · rintro x y ⟨e, he, -⟩; rw [h2] at he; simp at he
    · rw [h1]
      by_cases hxv : x = v
      · exact .inl (by simp [hxv])
      · exact .inr ⟨v, by simp, hasEdge_symm.1 (h3 x hx hxv).1⟩

/-- **C118 (raises).**  So it raises for every cluster in which no position is that close to all others, whatever the choices: for every line that is longer than its `feature_size`. -/
theorem C118_raises (hr : IsNearest rnd) (hb : ProperBox cs) (hM : Moderate cs positions M) (hfs : 0 < fs) {L : FL.DSLib (Vec d)} (hL : DSAccurate L) {dist : Vec d → Vec d → ℝ}
    {g : NxGraph (Vec d) ℝ} (hc : IsCluster rnd cs fs positions dist g) (hsmall : positions.length * distanceError cs ≤ fs / 100)
    (hspread : ∃ x ∈ g.nodes, ∃ y ∈ g.nodes, 0.7 * fs ≤ cs.distance x y) {r : Except Err (NxGraph (Vec d) DSAttr)} (h : FL.EvalDominating L rnd g dist fs r) :
    r = .error .noPath ∨ r = .error .type := by
  have hgeo := nearGeo_of_cluster hr hb hM hfs hc hsmall
  rcases C118_dominating_set hr hb hM hfs hL hc hsmall h with h | h | ⟨v, hv, rg, -, -, -, h3, -⟩
  · exact .inl h
  · exact .inr h
  · exfalso
    obtain ⟨x, hx, y, hy, hxy⟩ := hspread
    have hsm := hgeo.small hv
    have key : ∀ z ∈ g.nodes, cs.distance z v ≤ 0.344 * fs := by
      intro z hz
      by_cases hzv : z = v
      · rw [hzv, hgeo.self]
        norm_num
        linarith
      · have := h3 z hz hzv
        norm_num at *
        linarith
    have h1 := key x hx
    have h2 := key y hy
    have h4 := hgeo.triangle x v y
    rw [hgeo.symm v y] at h4
    norm_num at *
    linarith

variable {R : FL.RunArith d}

/-- **C118 (the identification).**  If the identification in double precision with the method `dominating_set` returns, every cluster of dimension one is that small, and its line is a single node. -/
theorem C118_identify (hb : ProperBox cs) (hA : IdAccurate R.id cs positions) (hM : Moderate cs positions M) (hfs : 0 < fs) (hL : DSAccurate R.ds) (hsmall : positions.length * distanceError cs ≤ fs / 100)
    {out : IdContainer d} (h : FL.RunBy R positions cs fs "dominating_set" (.ok out)) {r : IdResult d} (hr : r ∈ out.results) (hdim : r.dimension = some 1) :
    (∀ x ∈ r.positions, ∀ y ∈ r.positions, cs.distance x y < 0.7 * fs) ∧ ∃ v ∈ r.positions, ∃ l, r.shape = some (.line l) ∧ l.graph.nodes = [v] ∧ l.graph.edges = [] := by
  obtain ⟨-, -, pu, hu, hall⟩ := flRunBy_ok h
  obtain ⟨c, hcc, hcr⟩ := forall₂_mem_right hall hr
  have hc : IsCluster R.id.rnd cs fs positions R.id.dist c := isCluster_mem hA hu hcc
  obtain ⟨e1, -, e3⟩ := flIdentifyCluster_ok hcr
  rw [hdim] at e3
  rw [e1]
  have hev : ∀ o, FL.EvaluateLine R c cs fs "dominating_set" o → ∃ o', FL.EvalDominating R.ds R.id.rnd c R.id.dist fs o' ∧ o = lineResult o' := by
    intro o ho
    generalize hms : "dominating_set" = ms at ho
    cases ho with
    | invalid _ h => exact absurd hms.symm h
    | ballistic => exact absurd hms (by decide)
    | ballisticError => exact absurd hms (by decide)
    | shortest => exact absurd hms (by decide)
    | shortestError => exact absurd hms (by decide)
    | dominating h => exact ⟨_, h, rfl⟩
  generalize hs : r.shape = s at e3
  generalize ho : (Except.ok s : Except Err (Option (Shape d))) = o at e3
  cases e3 with
  | line hl =>
    cases ho
    obtain ⟨o', h1, h2⟩ := hev _ hl
    refine ⟨fun x hx y hy => ?_, ?_⟩
    · by_contra hfar
      push Not at hfar
      rcases C118_raises hA.nearest hb hM hfs hL hc hsmall ⟨x, hx, y, hy, hfar⟩ h1 with rfl | rfl <;> cases h2
    · rcases C118_dominating_set hA.nearest hb hM hfs hL hc hsmall h1 with rfl | rfl | ⟨v, hv, rg, rfl, h3, h4, h5, -⟩
      · cases h2
      · cases h2
      · cases h2
        exact ⟨v, hv, _, rfl, h3, by unfold strip; simp [h4]⟩
  | lineWarning hl hw =>
    obtain ⟨o', h1, h2⟩ := hev _ hl
    rcases C118_dominating_set hA.nearest hb hM hfs hL hc hsmall h1 with rfl | rfl | ⟨v, hv, rg, rfl, h3, h4, h5, -⟩
    · cases h2; rcases hw with hw | hw <;> cases hw
    · cases h2; rcases hw with hw | hw <;> cases hw
    · cases h2
  | lineError => cases ho
  | other _ hn => exact absurd rfl hn

/-- **C118 (after a search).**  So `dominating_set` is of no use for what a search has found: if the identification of the found nodes returns, with the default feature size `fs` (that of the search, up to rounding), every cluster of
dimension one is smaller than `0.7 * fs` and its line is a single node. -/
theorem C118_search {A : FL.CtlArith d} {p : CtlParams d} {Res : Simplex d → SRes d → Prop} {n : ℕ} {c : Ctl d} (hS : FloatSearch A p Res) (hn : NearBox p Res) (hfs : 0 < p.featureSize) (h : FL.Reach A p Res n c)
    (hB : IdAccurate R.id p.coord (c.state.result.nodes.values.map fun r => r.pos)) (hL : DSAccurate R.ds) (hM : ModerateBox p.coord M) (hMb : ∀ i, |p.coord.lower i| + 2 * (p.coord.upper i - p.coord.lower i) ≤ M i)
    (hfew : (c.state.result.nodes.values.length : ℝ) / 2 ^ 53 ≤ 1 / 100) (hsmall : c.state.result.nodes.values.length * distanceError p.coord ≤ p.featureSize / 101)
    {out : IdContainer d} (hid : FL.IdentifyBy R (.container c.state.result) "dominating_set" none (.ok out)) :
    ∃ fs, |fs - p.featureSize| ≤ p.featureSize / 2 ^ 51 ∧ ∀ r ∈ out.results, r.dimension = some 1 →
      (∀ x ∈ r.positions, ∀ y ∈ r.positions, p.coord.distance x y < 0.7 * fs) ∧ ∃ v ∈ r.positions, ∃ l, r.shape = some (.line l) ∧ l.graph.nodes = [v] ∧ l.graph.edges = [] := by
  obtain ⟨fs, hpos, h1, h2⟩ := identifyBy_default (R := R) (method := "dominating_set") hS hfs hB.nearest h
  refine ⟨fs, h1, fun r hr hdim => C118_identify hS.box hB (search_moderate hS hn h hM hMb hfew) hpos hL ?_ ((h2 _).1 hid) hr hdim⟩
  rw [List.length_map]
  have := (abs_le.1 h1).1
  norm_num at this
  linarith

/-! ## The hypotheses are met -/

namespace C118Demo
open C116Demo

theorem exactDS_accurate (V : Type) : DSAccurate (exactDS V) where
  paths h := h.1
  length := by
    intro g f s t x hf h
    change shortestLength g f s t = some x at h
    unfold shortestLength at h
    split_ifs at h with hex
    simp only [Option.some.injEq] at h
    subst h
    have h0 := pathLength_nonneg hf hex.choose
    refine ⟨⟨_, hex.choose_spec.1, by norm_num; linarith⟩, fun p hp => ?_⟩
    have := hex.choose_spec.2 p hp
    norm_num
    linarith
  shortest := by
    intro g f s t p hf h q hq
    have h0 := pathLength_nonneg hf q
    have := h.2 q hq
    norm_num
    linarith

/-- the hypotheses of C118_dominating_set and C118_raises: two positions at a distance of `0.25` with a feature size of `0.3`; the method has a result, and it is an exception -/
example : ∃ g r, IsCluster C102Demo.rndEven exBox 0.3 [![1.125], ![0.875], (![9] : Vec 1)] demo.id.dist g ∧ FL.EvalDominating (exactDS (Vec 1)) C102Demo.rndEven g demo.id.dist 0.3 r ∧
    (r = .error .noPath ∨ r = .error .type) := by
  have hacc : IdAccurate demo.id exBox [![1.125], ![0.875], (![9] : Vec 1)] := C112Demo.accurate C102Demo.rndEven_nearest exBox _
  have hde : distanceError exBox ≤ 1 / 10 ^ 10 := by
    rw [distanceError_one]
    norm_num [exBox]
  have hde0 : 0 ≤ distanceError exBox := by unfold distanceError; positivity
  obtain ⟨pu, hu⟩ : ∃ pu, IsUniqueList [![1.125], ![0.875], (![9] : Vec 1)] pu := ⟨_, List.nodup_dedup _, fun x => List.mem_dedup⟩
  obtain ⟨h1, -⟩ := flClusters_partition (dist := demo.id.dist) 0.3 hu
  have hP : ∀ x ∈ [![1.125], ![0.875], (![9] : Vec 1)], ∃ g ∈ FL.createClusters demo.id.dist 0.3 pu, x ∈ g.nodes := fun x hx => by
    obtain ⟨i, hi, -⟩ := h1 x hx
    exact ⟨_, List.get_mem _ i, hi⟩
  obtain ⟨g, hg, hxg⟩ := hP ![1.125] (by simp)
  have hc : IsCluster C102Demo.rndEven exBox 0.3 [![1.125], ![0.875], (![9] : Vec 1)] demo.id.dist g := isCluster_mem (R := demo) hacc hu hg
  have hyg : ![0.875] ∈ g.nodes := by
    have key : ∀ p ∈ [![1.125], ![0.875], (![9] : Vec 1)], ∀ q ∈ [![1.125], ![0.875], (![9] : Vec 1)], exBox.distance p q ≤ 0.25 → demo.id.dist p q ≤ 0.3 := by
      intro p hp q hq hpq
      have := (abs_le.1 (moderate_dist hacc.nearest exBox_proper demo_moderate hp hq (hacc.dist p hp q hq))).2
      norm_num at *
      linarith
    unfold FL.createClusters at hg
    simp only at hg
    obtain ⟨s, hs, rfl⟩ := List.mem_map.1 hg
    obtain ⟨v, -, hv⟩ := (components_spec (goodGraph_fl (dist := demo.id.dist) (fs := 0.3) hu.1)).1 s hs
    have he : (⟨pu, FL.clusterEdges demo.id.dist 0.3 pu⟩ : NxGraph (Vec 1) ℝ).hasEdge ![1.125] ![0.875] := by
      refine flClusterEdges_mem ((hu.2 _).2 (by simp)) ((hu.2 _).2 (by simp)) (fun h => ?_) (key _ (by simp) _ (by simp) ?_) (key _ (by simp) _ (by simp) ?_)
      · have := congrFun h 0
        norm_num at this
      · rw [ex_dist]; norm_num [abs_le]
      · rw [ex_dist]; norm_num [abs_le]
    exact mem_subgraph.2 ⟨(hu.2 _).2 (by simp), (hv _).2 (((hv _).1 (mem_subgraph.1 hxg).2).tail he)⟩
  obtain ⟨r, hr⟩ := C116_dominating_terminates (rnd := C102Demo.rndEven) (exactDS_paths _) (exactDS_total _) (isCluster_spec hc).1 (isCluster_ne hc) (C115_lengths C102Demo.rndEven_nearest hc) demo.id.dist 0.3
  refine ⟨g, r, hc, hr, C118_raises C102Demo.rndEven_nearest exBox_proper demo_moderate (by norm_num) (exactDS_accurate _) hc ?_ ⟨_, hxg, _, hyg, ?_⟩ hr⟩
  · simp only [List.length_cons, List.length_nil]
    norm_num at *
    linarith
  · rw [ex_dist]
    norm_num [abs_of_nonneg]

/-- the hypotheses of C118_identify, but for the result: three positions, of which two are joined -/
example : ∃ r, FL.RunBy demo [![1.125], ![0.875], ![9]] exBox 2 "dominating_set" r ∧ ∀ out, r = .ok out → ∀ q ∈ out.results, q.dimension = some 1 → ∃ v ∈ q.positions, ∃ l, q.shape = some (.line l) ∧ l.graph.nodes = [v] := by
  have hacc : IdAccurate demo.id exBox [![1.125], ![0.875], (![9] : Vec 1)] := C112Demo.accurate C102Demo.rndEven_nearest exBox _
  have hde : distanceError exBox ≤ 1 / 10 ^ 10 := by
    rw [distanceError_one]
    norm_num [exBox]
  obtain ⟨⟨r, hr⟩, -⟩ := C116_dominating_run (R := demo) (fs := 2) exBox_proper hacc demo_moderate (exactDS_paths _) (exactDS_total _)
  refine ⟨r, hr, fun out ho q hq hdim => ?_⟩
  subst ho
  obtain ⟨-, v, hv, l, h1, h2, -⟩ := C118_identify exBox_proper hacc demo_moderate (by norm_num) (exactDS_accurate _) (by
    simp only [List.length_cons, List.length_nil]
    norm_num at *
    linarith) hr hq hdim
  exact ⟨v, hv, l, h1, h2⟩

/-- the hypotheses of C118_search, but for the result: the search of C113 on a circle -/
example : ∃ (A : FL.CtlArith 1) (R : FL.RunArith 1) (p : CtlParams 1) (P : NMParams) (c : Ctl 1) (res : Except Err (IdContainer 1)), IsNearest A.rnd ∧
    FloatReachLive A p (FloatLiveMinimization A p P C113Demo.gap) 1 c ∧ c.phase = .returned ∧ FL.IdentifyBy R (.container c.state.result) "dominating_set" none res ∧
    ∀ out, res = .ok out → ∀ r ∈ out.results, r.dimension = some 1 → ∃ v ∈ r.positions, ∃ l, r.shape = some (.line l) ∧ l.graph.nodes = [v] := by
  obtain ⟨p, P, hset⟩ := C113Demo.setup_ok (rnd := C102Demo.rndEven)
  obtain ⟨c, h1, h2⟩ := C113Demo.returns C102Demo.rndEven_nearest hset
  obtain ⟨hS, hper, hfs, h, hM, hMb, hfew, hsmall⟩ := C117Demo.meets C102Demo.rndEven_nearest hset h1
  let R : FL.RunArith 1 := ⟨C112Demo.arith C102Demo.rndEven p.coord, exactBlas, exactSP, exactDS _⟩
  have hB : IdAccurate R.id p.coord (c.state.result.nodes.values.map fun r => r.pos) := C112Demo.accurate C102Demo.rndEven_nearest p.coord _
  obtain ⟨fs, -, -, hiff⟩ := identifyBy_default (R := R) (method := "dominating_set") hS hfs hB.nearest h
  obtain ⟨⟨res, hres⟩, -⟩ := C116_dominating_run (R := R) (fs := fs) hS.box hB (search_moderate hS (.inl hper) h hM hMb hfew) (exactDS_paths _) (exactDS_total _)
  refine ⟨C103Demo.arith C102Demo.rndEven, R, p, P, c, res, C102Demo.rndEven_nearest, h1, h2, (hiff res).2 hres, fun out ho r hr hdim => ?_⟩
  subst ho
  obtain ⟨fs, -, h3⟩ := C118_search (R := R) hS (.inl hper) hfs h hB (exactDS_accurate _) hM hMb hfew hsmall ((hiff _).2 hres)
  obtain ⟨-, v, hv, l, k1, k2, -⟩ := h3 r hr hdim
  exact ⟨v, hv, l, k1, k2⟩

end C118Demo

end NF
