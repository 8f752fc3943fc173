import Verif.Lemmas.ShortestPath
import Verif.Model.FloatShortestPath
import Verif.Spec.FloatShortestPath

/-! # The shortest-path method in floating-point arithmetic -/

noncomputable section
open Classical

namespace NF
open Spec NxGraph
variable {V A B : Type} {L : FL.SPLib V} {rnd : ℝ → ℝ}

theorem flShape_updateNeighbourWeights (node : V) (m : ℝ) (g : NxGraph V (ℝ × ℝ)) : SameShape (FL.updateNeighbourWeights rnd node m g) g :=
  sameShape_foldl _ (fun _ _ => sameShape_updateEdge _ _ _ _) _ _

theorem flShape_updateHighDegree (rg : NxGraph V Unit) (gh : NxGraph V (ℝ × ℝ) × List V) : SameShape (FL.updateHighDegree rnd rg gh).1 gh.1 := by
  unfold FL.updateHighDegree
  generalize rg.nodes = l
  induction l generalizing gh with
  | nil => exact sameShape_refl _
  | cons a l ih =>
    rw [List.foldl_cons]
    refine sameShape_trans (ih _) ?_
    split_ifs
    · exact flShape_updateNeighbourWeights _ _ _
    · exact sameShape_refl _

theorem flShape_updateWeights (v : SPVars V) : SameShape (FL.updateWeights rnd v).work v.work := by
  unfold FL.updateWeights FL.updateDegreeOne
  simp only
  exact sameShape_trans (sameShape_foldl _ (fun _ _ => flShape_updateNeighbourWeights _ _ _) _ _)
    (sameShape_trans (sameShape_foldl _ (fun _ _ => flShape_updateNeighbourWeights _ _ _) _ _) (flShape_updateHighDegree _ _))

theorem flShape_initialWeights (fs : ℝ) (g : NxGraph V ℝ) : SameShape (FL.initialWeights L rnd fs g) g := by
  refine ⟨?_, rfl⟩
  unfold FL.initialWeights
  simp [Function.comp_def]

theorem flSpStep_inv (hL : SPAccurate L) {g : NxGraph V ℝ} (hg : GoodGraph g) (hconn : Connected g) {s s' : SPState V} (hs : SPInv g s) (hst : FL.SPStep L rnd s s') :
    SPInv g s' ∧ spMeasure g s' < spMeasure g s := by
  cases hst with
  | @finish v hc =>
    obtain ⟨h1, h2, -⟩ := hs
    refine ⟨⟨h1.good, h1.sub, h1.conn, ?_, fun x hx => (h2 x hx).elim (fun h => by rw [hc] at h; simp at h) id⟩, by simp [spMeasure]⟩
    obtain ⟨y, hy⟩ := List.exists_mem_of_ne_nil _ h1.startsNe
    exact List.ne_nil_of_mem (h1.starts y hy)
  | @newEnd v endPos todo he hp =>
    obtain ⟨h1, h2, h3⟩ := hs
    have hlt : (removeAll v.cand (closedNeighbors v.work endPos)).length < v.cand.length := by
      refine lt_of_le_of_ne (List.length_filter_le _ _) fun heq => ?_
      have := List.length_filter_eq_length_iff.1 heq endPos he
      simp [closedNeighbors] at this
    refine ⟨⟨⟨h1.shape, h1.good, h1.sub, h1.conn, h1.starts, h1.startsNe, fun x hx => h1.cand x (mem_removeAll.1 hx).1⟩, fun x hx => ?_, by simp only; omega, h1.cand _ he,
      fun s hs => hp.mem_iff.1 hs, .inr fun h => ?_⟩, ?_⟩
    · rcases h2 x hx with h | h
      · by_cases hcl : closedNeighbors v.work endPos x
        · exact .inr (.inr ((closedNeighbors_congr (sameShape_hasEdge h1.shape)).1 hcl))
        · exact .inl (mem_removeAll.2 ⟨h, hcl⟩)
      · exact .inr (.inl h)
    · subst h; exact h1.startsNe (List.Perm.nil_eq hp).symm
    · simp only [spMeasure]
      rw [hp.length_eq]
      have : ((removeAll v.cand (closedNeighbors v.work endPos)).length + 1) * (22 * g.nodes.length + 3) ≤ v.cand.length * (22 * g.nodes.length + 3) := Nat.mul_le_mul_right _ hlt
      rw [Nat.add_mul] at this
      omega
  | @lastStart v endPos =>
    obtain ⟨h1, h2, h3, h4, h5, h6⟩ := hs
    have hend : endPos ∈ v.rg.nodes := h6.elim id (fun h => absurd rfl h)
    refine ⟨⟨⟨h1.shape, h1.good, h1.sub, h1.conn, fun s hs => ?_, by simp, h1.cand⟩, fun x hx => ?_, by simp; omega⟩, by simp [spMeasure]⟩
    · simp at hs; rcases hs with hs | rfl
      exacts [h1.starts s hs, hend]
    · rcases h2 x hx with h | h | h
      · exact .inl h
      · exact .inr h
      · exact .inr (h.elim (fun h => .inl (h ▸ hend)) fun h => .inr ⟨endPos, hend, hasEdge_symm.1 (mem_neighbors.1 h)⟩)
  | @start v endPos s todo hp =>
    obtain ⟨h1, h2, h3, h4, h5, h6⟩ := hs
    have hsh : SameShape (FL.updateWeights rnd v).work g := sameShape_trans (flShape_updateWeights v) h1.shape
    have hs' : s ∈ v.starts := h5 s (by simp)
    refine ⟨⟨⟨hsh, h1.good, h1.sub, h1.conn, h1.starts, h1.startsNe, h1.cand⟩, h2, h3, h4, fun x hx => h5 x (by simp [hx]), hs',
      sameShape_good hsh hg, ?_, fun x y => (sameShape_hasEdge hsh x y).1, fun _ => hsh, fun h => absurd h (lt_irrefl _), fun h => ?_, Nat.zero_le _⟩, ?_⟩
    · rw [hsh.2]; exact h1.sub.1 s (h1.starts s hs')
    · simp only [decide_eq_false_iff_not] at h
      rintro ⟨p, hp1, hp2⟩
      exact h ⟨p, isPath_mono (fun x y => (sameShape_hasEdge hsh x y).2) hp1, hp2⟩
    · have : (FL.updateWeights rnd v).cand = v.cand := rfl
      simp only [spMeasure, this, List.length_cons]
      omega
  | @noPath v endPos s todo hp =>
    obtain ⟨h1, h2, h3, h4, h5, h6⟩ := hs
    exfalso
    apply hp
    have hsh : SameShape (FL.updateWeights rnd v).work g := sameShape_trans (flShape_updateWeights v) h1.shape
    obtain ⟨p, hp⟩ := exists_path_of_reach (hconn s (h1.sub.1 s (h1.starts s (h5 s (by simp)))) endPos h4)
    exact ⟨p, isPath_mono (fun x y => (sameShape_hasEdge hsh x y).2) hp⟩
  | @lastPath v endPos todo s tmp single n hn =>
    obtain ⟨h1, h2, h3, h4, h5, h6, h7, h8, h9, h10, h11, h12, h13⟩ := hs
    have hnpos : 0 < n := by
      by_contra h0
      have h0 : n = 0 := by omega
      rcases hn with h | h | h
      · rw [h0] at h; simp [maxNumPaths] at h
      · omega
      · apply h
        obtain ⟨p, hp⟩ := exists_path_of_reach (hconn s (h1.sub.1 s (h1.starts s h6)) endPos h4)
        exact ⟨p, isPath_mono (fun x y => (sameShape_hasEdge (h10 h0) x y).2) hp⟩
    refine ⟨⟨h1, h2, h3, h4, h5, .inl (h11 hnpos)⟩, ?_⟩
    simp only [spMeasure]
    simp only [maxNumPaths] at h13
    omega
  | @assertion v endPos todo s tmp single n path hn hsn hex hdij hno hsingle =>
    obtain ⟨h1, h2, h3, h4, h5, h6, h7, h8, h9, h10, h11, h12, h13⟩ := hs
    exfalso
    refine h12 hsingle (exists_short_path (isPath_mono h9 (hL.isPath hdij)) fun x hx => ?_)
    by_contra hx'
    apply hno
    refine ⟨x, ⟨x, hx, .inl rfl⟩, fun h => hx' ?_⟩
    exact h.imp (closedNeighbors_congr (sameShape_hasEdge h1.shape)).1 (closedNeighbors_congr (sameShape_hasEdge h1.shape)).1
  | @path v endPos todo s tmp single n path hn hsn hex hdij hor =>
    obtain ⟨h1, h2, h3, h4, h5, h6, h7, h8, h9, h10, h11, h12, h13⟩ := hs
    obtain ⟨l, rfl⟩ : ∃ l, path = s :: l := by
      have := (hL.isPath hdij).head
      cases path with
      | nil => simp at this
      | cons a l => simp at this; exact ⟨l, by rw [this]⟩
    obtain ⟨k1, k2, k3, k4, k5, -⟩ := addPath_spec hg l s v.rg ((hL.isPath hdij).chain.imp h9) (h1.starts s h6) h1.good h1.sub h1.conn
    have hle : (removeAll v.cand (newNeighbours tmp (s :: l))).length ≤ v.cand.length := List.length_filter_le _ _
    have hend : endPos ∈ s :: l := List.mem_of_getLast? (hL.isPath hdij).last
    have hgz : GoodGraph (zeroWeights tmp (s :: l)) := sameShape_good (sameShape_zeroWeights _ _) h7
    refine ⟨⟨⟨sameShape_trans (sameShape_zeroWeights _ _) h1.shape, k1, k2, k3, fun x hx => k4 x (h1.starts x hx), h1.startsNe, fun x hx => h1.cand x (mem_removeAll.1 hx).1⟩,
      fun x hx => ?_, by simp only; omega, h4, h5, h6, goodGraph_subgraph hgz _, ?_, fun x y hxy => ?_, fun h => by omega, fun _ => k5 _ hend, h12, hn⟩, ?_⟩
    · rcases h2 x hx with h | h | h
      · by_cases hnn : newNeighbours tmp (s :: l) x
        · refine .inr (.inl ?_)
          obtain ⟨node, hnode, rfl | hnb⟩ := hnn
          · exact .inl (k5 _ hnode)
          · exact .inr ⟨node, k5 node hnode, hasEdge_symm.1 (h9 _ _ (mem_neighbors.1 hnb))⟩
        · exact .inl (mem_removeAll.2 ⟨h, hnn⟩)
      · exact .inr (.inl (dominated_mono k4 h))
      · exact .inr (.inr h)
    · refine mem_subgraph.2 ⟨?_, fun h => h.2 (.inl (.inl rfl))⟩
      rw [(sameShape_zeroWeights _ _).2]; exact h8
    · exact h9 x y ((sameShape_hasEdge (sameShape_zeroWeights _ _) x y).1 (hasEdge_subgraph.1 hxy).1)
    · simp only [spMeasure]
      simp only [maxNumPaths] at hn
      have := Nat.mul_le_mul_right (22 * g.nodes.length + 3) hle
      omega

theorem flSpInit_inv {fs : ℝ} {g : NxGraph V ℝ} (hne : g.nodes ≠ []) {s : SPState V} (hi : FL.SPInit L rnd fs g s) : SPInv g s ∧ spMeasure g s ≤ g.nodes.length * (22 * g.nodes.length + 3) := by
  cases hi with
  | empty h => exact absurd h hne
  | @first p hp =>
    have hsh := flShape_initialWeights (L := L) (rnd := rnd) fs g
    have hlt : (removeAll g.nodes (closedNeighbors (FL.initialWeights L rnd fs g) p)).length < g.nodes.length := by
      refine lt_of_le_of_ne (List.length_filter_le _ _) fun heq => ?_
      have := List.length_filter_eq_length_iff.1 heq p hp
      simp [closedNeighbors] at this
    have hm : ∀ x, x ∈ (NxGraph.empty.addNode p : NxGraph V Unit).nodes ↔ x = p := fun x => by rw [mem_addNode]; simp [NxGraph.empty]
    have hne' : ∀ x y, ¬ (NxGraph.empty.addNode p : NxGraph V Unit).hasEdge x y := fun x y h => by
      obtain ⟨e, he, -⟩ := hasEdge_addNode.1 h; simp [NxGraph.empty] at he
    refine ⟨⟨⟨hsh, goodGraph_addNode goodGraph_empty _, ⟨fun x hx => ?_, fun x y h => absurd h (hne' x y)⟩, fun x hx y hy => ?_, fun s hs => ?_, by simp, fun x hx => (mem_removeAll.1 hx).1⟩,
      fun x hx => ?_, by simp only [List.length_singleton]; omega⟩, ?_⟩
    · rw [(hm x).1 hx]; exact hp
    · rw [(hm x).1 hx, (hm y).1 hy]; exact .refl
    · simp at hs; exact (hm s).2 hs
    · by_cases hcl : closedNeighbors (FL.initialWeights L rnd fs g) p x
      · right
        rcases (closedNeighbors_congr (sameShape_hasEdge hsh)).1 hcl with rfl | h
        · exact .inl ((hm _).2 rfl)
        · exact .inr ⟨p, (hm p).2 rfl, hasEdge_symm.1 (mem_neighbors.1 h)⟩
      · exact .inl (mem_removeAll.2 ⟨hx, hcl⟩)
    · simp only [spMeasure]
      have : ((removeAll g.nodes (closedNeighbors (FL.initialWeights L rnd fs g) p)).length + 1) * (22 * g.nodes.length + 3) ≤ g.nodes.length * (22 * g.nodes.length + 3) := Nat.mul_le_mul_right _ hlt
      rw [Nat.add_mul] at this
      omega

theorem flSpRun_inv (hL : SPAccurate L) {fs : ℝ} {g : NxGraph V ℝ} (hg : GoodGraph g) (hconn : Connected g) (hne : g.nodes ≠ []) {n : ℕ} {s : SPState V} (hr : FL.SPRun L rnd fs g n s) :
    SPInv g s ∧ n + spMeasure g s ≤ g.nodes.length * (22 * g.nodes.length + 3) := by
  induction hr with
  | init hi => obtain ⟨h1, h2⟩ := flSpInit_inv hne hi; exact ⟨h1, by omega⟩
  | step _ hst ih => obtain ⟨h1, h2⟩ := flSpStep_inv hL hg hconn ih.1 hst; exact ⟨h1, by omega⟩

theorem flSpStep_total (hL : SPAccurate L) {g : NxGraph V ℝ} {s : SPState V} (hs : SPInv g s) : (∃ rg, s = .done rg) ∨ ∃ s', FL.SPStep L rnd s s' := by
  cases s with
  | done rg => exact .inl ⟨rg, rfl⟩
  | error e => exact absurd hs (by simp [SPInv])
  | head v =>
    right
    by_cases hc : v.cand = []
    · exact ⟨_, .finish hc⟩
    · obtain ⟨x, hx⟩ := List.exists_mem_of_ne_nil _ hc
      exact ⟨_, .newEnd hx (List.Perm.refl _)⟩
  | forStart v endPos todo =>
    right
    cases todo with
    | nil => exact ⟨_, .lastStart⟩
    | cons s todo =>
      by_cases h : ∃ p, (FL.updateWeights rnd v).work.IsPath s endPos p
      · exact ⟨_, .start h⟩
      · exact ⟨_, .noPath h⟩
  | forPath v endPos todo s tmp single n =>
    right
    obtain ⟨h1, h2, h3, h4, h5, h6, h7, h8, h9, h10, h11, h12, h13⟩ := hs
    by_cases hstop : n = maxNumPaths ∨ (single = true ∧ n = 1) ∨ (¬ ∃ p, tmp.IsPath s endPos p)
    · exact ⟨_, .lastPath hstop⟩
    · push Not at hstop
      obtain ⟨hn, hsn, hp⟩ := hstop
      obtain ⟨p, hp'⟩ := hL.total h7 h8 hp
      by_cases hr : (∃ x, nodesToRemove v.work tmp s endPos p x) ∨ single = true
      · exact ⟨_, .path (lt_of_le_of_ne h13 hn) (by tauto) hp hp' hr⟩
      · exact ⟨_, .assertion (lt_of_le_of_ne h13 hn) (by tauto) hp hp' (by tauto) (by simpa using fun h => hr (.inr h))⟩

end NF
