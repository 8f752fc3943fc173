import Verif.Lemmas.RingInv

/-! # The shortest-path method on a closed line: all steps -/

noncomputable section
open Classical
namespace NF
open Spec NxGraph
variable {V A : Type}

section
variable {g : NxGraph V ℝ} {w σ : V → V → ℝ} {L m κ : ℝ}

/-- What the variables are after a path has been added. -/
def addPathVars (v : SPVars V) (tmp : NxGraph V (ℝ × ℝ)) (path : List V) : SPVars V :=
  { v with
    cand := removeAll v.cand (newNeighbours tmp path)
    rg := (pathEdges path).foldl (fun h e => h.addEdge e.1 e.2 ()) v.rg
    work := zeroWeights v.work path }

/-- The first path to a node that is not next to the arc, or to its end. -/
theorem first_arc (h : Looped g w σ L m κ) (hg : GoodGraph g) {v : SPVars V} (hc : SPCore g v) {e s : V} (he : e ∈ g.nodes) (hs : s ∈ v.starts) (ha : ArcVars g w v) (hone : OneSpec v)
    (hor : (OpenArc g σ m v ∧ ∀ y ∈ v.rg.nodes, ¬ closedNeighbors g y e) ∨ EndArc g σ L m v e) {path : List V} (hp : IsShortestPath v.work s e path) :
    ArcVars g w (addPathVars v v.work path) ∧ (Short g s e → EndArc g σ L m (addPathVars v v.work path) e) ∧
    (¬ Short g s e → FirstPath g w σ L (addPathVars v v.work path) e s ((zeroWeights v.work path).removeNodes (nodesToRemove v.work v.work s e path))) := by
  have hedge := sameShape_hasEdge hc.shape
  have hpg : g.IsPath s e path := isPath_mono (fun x y => (hedge x y).1) hp.1
  have hsr := hc.starts s hs
  obtain ⟨l, hl⟩ := exists_cons hp.1.head
  have hadd := addPath_spec hg l s v.rg (by rw [← hl]; exact hpg.chain) hsr hc.good hc.sub hc.conn
  rw [← hl] at hadd
  obtain ⟨k1, k2, k3, k4, k5, k6⟩ := hadd
  have hwp := weighted_path hg hc.shape hc.sub ha.weights hpg.chain
  have hcand : ∀ x ∈ removeAll v.cand (newNeighbours v.work path), (∀ y ∈ v.rg.nodes, ¬ closedNeighbors g y x) ∧ ∀ y ∈ path, ¬ closedNeighbors g y x := by
    intro x hx
    obtain ⟨hx1, hx2⟩ := mem_removeAll.1 hx
    exact ⟨ha.cand x hx1, fun y hy hcl => hx2 ⟨y, hy, (closedNeighbors_congr hedge).2 hcl⟩⟩
  have hA : ArcVars g w (addPathVars v v.work path) := by
    refine ⟨hwp, ha.one, fun x hx y hy => ?_⟩
    rcases (mem_addPath _ _ _).1 hy with h | ⟨⟨a, b⟩, hab, hy'⟩
    · exact (hcand x hx).1 y h
    · have := consecutive_mem (mem_pathEdges.1 hab)
      exact (hcand x hx).2 y (by rcases hy' with rfl | rfl; exacts [this.1, this.2])
  have hpr : path.IsChain ((pathEdges path).foldl (fun h e => h.addEdge e.1 e.2 ()) v.rg).hasEdge := by
    rw [chain_iff_consecutive]
    exact fun x y hxy => (addPath_hasEdge _ _ _ _).2 (.inr (.inl (mem_pathEdges.2 hxy)))
  have hf1out : ∀ x, x ∉ v.rg.nodes → endFactor v.one x = 1 := fun x hx => if_neg fun h => hx ((hone x).1 h).1
  refine ⟨hA, ?_⟩
  -- the new arc
  obtain ⟨σ', hσ', P', q1, q2, q3, q4, a, q5, q6, q7, q8⟩ : ∃ σ', Either σ σ' ∧ ∃ P', PathGraph ((pathEdges path).foldl (fun h e => h.addEdge e.1 e.2 ()) v.rg) (e :: P') ∧
      (e :: P').IsChain (Fwd g σ') ∧ sumAlong σ' (e :: P') < L ∧ (Short g s e → sumAlong σ' (e :: P') ≤ 13 * m) ∧ ∃ a, (e :: P').getLast? = some a ∧ a ∈ v.starts ∧
      (∀ x, endFactor v.one a ≤ endFactor v.one x) ∧ (∀ y, g.hasEdge y e → endFactor v.one e ≤ endFactor v.one y) := by
    rcases hor with ⟨⟨σ1, hσ1, P, hP, hF, hsum, hends⟩, hout⟩ | ⟨σ1, hσ1, P', hP, hF, hlt, hsum, a, has, hal⟩
    · have h1 := hσ1.looped h
      obtain ⟨σ2, hσ2, P', r1, r2, r3, r4, a, r5, r6⟩ := extend_arc h1 hg he (sameShape_good hc.shape hg) hc.good hc.sub hc.conn ha.weights hP hF hout (endFactor_pos _) (endFactor_le _)
        (fun b hb x => end_min hc.good hP hone hb x) hf1out hsr hp
      refine ⟨σ2, hσ1.trans hσ2, P', r1, r2, r3, fun hsh => ?_, a, r5, hends a r6, fun x => end_min hc.good hP hone r6 x, fun y hy => ?_⟩
      · obtain ⟨q, hq, hql⟩ := hsh
        have hq' : v.work.IsPath s e q := isPath_mono (fun x y => (hedge x y).2) hq
        have h2 := hp.2 q hq'
        have h3 := weight_bound h1 ha.weights (endFactor_pos _) (endFactor_le _) q hq.chain (by rintro rfl; simpa using hq.head)
        have h4 : (q.length : ℝ) ≤ 5 := by exact_mod_cast hql
        have hκ := h.hκ
        have hm := h.hm
        have h5 : κ * pathWeight v.work path ≤ κ * pathWeight v.work q := mul_le_mul_of_nonneg_left h2 hκ.le
        nlinarith
      · rw [hf1out e (fun h => hout e h (.inl rfl)), hf1out y (fun h => hout y h (.inr (mem_neighbors.2 hy)))]
    · have her : e ∈ v.rg.nodes := (hP.2.1 e).1 (by simp)
      have hin := inside_chain hedge (ha.weights.zeroOn h (endFactor_pos _)) hc.sub hc.conn hsr her hp
      exact ⟨σ1, hσ1, P', addPath_inside hc.good hP hin, hF, hlt, fun _ => hsum, a, hal, has, fun x => end_min hc.good hP hone (.inr hal) x, fun y _ => end_min hc.good hP hone (.inl rfl) y⟩
  refine ⟨fun hsh => ⟨σ', hσ', P', q1, q2, q3, q4 hsh, a, q6, q5⟩, fun hfar => ?_⟩
  have h' := hσ'.looped h
  obtain ⟨t, hcut⟩ := h'.cut e he
  have hse : s ≠ e := by rintro rfl; exact hfar (short_self s)
  obtain ⟨X, Y, rfl⟩ := exists_split ((List.mem_cons.1 ((q1.2.1 s).2 (k4 s hsr))).resolve_left hse)
  rw [← List.cons_append] at q1 q2 q3 q5
  have hnear := PathGraph.near h' hg hcut k2 q1 q2 q3 hpr hp.1.nodup hp.1.head hp.1.last hfar
  refine ⟨σ', hσ', t, path, v.work, hcut, hnear, hedge, rfl, .inr ⟨hwp, fun x hx => (hcand x hx).2, X, Y, a, q1, q2, q3, ?_, q7, q8, fun x hx => hf1out x fun hx' => hx (k4 x hx')⟩⟩
  rwa [List.getLast?_append_of_ne_nil _ (by simp)] at q5

/-- The first path when the result is closed. -/
theorem first_shut (h : Looped g w σ L m κ) (hg : GoodGraph g) {v : SPVars V} (hc : SPCore g v) {e s : V} (hs : s ∈ v.starts) (hv : ShutVars g σ L v) (he : e ∈ v.rg.nodes) {path : List V}
    (hp : IsShortestPath v.work s e path) : ShutVars g σ L (addPathVars v v.work path) ∧ e ∈ (addPathVars v v.work path).rg.nodes ∧
    (¬ Short g s e → FirstPath g w σ L (addPathVars v v.work path) e s ((zeroWeights v.work path).removeNodes (nodesToRemove v.work v.work s e path))) := by
  have hedge := sameShape_hasEdge hc.shape
  have hpg : g.IsPath s e path := isPath_mono (fun x y => (hedge x y).1) hp.1
  have hsr := hc.starts s hs
  obtain ⟨⟨σ', hσ', b, Q, hR⟩, hz, hcand⟩ := id hv
  have hin := inside_chain hedge hz hc.sub hc.conn hsr he hp
  obtain ⟨hn, hed⟩ := addPath_same hc.good hin
  have hz' := zeroOn_path hg hc.shape hc.sub hz hpg.chain
  have hS : ShutVars g σ L (addPathVars v v.work path) := ⟨⟨σ', hσ', b, Q, hR.congr hn hed⟩, hz', by simp [addPathVars, hcand, removeAll]⟩
  refine ⟨hS, (hn e).2 he, fun hfar => ?_⟩
  have hse : s ≠ e := by rintro rfl; exact hfar (short_self s)
  obtain ⟨Q', hR'⟩ := hR.rotate ((hR.1.2.2.1 e).2 he)
  obtain ⟨X, Y, rfl⟩ := exists_split ((List.mem_cons.1 ((hR'.1.2.2.1 s).2 hsr)).resolve_left hse)
  obtain ⟨σ'', hσ'', t, X', Y', n1, n2, n3⟩ := hR'.near (hσ'.looped h) hg hc.good hc.sub hin hp.1.nodup hp.1.head hp.1.last hfar
  exact ⟨σ'', hσ'.trans hσ'', t, path, v.work, n1, n3, hedge, rfl, .inl ⟨hS, X', Y', n2.congr hn hed⟩⟩

/-- The second path. -/
theorem second_path (h : Looped g w σ L m κ) (hg : GoodGraph g) {v : SPVars V} (hc : SPCore g v) {e s : V} (hs : s ∈ v.starts) {tmp : NxGraph V (ℝ × ℝ)} (hv : FirstPath g w σ L v e s tmp)
    (he : e ∈ v.rg.nodes) {path : List V} (hp : IsShortestPath tmp s e path) : ShutVars g σ L (addPathVars v tmp path) ∧
    ¬ ∃ q, ((zeroWeights tmp path).removeNodes (nodesToRemove v.work tmp s e path)).IsPath s e q := by
  have hedge := sameShape_hasEdge hc.shape
  have hwg := sameShape_good hc.shape hg
  have hsr := hc.starts s hs
  obtain ⟨σ', hσ', t, path1, work0, hcut, hn, hwork0, rfl, hor⟩ := hv
  have h' := hσ'.looped h
  have hpg : g.IsPath s e path := isPath_mono (fun x y hxy => (hedge x y).1 (hasEdge_subgraph.1 hxy).1) hp.1
  have hzs : ∀ x y, (zeroWeights (v.work.removeNodes (nodesToRemove work0 work0 s e path1)) path).hasEdge x y ↔ (v.work.removeNodes (nodesToRemove work0 work0 s e path1)).hasEdge x y :=
    sameShape_hasEdge (sameShape_zeroWeights _ path)
  rcases hor with ⟨hS, X, Y, hR⟩ | ⟨hw, hcand, X, Y, a, q1, q2, q3, q4, q5, q6, q7⟩
  · obtain ⟨r1, r2⟩ := hR.second h' hg hcut hc.good hc.sub hn hwork0 hwork0 hwg hedge hS.weights hp
    obtain ⟨hnn, hed⟩ := addPath_same hc.good r1
    refine ⟨⟨⟨σ', hσ', e, _, hR.congr hnn hed⟩, zeroOn_path hg hc.shape hc.sub hS.weights hpg.chain, by simp [addPathVars, hS.cand, removeAll]⟩, ?_⟩
    exact hn.no_third h' hg hcut hwork0 hwork0 hedge hp.1 r2 hedge hzs
  · have hz := hw.zeroOn h (endFactor_pos _)
    obtain ⟨⟨Q, hR⟩, hpl⟩ := close_arc h' hg hcut hc.good hc.sub q1 q2 q3 q4 hn hwork0 hwork0 hwg hw (endFactor_pos _) (endFactor_le _) q5 q6 q7 (by
      rw [hc.shape.2]
      exact hc.sub.1 s hsr) hp
    refine ⟨⟨⟨σ', hσ', e, Q, hR⟩, zeroOn_path hg hc.shape hc.sub hz hpg.chain, ?_⟩, hn.no_third h' hg hcut hwork0 hwork0 hedge hp.1 hpl hedge hzs⟩
    refine List.eq_nil_iff_forall_not_mem.2 fun x hx => ?_
    obtain ⟨hx1, hx2⟩ := mem_removeAll.1 (show x ∈ removeAll v.cand (newNeighbours (v.work.removeNodes (nodesToRemove work0 work0 s e path1)) path) from hx)
    rcases hn.covered h' hg hcut hwork0 hwork0 hedge hp.1 hpl (hc.cand x hx1) with ⟨-, -, y, hy, hcl⟩ | hcov
    · exact hcand x hx1 y hy hcl
    · exact hx2 hcov

theorem spStep_ring (h : Looped g w σ L m κ) (hg : GoodGraph g) (hconn : Connected g) {s s' : SPState V} (hi : SPInv g s) (hs : RingInv g w σ L m s) (hst : SPStep s s') : RingInv g w σ L m s' := by
  cases hst with
  | @finish v hcand =>
    rcases hs with hs | ⟨-, σ', hσ', P, hP, hF, hsum, -⟩
    · exact hs.ring
    · exfalso
      obtain ⟨hc, hd, -⟩ := hi
      cases P with
      | nil =>
        obtain ⟨y, hy⟩ := List.exists_mem_of_ne_nil _ hc.startsNe
        exact absurd ((hP.2.1 y).2 (hc.starts y hy)) (by simp)
      | cons b P =>
        obtain ⟨x, hx, hnd⟩ := arc_not_all (hσ'.looped h) hg hc.sub hP hF hsum
        rcases hd x hx with h1 | h1
        · rw [hcand] at h1; simp at h1
        · exact hnd h1
  | @newEnd v e todo he hp =>
    rcases hs with hs | ⟨ha, ho⟩
    · rw [hs.cand] at he; simp at he
    · right; left
      exact ⟨⟨ha.weights, ha.one, fun x hx => ha.cand x (mem_removeAll.1 hx).1⟩, ho, ha.cand e he, fun s hs => hp.mem_iff.2 hs⟩
  | @lastStart v e =>
    obtain ⟨hc, -⟩ := hi
    rcases hs with ⟨hs, -⟩ | ⟨-, -, -, hall⟩ | ⟨ha, ⟨σ', hσ', P', hP, hF, hlt, hsum, a, has, hal⟩, hall⟩
    · exact .inl ⟨hs.ring, hs.weights, hs.cand⟩
    · obtain ⟨y, hy⟩ := List.exists_mem_of_ne_nil _ hc.startsNe
      exact absurd (hall y hy) (by simp)
    · right
      refine ⟨⟨ha.weights, ha.one, ha.cand⟩, σ', hσ', e :: P', hP, hF, ?_, fun b hb => ?_⟩
      · have h' := hσ'.looped h
        have hm := h.hm
        have hbig := h.big
        have heg : e ∈ g.nodes := hc.sub.1 e ((hP.2.1 e).1 (by simp))
        obtain ⟨t, hcut⟩ := h'.cut e heg
        have hlin := hcut.along hg (by linarith) hF hlt
        have hta := sumAlong_linear P' e a hlin hal
        rw [hcut.self, sub_zero] at hta
        rcases hall a has with h1 | h1
        · simp at h1
        · by_contra hcon
          exact hcut.short h' h1 (by linarith) (by linarith)
      · rcases hb with hb | hb
        · simp at hb; simp [hb]
        · rw [hal] at hb
          cases hb
          simp [has]
  | @start v e s todo hp =>
    obtain ⟨hc, -, -, -, -, -⟩ := hi
    have hsh := sameShape_trans (sameShape_updateWeights v) hc.shape
    refine ⟨fun _ => ⟨rfl, fun hsi => ?_, ?_⟩, fun h => absurd h (lt_irrefl _), fun h => absurd h (by omega), fun h => absurd h (by omega)⟩
    · obtain ⟨p, hp, hl⟩ := of_decide_eq_true hsi
      exact ⟨p, isPath_mono (fun x y => (sameShape_hasEdge hsh x y).1) hp, hl⟩
    · rcases hs with ⟨hs, her⟩ | ⟨ha, ho, hout, hall⟩ | ⟨ha, ho, hall⟩
      · exact .inl ⟨⟨hs.ring, zeroOn_update hg hc.shape hc.sub hs.weights, hs.cand⟩, her⟩
      · obtain ⟨σ', hσ', P, hP, hF, hsum, hends⟩ := ho
        obtain ⟨k1, k2, k3⟩ := weighted_update hg hc.shape hc.good hP hc.sub ha.weights ha.one
        exact .inr (.inl ⟨⟨k1, k2, ha.cand⟩, k3, ⟨σ', hσ', P, hP, hF, hsum, hends⟩, hout, fun s' hs' => List.mem_cons.1 (hall s' hs')⟩)
      · obtain ⟨σ', hσ', P', hP, hrest⟩ := ho
        obtain ⟨k1, k2, k3⟩ := weighted_update hg hc.shape hc.good hP hc.sub ha.weights ha.one
        refine .inr (.inr ⟨⟨k1, k2, ha.cand⟩, k3, ⟨σ', hσ', P', hP, hrest⟩, fun s' hs' => ?_⟩)
        rcases hall s' hs' with h1 | h1
        · rcases List.mem_cons.1 h1 with h1 | h1
          · exact .inl h1
          · exact .inr (.inl h1)
        · exact .inr (.inr h1)
  | noPath => trivial
  | @lastPath v e todo s tmp single n hn =>
    obtain ⟨h1, h2, h3, h4, h5, h6, h7, h8, h9, h10, h11, h12, h13⟩ := hi
    obtain ⟨i1, i2, i3, i4⟩ := hs
    have hsg := h1.sub.1 s (h1.starts s h6)
    rcases Nat.eq_zero_or_pos n with h0 | h0
    · exfalso
      rcases hn with hn | hn | hn
      · rw [h0] at hn; simp [maxNumPaths] at hn
      · omega
      · obtain ⟨p, hp⟩ := exists_path_of_reach (hconn s hsg e h4)
        exact hn ⟨p, isPath_mono (fun x y => (sameShape_hasEdge (h10 h0) x y).2) hp⟩
    · cases hsi : single with
      | true =>
        rcases (i2 h0 hsi).2 with hh | hh
        · exact .inl hh
        · exact .inr (.inr hh)
      | false =>
        rcases Nat.lt_or_ge 1 n with h2 | h2
        · exact .inl ⟨(i4 h2 hsi).1, (i4 h2 hsi).2.1⟩
        · exfalso
          have hn1 : n = 1 := by omega
          rcases hn with hn | hn | hn
          · rw [hn1] at hn; simp [maxNumPaths] at hn
          · rw [hsi] at hn; simp at hn
          · obtain ⟨σ', hσ', t, path1, work0, hcut, hnear, hwork0, rfl, -⟩ := i3 hn1 hsi
            exact hn (hnear.exists_second (hσ'.looped h) hg hcut hwork0 hwork0 (sameShape_hasEdge h1.shape))
  | assertion => trivial
  | @path v e todo s tmp single n path hn hsn hpath hor =>
    obtain ⟨h1, h2, h3, h4, h5, h6, h7, h8, h9, h10, h11, h12, h13⟩ := hi
    obtain ⟨i1, i2, i3, i4⟩ := hs
    rcases Nat.eq_zero_or_pos n with h0 | h0
    · obtain ⟨rfl, j1, j2⟩ := i1 h0
      have hfar : single = false → ¬ Short g s e := fun hsi => h12 hsi
      rcases j2 with ⟨hS, her⟩ | hA
      · obtain ⟨k1, k2, k3⟩ := first_shut (w := w) h hg h1 h6 hS her hpath
        refine ⟨fun h => by omega, fun _ _ => ⟨by omega, .inl ⟨k1, k2⟩⟩, fun _ hsi => k3 (hfar hsi), fun h => by omega⟩
      · obtain ⟨ha, hone, hor', hall⟩ : ArcVars g w v ∧ OneSpec v ∧ ((OpenArc g σ m v ∧ ∀ y ∈ v.rg.nodes, ¬ closedNeighbors g y e) ∨ EndArc g σ L m v e) ∧ ∀ s' ∈ v.starts, s' = s ∨ s' ∈ todo ∨ Short g s' e := by
          rcases hA with ⟨a1, a2, a3, a4, a5⟩ | ⟨a1, a2, a3, a5⟩
          · refine ⟨a1, a2, .inl ⟨a3, a4⟩, fun s' hs' => ?_⟩
            rcases a5 s' hs' with hh | hh
            · exact .inl hh
            · exact .inr (.inl hh)
          · exact ⟨a1, a2, .inr a3, a5⟩
        obtain ⟨k1, k2, k3⟩ := first_arc h hg h1 h4 h6 ha hone hor' hpath
        refine ⟨fun h => by omega, fun _ hsi => ⟨by omega, .inr ⟨k1, k2 (j1 hsi), fun s' hs' => ?_⟩⟩, fun _ hsi => k3 (hfar hsi), fun h => by omega⟩
        rcases hall s' hs' with rfl | hh | hh
        · exact .inr (j1 hsi)
        · exact .inl hh
        · exact .inr hh
    · have hsi : single = false := by
        cases hsi : single with
        | false => rfl
        | true => exact absurd ⟨hsi, (i2 h0 hsi).1⟩ hsn
      rcases Nat.lt_or_ge 1 n with h2 | h2
      · exact absurd ⟨path, hpath.1⟩ (i4 h2 hsi).2.2
      · have hn1 : n = 1 := by omega
        obtain ⟨k1, k2⟩ := second_path h hg h1 h6 (i3 hn1 hsi) (h11 h0) hpath
        refine ⟨fun h => by omega, fun _ h => by rw [hsi] at h; simp at h, fun h => by omega, fun _ _ => ⟨k1, (mem_addPath _ _ _).2 (.inl (h11 h0)), k2⟩⟩

theorem spInit_ring {fs : ℝ} {δ : V → V → ℝ} (hm : 0 < m) (hδ : ∀ x y, δ x y = δ y x) (hattr : ∀ e ∈ g.edges, e.2.2 = δ e.1 e.2.1) {s : SPState V} (hi : SPInit fs g s) :
    RingInv g (fun x y => fs * (δ x y / fs + (δ x y / fs) ^ 2)) σ L m s := by
  cases hi with
  | empty => trivial
  | @first p hp =>
    have hno : ∀ x y, ¬ (NxGraph.empty.addNode p : NxGraph V Unit).hasEdge x y := fun x y h => by
      obtain ⟨e, he, -⟩ := hasEdge_addNode.1 h; simp [NxGraph.empty] at he
    right
    refine ⟨⟨⟨sameShape_hasEdge (sameShape_initialWeights fs g), fun x y h => absurd h (hno x y), fun x y h _ => ?_⟩, by simp, fun x hx y hy => ?_⟩, σ, .inl rfl, [p], pathGraph_single p, by simp, ?_, fun b hb => ?_⟩
    · rw [edgeWeight_initial hδ hattr h]
      simp [endFactor]
    · have : y = p := by simpa [mem_addNode, NxGraph.empty] using hy
      subst this
      exact fun h => (mem_removeAll.1 hx).2 ((closedNeighbors_congr (sameShape_hasEdge (sameShape_initialWeights fs g))).2 h)
    · simp only [sumAlong]; linarith
    · simpa [eq_comm] using hb

/-- On a long closed line, the result goes round once. -/
theorem shortest_ring {fs : ℝ} (hg : GoodGraph g) (hconn : Connected g) (hne : g.nodes ≠ []) {δ : V → V → ℝ} (hδ : ∀ x y, δ x y = δ y x) (hattr : ∀ e ∈ g.edges, e.2.2 = δ e.1 e.2.1)
    (h : Looped g (fun x y => fs * (δ x y / fs + (δ x y / fs) ^ 2)) σ L m κ) {n : ℕ} {s : SPState V} (hr : SPRun fs g n s) : RingInv g (fun x y => fs * (δ x y / fs + (δ x y / fs) ^ 2)) σ L m s := by
  induction hr with
  | init hi => exact spInit_ring h.hm hδ hattr hi
  | step hr hst ih => exact spStep_ring h hg hconn (spRun_inv hg hconn hne hr).1 ih hst

end

end NF
