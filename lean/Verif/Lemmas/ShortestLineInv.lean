import Verif.Lemmas.ShortestLineRun

/-! # The shortest-path method on a line that goes in one direction: invariant -/

noncomputable section
open Classical
namespace NF
open Spec NxGraph
variable {V A : Type}

/-- The factor for an end of an edge: smaller at the ends of the result. -/
def endFactor (one : List V) (x : V) : ℝ := if x ∈ one then 0.1 else 1

theorem degree_le_two {g : NxGraph V A} (hg : GoodGraph g) {P : List V} (h : PathGraph g P) {x : V} (hx : x ∈ g.nodes) : g.degree x ≤ 2 := by
  rw [← nbrCount_eq_degree hg]
  rcases lt_or_ge P.length 2 with h2 | h2
  · have : ∀ y, ¬ g.hasEdge x y := by
      intro y hxy
      rcases (h.2.2 x y).1 hxy with ⟨a, b, e⟩ | ⟨a, b, e⟩ <;> rw [e] at h2 <;> simp at h2 <;> omega
    have e : nbrCount g x = 0 := by
      unfold nbrCount
      rw [List.length_eq_zero_iff, List.filter_eq_nil_iff]
      intro y _
      simp [this y]
    omega
  · rcases PathGraph.degrees hg h h2 ((h.2.1 x).2 hx) with h | h <;> omega

/-- The ends of a line with at least two nodes have degree one. -/
theorem degree_ends {g : NxGraph V A} (hg : GoodGraph g) {P : List V} (h : PathGraph g P) {x : V} (hx : P.getLast? = some x) (h2 : ∃ y ∈ g.nodes, g.degree y = 1) : g.degree x = 1 := by
  rcases lt_or_ge P.length 2 with hl | hl
  · exfalso
    obtain ⟨y, hy, h1⟩ := h2
    rw [← nbrCount_eq_degree hg] at h1
    obtain ⟨z, hz⟩ := exists_nbr hg h1.ge
    rcases (h.2.2 y z).1 hz with ⟨a, b, e⟩ | ⟨a, b, e⟩ <;> rw [e] at hl <;> simp at hl <;> omega
  · rw [← nbrCount_eq_degree hg]
    rcases PathGraph.degrees hg h hl (List.mem_of_getLast? hx) with h | h
    · exact h.1
    · exact absurd hx h.2.2

theorem weighted_update {g : NxGraph V ℝ} (hg : GoodGraph g) {w : V → V → ℝ} {v : SPVars V} (hs : SameShape v.work g) (hrg : GoodGraph v.rg) {P : List V} (hP : PathGraph v.rg P)
    (hsub : SubgraphOf v.rg g) (hw : Weighted g v.work v.rg (endFactor v.one) w) (hone : v.one.Nodup) :
    Weighted g (updateWeights v).work v.rg (endFactor (updateWeights v).one) w ∧ (updateWeights v).one.Nodup ∧ ∀ x, x ∈ (updateWeights v).one ↔ x ∈ v.rg.nodes ∧ v.rg.degree x = 1 := by
  have hhigh : updateHighDegree v.rg (v.work, v.high) = (v.work, v.high) := by
    unfold updateHighDegree
    have : ∀ l : List V, (∀ x ∈ l, x ∈ v.rg.nodes) → ∀ gh : NxGraph V (ℝ × ℝ) × List V,
        l.foldl (fun gh node => if v.rg.degree node > 2 ∧ node ∉ gh.2 then (updateNeighbourWeights node 0.5 gh.1, gh.2 ++ [node]) else gh) gh = gh := by
      intro l
      induction l with
      | nil => intro _ gh; rfl
      | cons a l ih =>
        intro hl gh
        rw [List.foldl_cons, if_neg (fun h => absurd (degree_le_two hrg hP (hl a (by simp))) (by omega))]
        exact ih (fun x hx => hl x (by simp [hx])) gh
    exact this _ (fun x hx => hx) _
  have hgw := sameShape_good hs hg
  have hmem : ∀ x, x ∈ (updateWeights v).one ↔ x ∈ v.rg.nodes ∧ v.rg.degree x = 1 := by
    intro x
    simp [updateWeights, updateDegreeOne]
  have hweight : ∀ x y, g.hasEdge x y → edgeWeight (updateWeights v).work x y =
      edgeWeight v.work x y * (if x ∈ (updateWeights v).one ∧ x ∉ v.one then 0.1 else 1) * (if y ∈ (updateWeights v).one ∧ y ∉ v.one then 0.1 else 1) *
        (if x ∈ v.one ∧ x ∉ (updateWeights v).one then 10 else 1) * (if y ∈ v.one ∧ y ∉ (updateWeights v).one then 10 else 1) := by
    intro x y hxy
    have hxy' := (sameShape_hasEdge hs x y).2 hxy
    have hcur : (updateWeights v).one = v.rg.nodes.filter fun node => decide (v.rg.degree node = 1) := rfl
    have e1 : (updateWeights v).work = (v.one.filter fun x => decide (x ∉ (updateWeights v).one)).foldl (fun h node => updateNeighbourWeights node 10 h)
        (((updateWeights v).one.filter fun x => decide (x ∉ v.one)).foldl (fun h node => updateNeighbourWeights node 0.1 h) v.work) := by
      rw [hcur]
      simp only [updateWeights, updateDegreeOne, hhigh]
    have hsh1 : SameShape (((updateWeights v).one.filter fun x => decide (x ∉ v.one)).foldl (fun h node => updateNeighbourWeights node 0.1 h) v.work) v.work :=
      sameShape_foldl _ (fun _ _ => sameShape_updateNeighbourWeights _ _ _) _ _
    rw [e1, edgeWeight_foldl_updateNeighbourWeights 10 _ _ (hone.filter _) (sameShape_good hsh1 hgw) ((sameShape_hasEdge hsh1 x y).2 hxy'),
      edgeWeight_foldl_updateNeighbourWeights 0.1 _ _ ((by rw [hcur]; exact (hrg.nodup.filter _).filter _)) hgw hxy']
    simp only [List.mem_filter, decide_eq_true_eq]
  refine ⟨⟨fun x y => ?_, fun x y hxy => ?_, fun x y hxy hr => ?_⟩, ?_, hmem⟩
  · exact sameShape_hasEdge (sameShape_trans (sameShape_updateWeights v) hs) x y
  · rw [hweight x y (hsub.2 x y hxy), hw.zero x y hxy]
    simp
  · rw [hweight x y hxy, hw.other x y hxy hr]
    have key : ∀ z, endFactor v.one z * (if z ∈ (updateWeights v).one ∧ z ∉ v.one then 0.1 else 1) * (if z ∈ v.one ∧ z ∉ (updateWeights v).one then 10 else 1) = endFactor (updateWeights v).one z := by
      intro z
      unfold endFactor
      by_cases h1 : z ∈ v.one <;> by_cases h2 : z ∈ (updateWeights v).one <;> (simp [h1, h2]; try norm_num)
    rw [← key x, ← key y]
    ring
  · exact hrg.nodup.filter _

theorem endFactor_pos (one : List V) (x : V) : 0 < endFactor one x := by unfold endFactor; split_ifs <;> norm_num
theorem endFactor_le (one : List V) (x : V) : endFactor one x ≤ 1 := by unfold endFactor; split_ifs <;> norm_num
theorem endFactor_ge (one : List V) (x : V) : 0.1 ≤ endFactor one x := by unfold endFactor; split_ifs <;> norm_num

/-- The variables between two paths: the result is one line in the direction of `t`. -/
structure LineVars (g : NxGraph V ℝ) (t : V → ℝ) (w : V → V → ℝ) (v : SPVars V) : Prop where
  path : ∃ P, PathGraph v.rg P ∧ P.Pairwise fun x y => t x < t y
  weights : Weighted g v.work v.rg (endFactor v.one) w
  one : v.one.Nodup
  cand : ∀ x ∈ v.cand, ∀ y ∈ v.rg.nodes, ¬ closedNeighbors g y x

def LineInv (g : NxGraph V ℝ) (t : V → ℝ) (w : V → V → ℝ) : SPState V → Prop
  | .head v => LineVars g t w v
  | .forStart v e _ => LineVars g t w v ∧ (e ∈ v.rg.nodes ∨ ∀ y ∈ v.rg.nodes, ¬ closedNeighbors g y e)
  | .forPath v e _ s tmp single n => LineVars g t w v ∧
      (n = 0 → tmp = v.work ∧ (∀ x, x ∈ v.one ↔ x ∈ v.rg.nodes ∧ v.rg.degree x = 1) ∧ (e ∈ v.rg.nodes ∨ ∀ y ∈ v.rg.nodes, ¬ closedNeighbors g y e)) ∧
      (0 < n → e ∈ v.rg.nodes ∧ ((single = true ∧ n = 1) ∨ ¬ ∃ p, tmp.IsPath s e p))
  | .done rg => ∃ P, PathGraph rg P ∧ P.Pairwise fun x y => t x < t y
  | .error _ => True

/-- The path that is found keeps the result a line. -/
theorem path_keeps_line {g : NxGraph V ℝ} (hg : GoodGraph g) {t : V → ℝ} {w : V → V → ℝ} (hL : Lined g t w) {v : SPVars V} (hv : LineVars g t w v) (hrg : GoodGraph v.rg)
    (hsub : SubgraphOf v.rg g) (hconn : Connected v.rg) (hone : ∀ x, x ∈ v.one ↔ x ∈ v.rg.nodes ∧ v.rg.degree x = 1) {s e : V} (hs : s ∈ v.rg.nodes) (he : e ∈ g.nodes)
    (hor : e ∈ v.rg.nodes ∨ ∀ y ∈ v.rg.nodes, ¬ closedNeighbors g y e) {path : List V} (hp : IsShortestPath v.work s e path) :
    ∃ P, PathGraph ((pathEdges path).foldl (fun h e => h.addEdge e.1 e.2 ()) v.rg) P ∧ P.Pairwise fun x y => t x < t y := by
  obtain ⟨P, hP, hord⟩ := hv.path
  have hk := hv.weights
  rcases hor with hin | hout
  · refine ⟨P, addPath_inside hrg hP ?_, hord⟩
    obtain ⟨q, hq⟩ := exists_path_of_reach (hconn s hs e hin)
    have hq' : v.work.IsPath s e q := isPath_mono (fun x y h => (hk.edge x y).2 (hsub.2 x y h)) hq
    have hw := hp.2 q hq'
    rw [weight_zero_of_chain hk.zero hq.chain] at hw
    have hpos : ∀ x y, v.work.hasEdge x y → ¬ v.rg.hasEdge x y → 0 < edgeWeight v.work x y := by
      intro x y hxy hr
      rw [hk.other x y ((hk.edge x y).1 hxy) hr]
      exact mul_pos (mul_pos (endFactor_pos _ _) (endFactor_pos _ _)) (hL.pos x y ((hk.edge x y).1 hxy))
    refine chain_of_weight_zero (fun x y hxy => ?_) (fun x y hxy h0 => ?_) hp.1.chain hw
    · by_cases hr : v.rg.hasEdge x y
      · rw [hk.zero x y hr]
      · exact (hpos x y hxy hr).le
    · by_contra hr
      exact absurd h0 (not_le.2 (hpos x y hxy hr))
  · -- `e` is beyond one of the ends
    have key : ∀ (t' : V → ℝ) (P' : List V) (D : V), Lined g t' w → PathGraph v.rg (P' ++ [D]) → (P' ++ [D]).Pairwise (fun x y => t' x < t' y) → t' D < t' e →
        ∃ C, PathGraph ((pathEdges path).foldl (fun h e => h.addEdge e.1 e.2 ()) v.rg) (P' ++ D :: C) ∧ (P' ++ D :: C).Pairwise fun x y => t' x < t' y := by
      intro t' P' D hL' hP' hord' hDe
      have hD : D ∈ v.rg.nodes := (hP'.2.1 D).1 (by simp)
      have hle : ∀ x ∈ v.rg.nodes, t' x ≤ t' D := by
        intro x hx
        have := (hP'.2.1 x).2 hx
        rcases List.mem_append.1 this with h | h
        · exact ((List.pairwise_append.1 hord').2.2 x h D (by simp)).le
        · rw [List.mem_singleton.1 h]
      have hfD : ∀ x, endFactor v.one D ≤ endFactor v.one x := by
        intro x
        by_cases hx : x ∈ v.one
        · have hD1 : D ∈ v.one := (hone D).2 ⟨hD, degree_ends hrg hP' (by simp) ⟨x, ((hone x).1 hx).1, ((hone x).1 hx).2⟩⟩
          unfold endFactor
          rw [if_pos hx, if_pos hD1]
        · have : endFactor v.one x = 1 := if_neg hx
          rw [this]; exact endFactor_le _ _
      obtain ⟨A, C, rfl, hA, hC⟩ := shortest_beyond hg hL' hk hrg hsub hconn hD hs he hDe hle (endFactor_pos _ _) hfD (endFactor_le _) (fun x hx _ => if_neg fun h => hx ((hone x).1 h).1) hp
      have hordC : (P' ++ D :: C).Pairwise fun x y => t' x < t' y := by
        rw [List.pairwise_append] at hord' ⊢
        refine ⟨hord'.1, hC, fun a ha b hb => ?_⟩
        have h1 := hord'.2.2 a ha D (by simp)
        rcases List.mem_cons.1 hb with rfl | hb
        · exact h1
        · exact h1.trans ((List.pairwise_cons.1 hC).1 b hb)
      refine ⟨C, addPath_extends hrg hP' hA ?_, hordC⟩
      exact hordC.imp fun h e => by rw [e] at h; exact lt_irrefl _ h
    rcases List.eq_nil_or_concat P with rfl | ⟨P1, D, rfl⟩
    · exact absurd ((hP.2.1 s).2 hs) (by simp)
    simp only [List.concat_eq_append] at *
    rcases lt_or_ge (t D) (t e) with hlt | hge
    · obtain ⟨C, h1, h2⟩ := key t P1 D hL hP hord hlt
      exact ⟨_, h1, h2⟩
    · -- the first node
      obtain ⟨F, P2, hF⟩ : ∃ F P2, P1 ++ [D] = F :: P2 := by cases P1 <;> simp
      have hPm : ∀ x ∈ F :: P2, x ∈ g.nodes := fun x hx => hsub.1 x ((hP.2.1 x).1 (hF ▸ hx))
      have heF : t e < t F := by
        by_contra hcon
        have hchain : (F :: P2).IsChain g.hasEdge := by
          rw [List.isChain_iff_forall_rel_of_append_cons_cons]
          intro a b X Y hXY
          exact hsub.2 a b ((hP.2.2 a b).2 (.inl ⟨X, Y, by rw [hF, hXY]⟩))
        rcases chain_dominates hL he P2 F hPm hchain (not_lt.1 hcon) (fun y hy => by
          rw [← hF] at hy; simp at hy; rw [← hy]; exact hge) with h | ⟨y, hy, h⟩
        · exact hout e ((hP.2.1 e).1 (hF ▸ h)) (.inl rfl)
        · exact hout y ((hP.2.1 y).1 (hF ▸ hy)) (.inr (mem_neighbors.2 h))
      have hrev : (P1 ++ [D]).reverse = P2.reverse ++ [F] := by rw [hF]; simp
      have hP' := PathGraph.reverse hP
      rw [hrev] at hP'
      obtain ⟨C, h1, h2⟩ := key (fun x => -t x) P2.reverse F hL.neg hP' (by
        rw [← hrev, List.pairwise_reverse]
        exact hord.imp fun h => by simpa using h) (by simpa using heF)
      refine ⟨_, PathGraph.reverse h1, ?_⟩
      rw [List.pairwise_reverse]
      exact h2.imp fun h => by simpa using h

theorem spStep_line {g : NxGraph V ℝ} (hg : GoodGraph g) {t : V → ℝ} {w : V → V → ℝ} (hL : Lined g t w) {s s' : SPState V} (hi : SPInv g s) (hs : LineInv g t w s) (hst : SPStep s s') :
    LineInv g t w s' := by
  cases hst with
  | finish => exact hs.path
  | @newEnd v e todo he hp =>
    exact ⟨⟨hs.path, hs.weights, hs.one, fun x hx => hs.cand x (mem_removeAll.1 hx).1⟩, .inr (hs.cand e he)⟩
  | lastStart => exact ⟨hs.1.path, hs.1.weights, hs.1.one, hs.1.cand⟩
  | @start v e s todo hp =>
    obtain ⟨h1, -⟩ := hi
    obtain ⟨P, hP, hord⟩ := hs.1.path
    obtain ⟨k1, k2, k3⟩ := weighted_update hg h1.shape h1.good hP h1.sub hs.1.weights hs.1.one
    exact ⟨⟨⟨P, hP, hord⟩, k1, k2, hs.1.cand⟩, fun _ => ⟨rfl, k3, hs.2⟩, fun h => absurd h (lt_irrefl _)⟩
  | noPath => trivial
  | @lastPath v e todo s tmp single n hn =>
    refine ⟨hs.1, ?_⟩
    rcases Nat.eq_zero_or_pos n with h | h
    · exact (hs.2.1 h).2.2
    · exact .inl (hs.2.2 h).1
  | assertion => trivial
  | @path v e todo s tmp single n path hn hsn hpath hor =>
    obtain ⟨h1, h2, h3, h4, h5, h6, h7, h8, h9, h10, h11, h12, h13⟩ := hi
    rcases Nat.eq_zero_or_pos n with h0 | h0
    swap
    · exfalso
      rcases (hs.2.2 h0).2 with h | h
      · exact hsn h
      · exact h ⟨path, hpath.1⟩
    obtain ⟨rfl, hone, hor'⟩ := hs.2.1 h0
    have hsr := h1.starts s h6
    have hedge := sameShape_hasEdge h1.shape
    have hpg : g.IsPath s e path := isPath_mono (fun x y => (hedge x y).1) hpath.1
    obtain ⟨P, hP, hord⟩ := path_keeps_line hg hL hs.1 h1.good h1.sub h1.conn hone hsr h4 hor' hpath
    obtain ⟨l, hl⟩ : ∃ l, path = s :: l := by
      have := hpath.1.head
      cases path with
      | nil => simp at this
      | cons a l => simp at this; exact ⟨l, by rw [this]⟩
    have hadd := addPath_spec hg l s v.rg (by rw [← hl]; exact hpg.chain) hsr h1.good h1.sub h1.conn
    rw [← hl] at hadd
    obtain ⟨-, -, -, k4, k5, -⟩ := hadd
    have hzs := sameShape_trans (sameShape_zeroWeights v.work path) h1.shape
    refine ⟨⟨⟨P, hP, hord⟩, ⟨sameShape_hasEdge hzs, fun x y hxy => ?_, fun x y hxy hr => ?_⟩, hs.1.one, fun x hx y hy => ?_⟩, fun h => by omega, fun _ => ⟨k5 e (List.mem_of_getLast? hpath.1.last), ?_⟩⟩
    · have hxy := (addPath_hasEdge _ _ _ _).1 hxy
      have hxyg : g.hasEdge x y := by
        rcases hxy with h | h | h
        · exact h1.sub.2 x y h
        · exact pathEdges_hasEdge hpg.chain _ h
        · exact hasEdge_symm.1 (pathEdges_hasEdge hpg.chain _ h)
      rw [show ({ v with cand := removeAll v.cand (newNeighbours v.work path), rg := (pathEdges path).foldl (fun h e => h.addEdge e.1 e.2 ()) v.rg, work := zeroWeights v.work path } : SPVars V).work =
        zeroWeights v.work path from rfl, edgeWeight_zeroWeights path (sameShape_good h1.shape hg) ((hedge x y).2 hxyg)]
      split_ifs with hc
      · rfl
      · rcases hxy with h | h
        · exact hs.1.weights.zero x y h
        · exact absurd h hc
    · have hr' := fun h => hr ((addPath_hasEdge _ _ _ _).2 h)
      rw [show ({ v with cand := removeAll v.cand (newNeighbours v.work path), rg := (pathEdges path).foldl (fun h e => h.addEdge e.1 e.2 ()) v.rg, work := zeroWeights v.work path } : SPVars V).work =
        zeroWeights v.work path from rfl, edgeWeight_zeroWeights path (sameShape_good h1.shape hg) ((hedge x y).2 hxy), if_neg (fun h => hr' (.inr h))]
      exact hs.1.weights.other x y hxy fun h => hr' (.inl h)
    · obtain ⟨hx1, hx2⟩ := mem_removeAll.1 hx
      rcases (mem_addPath _ _ _).1 hy with h | ⟨⟨a, b⟩, hab, hy'⟩
      · exact hs.1.cand x hx1 y h
      · intro hcl
        apply hx2
        have := consecutive_mem (mem_pathEdges.1 hab)
        exact ⟨y, by rcases hy' with rfl | rfl; exacts [this.1, this.2], (closedNeighbors_congr hedge).2 hcl⟩
    · by_cases hsi : single = true
      · exact .inl ⟨hsi, by omega⟩
      · right
        exact no_path_left hg hL (h1.sub.1 s hsr) h4 hedge hedge (sameShape_hasEdge hzs) hpg (h12 (by simpa using hsi))

theorem spInit_line {fs : ℝ} {g : NxGraph V ℝ} {δ : V → V → ℝ} (hδ : ∀ x y, δ x y = δ y x) (hattr : ∀ e ∈ g.edges, e.2.2 = δ e.1 e.2.1) {t : V → ℝ} {s : SPState V}
    (hi : SPInit fs g s) : LineInv g t (fun x y => fs * (δ x y / fs + (δ x y / fs) ^ 2)) s := by
  cases hi with
  | empty => trivial
  | @first p hp =>
    have hno : ∀ x y, ¬ (NxGraph.empty.addNode p : NxGraph V Unit).hasEdge x y := fun x y h => by
      obtain ⟨e, he, -⟩ := hasEdge_addNode.1 h; simp [NxGraph.empty] at he
    refine ⟨⟨[p], pathGraph_single p, by simp⟩, ⟨sameShape_hasEdge (sameShape_initialWeights fs g), fun x y h => absurd h (hno x y), fun x y h _ => ?_⟩, by simp, fun x hx y hy => ?_⟩
    · rw [edgeWeight_initial hδ hattr h]
      simp [endFactor]
    · have : y = p := by simpa [mem_addNode, NxGraph.empty] using hy
      subst this
      exact fun h => (mem_removeAll.1 hx).2 ((closedNeighbors_congr (sameShape_hasEdge (sameShape_initialWeights fs g))).2 h)

/-- On a line that goes in one direction, the result is one line in this direction. -/
theorem shortest_line {fs : ℝ} {g : NxGraph V ℝ} (hg : GoodGraph g) (hconn : Connected g) (hne : g.nodes ≠ []) {δ : V → V → ℝ} (hδ : ∀ x y, δ x y = δ y x)
    (hattr : ∀ e ∈ g.edges, e.2.2 = δ e.1 e.2.1) {t : V → ℝ} (hL : Lined g t fun x y => fs * (δ x y / fs + (δ x y / fs) ^ 2)) {n : ℕ} {s : SPState V} (hr : SPRun fs g n s) :
    LineInv g t (fun x y => fs * (δ x y / fs + (δ x y / fs) ^ 2)) s := by
  induction hr with
  | init hi => exact spInit_line hδ hattr hi
  | step hr hst ih => exact spStep_line hg hL (spRun_inv hg hconn hne hr).1 ih hst

end NF
