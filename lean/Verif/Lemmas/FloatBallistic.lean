import Verif.Spec.FloatBallistic
import Verif.Props.FloatDistance
import Verif.Props.Ballistic

/-! # Lemmas for the ballistic line evaluation in double precision -/

noncomputable section
open Classical

namespace NF
open Spec NxGraph CoordSys
variable {d : ℕ} {rnd : ℝ → ℝ}

/-! ## The graph of a cluster -/

theorem mem_flClusterEdges {dist : Vec d → Vec d → ℝ} {fs : ℝ} {l : List (Vec d)} {e : Vec d × Vec d × ℝ} (h : e ∈ FL.clusterEdges dist fs l) :
    e.1 ∈ l ∧ e.2.1 ∈ l ∧ e.2.2 = dist e.1 e.2.1 ∧ e.2.2 ≤ fs ∧ (l.Nodup → e.1 ≠ e.2.1) := by
  induction l with
  | nil => simp [FL.clusterEdges] at h
  | cons p l ih =>
    rw [FL.clusterEdges, List.mem_append] at h
    rcases h with h | h
    · obtain ⟨q, hq, rfl⟩ := List.mem_map.1 h
      simp only [List.mem_filter, decide_eq_true_eq] at hq
      refine ⟨List.mem_cons_self, List.mem_cons_of_mem _ hq.1, rfl, hq.2, fun hn e => ?_⟩
      simp only at e
      exact (List.nodup_cons.1 hn).1 (e ▸ hq.1)
    · obtain ⟨h1, h2, h3, h4, h5⟩ := ih h
      exact ⟨List.mem_cons_of_mem _ h1, List.mem_cons_of_mem _ h2, h3, h4, fun hn => h5 (List.nodup_cons.1 hn).2⟩

theorem goodGraph_fl {dist : Vec d → Vec d → ℝ} {fs : ℝ} {l : List (Vec d)} (hl : l.Nodup) : GoodGraph (⟨l, FL.clusterEdges dist fs l⟩ : NxGraph (Vec d) ℝ) where
  nodup := hl
  left _ he := (mem_flClusterEdges he).1
  right _ he := (mem_flClusterEdges he).2.1
  noLoop _ he := (mem_flClusterEdges he).2.2.2.2 hl
  single := by
    simp only
    induction l with
    | nil => simp [FL.clusterEdges]
    | cons p l ih =>
      rw [FL.clusterEdges, List.pairwise_append]
      obtain ⟨hp, hl'⟩ := List.nodup_cons.1 hl
      refine ⟨?_, ih hl', ?_⟩
      · rw [List.pairwise_map]
        refine List.Pairwise.imp_of_mem ?_ (hl'.filter _)
        intro a b ha hb hab
        simp only [joins]
        have ha' := (List.mem_filter.1 ha).1
        rintro (⟨-, h⟩ | ⟨h, -⟩)
        · exact hab h.symm
        · exact hp (h ▸ ha')
      · intro e he f hf
        obtain ⟨q, hq, rfl⟩ := List.mem_map.1 he
        obtain ⟨h1, h2, -⟩ := mem_flClusterEdges hf
        simp only [joins]
        rintro (⟨h, -⟩ | ⟨-, h⟩)
        · exact hp (h ▸ h1)
        · exact hp (h ▸ h2)

/-- A cluster is a simple graph of given positions, which is connected; its edges carry computed distances of at most `fs`. -/
theorem isCluster_spec {cs : CoordSys d} {fs : ℝ} {positions : List (Vec d)} {dist : Vec d → Vec d → ℝ} {g : NxGraph (Vec d) ℝ} (h : IsCluster rnd cs fs positions dist g) :
    GoodGraph g ∧ Connected g ∧ (∀ x ∈ g.nodes, x ∈ positions) ∧ ∀ e ∈ g.edges, e.2.2 = dist e.1 e.2.1 ∧ e.2.2 ≤ fs := by
  obtain ⟨-, pu, hu, hc⟩ := h
  unfold FL.createClusters at hc
  simp only at hc
  obtain ⟨s, hs, rfl⟩ := List.mem_map.1 hc
  have hg := goodGraph_fl (dist := dist) (fs := fs) hu.1
  obtain ⟨v, hv, h⟩ := (components_spec hg).1 s hs
  have hreach : ∀ y, Spec.Reach (⟨pu, FL.clusterEdges dist fs pu⟩ : NxGraph (Vec d) ℝ) v y → Spec.Reach ((⟨pu, FL.clusterEdges dist fs pu⟩ : NxGraph (Vec d) ℝ).subgraph fun x => x ∈ s) v y := by
    intro y hy
    induction hy with
    | refl => exact .refl
    | @tail a b hab hh ih => exact ih.tail (hasEdge_subgraph.2 ⟨hh, (h a).2 hab, (h b).2 (hab.tail hh)⟩)
  have hm : ∀ x, x ∈ ((⟨pu, FL.clusterEdges dist fs pu⟩ : NxGraph (Vec d) ℝ).subgraph fun x => x ∈ s).nodes → x ∈ s := fun x hx => (mem_subgraph.1 hx).2
  refine ⟨goodGraph_subgraph hg _, fun x hx y hy => (reach_symm (hreach x ((h x).1 (hm x hx)))).trans (hreach y ((h y).1 (hm y hy))),
    fun x hx => (hu.2 x).1 (mem_subgraph.1 hx).1, fun e he => ?_⟩
  obtain ⟨-, -, h3, h4, -⟩ := mem_flClusterEdges (List.mem_filter.1 he).1
  exact ⟨h3, h4⟩

/-! ## Positive results -/

theorem rndSum_pos_iff (hr : IsNearest rnd) {l : List ℝ} {a : ℝ} (h : FL.RndSum rnd l a) (h0 : ∀ x ∈ l, 0 ≤ x) : 0 < a ↔ ∃ x ∈ l, 0 < x := by
  induction h with
  | nil => simp
  | one x => simp
  | @add l l' a b _ _ h1 h2 ih ih' =>
    have p1 : ∀ x ∈ l, 0 ≤ x := fun x hx => h0 x (List.mem_append_left _ hx)
    have p2 : ∀ x ∈ l', 0 ≤ x := fun x hx => h0 x (List.mem_append_right _ hx)
    have n1 := (rndSum_bounds hr h1 p1).2.2
    have n2 := (rndSum_bounds hr h2 p2).2.2
    have e : 0 < rnd (a + b) ↔ 0 < a ∨ 0 < b := by
      constructor
      · intro h
        by_contra hno
        push Not at hno
        have : a + b = 0 := by linarith [hno.1, hno.2]
        rw [this, rnd_of_isFloat hr isFloat_zero] at h
        exact lt_irrefl _ h
      · rintro (h | h) <;> exact rnd_pos hr (by linarith)
    rw [e, ih p1, ih' p2]
    simp only [List.mem_append]
    constructor
    · rintro (⟨x, hx, h⟩ | ⟨x, hx, h⟩)
      exacts [⟨x, .inl hx, h⟩, ⟨x, .inr hx, h⟩]
    · rintro ⟨x, hx | hx, h⟩
      exacts [.inl ⟨x, hx, h⟩, .inr ⟨x, hx, h⟩]
  | perm _ hp ih =>
    rw [ih fun x hx => h0 x (hp.mem_iff.1 hx)]
    exact exists_congr fun x => by rw [hp.mem_iff]

/-- A computed norm is positive exactly if the vector is not zero. -/
theorem normOf_pos_iff (hr : IsNearest rnd) {v : Vec d} {x : ℝ} (h : FL.NormOf rnd v x) : 0 < x ↔ ∃ i, v i ≠ 0 := by
  obtain ⟨s, hs, rfl⟩ := h
  have h0 : ∀ y ∈ List.ofFn fun i => rnd (v i ^ 2), 0 ≤ y := fun y hy => by
    obtain ⟨i, rfl⟩ := (List.mem_ofFn' _ _).1 hy
    exact rnd_nonneg hr (sq_nonneg _)
  have e : 0 < rnd (Real.sqrt s) ↔ 0 < s := by
    constructor
    · intro h
      by_contra hs0
      rw [Real.sqrt_eq_zero'.2 (not_lt.1 hs0), rnd_of_isFloat hr isFloat_zero] at h
      exact lt_irrefl _ h
    · exact fun h => rnd_pos hr (Real.sqrt_pos.2 h)
  rw [e, rndSum_pos_iff hr hs h0]
  constructor
  · rintro ⟨y, hy, hp⟩
    obtain ⟨i, rfl⟩ := (List.mem_ofFn' _ _).1 hy
    refine ⟨i, fun h => ?_⟩
    simp only [h] at hp
    rw [show (0 : ℝ) ^ 2 = 0 by norm_num, rnd_of_isFloat hr isFloat_zero] at hp
    exact lt_irrefl _ hp
  · rintro ⟨i, hi⟩
    exact ⟨_, (List.mem_ofFn' _ _).2 ⟨i, rfl⟩, rnd_pos hr (by positivity)⟩

theorem normOf_exists (rnd : ℝ → ℝ) (v : Vec d) : ∃ x, FL.NormOf rnd v x := by
  obtain ⟨s, hs⟩ := rndSum_exists rnd (List.ofFn fun i => rnd (v i ^ 2))
  exact ⟨_, s, hs, rfl⟩

theorem rnd_eq_zero (hr : IsNearest rnd) {x : ℝ} : rnd x = 0 ↔ x = 0 := by
  constructor
  · intro h
    have h1 := rel_err' hr x
    have h2 := ulp_small
    rw [h, zero_sub, abs_neg] at h1
    by_contra hx
    have := abs_pos.2 hx
    nlinarith
  · rintro rfl
    exact rnd_of_isFloat hr isFloat_zero

/-- The computed vector between positions that can be told apart is not zero. -/
theorem connecting_ne_zero (hr : IsNearest rnd) {cs : CoordSys d} (hb : ProperBox cs) {p q : Vec d} (hne : p ≠ q) (hpq : ∀ i, |q i - p i| ≤ 5 * (cs.upper i - cs.lower i))
    (hd : cs.periodic = true → 16 / 2 ^ 53 * len (fun i => cs.upper i - cs.lower i) < cs.distance p q) : ∃ i, FL.connectingVector rnd cs p q i ≠ 0 := by
  by_contra hno
  push Not at hno
  cases hper : cs.periodic
  · apply hne
    funext i
    have := hno i
    unfold FL.connectingVector at this
    simp only [hper, Bool.false_eq_true, if_false] at this
    have := (rnd_eq_zero hr).1 this
    linarith
  · have h1 := hd hper
    have h2 : cs.distance p q ≤ len (fun i => 16 * ulp * cs.size i) := by
      rw [distance_eq_len]
      refine len_mono fun i => ?_
      have hS := size_pos hb i
      have hu := ulp_pos
      obtain ⟨⟨k, hk⟩, -, -⟩ := fl_connecting hr hb hper p q i (hpq i)
      rw [hno i, zero_sub, abs_neg] at hk
      rw [distDelta_periodic hper, abs_of_nonneg (wrap_nonneg hS _), abs_of_nonneg (by positivity)]
      refine (wrap_le hS _ k).trans (hk.trans ?_)
      nlinarith [mul_pos hu hS]
    rw [len_smul' (by have := ulp_pos; positivity) cs.size] at h2
    have e : 16 / 2 ^ 53 * len (fun i => cs.upper i - cs.lower i) = 16 * ulp * len cs.size := by unfold ulp; rw [show (fun i => cs.upper i - cs.lower i) = cs.size from rfl]; ring
    linarith

/-! ## Executions -/

variable {B : FL.Blas d} {cs : CoordSys d} {fs : ℝ} {g : NxGraph (Vec d) ℝ}

theorem mem_flUsable {nrm : Vec d → ℝ} {node n : Vec d} : n ∈ FL.usableNeighbors g nrm node ↔ g.hasEdge node n ∧ 0 < nrm n := by
  unfold FL.usableNeighbors
  rw [List.mem_filter, mem_neighbors, decide_eq_true_eq]

theorem mem_flCandidate {nrm angle : Vec d → ℝ} {node n : Vec d} : n ∈ FL.candidateNodes g nrm angle node ↔ g.hasEdge node n ∧ 0 < nrm n ∧ 0 < angle n := by
  unfold FL.candidateNodes
  rw [List.mem_filter, mem_flUsable, decide_eq_true_eq, and_assoc]

theorem flBRun_sub (hg : GoodGraph g) {n : ℕ} {s : BState d} (hr : FL.BRun B rnd g cs fs n s) : BSub g s := by
  have hadd : ∀ {rg : NxGraph (Vec d) Unit} {x : Vec d}, GoodGraph rg → SubgraphOf rg g → x ∈ g.nodes →
      GoodGraph (rg.addNode x) ∧ SubgraphOf (rg.addNode x) g ∧ x ∈ (rg.addNode x).nodes := fun {rg x} h1 h2 hx =>
    ⟨goodGraph_addNode h1 x, ⟨fun y hy => (mem_addNode.1 hy).elim (h2.1 y) (fun e => e ▸ hx), fun a b hab => h2.2 a b (hasEdge_addNode.1 hab)⟩, mem_addNode.2 (.inr rfl)⟩
  induction hr with
  | init => exact ⟨goodGraph_empty, by simp [NxGraph.empty], by rintro x y ⟨e, he, -⟩; simp [NxGraph.empty] at he⟩
  | step _ hst ih =>
    cases hst with
    | @finish rg _ hd =>
      refine ⟨ih.1, ih.2, fun x hx => ?_⟩
      by_cases hx' : x ∈ rg.nodes
      · exact .inl hx'
      · obtain ⟨y, hy, hy'⟩ := hd x hx hx'
        exact .inr ⟨y, hy', mem_neighbors.1 hy⟩
    | endNode _ hn _ _ _ => exact hadd ih.1 ih.2 (ih.2.1 _ (mem_newEndNodes.1 hn).1)
    | endNodeRaises => trivial
    | newStart _ _ hc => exact hadd ih.1 ih.2 (mem_startCandidates.1 hc).1
    | noStart => trivial
    | @next rg ev pending node prev onGraph r hr =>
      obtain ⟨h1, h2, h3⟩ := ih
      cases hr with
      | noNeighbors => trivial
      | raises => trivial
      | allCoincide => trivial
      | nothing =>
        cases prev with
        | none => trivial
        | some _ => exact ⟨h1, h2⟩
      | @chosen _ _ _ _ m _ hm _ =>
        have he : g.hasEdge node m := (mem_flCandidate.1 hm).1
        have hne := goodGraph_edge hg he
        have hl : ∀ p b, BSub g (.loop (rg.addEdge node m ()) ev pending m p b) := fun p b => by
          refine ⟨goodGraph_addEdge h1 hne.2.2 () _, ⟨fun z hz => ?_, fun a b hab => ?_⟩, mem_addEdge.2 (.inr (.inr rfl))⟩
          · rcases mem_addEdge.1 hz with hz | rfl | rfl
            exacts [h2.1 z hz, hne.1, hne.2.1]
          · rcases hasEdge_addEdge.1 hab with hab | ⟨rfl, rfl⟩ | ⟨rfl, rfl⟩
            exacts [h2.2 a b hab, he, hasEdge_symm.1 he]
        simp only [afterNext]
        split_ifs
        · exact ⟨h1, h2⟩
        · exact hl _ _
        · exact hl _ _

/-- What is needed so that nothing raises: all vectors between positions of the cluster can be computed, and every position has a neighbour with a vector that is not zero. -/
structure FlCluster (rnd : ℝ → ℝ) (g : NxGraph (Vec d) ℝ) (cs : CoordSys d) : Prop where
  nearest : IsNearest rnd
  good : GoodGraph g
  vectors : ∀ x ∈ g.nodes, ∀ y ∈ g.nodes, ∀ r, FL.Connecting rnd cs x y r → r = .ok (FL.connectingVector rnd cs x y)
  usable : ∀ x ∈ g.nodes, ∃ y, g.hasEdge x y ∧ ∃ i, FL.connectingVector rnd cs x y i ≠ 0

theorem FlCluster.usable_mem (h : FlCluster rnd g cs) {node : Vec d} (hn : node ∈ g.nodes) {prev : Option (Vec d)} {nrm angle : Vec d → ℝ} {mat : Vec d → Vec d → ℝ} {sums : Vec d → ℝ}
    (hc : FL.Computed B rnd g cs node prev nrm angle mat sums) : ∃ y, y ∈ FL.usableNeighbors g nrm node := by
  obtain ⟨y, hy, hi⟩ := h.usable node hn
  exact ⟨y, mem_flUsable.2 ⟨hy, (normOf_pos_iff h.nearest (hc.norms y (mem_neighbors.2 hy))).2 hi⟩⟩

theorem flNextPos_spec (h : FlCluster rnd g cs) {rg : NxGraph (Vec d) Unit} {node : Vec d} (hn : node ∈ g.nodes) {prev : Option (Vec d)} {r} (hr : FL.NextPos B rnd g cs fs rg node prev r) :
    (r = .ok none ∧ prev ≠ none) ∨ ∃ n v, r = .ok (some (n, v)) ∧ g.hasEdge node n := by
  obtain ⟨y, hy, -⟩ := h.usable node hn
  have hnb : g.neighbors node ≠ [] := List.ne_nil_of_mem (mem_neighbors.2 hy)
  cases hr with
  | noNeighbors h1 => exact absurd h1 hnb
  | raises h1 h2 =>
    have h3 := mem_neighbors.1 h1
    have := h.vectors _ hn _ (goodGraph_edge h.good h3).2.1 _ h2
    cases this
  | allCoincide _ hc h1 _ =>
    obtain ⟨z, hz⟩ := h.usable_mem hn hc
    rw [h1] at hz
    simp at hz
  | @nothing nrm angle mat sums _ hc _ h1 =>
    left
    refine ⟨rfl, ?_⟩
    rintro rfl
    obtain ⟨z, hz⟩ := h.usable_mem hn hc
    have ha : angle z = 1 := hc.angles z hz
    have hz' := mem_flUsable.1 hz
    have hp : 0 < angle z := by rw [ha]; exact one_pos
    have := mem_flCandidate.2 ⟨hz'.1, hz'.2, hp⟩
    rw [h1] at this
    simp at this
  | @chosen _ _ _ _ m _ h1 _ => exact .inr ⟨m, _, rfl, (mem_flCandidate.1 h1).1⟩

theorem connecting_ok {p q : Vec d} {r : Except Err (Vec d)} (h : FL.Connecting rnd cs p q r) : r = .ok (FL.connectingVector rnd cs p q) ∨ r = .error .assertion := by
  cases h
  exacts [.inl rfl, .inl rfl, .inr rfl]

theorem computed_exists (hB : BlasAccurate B) {node : Vec d} (hok : ∀ n ∈ g.neighbors node, FL.Connecting rnd cs node n (.ok (FL.connectingVector rnd cs node n))) (prev : Option (Vec d)) :
    ∃ nrm angle mat sums, FL.Computed B rnd g cs node prev nrm angle mat sums := by
  choose nrm hnrm using fun v : Vec d => normOf_exists rnd v
  choose dt hdt using hB.dot_total
  choose sm hsm using rndSum_exists rnd
  let n' : Vec d → ℝ := fun n => nrm (FL.connectingVector rnd cs node n)
  let an : Vec d → ℝ := fun n => match prev with
    | some p => dt (FL.unitVec rnd cs n' node n) p
    | none => 1
  let mt : Vec d → Vec d → ℝ := fun n m => dt (FL.unitVec rnd cs n' node n) (FL.unitVec rnd cs n' node m)
  refine ⟨n', an, mt, fun n => sm ((FL.candidateNodes g n' an node).map fun m => max (mt n m) 0), hok, ?_, ?_, ?_, ?_⟩
  · exact fun n _ => hnrm _
  · intro n _
    cases prev with
    | none => rfl
    | some p => exact hdt _ _
  · exact fun n _ m _ => hdt _ _
  · exact fun n _ => hsm _

theorem flNextPos_total (hB : BlasAccurate B) (rg : NxGraph (Vec d) Unit) (node : Vec d) (prev : Option (Vec d)) : ∃ r, FL.NextPos B rnd g cs fs rg node prev r := by
  by_cases hnb : g.neighbors node = []
  · exact ⟨_, .noNeighbors hnb⟩
  by_cases hok : ∀ n ∈ g.neighbors node, FL.Connecting rnd cs node n (.ok (FL.connectingVector rnd cs node n))
  · obtain ⟨nrm, angle, mat, sums, hc⟩ := computed_exists hB hok prev
    by_cases h2 : FL.usableNeighbors g nrm node = [] ∧ prev ≠ none
    · exact ⟨_, .allCoincide hnb hc h2.1 h2.2⟩
    by_cases h3 : FL.candidateNodes g nrm angle node = []
    · exact ⟨_, .nothing hnb hc (by tauto) h3⟩
    · have hfin : (FL.candidateNodes g nrm angle node).toFinset.Nonempty := by
        obtain ⟨x, hx⟩ := List.exists_mem_of_ne_nil _ h3
        exact ⟨x, List.mem_toFinset.2 hx⟩
      obtain ⟨n, hn, hmax⟩ := Finset.exists_max_image _ (fun m => FL.ballisticWeight rnd g fs rg node m (sums m) (angle m)) hfin
      exact ⟨_, .chosen hc (List.mem_toFinset.1 hn) fun m hm => hmax m (List.mem_toFinset.2 hm)⟩
  · push Not at hok
    obtain ⟨n, hn, hno⟩ := hok
    obtain ⟨r, hr⟩ := connecting_exists rnd cs node n
    rcases connecting_ok hr with rfl | rfl
    · exact absurd hr hno
    · exact ⟨_, .raises hn hr⟩

/-- What holds at every point of an execution. -/
def FlInv (g : NxGraph (Vec d) ℝ) : BState d → Prop
  | .outer rg _ => GoodGraph rg ∧ SubgraphOf rg g
  | .loop rg _ pending node _ _ => (GoodGraph rg ∧ SubgraphOf rg g) ∧ node ∈ rg.nodes ∧ ∀ s, pending = some s → s ∈ g.nodes
  | .done _ => True
  | .error _ => False

theorem flBStep_inv (h : FlCluster rnd g cs) {s s' : BState d} (hs : FlInv g s) (hst : FL.BStep B rnd g cs fs s s') : FlInv g s' ∧ bMeasure g s' < bMeasure g s := by
  have hadd : ∀ {rg : NxGraph (Vec d) Unit} {x : Vec d}, GoodGraph rg ∧ SubgraphOf rg g → x ∈ g.nodes → GoodGraph (rg.addNode x) ∧ SubgraphOf (rg.addNode x) g := fun {rg x} h1 hx =>
    ⟨goodGraph_addNode h1.1 x, ⟨fun y hy => (mem_addNode.1 hy).elim (h1.2.1 y) (fun e => e ▸ hx), fun a b hab => h1.2.2 a b (hasEdge_addNode.1 hab)⟩⟩
  cases hst with
  | finish hd => exact ⟨trivial, by simp [bMeasure]⟩
  | @endNode rg ev node nbr x hd hn hnbr _ _ =>
    have hs : GoodGraph rg ∧ SubgraphOf rg g := hs
    obtain ⟨h1, -, h3⟩ := mem_newEndNodes.1 hn
    refine ⟨⟨hadd hs (hs.2.1 _ h1), mem_addNode.2 (.inr rfl), fun s h => by cases h; exact hs.2.1 _ h1⟩, ?_⟩
    simp only [bMeasure, Option.toList_some, Bool.false_eq_true, if_false]
    have h4 : missing g.nodes (rg.addNode node).nodes ≤ missing g.nodes rg.nodes := missing_mono fun x hx => mem_addNode.2 (.inl hx)
    have h5 : missing g.nodes (ev ++ [node]) < missing g.nodes ev := missing_lt (fun x hx => by simp [hx]) (hs.2.1 _ h1) h3 (by simp)
    omega
  | @endNodeRaises rg ev node nbr e _ hn hnbr he =>
    have hs : GoodGraph rg ∧ SubgraphOf rg g := hs
    have h1 : nbr ∈ rg.neighbors node := List.mem_of_mem_head? hnbr
    have h2 := hs.2.2 _ _ (mem_neighbors.1 h1)
    have h3 := goodGraph_edge h.good h2
    have := h.vectors _ h3.1 _ h3.2.1 _ he
    cases this
  | @newStart rg ev node hd hn hc =>
    have hs : GoodGraph rg ∧ SubgraphOf rg g := hs
    obtain ⟨h1, h2'⟩ := mem_startCandidates.1 hc
    obtain ⟨y, hy, -⟩ := h.usable _ h1
    have h2 := (h2' y hy).1
    refine ⟨⟨hadd hs h1, mem_addNode.2 (.inr rfl), fun s h => by cases h⟩, ?_⟩
    simp only [bMeasure, Option.toList_none, List.append_nil, Bool.false_eq_true, if_false]
    have h4 : missing g.nodes (rg.addNode node).nodes < missing g.nodes rg.nodes :=
      missing_lt (fun x hx => mem_addNode.2 (.inl hx)) h1 h2 (mem_addNode.2 (.inr rfl))
    omega
  | noStart hd _ hc => exact absurd hc (startCandidates_ne hd)
  | @next rg ev pending node prev onGraph r hr =>
    obtain ⟨hs, hnode, hpend⟩ : (GoodGraph rg ∧ SubgraphOf rg g) ∧ node ∈ rg.nodes ∧ ∀ s, pending = some s → s ∈ g.nodes := hs
    have hexit : ∀ ev', (∀ x ∈ ev, x ∈ ev') → FlInv g (exitLoop rg ev' pending) ∧
        bMeasure g (exitLoop rg ev' pending) < bMeasure g (.loop rg ev pending node prev onGraph) := by
      intro ev' hev
      refine ⟨hs, ?_⟩
      unfold exitLoop
      simp only [bMeasure]
      have h4 : missing g.nodes (ev' ++ pending.toList) ≤ missing g.nodes (ev ++ pending.toList) :=
        missing_mono fun x hx => by rw [List.mem_append] at hx ⊢; exact hx.imp (hev x) id
      split_ifs <;> omega
    rcases flNextPos_spec h (hs.2.1 _ hnode) hr with ⟨rfl, hprev⟩ | ⟨n, v, rfl, h1⟩
    · obtain ⟨p, rfl⟩ := Option.ne_none_iff_exists'.1 hprev
      simp only [afterNext]
      exact hexit _ fun x hx => by simp [hx]
    · simp only [afterNext]
      have hne := goodGraph_edge h.good h1
      have hinv : ∀ p b, FlInv g (.loop (rg.addEdge node n ()) ev pending n p b) := fun p b => by
        refine ⟨⟨goodGraph_addEdge hs.1 hne.2.2 () _, ⟨fun z hz => ?_, fun a b hab => ?_⟩⟩, mem_addEdge.2 (.inr (.inr rfl)), hpend⟩
        · rcases mem_addEdge.1 hz with hz | rfl | rfl
          exacts [hs.2.1 z hz, hne.1, hne.2.1]
        · rcases hasEdge_addEdge.1 hab with hab | ⟨rfl, rfl⟩ | ⟨rfl, rfl⟩
          exacts [hs.2.2 a b hab, h1, hasEdge_symm.1 h1]
      split_ifs with hrg ho
      · exact hexit _ fun x hx => hx
      · refine ⟨hinv _ _, ?_⟩
        simp only [bMeasure, ho, if_true, Bool.false_eq_true, if_false]
        have h4 : missing g.nodes (rg.addEdge node n ()).nodes ≤ missing g.nodes rg.nodes := missing_mono fun x hx => mem_addEdge.2 (.inl hx)
        omega
      · refine ⟨hinv _ _, ?_⟩
        simp only [bMeasure, Bool.false_eq_true, if_false]
        have h4 : missing g.nodes (rg.addEdge node n ()).nodes < missing g.nodes rg.nodes :=
          missing_lt (fun x hx => mem_addEdge.2 (.inl hx)) hne.2.1 hrg (mem_addEdge.2 (.inr (.inr rfl)))
        split_ifs <;> omega

theorem flBRun_inv (h : FlCluster rnd g cs) {n : ℕ} {s : BState d} (hr : FL.BRun B rnd g cs fs n s) : FlInv g s ∧ n + bMeasure g s ≤ 6 * g.nodes.length + 1 := by
  induction hr with
  | init =>
    refine ⟨⟨goodGraph_empty, by simp [NxGraph.empty], by rintro x y ⟨e, he, -⟩; simp [NxGraph.empty] at he⟩, ?_⟩
    simp only [BState.init, bMeasure]
    have h1 := missing_le_length g.nodes (NxGraph.empty : NxGraph (Vec d) Unit).nodes
    have h2 := missing_le_length g.nodes ([] : List (Vec d))
    omega
  | step _ hst ih =>
    obtain ⟨h1, h2⟩ := flBStep_inv h ih.1 hst
    exact ⟨h1, by omega⟩

theorem flBStep_total (hB : BlasAccurate B) (s : BState d) : (∃ rg, s = .done rg) ∨ (∃ e, s = .error e) ∨ ∃ s', FL.BStep B rnd g cs fs s s' := by
  cases s with
  | done rg => exact .inl ⟨rg, rfl⟩
  | error e => exact .inr (.inl ⟨e, rfl⟩)
  | outer rg ev =>
    refine .inr (.inr ?_)
    by_cases hd : g.isDominatingSet (fun x => x ∈ rg.nodes)
    · exact ⟨_, .finish hd⟩
    cases he : newEndNodes rg ev with
    | cons x l =>
      have hx : x ∈ newEndNodes rg ev := by rw [he]; simp
      obtain ⟨-, h2, -⟩ := mem_newEndNodes.1 hx
      cases hnb : rg.neighbors x with
      | nil => simp [degree, hnb] at h2
      | cons y l' =>
        obtain ⟨v, hv⟩ := hB.nrm2_total (FL.connectingVector rnd cs x y)
        obtain ⟨r, hr⟩ := connecting_exists rnd cs x y
        rcases connecting_ok hr with rfl | rfl
        · exact ⟨_, .endNode hd hx (nbr := y) (by rw [hnb]; rfl) hr hv⟩
        · exact ⟨_, .endNodeRaises hd hx (nbr := y) (by rw [hnb]; rfl) hr⟩
    | nil =>
      obtain ⟨y, hy⟩ := List.exists_mem_of_ne_nil _ (startCandidates_ne hd)
      exact ⟨_, .newStart hd he hy⟩
  | loop rg ev pending node prev onGraph =>
    obtain ⟨r, hr⟩ := flNextPos_total (rnd := rnd) (cs := cs) (g := g) (fs := fs) hB rg node prev
    exact .inr (.inr ⟨_, .next hr⟩)

end NF
