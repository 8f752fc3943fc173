import Verif.Lemmas.PathGraph
import Verif.Props.Ballistic

/-! # The ballistic method on a line that goes in one direction -/

noncomputable section
open Classical
namespace NF
open Spec NxGraph
variable {d : ℕ}

/-- The positions of the cluster are ordered by `t`, and going on means that `t` grows or falls. -/
structure Directed (g : NxGraph (Vec d) ℝ) (cs : CoordSys d) (t : Vec d → ℝ) : Prop where
  inj : ∀ x ∈ g.nodes, ∀ y ∈ g.nodes, t x = t y → x = y
  between : ∀ x ∈ g.nodes, ∀ y ∈ g.nodes, ∀ z ∈ g.nodes, t x < t z → t z < t y → g.hasEdge x y → g.hasEdge x z ∧ g.hasEdge z y
  pos : ∀ x y, g.hasEdge x y → 0 < cs.distance x y
  ahead : ∀ x y z, g.hasEdge x y → g.hasEdge y z → (0 < dot (cs.connectingVector y z) (cs.connectingVector x y) ↔ (t x < t y ↔ t y < t z))
  back : ∀ x y z, g.hasEdge x y → g.hasEdge x z → (dot (cs.connectingVector x z) (cs.connectingVector x y) < 0 ↔ (t y < t x ↔ t x < t z))

theorem Directed.neg {g : NxGraph (Vec d) ℝ} (hg : GoodGraph g) {cs : CoordSys d} {t : Vec d → ℝ} (h : Directed g cs t) : Directed g cs fun x => -t x := by
  have hne : ∀ x y, g.hasEdge x y → t x ≠ t y := fun x y hxy e => by
    have := goodGraph_edge hg hxy
    exact this.2.2 (h.inj x this.1 y this.2.1 e)
  refine ⟨fun x hx y hy e => h.inj x hx y hy (neg_injective e), fun x hx y hy z hz h1 h2 hxy => ?_, h.pos, fun x y z hxy hyz => ?_, fun x y z hxy hxz => ?_⟩
  · have := h.between y hy x hx z hz (by linarith) (by linarith) (hasEdge_symm.1 hxy)
    exact ⟨hasEdge_symm.1 this.2, hasEdge_symm.1 this.1⟩
  · rw [h.ahead x y z hxy hyz]
    have h1 := hne x y hxy
    have h2 := hne y z hyz
    simp only [neg_lt_neg_iff]
    rcases h1.lt_or_gt with h1 | h1 <;> rcases h2.lt_or_gt with h2 | h2 <;> simp [h1, h2, h1.not_gt, h2.not_gt]
  · rw [h.back x y z hxy hxz]
    have h1 := hne x y hxy
    have h2 := hne x z hxz
    simp only [neg_lt_neg_iff]
    rcases h1.lt_or_gt with h1 | h1 <;> rcases h2.lt_or_gt with h2 | h2 <;> simp [h1, h2, h1.not_gt, h2.not_gt]

/-- `w` points in the direction in which `t` grows. -/
def Points (g : NxGraph (Vec d) ℝ) (cs : CoordSys d) (t : Vec d → ℝ) (node w : Vec d) : Prop :=
  ∀ n, g.hasEdge node n → (0 < dot (unitVec cs node n) w ↔ t node < t n)

theorem dot_unit (cs : CoordSys d) (a b a' b' : Vec d) : dot (unitVec cs a b) (unitVec cs a' b') =
    dot (cs.connectingVector a b) (cs.connectingVector a' b') / (CoordSys.norm (cs.connectingVector a b) * CoordSys.norm (cs.connectingVector a' b')) := by
  unfold dot unitVec
  rw [Finset.sum_div]
  exact Finset.sum_congr rfl fun i _ => by rw [div_mul_div_comm]

theorem points_step {g : NxGraph (Vec d) ℝ} {cs : CoordSys d} (hb : ProperBox cs) {t : Vec d → ℝ} (h : Directed g cs t) {x y : Vec d} (hxy : g.hasEdge x y) (hlt : t x < t y) :
    Points g cs t y (unitVec cs x y) := by
  intro n hn
  rw [dot_unit, norm_connectingVector hb, norm_connectingVector hb, div_pos_iff_of_pos_right (mul_pos (h.pos y n hn) (h.pos x y hxy)), h.ahead x y n hxy hn]
  simp [hlt]

theorem points_back {g : NxGraph (Vec d) ℝ} {cs : CoordSys d} (hb : ProperBox cs) {t : Vec d → ℝ} (h : Directed g cs t) {x y : Vec d} (hxy : g.hasEdge x y) (hlt : t y < t x) :
    Points g cs t x fun i => -(unitVec cs x y i) := by
  intro n hn
  have e : dot (unitVec cs x n) (fun i => -(unitVec cs x y i)) = -dot (unitVec cs x n) (unitVec cs x y) := by
    unfold dot
    rw [← Finset.sum_neg_distrib]
    exact Finset.sum_congr rfl fun i _ => by ring
  rw [e, dot_unit, norm_connectingVector hb, norm_connectingVector hb, neg_pos, div_neg_iff]
  have hp := mul_pos (h.pos x n hn) (h.pos x y hxy)
  have := h.back x y n hxy hn
  simp only [hlt, true_iff] at this
  rw [← this]
  constructor
  · rintro (⟨-, h⟩ | h)
    · exact absurd h hp.not_gt
    · exact h.1
  · exact fun h => .inr ⟨h, hp⟩

/-- where no neighbour is ahead, the line ends -/
theorem max_of_no_ahead {g : NxGraph (Vec d) ℝ} (hg : GoodGraph g) (hc : Connected g) {cs : CoordSys d} {t : Vec d → ℝ} (h : Directed g cs t) {x : Vec d} (hx : x ∈ g.nodes)
    (hno : ∀ n, g.hasEdge x n → ¬ t x < t n) : ∀ z ∈ g.nodes, t z ≤ t x := by
  intro z hz
  have hr := hc x hx z hz
  induction hr with
  | refl => exact le_rfl
  | @tail b c hb hbc ih =>
    have hm := goodGraph_edge hg hbc
    have ih := ih hm.1
    by_contra hlt
    push Not at hlt
    rcases ih.eq_or_lt with e | e
    · have := h.inj b hm.1 x hx e
      subst this
      exact hno c hbc hlt
    · exact hno c (h.between b hm.1 c hm.2.1 x hx e hlt hbc).2 hlt

/-- a path from one end to the other dominates the cluster -/
theorem dominates_of_path {g : NxGraph (Vec d) ℝ} {cs : CoordSys d} {t : Vec d → ℝ} (h : Directed g cs t) {z : Vec d} (hz : z ∈ g.nodes) :
    ∀ (l : List (Vec d)) (x : Vec d), (∀ y ∈ x :: l, y ∈ g.nodes) → (x :: l).IsChain g.hasEdge → t z ≤ t x → (∀ y, (x :: l).getLast? = some y → t y ≤ t z) →
      z ∈ x :: l ∨ ∃ y ∈ x :: l, g.hasEdge z y := by
  intro l
  induction l with
  | nil =>
    intro x hm _ h1 h2
    have := h2 x rfl
    left
    rw [List.mem_singleton]
    exact h.inj z hz x (hm x (by simp)) (le_antisymm h1 this)
  | cons y l ih =>
    intro x hm hch h1 h2
    obtain ⟨hxy, hch'⟩ := List.isChain_cons_cons.1 hch
    rcases le_or_gt (t z) (t y) with hle | hgt
    · rcases ih y (fun w hw => hm w (by simp [hw])) hch' hle (fun w hw => h2 w (by rw [List.getLast?_cons_cons]; exact hw)) with h' | ⟨w, hw, h'⟩
      · exact .inl (by simp [List.mem_cons.1 h'])
      · exact .inr ⟨w, List.mem_cons_of_mem _ hw, h'⟩
    · rcases h1.eq_or_lt with e | e
      · exact .inl (by rw [h.inj z hz x (hm x (by simp)) e]; simp)
      · exact .inr ⟨x, by simp, (h.between y (hm y (by simp)) x (hm x (by simp)) z hz hgt e (hasEdge_symm.1 hxy)).2⟩

/-- the two directions -/
def Axis (t0 t : Vec d → ℝ) : Prop := t = t0 ∨ t = fun x => -t0 x

theorem Axis.neg {t0 t : Vec d → ℝ} (h : Axis t0 t) : Axis t0 fun x => -t x := by
  rcases h with rfl | rfl
  · exact .inr rfl
  · left; funext x; simp

theorem Axis.directed {g : NxGraph (Vec d) ℝ} (hg : GoodGraph g) {cs : CoordSys d} {t0 t : Vec d → ℝ} (h0 : Directed g cs t0) (h : Axis t0 t) : Directed g cs t := by
  rcases h with rfl | rfl
  · exact h0
  · exact h0.neg hg

/-- a path along which `t` falls -/
structure Falls (t : Vec d → ℝ) (rg : NxGraph (Vec d) Unit) (p : List (Vec d)) : Prop where
  path : PathGraph rg p
  falls : p.Pairwise fun x y => t y < t x

/-- The invariant of `find_loop`. -/
structure LInv (g : NxGraph (Vec d) ℝ) (cs : CoordSys d) (t0 : Vec d → ℝ) (rg : NxGraph (Vec d) Unit) (ev : List (Vec d)) (pending : Option (Vec d)) (node : Vec d) (prev : Option (Vec d))
    (onGraph : Bool) : Prop where
  off : onGraph = false
  path : ∃ t l, Axis t0 t ∧ Falls t rg (node :: l) ∧ ((prev = none ∧ l = [] ∧ pending = none ∧ ev = []) ∨ (l ≠ [] ∧ ∃ w, prev = some w ∧ Points g cs t node w)) ∧
    ((pending = none ∧ ev = []) ∨ ∀ z ∈ g.nodes, ∀ y, (node :: l).getLast? = some y → t y ≤ t z)

/-- The invariant of `run`. -/
def OInv (g : NxGraph (Vec d) ℝ) (t0 : Vec d → ℝ) (rg : NxGraph (Vec d) Unit) (ev : List (Vec d)) : Prop :=
  (rg = NxGraph.empty ∧ ev = []) ∨ ∃ t x l, Axis t0 t ∧ Falls t rg (x :: l) ∧ l ≠ [] ∧ x ∈ ev ∧ (∀ z ∈ g.nodes, t z ≤ t x) ∧
    ((∀ z ∈ g.nodes, ∀ y, (x :: l).getLast? = some y → t y ≤ t z) ∨ ev = [x])

/-- The invariant. -/
def CInv (g : NxGraph (Vec d) ℝ) (cs : CoordSys d) (t0 : Vec d → ℝ) : BState d → Prop
  | .outer rg ev => OInv g t0 rg ev
  | .loop rg ev pending node prev onGraph => LInv g cs t0 rg ev pending node prev onGraph
  | .done rg => ∃ t p, Axis t0 t ∧ Falls t rg p ∧ 2 ≤ p.length
  | .error _ => False

theorem falls_head_ne_last {t : Vec d → ℝ} {rg : NxGraph (Vec d) Unit} {x y : Vec d} {l : List (Vec d)} (h : Falls t rg (x :: l)) (hl : l ≠ []) (hy : (x :: l).getLast? = some y) : y ≠ x := by
  cases l with
  | nil => exact absurd rfl hl
  | cons z l =>
    rw [List.getLast?_cons_cons] at hy
    rintro rfl
    exact (List.nodup_cons.1 h.path.1).1 (List.mem_of_getLast? hy)

theorem reverse_cons_last {x y : Vec d} {l : List (Vec d)} (hl : l ≠ []) (hy : (x :: l).getLast? = some y) : ∃ l', (x :: l).reverse = y :: l' ∧ l' ≠ [] ∧ (y :: l').getLast? = some x := by
  have h1 : (x :: l).reverse.head? = some y := by rw [List.head?_reverse]; exact hy
  cases h : (x :: l).reverse with
  | nil => rw [h] at h1; simp at h1
  | cons z l' =>
    rw [h] at h1
    simp only [List.head?_cons, Option.some.injEq] at h1
    subst h1
    refine ⟨l', rfl, ?_, ?_⟩
    · rintro rfl
      have := congrArg List.length h
      simp at this
      exact hl this
    · rw [← h, List.getLast?_reverse]; rfl

theorem cInv_step {g : NxGraph (Vec d) ℝ} {cs : CoordSys d} {fs : ℝ} (hl : LineCluster g cs fs) {t0 : Vec d → ℝ} (h0 : Directed g cs t0) {s s' : BState d} (hs : BInv g cs s) (hc : CInv g cs t0 s)
    (hst : BStep g cs fs s s') : CInv g cs t0 s' := by
  have hdir : ∀ {t}, Axis t0 t → Directed g cs t := fun h => Axis.directed hl.good h0 h
  cases hst with
  | @finish rg ev hd =>
    rcases hc with ⟨rfl, -⟩ | ⟨t, x, l, h1, h2, h3, -, -, -⟩
    · obtain ⟨a, ha, -⟩ := hl.pos
      obtain ⟨y, -, hy⟩ := hd a ha (by simp [NxGraph.empty])
      simp [NxGraph.empty] at hy
    · refine ⟨t, x :: l, h1, h2, ?_⟩
      have := List.length_pos_of_ne_nil h3
      simp only [List.length_cons]; omega
  | @endNode rg ev node nbr hd hn hnbr =>
    obtain ⟨n1, n2, n3⟩ := mem_newEndNodes.1 hn
    have hrg : RgInv g cs rg := hs
    rcases hc with ⟨rfl, -⟩ | ⟨t, x, l, h1, h2, h3, h4, h5, h6⟩
    · simp [NxGraph.empty] at n1
    have hlen : 2 ≤ (x :: l).length := by
      have := List.length_pos_of_ne_nil h3
      simp only [List.length_cons]; omega
    rw [← nbrCount_eq_degree hrg.good] at n2
    have hlast : (x :: l).getLast? = some node := by
      rcases PathGraph.degrees hrg.good h2.path hlen ((h2.path.2.1 node).2 n1) with ⟨-, h | h⟩ | h
      · simp only [List.head?_cons, Option.some.injEq] at h
        exact absurd (h ▸ h4) n3
      · exact h
      · omega
    have hedge : rg.hasEdge node nbr := mem_neighbors.1 (List.mem_of_mem_head? hnbr)
    obtain ⟨l', e1, e2, e3⟩ := reverse_cons_last h3 hlast
    have hp := PathGraph.reverse h2.path
    rw [e1] at hp
    have hf : (node :: l').Pairwise fun x y => -t y < -t x := by
      rw [← e1, List.pairwise_reverse]
      exact h2.falls.imp fun h => by simpa using h
    refine ⟨rfl, fun x => -t x, l', h1.neg, ⟨PathGraph.addNode hp (by simp), hf⟩, .inr ⟨e2, _, rfl, points_back hl.box (hdir h1.neg) (hrg.sub.2 _ _ hedge) ?_⟩, .inr ?_⟩
    · have hm : nbr ∈ node :: l' := (hp.2.1 nbr).2 (goodGraph_edge hrg.good hedge).2.1
      have hne := (goodGraph_edge hrg.good hedge).2.2
      exact (List.pairwise_cons.1 hf).1 nbr ((List.mem_cons.1 hm).resolve_left (Ne.symm hne))
    · intro z hz y hy
      rw [e3] at hy
      obtain rfl := Option.some.inj hy
      simpa using h5 z hz
  | @newStart rg ev node hd hn hcand =>
    have hrg : RgInv g cs rg := hs
    rcases hc with ⟨rfl, rfl⟩ | ⟨t, x, l, h1, h2, h3, h4, h5, h6⟩
    · exact ⟨rfl, t0, [], .inl rfl, ⟨pathGraph_single node, by simp⟩, .inl ⟨rfl, rfl, rfl, rfl⟩, .inl ⟨rfl, rfl⟩⟩
    · exfalso
      obtain ⟨y, hy⟩ : ∃ y, (x :: l).getLast? = some y := ⟨_, List.getLast?_eq_some_getLast (by simp)⟩
      have hyx := falls_head_ne_last h2 h3 hy
      have hyp := List.mem_of_getLast? hy
      have hlen : 2 ≤ (x :: l).length := by
        have := List.length_pos_of_ne_nil h3
        simp only [List.length_cons]; omega
      rcases h6 with h6 | rfl
      · apply hd
        intro z hz hzn
        have hch : (x :: l).IsChain g.hasEdge := by
          rw [List.isChain_iff_getElem]
          intro i hi
          refine hrg.sub.2 _ _ ((h2.path.2.2 _ _).2 (.inl (consecutive_iff.2 ⟨i, hi, rfl, rfl⟩)))
        rcases dominates_of_path (hdir h1) hz l x (fun w hw => hrg.sub.1 w ((h2.path.2.1 w).1 hw)) hch (h5 z hz) (h6 z hz) with h | ⟨w, hw, h⟩
        · exact absurd ((h2.path.2.1 z).1 h) hzn
        · exact ⟨w, mem_neighbors.2 h, (h2.path.2.1 w).1 hw⟩
      · have hdeg : rg.degree y = 1 := by
          rw [← nbrCount_eq_degree hrg.good]
          rcases PathGraph.degrees hrg.good h2.path hlen hyp with h | h
          · exact h.1
          · exact absurd hy h.2.2
        have : y ∈ newEndNodes rg [x] := mem_newEndNodes.2 ⟨(h2.path.2.1 y).1 hyp, hdeg, by simpa using hyx⟩
        rw [hn] at this
        simp at this
  | noStart hd _ hcand => exact absurd hcand (startCandidates_ne hd)
  | @next rg ev pending node prev onGraph r hr =>
    obtain ⟨hrg, hnode, -⟩ : RgInv g cs rg ∧ node ∈ rg.nodes ∧ ∀ s, pending = some s → s ∈ g.nodes := hs
    obtain ⟨ho, t, l, h1, h2, h3, h4⟩ := hc
    subst ho
    have hng := hrg.sub.1 _ hnode
    rcases nextPos_spec hl hng hr with ⟨rfl, hprev⟩ | ⟨n, rfl, hn⟩
    · -- the line ends here
      rcases h3 with ⟨h, -⟩ | ⟨h3, w, rfl, hw⟩
      · exact absurd h hprev
      have hcand : candidateNodes g cs node (some w) = [] := by cases hr with | nothing _ _ h => exact h
      have hmax := max_of_no_ahead hl.good hl.conn (hdir h1) hng fun n hn hlt => by
        have : n ∈ candidateNodes g cs node (some w) := (mem_candidate hl.box).2 ⟨hn, (hdir h1).pos _ _ hn, (hw n hn).2 hlt⟩
        rw [hcand] at this
        simp at this
      refine .inr ⟨t, node, l, h1, h2, h3, by simp, hmax, ?_⟩
      rcases h4 with ⟨rfl, rfl⟩ | h4
      · exact .inr rfl
      · exact .inl h4
    · obtain ⟨c1, c2, c3⟩ := (mem_candidate hl.box).1 hn
      have key : ∀ t, Axis t0 t → Falls t rg (node :: l) → t node < t n → ((pending = none ∧ ev = []) ∨ ∀ z ∈ g.nodes, ∀ y, (node :: l).getLast? = some y → t y ≤ t z) →
          CInv g cs t0 (afterNext rg ev pending node prev false (.ok (some (n, unitVec cs node n)))) := by
        intro t h1 h2 hlt h4
        have hnot : n ∉ node :: l := by
          intro hmem
          rcases List.mem_cons.1 hmem with rfl | hmem
          · exact lt_irrefl _ hlt
          · exact lt_irrefl _ (hlt.trans ((List.pairwise_cons.1 h2.falls).1 n hmem))
        have hnot' : n ∉ rg.nodes := fun h => hnot ((h2.path.2.1 n).2 h)
        simp only [afterNext, if_neg hnot']
        refine ⟨rfl, t, node :: l, h1, ⟨PathGraph.extend h2.path hnot, List.pairwise_cons.2 ⟨fun y hy => ?_, h2.falls⟩⟩, .inr ⟨by simp, _, rfl, points_step hl.box (hdir h1) c1 hlt⟩, ?_⟩
        · rcases List.mem_cons.1 hy with rfl | hy
          · exact hlt
          · exact ((List.pairwise_cons.1 h2.falls).1 y hy).trans hlt
        · rcases h4 with h4 | h4
          · exact .inl h4
          · right
            intro z hz y hy
            rw [List.getLast?_cons_cons] at hy
            exact h4 z hz y hy
      rcases h3 with ⟨rfl, rfl, rfl, h4'⟩ | ⟨h3, w, rfl, hw⟩
      · have hne : t node ≠ t n := fun e => by
          have := goodGraph_edge hl.good c1
          exact this.2.2 ((hdir h1).inj _ this.1 _ this.2.1 e)
        rcases hne.lt_or_gt with hlt | hgt
        · exact key t h1 h2 hlt h4
        · exact key (fun x => -t x) h1.neg ⟨h2.path, by simp⟩ (by simpa using hgt) (.inl ⟨rfl, h4'⟩)
      · exact key t h1 h2 ((hw n c1).1 c3) h4

/-- On a line that goes in one direction, the ballistic method gives a path in this direction. -/
theorem ballistic_path {g : NxGraph (Vec d) ℝ} {cs : CoordSys d} {fs : ℝ} (hl : LineCluster g cs fs) {t : Vec d → ℝ} (ht : Directed g cs t) {n : ℕ} {rg : NxGraph (Vec d) Unit}
    (hr : BRun g cs fs n (.done rg)) : ∃ p, PathGraph rg p ∧ 2 ≤ p.length ∧ p.Pairwise fun x y => t x < t y := by
  have key : ∀ {n s}, BRun g cs fs n s → CInv g cs t s := by
    intro n s h
    induction h with
    | init => exact .inl ⟨rfl, rfl⟩
    | step h hst ih => exact cInv_step hl ht (bRun_inv hl h).1 ih hst
  obtain ⟨t', p, rfl | rfl, h2, h3⟩ := key hr
  · exact ⟨p.reverse, PathGraph.reverse h2.path, by simpa using h3, List.pairwise_reverse.2 h2.falls⟩
  · exact ⟨p, h2.path, h3, h2.falls.imp fun h => by simpa using h⟩

end NF
