import Verif.Lemmas.RingCut

/-! # The shortest-path method on a closed line: an arc grows -/

noncomputable section
open Classical
namespace NF
open Spec NxGraph
variable {V A : Type}

/-! ### Lists -/

theorem sumAlong_split (f : V → V → ℝ) : ∀ (X : List V) (a : V) (Y : List V), sumAlong f (X ++ a :: Y) = sumAlong f (X ++ [a]) + sumAlong f (a :: Y)
  | [], a, Y => by simp [sumAlong]
  | [b], a, Y => by simp [sumAlong]
  | b :: c :: X, a, Y => by
    have := sumAlong_split f (c :: X) a Y
    simp only [List.cons_append, sumAlong] at *
    rw [this]; ring

theorem sumAlong_rev (f : V → V → ℝ) : ∀ l : List V, sumAlong f l.reverse = sumAlong (fun x y => f y x) l
  | [] => rfl
  | [_] => rfl
  | x :: y :: l => by
    have := sumAlong_rev f (y :: l)
    rw [List.reverse_cons] at this
    rw [List.reverse_cons, List.reverse_cons, List.append_assoc, List.singleton_append, sumAlong_split, this]
    simp only [sumAlong]
    ring

theorem sumAlong_congr' {f f' : V → V → ℝ} : ∀ l : List V, (∀ x y, Consecutive l x y → f x y = f' x y) → sumAlong f l = sumAlong f' l
  | [], _ => rfl
  | [_], _ => rfl
  | x :: y :: l, h => by
    simp only [sumAlong]
    rw [h x y ⟨[], l, rfl⟩, sumAlong_congr' (y :: l) fun a b hab => h a b (consecutive_cons.2 (.inr hab))]

theorem sumAlong_linear {f : V → V → ℝ} {v : V → ℝ} : ∀ (l : List V) (x z : V), (∀ a b, Consecutive (x :: l) a b → f a b = v b - v a) → (x :: l).getLast? = some z → sumAlong f (x :: l) = v z - v x
  | [], x, z, _, hz => by
    simp at hz
    subst hz
    simp [sumAlong]
  | y :: l, x, z, h, hz => by
    rw [List.getLast?_cons_cons] at hz
    simp only [sumAlong]
    rw [sumAlong_linear l y z (fun a b hab => h a b (consecutive_cons.2 (.inr hab))) hz, h x y ⟨[], l, rfl⟩]
    ring

theorem chain_iff_consecutive {r : V → V → Prop} {p : List V} : p.IsChain r ↔ ∀ x y, Consecutive p x y → r x y := by
  rw [List.isChain_iff_forall_rel_of_append_cons_cons]
  exact ⟨fun h x y ⟨a, b, e⟩ => h e, fun h a b X Y e => h a b ⟨X, Y, e⟩⟩

theorem consecutive_sublist {X Y : List V} {x y : V} (h : Consecutive Y x y) : Consecutive (X ++ Y) x y := by
  obtain ⟨a, b, rfl⟩ := h
  exact ⟨X ++ a, b, by simp⟩

theorem exists_concat {p : List V} {e : V} (h : p.getLast? = some e) : ∃ q, p = q ++ [e] := by
  rcases List.eq_nil_or_concat p with rfl | ⟨q, x, rfl⟩
  · simp at h
  · simp at h; subst h; exact ⟨q, by simp⟩

theorem exists_cons {p : List V} {e : V} (h : p.head? = some e) : ∃ q, p = e :: q := by
  cases p with
  | nil => simp at h
  | cons a l => simp at h; exact ⟨l, by rw [h]⟩

/-- A step forward. -/
def Fwd (g : NxGraph V ℝ) (σ : V → V → ℝ) (x y : V) : Prop := g.hasEdge x y ∧ 0 < σ x y

section
variable {g : NxGraph V ℝ} {w σ : V → V → ℝ} {L m κ : ℝ}

theorem Fwd.reverse (h : Looped g w σ L m κ) {P : List V} (hP : P.IsChain (Fwd g σ)) : P.reverse.IsChain (Fwd g fun x y => -σ x y) := by
  rw [chain_iff_consecutive] at hP ⊢
  intro x y hxy
  obtain ⟨h1, h2⟩ := hP y x (consecutive_reverse.1 hxy)
  exact ⟨hasEdge_symm.1 h1, by simp only; rw [h.anti y x h1]; linarith⟩

theorem sumAlong_fwd_reverse (h : Looped g w σ L m κ) {P : List V} (hP : P.IsChain g.hasEdge) : sumAlong (fun x y => -σ x y) P.reverse = sumAlong σ P := by
  rw [sumAlong_rev]
  exact sumAlong_congr' _ fun x y hxy => by rw [h.anti x y (consecutive_of_chain hP hxy), neg_neg]

/-- A shortest path to `e` comes from one side. -/
theorem sides (h : Looped g w σ L m κ) (hg : GoodGraph g) {e : V} {t : V → ℝ} (hc : Cut g w σ L e t) {s : V} {p : List V} (hp : g.IsPath s e p)
    (hj : ∀ x y, Consecutive p x y → y ≠ e → x ≠ e ∧ σ x y = t y - t x) :
    (∀ x y, Consecutive p x y → σ x y = farEnd L e t y - farEnd L e t x) ∨ (∀ x y, Consecutive p x y → σ x y = t y - t x) := by
  obtain ⟨q, rfl⟩ := exists_concat hp.last
  have hfar : ∀ x y, x ≠ e → y ≠ e → farEnd L e t y - farEnd L e t x = t y - t x := fun x y hx hy => by simp [farEnd, hx, hy]
  rcases List.eq_nil_or_concat q with rfl | ⟨q, z, rfl⟩
  · left
    intro x y hxy
    rcases consecutive_cons.1 hxy with ⟨-, h⟩ | ⟨_, _, h⟩ <;> simp at h
  simp only [List.concat_eq_append] at *
  have hlast : ∀ x, Consecutive (q ++ [z] ++ [e]) x e → x = z := by
    intro x hx
    have := (consecutive_split (a := q ++ [z]) (b := []) (x := e) (y := e) (z := x) (by simpa using hp.nodup)).2.1 hx
    simpa using this.symm
  have hze : g.hasEdge z e := consecutive_of_chain hp.chain ⟨q, [], by simp⟩
  have hzne := (goodGraph_edge hg hze).2.2
  rcases hc.at_end h hg hze with ⟨h1, -⟩ | ⟨h1, -⟩
  · right
    intro x y hxy
    by_cases hy : y = e
    · subst hy
      rw [hlast x hxy, h1, hc.self]; ring
    · exact (hj x y hxy hy).2
  · left
    intro x y hxy
    by_cases hy : y = e
    · subst hy
      rw [hlast x hxy, h1]
      simp [farEnd, hzne]
    · obtain ⟨h2, h3⟩ := hj x y hxy hy
      rw [hfar x y h2 hy, h3]

/-- A shortest path from a node of the result to `e`, which comes from the far side, goes along the result to its end and then in one direction. -/
theorem far_path (h : Looped g w σ L m κ) (hg : GoodGraph g) {e : V} {t : V → ℝ} (hc : Cut g w σ L e t) {k : NxGraph V (ℝ × ℝ)} (hkg : GoodGraph k) (hk : ∀ x y, k.hasEdge x y → g.hasEdge x y)
    {K : V → Prop} (hKe : K e) (hK : ∀ x y, K x → K y → g.hasEdge x y → k.hasEdge x y) {rg : NxGraph V Unit} (hgr : GoodGraph rg) (hconn : Connected rg)
    (hrn : ∀ x ∈ rg.nodes, x ∈ g.nodes ∧ K x ∧ x ≠ e) (hre : ∀ x y, rg.hasEdge x y → g.hasEdge x y ∧ σ x y = t y - t x)
    {f : V → ℝ} (hzero : ∀ x y, rg.hasEdge x y → edgeWeight k x y = 0)
    (hother : ∀ x y, k.hasEdge x y → K x → K y → σ x y = farEnd L e t y - farEnd L e t x → ¬ rg.hasEdge x y → edgeWeight k x y = f x * f y * w x y)
    {D s : V} (hD : D ∈ rg.nodes) (hs : s ∈ rg.nodes) (hle : ∀ x ∈ rg.nodes, t x ≤ t D) (hf0 : 0 < f D) (hf : ∀ x, f D ≤ f x) (hf1 : ∀ x, f x ≤ 1)
    (hfout : ∀ x, K x → x ∉ rg.nodes → x ≠ e → f x = 1) {p : List V} (hp : IsShortestPath k s e p) (hpK : ∀ x ∈ p, K x)
    (hpl : ∀ x y, Consecutive p x y → σ x y = farEnd L e t y - farEnd L e t x) :
    ∃ A C, p = A ++ D :: C ∧ (A ++ [D]).IsChain rg.hasEdge ∧ (D :: C).Pairwise (fun x y => farEnd L e t x < farEnd L e t y) := by
  have hfar : ∀ x, x ≠ e → farEnd L e t x = t x := fun x hx => by simp [farEnd, hx]
  have hfe : farEnd L e t e = L := by simp [farEnd]
  have hge := fun x y => hasEdge_linear (K := K) (v := farEnd L e t) (x := x) (y := y) h (k := g) (fun _ _ h => h)
  have hke := fun x y => hasEdge_linear (K := K) (v := farEnd L e t) (x := x) (y := y) h (k := k) hk
  have hsub : SubgraphOf rg (restrict g K (Linear σ (farEnd L e t))) := by
    refine ⟨fun x hx => mem_restrict.2 ⟨(hrn x hx).1, (hrn x hx).2.1⟩, fun x y hxy => ?_⟩
    have := goodGraph_edge hgr hxy
    rw [hge]
    refine ⟨(hre x y hxy).1, (hrn x this.1).2.1, (hrn y this.2.1).2.1, ?_⟩
    rw [hfar x (hrn x this.1).2.2, hfar y (hrn y this.2.1).2.2]
    exact (hre x y hxy).2
  have hw : Weighted (restrict g K (Linear σ (farEnd L e t))) (restrict k K (Linear σ (farEnd L e t))) rg (fun x => if K x then f x else 1) w := by
    have hiff : ∀ x y, (restrict k K (Linear σ (farEnd L e t))).hasEdge x y ↔ (restrict g K (Linear σ (farEnd L e t))).hasEdge x y := by
      intro x y
      rw [hge, hke]
      exact ⟨fun ⟨a, b, c, d⟩ => ⟨hk x y a, b, c, d⟩, fun ⟨a, b, c, d⟩ => ⟨hK x y b c a, b, c, d⟩⟩
    refine ⟨hiff, fun x y hxy => ?_, fun x y hxy hr => ?_⟩
    · rw [edgeWeight_restrict hkg ((hiff x y).2 (hsub.2 x y hxy))]
      exact hzero x y hxy
    · have hkxy := (hiff x y).2 hxy
      rw [edgeWeight_restrict hkg hkxy]
      obtain ⟨a, b, c, d⟩ := (hke x y).1 hkxy
      rw [if_pos b, if_pos c]
      exact hother x y a b c d hr
  have hDK := (hrn D hD).2.1
  refine shortest_beyond (goodGraph_restrict hg K _) (hc.lined h hc.lifts_far hc.far_inj K) hw hgr hsub hconn hD hs (mem_restrict.2 ⟨hc.mem, hKe⟩) ?_ (fun x hx => ?_) (by rw [if_pos hDK]; exact hf0)
    (fun x => ?_) (fun x => ?_) (fun x hx hxe => ?_) (shortest_restrict hkg hp ?_)
  · rw [hfe, hfar D (hrn D hD).2.2]
    exact (hc.range D (hrn D hD).1 (hrn D hD).2.2).2
  · rw [hfar D (hrn D hD).2.2, hfar x (hrn x hx).2.2]
    exact hle x hx
  · simp only [if_pos hDK]
    split_ifs
    · exact hf x
    · exact hf1 D
  · split_ifs
    · exact hf1 x
    · exact le_rfl
  · split_ifs with hKx
    · exact hfout x hKx hx hxe
    · rfl
  · rw [chain_iff_consecutive]
    intro x y hxy
    rw [hke]
    have hm := consecutive_mem hxy
    exact ⟨consecutive_of_chain hp.1.chain hxy, hpK x hm.1, hpK y hm.2, hpl x y hxy⟩

theorem sumAlong_le_weight {k : NxGraph V (ℝ × ℝ)} : ∀ l : List V, (∀ x y, Consecutive l x y → σ x y ≤ κ * edgeWeight k x y) → sumAlong σ l ≤ κ * pathWeight k l
  | [], _ => by simp [sumAlong, pathWeight, pathEdges]
  | [_], _ => by simp [sumAlong, pathWeight_single]
  | x :: y :: l, h => by
    have h1 := sumAlong_le_weight (y :: l) fun a b hab => h a b (consecutive_cons.2 (.inr hab))
    have h2 := h x y ⟨[], l, rfl⟩
    rw [pathWeight_cons]
    simp only [sumAlong]
    linarith

theorem Weighted.nonneg {k : NxGraph V (ℝ × ℝ)} {rg : NxGraph V Unit} {f : V → ℝ} (h : Looped g w σ L m κ) (hw : Weighted g k rg f w) (hf0 : ∀ x, 0 < f x) {x y : V} (hxy : k.hasEdge x y) : 0 ≤ edgeWeight k x y := by
  by_cases hr : rg.hasEdge x y
  · rw [hw.zero x y hr]
  · rw [hw.other x y ((hw.edge x y).1 hxy) hr]
    exact mul_nonneg (mul_pos (hf0 x) (hf0 y)).le (h.pos x y ((hw.edge x y).1 hxy)).le

/-- The result is an arc, `e` is not next to it, and a shortest path to `e` comes from the far side: it makes the arc longer. -/
theorem extend_far (h : Looped g w σ L m κ) (hg : GoodGraph g) {e : V} {t : V → ℝ} (hc : Cut g w σ L e t) {work : NxGraph V (ℝ × ℝ)} (hwg : GoodGraph work) {rg : NxGraph V Unit} (hgr : GoodGraph rg)
    (hsub : SubgraphOf rg g) (hconn : Connected rg) {f : V → ℝ} (hw : Weighted g work rg f w) {P : List V} {b : V} (hP : PathGraph rg (P ++ [b])) (hF : (P ++ [b]).IsChain (Fwd g σ))
    (hout : ∀ y ∈ rg.nodes, ¬ closedNeighbors g y e) (hf0 : ∀ x, 0 < f x) (hf1 : ∀ x, f x ≤ 1) (hfb : ∀ x, f b ≤ f x) (hfout : ∀ x, x ∉ rg.nodes → f x = 1) {s : V} (hs : s ∈ rg.nodes) {p : List V}
    (hp : IsShortestPath work s e p) (hpl : ∀ x y, Consecutive p x y → σ x y = farEnd L e t y - farEnd L e t x) :
    ∃ C, PathGraph ((pathEdges p).foldl (fun h e => h.addEdge e.1 e.2 ()) rg) (P ++ b :: C) ∧ (P ++ b :: C).IsChain (Fwd g σ) ∧ (b :: C).getLast? = some e ∧ sumAlong σ (P ++ b :: C) < L ∧
      sumAlong σ (b :: C) ≤ m + κ * pathWeight work p := by
  have hne : ∀ x ∈ rg.nodes, x ≠ e := fun x hx hxe => hout x hx (.inl hxe.symm)
  have hnadj : ∀ x ∈ rg.nodes, ¬ g.hasEdge x e := fun x hx hxe => hout x hx (.inr (mem_neighbors.2 hxe))
  have hfar : ∀ x, x ≠ e → farEnd L e t x = t x := fun x hx => by simp [farEnd, hx]
  have hlin : ∀ x y, rg.hasEdge x y → σ x y = t y - t x := by
    intro x y hxy
    have hm := goodGraph_edge hgr hxy
    by_contra hj
    exact hnadj x hm.1 (hc.jump h hg (hsub.2 x y hxy) (hne x hm.1) (hne y hm.2.1) hj).1
  have hord : (P ++ [b]).Pairwise fun x y => t x < t y := by
    rw [← List.isChain_iff_pairwise, chain_iff_consecutive]
    intro x y hxy
    have h1 := (consecutive_of_chain hF hxy).2
    rw [hlin x y ((hP.2.2 x y).2 (.inl hxy))] at h1
    linarith
  have hb : b ∈ rg.nodes := (hP.2.1 b).1 (by simp)
  have hle : ∀ x ∈ rg.nodes, t x ≤ t b := by
    intro x hx
    rcases List.mem_append.1 ((hP.2.1 x).2 hx) with hx | hx
    · exact ((List.pairwise_append.1 hord).2.2 x hx b (by simp)).le
    · rw [List.mem_singleton.1 hx]
  obtain ⟨A, C, rfl, hA, hC⟩ := far_path h hg hc hwg (fun x y => (hw.edge x y).1) (K := fun _ => True) trivial (fun x y _ _ => (hw.edge x y).2) hgr hconn (fun x hx => ⟨hsub.1 x hx, trivial, hne x hx⟩)
    (fun x y hxy => ⟨hsub.2 x y hxy, hlin x y hxy⟩) hw.zero (fun x y hxy _ _ _ hr => hw.other x y ((hw.edge x y).1 hxy) hr) hb hs hle (hf0 b) hfb hf1 (fun x _ hx _ => hfout x hx) hp (fun _ _ => trivial) hpl
  have hlast : (b :: C).getLast? = some e := by
    have := hp.1.last
    rwa [List.getLast?_append_of_ne_nil _ (by simp)] at this
  -- in the order of the far coordinate
  have hlinC : ∀ x y, Consecutive (b :: C) x y → σ x y = farEnd L e t y - farEnd L e t x := fun x y hxy => hpl x y (consecutive_sublist hxy)
  have hlinP : ∀ x y, Consecutive (P ++ b :: C) x y → σ x y = farEnd L e t y - farEnd L e t x := by
    intro x y hxy
    rcases consecutive_append.1 hxy with hxy | hxy
    · have hm := consecutive_mem hxy
      rw [hfar x (hne x ((hP.2.1 x).1 hm.1)), hfar y (hne y ((hP.2.1 y).1 hm.2))]
      exact hlin x y ((hP.2.2 x y).2 (.inl hxy))
    · exact hlinC x y hxy
  have hnd : (P ++ b :: C).Nodup := by
    rw [show P ++ b :: C = (P ++ [b]) ++ C by simp, List.nodup_append]
    refine ⟨hP.1, (hC.imp fun hlt e => by rw [e] at hlt; exact lt_irrefl _ hlt).of_cons, fun x hx y hy hxy => ?_⟩
    subst hxy
    have hx' := (hP.2.1 x).1 hx
    have h1 := hle x hx'
    have h2 := (List.pairwise_cons.1 hC).1 x hy
    rw [hfar x (hne x hx'), hfar b (hne b hb)] at h2
    linarith
  refine ⟨C, addPath_extends hgr hP hA hnd, ?_, hlast, ?_, ?_⟩
  · rw [chain_iff_consecutive] at hF ⊢
    intro x y hxy
    rcases consecutive_append.1 hxy with hxy | hxy
    · exact hF x y hxy
    · refine ⟨(hw.edge x y).1 (consecutive_of_chain hp.1.chain (consecutive_sublist hxy)), ?_⟩
      have := consecutive_of_chain (List.isChain_iff_pairwise.2 hC) hxy
      rw [hlinC x y hxy]
      linarith
  · obtain ⟨c, Q, hcQ⟩ : ∃ c Q, P ++ b :: C = c :: Q := by cases P <;> simp
    have hcm : c ∈ rg.nodes := by
      rw [← hP.2.1]
      cases P with
      | nil => simp at hcQ; rw [hcQ.1]; simp
      | cons a P => simp at hcQ; rw [hcQ.1]; simp
    rw [hcQ, sumAlong_linear Q c e (hcQ ▸ hlinP) (by rw [← hcQ, List.getLast?_append_of_ne_nil _ (by simp)]; exact hlast), hfar c (hne c hcm)]
    have := (hc.range c (hsub.1 c hcm) (hne c hcm)).1
    simp only [farEnd, if_true]
    linarith
  · cases C with
    | nil => simp at hlast; exact absurd hlast (hne b hb)
    | cons c R =>
      have hbc := consecutive_of_chain hp.1.chain (consecutive_sublist (X := A) ⟨[], R, rfl⟩ : Consecutive (A ++ b :: c :: R) b c)
      have hCout : ∀ x ∈ c :: R, x ∉ rg.nodes := by
        intro x hx hxr
        have := (List.pairwise_cons.1 hC).1 x hx
        rw [hfar x (hne x hxr), hfar b (hne b hb)] at this
        exact absurd (hle x hxr) (not_le.2 this)
      have h1 : sumAlong σ (c :: R) ≤ κ * pathWeight work (c :: R) := by
        refine sumAlong_le_weight _ fun x y hxy => ?_
        have hm := consecutive_mem hxy
        have hxyg := (hw.edge x y).1 (consecutive_of_chain hp.1.chain (consecutive_sublist (consecutive_cons.2 (.inr hxy))))
        rw [hw.other x y hxyg (fun hr => hCout x hm.1 (goodGraph_edge hgr hr).1), hfout x (hCout x hm.1), hfout y (hCout y hm.2), one_mul, one_mul]
        exact (le_abs_self _).trans (h.low x y hxyg)
      have h2 := (abs_le.1 (h.small b c ((hw.edge b c).1 hbc))).2
      have hnn := fun x y => hw.nonneg h hf0 (x := x) (y := y)
      have h3 : 0 ≤ pathWeight work (A ++ [b]) := pathWeight_nonneg hnn (by
        have := List.isChain_append.1 hp.1.chain
        exact List.isChain_append.2 ⟨this.1, by simp, fun a ha b hb => this.2.2 a ha b (by simpa using hb)⟩)
      have h4 := hnn b c hbc
      rw [pathWeight_append, pathWeight_cons]
      simp only [sumAlong]
      nlinarith [h.hκ]

/-- The path to a node which is not next to the result does not jump over it. -/
theorem fresh_sides (h : Looped g w σ L m κ) (hg : GoodGraph g) {e : V} {t : V → ℝ} (hc : Cut g w σ L e t) {work : NxGraph V (ℝ × ℝ)} {rg : NxGraph V Unit} (hgr : GoodGraph rg)
    {f : V → ℝ} (hw : Weighted g work rg f w) (hout : ∀ y ∈ rg.nodes, ¬ closedNeighbors g y e) (hf0 : ∀ x, 0 < f x) (hfout : ∀ x, x ∉ rg.nodes → f x = 1) {s : V} {p : List V}
    (hp : IsShortestPath work s e p) :
    (∀ x y, Consecutive p x y → σ x y = farEnd L e t y - farEnd L e t x) ∨ (∀ x y, Consecutive p x y → σ x y = t y - t x) := by
  refine sides h hg hc (isPath_mono (fun x y => (hw.edge x y).1) hp.1) fun x y hxy hy => no_jump (fun x y => hw.nonneg h hf0) (fun x y hxy hx hy hj => ?_) hp hxy hy
  have hxyg := (hw.edge x y).1 hxy
  obtain ⟨h1, h2, h3, -⟩ := hc.jump h hg hxyg hx hy hj
  have hxr : x ∉ rg.nodes := fun hx => hout x hx (.inr (mem_neighbors.2 h1))
  have hyr : y ∉ rg.nodes := fun hx => hout y hx (.inr (mem_neighbors.2 h2))
  have her : e ∉ rg.nodes := fun hx => hout e hx (.inl rfl)
  refine ⟨(hw.edge x e).2 h1, ?_⟩
  rw [hw.other x e h1 (fun hr => hxr (goodGraph_edge hgr hr).1), hw.other x y hxyg (fun hr => hxr (goodGraph_edge hgr hr).1), hfout x hxr, hfout y hyr, hfout e her]
  linarith

theorem neg_neg_fun (σ : V → V → ℝ) : (fun x y => -(-σ x y)) = σ := by funext x y; rw [neg_neg]

/-- One of the two directions. -/
def Either (σ σ' : V → V → ℝ) : Prop := σ' = σ ∨ σ' = fun x y => -σ x y

theorem Either.looped {σ' : V → V → ℝ} (he : Either σ σ') (h : Looped g w σ L m κ) : Looped g w σ' L m κ := by
  rcases he with rfl | rfl
  exacts [h, h.neg]

theorem Cut.far_neg {e : V} {t : V → ℝ} (hc : Cut g w σ L e t) (x : V) : farEnd L e (fun x => if x = e then 0 else L - t x) x = L - t x := by
  unfold farEnd
  split_ifs with hx
  · rw [hx, hc.self]; ring
  · simp only [if_neg hx]

/-- The result is an arc and `e` is not next to it: a shortest path to `e` makes the arc longer. -/
theorem extend_arc (h : Looped g w σ L m κ) (hg : GoodGraph g) {e : V} (heg : e ∈ g.nodes) {work : NxGraph V (ℝ × ℝ)} (hwg : GoodGraph work) {rg : NxGraph V Unit} (hgr : GoodGraph rg)
    (hsub : SubgraphOf rg g) (hconn : Connected rg) {f : V → ℝ} (hw : Weighted g work rg f w) {P : List V} (hP : PathGraph rg P) (hF : P.IsChain (Fwd g σ))
    (hout : ∀ y ∈ rg.nodes, ¬ closedNeighbors g y e) (hf0 : ∀ x, 0 < f x) (hf1 : ∀ x, f x ≤ 1) (hfb : ∀ b, P.head? = some b ∨ P.getLast? = some b → ∀ x, f b ≤ f x)
    (hfout : ∀ x, x ∉ rg.nodes → f x = 1) {s : V} (hs : s ∈ rg.nodes) {p : List V} (hp : IsShortestPath work s e p) :
    ∃ σ', Either σ σ' ∧ ∃ P', PathGraph ((pathEdges p).foldl (fun h e => h.addEdge e.1 e.2 ()) rg) (e :: P') ∧ (e :: P').IsChain (Fwd g σ') ∧ sumAlong σ' (e :: P') < L ∧
      sumAlong σ' (e :: P') ≤ sumAlong σ P + (m + κ * pathWeight work p) ∧ ∃ a, (e :: P').getLast? = some a ∧ (P.head? = some a ∨ P.getLast? = some a) := by
  obtain ⟨t, hc⟩ := h.cut e heg
  -- the far side
  have key : ∀ (σ : V → V → ℝ) (t : V → ℝ) (P : List V), Looped g w σ L m κ → Cut g w σ L e t → PathGraph rg P → P.IsChain (Fwd g σ) → (∀ b, P.getLast? = some b → ∀ x, f b ≤ f x) →
      (∀ x y, Consecutive p x y → σ x y = farEnd L e t y - farEnd L e t x) →
      ∃ P', PathGraph ((pathEdges p).foldl (fun h e => h.addEdge e.1 e.2 ()) rg) (e :: P') ∧ (e :: P').IsChain (Fwd g fun x y => -σ x y) ∧ sumAlong (fun x y => -σ x y) (e :: P') < L ∧
        sumAlong (fun x y => -σ x y) (e :: P') ≤ sumAlong σ P + (m + κ * pathWeight work p) ∧ (e :: P').getLast? = P.head? := by
    intro σ t P h hc hP hF hfb hpl
    rcases List.eq_nil_or_concat P with rfl | ⟨P0, b, rfl⟩
    · exact absurd ((hP.2.1 s).2 hs) (by simp)
    simp only [List.concat_eq_append] at *
    obtain ⟨C, c1, c2, c3, c4, c5⟩ := extend_far h hg hc hwg hgr hsub hconn hw hP hF hout hf0 hf1 (hfb b (by simp)) hfout hs hp hpl
    have hlast : (P0 ++ b :: C).getLast? = some e := by rw [List.getLast?_append_of_ne_nil _ (by simp)]; exact c3
    obtain ⟨P', hP'⟩ : ∃ P', (P0 ++ b :: C).reverse = e :: P' := exists_cons (by rw [List.head?_reverse]; exact hlast)
    refine ⟨P', hP' ▸ PathGraph.reverse c1, hP' ▸ Fwd.reverse h c2, ?_, ?_, ?_⟩
    · rw [← hP', sumAlong_fwd_reverse h (c2.imp fun _ _ h => h.1)]; exact c4
    · rw [← hP', sumAlong_fwd_reverse h (c2.imp fun _ _ h => h.1), sumAlong_split]
      linarith
    · rw [← hP', List.getLast?_reverse]
      cases P0 <;> rfl
  rcases fresh_sides h hg hc hgr hw hout hf0 hfout hp with hpl | hpl
  · obtain ⟨P', k1, k2, k3, k4, k5⟩ := key σ t P h hc hP hF (fun b hb => hfb b (.inr hb)) hpl
    obtain ⟨a, ha⟩ : ∃ a, (e :: P').getLast? = some a := ⟨_, List.getLast?_eq_some_getLast (by simp)⟩
    exact ⟨_, .inr rfl, P', k1, k2, k3, k4, a, ha, .inl (by rw [← k5]; exact ha)⟩
  · obtain ⟨P', k1, k2, k3, k4, k5⟩ := key _ _ P.reverse h.neg (hc.neg h) (PathGraph.reverse hP) (Fwd.reverse h hF) (fun b hb => hfb b (.inl (by rwa [List.getLast?_reverse] at hb))) (fun x y hxy => by
      rw [hc.far_neg, hc.far_neg, hpl x y hxy]; ring)
    rw [neg_neg_fun] at k2 k3 k4
    rw [sumAlong_fwd_reverse h (hF.imp fun _ _ h => h.1)] at k4
    obtain ⟨a, ha⟩ : ∃ a, (e :: P').getLast? = some a := ⟨_, List.getLast?_eq_some_getLast (by simp)⟩
    exact ⟨_, .inl rfl, P', k1, k2, k3, k4, a, ha, .inr (by rw [← ha, k5, List.head?_reverse])⟩

end

end NF
