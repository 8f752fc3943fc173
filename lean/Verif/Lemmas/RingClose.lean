import Verif.Lemmas.RingArc

/-! # The shortest-path method on a closed line: the arc is closed -/

noncomputable section
open Classical
namespace NF
open Spec NxGraph
variable {V A : Type}

/-- There is a path of at most four steps. -/
def Short (g : NxGraph V ℝ) (s e : V) : Prop := ∃ p, g.IsPath s e p ∧ p.length ≤ 5

theorem edgeWeight_subgraph {g : NxGraph V (ℝ × ℝ)} (hg : GoodGraph g) {K : V → Prop} {x y : V} (h : (g.subgraph K).hasEdge x y) : edgeWeight (g.subgraph K) x y = edgeWeight g x y := by
  obtain ⟨e, he, hj⟩ := h
  rw [edgeWeight_of_mem (goodGraph_subgraph hg K) he hj, edgeWeight_of_mem hg (List.mem_filter.1 he).1 hj]

theorem reach_of_chain {r : V → V → Prop} : ∀ (l : List V) (x : V), (x :: l).IsChain r → ∀ y ∈ x :: l, Relation.ReflTransGen r x y := by
  intro l
  induction l with
  | nil => intro x _ y hy; rw [List.mem_singleton.1 hy]
  | cons b l ih =>
    intro x hc y hy
    rw [List.isChain_cons_cons] at hc
    rcases List.mem_cons.1 hy with rfl | hy
    · exact .refl
    · exact .head hc.1 (ih b hc.2 y hy)

section
variable {g : NxGraph V ℝ} {w σ : V → V → ℝ} {L m κ : ℝ}

theorem short_edge {s e : V} (hne : s ≠ e) (h : g.hasEdge s e) : Short g s e := ⟨[s, e], ⟨rfl, rfl, by simp [h], by simp [hne]⟩, by simp⟩

theorem short_self (s : V) : Short g s s := ⟨[s], ⟨rfl, rfl, by simp, by simp⟩, by simp⟩

theorem sumAlong_fwd_nonneg : ∀ l : List V, l.IsChain (Fwd g σ) → 0 ≤ sumAlong σ l
  | [], _ => le_rfl
  | [_], _ => le_rfl
  | x :: y :: l, h => by
    rw [List.isChain_cons_cons] at h
    have := sumAlong_fwd_nonneg (y :: l) h.2
    have := h.1.2
    simp only [sumAlong]
    linarith

/-- Along an arc from `e` that does not go round. -/
theorem Cut.along (hg : GoodGraph g) {e : V} {t : V → ℝ} (hL : 0 < L) (hc : Cut g w σ L e t) {P : List V} (hF : (e :: P).IsChain (Fwd g σ)) (hs : sumAlong σ (e :: P) < L) :
    ∀ x y, Consecutive (e :: P) x y → σ x y = t y - t x := by
  have ht0 : ∀ x ∈ g.nodes, 0 ≤ t x ∧ t x < L := fun x hx => by
    by_cases hxe : x = e
    · rw [hxe, hc.self]; exact ⟨le_rfl, hL⟩
    · exact ⟨(hc.range x hx hxe).1.le, (hc.range x hx hxe).2⟩
  have key : ∀ (l : List V) (a : V), (a :: l).IsChain (Fwd g σ) → t a + sumAlong σ (a :: l) < L → ∀ x y, Consecutive (a :: l) x y → σ x y = t y - t x := by
    intro l
    induction l with
    | nil => intro a _ _ x y hxy; rcases consecutive_cons.1 hxy with ⟨-, h⟩ | ⟨_, _, h⟩ <;> simp at h
    | cons b l ih =>
      intro a hch hsum x y hxy
      rw [List.isChain_cons_cons] at hch
      simp only [sumAlong] at hsum
      have h0 := sumAlong_fwd_nonneg _ hch.2
      have hm := goodGraph_edge hg hch.1.1
      obtain ⟨k, hk⟩ := hc.step a b hch.1.1
      have r1 := ht0 a hm.1
      have r2 := ht0 b hm.2.1
      have hpos := hch.1.2
      have := int_eq_zero_of_small hL (r := t b - t a - σ a b) (k := k) (by rw [hk]; ring) (by rw [abs_lt]; constructor <;> linarith)
      rw [this] at hk
      push_cast at hk
      rcases consecutive_cons.1 hxy with ⟨rfl, hy⟩ | hxy
      · simp at hy
        subst hy
        linarith
      · exact ih b hch.2 (by linarith) x y hxy
  exact key P e hF (by rw [hc.self]; linarith)

/-- The first path from `s` to `e` has been found on the near side. -/
structure NearPath (g : NxGraph V ℝ) (σ : V → V → ℝ) (t : V → ℝ) (s e : V) (path : List V) : Prop where
  start : s ∈ g.nodes
  isPath : g.IsPath s e path
  linear : ∀ x y, Consecutive path x y → σ x y = t y - t x
  le : ∀ x ∈ path, t x ≤ t s
  far : ¬ Short g s e

section
variable {e s : V} {t : V → ℝ} {path : List V} {work tmp : NxGraph V (ℝ × ℝ)}

theorem NearPath.ne (hn : NearPath g σ t s e path) : s ≠ e := by
  rintro rfl
  exact hn.far (short_self s)

theorem NearPath.not_adj (hn : NearPath g σ t s e path) : ¬ g.hasEdge s e := fun h => hn.far (short_edge hn.ne h)

/-- The nodes beyond `s` stay. -/
theorem NearPath.kept (h : Looped g w σ L m κ) (hg : GoodGraph g) (hc : Cut g w σ L e t) (hn : NearPath g σ t s e path) (hwork : ∀ x y, work.hasEdge x y ↔ g.hasEdge x y)
    (htmp : ∀ x y, tmp.hasEdge x y ↔ g.hasEdge x y) {x : V} (hx : x ∈ g.nodes) (hsx : t s ≤ t x) : ¬ nodesToRemove work tmp s e path x := by
  rintro ⟨⟨y, hy, hyx⟩, hno⟩
  apply hno
  rw [closedNeighbors_congr hwork, closedNeighbors_congr hwork]
  have hys := hn.le y hy
  have hyg := isPath_mem hg hn.isPath hn.start y hy
  rcases hyx with rfl | hyx
  · left; left
    exact hc.inj x hx s hn.start (le_antisymm hys hsx)
  · have hyx := (htmp y x).1 (mem_neighbors.1 hyx)
    by_cases hye : y = e
    · subst hye; right; right; exact mem_neighbors.2 hyx
    by_cases hxe : x = e
    · right; left; exact hxe
    by_cases hj : σ y x = t x - t y
    · left
      rcases hsx.eq_or_lt with h1 | h1
      · left; exact (hc.inj s hn.start x hx h1).symm
      · rcases hys.eq_or_lt with h2 | h2
        · right; rw [← hc.inj y hyg s hn.start h2]; exact mem_neighbors.2 hyx
        · right
          exact mem_neighbors.2 (hc.between y x s hyx hn.start (t s - t y) 0 (by linarith) (by linarith) (by push_cast; ring)).2.1
    · right; right
      exact mem_neighbors.2 (hasEdge_symm.1 (hc.jump h hg hyx hye hxe hj).2.1)

/-- Of the nodes between `e` and `s`, the neighbours of `s` and of `e` stay. -/
theorem NearPath.left (h : Looped g w σ L m κ) (hg : GoodGraph g) (hc : Cut g w σ L e t) (hn : NearPath g σ t s e path) (hwork : ∀ x y, work.hasEdge x y ↔ g.hasEdge x y)
    (htmp : ∀ x y, tmp.hasEdge x y ↔ g.hasEdge x y) {x : V} (hx : x ∈ g.nodes) (hxe : x ≠ e) (hxs : t x < t s) :
    (∃ y ∈ path, closedNeighbors g y x) ∧
    (¬ nodesToRemove work tmp s e path x → (g.hasEdge s x ∧ σ s x = t x - t s) ∨ (g.hasEdge e x ∧ σ e x = t x - t e)) := by
  have hr := hc.range x hx hxe
  have hge := fun x y => hasEdge_linear (K := fun _ => True) (v := t) (x := x) (y := y) h (k := g) (fun _ _ h => h)
  have hL' := hc.lined h (Lifts.refl t) hc.inj fun _ => True
  obtain ⟨l, hl⟩ := exists_cons hn.isPath.head
  have hmem := isPath_mem hg hn.isPath hn.start
  have hch : path.IsChain (restrict g (fun _ => True) (Linear σ t)).hasEdge := by
    rw [chain_iff_consecutive]
    intro a b hab
    exact (hge a b).2 ⟨consecutive_of_chain hn.isPath.chain hab, trivial, trivial, hn.linear a b hab⟩
  have hd : ∃ y ∈ path, closedNeighbors g y x := by
    rcases chain_dominates hL'.neg (mem_restrict.2 ⟨hx, trivial⟩) l s (fun y hy => mem_restrict.2 ⟨hmem y (hl ▸ hy), trivial⟩) (hl ▸ hch) (by linarith) (fun y hy => by
      rw [← hl, hn.isPath.last] at hy
      cases hy
      rw [hc.self]; linarith) with hd | ⟨y, hy, hd⟩
    · exact ⟨x, hl ▸ hd, .inl rfl⟩
    · exact ⟨y, hl ▸ hy, .inr (mem_neighbors.2 ((hge y x).1 hd).1)⟩
  refine ⟨hd, fun hkeep => ?_⟩
  have hcl : closedNeighbors work s x ∨ closedNeighbors work e x := by
    by_contra hcon
    obtain ⟨y, hy, hyx⟩ := hd
    exact hkeep ⟨⟨y, hy, (closedNeighbors_congr htmp).2 hyx⟩, hcon⟩
  rw [closedNeighbors_congr hwork, closedNeighbors_congr hwork] at hcl
  rcases hcl with (rfl | hcl) | (rfl | hcl)
  · linarith
  · left
    have hsx := mem_neighbors.1 hcl
    refine ⟨hsx, ?_⟩
    by_contra hj
    exact hn.not_adj (hc.jump h hg hsx hn.ne hxe hj).1
  · exact absurd rfl hxe
  · right
    have hex := mem_neighbors.1 hcl
    refine ⟨hex, ?_⟩
    rcases hc.at_end h hg (hasEdge_symm.1 hex) with ⟨h1, -⟩ | ⟨h1, -⟩
    · have := h.anti x e (hasEdge_symm.1 hex)
      rw [hc.self]; linarith
    · exfalso
      have hs := hc.range s hn.start hn.ne
      exact hn.not_adj (hc.between x e s (hasEdge_symm.1 hex) hn.start (t s - t x) 0 (by linarith) (by linarith) (by push_cast; ring)).2.1

/-- A second path from `s` to `e` which does not jump over `e` is on the far side. -/
theorem NearPath.second (h : Looped g w σ L m κ) (hg : GoodGraph g) (hc : Cut g w σ L e t) (hn : NearPath g σ t s e path) (hwork : ∀ x y, work.hasEdge x y ↔ g.hasEdge x y)
    (htmp : ∀ x y, tmp.hasEdge x y ↔ g.hasEdge x y) {k : NxGraph V (ℝ × ℝ)} (hk : ∀ x y, k.hasEdge x y ↔ g.hasEdge x y) {p : List V}
    (hp : (k.removeNodes (nodesToRemove work tmp s e path)).IsPath s e p) (hj : ∀ x y, Consecutive p x y → y ≠ e → x ≠ e ∧ σ x y = t y - t x) :
    (∀ z ∈ p, z ≠ e → t s ≤ t z ∨ closedNeighbors g s z) ∧ ∀ x y, Consecutive p x y → σ x y = farEnd L e t y - farEnd L e t x := by
  have hge := fun x y => hasEdge_linear (K := fun _ => True) (v := t) (x := x) (y := y) h (k := g) (fun _ _ h => h)
  have hL' := hc.lined h (Lifts.refl t) hc.inj fun _ => True
  have hpg : g.IsPath s e p := isPath_mono (fun x y hxy => (hk x y).1 (hasEdge_subgraph.1 hxy).1) hp
  have hpm := isPath_mem hg hpg hn.start
  have hsr := hc.range s hn.start hn.ne
  -- no way on the near side
  have hnear : ∀ q : List V, q.head? = some s → q.getLast? = some e → q.IsChain (fun x y => (restrict g (fun _ => True) (Linear σ t)).hasEdge x y ∧ (y ≠ e → ¬ nodesToRemove work tmp s e path y)) → False := by
    intro q h1 h2 h3
    obtain ⟨l, rfl⟩ := exists_cons h1
    obtain ⟨q', hq', hlen⟩ := short_of_left (goodGraph_restrict hg _ _) hL'.neg (mem_restrict.2 ⟨hn.start, trivial⟩) (mem_restrict.2 ⟨hc.mem, trivial⟩) (by rw [hc.self]; linarith) (fun x y hxy => ⟨hxy.1, fun h1 h2 => by
      have hyg := (goodGraph_edge hg ((hge x y).1 hxy.1).1).2.1
      have hye : y ≠ e := by rintro rfl; exact lt_irrefl _ h2
      rcases (hn.left h hg hc hwork htmp hyg hye (by linarith)).2 (hxy.2 hye) with ⟨a, b⟩ | ⟨a, b⟩
      · exact .inl (.inr (mem_neighbors.2 ((hge s y).2 ⟨a, trivial, trivial, b⟩)))
      · exact .inr (.inr (mem_neighbors.2 ((hge e y).2 ⟨a, trivial, trivial, b⟩)))⟩) l s (mem_restrict.2 ⟨hn.start, trivial⟩) (.inl le_rfl) h3 h2
    exact hn.far ⟨q', isPath_mono (fun x y hxy => ((hge x y).1 hxy).1) hq', hlen⟩
  have hkeepP : ∀ x y, Consecutive p x y → ¬ nodesToRemove work tmp s e path y := fun x y hxy => (hasEdge_subgraph.1 (consecutive_of_chain hp.chain hxy)).2.2
  constructor
  · intro z hz hze
    by_contra hcon
    push Not at hcon
    obtain ⟨X, Y, rfl⟩ := List.append_of_mem hz
    have hzs : z ≠ s := by rintro rfl; exact hcon.2 (.inl rfl)
    have hkeep : ¬ nodesToRemove work tmp s e path z := by
      rcases List.eq_nil_or_concat X with rfl | ⟨X, y, rfl⟩
      · have := hp.head; simp at this; exact absurd this hzs
      · exact hkeepP y z ⟨X, Y, by simp⟩
    rcases (hn.left h hg hc hwork htmp (hpm z hz) hze hcon.1).2 hkeep with ⟨a, -⟩ | ⟨a, b⟩
    · exact hcon.2 (.inr (mem_neighbors.2 a))
    · have heX : e ∉ X ++ [z] := by
        intro he
        have hlast := hp.last
        obtain ⟨Y', hY'⟩ := exists_concat hlast
        rcases List.eq_nil_or_concat Y with rfl | ⟨Y0, c, rfl⟩
        · simp at hlast; exact hze hlast
        · simp only [List.concat_eq_append] at hlast hp
          have : c = e := by
            rw [show X ++ z :: (Y0 ++ [c]) = (X ++ z :: Y0) ++ [c] by simp, List.getLast?_append_of_ne_nil _ (by simp)] at hlast
            simpa using hlast
          have hnd := hp.nodup
          rw [show X ++ z :: (Y0 ++ [c]) = (X ++ [z]) ++ (Y0 ++ [c]) by simp, List.nodup_append] at hnd
          exact hnd.2.2 e he c (by simp) this.symm
      refine hnear (X ++ z :: [e]) ?_ (by simp) ?_
      · have := hp.head
        cases X <;> simpa using this
      · rw [chain_iff_consecutive]
        intro x y hxy
        rcases consecutive_append.1 hxy with hxy | hxy
        · have hxy' : Consecutive (X ++ z :: Y) x y := consecutive_append.2 (.inl hxy)
          have hye : y ≠ e := fun h0 => heX (h0 ▸ (consecutive_mem hxy).2)
          exact ⟨(hge x y).2 ⟨consecutive_of_chain hpg.chain hxy', trivial, trivial, (hj x y hxy' hye).2⟩, fun _ => hkeepP x y hxy'⟩
        · rcases consecutive_cons.1 hxy with ⟨rfl, hy⟩ | ⟨_, _, hxy⟩
          · simp at hy
            subst hy
            refine ⟨(hge x e).2 ⟨hasEdge_symm.1 a, trivial, trivial, ?_⟩, fun h => absurd rfl h⟩
            rw [h.anti e x a, b]; ring
          · have := congrArg List.length hxy
            simp at this
            omega
  · rcases sides h hg hc hpg hj with hs | hs
    · exact hs
    · exfalso
      refine hnear p hp.head hp.last ?_
      rw [chain_iff_consecutive]
      exact fun x y hxy => ⟨(hge x y).2 ⟨consecutive_of_chain hpg.chain hxy, trivial, trivial, hs x y hxy⟩, fun _ => hkeepP x y hxy⟩

/-- The two paths together are next to everything. -/
theorem NearPath.covered (h : Looped g w σ L m κ) (hg : GoodGraph g) (hc : Cut g w σ L e t) (hn : NearPath g σ t s e path) (hwork : ∀ x y, work.hasEdge x y ↔ g.hasEdge x y)
    (htmp : ∀ x y, tmp.hasEdge x y ↔ g.hasEdge x y) {k : NxGraph V (ℝ × ℝ)} (hk : ∀ x y, k.hasEdge x y ↔ g.hasEdge x y) {p : List V}
    (hp : (k.removeNodes (nodesToRemove work tmp s e path)).IsPath s e p) (hpl : ∀ x y, Consecutive p x y → σ x y = farEnd L e t y - farEnd L e t x) {x : V} (hx : x ∈ g.nodes) :
    (x ≠ e ∧ t x < t s ∧ ∃ y ∈ path, closedNeighbors g y x) ∨ ∃ y ∈ p, closedNeighbors (k.removeNodes (nodesToRemove work tmp s e path)) y x := by
  by_cases hxe : x = e
  · exact .inr ⟨e, List.mem_of_getLast? hp.last, .inl hxe⟩
  rcases lt_or_ge (t x) (t s) with hlt | hge
  · exact .inl ⟨hxe, hlt, (hn.left h hg hc hwork htmp hx hxe hlt).1⟩
  · right
    have hpg : g.IsPath s e p := isPath_mono (fun x y hxy => (hk x y).1 (hasEdge_subgraph.1 hxy).1) hp
    have hpm := isPath_mem hg hpg hn.start
    set K : V → Prop := fun x => ¬ nodesToRemove work tmp s e path x
    have hge' := fun x y => hasEdge_linear (K := K) (v := farEnd L e t) (x := x) (y := y) h (k := g) (fun _ _ h => h)
    have hL' := hc.lined h hc.lifts_far hc.far_inj K
    obtain ⟨l, hl⟩ := exists_cons hp.head
    have hK : ∀ y ∈ p, K y := by
      intro y hy
      rw [hl] at hy
      rcases List.mem_cons.1 hy with rfl | hy
      · exact hn.kept h hg hc hwork htmp hn.start le_rfl
      · obtain ⟨X, Y, rfl⟩ := List.append_of_mem hy
        have : ∃ z, Consecutive p z y := by
          rcases List.eq_nil_or_concat X with rfl | ⟨X, z, rfl⟩
          · exact ⟨s, [], Y, hl⟩
          · exact ⟨z, s :: X, Y, by rw [hl]; simp⟩
        obtain ⟨z, hz⟩ := this
        exact (hasEdge_subgraph.1 (consecutive_of_chain hp.chain hz)).2.2
    have hch : p.IsChain (restrict g K (Linear σ (farEnd L e t))).hasEdge := by
      rw [chain_iff_consecutive]
      intro a b hab
      have hm := consecutive_mem hab
      exact (hge' a b).2 ⟨consecutive_of_chain hpg.chain hab, hK a hm.1, hK b hm.2, hpl a b hab⟩
    have hKx : K x := hn.kept h hg hc hwork htmp hx hge
    rcases chain_dominates hL' (mem_restrict.2 ⟨hx, hKx⟩) l s (fun y hy => mem_restrict.2 ⟨hpm y (hl ▸ hy), hK y (hl ▸ hy)⟩) (hl ▸ hch)
      (by simp only [farEnd, if_neg hxe, if_neg hn.ne]; exact hge) (fun y hy => by
      rw [← hl, hp.last] at hy
      cases hy
      simp only [farEnd, if_neg hxe, if_true]
      exact (hc.range x hx hxe).2.le) with hd | ⟨y, hy, hd⟩
    · exact ⟨x, hl ▸ hd, .inl rfl⟩
    · obtain ⟨d1, d2, d3, -⟩ := (hge' y x).1 hd
      exact ⟨y, hl ▸ hy, .inr (mem_neighbors.2 (hasEdge_subgraph.2 ⟨(hk y x).2 d1, d2, d3⟩))⟩

/-- After the second path there is no other. -/
theorem NearPath.no_third (h : Looped g w σ L m κ) (hg : GoodGraph g) (hc : Cut g w σ L e t) (hn : NearPath g σ t s e path) (hwork : ∀ x y, work.hasEdge x y ↔ g.hasEdge x y)
    (htmp : ∀ x y, tmp.hasEdge x y ↔ g.hasEdge x y) {k : NxGraph V (ℝ × ℝ)} (hk : ∀ x y, k.hasEdge x y ↔ g.hasEdge x y) {p : List V}
    (hp : (k.removeNodes (nodesToRemove work tmp s e path)).IsPath s e p) (hpl : ∀ x y, Consecutive p x y → σ x y = farEnd L e t y - farEnd L e t x)
    {work2 k2 : NxGraph V (ℝ × ℝ)} (hwork2 : ∀ x y, work2.hasEdge x y ↔ g.hasEdge x y) (hk2 : ∀ x y, k2.hasEdge x y ↔ (k.removeNodes (nodesToRemove work tmp s e path)).hasEdge x y) :
    ¬ ∃ q, (k2.removeNodes (nodesToRemove work2 (k.removeNodes (nodesToRemove work tmp s e path)) s e p)).IsPath s e q := by
  rintro ⟨q, hq⟩
  have hedge : ∀ x y, (k2.removeNodes (nodesToRemove work2 (k.removeNodes (nodesToRemove work tmp s e path)) s e p)).hasEdge x y → g.hasEdge x y ∧ ¬ nodesToRemove work tmp s e path y ∧
      ¬ nodesToRemove work2 (k.removeNodes (nodesToRemove work tmp s e path)) s e p y := by
    intro x y hxy
    obtain ⟨h1, -, h3⟩ := hasEdge_subgraph.1 hxy
    obtain ⟨h4, -, h5⟩ := hasEdge_subgraph.1 ((hk2 x y).1 h1)
    exact ⟨(hk x y).1 h4, h5, h3⟩
  have hqg : g.IsPath s e q := isPath_mono (fun x y hxy => (hedge x y hxy).1) hq
  refine hn.far (exists_short_path hqg fun x hx => ?_)
  by_cases hxs : x = s
  · exact .inl (.inl hxs)
  by_cases hxe : x = e
  · exact .inr (.inl hxe)
  obtain ⟨z, hz⟩ : ∃ z, Consecutive q z x := by
    obtain ⟨X, Y, rfl⟩ := List.append_of_mem hx
    rcases List.eq_nil_or_concat X with rfl | ⟨X, z, rfl⟩
    · have := hq.head; simp at this; exact absurd this hxs
    · exact ⟨z, X, Y, by simp⟩
  obtain ⟨-, h1, h2⟩ := hedge z x (consecutive_of_chain hq.chain hz)
  have hxg := isPath_mem hg hqg hn.start x hx
  rcases hn.covered h hg hc hwork htmp hk hp hpl hxg with ⟨-, hlt, -⟩ | hd
  · rcases (hn.left h hg hc hwork htmp hxg hxe hlt).2 h1 with ⟨a, -⟩ | ⟨a, -⟩
    · exact .inl (.inr (mem_neighbors.2 a))
    · exact .inr (.inr (mem_neighbors.2 a))
  · by_contra hcon
    exact h2 ⟨hd, fun hh => hcon (hh.imp (closedNeighbors_congr hwork2).1 (closedNeighbors_congr hwork2).1)⟩

/-- There is a second path. -/
theorem NearPath.exists_second (h : Looped g w σ L m κ) (hg : GoodGraph g) (hc : Cut g w σ L e t) (hn : NearPath g σ t s e path) (hwork : ∀ x y, work.hasEdge x y ↔ g.hasEdge x y)
    (htmp : ∀ x y, tmp.hasEdge x y ↔ g.hasEdge x y) {k : NxGraph V (ℝ × ℝ)} (hk : ∀ x y, k.hasEdge x y ↔ g.hasEdge x y) :
    ∃ p, (k.removeNodes (nodesToRemove work tmp s e path)).IsPath s e p := by
  set k' := k.removeNodes (nodesToRemove work tmp s e path)
  have hkept := fun x hx hsx => hn.kept (x := x) h hg hc hwork htmp hx hsx
  have hsr := hc.range s hn.start hn.ne
  have hedge : ∀ x y, g.hasEdge x y → t s ≤ t x → t s ≤ t y ∨ y = e → k'.hasEdge x y := by
    intro x y hxy h1 h2
    have hm := goodGraph_edge hg hxy
    refine hasEdge_subgraph.2 ⟨(hk x y).2 hxy, hkept x hm.1 h1, ?_⟩
    rcases h2 with h2 | rfl
    · exact hkept y hm.2.1 h2
    · exact fun hr => hr.2 (.inr (.inl rfl))
  obtain ⟨x, hx, hmax⟩ : ∃ x ∈ g.nodes.toFinset.filter fun x => t s ≤ t x ∧ Reach k' s x, ∀ y ∈ g.nodes.toFinset.filter (fun x => t s ≤ t x ∧ Reach k' s x), t y ≤ t x :=
    Finset.exists_max_image _ _ ⟨s, by simp [hn.start]; exact .refl⟩
  rw [Finset.mem_filter, List.mem_toFinset] at hx
  obtain ⟨hxg, hsx, hr⟩ := hx
  have hxe : x ≠ e := by rintro rfl; rw [hc.self] at hsx; linarith
  have hfin : g.hasEdge x e → ∃ p, k'.IsPath s e p := fun hxe => exists_path_of_reach (hr.tail (hedge x e hxe hsx (.inr rfl)))
  obtain ⟨y, hxy, hpos⟩ := h.forth x hxg
  by_cases hye : y = e
  · exact hfin (hye ▸ hxy)
  by_cases hj : σ x y = t y - t x
  · exfalso
    have hsy : t s ≤ t y := by linarith
    have := hmax y (by rw [Finset.mem_filter, List.mem_toFinset]; exact ⟨(goodGraph_edge hg hxy).2.1, hsy, hr.tail (hedge x y hxy hsx (.inl hsy))⟩)
    linarith
  · exact hfin (hc.jump h hg hxy hxe hye hj).1

end

end

end NF
