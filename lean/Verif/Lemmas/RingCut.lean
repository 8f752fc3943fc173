import Verif.Lemmas.ShortestLineInv
import Verif.Lemmas.ShortestTree
import Verif.Lemmas.Around

/-! # The shortest-path method on a closed line: cutting the line open -/

noncomputable section
open Classical
namespace NF
open Spec NxGraph
variable {V A : Type}

/-! ### Graphs with fewer edges -/

/-- The nodes with `K`, and the edges with `I`. -/
def restrict (g : NxGraph V A) (K : V → Prop) (I : V → V → Prop) : NxGraph V A where
  nodes := g.nodes.filter fun x => decide (K x)
  edges := g.edges.filter fun e => decide (K e.1 ∧ K e.2.1 ∧ (I e.1 e.2.1 ∨ I e.2.1 e.1))

theorem mem_restrict {g : NxGraph V A} {K : V → Prop} {I : V → V → Prop} {x : V} : x ∈ (restrict g K I).nodes ↔ x ∈ g.nodes ∧ K x := by
  simp [restrict]

theorem hasEdge_restrict {g : NxGraph V A} {K : V → Prop} {I : V → V → Prop} {x y : V} : (restrict g K I).hasEdge x y ↔ g.hasEdge x y ∧ K x ∧ K y ∧ (I x y ∨ I y x) := by
  constructor
  · rintro ⟨e, he, hj⟩
    simp only [restrict, List.mem_filter, decide_eq_true_eq] at he
    refine ⟨⟨e, he.1, hj⟩, ?_⟩
    rcases hj with ⟨rfl, rfl⟩ | ⟨rfl, rfl⟩
    · exact he.2
    · exact ⟨he.2.2.1, he.2.1, he.2.2.2.symm⟩
  · rintro ⟨⟨e, he, hj⟩, h⟩
    refine ⟨e, ?_, hj⟩
    simp only [restrict, List.mem_filter, decide_eq_true_eq]
    refine ⟨he, ?_⟩
    rcases hj with ⟨rfl, rfl⟩ | ⟨rfl, rfl⟩
    · exact h
    · exact ⟨h.2.1, h.1, h.2.2.symm⟩

theorem goodGraph_restrict {g : NxGraph V A} (hg : GoodGraph g) (K : V → Prop) (I : V → V → Prop) : GoodGraph (restrict g K I) where
  nodup := hg.nodup.filter _
  left e he := by
    simp only [restrict, List.mem_filter, decide_eq_true_eq] at he ⊢
    exact ⟨hg.left e he.1, he.2.1⟩
  right e he := by
    simp only [restrict, List.mem_filter, decide_eq_true_eq] at he ⊢
    exact ⟨hg.right e he.1, he.2.2.1⟩
  noLoop e he := hg.noLoop e (List.mem_filter.1 he).1
  single := hg.single.sublist List.filter_sublist

/-- With fewer edges, the remaining ones have the same weight. -/
theorem edgeWeight_restrict {g : NxGraph V (ℝ × ℝ)} (hg : GoodGraph g) {K : V → Prop} {I : V → V → Prop} {x y : V} (h : (restrict g K I).hasEdge x y) :
    edgeWeight (restrict g K I) x y = edgeWeight g x y := by
  obtain ⟨e, he, hj⟩ := h
  rw [edgeWeight_of_mem (goodGraph_restrict hg K I) he hj, edgeWeight_of_mem hg (List.mem_filter.1 he).1 hj]

theorem pathWeight_congr {g h : NxGraph V (ℝ × ℝ)} : ∀ {p : List V}, (∀ x y, Consecutive p x y → edgeWeight g x y = edgeWeight h x y) → pathWeight g p = pathWeight h p := by
  intro p
  induction p with
  | nil => intro _; simp [pathWeight, pathEdges]
  | cons a l ih =>
    intro hc
    cases l with
    | nil => rw [pathWeight_single, pathWeight_single]
    | cons b l =>
      rw [pathWeight_cons, pathWeight_cons, hc a b ⟨[], l, rfl⟩, ih fun x y hxy => hc x y (consecutive_cons.2 (.inr hxy))]

/-- A shortest path is a shortest path in any smaller graph which contains it. -/
theorem shortest_restrict {g : NxGraph V (ℝ × ℝ)} (hg : GoodGraph g) {K : V → Prop} {I : V → V → Prop} {s e : V} {p : List V} (hp : IsShortestPath g s e p)
    (hc : p.IsChain (restrict g K I).hasEdge) : IsShortestPath (restrict g K I) s e p := by
  have hw : ∀ q : List V, q.IsChain (restrict g K I).hasEdge → pathWeight (restrict g K I) q = pathWeight g q := fun q hq =>
    pathWeight_congr fun x y hxy => edgeWeight_restrict hg (consecutive_of_chain hq hxy)
  refine ⟨⟨hp.1.head, hp.1.last, hc, hp.1.nodup⟩, fun q hq => ?_⟩
  rw [hw p hc, hw q hq.chain]
  exact hp.2 q (isPath_mono (fun x y h => (hasEdge_restrict.1 h).1) hq)

/-! ### A closed line -/

/-- The closed line is cut open at `e`: the other nodes are at `t`, between `0` and `L`. -/
structure Cut (g : NxGraph V ℝ) (w σ : V → V → ℝ) (L : ℝ) (e : V) (t : V → ℝ) : Prop where
  mem : e ∈ g.nodes
  self : t e = 0
  range : ∀ x ∈ g.nodes, x ≠ e → 0 < t x ∧ t x < L
  inj : ∀ x ∈ g.nodes, ∀ y ∈ g.nodes, t x = t y → x = y
  step : ∀ x y, g.hasEdge x y → ∃ k : ℤ, t y = t x + σ x y + k * L
  between : ∀ x y z, g.hasEdge x y → z ∈ g.nodes → ∀ (r : ℝ) (k : ℤ), 0 < r → r < σ x y → t z = t x + r + k * L → g.hasEdge x z ∧ g.hasEdge z y ∧ w x z < w x y ∧ w z y < w x y

/-- The nodes are on a closed line of length `L`; `σ` is the way from a node to a neighbour, positive if it goes forward. -/
structure Looped (g : NxGraph V ℝ) (w σ : V → V → ℝ) (L m κ : ℝ) : Prop where
  hm : 0 < m
  big : 18 * m < L
  hκ : 0 < κ
  small : ∀ x y, g.hasEdge x y → |σ x y| ≤ m
  anti : ∀ x y, g.hasEdge x y → σ y x = -σ x y
  symm : ∀ x y, w x y = w y x
  pos : ∀ x y, g.hasEdge x y → 0 < w x y
  low : ∀ x y, g.hasEdge x y → |σ x y| ≤ κ * w x y
  up : ∀ x y, g.hasEdge x y → κ * w x y ≤ 2 * m
  forth : ∀ x ∈ g.nodes, ∃ y, g.hasEdge x y ∧ 0 < σ x y
  back : ∀ x ∈ g.nodes, ∃ y, g.hasEdge x y ∧ σ x y < 0
  cut : ∀ e ∈ g.nodes, ∃ t, Cut g w σ L e t

/-- Up to rounds, `v` is `t`. -/
def Lifts (L : ℝ) (t v : V → ℝ) : Prop := ∀ x, ∃ k : ℤ, v x = t x + k * L

section
variable {g : NxGraph V ℝ} {w σ : V → V → ℝ} {L m κ : ℝ}

/-- The other way round. -/
theorem Cut.neg (h : Looped g w σ L m κ) {e : V} {t : V → ℝ} (hc : Cut g w σ L e t) : Cut g w (fun x y => -σ x y) L e fun x => if x = e then 0 else L - t x := by
  have hl : ∀ x, ∃ k : ℤ, (if x = e then 0 else L - t x) = -t x + k * L := by
    intro x
    split_ifs with hx
    · exact ⟨0, by rw [hx, hc.self]; simp⟩
    · exact ⟨1, by push_cast; ring⟩
  refine ⟨hc.mem, by simp, fun x hx hne => ?_, fun x hx y hy hxy => ?_, fun x y hxy => ?_, fun x y z hxy hz r k hr hrs hk => ?_⟩
  · have := hc.range x hx hne
    rw [if_neg hne]
    constructor <;> linarith
  · split_ifs at hxy with h1 h2 h2
    · rw [h1, h2]
    · have := hc.range y hy h2; linarith
    · have := hc.range x hx h1; linarith
    · exact hc.inj x hx y hy (by linarith)
  · obtain ⟨i, hi⟩ := hl x
    obtain ⟨j, hj⟩ := hl y
    obtain ⟨k, hk⟩ := hc.step x y hxy
    exact ⟨-k - i + j, by rw [hi, hj, hk]; push_cast; ring⟩
  · obtain ⟨i, hi⟩ := hl x
    obtain ⟨j, hj⟩ := hl z
    obtain ⟨n, hn⟩ := hc.step x y hxy
    have ha := h.anti x y hxy
    rw [hi, hj] at hk
    obtain ⟨b1, b2, b3, b4⟩ := hc.between y x z (hasEdge_symm.1 hxy) hz (-σ x y - r) (j - i - k - n) (by linarith) (by rw [ha]; linarith) (by push_cast; linarith)
    refine ⟨hasEdge_symm.1 b2, hasEdge_symm.1 b1, ?_, ?_⟩
    · rw [h.symm x z, h.symm x y]; exact b4
    · rw [h.symm z y, h.symm x y]; exact b3

theorem Looped.neg (h : Looped g w σ L m κ) : Looped g w (fun x y => -σ x y) L m κ := by
  refine ⟨h.hm, h.big, h.hκ, fun x y hxy => by rw [abs_neg]; exact h.small x y hxy, fun x y hxy => by rw [h.anti x y hxy], h.symm, h.pos, fun x y hxy => by rw [abs_neg]; exact h.low x y hxy, h.up,
    fun x hx => ?_, fun x hx => ?_, fun e he => ?_⟩
  · obtain ⟨y, h1, h2⟩ := h.back x hx
    exact ⟨y, h1, by linarith⟩
  · obtain ⟨y, h1, h2⟩ := h.forth x hx
    exact ⟨y, h1, by linarith⟩
  · obtain ⟨t, ht⟩ := h.cut e he
    exact ⟨_, ht.neg h⟩

theorem Lifts.refl (t : V → ℝ) : Lifts L t t := fun x => ⟨0, by simp⟩

/-- `e` at the far end -/
def farEnd (L : ℝ) (e : V) (t : V → ℝ) (x : V) : ℝ := if x = e then L else t x

theorem Cut.lifts_far {e : V} {t : V → ℝ} (hc : Cut g w σ L e t) : Lifts L t (farEnd L e t) := by
  intro x
  unfold farEnd
  split_ifs with hx
  · exact ⟨1, by rw [hx, hc.self]; simp⟩
  · exact ⟨0, by simp⟩

theorem Cut.far_inj {e : V} {t : V → ℝ} (hc : Cut g w σ L e t) : ∀ x ∈ g.nodes, ∀ y ∈ g.nodes, farEnd L e t x = farEnd L e t y → x = y := by
  intro x hx y hy h
  unfold farEnd at h
  split_ifs at h with h1 h2 h2
  · rw [h1, h2]
  · have := hc.range y hy h2; linarith
  · have := hc.range x hx h1; linarith
  · exact hc.inj x hx y hy h

theorem Cut.sigma_eq (h : Looped g w σ L m κ) {e : V} {t v : V → ℝ} (hc : Cut g w σ L e t) (hv : Lifts L t v) {x y : V} (hxy : g.hasEdge x y) (hs : |v y - v x| + m < L) : σ x y = v y - v x := by
  obtain ⟨i, hi⟩ := hv x
  obtain ⟨j, hj⟩ := hv y
  obtain ⟨k, hk⟩ := hc.step x y hxy
  have h1 := h.small x y hxy
  have h2 := h.hm
  have h3 := h.big
  have := int_eq_zero_of_small (by linarith : (0 : ℝ) < L) (r := v y - v x - σ x y) (k := k - i + j) (by rw [hi, hj, hk]; push_cast; ring) (by
    calc |v y - v x - σ x y| ≤ |v y - v x| + |σ x y| := abs_sub _ _
      _ < L := by linarith)
  have e : (k : ℝ) - i + j = 0 := by exact_mod_cast this
  have : (k - i + j : ℝ) * L = 0 := by rw [e]; ring
  rw [hi, hj, hk]
  linarith

/-- The step of the edge is the difference of `v`: it does not jump over the place where the line is cut. -/
def Linear (σ : V → V → ℝ) (v : V → ℝ) (x y : V) : Prop := σ x y = v y - v x

theorem hasEdge_linear (h : Looped g w σ L m κ) {k : NxGraph V A} (hk : ∀ x y, k.hasEdge x y → g.hasEdge x y) {K : V → Prop} {v : V → ℝ} {x y : V} :
    (restrict k K (Linear σ v)).hasEdge x y ↔ k.hasEdge x y ∧ K x ∧ K y ∧ σ x y = v y - v x := by
  rw [hasEdge_restrict]
  constructor
  · rintro ⟨h1, h2, h3, h4 | h4⟩
    · exact ⟨h1, h2, h3, h4⟩
    · refine ⟨h1, h2, h3, ?_⟩
      unfold Linear at h4
      have := h.anti x y (hk x y h1)
      linarith
  · rintro ⟨h1, h2, h3, h4⟩
    exact ⟨h1, h2, h3, .inl h4⟩

/-- Cut open, the line goes in one direction. -/
theorem Cut.lined (h : Looped g w σ L m κ) {e : V} {t v : V → ℝ} (hc : Cut g w σ L e t) (hv : Lifts L t v) (hinj : ∀ x ∈ g.nodes, ∀ y ∈ g.nodes, v x = v y → x = y) (K : V → Prop) :
    Lined (restrict g K (Linear σ v)) v w := by
  have he := fun x y => hasEdge_linear (K := K) (v := v) (x := x) (y := y) h (k := g) (fun _ _ h => h)
  have hb : ∀ x y z, (restrict g K (Linear σ v)).hasEdge x y → z ∈ (restrict g K (Linear σ v)).nodes → v x < v z → v z < v y →
      ((restrict g K (Linear σ v)).hasEdge x z ∧ (restrict g K (Linear σ v)).hasEdge z y) ∧ w x z < w x y ∧ w z y < w x y := by
    intro x y z hxy hz h1 h2
    obtain ⟨a1, a2, a3, a4⟩ := (he x y).1 hxy
    obtain ⟨z1, z2⟩ := mem_restrict.1 hz
    obtain ⟨i, hi⟩ := hv x
    obtain ⟨j, hj⟩ := hv z
    obtain ⟨b1, b2, b3, b4⟩ := hc.between x y z a1 z1 (v z - v x) (i - j) (by linarith) (by linarith) (by rw [hi, hj]; push_cast; ring)
    have hs := h.small x y a1
    have hm := h.hm
    have hbig := h.big
    rw [a4, abs_of_pos (by linarith)] at hs
    refine ⟨⟨(he x z).2 ⟨b1, a2, z2, hc.sigma_eq h hv b1 (by rw [abs_of_pos (by linarith)]; linarith)⟩, (he z y).2 ⟨b2, z2, a3, hc.sigma_eq h hv b2 (by rw [abs_of_pos (by linarith)]; linarith)⟩⟩, b3, b4⟩
  refine ⟨fun x hx y hy => hinj x (mem_restrict.1 hx).1 y (mem_restrict.1 hy).1, fun x hx y hy z hz h1 h2 hxy => (hb x y z hxy hz h1 h2).1, h.symm, fun x y hxy => h.pos x y ((he x y).1 hxy).1,
    fun x y z hxy hz h1 h2 => (hb x y z hxy hz h1 h2).2⟩

/-- An edge that jumps over `e`: there are shorter ones to `e`. -/
theorem Cut.jump (h : Looped g w σ L m κ) (hg : GoodGraph g) {e : V} {t : V → ℝ} (hc : Cut g w σ L e t) {x y : V} (hxy : g.hasEdge x y) (hx : x ≠ e) (hy : y ≠ e) (hj : σ x y ≠ t y - t x) :
    g.hasEdge x e ∧ g.hasEdge y e ∧ w x e < w x y ∧ w y e < w x y := by
  have key : ∀ x y, g.hasEdge x y → x ≠ e → y ≠ e → σ x y ≠ t y - t x → 0 < σ x y → g.hasEdge x e ∧ g.hasEdge e y ∧ w x e < w x y ∧ w e y < w x y := by
    intro x y hxy hx hy hj hpos
    have hgm := goodGraph_edge hg hxy
    have rx := hc.range x hgm.1 hx
    have ry := hc.range y hgm.2.1 hy
    obtain ⟨k, hk⟩ := hc.step x y hxy
    have hs := (abs_le.1 (h.small x y hxy)).2
    have hm := h.hm
    have hbig := h.big
    have hk1 : k = -1 := by
      have h1 : k < 0 := by
        by_contra hge
        push Not at hge
        rcases hge.eq_or_lt with h0 | h0
        · rw [← h0] at hk
          push_cast at hk
          exact hj (by linarith)
        · have : (1 : ℝ) ≤ k := by exact_mod_cast h0
          nlinarith
      have h2 : -2 < k := by
        by_contra hle
        push Not at hle
        have : (k : ℝ) ≤ -2 := by exact_mod_cast hle
        nlinarith
      omega
    rw [hk1] at hk
    push_cast at hk
    exact hc.between x y e hxy hc.mem (L - t x) (-1) (by linarith) (by linarith) (by rw [hc.self]; push_cast; ring)
  rcases lt_trichotomy (σ x y) 0 with hn | h0 | hp
  · have ha := h.anti x y hxy
    obtain ⟨b1, b2, b3, b4⟩ := key y x (hasEdge_symm.1 hxy) hy hx (by rw [ha]; intro e; exact hj (by linarith)) (by rw [ha]; linarith)
    refine ⟨hasEdge_symm.1 b2, b1, ?_, ?_⟩
    · rw [h.symm x e, h.symm x y]; exact b4
    · rw [h.symm x y]; exact b3
  · exfalso
    obtain ⟨k, hk⟩ := hc.step x y hxy
    have hgm := goodGraph_edge hg hxy
    have rx := hc.range x hgm.1 hx
    have ry := hc.range y hgm.2.1 hy
    have := int_eq_zero_of_small (by linarith : (0 : ℝ) < L) (r := t y - t x) (k := k) (by rw [hk, h0]; ring) (by rw [abs_lt]; constructor <;> linarith)
    rw [this, h0] at hk
    push_cast at hk
    exact hgm.2.2 (hc.inj x hgm.1 y hgm.2.1 (by linarith))
  · obtain ⟨b1, b2, b3, b4⟩ := key x y hxy hx hy hj hp
    exact ⟨b1, hasEdge_symm.1 b2, b3, by rw [h.symm y e]; exact b4⟩

/-- An edge to `e` comes from the near side or from the far side. -/
theorem Cut.at_end (h : Looped g w σ L m κ) (hg : GoodGraph g) {e : V} {t : V → ℝ} (hc : Cut g w σ L e t) {x : V} (hxe : g.hasEdge x e) : (σ x e = -t x ∧ t x ≤ m) ∨ (σ x e = L - t x ∧ L - m ≤ t x) := by
  have hgm := goodGraph_edge hg hxe
  have rx := hc.range x hgm.1 hgm.2.2
  obtain ⟨k, hk⟩ := hc.step x e hxe
  have hs := abs_le.1 (h.small x e hxe)
  have hm := h.hm
  have hbig := h.big
  rw [hc.self] at hk
  rcases lt_or_ge k 0 with h1 | h1
  · have h2 : -2 < k := by
      by_contra hle
      push Not at hle
      have : (k : ℝ) ≤ -2 := by exact_mod_cast hle
      nlinarith
    have : k = -1 := by omega
    rw [this] at hk
    push_cast at hk
    right
    constructor <;> linarith
  · have h2 : k < 1 := by
      by_contra hle
      push Not at hle
      have : (1 : ℝ) ≤ k := by exact_mod_cast hle
      nlinarith
    have : k = 0 := by omega
    rw [this] at hk
    push_cast at hk
    left
    constructor <;> linarith

/-! ### Paths to the place where the line is cut -/

/-- A shortest path to `e` does not jump over `e`. -/
theorem no_jump {e : V} {t : V → ℝ} {k : NxGraph V (ℝ × ℝ)}
    (hnn : ∀ x y, k.hasEdge x y → 0 ≤ edgeWeight k x y)
    (hlt : ∀ x y, k.hasEdge x y → x ≠ e → y ≠ e → σ x y ≠ t y - t x → k.hasEdge x e ∧ edgeWeight k x e < edgeWeight k x y) {s : V} {p : List V} (hp : IsShortestPath k s e p) {x y : V}
    (hxy : Consecutive p x y) (hy : y ≠ e) : x ≠ e ∧ σ x y = t y - t x := by
  obtain ⟨X, Y, rfl⟩ := hxy
  have hlast : (y :: Y).getLast? = some e := by
    have := hp.1.last
    rwa [show X ++ x :: y :: Y = (X ++ [x]) ++ y :: Y by simp, List.getLast?_append_of_ne_nil _ (by simp)] at this
  have hx : x ≠ e := by
    rintro rfl
    have := hp.1.nodup
    rw [List.nodup_append] at this
    exact (List.nodup_cons.1 this.2.1).1 (List.mem_of_getLast? hlast)
  refine ⟨hx, ?_⟩
  by_contra hj
  have hch := (List.isChain_append.1 hp.1.chain).2.1
  have hxy := (List.isChain_cons_cons.1 hch).1
  obtain ⟨h1, h2⟩ := hlt x y hxy hx hy hj
  obtain ⟨Y', hY'⟩ : ∃ Y', y :: Y = Y' ++ [e] := by
    rcases List.eq_nil_or_concat (y :: Y) with h | ⟨Y', z, h⟩
    · simp at h
    · rw [h] at hlast
      simp at hlast
      subst hlast
      exact ⟨Y', by rw [h]; simp⟩
  rw [hY'] at hp
  have hd := shortest_no_detour hp h1
  rw [show x :: (Y' ++ [e]) = x :: y :: Y by rw [hY'], pathWeight_cons] at hd
  have := pathWeight_nonneg hnn (List.isChain_cons_cons.1 hch).2
  linarith

end

end NF
