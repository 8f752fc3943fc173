import Verif.Lemmas.RingShut

/-! # The shortest-path method on a closed line: invariant -/

noncomputable section
open Classical
namespace NF
open Spec NxGraph
variable {V A : Type}

theorem Either.refl (σ : V → V → ℝ) : Either σ σ := .inl rfl

theorem Either.trans {σ σ' σ'' : V → V → ℝ} (h1 : Either σ σ') (h2 : Either σ' σ'') : Either σ σ'' := by
  rcases h1 with rfl | rfl <;> rcases h2 with rfl | rfl
  · exact .inl rfl
  · exact .inr rfl
  · exact .inr rfl
  · exact .inl (neg_neg_fun σ)

theorem weighted_path {g : NxGraph V ℝ} (hg : GoodGraph g) {w : V → V → ℝ} {f : V → ℝ} {work : NxGraph V (ℝ × ℝ)} {rg : NxGraph V Unit} (hs : SameShape work g) (hsub : SubgraphOf rg g)
    (hw : Weighted g work rg f w) {path : List V} (hp : path.IsChain g.hasEdge) : Weighted g (zeroWeights work path) ((pathEdges path).foldl (fun h e => h.addEdge e.1 e.2 ()) rg) f w := by
  have hgw := sameShape_good hs hg
  refine ⟨sameShape_hasEdge (sameShape_trans (sameShape_zeroWeights work path) hs), fun x y hxy => ?_, fun x y hxy hr => ?_⟩
  · have hxy := (addPath_hasEdge _ _ _ _).1 hxy
    have hxyg : g.hasEdge x y := by
      rcases hxy with h | h | h
      · exact hsub.2 x y h
      · exact pathEdges_hasEdge hp _ h
      · exact hasEdge_symm.1 (pathEdges_hasEdge hp _ h)
    rw [edgeWeight_zeroWeights path hgw ((sameShape_hasEdge hs x y).2 hxyg)]
    split_ifs with hc
    · rfl
    · rcases hxy with h' | h'
      · exact hw.zero x y h'
      · exact absurd h' hc
  · have hr' := fun h => hr ((addPath_hasEdge _ _ _ _).2 h)
    rw [edgeWeight_zeroWeights path hgw ((sameShape_hasEdge hs x y).2 hxy), if_neg (fun h => hr' (.inr h))]
    exact hw.other x y hxy fun h => hr' (.inl h)

/-- Adding a path along the graph changes nothing. -/
theorem addPath_same {rg : NxGraph V Unit} (hrg : GoodGraph rg) {path : List V} (hc : path.IsChain rg.hasEdge) :
    (∀ x, x ∈ ((pathEdges path).foldl (fun h e => h.addEdge e.1 e.2 ()) rg).nodes ↔ x ∈ rg.nodes) ∧ ∀ x y, ((pathEdges path).foldl (fun h e => h.addEdge e.1 e.2 ()) rg).hasEdge x y ↔ rg.hasEdge x y := by
  have hin : ∀ e ∈ pathEdges path, rg.hasEdge e.1 e.2 := fun e he => consecutive_of_chain hc (mem_pathEdges.1 he)
  constructor
  · intro x
    rw [mem_addPath]
    constructor
    · rintro (h | ⟨e, he, rfl | rfl⟩)
      · exact h
      · exact (goodGraph_edge hrg (hin e he)).1
      · exact (goodGraph_edge hrg (hin e he)).2.1
    · exact .inl
  · intro x y
    rw [addPath_hasEdge]
    constructor
    · rintro (h | h | h)
      · exact h
      · exact hin _ h
      · exact hasEdge_symm.1 (hin _ h)
    · exact .inl

theorem end_min {rg : NxGraph V Unit} (hrg : GoodGraph rg) {P : List V} (hP : PathGraph rg P) {one : List V} (hone : ∀ x, x ∈ one ↔ x ∈ rg.nodes ∧ rg.degree x = 1) {b : V}
    (hb : P.head? = some b ∨ P.getLast? = some b) (x : V) : endFactor one b ≤ endFactor one x := by
  by_cases hx : x ∈ one
  · have hex : ∃ y ∈ rg.nodes, rg.degree y = 1 := ⟨x, ((hone x).1 hx).1, ((hone x).1 hx).2⟩
    have hd : rg.degree b = 1 := by
      rcases hb with hb | hb
      · exact degree_ends hrg (PathGraph.reverse hP) (by rw [List.getLast?_reverse]; exact hb) hex
      · exact degree_ends hrg hP hb hex
    have hbm : b ∈ rg.nodes := by
      rw [← hP.2.1]
      rcases hb with hb | hb
      · exact List.mem_of_head? hb
      · exact List.mem_of_getLast? hb
    unfold endFactor
    rw [if_pos hx, if_pos ((hone b).2 ⟨hbm, hd⟩)]
  · rw [show endFactor one x = 1 from if_neg hx]
    exact endFactor_le _ _

section
variable {g : NxGraph V ℝ} {w σ : V → V → ℝ} {L m κ : ℝ}

theorem Weighted.zeroOn (h : Looped g w σ L m κ) {work : NxGraph V (ℝ × ℝ)} {rg : NxGraph V Unit} {f : V → ℝ} (hw : Weighted g work rg f w) (hf : ∀ x, 0 < f x) : ZeroOn g work rg :=
  ⟨hw.zero, fun x y hxy hr => by rw [hw.other x y hxy hr]; exact mul_pos (mul_pos (hf x) (hf y)) (h.pos x y hxy)⟩

theorem sum_bound (h : Looped g w σ L m κ) : ∀ l : List V, l.IsChain g.hasEdge → l ≠ [] → |sumAlong σ l| ≤ m * (l.length - 1)
  | [], _, hne => absurd rfl hne
  | [_], _, _ => by simp [sumAlong]
  | x :: y :: l, hc, _ => by
    rw [List.isChain_cons_cons] at hc
    have h1 := sum_bound h (y :: l) hc.2 (by simp)
    have h2 := h.small x y hc.1
    simp only [sumAlong]
    have := abs_add_le (σ x y) (sumAlong σ (y :: l))
    simp only [List.length_cons, Nat.cast_add, Nat.cast_one] at h1 ⊢
    nlinarith

theorem Cut.sum {e : V} {t : V → ℝ} (hc : Cut g w σ L e t) : ∀ (l : List V) (x z : V), (x :: l).IsChain g.hasEdge → (x :: l).getLast? = some z → ∃ k : ℤ, t z = t x + sumAlong σ (x :: l) + k * L
  | [], x, z, _, hz => by
    simp at hz
    subst hz
    exact ⟨0, by simp [sumAlong]⟩
  | y :: l, x, z, hl, hz => by
    rw [List.isChain_cons_cons] at hl
    rw [List.getLast?_cons_cons] at hz
    obtain ⟨k, hk⟩ := hc.sum l y z hl.2 hz
    obtain ⟨j, hj⟩ := hc.step x y hl.1
    refine ⟨k + j, ?_⟩
    simp only [sumAlong]
    rw [hk, hj]
    push_cast
    ring

/-- A node that is at most four steps from `e`. -/
theorem Cut.short (h : Looped g w σ L m κ) {e : V} {t : V → ℝ} (hc : Cut g w σ L e t) {a : V} (hs : Short g a e) (h1 : 4 * m < t a) (h2 : t a < L - 4 * m) : False := by
  obtain ⟨p, hp, hl⟩ := hs
  obtain ⟨l, rfl⟩ := exists_cons hp.head
  obtain ⟨k, hk⟩ := hc.sum l a e hp.chain hp.last
  have hb := sum_bound h _ hp.chain (by simp)
  have hl' : ((a :: l).length : ℝ) ≤ 5 := by exact_mod_cast hl
  have hm := h.hm
  have hb' : |sumAlong σ (a :: l)| ≤ 4 * m := hb.trans (by nlinarith)
  obtain ⟨b1, b2⟩ := abs_le.1 hb'
  rw [hc.self] at hk
  have hL : 0 < L := by have := h.big; linarith
  have := int_eq_zero_of_small hL (r := t a + sumAlong σ (a :: l)) (k := -k) (by push_cast; linarith) (by rw [abs_lt]; constructor <;> linarith)
  have hk0 : k = 0 := by omega
  rw [hk0] at hk
  push_cast at hk
  linarith

/-- A path of at most four steps has small weight. -/
theorem weight_bound (h : Looped g w σ L m κ) {work : NxGraph V (ℝ × ℝ)} {rg : NxGraph V Unit} {f : V → ℝ} (hw : Weighted g work rg f w) (hf0 : ∀ x, 0 < f x) (hf1 : ∀ x, f x ≤ 1) :
    ∀ l : List V, l.IsChain g.hasEdge → l ≠ [] → κ * pathWeight work l ≤ 2 * m * (l.length - 1)
  | [], _, hne => absurd rfl hne
  | [_], _, _ => by simp [pathWeight_single]
  | x :: y :: l, hc, _ => by
    rw [List.isChain_cons_cons] at hc
    have h1 := weight_bound h hw hf0 hf1 (y :: l) hc.2 (by simp)
    have h2 := h.up x y hc.1
    have hm := h.hm
    have h3 : κ * edgeWeight work x y ≤ 2 * m := by
      by_cases hr : rg.hasEdge x y
      · rw [hw.zero x y hr]; linarith
      · rw [hw.other x y hc.1 hr]
        have hwp := h.pos x y hc.1
        have : f x * f y ≤ 1 := mul_le_one₀ (hf1 x) (hf0 y).le (hf1 y)
        have hle : f x * f y * w x y ≤ w x y := by nlinarith
        exact (mul_le_mul_of_nonneg_left hle h.hκ.le).trans h2
    rw [pathWeight_cons]
    simp only [List.length_cons, Nat.cast_add, Nat.cast_one] at h1 ⊢
    nlinarith

/-! ### The invariant -/

structure ArcVars (g : NxGraph V ℝ) (w : V → V → ℝ) (v : SPVars V) : Prop where
  weights : Weighted g v.work v.rg (endFactor v.one) w
  one : v.one.Nodup
  cand : ∀ x ∈ v.cand, ∀ y ∈ v.rg.nodes, ¬ closedNeighbors g y x

/-- The result is a short arc, with known ends. -/
def OpenArc (g : NxGraph V ℝ) (σ : V → V → ℝ) (m : ℝ) (v : SPVars V) : Prop :=
  ∃ σ', Either σ σ' ∧ ∃ P, PathGraph v.rg P ∧ P.IsChain (Fwd g σ') ∧ sumAlong σ' P ≤ 4 * m ∧ ∀ b, P.head? = some b ∨ P.getLast? = some b → b ∈ v.starts

/-- The result is an arc from `e` to a known end. -/
def EndArc (g : NxGraph V ℝ) (σ : V → V → ℝ) (L m : ℝ) (v : SPVars V) (e : V) : Prop :=
  ∃ σ', Either σ σ' ∧ ∃ P', PathGraph v.rg (e :: P') ∧ (e :: P').IsChain (Fwd g σ') ∧ sumAlong σ' (e :: P') < L ∧ sumAlong σ' (e :: P') ≤ 13 * m ∧ ∃ a ∈ v.starts, (e :: P').getLast? = some a

/-- The result is closed. -/
structure ShutVars (g : NxGraph V ℝ) (σ : V → V → ℝ) (L : ℝ) (v : SPVars V) : Prop where
  ring : ∃ σ', Either σ σ' ∧ ∃ a Q, Ring g σ' L v.rg a Q
  weights : ZeroOn g v.work v.rg
  cand : v.cand = []

def OneSpec (v : SPVars V) : Prop := ∀ x, x ∈ v.one ↔ x ∈ v.rg.nodes ∧ v.rg.degree x = 1

/-- The first of two paths has been found. -/
def FirstPath (g : NxGraph V ℝ) (w σ : V → V → ℝ) (L : ℝ) (v : SPVars V) (e s : V) (tmp : NxGraph V (ℝ × ℝ)) : Prop :=
  ∃ σ', Either σ σ' ∧ ∃ t path work0, Cut g w σ' L e t ∧ NearPath g σ' t s e path ∧ (∀ x y, work0.hasEdge x y ↔ g.hasEdge x y) ∧ tmp = v.work.removeNodes (nodesToRemove work0 work0 s e path) ∧
    ((ShutVars g σ L v ∧ ∃ X Y, Ring g σ' L v.rg e (X ++ s :: Y)) ∨
      (Weighted g v.work v.rg (endFactor v.one) w ∧ (∀ x ∈ v.cand, ∀ y ∈ path, ¬ closedNeighbors g y x) ∧
        ∃ X Y a, PathGraph v.rg (e :: X ++ s :: Y) ∧ (e :: X ++ s :: Y).IsChain (Fwd g σ') ∧ sumAlong σ' (e :: X ++ s :: Y) < L ∧ (s :: Y).getLast? = some a ∧
          (∀ x, endFactor v.one a ≤ endFactor v.one x) ∧ (∀ y, g.hasEdge y e → endFactor v.one e ≤ endFactor v.one y) ∧ ∀ x, x ∉ v.rg.nodes → endFactor v.one x = 1))

def RingInv (g : NxGraph V ℝ) (w σ : V → V → ℝ) (L m : ℝ) : SPState V → Prop
  | .head v => ShutVars g σ L v ∨ (ArcVars g w v ∧ OpenArc g σ m v)
  | .forStart v e todo => (ShutVars g σ L v ∧ e ∈ v.rg.nodes) ∨ (ArcVars g w v ∧ OpenArc g σ m v ∧ (∀ y ∈ v.rg.nodes, ¬ closedNeighbors g y e) ∧ ∀ s ∈ v.starts, s ∈ todo) ∨
      (ArcVars g w v ∧ EndArc g σ L m v e ∧ ∀ s ∈ v.starts, s ∈ todo ∨ Short g s e)
  | .forPath v e todo s tmp single n =>
      (n = 0 → tmp = v.work ∧ (single = true → Short g s e) ∧ ((ShutVars g σ L v ∧ e ∈ v.rg.nodes) ∨
        (ArcVars g w v ∧ OneSpec v ∧ OpenArc g σ m v ∧ (∀ y ∈ v.rg.nodes, ¬ closedNeighbors g y e) ∧ ∀ s' ∈ v.starts, s' = s ∨ s' ∈ todo) ∨
        (ArcVars g w v ∧ OneSpec v ∧ EndArc g σ L m v e ∧ ∀ s' ∈ v.starts, s' = s ∨ s' ∈ todo ∨ Short g s' e))) ∧
      (0 < n → single = true → n = 1 ∧ ((ShutVars g σ L v ∧ e ∈ v.rg.nodes) ∨ (ArcVars g w v ∧ EndArc g σ L m v e ∧ ∀ s ∈ v.starts, s ∈ todo ∨ Short g s e))) ∧
      (n = 1 → single = false → FirstPath g w σ L v e s tmp) ∧
      (1 < n → single = false → ShutVars g σ L v ∧ e ∈ v.rg.nodes ∧ ¬ ∃ p, tmp.IsPath s e p)
  | .done rg => ∃ σ', Either σ σ' ∧ ∃ a Q, Ring g σ' L rg a Q
  | .error _ => True

/-- A short arc is not next to everything. -/
theorem arc_not_all (h : Looped g w σ L m κ) (hg : GoodGraph g) {rg : NxGraph V Unit} (hsub : SubgraphOf rg g) {b : V} {P : List V} (hP : PathGraph rg (b :: P)) (hF : (b :: P).IsChain (Fwd g σ))
    (hsum : sumAlong σ (b :: P) ≤ 4 * m) : ∃ x ∈ g.nodes, ¬ Dominated g rg x := by
  have hm := h.hm
  have hbig := h.big
  have hL : 0 < L := by linarith
  have hbg : b ∈ g.nodes := hsub.1 b ((hP.2.1 b).1 (by simp))
  obtain ⟨t, hc⟩ := h.cut b hbg
  have hlin := hc.along hg hL hF (by linarith)
  have hord := pairwise_of_linear (t := t) hF hlin
  have hrange : ∀ x ∈ g.nodes, 0 ≤ t x ∧ t x < L := fun x hx => by
    by_cases hxe : x = b
    · rw [hxe, hc.self]; exact ⟨le_rfl, hL⟩
    · exact ⟨(hc.range x hx hxe).1.le, (hc.range x hx hxe).2⟩
  have hle : ∀ x ∈ rg.nodes, t x ≤ 4 * m := by
    intro x hx
    obtain ⟨a, ha⟩ : ∃ a, (b :: P).getLast? = some a := ⟨_, List.getLast?_eq_some_getLast (by simp)⟩
    have hs := sumAlong_linear P b a hlin ha
    rw [hc.self] at hs
    obtain ⟨Z, hZ⟩ := exists_concat ha
    have hx := (hP.2.1 x).2 hx
    rw [hZ] at hx hord
    rcases List.mem_append.1 hx with hx | hx
    · have := (List.pairwise_append.1 hord).2.2 x hx a (by simp)
      linarith
    · rw [List.mem_singleton.1 hx]; linarith
  obtain ⟨x, hx, hmax⟩ : ∃ x ∈ g.nodes.toFinset.filter fun x => t x ≤ L - 2 * m, ∀ y ∈ g.nodes.toFinset.filter (fun x => t x ≤ L - 2 * m), t y ≤ t x :=
    Finset.exists_max_image _ _ ⟨b, by simp [hbg, hc.self]; linarith⟩
  rw [Finset.mem_filter, List.mem_toFinset] at hx
  obtain ⟨hxg, hx2⟩ := hx
  have hstep : ∀ y, g.hasEdge x y → t x < L - m → t x + σ x y = t y ∨ t x + σ x y < 0 := by
    intro y hxy hlt
    obtain ⟨k, hk⟩ := hc.step x y hxy
    have h1 := abs_le.1 (h.small x y hxy)
    have h2 := hrange y (goodGraph_edge hg hxy).2.1
    by_cases hn : t x + σ x y < 0
    · exact .inr hn
    · left
      have := int_eq_zero_of_small hL (r := t y - t x - σ x y) (k := k) (by rw [hk]; ring) (by rw [abs_lt]; constructor <;> linarith)
      rw [this] at hk
      push_cast at hk
      linarith
  have hx3 : L - 3 * m < t x := by
    obtain ⟨y, hxy, hpos⟩ := h.forth x hxg
    have h0 := (hrange x hxg).1
    have h1 := abs_le.1 (h.small x y hxy)
    rcases hstep y hxy (by linarith) with h2 | h2
    · by_contra hcon
      have := hmax y (by rw [Finset.mem_filter, List.mem_toFinset]; exact ⟨(goodGraph_edge hg hxy).2.1, by linarith⟩)
      linarith
    · linarith
  refine ⟨x, hxg, ?_⟩
  rintro (hd | ⟨y, hy, hxy⟩)
  · have := hle x hd
    linarith
  · have h1 := hle y hy
    have h2 := abs_le.1 (h.small x y hxy)
    have h3 := (hrange y (goodGraph_edge hg hxy).2.1).1
    rcases hstep y hxy (by linarith) with h4 | h4 <;> linarith

/-- A path between nodes of the result goes along the result. -/
theorem inside_chain {work : NxGraph V (ℝ × ℝ)} {rg : NxGraph V Unit} (hedge : ∀ x y, work.hasEdge x y ↔ g.hasEdge x y) (hz : ZeroOn g work rg) (hsub : SubgraphOf rg g) (hconn : Connected rg) {s e : V}
    (hs : s ∈ rg.nodes) (he : e ∈ rg.nodes) {path : List V} (hp : IsShortestPath work s e path) : path.IsChain rg.hasEdge := by
  obtain ⟨q, hq⟩ := exists_path_of_reach (hconn s hs e he)
  have hq' : work.IsPath s e q := isPath_mono (fun x y h => (hedge x y).2 (hsub.2 x y h)) hq
  have hw := hp.2 q hq'
  rw [weight_zero_of_chain hz.zero hq.chain] at hw
  exact zero_chain hz (fun x y hxy => ⟨(hedge x y).1 hxy, rfl⟩) hp.1.chain hw

theorem exists_split {P : List V} {s : V} (h : s ∈ P) : ∃ X Y, P = X ++ s :: Y := List.append_of_mem h

end

end NF
