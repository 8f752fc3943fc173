import Verif.Lemmas.ShortestLineRun
import Verif.Spec.Cycle

/-! # The shortest-path method on small clusters: the result has no closed loop -/

noncomputable section
open Classical
namespace NF
open Spec NxGraph
variable {V A : Type}

/-- Every set of nodes has a node with at most one neighbour in it. -/
def Forest (g : NxGraph V A) : Prop := ∀ S : Set V, S.Nonempty → (∀ x ∈ S, x ∈ g.nodes) → ∃ x ∈ S, ∀ y ∈ S, ∀ z ∈ S, g.hasEdge x y → g.hasEdge x z → y = z

theorem forest_no_loop {g : NxGraph V A} (h : Forest g) (hg : GoodGraph g) : ¬ ContainsLoop g := by
  rintro ⟨a, b, p, hnd, h3, hch, ha, hb, hba⟩
  have hmem : ∀ x ∈ p, x ∈ g.nodes := by
    intro x hx
    obtain ⟨i, hi, rfl⟩ := List.getElem_of_mem hx
    rcases Nat.lt_or_ge (i + 1) p.length with h1 | h1
    · exact (goodGraph_edge hg (List.isChain_iff_getElem.1 hch i h1)).1
    · have := List.isChain_iff_getElem.1 hch (i - 1) (by omega)
      have e : i - 1 + 1 = i := by omega
      simp only [e] at this
      exact (goodGraph_edge hg this).2.1
  obtain ⟨x, hx, hu⟩ := h {x | x ∈ p} ⟨a, List.mem_of_head? ha⟩ hmem
  have hx : x ∈ p := hx
  obtain ⟨i, hi, rfl⟩ := List.getElem_of_mem hx
  have hE : ∀ j (hj : j + 1 < p.length), g.hasEdge p[j] p[j + 1] := fun j hj => List.isChain_iff_getElem.1 hch j hj
  have ha' : p[0] = a := by
    cases p with
    | nil => simp at ha
    | cons c l => simpa using ha
  have hb' : p[p.length - 1] = b := by
    rw [List.getLast?_eq_getElem?, List.getElem?_eq_getElem (by omega)] at hb
    simpa using hb
  have hinj : ∀ {m n : ℕ} (hm : m < p.length) (hn : n < p.length), p[m] = p[n] → m = n := fun hm hn e => (List.Nodup.getElem_inj_iff hnd).1 e
  rcases Nat.eq_zero_or_pos i with rfl | h0
  · have e := hu p[1] (by simp) p[p.length - 1] (by simp) (hE 0 (by omega)) (by rw [hb', ha']; exact hasEdge_symm.1 hba)
    have := hinj _ _ e
    omega
  · have e1 : g.hasEdge p[i] p[i - 1] := by
      have := hE (i - 1) (by omega)
      have e : i - 1 + 1 = i := by omega
      simp only [e] at this
      exact hasEdge_symm.1 this
    rcases Nat.lt_or_ge (i + 1) p.length with h1 | h1
    · have e := hu p[i - 1] (by simp) p[i + 1] (by simp) e1 (hE i h1)
      have := hinj _ _ e
      omega
    · have hil : i = p.length - 1 := by omega
      subst hil
      have e := hu p[p.length - 1 - 1] (by simp) p[0] (by simp) e1 (by rw [hb', ha']; exact hba)
      have := hinj _ _ e
      omega

/-- In a graph without closed loops not all nodes have two neighbours. -/
theorem forest_shape {g : NxGraph V A} (h : Forest g) (hg : GoodGraph g) (hne : g.nodes ≠ []) : shapeName (createDegreeCount g) ≠ .closedLoop := by
  intro hs
  have h2 := (C63_closed_loop hg).1 hs
  obtain ⟨y, hy⟩ := List.exists_mem_of_ne_nil _ hne
  obtain ⟨x, hx, hu⟩ := h {x | x ∈ g.nodes} ⟨y, hy⟩ (fun x hx => hx)
  have hx : x ∈ g.nodes := hx
  have hc := h2 x hx
  unfold nbrCount at hc
  have hnd : (g.nodes.filter fun y => decide (g.hasEdge x y)).Nodup := hg.nodup.filter _
  match hl : g.nodes.filter (fun y => decide (g.hasEdge x y)) with
  | [] => rw [hl] at hc; simp at hc
  | [_] => rw [hl] at hc; simp at hc
  | a :: b :: l =>
    have ha : a ∈ g.nodes.filter fun y => decide (g.hasEdge x y) := by rw [hl]; simp
    have hb : b ∈ g.nodes.filter fun y => decide (g.hasEdge x y) := by rw [hl]; simp
    simp only [List.mem_filter, decide_eq_true_eq] at ha hb
    have := hu a ha.1 b hb.1 ha.2 hb.2
    rw [hl] at hnd
    simp [this] at hnd

theorem forest_congr {g : NxGraph V Unit} {h : NxGraph V Unit} (hf : Forest g) (hn : ∀ x, x ∈ h.nodes → x ∈ g.nodes) (he : ∀ x y, h.hasEdge x y → g.hasEdge x y) : Forest h := by
  intro S hS hm
  obtain ⟨x, hx, hu⟩ := hf S hS fun x hx => hn x (hm x hx)
  exact ⟨x, hx, fun y hy z hz h1 h2 => hu y hy z hz (he _ _ h1) (he _ _ h2)⟩

/-- A path that starts at a node and then leaves the graph adds no closed loop. -/
theorem forest_pendant : ∀ (l : List V) (a : V) (rg : NxGraph V Unit), Forest rg → GoodGraph rg → (a :: l).Nodup → (∀ x ∈ l, x ∉ rg.nodes) →
    Forest ((pathEdges (a :: l)).foldl (fun h e => h.addEdge e.1 e.2 ()) rg) := by
  intro l
  induction l with
  | nil => intro a rg h _ _ _; simpa [pathEdges] using h
  | cons b l ih =>
    intro a rg h hg hnd hout
    have e : pathEdges (a :: b :: l) = (a, b) :: pathEdges (b :: l) := rfl
    rw [e, List.foldl_cons]
    have hb := hout b (by simp)
    have hab : a ≠ b := fun h => by rw [h] at hnd; simp at hnd
    refine ih b _ ?_ (goodGraph_addEdge hg hab _ _) (List.nodup_cons.1 hnd).2 ?_
    · intro S hS hm
      have hedge : ∀ x y, (rg.addEdge a b ()).hasEdge x y → x ≠ b → y ≠ b → rg.hasEdge x y := by
        intro x y hxy hx hy
        rcases hasEdge_addEdge.1 hxy with h | ⟨-, h⟩ | ⟨h, -⟩
        · exact h
        · exact absurd h hy
        · exact absurd h hx
      by_cases hbS : b ∈ S
      · refine ⟨b, hbS, fun y _ z _ h1 h2 => ?_⟩
        have : ∀ y, (rg.addEdge a b ()).hasEdge b y → y = a := by
          intro y hy
          rcases hasEdge_addEdge.1 hy with h | ⟨h, -⟩ | ⟨-, h⟩
          · exact absurd (goodGraph_edge hg h).1 hb
          · exact absurd h hab.symm
          · exact h
        rw [this y h1, this z h2]
      · by_cases haS : ∃ x ∈ S, x ≠ a
        · have hS' : (S ∩ {x | x ∈ rg.nodes}).Nonempty := by
            obtain ⟨x, hx, hxa⟩ := haS
            refine ⟨x, hx, ?_⟩
            rcases mem_addEdge.1 (hm x hx) with h | h | h
            · exact h
            · exact absurd h hxa
            · exact absurd (show b ∈ S from (show x = b from h) ▸ hx) hbS
          obtain ⟨x, hx, hu⟩ := h _ hS' fun x hx => hx.2
          have hne : ∀ y ∈ S, y ≠ b := fun y hy e => hbS (e ▸ hy)
          refine ⟨x, hx.1, fun y hy z hz h1 h2 => ?_⟩
          have k1 := hedge _ _ h1 (hne x hx.1) (hne y hy)
          have k2 := hedge _ _ h2 (hne x hx.1) (hne z hz)
          exact hu y ⟨hy, (goodGraph_edge hg k1).2.1⟩ z ⟨hz, (goodGraph_edge hg k2).2.1⟩ k1 k2
        · push Not at haS
          obtain ⟨x, hx⟩ := hS
          exact ⟨x, hx, fun y hy z hz _ _ => by rw [haS y hy, haS z hz]⟩
    · intro x hx hx'
      rcases mem_addEdge.1 hx' with h | h | h
      · exact hout x (by simp [hx]) h
      · rw [h] at hx; simp [hx] at hnd
      · rw [h] at hx; simp [hx] at hnd

/-! ### Weights -/

/-- The edges of the result have weight zero, the others have positive weight. -/
structure ZeroOn (g : NxGraph V ℝ) (work : NxGraph V (ℝ × ℝ)) (rg : NxGraph V Unit) : Prop where
  zero : ∀ x y, rg.hasEdge x y → edgeWeight work x y = 0
  pos : ∀ x y, g.hasEdge x y → ¬ rg.hasEdge x y → 0 < edgeWeight work x y

/-- `work'` is `work` with its weights multiplied with positive numbers. -/
def Rescaled (work' work : NxGraph V (ℝ × ℝ)) : Prop := SameShape work' work ∧ ∀ x y, work.hasEdge x y → ∃ c : ℝ, 0 < c ∧ edgeWeight work' x y = edgeWeight work x y * c

theorem rescaled_refl (g : NxGraph V (ℝ × ℝ)) : Rescaled g g := ⟨sameShape_refl g, fun _ _ _ => ⟨1, one_pos, (mul_one _).symm⟩⟩

theorem rescaled_trans {g h k : NxGraph V (ℝ × ℝ)} (h1 : Rescaled g h) (h2 : Rescaled h k) : Rescaled g k := by
  refine ⟨sameShape_trans h1.1 h2.1, fun x y hxy => ?_⟩
  obtain ⟨a, ha, ea⟩ := h2.2 x y hxy
  obtain ⟨b, hb, eb⟩ := h1.2 x y ((sameShape_hasEdge h2.1 x y).2 hxy)
  exact ⟨a * b, mul_pos ha hb, by rw [eb, ea, mul_assoc]⟩

theorem rescaled_neighbours {g : NxGraph V (ℝ × ℝ)} (hg : GoodGraph g) (node : V) {m : ℝ} (hm : 0 < m) : Rescaled (updateNeighbourWeights node m g) g := by
  refine ⟨sameShape_updateNeighbourWeights _ _ _, fun x y hxy => ?_⟩
  rw [edgeWeight_updateNeighbourWeights hg node m hxy]
  exact ⟨(if x = node then m else 1) * (if y = node then m else 1), by split_ifs <;> positivity, by ring⟩

theorem rescaled_foldl {T : Type} {f : NxGraph V (ℝ × ℝ) → T → NxGraph V (ℝ × ℝ)} (hf : ∀ g x, GoodGraph g → Rescaled (f g x) g) : ∀ (l : List T) (g : NxGraph V (ℝ × ℝ)), GoodGraph g →
    Rescaled (l.foldl f g) g := by
  intro l
  induction l with
  | nil => intro g _; exact rescaled_refl g
  | cons a l ih => intro g hg; exact rescaled_trans (ih _ (sameShape_good (hf g a hg).1 hg)) (hf g a hg)

theorem rescaled_update {v : SPVars V} (hg : GoodGraph v.work) : Rescaled (updateWeights v).work v.work := by
  have h1 : Rescaled (updateHighDegree v.rg (v.work, v.high)).1 v.work := by
    unfold updateHighDegree
    have : ∀ (l : List V) (gh : NxGraph V (ℝ × ℝ) × List V), GoodGraph gh.1 →
        Rescaled (l.foldl (fun gh node => if v.rg.degree node > 2 ∧ node ∉ gh.2 then (updateNeighbourWeights node 0.5 gh.1, gh.2 ++ [node]) else gh) gh).1 gh.1 := by
      intro l
      induction l with
      | nil => intro gh _; exact rescaled_refl _
      | cons a l ih =>
        intro gh hgh
        rw [List.foldl_cons]
        split_ifs
        · have k := rescaled_neighbours hgh a (m := 0.5) (by norm_num)
          exact rescaled_trans (ih _ (sameShape_good k.1 hgh)) k
        · exact ih gh hgh
    exact this _ _ hg
  have hg1 := sameShape_good h1.1 hg
  unfold updateWeights updateDegreeOne
  simp only
  have h2 := rescaled_foldl (f := fun h node => updateNeighbourWeights node 0.1 h) (fun g x hg => rescaled_neighbours hg x (by norm_num))
    ((v.rg.nodes.filter fun node => decide (v.rg.degree node = 1)).filter fun x => decide (x ∉ v.one)) _ hg1
  have h3 := rescaled_foldl (f := fun h node => updateNeighbourWeights node 10 h) (fun g x hg => rescaled_neighbours hg x (by norm_num))
    (v.one.filter fun x => decide (x ∉ v.rg.nodes.filter fun node => decide (v.rg.degree node = 1))) _ (sameShape_good h2.1 hg1)
  exact rescaled_trans h3 (rescaled_trans h2 h1)

theorem zeroOn_update {g : NxGraph V ℝ} (hg : GoodGraph g) {v : SPVars V} (hs : SameShape v.work g) (hsub : SubgraphOf v.rg g) (h : ZeroOn g v.work v.rg) : ZeroOn g (updateWeights v).work v.rg := by
  have hr := rescaled_update (v := v) (sameShape_good hs hg)
  constructor
  · intro x y hxy
    obtain ⟨c, -, e⟩ := hr.2 x y ((sameShape_hasEdge hs x y).2 (hsub.2 x y hxy))
    rw [e, h.zero x y hxy, zero_mul]
  · intro x y hxy hn
    obtain ⟨c, hc, e⟩ := hr.2 x y ((sameShape_hasEdge hs x y).2 hxy)
    rw [e]
    exact mul_pos (h.pos x y hxy hn) hc

theorem zeroOn_path {g : NxGraph V ℝ} (hg : GoodGraph g) {work : NxGraph V (ℝ × ℝ)} {rg : NxGraph V Unit} (hs : SameShape work g) (hsub : SubgraphOf rg g) (h : ZeroOn g work rg) {path : List V}
    (hp : path.IsChain g.hasEdge) : ZeroOn g (zeroWeights work path) ((pathEdges path).foldl (fun h e => h.addEdge e.1 e.2 ()) rg) := by
  have hgw := sameShape_good hs hg
  constructor
  · intro x y hxy
    have hxy := (addPath_hasEdge _ _ _ _).1 hxy
    have hxyg : g.hasEdge x y := by
      rcases hxy with h | h | h
      · exact hsub.2 x y h
      · exact pathEdges_hasEdge hp _ h
      · exact hasEdge_symm.1 (pathEdges_hasEdge hp _ h)
    rw [edgeWeight_zeroWeights path hgw ((sameShape_hasEdge hs x y).2 hxyg)]
    split_ifs with hc
    · rfl
    · rcases hxy with h' | h'
      · exact h.zero x y h'
      · exact absurd h' hc
  · intro x y hxy hr
    have hr' := fun h => hr ((addPath_hasEdge _ _ _ _).2 h)
    rw [edgeWeight_zeroWeights path hgw ((sameShape_hasEdge hs x y).2 hxy), if_neg (fun h => hr' (.inr h))]
    exact h.pos x y hxy fun h => hr' (.inl h)

/-- A shortest path from a node of the result goes along the result and then leaves it for good. -/
theorem shortest_leaves {g : NxGraph V ℝ} {work : NxGraph V (ℝ × ℝ)} {rg : NxGraph V Unit} (hedge : ∀ x y, work.hasEdge x y ↔ g.hasEdge x y) (hgr : GoodGraph rg) (hsub : SubgraphOf rg g)
    (hconn : Connected rg) (h : ZeroOn g work rg) {s e : V} (hs : s ∈ rg.nodes) {p : List V} (hp : IsShortestPath work s e p) :
    ∃ A D C, p = A ++ D :: C ∧ D ∈ rg.nodes ∧ (A ++ [D]).IsChain rg.hasEdge ∧ ∀ x ∈ C, x ∉ rg.nodes := by
  obtain ⟨A, D, C, rfl, hD, hC⟩ := split_last (p := p) (Q := fun x => x ∈ rg.nodes) ⟨s, List.mem_of_head? hp.1.head, hs⟩
  refine ⟨A, D, C, rfl, hD, ?_, hC⟩
  obtain ⟨q, hq⟩ := exists_path_of_reach (hconn s hs D hD)
  have hqm := isPath_mem hgr hq hs
  obtain ⟨q0, rfl⟩ : ∃ q0, q = q0 ++ [D] := by
    rcases List.eq_nil_or_concat q with rfl | ⟨q0, x, rfl⟩
    · have := hq.last; simp at this
    · have := hq.last
      simp at this
      exact ⟨q0, by simp [this]⟩
  have hle : ∀ x y, work.hasEdge x y → 0 ≤ edgeWeight work x y := by
    intro x y hxy
    by_cases hr : rg.hasEdge x y
    · rw [h.zero x y hr]
    · exact (h.pos x y ((hedge x y).1 hxy) hr).le
  have hch := List.isChain_append.1 hp.1.chain
  have hq' : work.IsPath s e (q0 ++ D :: C) := by
    refine ⟨?_, ?_, ?_, ?_⟩
    · have := hq.head
      cases q0 <;> simpa using this
    · have := hp.1.last
      rw [List.getLast?_append_of_ne_nil _ (by simp)] at this ⊢
      exact this
    · rw [List.isChain_append]
      have hqc := List.isChain_append.1 (hq.chain.imp fun x y hxy => (hedge x y).2 (hsub.2 x y hxy))
      exact ⟨hqc.1, hch.2.1, fun x hx y hy => hqc.2.2 x hx y (by simpa using hy)⟩
    · have hn1 := hq.nodup
      have hn2 := (List.nodup_append.1 hp.1.nodup).2.1
      rw [show q0 ++ D :: C = (q0 ++ [D]) ++ C by simp, List.nodup_append]
      exact ⟨hn1, (List.nodup_cons.1 hn2).2, fun a ha b hb e => hC b hb (e ▸ hqm a ha)⟩
  have hw := hp.2 _ hq'
  rw [pathWeight_append, pathWeight_append _ q0, weight_zero_of_chain h.zero hq.chain] at hw
  have hcA : (A ++ [D]).IsChain work.hasEdge := by
    rw [List.isChain_append]
    exact ⟨hch.1, by simp, fun x hx y hy => hch.2.2 x hx y (by simpa using hy)⟩
  refine chain_of_weight_zero hle (fun x y hxy h0 => ?_) hcA (by linarith)
  by_contra hr
  exact absurd h0 (not_le.2 (h.pos x y ((hedge x y).1 hxy) hr))

theorem addEdges_append (l m : List (V × V)) (rg : NxGraph V Unit) :
    (l ++ m).foldl (fun h e => h.addEdge e.1 e.2 ()) rg = m.foldl (fun h e => h.addEdge e.1 e.2 ()) (l.foldl (fun h e => h.addEdge e.1 e.2 ()) rg) := List.foldl_append ..

theorem pathEdges_split (A : List V) (D : V) (C : List V) : pathEdges (A ++ D :: C) = pathEdges (A ++ [D]) ++ pathEdges (D :: C) := by
  induction A with
  | nil => simp [pathEdges]
  | cons a A ih =>
    cases A with
    | nil => simp [pathEdges]
    | cons b A => simpa [pathEdges] using ih

theorem path_keeps_forest {g : NxGraph V ℝ} {work : NxGraph V (ℝ × ℝ)} {rg : NxGraph V Unit} (hedge : ∀ x y, work.hasEdge x y ↔ g.hasEdge x y) (hgr : GoodGraph rg) (hsub : SubgraphOf rg g)
    (hconn : Connected rg) (h : ZeroOn g work rg) (hf : Forest rg) {s e : V} (hs : s ∈ rg.nodes) {p : List V} (hp : IsShortestPath work s e p) :
    Forest ((pathEdges p).foldl (fun h e => h.addEdge e.1 e.2 ()) rg) := by
  obtain ⟨A, D, C, rfl, hD, hA, hC⟩ := shortest_leaves hedge hgr hsub hconn h hs hp
  have hnd := (List.nodup_append.1 hp.1.nodup).2.1
  have hin : ∀ e ∈ pathEdges (A ++ [D]), rg.hasEdge e.1 e.2 := fun e he => consecutive_of_chain hA (mem_pathEdges.1 he)
  refine forest_congr (forest_pendant C D rg hf hgr hnd hC) (fun x hx => ?_) fun x y hxy => ?_
  · rw [pathEdges_split, mem_addPath] at hx
    rw [mem_addPath]
    rcases hx with hx | ⟨e, he, hx⟩
    · exact .inl hx
    · rcases List.mem_append.1 he with he | he
      · left
        rcases hx with rfl | rfl
        exacts [(goodGraph_edge hgr (hin e he)).1, (goodGraph_edge hgr (hin e he)).2.1]
      · exact .inr ⟨e, he, hx⟩
  · rw [pathEdges_split, addPath_hasEdge] at hxy
    rw [addPath_hasEdge]
    simp only [List.mem_append] at hxy
    rcases hxy with h | (h | h) | (h | h)
    · exact .inl h
    · exact .inl (hin _ h)
    · exact .inr (.inl h)
    · exact .inl (hasEdge_symm.1 (hin _ h))
    · exact .inr (.inr h)

/-! ### The run -/

structure TreeVars (g : NxGraph V ℝ) (v : SPVars V) : Prop where
  forest : Forest v.rg
  weights : ZeroOn g v.work v.rg

def TreeInv (g : NxGraph V ℝ) : SPState V → Prop
  | .head v => TreeVars g v
  | .forStart v _ _ => TreeVars g v
  | .forPath v _ _ _ tmp single n => TreeVars g v ∧ (n = 0 → tmp = v.work) ∧ single = true ∧ n ≤ 1
  | .done rg => Forest rg
  | .error _ => True

theorem spStep_tree {g : NxGraph V ℝ} (hg : GoodGraph g) (hsmall : ∀ x ∈ g.nodes, ∀ y ∈ g.nodes, ∃ p, g.IsPath x y p ∧ p.length ≤ 5) {s s' : SPState V} (hi : SPInv g s) (hs : TreeInv g s)
    (hst : SPStep s s') : TreeInv g s' := by
  cases hst with
  | finish => exact hs.forest
  | newEnd => exact ⟨hs.forest, hs.weights⟩
  | lastStart => exact ⟨hs.forest, hs.weights⟩
  | @start v e s todo hp =>
    obtain ⟨h1, h2, h3, h4, h5, h6⟩ := hi
    have hsh := sameShape_trans (sameShape_updateWeights v) h1.shape
    refine ⟨⟨hs.forest, zeroOn_update hg h1.shape h1.sub hs.weights⟩, fun _ => rfl, ?_, by omega⟩
    obtain ⟨p, hp, hl⟩ := hsmall s (h1.sub.1 s (h1.starts s (h5 s (by simp)))) e h4
    exact decide_eq_true ⟨p, isPath_mono (fun x y => (sameShape_hasEdge hsh x y).2) hp, hl⟩
  | noPath => trivial
  | lastPath => exact hs.1
  | assertion => trivial
  | @path v e todo s tmp single n path hn hsn hpath hor =>
    obtain ⟨h1, h2, h3, h4, h5, h6, h7, h8, h9, h10, h11, h12, h13⟩ := hi
    have h0 : n = 0 := by
      by_contra h0
      exact hsn ⟨hs.2.2.1, by have := hs.2.2.2; omega⟩
    obtain rfl := hs.2.1 h0
    have hedge := sameShape_hasEdge h1.shape
    have hpg : g.IsPath s e path := isPath_mono (fun x y => (hedge x y).1) hpath.1
    exact ⟨⟨path_keeps_forest hedge h1.good h1.sub h1.conn hs.1.weights hs.1.forest (h1.starts s h6) hpath, zeroOn_path hg h1.shape h1.sub hs.1.weights hpg.chain⟩, fun h => by omega, hs.2.2.1, by omega⟩

theorem spInit_tree {fs : ℝ} (hfs : 0 < fs) {g : NxGraph V ℝ} {δ : V → V → ℝ} (hδ : ∀ x y, δ x y = δ y x) (hattr : ∀ e ∈ g.edges, e.2.2 = δ e.1 e.2.1) (hpos : ∀ x y, g.hasEdge x y → 0 < δ x y)
    {s : SPState V} (hi : SPInit fs g s) : TreeInv g s := by
  cases hi with
  | empty => trivial
  | @first p hp =>
    have hno : ∀ x y, ¬ (NxGraph.empty.addNode p : NxGraph V Unit).hasEdge x y := fun x y h => by
      obtain ⟨e, he, -⟩ := hasEdge_addNode.1 h; simp [NxGraph.empty] at he
    refine ⟨?_, ⟨fun x y h => absurd h (hno x y), fun x y h _ => ?_⟩⟩
    · rintro S ⟨x, hx⟩ -
      exact ⟨x, hx, fun y _ z _ h => absurd h (hno x y)⟩
    · simp only
      rw [edgeWeight_initial hδ hattr h]
      have := hpos x y h
      positivity

/-- If any two nodes are at most four steps apart, the result has no closed loop. -/
theorem shortest_tree {fs : ℝ} (hfs : 0 < fs) {g : NxGraph V ℝ} (hg : GoodGraph g) (hconn : Connected g) (hne : g.nodes ≠ []) {δ : V → V → ℝ} (hδ : ∀ x y, δ x y = δ y x)
    (hattr : ∀ e ∈ g.edges, e.2.2 = δ e.1 e.2.1) (hpos : ∀ x y, g.hasEdge x y → 0 < δ x y) (hsmall : ∀ x ∈ g.nodes, ∀ y ∈ g.nodes, ∃ p, g.IsPath x y p ∧ p.length ≤ 5) {n : ℕ} {s : SPState V}
    (hr : SPRun fs g n s) : TreeInv g s := by
  induction hr with
  | init hi => exact spInit_tree hfs hδ hattr hpos hi
  | step hr hst ih => exact spStep_tree hg hsmall (spRun_inv hg hconn hne hr).1 ih hst

end NF
