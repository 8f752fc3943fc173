import Verif.Spec.FloatRun
import Verif.Props.FloatIdentify
import Verif.Props.FloatBallistic
import Verif.Props.FloatShortestPath
import Verif.Props.DominatingSet

/-! # Lemmas for the identification with lines in double precision -/

noncomputable section
open Classical

namespace NF
open Spec NxGraph CoordSys
variable {V A : Type} {d : ℕ} {rnd : ℝ → ℝ}

/-! ## The dominating-set method -/

/-- The invariant of the subgraph of the dominating-set method. -/
structure FlDInv (g : NxGraph V ℝ) (D : List V) (sub : NxGraph V DSAttr) : Prop where
  good : GoodGraph sub
  subG : ∀ x y, sub.hasEdge x y → g.hasEdge x y
  nodes : ∀ x ∈ sub.nodes, x ∈ g.nodes
  dom : ∀ x ∈ D, x ∈ sub.nodes

theorem chain_tail_edge {g : NxGraph V A} : ∀ {p : List V}, p.IsChain g.hasEdge → ∀ x ∈ p.tail, ∃ y, g.hasEdge y x := by
  intro p
  induction p with
  | nil => intro _ x hx; simp at hx
  | cons a l ih =>
    intro h x hx
    simp only [List.tail_cons] at hx
    cases l with
    | nil => simp at hx
    | cons b l =>
      rw [List.isChain_cons_cons] at h
      rcases List.mem_cons.1 hx with rfl | hx
      · exact ⟨a, h.1⟩
      · exact ih h.2 x (by simpa using hx)

theorem flSameShape_copy (L : FL.DSLib V) (g : NxGraph V ℝ) : SameShape (FL.dsGraphCopy L g) g := by
  refine ⟨?_, rfl⟩
  simp [FL.dsGraphCopy, Function.comp_def]

theorem flDInv_patchHole {L : FL.DSLib V} {g : NxGraph V ℝ} (hg : GoodGraph g) {D : List V} {sub : NxGraph V DSAttr} (hs : FlDInv g D sub) {p : List V} (hp : p.IsChain g.hasEdge) :
    FlDInv g D (patchHole sub (FL.dsGraphCopy L g) p) := by
  have hn := chain_tail_edge hp
  have he := pathEdges_hasEdge hp
  unfold patchHole
  have h1 : ∀ (l : List V) (sub : NxGraph V DSAttr), FlDInv g D sub → (∀ x ∈ l, x ∈ g.nodes) → FlDInv g D (l.foldl (fun s x => s.addNode x) sub) := by
    intro l
    induction l with
    | nil => exact fun _ h _ => h
    | cons a l ih =>
      intro sub hs hl
      exact ih _ ⟨goodGraph_addNode hs.good a, fun x y h => hs.subG x y (hasEdge_addNode.1 h), fun x hx => (mem_addNode.1 hx).elim (hs.nodes x) fun h => h ▸ hl a (by simp),
        fun x hx => mem_addNode.2 (.inl (hs.dom x hx))⟩ fun x hx => hl x (by simp [hx])
  have h2 : ∀ (l : List (V × V)) (sub : NxGraph V DSAttr), FlDInv g D sub → (∀ e ∈ l, g.hasEdge e.1 e.2) →
      FlDInv g D (l.foldl (fun s e => match (FL.dsGraphCopy L g).attr? e.1 e.2 with | some a => s.addEdge e.1 e.2 a | none => s) sub) := by
    intro l
    induction l with
    | nil => exact fun _ h _ => h
    | cons a l ih =>
      intro sub hs hl
      rw [List.foldl_cons]
      refine ih _ ?_ fun e he => hl e (by simp [he])
      have ha := hl a (by simp)
      have hga := goodGraph_edge hg ha
      cases (FL.dsGraphCopy L g).attr? a.1 a.2 with
      | none => exact hs
      | some t =>
        refine ⟨goodGraph_addEdge hs.good hga.2.2 _ _, fun x y h => ?_, fun x hx => ?_, fun x hx => mem_addEdge.2 (.inl (hs.dom x hx))⟩
        · rcases hasEdge_addEdge.1 h with h | ⟨rfl, rfl⟩ | ⟨rfl, rfl⟩
          exacts [hs.subG x y h, ha, hasEdge_symm.1 ha]
        · rcases mem_addEdge.1 hx with h | rfl | rfl
          exacts [hs.nodes x h, hga.1, hga.2.1]
  refine h2 _ _ (h1 _ _ hs fun x hx => ?_) he
  obtain ⟨y, hy⟩ := hn x (List.dropLast_subset _ hx)
  exact (goodGraph_edge hg hy).2.1

theorem flPatchLoop_inv {L : FL.DSLib V} (hL : DSPaths L) {g : NxGraph V ℝ} (hg : GoodGraph g) {D : List V} {l : List (V × V × ℝ)} {sub : NxGraph V DSAttr} {r : Except Err (NxGraph V DSAttr)}
    (h : FL.PatchLoop L rnd (FL.dsGraphCopy L g) l sub r) : FlDInv g D sub → (∀ s, r = .ok s → FlDInv g D s) ∧ ∀ e, r = .error e → e = .noPath := by
  induction h with
  | nil => exact fun hs => ⟨fun s h => (by cases h; exact hs), fun e h => (by cases h)⟩
  | noPath => exact fun _ => ⟨fun s h => (by cases h), fun e h => (by cases h; rfl)⟩
  | skip _ _ _ ih => exact ih
  | patch _ _ hp _ ih =>
    intro hs
    have hc : ∀ {p : List V}, p.IsChain (FL.dsGraphCopy L g).hasEdge → p.IsChain g.hasEdge := fun h => h.imp fun x y => (sameShape_hasEdge (flSameShape_copy L g) x y).1
    exact ih (flDInv_patchHole hg hs (hc (hL hp).chain))

theorem flRemoveLoop_inv {L : FL.DSLib V} {g : NxGraph V ℝ} {D : List V} {l : List (V × V)} {sub r : NxGraph V DSAttr} (h : FL.RemoveLoop L l sub r) : FlDInv g D sub → FlDInv g D r := by
  induction h with
  | nil => exact id
  | cons _ _ ih =>
    intro hs
    refine ih ?_
    split_ifs
    · exact ⟨goodGraph_removeEdge hs.good _ _, fun x y h => hs.subG x y (hasEdge_removeEdge.1 h).1, hs.nodes, hs.dom⟩
    · exact hs

theorem flToPatch_error {L : FL.DSLib V} {sub graph : NxGraph V DSAttr} {dist : V → V → ℝ} {fs : ℝ} : ∀ {ps : List (V × V)} {e}, FL.toPatch L rnd sub graph dist fs ps = .error e → e = .noPath := by
  intro ps
  induction ps with
  | nil => intro e h; simp [FL.toPatch] at h
  | cons q ps ih =>
    intro e h
    obtain ⟨a, b⟩ := q
    simp only [FL.toPatch] at h
    cases he : FL.patchEntry L rnd sub graph dist fs a b with
    | error e' =>
      rw [he] at h
      simp only [Except.error.injEq] at h
      subst h
      unfold FL.patchEntry at he
      split_ifs at he
      · cases h1 : L.length sub (edgeDist sub) a b with
        | none => rw [h1] at he; simp at he; exact he.symm
        | some r =>
          rw [h1] at he
          simp only at he
          split_ifs at he
          cases h2 : L.length graph (edgeDist graph) a b with
          | none => rw [h2] at he; simp at he; exact he.symm
          | some o => rw [h2] at he; simp only at he; split_ifs at he
    | ok o =>
      rw [he] at h
      cases h3 : FL.toPatch L rnd sub graph dist fs ps with
      | error e' => rw [h3] at h; simp at h; subst h; exact ih h3
      | ok l => rw [h3] at h; simp at h

theorem flGood_reduced {g : NxGraph V ℝ} (hg : GoodGraph g) (fs : ℝ) : GoodGraph (FL.dsReduced rnd fs g) := by
  have : SameShape (FL.dsReduced rnd fs g) (⟨g.nodes, g.edges.filter fun e => decide (e.2.2 < rnd (fs / 3))⟩ : NxGraph V ℝ) := ⟨by simp [FL.dsReduced, Function.comp_def], rfl⟩
  refine sameShape_good this ⟨hg.nodup, fun e he => hg.left e (List.mem_filter.1 he).1, fun e he => hg.right e (List.mem_filter.1 he).1,
    fun e he => hg.noLoop e (List.mem_filter.1 he).1, hg.single.filter _⟩

theorem flReduced_edge {g : NxGraph V ℝ} {fs : ℝ} {x y : V} (h : (FL.dsReduced rnd fs g).hasEdge x y) : g.hasEdge x y := by
  obtain ⟨e, he, hj⟩ := h
  obtain ⟨k, hk, rfl⟩ := List.mem_map.1 he
  exact ⟨k, (List.mem_filter.1 hk).1, hj⟩

/-! ## The dimension -/

theorem flHasDimension_large {A : FL.IdArith d} {g : NxGraph (Vec d) ℝ} {cs : CoordSys d} {fs : ℝ} {minNb : Option ℤ} {pos : Vec d} {dim : ℕ} {r : Except Err Bool}
    (h : FL.HasDimension A g cs fs minNb pos dim r) (hd : d < dim) : r = .ok false := by
  cases h with
  | tooLarge _ => rfl
  | unknown h => exact absurd hd h
  | early h => exact absurd hd h
  | raises h => exact absurd hd h
  | none h => exact absurd hd h
  | all h => exact absurd hd h

theorem flGetDimension_range {A : FL.IdArith d} {g : NxGraph (Vec d) ℝ} {cs : CoordSys d} {fs : ℝ} {minNb : Option ℤ} {pos : Vec d} {x : ℤ}
    (h : FL.GetDimension A g cs fs 3 minNb pos (.ok x)) : 0 ≤ x ∧ x ≤ 3 ∧ x ≤ d := by
  obtain ⟨has, hh, hr⟩ := h
  obtain ⟨-, h2⟩ := getDimensionLoop_spec has 3 (3 : ℤ).toNat 1 (by omega) (by norm_num) le_rfl (by intro j h1 h2; omega)
  obtain ⟨h3, h4, h5, -⟩ := h2 x hr.symm
  refine ⟨h3, h4, ?_⟩
  by_contra hgt
  push Not at hgt
  have := h5 x.toNat (by omega) (by omega)
  have h7 := flHasDimension_large (hh x.toNat) (by omega)
  rw [this] at h7
  cases h7

/-- An exception in the evaluation of volumes comes from `connecting_vector`. -/
theorem flDecideLoop_error {limit : ℝ} {minNb : ℤ} {vols : List (Except Err ℝ)} {results : List ℝ} {r : Except Err (Option Bool)} (h : FL.DecideLoop rnd limit minNb results vols r) :
    ∀ e, r = .error e → .error e ∈ vols := by
  induction h with
  | finished => intro e he; cases he
  | early => intro e he; cases he
  | undecided _ _ _ _ _ _ ih => exact fun e he => List.mem_cons_of_mem _ (ih e he)
  | tooFew _ _ ih => exact fun e he => List.mem_cons_of_mem _ (ih e he)
  | undecidedRaises => intro e he; cases he; exact List.mem_cons_self
  | tooFewRaises => intro e he; cases he; exact List.mem_cons_self

theorem flGetDimension_error {A : FL.IdArith d} {g : NxGraph (Vec d) ℝ} {cs : CoordSys d} {fs : ℝ} {minNb : Option ℤ} {pos : Vec d} {e : Err}
    (h : FL.GetDimension A g cs fs 3 minNb pos (.error e)) : ∃ n, g.hasEdge pos n ∧ FL.Connecting A.rnd cs n pos (.error e) := by
  obtain ⟨has, hh, hr⟩ := h
  obtain ⟨h1, -⟩ := getDimensionLoop_spec has 3 (3 : ℤ).toNat 1 (by omega) (by norm_num) le_rfl (by intro j h1 h2; omega)
  obtain ⟨j, j1, j2, hj, -⟩ := h1 e hr.symm
  have h := hh j
  rw [hj] at h
  cases h with
  | unknown h hv =>
    exfalso
    have : j = 1 ∨ j = 2 ∨ j = 3 := by omega
    rcases this with rfl | rfl | rfl <;> simp [FL.exactValue] at hv
  | raises _ _ hdr hF hdl =>
    obtain ⟨t, ht, hv⟩ := forall₂_mem_right hF (flDecideLoop_error hdl e rfl)
    generalize ho : (Except.error e : Except Err ℝ) = o at hv
    cases hv with
    | ok => cases ho
    | @raises n _ hn hc =>
      cases ho
      have h1 := (Finset.mem_powersetCard.1 ((drawing_spec hdr).2.1 t ht)).1 hn
      rw [List.mem_toFinset] at h1
      exact ⟨n, mem_neighbors.1 h1, hc⟩

/-! ## The average -/

theorem flAverage_error {cs : CoordSys d} {ps : List (Vec d)} {e : Err} (h : FL.Average rnd cs ps (.error e)) (hne : ps ≠ []) : ∃ o ∈ ps, ∃ p ∈ ps, FL.Connecting rnd cs o p (.error e) := by
  cases h with
  | empty => exact absurd rfl hne
  | raises _ hp hc => exact ⟨_, List.mem_cons_self, _, hp, hc⟩

/-! ## The clusters -/

/-- The clusters are a partition of the positions. -/
theorem flClusters_partition {dist : Vec d → Vec d → ℝ} (fs : ℝ) {positions pu : List (Vec d)} (hu : IsUniqueList positions pu) :
    (∀ x ∈ positions, ∃! i : Fin (FL.createClusters dist fs pu).length, x ∈ ((FL.createClusters dist fs pu).get i).nodes) ∧
    ∀ c ∈ FL.createClusters dist fs pu, c.nodes ≠ [] ∧ c.nodes.Nodup ∧ ∀ x ∈ c.nodes, x ∈ positions := by
  have hg := goodGraph_fl (dist := dist) (fs := fs) hu.1
  set G : NxGraph (Vec d) ℝ := ⟨pu, FL.clusterEdges dist fs pu⟩ with hG
  obtain ⟨h1, h2, h3⟩ := components_spec hg
  have hpw : (FL.createClusters dist fs pu).Pairwise fun c c' => ∀ x ∈ c.nodes, x ∉ c'.nodes := by
    unfold FL.createClusters
    simp only
    rw [List.pairwise_map]
    refine h3.imp fun {a b} h x hx hx' => ?_
    exact h x (mem_subgraph.1 hx).2 (mem_subgraph.1 hx').2
  constructor
  · intro x hx
    obtain ⟨s, hs, hxs⟩ := h2 x ((hu.2 x).2 hx)
    have hmem : G.subgraph (fun x => x ∈ s) ∈ FL.createClusters dist fs pu := List.mem_map.2 ⟨s, hs, rfl⟩
    have hxn : x ∈ (G.subgraph fun x => x ∈ s).nodes := mem_subgraph.2 ⟨(hu.2 x).2 hx, hxs⟩
    obtain ⟨i, hi⟩ := List.mem_iff_get.1 hmem
    have hxi : x ∈ ((FL.createClusters dist fs pu).get i).nodes := by rw [hi]; exact hxn
    refine ⟨i, hxi, fun j hj => ?_⟩
    by_contra hne
    rcases lt_or_gt_of_ne hne with h | h
    · exact List.pairwise_iff_get.1 hpw j i h x hj hxi
    · exact List.pairwise_iff_get.1 hpw i j h x hxi hj
  · intro c hc
    unfold FL.createClusters at hc
    simp only at hc
    obtain ⟨s, hs, rfl⟩ := List.mem_map.1 hc
    obtain ⟨v, hv, h⟩ := h1 s hs
    exact ⟨List.ne_nil_of_mem (mem_subgraph.2 ⟨hv, (h v).2 .refl⟩), (goodGraph_subgraph hg _).nodup, fun x hx => (hu.2 x).1 (mem_subgraph.1 hx).1⟩

theorem flClusterEdges_mem {dist : Vec d → Vec d → ℝ} {fs : ℝ} : ∀ {l : List (Vec d)} {x y : Vec d}, x ∈ l → y ∈ l → x ≠ y → dist x y ≤ fs → dist y x ≤ fs →
    ∃ e ∈ FL.clusterEdges dist fs l, joins e x y := by
  intro l
  induction l with
  | nil => intro x y hx; simp at hx
  | cons p l ih =>
    intro x y hx hy hne h1 h2
    rw [FL.clusterEdges]
    rcases List.mem_cons.1 hx with rfl | hx'
    · rcases List.mem_cons.1 hy with rfl | hy'
      · exact absurd rfl hne
      · exact ⟨_, List.mem_append_left _ (List.mem_map.2 ⟨y, List.mem_filter.2 ⟨hy', by simpa using h1⟩, rfl⟩), .inl ⟨rfl, rfl⟩⟩
    · rcases List.mem_cons.1 hy with rfl | hy'
      · exact ⟨_, List.mem_append_left _ (List.mem_map.2 ⟨x, List.mem_filter.2 ⟨hx', by simpa using h2⟩, rfl⟩), .inr ⟨rfl, rfl⟩⟩
      · obtain ⟨e, he, hj⟩ := ih hx' hy' hne h1 h2
        exact ⟨e, List.mem_append_right _ he, hj⟩

end NF
