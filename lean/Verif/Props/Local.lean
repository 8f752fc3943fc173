import Verif.Props.Identify
import Verif.Props.Chance
import Verif.Spec.Local
import Verif.Lemmas.Live

/-!
# C101: the identification is local, and more positions only merge its results
-/

noncomputable section
open Classical

namespace NF
open Spec NxGraph
variable {d : ℕ}

theorem clusterEdges_filter (cs : CoordSys d) (fs : ℝ) (p : Vec d → Bool) (l : List (Vec d)) :
    clusterEdges cs fs (l.filter p) = (clusterEdges cs fs l).filter fun e => p e.1 && p e.2.1 := by
  induction l with
  | nil => rfl
  | cons q l ih =>
    rw [clusterEdges, List.filter_append, ← ih]
    by_cases hp : p q = true
    · rw [List.filter_cons_of_pos (by simpa using hp), clusterEdges]
      congr 1
      rw [List.filter_map, List.filter_filter, List.filter_filter]
      congr 1
      refine List.filter_congr fun x _ => ?_
      simp only [Function.comp, hp, Bool.true_and]
      exact Bool.and_comm _ _
    · rw [List.filter_cons_of_neg (by simpa using hp)]
      have : ((l.filter fun nbr => decide (cs.distance q nbr ≤ fs)).map fun nbr => (q, nbr, cs.distance q nbr)).filter (fun e => p e.1 && p e.2.1) = [] := by
        rw [List.filter_eq_nil_iff]
        intro e he
        obtain ⟨x, -, rfl⟩ := List.mem_map.1 he
        simp [hp]
      rw [this, List.nil_append]

theorem createGraph_filter (cs : CoordSys d) (fs : ℝ) (p : Vec d → Bool) (l : List (Vec d)) : createGraph cs fs (l.filter p) = (createGraph cs fs l).subgraph fun x => p x = true := by
  unfold createGraph subgraph
  rw [clusterEdges_filter]
  congr 1
  · exact List.filter_congr fun x _ => by simp
  · exact List.filter_congr fun x _ => by simp

theorem mem_createClusters_iff {cs : CoordSys d} {fs : ℝ} {l : List (Vec d)} (hl : l.Nodup) {c : NxGraph (Vec d) ℝ} :
    c ∈ createClusters cs fs l ↔ ∃ v ∈ l, c = (createGraph cs fs l).subgraph fun x => Spec.Reach (createGraph cs fs l) v x := by
  constructor
  · intro hc
    obtain ⟨v, hv, s, rfl, hs, -⟩ := mem_createClusters hl hc
    refine ⟨v, hv, ?_⟩
    congr 1
    funext x
    exact propext (hs x)
  · rintro ⟨v, hv, rfl⟩
    have hg := goodGraph_createGraph (cs := cs) (fs := fs) hl
    obtain ⟨h1, h2, -⟩ := components_spec hg
    obtain ⟨s, hs, hvs⟩ := h2 v hv
    obtain ⟨w, hw, h⟩ := h1 s hs
    refine List.mem_map.2 ⟨s, hs, ?_⟩
    congr 1
    funext x
    have hwv := (h v).1 hvs
    exact propext ((h x).trans ⟨fun hx => (reach_symm hwv).trans hx, fun hx => hwv.trans hx⟩)

theorem createClusters_disjoint {cs : CoordSys d} {fs : ℝ} {l : List (Vec d)} (hl : l.Nodup) {c c' : NxGraph (Vec d) ℝ} (hc : c ∈ createClusters cs fs l) (hc' : c' ∈ createClusters cs fs l)
    {x : Vec d} (hx : x ∈ c.nodes) (hx' : x ∈ c'.nodes) : c = c' := by
  have hu : IsUniqueList l l := ⟨hl, fun _ => Iff.rfl⟩
  obtain ⟨i, rfl⟩ := List.mem_iff_get.1 hc
  obtain ⟨j, rfl⟩ := List.mem_iff_get.1 hc'
  rw [((C51_clusters_partition cs fs hu).1 x (((C51_clusters_partition cs fs hu).2 _ hc).2.2 x hx)).unique hx hx']

theorem createClusters_nodup {cs : CoordSys d} {fs : ℝ} {l : List (Vec d)} (hl : l.Nodup) : (createClusters cs fs l).Nodup := by
  have hu : IsUniqueList l l := ⟨hl, fun _ => Iff.rfl⟩
  rw [List.nodup_iff_injective_get]
  intro i j hij
  obtain ⟨h1, h2⟩ := C51_clusters_partition cs fs hu
  obtain ⟨hne, -, hsub⟩ := h2 _ (List.get_mem _ i)
  obtain ⟨x, hx⟩ := List.exists_mem_of_ne_nil _ hne
  exact (h1 x (hsub x hx)).unique hx (hij ▸ hx)

theorem subgraph_subgraph {V A : Type} (g : NxGraph V A) {s t : V → Prop} (h : ∀ x, t x → s x) : (g.subgraph s).subgraph t = g.subgraph t := by
  unfold subgraph
  simp only [List.filter_filter]
  congr 1
  · exact List.filter_congr fun x _ => by by_cases hx : t x <;> simp [hx, h x]
  · refine List.filter_congr fun e _ => ?_
    by_cases h1 : t e.1
    · by_cases h2 : t e.2.1
      · simp [h1, h2, h _ h1, h _ h2]
      · simp [h2]
    · simp [h1]

/-- The clusters within a part of the positions from which no edge leads away are clusters of all the positions. -/
theorem createClusters_filter {cs : CoordSys d} (hb : ProperBox cs) {fs : ℝ} {l : List (Vec d)} (hl : l.Nodup) {A : Vec d → Prop} {p : Vec d → Bool} (hp : ∀ x, p x = true ↔ A x) (hA : ∀ x ∈ l, ∀ y ∈ l, A x → cs.distance x y ≤ fs → A y)
    {c : NxGraph (Vec d) ℝ} : c ∈ createClusters cs fs (l.filter p) ↔ c ∈ createClusters cs fs l ∧ ∀ x ∈ c.nodes, A x := by
  have hclosed : ∀ v x, A v → Spec.Reach (createGraph cs fs l) v x → A x := by
    intro v x hv h
    induction h with
    | refl => exact hv
    | tail _ hbc ih =>
      obtain ⟨h1, h2, -, h4⟩ := (hasEdge_createGraph hb hl).1 hbc
      exact hA _ h1 _ h2 ih h4
  have hreach : ∀ v x, A v → (Spec.Reach ((createGraph cs fs l).subgraph A) v x ↔ Spec.Reach (createGraph cs fs l) v x) := by
    intro v x hv
    constructor
    · exact fun h => rtg_mono (fun a b hab => (hasEdge_subgraph.1 hab).1) h
    · intro h
      induction h with
      | refl => exact .refl
      | tail h hbc ih => exact ih.tail (hasEdge_subgraph.2 ⟨hbc, hclosed _ _ hv h, hclosed _ _ hv (h.tail hbc)⟩)
  have heq : ∀ v, A v → ((createGraph cs fs l).subgraph A).subgraph (fun x => Spec.Reach ((createGraph cs fs l).subgraph A) v x) = (createGraph cs fs l).subgraph fun x => Spec.Reach (createGraph cs fs l) v x := by
    intro v hv
    rw [show (fun x => Spec.Reach ((createGraph cs fs l).subgraph A) v x) = fun x => Spec.Reach (createGraph cs fs l) v x from funext fun x => propext (hreach v x hv)]
    refine subgraph_subgraph _ fun x hx => hclosed v x hv hx
  rw [mem_createClusters_iff (hl.filter _), mem_createClusters_iff hl, createGraph_filter]
  have hpA : (fun x => p x = true) = A := funext fun x => propext (hp x)
  rw [hpA]
  constructor
  · rintro ⟨v, hv, rfl⟩
    obtain ⟨hvl, hvA⟩ := List.mem_filter.1 hv
    have hvA : A v := (hp v).1 hvA
    rw [heq v hvA]
    exact ⟨⟨v, hvl, rfl⟩, fun x hx => hclosed v x hvA (mem_subgraph.1 hx).2⟩
  · rintro ⟨⟨v, hvl, rfl⟩, h⟩
    have hvA : A v := h v (mem_subgraph.2 ⟨hvl, .refl⟩)
    exact ⟨v, List.mem_filter.2 ⟨hvl, (hp v).2 hvA⟩, (heq v hvA).symm⟩

theorem createClusters_split {cs : CoordSys d} (hb : ProperBox cs) {fs : ℝ} {l : List (Vec d)} (hl : l.Nodup) {A : Vec d → Prop} {p : Vec d → Bool} (hp : ∀ x, p x = true ↔ A x) (hA : ∀ x ∈ l, ∀ y ∈ l, A x → cs.distance x y ≤ fs → A y) {A' : Vec d → Prop} {p' : Vec d → Bool} (hp' : ∀ x, p' x = true ↔ A' x) (hA'A : ∀ x, A' x ↔ ¬ A x) :
    (createClusters cs fs l).Perm (createClusters cs fs (l.filter p) ++ createClusters cs fs (l.filter p')) := by
  have hmet := C03_distance_metric cs hb
  have hA' : ∀ x ∈ l, ∀ y ∈ l, A' x → cs.distance x y ≤ fs → A' y := by
    intro x hx y hy hxA hxy
    rw [hA'A] at hxA ⊢
    intro hyA
    rw [(hmet x y y).2.1] at hxy
    exact hxA (hA y hy x hx hyA hxy)
  have hu : IsUniqueList l l := ⟨hl, fun _ => Iff.rfl⟩
  refine (List.perm_ext_iff_of_nodup (createClusters_nodup hl) ?_).2 fun c => ?_
  · rw [List.nodup_append]
    refine ⟨createClusters_nodup (hl.filter _), createClusters_nodup (hl.filter _), fun c hc c' hc' => ?_⟩
    rintro rfl
    obtain ⟨h1, h2⟩ := (createClusters_filter hb hl hp hA).1 hc
    obtain ⟨-, h3⟩ := (createClusters_filter hb hl hp' hA').1 hc'
    obtain ⟨x, hx⟩ := List.exists_mem_of_ne_nil _ ((C51_clusters_partition cs fs hu).2 c h1).1
    exact (hA'A x).1 (h3 x hx) (h2 x hx)
  · rw [List.mem_append, createClusters_filter hb hl hp hA, createClusters_filter hb hl hp' hA', ← and_or_left]
    refine ⟨fun hc => ⟨hc, ?_⟩, fun h => h.1⟩
    obtain ⟨v, hv, -, -, -, h⟩ := mem_createClusters hl hc
    have hclosed : ∀ {B : Vec d → Prop}, (∀ x ∈ l, ∀ y ∈ l, B x → cs.distance x y ≤ fs → B y) → B v → ∀ x, Spec.Reach (createGraph cs fs l) v x → B x := by
      intro B hB hv x h
      induction h with
      | refl => exact hv
      | tail _ hbc ih =>
        obtain ⟨h1, h2, -, h4⟩ := (hasEdge_createGraph hb hl).1 hbc
        exact hB _ h1 _ h2 ih h4
    by_cases hvA : A v
    · exact .inl fun x hx => hclosed hA hvA x ((h x).1 hx)
    · exact .inr fun x hx => hclosed hA' ((hA'A v).2 hvA) x ((h x).1 hx)

theorem forall₂_append_split {α β : Type} {R : α → β → Prop} {a b : List α} {l : List β} (h : List.Forall₂ R (a ++ b) l) : ∃ l1 l2, List.Forall₂ R a l1 ∧ List.Forall₂ R b l2 ∧ l = l1 ++ l2 := by
  induction a generalizing l with
  | nil => exact ⟨[], l, .nil, h, rfl⟩
  | cons x a ih =>
    cases h with
    | cons hx ht =>
      obtain ⟨l1, l2, h1, h2, rfl⟩ := ih ht
      exact ⟨_ :: l1, l2, .cons hx h1, h2, rfl⟩

theorem runFromPositions_of {positions : List (Vec d)} {cs : CoordSys d} {fs : ℝ} {m : String} {pu : List (Vec d)} {rs : List (IdResult d)} (hu : IsUniqueList positions pu)
    (h : List.Forall₂ (fun g r => IdentifyCluster cs fs m g (.ok r)) (createClusters cs fs pu) rs) : RunFromPositions positions cs fs m (.ok ⟨cs, fs, rs⟩) := by
  refine .ok (outcomes := rs.map .ok) hu ?_ (collect_eq_ok.2 rfl)
  rw [List.forall₂_map_right_iff]
  exact h

/-- **C101**, positions in two parts, further than the feature size from each other.  A result of the identification of all the positions consists of a result for the one part and a result for the other part. -/
theorem C101_split {cs : CoordSys d} (hb : ProperBox cs) {fs : ℝ} (hfs : 0 ≤ fs) {A B : List (Vec d)} (hfar : FarApart cs fs A B) {method : String} {out : IdContainer d}
    (h : RunFromPositions (A ++ B) cs fs method (.ok out)) :
    ∃ outA outB, RunFromPositions A cs fs method (.ok outA) ∧ RunFromPositions B cs fs method (.ok outB) ∧ out.results.Perm (outA.results ++ outB.results) := by
  have hmet := C03_distance_metric cs hb
  obtain ⟨-, -, pu, hu, hall⟩ := runFromPositions_ok h
  have hA : ∀ x ∈ pu, ∀ y ∈ pu, x ∈ A → cs.distance x y ≤ fs → y ∈ A := by
    intro x _ y hy hx hxy
    rcases List.mem_append.1 ((hu.2 y).1 hy) with h | h
    · exact h
    · exact absurd hxy (not_le.2 (hfar x hx y h))
  have hdis : ∀ x ∈ B, x ∉ A := by
    intro x hx hx'
    have h1 := hfar x hx' x hx
    rw [((hmet x x x).2.2.2).2 (samePoint_refl cs x)] at h1
    linarith
  obtain ⟨rs, hrs, hperm⟩ := List.perm_comp_forall₂ (createClusters_split (A' := fun x => x ∉ A) (p := fun x => decide (x ∈ A)) (p' := fun x => decide (x ∉ A)) hb hu.1 (fun _ => decide_eq_true_iff) hA (fun _ => decide_eq_true_iff) fun _ => Iff.rfl).symm hall
  obtain ⟨r1, r2, h1, h2, rfl⟩ := forall₂_append_split hrs
  refine ⟨⟨cs, fs, r1⟩, ⟨cs, fs, r2⟩, runFromPositions_of ⟨hu.1.filter _, fun x => ?_⟩ h1, runFromPositions_of ⟨hu.1.filter _, fun x => ?_⟩ h2, hperm.symm⟩
  · simp only [List.mem_filter, decide_eq_true_eq, hu.2, List.mem_append]
    exact ⟨fun h => h.2, fun h => ⟨.inl h, h⟩⟩
  · simp only [List.mem_filter, decide_eq_true_eq, hu.2, List.mem_append]
    exact ⟨fun h => h.1.resolve_left h.2, fun h => ⟨.inr h, hdis x h⟩⟩

/-- **C101**, and any two results for the parts together are a result for all the positions. -/
theorem C101_join {cs : CoordSys d} (hb : ProperBox cs) {fs : ℝ} (hfs : 0 ≤ fs) {A B : List (Vec d)} (hfar : FarApart cs fs A B) {method : String} {outA outB : IdContainer d}
    (hA : RunFromPositions A cs fs method (.ok outA)) (hB : RunFromPositions B cs fs method (.ok outB)) :
    ∃ out, RunFromPositions (A ++ B) cs fs method (.ok out) ∧ out.results.Perm (outA.results ++ outB.results) := by
  have hmet := C03_distance_metric cs hb
  obtain ⟨-, -, pa, hpa, ha⟩ := runFromPositions_ok hA
  obtain ⟨-, -, pb, hpb, hb'⟩ := runFromPositions_ok hB
  have hdis : ∀ x ∈ B, x ∉ A := by
    intro x hx hx'
    have h1 := hfar x hx' x hx
    rw [((hmet x x x).2.2.2).2 (samePoint_refl cs x)] at h1
    linarith
  have hu : IsUniqueList (A ++ B) (pa ++ pb) := by
    refine ⟨List.nodup_append.2 ⟨hpa.1, hpb.1, ?_⟩, fun x => by simp [hpa.2, hpb.2]⟩
    rintro x hx _ hy rfl
    exact hdis x ((hpb.2 x).1 hy) ((hpa.2 x).1 hx)
  have hcl : ∀ x ∈ pa ++ pb, ∀ y ∈ pa ++ pb, x ∈ A → cs.distance x y ≤ fs → y ∈ A := by
    intro x _ y hy hx hxy
    rcases List.mem_append.1 ((hu.2 y).1 hy) with h | h
    · exact h
    · exact absurd hxy (not_le.2 (hfar x hx y h))
  have h1 : (pa ++ pb).filter (fun x => decide (x ∈ A)) = pa := by
    rw [List.filter_append, List.filter_eq_self.2 fun x hx => by simpa using (hpa.2 x).1 hx, List.filter_eq_nil_iff.2 fun x hx => by simpa using hdis x ((hpb.2 x).1 hx), List.append_nil]
  have h2 : (pa ++ pb).filter (fun x => decide (x ∉ A)) = pb := by
    rw [List.filter_append, List.filter_eq_nil_iff.2 fun x hx => by simpa using (hpa.2 x).1 hx, List.filter_eq_self.2 fun x hx => by simpa using hdis x ((hpb.2 x).1 hx), List.nil_append]
  have hsplit := createClusters_split (A' := fun x => x ∉ A) (p := fun x => decide (x ∈ A)) (p' := fun x => decide (x ∉ A)) hb hu.1 (fun _ => decide_eq_true_iff) hcl (fun _ => decide_eq_true_iff) fun _ => Iff.rfl
  rw [h1, h2] at hsplit
  obtain ⟨rs, hrs, hperm⟩ := List.perm_comp_forall₂ hsplit (List.rel_append ha hb')
  exact ⟨⟨cs, fs, rs⟩, runFromPositions_of hu hrs, hperm⟩

/-- **C101**.  Each of the results is what the identification of its positions alone can give. -/
theorem C101_alone {cs : CoordSys d} (hb : ProperBox cs) {fs : ℝ} {positions : List (Vec d)} {method : String} {out : IdContainer d}
    (h : RunFromPositions positions cs fs method (.ok out)) {r : IdResult d} (hr : r ∈ out.results) : RunFromPositions r.positions cs fs method (.ok ⟨cs, fs, [r]⟩) := by
  obtain ⟨-, -, pu, hu, hall⟩ := runFromPositions_ok h
  obtain ⟨g, hg, hgr⟩ : ∃ g ∈ createClusters cs fs pu, IdentifyCluster cs fs method g (.ok r) := by
    obtain ⟨i, rfl⟩ := List.mem_iff_get.1 hr
    have hlen := hall.length_eq
    exact ⟨(createClusters cs fs pu).get ⟨i, by omega⟩, List.get_mem _ _, hall.get (by omega) i.2⟩
  have hpos := (identifyCluster_positions hgr).1
  obtain ⟨hne, -, hsub⟩ := (C51_clusters_partition cs fs hu).2 g hg
  obtain ⟨v, hv, s, hgs, -, hreach⟩ := mem_createClusters hu.1 hg
  have hcl : ∀ x ∈ pu, ∀ y ∈ pu, x ∈ g.nodes → cs.distance x y ≤ fs → y ∈ g.nodes := by
    intro x hx y hy hxg hxy
    by_cases hne : x = y
    · exact hne ▸ hxg
    · exact (hreach y).2 (((hreach x).1 hxg).tail ((hasEdge_createGraph hb hu.1).2 ⟨hx, hy, hne, hxy⟩))
  have hone : createClusters cs fs (pu.filter fun x => decide (x ∈ g.nodes)) = [g] := by
    rw [← List.perm_singleton]
    refine (List.perm_ext_iff_of_nodup (createClusters_nodup (hu.1.filter _)) (List.nodup_singleton _)).2 fun c => ?_
    rw [createClusters_filter (p := fun x => decide (x ∈ g.nodes)) hb hu.1 (fun _ => decide_eq_true_iff) hcl, List.mem_singleton]
    constructor
    · rintro ⟨h1, h2⟩
      obtain ⟨x, hx⟩ := List.exists_mem_of_ne_nil _ ((C51_clusters_partition cs fs hu).2 c h1).1
      exact createClusters_disjoint hu.1 h1 hg hx (h2 x hx)
    · rintro rfl
      exact ⟨hg, fun x hx => hx⟩
  refine runFromPositions_of (pu := pu.filter fun x => decide (x ∈ g.nodes)) ⟨hu.1.filter _, fun x => ?_⟩ (by rw [hone]; exact .cons hgr .nil)
  rw [hpos]
  simp only [List.mem_filter, decide_eq_true_eq]
  exact ⟨fun h => h.2, fun h => ⟨(hu.2 x).2 (hsub x h), h⟩⟩

/-- **C101**.  With more positions, or a larger feature size, results are only merged: each earlier result is part of a later one. -/
theorem C101_merge {cs : CoordSys d} (hb : ProperBox cs) {fs fs' : ℝ} (hfs : 0 < fs) (hle : fs ≤ fs') {positions positions' : List (Vec d)} (hsub : ∀ x ∈ positions, x ∈ positions')
    {method method' : String} {out out' : IdContainer d} (h : RunFromPositions positions cs fs method (.ok out)) (h' : RunFromPositions positions' cs fs' method' (.ok out')) :
    ∀ r ∈ out.results, ∃ r' ∈ out'.results, ∀ x ∈ r.positions, x ∈ r'.positions := by
  intro r hr
  have hI := C65_results hb hfs h
  have hI' := C65_results hb (hfs.trans_le hle) h'
  obtain ⟨hne, -, hin⟩ := hI.given r hr
  obtain ⟨x, hx⟩ := List.exists_mem_of_ne_nil _ hne
  obtain ⟨i, hi, hiu⟩ := hI'.once x (hsub x (hin x hx))
  refine ⟨_, List.get_mem out'.results i, fun y hy => ?_⟩
  have hc := (hI.chains x (hin x hx) y (hin y hy)).1 ⟨r, hr, hx, hy⟩
  have hc' : Chain cs fs' positions' x y := rtg_mono (fun a b hab => ⟨hsub a hab.1, hsub b hab.2.1, hab.2.2.trans hle⟩) hc
  obtain ⟨r', hr', h1, h2⟩ := (hI'.chains x (hsub x (hin x hx)) y (hsub y (hin y hy))).2 hc'
  obtain ⟨j, rfl⟩ := List.mem_iff_get.1 hr'
  rw [← hiu j h1]
  exact h2

/-- **C101**, for a search that goes on: what was identified in an intermediate state is only extended and merged. -/
theorem C101_search {p : CtlParams d} (hd : DistinctInput p) (hb : ProperBox p.coord) (hfs : 0 < p.featureSize) {c c' : Ctl d} (hc : ReachAny p c) (hcc' : ReachFrom p c c')
    {method method' : String} {out out' : IdContainer d} (h : IdentifyRun (.container c.state.result) method none (.ok out)) (h' : IdentifyRun (.container c'.state.result) method' none (.ok out')) :
    ∀ r ∈ out.results, ∃ r' ∈ out'.results, ∀ x ∈ r.positions, x ∈ r'.positions := by
  have hany : ReachAny p c' ∧ ∀ r ∈ c.state.result.nodes.values, r ∈ c'.state.result.nodes.values := by
    clear h h' out out'
    induction hcc' with
    | refl => exact ⟨hc, fun _ h => h⟩
    | tail _ hs ih => exact ⟨ih.1.tail (.step hs), fun r hr => step_nodes hs r (ih.2 r hr)⟩
  refine C101_merge hb hfs le_rfl (fun x hx => ?_) ((C65_default_feature_size hd hc).1 h) ((C65_default_feature_size hd hany.1).1 h')
  obtain ⟨n, hn, rfl⟩ := List.mem_map.1 hx
  exact List.mem_map.2 ⟨n, hany.2 n hn, rfl⟩

/-! ### Examples -/

namespace C101Demo
open C98Demo (line P dist_P line_proper P_inj)

theorem far : FarApart line 1.5 [P 1, P 2] [P 8, P 9] := by
  intro x hx y hy
  simp only [List.mem_cons, List.not_mem_nil, or_false] at hx hy
  rcases hx with rfl | rfl <;> rcases hy with rfl | rfl <;> rw [dist_P] <;> norm_num [lt_abs]

/-- Two pairs of positions, identified together and separately. -/
example : FarApart line 1.5 [P 1, P 2] [P 8, P 9] ∧ ∃ out outA outB, RunFromPositions ([P 1, P 2] ++ [P 8, P 9]) line 1.5 "ballistic" (.ok out) ∧ RunFromPositions [P 1, P 2] line 1.5 "ballistic" (.ok outA) ∧
    RunFromPositions [P 8, P 9] line 1.5 "ballistic" (.ok outB) ∧ out.results.Perm (outA.results ++ outB.results) ∧ (∀ r ∈ out.results, RunFromPositions r.positions line 1.5 "ballistic" (.ok ⟨line, 1.5, [r]⟩)) ∧
    (∀ r ∈ outA.results, ∃ r' ∈ out.results, ∀ x ∈ r.positions, x ∈ r'.positions) ∧ outA.results ≠ [] := by
  obtain ⟨⟨r, hr⟩, h2⟩ := C65_never_raises line_proper (fs := 1.5) (by norm_num) ([P 1, P 2] ++ [P 8, P 9]) (method := "ballistic") (.inl rfl)
  obtain ⟨out, rfl, -⟩ := h2 r hr
  obtain ⟨outA, outB, hA, hB, hp⟩ := C101_split line_proper (by norm_num) far hr
  refine ⟨far, out, outA, outB, hr, hA, hB, hp, fun r h => C101_alone line_proper hr h, C101_merge line_proper (by norm_num) le_rfl (by simp) hA hr, ?_⟩
  obtain ⟨i, -⟩ := (C65_results line_proper (by norm_num) hA).once (P 1) (by simp)
  exact List.ne_nil_of_length_pos (i.1.zero_le.trans_lt i.2)

/-- C101 does not hold for parts which come within the feature size of each other: the two positions give one result together, but two separately. -/
theorem _root_.NF.C101_near_merge {out outA outB : IdContainer 1} (h : RunFromPositions ([P 1] ++ [P 2]) line 1.5 "ballistic" (.ok out)) (hA : RunFromPositions [P 1] line 1.5 "ballistic" (.ok outA))
    (_hB : RunFromPositions [P 2] line 1.5 "ballistic" (.ok outB)) : ¬ out.results.Perm (outA.results ++ outB.results) := by
  intro hp
  have hI := C65_results line_proper (by norm_num) h
  obtain ⟨i, hi, -⟩ := (C65_results line_proper (by norm_num) hA).once (P 1) (by simp)
  have hIA := (C65_results line_proper (by norm_num) hA).given _ (List.get_mem outA.results i)
  have hr : outA.results.get i ∈ out.results := hp.symm.subset (List.mem_append_left _ (List.get_mem _ i))
  obtain ⟨r, hr', h1, h2⟩ := (hI.chains (P 1) (by simp) (P 2) (by simp)).2 (.single ⟨by simp, by simp, by rw [dist_P]; norm_num [abs_le]⟩)
  obtain ⟨j, hj⟩ := List.mem_iff_get.1 hr
  obtain ⟨k, rfl⟩ := List.mem_iff_get.1 hr'
  have hjk : k = j := (hI.once (P 1) (by simp)).unique h1 (by rw [hj]; exact hi)
  subst hjk
  rw [hj] at h2
  have := hIA.2.2 _ h2
  exact absurd (P_inj (List.mem_singleton.1 this)) (by norm_num)

end C101Demo

end NF
