import Verif.Spec.Identify
import Verif.Props.Shape
import Verif.Props.Dimension
import Verif.Props.ShortestPath
import Verif.Props.DominatingSet
import Verif.Props.EndToEnd
import Verif.Lemmas.Demo

/-!
# Properties of `identify.run` and `identify.run_from_positions` (C57, C65)

`IdentifiedFrom` and `LineThrough` are in `Spec/Identify.lean`.
-/

noncomputable section
open Classical

namespace NF
open Spec NxGraph CoordSys
variable {V A : Type} {d : ℕ}

/-! ## Lemmas -/

theorem hasEdge_strip {g : NxGraph V A} {x y : V} : g.strip.hasEdge x y ↔ g.hasEdge x y := by
  unfold strip hasEdge joins
  simp

theorem goodGraph_strip {g : NxGraph V A} (hg : GoodGraph g) : GoodGraph g.strip where
  nodup := hg.nodup
  left := fun e he => by obtain ⟨f, hf, rfl⟩ := List.mem_map.1 he; exact hg.left f hf
  right := fun e he => by obtain ⟨f, hf, rfl⟩ := List.mem_map.1 he; exact hg.right f hf
  noLoop := fun e he => by obtain ⟨f, hf, rfl⟩ := List.mem_map.1 he; exact hg.noLoop f hf
  single := by
    unfold strip
    simp only
    rw [List.pairwise_map]
    exact hg.single

theorem nbrCount_strip {g : NxGraph V A} (x : V) : nbrCount g.strip x = nbrCount g x := by
  unfold nbrCount
  simp only [hasEdge_strip]
  rfl

theorem degreeCount_spec {g : NxGraph V A} (hg : GoodGraph g) (k : ℤ) (n : ℕ) :
    (k, n) ∈ createDegreeCount g ↔ ∃ j : ℕ, k = j ∧ j ≠ 2 ∧ 0 < n ∧ n = (g.nodes.filter fun x => decide (nbrCount g x = j)).length := by
  rw [mem_degreeCount]
  have hcount : ∀ j : ℕ, (g.nodes.map fun x => (g.degree x : ℤ)).count (j : ℤ) = (g.nodes.filter fun x => decide (nbrCount g x = j)).length := by
    intro j
    rw [List.count_eq_countP, List.countP_map, List.countP_eq_length_filter]
    congr 1
    apply List.filter_congr
    intro x _
    rw [nbrCount_eq_degree hg]
    rw [Bool.eq_iff_iff]
    simp
  constructor
  · rintro ⟨h1, h2, y, hy, rfl⟩
    refine ⟨g.degree y, rfl, by exact_mod_cast h1, ?_, h2.trans (hcount _)⟩
    rw [h2, List.count_pos_iff]
    exact List.mem_map.2 ⟨y, hy, rfl⟩
  · rintro ⟨j, rfl, h1, h2, h3⟩
    refine ⟨by exact_mod_cast h1, h3.trans (hcount _).symm, ?_⟩
    rw [h3, ← hcount, List.count_pos_iff] at h2
    simpa using h2

theorem collect_eq_ok {R : Type} {os : List (Except Err R)} {rs : List R} : collect os = .ok rs ↔ os = rs.map .ok := by
  induction os generalizing rs with
  | nil => simp [collect, eq_comm]
  | cons o os ih =>
    cases o with
    | error e => cases rs <;> simp [collect]
    | ok r =>
      simp only [collect]
      cases hc : collect os with
      | error e =>
        simp only [reduceCtorEq, false_iff]
        intro h
        cases rs with
        | nil => simp at h
        | cons r' rs =>
          simp only [List.map_cons, List.cons.injEq] at h
          rw [ih.2 h.2] at hc
          cases hc
      | ok l =>
        have := ih.1 hc
        subst this
        cases rs with
        | nil => simp
        | cons r' rs =>
          simp only [Except.ok.injEq, List.cons.injEq, List.map_cons]
          constructor
          · rintro ⟨rfl, rfl⟩; exact ⟨rfl, rfl⟩
          · rintro ⟨h1, h2⟩
            refine ⟨h1, ?_⟩
            have hinj : Function.Injective (Except.ok : R → Except Err R) := fun a b h => by cases h; rfl
            exact hinj.list_map h2

theorem collect_error {R : Type} {os : List (Except Err R)} {e : Err} (h : collect os = .error e) : .error e ∈ os := by
  induction os with
  | nil => simp [collect] at h
  | cons o os ih =>
    cases o with
    | error e' => simp only [collect, Except.error.injEq] at h; subst h; exact List.mem_cons_self
    | ok r =>
      simp only [collect] at h
      cases hc : collect os with
      | error e' => rw [hc] at h; simp only [Except.error.injEq] at h; subst h; exact List.mem_cons_of_mem _ (ih hc)
      | ok l => rw [hc] at h; simp at h

theorem average_ok (cs : CoordSys d) {ps : List (Vec d)} (h : ps ≠ []) : ∃ p, cs.average ps = .ok p := by
  cases ps with
  | nil => exact absurd rfl h
  | cons o l => simp only [CoordSys.average]; split_ifs <;> exact ⟨_, rfl⟩

/-- A cluster of dimension one contains two different points. -/
theorem spread_of_dim_one {cs : CoordSys d} (hb : ProperBox cs) {fs : ℝ} (hfs : 0 < fs) {positions posUnique : List (Vec d)} (hu : IsUniqueList positions posUnique)
    {c : NxGraph (Vec d) ℝ} (hc : c ∈ createClusters cs fs posUnique) (h : CalculateDimension c cs fs 3 (some 5) (some 10) (.ok (some 1))) :
    ∃ a ∈ c.nodes, ∃ b ∈ c.nodes, 0 < cs.distance a b := by
  obtain ⟨hg, -, -, -⟩ := C54_cluster_graph hb fs hu hc
  have hne := ((C51_clusters_partition cs fs hu).2 c hc).1
  obtain ⟨ev, dims, -, hev, hall, -, -, -, h1, -, -, h1d⟩ := (C55_majority hg hne (by norm_num) (by norm_num) h).1 1 rfl
  have hd : 1 ≤ d := by exact_mod_cast h1d
  obtain ⟨p, hp, hget⟩ : ∃ p ∈ ev, GetDimension c cs fs 3 (some 10) p (.ok 1) := by
    clear hev h
    induction hall with
    | nil => simp at h1
    | @cons p dim ps dims hpd _ ih =>
      rcases List.mem_cons.1 h1 with h | h
      · subst h; exact ⟨p, List.mem_cons_self, hpd⟩
      · obtain ⟨q, hq, hq'⟩ := ih h; exact ⟨q, List.mem_cons_of_mem _ hq, hq'⟩
  have h2 := (C69_point_or_more hb (by norm_num) hd hget).1
  have h3 : ∃ n, c.hasEdge p n ∧ fs / 4 < cs.distance n p := by
    by_contra hno
    push Not at hno
    exact absurd (h2 hno) (by norm_num)
  obtain ⟨n, hn, hlt⟩ := h3
  exact ⟨n, (goodGraph_edge hg hn).2.1, p, (goodGraph_edge hg hn).1, by linarith⟩

/-- The result of any method that returns is a line through the positions of the cluster. -/
theorem evaluateLine_ok {cs : CoordSys d} (hb : ProperBox cs) {fs : ℝ} (hfs : 0 < fs) {positions posUnique : List (Vec d)} (hu : IsUniqueList positions posUnique)
    {c : NxGraph (Vec d) ℝ} (hc : c ∈ createClusters cs fs posUnique) {m : String} {l : NodalLine (Vec d)} (h : EvaluateLine c cs fs m (.ok l)) :
    LineThrough cs fs c.nodes l := by
  obtain ⟨hg, hconn, hedge, -⟩ := C54_cluster_graph hb fs hu hc
  have hne := ((C51_clusters_partition cs fs hu).2 c hc).1
  have key : ∀ {A : Type} (rg : NxGraph (Vec d) A), GoodGraph rg → SubgraphOf rg c → Dominates rg c → LineThrough cs fs c.nodes ⟨rg.strip, createDegreeCount rg⟩ := by
    intro A rg h1 h2 h3
    exact {
      simple := goodGraph_strip h1
      nodes := h2.1
      edges := fun x y hxy => ((hedge x y).1 (h2.2 x y (hasEdge_strip.1 hxy))).2.2.2
      covers := fun x hx => by
        rcases h3 x hx with h | ⟨y, hy, hxy⟩
        · exact .inl h
        · exact .inr ⟨y, hy, ((hedge x y).1 hxy).2.2.2⟩
      degrees := fun k n => by
        simp only [nbrCount_strip]
        exact degreeCount_spec h1 k n }
  generalize hr : (Except.ok l : Except Err (NodalLine (Vec d))) = r at h
  cases h with
  | invalid => cases hr
  | ballisticError => cases hr
  | shortestError => cases hr
  | ballistic hrun =>
    cases hr
    obtain ⟨h1, h2, h3⟩ := C58_ballistic_dominating hg hrun
    exact key _ h1 h2 h3
  | shortest hrun =>
    cases hr
    obtain ⟨h1, h2, -, -, h3⟩ := (C61_shortest_path hg hconn hne fs).2.2 _ _ hrun
    exact key _ h1 h2 h3
  | @dominating r' hrun =>
    rcases C62_dominating_set hb hfs hu hc hrun with rfl | rfl | ⟨v, -, rg, rfl, h1, h2, -, h3, h4⟩
    · cases hr
    · cases hr
    · cases hr
      refine key rg ⟨?_, ?_, ?_, ?_, ?_⟩ h3 h4
      · rw [h1]; simp
      · rw [h2]; simp
      · rw [h2]; simp
      · rw [h2]; simp
      · rw [h2]; simp

theorem identifyCluster_positions {cs : CoordSys d} {fs : ℝ} {m : String} {g : NxGraph (Vec d) ℝ} {r : IdResult d} (h : IdentifyCluster cs fs m g (.ok r)) :
    r.positions = g.nodes ∧ CalculateDimension g cs fs 3 (some 5) (some 10) (.ok r.dimension) ∧ EvaluateCluster g cs fs m r.dimension (.ok r.shape) := by
  generalize hr : (Except.ok r : Except Err (IdResult d)) = o at h
  cases h with
  | dimError => cases hr
  | shapeError => cases hr
  | ok h1 h2 => cases hr; exact ⟨rfl, h1, h2⟩

theorem runFromPositions_ok {positions : List (Vec d)} {cs : CoordSys d} {fs : ℝ} {m : String} {out : IdContainer d} (h : RunFromPositions positions cs fs m (.ok out)) :
    out.coord = cs ∧ out.featureSize = fs ∧ ∃ posUnique, IsUniqueList positions posUnique ∧
      List.Forall₂ (fun g r => IdentifyCluster cs fs m g (.ok r)) (createClusters cs fs posUnique) out.results := by
  generalize hr : (Except.ok out : Except Err (IdContainer d)) = o at h
  cases h with
  | error => cases hr
  | @ok pu os rs hu hall hcol =>
    cases hr
    rw [collect_eq_ok] at hcol
    subst hcol
    exact ⟨rfl, rfl, pu, hu, by rwa [List.forall₂_map_right_iff] at hall⟩

theorem forall₂_mem_right {A B : Type} {R : A → B → Prop} {l : List A} {l' : List B} (h : List.Forall₂ R l l') {b : B} (hb : b ∈ l') : ∃ a ∈ l, R a b := by
  induction h with
  | nil => simp at hb
  | @cons x y l l' hxy _ ih =>
    rcases List.mem_cons.1 hb with rfl | h
    · exact ⟨x, List.mem_cons_self, hxy⟩
    · obtain ⟨a, ha, hr⟩ := ih h; exact ⟨a, List.mem_cons_of_mem _ ha, hr⟩

theorem forall₂_mem_left {A B : Type} {R : A → B → Prop} {l : List A} {l' : List B} (h : List.Forall₂ R l l') {a : A} (ha : a ∈ l) : ∃ b ∈ l', R a b := by
  induction h with
  | nil => simp at ha
  | @cons x y l l' hxy _ ih =>
    rcases List.mem_cons.1 ha with rfl | h
    · exact ⟨y, List.mem_cons_self, hxy⟩
    · obtain ⟨b, hb, hr⟩ := ih h; exact ⟨b, List.mem_cons_of_mem _ hb, hr⟩

/-! ## C65 -/

/-- **C65.**  Whatever the random choices, the method and the order of the positions: a result of the identification describes the given positions, each once, by points and lines as specified. -/
theorem C65_results {cs : CoordSys d} (hb : ProperBox cs) {fs : ℝ} (hfs : 0 < fs) {positions : List (Vec d)} {method : String} {out : IdContainer d}
    (h : RunFromPositions positions cs fs method (.ok out)) : IdentifiedFrom positions cs fs out := by
  obtain ⟨h1, h2, pu, hu, hall⟩ := runFromPositions_ok h
  have hP := C51_clusters_partition cs fs hu
  have hpos : (createClusters cs fs pu).map (fun g => g.nodes) = out.results.map fun r => r.positions := by
    have : List.Forall₂ (fun (g : NxGraph (Vec d) ℝ) (r : IdResult d) => g.nodes = r.positions) (createClusters cs fs pu) out.results :=
      hall.imp fun g r hgr => (identifyCluster_positions hgr).1.symm
    generalize createClusters cs fs pu = l at this
    generalize out.results = l' at this
    clear hall hP
    induction this with
    | nil => rfl
    | cons hx _ ih => simp only [List.map_cons, hx, ih]
  have hlen := hall.length_eq
  have hget : ∀ (i : ℕ) (hi : i < (createClusters cs fs pu).length) (hi' : i < out.results.length), ((createClusters cs fs pu).get ⟨i, hi⟩).nodes = (out.results.get ⟨i, hi'⟩).positions := by
    intro i hi hi'
    have h3 : ((createClusters cs fs pu).map (fun g => g.nodes))[i]? = (out.results.map fun r => r.positions)[i]? := by rw [hpos]
    simp only [List.getElem?_map, List.getElem?_eq_getElem hi, List.getElem?_eq_getElem hi', Option.map_some, Option.some.injEq] at h3
    simpa using h3
  have hmem : ∀ r ∈ out.results, ∃ c ∈ createClusters cs fs pu, IdentifyCluster cs fs method c (.ok r) := fun r hr => forall₂_mem_right hall hr
  refine ⟨h1, h2, ?_, ?_, ?_, ?_, ?_, ?_, ?_⟩
  · intro x hx
    obtain ⟨i, hi, huniq⟩ := hP.1 x hx
    refine ⟨⟨i.1, hlen ▸ i.2⟩, ?_, ?_⟩
    · simp only
      rw [← hget i.1 i.2 (hlen ▸ i.2)]; exact hi
    · intro j hj
      have := huniq ⟨j.1, hlen.symm ▸ j.2⟩ (by
        simp only
        rw [hget j.1 (hlen.symm ▸ j.2) j.2]; exact hj)
      rw [← this]
  · intro r hr
    obtain ⟨c, hc, hcr⟩ := hmem r hr
    rw [(identifyCluster_positions hcr).1]
    exact hP.2 c hc
  · intro x hx y hy
    rw [show (∃ r ∈ out.results, x ∈ r.positions ∧ y ∈ r.positions) ↔ ∃ c ∈ createClusters cs fs pu, x ∈ c.nodes ∧ y ∈ c.nodes from ?_]
    · rw [C52_clusters_are_chains hb fs hu]
      exact ⟨fun h => h.2.2, fun h => ⟨hx, hy, h⟩⟩
    · constructor
      · rintro ⟨r, hr, h⟩
        obtain ⟨c, hc, hcr⟩ := hmem r hr
        rw [(identifyCluster_positions hcr).1] at h
        exact ⟨c, hc, h⟩
      · rintro ⟨c, hc, h⟩
        obtain ⟨r, hr, hcr⟩ := forall₂_mem_left hall hc
        refine ⟨r, hr, ?_⟩
        rw [(identifyCluster_positions hcr).1]
        exact h
  · intro r hr k hk
    obtain ⟨c, hc, hcr⟩ := hmem r hr
    have h3 := (identifyCluster_positions hcr).2.1
    rw [hk] at h3
    obtain ⟨_, _, -, -, -, -, -, -, -, h4, h5, h6⟩ := (C55_majority (C54_cluster_graph hb fs hu hc).1 (hP.2 c hc).1 (by norm_num) (by norm_num) h3).1 k rfl
    exact ⟨h4, h5, h6⟩
  · intro r hr hk
    obtain ⟨c, hc, hcr⟩ := hmem r hr
    obtain ⟨e1, -, e3⟩ := identifyCluster_positions hcr
    rw [hk] at e3
    rw [e1]
    generalize hs : r.shape = s at e3
    generalize ho : (Except.ok s : Except Err (Option (Shape d))) = o at e3
    cases e3 with
    | point hp => cases ho; exact ⟨_, rfl, hp⟩
    | pointError => cases ho
    | other hn => exact absurd rfl hn
  · intro r hr hk s hs
    obtain ⟨c, hc, hcr⟩ := hmem r hr
    obtain ⟨e1, -, e3⟩ := identifyCluster_positions hcr
    rw [hk, hs] at e3
    rw [e1]
    generalize ho : (Except.ok (some s) : Except Err (Option (Shape d))) = o at e3
    cases e3 with
    | line hl => cases ho; exact ⟨_, rfl, evaluateLine_ok hb hfs hu hc hl⟩
    | lineWarning => cases ho
    | lineError => cases ho
    | other _ hn => exact absurd rfl hn
  · intro r hr h0 h1
    obtain ⟨c, hc, hcr⟩ := hmem r hr
    obtain ⟨-, -, e3⟩ := identifyCluster_positions hcr
    generalize hs : r.shape = s at e3
    generalize hdm : r.dimension = dm at e3
    generalize ho : (Except.ok s : Except Err (Option (Shape d))) = o at e3
    cases e3 with
    | point => exact absurd hdm h0
    | pointError => exact absurd hdm h0
    | line => exact absurd hdm h1
    | lineWarning => exact absurd hdm h1
    | lineError => exact absurd hdm h1
    | other => cases ho; rfl

/-- **C65.**  With one of the methods `ballistic` (the default of `run`) and `shortest_path` (the default of `run_from_positions`) the identification never raises, whatever the positions and the random choices;
it can always come to a result; and every cluster of dimension one gets a line. -/
theorem C65_never_raises {cs : CoordSys d} (hb : ProperBox cs) {fs : ℝ} (hfs : 0 < fs) (positions : List (Vec d)) {method : String}
    (hm : method = "ballistic" ∨ method = "shortest_path") :
    (∃ r, RunFromPositions positions cs fs method r) ∧
    ∀ r, RunFromPositions positions cs fs method r → ∃ out, r = .ok out ∧ ∀ x ∈ out.results, x.dimension = some 1 → ∃ l, x.shape = some (.line l) := by
  have hline : ∀ {pu : List (Vec d)}, IsUniqueList positions pu → ∀ c ∈ createClusters cs fs pu, CalculateDimension c cs fs 3 (some 5) (some 10) (.ok (some 1)) →
      (∃ l, EvaluateLine c cs fs method (.ok l)) ∧ ∀ e, ¬ EvaluateLine c cs fs method (.error e) := by
    intro pu hu c hc hdim
    have hs := spread_of_dim_one hb hfs hu hc hdim
    rcases hm with rfl | rfl
    · obtain ⟨h1, n, rg, h2⟩ := C59_ballistic_terminates hb hu hc hs
      refine ⟨⟨_, .ballistic h2⟩, fun e he => ?_⟩
      generalize hr : (Except.error e : Except Err (NodalLine (Vec d))) = o at he
      generalize hms : "ballistic" = ms at he
      cases he with
      | invalid _ _ h => exact h hms.symm
      | ballistic => cases hr
      | ballisticError hrun => exact (h1 _ _ hrun).2.1 _ rfl
      | shortest => exact absurd hms (by decide)
      | shortestError => exact absurd hms (by decide)
      | dominating => exact absurd hms (by decide)
    · obtain ⟨h1, ⟨n, rg, h2⟩, -⟩ := C61_cluster hb hu hc
      refine ⟨⟨_, .shortest h2⟩, fun e he => ?_⟩
      generalize hr : (Except.error e : Except Err (NodalLine (Vec d))) = o at he
      generalize hms : "shortest_path" = ms at he
      cases he with
      | invalid h => exact h hms.symm
      | shortest => cases hr
      | shortestError hrun => exact h1 _ _ hrun _ rfl
      | ballistic => exact absurd hms (by decide)
      | ballisticError => exact absurd hms (by decide)
      | dominating => exact absurd hms (by decide)
  have hdimok : ∀ {pu : List (Vec d)}, IsUniqueList positions pu → ∀ c ∈ createClusters cs fs pu, ∀ e, ¬ CalculateDimension c cs fs 3 (some 5) (some 10) (.error e) := by
    intro pu hu c hc e he
    have := ((C55_majority (C54_cluster_graph hb fs hu hc).1 ((C51_clusters_partition cs fs hu).2 c hc).1 (by norm_num) (by norm_num) he).2.2 e rfl).2.1
    norm_num at this
  have hcl : ∀ {pu : List (Vec d)}, IsUniqueList positions pu → ∀ c ∈ createClusters cs fs pu,
      (∃ r, IdentifyCluster cs fs method c (.ok r)) ∧ (∀ e, ¬ IdentifyCluster cs fs method c (.error e)) ∧
      ∀ r, IdentifyCluster cs fs method c (.ok r) → r.dimension = some 1 → ∃ l, r.shape = some (.line l) := by
    intro pu hu c hc
    have hne := ((C51_clusters_partition cs fs hu).2 c hc).1
    obtain ⟨p, hp⟩ := average_ok cs hne
    refine ⟨?_, ?_, ?_⟩
    · obtain ⟨r, hr⟩ := C55_total c cs fs 3 (some 5) (some 10)
      cases r with
      | error e => exact absurd hr (hdimok hu c hc e)
      | ok dim =>
        by_cases h0 : dim = some 0
        · subst h0; exact ⟨_, .ok hr (.point hp)⟩
        · by_cases h1 : dim = some 1
          · subst h1
            obtain ⟨⟨l, hl⟩, -⟩ := hline hu c hc hr
            exact ⟨_, .ok hr (.line hl)⟩
          · exact ⟨_, .ok hr (.other h0 h1)⟩
    · intro e he
      generalize hr : (Except.error e : Except Err (IdResult d)) = o at he
      cases he with
      | ok => cases hr
      | dimError h => exact hdimok hu c hc _ h
      | @shapeError dim e' h1 h2 =>
        generalize ho : (Except.error e' : Except Err (Option (Shape d))) = o' at h2
        cases h2 with
        | point => cases ho
        | pointError h => rw [hp] at h; cases h
        | line => cases ho
        | lineWarning => cases ho
        | lineError h => exact (hline hu c hc h1).2 _ h
        | other => cases ho
    · intro r hr hk
      obtain ⟨-, e2, e3⟩ := identifyCluster_positions hr
      rw [hk] at e2 e3
      generalize hs : r.shape = s at e3
      generalize ho : (Except.ok s : Except Err (Option (Shape d))) = o at e3
      cases e3 with
      | line hl => cases ho; exact ⟨_, rfl⟩
      | lineWarning h => exact absurd h ((hline hu c hc e2).2 _)
      | lineError => cases ho
      | other _ hn => exact absurd rfl hn
  constructor
  · have hu : IsUniqueList positions positions.dedup := ⟨List.nodup_dedup _, fun x => List.mem_dedup⟩
    have hex : ∀ l : List (NxGraph (Vec d) ℝ), (∀ c ∈ l, ∃ r, IdentifyCluster cs fs method c (.ok r)) → ∃ rs, List.Forall₂ (fun c r => IdentifyCluster cs fs method c (.ok r)) l rs := by
      intro l
      induction l with
      | nil => exact fun _ => ⟨[], .nil⟩
      | cons c l ih =>
        intro h
        obtain ⟨r, hr⟩ := h c List.mem_cons_self
        obtain ⟨rs, hrs⟩ := ih fun c hc => h c (List.mem_cons_of_mem _ hc)
        exact ⟨r :: rs, .cons hr hrs⟩
    obtain ⟨rs, hrs⟩ := hex _ fun c hc => (hcl hu c hc).1
    exact ⟨_, .ok hu (outcomes := rs.map .ok) (by rwa [List.forall₂_map_right_iff]) (collect_eq_ok.2 rfl)⟩
  · intro r hr
    cases r with
    | error e =>
      exfalso
      generalize ho : (Except.error e : Except Err (IdContainer d)) = o at hr
      cases hr with
      | ok => cases ho
      | error hu hall hcol =>
        obtain ⟨c, hc, h⟩ := forall₂_mem_right hall (collect_error hcol)
        exact (hcl hu c hc).2.1 _ h
    | ok out =>
      refine ⟨out, rfl, fun x hx hk => ?_⟩
      obtain ⟨-, -, pu, hu, hall⟩ := runFromPositions_ok hr
      obtain ⟨c, hc, h⟩ := forall₂_mem_right hall hx
      exact (hcl hu c hc).2.2 x h hk

/-- A cluster of dimension one for which `dominating_set` is asked: if no position is closer than `fs / 3` to all the others, the exception leaves `run_from_positions`. -/
theorem C65_dominating_set_raises {cs : CoordSys d} (hb : ProperBox cs) {fs : ℝ} (hfs : 0 < fs) {positions : List (Vec d)} {out : IdContainer d}
    (h : RunFromPositions positions cs fs "dominating_set" (.ok out)) {r : IdResult d} (hr : r ∈ out.results) (hdim : r.dimension = some 1) :
    ∃ v ∈ r.positions, (∀ x ∈ r.positions, x ≠ v → cs.distance x v < fs / 3) ∧ ∃ l, r.shape = some (.line l) ∧ l.graph.nodes = [v] ∧ l.graph.edges = [] := by
  obtain ⟨-, -, pu, hu, hall⟩ := runFromPositions_ok h
  obtain ⟨c, hc, hcr⟩ := forall₂_mem_right hall hr
  obtain ⟨e1, -, e3⟩ := identifyCluster_positions hcr
  rw [hdim] at e3
  rw [e1]
  have hev : ∀ o, EvaluateLine c cs fs "dominating_set" o → ∃ o', EvalDominating c cs.distance fs o' ∧ o = lineResult o' := by
    intro o ho
    generalize hms : "dominating_set" = ms at ho
    cases ho with
    | invalid _ h => exact absurd hms.symm h
    | ballistic => exact absurd hms (by decide)
    | ballisticError => exact absurd hms (by decide)
    | shortest => exact absurd hms (by decide)
    | shortestError => exact absurd hms (by decide)
    | dominating h => exact ⟨_, h, rfl⟩
  generalize hs : r.shape = s at e3
  generalize ho : (Except.ok s : Except Err (Option (Shape d))) = o at e3
  cases e3 with
  | line hl =>
    cases ho
    obtain ⟨o', h1, h2⟩ := hev _ hl
    rcases C62_dominating_set hb hfs hu hc h1 with rfl | rfl | ⟨v, hv, rg, rfl, h3, h4, h5, -⟩
    · cases h2
    · cases h2
    · cases h2
      exact ⟨v, hv, h5, _, rfl, h3, by unfold strip; simp [h4]⟩
  | lineWarning hl hw =>
    obtain ⟨o', h1, h2⟩ := hev _ hl
    rcases C62_dominating_set hb hfs hu hc h1 with rfl | rfl | ⟨v, hv, rg, rfl, h3, h4, h5, -⟩
    · cases h2; rcases hw with hw | hw <;> cases hw
    · cases h2; rcases hw with hw | hw <;> cases hw
    · cases h2
  | lineError => cases ho
  | other _ hn => exact absurd rfl hn

/-- An unknown method is not reported: clusters of dimension one just get no shape. -/
theorem C65_unknown_method {cs : CoordSys d} {fs : ℝ} {positions : List (Vec d)} {method : String} (h1 : method ≠ "shortest_path") (h2 : method ≠ "dominating_set") (h3 : method ≠ "ballistic")
    {out : IdContainer d} (h : RunFromPositions positions cs fs method (.ok out)) {r : IdResult d} (hr : r ∈ out.results) (hdim : r.dimension = some 1) : r.shape = none := by
  obtain ⟨-, -, pu, hu, hall⟩ := runFromPositions_ok h
  obtain ⟨c, hc, hcr⟩ := forall₂_mem_right hall hr
  obtain ⟨-, -, e3⟩ := identifyCluster_positions hcr
  rw [hdim] at e3
  generalize hs : r.shape = s at e3
  generalize ho : (Except.ok s : Except Err (Option (Shape d))) = o at e3
  cases e3 with
  | line hl =>
    cases ho
    rename_i l
    exfalso
    generalize ho : (Except.ok l : Except Err (NodalLine (Vec d))) = o at hl
    cases hl with
    | invalid => cases ho
    | ballistic => exact h3 rfl
    | ballisticError => exact h3 rfl
    | shortest => exact h1 rfl
    | shortestError => exact h1 rfl
    | dominating => exact h2 rfl
  | lineWarning => cases ho; rfl
  | lineError => cases ho
  | other _ hn => exact absurd rfl hn

/-! ## C57 -/

theorem average_singleton {cs : CoordSys d} (hb : ProperBox cs) (x : Vec d) : ∃ p, cs.average [x] = .ok p ∧ SamePoint cs x p := by
  cases hp : cs.periodic with
  | true =>
    have hu : Unwraps cs [x] [x] := ⟨.cons ⟨0, by funext i; simp [shift]⟩ .nil, fun u hu v hv i => by
      rw [List.mem_singleton] at hu hv
      subst hu hv
      have := hb i
      simp only [sub_self, abs_zero]
      linarith⟩
    obtain ⟨a, ha, h1, -⟩ := C06_average_is_mean cs hb hp [x] [x] (by simp) hu
    refine ⟨a, ha, ?_⟩
    unfold SamePoint
    rw [if_pos hp]
    simpa using h1
  | false =>
    refine ⟨_, (C06_average_nonperiodic cs hp [x] (by simp)).1, ?_⟩
    unfold SamePoint
    rw [if_neg (by simp [hp])]
    funext i
    simp

/-- **C57.**  A position which is farther than `feature_size` away from all others is identified as a point of dimension zero at this position (or an image of it). -/
theorem C57_isolated_point {cs : CoordSys d} (hb : ProperBox cs) {fs : ℝ} (hfs : 0 < fs) {positions : List (Vec d)} {method : String} {out : IdContainer d}
    (h : RunFromPositions positions cs fs method (.ok out)) {x : Vec d} (hx : x ∈ positions) (hiso : ∀ y ∈ positions, y ≠ x → fs < cs.distance x y) :
    ∃ r ∈ out.results, r.positions = [x] ∧ r.dimension = some 0 ∧ ∃ p, r.shape = some (.point p) ∧ SamePoint cs x p := by
  obtain ⟨-, -, pu, hu, hall⟩ := runFromPositions_ok h
  have hI := C65_results hb hfs h
  obtain ⟨i, hi, -⟩ := hI.once x hx
  have hr := List.get_mem out.results i
  refine ⟨_, hr, ?_⟩
  have hpos : (out.results.get i).positions = [x] := by
    have hg := hI.given _ hr
    have hall : ∀ y ∈ (out.results.get i).positions, y = x := by
      intro y hy
      have hch := (hI.chains x hx y (hg.2.2 y hy)).1 ⟨_, hr, hi, hy⟩
      induction hch with
      | refl => rfl
      | @tail b c _ hbc ih =>
        have hb' : b = x := by
          by_cases hbx : b = x
          · exact hbx
          · have hch' : Chain cs fs positions x b := by assumption
            obtain ⟨r', hr', h1, h2⟩ := (hI.chains x hx b hbc.1).2 hch'
            obtain ⟨j, hj⟩ := List.get_of_mem hr'
            have : j = i := (hI.once x hx).unique (by rw [hj]; exact h1) hi
            subst this
            exact ih (by rw [hj]; exact h2)
        subst hb'
        by_contra hne
        exact absurd hbc.2.2 (not_le.2 (hiso c hbc.2.1 hne))
    match hl : (out.results.get i).positions, hg.1 with
    | [a], _ => rw [hl] at hall; rw [hall a (by simp)]
    | a :: b :: l, _ =>
      rw [hl] at hall
      have := hg.2.1
      rw [hl, hall a (by simp), hall b (by simp)] at this
      simp at this
  obtain ⟨c, hc, hcr⟩ := forall₂_mem_right hall hr
  obtain ⟨e1, e2, -⟩ := identifyCluster_positions hcr
  have hdim : (out.results.get i).dimension = some 0 := by
    have := C57_isolated_dimension (C54_cluster_graph hb fs hu hc).1 (pos := x) (by rw [← e1, hpos]) (by norm_num) (by norm_num) e2
    exact Except.ok.inj this
  refine ⟨hpos, hdim, ?_⟩
  obtain ⟨p, hp, hav⟩ := hI.point _ hr hdim
  rw [hpos] at hav
  obtain ⟨q, hq, hsame⟩ := average_singleton hb x
  rw [hq] at hav
  cases hav
  exact ⟨_, hp, hsame⟩

/-! ## `identify.run` -/

/-- **C65.**  Given the result of a search and no `feature_size`, `identify.run` identifies the positions of the nodes with the `feature_size` of that search. -/
theorem C65_default_feature_size {p : CtlParams d} (hd : DistinctInput p) {c : Ctl d} (h : ReachAny p c) {method : String} {r : Except Err (IdContainer d)} :
    IdentifyRun (.container c.state.result) method none r ↔ RunFromPositions (c.state.result.nodes.values.map fun n => n.pos) p.coord p.featureSize method r := by
  have hc := (good_any hd h).1.cont
  have hfs : c.state.result.distCutoff * 3 = p.featureSize := by
    rw [hc.dist]
    unfold CtlParams.distCutoff
    ring
  rw [← hfs, ← hc.coord]
  constructor
  · intro h
    generalize hn : (none : Option ℝ) = o at h
    cases h with
    | noCutoff hi => cases hi
    | default hi h => cases hi; exact h
    | given => cases hn
  · intro h
    exact .default rfl h

/-- **C65**, given a `feature_size`, and either the result of a search or a `ControllerState`: the positions of its nodes are identified with that `feature_size`. -/
theorem C65_given_feature_size {p : CtlParams d} (hd : DistinctInput p) {c : Ctl d} (h : ReachAny p c) {input : IdInput d} (hin : input = .container c.state.result ∨ input = .state c.state.result)
    {fs : ℝ} {method : String} {r : Except Err (IdContainer d)} :
    IdentifyRun input method (some fs) r ↔ RunFromPositions (c.state.result.nodes.values.map fun n => n.pos) p.coord fs method r := by
  have hc := (good_any hd h).1.cont
  have hu : input.unwrap = c.state.result := by rcases hin with rfl | rfl <;> rfl
  rw [← hc.coord, ← hu]
  constructor
  · intro h
    generalize hn : some fs = o at h
    cases h with
    | noCutoff hi => cases hn
    | default hi h => cases hn
    | given h => cases hn; exact h
  · intro h
    exact .given h

/-- A `ControllerState` can only be identified if a `feature_size` is given: otherwise there is an `AttributeError`. -/
theorem C65_state_needs_feature_size (c : Container d) (method : String) (r : Except Err (IdContainer d)) : IdentifyRun (.state c) method none r ↔ r = .error .attribute := by
  constructor
  · intro h
    generalize hn : (none : Option ℝ) = o at h
    cases h with
    | noCutoff => rfl
    | default hi => cases hi
    | given => cases hn
  · rintro rfl
    exact .noCutoff rfl

theorem reachWith_reach {p : CtlParams d} {R : Simplex d → SRes d → Prop} {c : Ctl d} (h : ReachWith p R c) : Reach p c := by
  induction h with
  | start => exact .start
  | tail _ hs _ ih => exact .tail ih hs

/-- **C65**, search and identification together (with finite `ftol` and no derivative cutoff): every position of every result is a point (or the image of one) at which the gap function returned a value
not above the threshold. -/
theorem C65_identified_positions (hdim : 1 ≤ d) {p : CtlParams d} (hd : DistinctInput p) (hb : ProperBox p.coord) {P : NMParams} (hft : P.ftol ≠ FVal.inf) (hc : P.fprimeCutoff = none)
    {G : Vec d → FVal → Prop} {c : Ctl d} (hw : ReachWith p (MinimizationOf P G) c) {input : IdInput d}
    (hin : input = .container c.state.result ∨ input = .state c.state.result) {fs : Option ℝ} {method : String} {out : IdContainer d} (hr : IdentifyRun input method fs (.ok out)) :
    ∀ r ∈ out.results, ∀ x ∈ r.positions, ∃ y v, SamePoint p.coord y x ∧ G y (FVal.ofReal v) ∧ v ≤ p.gapThreshold := by
  have h := (reachWith_reach hw).any
  have key : ∃ fs' : ℝ, RunFromPositions (c.state.result.nodes.values.map fun n => n.pos) p.coord fs' method (.ok out) := by
    cases fs with
    | some fs => exact ⟨fs, (C65_given_feature_size hd h hin).1 hr⟩
    | none =>
      rcases hin with rfl | rfl
      · exact ⟨_, (C65_default_feature_size hd h).1 hr⟩
      · have := (C65_state_needs_feature_size _ _ _).1 hr
        cases this
  obtain ⟨fs', hrun⟩ := key
  obtain ⟨-, -, pu, hu, hall⟩ := runFromPositions_ok hrun
  intro r hmem x hx
  obtain ⟨g, hg, hgr⟩ := forall₂_mem_right hall hmem
  rw [(identifyCluster_positions hgr).1] at hx
  obtain ⟨n, hn, rfl⟩ := List.mem_map.1 (((C51_clusters_partition p.coord fs' hu).2 g hg).2.2 x hx)
  obtain ⟨v, -, h1, y, h2, h3⟩ := C45_nodes_below_threshold hdim hb hft hc hw hn
  exact ⟨y, v, h2, h3, h1⟩

/-! ## Examples -/

/-- The hypotheses of the theorems are met: `1`, `1.5`, `2` and `9` in the interval `[0, 10]`, with `feature_size = 0.6`.  The identification has a result, and `9` is a point in it. -/
example : ∃ out, RunFromPositions [![1], ![1.5], ![2], (![9] : Vec 1)] exBox 0.6 "ballistic" (.ok out) ∧ IdentifiedFrom [![1], ![1.5], ![2], ![9]] exBox 0.6 out ∧
    ∃ r ∈ out.results, r.positions = [![9]] ∧ r.dimension = some 0 ∧ ∃ p, r.shape = some (.point p) ∧ SamePoint exBox ![9] p := by
  obtain ⟨⟨r, hr⟩, h2⟩ := C65_never_raises exBox_proper (fs := 0.6) (by norm_num) [![1], ![1.5], ![2], (![9] : Vec 1)] (.inl rfl)
  obtain ⟨out, rfl, -⟩ := h2 r hr
  refine ⟨out, hr, C65_results exBox_proper (by norm_num) hr, C57_isolated_point exBox_proper (by norm_num) hr (by simp) ?_⟩
  intro y hy hne
  simp only [List.mem_cons, List.not_mem_nil, or_false] at hy
  rcases hy with rfl | rfl | rfl | rfl
  · rw [ex_dist]; norm_num
  · rw [ex_dist]; norm_num
  · rw [ex_dist]; norm_num
  · exact absurd rfl hne

/-- The result of the search in `Lemmas/Demo.lean` can be identified. -/
example : ∃ out, IdentifyRun (.container Demo.c5.state.result) "ballistic" none (.ok out) ∧ out.featureSize = 3 / 10 := by
  obtain ⟨⟨r, hr⟩, h2⟩ := C65_never_raises (cs := Demo.params.coord) Demo.geometry.1 (fs := Demo.params.featureSize) (by norm_num [Demo.params])
    (Demo.c5.state.result.nodes.values.map fun n => n.pos) (.inl rfl)
  obtain ⟨out, rfl, -⟩ := h2 r hr
  refine ⟨out, (C65_default_feature_size Demo.distinct Demo.reach5.any).2 hr, ?_⟩
  rw [(C65_results Demo.geometry.1 (by norm_num [Demo.params]) hr).featureSize]
  norm_num [Demo.params]

end NF
