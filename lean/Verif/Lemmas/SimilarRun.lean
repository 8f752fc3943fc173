import Verif.Lemmas.Similar
import Verif.Lemmas.SimilarSP
import Verif.Lemmas.SimilarDS
import Verif.Lemmas.Units
import Verif.Spec.Moved

/-! # Lemmas: the identification of similar positions -/

noncomputable section
open Classical

namespace NF
open Spec
variable {d : ℕ}

/-- A shape for the moved positions. -/
def MovedShape (f : Vec d → Vec d) (P : Vec d → Vec d → Prop) : Option (Shape d) → Option (Shape d) → Prop
  | none, none => True
  | some (.point p), some (.point q) => P p q
  | some (.line l), some (.line l') => l' = ⟨l.graph.map f id, l.degreeCount⟩
  | _, _ => False

theorem movedResult_of {f : Vec d → Vec d} {P : Vec d → Vec d → Prop} {pos : List (Vec d)} {dim : Option ℤ} {s s' : Option (Shape d)} (h : MovedShape f P s s') :
    MovedResult f P ⟨pos, dim, s⟩ ⟨pos.map f, dim, s'⟩ := by
  refine ⟨rfl, rfl, ?_, ?_, ?_⟩
  · rcases s with - | p | l <;> rcases s' with - | p' | l' <;> simp_all [MovedShape]
  · rintro p hp
    dsimp only at hp
    subst hp
    rcases s' with - | p' | l'
    · exact h.elim
    · exact ⟨p', rfl, h⟩
    · exact h.elim
  · rintro l hp
    dsimp only at hp
    subst hp
    rcases s' with - | p' | l'
    · exact h.elim
    · exact h.elim
    · obtain rfl := (show l' = _ from h)
      exact ⟨_, rfl, rfl, rfl, rfl⟩

theorem average_error {cs : CoordSys d} {l : List (Vec d)} {e : Err} (h : cs.average l = .error e) : l = [] ∧ e = .index := by
  unfold CoordSys.average at h
  cases l with
  | nil => cases h; exact ⟨rfl, rfl⟩
  | cons x l =>
    dsimp only at h
    split at h <;> cases h

section
variable {cs cs' : CoordSys d} {S : Set (Vec d)} {f : Vec d → Vec d} {a : ℝ} {R : Vec d → Vec d} (hs : Similar cs cs' S f a R)
include hs

/-- A line for the moved positions. -/
def mapLine (f : Vec d → Vec d) (r : Except Err (NodalLine (Vec d))) : Except Err (NodalLine (Vec d)) := r.map fun l => ⟨l.graph.map f id, l.degreeCount⟩

theorem lineResult_map {A B : Type} (k : A → B) (g : NxGraph (Vec d) A) : lineResult (.ok (g.map f k)) = mapLine f (lineResult (.ok g)) := by
  simp only [lineResult, mapLine, Except.map, createDegreeCount_map hs.inj, NxGraph.strip_map]

theorem evaluateLine_map {g : NxGraph (Vec d) ℝ} (hg : GraphIn S g) {fs : ℝ} {m : String} {r : Except Err (NodalLine (Vec d))} (h : EvaluateLine g cs fs m r) :
    EvaluateLine (g.simap f a) cs' (a * fs) m (mapLine f r) := by
  cases h with
  | invalid h1 h2 h3 => exact .invalid h1 h2 h3
  | ballistic h =>
    rw [← lineResult_map hs (id : Unit → Unit)]
    exact .ballistic (bRun_map hs hg h).1
  | ballisticError h => exact .ballisticError (bRun_map hs hg h).1
  | shortest h =>
    rw [← lineResult_map hs (id : Unit → Unit)]
    exact .shortest (spRun_map hs.inj hs.pos h)
  | shortestError h => exact .shortestError (spRun_map hs.inj hs.pos h)
  | @dominating r h =>
    have := EvaluateLine.dominating (evalDominating_map hs.inj hs.pos (δ' := cs'.distance) (fun x hx y hy => hs.dist x (hg.1 x hx) y (hg.1 y hy)) h)
    cases r with
    | error e => exact this
    | ok g => rw [← lineResult_map hs (dsAttr a)]; exact this

variable {P : Vec d → Vec d → Prop} (hP : ∀ l : List (Vec d), (∀ x ∈ l, x ∈ S) → ∀ p, cs.average l = .ok p → ∃ q, cs'.average (l.map f) = .ok q ∧ P p q)
include hP

theorem evaluateCluster_map {g : NxGraph (Vec d) ℝ} (hg : GraphIn S g) {fs : ℝ} {m : String} {dim : Option ℤ} {r : Except Err (Option (Shape d))} (h : EvaluateCluster g cs fs m dim r) :
    ∃ r', EvaluateCluster (g.simap f a) cs' (a * fs) m dim r' ∧ match r, r' with
      | .error e, .error e' => e = e'
      | .ok s, .ok s' => MovedShape f P s s'
      | _, _ => False := by
  cases h with
  | point h =>
    obtain ⟨q, h1, h2⟩ := hP _ hg.1 _ h
    exact ⟨_, .point h1, h2⟩
  | pointError h =>
    obtain ⟨h1, rfl⟩ := average_error h
    exact ⟨_, .pointError (e := .index) (by show cs'.average (g.nodes.map f) = _; rw [h1]; rfl), rfl⟩
  | line h => exact ⟨_, .line (evaluateLine_map hs hg h), rfl⟩
  | lineWarning h he => exact ⟨_, .lineWarning (evaluateLine_map hs hg h) he, trivial⟩
  | lineError h h1 h2 => exact ⟨_, .lineError (evaluateLine_map hs hg h) h1 h2, rfl⟩
  | other h1 h2 => exact ⟨_, .other h1 h2, trivial⟩

/-- An outcome of one cluster for the moved positions. -/
inductive MovedOne (f : Vec d → Vec d) (P : Vec d → Vec d → Prop) : Except Err (IdResult d) → Except Err (IdResult d) → Prop
  | error (e : Err) : MovedOne f P (.error e) (.error e)
  | ok {r r'} : MovedResult f P r r' → MovedOne f P (.ok r) (.ok r')

theorem identifyCluster_map {g : NxGraph (Vec d) ℝ} (hg : GraphIn S g) {fs : ℝ} {m : String} {r : Except Err (IdResult d)} (h : IdentifyCluster cs fs m g r) :
    ∃ r', IdentifyCluster cs' (a * fs) m (g.simap f a) r' ∧ MovedOne f P r r' := by
  cases h with
  | dimError h => exact ⟨_, .dimError (calculateDimension_map hs hg h), .error _⟩
  | shapeError h1 h2 =>
    obtain ⟨r', h3, h4⟩ := evaluateCluster_map hs hP hg h2
    cases r' with
    | error e => obtain rfl := h4; exact ⟨_, .shapeError (calculateDimension_map hs hg h1) h3, .error _⟩
    | ok s => exact h4.elim
  | ok h1 h2 =>
    obtain ⟨r', h3, h4⟩ := evaluateCluster_map hs hP hg h2
    cases r' with
    | error e => exact h4.elim
    | ok s => exact ⟨_, .ok (calculateDimension_map hs hg h1) h3, .ok (movedResult_of h4)⟩

omit hs hP in
theorem collect_map {l l' : List (Except Err (IdResult d))} (h : List.Forall₂ (MovedOne f P) l l') :
    match collect l, collect l' with
      | .error e, .error e' => e = e'
      | .ok s, .ok s' => List.Forall₂ (MovedResult f P) s s'
      | _, _ => False := by
  induction h with
  | nil => exact .nil
  | @cons o o' l l' h _ ih =>
    cases h with
    | error e => rfl
    | @ok r r' h =>
      simp only [collect]
      cases h1 : collect l <;> cases h2 : collect l' <;> simp only [h1, h2] at ih ⊢
      · exact ih
      · exact .cons h ih

omit hs hP in
theorem forall₂_exists {α β β' : Type} {A : α → β → Prop} {A' : α → β' → Prop} {Q : β → β' → Prop} {l : List α} {m : List β} (h : List.Forall₂ A l m)
    (hx : ∀ x ∈ l, ∀ y, A x y → ∃ y', A' x y' ∧ Q y y') : ∃ m', List.Forall₂ A' l m' ∧ List.Forall₂ Q m m' := by
  induction h with
  | nil => exact ⟨[], .nil, .nil⟩
  | @cons x y l m h _ ih =>
    obtain ⟨y', h1, h2⟩ := hx x List.mem_cons_self y h
    obtain ⟨m', h3, h4⟩ := ih fun x hx' => hx x (List.mem_cons_of_mem _ hx')
    exact ⟨y' :: m', .cons h1 h3, .cons h2 h4⟩

theorem runFromPositions_map {positions : List (Vec d)} (hpos : ∀ x ∈ positions, x ∈ S) {fs : ℝ} {m : String} {r : Except Err (IdContainer d)} (h : RunFromPositions positions cs fs m r) :
    ∃ r', RunFromPositions (positions.map f) cs' (a * fs) m r' ∧ MovedOutcome f P r r' := by
  have key : ∀ {posUnique : List (Vec d)} {outcomes}, IsUniqueList positions posUnique → List.Forall₂ (IdentifyCluster cs fs m) (createClusters cs fs posUnique) outcomes →
      IsUniqueList (positions.map f) (posUnique.map f) ∧ ∃ outcomes', List.Forall₂ (IdentifyCluster cs' (a * fs) m) (createClusters cs' (a * fs) (posUnique.map f)) outcomes' ∧
        List.Forall₂ (MovedOne f P) outcomes outcomes' := by
    intro posUnique outcomes hu ho
    have hin : ∀ x ∈ posUnique, x ∈ S := fun x hx => hpos x ((hu.2 x).1 hx)
    refine ⟨⟨(List.nodup_map_iff hs.inj).2 hu.1, fun x => ?_⟩, ?_⟩
    · simp only [List.mem_map, hu.2]
    · rw [createClusters_map hs fs hin]
      obtain ⟨m', h1, h2⟩ := forall₂_exists ho (A' := fun g r => IdentifyCluster cs' (a * fs) m (g.simap f a) r) (Q := MovedOne f P) fun g hg r hr =>
        identifyCluster_map hs hP (graphIn_clusters hin g hg) hr
      exact ⟨m', by rwa [List.forall₂_map_left_iff], h2⟩
  cases h with
  | @ok posUnique outcomes rs hu ho hc =>
    obtain ⟨h1, m', h2, h3⟩ := key hu ho
    have h4 := collect_map h3
    rw [hc] at h4
    cases h5 : collect m' with
    | error e => rw [h5] at h4; exact h4.elim
    | ok rs' => rw [h5] at h4; exact ⟨_, .ok h1 h2 h5, .ok h4⟩
  | @error posUnique outcomes e hu ho hc =>
    obtain ⟨h1, m', h2, h3⟩ := key hu ho
    have h4 := collect_map h3
    rw [hc] at h4
    cases h5 : collect m' with
    | error e' => rw [h5] at h4; obtain rfl := h4; exact ⟨_, .error h1 h2 h5, .error _⟩
    | ok rs' => rw [h5] at h4; exact h4.elim

end

/-! ## Back -/

theorem similar_symm {cs cs' : CoordSys d} {S : Set (Vec d)} {f f' : Vec d → Vec d} {a : ℝ} {R R' : Vec d → Vec d} (hs : Similar cs cs' S f a R) (hf : ∀ x, f' (f x) = x) (hf' : ∀ x, f (f' x) = x)
    (hR : ∀ v, R' (R v) = v) (hR' : ∀ v, R (R' v) = v) : Similar cs' cs (f '' S) f' a⁻¹ R' := by
  have hinj : Function.Injective R := Function.LeftInverse.injective hR
  have hsm : ∀ (c : ℝ) (v : Vec d), R' (fun i => c * v i) = fun i => c * R' v i := by
    intro c v
    apply hinj
    rw [hR']
    funext i
    rw [hs.smul, hR']
  refine ⟨inv_pos.2 hs.pos, Function.LeftInverse.injective hf', ?_, ?_, fun c v i => by rw [hsm], ?_⟩
  · rintro _ ⟨x, hx, rfl⟩ _ ⟨y, hy, rfl⟩
    rw [hf, hf, hs.dist x hx y hy, ← mul_assoc, inv_mul_cancel₀ hs.pos.ne', one_mul]
  · rintro _ ⟨x, hx, rfl⟩ _ ⟨y, hy, rfl⟩ i
    rw [hf, hf]
    have : cs'.connectingVector (f x) (f y) = fun i => a * R (cs.connectingVector x y) i := funext (hs.vec x hx y hy)
    rw [this, hsm, hR, ← mul_assoc, inv_mul_cancel₀ hs.pos.ne', one_mul]
  · intro u v
    rw [← hs.dot, hR', hR']

theorem movedOutcome_symm {f f' : Vec d → Vec d} {P P' : Vec d → Vec d → Prop} (hf' : ∀ x, f (f' x) = x) (hPP : ∀ p q, P' p q → P q p) {r r' : Except Err (IdContainer d)} (h : MovedOutcome f' P' r' r) :
    MovedOutcome f P r r' := by
  have hl : ∀ l : List (Vec d), (l.map f').map f = l := fun l => by simp [Function.comp_def, hf']
  cases h with
  | error e => exact .error e
  | @ok out out' h =>
    refine .ok ?_
    refine List.Forall₂.flip ?_
    refine h.imp fun x y hxy => ?_
    refine ⟨by rw [hxy.positions, hl], hxy.dimension.symm, hxy.none.symm, ?_, ?_⟩
    · intro p hp
      rcases hx : x.shape with - | q | l
      · rw [hxy.none.1 hx] at hp; cases hp
      · obtain ⟨q', h1, h2⟩ := hxy.point q hx
        rw [h1] at hp
        cases hp
        exact ⟨q, rfl, hPP _ _ h2⟩
      · obtain ⟨l', h1, -⟩ := hxy.line l hx
        rw [h1] at hp; cases hp
    · intro l hp
      rcases hx : x.shape with - | q | l'
      · rw [hxy.none.1 hx] at hp; cases hp
      · obtain ⟨q', h1, h2⟩ := hxy.point q hx
        rw [h1] at hp; cases hp
      · obtain ⟨l'', h1, h2, h3, h4⟩ := hxy.line l' hx
        rw [h1] at hp
        cases hp
        refine ⟨l', rfl, by rw [h2, hl], ?_, h4.symm⟩
        rw [h3]
        simp [Function.comp_def, hf']

/-- Both directions. -/
theorem similar_sameOutcomes {cs cs' : CoordSys d} {S : Set (Vec d)} {f f' : Vec d → Vec d} {a : ℝ} {R R' : Vec d → Vec d} {P P' : Vec d → Vec d → Prop} (hs : Similar cs cs' S f a R)
    (hf : ∀ x, f' (f x) = x) (hf' : ∀ x, f (f' x) = x) (hR : ∀ v, R' (R v) = v) (hR' : ∀ v, R (R' v) = v)
    (hP : ∀ l : List (Vec d), (∀ x ∈ l, x ∈ S) → ∀ p, cs.average l = .ok p → ∃ q, cs'.average (l.map f) = .ok q ∧ P p q)
    (hP' : ∀ l : List (Vec d), (∀ x ∈ l, x ∈ f '' S) → ∀ p, cs'.average l = .ok p → ∃ q, cs.average (l.map f') = .ok q ∧ P' p q) (hPP : ∀ p q, P' p q → P q p)
    {positions : List (Vec d)} (hpos : ∀ x ∈ positions, x ∈ S) (fs : ℝ) (m : String) :
    SameOutcomes (MovedOutcome f P) (RunFromPositions positions cs fs m) (RunFromPositions (positions.map f) cs' (a * fs) m) := by
  refine ⟨fun r h => runFromPositions_map hs hP hpos h, fun r h => ?_⟩
  obtain ⟨r', h1, h2⟩ := runFromPositions_map (similar_symm hs hf hf' hR hR') hP' (fun x hx => by
    obtain ⟨y, hy, rfl⟩ := List.mem_map.1 hx
    exact ⟨y, hpos y hy, rfl⟩) h
  rw [List.map_map, ← mul_assoc, inv_mul_cancel₀ hs.pos.ne', one_mul] at h1
  have : f' ∘ f = id := funext hf
  rw [this, List.map_id] at h1
  exact ⟨r', h1, movedOutcome_symm hf' hPP h2⟩

end NF
