import Verif.Lemmas.Controller
import Verif.Props.Container

/-! # What the two checks of the controller decide -/

noncomputable section
open Classical
namespace NF
open Spec CoordSys
variable {d : ℕ}

theorem checkPosLoop_eq_false_iff (dc : ℝ) (cut : ℤ) (l : List ℝ) (n : ℤ) (hn : n ≤ cut ∨ cut < 0) :
    checkPosLoop dc cut n l = false ↔
      l ≠ [] ∧ cut < n + (l.filter fun x => decide (x < dc)).length ∨ (l ≠ [] ∧ cut < n) := by
  induction l generalizing n with
  | nil => simp [checkPosLoop]
  | cons x l ih =>
    unfold checkPosLoop
    simp only
    by_cases hx : x < dc
    · simp only [hx, if_true, List.filter_cons, decide_true, List.length_cons, ne_eq, reduceCtorEq,
        not_false_eq_true, true_and]
      by_cases hc : n + 1 > cut
      · rw [if_pos hc]
        have : (0 : ℤ) ≤ (l.filter fun x => decide (x < dc)).length := by positivity
        simp only [true_iff]; push_cast; left; omega
      · rw [if_neg hc, ih (n + 1) (Or.inl (by omega))]
        push_cast
        constructor
        · rintro (⟨-, h⟩ | ⟨-, h⟩) <;> left <;> omega
        · intro h
          left
          refine ⟨?_, by omega⟩
          rintro rfl
          simp at h; omega
    · simp only [hx, if_false, List.filter_cons, decide_false, Bool.false_eq_true, ne_eq, reduceCtorEq,
        not_false_eq_true, true_and]
      by_cases hc : n > cut
      · rw [if_pos hc]
        have : (0 : ℤ) ≤ (l.filter fun x => decide (x < dc)).length := by positivity
        simp only [true_iff]; left; omega
      · rw [if_neg hc, ih n (Or.inl (by omega))]
        constructor
        · rintro (⟨-, h⟩ | ⟨-, h⟩) <;> left <;> omega
        · intro h
          left
          refine ⟨?_, by omega⟩
          rintro rfl
          simp at h; omega

/-- The loop rejects exactly if there is a candidate at all, and the number of distances below the cutoff exceeds the allowed count. -/
theorem checkPos_eq_false_iff (p : CtlParams d) (res : Container d) (pos : Vec d) (cut : ℤ) :
    checkPosRefinement p res pos cut = false ↔
      res.refinedNeighbourDistances pos ≠ [] ∧
        cut < ((res.refinedNeighbourDistances pos).filter fun x => decide (x < p.distCutoff)).length := by
  unfold checkPosRefinement
  rw [checkPosLoop_eq_false_iff _ _ _ _ (by omega)]
  have : (0 : ℤ) ≤ ((res.refinedNeighbourDistances pos).filter fun x => decide (x < p.distCutoff)).length := by positivity
  constructor
  · rintro (⟨h1, h2⟩ | ⟨h1, h2⟩) <;> exact ⟨h1, by omega⟩
  · rintro ⟨h1, h2⟩; left; exact ⟨h1, by omega⟩

/-- The number of refined positions near `pos` never exceeds the number of small distances found. -/
theorem near_count_le {c : Container d} {cs : CoordSys d} {g dc : ℝ} (h : c.Inv cs g dc)
    (hb : ProperBox cs) (hdc : 0 < dc) (hsz : cs.periodic = true ∨ ∀ i, dc ≤ cs.size i) (pos : Vec d) :
    (c.refined.flat.filter fun q => decide (cs.distance pos q < dc)).length ≤
      ((c.refinedNeighbourDistances pos).filter fun x => decide (x < dc)).length := by
  rw [Container.refinedNeighbourDistances, h.coord, List.filter_map, List.length_map]
  apply List.Subperm.length_le
  rw [List.subperm_ext_iff]
  intro q hq
  have hq' := List.mem_filter.1 hq
  have hnear : cs.distance pos q < dc := by simpa using hq'.2
  rw [List.count_filter (p := fun q => decide (cs.distance pos q < dc)) hq'.2, List.count_filter (p := (fun x => decide (x < dc)) ∘ fun q => cs.distance pos q) (by simpa using hnear), CellList.count_neighbourValues h.rinv]
  have := CellList.near_mem_neighbours hb hdc hsz h.rper h.rnum pos q hnear
  have := List.count_pos_iff.2 this
  exact Nat.le_mul_of_pos_left _ this

/-- If the periodic box is large enough for the neighbour cells to be different, the two numbers agree. -/
theorem near_count_eq {c : Container d} {cs : CoordSys d} {g dc : ℝ} (h : c.Inv cs g dc)
    (hb : ProperBox cs) (hdc : 0 < dc) (hsz : cs.periodic = true ∨ ∀ i, dc ≤ cs.size i)
    (h3 : cs.periodic = true → ∀ i, 3 * dc ≤ cs.size i) (pos : Vec d) :
    ((c.refinedNeighbourDistances pos).filter fun x => decide (x < dc)).length =
    (c.refined.flat.filter fun q => decide (cs.distance pos q < dc)).length := by
  rw [Container.refinedNeighbourDistances, h.coord, List.filter_map, List.length_map]
  rw [((neighbourValues_perm hdc h.rinv h.rper h.rnum h3 (cs.getFrac pos)).filter _).length_eq,
    List.filter_filter]
  congr 1
  apply List.filter_congr
  intro q _
  simp only [Function.comp]
  by_cases e : cs.distance pos q < dc
  · simp [e, CellList.near_mem_neighbours hb hdc hsz h.rper h.rnum _ _ e]
  · simp [e]

theorem distances_are_of_refined {c : Container d} {cs : CoordSys d} {g dc : ℝ} (h : c.Inv cs g dc) (pos : Vec d)
    {x : ℝ} (hx : x ∈ c.refinedNeighbourDistances pos) : ∃ q ∈ c.refined.flat, x = cs.distance pos q := by
  rw [Container.refinedNeighbourDistances, h.coord] at hx
  obtain ⟨q, hq, rfl⟩ := List.mem_map.1 hx
  exact ⟨q, Container.mem_refined_neighbours h pos q hq, rfl⟩

theorem checkSimplexLoop_eq_false_iff (p : CtlParams d) (res : Container d) (l : List (Vec d)) (n : ℤ)
    (hn : n ≤ p.simplexCheckCutoff ∨ p.simplexCheckCutoff < 0) :
    checkSimplexLoop p res n l = false ↔
      (∃ v ∈ l, (res.neighbourDistances v).any (fun x => decide (x < p.distCutoff)) = true) ∧
        p.simplexCheckCutoff < n +
          (l.filter fun v => (res.neighbourDistances v).any fun x => decide (x < p.distCutoff)).length := by
  induction l generalizing n with
  | nil => simp [checkSimplexLoop]
  | cons v l ih =>
    unfold checkSimplexLoop
    by_cases hv : (res.neighbourDistances v).any (fun x => decide (x < p.distCutoff)) = true
    · rw [if_pos hv]
      simp only [List.filter_cons, hv, if_true, List.length_cons]
      have hex : ∃ w ∈ v :: l, (res.neighbourDistances w).any (fun x => decide (x < p.distCutoff)) = true :=
        ⟨v, List.mem_cons_self, hv⟩
      have h0 : (0 : ℤ) ≤ (l.filter fun v => (res.neighbourDistances v).any fun x => decide (x < p.distCutoff)).length := by
        positivity
      by_cases hc : n + 1 > p.simplexCheckCutoff
      · rw [if_pos hc]
        simp only [true_iff]
        exact ⟨hex, by push_cast; omega⟩
      · rw [if_neg hc, ih (n + 1) (Or.inl (by omega))]
        push_cast
        constructor
        · rintro ⟨-, h⟩; exact ⟨hex, by omega⟩
        · rintro ⟨-, h⟩
          refine ⟨?_, by omega⟩
          by_contra hno
          push Not at hno
          have : l.filter (fun v => (res.neighbourDistances v).any fun x => decide (x < p.distCutoff)) = [] := by
            rw [List.filter_eq_nil_iff]; exact fun w hw => hno w hw
          rw [this] at h
          simp at h; omega
    · rw [if_neg hv]
      rw [ih n hn]
      simp only [List.filter_cons, hv]
      constructor
      · rintro ⟨⟨w, hw, hw2⟩, h⟩; exact ⟨⟨w, List.mem_cons_of_mem _ hw, hw2⟩, h⟩
      · rintro ⟨⟨w, hw, hw2⟩, h⟩
        refine ⟨?_, h⟩
        rcases List.mem_cons.1 hw with e | hw
        · rw [e] at hw2; exact absurd hw2 hv
        · exact ⟨w, hw, hw2⟩

theorem any_near_iff {c : Container d} {cs : CoordSys d} {g dc : ℝ} (h : c.Inv cs g dc)
    (hb : ProperBox cs) (hdc : 0 < dc) (hsz : cs.periodic = true ∨ ∀ i, dc ≤ cs.size i) (v : Vec d) :
    (c.neighbourDistances v).any (fun x => decide (x < dc)) = true ↔
      ∃ r ∈ c.nodes.flat, r.pos ≠ v ∧ cs.distance v r.pos < dc := by
  simp only [List.any_eq_true, decide_eq_true_eq, Container.neighbourDistances, h.coord, List.mem_map]
  constructor
  · rintro ⟨x, ⟨r, hr, rfl⟩, hlt⟩
    have := Container.mem_neighbourIterator h v r hr
    exact ⟨r, this.1, this.2, hlt⟩
  · rintro ⟨r, hr, hne, hlt⟩
    exact ⟨_, ⟨r, Container.neighbourIterator_complete h hb hdc hsz v r hr hne hlt, rfl⟩, hlt⟩

theorem goodGeometry_dc {p : CtlParams d} (h : GoodGeometry p) : 0 < p.distCutoff := by
  have := h.2.1
  unfold CtlParams.distCutoff; positivity

theorem goodGeometry_sz {p : CtlParams d} (h : GoodGeometry p) :
    p.coord.periodic = true ∨ ∀ i, p.distCutoff ≤ p.coord.size i := h.2.2

theorem numRunning_eq {p : CtlParams d} {c : Ctl d} (h : Acct p c) :
    c.state.simplexQueue.numRunning = c.tasks.length + c.failed.length := by
  have nd := (List.nodup_append.1 (List.nodup_append.1 h.nodup).2.1).1
  unfold RunQueue.numRunning
  have : c.state.simplexQueue.running = (c.tasks ++ c.failed.map Prod.fst).toFinset := by
    ext s
    rw [← h.run s, List.mem_toFinset]
  rw [this, List.toFinset_card_of_nodup nd, List.length_append, List.length_map]

end NF
