import Verif.Lemmas.Container

/-!
# Properties C08–C15: cell lists, result container, fake potential

All statements about containers are about `history cs g dc ops`: a container built with an arbitrary box `cs`,
`gap_threshold` `g` and `dist_cutoff` `dc`, after an arbitrary list of `add_result` / `set_refined` calls.
-/

noncomputable section
open Classical
namespace NF
open Spec CoordSys Container
variable {d : ℕ}

/-! ## Test data for the non-vacuity examples -/

/-- a successful result at `p` with value `v` -/
def sampleRes (d : ℕ) (p : Vec d) (v : ℝ) (ok : Bool) : SRes d :=
  .plain ⟨p, FVal.ofReal v, 1, 1, 0, ok, "", [], none⟩

/-- the unit interval -/
def unitBox (periodic : Bool) : CoordSys 1 := ⟨fun _ => 0, fun _ => 1, periodic⟩

theorem unitBox_proper (b : Bool) : ProperBox (unitBox b) := fun _ => by simp [unitBox]

theorem unitBox_size (b : Bool) (i : Fin 1) : (unitBox b).size i = 1 := by simp [unitBox, CoordSys.size]

/-! ## C08: lookups are complete -/

/-- C08 (nodes).  Every node closer than `dist_cutoff` to `pos`, and not exactly at `pos`, has its distance
in the list of the neighbour distance iterator; conversely everything the iterator yields is the distance to a node not
at `pos`.  A non-periodic box must be at least `dist_cutoff` long in every direction
(see `C08_small_box_misses_node`). -/
theorem C08_node_neighbours_complete (cs : CoordSys d) (g dc : ℝ) (ops : List (ContainerOp d)) (hb : ProperBox cs)
    (hdc : 0 < dc) (hsz : cs.periodic = true ∨ ∀ i, dc ≤ cs.upper i - cs.lower i) (pos : Vec d) :
    (∀ r ∈ (history cs g dc ops).nodes.values, r.pos ≠ pos → cs.distance pos r.pos < dc →
        r ∈ (history cs g dc ops).neighbourIterator pos ∧
        cs.distance pos r.pos ∈ (history cs g dc ops).neighbourDistances pos) ∧
    (∀ x ∈ (history cs g dc ops).neighbourDistances pos, ∃ r ∈ (history cs g dc ops).nodes.values,
        r.pos ≠ pos ∧ x = cs.distance pos r.pos) := by
  have h := Inv.history cs g dc ops
  refine ⟨fun r hr hne hd => ?_, fun x hx => ?_⟩
  · have hm := neighbourIterator_complete h hb hdc hsz pos r hr hne hd
    refine ⟨hm, ?_⟩
    rw [neighbourDistances, h.coord]
    exact List.mem_map.2 ⟨r, hm, rfl⟩
  · rw [neighbourDistances, h.coord] at hx
    obtain ⟨r, hr, rfl⟩ := List.mem_map.1 hx
    have := mem_neighbourIterator h pos r hr
    exact ⟨r, this.1, this.2, rfl⟩

/-- C08 (refined positions): every refined position closer than `dist_cutoff` to `pos` is found. -/
theorem C08_refined_neighbours_complete (cs : CoordSys d) (g dc : ℝ) (ops : List (ContainerOp d)) (hb : ProperBox cs)
    (hdc : 0 < dc) (hsz : cs.periodic = true ∨ ∀ i, dc ≤ cs.upper i - cs.lower i) (pos : Vec d) :
    (∀ q ∈ refinedOf ops, cs.distance pos q < dc →
        cs.distance pos q ∈ (history cs g dc ops).refinedNeighbourDistances pos) ∧
    (∀ x ∈ (history cs g dc ops).refinedNeighbourDistances pos, ∃ q ∈ refinedOf ops,
        x = cs.distance pos q) := by
  have h := Inv.history cs g dc ops
  have hc := (history_contents cs g dc ops).2.2
  refine ⟨fun q hq hd => ?_, fun x hx => ?_⟩
  · rw [refinedNeighbourDistances, h.coord]
    exact List.mem_map.2 ⟨q, refined_complete h hb hdc hsz pos q (by rw [hc]; exact hq) hd, rfl⟩
  · rw [refinedNeighbourDistances, h.coord] at hx
    obtain ⟨q, hq, rfl⟩ := List.mem_map.1 hx
    have := mem_refined_neighbours h pos q hq
    exact ⟨q, by rwa [hc] at this, rfl⟩

/-- C08, the excluded case: in a non-periodic box shorter than `dist_cutoff`, a refined position within
`dist_cutoff` of the query is missed (both are outside the box, on opposite sides). -/
theorem C08_small_box_misses_node :
    ∃ (cs : CoordSys 1) (dc : ℝ) (ops : List (ContainerOp 1)) (pos q : Vec 1),
      ProperBox cs ∧ 0 < dc ∧ q ∈ refinedOf ops ∧ cs.distance pos q < dc ∧
        (history cs 0 dc ops).refinedNeighbourDistances pos = [] := by
  refine ⟨unitBox false, 10, [.setRefined fun _ => 1], fun _ => -1, fun _ => 1,
    unitBox_proper _, by norm_num, by simp [refinedOf], ?_, ?_⟩
  · rw [distance_eucl rfl]
    unfold eucl
    simp only [Finset.univ_unique, Finset.sum_const, Finset.card_singleton, one_smul]
    rw [show ((-1 : ℝ) - 1) ^ 2 = 2 ^ 2 by norm_num, Real.sqrt_sq (by norm_num)]; norm_num
  · have h := Inv.history (unitBox false) 0 10 [.setRefined fun _ => 1]
    have hc := (history_contents (unitBox false) 0 10 [.setRefined fun _ => 1]).2.2
    rw [refinedNeighbourDistances, h.coord, List.map_eq_nil_iff, List.eq_nil_iff_forall_not_mem]
    intro q hq
    rw [CellList.mem_neighbourValues h.rinv, hc] at hq
    obtain ⟨hq1, hq2⟩ := hq
    simp only [refinedOf, List.mem_singleton] at hq1
    subst hq1
    rw [CellList.mem_calculateNeighbourIndices_nonperiodic h.rper] at hq2
    have hn : numCellsFor (unitBox false) 10 0 = 1 := by
      have : truncInt ((10 : ℝ)⁻¹) = 0 := by
        rw [truncInt_of_nonneg (by norm_num), Int.floor_eq_zero_iff]; norm_num
      simp [numCellsFor, unitBox_size, this]
    have hper : (history (unitBox false) 0 10 [.setRefined fun _ => 1]).refined.periodic = false := h.rper
    have t1 : truncInt 1 = 1 := by rw [truncInt_of_nonneg (by norm_num)]; norm_num
    have t2 : truncInt (-1) = -1 := by
      unfold truncInt; rw [if_neg (by norm_num), Int.ceil_eq_iff]; norm_num
    have := hq2.1 0
    have hf : ∀ p : Vec 1, (unitBox false).getFrac p 0 = p 0 := by
      intro p; simp [CoordSys.getFrac, unitBox, CoordSys.size]
    simp [CellList.getIndex, CellList.total, hper, h.rnum, hn, hf, t1, t2] at this

/-- the hypotheses of C08 are met by a container with two nodes across the periodic boundary -/
example : (0.2 : ℝ) ∈ (history (unitBox true) 0 0.3
    [.addResult (sampleRes 1 (fun _ => 0.9) 0 true)]).neighbourDistances (fun _ => 0.1) := by
  have := (C08_node_neighbours_complete (unitBox true) 0 0.3
    [.addResult (sampleRes 1 (fun _ => 0.9) 0 true)] (unitBox_proper _) (by norm_num) (Or.inl rfl)
    (fun _ => 0.1)).1
  have hn : (history (unitBox true) 0 0.3 [.addResult (sampleRes 1 (fun _ => 0.9) 0 true)]).nodes.values
      = [stored (unitBox true) (sampleRes 1 (fun _ => 0.9) 0 true)] := by
    have := (history_contents (unitBox true) 0 0.3 [.addResult (sampleRes 1 (fun _ => 0.9) 0 true)]).1
    simpa [resultsOf, IsNode, sampleRes, SRes.success, SRes.value, SRes.main, FVal.gt, FVal.lt,
      CellList.values] using this
  have hpos : (stored (unitBox true) (sampleRes 1 (fun _ => 0.9) 0 true)).pos = fun _ => 0.9 := by
    simp only [stored, SRes.pos_setPos]
    funext i
    simp only [CoordSys.normalizePosition, unitBox_size, sampleRes, SRes.pos]
    simp only [unitBox, if_true]
    rw [pmod_eq_self (by norm_num) (by norm_num)]; norm_num
  have hdist : (unitBox true).distance (fun _ => 0.1) (fun _ => 0.9) = 0.2 := by
    rw [distance_eq_len]
    unfold len
    simp only [distDelta_periodic (c := unitBox true) rfl, unitBox_size, wrap]
    rw [pmod_eq_self (by norm_num) (by norm_num)]
    rw [min_eq_left (by norm_num)]
    simp only [Finset.univ_unique, Finset.sum_const, Finset.card_singleton, one_smul]
    rw [Real.sqrt_sq (by norm_num)]; norm_num
  have := this _ (by rw [hn]; exact List.mem_singleton_self _)
    (by rw [hpos]; intro e; have := congrFun e 0; norm_num at this)
    (by rw [hpos, hdist]; norm_num)
  rw [hpos, hdist] at this
  exact this.2

/-! ## C09: indices are in range -/

theorem getFrac_range {cs : CoordSys d} (hp : cs.periodic = true) (p : Vec d) (i : Fin d) :
    0 ≤ cs.getFrac p i ∧ cs.getFrac p i < 1 := by
  simp only [CoordSys.getFrac, hp, if_true]
  exact ⟨pmod_nonneg one_pos _, pmod_lt one_pos _⟩

theorem index_in_range {α : Type} {cs : CoordSys d} {dc : ℝ} {c : CellList d α}
    (hper : c.periodic = cs.periodic) (hn : c.numCells = numCellsFor cs dc) (p : Vec d) (i : Fin d) :
    0 ≤ c.getIndex (cs.getFrac p) i ∧ c.getIndex (cs.getFrac p) i < c.total i := by
  cases hp : cs.periodic with
  | true =>
    have hp' : c.periodic = true := by rw [hper, hp]
    have := CellList.getIndex_range_periodic hp' (getFrac_range hp p)
      (fun j => by rw [hn]; exact numCellsFor_pos cs dc j) i
    simpa [CellList.total, hp'] using this
  | false =>
    have hp' : c.periodic = false := by rw [hper, hp]
    simpa [CellList.total, hp'] using CellList.getIndex_range_nonperiodic hp' (cs.getFrac p) i

theorem addPointChecked_eq {α : Type} {cs : CoordSys d} {dc : ℝ} {c : CellList d α}
    (hper : c.periodic = cs.periodic) (hn : c.numCells = numCellsFor cs dc) (p : Vec d) (v : α) :
    c.addPointChecked (cs.getFrac p) v = .ok (c.addPoint (cs.getFrac p) v) := by
  have h := index_in_range hper hn p
  unfold CellList.addPointChecked CellList.addPoint
  have h1 : ∀ j, -c.total j ≤ c.getIndex (cs.getFrac p) j ∧ c.getIndex (cs.getFrac p) j < c.total j :=
    fun j => ⟨by have := h j; omega, (h j).2⟩
  have h2 : (fun j => if c.getIndex (cs.getFrac p) j < 0 then c.getIndex (cs.getFrac p) j + c.total j
      else c.getIndex (cs.getFrac p) j) = c.getIndex (cs.getFrac p) := by
    funext j; rw [if_neg (by have := h j; omega)]
  simp only [h2]
  rw [if_pos h1]

/-- C09 (storing).  In the container after any history, the numpy-indexed `add_point`
(`addPointChecked`: IndexError outside the array, negative indices count from the end) of any position succeeds,
and stores exactly in the cell that the total function `addPoint` uses. -/
theorem C09_add_never_out_of_range (cs : CoordSys d) (g dc : ℝ) (ops : List (ContainerOp d)) (pos : Vec d)
    (r : SRes d) :
    (history cs g dc ops).nodes.addPointChecked (cs.getFrac pos) r
      = .ok ((history cs g dc ops).nodes.addPoint (cs.getFrac pos) r) ∧
    (history cs g dc ops).refined.addPointChecked (cs.getFrac pos) pos
      = .ok ((history cs g dc ops).refined.addPoint (cs.getFrac pos) pos) := by
  have h := Inv.history cs g dc ops
  exact ⟨addPointChecked_eq h.nper h.nnum _ _, addPointChecked_eq h.rper h.rnum _ _⟩

/-- C09 (looking up): all cells visited by a lookup exist. -/
theorem C09_lookup_never_out_of_range (cs : CoordSys d) (g dc : ℝ) (ops : List (ContainerOp d))
    (pos : Vec d) :
    ∀ idx ∈ (history cs g dc ops).nodes.calculateNeighbourIndices
        ((history cs g dc ops).nodes.getIndex (cs.getFrac pos)),
      ∀ i, 0 ≤ idx i ∧ idx i < (history cs g dc ops).nodes.total i := by
  have h := Inv.history cs g dc ops
  intro idx hidx i
  have hnpos : (0 : ℤ) < (history cs g dc ops).nodes.numCells i := by
    rw [h.nnum]; exact_mod_cast numCellsFor_pos cs dc i
  cases hp : cs.periodic with
  | true =>
    have hp' : (history cs g dc ops).nodes.periodic = true := by rw [h.nper, hp]
    rw [CellList.mem_calculateNeighbourIndices_periodic hp'] at hidx
    obtain ⟨o, -, ho⟩ := hidx
    rw [← ho i]
    simp only [CellList.total, hp', if_true]
    exact ⟨Int.emod_nonneg _ hnpos.ne', Int.emod_lt_of_pos _ hnpos⟩
  | false =>
    have hp' : (history cs g dc ops).nodes.periodic = false := by rw [h.nper, hp]
    rw [CellList.mem_calculateNeighbourIndices_nonperiodic hp'] at hidx
    simpa [CellList.total, hp'] using hidx.2 i

/-- The number of cells per direction is between 1 and 100 for every box and cutoff, so `CellList`'s own assertion
(`num_cells > 0`) holds. -/
theorem C09_num_cells_positive (cs : CoordSys d) (dc : ℝ) (i : Fin d) :
    0 < numCellsFor cs dc i ∧ numCellsFor cs dc i ≤ 100 :=
  ⟨numCellsFor_pos cs dc i, numCellsFor_le cs dc i⟩

/-! ## C10: multiplicity -/

/-- C10, exact: in a periodic container a stored refined position is returned as many times as there are
steps in `{-1,0,1}^d` leading (modulo the number of cells) to its cell. -/
theorem C10_multiplicity_periodic (cs : CoordSys d) (g dc : ℝ) (ops : List (ContainerOp d))
    (hp : cs.periodic = true) (pos q : Vec d) :
    ((history cs g dc ops).refined.neighbourValues (cs.getFrac pos)).count q
      = (∏ i, ([-1, 0, 1] : List ℤ).countP fun o => decide
          (((history cs g dc ops).refined.getIndex (cs.getFrac pos) i + o) % numCellsFor cs dc i
            = (history cs g dc ops).refined.getIndex (cs.getFrac q) i))
        * (refinedOf ops).count q := by
  have h := Inv.history cs g dc ops
  rw [CellList.count_neighbourValues h.rinv, CellList.count_calculate_periodic (by rw [h.rper, hp]),
    (history_contents cs g dc ops).2.2, h.rnum]

theorem countP_le_one_of_three {n : ℕ} (hn : 3 ≤ n) (a b : ℤ) :
    ([-1, 0, 1] : List ℤ).countP (fun o => decide ((a + o) % n = b)) ≤ 1 := by
  have key : ∀ x y : ℤ, (a + x) % n = b → (a + y) % n = b → (n : ℤ) ∣ (x - y) := by
    intro x y hx hy
    have := Int.emod_emod_of_dvd
    have h : (a + x) % n = (a + y) % n := by rw [hx, hy]
    have := Int.emod_emod_of_dvd
    have h2 := Int.ModEq.dvd (n := (n : ℤ)) (a := a + y) (b := a + x) h.symm
    have : a + x - (a + y) = x - y := by ring
    rwa [this] at h2
  have nd : ∀ z : ℤ, (n : ℤ) ∣ z → z ≠ 0 → 3 ≤ |z| := by
    intro z hz h0
    have := Int.le_of_dvd (abs_pos.2 h0) ((dvd_abs _ _).2 hz)
    omega
  simp only [List.countP_cons, List.countP_nil, decide_eq_true_eq]
  by_cases h1 : (a + -1) % n = b <;> by_cases h2 : (a + 0) % n = b <;> by_cases h3 : (a + 1) % n = b <;>
    simp only [h1, h2, h3, if_true, if_false] <;> try norm_num
  · have := nd _ (key _ _ h1 h2) (by norm_num); norm_num at this
  · have := nd _ (key _ _ h1 h2) (by norm_num); norm_num at this
  · have := nd _ (key _ _ h1 h3) (by norm_num); norm_num at this
  · have := nd _ (key _ _ h2 h3) (by norm_num); norm_num at this

theorem numCellsFor_ge_three {cs : CoordSys d} {dc : ℝ} (hdc : 0 < dc) {i : Fin d}
    (h : 3 * dc ≤ cs.size i) : 3 ≤ numCellsFor cs dc i := by
  have h0 : 3 ≤ cs.size i / dc := by rw [le_div_iff₀ hdc]; exact h
  have h1 : 3 ≤ truncInt (cs.size i / dc) := by
    rw [truncInt_of_nonneg (by linarith)]
    exact Int.le_floor.2 (by exact_mod_cast h0)
  unfold numCellsFor
  rw [if_neg hdc.ne']
  omega

theorem count_calculate_le_one {α : Type} {cs : CoordSys d} {dc : ℝ} (hdc : 0 < dc) {c : CellList d α}
    (hper : c.periodic = cs.periodic) (hn : c.numCells = numCellsFor cs dc)
    (hsz : cs.periodic = true → ∀ i, 3 * dc ≤ cs.size i) (a b : Idx d) :
    (c.calculateNeighbourIndices a).count b ≤ 1 := by
  cases hp : cs.periodic with
  | true =>
    rw [CellList.count_calculate_periodic (by rw [hper, hp]), hn]
    exact Finset.prod_le_one' fun i _ => countP_le_one_of_three (numCellsFor_ge_three hdc (hsz hp i)) _ _
  | false =>
    exact List.nodup_iff_count_le_one.1 (CellList.nodup_calculate_nonperiodic (by rw [hper, hp]) a) b

theorem neighbourValues_perm {α : Type} {cs : CoordSys d} {dc : ℝ} (hdc : 0 < dc) {c : CellList d α}
    {pos : α → Vec d} (hinv : c.Inv fun v => cs.getFrac (pos v))
    (hper : c.periodic = cs.periodic) (hn : c.numCells = numCellsFor cs dc)
    (hsz : cs.periodic = true → ∀ i, 3 * dc ≤ cs.size i) (f : Vec d) :
    (c.neighbourValues f).Perm (c.flat.filter fun v =>
      decide (c.getIndex (cs.getFrac (pos v)) ∈ c.calculateNeighbourIndices (c.getIndex f))) := by
  rw [List.perm_iff_count]
  intro v
  rw [CellList.count_neighbourValues hinv]
  by_cases h : c.getIndex (cs.getFrac (pos v)) ∈ c.calculateNeighbourIndices (c.getIndex f)
  · have h1 := count_calculate_le_one hdc hper hn hsz (c.getIndex f) (c.getIndex (cs.getFrac (pos v)))
    have h2 := List.count_pos_iff.2 h
    rw [show (c.calculateNeighbourIndices (c.getIndex f)).count (c.getIndex (cs.getFrac (pos v))) = 1 by omega,
      one_mul, List.count_filter (by simpa using h)]
  · rw [List.count_eq_zero_of_not_mem h, zero_mul, eq_comm, List.count_eq_zero]
    simp [h]

/-- C10.  If a periodic box is at least three times `dist_cutoff` in every direction, or the space is not periodic,
a lookup returns every stored value at most as often as it was stored: the result is, up to order, a sublist of the stored
values. -/
theorem C10_each_value_once (cs : CoordSys d) (g dc : ℝ) (ops : List (ContainerOp d)) (hdc : 0 < dc)
    (hsz : cs.periodic = true → ∀ i, 3 * dc ≤ cs.upper i - cs.lower i) (pos : Vec d) :
    ((history cs g dc ops).refined.neighbourValues (cs.getFrac pos)).Subperm (refinedOf ops) ∧
    ((history cs g dc ops).nodes.neighbourValues (cs.getFrac pos)).Subperm
      (history cs g dc ops).nodes.values := by
  have h := Inv.history cs g dc ops
  constructor
  · rw [← (history_contents cs g dc ops).2.2]
    exact (neighbourValues_perm hdc h.rinv h.rper h.rnum hsz _).subperm.trans List.filter_sublist.subperm
  · exact (neighbourValues_perm hdc h.ninv h.nper h.nnum hsz _).subperm.trans List.filter_sublist.subperm

/-- C10, counting: then the number of distances below `dist_cutoff` found equals the number of
refined positions nearer than `dist_cutoff`. -/
theorem C10_count_exact (cs : CoordSys d) (g dc : ℝ) (ops : List (ContainerOp d)) (hb : ProperBox cs) (hdc : 0 < dc)
    (hsz : if cs.periodic then ∀ i, 3 * dc ≤ cs.upper i - cs.lower i else ∀ i, dc ≤ cs.upper i - cs.lower i)
    (pos : Vec d) :
    (((history cs g dc ops).refinedNeighbourDistances pos).filter fun x => decide (x < dc)).length
      = ((refinedOf ops).filter fun q => decide (cs.distance pos q < dc)).length := by
  have h := Inv.history cs g dc ops
  have h3 : cs.periodic = true → ∀ i, 3 * dc ≤ cs.size i := by intro hp; rw [if_pos hp] at hsz; exact hsz
  have h1 : cs.periodic = true ∨ ∀ i, dc ≤ cs.size i := by
    cases hp : cs.periodic with
    | true => exact Or.inl rfl
    | false => exact Or.inr (by rw [hp] at hsz; exact hsz)
  rw [refinedNeighbourDistances, h.coord, List.filter_map, List.length_map]
  rw [((neighbourValues_perm hdc h.rinv h.rper h.rnum h3 (cs.getFrac pos)).filter _).length_eq,
    (history_contents cs g dc ops).2.2, List.filter_filter]
  congr 1
  apply List.filter_congr
  intro q _
  simp only [Function.comp]
  by_cases e : cs.distance pos q < dc
  · simp [e, CellList.near_mem_neighbours hb hdc h1 h.rper h.rnum _ _ e]
  · simp [e]

/-- C10, the excluded case: in a periodic box shorter than `2 * dist_cutoff` in every direction, every refined position is
returned `3 ^ dim` times, so counts are too large by that factor. -/
theorem C10_small_periodic_box_overcounts (cs : CoordSys d) (g dc : ℝ) (ops : List (ContainerOp d)) (hb : ProperBox cs)
    (hp : cs.periodic = true) (hdc : 0 < dc) (hsz : ∀ i, cs.upper i - cs.lower i < 2 * dc) (pos q : Vec d) :
    ((history cs g dc ops).refined.neighbourValues (cs.getFrac pos)).count q
      = 3 ^ d * (refinedOf ops).count q := by
  have h := Inv.history cs g dc ops
  have hn : ∀ i, numCellsFor cs dc i = 1 := by
    intro i
    have h0 : cs.size i / dc < 2 := by rw [div_lt_iff₀ hdc]; exact hsz i
    have h1 : truncInt (cs.size i / dc) ≤ 1 := by
      rw [truncInt_of_nonneg (div_pos (size_pos hb i) hdc).le]
      have : ⌊cs.size i / dc⌋ < 2 := Int.floor_lt.2 (by exact_mod_cast h0)
      omega
    unfold numCellsFor
    rw [if_neg hdc.ne']
    omega
  rw [C10_multiplicity_periodic cs g dc ops hp]
  congr 1
  rw [show (3 : ℕ) ^ d = ∏ _i : Fin d, 3 by simp]
  apply Finset.prod_congr rfl
  intro i _
  have hr := index_in_range h.rper h.rnum q i
  have ht : (history cs g dc ops).refined.total i = 1 := by
    have : (history cs g dc ops).refined.periodic = true := by rw [h.rper, hp]
    simp [CellList.total, this, h.rnum, hn]
  rw [ht] at hr
  have : (history cs g dc ops).refined.getIndex (cs.getFrac q) i = 0 := by omega
  simp [hn, this]

/-- non-vacuity of C10: a box of three cutoffs, and the overcounting case -/
example : ((history (unitBox true) 0 0.3 [.setRefined fun _ => 0.5]).refinedNeighbourDistances
    (fun _ => 0.5)).filter (fun x => decide (x < 0.3)) ≠ [] := by
  intro h
  have := C10_count_exact (unitBox true) 0 0.3 [.setRefined fun _ => 0.5] (unitBox_proper _) (by norm_num)
    (by simp [unitBox]; norm_num) (fun _ => 0.5)
  rw [h] at this
  have e : (unitBox true).distance (fun _ => 0.5) (fun _ => 0.5) = 0 := by
    have := (C03_distance_metric (unitBox true) (unitBox_proper _)
      (fun _ => 0.5) (fun _ => 0.5) (fun _ => 0.5)).2.2.2
    rw [this]
    simp only [SamePoint, unitBox, if_true, Congr]
    exact ⟨fun _ => 0, by funext i; simp [shift]⟩
  simp only [refinedOf, List.filter_cons, e, List.filter_nil] at this
  norm_num at this

/-! ## C11: the cache -/

/-- cache entries are correct -/
def CacheOk {α : Type} (c : CellList d α) : Prop :=
  ∀ idx l, c.cache idx = some l → l = c.calculateNeighbourIndices idx

theorem getNeighbourValues_eq {α : Type} {c : CellList d α} (h : CacheOk c) (f : Vec d) :
    (c.getNeighbourValues f).1 = c.neighbourValues f ∧ CacheOk (c.getNeighbourValues f).2 ∧
      ∃ cache, (c.getNeighbourValues f).2 = { c with cache := cache } := by
  unfold CellList.getNeighbourValues CellList.getNeighbourIndices CellList.neighbourValues
  cases e : c.cache (c.getIndex f) with
  | some l => rw [← h _ _ e]; exact ⟨rfl, h, _, rfl⟩
  | none =>
    refine ⟨rfl, ?_, _, rfl⟩
    intro idx l hl
    simp only [Function.update_apply] at hl
    split at hl
    · rename_i e1; subst e1; exact (Option.some.inj hl).symm
    · exact h idx l hl

theorem cached_aux {α : Type} (ops : List (CellOp d α)) (c : CellList d α) (cache : Idx d → Option (List (Idx d)))
    (h : CacheOk { c with cache := cache }) :
    (runCached { c with cache := cache } ops).2 = (runUncached c ops).2 ∧
      (runCached { c with cache := cache } ops).1.values = c.flat ++ addedValues ops := by
  induction ops generalizing c cache with
  | nil => simp [runCached, runUncached, addedValues, CellList.values]
  | cons op ops ih =>
    cases op with
    | add f v =>
      have := ih (c.addPoint f v) cache h
      simp only [runCached, runUncached, addedValues]
      refine ⟨this.1, ?_⟩
      have h2 := this.2
      simp only [CellList.addPoint, List.append_assoc, List.singleton_append] at h2 ⊢
      exact h2
    | lookup f =>
      obtain ⟨h1, h2, cache', h3⟩ := getNeighbourValues_eq h f
      rw [h3] at h2
      have := ih c cache' h2
      simp only [runCached, runUncached, addedValues, h1]
      rw [h3]
      exact ⟨by rw [this.1]; rfl, this.2⟩

/-- C11.  For every history of stores and lookups on a new cell list: the lookups with the lazily filled
cache return what lookups that recompute the neighbouring cells return, and `values()` lists the stored
values in order. -/
theorem C11_cache_transparent {α : Type} (n : Fin d → ℕ) (periodic : Bool) (ops : List (CellOp d α)) :
    (runCached (CellList.mk' n periodic) ops).2 = (runUncached (CellList.mk' n periodic) ops).2 ∧
      (runCached (CellList.mk' n periodic) ops).1.values = addedValues ops := by
  have := cached_aux ops (CellList.mk' n periodic) (fun _ => none) (by intro i l h; simp at h)
  simpa [CellList.mk'] using this

/-- non-vacuity: a lookup between two stores, and one after, in a 1-cell periodic list -/
example : (runCached (CellList.mk' (fun _ : Fin 0 => 1) true : CellList 0 ℕ)
    [.add Fin.elim0 5, .lookup Fin.elim0, .add Fin.elim0 6, .lookup Fin.elim0]).1.values = [5, 6] :=
  (C11_cache_transparent _ _ _).2

/-! ## C12: classification -/

/-- C12.  `nodes` are, in order, exactly the added results that succeeded with a value not above the threshold, moved to
their normalized position; `rejected_results` exactly the others. -/
theorem C12_nodes_and_rejected (cs : CoordSys d) (g dc : ℝ) (ops : List (ContainerOp d)) :
    (history cs g dc ops).nodes.values
        = ((resultsOf ops).filter fun r => decide (IsNode g r)).map
            (fun r => movedTo r (cs.normalizePosition r.pos)) ∧
      (history cs g dc ops).rejected
        = ((resultsOf ops).filter fun r => decide (¬ IsNode g r)).map
            (fun r => movedTo r (cs.normalizePosition r.pos)) ∧
      (history cs g dc ops).refined.values = refinedOf ops :=
  history_contents cs g dc ops

/-- C12: `add_result` returns `True` exactly for nodes. -/
theorem C12_add_result_return (cs : CoordSys d) (g dc : ℝ) (ops : List (ContainerOp d)) (r : SRes d) :
    ((history cs g dc ops).addResult r).2 = true ↔ IsNode g r := by
  rw [addResult_def, (Inv.history cs g dc ops).gap]
  split <;> simp_all

/-- C12: `minimization_results` contains every added result exactly once (as often as it was added). -/
theorem C12_minimization_results_complete (cs : CoordSys d) (g dc : ℝ) (ops : List (ContainerOp d)) :
    (history cs g dc ops).minimizationResults.Perm
      ((resultsOf ops).map fun r => movedTo r (cs.normalizePosition r.pos)) := by
  have h := history_contents cs g dc ops
  unfold minimizationResults CellList.values
  rw [h.1, h.2.1, ← List.map_append]
  refine List.Perm.map _ ?_
  have := List.filter_append_perm (fun r => decide (IsNode g r)) (resultsOf ops)
  rw [show (resultsOf ops).filter (fun r => decide (¬ IsNode g r))
      = (resultsOf ops).filter (fun r => !decide (IsNode g r)) from List.filter_congr fun x _ => by simp]
  exact this

/-- C12: nothing is ever removed: more calls only append. -/
theorem C12_monotone (cs : CoordSys d) (g dc : ℝ) (ops more : List (ContainerOp d)) :
    (history cs g dc ops).nodes.values <+: (history cs g dc (ops ++ more)).nodes.values ∧
      (history cs g dc ops).rejected <+: (history cs g dc (ops ++ more)).rejected ∧
      (history cs g dc ops).refined.values <+: (history cs g dc (ops ++ more)).refined.values := by
  have h1 := history_contents cs g dc ops
  have h2 := history_contents cs g dc (ops ++ more)
  unfold CellList.values
  rw [h1.1, h1.2.1, h1.2.2, h2.1, h2.2.1, h2.2.2, resultsOf_append, refinedOf_append]
  simp

/-- a NaN value is not "above" the threshold; only `success` protects from it (see C43) -/
example : IsNode (d := 1) 0 (.plain ⟨fun _ => 0, FVal.nan, 1, 1, 0, true, "", [], none⟩) := by
  simp [IsNode, SRes.success, SRes.value, SRes.main, FVal.gt, FVal.lt]

/-- non-vacuity: one node, one above the threshold, one failed -/
example : (history (unitBox false) 0.5 0.1
    [.addResult (sampleRes 1 (fun _ => 0.1) 0 true), .addResult (sampleRes 1 (fun _ => 0.2) 1 true),
     .addResult (sampleRes 1 (fun _ => 0.3) 0 false)]).nodes.values.length = 1 := by
  have lt1 : ((0.5 : ℝ) : EReal) < ((1 : ℝ) : EReal) := by exact_mod_cast (by norm_num : (0.5 : ℝ) < 1)
  have lt0 : ¬ ((0.5 : ℝ) : EReal) < ((0 : ℝ) : EReal) := by
    have : ¬ (0.5 : ℝ) < 0 := by norm_num
    exact_mod_cast this
  rw [(C12_nodes_and_rejected _ _ _ _).1, List.length_map]
  have a1 : IsNode 0.5 (sampleRes 1 (fun _ => 0.1) 0 true) :=
    ⟨rfl, fun h => lt0 (WithTop.coe_lt_coe.1 h.2.2)⟩
  have a2 : ¬ IsNode 0.5 (sampleRes 1 (fun _ => 0.2) 1 true) := fun h => h.2
    ⟨WithTop.coe_ne_top, WithTop.coe_ne_top, WithTop.coe_lt_coe.2 lt1⟩
  have a3 : ¬ IsNode 0.5 (sampleRes 1 (fun _ => 0.3) 0 false) := fun h => by
    have := h.1; simp [sampleRes, SRes.success, SRes.main] at this
  simp [resultsOf, a1, a2, a3]

/-! ## C13: stored positions -/

/-- C13.  In a periodic search every stored result is an added one moved by whole box lengths into
`[lower, upper)`; in a non-periodic search the position is unchanged. -/
theorem C13_stored_positions_normalized (cs : CoordSys d) (g dc : ℝ) (ops : List (ContainerOp d)) (hb : ProperBox cs) :
    ∀ r ∈ (history cs g dc ops).minimizationResults, ∃ r0 ∈ resultsOf ops,
      SamePoint cs r0.pos r.pos ∧ (cs.periodic = true → InBox cs r.pos) ∧
        r.value = r0.value ∧ r.success = r0.success := by
  intro r hr
  have := (C12_minimization_results_complete cs g dc ops).mem_iff.1 hr
  obtain ⟨r0, hr0, rfl⟩ := List.mem_map.1 this
  refine ⟨r0, hr0, ?_, ?_, by simp [movedTo], by simp [movedTo]⟩
  · simp only [movedTo, SRes.pos_setPos, SamePoint]
    split
    · rename_i hp
      have : ∀ i, ∃ k : ℤ, cs.normalizePosition r0.pos i = r0.pos i + k * cs.size i := by
        intro i
        obtain ⟨k, hk⟩ := pmod_exists (r0.pos i - cs.lower i) (cs.size i)
        exact ⟨k, by simp only [CoordSys.normalizePosition, hp, if_true]; rw [hk]; ring⟩
      choose k hk using this
      exact ⟨k, funext hk⟩
    · rename_i hp
      funext i
      simp [CoordSys.normalizePosition, hp]
  · intro hp i
    simp only [movedTo, SRes.pos_setPos, CoordSys.normalizePosition, hp, if_true]
    have h0 := pmod_nonneg (size_pos hb i) (r0.pos i - cs.lower i)
    have h1 := pmod_lt (size_pos hb i) (r0.pos i - cs.lower i)
    have : cs.size i = cs.upper i - cs.lower i := rfl
    constructor <;> linarith

/-! ## C14: fake potential -/

/-- C14.  With `width ≤ dist_cutoff` (the search uses `width = dist_cutoff`), the fake potential is infinite exactly if some
node not exactly at `pos` is closer than `width`, and zero otherwise. -/
theorem C14_fake_potential (cs : CoordSys d) (g dc : ℝ) (ops : List (ContainerOp d)) (hb : ProperBox cs) (hdc : 0 < dc)
    (hsz : cs.periodic = true ∨ ∀ i, dc ≤ cs.upper i - cs.lower i) (width : ℝ) (hw : width ≤ dc) (pos : Vec d) :
    fakePotential (history cs g dc ops) width pos
      = if ∃ r ∈ (history cs g dc ops).nodes.values, r.pos ≠ pos ∧ cs.distance pos r.pos < width
        then FVal.inf else FVal.ofReal 0 := by
  have h := Inv.history cs g dc ops
  unfold fakePotential
  congr 1
  simp only [eq_iff_iff, List.any_eq_true, decide_eq_true_eq]
  have key : ∀ x, x ∈ (history cs g dc ops).allNeighbourDistances pos ↔
      ∃ r ∈ (history cs g dc ops).neighbourIterator pos, cs.distance pos r.pos = x := by
    intro x
    simp only [allNeighbourDistances, h.coord]
    split
    · rename_i e
      rw [List.map_eq_nil_iff] at e
      simp [e]
    · simp
  constructor
  · rintro ⟨x, hx, hlt⟩
    obtain ⟨r, hr, rfl⟩ := (key x).1 hx
    have := mem_neighbourIterator h pos r hr
    exact ⟨r, this.1, this.2, hlt⟩
  · rintro ⟨r, hr, hne, hlt⟩
    exact ⟨_, (key _).2 ⟨r, neighbourIterator_complete h hb hdc hsz pos r hr hne (hlt.trans_le hw), rfl⟩, hlt⟩

/-- C14, the excluded point: exactly at a node, with no other node near, the potential is zero, not infinite. -/
theorem C14_zero_at_lone_node (cs : CoordSys d) (g dc : ℝ) (hb : ProperBox cs) (hdc : 0 < dc)
    (hsz : cs.periodic = true ∨ ∀ i, dc ≤ cs.upper i - cs.lower i) (r : SRes d) :
    fakePotential (history cs g dc [.addResult r]) dc (cs.normalizePosition r.pos) = FVal.ofReal 0 := by
  rw [C14_fake_potential cs g dc _ hb hdc hsz dc le_rfl, if_neg]
  rintro ⟨r', hr', hne, -⟩
  rw [(C12_nodes_and_rejected _ _ _ _).1] at hr'
  obtain ⟨r0, hr0, rfl⟩ := List.mem_map.1 hr'
  have := (List.mem_filter.1 hr0).1
  simp only [resultsOf, List.mem_singleton] at this
  subst this
  exact hne (by simp [movedTo])

/-! ## C15: re-creation -/

/-- C15 (same settings).  Building a container from the `minimization_results` and refined positions of another one with the same
settings gives the same nodes, rejected results and refined positions, in the same order. -/
theorem C15_recreate_same (cs : CoordSys d) (g dc : ℝ) (ops : List (ContainerOp d)) (hb : ProperBox cs) :
    let c := history cs g dc ops
    let c' := Container.create cs c.minimizationResults g dc c.refined.values
    c'.nodes.values = c.nodes.values ∧ c'.rejected = c.rejected ∧ c'.refined.values = c.refined.values := by
  intro c c'
  have h := history_contents cs g dc ops
  have h' := create_contents cs c.minimizationResults g dc c.refined.values
  have f1 : ∀ l : List (SRes d), (∀ r ∈ l, IsNode g r) →
      (l.map (stored cs)).filter (fun r => decide (IsNode g r)) = l.map (stored cs) ∧
      (l.map (stored cs)).filter (fun r => decide (¬ IsNode g r)) = [] := by
    intro l hl
    constructor
    · apply List.filter_eq_self.2
      intro r hr
      obtain ⟨r0, hr0, rfl⟩ := List.mem_map.1 hr
      simpa [isNode_stored] using hl r0 hr0
    · rw [List.filter_eq_nil_iff]
      intro r hr
      obtain ⟨r0, hr0, rfl⟩ := List.mem_map.1 hr
      simpa [isNode_stored] using hl r0 hr0
  have f2 : ∀ l : List (SRes d), (∀ r ∈ l, ¬ IsNode g r) →
      (l.map (stored cs)).filter (fun r => decide (¬ IsNode g r)) = l.map (stored cs) ∧
      (l.map (stored cs)).filter (fun r => decide (IsNode g r)) = [] := by
    intro l hl
    constructor
    · apply List.filter_eq_self.2
      intro r hr
      obtain ⟨r0, hr0, rfl⟩ := List.mem_map.1 hr
      simpa [isNode_stored] using hl r0 hr0
    · rw [List.filter_eq_nil_iff]
      intro r hr
      obtain ⟨r0, hr0, rfl⟩ := List.mem_map.1 hr
      simpa [isNode_stored] using hl r0 hr0
  have g1 := f1 ((resultsOf ops).filter fun r => decide (IsNode g r))
    (fun r hr => by simpa using (List.mem_filter.1 hr).2)
  have g2 := f2 ((resultsOf ops).filter fun r => decide (¬ IsNode g r))
    (fun r hr => by simpa using (List.mem_filter.1 hr).2)
  have hm : c.minimizationResults = c.nodes.flat ++ c.rejected := rfl
  have mm : ∀ l : List (SRes d), (l.map (stored cs)).map (stored cs) = l.map (stored cs) := by
    intro l
    rw [List.map_map]
    exact List.map_congr_left fun r _ => stored_stored hb r
  refine ⟨?_, ?_, h'.2.2⟩
  · change c'.nodes.flat = c.nodes.flat
    rw [h'.1, hm, h.1, h.2.1, List.filter_append, g1.1, g2.2, List.append_nil, mm]
  · rw [h'.2.1, hm, h.1, h.2.1, List.filter_append, g1.2, g2.1, List.nil_append, mm]

/-- C15 (new threshold).  With another `gap_threshold` (and `dist_cutoff`), the nodes of the new container are exactly the
successful results not above the new threshold, all others are rejected. -/
theorem C15_recreate_new_threshold (cs : CoordSys d) (g g' dc dc' : ℝ) (ops : List (ContainerOp d)) (hb : ProperBox cs) :
    let c := history cs g dc ops
    let c' := Container.create cs c.minimizationResults g' dc' c.refined.values
    c'.nodes.values = c.minimizationResults.filter (fun r => decide (IsNode g' r)) ∧
      c'.rejected = c.minimizationResults.filter (fun r => decide (¬ IsNode g' r)) := by
  intro c c'
  have h := history_contents cs g dc ops
  have h' := create_contents cs c.minimizationResults g' dc' c.refined.values
  have fix : ∀ r ∈ c.minimizationResults, stored cs r = r := by
    intro r hr
    have := (C12_minimization_results_complete cs g dc ops).mem_iff.1 hr
    obtain ⟨r0, -, rfl⟩ := List.mem_map.1 this
    exact stored_stored hb r0
  constructor
  · change c'.nodes.flat = _
    rw [h'.1]
    conv_rhs => rw [← List.map_id (List.filter _ _)]
    exact List.map_congr_left fun r hr => fix r (List.mem_filter.1 hr).1
  · rw [h'.2.1]
    conv_rhs => rw [← List.map_id (List.filter _ _)]
    exact List.map_congr_left fun r hr => fix r (List.mem_filter.1 hr).1

/-- A result whose position has not been assigned separately from its second run's position: what the minimizer returns. -/
def FreshResult (r : SRes d) : Prop :=
  match r with
  | .plain _ => True
  | .joined _ _ posAttr => posAttr = none

/-- C15 (through a file).  Saving loses the normalized `pos` attribute of two-step results (only
`child` and `ancestor` are written); re-creating the container from the reloaded results still restores the same nodes and
rejected results, because `add_result` normalizes again. -/
theorem C15_recreate_after_reload (cs : CoordSys d) (g dc : ℝ) (ops : List (ContainerOp d)) (hb : ProperBox cs)
    (hf : ∀ r ∈ resultsOf ops, FreshResult r) :
    let c := history cs g dc ops
    let c' := Container.create cs (c.minimizationResults.map SRes.reload) g dc c.refined.values
    c'.nodes.values = c.nodes.values ∧ c'.rejected = c.rejected ∧ c'.refined.values = c.refined.values := by
  intro c c'
  have same := C15_recreate_same cs g dc ops hb
  simp only at same
  have h1 := create_contents cs c.minimizationResults g dc c.refined.values
  have h2 := create_contents cs (c.minimizationResults.map SRes.reload) g dc c.refined.values
  have key : ∀ r ∈ c.minimizationResults, stored cs r.reload = stored cs r ∧ (IsNode g r.reload ↔ IsNode g r) := by
    intro r hr
    have := (C12_minimization_results_complete cs g dc ops).mem_iff.1 hr
    obtain ⟨r0, hr0, rfl⟩ := List.mem_map.1 this
    have hf0 := hf r0 hr0
    cases r0 with
    | plain m => exact ⟨rfl, Iff.rfl⟩
    | joined ch an pa =>
      have e : pa = none := hf0
      subst e
      refine ⟨?_, Iff.rfl⟩
      simp [stored, movedTo, SRes.setPos, SRes.reload, SRes.pos, normalize_idem hb]
  have k1 : ∀ P : SRes d → Prop, (∀ r ∈ c.minimizationResults, (P r.reload ↔ P r)) →
      ((c.minimizationResults.map SRes.reload).filter fun r => decide (P r)).map (stored cs)
        = (c.minimizationResults.filter fun r => decide (P r)).map (stored cs) := by
    intro P hP
    rw [List.filter_map, List.map_map]
    have : c.minimizationResults.filter ((fun r => decide (P r)) ∘ SRes.reload)
        = c.minimizationResults.filter fun r => decide (P r) :=
      List.filter_congr fun r hr => by simp [hP r hr]
    rw [this]
    exact List.map_congr_left fun r hr => (key r (List.mem_filter.1 hr).1).1
  refine ⟨?_, ?_, ?_⟩
  · rw [← same.1]
    change c'.nodes.flat = _
    rw [h2.1, k1 _ fun r hr => (key r hr).2]
    exact h1.1.symm
  · rw [← same.2.1, h2.2.1, h1.2.1]
    convert k1 (fun r => ¬ IsNode g r) fun r hr => not_congr (key r hr).2
  · exact h2.2.2

/-- non-vacuity: a fresh two-step result outside the box -/
example : FreshResult (SRes.joined (d := 1) ⟨fun _ => 1.5, FVal.ofReal 0, 1, 1, 0, true, "", [], none⟩
    ⟨fun _ => 1.4, FVal.ofReal 0, 1, 1, 0, true, "", [], none⟩ none) := rfl

end NF
