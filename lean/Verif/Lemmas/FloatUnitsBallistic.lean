import Verif.Props.FloatUnitsDim
import Verif.Lemmas.SimilarMoves
import Verif.Model.FloatBallistic

/-! # Lemmas: the ballistic method with rounding, in a unit that differs by a power of two -/

noncomputable section
open Classical

namespace NF
open Spec
variable {d : ℕ}

theorem similar_binary (k : ℤ) (cs : CoordSys d) : Similar cs (binaryCoord k cs) Set.univ (binEmb d k) (2 ^ k) id := by
  have h := similar_units (searchUnits k 0) cs
  rw [su_coord] at h
  have hp : (searchUnits k 0 : Units d).pos = binEmb d k := by
    funext x
    rw [su_pos]
    rfl
  rw [hp] at h
  exact h

section
variable {rnd : ℝ → ℝ} (hr : BinaryRounding rnd) (k : ℤ) {B : FL.Blas d} (hB : ∀ v x, B.nrm2 v x → B.nrm2 (fun i => 2 ^ k * v i) (2 ^ k * x)) {cs : CoordSys d} (hp : cs.periodic = false)

/-- conversion back -/
def binInv (k : ℤ) (x : Vec d) : Vec d := fun i => 2 ^ (-k) * x i

theorem binInv_emb (x : Vec d) : binInv k (binEmb d k x) = x := by
  funext i
  change (2 : ℝ) ^ (-k) * (2 ^ k * x i) = x i
  rw [← mul_assoc, ← zpow_add₀ (by norm_num)]
  simp

include hr

theorem bin_vec (cs : CoordSys d) (x y : Vec d) : FL.connectingVector rnd (binaryCoord k cs) (binEmb d k x) (binEmb d k y) = fun i => 2 ^ k * FL.connectingVector rnd cs x y i := by
  funext i
  exact C119_connecting_vector hr k cs x y i

theorem bin_normOf {v : Vec d} {x : ℝ} (h : FL.NormOf rnd v x) : FL.NormOf rnd (fun i => 2 ^ k * v i) (2 ^ k * x) := by
  obtain ⟨s, hs, rfl⟩ := h
  refine ⟨2 ^ (2 * k) * s, ?_, ?_⟩
  · have h1 := bin_rndSum hr (2 * k) hs
    rw [List.map_ofFn] at h1
    convert h1 using 3 with i
    simp only [Function.comp]
    rw [mul_pow, ← zpow_natCast ((2 : ℝ) ^ k) 2, ← zpow_mul, mul_comm k, ← hr]
    rfl
  · rw [Real.sqrt_mul (two_zpow_pos _).le, mul_comm 2 k, zpow_mul, ← hr]
    congr 2
    exact (Real.sqrt_sq (two_zpow_pos k).le).symm

theorem bin_unitVec (nrm : Vec d → ℝ) (x y : Vec d) : FL.unitVec rnd (binaryCoord k cs) (fun z => 2 ^ k * nrm (binInv k z)) (binEmb d k x) (binEmb d k y) = FL.unitVec rnd cs nrm x y := by
  unfold FL.unitVec
  funext i
  rw [bin_vec hr]
  dsimp only
  rw [binInv_emb, mul_div_mul_left _ _ (two_zpow_pos k).ne']

omit hr in
theorem bin_usable (g : NxGraph (Vec d) ℝ) (nrm : Vec d → ℝ) (x : Vec d) : FL.usableNeighbors (binaryGraph k g) (fun z => 2 ^ k * nrm (binInv k z)) (binEmb d k x) = (FL.usableNeighbors g nrm x).map (binEmb d k) := by
  unfold FL.usableNeighbors
  rw [show (binaryGraph k g).neighbors (binEmb d k x) = _ from binaryGraph_neighbors k g x]
  refine filter_map_congr _ fun y _ => ?_
  dsimp only
  rw [binInv_emb]
  exact mul_pos_iff_of_pos_left (two_zpow_pos k)

omit hr in
theorem bin_candidate (g : NxGraph (Vec d) ℝ) (nrm angle : Vec d → ℝ) (x : Vec d) :
    FL.candidateNodes (binaryGraph k g) (fun z => 2 ^ k * nrm (binInv k z)) (fun z => angle (binInv k z)) (binEmb d k x) = (FL.candidateNodes g nrm angle x).map (binEmb d k) := by
  unfold FL.candidateNodes
  rw [bin_usable]
  exact filter_map_congr _ fun y _ => by dsimp only; rw [binInv_emb]

omit hr in
theorem bin_ballisticWeight (g : NxGraph (Vec d) ℝ) (fs : ℝ) (rg : NxGraph (Vec d) Unit) (x y : Vec d) (s angle : ℝ) :
    FL.ballisticWeight rnd (binaryGraph k g) (2 ^ k * fs) (rg.map (binEmb d k) id) (binEmb d k x) (binEmb d k y) s angle = FL.ballisticWeight rnd g fs rg x y s angle := by
  have hinj := (binEmb d k).injective
  have hm : binEmb d k y ∈ (rg.map (binEmb d k) id).nodes ↔ y ∈ rg.nodes := NxGraph.mem_map_iff hinj
  have hd : FL.distanceNormalized rnd (binaryGraph k g) (2 ^ k * fs) (binEmb d k x) (binEmb d k y) = FL.distanceNormalized rnd g fs x y := by
    unfold FL.distanceNormalized
    rw [show (binaryGraph k g).edgeAttr (binEmb d k x) (binEmb d k y) = _ from edgeAttr_map (similar_binary k (⟨0, 0, false⟩ : CoordSys d)) g x y, mul_div_mul_left _ _ (two_zpow_pos k).ne']
  unfold FL.ballisticWeight
  simp only [hd, hm, NxGraph.degree_map hinj]

theorem bin_computed {g : NxGraph (Vec d) ℝ} {x : Vec d} {prev : Option (Vec d)} {nrm angle : Vec d → ℝ} {mat : Vec d → Vec d → ℝ} {sums : Vec d → ℝ}
    (hp : cs.periodic = false) (h : FL.Computed B rnd g cs x prev nrm angle mat sums) :
    FL.Computed B rnd (binaryGraph k g) (binaryCoord k cs) (binEmb d k x) prev (fun z => 2 ^ k * nrm (binInv k z)) (fun z => angle (binInv k z)) (fun z w => mat (binInv k z) (binInv k w)) (fun z => sums (binInv k z)) where
  vectors n _ := .plain hp
  norms := by
    rw [show (binaryGraph k g).neighbors (binEmb d k x) = _ from binaryGraph_neighbors k g x]
    intro n₀ hn₀
    obtain ⟨n, hn, rfl⟩ := List.mem_map.1 hn₀
    rw [bin_vec hr]
    try dsimp only
    rw [binInv_emb]
    exact bin_normOf hr k (h.norms n hn)
  angles := by
    rw [bin_usable]
    intro n₀ hn₀
    obtain ⟨n, hn, rfl⟩ := List.mem_map.1 hn₀
    have := h.angles n hn
    rw [bin_unitVec hr]
    try dsimp only
    rw [binInv_emb]
    exact this
  matrix := by
    rw [bin_candidate]
    intro n₀ hn₀ m₀ hm₀
    obtain ⟨n, hn, rfl⟩ := List.mem_map.1 hn₀
    obtain ⟨m, hm, rfl⟩ := List.mem_map.1 hm₀
    rw [bin_unitVec hr, bin_unitVec hr]
    try dsimp only
    rw [binInv_emb, binInv_emb]
    exact h.matrix n hn m hm
  summed := by
    rw [bin_candidate]
    intro n₀ hn₀
    obtain ⟨n, hn, rfl⟩ := List.mem_map.1 hn₀
    have := h.summed n hn
    rw [List.map_map]
    try dsimp only
    rw [binInv_emb]
    convert this using 2
    funext m
    simp only [Function.comp_apply, binInv_emb]

theorem bin_nextPos (hp : cs.periodic = false) {g : NxGraph (Vec d) ℝ} {fs : ℝ} {rg : NxGraph (Vec d) Unit} {x : Vec d} {prev : Option (Vec d)} {r : Except Err (Option (Vec d × Vec d))}
    (h : FL.NextPos B rnd g cs fs rg x prev r) :
    FL.NextPos B rnd (binaryGraph k g) (binaryCoord k cs) (2 ^ k * fs) (rg.map (binEmb d k) id) (binEmb d k x) prev (mapNext (binEmb d k) id r) := by
  have hn : (binaryGraph k g).neighbors (binEmb d k x) = (g.neighbors x).map (binEmb d k) := binaryGraph_neighbors k g x
  cases h with
  | noNeighbors h => exact .noNeighbors (by rw [hn, h]; rfl)
  | raises _ h => cases h with
    | failed h => rw [hp] at h; cases h
  | allCoincide h1 h2 h3 h4 => exact .allCoincide (by rwa [hn, ne_eq, List.map_eq_nil_iff]) (bin_computed hr k hp h2) (by rw [bin_usable, h3]; rfl) h4
  | nothing h1 h2 h3 h4 =>
    exact .nothing (by rwa [hn, ne_eq, List.map_eq_nil_iff]) (bin_computed hr k hp h2) (by rw [bin_usable, ne_eq, List.map_eq_nil_iff]; exact h3) (by rw [bin_candidate, h4]; rfl)
  | @chosen nrm angle mat sums n h1 h2 h3 =>
    have : mapNext (binEmb d k) id (.ok (some (n, FL.unitVec rnd cs nrm x n))) =
        .ok (some (binEmb d k n, FL.unitVec rnd (binaryCoord k cs) (fun z => 2 ^ k * nrm (binInv k z)) (binEmb d k x) (binEmb d k n))) := by
      rw [bin_unitVec hr]
      rfl
    rw [this]
    refine .chosen (bin_computed hr k hp h1) ?_ ?_
    · rw [bin_candidate]
      exact List.mem_map.2 ⟨n, h2, rfl⟩
    · intro m hm
      rw [bin_candidate] at hm
      obtain ⟨m', hm', rfl⟩ := List.mem_map.1 hm
      try dsimp only
      rw [bin_ballisticWeight, bin_ballisticWeight, binInv_emb, binInv_emb]
      exact h3 m' hm'

include hB

theorem bin_bStep (hp : cs.periodic = false) {g : NxGraph (Vec d) ℝ} {fs : ℝ} {s s' : BState d} (h : FL.BStep B rnd g cs fs s s') :
    FL.BStep B rnd (binaryGraph k g) (binaryCoord k cs) (2 ^ k * fs) (s.map (binEmb d k) id) (s'.map (binEmb d k) id) := by
  have hs := similar_binary k cs
  have hd : ∀ rg : NxGraph (Vec d) Unit, (binaryGraph k g).isDominatingSet (fun x => x ∈ (rg.map (binEmb d k) id).nodes) ↔ g.isDominatingSet (fun x => x ∈ rg.nodes) := fun rg =>
    NxGraph.isDominatingSet_map hs.inj _ g fun x => NxGraph.mem_map_iff hs.inj
  have ha : ∀ (rg : NxGraph (Vec d) Unit) (x : Vec d), (rg.map (binEmb d k) id).addNode (binEmb d k x) = (rg.addNode x).map (binEmb d k) id := fun rg x => NxGraph.addNode_map hs.inj id rg x
  have hsc : ∀ rg : NxGraph (Vec d) Unit, startCandidates (binaryGraph k g) (rg.map (binEmb d k) id) = (startCandidates g rg).map (binEmb d k) := fun rg => startCandidates_map hs g rg
  cases h with
  | finish h => exact .finish ((hd _).2 h)
  | @endNode rg ev node nbr x h1 h2 h3 h4 h5 =>
    have := FL.BStep.endNode (B := B) (rnd := rnd) (g := binaryGraph k g) (cs := binaryCoord k cs) (fs := 2 ^ k * fs) (rg := rg.map (binEmb d k) id) (ev := ev.map (binEmb d k)) (node := binEmb d k node)
      (nbr := binEmb d k nbr) (x := 2 ^ k * x) (fun h => h1 ((hd _).1 h)) (by rw [newEndNodes_map hs]; exact List.mem_map.2 ⟨node, h2, rfl⟩) (by rw [NxGraph.neighbors_map hs.inj, List.head?_map, h3]; rfl)
      (.plain hp) (by rw [bin_vec hr]; exact hB _ _ h5)
    rw [ha, bin_vec hr] at this
    simp only [mul_div_mul_left _ _ (two_zpow_pos k).ne'] at this
    exact this
  | endNodeRaises _ _ _ h => cases h with
    | failed h => rw [hp] at h; cases h
  | @newStart rg ev node h1 h2 h3 =>
    have := FL.BStep.newStart (B := B) (rnd := rnd) (g := binaryGraph k g) (cs := binaryCoord k cs) (fs := 2 ^ k * fs) (rg := rg.map (binEmb d k) id) (ev := ev.map (binEmb d k)) (node := binEmb d k node)
      (fun h => h1 ((hd _).1 h)) (by rw [newEndNodes_map hs, h2]; rfl) (by rw [hsc]; exact List.mem_map.2 ⟨node, h3, rfl⟩)
    rw [ha] at this
    exact this
  | @noStart rg ev h1 h2 h3 =>
    exact FL.BStep.noStart (fun h => h1 ((hd _).1 h)) (by rw [newEndNodes_map hs, h2]; rfl) (by rw [hsc, h3]; rfl)
  | @next rg ev pending node prev onGraph r h =>
    rw [← afterNext_map hs]
    have := bin_nextPos hr k hp h
    rw [show prev = prev.map id by simp] at this
    exact .next this

theorem bin_bRun (hp : cs.periodic = false) {g : NxGraph (Vec d) ℝ} {fs : ℝ} {n : ℕ} {s : BState d} (h : FL.BRun B rnd g cs fs n s) :
    FL.BRun B rnd (binaryGraph k g) (binaryCoord k cs) (2 ^ k * fs) n (s.map (binEmb d k) id) := by
  induction h with
  | init => exact .init
  | step _ hst ih => exact .step ih (bin_bStep hr k hB hp hst)

end

end NF
