import Verif.Lemmas.RingStep
import Verif.Props.ShortestLine
import Verif.Props.ShortestPath

/-! # The shortest-path method on a long closed line -/

noncomputable section
open Classical
namespace NF
open Spec NxGraph CoordSys
variable {d : ℕ}

section
variable {P : List (Vec d)} {cs : CoordSys d} {fs L : ℝ} {τ : Vec d → ℝ} {σ : Vec d → Vec d → ℝ}

/-- The cluster of positions on a long closed line. -/
theorem Round.looped (hb : ProperBox cs) (hfs : 0 < fs) (h : Round P cs fs L τ σ) {κ : ℝ} (hκ : 0 < κ) (hlow : ∀ x y, Near P cs fs x y → |σ x y| ≤ κ * cs.distance x y) (hbig : 18 * (κ * fs) < L)
    {g : NxGraph (Vec d) ℝ} (hnodes : ∀ x, x ∈ g.nodes ↔ x ∈ P) (hedge : ∀ x y, g.hasEdge x y ↔ x ∈ g.nodes ∧ y ∈ g.nodes ∧ x ≠ y ∧ cs.distance x y ≤ fs) :
    Looped g (fun x y => fs * (cs.distance x y / fs + (cs.distance x y / fs) ^ 2)) σ L (κ * fs) κ := by
  have he : ∀ x y, g.hasEdge x y ↔ Near P cs fs x y := fun x y => by rw [hedge, hnodes, hnodes]; rfl
  have ha := h.around hb hfs hnodes hedge
  have hnn : ∀ x y, 0 ≤ cs.distance x y := fun x y => (C03_distance_metric cs hb x y y).1
  have hmono : ∀ a b : ℝ, 0 ≤ a → a < b → fs * (a / fs + (a / fs) ^ 2) < fs * (b / fs + (b / fs) ^ 2) := by
    intro a b ha hab
    have h1 : a / fs < b / fs := div_lt_div_of_pos_right hab hfs
    have h0 : 0 ≤ a / fs := div_nonneg ha hfs.le
    have h2 : (a / fs) ^ 2 < (b / fs) ^ 2 := pow_lt_pow_left₀ h1 h0 two_ne_zero
    exact mul_lt_mul_of_pos_left (by linarith) hfs
  have hdw : ∀ a : ℝ, 0 ≤ a → a ≤ fs * (a / fs + (a / fs) ^ 2) := fun a ha => by
    have : fs * (a / fs + (a / fs) ^ 2) = a + fs * (a / fs) ^ 2 := by field_simp
    rw [this]
    have : 0 ≤ fs * (a / fs) ^ 2 := by positivity
    linarith
  refine ⟨mul_pos hκ hfs, hbig, hκ, fun x y hxy => ?_, ha.anti, fun x y => by rw [(C03_distance_metric cs hb x y x).2.1], fun x y hxy => ?_, fun x y hxy => ?_, fun x y hxy => ?_, ha.forth, ha.back,
    fun e hee => ⟨ahead L h.len τ e, hee, ahead_self e, fun x hx hne => ?_, fun x hx y hy hxy => ahead_inj ha hx hy hxy, fun x y hxy => ?_, fun x y z hxy hz r k hr hrs hk => ?_⟩⟩
  · exact (hlow x y ((he x y).1 hxy)).trans (mul_le_mul_of_nonneg_left ((he x y).1 hxy).2.2.2 hκ.le)
  · obtain ⟨a1, a2, a3, -⟩ := (he x y).1 hxy
    have := h.apart x a1 y a2 a3
    exact lt_of_lt_of_le (by linarith) (hdw _ (hnn x y))
  · exact (hlow x y ((he x y).1 hxy)).trans (mul_le_mul_of_nonneg_left (hdw _ (hnn x y)) hκ.le)
  · have h1 : cs.distance x y / fs ≤ 1 := (div_le_one hfs).2 ((he x y).1 hxy).2.2.2
    have h0 : 0 ≤ cs.distance x y / fs := div_nonneg (hnn x y) hfs.le
    have h2 : fs * (cs.distance x y / fs + (cs.distance x y / fs) ^ 2) ≤ fs * 2 := mul_le_mul_of_nonneg_left (by nlinarith) hfs.le
    have := mul_le_mul_of_nonneg_left h2 hκ.le
    linarith
  · obtain ⟨a1, a2⟩ := ahead_mem (τ := τ) (hL := h.len) e x
    refine ⟨lt_of_le_of_ne a1 fun h0 => hne ?_, a2⟩
    exact ahead_inj ha hx hee (by rw [← h0, ahead_self])
  · obtain ⟨i, hi⟩ := ahead_eq (τ := τ) (hL := h.len) e x
    obtain ⟨j, hj⟩ := ahead_eq (τ := τ) (hL := h.len) e y
    obtain ⟨k, hk⟩ := ha.step x y hxy
    exact ⟨k + i - j, by push_cast; linarith⟩
  · obtain ⟨i, hi⟩ := ahead_eq (τ := τ) (hL := h.len) e x
    obtain ⟨j, hj⟩ := ahead_eq (τ := τ) (hL := h.len) e z
    have hk' : τ z = τ x + r + ((k + j - i : ℤ) : ℝ) * L := by push_cast; linarith
    obtain ⟨b1, b2, -, -⟩ := ha.between x y z hxy (by linarith) hz r _ hr hrs hk'
    obtain ⟨c1, c2⟩ := h.between x y z ((he x y).1 hxy) (by linarith) ((hnodes z).1 hz) r _ hr hrs hk'
    exact ⟨b1, b2, hmono _ _ (hnn _ _) c1, hmono _ _ (hnn _ _) c2⟩

/-- Positions on a long closed line are identified as one closed loop, with the shortest-path method too. -/
theorem Round.shortest_loop (hd : 1 ≤ d) (hb : ProperBox cs) (hfs : 0 < fs) (h : Round P cs fs L τ σ) {κ : ℝ} (hκ : 0 < κ) (hlow : ∀ x y, Near P cs fs x y → |σ x y| ≤ κ * cs.distance x y) (hbig : 18 * (κ * fs) < L)
    {res : Except Err (IdContainer d)} (hr : RunFromPositions P cs fs "shortest_path" res) :
    ∃ out, res = .ok out ∧ OneClosedLoop cs fs (fun x t => ∃ k : ℤ, τ x = t + k * L) L P out := by
  obtain ⟨out, rfl, -⟩ := (C65_never_raises hb hfs P (.inr rfl)).2 _ hr
  refine ⟨out, rfl, ?_⟩
  obtain ⟨r, hres, hall, h1⟩ := h.one_result hd hb hfs hr
  have hrm : r ∈ out.results := by rw [hres]; simp
  obtain ⟨pu, c, n, rg, hu, hc, e1, hn, hsh⟩ := shortest_result hb hfs hr hrm h1
  obtain ⟨hg, hconn, hedge, hattr⟩ := C54_cluster_graph hb fs hu hc
  obtain ⟨hne, -, -⟩ := (C51_clusters_partition cs fs hu).2 c hc
  have hnodes : ∀ x, x ∈ c.nodes ↔ x ∈ P := fun x => by rw [← e1]; exact hall x
  have ha := h.around hb hfs hnodes hedge
  have he : ∀ x y, c.hasEdge x y ↔ Near P cs fs x y := fun x y => by rw [hedge, hnodes, hnodes]; rfl
  have hl := h.looped hb hfs hκ hlow hbig hnodes hedge
  obtain ⟨σ', hor, s, p, hring⟩ := shortest_ring hg hconn hne (fun x y => (C03_distance_metric cs hb x y x).2.1) hattr hl hn
  obtain ⟨s, p, c1, c2, c3⟩ : ∃ s p, Ring c σ L rg s p := by
    rcases hor with rfl | rfl
    · exact ⟨s, p, hring⟩
    · have := hring.mirror hl.neg
      simp only [neg_neg] at this
      exact ⟨s, _, this⟩
  have hcons : ∀ x y, Consecutive (s :: p ++ [s]) x y → c.hasEdge x y ∧ 0 < σ x y := fun x y hxy => consecutive_of_chain c2 hxy
  obtain ⟨hgr, hsg, -, -, hdom⟩ := (C61_shortest_path hg hconn hne fs).2.2 n rg hn
  refine ⟨r, hres, hall, h1, _, hsh, closedLoop_shape hgr c1, s, p, ⟨c1.1, c1.2.1, c1.2.2.1, fun x y => hasEdge_strip.trans (c1.2.2.2 x y)⟩, closedOnce_round ha hcons c3, fun x hx => ?_, fun x y hxy => ?_, fun x hx => ?_⟩
  · exact (hnodes x).1 (hsg.1 x ((c1.2.2.1 x).1 hx))
  · exact ((he x y).1 (hcons x y hxy).1).2.2.2
  · rcases hdom x ((hnodes x).2 hx) with h | ⟨y, hy, hxy⟩
    · exact ⟨x, (c1.2.2.1 x).2 h, by rw [distance_self hb]; exact hfs.le⟩
    · exact ⟨y, (c1.2.2.1 y).2 hy, ((he x y).1 hxy).2.2.2⟩

end
end NF
