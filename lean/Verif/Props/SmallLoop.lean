import Verif.Lemmas.ShortestTree
import Verif.Props.ShortestLine
import Verif.Props.Loop

/-! # C95: the shortest-path method does not find small closed loops -/

noncomputable section
open Classical
namespace NF
open Spec NxGraph CoordSys
variable {d : ℕ}

theorem containsLoop_strip {V A : Type} {g : NxGraph V A} : ContainsLoop g.strip ↔ ContainsLoop g := by
  have e : g.strip.hasEdge = g.hasEdge := by funext x y; exact propext hasEdge_strip
  unfold ContainsLoop
  rw [e]

/-- A chain of positions can be made into a path, which is not longer. -/
theorem path_of_steps {cs : CoordSys d} {fs : ℝ} {g : NxGraph (Vec d) ℝ} (hedge : ∀ x y, g.hasEdge x y ↔ x ∈ g.nodes ∧ y ∈ g.nodes ∧ x ≠ y ∧ cs.distance x y ≤ fs) :
    ∀ (p : List (Vec d)) (x y : Vec d), p.head? = some x → p.getLast? = some y → (∀ z ∈ p, z ∈ g.nodes) → p.IsChain (fun a b => cs.distance a b ≤ fs) →
    ∃ q, g.IsPath x y q ∧ q.length ≤ p.length := by
  intro p
  induction p with
  | nil => intro x y h; simp at h
  | cons a p ih =>
    intro x y hx hy hin hch
    obtain rfl : a = x := by simpa using hx
    cases p with
    | nil =>
      obtain rfl : a = y := by simpa using hy
      exact ⟨[a], ⟨rfl, rfl, by simp, by simp⟩, le_rfl⟩
    | cons b p =>
      obtain ⟨h1, h2⟩ := List.isChain_cons_cons.1 hch
      obtain ⟨q, ⟨q1, q2, q3, q4⟩, hq⟩ := ih b y rfl (by simpa using hy) (fun z hz => hin z (by simp [hz])) h2
      by_cases ha : a ∈ q
      · obtain ⟨u, w, rfl⟩ := List.append_of_mem ha
        refine ⟨a :: w, ⟨rfl, ?_, (List.isChain_append.1 q3).2.1, (List.nodup_append.1 q4).2.1⟩, ?_⟩
        · rwa [List.getLast?_append_of_ne_nil _ (by simp)] at q2
        · simp at hq ⊢; omega
      · refine ⟨a :: q, ⟨rfl, ?_, ?_, List.nodup_cons.2 ⟨ha, q4⟩⟩, by simpa using hq⟩
        · rw [List.getLast?_cons, q2]; rfl
        · refine List.isChain_cons.2 ⟨fun c hc => ?_, q3⟩
          rw [q1] at hc
          obtain rfl : b = c := by simpa using hc
          exact (hedge a b).2 ⟨hin a (by simp), hin b (by simp), fun e => ha (by rw [e]; exact List.mem_of_head? q1), h1⟩

/-- **C95**: if any two positions of a cluster of dimension one can be connected by a chain of at most three other positions of it (at most four steps, none longer than `feature_size`), then with the method
`shortest_path`, whatever the order in which sets are iterated over, the line has no closed loop in it, and is not called a closed loop. -/
theorem C95_no_small_loop {cs : CoordSys d} (hb : ProperBox cs) {fs : ℝ} (hfs : 0 < fs) {positions : List (Vec d)} {out : IdContainer d} (h : RunFromPositions positions cs fs "shortest_path" (.ok out))
    {r : IdResult d} (hr : r ∈ out.results) (h1 : r.dimension = some 1) (hpos : ∀ x ∈ r.positions, ∀ y ∈ r.positions, x ≠ y → 0 < cs.distance x y)
    (hsmall : ∀ x ∈ r.positions, ∀ y ∈ r.positions, FewSteps cs fs r.positions 4 x y) :
    ∃ l, r.shape = some (.line l) ∧ shapeName l.degreeCount ≠ .closedLoop ∧ ¬ ContainsLoop l.graph := by
  obtain ⟨pu, c, n, rg, hu, hc, e1, hn, hshape⟩ := shortest_result hb hfs h hr h1
  obtain ⟨hg, hconn, hedge, hattr⟩ := C54_cluster_graph hb fs hu hc
  have hne := ((C51_clusters_partition cs fs hu).2 c hc).1
  have hF : Forest rg := shortest_tree hfs hg hconn hne (fun x y => (C03_distance_metric cs hb x y x).2.1) hattr
    (fun x y hxy => by obtain ⟨a1, a2, a3, -⟩ := (hedge x y).1 hxy; exact hpos x (e1 ▸ a1) y (e1 ▸ a2) a3)
    (fun x hx y hy => by
      obtain ⟨p, p1, p2, p3, p4, p5⟩ := hsmall x (e1 ▸ hx) y (e1 ▸ hy)
      obtain ⟨q, q1, q2⟩ := path_of_steps hedge p x y p1 p2 (fun z hz => e1 ▸ p3 z hz) p4
      exact ⟨q, q1, by omega⟩) hn
  obtain ⟨hgr, -, -, hrne, -⟩ := (C61_shortest_path hg hconn hne fs).2.2 n rg hn
  exact ⟨_, hshape, forest_shape hF hgr hrne, fun hl => forest_no_loop hF hgr (containsLoop_strip.1 hl)⟩

namespace C95Demo
open C91Demo

theorem step_le (k : ℕ) : box.distance (pos k) (pos (k + 1)) ≤ 0.3 := by
  refine (distance_le_eucl box_proper _ _).trans ?_
  unfold eucl
  rw [Real.sqrt_le_left (by norm_num), Fin.sum_univ_two]
  have e0 : pos k 0 - pos (k + 1) 0 = -(1 / 5) := by simp [pos]; ring
  have hb : ∀ k : ℕ, 0 ≤ pos k 1 ∧ pos k 1 ≤ 1 / 100 := fun k => by
    simp only [pos, Matrix.cons_val_one, Matrix.cons_val_zero]; split <;> norm_num
  have h1 := hb k
  have h2 := hb (k + 1)
  have h : |pos k 1 - pos (k + 1) 1| ≤ 1 / 100 := abs_le.2 ⟨by linarith, by linarith⟩
  have h3 : (pos k 1 - pos (k + 1) 1) ^ 2 ≤ (1 / 100) ^ 2 := by rw [← sq_abs]; exact pow_le_pow_left₀ (abs_nonneg _) h 2
  rw [e0]
  norm_num at h3 ⊢
  linarith

theorem forward : ∀ n k : ℕ, k + n < 5 → FewSteps box 0.3 ps n (pos k) (pos (k + n)) := by
  intro n
  induction n with
  | zero => intro k hk; exact ⟨[pos k], rfl, rfl, fun z hz => by rw [List.mem_singleton] at hz; exact mem_ps.2 ⟨k, by omega, hz⟩, by simp, by simp⟩
  | succ n ih =>
    intro k hk
    obtain ⟨p, p1, p2, p3, p4, p5⟩ := ih (k + 1) (by omega)
    refine ⟨pos k :: p, rfl, ?_, fun z hz => ?_, List.isChain_cons.2 ⟨fun c hc => ?_, p4⟩, by simpa using p5⟩
    · rw [List.getLast?_cons, p2, show k + (n + 1) = k + 1 + n by omega]; rfl
    · rcases List.mem_cons.1 hz with rfl | hz
      · exact mem_ps.2 ⟨k, by omega, rfl⟩
      · exact p3 z hz
    · rw [p1] at hc
      obtain rfl : pos (k + 1) = c := by simpa using hc
      exact step_le k

theorem fewSteps_symm {cs : CoordSys d} (hb : ProperBox cs) {fs : ℝ} {P : List (Vec d)} {n : ℕ} {x y : Vec d} (h : FewSteps cs fs P n x y) : FewSteps cs fs P n y x := by
  obtain ⟨p, p1, p2, p3, p4, p5⟩ := h
  refine ⟨p.reverse, by simpa using p2, by simpa using p1, fun z hz => p3 z (by simpa using hz), List.isChain_reverse.2 ?_, by simpa using p5⟩
  exact p4.imp fun a b hab => by rw [(C03_distance_metric cs hb b a a).2.1]; exact hab

theorem steps (x : Vec 2) (hx : x ∈ ps) (y : Vec 2) (hy : y ∈ ps) : FewSteps box 0.3 ps 4 x y := by
  obtain ⟨k, hk, rfl⟩ := mem_ps.1 hx
  obtain ⟨m, hm, rfl⟩ := mem_ps.1 hy
  rcases le_total k m with h | h
  · obtain ⟨p, p1, p2, p3, p4, p5⟩ := forward (m - k) k (by omega)
    exact ⟨p, p1, by rwa [show k + (m - k) = m by omega] at p2, p3, p4, by omega⟩
  · obtain ⟨p, p1, p2, p3, p4, p5⟩ := forward (k - m) m (by omega)
    exact fewSteps_symm box_proper ⟨p, p1, by rwa [show m + (k - m) = k by omega] at p2, p3, p4, by omega⟩

/-- **C95**, witness: the two methods disagree on the shape of the same positions.  A line round a periodic box of which every position is sampled is one closed loop with `ballistic`, whatever the random choices; with
`shortest_path` it is never a closed loop. -/
theorem _root_.NF.C95_methods_differ : ∃ (cs : CoordSys 2) (fs : ℝ) (positions : List (Vec 2)), ProperBox cs ∧ 0 < fs ∧
    (∃ out, RunFromPositions positions cs fs "ballistic" (.ok out)) ∧ (∃ out, RunFromPositions positions cs fs "shortest_path" (.ok out)) ∧
    (∀ out, RunFromPositions positions cs fs "ballistic" (.ok out) → ∃ r l, out.results = [r] ∧ r.dimension = some 1 ∧ r.shape = some (.line l) ∧ shapeName l.degreeCount = .closedLoop) ∧
    ∀ out, RunFromPositions positions cs fs "shortest_path" (.ok out) →
      ∃ r l, out.results = [r] ∧ r.dimension = some 1 ∧ r.shape = some (.line l) ∧ shapeName l.degreeCount ≠ .closedLoop ∧ ¬ ContainsLoop l.graph := by
  have hfs : (0 : ℝ) < 0.3 := by norm_num
  have hR := round_of_axis box_proper rfl hfs (fun i => by simp [box]; norm_num) (by norm_num) along noGap far
  refine ⟨box, 0.3, ps, box_proper, hfs, ?_, ?_, fun out ho => ?_, fun out ho => ?_⟩
  · obtain ⟨⟨r, hr⟩, hall⟩ := C65_never_raises box_proper hfs ps (.inl rfl)
    obtain ⟨out, rfl, -⟩ := hall r hr
    exact ⟨out, hr⟩
  · obtain ⟨⟨r, hr⟩, hall⟩ := C65_never_raises box_proper hfs ps (.inr rfl)
    obtain ⟨out, rfl, -⟩ := hall r hr
    exact ⟨out, hr⟩
  · obtain ⟨out', ho', r, h1, -, h3, l, h4, h5⟩ := C91_through_box box_proper rfl hfs (fun i => by simp [box]; norm_num) (by norm_num) along noGap far ho
    cases ho'
    exact ⟨r, l, h1, h3, h4, h5.name⟩
  · obtain ⟨r, h1, h2, h3⟩ := hR.one_result (by norm_num) box_proper hfs ho
    obtain ⟨l, l1, l2, l3⟩ := C95_no_small_loop box_proper hfs ho (by rw [h1]; simp) h3
      (fun x hx y hy hxy => lt_trans (by norm_num) (far x ((h2 x).1 hx) y ((h2 y).1 hy) hxy))
      (fun x hx y hy => by
        obtain ⟨p, p1, p2, p3, p4, p5⟩ := steps x ((h2 x).1 hx) y ((h2 y).1 hy)
        exact ⟨p, p1, p2, fun z hz => (h2 z).2 (p3 z hz), p4, p5⟩)
    exact ⟨r, l, h1, h3, l1, l2, l3⟩

end C95Demo

end NF
