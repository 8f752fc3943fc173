import Verif.Lemmas.Around
import Verif.Spec.Loops
import Verif.Props.Curve

/-! # Positions on a closed line -/

noncomputable section
open Classical
namespace NF
open Spec NxGraph CoordSys
variable {d : ℕ}

/-- two different positions at most `fs` apart -/
def Near (P : List (Vec d)) (cs : CoordSys d) (fs : ℝ) (x y : Vec d) : Prop := x ∈ P ∧ y ∈ P ∧ x ≠ y ∧ cs.distance x y ≤ fs

/-- The positions are on a closed line of length `L`, at `τ`; `σ` is the way from a position to a neighbour, positive if it goes forward. -/
structure Round (P : List (Vec d)) (cs : CoordSys d) (fs L : ℝ) (τ : Vec d → ℝ) (σ : Vec d → Vec d → ℝ) : Prop where
  len : 0 < L
  nonempty : P ≠ []
  step : ∀ x y, Near P cs fs x y → ∃ k : ℤ, τ y = τ x + σ x y + k * L
  short : ∀ x y, Near P cs fs x y → |σ x y| < L / 3
  anti : ∀ x y, Near P cs fs x y → σ y x = -σ x y
  inj : ∀ x ∈ P, ∀ y ∈ P, ∀ k : ℤ, τ y = τ x + k * L → x = y
  between : ∀ x y z, Near P cs fs x y → 0 < σ x y → z ∈ P → ∀ (r : ℝ) (k : ℤ), 0 < r → r < σ x y → τ z = τ x + r + k * L → cs.distance x z < cs.distance x y ∧ cs.distance z y < cs.distance x y
  apart : ∀ x ∈ P, ∀ y ∈ P, x ≠ y → fs / 4 < cs.distance x y
  on : ∀ x y z, Near P cs fs x y → Near P cs fs y z → (0 < σ x y * σ y z → 5 / 6 * (cs.distance y z * cs.distance x y) < dot (cs.connectingVector y z) (cs.connectingVector x y)) ∧
    (σ x y * σ y z < 0 → dot (cs.connectingVector y z) (cs.connectingVector x y) ≤ 0)
  fan : ∀ x y z, Near P cs fs x y → Near P cs fs x z → (0 < σ x y * σ x z → 5 / 6 * (cs.distance x y * cs.distance x z) < dot (cs.connectingVector x y) (cs.connectingVector x z)) ∧
    (σ x y * σ x z < 0 → dot (cs.connectingVector x y) (cs.connectingVector x z) ≤ 0)
  forth : ∀ x ∈ P, ∃ y, Near P cs fs x y ∧ 0 < σ x y
  back : ∀ x ∈ P, ∃ y, Near P cs fs x y ∧ σ x y < 0
  flat : ∀ x n m, Near P cs fs x n → Near P cs fs x m → n ≠ m → getVolume cs x {n, m} ≤ fs ^ 2 * (8 / (9 * Real.pi)) / 2

section
variable {P : List (Vec d)} {cs : CoordSys d} {fs L : ℝ} {τ : Vec d → ℝ} {σ : Vec d → Vec d → ℝ}

/-- Between any two of the positions there is a chain. -/
theorem Round.chain (h : Round P cs fs L τ σ) {x : Vec d} (hx : x ∈ P) {y : Vec d} (hy : y ∈ P) : Chain cs fs P y x := by
  obtain ⟨z, hz, hmin⟩ : ∃ z ∈ P.toFinset.filter fun z => Chain cs fs P y z, ∀ z' ∈ P.toFinset.filter (fun z => Chain cs fs P y z), ahead L h.len τ z x ≤ ahead L h.len τ z' x :=
    Finset.exists_min_image _ _ ⟨y, by simp [hy]; exact .refl⟩
  rw [Finset.mem_filter, List.mem_toFinset] at hz
  obtain ⟨z', hn, hpos⟩ := h.forth z hz.1
  obtain ⟨a1, a2⟩ := ahead_mem (τ := τ) (hL := h.len) z x
  obtain ⟨k, hk⟩ := ahead_eq (τ := τ) (hL := h.len) z x
  obtain ⟨m, hm⟩ := h.step z z' hn
  have hch : Chain cs fs P y z' := hz.2.tail ⟨hz.1, hn.2.1, hn.2.2.2⟩
  rcases a1.eq_or_lt with h0 | h0
  · obtain rfl : z = x := h.inj z hz.1 x hx k (by rw [← h0] at hk; linarith)
    exact hz.2
  rcases lt_trichotomy (σ z z') (ahead L h.len τ z x) with hlt | heq | hgt
  · have := hmin z' (by rw [Finset.mem_filter, List.mem_toFinset]; exact ⟨hn.2.1, hch⟩)
    rw [ahead_unique (s := z') (x := x) (r := ahead L h.len τ z x - σ z z') (k := k - m) (by push_cast; linarith) (by linarith) (by linarith)] at this
    linarith
  · obtain rfl : z' = x := h.inj z' hn.2.1 x hx (k - m) (by push_cast; linarith)
    exact hch
  · have := (h.between z z' x hn hpos hx _ k h0 hgt hk).1
    exact hz.2.tail ⟨hz.1, hx, this.le.trans hn.2.2.2⟩

theorem Round.around (hb : ProperBox cs) (hfs : 0 < fs) (h : Round P cs fs L τ σ) {g : NxGraph (Vec d) ℝ} (hnodes : ∀ x, x ∈ g.nodes ↔ x ∈ P)
    (hedge : ∀ x y, g.hasEdge x y ↔ x ∈ g.nodes ∧ y ∈ g.nodes ∧ x ≠ y ∧ cs.distance x y ≤ fs) : Around g cs fs L τ σ := by
  have he : ∀ x y, g.hasEdge x y ↔ Near P cs fs x y := fun x y => by rw [hedge, hnodes, hnodes]; rfl
  have hpos : ∀ x y, Near P cs fs x y → 0 < cs.distance x y := fun x y hxy => lt_trans (by positivity) (h.apart x hxy.1 y hxy.2.1 hxy.2.2.1)
  replace hpos : ∀ x y, g.hasEdge x y → 0 < cs.distance x y := fun x y hxy => hpos x y ((he x y).1 hxy)
  have hunit : ∀ x y x' y', g.hasEdge x y → g.hasEdge x' y' → (5 / 6 * (cs.distance x y * cs.distance x' y') < dot (cs.connectingVector x y) (cs.connectingVector x' y') →
      5 / 6 < dot (unitVec cs x y) (unitVec cs x' y')) ∧ (dot (cs.connectingVector x y) (cs.connectingVector x' y') ≤ 0 → dot (unitVec cs x y) (unitVec cs x' y') ≤ 0) := by
    intro x y x' y' h1 h2
    have p1 := hpos x y h1
    have p2 := hpos x' y' h2
    rw [dot_unit, norm_connectingVector hb, norm_connectingVector hb]
    exact ⟨fun h => by rwa [lt_div_iff₀ (mul_pos p1 p2)], fun h => div_nonpos_of_nonpos_of_nonneg h (mul_pos p1 p2).le⟩
  refine ⟨h.len, fun x y hxy => h.step x y ((he x y).1 hxy), fun x y hxy => h.short x y ((he x y).1 hxy), fun x y hxy => h.anti x y ((he x y).1 hxy),
    fun x hx y hy => h.inj x ((hnodes x).1 hx) y ((hnodes y).1 hy), fun x y z hxy hs hz r k hr hrs hk => ?_, fun x y hxy => ?_, fun x y z hxy hyz => ?_, fun x y z hxy hyz => ?_,
    fun x hx => ?_, fun x hx => ?_⟩
  · have hn := (he x y).1 hxy
    have hzP := (hnodes z).1 hz
    obtain ⟨b1, b2⟩ := h.between x y z hn hs hzP r k hr hrs hk
    have hsh := (abs_lt.1 (h.short x y hn)).2
    have hL := h.len
    obtain ⟨m, hm⟩ := h.step x y hn
    refine ⟨(he x z).2 ⟨hn.1, hzP, ?_, b1.le.trans hn.2.2.2⟩, (he z y).2 ⟨hzP, hn.2.1, ?_, b2.le.trans hn.2.2.2⟩, b1.le, b2.le⟩
    · rintro rfl
      have := int_eq_zero_of_small hL (r := r) (k := -k) (by push_cast; linarith) (by rw [abs_of_pos hr]; linarith)
      have e : k = 0 := by omega
      rw [e] at hk
      push_cast at hk
      linarith
    · rintro rfl
      have := int_eq_zero_of_small hL (r := r - σ x z) (k := m - k) (by push_cast; linarith) (by rw [abs_lt]; constructor <;> linarith)
      have e : m = k := by omega
      rw [e] at hm
      linarith
  · have := h.apart x ((he x y).1 hxy).1 y ((he x y).1 hxy).2.1 ((he x y).1 hxy).2.2.1
    linarith
  · have := h.on x y z ((he x y).1 hxy) ((he y z).1 hyz)
    have hu := hunit y z x y hyz hxy
    exact ⟨fun h0 => hu.1 (this.1 h0), fun h0 => hu.2 (this.2 h0)⟩
  · have := h.fan x y z ((he x y).1 hxy) ((he x z).1 hyz)
    have hu := hunit x y x z hxy hyz
    exact ⟨fun h0 => hu.1 (this.1 h0), fun h0 => hu.2 (this.2 h0)⟩
  · obtain ⟨y, hy, hp⟩ := h.forth x ((hnodes x).1 hx)
    exact ⟨y, (he x y).2 hy, hp⟩
  · obtain ⟨y, hy, hp⟩ := h.back x ((hnodes x).1 hx)
    exact ⟨y, (he x y).2 hy, hp⟩

theorem CircleGraph.reverse {V A : Type} {g : NxGraph V A} {s : V} {p : List V} (h : CircleGraph g s p) : CircleGraph g s p.reverse := by
  have e : s :: p.reverse ++ [s] = (s :: p ++ [s]).reverse := by simp
  refine ⟨by simpa using h.1, ?_, fun x => ?_, fun x y => ?_⟩
  · have := h.2.1
    rw [List.nodup_cons] at this ⊢
    simpa using this
  · rw [← h.2.2.1]; simp
  · rw [h.2.2.2, e, consecutive_reverse, consecutive_reverse]; tauto

theorem sumAlong_append (f : Vec d → Vec d → ℝ) : ∀ (l : List (Vec d)) (x y : Vec d) (l' : List (Vec d)), sumAlong f (l ++ x :: y :: l') = sumAlong f (l ++ [x]) + f x y + sumAlong f (y :: l')
  | [], x, y, l' => by simp [sumAlong]
  | [a], x, y, l' => by simp [sumAlong]; ring
  | a :: b :: l, x, y, l' => by
    have := sumAlong_append f (b :: l) x y l'
    simp only [List.cons_append, sumAlong] at *
    rw [this]; ring

theorem sumAlong_reverse (f : Vec d → Vec d → ℝ) : ∀ l : List (Vec d), sumAlong f l.reverse = sumAlong (fun x y => f y x) l
  | [] => rfl
  | [_] => rfl
  | x :: y :: l => by
    have := sumAlong_reverse f (y :: l)
    rw [List.reverse_cons] at this
    rw [List.reverse_cons, List.reverse_cons, List.append_assoc, List.singleton_append, sumAlong_append, this]
    simp only [sumAlong]
    ring

theorem sumAlong_congr {f f' : Vec d → Vec d → ℝ} : ∀ l : List (Vec d), (∀ x y, Consecutive l x y → f x y = f' x y) → sumAlong f l = sumAlong f' l
  | [], _ => rfl
  | [_], _ => rfl
  | x :: y :: l, h => by
    simp only [sumAlong]
    rw [h x y ⟨[], l, rfl⟩, sumAlong_congr (y :: l) fun a b hab => h a b (consecutive_cons.2 (.inr hab))]

/-- The loop can be listed such that it goes forward. -/
theorem ClosedOnce.forward {g : NxGraph (Vec d) ℝ} (h : Around g cs fs L τ σ) {τ' : Vec d → ℝ} {σ' : Vec d → Vec d → ℝ} (ho : Orient τ σ τ' σ') {rg : NxGraph (Vec d) Unit} (hc : ClosedOnce g L σ' rg) :
    ClosedOnce g L σ rg := by
  rcases ho with ⟨rfl, rfl⟩ | ⟨rfl, rfl⟩
  · exact hc
  obtain ⟨s, p, h1, h2, h3, h4⟩ := hc
  have e : s :: p.reverse ++ [s] = (s :: p ++ [s]).reverse := by simp
  refine ⟨s, p.reverse, CircleGraph.reverse h1, fun x y hxy => ?_, ?_, h4⟩
  · rw [e, consecutive_reverse] at hxy
    obtain ⟨a1, a2⟩ := h2 y x hxy
    exact ⟨hasEdge_symm.1 a1, by rw [h.anti y x a1]; exact a2⟩
  · rw [e, sumAlong_reverse, ← h3]
    exact sumAlong_congr _ fun x y hxy => h.anti x y (h2 x y hxy).1

theorem onceRound_aux {g : NxGraph (Vec d) ℝ} (h : Around g cs fs L τ σ) : ∀ (l : List (Vec d)) (x : Vec d) (t : ℝ), (∃ k : ℤ, τ x = t + k * L) → (∀ a b, Consecutive (x :: l) a b → g.hasEdge a b ∧ 0 < σ a b) →
    ∃ ts, List.Forall₂ (fun x t => ∃ k : ℤ, τ x = t + k * L) (x :: l) (t :: ts) ∧ (t :: ts).Pairwise (· < ·) ∧ (t :: ts).getLast? = some (t + sumAlong σ (x :: l))
  | [], x, t, hx, _ => ⟨[], .cons hx .nil, by simp, by simp [sumAlong]⟩
  | y :: l, x, t, ⟨k, hk⟩, hl => by
    obtain ⟨a1, a2⟩ := hl x y ⟨[], l, rfl⟩
    obtain ⟨m, hm⟩ := h.step x y a1
    obtain ⟨ts, b1, b2, b3⟩ := onceRound_aux h l y (t + σ x y) ⟨k + m, by push_cast; linarith⟩ fun a b hab => hl a b (consecutive_cons.2 (.inr hab))
    refine ⟨(t + σ x y) :: ts, .cons ⟨k, hk⟩ b1, List.pairwise_cons.2 ⟨fun u hu => ?_, b2⟩, ?_⟩
    · rcases List.mem_cons.1 hu with rfl | hu
      · linarith
      · have := (List.pairwise_cons.1 b2).1 u hu
        linarith
    · rw [List.getLast?_cons_cons, b3]
      simp only [sumAlong]
      congr 1
      ring

theorem closedOnce_round {g : NxGraph (Vec d) ℝ} (h : Around g cs fs L τ σ) {s : Vec d} {p : List (Vec d)} (h2 : ∀ x y, Consecutive (s :: p ++ [s]) x y → g.hasEdge x y ∧ 0 < σ x y)
    (h3 : sumAlong σ (s :: p ++ [s]) = L) : OnceRound (fun x t => ∃ k : ℤ, τ x = t + k * L) L (s :: p) := by
  obtain ⟨ts, b1, b2, b3⟩ := onceRound_aux h (p ++ [s]) s (τ s) ⟨0, by simp⟩ h2
  rw [← List.cons_append, h3] at b3
  rcases List.eq_nil_or_concat ts with rfl | ⟨ts, u, rfl⟩
  · simp at b1
  rw [List.concat_eq_append, ← List.cons_append] at b1 b2 b3
  rw [List.getLast?_append_of_ne_nil _ (by simp)] at b3
  obtain rfl : u = τ s + L := by simpa using b3
  refine ⟨τ s, ts, ?_, b2⟩
  have hlen := b1.length_eq
  simp only [List.length_cons, List.length_append, List.length_nil] at hlen
  have := List.forall₂_take (s :: p).length b1
  rwa [List.take_left, show (s :: p).length = (τ s :: ts).length by simp only [List.length_cons]; omega, show τ s :: (ts ++ [τ s + L]) = (τ s :: ts) ++ [τ s + L] from rfl, List.take_left] at this

theorem OnceRound.imp {At At' : Vec d → ℝ → Prop} {L : ℝ} {p : List (Vec d)} (h : ∀ x ∈ p, ∀ t, At x t → At' x t) (hp : OnceRound At L p) : OnceRound At' L p := by
  obtain ⟨t, ts, h1, h2⟩ := hp
  refine ⟨t, ts, ?_, h2⟩
  clear h2
  generalize t :: ts = ts at h1
  induction h1 with
  | nil => exact .nil
  | cons ha _ ih => exact .cons (h _ (by simp) _ ha) (ih fun x hx => h x (by simp [hx]))

/-- Positions on a closed line are identified as one object of dimension one, with any method. -/
theorem Round.one_result (hd : 1 ≤ d) (hb : ProperBox cs) (hfs : 0 < fs) (h : Round P cs fs L τ σ) {method : String} {out : IdContainer d} (hr : RunFromPositions P cs fs method (.ok out)) :
    ∃ r, out.results = [r] ∧ (∀ x, x ∈ r.positions ↔ x ∈ P) ∧ r.dimension = some 1 := by
  have hI := C65_results hb hfs hr
  have hall : ∀ r ∈ out.results, ∀ x, x ∈ r.positions ↔ x ∈ P := by
    intro r hr x
    refine ⟨(hI.given r hr).2.2 x, fun hx => ?_⟩
    obtain ⟨y, hy⟩ := List.exists_mem_of_ne_nil _ (hI.given r hr).1
    have hyP := (hI.given r hr).2.2 y hy
    obtain ⟨r', hr', m1, m2⟩ := (hI.chains y hyP x hx).2 (h.chain hx hyP)
    obtain ⟨i, hi⟩ := List.mem_iff_get.1 hr
    obtain ⟨i', hi'⟩ := List.mem_iff_get.1 hr'
    have := (hI.once y hyP).unique (y₁ := i) (y₂ := i') (by rw [hi]; exact hy) (by rw [hi']; exact m1)
    subst this
    rw [hi] at hi'
    rw [hi']; exact m2
  obtain ⟨r, hres⟩ : ∃ r, out.results = [r] := by
    obtain ⟨x, hx⟩ := List.exists_mem_of_ne_nil _ h.nonempty
    obtain ⟨i, -, hu⟩ := hI.once x hx
    have hi : ∀ j, j = i := fun j => hu j ((hall _ (List.get_mem _ _) x).2 hx)
    refine List.length_eq_one_iff.1 ?_
    have := i.2
    by_contra hne
    have e0 := hi ⟨0, by omega⟩
    have e1 := hi ⟨1, by omega⟩
    have := congrArg Fin.val (e0.trans e1.symm)
    simp at this
  have hrm : r ∈ out.results := by rw [hres]; simp
  obtain ⟨-, -, pu, hu, hF⟩ := runFromPositions_ok hr
  obtain ⟨c, hc, hcr⟩ := forall₂_mem_right hF hrm
  obtain ⟨e1, e2, e3⟩ := identifyCluster_positions hcr
  obtain ⟨hg, -, hedge, -⟩ := C54_cluster_graph hb fs hu hc
  obtain ⟨hne, -, -⟩ := (C51_clusters_partition cs fs hu).2 c hc
  have hnodes : ∀ x, x ∈ c.nodes ↔ x ∈ P := fun x => by rw [← e1]; exact hall r hrm x
  have ha := h.around hb hfs hnodes hedge
  have he : ∀ x y, c.hasEdge x y ↔ Near P cs fs x y := fun x y => by rw [hedge, hnodes, hnodes]; rfl
  have h1 : r.dimension = some 1 := by
    refine Except.ok.inj (dimension_unanimous hg hne (k := 1) (fun pos hp x hx => ?_) e2)
    have h1 : 1 ≤ x := (C69_point_or_more hb (by norm_num) hd hx).2 (by obtain ⟨y, hy, -⟩ := ha.forth pos hp; exact ⟨y, hy⟩) fun n hn => by
      obtain ⟨a1, a2, a3, -⟩ := (he pos n).1 hn
      exact h.apart n a2 pos a1 (Ne.symm a3)
    refine le_antisymm (not_lt.1 fun h2 => ?_) h1
    obtain ⟨-, -, hxd, htrue, -⟩ := (getDimension_spec hx (by norm_num)).2 x rfl
    obtain ⟨v, hv, ts, -, ht, hdec, -⟩ := C56_decision (htrue 2 (by norm_num) (by exact_mod_cast h2)) (by omega)
    cases hv
    obtain ⟨hne, hlt⟩ := hdec.1 rfl
    refine absurd hlt (not_lt.2 (average_le (by simpa using hne) fun y hy => ?_))
    obtain ⟨t, htt, rfl⟩ := List.mem_map.1 hy
    obtain ⟨t1, t2⟩ := ht t htt
    obtain ⟨n, m, hnm, rfl⟩ := Finset.card_eq_two.1 t2
    exact h.flat pos n m ((he pos n).1 (t1 n (by simp))) ((he pos m).1 (t1 m (by simp))) hnm
  exact ⟨r, hres, hall r hrm, h1⟩

/-- Positions on a closed line are identified as one closed loop. -/
theorem Round.one_loop (hd : 1 ≤ d) (hb : ProperBox cs) (hfs : 0 < fs) (h : Round P cs fs L τ σ) {res : Except Err (IdContainer d)} (hr : RunFromPositions P cs fs "ballistic" res) :
    ∃ out, res = .ok out ∧ OneClosedLoop cs fs (fun x t => ∃ k : ℤ, τ x = t + k * L) L P out := by
  obtain ⟨out, rfl, hlines⟩ := (C65_never_raises hb hfs P (.inl rfl)).2 _ hr
  refine ⟨out, rfl, ?_⟩
  obtain ⟨r, hres, hall, h1⟩ := h.one_result hd hb hfs hr
  have hrm : r ∈ out.results := by rw [hres]; simp
  obtain ⟨-, -, pu, hu, hF⟩ := runFromPositions_ok hr
  obtain ⟨c, hc, hcr⟩ := forall₂_mem_right hF hrm
  obtain ⟨e1, e2, e3⟩ := identifyCluster_positions hcr
  obtain ⟨hg, -, hedge, -⟩ := C54_cluster_graph hb fs hu hc
  have hnodes : ∀ x, x ∈ c.nodes ↔ x ∈ P := fun x => by rw [← e1]; exact hall x
  have ha := h.around hb hfs hnodes hedge
  have he : ∀ x y, c.hasEdge x y ↔ Near P cs fs x y := fun x y => by rw [hedge, hnodes, hnodes]; rfl
  refine ⟨r, hres, hall, h1, ?_⟩
  rw [h1] at e2 e3
  have hlc := lineCluster_of_cluster hb hu hc (spread_of_dim_one hb hfs hu hc e2)
  generalize ho : (Except.ok r.shape : Except Err (Option (Shape d))) = o at e3
  cases e3 with
  | other _ hn => exact absurd rfl hn
  | lineError => cases ho
  | lineWarning hl he =>
    obtain ⟨l, hl'⟩ := hlines r hrm h1
    rw [hl'] at ho
    cases ho
  | @line l hl =>
    obtain ⟨n, rg, hn, rfl⟩ : ∃ n rg, BRun c cs fs n (.done rg) ∧ l = ⟨rg.strip, createDegreeCount rg⟩ := by
      generalize hms : "ballistic" = ms at hl
      generalize hr : (Except.ok l : Except Err (NodalLine (Vec d))) = o at hl
      cases hl with
      | invalid => cases hr
      | ballistic h => cases hr; exact ⟨_, _, h, rfl⟩
      | ballisticError => cases hr
      | shortest => simp at hms
      | shortestError => cases hr
      | dominating => simp at hms
    obtain ⟨τ', σ', hor, hcl⟩ := ballistic_loop hlc hfs ha hn
    obtain ⟨s, p, c1, c2, c3, c4⟩ := ClosedOnce.forward ha hor hcl
    obtain ⟨hgr, hsg, hdom⟩ := C58_ballistic_dominating hg hn
    refine ⟨_, Except.ok.inj ho, closedLoop_shape hgr c1, s, p, ⟨c1.1, c1.2.1, c1.2.2.1, fun x y => hasEdge_strip.trans (c1.2.2.2 x y)⟩, closedOnce_round ha c2 c3, fun x hx => ?_, fun x y hxy => ?_, fun x hx => ?_⟩
    · exact (hnodes x).1 (hsg.1 x ((c1.2.2.1 x).1 hx))
    · exact ((he x y).1 (c2 x y hxy).1).2.2.2
    · rcases hdom x ((hnodes x).2 hx) with h | ⟨y, hy, hxy⟩
      · exact ⟨x, (c1.2.2.1 x).2 h, by rw [((C03_distance_metric cs hb x x x).2.2.2).2 (by unfold SamePoint; split; exacts [⟨0, by funext i; simp [shift]⟩, rfl])]; exact hfs.le⟩
      · exact ⟨y, (c1.2.2.1 y).2 hy, ((he x y).1 hxy).2.2.2⟩

end
end NF
