import Verif.Lemmas.Volume
import Verif.Lemmas.Mesh
import Verif.Lemmas.Stencil
import Verif.Props.EndToEnd
import Verif.Props.Setup

/-! # C73: the simplices of a minimization never degenerate -/

noncomputable section
open Classical
namespace NF
open Spec CoordSys Container

variable {d : ℕ}

/-! ## One minimization -/

/-- the invariant of the loop -/
structure VolInv (P : NMParams) (sim0 : Sim d) (s : NMState d) : Prop where
  last : s.simplexHistory.getLast? = some s.sim
  iters : 1 ≤ s.iterations
  lower : (1 / 2 ^ d : ℝ) ^ (s.iterations - 1) * volume sim0 ≤ volume s.sim
  upper : volume s.sim ≤ 2 ^ (s.iterations - 1) * volume sim0
  first : P.keepHistory = true → ∃ S, s.simplexHistory.head? = some S ∧ volume S = volume sim0
  chain : ∀ (n : ℕ) S S', s.simplexHistory[n]? = some S → s.simplexHistory[n + 1]? = some S' →
    ∃ c ∈ ({1, 2, 1 / 2, 1 / 2 ^ d} : Set ℝ), volume S' = c * volume S
  pos : 0 < volume sim0 → ∀ S ∈ s.simplexHistory, 0 < volume S

theorem volInv_init (P : NMParams) (argsort : Argsort d) (f : ℕ → Vec d → FVal) (sim0 : Sim d) : VolInv P sim0 (nmInit P argsort f sim0) := by
  have hv : volume (nmInit P argsort f sim0).sim = volume sim0 := volume_perm _ _
  have hh : (nmInit P argsort f sim0).simplexHistory = [(nmInit P argsort f sim0).sim] := rfl
  have hi : (nmInit P argsort f sim0).iterations = 1 := rfl
  refine ⟨by rw [hh]; rfl, hi.ge, ?_, ?_, fun _ => ⟨_, by rw [hh]; rfl, hv⟩, ?_, ?_⟩
  · rw [hi, hv]; simp
  · rw [hi, hv]; simp
  · intro n S S' _ h2
    rw [hh] at h2
    simp at h2
  · intro h0 S hS
    rw [hh, List.mem_singleton] at hS
    rw [hS, hv]; exact h0

theorem volInv_iter (hd : 1 ≤ d) {P : NMParams} {argsort : Argsort d} {f : ℕ → Vec d → FVal} {sim0 : Sim d} {s : NMState d} (h : VolInv P sim0 s) :
    VolInv P sim0 (nmIter P argsort f s) := by
  obtain ⟨c, hc, hv⟩ := volume_iter hd P argsort f s
  have hhist : (nmIter P argsort f s).simplexHistory = if P.keepHistory then s.simplexHistory ++ [(nmIter P argsort f s).sim] else [(nmIter P argsort f s).sim] := by
    unfold nmIter nmSort
    have : (nmMove f s).simplexHistory = s.simplexHistory := by
      unfold nmMove; simp only; split_ifs <;> rfl
    simp only [this]
  have hit : (nmIter P argsort f s).iterations = s.iterations + 1 := by simp [nmIter, nmSort, nmMove_iterations]
  set s' := nmIter P argsort f s
  have h2 : (1 : ℝ) / 2 ^ d ≤ 1 / 2 := by
    apply one_div_le_one_div_of_le (by norm_num)
    calc (2 : ℝ) = 2 ^ 1 := by norm_num
      _ ≤ 2 ^ d := pow_le_pow_right₀ (by norm_num) hd
  have hc1 : 1 / 2 ^ d ≤ c ∧ c ≤ 2 := by
    simp only [Set.mem_insert_iff, Set.mem_singleton_iff] at hc
    rcases hc with rfl | rfl | rfl | rfl <;> constructor <;> linarith
  have hd0 : (0 : ℝ) < 1 / 2 ^ d := by positivity
  have hsub : s.iterations + 1 - 1 = (s.iterations - 1) + 1 := by have := h.iters; omega
  have hV := volume_nonneg s.sim
  refine ⟨?_, by rw [hit]; omega, ?_, ?_, ?_, ?_, ?_⟩
  · rw [hhist]; split <;> simp
  · rw [hit, hsub, pow_succ', hv]
    calc (1 / 2 ^ d : ℝ) * (1 / 2 ^ d) ^ (s.iterations - 1) * volume sim0 = (1 / 2 ^ d) * ((1 / 2 ^ d) ^ (s.iterations - 1) * volume sim0) := by ring
      _ ≤ (1 / 2 ^ d) * volume s.sim := mul_le_mul_of_nonneg_left h.lower hd0.le
      _ ≤ c * volume s.sim := mul_le_mul_of_nonneg_right hc1.1 hV
  · rw [hit, hsub, pow_succ', hv]
    calc c * volume s.sim ≤ 2 * volume s.sim := mul_le_mul_of_nonneg_right hc1.2 hV
      _ ≤ 2 * (2 ^ (s.iterations - 1) * volume sim0) := mul_le_mul_of_nonneg_left h.upper (by norm_num)
      _ = _ := by ring
  · intro hk
    obtain ⟨S, hS, hS2⟩ := h.first hk
    refine ⟨S, ?_, hS2⟩
    rw [hhist, if_pos hk, List.head?_append, hS]
    rfl
  · intro n S S' hS hS'
    rw [hhist] at hS hS'
    split at hS
    · rename_i hk
      rw [if_pos hk] at hS'
      rcases lt_or_ge (n + 1) s.simplexHistory.length with hn | hn
      · rw [List.getElem?_append_left hn] at hS'
        rw [List.getElem?_append_left (by omega)] at hS
        exact h.chain n S S' hS hS'
      · rw [List.getElem?_append_right hn] at hS'
        have hlen : n + 1 = s.simplexHistory.length := by
          by_contra hne
          rw [List.getElem?_eq_none (by simp; omega)] at hS'
          cases hS'
        rw [← hlen] at hS'
        simp at hS'
        rw [List.getElem?_append_left (by omega)] at hS
        have hl := h.last
        rw [List.getLast?_eq_getElem?, ← hlen] at hl
        simp only [Nat.add_sub_cancel] at hl
        rw [hS] at hl
        obtain rfl := Option.some.inj hl
        exact ⟨c, hc, by rw [← hS', hv]⟩
    · rename_i hk
      rw [if_neg hk] at hS'
      simp at hS'
  · intro h0 S hS
    have hpos : 0 < volume s'.sim := by
      rw [hv]
      have := h.pos h0 s.sim (List.mem_of_getLast? h.last)
      exact mul_pos (lt_of_lt_of_le hd0 hc1.1) this
    rw [hhist] at hS
    split at hS
    · rcases List.mem_append.1 hS with hS | hS
      · exact h.pos h0 S hS
      · rw [List.mem_singleton] at hS; rw [hS]; exact hpos
    · rw [List.mem_singleton] at hS; rw [hS]; exact hpos

theorem volInv_run (hd : 1 ≤ d) (P : NMParams) (argsort : Argsort d) (f : ℕ → Vec d → FVal) (sim0 : Sim d) :
    VolInv P sim0 (nmRun P argsort f sim0) :=
  nmLoop_induct _ (fun _ hs _ => volInv_iter hd hs) _ (volInv_init P argsort f sim0)

/-- **C73**, the volume of the simplex: with the history kept, the first simplex of the history has the volume of the initial simplex, and each one has 1, 2, 1/2 or 1/2^dim times the volume
of the one before. -/
theorem C73_volume_steps (hd : 1 ≤ d) {P : NMParams} {f : ℕ → Vec d → FVal} {sim0 : Sim d} {r : MinRes d} {evals : List (Vec d × FVal)}
    (h : IsMinimization P f sim0 r evals) (hk : P.keepHistory = true) :
    (∃ S, r.simplexHistory.head? = some S ∧ volume S = volume sim0) ∧
    ∀ (n : ℕ) S S', r.simplexHistory[n]? = some S → r.simplexHistory[n + 1]? = some S' →
      volume S' = volume S ∨ volume S' = 2 * volume S ∨ volume S' = volume S / 2 ∨ volume S' = volume S / 2 ^ d := by
  obtain ⟨argsort, -, rfl, rfl⟩ := h
  have hi := volInv_run hd P argsort f sim0
  refine ⟨hi.first hk, fun n S S' h1 h2 => ?_⟩
  obtain ⟨c, hc, hv⟩ := hi.chain n S S' h1 h2
  simp only [Set.mem_insert_iff, Set.mem_singleton_iff] at hc
  rcases hc with rfl | rfl | rfl | rfl
  · left; rw [hv, one_mul]
  · right; left; exact hv
  · right; right; left; rw [hv]; ring
  · right; right; right; rw [hv]; ring

/-- **C73**, bounds: the last simplex, of which `pos` is the first vertex, has at most `2 ^ (num_iter - 1)` and at least `2 ^ (-dim * (num_iter - 1))` times the volume of the initial simplex. -/
theorem C73_volume_bounds (hd : 1 ≤ d) {P : NMParams} {f : ℕ → Vec d → FVal} {sim0 : Sim d} {r : MinRes d} {evals : List (Vec d × FVal)}
    (h : IsMinimization P f sim0 r evals) :
    ∃ S, r.simplexHistory.getLast? = some S ∧ S 0 = r.pos ∧
      volume sim0 / 2 ^ (d * (r.numIter - 1)) ≤ volume S ∧ volume S ≤ 2 ^ (r.numIter - 1) * volume sim0 := by
  obtain ⟨argsort, -, rfl, rfl⟩ := h
  have hi := volInv_run hd P argsort f sim0
  refine ⟨_, hi.last, rfl, ?_, hi.upper⟩
  have := hi.lower
  rw [one_div_pow, ← pow_mul] at this
  calc _ = 1 / 2 ^ (d * ((nmRun P argsort f sim0).iterations - 1)) * volume sim0 := by rw [div_mul_eq_mul_div, one_mul]; rfl
    _ ≤ _ := this

/-- **C73**: all simplices which one run of the minimizer goes through are non-degenerate if the initial simplex is. -/
theorem C73_stays_nondegenerate (hd : 1 ≤ d) {P : NMParams} {f : ℕ → Vec d → FVal} {sim0 : Sim d} {r : MinRes d} {evals : List (Vec d × FVal)}
    (h : IsMinimization P f sim0 r evals) (h0 : AffineIndependent ℝ sim0) : ∀ S ∈ r.simplexHistory, AffineIndependent ℝ S := by
  obtain ⟨argsort, -, rfl, rfl⟩ := h
  have hi := volInv_run hd P argsort f sim0
  intro S hS
  rw [affineIndependent_iff_volume] at h0 ⊢
  exact (hi.pos (lt_of_le_of_ne (volume_nonneg _) h0.symm) S hS).ne'

/-- **C73**, also for the two runs of a minimization with a fake potential. -/
theorem C73_two_step_nondegenerate (hd : 1 ≤ d) {P : NMParams} {f : ℕ → Vec d → FVal} {fake : Option (ℕ → Vec d → FVal)} {sim0 : Sim d} {r : SRes d}
    (h : IsTwoStep P f fake sim0 r) (h0 : AffineIndependent ℝ sim0) : ∀ S ∈ r.simplexHistory, AffineIndependent ℝ S := by
  obtain ⟨argsort, ha, rfl⟩ := h
  cases fake with
  | none => exact C73_stays_nondegenerate hd ⟨argsort, ha, rfl, rfl⟩ h0
  | some fake =>
    have h1 := C73_stays_nondegenerate hd (r := rootNelderMead { P with ftol := FVal.inf } argsort (addFakePotential fake f) sim0) ⟨argsort, ha, rfl, rfl⟩ h0
    intro S hS
    simp only [runMinimization, SRes.simplexHistory, List.mem_append] at hS
    rcases hS with hS | hS
    · exact h1 S hS
    · refine C73_stays_nondegenerate hd ⟨argsort, ha, rfl, rfl⟩ ?_ S hS
      set T := (rootNelderMead { P with ftol := FVal.inf } argsort (addFakePotential fake f) sim0).simplexHistory.getLastD sim0 with hT
      have hTi : AffineIndependent ℝ T := by
        rw [hT, List.getLastD_eq_getLast?]
        cases hl : (rootNelderMead { P with ftol := FVal.inf } argsort (addFakePotential fake f) sim0).simplexHistory.getLast? with
        | none => simpa using h0
        | some S => simpa using h1 S (List.mem_of_getLast? hl)
      rw [affineIndependent_iff_volume] at hTi ⊢
      unfold blowup
      rw [volume_homothety]
      exact mul_ne_zero (by positivity) hTi

/-! ## The simplices of a search -/

theorem nonDegenerate_perm {s t : Simplex d} (h : NonDegenerate s) (hp : t.Perm s) : NonDegenerate t := by
  obtain ⟨S, rfl, hS⟩ := h
  have hlen : t.length = d + 1 := by rw [hp.length_eq]; simp
  refine ⟨fun i => t.get (i.cast hlen.symm), ?_, ?_⟩
  · apply List.ext_get (by simp [hlen])
    intro n h1 h2
    rw [List.get_ofFn]
    rfl
  · have hinj : Function.Injective fun i : Fin (d + 1) => t.get (i.cast hlen.symm) := by
      have hnd : t.Nodup := hp.nodup_iff.2 (List.nodup_ofFn.2 hS.injective)
      intro a b hab
      have := List.nodup_iff_injective_get.1 hnd hab
      simpa [Fin.ext_iff] using this
    have hr : Set.range (fun i : Fin (d + 1) => t.get (i.cast hlen.symm)) = Set.range S := by
      ext x
      constructor
      · rintro ⟨i, rfl⟩
        have := hp.mem_iff.1 (List.get_mem t (i.cast hlen.symm))
        rw [List.mem_ofFn] at this
        exact this
      · rintro ⟨i, rfl⟩
        have := hp.mem_iff.2 (List.mem_ofFn.2 ⟨i, rfl⟩)
        obtain ⟨n, hn⟩ := List.mem_iff_get.1 this
        exact ⟨n.cast hlen, by simpa using hn⟩
    refine AffineIndependent.of_set_of_injective ?_ hinj
    rw [hr]
    exact hS.range

theorem nonDegenerate_map {s : Simplex d} (h : NonDegenerate s) (φ : Vec d →ᵃ[ℝ] Vec d) (hφ : Function.Injective φ) : NonDegenerate (s.map φ) := by
  obtain ⟨S, rfl, hS⟩ := h
  exact ⟨φ ∘ S, by rw [List.map_ofFn], hS.map' φ hφ⟩

/-- translation and scaling -/
theorem nonDegenerate_affine {s : Simplex d} (h : NonDegenerate s) {c : ℝ} (hc : c ≠ 0) (v : Vec d) {g : Vec d → Vec d} (hg : ∀ x k, g x k = c * x k + v k) :
    NonDegenerate (s.map g) := by
  have : g = ((c • LinearMap.id : Vec d →ₗ[ℝ] Vec d).toAffineMap + AffineMap.const ℝ (Vec d) v : Vec d →ᵃ[ℝ] Vec d) := by
    funext x k
    rw [hg]
    simp
  rw [this]
  refine nonDegenerate_map h _ fun x y hxy => ?_
  funext k
  have := congrFun hxy k
  simpa [hc] using this

/-- every simplex of the initial mesh, and of the default stencils, is non-degenerate -/
theorem nonDegenerate_mesh {l u : Vec d} (h : ∀ i, l i < u i) {m : Fin d → ℕ} (hm : ∀ i, 1 ≤ m i) {pe so : Bool} {s : Simplex d}
    (hs : s ∈ generateMeshSimplices l u m pe so) : NonDegenerate s := by
  obtain ⟨v, -, rfl⟩ := List.mem_map.1 hs
  exact ⟨_, rfl, affineIndependent_mesh h hm v⟩

theorem nonDegenerate_circle {n : ℕ} {s : Simplex 2} (hs : s ∈ circleStencil n) : NonDegenerate s := by
  obtain ⟨phi, hphi, rfl⟩ := List.mem_map.1 hs
  have hn : 0 < n := by
    obtain ⟨k, hk, -⟩ := mem_linspace.1 hphi
    omega
  have hn' : (0 : ℝ) < n := by exact_mod_cast hn
  refine ⟨_, rfl, ?_⟩
  rw [affineIndependent_iff_volume, volume]
  refine div_ne_zero ?_ (by positivity)
  rw [abs_ne_zero, Matrix.det_fin_two]
  have h1 := Real.sin_sq_add_cos_sq phi
  have hb : (0 : ℝ) < Real.sqrt 3 / 2 * 5 / n := by positivity
  have ha : (0 : ℝ) < 1 / 2 * 5 / n := by positivity
  have ha' : (-1 : ℝ) / 2 * 5 / n = -(1 / 2 * 5 / n) := by ring
  simp only [Matrix.of_apply, rotate2, circleSimplex, ha', Matrix.cons_val_zero, Matrix.cons_val_one, Fin.succ_zero_eq_one, Fin.succ_one_eq_two, Matrix.cons_val]
  set b := Real.sqrt 3 / 2 * 5 / n
  set a := (1 : ℝ) / 2 * 5 / n
  have : 0 < 2 * (a * b) := by positivity
  refine ne_of_gt (lt_of_lt_of_eq this ?_)
  linear_combination (-2 * (a * b)) * h1

theorem nonDegenerate_sphere {n : ℕ} {s : Simplex 3} (hs : s ∈ sphereStencil n) : NonDegenerate s := by
  obtain ⟨i, hi, rfl⟩ := mem_sphere.1 hs
  have hn : (0 : ℝ) < n := by exact_mod_cast (by omega : 0 < n)
  have hbase : AffineIndependent ℝ (sphereSimplex0 n) := by
    rw [affineIndependent_iff_volume, volume]
    refine div_ne_zero ?_ (by positivity)
    rw [abs_ne_zero, Matrix.det_fin_three]
    have he : (0 : ℝ) < 3 / Real.sqrt n := by positivity
    simp only [Matrix.of_apply, sphereSimplex0, Fin.cons_succ, Fin.cons_zero, sub_zero]
    set e := (3 : ℝ) / Real.sqrt n
    simp
    have : (0.25 + 0.75 : ℝ) * e * ((0.25 + 0.75) * e) * ((0.25 + 0.75) * e) = e ^ 3 := by ring
    refine ne_of_gt ?_
    norm_num
    nlinarith [pow_pos he 3]
  have hqr : ∀ x : Vec 3, x ≠ 0 → Function.Injective (Matrix.toLin' (qrSigned x)) := fun x hx => by
    rw [injective_iff_map_eq_zero]
    intro w hw
    have h1 := (qr_spec x hx w).1
    rw [Matrix.toLin'_apply] at hw
    rw [hw] at h1
    simp only [Pi.zero_apply, ne_eq, OfNat.ofNat_ne_zero, not_false_eq_true, zero_pow, Finset.sum_const_zero] at h1
    funext k
    have := (Finset.sum_eq_zero_iff_of_nonneg (fun k _ => sq_nonneg (w k))).1 h1.symm k (Finset.mem_univ k)
    simpa using this
  have h1 : NonDegenerate (List.ofFn (sphereSimplex n)) := by
    refine ⟨_, rfl, ?_⟩
    exact hbase.map' (Matrix.toLin' (qrSigned fun _ => 1)).toAffineMap (hqr _ fun h => by simpa using congrFun h 0)
  have hpos : (fun k => 1.1 * fibonacciPoint n i k) ≠ 0 := by
    intro h
    have hf := fibonacci_norm hi
    have : ∀ k, fibonacciPoint n i k = 0 := fun k => by
      have := congrFun h k
      simp only [Pi.zero_apply, mul_eq_zero] at this
      rcases this with h | h
      · norm_num at h
      · exact h
    simp [this] at hf
  have h2 := nonDegenerate_map h1 (Matrix.toLin' (qrSigned fun k => 1.1 * fibonacciPoint n i k)).toAffineMap (hqr _ hpos)
  have h3 := nonDegenerate_affine h2 one_ne_zero (fun k => 1.1 * fibonacciPoint n i k) (g := fun x k => x k + 1.1 * fibonacciPoint n i k) (fun x k => by simp)
  rw [List.map_ofFn, List.map_ofFn] at h3
  exact h3

theorem nonDegenerate_auto {s : Simplex d} (hs : s ∈ autoStencil d) : NonDegenerate s := by
  unfold autoStencil at hs
  split at hs
  · exact nonDegenerate_circle hs
  · exact nonDegenerate_sphere hs
  · exact nonDegenerate_mesh (fun _ => by norm_num) (fun _ => by norm_num) hs

/-! ## All minimizations of a search -/

/-- all simplices the search deals with have the property `Q` -/
structure SimpInv (Q : Simplex d → Prop) (c : Ctl d) : Prop where
  queued : ∀ s ∈ c.state.simplexQueue.base.queued, Q s
  running : ∀ s ∈ c.state.simplexQueue.running, Q s
  tasks : ∀ s ∈ c.tasks, Q s
  disk : ∀ sv, c.disk = some sv → ∀ s ∈ sv.simplices, Q s
  log : ∀ s r, LogEntry.completed s r ∈ c.log → Q s

theorem simpInv_elem {p : CtlParams d} {Q : Simplex d → Prop} (hst : ∀ st, p.stencil = some st → ∀ pos, ∀ s ∈ translateStencil pos st, Q (normalizeSimplex s)) :
    Elem p (fun _ => True) (SimpInv Q) where
  fill c c' _ h hs := by
    obtain ⟨-, ⟨x, rest, hq, -, rfl⟩ | ⟨x, rest, hq, -, rfl⟩ | ⟨pos, rest, st, hq, hpq, -, hst', rfl⟩ |
      ⟨pos, rest, hq, hpq, -, -, rfl⟩⟩ := fillStep_next hs
    · have h1 := h.queued
      rw [hq] at h1
      refine ⟨fun s hs => h1 s (by simp at hs; simp [hs]), fun s hs => ?_, fun s hs => ?_, h.disk, fun s r hs => h.log s r (by simpa using hs)⟩
      · simp only [RunQueue.mem_popTo] at hs
        rcases hs with rfl | hs
        · exact h1 _ (by simp)
        · exact h.running s hs
      · rcases List.mem_append.1 hs with hs | hs
        · exact h.tasks s hs
        · rw [List.mem_singleton] at hs; rw [hs]; exact h1 _ (by simp)
    · have h1 := h.queued
      rw [hq] at h1
      refine ⟨fun s hs => h1 s (by simp at hs; simp [hs]), fun s hs => ?_, h.tasks, h.disk, fun s r hs => h.log s r (by simpa using hs)⟩
      simp only [RunQueue.mem_finishOf, RunQueue.mem_popTo] at hs
      rcases hs.2 with rfl | hs
      · exact h1 _ (by simp)
      · exact h.running s hs
    · have haq := addObjects_queued c.state.simplexQueue (normalizeSimplices (translateStencil pos st))
      refine ⟨fun s hs => ?_, fun s hs => ?_, h.tasks, h.disk, fun s r hs => h.log s r (by simpa using hs)⟩
      · have hs : s ∈ (c.state.simplexQueue.addObjects (normalizeSimplices (translateStencil pos st))).base.queued := hs
        rw [haq.1] at hs
        rcases List.mem_append.1 hs with hs | hs
        · exact h.queued s hs
        · obtain ⟨t, ht, rfl⟩ := List.mem_map.1 (List.mem_filter.1 hs).1
          exact hst st hst' pos t ht
      · have hs : s ∈ (c.state.simplexQueue.addObjects (normalizeSimplices (translateStencil pos st))).running := hs
        rw [haq.2.2] at hs
        exact h.running s hs
    · exact ⟨h.queued, h.running, h.tasks, h.disk, fun s r hs => h.log s r (by simpa using hs)⟩
  raise c e c' _ h hs := by
    obtain ⟨-, -, pos, rest, -, rfl⟩ := fillStep_raise hs
    exact ⟨h.queued, h.running, h.tasks, h.disk, h.log⟩
  done c s r _ h hs hr := by
    have hsq := (processResult_cases p c.state r).2.1
    have key : (taskDone p c s r).tasks = c.tasks.erase s ∧ (∀ x r', LogEntry.completed x r' ∈ (taskDone p c s r).log → LogEntry.completed x r' ∈ c.log ∨ x = s) ∧
        (taskDone p c s r).state.simplexQueue.base.queued = c.state.simplexQueue.base.queued ∧
        (∀ x ∈ (taskDone p c s r).state.simplexQueue.running, x ∈ c.state.simplexQueue.running) := by
      by_cases hrun : s ∈ c.state.simplexQueue.running
      · rw [taskDone_of_mem r hrun]
        refine ⟨rfl, fun x r' hx => ?_, rfl, fun x hx => ?_⟩
        · rcases List.mem_append.1 hx with hx | hx
          · exact .inl hx
          · simp only [List.mem_singleton, LogEntry.completed.injEq] at hx
            exact .inr hx.1
        · exact (RunQueue.mem_finishOf.1 hx).2
      · have e : ∃ er, (processResult p c.state r).simplexQueue.setFinished s = .error er := by
          rw [hsq]
          exact ⟨_, by unfold RunQueue.setFinished; rw [if_neg hrun]⟩
        obtain ⟨er, e⟩ := e
        unfold taskDone
        simp only [e]
        refine ⟨trivial, fun x r' hx => ?_, by rw [hsq], by rw [hsq]; exact fun _ h => h⟩
        rcases List.mem_append.1 hx with hx | hx
        · exact .inl hx
        · simp only [List.mem_cons, LogEntry.completed.injEq, reduceCtorEq, List.not_mem_nil, or_false] at hx
          exact .inr hx.1
    refine ⟨by rw [key.2.2.1]; exact h.queued, fun x hx => h.running x (key.2.2.2 x hx), ?_, ?_, ?_⟩
    · rw [key.1]; exact fun x hx => h.tasks x (List.mem_of_mem_erase hx)
    · rw [(taskDone_disk p c s r).1]; exact h.disk
    · intro x r' hx
      rcases key.2.1 x r' hx with hx | hx
      · exact h.log x r' hx
      · rw [hx]; exact h.tasks s hs
  fail c s id _ h hs := by
    refine ⟨h.queued, h.running, fun x hx => h.tasks x (List.mem_of_mem_erase hx), h.disk, fun x r hx => h.log x r ?_⟩
    simpa [taskFail] using hx
  save c enum _ h he := by
    rcases doSave_eq p c enum with ⟨-, -, e⟩ | ⟨-, e⟩
    · rw [e]
      refine ⟨h.queued, h.running, h.tasks, ?_, h.log⟩
      intro sv hsv s hs
      obtain rfl := Option.some.inj hsv
      simp only [CtlState.snapshot, RunQueue.objects] at hs
      rcases List.mem_append.1 hs with hs | hs
      · exact h.running s ((he.2 s).1 hs)
      · exact h.queued s hs
    · rw [e]; exact h
  phase c ph _ h := ⟨h.queued, h.running, h.tasks, h.disk, h.log⟩

theorem simpInv_start {p : CtlParams d} {Q : Simplex d → Prop} (hn : ∀ s, Q s → Q (normalizeSimplex s)) (hm : ∀ s ∈ p.mesh, Q (normalizeSimplex s))
    (disk initial : Option (Saved d)) (h1 : ∀ sv, disk = some sv → ∀ s ∈ sv.simplices, Q s) (h2 : ∀ sv, initial = some sv → ∀ s ∈ sv.simplices, Q s) :
    SimpInv Q (startFrom p disk initial) := by
  cases initial with
  | none =>
    refine ⟨fun s hs => ?_, fun s hs => by simp [startFrom, createStateFrom, RunQueue.create] at hs, fun s hs => by simp [startFrom] at hs, h1, fun s r hs => by simp [startFrom] at hs⟩
    obtain ⟨t, ht, rfl⟩ := List.mem_map.1 (show s ∈ normalizeSimplices p.mesh from hs)
    exact hm t ht
  | some sv =>
    have hsv : ∀ s ∈ normalizeSimplices sv.simplices, Q s := fun s hs => by
      obtain ⟨t, ht, rfl⟩ := List.mem_map.1 hs
      exact hn _ (h2 sv rfl t ht)
    refine ⟨fun s hs => ?_, fun s hs => ?_, fun s hs => by simp [startFrom] at hs, h1, fun s r hs => by simp [startFrom] at hs⟩
    · change s ∈ (if p.forceInitialMesh then _ else _ : RunQueue (Simplex d)).base.queued at hs
      split at hs
      · rw [(addObjects_queued _ _).1] at hs
        rcases List.mem_append.1 hs with hs | hs
        · exact hsv s hs
        · obtain ⟨t, ht, rfl⟩ := List.mem_map.1 (List.mem_filter.1 hs).1
          exact hm t ht
      · exact hsv s hs
    · change s ∈ (if p.forceInitialMesh then _ else _ : RunQueue (Simplex d)).running at hs
      split at hs
      · rw [(addObjects_queued _ _).2.2] at hs
        simp [RunQueue.create] at hs
      · simp [RunQueue.create] at hs

theorem simpInv_reach {p : CtlParams d} {Q : Simplex d → Prop} (hn : ∀ s, Q s → Q (normalizeSimplex s)) (hm : ∀ s ∈ p.mesh, Q s)
    (hst : ∀ st, p.stencil = some st → ∀ pos, ∀ s ∈ translateStencil pos st, Q s) {R : Simplex d → SRes d → Prop} {c : Ctl d} (h : ReachWith p R c) :
    SimpInv Q c ∧ ReachWith p (fun s r => R s r ∧ Q s) c := by
  have he := simpInv_elem (Q := Q) fun st h1 pos s h2 => hn s (hst st h1 pos s h2)
  have hm' := fun s hs => hn s (hm s hs)
  induction h with
  | start => exact ⟨simpInv_start hn hm' none none (by simp) (by simp), .start⟩
  | tail _ hs hr ih =>
    cases hs with
    | step hs =>
      have := he.step ih.1 hs
      exact ⟨this, .tail ih.2 (.step hs) fun s r hl => ⟨hr s r hl, this.log s r hl⟩⟩
    | crash =>
      have := simpInv_start hn hm' _ _ ih.1.disk ih.1.disk
      exact ⟨this, .tail ih.2 (.crash _) fun s r hl => ⟨hr s r hl, this.log s r hl⟩⟩

/-- **C73** for a whole search (any schedule, crashes and restarts): if the simplices of the mesh and of the stencil are non-degenerate, then so are all simplices in the histories of all results. -/
theorem C73_search (hd : 1 ≤ d) {p : CtlParams d} (hm : ∀ s ∈ p.mesh, NonDegenerate s) (hst : ∀ st, p.stencil = some st → ∀ s ∈ st, NonDegenerate s)
    {P : NMParams} {G : Vec d → FVal → Prop} {c : Ctl d} (h : ReachWith p (MinimizationOf P G) c) {r : SRes d}
    (hr : r ∈ c.state.result.minimizationResults) : ∀ S ∈ r.simplexHistory, AffineIndependent ℝ S := by
  have h1 := (simpInv_reach (Q := NonDegenerate) (fun s hs => nonDegenerate_perm hs (normalizeSimplex_perm s)) hm (fun st h1 pos s h2 => by
    obtain ⟨t, ht, rfl⟩ := List.mem_map.1 h2
    exact nonDegenerate_affine (hst st h1 t ht) one_ne_zero pos fun x k => by ring) h).2
  have hq := histQ_reach (Q := fun r : SRes d => ∀ S ∈ r.simplexHistory, AffineIndependent ℝ S) (fun s r h => ?_) (fun r h => ?_) h1
  · obtain ⟨r0, h0, rfl⟩ := histQ_results hq hr
    cases r0 <;> exact h0
  · obtain ⟨⟨f, fake, sim0, -, e, h⟩, S, e', hS⟩ := h
    rw [e] at e'
    obtain rfl := List.ofFn_injective e'
    exact C73_two_step_nondegenerate hd h hS
  · cases r <;> exact h

/-- **C73** for the mesh and the stencil of the library: with at least one mesh point in each direction and the stencil `'auto'` or None, no minimization of the search ever degenerates. -/
theorem C73_default_search (hd : 1 ≤ d) {a : SearchArgs d} {p : CtlParams d} {P : NMParams} (hset : setup a = .ok (p, P)) (hl : ∀ i, (a.limits i).1 ≠ (a.limits i).2)
    (hf : 0 < a.featureSize) {n : ℤ} (hn : 1 ≤ n) (hm : a.initialMeshSize = .inl n) (hs : a.refinementStencil = .none ∨ a.refinementStencil = .auto)
    {G : Vec d → FVal → Prop} {c : Ctl d} (h : ReachWith p (MinimizationOf P G) c) {r : SRes d}
    (hr : r ∈ c.state.result.minimizationResults) : ∀ S ∈ r.simplexHistory, AffineIndependent ℝ S := by
  obtain ⟨-, -, -, -, -, -, -, -, -, -, -, hauto, hnone, hmesh⟩ := C71_settings hset
  refine C73_search hd (fun s hs => ?_) (fun st hst s hs' => ?_) h hr
  · rw [hmesh n hm] at hs
    exact nonDegenerate_mesh (properBox_setup hset hl) (fun _ => by omega) hs
  · rcases hs with hs | hs
    · rw [hnone.2 hs] at hst; cases hst
    · rw [hauto hs] at hst
      obtain rfl := Option.some.inj hst
      obtain ⟨t, ht, rfl⟩ := List.mem_map.1 hs'
      exact nonDegenerate_affine (nonDegenerate_auto ht) (c := a.featureSize / 3) (by positivity) 0 fun x k => by simp

/-! ## The hypotheses can be met -/
namespace C73Demo

/-- a tolerance below the size of the initial simplex, at most three iterations -/
def P3 : NMParams := ⟨1 / 2, FVal.inf, some 3, none, none, true⟩

/-- a run with at least one iteration, from a non-degenerate simplex -/
example : AffineIndependent ℝ NMDemo.sim0 ∧ P3.keepHistory = true ∧
    ∃ r evals, IsMinimization P3 NMDemo.idFun NMDemo.sim0 r evals ∧ 2 ≤ r.simplexHistory.length := by
  refine ⟨?_, rfl, _, _, ⟨fun v => Tuple.sort v, fun v => Tuple.monotone_sort v, rfl, rfl⟩, ?_⟩
  · rw [affineIndependent_iff_volume, volume]
    simp [NMDemo.sim0, NMDemo.pt]
  · have ha : IsArgsort (d := 1) fun v => Tuple.sort v := fun v => Tuple.monotone_sort v
    have hi := nmInv_run le_rfl ha NMDemo.idFun P3 NMDemo.sim0
    have hlen := hi.simLen
    simp only [P3, if_true] at hlen
    refine le_of_le_of_eq ?_ hlen.symm
    have hcont : nmContinue P3 (nmInit P3 (fun v => Tuple.sort v) NMDemo.idFun NMDemo.sim0) := by
      rw [NMDemo.id_init ha rfl]
      refine ⟨by norm_num [P3, NMParams.fevLimit], by norm_num [P3, NMParams.iterLimit], by simp [fprimeExceeded, P3], fun h => ?_⟩
      have := h.1 0 0
      simp [NMDemo.sim0, NMDemo.pt, P3] at this
      norm_num at this
    change 2 ≤ (nmLoop P3 (fun v => Tuple.sort v) NMDemo.idFun (nmInit P3 (fun v => Tuple.sort v) NMDemo.idFun NMDemo.sim0)).iterations
    rw [nmLoop, if_pos hcont]
    have hit : ∀ s : NMState 1, (nmIter P3 (fun v => Tuple.sort v) NMDemo.idFun s).iterations = s.iterations + 1 := fun s => by
      simp [nmIter, nmSort, nmMove_iterations]
    refine nmLoop_induct (fun s => 2 ≤ s.iterations) (fun s h _ => by rw [hit]; omega) _ ?_
    rw [hit]
    simp [nmInit, nmSort]

/-- the default search of the constant function 0 reaches a state with a node -/
example : ∃ p P c r, setup SearchArgs.defaults = .ok (p, P) ∧ (∀ i, (SearchArgs.defaults.limits i).1 ≠ (SearchArgs.defaults.limits i).2) ∧
    0 < SearchArgs.defaults.featureSize ∧ SearchArgs.defaults.initialMeshSize = .inl 10 ∧ SearchArgs.defaults.refinementStencil = .auto ∧
    ReachWith p (MinimizationOf P fun _ v => v = FVal.ofReal 0) c ∧ r ∈ c.state.result.minimizationResults := by
  obtain ⟨p, P, c, h1, h2, h3⟩ := C71Demo.default_reach
  obtain ⟨r, hr⟩ := List.exists_mem_of_ne_nil _ h3
  exact ⟨p, P, c, r, h1, fun i => by simp [SearchArgs.defaults], by norm_num [SearchArgs.defaults], rfl, rfl, h2, List.mem_append_left _ hr⟩

/-- so its results are never degenerate -/
example {p : CtlParams 3} {P : NMParams} (h : setup SearchArgs.defaults = .ok (p, P)) {G : Vec 3 → FVal → Prop} {c : Ctl 3} (hc : ReachWith p (MinimizationOf P G) c)
    {r : SRes 3} (hr : r ∈ c.state.result.minimizationResults) : ∀ S ∈ r.simplexHistory, AffineIndependent ℝ S :=
  C73_default_search (by norm_num) h (fun i => by simp [SearchArgs.defaults]) (by norm_num [SearchArgs.defaults]) (n := 10) (by norm_num) rfl (.inr rfl) hc hr

end C73Demo

end NF
