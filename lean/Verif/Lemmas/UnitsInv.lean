import Verif.Lemmas.Units

/-! # Lemmas: changing the units back -/

noncomputable section
open Classical

namespace NF
open Spec
variable {d : ℕ}

theorem units_inv_inv (u : Units d) : u.inv.inv = u := by
  cases u with
  | mk a e t ha he =>
    simp only [Spec.Units.inv, inv_inv, Spec.Units.mk.injEq, true_and]
    funext k
    field_simp

theorem units_inv_pos (u : Units d) (x : Vec d) : u.inv.pos (u.pos x) = x := by
  funext k
  have := u.scale_pos.ne'
  simp only [Spec.Units.inv, Units.pos]
  field_simp
  ring

theorem units_inv_val (u : Units d) (v : FVal) : u.inv.frame.val (u.frame.val v) = v := by
  rcases fval_cases v with rfl | rfl | rfl | ⟨r, rfl⟩
  · rfl
  · rw [frame_val_inf, frame_val_inf]
  · rw [frame_val_ninf, frame_val_ninf]
  · rw [frame_val_real, frame_val_real]
    congr 1
    have := u.energy_pos.ne'
    simp only [Spec.Units.inv, Units.frame]
    field_simp

theorem units_inv_simplex (u : Units d) (s : Simplex d) : u.inv.simplex (u.simplex s) = s := by
  simp [Units.simplex, Function.comp_def, units_inv_pos]

theorem units_inv_minRes (u : Units d) (r : MinRes d) : u.inv.frame.minRes (u.frame.minRes r) = r := by
  cases r with
  | mk p v a b c s m h f =>
    simp only [Frame.minRes, units_pos_eq, units_inv_pos, units_inv_val, List.map_map, Function.comp_def, List.map_id', Option.map_map, Option.map_id']

theorem units_inv_sres (u : Units d) (r : SRes d) : u.inv.frame.sres (u.frame.sres r) = r := by
  cases r with
  | plain r => simp [Frame.sres, units_inv_minRes]
  | joined ch an pa => simp [Frame.sres, units_inv_minRes, units_pos_eq, Function.comp_def, units_inv_pos]

theorem units_inv_coord (u : Units d) (cs : CoordSys d) : u.inv.coord (u.coord cs) = cs := by
  simp [Units.coord, units_inv_pos]

theorem units_inv_cell {α β : Type} {g : α → β} {g' : β → α} (h : ∀ x, g' (g x) = x) (c : CellList d α) : Units.cellList g' (Units.cellList g c) = c := by
  simp [Units.cellList, Function.comp_def, h]

theorem units_inv_scale (u : Units d) (x : ℝ) : u.inv.scale * (u.scale * x) = x := inv_mul_cancel_left₀ u.scale_pos.ne' x

theorem units_inv_energy (u : Units d) (x : ℝ) : u.inv.energy * (u.energy * x) = x := inv_mul_cancel_left₀ u.energy_pos.ne' x

theorem units_inv_container (u : Units d) (c : Container d) : u.inv.container (u.container c) = c := by
  simp [Units.container, units_inv_cell (units_inv_sres u), units_inv_cell (units_inv_pos u), units_inv_coord, units_inv_scale, units_inv_energy, Function.comp_def, units_inv_sres]

theorem units_inv_queue {α β : Type} {g : α → β} {g' : β → α} (h : ∀ x, g' (g x) = x) (q : ObjQueue α) : Units.queue g' (Units.queue g q) = q := by
  simp [Units.queue, Function.comp_def, h, ← Set.image_comp]

theorem units_inv_runQueue {α β : Type} {g : α → β} {g' : β → α} (h : ∀ x, g' (g x) = x) (q : RunQueue α) : Units.runQueue g' (Units.runQueue g q) = q := by
  simp [Units.runQueue, units_inv_queue h, Finset.image_image, Function.comp_def, h]

theorem units_inv_state (u : Units d) (s : CtlState d) : u.inv.state (u.state s) = s := by
  simp [Units.state, units_inv_container, units_inv_runQueue (units_inv_simplex u), units_inv_queue (units_inv_pos u)]

theorem units_inv_saved (u : Units d) (s : Saved d) : u.inv.saved (u.saved s) = s := by
  simp [Units.saved, Function.comp_def, units_inv_sres, units_inv_pos, units_inv_simplex]

theorem units_inv_log (u : Units d) (e : LogEntry d) : u.inv.logEntry (u.logEntry e) = e := by
  cases e <;> simp [Units.logEntry, units_inv_sres, units_inv_pos, units_inv_simplex]

theorem units_inv_ctl (u : Units d) (c : Ctl d) : u.inv.ctl (u.ctl c) = c := by
  simp [Units.ctl, units_inv_state, Function.comp_def, units_inv_simplex, units_inv_saved, units_inv_log, units_inv_sres]

theorem units_inv_params (u : Units d) (p : CtlParams d) : u.inv.params (u.params p) = p := by
  simp [Units.params, units_inv_coord, units_inv_scale, units_inv_energy, Function.comp_def, units_inv_simplex]

theorem units_inv_nm (u : Units d) (P : NMParams) : u.inv.frame.nm (u.frame.nm P) = P := by
  have h : ∀ c : ℝ, u.inv.frame.energy / u.inv.frame.scale * (u.frame.energy / u.frame.scale * c) = c := fun c => by
    have h1 := u.energy_pos.ne'
    have h2 := u.scale_pos.ne'
    simp only [Spec.Units.inv, Units.frame]
    field_simp
  have h2 : ∀ x : ℝ, u.inv.frame.scale * (u.frame.scale * x) = x := units_inv_scale u
  simp [Frame.nm, units_inv_val, h, h2, Function.comp_def]

theorem units_inv_gap (u : Units d) (G : Vec d → FVal → Prop) : u.inv.frame.gap (u.frame.gap G) = G := by
  funext x v
  apply propext
  constructor
  · rintro ⟨x', v', rfl, rfl, x'', v'', rfl, rfl, h⟩
    rwa [units_pos_eq, units_pos_eq, units_inv_pos, units_inv_val]
  · intro h
    exact ⟨u.frame.pos x, u.frame.val v, by rw [units_pos_eq, units_pos_eq, units_inv_pos], (units_inv_val u v).symm, x, v, rfl, rfl, h⟩

end NF
