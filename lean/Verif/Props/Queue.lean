import Verif.Spec.Queue
import Mathlib.Data.List.Sort
import Mathlib.Order.PiLex
import Mathlib.Data.Finset.Dedup
import Mathlib.Data.Real.Basic
import Mathlib.Algebra.BigOperators.Group.List.Basic

/-!
# Properties C16–C20: queues

All statements are about `qRun init ops`: a new queue with initial objects `init`, after an arbitrary list of calls.
-/

noncomputable section
open Classical
namespace NF
open Spec
variable {α : Type}

/-! ## firstOccurrences -/

theorem mem_firstOccurrences {l : List α} {x : α} : x ∈ firstOccurrences l ↔ x ∈ l := by
  induction l with
  | nil => simp [firstOccurrences]
  | cons a l ih =>
    simp only [firstOccurrences, List.mem_cons, List.mem_filter, ih, decide_eq_true_eq]
    by_cases h : x = a <;> simp [h]

theorem nodup_firstOccurrences (l : List α) : (firstOccurrences l).Nodup := by
  induction l with
  | nil => simp [firstOccurrences]
  | cons a l ih => simp [firstOccurrences, ih.filter]

theorem firstOccurrences_eq_self {l : List α} (h : l.Nodup) : firstOccurrences l = l := by
  induction l with
  | nil => rfl
  | cons a l ih =>
    simp only [firstOccurrences, ih h.of_cons, List.cons.injEq, true_and]
    rw [List.filter_eq_self]
    intro x hx
    simp only [decide_eq_true_eq]
    rintro rfl
    exact (List.nodup_cons.1 h).1 hx

theorem firstOccurrences_append (l b : List α) :
    firstOccurrences (l ++ b) = firstOccurrences l ++ (firstOccurrences b).filter fun x => decide (x ∉ l) := by
  induction l with
  | nil => simp [firstOccurrences]
  | cons a l ih =>
    simp only [List.cons_append, firstOccurrences, ih, List.filter_append, List.filter_filter]
    congr 2
    apply List.filter_congr
    intro x _
    simp only [List.mem_cons]
    by_cases h1 : x = a <;> by_cases h2 : x ∈ l <;> simp [h1, h2]

/-! ## the invariant of a history -/

structure QInv (added : List α) (t : QTrace α) : Prop where
  all : ∀ x, x ∈ t.queue.base.all ↔ x ∈ added
  mem : ∀ x, x ∈ t.handedOut ++ t.queue.base.queued ↔ x ∈ added
  running : ∀ x, x ∈ t.queue.running → x ∈ t.handedOut
  handed : ∀ x, x ∈ t.handedOut → x ∈ t.queue.running ∨ x ∈ t.finishedOk
  fin : ∀ x, x ∈ t.finishedOk → x ∈ t.handedOut
  fifo : ∃ l, t.handedOut ++ t.queue.base.queued = l ∧ firstOccurrences added = firstOccurrences l

/-- additional invariant if no batch has duplicates -/
structure QInv' (added : List α) (t : QTrace α) : Prop extends QInv added t where
  exact : t.handedOut ++ t.queue.base.queued = firstOccurrences added
  disj : ∀ x, x ∈ t.queue.running → x ∉ t.finishedOk
  nodupFin : t.finishedOk.Nodup
  keys : ∀ x, x ∈ t.queue.running ↔ x ∈ t.handedOut ∧ x ∉ t.finishedOk

theorem QInv.init (init : List α) : QInv init ⟨RunQueue.create init, [], [], []⟩ := by
  constructor <;> simp [RunQueue.create, ObjQueue.create]

theorem QInv'.init {init : List α} (h : init.Nodup) : QInv' init ⟨RunQueue.create init, [], [], []⟩ where
  toQInv := QInv.init init
  exact := by simp [RunQueue.create, ObjQueue.create, firstOccurrences_eq_self h]
  disj := by simp
  nodupFin := by simp
  keys := by simp [RunQueue.create]

theorem addObjects_queued (q : RunQueue α) (objs : List α) :
    (q.addObjects objs).base.queued = q.base.queued ++ objs.filter (fun o => decide (o ∉ q.base.all)) ∧
      ((q.addObjects objs).base.all = q.base.all ∪ {x | x ∈ objs}) ∧
      (q.addObjects objs).running = q.running := by
  have e : q.base.all ∪ {x | x ∈ objs.filter (fun o => decide (o ∉ q.base.all))} = q.base.all ∪ {x | x ∈ objs} := by
    ext x; by_cases h : x ∈ q.base.all <;> simp [h]
  unfold RunQueue.addObjects ObjQueue.addObjects
  simp only
  split
  · rename_i h
    refine ⟨by rw [h]; simp, ?_, trivial⟩
    rw [← e, h]; simp
  · exact ⟨rfl, e, trivial⟩

theorem QInv.step {added : List α} {t : QTrace α} (h : QInv added t) (op : QOp α) :
    QInv (added ++ addedBy [op]) (qStep t op) := by
  cases op with
  | add objs =>
    obtain ⟨h1, h2, h3⟩ := addObjects_queued t.queue objs
    simp only [qStep, addedBy, List.append_nil]
    refine ⟨?_, ?_, ?_, h3 ▸ h.handed, h.fin, ?_⟩
    · intro x; simp only [h2, Set.mem_union, h.all, List.mem_append, Set.mem_ofPred_eq]
    · intro x
      simp only [h1]
      rw [← List.append_assoc, List.mem_append, h.mem, List.mem_append, List.mem_filter]
      simp only [decide_eq_true_eq, h.all]
      tauto
    · rw [h3]; exact h.running
    · refine ⟨_, rfl, ?_⟩
      obtain ⟨l, hl, hf⟩ := h.fifo
      simp only [h1]
      rw [← List.append_assoc, hl, firstOccurrences_append, firstOccurrences_append, hf]
      congr 1
      have hm : ∀ x, x ∈ l ↔ x ∈ added := fun x => by rw [← hl, h.mem]
      -- both sides list the first occurrences of `objs` outside `added`
      have key : ∀ b : List α, (firstOccurrences b).filter (fun x => decide (x ∉ added))
          = (firstOccurrences (b.filter fun o => decide (o ∉ t.queue.base.all))).filter
              (fun x => decide (x ∉ l)) := by
        intro b
        induction b with
        | nil => simp [firstOccurrences]
        | cons a b ih =>
          by_cases ha : a ∈ added
          · have ha' : a ∈ t.queue.base.all := (h.all a).2 ha
            simp only [firstOccurrences, List.filter_cons, ha, ha', not_true, decide_false,
              Bool.false_eq_true, if_false, List.filter_filter]
            rw [← ih]
            apply List.filter_congr
            intro x _
            by_cases hx : x ∈ added
            · simp [hx]
            · have : x ≠ a := fun e => hx (e ▸ ha)
              simp [hx, this]
          · have ha' : a ∉ t.queue.base.all := fun h' => ha ((h.all a).1 h')
            have ha2 : a ∉ l := fun h' => ha ((hm a).1 h')
            simp only [firstOccurrences, List.filter_cons, ha, ha', ha2, not_false_eq_true, decide_true,
              if_true]
            congr 1
            rw [List.filter_filter, List.filter_filter]
            have e1 : ∀ l' : List α, ∀ P : α → Bool, l'.filter (fun x => P x && decide (x ≠ a))
                = (l'.filter P).filter fun x => decide (x ≠ a) := by
              intro l' P
              rw [List.filter_filter]
              exact List.filter_congr fun x _ => Bool.and_comm _ _
            rw [e1, e1, ih]
      exact key objs
  | pop =>
    simp only [addedBy, List.append_nil]
    have : qStep t .pop = match t.queue.popQueued with
      | none => t
      | some (x, q) => { t with queue := q, handedOut := t.handedOut ++ [x] } := rfl
    rw [this]
    cases hq : t.queue.base.queued with
    | nil =>
      have : t.queue.popQueued = none := by simp [RunQueue.popQueued, ObjQueue.popQueued, hq]
      rw [this]; exact h
    | cons x rest =>
      have : t.queue.popQueued
          = some (x, ⟨{ t.queue.base with queued := rest }, insert x t.queue.running⟩) := by
        simp [RunQueue.popQueued, ObjQueue.popQueued, hq]
      rw [this]
      refine ⟨h.all, ?_, ?_, ?_, ?_, ?_⟩
      · intro y
        have := h.mem y
        rw [hq] at this
        simpa using this
      · intro y hy
        rcases Finset.mem_insert.1 hy with e | e
        · simp [e]
        · simp [h.running y e]
      · intro y hy
        rcases List.mem_append.1 hy with e | e
        · rcases h.handed y e with h' | h'
          · left; exact Finset.mem_insert_of_mem h'
          · right; exact h'
        · left; rw [List.mem_singleton.1 e]; exact Finset.mem_insert_self _ _
      · intro y hy; exact List.mem_append_left _ (h.fin y hy)
      · obtain ⟨l, hl, hf⟩ := h.fifo
        refine ⟨l, ?_, hf⟩
        rw [← hl, hq]; simp
  | finish x =>
    simp only [addedBy, List.append_nil]
    by_cases hx : x ∈ t.queue.running
    · have : qStep t (.finish x) = { t with
          queue := ⟨{ t.queue.base with needsSaving := true }, t.queue.running.erase x⟩
          finishedOk := t.finishedOk ++ [x] } := by simp [qStep, RunQueue.setFinished, hx]
      rw [this]
      refine ⟨h.all, h.mem, ?_, ?_, ?_, h.fifo⟩
      · intro y hy; exact h.running y (Finset.mem_of_mem_erase hy)
      · intro y hy
        by_cases e : y = x
        · right; simp [e]
        · rcases h.handed y hy with h' | h'
          · left; exact Finset.mem_erase.2 ⟨e, h'⟩
          · right; simp [h']
      · intro y hy
        rcases List.mem_append.1 hy with e | e
        · exact h.fin y e
        · rw [List.mem_singleton.1 e]; exact h.running x hx
    · have : qStep t (.finish x) = { t with keyErrors := t.keyErrors ++ [x] } := by
        simp [qStep, RunQueue.setFinished, hx]
      rw [this]
      exact ⟨h.all, h.mem, h.running, h.handed, h.fin, h.fifo⟩

theorem QInv'.step {added : List α} {t : QTrace α} (h : QInv' added t) (op : QOp α)
    (hop : ∀ objs, op = .add objs → objs.Nodup) : QInv' (added ++ addedBy [op]) (qStep t op) := by
  have base := h.toQInv.step op
  cases op with
  | add objs =>
    obtain ⟨h1, h2, h3⟩ := addObjects_queued t.queue objs
    refine ⟨base, ?_, ?_, h.nodupFin, ?_⟩
    · simp only [qStep, addedBy, List.append_nil, h1]
      rw [← List.append_assoc, h.exact, firstOccurrences_append, firstOccurrences_eq_self (hop objs rfl)]
      congr 1
      apply List.filter_congr
      intro x _
      simp [h.all]
    · simp only [qStep, h3]; exact h.disj
    · simp only [qStep, h3]; exact h.keys
  | pop =>
    cases hq : t.queue.base.queued with
    | nil =>
      have e : t.queue.popQueued = none := by simp [RunQueue.popQueued, ObjQueue.popQueued, hq]
      simp only [addedBy, List.append_nil, qStep, e] at base ⊢
      exact h
    | cons x rest =>
      have e : t.queue.popQueued
          = some (x, ⟨{ t.queue.base with queued := rest }, insert x t.queue.running⟩) := by
        simp [RunQueue.popQueued, ObjQueue.popQueued, hq]
      simp only [addedBy, List.append_nil, qStep, e] at base ⊢
      have nd : (t.handedOut ++ x :: rest).Nodup := by
        rw [← hq, h.exact]; exact nodup_firstOccurrences _
      have hx : x ∉ t.handedOut := by
        intro hx
        exact (List.nodup_append.1 nd).2.2 x hx x (by simp) rfl
      have hx2 : x ∉ t.finishedOk := fun hf => hx (h.fin x hf)
      refine ⟨base, ?_, ?_, h.nodupFin, ?_⟩
      · rw [← h.exact, hq]; simp
      · intro y hy
        rcases Finset.mem_insert.1 hy with e | e
        · rw [e]; exact hx2
        · exact h.disj y e
      · intro y
        simp only [Finset.mem_insert, h.keys, List.mem_append, List.mem_singleton]
        by_cases hy : y = x
        · simp [hy, hx2]
        · simp [hy]
  | finish x =>
    by_cases hx : x ∈ t.queue.running
    · have e : qStep t (.finish x) = { t with
          queue := ⟨{ t.queue.base with needsSaving := true }, t.queue.running.erase x⟩
          finishedOk := t.finishedOk ++ [x] } := by simp [qStep, RunQueue.setFinished, hx]
      rw [e] at base ⊢
      simp only [addedBy, List.append_nil] at base ⊢
      refine ⟨base, h.exact, ?_, ?_, ?_⟩
      · intro y hy hf
        rcases List.mem_append.1 hf with hf | hf
        · exact h.disj y (Finset.mem_of_mem_erase hy) hf
        · exact (Finset.mem_erase.1 hy).1 (List.mem_singleton.1 hf)
      · simp only [List.nodup_append, h.nodupFin, List.nodup_singleton, true_and]
        rintro a ha b hb rfl
        rw [List.mem_singleton.1 hb] at ha
        exact h.disj x hx ha
      · intro y
        simp only [Finset.mem_erase, h.keys, List.mem_append, List.mem_singleton]
        tauto
    · have e : qStep t (.finish x) = { t with keyErrors := t.keyErrors ++ [x] } := by
        simp [qStep, RunQueue.setFinished, hx]
      rw [e] at base ⊢
      simp only [addedBy, List.append_nil] at base ⊢
      exact ⟨base, h.exact, h.disj, h.nodupFin, h.keys⟩

theorem addedBy_cons (op : QOp α) (ops : List (QOp α)) : addedBy (op :: ops) = addedBy [op] ++ addedBy ops := by
  cases op <;> simp [addedBy]

theorem qInv_run (init : List α) (ops : List (QOp α)) : QInv (init ++ addedBy ops) (qRun init ops) := by
  have : ∀ (ops : List (QOp α)) (a : List α) (t : QTrace α), QInv a t →
      QInv (a ++ addedBy ops) (ops.foldl qStep t) := by
    intro ops
    induction ops with
    | nil => intro a t h; simpa [addedBy] using h
    | cons op ops ih =>
      intro a t h
      have := ih _ _ (h.step op)
      rw [addedBy_cons, ← List.append_assoc]
      exact this
  exact this ops _ _ (QInv.init init)

theorem qInv'_run {init : List α} {ops : List (QOp α)} (hd : DistinctBatches init ops) :
    QInv' (init ++ addedBy ops) (qRun init ops) := by
  have : ∀ (ops : List (QOp α)), (∀ objs, QOp.add objs ∈ ops → objs.Nodup) →
      ∀ (a : List α) (t : QTrace α), QInv' a t → QInv' (a ++ addedBy ops) (ops.foldl qStep t) := by
    intro ops
    induction ops with
    | nil => intro _ a t h; simpa [addedBy] using h
    | cons op ops ih =>
      intro hops a t h
      have := ih (fun objs ho => hops objs (List.mem_cons_of_mem _ ho)) _ _
        (h.step op fun objs e => hops objs (by rw [e]; exact List.mem_cons_self))
      rw [addedBy_cons, ← List.append_assoc]
      exact this
  exact this ops hd.2 _ _ (QInv'.init hd.1)

/-! ## C16 -/

/-- C16.  If no single call (nor the initial list) contains the same object twice, then no object is ever handed out twice, however
often it is added by different calls, before or after being handed out. -/
theorem C16_handed_out_at_most_once (init : List α) (ops : List (QOp α)) (h : DistinctBatches init ops) :
    (qRun init ops).handedOut.Nodup := by
  have := (qInv'_run h).exact
  have nd : ((qRun init ops).handedOut ++ (qRun init ops).queue.base.queued).Nodup := by
    rw [this]; exact nodup_firstOccurrences _
  exact (List.nodup_append.1 nd).1

/-- C16, the excluded case: an object given twice in one call is handed out twice, and finishing both raises
KeyError for the second. -/
theorem C16_duplicate_in_one_batch (x : α) :
    (qRun [] [.add [x, x], .pop, .pop, .finish x, .finish x]).handedOut = [x, x] ∧
      (qRun [] [.add [x, x], .pop, .pop, .finish x, .finish x]).keyErrors = [x] := by
  simp [qRun, qStep, RunQueue.create, ObjQueue.create, RunQueue.addObjects, ObjQueue.addObjects,
    RunQueue.popQueued, ObjQueue.popQueued, RunQueue.setFinished]

/-- non-vacuity of C16: an object added again by a second call, after it was handed out and finished -/
example : DistinctBatches [1, 2] [.pop, .finish 1, .add [2, 1, 3]] ∧
    (qRun [1, 2] [.pop, .finish 1, .add [2, 1, 3], .pop, .pop, .pop]).handedOut = [1, 2, 3] := by
  constructor
  · constructor
    · simp
    · intro objs ho
      have e : objs = [2, 1, 3] := by simpa using ho
      subst e; simp
  · simp [qRun, qStep, RunQueue.create, ObjQueue.create, RunQueue.addObjects, ObjQueue.addObjects,
      RunQueue.popQueued, ObjQueue.popQueued, RunQueue.setFinished]

/-! ## C17 -/

/-- C17 (FIFO).  What has been handed out, followed by what is still queued, is exactly the sequence of all objects
ever given, each at its first occurrence. -/
theorem C17_fifo (init : List α) (ops : List (QOp α)) (h : DistinctBatches init ops) :
    (qRun init ops).handedOut ++ (qRun init ops).queue.base.objects
      = firstOccurrences (init ++ addedBy ops) := (qInv'_run h).exact

/-- C17 (nothing lost, nothing invented), without any hypothesis: an object was given to the queue exactly if it has been handed out or
is still queued; and the order of first appearance is the order in which they were given. -/
theorem C17_nothing_lost (init : List α) (ops : List (QOp α)) :
    (∀ x, x ∈ init ++ addedBy ops ↔
      x ∈ (qRun init ops).handedOut ∨ x ∈ (qRun init ops).queue.base.objects) ∧
    firstOccurrences ((qRun init ops).handedOut ++ (qRun init ops).queue.base.objects)
      = firstOccurrences (init ++ addedBy ops) := by
  have h := qInv_run init ops
  constructor
  · intro x; rw [← List.mem_append]; exact (h.mem x).symm
  · obtain ⟨l, hl, hf⟩ := h.fifo
    rw [hf, ← hl]; rfl

/-! ## C18 -/

theorem lexLe_iff {d : ℕ} (p q : Vec d) : lexLe p q ↔ toLex p ≤ toLex q := by
  rw [le_iff_eq_or_lt]
  exact Iff.rfl

theorem lexLe_trans {d : ℕ} (a b c : Vec d) (h1 : lexLe a b) (h2 : lexLe b c) : lexLe a c := by
  rw [lexLe_iff] at *; exact h1.trans h2

theorem lexLe_total {d : ℕ} (a b : Vec d) : lexLe a b ∨ lexLe b a := by
  rw [lexLe_iff, lexLe_iff]; exact le_total _ _

theorem lexLe_antisymm {d : ℕ} (a b : Vec d) (h1 : lexLe a b) (h2 : lexLe b a) : a = b := by
  rw [lexLe_iff] at *; exact toLex.injective (le_antisymm h1 h2)

theorem normalizeSimplex_perm {d : ℕ} (s : List (Vec d)) : (normalizeSimplex s).Perm s :=
  List.mergeSort_perm _ _

theorem normalizeSimplex_sorted {d : ℕ} (s : List (Vec d)) : (normalizeSimplex s).Pairwise lexLe := by
  have := List.pairwise_mergeSort (le := fun p q : Vec d => decide (lexLe p q))
    (fun a b c h1 h2 => by
      simp only [decide_eq_true_eq] at *; exact lexLe_trans a b c h1 h2)
    (fun a b => by
      have := lexLe_total a b
      simpa using this) s
  exact this.imp fun h => by simpa using h

theorem normalizeSimplex_eq_iff {d : ℕ} (s t : List (Vec d)) :
    normalizeSimplex s = normalizeSimplex t ↔ s.Perm t := by
  constructor
  · intro h
    exact (normalizeSimplex_perm s).symm.trans (h ▸ normalizeSimplex_perm t)
  · intro h
    exact List.Perm.eq_of_pairwise (fun a b _ _ => lexLe_antisymm a b)
      (normalizeSimplex_sorted s) (normalizeSimplex_sorted t)
      ((normalizeSimplex_perm s).trans (h.trans (normalizeSimplex_perm t).symm))

theorem normalizeSimplex_idem {d : ℕ} (s : List (Vec d)) :
    normalizeSimplex (normalizeSimplex s) = normalizeSimplex s :=
  (normalizeSimplex_eq_iff _ _).2 (normalizeSimplex_perm s)

/-- C18.  Two simplices get the same queue entry exactly if one is a reordering of the vertices of the other. -/
theorem C18_simplex_identity {d : ℕ} (s t : List (Vec d)) :
    normalizeSimplex s = normalizeSimplex t ↔ s.Perm t := normalizeSimplex_eq_iff s t

/-- C18: the queue entry has the same vertices, with multiplicity, and normalizing it again changes nothing. -/
theorem C18_entry_same_vertices {d : ℕ} (s : List (Vec d)) :
    (normalizeSimplex s).Perm s ∧ normalizeSimplex (normalizeSimplex s) = normalizeSimplex s :=
  ⟨normalizeSimplex_perm s, normalizeSimplex_idem s⟩

/-- C18, consequence: adding a simplex whose vertices are a reordering of a simplex already known changes nothing. -/
theorem C18_reordered_simplex_not_requeued {d : ℕ} (q : RunQueue (List (Vec d))) (s t : List (Vec d))
    (hs : normalizeSimplex s ∈ q.base.all) (h : s.Perm t) :
    q.addObjects (normalizeSimplices [t]) = q := by
  have : normalizeSimplex t ∈ q.base.all := by
    rwa [← (normalizeSimplex_eq_iff s t).2 h]
  simp [RunQueue.addObjects, ObjQueue.addObjects, normalizeSimplices, this]

/-- non-vacuity: a triangle and a reordering of it -/
example : normalizeSimplex [![0, 1], ![1, 0], (![0, 0] : Vec 2)] = normalizeSimplex [![0, 0], ![0, 1], ![1, 0]] := by
  rw [C18_simplex_identity]
  exact (List.Perm.cons _ (List.Perm.swap _ _ _)).trans (List.Perm.swap _ _ _)

/-! ## C19 -/

/-- C19.  For every history and every iteration order `enum` of the running set: `objects` consists of the running objects, first, and
the queued ones; with distinct batches it has no duplicates and lists exactly the outstanding objects (given but not
finished); and a queue rebuilt from it has exactly these objects queued, in this order, and none running. -/
theorem C19_objects_are_outstanding (init : List α) (ops : List (QOp α)) (hd : DistinctBatches init ops)
    (enum : List α) (he : IsEnum enum (qRun init ops).queue.running) :
    let objs := (qRun init ops).queue.objects enum
    objs.Nodup ∧ (∀ x, x ∈ objs ↔ x ∈ init ++ addedBy ops ∧ x ∉ (qRun init ops).finishedOk) ∧
      enum <+: objs ∧
      (RunQueue.create objs).base.objects = objs ∧ (RunQueue.create objs).running = ∅ := by
  intro objs
  have h := qInv'_run hd
  have nd : ((qRun init ops).handedOut ++ (qRun init ops).queue.base.queued).Nodup := by
    rw [h.exact]; exact nodup_firstOccurrences _
  have nd' := List.nodup_append.1 nd
  refine ⟨?_, ?_, List.prefix_append _ _, rfl, rfl⟩
  · refine List.nodup_append.2 ⟨he.1, nd'.2.1, ?_⟩
    intro a ha b hb
    exact nd'.2.2 a (h.running a ((he.2 a).1 ha)) b hb
  · intro x
    change x ∈ enum ++ _ ↔ _
    rw [List.mem_append, he.2, h.keys, ← h.mem, List.mem_append]
    constructor
    · rintro (⟨h1, h2⟩ | h1)
      · exact ⟨Or.inl h1, h2⟩
      · exact ⟨Or.inr h1, fun hf => nd'.2.2 x (h.fin x hf) x h1 rfl⟩
    · rintro ⟨h1 | h1, h2⟩
      · exact Or.inl ⟨h1, h2⟩
      · exact Or.inr h1

/-- C19, simplices through a file: reloading normalizes again, which changes nothing on entries of the queue. -/
theorem C19_reload_simplices {d : ℕ} (objs : List (List (Vec d)))
    (h : ∀ s ∈ objs, ∃ s0, s = normalizeSimplex s0) :
    (RunQueue.create (normalizeSimplices objs)).base.objects = objs := by
  change objs.map normalizeSimplex = objs
  conv_rhs => rw [← List.map_id objs]
  apply List.map_congr_left
  intro s hs
  obtain ⟨s0, rfl⟩ := h s hs
  exact normalizeSimplex_idem s0

/-! ## C20 -/

/-- C20 (finished).  A queue is finished exactly if every object ever given has been handed out, and every object handed out
has been set finished. -/
theorem C20_finished_iff (init : List α) (ops : List (QOp α)) (hd : DistinctBatches init ops) :
    (qRun init ops).queue.finished ↔
      ∀ x ∈ init ++ addedBy ops, x ∈ (qRun init ops).handedOut ∧ x ∈ (qRun init ops).finishedOk := by
  have h := qInv'_run hd
  have nd : ((qRun init ops).handedOut ++ (qRun init ops).queue.base.queued).Nodup := by
    rw [h.exact]; exact nodup_firstOccurrences _
  have nd' := List.nodup_append.1 nd
  constructor
  · rintro ⟨h1, h2⟩ x hx
    have hx' := (h.mem x).2 hx
    rw [h2, List.append_nil] at hx'
    refine ⟨hx', ?_⟩
    by_contra hf
    have := (h.keys x).2 ⟨hx', hf⟩
    rw [h1] at this
    simp at this
  · intro H
    constructor
    · apply Finset.eq_empty_of_forall_notMem
      intro x hx
      have := (h.keys x).1 hx
      exact this.2 (H x ((h.mem x).1 (List.mem_append_left _ this.1))).2
    · apply List.eq_nil_iff_forall_not_mem.2
      intro x hx
      have := (H x ((h.mem x).1 (List.mem_append_right _ hx))).1
      exact nd'.2.2 x this x hx rfl

/-- C20 (set_finished).  It raises KeyError exactly on objects that are not running, i.e. that have not been handed out or are
already finished; no other error occurs. -/
theorem C20_set_finished_error_iff (init : List α) (ops : List (QOp α)) (hd : DistinctBatches init ops) (x : α) :
    ((qRun init ops).queue.setFinished x = .error .key ↔
      ¬ (x ∈ (qRun init ops).handedOut ∧ x ∉ (qRun init ops).finishedOk)) ∧
    ((qRun init ops).queue.setFinished x ≠ .error .key →
      ∃ q, (qRun init ops).queue.setFinished x = .ok q) := by
  have h := qInv'_run hd
  rw [← h.keys x]
  unfold RunQueue.setFinished
  split <;> simp_all

/-- C20 (num_running): the number of objects handed out minus the number of those finished. -/
theorem C20_num_running (init : List α) (ops : List (QOp α)) (hd : DistinctBatches init ops) :
    (qRun init ops).queue.numRunning + (qRun init ops).finishedOk.length = (qRun init ops).handedOut.length := by
  have h := qInv'_run hd
  have nd := C16_handed_out_at_most_once init ops hd
  unfold RunQueue.numRunning
  rw [← List.toFinset_card_of_nodup nd, ← List.toFinset_card_of_nodup h.nodupFin, ← Finset.card_union_of_disjoint]
  · congr 1
    ext x
    simp only [Finset.mem_union, List.mem_toFinset, h.keys]
    constructor
    · rintro (h1 | h1)
      · exact h1.1
      · exact h.fin x h1
    · intro h1
      by_cases h2 : x ∈ (qRun init ops).finishedOk
      · exact Or.inr h2
      · exact Or.inl ⟨h1, h2⟩
  · rw [Finset.disjoint_left]
    intro x hx hf
    exact h.disj x hx (List.mem_toFinset.1 hf)

/-- non-vacuity: one object finished, one running, one queued -/
example : ¬ (qRun [1, 2, 3] [.pop, .pop, .finish 1]).queue.finished ∧
    (qRun [1, 2, 3] [.pop, .pop, .finish 1]).queue.numRunning = 1 := by
  simp [qRun, qStep, RunQueue.create, ObjQueue.create, RunQueue.popQueued, ObjQueue.popQueued,
    RunQueue.setFinished, RunQueue.finished, RunQueue.numRunning]

end NF
