import Verif.Spec.Live
import Verif.Lemmas.Flood
import Verif.Props.Exploration

/-! # Exploration, with minimizations that see the nodes found so far -/

noncomputable section
open Classical
namespace NF
open Spec CoordSys Container
variable {d : ℕ}

theorem doSave_disk (p : CtlParams d) (c : Ctl d) (enum : List (Simplex d)) :
    (doSave p c enum).disk = c.disk ∨ (doSave p c enum).disk = some ((doSave p c enum).state.snapshot enum) := by
  rcases doSave_eq p c enum with ⟨-, -, e⟩ | ⟨-, e⟩
  · rw [e]; exact .inr rfl
  · rw [e]; exact .inl rfl

/-- after a step the save file is the old one or that of the new state -/
theorem step_disk {p : CtlParams d} {c c' : Ctl d} (hs : Step p c c') : c'.disk = c.disk ∨ ∃ enum, c'.disk = some (c'.state.snapshot enum) := by
  have hfill : ∀ e c1, fill p c = (e, c1) → c1.disk = c.disk := by
    intro e c1 h
    obtain ⟨c2, h2, ⟨-, rfl, -⟩ | ⟨err, -, h3⟩⟩ := fill_induction (P := fun x => x.disk = c.disk) (fun a b ha hab => (fillStep_disk hab).1.trans ha) c rfl _ _ h
    · exact h2
    · obtain ⟨-, -, pos, rest, -, rfl⟩ := fillStep_raise h3
      exact h2
  cases hs with
  | tickRaise s e enum hph hf henum => exact (doSave_disk p c enum).imp id fun h => ⟨enum, h⟩
  | tickReturn enum hph hf hcond henum => exact (doSave_disk p c enum).imp id fun h => ⟨enum, h⟩
  | tickFill _ hph hf hcond hfill' => exact .inl (hfill _ _ hfill')
  | tickFillRaise c1 e enum hph hf hcond hfill' henum =>
    exact (doSave_disk p c1 enum).imp (fun h => h.trans (hfill _ _ hfill')) fun h => ⟨enum, h⟩
  | exitSaveFail hph hx hsv => exact .inl rfl
  | fillRaiseSaveFail c1 e hph hf hcond hfill' hsv => exact .inl (show c1.disk = c.disk from hfill _ _ hfill')
  | done s r hph hs hr => exact .inl (taskDone_disk p c s r).1
  | fail s id hph hs => exact .inl rfl
  | save enum hph henum => exact (doSave_disk p c enum).imp id fun h => ⟨enum, h⟩
  | saveFail hph hsv => exact .inl rfl

/-- nodes are never lost in a step -/
theorem step_nodes {p : CtlParams d} {c c' : Ctl d} (hs : Step p c c') : ∀ r ∈ c.state.result.nodes.values, r ∈ c'.state.result.nodes.values := by
  refine Step.preserves (P := fun x => ∀ r ∈ c.state.result.nodes.values, r ∈ x.state.result.nodes.values) ?_ ?_ ?_ ?_ ?_ ?_ (fun _ h => h) hs
  · intro a b h hab
    obtain ⟨-, ⟨x, rest, hq, -, rfl⟩ | ⟨x, rest, hq, -, rfl⟩ | ⟨pos, rest, st, hq, hpq, -, hst, rfl⟩ |
      ⟨pos, rest, hq, hpq, -, -, rfl⟩⟩ := fillStep_next hab <;> exact h
  · intro a e b h hab
    obtain ⟨-, -, pos, rest, -, rfl⟩ := fillStep_raise hab
    exact h
  · intro a s r h _ _ x hx
    have hres : (taskDone p a s r).state.result = (a.state.result.addResult r).1 := by
      unfold taskDone
      simp only
      split <;> exact (processResult_cases p a.state r).1
    rw [hres]
    exact (addResult_grows a.state.result r).2.1 x (h x hx)
  · intro a s id h _
    exact h
  · intro a enum h _
    rcases doSave_eq p a enum with ⟨-, -, e⟩ | ⟨-, e⟩ <;> rw [e] <;> exact h
  · intro a ph h
    exact h

theorem explored_rel {p : CtlParams d} {R R' : Simplex d → SRes d → Prop} (h : ∀ s r, R s r → R' s r) {res : Container d} {s : Simplex d} (he : Explored p R res s) :
    Explored p R' res s := he.imp (fun ⟨r, h1, h2⟩ => ⟨r, h s r h1, h2⟩) id

theorem kept_rel {p : CtlParams d} {R R' : Simplex d → SRes d → Prop} (h : ∀ s r, R s r → R' s r) {res : Container d} {out : List (Simplex d)} (hk : Kept p R res out) :
    Kept p R' res out := fun s hs => (hk s hs).imp id (explored_rel h)

theorem live_reach {p : CtlParams d} (hd : DistinctInput p) (hg : GoodGeometry p) {R : List (SRes d) → Simplex d → SRes d → Prop}
    (hm : ∀ l l' : List (SRes d), (∀ r ∈ l, r ∈ l') → ∀ s r, R l s r → R l' s r) {c : Ctl d} (h : ReachLive p R c) :
    ((Good p c ∧ HistInv p c) ∧ KeptInv p (R c.state.result.nodes.values) c) ∧
    (∀ sv, c.disk = some sv → (∀ r ∈ (savedResult p sv).nodes.values, r ∈ c.state.result.nodes.values) ∧
      Kept p (R (savedResult p sv).nodes.values) (savedResult p sv) sv.simplices) := by
  induction h with
  | start => exact ⟨⟨⟨⟨acct_start hd none none (by simp), by simp [startFresh, startFrom]⟩,
      hist_start p none none (by simp), by simp [startFresh, startFrom]⟩, kept_start _ none none (by simp) (by simp) (by simp)⟩, by simp [startFresh, startFrom]⟩
  | @tail c c' _ hs hr ih =>
    obtain ⟨⟨hG, hK⟩, hD⟩ := ih
    cases hs with
    | step hs =>
      have hsub := step_nodes hs
      set X := c'.state.result.nodes.values with hX
      have hRX : ∀ s r, R c.state.result.nodes.values s r → R X s r := hm _ _ hsub
      have hK' : KeptInv p (R X) c := ⟨fun s hs => (hK.all s hs).imp id (explored_rel hRX), kept_rel hRX hK.kept, fun sv hsv =>
        kept_rel (hm _ _ fun r hr => hsub r ((hD sv hsv).1 r hr)) (hD sv hsv).2⟩
      have e1 : Elem p (fun _ => True) (fun c => (Good p c ∧ HistInv p c) ∧ (LogOk (R X) c → KeptInv p (R X) c)) :=
        ((elem_good hd).and (elem_hist.mono fun _ _ => trivial)).and ((kept_elem hg (R X)).mono fun c h => h.2)
      have := e1.step ⟨hG, fun _ => hK'⟩ hs
      have hK2 := this.2 hr
      refine ⟨⟨this.1, hK2⟩, fun sv hsv => ?_⟩
      rcases step_disk hs with h | ⟨enum, h⟩
      · rw [h] at hsv
        exact ⟨fun r hr => hsub r ((hD sv hsv).1 r hr), (hD sv hsv).2⟩
      · have h1 := hK2.disk sv hsv
        rw [h] at hsv
        obtain rfl := Option.some.inj hsv
        have hrec := recreate hg.1 this.1.2.1
        simp only at hrec
        have e : (savedResult p (c'.state.snapshot enum)).nodes.values = X := hrec.1
        rw [e]
        exact ⟨fun r hr => hr, h1⟩
    | crash =>
      obtain ⟨hG1, hG2⟩ := hG
      have hnodes : ∀ sv, c.disk = some sv → (restart p c).state.result = savedResult p sv := fun sv hsv => by
        unfold restart
        rw [hsv]
        rfl
      refine ⟨⟨⟨⟨acct_start hd _ _ hG1.2, hG1.2⟩, hist_start p _ _ hG2.2, hG2.2⟩, ?_⟩, fun sv hsv => ?_⟩
      · have key : ∀ sv, c.disk = some sv → Kept p (R (restart p c).state.result.nodes.values) (savedResult p sv) sv.simplices := fun sv hsv => by
          rw [hnodes sv hsv]
          exact (hD sv hsv).2
        exact kept_start _ _ _ hG1.2 key key
      · have hsv : c.disk = some sv := hsv
        rw [hnodes sv hsv]
        exact ⟨fun r hr => hr, (hD sv hsv).2⟩

theorem live_with {p : CtlParams d} {R : List (SRes d) → Simplex d → SRes d → Prop} {R' : Simplex d → SRes d → Prop} (hR : ∀ l s r, R l s r → R' s r) {c : Ctl d} (h : ReachLive p R c) :
    ReachWith p R' c := by
  induction h with
  | start => exact .start
  | tail _ hs hr ih => exact .tail ih hs fun s r h => hR _ _ _ (hr s r h)

end NF
