import Verif.Lemmas.RingJoin
import Verif.Lemmas.Round

/-! # The shortest-path method on a closed line: after the result has been closed -/

noncomputable section
open Classical
namespace NF
open Spec NxGraph
variable {V A : Type}

section
variable {g : NxGraph V ℝ} {w σ : V → V → ℝ} {L m κ : ℝ} {e s : V} {t : V → ℝ} {path : List V} {rg : NxGraph V Unit}

theorem Ring.congr {rg' : NxGraph V Unit} {a : V} {Q : List V} (h : Ring g σ L rg a Q) (hn : ∀ x, x ∈ rg'.nodes ↔ x ∈ rg.nodes) (he : ∀ x y, rg'.hasEdge x y ↔ rg.hasEdge x y) : Ring g σ L rg' a Q :=
  ⟨⟨h.1.1, h.1.2.1, fun x => by rw [hn]; exact h.1.2.2.1 x, fun x y => by rw [he]; exact h.1.2.2.2 x y⟩, h.2⟩

/-- The circle can start at any of its nodes. -/
theorem Ring.rotate {a x : V} {Q : List V} (h : Ring g σ L rg a Q) (hx : x ∈ a :: Q) : ∃ Q', Ring g σ L rg x Q' := by
  rcases List.mem_cons.1 hx with rfl | hx
  · exact ⟨Q, h⟩
  obtain ⟨X, Y, rfl⟩ := List.append_of_mem hx
  obtain ⟨⟨h1, h2, h3, h4⟩, h5, h6⟩ := h
  have e1 : a :: (X ++ x :: Y) ++ [a] = (a :: X) ++ x :: (Y ++ [a]) := by simp
  have e2 : x :: (Y ++ a :: X) ++ [x] = (x :: Y) ++ a :: (X ++ [x]) := by simp
  have hcon : ∀ y z, Consecutive (x :: (Y ++ a :: X) ++ [x]) y z ↔ Consecutive (a :: (X ++ x :: Y) ++ [a]) y z := by
    intro y z
    rw [e1, e2, consecutive_append (X := x :: Y), consecutive_append (X := a :: X)]
    simp only [List.cons_append]
    exact or_comm
  have hperm : (x :: (Y ++ a :: X)).Perm (a :: (X ++ x :: Y)) := by
    have : (x :: Y ++ (a :: X)).Perm ((a :: X) ++ x :: Y) := List.perm_append_comm
    simpa using this
  refine ⟨Y ++ a :: X, ⟨by rw [hperm.length_eq]; exact h1, hperm.nodup_iff.2 h2, fun y => by rw [hperm.mem_iff]; exact h3 y, fun y z => by rw [hcon, hcon]; exact h4 y z⟩, ?_, ?_⟩
  · rw [chain_iff_consecutive] at h5 ⊢
    exact fun y z hyz => h5 y z ((hcon y z).1 hyz)
  · rw [e2, sumAlong_split]
    rw [e1, sumAlong_split] at h6
    simp only [List.cons_append] at *
    linarith

/-- The other way round. -/
theorem Ring.mirror (hl : Looped g w σ L m κ) {a : V} {Q : List V} (h : Ring g σ L rg a Q) : Ring g (fun x y => -σ x y) L rg a Q.reverse := by
  have er : a :: Q.reverse ++ [a] = (a :: Q ++ [a]).reverse := by simp
  refine ⟨CircleGraph.reverse h.1, ?_, ?_⟩
  · rw [er]; exact Fwd.reverse hl h.2.1
  · rw [er, sumAlong_fwd_reverse hl (h.2.1.imp fun _ _ h => h.1)]; exact h.2.2

theorem reach_same {r : V → V → Prop} {S : V → Prop} (hr : ∀ x y, r x y → (S x ↔ S y)) {x y : V} (h : Relation.ReflTransGen r x y) : S x ↔ S y := by
  induction h with
  | refl => exact Iff.rfl
  | tail _ h ih => exact ih.trans (hr _ _ h)

/-- The first path goes along one side of the circle. -/
theorem Ring.near (h : Looped g w σ L m κ) (hg : GoodGraph g) (hgr : GoodGraph rg) (hsub : SubgraphOf rg g) {X Y : List V} (hR : Ring g σ L rg e (X ++ s :: Y)) (hp : path.IsChain rg.hasEdge)
    (hpn : path.Nodup) (hh : path.head? = some s) (hl : path.getLast? = some e) (hfar : ¬ Short g s e) :
    ∃ σ', Either σ σ' ∧ ∃ t X' Y', Cut g w σ' L e t ∧ Ring g σ' L rg e (X' ++ s :: Y') ∧ NearPath g σ' t s e path := by
  have hL : 0 < L := by have := h.hm; have := h.big; linarith
  have hse : s ≠ e := by rintro rfl; exact hfar (short_self s)
  have hnadj : ¬ g.hasEdge s e := fun h => hfar (short_edge hse h)
  have heg : e ∈ g.nodes := hsub.1 e ((hR.1.2.2.1 e).1 (by simp))
  have hsg : s ∈ g.nodes := hsub.1 s ((hR.1.2.2.1 s).1 (by simp))
  -- on the near side
  have key : ∀ (σ : V → V → ℝ) (X Y : List V), Looped g w σ L m κ → Ring g σ L rg e (X ++ s :: Y) → (∀ x ∈ path, x ∉ Y) →
      ∃ t X' Y', Cut g w σ L e t ∧ Ring g σ L rg e (X' ++ s :: Y') ∧ NearPath g σ t s e path := by
    intro σ X Y h hR hY
    obtain ⟨t, hc⟩ := h.cut e heg
    refine ⟨t, X, Y, hc, hR, ?_⟩
    obtain ⟨⟨-, hnd, hm, hed⟩, hF, hsum⟩ := hR
    have e1 : e :: (X ++ s :: Y) ++ [e] = (e :: X) ++ s :: (Y ++ [e]) := by simp
    have e2 : e :: (X ++ s :: Y) ++ [e] = (e :: X ++ [s]) ++ (Y ++ [e]) := by simp
    have hnd' : ((e :: X) ++ s :: Y).Nodup := by simpa using hnd
    have hsep := (List.nodup_append.1 hnd').2.2
    have hFX : (e :: X ++ [s]).IsChain (Fwd g σ) := by rw [e2] at hF; exact isChain_prefix hF
    have hpos : 0 < sumAlong σ (s :: (Y ++ [e])) := by
      rw [e1] at hF
      have hF2 := isChain_suffix hF
      cases Y with
      | nil => exact absurd ((List.isChain_cons_cons.1 hF2).1.1) hnadj
      | cons b Y =>
        simp only [List.cons_append, List.isChain_cons_cons] at hF2
        have := sumAlong_fwd_nonneg _ hF2.2
        have := hF2.1.2
        simp only [List.cons_append, sumAlong]
        linarith
    have hsumX : sumAlong σ (e :: X ++ [s]) < L := by
      rw [e1, sumAlong_split] at hsum
      linarith
    have hmem : ∀ x ∈ rg.nodes, x ∉ Y → x ≠ s → x ∈ e :: X := by
      intro x hx hxY hxs
      have := (hm x).2 hx
      rw [show e :: (X ++ s :: Y) = (e :: X) ++ s :: Y by simp] at this
      rcases List.mem_append.1 this with h | h
      · exact h
      · rcases List.mem_cons.1 h with h | h
        · exact absurd h hxs
        · exact absurd h hxY
    refine arc_near (r := fun x y => rg.hasEdge x y ∧ x ∉ Y) hg hL hc hFX hsumX (fun x y hxy hy hxs => hmem x (goodGraph_edge hgr hxy.1).1 hxy.2 hxs) (fun x y hxy hx hy => ?_) h (fun x y hxy => hsub.2 x y hxy.1) hsg ?_ hpn hh hl hfar
    · have hxyg := hsub.2 x y hxy.1
      have hne := (goodGraph_edge hg hxyg).2.2
      have hbad : x ∈ s :: (Y ++ [e]) → y ∈ s :: (Y ++ [e]) → False := by
        intro h1 h2
        have hside : ∀ z ∈ e :: X, z ∈ s :: (Y ++ [e]) → z = e := by
          intro z hz hz'
          rw [← List.cons_append] at hz'
          rcases List.mem_append.1 hz' with h | h
          · exact absurd rfl (hsep z hz z h)
          · exact List.mem_singleton.1 h
        have hye := hside y hy h2
        rcases hx with hx | hx
        · exact hne ((hside x hx h1).trans hye.symm)
        · rw [hx, hye] at hxyg; exact hnadj hxyg
      have := (hed x y).1 hxy.1
      rw [e1, consecutive_append (x := x) (y := y) (X := e :: X) (Y := Y ++ [e]), consecutive_append (x := y) (y := x) (X := e :: X) (Y := Y ++ [e])] at this
      rcases this with (h1 | h1) | (h1 | h1)
      · exact .inl h1
      · exact absurd (hbad (consecutive_mem h1).1 (consecutive_mem h1).2) id
      · exact .inr h1
      · exact absurd (hbad (consecutive_mem h1).2 (consecutive_mem h1).1) id
    · rw [chain_iff_consecutive]
      exact fun x y hxy => ⟨consecutive_of_chain hp hxy, hY x (consecutive_mem hxy).1⟩
  -- the path without its ends
  obtain ⟨l, rfl⟩ := exists_cons hh
  obtain ⟨q, hq⟩ : ∃ q, l = q ++ [e] := by
    cases l with
    | nil => simp at hl; exact absurd hl hse
    | cons b l => rw [List.getLast?_cons_cons] at hl; exact exists_concat hl
  subst hq
  obtain ⟨⟨-, hnd, hm, hed⟩, hF, hsum⟩ := id hR
  have e1 : e :: (X ++ s :: Y) ++ [e] = (e :: X) ++ s :: (Y ++ [e]) := by simp
  have hnd' : ((e :: X) ++ s :: Y).Nodup := by simpa using hnd
  have hsep := (List.nodup_append.1 hnd').2.2
  have hqe : ∀ x ∈ q, x ≠ e ∧ x ≠ s := by
    intro x hx
    rw [List.nodup_cons] at hpn
    refine ⟨?_, fun h => hpn.1 (h ▸ by simp [hx])⟩
    exact fun h => (List.nodup_append.1 hpn.2).2.2 x hx e (by simp) h
  have hqm : ∀ x ∈ q, x ∈ X ∨ x ∈ Y := by
    intro x hx
    have hpg : rg.IsPath s e (s :: (q ++ [e])) := ⟨rfl, hl, hp, hpn⟩
    have := (hm x).2 (isPath_mem hgr hpg ((hm s).1 (by simp)) x (by simp [hx]))
    have h1 := hqe x hx
    simp [h1.1, h1.2] at this
    exact this
  have hXY : ∀ x, x ∈ X → x ∈ Y → False := fun x h1 h2 => hsep x (by simp [h1]) x (by simp [h2]) rfl
  have hqc : q.IsChain rg.hasEdge := by
    have := (List.isChain_append.1 (show ([s] ++ (q ++ [e])).IsChain rg.hasEdge from hp)).2.1
    exact isChain_prefix this
  have hside : (∀ x ∈ q, x ∉ Y) ∨ (∀ x ∈ q, x ∉ X) := by
    cases hqq : q with
    | nil => left; simp
    | cons b q' =>
      rw [hqq] at hqc hqm hqe
      have hsame : ∀ x ∈ b :: q', (b ∈ X ↔ x ∈ X) := by
        intro x hx
        have hc2 : (b :: q').IsChain fun x y => rg.hasEdge x y ∧ (x ∈ X ∨ x ∈ Y) ∧ (y ∈ X ∨ y ∈ Y) := by
          rw [chain_iff_consecutive]
          intro x y hxy
          have hm := consecutive_mem hxy
          exact ⟨consecutive_of_chain hqc hxy, hqm x hm.1, hqm y hm.2⟩
        refine reach_same (S := fun x => x ∈ X) (fun x y hxy => ?_) (reach_of_chain q' b hc2 x hx)
        have hne : ∀ x y, rg.hasEdge x y → x ∈ X → y ∈ Y → False := by
          intro x y hxy hx hy
          have hyX : y ∉ e :: X ++ [s] := by
            intro h1
            rcases List.mem_append.1 h1 with h1 | h1
            · exact hsep y h1 y (by simp [hy]) rfl
            · rw [List.mem_singleton.1 h1] at hy
              exact (List.nodup_cons.1 (List.nodup_append.1 hnd').2.1).1 hy
          have hxY : x ∉ s :: (Y ++ [e]) := by
            intro h1
            rw [← List.cons_append] at h1
            rcases List.mem_append.1 h1 with h1 | h1
            · exact hsep x (by simp [hx]) x h1 rfl
            · rw [List.mem_singleton.1 h1] at hx
              rw [List.nodup_append, List.nodup_cons] at hnd'
              exact hnd'.1.1 hx
          have := (hed x y).1 hxy
          rw [e1, consecutive_append (x := x) (y := y) (X := e :: X) (Y := Y ++ [e]), consecutive_append (x := y) (y := x) (X := e :: X) (Y := Y ++ [e])] at this
          rcases this with (h1 | h1) | (h1 | h1)
          · exact hyX (consecutive_mem h1).2
          · exact hxY (consecutive_mem h1).1
          · exact hyX (consecutive_mem h1).1
          · exact hxY (consecutive_mem h1).2
        obtain ⟨h1, h2, h3⟩ := hxy
        constructor
        · intro hx
          exact h3.resolve_right fun hy => hne x y h1 hx hy
        · intro hy
          exact h2.resolve_right fun hx => hne y x (hasEdge_symm.1 h1) hy hx
      by_cases hb : b ∈ X
      · left
        exact fun x hx hxY => hXY x ((hsame x hx).1 hb) hxY
      · right
        exact fun x hx hxX => hb ((hsame x hx).2 hxX)
  have hsY : s ∉ Y := (List.nodup_cons.1 (List.nodup_append.1 hnd').2.1).1
  have heY : e ∉ Y := fun h => hsep e (by simp) e (by simp [h]) rfl
  have hsX : s ∉ X := fun h => hsep s (by simp [h]) s (by simp) rfl
  have heX : e ∉ X := by
    rw [List.nodup_append, List.nodup_cons] at hnd'
    exact hnd'.1.1
  rcases hside with hs | hs
  · refine ⟨σ, .inl rfl, key σ X Y h hR fun x hx => ?_⟩
    rcases List.mem_cons.1 hx with rfl | hx
    · exact hsY
    · rcases List.mem_append.1 hx with hx | hx
      · exact hs x hx
      · rw [List.mem_singleton.1 hx]; exact heY
  · refine ⟨_, .inr rfl, key _ Y.reverse X.reverse h.neg (by simpa using hR.mirror h) fun x hx => ?_⟩
    rw [List.mem_reverse]
    rcases List.mem_cons.1 hx with rfl | hx
    · exact hsX
    · rcases List.mem_append.1 hx with hx | hx
      · exact hs x hx
      · rw [List.mem_singleton.1 hx]; exact heX

/-- A path without weight goes along the result. -/
theorem zero_chain {work : NxGraph V (ℝ × ℝ)} (hz : ZeroOn g work rg) {k : NxGraph V (ℝ × ℝ)} (hk : ∀ x y, k.hasEdge x y → g.hasEdge x y ∧ edgeWeight k x y = edgeWeight work x y) {p : List V}
    (hp : p.IsChain k.hasEdge) (hw : pathWeight k p ≤ 0) : p.IsChain rg.hasEdge := by
  refine chain_of_weight_zero (fun x y hxy => ?_) (fun x y hxy h0 => ?_) hp hw
  · rw [(hk x y hxy).2]
    by_cases hr : rg.hasEdge x y
    · rw [hz.zero x y hr]
    · exact (hz.pos x y (hk x y hxy).1 hr).le
  · by_contra hr
    rw [(hk x y hxy).2] at h0
    exact absurd h0 (not_le.2 (hz.pos x y (hk x y hxy).1 hr))

/-- The second path goes along the other side of the circle. -/
theorem Ring.second (h : Looped g w σ L m κ) (hg : GoodGraph g) (hc : Cut g w σ L e t) (hgr : GoodGraph rg) (hsub : SubgraphOf rg g) {X Y : List V} (hR : Ring g σ L rg e (X ++ s :: Y))
    (hn : NearPath g σ t s e path) {work0 tmp0 work : NxGraph V (ℝ × ℝ)} (hwork0 : ∀ x y, work0.hasEdge x y ↔ g.hasEdge x y) (htmp0 : ∀ x y, tmp0.hasEdge x y ↔ g.hasEdge x y)
    (hwg : GoodGraph work) (hwork : ∀ x y, work.hasEdge x y ↔ g.hasEdge x y) (hz : ZeroOn g work rg) {p : List V} (hp : IsShortestPath (work.removeNodes (nodesToRemove work0 tmp0 s e path)) s e p) :
    p.IsChain rg.hasEdge ∧ ∀ x y, Consecutive p x y → σ x y = farEnd L e t y - farEnd L e t x := by
  have hL : 0 < L := by have := h.hm; have := h.big; linarith
  obtain ⟨⟨-, hnd, hm, hed⟩, hF, hsum⟩ := id hR
  set R := nodesToRemove work0 tmp0 s e path with hRdef
  set k := work.removeNodes R with hk
  have hke : ∀ x y, k.hasEdge x y ↔ g.hasEdge x y ∧ ¬ R x ∧ ¬ R y := fun x y => by rw [hk, ← hwork]; exact hasEdge_subgraph
  have hkw : ∀ x y, k.hasEdge x y → edgeWeight k x y = edgeWeight work x y := fun x y hxy => edgeWeight_subgraph hwg hxy
  have hRe : ¬ R e := fun hr => hr.2 (.inr (.inl rfl))
  have hkept := fun x hx hsx => hn.kept (x := x) h hg hc hwork0 htmp0 hx hsx
  have e1 : e :: (X ++ s :: Y) ++ [e] = (e :: X) ++ s :: (Y ++ [e]) := by simp
  -- the circle without the last step
  obtain ⟨c, Z, hZ⟩ : ∃ c Z, e :: (X ++ s :: Y) = Z ++ [c] := by
    rcases List.eq_nil_or_concat (e :: (X ++ s :: Y)) with h | ⟨Z, c, h⟩
    · simp at h
    · exact ⟨c, Z, by rw [h]; simp⟩
  have hsumlt : sumAlong σ (e :: (X ++ s :: Y)) < L := by
    have h1 : e :: (X ++ s :: Y) ++ [e] = Z ++ c :: [e] := by rw [hZ]; simp
    have h2 := consecutive_of_chain hF ⟨Z, [], h1⟩
    have h3 := sumAlong_split σ Z c [e]
    rw [← h1, ← hZ, hsum] at h3
    simp only [sumAlong] at h3
    have := h2.2
    linarith
  have hF' : (e :: (X ++ s :: Y)).IsChain (Fwd g σ) := isChain_prefix hF
  have hlin := hc.along hg hL hF' hsumlt
  have hord := pairwise_of_linear (t := t) hF' hlin
  have hordY : ∀ y ∈ Y, t s < t y := by
    rw [show e :: (X ++ s :: Y) = (e :: X) ++ s :: Y by simp] at hord
    exact (List.pairwise_cons.1 (List.pairwise_append.1 hord).2.1).1
  have hmemP : ∀ x ∈ e :: (X ++ s :: Y), x ∈ g.nodes := fun x hx => hsub.1 x ((hm x).1 hx)
  -- a path without weight
  have hq : k.IsPath s e (s :: (Y ++ [e])) := by
    refine ⟨rfl, by rw [← List.cons_append, List.getLast?_append_of_ne_nil _ (by simp)]; rfl, ?_, ?_⟩
    · rw [chain_iff_consecutive]
      intro x y hxy
      have hxyr : Fwd g σ x y := consecutive_of_chain hF (by rw [e1]; exact consecutive_append.2 (.inr hxy))
      have hKz : ∀ z ∈ s :: (Y ++ [e]), ¬ R z := by
        intro z hz
        rcases List.mem_cons.1 hz with rfl | hz
        · exact hkept z hn.start le_rfl
        · rcases List.mem_append.1 hz with hz | hz
          · exact hkept z (hmemP z (by simp [hz])) (hordY z hz).le
          · rw [List.mem_singleton.1 hz]; exact hRe
      have hm := consecutive_mem hxy
      exact (hke x y).2 ⟨hxyr.1, hKz x hm.1, hKz y hm.2⟩
    · have hnd2 : (e :: X ++ s :: Y).Nodup := by simpa using hnd
      rw [← List.cons_append, List.nodup_append]
      refine ⟨(List.nodup_append.1 hnd2).2.1, by simp, fun x hx y hy hxy => ?_⟩
      rw [List.mem_singleton.1 hy] at hxy
      exact (List.nodup_append.1 hnd2).2.2 e (by simp) x hx hxy.symm
  have hqz : pathWeight k (s :: (Y ++ [e])) = 0 := by
    have hc1 : (s :: (Y ++ [e])).IsChain fun x y => rg.hasEdge x y ∧ k.hasEdge x y := by
      rw [chain_iff_consecutive]
      intro x y hxy
      exact ⟨(hed x y).2 (.inl (by rw [e1]; exact consecutive_append.2 (.inr hxy))), consecutive_of_chain hq.chain hxy⟩
    exact weight_zero_of_chain (fun x y hxy => by rw [hkw x y hxy.2]; exact hz.zero x y hxy.1) hc1
  have hpr : p.IsChain rg.hasEdge := zero_chain hz (fun x y hxy => ⟨((hke x y).1 hxy).1, hkw x y hxy⟩) hp.1.chain (by rw [← hqz]; exact hp.2 _ hq)
  refine ⟨hpr, (hn.second h hg hc hwork0 htmp0 hwork hp.1 fun x y hxy hy => ?_).2⟩
  have hx : x ≠ e := by
    rintro rfl
    obtain ⟨A, B, hAB⟩ := hxy
    have hlast := hp.1.last
    have hnp := hp.1.nodup
    rw [hAB, show A ++ x :: y :: B = (A ++ [x]) ++ y :: B by simp] at hlast hnp
    rw [List.getLast?_append_of_ne_nil _ (by simp)] at hlast
    exact (List.nodup_append.1 hnp).2.2 x (by simp) x (List.mem_of_getLast? hlast) rfl
  refine ⟨hx, ?_⟩
  have hxyr := consecutive_of_chain hpr hxy
  have key : ∀ x y, Consecutive (e :: (X ++ s :: Y) ++ [e]) x y → y ≠ e → σ x y = t y - t x := by
    intro x y hxy hy
    rcases consecutive_snoc.1 hxy with h1 | ⟨-, h1⟩
    · exact hlin x y h1
    · exact absurd h1 hy
  rcases (hed x y).1 hxyr with h1 | h1
  · exact key x y h1 hy
  · have := key y x h1 hx
    have := h.anti x y (hsub.2 x y hxyr)
    linarith

end

end NF
