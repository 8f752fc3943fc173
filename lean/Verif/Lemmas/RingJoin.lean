import Verif.Lemmas.RingClose

/-! # The shortest-path method on a closed line: the second path joins the ends -/

noncomputable section
open Classical
namespace NF
open Spec NxGraph
variable {V A : Type}

/-- A path to a node of `S` which does not come through `s` has been in `S` all the time, if there is no other way into `S`. -/
theorem chain_back {r : V → V → Prop} {S : V → Prop} {s e : V} (hr : ∀ x y, r x y → S y → x ≠ s → S x) (he : S e) : ∀ l : List V, l.IsChain r → l.getLast? = some e → s ∉ l → ∀ x ∈ l, S x
  | [], _, h, _ => by simp at h
  | [a], _, h, _ => by
    simp at h
    subst h
    simpa using he
  | a :: b :: l, hc, h, hs => by
    rw [List.isChain_cons_cons] at hc
    rw [List.getLast?_cons_cons] at h
    have ih := chain_back hr he (b :: l) hc.2 h (fun hm => hs (by simp [hm]))
    intro x hx
    rcases List.mem_cons.1 hx with rfl | hx
    · exact hr x b hc.1 (ih b (by simp)) (fun h => hs (by simp [h]))
    · exact ih x hx

/-- Going round once, always forward. -/
def Ring (g : NxGraph V ℝ) (σ : V → V → ℝ) (L : ℝ) (rg : NxGraph V Unit) (a : V) (Q : List V) : Prop :=
  CircleGraph rg a Q ∧ (a :: Q ++ [a]).IsChain (Fwd g σ) ∧ sumAlong σ (a :: Q ++ [a]) = L

section
variable {g : NxGraph V ℝ} {w σ : V → V → ℝ} {L m κ : ℝ} {e s : V} {t : V → ℝ} {path : List V}

theorem pairwise_of_linear {P : List V} (hF : P.IsChain (Fwd g σ)) (hl : ∀ x y, Consecutive P x y → σ x y = t y - t x) : P.Pairwise fun x y => t x < t y := by
  rw [← List.isChain_iff_pairwise, chain_iff_consecutive]
  intro x y hxy
  have h1 := (consecutive_of_chain hF hxy).2
  rw [hl x y hxy] at h1
  linarith

/-- The first path goes along the arc from `e` to `s`. -/
theorem arc_near (hg : GoodGraph g) (hL : 0 < L) (hc : Cut g w σ L e t) {X : List V} (hF : (e :: X ++ [s]).IsChain (Fwd g σ)) (hsum : sumAlong σ (e :: X ++ [s]) < L)
    {r : V → V → Prop} (hr : ∀ x y, r x y → y ∈ e :: X → x ≠ s → x ∈ e :: X) (hre : ∀ x y, r x y → (x ∈ e :: X ∨ x = s) → y ∈ e :: X → Consecutive (e :: X ++ [s]) x y ∨ Consecutive (e :: X ++ [s]) y x)
    (h : Looped g w σ L m κ) (hrg : ∀ x y, r x y → g.hasEdge x y) (hse : s ∈ g.nodes) (hp : path.IsChain r) (hpn : path.Nodup) (hh : path.head? = some s) (hl : path.getLast? = some e) (hfar : ¬ Short g s e) :
    NearPath g σ t s e path := by
  obtain ⟨l, rfl⟩ := exists_cons hh
  have hlin := hc.along hg hL (by simpa using hF) (by simpa using hsum)
  have hord := pairwise_of_linear (t := t) (by simpa using hF : (e :: (X ++ [s])).IsChain (Fwd g σ)) hlin
  have hlast : l ≠ [] := by
    rintro rfl
    simp at hl
    subst hl
    exact hfar (short_self s)
  obtain ⟨b, l', rfl⟩ := List.exists_cons_of_ne_nil hlast
  have hin := chain_back (S := fun x => x ∈ e :: X) (s := s) (e := e) hr (by simp) (b :: l') (List.isChain_cons_cons.1 hp).2 (by rwa [List.getLast?_cons_cons] at hl) (List.nodup_cons.1 hpn).1
  refine ⟨hse, ⟨rfl, hl, hp.imp fun x y => hrg x y, hpn⟩, fun x y hxy => ?_, fun x hx => ?_, hfar⟩
  · have hxr := consecutive_of_chain hp hxy
    have hy : y ∈ e :: X := by
      rcases consecutive_cons.1 hxy with ⟨-, hy⟩ | hxy
      · simp at hy; exact hin y (by simp [hy])
      · exact hin y (consecutive_mem hxy).2
    have hx : x ∈ e :: X ∨ x = s := by
      rcases List.mem_cons.1 (consecutive_mem hxy).1 with h | h
      · exact .inr h
      · exact .inl (hin x h)
    rcases hre x y hxr hx hy with h1 | h1
    · exact hlin x y (by simpa using h1)
    · have := hlin y x (by simpa using h1)
      have ha := h.anti x y (hrg x y hxr)
      linarith
  · rcases List.mem_cons.1 hx with rfl | hx
    · exact le_rfl
    · have := hin x hx
      have hord' : ((e :: X) ++ [s]).Pairwise fun x y => t x < t y := by simpa using hord
      exact ((List.pairwise_append.1 hord').2.2 x this s (by simp)).le

theorem isChain_prefix {r : V → V → Prop} {X Y : List V} (h : (X ++ Y).IsChain r) : X.IsChain r := (List.isChain_append.1 h).1
theorem isChain_suffix {r : V → V → Prop} {X Y : List V} (h : (X ++ Y).IsChain r) : Y.IsChain r := (List.isChain_append.1 h).2.1

/-- The first path goes along an open arc. -/
theorem PathGraph.near (h : Looped g w σ L m κ) (hg : GoodGraph g) (hc : Cut g w σ L e t) {rg : NxGraph V Unit} (hsub : SubgraphOf rg g) {X Y : List V} (hP : PathGraph rg (e :: X ++ s :: Y))
    (hF : (e :: X ++ s :: Y).IsChain (Fwd g σ)) (hsum : sumAlong σ (e :: X ++ s :: Y) < L) (hp : path.IsChain rg.hasEdge) (hpn : path.Nodup) (hh : path.head? = some s) (hl : path.getLast? = some e)
    (hfar : ¬ Short g s e) : NearPath g σ t s e path := by
  have hL : 0 < L := by have := h.hm; have := h.big; linarith
  have hFX : (e :: X ++ [s]).IsChain (Fwd g σ) := by
    rw [show e :: X ++ s :: Y = (e :: X ++ [s]) ++ Y by simp] at hF
    exact isChain_prefix hF
  have hnd := hP.1
  have hsep : ∀ x, x ∈ s :: Y → x ∉ e :: X := fun x h1 h2 => (List.nodup_append.1 hnd).2.2 x h2 x h1 rfl
  refine arc_near (r := rg.hasEdge) hg hL hc hFX ?_ (fun x y hxy hy hxs => ?_) (fun x y hxy hx hy => ?_) h hsub.2 (hsub.1 s ((hP.2.1 s).1 (by simp))) hp hpn hh hl hfar
  · have h1 := sumAlong_split σ (e :: X) s Y
    have h2 := sumAlong_fwd_nonneg (g := g) (σ := σ) (s :: Y) (isChain_suffix hF)
    linarith
  · rcases (hP.2.2 x y).1 hxy with h1 | h1
    · rcases consecutive_append.1 h1 with h1 | h1
      · have := (consecutive_mem h1).1
        rcases List.mem_append.1 this with h2 | h2
        · exact h2
        · exact absurd (List.mem_singleton.1 h2) hxs
      · exact absurd hy (hsep y (consecutive_mem h1).2)
    · rcases consecutive_append.1 h1 with h1 | h1
      · have := (consecutive_mem h1).2
        rcases List.mem_append.1 this with h2 | h2
        · exact h2
        · exact absurd (List.mem_singleton.1 h2) hxs
      · exact absurd hy (hsep y (consecutive_mem h1).1)
  · rcases (hP.2.2 x y).1 hxy with h1 | h1
    · rcases consecutive_append.1 h1 with h1 | h1
      · exact .inl h1
      · exact absurd hy (hsep y (consecutive_mem h1).2)
    · rcases consecutive_append.1 h1 with h1 | h1
      · exact .inr h1
      · exact absurd hy (hsep y (consecutive_mem h1).1)

set_option maxHeartbeats 1000000 in
/-- The second path closes the arc. -/
theorem close_arc (h : Looped g w σ L m κ) (hg : GoodGraph g) (hc : Cut g w σ L e t) {rg : NxGraph V Unit} (hgr : GoodGraph rg) (hsub : SubgraphOf rg g) {X Y : List V} {a : V}
    (hP : PathGraph rg (e :: X ++ s :: Y)) (hF : (e :: X ++ s :: Y).IsChain (Fwd g σ)) (hsum : sumAlong σ (e :: X ++ s :: Y) < L) (ha : (s :: Y).getLast? = some a)
    (hn : NearPath g σ t s e path) {work0 tmp0 work : NxGraph V (ℝ × ℝ)} (hwork0 : ∀ x y, work0.hasEdge x y ↔ g.hasEdge x y) (htmp0 : ∀ x y, tmp0.hasEdge x y ↔ g.hasEdge x y)
    (hwg : GoodGraph work) {f : V → ℝ} (hw : Weighted g work rg f w) (hf0 : ∀ x, 0 < f x) (hf1 : ∀ x, f x ≤ 1) (hfa : ∀ x, f a ≤ f x) (hfe : ∀ y, g.hasEdge y e → f e ≤ f y)
    (hfout : ∀ x, x ∉ rg.nodes → f x = 1) (hsw : s ∈ work.nodes) {p : List V} (hp : IsShortestPath (work.removeNodes (nodesToRemove work0 tmp0 s e path)) s e p) :
    (∃ Q, Ring g σ L ((pathEdges p).foldl (fun h e => h.addEdge e.1 e.2 ()) rg) e Q) ∧ (∀ x y, Consecutive p x y → σ x y = farEnd L e t y - farEnd L e t x) := by
  have hL : 0 < L := by have := h.hm; have := h.big; linarith
  have hlin := hc.along hg hL (by simpa using hF) (by simpa using hsum)
  have hord := pairwise_of_linear (t := t) hF hlin
  have hnd := hP.1
  have hrlin : ∀ x y, rg.hasEdge x y → σ x y = t y - t x := by
    intro x y hxy
    rcases (hP.2.2 x y).1 hxy with h1 | h1
    · exact hlin x y h1
    · have := hlin y x h1
      have := h.anti x y (hsub.2 x y hxy)
      linarith
  have hsg := hn.start
  have hne := hn.ne
  set R := nodesToRemove work0 tmp0 s e path with hR
  set k := work.removeNodes R with hk
  have hkg : GoodGraph k := goodGraph_subgraph hwg _
  have hke : ∀ x y, k.hasEdge x y ↔ g.hasEdge x y ∧ ¬ R x ∧ ¬ R y := fun x y => by rw [hk, ← hw.edge]; exact hasEdge_subgraph
  have hkw : ∀ x y, k.hasEdge x y → edgeWeight k x y = edgeWeight work x y := fun x y hxy => edgeWeight_subgraph hwg hxy
  have hRe : ¬ R e := fun hr => hr.2 (.inr (.inl rfl))
  have hRs : ¬ R s := fun hr => hr.2 (.inl (.inl rfl))
  have hkept := fun x hx hsx => hn.kept (x := x) h hg hc hwork0 htmp0 hx hsx
  have hnn := fun x y => hw.nonneg h hf0 (x := x) (y := y)
  have heP : e ∈ rg.nodes := (hP.2.1 e).1 (by simp)
  -- no jump
  have hj : ∀ x y, Consecutive p x y → y ≠ e → x ≠ e ∧ σ x y = t y - t x := by
    intro x y hxy hy
    refine no_jump (k := k) (fun x y hxy => by rw [hkw x y hxy]; exact hnn x y ((hw.edge x y).2 ((hke x y).1 hxy).1)) (fun x y hxy hx hy hj => ?_) hp hxy hy
    obtain ⟨h1, h2, h3⟩ := (hke x y).1 hxy
    obtain ⟨j1, j2, j3, -⟩ := hc.jump h hg h1 hx hy hj
    have hxe : k.hasEdge x e := (hke x e).2 ⟨j1, h2, hRe⟩
    refine ⟨hxe, ?_⟩
    rw [hkw x y hxy, hkw x e hxe, hw.other x y h1 (fun hr => hj (hrlin x y hr))]
    have hwpos := h.pos x e j1
    have hfy := hfe y j2
    have h0 := mul_pos (hf0 x) (hf0 y)
    by_cases hr : rg.hasEdge x e
    · rw [hw.zero x e hr]
      exact mul_pos h0 (hwpos.trans j3)
    · rw [hw.other x e j1 hr]
      have h4 : f x * f e * w x e ≤ f x * f y * w x e := mul_le_mul_of_nonneg_right (mul_le_mul_of_nonneg_left hfy (hf0 x).le) hwpos.le
      have h5 : f x * f y * w x e < f x * f y * w x y := mul_lt_mul_of_pos_left j3 h0
      linarith
  obtain ⟨hpK, hpl⟩ := hn.second h hg hc hwork0 htmp0 hw.edge hp.1 hj
  refine ⟨?_, hpl⟩
  -- the part of the arc where the path can be
  set K : V → Prop := fun x => ¬ R x ∧ (x = e ∨ t s ≤ t x ∨ closedNeighbors g s x) with hK
  have hsr := hc.range s hsg hne
  have hordXY : ∀ x ∈ e :: X, ∀ y ∈ s :: Y, t x < t y := (List.pairwise_append.1 hord).2.2
  have hordY : ∀ y ∈ Y, t s < t y := (List.pairwise_cons.1 (List.pairwise_append.1 hord).2.1).1
  have hmemP : ∀ x ∈ e :: X ++ s :: Y, x ∈ g.nodes := fun x hx => hsub.1 x ((hP.2.1 x).1 hx)
  have haY : a ∈ s :: Y := List.mem_of_getLast? ha
  have hsa : t s ≤ t a := by
    rcases List.mem_cons.1 haY with h1 | h1
    · rw [h1]
    · exact (hordY a h1).le
  have hag : a ∈ g.nodes := hmemP a (List.mem_append_right _ haY)
  have hne_of : ∀ x, t s ≤ t x → x ≠ e := fun x hx he => by rw [he, hc.self] at hx; linarith
  have hle : ∀ x ∈ rg.nodes, t x ≤ t a := by
    intro x hx
    obtain ⟨Z, hZ⟩ := exists_concat ha
    have hx := (hP.2.1 x).2 hx
    rw [hZ, ← List.append_assoc] at hx hord
    rcases List.mem_append.1 hx with hx | hx
    · exact ((List.pairwise_append.1 hord).2.2 x hx a (by simp)).le
    · rw [List.mem_singleton.1 hx]
  set rg2 : NxGraph V Unit := rg.subgraph (fun x => K x ∧ x ≠ e) with hrg2
  have hm2 : ∀ x, x ∈ rg2.nodes ↔ x ∈ rg.nodes ∧ K x ∧ x ≠ e := fun x => mem_subgraph
  have he2 : ∀ x y, rg2.hasEdge x y ↔ rg.hasEdge x y ∧ (K x ∧ x ≠ e) ∧ (K y ∧ y ≠ e) := fun x y => hasEdge_subgraph
  have hKs : K s ∧ s ≠ e := ⟨⟨hRs, .inr (.inl le_rfl)⟩, hne⟩
  have hKa : K a ∧ a ≠ e := ⟨⟨hkept a hag hsa, .inr (.inl hsa)⟩, hne_of a hsa⟩
  have hreach : ∀ x ∈ rg2.nodes, Reach rg2 x s := by
    intro x hx
    obtain ⟨hx, hKx, hxe⟩ := (hm2 x).1 hx
    rcases List.mem_append.1 ((hP.2.1 x).2 hx) with hxX | hxY
    · obtain hxX : x ∈ X := (List.mem_cons.1 hxX).resolve_left hxe
      have hsx : g.hasEdge s x ∧ σ s x = t x - t s := by
        have hlt := hordXY x (by simp [hxX]) s (by simp)
        rcases hKx.2 with h1 | h1 | h1 | h1
        · exact absurd h1 hxe
        · linarith
        · rw [h1] at hlt; exact absurd hlt (lt_irrefl _)
        · have h1 := mem_neighbors.1 h1
          refine ⟨h1, ?_⟩
          by_contra hj
          exact hn.not_adj (hc.jump h hg h1 hne hxe hj).1
      obtain ⟨X1, X2, rfl⟩ := List.append_of_mem hxX
      have hord3 : (x :: X2 ++ s :: Y).Pairwise fun x y => t x < t y := by
        rw [show e :: (X1 ++ x :: X2) ++ s :: Y = (e :: X1) ++ (x :: X2 ++ s :: Y) by simp] at hord
        exact (List.pairwise_append.1 hord).2.1
      refine reach_of_chain (r := rg2.hasEdge) (X2 ++ [s]) x ?_ s (by simp)
      have hKz : ∀ z ∈ x :: (X2 ++ [s]), K z ∧ z ≠ e := by
        intro z hz
        rcases List.mem_cons.1 hz with rfl | hz
        · exact ⟨hKx, hxe⟩
        rcases List.mem_append.1 hz with hz | hz
        · have hxz : t x < t z := (List.pairwise_cons.1 hord3).1 z (by simp [hz])
          have hzs : t z < t s := (List.pairwise_append.1 hord3).2.2 z (by simp [hz]) s (by simp)
          have hzg := hmemP z (by simp [hz])
          have hze : z ≠ e := by
            rintro rfl
            rw [hc.self] at hxz
            have := (hc.range x (hmemP x (by simp)) hxe).1
            linarith
          have hxs := hasEdge_symm.1 hsx.1
          have hσ : σ x s = t s - t x := by rw [h.anti s x hsx.1, hsx.2]; ring
          have hb := (hc.between x s z hxs hzg (t z - t x) 0 (by linarith) (by linarith) (by push_cast; ring)).2.1
          exact ⟨⟨fun hr => hr.2 (.inl (.inr (mem_neighbors.2 ((hwork0 s z).2 (hasEdge_symm.1 hb))))), .inr (.inr (.inr (mem_neighbors.2 (hasEdge_symm.1 hb))))⟩, hze⟩
        · rw [List.mem_singleton.1 hz]; exact hKs
      rw [chain_iff_consecutive]
      intro b c hbc
      have hm := consecutive_mem hbc
      refine (he2 b c).2 ⟨(hP.2.2 b c).2 (.inl ?_), hKz b hm.1, hKz c hm.2⟩
      rw [show e :: (X1 ++ x :: X2) ++ s :: Y = (e :: X1 ++ x :: X2) ++ s :: Y by simp]
      refine consecutive_append.2 (.inl ?_)
      rw [show (e :: X1 ++ x :: X2) ++ [s] = (e :: X1) ++ (x :: (X2 ++ [s])) by simp]
      exact consecutive_sublist hbc
    · refine reach_symm (reach_of_chain (r := rg2.hasEdge) Y s ?_ x hxY)
      have hKz : ∀ z ∈ s :: Y, K z ∧ z ≠ e := by
        intro z hz
        have hsz : t s ≤ t z := by
          rcases List.mem_cons.1 hz with h1 | h1
          · rw [h1]
          · exact (hordY z h1).le
        exact ⟨⟨hkept z (hmemP z (List.mem_append_right _ hz)) hsz, .inr (.inl hsz)⟩, hne_of z hsz⟩
      rw [chain_iff_consecutive]
      intro b c hbc
      have hm := consecutive_mem hbc
      exact (he2 b c).2 ⟨(hP.2.2 b c).2 (.inl (consecutive_append.2 (.inr hbc))), hKz b hm.1, hKz c hm.2⟩
  have hconn2 : Connected rg2 := fun x hx y hy => (hreach x hx).trans (reach_symm (hreach y hy))
  have hpKK : ∀ x ∈ p, K x := by
    intro x hx
    have hsk : s ∈ k.nodes := mem_subgraph.2 ⟨hsw, hRs⟩
    have hxk := (mem_subgraph.1 (isPath_mem hkg hp.1 hsk x hx)).2
    refine ⟨hxk, ?_⟩
    by_cases hxe : x = e
    · exact .inl hxe
    · exact .inr (hpK x hx hxe)
  have heX : ∀ y, rg.hasEdge e y → σ e y = t y - t e := fun y => hrlin e y
  obtain ⟨B, C, rfl, hB, hC⟩ := far_path h hg hc hkg (fun x y hxy => ((hke x y).1 hxy).1) (K := K) ⟨hRe, .inl rfl⟩ (fun x y hx hy hxy => (hke x y).2 ⟨hxy, hx.1, hy.1⟩) (rg := rg2)
    (goodGraph_subgraph hgr _) hconn2 (fun x hx => ⟨hsub.1 x ((hm2 x).1 hx).1, ((hm2 x).1 hx).2⟩) (fun x y hxy => ⟨hsub.2 x y ((he2 x y).1 hxy).1, hrlin x y ((he2 x y).1 hxy).1⟩) (f := f)
    (fun x y hxy => by
      obtain ⟨h1, h2, h3⟩ := (he2 x y).1 hxy
      rw [hkw x y ((hke x y).2 ⟨hsub.2 x y h1, h2.1.1, h3.1.1⟩), hw.zero x y h1])
    (fun x y hxy hx hy hl hr => by
      rw [hkw x y hxy]
      refine hw.other x y ((hke x y).1 hxy).1 fun hr2 => ?_
      have hrl := hrlin x y hr2
      have hxyne := (goodGraph_edge hgr hr2).2.2
      by_cases hxe : x = e
      · subst hxe
        rw [hrl] at hl
        have hye : y ≠ x := fun h => hxyne h.symm
        simp only [farEnd, if_neg hye, if_true, hc.self] at hl
        linarith
      · by_cases hye : y = e
        · subst hye
          rw [hrl] at hl
          simp only [farEnd, if_neg hxe, if_true, hc.self] at hl
          linarith
        · exact hr ((he2 x y).2 ⟨hr2, ⟨hx, hxe⟩, hy, hye⟩))
    (D := a) ((hm2 a).2 ⟨(hP.2.1 a).1 (List.mem_append_right _ haY), hKa⟩) ((hm2 s).2 ⟨(hP.2.1 s).1 (by simp), hKs⟩) (fun x hx => hle x ((hm2 x).1 hx).1) (hf0 a) hfa hf1
    (fun x hx hxr hxe => hfout x fun hxr2 => hxr ((hm2 x).2 ⟨hxr2, hx, hxe⟩)) hp hpKK hpl
  have hlast : (a :: C).getLast? = some e := by
    have := hp.1.last
    rwa [List.getLast?_append_of_ne_nil _ (by simp)] at this
  obtain ⟨C2, rfl⟩ : ∃ C2, C = C2 ++ [e] := by
    cases C with
    | nil => simp at hlast; exact absurd hlast hKa.2
    | cons c C => rw [List.getLast?_cons_cons] at hlast; exact exists_concat hlast
  obtain ⟨Z, hZ⟩ := exists_concat ha
  have hfar : ∀ x, x ≠ e → farEnd L e t x = t x := fun x hx => by simp [farEnd, hx]
  have hC2e : ∀ x ∈ C2, x ≠ e := by
    rintro x hx rfl
    have hnp := hp.1.nodup
    rw [show B ++ a :: (C2 ++ [x]) = (B ++ a :: C2) ++ [x] by simp, List.nodup_append] at hnp
    exact hnp.2.2 x (by simp [hx]) x (by simp) rfl
  have hC2out : ∀ x ∈ C2, x ∉ rg.nodes := by
    intro x hx hxr
    have h1 := (List.pairwise_cons.1 hC).1 x (by simp [hx])
    rw [hfar x (hC2e x hx), hfar a hKa.2] at h1
    linarith [hle x hxr]
  have hP' : PathGraph rg ((e :: X ++ Z) ++ [a]) := by rw [List.append_assoc, ← hZ]; exact hP
  have hB' : (B ++ [a]).IsChain rg.hasEdge := hB.imp fun x y hxy => ((he2 x y).1 hxy).1
  have hnd2 : ((e :: X ++ Z) ++ a :: C2).Nodup := by
    rw [show (e :: X ++ Z) ++ a :: C2 = ((e :: X ++ Z) ++ [a]) ++ C2 by simp, List.nodup_append]
    have hnp := hp.1.nodup
    refine ⟨hP'.1, ?_, fun x hx y hy hxy => hC2out y hy ((hP'.2.1 y).1 (hxy ▸ hx))⟩
    rw [show B ++ a :: (C2 ++ [e]) = (B ++ [a]) ++ (C2 ++ [e]) by simp] at hnp
    exact (List.nodup_append.1 (List.nodup_append.1 hnp).2.1).1
  have hext := addPath_extends hgr hP' hB' hnd2
  obtain ⟨c, hcl⟩ : ∃ c, (a :: C2).getLast? = some c := ⟨_, List.getLast?_eq_some_getLast (by simp)⟩
  have hedges : pathEdges (B ++ a :: (C2 ++ [e])) = pathEdges (B ++ a :: C2) ++ [(c, e)] := by
    obtain ⟨W, hW⟩ := exists_concat hcl
    rw [show B ++ a :: (C2 ++ [e]) = (B ++ W) ++ c :: [e] by rw [show a :: (C2 ++ [e]) = (a :: C2) ++ [e] by simp, hW]; simp, pathEdges_split, show B ++ a :: C2 = (B ++ W) ++ [c] by rw [hW]; simp]
    rfl
  set Q := X ++ Z ++ a :: C2 with hQ
  have hcons : (e :: X ++ Z) ++ a :: C2 = e :: Q := by simp [hQ]
  rw [hcons] at hext
  have h3 : 3 ≤ (e :: Q).length := by
    simp only [hQ, List.length_cons, List.length_append]
    by_contra hlt
    have hX : X = [] := List.length_eq_zero_iff.1 (by omega)
    have hadj : g.hasEdge e s := by
      subst hX
      exact (consecutive_of_chain hF ⟨[], Y, rfl⟩).1
    exact hn.not_adj (hasEdge_symm.1 hadj)
  have hcircle := PathGraph.close hext h3 (c := c) (by rw [← hcons, List.getLast?_append_of_ne_nil _ (by simp)]; exact hcl)
  have hlinC : ∀ x y, Consecutive (a :: (C2 ++ [e])) x y → σ x y = farEnd L e t y - farEnd L e t x := fun x y hxy => hpl x y (consecutive_sublist hxy)
  have hQe : e :: Q ++ [e] = (e :: X ++ Z) ++ a :: (C2 ++ [e]) := by rw [← hcons]; simp
  refine ⟨Q, ?_, ?_, ?_⟩
  · rw [hedges, addEdges_append]
    exact hcircle
  · rw [hQe, chain_iff_consecutive]
    intro x y hxy
    rcases consecutive_append.1 hxy with hxy | hxy
    · rw [show (e :: X ++ Z) ++ [a] = e :: X ++ s :: Y by rw [hZ]; simp] at hxy
      exact consecutive_of_chain hF hxy
    · refine ⟨((hke x y).1 (consecutive_of_chain hp.1.chain (consecutive_sublist hxy))).1, ?_⟩
      have := consecutive_of_chain (List.isChain_iff_pairwise.2 hC) hxy
      rw [hlinC x y hxy]
      linarith
  · rw [hQe, sumAlong_split, show (e :: X ++ Z) ++ [a] = e :: (X ++ s :: Y) by rw [hZ]; simp]
    rw [sumAlong_linear (X ++ s :: Y) e a hlin (by rw [show e :: (X ++ s :: Y) = (e :: X) ++ s :: Y by simp, List.getLast?_append_of_ne_nil _ (by simp)]; exact ha),
      sumAlong_linear (C2 ++ [e]) a e hlinC hlast, hfar a hKa.2, hc.self]
    simp [farEnd]

end

end NF
