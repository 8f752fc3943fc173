import Verif.Lemmas.Weights
import Verif.Lemmas.PathGraph

/-! # The shortest-path method on a line that goes in one direction: one path -/

noncomputable section
open Classical
namespace NF
open Spec NxGraph
variable {V A : Type}

/-- The nodes are ordered by `t`, and an edge that goes over a node is longer than those to this node. -/
structure Lined (g : NxGraph V ℝ) (t : V → ℝ) (w : V → V → ℝ) : Prop where
  inj : ∀ x ∈ g.nodes, ∀ y ∈ g.nodes, t x = t y → x = y
  between : ∀ x ∈ g.nodes, ∀ y ∈ g.nodes, ∀ z ∈ g.nodes, t x < t z → t z < t y → g.hasEdge x y → g.hasEdge x z ∧ g.hasEdge z y
  symm : ∀ x y, w x y = w y x
  pos : ∀ x y, g.hasEdge x y → 0 < w x y
  shorter : ∀ x y z, g.hasEdge x y → z ∈ g.nodes → t x < t z → t z < t y → w x z < w x y ∧ w z y < w x y

theorem Lined.neg {g : NxGraph V ℝ} {t : V → ℝ} {w : V → V → ℝ} (h : Lined g t w) : Lined g (fun x => -t x) w := by
  refine ⟨fun x hx y hy e => h.inj x hx y hy (neg_injective e), fun x hx y hy z hz h1 h2 hxy => ?_, h.symm, h.pos, fun x y z hxy hz h1 h2 => ?_⟩
  · have := h.between y hy x hx z hz (by linarith) (by linarith) (hasEdge_symm.1 hxy)
    exact ⟨hasEdge_symm.1 this.2, hasEdge_symm.1 this.1⟩
  · have := h.shorter y x z (hasEdge_symm.1 hxy) hz (by linarith) (by linarith)
    rw [h.symm x z, h.symm x y, h.symm z y]
    exact ⟨this.2, this.1⟩

/-- The weights of the working graph `k`: zero on the edges of the result, and otherwise `w` times a factor for each end. -/
structure Weighted (g : NxGraph V ℝ) (k : NxGraph V (ℝ × ℝ)) (rg : NxGraph V Unit) (f : V → ℝ) (w : V → V → ℝ) : Prop where
  edge : ∀ x y, k.hasEdge x y ↔ g.hasEdge x y
  zero : ∀ x y, rg.hasEdge x y → edgeWeight k x y = 0
  other : ∀ x y, g.hasEdge x y → ¬ rg.hasEdge x y → edgeWeight k x y = f x * f y * w x y

/-- A shortest path from a node of the result to a node beyond its last node `D`: it goes along the result to `D` and then in one direction. -/
theorem shortest_beyond {g : NxGraph V ℝ} (hg : GoodGraph g) {t : V → ℝ} {w : V → V → ℝ} (hL : Lined g t w) {k : NxGraph V (ℝ × ℝ)} {rg : NxGraph V Unit} {f : V → ℝ}
    (hk : Weighted g k rg f w) (hgr : GoodGraph rg) (hsub : SubgraphOf rg g) (hconn : Connected rg) {D s e : V} (hD : D ∈ rg.nodes) (hs : s ∈ rg.nodes) (he : e ∈ g.nodes)
    (hDe : t D < t e) (hle : ∀ x ∈ rg.nodes, t x ≤ t D) (hf0 : 0 < f D) (hf : ∀ x, f D ≤ f x) (hf1 : ∀ x, f x ≤ 1) (hfout : ∀ x, x ∉ rg.nodes → x ≠ e → f x = 1)
    {p : List V} (hp : IsShortestPath k s e p) : ∃ A C, p = A ++ D :: C ∧ (A ++ [D]).IsChain rg.hasEdge ∧ (D :: C).Pairwise (fun x y => t x < t y) := by
  have hDg := hsub.1 D hD
  have hnn : ∀ x y, k.hasEdge x y → 0 ≤ edgeWeight k x y := by
    intro x y hxy
    by_cases hr : rg.hasEdge x y
    · rw [hk.zero x y hr]
    · rw [hk.other x y ((hk.edge x y).1 hxy) hr]
      exact mul_nonneg (mul_nonneg (hf0.le.trans (hf x)) (hf0.le.trans (hf y))) (hL.pos x y ((hk.edge x y).1 hxy)).le
  have hpos : ∀ x y, k.hasEdge x y → edgeWeight k x y ≤ 0 → rg.hasEdge x y := by
    intro x y hxy hw
    by_contra hr
    rw [hk.other x y ((hk.edge x y).1 hxy) hr] at hw
    have := mul_pos (mul_pos (hf0.trans_le (hf x)) (hf0.trans_le (hf y))) (hL.pos x y ((hk.edge x y).1 hxy))
    linarith
  -- the weight of an edge to a node beyond `D`
  have hout : ∀ x z, g.hasEdge x z → t D < t z → edgeWeight k x z = f x * f z * w x z := by
    intro x z hxz hz
    have hzr : z ∉ rg.nodes := fun h => absurd (hle z h) (not_le.2 hz)
    rw [hk.other x z hxz fun h => hzr (goodGraph_edge hgr h).2.1]
  -- the zero-weight way from `s` to `D`
  obtain ⟨q, hq⟩ := exists_path_of_reach (hconn s hs D hD)
  have hqm : ∀ x ∈ q, x ∈ rg.nodes := isPath_mem hgr hq hs
  obtain ⟨q', rfl⟩ : ∃ q', q = q' ++ [D] := by
    have := hq.last
    rcases List.eq_nil_or_concat q with rfl | ⟨q', x, rfl⟩
    · simp at this
    · simp at this; subst this; exact ⟨q', by simp⟩
  have hqw : pathWeight k (q' ++ [D]) = 0 := weight_zero_of_chain hk.zero hq.chain
  -- it can be followed by any way that stays beyond `D`
  have halt : ∀ C, (D :: C).IsChain k.hasEdge → (D :: C).getLast? = some e → C.Nodup → (∀ z ∈ C, t D < t z) → pathWeight k p ≤ pathWeight k (D :: C) := by
    intro C h1 h2 h3 h4
    have hpath : k.IsPath s e (q' ++ D :: C) := by
      refine ⟨?_, ?_, ?_, ?_⟩
      · have := hq.head
        cases q' <;> simpa using this
      · rw [List.getLast?_append_of_ne_nil _ (by simp)]; exact h2
      · have := hq.chain
        rw [List.isChain_append] at this ⊢
        exact ⟨this.1.imp fun x y h => (hk.edge x y).2 (hsub.2 x y h), h1, fun x hx y hy => (hk.edge x y).2 (hsub.2 x y (this.2.2 x hx y (by simpa using hy)))⟩
      · rw [show q' ++ D :: C = (q' ++ [D]) ++ C by simp, List.nodup_append]
        exact ⟨hq.nodup, h3, fun x hx y hy hxy => by subst hxy; exact absurd (hle x (hqm x hx)) (not_le.2 (h4 x hy))⟩
    have := hp.2 _ hpath
    rwa [pathWeight_append, hqw, zero_add] at this
  have hkn : ∀ x y, k.hasEdge x y → x ∈ g.nodes ∧ y ∈ g.nodes := fun x y h => ⟨(goodGraph_edge hg ((hk.edge x y).1 h)).1, (goodGraph_edge hg ((hk.edge x y).1 h)).2.1⟩
  -- the last node up to `D`
  obtain ⟨A, y, C, rfl, hy, hC⟩ := split_last (p := p) (Q := fun x => t x ≤ t D) ⟨s, List.mem_of_mem_head? hp.1.head, hle s hs⟩
  have hCD : ∀ z ∈ C, t D < t z := fun z hz => not_le.1 (hC z hz)
  have hch := hp.1.chain
  have hlast : (y :: C).getLast? = some e := by
    have := hp.1.last
    rwa [List.getLast?_append_of_ne_nil _ (by simp)] at this
  have hchy : (y :: C).IsChain k.hasEdge := (List.isChain_append.1 hch).2.1
  have hnd := hp.1.nodup
  have hCnd : C.Nodup := (List.nodup_cons.1 (List.nodup_append.1 hnd).2.1).2
  have hpre : (A ++ [y]).IsChain k.hasEdge := by
    have := List.isChain_append.1 hch
    exact List.isChain_append.2 ⟨this.1, by simp, fun a ha b hb => this.2.2 a ha b (by simpa using hb)⟩
  have hyD : y = D := by
    by_contra hne
    cases C with
    | nil => simp at hlast; subst hlast; linarith
    | cons z R =>
      have hyz := (List.isChain_cons_cons.1 hchy).1
      have hyz' := (hk.edge y z).1 hyz
      have hyg := (hkn y z hyz)
      have hylt : t y < t D := lt_of_le_of_ne hy fun h => hne (hL.inj y hyg.1 D hDg h)
      have hz := hCD z (by simp)
      have hDz := (hL.between y hyg.1 z hyg.2 D hDg hylt hz hyz').2
      have hw := (hL.shorter y z D hyz' hDg hylt hz).2
      have := halt (z :: R) (List.isChain_cons_cons.2 ⟨(hk.edge D z).2 hDz, (List.isChain_cons_cons.1 hchy).2⟩) (by rw [List.getLast?_cons_cons] at hlast ⊢; exact hlast) hCnd hCD
      rw [pathWeight_append, pathWeight_cons, pathWeight_cons, hout y z hyz' hz, hout D z hDz hz] at this
      have h0 := pathWeight_nonneg hnn hpre
      have h1 := hf y
      have h2 := hL.pos y z hyz'
      have hfz := hf0.trans_le (hf z)
      have h3 : f D * f z * w D z < f D * f z * w y z := mul_lt_mul_of_pos_left hw (mul_pos hf0 hfz)
      have h4 : f D * f z * w y z ≤ f y * f z * w y z := mul_le_mul_of_nonneg_right (mul_le_mul_of_nonneg_right h1 hfz.le) h2.le
      linarith
  subst hyD
  refine ⟨A, C, rfl, ?_, ?_⟩
  · have := halt C hchy hlast hCnd hCD
    rw [pathWeight_append] at this
    exact chain_of_weight_zero hnn hpos hpre (by linarith)
  · -- in one direction
    have hCg : ∀ z ∈ y :: C, z ∈ g.nodes := by
      intro z hz
      rcases List.mem_cons.1 hz with rfl | hz
      · exact hDg
      · cases C with
        | nil => simp at hz
        | cons c C =>
          have : ∀ (l : List V) (a : V), (a :: l).IsChain k.hasEdge → ∀ z ∈ l, z ∈ g.nodes := by
            intro l
            induction l with
            | nil => intro a _ z hz; simp at hz
            | cons b l ih =>
              intro a hc z hz
              rw [List.isChain_cons_cons] at hc
              rcases List.mem_cons.1 hz with rfl | hz
              · exact (hkn _ _ hc.1).2
              · exact ih b hc.2 z hz
          exact this _ _ hchy z hz
    have hndy : (y :: C).Nodup := (List.nodup_append.1 hnd).2.1
    rw [← List.isChain_iff_pairwise]
    rw [List.isChain_iff_forall_rel_of_append_cons_cons]
    intro a b X Y hXY
    have hab : k.hasEdge a b := by
      rw [hXY] at hchy
      exact (List.isChain_cons_cons.1 (List.isChain_append.1 hchy).2.1).1
    have hag : a ∈ g.nodes := (hkn a b hab).1
    have hbg : b ∈ g.nodes := (hkn a b hab).2
    have hane : a ≠ b := (goodGraph_edge hg ((hk.edge a b).1 hab)).2.2
    by_contra hnot
    have hba : t b < t a := lt_of_le_of_ne (not_lt.1 hnot) fun h => hane (hL.inj b hbg a hag h).symm
    have hlast' : (b :: Y).getLast? = some e := by
      rw [hXY, show X ++ a :: b :: Y = (X ++ [a]) ++ b :: Y by simp, List.getLast?_append_of_ne_nil _ (by simp)] at hlast
      exact hlast
    have hae : a ≠ e := by
      rintro rfl
      rw [hXY] at hndy
      have := (List.nodup_cons.1 (List.nodup_append.1 hndy).2.1).1
      exact this (List.mem_of_getLast? hlast')
    have hbD : b ∈ C := by
      have : b ∈ (y :: C).tail := by rw [hXY]; cases X <;> simp
      simpa using this
    have hbY : ∀ z ∈ b :: Y, z ∈ C := by
      intro z hz
      have : z ∈ (y :: C).tail := by
        rw [hXY]
        cases X with
        | nil => simpa using hz
        | cons c X =>
          simp only [List.cons_append, List.tail_cons, List.mem_append, List.mem_cons]
          rcases List.mem_cons.1 hz with h | h
          · exact .inr (.inr (.inl h))
          · exact .inr (.inr (.inr h))
      simpa using this
    rcases lt_or_ge (t a) (t e) with hlt | hge
    · -- the path comes back over `a`
      obtain ⟨B, c, E, hE, hc, hE'⟩ := split_last (p := b :: Y) (Q := fun x => t x ≤ t a) ⟨b, by simp, hba.le⟩
      cases E with
      | nil =>
        rw [hE] at hlast'
        simp at hlast'
        subst hlast'
        linarith
      | cons z R =>
        have hz : t a < t z := not_le.1 (hE' z (by simp))
        have hcz : k.hasEdge c z := by
          rw [hXY, hE, show X ++ a :: (B ++ c :: z :: R) = (X ++ a :: B) ++ c :: z :: R by simp] at hchy
          exact (List.isChain_cons_cons.1 (List.isChain_append.1 hchy).2.1).1
        have hcz' := (hk.edge c z).1 hcz
        have hcb : c ∈ b :: Y := by rw [hE]; simp
        have hcg := (hkn c z hcz).1
        have hclt : t c < t a := by
          refine lt_of_le_of_ne hc fun h => ?_
          have := hL.inj c hcg a hag h
          subst this
          rw [hXY] at hndy
          exact (List.nodup_cons.1 (List.nodup_append.1 hndy).2.1).1 hcb
        have haz := (hL.between c hcg z (hkn c z hcz).2 a hag hclt hz hcz').2
        have hw := (hL.shorter c z a hcz' hag hclt hz).2
        have hDa : t y ≤ t a := (hCD b hbD).le.trans hba.le
        have hp' : IsShortestPath k s e ((A ++ X) ++ a :: ((B ++ [c]) ++ z :: R)) := by
          have e1 : A ++ y :: C = (A ++ X) ++ a :: ((B ++ [c]) ++ z :: R) := by rw [hXY, hE]; simp
          rwa [e1] at hp
        have hd := shortest_no_detour hp' ((hk.edge a z).2 haz)
        rw [hout a z haz (hDa.trans_lt hz), show a :: (B ++ [c] ++ [z]) = (a :: B) ++ c :: [z] by simp, pathWeight_append, pathWeight_cons, pathWeight_single, add_zero,
          hout c z hcz' (hDa.trans_lt hz)] at hd
        have hfc : f c = 1 := hfout c (fun h => absurd (hle c h) (not_le.2 (hCD c (hbY c hcb)))) fun h => by rw [h] at hclt; linarith
        have hchain : ((a :: B) ++ [c]).IsChain k.hasEdge := by
          rw [hXY, hE, show X ++ a :: (B ++ c :: z :: R) = X ++ (((a :: B) ++ [c]) ++ z :: R) by simp] at hchy
          exact (List.isChain_append.1 (List.isChain_append.1 hchy).2.1).1
        have h0 := pathWeight_nonneg hnn hchain
        rw [hfc, one_mul] at hd
        have hfz := hf0.trans_le (hf z)
        have h1 : f a * f z * w a z ≤ 1 * f z * w a z := mul_le_mul_of_nonneg_right (mul_le_mul_of_nonneg_right (hf1 a) hfz.le) (hL.pos a z haz).le
        have h2 : f z * w a z < f z * w c z := mul_lt_mul_of_pos_left hw hfz
        linarith
    · -- the path goes beyond `e`
      have hgt : t e < t a := lt_of_le_of_ne hge fun h => hae (hL.inj e he a hag h).symm
      obtain ⟨B, z, E, hE, hz, hB⟩ := split_first (p := X ++ [a]) (Q := fun x => t e ≤ t x) ⟨a, by simp, hge⟩
      have hform : y :: C = B ++ z :: (E ++ b :: Y) := by rw [hXY, show X ++ a :: b :: Y = (X ++ [a]) ++ b :: Y by simp, hE]; simp
      rcases List.eq_nil_or_concat B with rfl | ⟨B, c, rfl⟩
      · simp only [List.nil_append, List.cons.injEq] at hform
        rw [← hform.1] at hz
        linarith
      · have hform' : y :: C = B ++ c :: z :: (E ++ b :: Y) := by rw [hform]; simp
        have hcz : k.hasEdge c z := by
          rw [hform'] at hchy
          exact (List.isChain_cons_cons.1 (List.isChain_append.1 hchy).2.1).1
        have hcz' := (hk.edge c z).1 hcz
        have hce : t c < t e := not_le.1 (hB c (by simp))
        obtain ⟨Y', hY'⟩ : ∃ Y', b :: Y = Y' ++ [e] := by
          rcases List.eq_nil_or_concat (b :: Y) with h | ⟨Y', x, h⟩
          · simp at h
          · rw [h] at hlast'
            simp at hlast'
            subst hlast'
            exact ⟨Y', by rw [h]; simp⟩
        have hze : z ≠ e := by
          rintro rfl
          rw [hform', hY', List.nodup_append] at hndy
          have := hndy.2.1
          simp at this
        have hzg := (hkn c z hcz)
        have hezlt : t e < t z := lt_of_le_of_ne hz fun h => hze (hL.inj e he z hzg.2 h).symm
        have hce' := (hL.between c hzg.1 z hzg.2 e he hce hezlt hcz').1
        have hw := (hL.shorter c z e hcz' he hce hezlt).1
        have hp' : IsShortestPath k s e ((A ++ B) ++ c :: ((z :: (E ++ Y')) ++ e :: [])) := by
          have e1 : A ++ y :: C = (A ++ B) ++ c :: ((z :: (E ++ Y')) ++ e :: []) := by rw [hform', hY']; simp
          rwa [e1] at hp
        have hd := shortest_no_detour hp' ((hk.edge c e).2 hce')
        rw [List.cons_append, pathWeight_cons, hout c z hcz' (by linarith), hout c e hce' hDe] at hd
        have hchain : (z :: (E ++ Y' ++ [e])).IsChain k.hasEdge := by
          rw [hform', hY', show B ++ c :: z :: (E ++ (Y' ++ [e])) = (B ++ [c]) ++ z :: (E ++ Y' ++ [e]) by simp] at hchy
          exact (List.isChain_append.1 hchy).2.1
        have h0 := pathWeight_nonneg hnn hchain
        have hfz : f z = 1 := hfout z (fun h => absurd (hle z h) (not_le.2 (hDe.trans hezlt))) hze
        have hfc := hf0.trans_le (hf c)
        have h1 : f c * w c e < f c * w c z := mul_lt_mul_of_pos_left hw hfc
        have h2 : f c * f e * w c e ≤ f c * 1 * w c e := mul_le_mul_of_nonneg_right (mul_le_mul_of_nonneg_left (hf1 e) hfc.le) (hL.pos c e hce').le
        rw [hfz] at hd
        linarith

end NF
