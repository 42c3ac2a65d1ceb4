import Verif.Lemmas.LoopsLines

/-! Anchors (tree output): putting them in first and following the lines afterwards gives the same as doing both in turn. -/
namespace PolyOps.Loops
open PolyOps PolyOps.Sweep

theorem upd_congr' (st : LState) (lp lp' : Nat → OP) (prev p : Nat) (h : lp' p = lp p) (h2 : (lp' (lp p).next).data = (lp (lp p).next).data) :
    upd st lp' prev p = upd st lp prev p := by
  unfold upd
  rw [h, h2]

/-- The point after a point of an arc. -/
theorem IsArc.next {lp : Nat → OP} {a : Arc} (h : IsArc lp a) {p : Nat} (hp : p ∈ a.nodes) : (lp p).next ∈ a.mid ∨ (lp p).next = a.stop := by
  have key : ∀ (ps : List Nat) (x : Nat), Sq (fun i => (lp i).next) x ps a.stop → (x ∈ ps ∨ x = a.stop) ∧ ∀ p ∈ ps, (lp p).next ∈ ps ∨ (lp p).next = a.stop := by
    intro ps
    induction ps with
    | nil => intro x hx; exact ⟨Or.inr hx, by simp⟩
    | cons q ps ih =>
      intro x hx
      have := ih _ hx.2
      refine ⟨Or.inl (by rw [hx.1]; exact List.mem_cons_self), fun p hp => ?_⟩
      rcases List.mem_cons.mp hp with rfl | hp
      · exact this.1.imp (fun h => List.mem_cons_of_mem _ h) id
      · exact (this.2 p hp).imp (fun h => List.mem_cons_of_mem _ h) id
  have := key _ _ h.sq
  rcases List.mem_cons.mp hp with rfl | hp
  · exact this.1
  · exact this.2 p hp

theorem updAll_congr {lp lp' : Nat → OP} {a : Arc} (h : IsArc lp a) (st : LState) (e : ∀ k ∈ a.nodes, lp' k = lp k)
    (e2 : (lp' a.stop).data = (lp a.stop).data) (e3 : (lp' a.stop).st ≠ .undef) {p : Nat} (hp : p ∈ a.mid) :
    updAll st lp' a.head a.mid p = updAll st lp a.head a.mid p := by
  have h' := h.congr e e3
  have hnx := h.next (List.mem_cons_of_mem a.head hp)
  have hpe := e p (List.mem_cons_of_mem _ hp)
  have hd : (lp' (lp p).next).data = (lp (lp p).next).data := by
    rcases hnx with c | c
    · rw [e _ (List.mem_cons_of_mem _ c)]
    · rw [c, e2]
  obtain ⟨l1, l2, eq⟩ := List.append_of_mem hp
  have hn := (List.nodup_cons.mp h.nodup).2
  have hs := h.sq
  have hs' := h'.sq
  have hst := h.stop_notMem
  rw [eq] at hn hs hs' hst ⊢
  rw [updAll_mem st a.stop l1 lp a.head p _ l2 hn hst hs, updAll_mem st a.stop l1 lp' a.head p _ l2 hn hst hs']
  exact upd_congr' _ _ _ _ _ hpe hd

theorem updAll_anchor {lp : Nat → OP} {a : Arc} (h : IsArc lp a) (st : LState) (k : Nat) : (updAll st lp a.head a.mid k).anchor = (lp k).anchor := by
  by_cases c : k ∈ a.mid
  · exact (updAll_facts h st c).2.1
  · rw [updAll_other _ _ _ _ _ c]

/-- `followed` where only the points outside the arc differ. -/
theorem followed_congr {w : Work} {a : Arc} {L : Nat → OP} {n : Nat} (hh : L a.head = w.lp a.head) (hs : (L a.stop).data = (w.lp a.stop).data) :
    Work.followed { w with lp := L, np := n } a = { w.followed a with lp := updAll (w.lp a.head).ls L a.head a.mid, np := n } := by
  unfold Work.followed
  dsimp only
  rw [hh, hs]
  split
  · split <;> rfl
  · rfl

/-- The points with an anchor after `p`. -/
def putAnchor (lp : Nat → OP) (n p : Nat) : Nat → OP :=
  setFn (setFn lp n { lp p with st := .undef, anchor := true }) p { lp p with next := n }

theorem insertAnchor_old {w : Work} {p : Nat} (h : (w.lp (w.lp p).next).anchor = true) : w.insertAnchor p = (w, (w.lp p).next) := by
  unfold Work.insertAnchor; rw [if_pos h]

theorem insertAnchor_new {w : Work} {p : Nat} (hp : p < w.np) (h : (w.lp (w.lp p).next).anchor = false) :
    w.insertAnchor p = ({ w with lp := putAnchor w.lp w.np p, np := w.np + 1 }, w.np) := by
  unfold Work.insertAnchor putAnchor
  rw [if_neg (by rw [h]; simp)]
  dsimp only
  rw [setFn_ne _ _ (by omega : p ≠ w.np)]

theorem putAnchor_at {lp : Nat → OP} {n p : Nat} : putAnchor lp n p p = { lp p with next := n } := setFn_same _ _ _
theorem putAnchor_new {lp : Nat → OP} {n p : Nat} (h : p ≠ n) : putAnchor lp n p n = { lp p with st := .undef, anchor := true } := by
  unfold putAnchor; rw [setFn_ne _ _ h.symm, setFn_same]
theorem putAnchor_other {lp : Nat → OP} {n p k : Nat} (h : k ≠ p) (h2 : k ≠ n) : putAnchor lp n p k = lp k := by
  unfold putAnchor; rw [setFn_ne _ _ h, setFn_ne _ _ h2]

theorem putAnchor_data {lp : Nat → OP} {n p k : Nat} (h2 : k ≠ n) : (putAnchor lp n p k).data = (lp k).data ∧ (putAnchor lp n p k).st = (lp k).st := by
  by_cases h : k = p
  · subst h; rw [putAnchor_at]; exact ⟨rfl, rfl⟩
  · rw [putAnchor_other h h2]; exact ⟨rfl, rfl⟩

theorem insertAnchor_np (w : Work) (p : Nat) : w.np ≤ (w.insertAnchor p).1.np := by
  unfold Work.insertAnchor; split
  · exact le_refl _
  · exact Nat.le_succ _

theorem anchorHits_np : ∀ (l : List Nat) (w : Work), w.np ≤ (w.anchorHits l).1.np
  | [], _ => le_refl _
  | i :: l, w => (insertAnchor_np w i).trans (anchorHits_np l (w.insertAnchor i).1)

/-- Following another arc and putting in an anchor commute. -/
theorem follow_insert {w : Work} {c : Arc} {p : Nat} (hc : IsArc w.lp c) (hlt : ∀ k ∈ c.nodes, k < w.np) (hst : c.stop < w.np) (hp : p < w.np) (hpc : p ∉ c.nodes) :
    (w.insertAnchor p).1.followed c = ((w.followed c).insertAnchor p).1 ∧ ((w.followed c).insertAnchor p).2 = (w.insertAnchor p).2 ∧
    IsArc (w.insertAnchor p).1.lp c := by
  have hm : p ∉ c.mid := fun h => hpc (List.mem_cons_of_mem _ h)
  have e1 : (w.followed c).lp p = w.lp p := by rw [followed_lp, updAll_other _ _ _ _ _ hm]
  have e2 : ∀ k, ((w.followed c).lp k).anchor = (w.lp k).anchor := fun k => by rw [followed_lp, updAll_anchor hc]
  cases ha : (w.lp (w.lp p).next).anchor
  · rw [insertAnchor_new hp ha, insertAnchor_new (w := w.followed c) (by rw [followed_np]; exact hp) (by rw [e1, e2]; exact ha), followed_np]
    have ec : ∀ k ∈ c.nodes, putAnchor w.lp w.np p k = w.lp k := fun k hk =>
      putAnchor_other (fun h => hpc (h ▸ hk)) (by have := hlt k hk; omega)
    have es := putAnchor_data (lp := w.lp) (n := w.np) (p := p) (k := c.stop) (by omega)
    have e3 : (putAnchor w.lp w.np p c.stop).st ≠ .undef := by rw [es.2]; exact hc.stop
    refine ⟨?_, rfl, hc.congr ec e3⟩
    rw [followed_congr (ec _ List.mem_cons_self) es.1]
    have : updAll (w.lp c.head).ls (putAnchor w.lp w.np p) c.head c.mid = putAnchor (w.followed c).lp w.np p := by
      funext k
      by_cases hk : k ∈ c.mid
      · rw [updAll_congr hc _ ec es.1 e3 hk, followed_lp, putAnchor_other (n := w.np) (p := p) (k := k) (fun h => hm (h ▸ hk)) (by have := hlt k (List.mem_cons_of_mem _ hk); omega)]
      · rw [updAll_other _ _ _ _ _ hk, followed_lp]
        unfold putAnchor
        rw [updAll_other _ _ _ _ p hm]
        unfold setFn
        split
        · rfl
        · split
          · rfl
          · rw [updAll_other _ _ _ _ k hk]
    rw [this]
  · rw [insertAnchor_old ha, insertAnchor_old (w := w.followed c) (by rw [e1, e2]; exact ha), e1]
    exact ⟨rfl, rfl, hc⟩

theorem follow_hits {c : Arc} : ∀ (l : List Nat) {w : Work}, IsArc w.lp c → (∀ k ∈ c.nodes, k < w.np) → c.stop < w.np → (∀ p ∈ l, p < w.np ∧ p ∉ c.nodes) →
    (w.anchorHits l).1.followed c = ((w.followed c).anchorHits l).1 ∧ ((w.followed c).anchorHits l).2 = (w.anchorHits l).2 ∧ IsArc (w.anchorHits l).1.lp c
  | [], w, h, _, _, _ => ⟨rfl, rfl, h⟩
  | p :: l, w, h, hlt, hst, hl => by
    obtain ⟨h1, h2, h3⟩ := follow_insert h hlt hst (hl p List.mem_cons_self).1 (hl p List.mem_cons_self).2
    have hn := insertAnchor_np w p
    obtain ⟨g1, g2, g3⟩ := follow_hits l (w := (w.insertAnchor p).1) h3 (fun k hk => (hlt k hk).trans_le hn) (hst.trans_le hn)
      (fun q hq => ⟨(hl q (List.mem_cons_of_mem _ hq)).1.trans_le hn, (hl q (List.mem_cons_of_mem _ hq)).2⟩)
    change ((w.insertAnchor p).1.anchorHits l).1.followed c = (((w.followed c).insertAnchor p).1.anchorHits l).1 ∧
      ((w.followed c).insertAnchor p).2 :: (((w.followed c).insertAnchor p).1.anchorHits l).2 = (w.insertAnchor p).2 :: ((w.insertAnchor p).1.anchorHits l).2 ∧ _
    rw [← h1, h2]
    exact ⟨g1, by rw [g2], g3⟩

/-- The arc after an anchor was put in after its first point. -/
theorem IsArc.insert {w : Work} {c : Arc} (hc : IsArc w.lp c) (hlt : ∀ k ∈ c.nodes, k < w.np) (hst : c.stop < w.np) :
    ∃ c' : Arc, c'.head = c.head ∧ c'.stop = c.stop ∧ IsArc (w.insertAnchor c.head).1.lp c' ∧ (∀ k ∈ c'.nodes, k < (w.insertAnchor c.head).1.np) ∧
      ∀ k ∈ c'.nodes, k < w.np → k ∈ c.nodes := by
  have hp : c.head < w.np := hlt _ List.mem_cons_self
  cases ha : (w.lp (w.lp c.head).next).anchor
  · rw [insertAnchor_new hp ha]
    refine ⟨⟨c.head, w.np :: c.mid, c.stop⟩, rfl, rfl, ⟨?_, ?_, ?_, ?_, ?_, ?_⟩, ?_, ?_⟩
    · dsimp only
      rw [putAnchor_at]
      refine ⟨rfl, ?_⟩
      dsimp only
      rw [putAnchor_new (by omega)]
      refine Sq.congr hc.sq (fun q hq => ?_)
      rw [putAnchor_other (n := w.np) (p := c.head) (k := q) (fun h => (List.nodup_cons.mp hc.nodup).1 (h ▸ hq)) (by have := hlt q (List.mem_cons_of_mem _ hq); omega)]
    · intro q hq
      rcases List.mem_cons.mp hq with rfl | hq
      · dsimp only; rw [putAnchor_new (by omega)]
      · dsimp only; rw [putAnchor_other (n := w.np) (p := c.head) (k := q) (fun h => (List.nodup_cons.mp hc.nodup).1 (h ▸ hq)) (by have := hlt q (List.mem_cons_of_mem _ hq); omega)]
        exact hc.mid q hq
    · dsimp only; rw [putAnchor_at]; exact hc.head
    · dsimp only; rw [putAnchor_at]; exact hc.anchor
    · dsimp only; rw [(putAnchor_data (by omega)).2]; exact hc.stop
    · have h1 := List.nodup_cons.mp hc.nodup
      have h2 : w.np ∉ c.mid := fun h => by have := hlt _ (List.mem_cons_of_mem _ h); omega
      unfold Arc.nodes
      dsimp only
      rw [List.nodup_cons, List.nodup_cons]
      refine ⟨?_, h2, h1.2⟩
      intro h
      rcases List.mem_cons.mp h with h | h
      · omega
      · exact h1.1 h
    · intro k hk
      unfold Arc.nodes at hk
      rcases List.mem_cons.mp hk with rfl | hk
      · exact Nat.lt_succ_of_lt hp
      · rcases List.mem_cons.mp hk with rfl | hk
        · exact Nat.lt_succ_self _
        · exact Nat.lt_succ_of_lt (hlt k (List.mem_cons_of_mem _ hk))
    · intro k hk hn
      unfold Arc.nodes at hk ⊢
      rcases List.mem_cons.mp hk with rfl | hk
      · exact List.mem_cons_self
      · rcases List.mem_cons.mp hk with rfl | hk
        · omega
        · exact List.mem_cons_of_mem _ hk
  · rw [insertAnchor_old ha]
    exact ⟨c, rfl, rfl, hc, hlt, fun k hk _ => hk⟩

theorem nodes_length {a : Arc} {n : Nat} (h : a.nodes.Nodup) (hlt : ∀ k ∈ a.nodes, k < n) : a.mid.length ≤ n := by
  have := (List.subperm_of_subset h (l₂ := List.range n) (fun k hk => List.mem_range.mpr (hlt k hk))).length_le
  rw [List.length_range] at this
  unfold Arc.nodes at this
  rw [List.length_cons] at this
  omega

/-- Following with tree output: all anchors first, then all lines. -/
theorem followTree_eq : ∀ (S : List (Nat × List Nat)) (A : List Arc) {w : Work}, A.map Arc.head = S.map Prod.fst → (∀ a ∈ A, IsArc w.lp a) →
    (A.flatMap Arc.nodes).Nodup → (∀ a ∈ A, (∀ k ∈ a.nodes, k < w.np) ∧ a.stop < w.np) →
    w.followTree S = ((w.anchorHits (S.map Prod.fst)).1.followAll (S.map Prod.fst)).map fun v => (v, (w.anchorHits (S.map Prod.fst)).2.zip (S.map Prod.snd))
  | [], _, w, _, _, _, _ => rfl
  | (p, hs) :: S, [], w, e, _, _, _ => by simp at e
  | (p, hs) :: S, c :: A, w, e, hA, hn, hlt => by
    rw [List.map_cons, List.map_cons] at e
    obtain ⟨e1, e2⟩ := List.cons.inj e
    dsimp only at e1
    subst e1
    rw [List.flatMap_cons, List.nodup_append] at hn
    obtain ⟨n1, n2, n3⟩ := hn
    have hc := hA c List.mem_cons_self
    have hcl := hlt c List.mem_cons_self
    obtain ⟨c', k1, k2, k3, k4, k5⟩ := hc.insert hcl.1 hcl.2
    have hnp := insertAnchor_np w c.head
    have hst' : c'.stop < (w.insertAnchor c.head).1.np := by rw [k2]; exact hcl.2.trans_le hnp
    -- the other arcs
    have hin : ∀ a ∈ A, ∀ k ∈ a.nodes, (w.insertAnchor c.head).1.lp k = w.lp k := by
      intro a ha k hk
      cases hq : (w.lp (w.lp c.head).next).anchor
      · rw [insertAnchor_new (hcl.1 _ List.mem_cons_self) hq]
        refine putAnchor_other ?_ (by have := (hlt a (List.mem_cons_of_mem _ ha)).1 k hk; omega)
        intro h
        exact n3 c.head List.mem_cons_self k (List.mem_flatMap.mpr ⟨a, ha, hk⟩) h.symm
      · rw [insertAnchor_old hq]
    have hst : ∀ k < w.np, ((w.insertAnchor c.head).1.lp k).st = (w.lp k).st := by
      intro k hk
      cases hq : (w.lp (w.lp c.head).next).anchor
      · rw [insertAnchor_new (hcl.1 _ List.mem_cons_self) hq]
        exact (putAnchor_data (by omega)).2
      · rw [insertAnchor_old hq]
    have hA1 : ∀ a ∈ A, IsArc (w.insertAnchor c.head).1.lp a := by
      intro a ha
      have haw := hA a (List.mem_cons_of_mem _ ha)
      exact haw.congr (hin a ha) (by rw [hst _ (hlt a (List.mem_cons_of_mem _ ha)).2]; exact haw.stop)
    have hdis : ∀ a ∈ A, ∀ k ∈ a.nodes, k ∉ c'.nodes := by
      intro a ha k hk h
      exact n3 k (k5 k h ((hlt a (List.mem_cons_of_mem _ ha)).1 k hk)) k (List.mem_flatMap.mpr ⟨a, ha, hk⟩) rfl
    have hA2 : ∀ a ∈ A, IsArc ((w.insertAnchor c.head).1.followed c').lp a := by
      intro a ha
      refine (hA1 a ha).congr (fun k hk => ?_) ?_
      · rw [followed_lp, updAll_other _ _ _ _ _ (fun h => hdis a ha k hk (List.mem_cons_of_mem _ h))]
      · rw [followed_lp, updAll_keep k3 _ (hA1 a ha).stop]; exact (hA1 a ha).stop
    have ih := followTree_eq S A (w := (w.insertAnchor c.head).1.followed c') e2 hA2 n2 (by
      intro a ha
      rw [followed_np]
      have := hlt a (List.mem_cons_of_mem _ ha)
      exact ⟨fun k hk => (this.1 k hk).trans_le hnp, this.2.trans_le hnp⟩)
    have hf := follow_spec _ c' k3 (nodes_length k3.nodup k4)
    rw [k1] at hf
    unfold Work.followTree
    dsimp only
    rw [hf, Option.bind_some, ih]
    obtain ⟨g1, g2, g3⟩ := follow_hits (c := c') (S.map Prod.fst) (w := (w.insertAnchor c.head).1) k3 k4 hst' (by
      intro p hp
      rw [← e2] at hp
      obtain ⟨a, ha, rfl⟩ := List.mem_map.mp hp
      exact ⟨((hlt a (List.mem_cons_of_mem _ ha)).1 _ List.mem_cons_self).trans_le hnp, hdis a ha _ List.mem_cons_self⟩)
    rw [← g1, g2]
    change _ = ((((w.insertAnchor c.head).1.anchorHits (S.map Prod.fst)).1.follow c.head).bind fun w => w.followAll (S.map Prod.fst)).map
      fun v => (v, ((w.insertAnchor c.head).2 :: ((w.insertAnchor c.head).1.anchorHits (S.map Prod.fst)).2).zip (hs :: S.map Prod.snd))
    have hf2 := follow_spec _ c' g3 (nodes_length k3.nodup (fun k hk => (k4 k hk).trans_le (anchorHits_np (S.map Prod.fst) _)))
    rw [k1] at hf2
    rw [hf2, Option.bind_some, List.zip_cons_cons, Option.map_map]
    rfl

end PolyOps.Loops
