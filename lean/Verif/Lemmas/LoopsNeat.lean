import Verif.Lemmas.LoopsParts
import Verif.Lemmas.LoopsTree

/-! What becomes of the anchors. -/
namespace PolyOps.Loops
open PolyOps PolyOps.Sweep PolyOps.Exec

/-- Anchors come right after a point that is none. -/
structure Arc.Neat (lp : Nat → OP) (a : Arc) : Prop where
  tidy : Tidy lp a.nodes
  stop : (lp a.stop).anchor = false

structure Piece.Neat (lp : Nat → OP) (p : Piece) : Prop where
  tidy : Tidy lp p.nodes
  na : (lp (lp p.last).next).anchor = false

structure VPiece.Neat (lp : Nat → OP) (v : VPiece) : Prop where
  tidy : Tidy lp v.rest
  pos : ∀ x, v.rest.head? = some x → (lp x).anchor = true → (lp x).data = v.pos
  na : ∀ z, Sq (fun i => (lp i).next) v.next v.rest z → (lp z).anchor = false

theorem Tidy.congr {lp lp' : Nat → OP} {l : List Nat} (h : Tidy lp l) (e : ∀ k ∈ l, (lp' k).anchor = (lp k).anchor ∧ (lp' k).data = (lp k).data) : Tidy lp' l := by
  unfold Tidy at *
  rw [isChain_iff_split] at *
  intro l1 i j l2 eq ha
  have ei := e i (by rw [eq]; simp)
  have ej := e j (by rw [eq]; simp)
  rw [ej.1] at ha
  have := h l1 i j l2 eq ha
  rw [ei.1, ei.2, ej.2]
  exact this

theorem Arc.Neat.congr {lp lp' : Nat → OP} {a : Arc} (h : a.Neat lp) (e : ∀ k ∈ a.nodes, lp' k = lp k) (e2 : ∀ k, (lp' k).anchor = (lp k).anchor) : a.Neat lp' :=
  ⟨h.tidy.congr fun k hk => by rw [e k hk]; exact ⟨rfl, rfl⟩, (e2 _).trans h.stop⟩

theorem Piece.Neat.congr {lp lp' : Nat → OP} {p : Piece} (h : p.Neat lp) (e : ∀ k ∈ p.nodes, lp' k = lp k) (e2 : ∀ k, (lp' k).anchor = (lp k).anchor) : p.Neat lp' :=
  ⟨h.tidy.congr fun k hk => by rw [e k hk]; exact ⟨rfl, rfl⟩, by rw [e2, e _ p.last_mem]; exact h.na⟩

theorem VPiece.Neat.congr {lp lp' : Nat → OP} {v : VPiece} (h : v.Neat lp) (e : ∀ k ∈ v.rest, lp' k = lp k) (e2 : ∀ k, (lp' k).anchor = (lp k).anchor) : v.Neat lp' := by
  refine ⟨h.tidy.congr fun k hk => by rw [e k hk]; exact ⟨rfl, rfl⟩, fun x hx ha => ?_, fun z hz => ?_⟩
  · have hm : x ∈ v.rest := List.mem_of_mem_head? hx
    rw [e x hm] at ha ⊢
    exact h.pos x hx ha
  · rw [e2]
    exact h.na z (Sq.congr hz fun p hp => by change _ = (lp' p).next; rw [e p hp])

/-- A point of an arc and the one before. -/
theorem IsArc.prev {lp : Nat → OP} {a : Arc} (h : IsArc lp a) {l1 : List Nat} {p : Nat} {l2 : List Nat} (e : a.mid = l1 ++ p :: l2) :
    ∃ l0 i, a.head :: l1 = l0 ++ [i] ∧ a.nodes = l0 ++ i :: p :: l2 ∧ (lp i).next = p ∧ ∀ st, updAll st lp a.head a.mid p = upd st lp i p := by
  refine ⟨(a.head :: l1).dropLast, (a.head :: l1).getLast (by simp), (List.dropLast_append_getLast _).symm, ?_, ?_, ?_⟩
  · have : a.nodes = (a.head :: l1) ++ p :: l2 := by unfold Arc.nodes; rw [e]; rfl
    rw [this]
    conv_lhs => rw [← List.dropLast_append_getLast (l := a.head :: l1) (by simp)]
    simp
  · have hs := h.sq
    rw [e] at hs
    obtain ⟨y, h1, h2⟩ := Sq.append.mp hs
    have := (Sq.chain (nx := fun i => (lp i).next) h1).2
    have h3 : y = p := h2.1
    rw [← h3]; exact this
  · intro st
    have hn := (List.nodup_cons.mp h.nodup).2
    have hs := h.sq
    have hst := h.stop_notMem
    rw [e] at hn hs hst ⊢
    exact updAll_mem st a.stop l1 lp a.head p _ l2 hn hst hs

/-- The point after an anchor is none. -/
theorem Arc.Neat.after {lp : Nat → OP} {a : Arc} (h : IsArc lp a) (hn : a.Neat lp) {p : Nat} (hp : p ∈ a.mid) (ha : (lp p).anchor = true) :
    (lp (lp p).next).anchor = false ∧ ∀ i ∈ a.nodes, (lp i).next = p → (lp i).anchor = false ∧ (lp p).data = (lp i).data := by
  obtain ⟨l1, l2, e⟩ := List.append_of_mem hp
  obtain ⟨l0, i, e1, e2, e3, _⟩ := h.prev e
  have hc := isChain_iff_split.mp hn.tidy l0 i p l2 e2 ha
  refine ⟨?_, fun j hj hjp => ?_⟩
  · have hs := h.sq
    rw [e] at hs
    obtain ⟨y, _, h2⟩ := Sq.append.mp hs
    have h4 : Sq (fun i => (lp i).next) (lp p).next l2 a.stop := h2.2
    cases l2 with
    | nil => rw [show (lp p).next = a.stop from h4]; exact hn.stop
    | cons b l2 =>
      have h5 : (lp p).next = b := h4.1
      rw [h5]
      by_contra c
      have := isChain_iff_split.mp hn.tidy (l0 ++ [i]) p b l2 (by rw [e2]; simp) (by simpa using c)
      rw [ha] at this; exact absurd this.1 (by simp)
  · -- the only point of the arc before `p`
    obtain ⟨m1, m2, f⟩ := List.append_of_mem hj
    have hch := (Sq.chain (nx := fun i => (lp i).next) h.sq)
    have hjp' : m2 ≠ [] → m2.head? = some p := by
      intro hne
      obtain ⟨b, m2, rfl⟩ := List.exists_cons_of_ne_nil hne
      have : (lp j).next = b := isChain_iff_split.mp hch.1 m1 j b m2 f
      rw [← this, hjp]; rfl
    cases m2 with
    | nil =>
      exfalso
      have : (a.head :: a.mid).getLast (by simp) = j := by
        have : a.nodes = a.head :: a.mid := rfl
        simp only [← this, f]; simp
      rw [this] at hch
      exact h.stop_notMem (by rw [← hch.2]; exact hjp ▸ hp)
    | cons b m2 =>
      have hb : b = p := by simpa using hjp' (by simp)
      subst hb
      exact isChain_iff_split.mp hn.tidy m1 j b m2 f ha

theorem Arc.piece_neat {lp : Nat → OP} {a : Arc} (h : IsArc lp a) (hn : a.Neat lp) (r : (lp a.head).ls.rev = false) :
    (a.piece lp).Neat (updAll (lp a.head).ls lp a.head a.mid) := by
  have hd : ∀ k, (updAll (lp a.head).ls lp a.head a.mid k).data = (lp k).data ∧ (updAll (lp a.head).ls lp a.head a.mid k).next = (lp k).next := by
    intro k
    by_cases c : k ∈ a.mid
    · obtain ⟨l1, l2, e⟩ := List.append_of_mem c
      obtain ⟨_, i, _, _, _, e4⟩ := h.prev e
      rw [e4]
      unfold upd
      dsimp only
      split
      · exact ⟨rfl, rfl⟩
      · rw [if_neg (by rw [r]; simp)]; exact ⟨rfl, rfl⟩
    · rw [updAll_other _ _ _ _ _ c]; exact ⟨rfl, rfl⟩
  refine ⟨hn.tidy.congr fun k _ => ⟨updAll_anchor h _ k, (hd k).1⟩, ?_⟩
  rw [updAll_anchor h, (hd _).2]
  have := (Sq.chain (nx := fun i => (lp i).next) h.sq).2
  have e : (lp (a.piece lp).last).next = a.stop := this
  rw [e]; exact hn.stop

theorem Arc.vpiece_neat {lp : Nat → OP} {a : Arc} (h : IsArc lp a) (hn : a.Neat lp) (r : (lp a.head).ls.rev = true) :
    (a.vpiece lp).keep = true → (a.vpiece lp).Neat (updAll (lp a.head).ls lp a.head a.mid) := by
  intro k
  have k : (lp a.head).ls.keep = true := k
  have er : (a.vpiece lp).rest = a.mid.reverse := if_pos k
  have hu : ∀ p ∈ a.mid, (lp p).anchor = true → (updAll (lp a.head).ls lp a.head a.mid p).data = (lp (lp p).next).data := by
    intro p hp ha
    obtain ⟨l1, l2, e⟩ := List.append_of_mem hp
    obtain ⟨_, i, _, _, _, e4⟩ := h.prev e
    rw [e4]
    unfold upd
    dsimp only
    rw [if_neg (by rw [k]; simp), if_pos r]
    dsimp only
    rw [if_pos ha]
  have hch := (Sq.chain (nx := fun i => (lp i).next) h.sq)
  refine ⟨?_, ?_, ?_⟩
  · rw [er]
    unfold Tidy
    rw [isChain_iff_split]
    intro l1 j i l2 e ha
    have e' : a.mid = l2.reverse ++ i :: j :: l1.reverse := by
      have := congrArg List.reverse e
      rw [List.reverse_reverse] at this
      rw [this]; simp
    have him : i ∈ a.mid := by rw [e']; simp
    rw [updAll_anchor h] at ha ⊢
    have hij : (lp i).next = j := isChain_iff_split.mp hch.1 (a.head :: l2.reverse) i j l1.reverse (by rw [e']; rfl)
    have := (hn.after h him ha).1
    rw [hij] at this
    refine ⟨this, ?_⟩
    rw [hu i him ha, hij, (updAll_facts h _ (by rw [e']; simp : j ∈ a.mid)).2.2.1 this]
  · intro x hx ha
    rw [er, List.head?_reverse] at hx
    rw [updAll_anchor h] at ha
    have hxm : x ∈ a.mid := List.mem_of_getLast? hx
    rw [hu x hxm ha]
    have : (lp x).next = a.stop := by
      have e := hch.2
      have : (a.head :: a.mid).getLast (by simp) = x := by
        have hne : a.mid ≠ [] := List.ne_nil_of_mem hxm
        rw [List.getLast_cons hne]
        rw [List.getLast?_eq_some_getLast hne] at hx
        exact Option.some.inj hx
      rw [this] at e; exact e
    rw [this]; rfl
  · intro z hz
    obtain ⟨z', z1, _, _⟩ := (Arc.vpiece_ok h r).1.sq k
    have hz' : z = a.head := by
      rw [er] at hz
      have hs : Sq (fun i => (updAll (lp a.head).ls lp a.head a.mid i).next) a.last a.mid.reverse a.head := by
        apply Sq.reverse
        intro l1 p l2 e
        obtain ⟨l0, i, e1, _, _, e4⟩ := h.prev e
        change (updAll (lp a.head).ls lp a.head a.mid p).next = _
        rw [e4, upd_next_rev _ _ _ _ k r]
        simp only [e1]; simp
      have key : ∀ (ps : List Nat) (x y z : Nat) (nx : Nat → Nat), Sq nx x ps y → Sq nx x ps z → z = y := by
        intro ps
        induction ps with
        | nil => intro x y z nx h1 h2; exact (show x = z from h2).symm.trans h1
        | cons q ps ih => intro x y z nx h1 h2; exact ih _ _ _ nx h1.2 h2.2
      exact key _ _ _ _ _ hs hz
    rw [hz', updAll_anchor h]; exact h.anchor

/-- All is neat. -/
structure Neat1 (w : Work) (R : List Arc) (P : List Piece) (V : List VPiece) : Prop where
  arcs : ∀ a ∈ R, a.Neat w.lp
  pieces : ∀ p ∈ P, p.Neat w.lp
  virts : ∀ v ∈ V, v.keep = true → v.Neat w.lp

/-- The line from a point. -/
def Work.line (w : Work) (k : Nat) : Pt × Pt := ((w.lp k).data, w.endPoint k)

/-- The line of a kept anchor, in the direction of use. -/
def Tracked (W w : Work) (c : Arc) : Prop := ∀ k ∈ c.mid, (W.lp k).anchor = true → (w.lp k).st = .res (W.lp c.head).ls ∧
  ((W.lp c.head).ls.keep = true → w.line k = if (W.lp c.head).ls.rev then (W.line k).swap else W.line k) ∧ (w.lp (w.lp k).next).anchor = false

theorem Inv1.apart {w : Work} {a : Arc} {R : List Arc} {P : List Piece} {V : List VPiece} (h : Inv1 w (a :: R) P V) {k : Nat}
    (hk : k ∈ R.flatMap Arc.nodes ++ (P.flatMap Piece.nodes ++ (V.flatMap VPiece.rest ++ w.orphans))) : (w.followed a).lp k = w.lp k := by
  have hnd : ((a.nodes ++ R.flatMap Arc.nodes) ++ (P.flatMap Piece.nodes ++ (V.flatMap VPiece.rest ++ w.orphans))).Nodup := h.nodup
  rw [followed_lp]
  refine updAll_other _ _ _ _ _ fun c => ?_
  rw [List.append_assoc, List.nodup_append] at hnd
  exact hnd.2.2 k (List.mem_cons_of_mem _ c) k hk rfl

theorem Neat1.follow {w : Work} {a : Arc} {R : List Arc} {P : List Piece} {V : List VPiece} (h : Inv1 w (a :: R) P V) (hn : Neat1 w (a :: R) P V) :
    Neat1 (w.followed a) R (P ++ a.P w.lp) (V ++ a.V w.lp) := by
  have ha := h.arcs a List.mem_cons_self
  have e2 : ∀ k, ((w.followed a).lp k).anchor = (w.lp k).anchor := fun k => by rw [followed_lp, updAll_anchor ha]
  refine ⟨?_, ?_, ?_⟩
  · intro b hb
    refine (hn.arcs b (List.mem_cons_of_mem _ hb)).congr (fun k hk => h.apart ?_) e2
    exact List.mem_append_left _ (List.mem_flatMap.mpr ⟨b, hb, hk⟩)
  · intro p hp
    rcases List.mem_append.mp hp with hp | hp
    · refine (hn.pieces p hp).congr (fun k hk => h.apart ?_) e2
      exact List.mem_append_right _ (List.mem_append_left _ (List.mem_flatMap.mpr ⟨p, hp, hk⟩))
    · unfold Arc.P at hp
      split at hp
      · rename_i c
        rw [List.mem_singleton] at hp
        rw [hp, followed_lp]
        exact Arc.piece_neat ha (hn.arcs a List.mem_cons_self) c.2
      · simp at hp
  · intro v hv hk
    rcases List.mem_append.mp hv with hv | hv
    · refine (hn.virts v hv hk).congr (fun k hk => h.apart ?_) e2
      exact List.mem_append_right _ (List.mem_append_right _ (List.mem_append_left _ (List.mem_flatMap.mpr ⟨v, hv, hk⟩)))
    · unfold Arc.V at hv
      split at hv
      · rename_i c
        rw [List.mem_singleton] at hv
        rw [hv, followed_lp]
        exact Arc.vpiece_neat ha (hn.arcs a List.mem_cons_self) c (hv ▸ hk)
      · simp at hv

/-- The anchors of the arc that is followed. -/
theorem Tracked.new {w W : Work} {a : Arc} (ha : IsArc w.lp a) (hn : a.Neat w.lp) (he : ∀ k ∈ a.nodes, w.lp k = W.lp k) (hs : Same W w) (hW : IsArc W.lp a) :
    Tracked W (w.followed a) a := by
  intro k hk hka
  have hka' : (w.lp k).anchor = true := by rw [he k (List.mem_cons_of_mem _ hk)]; exact hka
  obtain ⟨g1, g2⟩ := hn.after ha hk hka'
  obtain ⟨l1, l2, e⟩ := List.append_of_mem hk
  obtain ⟨l0, i, e1, e2, e3, e4⟩ := ha.prev e
  have hi : i ∈ a.nodes := by rw [e2]; simp
  have hew : ∀ j ∈ a.nodes, W.lp j = w.lp j := fun j hj => (he j hj).symm
  have hkW := hew k (List.mem_cons_of_mem _ hk)
  have hdat : ∀ j, (w.lp j).anchor = false → ((w.followed a).lp j).data = (w.lp j).data := by
    intro j hj
    rw [followed_lp]
    by_cases c : j ∈ a.mid
    · exact (updAll_facts ha _ c).2.2.1 hj
    · rw [updAll_other _ _ _ _ _ c]
  have hanc : ∀ j, ((w.followed a).lp j).anchor = (w.lp j).anchor := fun j => by rw [followed_lp, updAll_anchor ha]
  have hWd : W.line k = w.line k := by
    unfold Work.line Work.endPoint
    rw [hkW]
    have h1 := hs.2 (w.lp k).next
    rw [h1.1] at g1
    rw [h1.2 g1]
  rw [hWd, hew a.head List.mem_cons_self]
  refine ⟨by rw [followed_lp]; exact (updAll_facts ha _ hk).1, fun kk => ?_, ?_⟩
  · unfold Work.line Work.endPoint
    have ek : (w.followed a).lp k = upd (w.lp a.head).ls w.lp i k := by rw [followed_lp, e4]
    by_cases r : (w.lp a.head).ls.rev = true
    · rw [if_pos r]
      have : upd (w.lp a.head).ls w.lp i k = { w.lp k with st := .res (w.lp a.head).ls, data := (w.lp (w.lp k).next).data, next := i } := by
        unfold upd
        dsimp only
        rw [if_neg (by rw [kk]; simp), if_pos r, if_pos hka']
      rw [ek, this]
      dsimp only
      have g := g2 i hi e3
      rw [hdat i g.1, ← g.2]; rfl
    · rw [if_neg r]
      have : upd (w.lp a.head).ls w.lp i k = { w.lp k with st := .res (w.lp a.head).ls } := by
        unfold upd
        dsimp only
        rw [if_neg (by rw [kk]; simp), if_neg r]
      rw [ek, this]
      dsimp only
      rw [hdat _ g1]
  · rw [hanc]
    have ek : (w.followed a).lp k = upd (w.lp a.head).ls w.lp i k := by rw [followed_lp, e4]
    rw [ek]
    unfold upd
    dsimp only
    split
    · exact g1
    · split
      · exact (g2 i hi e3).1
      · exact g1

theorem Tracked.old {w W : Work} {a c : Arc} (ha : IsArc w.lp a) (hd : ∀ k ∈ c.mid, k ∉ a.mid) (ht : Tracked W w c) : Tracked W (w.followed a) c := by
  intro k hk hka
  obtain ⟨t1, t2, t3⟩ := ht k hk hka
  have e : (w.followed a).lp k = w.lp k := by rw [followed_lp, updAll_other _ _ _ _ _ (hd k hk)]
  have hdat : ∀ j, (w.lp j).anchor = false → ((w.followed a).lp j).data = (w.lp j).data := by
    intro j hj
    rw [followed_lp]
    by_cases c : j ∈ a.mid
    · exact (updAll_facts ha _ c).2.2.1 hj
    · rw [updAll_other _ _ _ _ _ c]
  have hl : (w.followed a).line k = w.line k := by
    unfold Work.line Work.endPoint
    rw [e, hdat _ t3]
  refine ⟨by rw [e]; exact t1, fun kk => by rw [hl]; exact t2 kk, ?_⟩
  rw [e, followed_lp, updAll_anchor ha]; exact t3

/-- Following all arcs, with what becomes of the anchors. -/
theorem Neat1.followAll {W : Work} : ∀ {R : List Arc} {D : List Arc} {w : Work} {P : List Piece} {V : List VPiece}, Inv1 w R P V → Neat1 w R P V →
    (∀ a ∈ R, IsArc W.lp a ∧ ∀ k ∈ a.nodes, w.lp k = W.lp k) → Same W w → (∀ c ∈ D, Tracked W w c) → (∀ c ∈ D, ∀ a ∈ R, ∀ k ∈ c.mid, k ∉ a.mid) →
    ∃ w' P' V', w.followAll (R.map Arc.head) = some w' ∧ Inv1 w' [] P' V' ∧ (corners w' [] P' V').Perm (corners w R P V) ∧
      (revHeads w' []).Perm (revHeads w R) ∧ (revStops w' [] V').Perm (revStops w R V) ∧ Same W w' ∧ Neat1 w' [] P' V' ∧ ∀ c ∈ D ++ R, Tracked W w' c
  | [], D, w, P, V, h, hn, _, hs, ht, _ => ⟨w, P, V, rfl, h, List.Perm.refl _, List.Perm.refl _, List.Perm.refl _, hs, hn, by simpa using ht⟩
  | a :: R, D, w, P, V, h, hn, he, hs, ht, hd => by
    have ha := h.arcs a List.mem_cons_self
    have hea := he a List.mem_cons_self
    obtain ⟨h1, h2⟩ := h.follow
    obtain ⟨c1, c2, c3⟩ := h.follow_corners
    have hdj : ∀ b ∈ R, ∀ k ∈ a.mid, k ∉ b.mid := by
      intro b hb k hk hkb
      have hnd : ((a.nodes ++ R.flatMap Arc.nodes) ++ (P.flatMap Piece.nodes ++ (V.flatMap VPiece.rest ++ w.orphans))).Nodup := h.nodup
      rw [List.append_assoc, List.nodup_append] at hnd
      exact hnd.2.2 k (List.mem_cons_of_mem _ hk) k (List.mem_append_left _ (List.mem_flatMap.mpr ⟨b, hb, List.mem_cons_of_mem _ hkb⟩)) rfl
    obtain ⟨w', P', V', e1, e2, e3, e4, e5, e6, e7, e8⟩ := Neat1.followAll (W := W) (D := D ++ [a]) h2 (hn.follow h)
      (fun b hb => ⟨(he b (List.mem_cons_of_mem _ hb)).1, fun k hk => by
        rw [h.apart (List.mem_append_left _ (List.mem_flatMap.mpr ⟨b, hb, hk⟩))]
        exact (he b (List.mem_cons_of_mem _ hb)).2 k hk⟩)
      (hs.trans ha.same)
      (by
        intro c hc
        rcases List.mem_append.mp hc with hc | hc
        · exact (ht c hc).old ha (hd c hc a List.mem_cons_self)
        · rw [List.mem_singleton] at hc
          subst hc
          exact Tracked.new ha (hn.arcs c List.mem_cons_self) hea.2 hs hea.1)
      (by
        intro c hc b hb
        rcases List.mem_append.mp hc with hc | hc
        · exact hd c hc b (List.mem_cons_of_mem _ hb)
        · rw [List.mem_singleton] at hc
          subst hc
          exact hdj b hb)
    refine ⟨w', P', V', ?_, e2, e3.trans c1, e4.trans c2, e5.trans c3, e6, e7, ?_⟩
    · rw [List.map_cons]
      unfold Work.followAll
      rw [h1, Option.bind_some, e1]
    · intro c hc
      exact e8 c (by simpa using hc)

end PolyOps.Loops
