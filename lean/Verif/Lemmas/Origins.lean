import Verif.Lemmas.LoopsNeat
import Verif.Lemmas.LoopsLines

/-! The calls of `point_merge` while the loops are put together. -/
namespace PolyOps.Loops
open PolyOps PolyOps.Sweep

/-- The merges made while an arc is followed. -/
def Arc.merges (lp : Nat → OP) (a : Arc) : List (Nat × Nat) :=
  if (lp a.head).ls.keep then [] else (a.head :: a.mid).zip a.mid ++ if (lp a.head).ls.rev then [] else [(a.last, a.stop)]

theorem followed_merges (w : Work) (a : Arc) : (w.followed a).merges = w.merges ++ a.merges w.lp := by
  unfold Work.followed Arc.merges
  dsimp only
  cases (w.lp a.head).ls.keep <;> cases (w.lp a.head).ls.rev <;> simp

theorem followed_orph (w : Work) (a : Arc) : (w.followed a).orphans = w.orphans ++ if (w.lp a.head).ls.rev then [a.head] else [] := by
  unfold Work.followed
  dsimp only
  cases (w.lp a.head).ls.keep <;> cases (w.lp a.head).ls.rev <;> simp

/-- Following all arcs: the merges, the states and the orphans. -/
theorem Inv1.merges {W : Nat → OP} : ∀ {R : List Arc} {w w' : Work} {P : List Piece} {V : List VPiece}, Inv1 w R P V →
    (∀ a ∈ R, w.lp a.head = W a.head) → w.followAll (R.map Arc.head) = some w' →
    w'.merges = w.merges ++ R.flatMap (Arc.merges W) ∧ (∀ a ∈ R, ∀ k ∈ a.nodes, (w'.lp k).st = .res (W a.head).ls) ∧
      (∀ k, k ∉ R.flatMap Arc.nodes → w'.lp k = w.lp k) ∧ w'.orphans = w.orphans ++ (R.filter fun a => (W a.head).ls.rev).map Arc.head
  | [], w, w', P, V, h, _, e => by
    cases e
    simp
  | a :: R, w, w', P, V, h, hW, e => by
    have ha := h.arcs a List.mem_cons_self
    obtain ⟨h1, h2⟩ := h.follow
    rw [List.map_cons] at e
    unfold Work.followAll at e
    rw [h1, Option.bind_some] at e
    have hh : ∀ b ∈ R, (w.followed a).lp b.head = W b.head := by
      intro b hb
      rw [h.apart (List.mem_append_left _ (List.mem_flatMap.mpr ⟨b, hb, List.mem_cons_self⟩))]
      exact hW b (List.mem_cons_of_mem _ hb)
    obtain ⟨q1, q2, q3, q4⟩ := Inv1.merges h2 hh e
    have ea : w.lp a.head = W a.head := hW a List.mem_cons_self
    have em : a.merges w.lp = a.merges W := by unfold Arc.merges; rw [ea]
    have hnd : ((a.nodes ++ R.flatMap Arc.nodes) ++ (P.flatMap Piece.nodes ++ (V.flatMap VPiece.rest ++ w.orphans))).Nodup := h.nodup
    refine ⟨?_, ?_, ?_, ?_⟩
    · rw [q1, followed_merges, em, List.flatMap_cons, List.append_assoc]
    · intro b hb k hk
      rcases List.mem_cons.mp hb with rfl | hb
      · have hk' : k ∉ R.flatMap Arc.nodes := by
          intro c
          rw [List.append_assoc, List.nodup_append] at hnd
          exact hnd.2.2 k hk k (List.mem_append_left _ c) rfl
        rw [q3 k hk', followed_lp]
        rcases List.mem_cons.mp hk with c | c
        · rw [updAll_other _ _ _ _ _ (by rw [c]; exact (List.nodup_cons.mp ha.nodup).1), c, ha.head_st, ea]
        · rw [(updAll_facts ha _ c).1, ea]
      · exact q2 b hb k hk
    · intro k hk
      rw [List.flatMap_cons, List.mem_append, not_or] at hk
      rw [q3 k hk.2, followed_lp]
      exact updAll_other _ _ _ _ _ fun c => hk.1 (List.mem_cons_of_mem _ c)
    · rw [q4, followed_orph, ea, List.filter_cons]
      by_cases c : (W a.head).ls.rev = true
      · simp [c]
      · simp [c]

theorem adoptAll_merges : ∀ (os : List Nat) {w w' : Work}, w.adoptAll os = some w' →
    w'.merges = w.merges ∧ ∀ k, k ∉ os → w'.lp k = w.lp k
  | [], w, w', e => by cases e; simp
  | o :: os, w, w', e => by
    unfold Work.adoptAll at e
    obtain ⟨w1, e1, e2⟩ := Option.bind_eq_some_iff.mp e
    obtain ⟨q1, q2⟩ := adoptAll_merges os e2
    unfold Work.adopt at e1
    dsimp only at e1
    split at e1
    · cases e1
    · split at e1
      · cases e1
      · cases e1
        refine ⟨q1, fun k hk => ?_⟩
        rw [List.mem_cons, not_or] at hk
        rw [q2 k hk.2]
        exact setFn_ne _ _ hk.1

theorem joinAll_merges : ∀ (es : List Nat) {w w' : Work}, w.joinAll es = some w' →
    w'.merges = w.merges ∧ ∀ k, (w'.lp k).st = (w.lp k).st
  | [], w, w', e => by cases e; simp
  | o :: os, w, w', e => by
    unfold Work.joinAll at e
    obtain ⟨w1, e1, e2⟩ := Option.bind_eq_some_iff.mp e
    obtain ⟨q1, q2⟩ := joinAll_merges os e2
    unfold Work.join at e1
    dsimp only at e1
    split at e1
    · cases e1
    · cases e1
      refine ⟨q1, fun k => ?_⟩
      rw [q2 k]
      dsimp only
      by_cases c : k = o
      · rw [c, setFn_same]
      · rw [setFn_ne _ _ c]

section
variable {lp : Nat → OP} {np : Nat} {cls : Nat → LState}

/-- The merges of an arc are those from its points to the next, without the last one if the arc is reversed. -/
theorem Arc.merges_mem (h : Input lp np cls) {a : Arc} (ha : IsArc lp a) (hh : a.head < np) {m : Nat × Nat} (hm : m ∈ a.merges lp) :
    m.1 ∈ a.nodes ∧ m.2 = (lp m.1).next ∧ (lp a.head).ls.keep = false ∧ ((lp a.head).ls.rev = true → m.2 ∈ a.mid) := by
  have key : ∀ (l : List Nat) (x : Nat), Sq (fun i => (lp i).next) (lp x).next l a.stop → ∀ m ∈ (x :: l).zip l, m.2 = (lp m.1).next := by
    intro l
    induction l with
    | nil => intro x _ m hm; simp at hm
    | cons y l ih =>
      intro x hs m hm
      rw [List.zip_cons_cons, List.mem_cons] at hm
      rcases hm with rfl | hm
      · exact hs.1.symm
      · exact ih y hs.2 m hm
  unfold Arc.merges at hm
  cases hk : (lp a.head).ls.keep with
  | true => rw [hk] at hm; simp at hm
  | false =>
    rw [hk] at hm
    simp only [Bool.false_eq_true, if_false, List.mem_append] at hm
    rcases hm with hm | hm
    · have hz := List.of_mem_zip (a := m.1) (b := m.2) hm
      exact ⟨hz.1, key _ _ ha.sq m hm, rfl, fun _ => hz.2⟩
    · cases hr : (lp a.head).ls.rev with
      | true => rw [hr] at hm; simp at hm
      | false =>
        rw [hr] at hm
        simp only [Bool.false_eq_true, if_false, List.mem_singleton] at hm
        subst hm
        refine ⟨List.getLast_mem _, ?_, rfl, fun c => by cases c⟩
        have hq := ha.sq
        unfold Arc.last
        dsimp only
        rcases List.eq_nil_or_concat a.mid with e | ⟨l, y, e⟩
        · rw [e] at hq
          simp only [e, List.getLast_singleton]
          exact hq.symm
        · rw [List.concat_eq_append] at e
          rw [e] at hq
          simp only [e]
          rw [List.getLast_cons (by simp), List.getLast_append_singleton]
          exact (Sq.last hq).symm

theorem Arc.merges_fst {a : Arc} : (a.merges lp).map Prod.fst <+: a.nodes := by
  unfold Arc.merges
  cases (lp a.head).ls.keep with
  | true => simp
  | false =>
    simp only [Bool.false_eq_true, if_false, List.map_append]
    have e : ∀ (l : List Nat) (x : Nat), ((x :: l).zip l).map Prod.fst ++ [(x :: l).getLast (by simp)] = x :: l := by
      intro l
      induction l with
      | nil => intro x; simp
      | cons y l ih =>
        intro x
        rw [List.zip_cons_cons, List.map_cons, List.cons_append, List.getLast_cons (by simp), ih y]
    cases (lp a.head).ls.rev with
    | true =>
      simp only [if_true, List.map_nil, List.append_nil]
      exact ⟨[_], e a.mid a.head⟩
    | false =>
      simp only [Bool.false_eq_true, if_false, List.map_cons, List.map_nil]
      exact ⟨[], by rw [List.append_nil]; exact e a.mid a.head⟩

/-- The merges of a whole run: each from a point whose line is not used to the next point; no two from the same point. Points that
are not the first of a reversed arc keep their state. -/
theorem Input.merges (h : Input lp np cls) {samples : List Nat}
    (hs : samples.Perm ((List.range np).filter (fun i => decide ((lp i).st ≠ .undef))))
    {w : Work} {f : Found} (e : doOp lp np samples = some (w, f)) :
    ∃ A : List Arc, (∀ a ∈ A, IsArc lp a ∧ a.head < np) ∧ (A.flatMap Arc.nodes).Perm (List.range np) ∧ A.map Arc.head = samples ∧
      w.merges = A.flatMap (Arc.merges lp) ∧
      (∀ a ∈ A, ∀ k ∈ a.nodes, ((lp a.head).ls.rev = false ∨ k ≠ a.head) → (w.lp k).st = .res (cls k)) := by
  obtain ⟨A, eA, hA⟩ := h.arcs samples (fun s hsm => by
    have := List.mem_filter.mp (hs.subset hsm)
    exact ⟨List.mem_range.mp this.1, by simpa using this.2⟩)
  subst eA
  have hp := h.perm hA hs
  have hlt : ∀ a ∈ A, a.head < np := by
    intro a ha
    have := hs.subset (List.mem_map.mpr ⟨a, ha, rfl⟩)
    exact List.mem_range.mp (List.mem_filter.mp this).1
  have st : Start (Work.init lp np) A := by
    refine ⟨hA, hp.nodup_iff.mpr List.nodup_range, fun k hk => List.mem_range.mp (hp.subset hk),
      fun k hk _ => hp.symm.subset (List.mem_range.mpr hk), fun _ => rfl, rfl, fun _ => rfl, rfl⟩
  unfold doOp at e
  obtain ⟨w1, e1, e⟩ := Option.bind_eq_some_iff.mp e
  obtain ⟨w2, e2, e⟩ := Option.bind_eq_some_iff.mp e
  obtain ⟨f', -, e⟩ := Option.map_eq_some_iff.mp e
  cases e
  obtain ⟨m1, m2, m3, m4⟩ := st.inv1.merges (W := lp) (fun _ _ => rfl) e1
  unfold Work.reconnect at e2
  obtain ⟨w3, e3, e4⟩ := Option.bind_eq_some_iff.mp e2
  obtain ⟨a1, a2⟩ := adoptAll_merges _ e3
  obtain ⟨j1, j2⟩ := joinAll_merges _ e4
  refine ⟨A, fun a ha => ⟨hA a ha, hlt a ha⟩, hp, rfl, ?_, ?_⟩
  · rw [j1, a1, m1]; rfl
  · intro a ha k hk hc
    rw [j2, a2, m2 a ha k hk, h.arc_cls (hA a ha) (hlt a ha) k hk]
    rw [m4]
    intro c
    rw [show (Work.init lp np).orphans = [] from rfl, List.nil_append] at c
    obtain ⟨b, hb, hbk⟩ := List.mem_map.mp c
    obtain ⟨hb, hr⟩ := List.mem_filter.mp hb
    have hab : b.head = a.head := h.disjoint (hA b hb) (hA a ha) (hlt b hb) (hlt a ha) List.mem_cons_self (hbk ▸ hk)
    rw [hab] at hr hbk
    rcases hc with hc | hc
    · rw [hc] at hr; exact absurd hr (by simp)
    · exact hc hbk.symm

end
end PolyOps.Loops
