import Verif.Lemmas.LoopsTurn

/-! The loops as parts of the kept lines. -/
namespace PolyOps.Loops
open PolyOps PolyOps.Sweep PolyOps.Exec

theorem pairs_map {α β : Type} (g : α → β) : ∀ l : List α, pairs (l.map g) = (pairs l).map (fun e => (g e.1, g e.2))
  | [] => rfl
  | [a] => rfl
  | a :: b :: l => by
    have ih := pairs_map g (b :: l)
    change (g a, g b) :: pairs ((b :: l).map g) = _
    rw [ih]; rfl

theorem mem_pairs {α : Type} : ∀ {l : List α} {x y : α}, (x, y) ∈ pairs l ↔ ∃ s t, l = s ++ x :: y :: t
  | [], x, y => by simp [pairs]
  | [a], x, y => by
    simp only [pairs, List.tail_cons, List.zip_nil_right, List.not_mem_nil, false_iff]
    rintro ⟨s, t, h⟩
    have := congrArg List.length h
    simp at this
    omega
  | a :: b :: l, x, y => by
    rw [pairs_cons, List.mem_cons, mem_pairs]
    constructor
    · rintro (h | ⟨s, t, h⟩)
      · obtain ⟨rfl, rfl⟩ := Prod.mk.inj h
        exact ⟨[], l, rfl⟩
      · exact ⟨a :: s, t, by rw [h]; rfl⟩
    · rintro ⟨s, t, h⟩
      cases s with
      | nil =>
        simp only [List.nil_append, List.cons.injEq] at h
        exact Or.inl (by rw [h.1, h.2.1])
      | cons c s =>
        simp only [List.cons_append, List.cons.injEq] at h
        exact Or.inr ⟨s, t, h.2⟩

theorem chain_pairs {R : Nat → Nat → Prop} {l : List Nat} (h : l.IsChain R) {x y : Nat} (hm : (x, y) ∈ pairs l) : R x y := by
  obtain ⟨s, t, e⟩ := mem_pairs.mp hm
  exact isChain_iff_split.mp h s x y t e

theorem bal_cycle (φ : Pt → Int) (h : Nat → Pt) : ∀ n, ((List.range n).map fun m => φ (h m) - φ (h (m + 1))).sum = φ (h 0) - φ (h n)
  | 0 => by simp
  | n + 1 => by rw [List.range_succ, List.map_append, List.sum_append, bal_cycle φ h n]; simp

/-- The line from a point to the next one. -/
def lineOf (w : Work) (f : Found) (i : Nat) : Pt × Pt := ((w.lp i).data, (w.lp (f.next i)).data)

/-- The lines of a loop. -/
def loopLines (w : Work) (f : Found) (m : Nat) : List (Pt × Pt) := (f.ring (f.loops.getD m (0, 0))).map (lineOf w f)

section
variable {w : Work} {P : List Piece} {f : Found} (hj : Joined w P) (hx : Extracted w P f)

include hx in
theorem ring_bal {m : Nat} (hm : m < f.loops.length) : Bal (loopLines w f m) := by
  intro φ
  have hl := hx.ring (f.loops.getD m (0, 0)) (by rw [List.getD_eq_getElem _ _ hm]; exact List.getElem_mem hm)
  unfold loopLines Found.ring lineOf
  generalize f.loops.getD m (0, 0) = l at *
  rw [List.map_map, List.map_map]
  have := bal_cycle φ (fun m => (w.lp (f.next^[m] l.1)).data) l.2
  simp only [Function.iterate_succ_apply', hl.2] at this
  simpa [Function.comp_def] using this

theorem ring_next {l : Nat × Nat} (h : 0 < l.2 ∧ f.next^[l.2] l.1 = l.1) {k : Nat} (hk : k ∈ f.ring l) : f.next k ∈ f.ring l := by
  unfold Found.ring at *
  obtain ⟨m, hm, rfl⟩ := List.mem_map.mp hk
  have hm := List.mem_range.mp hm
  by_cases c : m + 1 = l.2
  · refine List.mem_map.mpr ⟨0, List.mem_range.mpr h.1, ?_⟩
    rw [← Function.iterate_succ_apply' f.next, show m.succ = l.2 from c, h.2]; rfl
  · exact List.mem_map.mpr ⟨m + 1, List.mem_range.mpr (by omega), Function.iterate_succ_apply' f.next m l.1⟩

include hj hx in
/-- A point that is not skipped, on its piece. -/
theorem on_piece {k : Nat} (hk : k ∈ f.loops.flatMap f.ring) : ∃ p ∈ P, k ∈ p.nodes.filter (fun i => !(w.lp i).anchor) := by
  have := List.mem_filter.mp (hx.part.subset hk)
  rw [Bool.and_eq_true] at this
  have hm := (hj.keep k (List.mem_range.mp this.1)).mp this.2.1
  obtain ⟨p, hp, hkp⟩ := List.mem_flatMap.mp hm
  exact ⟨p, hp, List.mem_filter.mpr ⟨hkp, this.2.2⟩⟩

include hj hx in
theorem piece_ring {p : Piece} (hp : p ∈ P) {k : Nat} (hk : k ∈ p.nodes.filter (fun i => !(w.lp i).anchor)) : k ∈ f.loops.flatMap f.ring := by
  have hk := List.mem_filter.mp hk
  have hm : k ∈ P.flatMap Piece.nodes := List.mem_flatMap.mpr ⟨p, hp, hk.1⟩
  have hl := hj.lt k hm
  exact hx.part.symm.subset (List.mem_filter.mpr ⟨List.mem_range.mpr hl, by rw [Bool.and_eq_true]; exact ⟨(hj.keep k hl).mpr hm, hk.2⟩⟩)

include hj hx in
/-- The lines of a piece are lines of the loops. -/
theorem piece_lines {p : Piece} (hp : p ∈ P) : ∃ t, p.nodes.filter (fun i => !(w.lp i).anchor) = p.first :: t ∧ Sq f.next (f.next p.first) t (w.lp p.last).next ∧
    (p.first :: t).map (lineOf w f) = pairs (p.corners w.lp) := by
  obtain ⟨t, h1, h2⟩ := hx.walk p hp
  obtain ⟨q, hq, l1, l2⟩ := hj.link p hp
  refine ⟨t, h1, h2, ?_⟩
  have := pairs_of_sq (fun i => (w.lp i).data) h2
  unfold lineOf
  rw [this, l1, l2]
  unfold Piece.corners crd
  rw [h1]

variable {C : List (List Pt)} (hA : Exec.Arr (C.flatMap pairs)) (hB : Bal (C.flatMap pairs)) (hU : Exec.Unit (C.flatMap pairs))
  (hT : ∀ u v u', Tri C u v u' → Tip (C.flatMap pairs) u v u') (hC : (P.map (Piece.corners w.lp)).Perm C)
  (hbest : ∀ p ∈ P, ∃ q ∈ P, (w.lp p.last).next = q.first ∧ Best w.lp P p q)

include hx hC in
theorem lines_perm : ((f.loops.flatMap f.ring).map (lineOf w f)).Perm (C.flatMap pairs) := hx.edges.trans (pieces_perm hC)

include hx hC in
theorem line_mem {k : Nat} (hk : k ∈ f.loops.flatMap f.ring) : lineOf w f k ∈ C.flatMap pairs :=
  (lines_perm hx hC).subset (List.mem_map.mpr ⟨k, hk, rfl⟩)

include hx hA hC in
theorem line_inj {k j : Nat} (hk : k ∈ f.loops.flatMap f.ring) (hjk : j ∈ f.loops.flatMap f.ring) (h : lineOf w f k = lineOf w f j) : k = j :=
  List.inj_on_of_nodup_map ((lines_perm hx hC).nodup_iff.mpr hA.nodup) hk hjk h

theorem ring_mem {m : Nat} (hm : m < f.loops.length) {k : Nat} (hk : k ∈ f.ring (f.loops.getD m (0, 0))) : k ∈ f.loops.flatMap f.ring := by
  rw [List.getD_eq_getElem _ _ hm] at hk
  exact List.mem_flatMap.mpr ⟨_, List.getElem_mem hm, hk⟩

include hx in
theorem loop_ring {m : Nat} (hm : m < f.loops.length) : 0 < (f.loops.getD m (0, 0)).2 ∧ f.next^[(f.loops.getD m (0, 0)).2] (f.loops.getD m (0, 0)).1 = (f.loops.getD m (0, 0)).1 :=
  hx.ring _ (by rw [List.getD_eq_getElem _ _ hm]; exact List.getElem_mem hm)

include hx in
theorem ring_nodup : (f.loops.flatMap f.ring).Nodup := hx.part.nodup_iff.mpr (List.nodup_range.filter _)

include hx in
theorem ring_disj {a b : Nat} (ha : a < f.loops.length) (hb : b < f.loops.length) {k : Nat} (h1 : k ∈ f.ring (f.loops.getD a (0, 0)))
    (h2 : k ∈ f.ring (f.loops.getD b (0, 0))) : a = b := by
  rw [List.getD_eq_getElem _ _ ha] at h1
  rw [List.getD_eq_getElem _ _ hb] at h2
  have hp := List.pairwise_iff_getElem.mp (List.nodup_flatMap.mp (ring_nodup hx)).2
  rcases lt_trichotomy a b with c | c | c
  · exact (hp a b ha hb c h1 h2).elim
  · exact c
  · exact (hp b a hb ha c h2 h1).elim

include hx in
/-- A point and the next one are on the same loop. -/
theorem ring_iff {a : Nat} (ha : a < f.loops.length) {k : Nat} (hk : k ∈ f.loops.flatMap f.ring) :
    k ∈ f.ring (f.loops.getD a (0, 0)) ↔ f.next k ∈ f.ring (f.loops.getD a (0, 0)) := by
  refine ⟨ring_next (loop_ring hx ha), fun h => ?_⟩
  obtain ⟨l, hl, hkl⟩ := List.mem_flatMap.mp hk
  obtain ⟨b, hb, rfl⟩ := List.getElem_of_mem hl
  have hkl' : k ∈ f.ring (f.loops.getD b (0, 0)) := by rw [List.getD_eq_getElem _ _ hb]; exact hkl
  have := ring_disj hx ha hb h (ring_next (loop_ring hx hb) hkl')
  rw [this]; exact hkl'

include hx hA hC in
theorem loop_mem {a : Nat} (ha : a < f.loops.length) {k : Nat} (hk : k ∈ f.loops.flatMap f.ring) :
    lineOf w f k ∈ loopLines w f a ↔ k ∈ f.ring (f.loops.getD a (0, 0)) := by
  constructor
  · intro h
    obtain ⟨j, hj', e⟩ := List.mem_map.mp h
    rw [← line_inj hx hA hC (ring_mem ha hj') hk e]; exact hj'
  · exact fun h => List.mem_map.mpr ⟨k, h, rfl⟩

include hj hx hA hC in
theorem tri_same {a : Nat} (ha : a < f.loops.length) {u v u' : Pt} (h : Tri C u v u') : (u, v) ∈ loopLines w f a ↔ (v, u') ∈ loopLines w f a := by
  obtain ⟨p, hp, hm⟩ := (tri_piece hC).mp h
  obtain ⟨t, h1, h2, h3⟩ := piece_lines hj hx hp
  rw [← h3, pairs_map] at hm
  obtain ⟨⟨i, j⟩, hij, e⟩ := List.mem_map.mp hm
  obtain ⟨e1, e2⟩ := Prod.mk.inj e
  dsimp only at e1 e2
  rw [← e1, ← e2]
  have hn : f.next i = j := chain_pairs (Sq.chain h2).1 hij
  have hi : i ∈ f.loops.flatMap f.ring := piece_ring hj hx hp (by rw [h1]; exact List.mem_of_mem_dropLast (pairs_left hij))
  have hj' : j ∈ f.loops.flatMap f.ring := piece_ring hj hx hp (by rw [h1]; exact List.mem_of_mem_tail (pairs_right hij))
  rw [loop_mem hx hA hC ha hi, loop_mem hx hA hC ha hj', ← hn]
  exact ring_iff hx ha hi

include hx hA hC in
theorem loop_basic {a : Nat} (ha : a < f.loops.length) : (∀ e ∈ loopLines w f a, e ∈ C.flatMap pairs) ∧ (loopLines w f a).Nodup := by
  refine ⟨fun e he => ?_, ?_⟩
  · obtain ⟨k, hk, rfl⟩ := List.mem_map.mp he
    exact line_mem hx hC (ring_mem ha hk)
  · have hn := (lines_perm hx hC).nodup_iff.mpr hA.nodup
    rw [List.map_flatMap, List.nodup_flatMap] at hn
    exact hn.1 _ (by rw [List.getD_eq_getElem _ _ ha]; exact List.getElem_mem ha)

include hj hx hA hB hU hT hC hbest in
/-- The same side at a line and at the next one. -/
theorem next_side {a : Nat} (ha : a < f.loops.length) {k : Nat} (hk : k ∈ f.loops.flatMap f.ring) {s t : Int}
    (hs : Beside (loopLines w f a) (lineOf w f k) (nrm (lineOf w f k)) s)
    (ht : Beside (loopLines w f a) (lineOf w f (f.next k)) (nrm (lineOf w f (f.next k))) t) : s = t := by
  obtain ⟨hE, hN⟩ := loop_basic hx hA hC ha
  have hBE := ring_bal hx ha
  obtain ⟨p, hp, hkp⟩ := on_piece hj hx hk
  obtain ⟨t1, h1, h2, h3⟩ := piece_lines hj hx hp
  rw [h1] at hkp
  obtain ⟨l1, l2, e⟩ := List.append_of_mem hkp
  have hc := Sq.chain h2
  cases l2 with
  | cons j l2 =>
    have hm : (k, j) ∈ pairs (p.first :: t1) := mem_pairs.mpr ⟨l1, l2, e⟩
    have hn : f.next k = j := chain_pairs hc.1 hm
    have hm2 : (lineOf w f k, lineOf w f j) ∈ pairs (pairs (p.corners w.lp)) := by
      rw [← h3, pairs_map]; exact List.mem_map.mpr ⟨_, hm, rfl⟩
    rw [← hn] at hm2
    have htri : Tri C (lineOf w f k).1 (lineOf w f k).2 (lineOf w f (f.next k)).2 := (tri_piece hC).mpr ⟨p, hp, hm2⟩
    exact tip_side hA hE hBE hN (hT _ _ _ htri) (tri_same hj hx hA hC ha htri) hs ht
  | nil =>
    obtain ⟨q, hq, hl, hb⟩ := hbest p hp
    have hn : f.next k = q.first := by
      have : (p.first :: t1).getLast (by simp) = k := by simp only [e]; simp
      rw [← hl, ← hc.2, this]
    have ek : lineOf w f k = (p.back w.lp, p.target) := by
      obtain ⟨m, em⟩ := Piece.pairs_last (hj.first p hp)
      rw [← h3, e, List.map_append] at em
      have := List.append_inj_right' em rfl
      simpa using this
    obtain ⟨t2, _, _, g3⟩ := piece_lines hj hx hq
    have eq : lineOf w f q.first = (q.start w.lp, q.far w.lp) := by
      obtain ⟨m, em⟩ := Piece.pairs_head (hj.first q hq)
      rw [← g3] at em
      exact (List.cons.inj em).1
    have es : q.start w.lp = p.target := by
      have : (lineOf w f k).2 = (lineOf w f (f.next k)).1 := rfl
      rw [hn, eq, ek] at this
      exact this.symm
    rw [hn, eq, es] at ht
    rw [ek] at hs
    have hmk : (p.back w.lp, p.target) ∈ C.flatMap pairs := piece_mem hC hp (last_mem hj.first hp)
    have hmq : (p.target, q.far w.lp) ∈ C.flatMap pairs := by rw [← es]; exact piece_mem hC hq (head_mem hj.first hq)
    refine run_side hA hE hBE hN hB hU (Tri C) hT (fun _ _ _ _ => tri_unique hA hC) (fun _ _ _ => tri_same hj hx hA hC ha) hmq ht _ _ (Nat.lt_succ_self _) hmk ?_
      (fun d _ => no_tri_last hA hC hj.first hp d) s hs
    intro d hd hbt
    rcases tri_or_first hC hj.first hd with h | ⟨q', hq', g1, rfl⟩
    · exact h
    · exact absurd hbt (hb q' hq' g1)

include hj hx hA hB hU hT hC hbest in
theorem loop_parts : Parts (C.flatMap pairs) f.loops.length (loopLines w f) := by
  refine ⟨hA, fun a ha => (loop_basic hx hA hC ha).1, fun a ha => ring_bal hx ha, fun a ha => (loop_basic hx hA hC ha).2, ?_, ?_, ?_⟩
  · intro a ha h
    have := (loop_ring hx ha).1
    unfold loopLines Found.ring at h
    rw [List.map_eq_nil_iff, List.map_eq_nil_iff, List.range_eq_nil] at h
    omega
  · intro a ha b hb hab e he he'
    obtain ⟨k, hk, rfl⟩ := List.mem_map.mp he
    exact hab (ring_disj hx ha hb hk ((loop_mem hx hA hC hb (ring_mem ha hk)).mp he'))
  · intro a ha b hb
    have hE := (loop_basic hx hA hC ha).1
    have hBE := ring_bal hx ha
    have ex : ∀ k ∈ f.loops.flatMap f.ring, ∃ s, Beside (loopLines w f a) (lineOf w f k) (nrm (lineOf w f k)) s := by
      intro k hk
      have hm := line_mem hx hC hk
      exact beside_exists hA hE hBE hm (nrm_pos (hA.ne _ hm)).ne'
    have hr := loop_ring hx hb
    have hin : ∀ m, f.next^[m] (f.loops.getD b (0, 0)).1 ∈ f.ring (f.loops.getD b (0, 0)) := by
      intro m
      induction m with
      | zero => exact List.mem_map.mpr ⟨0, List.mem_range.mpr hr.1, rfl⟩
      | succ m ih => rw [Function.iterate_succ_apply']; exact ring_next hr ih
    obtain ⟨s, hs⟩ := ex _ (ring_mem hb (hin 0))
    refine ⟨s, fun e he => ?_⟩
    obtain ⟨k, hk, rfl⟩ := List.mem_map.mp he
    obtain ⟨m, _, rfl⟩ := List.mem_map.mp hk
    clear he hk
    induction m with
    | zero => exact hs
    | succ m ih =>
      rw [Function.iterate_succ_apply']
      obtain ⟨t, ht⟩ := ex _ (ring_mem hb (ring_next hr (hin m)))
      rw [next_side hj hx hA hB hU hT hC hbest ha (ring_mem hb (hin m)) (ih ?_) ht]
      · exact ht
      · rename_i hm; exact List.mem_range.mpr (by have := List.mem_range.mp hm; omega)

end
end PolyOps.Loops

namespace PolyOps.Exec
open PolyOps PolyOps.Sweep

theorem Arr.perm {K L : List (Pt × Pt)} (h : Arr K) (p : L.Perm K) : Arr L :=
  ⟨p.nodup_iff.mpr h.nodup, fun e he => h.ne e (p.subset he), fun e he hr => h.one e (p.subset he) (p.subset hr),
    fun e he f hf => h.meet e (p.subset he) f (p.subset hf)⟩

theorem Bal.perm {K L : List (Pt × Pt)} (h : Bal K) (p : L.Perm K) : Bal L := fun φ => by
  rw [(p.map _).sum_eq]; exact h φ

theorem Tip.perm {K L : List (Pt × Pt)} {u v u' : Pt} (h : Tip K u v u') (p : L.Perm K) : Tip L u v u' := by
  have hs : ∀ r, Seg L v r → Seg K v r := fun r hr => hr.mono (fun e he => p.subset he)
  exact ⟨p.symm.subset h.inn, p.symm.subset h.out, h.free.imp (fun k r hr => k r (hs r hr)) (fun k r hr => k r (hs r hr))⟩

theorem Parts.perm {K K' : List (Pt × Pt)} {n : Nat} {L : Nat → List (Pt × Pt)} (h : Parts K n L) (p : K'.Perm K) : Parts K' n L :=
  { h with arr := h.arr.perm p, sub := fun a ha e he => p.symm.subset (h.sub a ha e he) }

end PolyOps.Exec

namespace PolyOps.Loops
open PolyOps PolyOps.Sweep PolyOps.Exec

/-- The conditions on the lines to be kept under which the loops found do not cross each other. -/
structure Fit (C : List (List Pt)) : Prop where
  arr : Exec.Arr (C.flatMap pairs)
  bal : Bal (C.flatMap pairs)
  unit : Exec.Unit (C.flatMap pairs)
  tip : ∀ u v u', Tri C u v u' → Tip (C.flatMap pairs) u v u'

theorem Tri.congr {C D : List (List Pt)} (p : C.Perm D) {u v u' : Pt} (h : Tri C u v u') : Tri D u v u' := by
  obtain ⟨c, hc, h⟩ := h
  exact ⟨c, p.subset hc, h⟩

theorem Start.parts {w : Work} {A : List Arc} (h : Start w A) (hb1 : RevBal w A) (hb2 : KeepBal w A) (hna : ∀ k, (w.lp k).anchor = false)
    (hfit : Fit (A.flatMap (Arc.lines w.lp))) :
    ∃ w1 w' f, w.followAll (A.map Arc.head) = some w1 ∧ w1.reconnect = some w' ∧ w'.findLoops = some f ∧
      Parts ((A.flatMap (Arc.lines w.lp)).flatMap pairs) f.loops.length (loopLines w' f) := by
  obtain ⟨w1, P1, V1, e1, i1, c1, rh, rs, s1⟩ := h.inv1.followAll
  have b1 : (revHeads w1 []).Perm (revStops w1 [] V1) := by
    refine (rh.trans ?_).trans rs.symm
    simpa [revHeads, revStops, h.orphans, RevBal] using hb1
  obtain ⟨w2, P2, e2, i2, c2, s2⟩ := (i1.inv2 b1).adoptAll
  have hc : (corners2 w2 P2 []).Perm (A.flatMap (Arc.lines w.lp)) := by
    refine c2.trans ?_
    have : corners2 w1 P1 V1 = corners w1 [] P1 V1 := rfl
    rw [this]
    refine c1.trans ?_
    simp [corners]
  have i3 := i2.inv3 (((hc.map _).trans hb2).trans (hc.map _).symm)
  have hna2 : ∀ k, (w2.lp k).anchor = false := fun k => ((s1.trans s2).2 k).1.trans (hna k)
  have hC2 : (P2.map (Piece.corners w2.lp)).Perm (A.flatMap (Arc.lines w.lp)) := by
    have : P2.map (Piece.corners w2.lp) = corners2 w2 P2 [] := by
      unfold corners2
      rw [List.filter_nil, List.map_nil, List.append_nil]
    rw [this]; exact hc
  have hnaP : ∀ p ∈ P2, p.last ∈ w2.ends := by
    intro p hp
    have : w2.ends.Perm (P2.map Piece.last) := by simpa [endsOf] using i2.ends
    exact this.symm.subset (List.mem_map.mpr ⟨p, hp, rfl⟩)
  have i4 : Inv4 w2 P2 w2.ends (P2.map Piece.first) := by
    refine { i3 with tidy := ?_, na := fun p hp => hna2 _, sharp := sharp_of hfit.arr hfit.bal hfit.unit hfit.tip hC2 (fun p _ => hna2 _), used := ?_, best := ?_ }
    · intro p hp
      unfold Tidy
      rw [isChain_iff_split]
      intro _ _ j _ _ hj
      rw [hna2 j] at hj; cases hj
    · intro q hq hn
      exact absurd (List.mem_map.mpr ⟨q, hq, rfl⟩) hn
    · intro p hp hn
      exact absurd (hnaP p hp) hn
  obtain ⟨w3, e3, i5, d3, a3, n3⟩ := i4.joinAll
  have hj := i5.toInv3.joined
  obtain ⟨f, ef, hf⟩ := hj.find
  have hC3 : (P2.map (Piece.corners w3.lp)).Perm (A.flatMap (Arc.lines w.lp)) := by
    have : P2.map (Piece.corners w3.lp) = P2.map (Piece.corners w2.lp) := by
      apply List.map_congr_left
      intro p _
      unfold Piece.corners
      rw [crd_congr (fun k _ => a3 k) (fun k _ _ => d3 k)]
    rw [this]; exact hC2
  refine ⟨w1, w3, f, e1, ?_, ef, loop_parts hj hf hfit.arr hfit.bal hfit.unit hfit.tip hC3 ?_⟩
  · unfold Work.reconnect; rw [e2, Option.bind_some, e3]
  · intro p hp
    obtain ⟨q, hq, l1, l2⟩ := hj.link p hp
    exact ⟨q, hq, l1, i5.best p hp (by simp) q hq l1⟩

/-- The three corners at the point after `i`, in the direction of use. -/
def corner3 (lp : Nat → OP) (cls : Nat → LState) (i : Nat) : Pt × Pt × Pt :=
  if (cls i).rev then ((lp (lp (lp i).next).next).data, (lp (lp i).next).data, (lp i).data)
  else ((lp i).data, (lp (lp i).next).data, (lp (lp (lp i).next).next).data)

theorem pairs3 {α : Type} : ∀ {l : List α} {x y z : α}, ((x, y), (y, z)) ∈ pairs (pairs l) ↔ ∃ s t, l = s ++ x :: y :: z :: t
  | [], _, _, _ => by simp [pairs]
  | [a], x, y, z => by
    have : pairs (pairs [a]) = [] := rfl
    simp only [this, List.not_mem_nil, false_iff]
    rintro ⟨s, t, h⟩
    have := congrArg List.length h
    simp at this
    omega
  | [a, b], x, y, z => by
    have : pairs (pairs [a, b]) = [] := rfl
    simp only [this, List.not_mem_nil, false_iff]
    rintro ⟨s, t, h⟩
    have := congrArg List.length h
    simp at this
    omega
  | a :: b :: c :: l, x, y, z => by
    have ih := pairs3 (l := b :: c :: l) (x := x) (y := y) (z := z)
    rw [pairs_cons, pairs_cons, pairs_cons, List.mem_cons, ← pairs_cons, ih]
    constructor
    · rintro (h | ⟨s, t, h⟩)
      · simp only [Prod.mk.injEq] at h
        obtain ⟨⟨rfl, rfl⟩, _, rfl⟩ := h
        exact ⟨[], l, rfl⟩
      · exact ⟨a :: s, t, by rw [h]; rfl⟩
    · rintro ⟨s, t, h⟩
      cases s with
      | nil =>
        simp only [List.nil_append, List.cons.injEq] at h
        exact Or.inl (by rw [h.1, h.2.1, h.2.2.1])
      | cons d s =>
        simp only [List.cons_append, List.cons.injEq] at h
        exact Or.inr ⟨s, t, h.2⟩

section
variable {lp : Nat → OP} {np : Nat} {cls : Nat → LState}

/-- Three corners in a row of an arc belong to a point that is not marked. -/
theorem Input.tri (h : Input lp np cls) {a : Arc} (ha : IsArc lp a) (hh : a.head < np) {u v u' : Pt} (ht : Tri (a.lines lp) u v u') :
    ∃ i < np, (lp (lp i).next).st = .undef ∧ (cls i).keep = true ∧ corner3 lp cls i = (u, v, u') := by
  obtain ⟨c, hc, hm⟩ := ht
  have hcl := h.arc_cls ha hh
  have hsq : (a.head :: a.mid ++ [a.stop]).IsChain (fun i j => (lp i).next = j) := by
    have := Sq.chain (nx := fun i => (lp i).next) ha.sq
    rw [List.isChain_append]
    refine ⟨this.1, by simp, ?_⟩
    intro x hx y hy
    rw [List.getLast?_eq_some_getLast (by simp)] at hx
    have hx := Option.some.inj (Option.mem_def.mp hx)
    have hy : a.stop = y := by simpa using hy
    rw [← hx, ← hy]; exact this.2
  have key : ∀ x y z : Pt, (∃ s t, a.nodes.map (fun i => (lp i).data) ++ [(lp a.stop).data] = s ++ x :: y :: z :: t) →
      ∃ i ∈ a.nodes, (lp (lp i).next).st = .undef ∧ (lp i).data = x ∧ (lp (lp i).next).data = y ∧ (lp (lp (lp i).next).next).data = z := by
    rintro x y z ⟨s, t, e⟩
    have e' : (a.head :: a.mid ++ [a.stop]).map (fun i => (lp i).data) = s ++ x :: y :: z :: t := by rw [← e]; simp [Arc.nodes]
    obtain ⟨s', r, e1, rfl, e2⟩ := List.map_eq_append_iff.mp e'
    obtain ⟨i, r1, rfl, rfl, e3⟩ := List.map_eq_cons_iff.mp e2
    obtain ⟨j, r2, rfl, rfl, e4⟩ := List.map_eq_cons_iff.mp e3
    obtain ⟨k, r, rfl, rfl, e5⟩ := List.map_eq_cons_iff.mp e4
    clear e2 e3 e4 e5
    have n1 := isChain_iff_split.mp hsq s' i j (k :: r) e1
    have n2 := isChain_iff_split.mp hsq (s' ++ [i]) j k r (by rw [e1]; simp)
    have hjm : j ∈ a.mid := by
      have e3 := congrArg (fun l => l.tail.dropLast) e1
      have e4 : (a.head :: a.mid ++ [a.stop]).tail.dropLast = a.mid := by simp
      simp only [e4] at e3
      rw [e3]
      cases s' with
      | nil => simp [List.dropLast]
      | cons b s' =>
        rw [List.cons_append, List.tail_cons, List.dropLast_append_of_ne_nil (by simp)]
        simp [List.dropLast]
    have him : i ∈ a.nodes := by
      have e3 := congrArg List.dropLast e1
      have e4 : (a.head :: a.mid ++ [a.stop]).dropLast = a.nodes := by rw [List.dropLast_concat]; rfl
      rw [e4] at e3
      rw [e3, List.dropLast_append_of_ne_nil (by simp)]
      simp [List.dropLast]
    exact ⟨i, him, by rw [n1]; exact ha.mid j hjm, rfl, by rw [n1], by rw [n1, n2]⟩
  unfold Arc.lines at hc
  split at hc
  · rename_i hk
    have hc := List.mem_singleton.mp hc
    rw [h.nodes_crd ha hh] at hc
    obtain ⟨s, t, e⟩ := pairs3.mp hm
    by_cases r : (lp a.head).ls.rev = true
    · rw [if_pos r] at hc
      rw [hc] at e
      have e' := congrArg List.reverse e
      rw [List.reverse_reverse] at e'
      obtain ⟨i, hi, h1, h2, h3, h4⟩ := key u' v u ⟨t.reverse, s.reverse, by rw [e']; simp⟩
      refine ⟨i, (h.nodes_lt ha hh).1 i hi, h1, by rw [hcl i hi]; exact hk, ?_⟩
      unfold corner3
      rw [if_pos (by rw [hcl i hi]; exact r), h2, h3, h4]
    · rw [if_neg r] at hc
      rw [hc] at e
      obtain ⟨i, hi, h1, h2, h3, h4⟩ := key u v u' ⟨s, t, e⟩
      refine ⟨i, (h.nodes_lt ha hh).1 i hi, h1, by rw [hcl i hi]; exact hk, ?_⟩
      unfold corner3
      rw [if_neg (by rw [hcl i hi]; exact r), h2, h3, h4]
  · simp at hc

/-- The loops for classified lines that do not coincide. -/
theorem Input.parts (h : Input lp np cls) {samples : List Nat}
    (hs : samples.Perm ((List.range np).filter (fun i => decide ((lp i).st ≠ .undef))))
    (hk : Balanced (keptLines lp np cls)) (hr : Balanced ((revLines np cls).map (fun i => ((lp i).data, (lp (lp i).next).data))))
    (hna : ∀ k, (lp k).anchor = false) (hA : Exec.Arr (keptLines lp np cls)) (hB : Bal (keptLines lp np cls))
    (hw : ∀ x y, Off (keptLines lp np cls) x y → wind (keptLines lp np cls) x y = 0 ∨ wind (keptLines lp np cls) x y = 1)
    (ht : ∀ i < np, (lp (lp i).next).st = .undef → (cls i).keep = true →
      Tip (keptLines lp np cls) (corner3 lp cls i).1 (corner3 lp cls i).2.1 (corner3 lp cls i).2.2) :
    ∃ w f, doOp lp np samples = some (w, f) ∧ Parts (keptLines lp np cls) f.loops.length (loopLines w f) := by
  obtain ⟨A, eA, hAr⟩ := h.arcs samples (fun s hsm => by
    have := List.mem_filter.mp (hs.subset hsm)
    exact ⟨List.mem_range.mp this.1, by simpa using this.2⟩)
  subst eA
  have hp := h.perm hAr hs
  have st : Start (Work.init lp np) A := by
    refine ⟨hAr, hp.nodup_iff.mpr List.nodup_range, fun k hk => List.mem_range.mp (hp.subset hk),
      fun k hk _ => hp.symm.subset (List.mem_range.mpr hk), fun _ => rfl, rfl, fun _ => rfl, rfl⟩
  have hpk := h.all_lines hAr hs
  have hlt : ∀ a ∈ A, a.head < np := by
    intro a ha
    have := hs.subset (List.mem_map.mpr ⟨a, ha, rfl⟩)
    exact List.mem_range.mp (List.mem_filter.mp this).1
  have hfit : Fit (A.flatMap (Arc.lines lp)) := by
    have hU := (unit_of hA hB hw)
    refine ⟨hA.perm hpk, hB.perm hpk, ?_, ?_⟩
    · refine unit_of (hA.perm hpk) (hB.perm hpk) fun x y hoff => ?_
      have : wind ((A.flatMap (Arc.lines lp)).flatMap pairs) x y = wind (keptLines lp np cls) x y := wind_perm hpk x y
      rw [this]
      exact hw x y (fun e he => hoff e (hpk.symm.subset he))
    · rintro u v u' ⟨c, hc, hm⟩
      obtain ⟨a, ha, hca⟩ := List.mem_flatMap.mp hc
      obtain ⟨i, hi, h1, h2, h3⟩ := h.tri (hAr a ha) (hlt a ha) ⟨c, hca, hm⟩
      have := ht i hi h1 h2
      rw [h3] at this
      exact this.perm hpk
  obtain ⟨w1, w, f, e1, e2, e3, hP⟩ := st.parts (h.revBal hAr hs hr) (h.keepBal hAr hs hk) hna hfit
  refine ⟨w, f, ?_, hP.perm hpk.symm⟩
  unfold doOp
  rw [e1, Option.bind_some, e2, Option.bind_some, e3, Option.map_some]

end
end PolyOps.Loops
