import Verif.Lemmas.LoopsAdopt
import Mathlib.Data.List.Pairwise
import Mathlib.Data.List.Chain

/-! The third phase: every end is joined to a start. -/
namespace PolyOps.Loops
open PolyOps PolyOps.Sweep

theorem pickFrom_lt (q p : Pt) (ends : List Pt) : ∀ (fuel b i : Nat) (left : Bool), b < ends.length →
    pickFrom q p ends b left i fuel < ends.length
  | 0, b, i, left, h => h
  | fuel + 1, b, i, left, h => by
    unfold pickFrom
    by_cases hi : i < ends.length
    · rw [dif_pos hi]
      dsimp only
      generalize (if left = true then _ else _ : Bool) = c
      cases c
      · exact pickFrom_lt q p ends fuel i (i + 1) _ hi
      · exact pickFrom_lt q p ends fuel b (i + 1) left h
    · rw [dif_neg hi]; exact h

theorem pick_lt (q p : Pt) {ends : List Pt} (h : ends ≠ []) : pick q p ends < ends.length := by
  have : 0 < ends.length := List.length_pos_iff.mpr h
  unfold pick
  split
  · exact pickFrom_lt _ _ _ _ _ _ _ this
  · exact this

theorem swapPop_perm {l : List Nat} {b : Nat} (h : b < l.length) : l.Perm (l[b] :: swapPop l b) := by
  obtain ⟨m, x, rfl⟩ : ∃ m x, l = m ++ [x] := by
    have hl : l ≠ [] := fun c => by rw [c] at h; simp at h
    exact ⟨l.dropLast, l.getLast hl, (List.dropLast_append_getLast hl).symm⟩
  unfold swapPop
  rw [List.getLast?_concat]
  dsimp only
  by_cases c : b < m.length
  · rw [List.set_append_left _ _ c, List.dropLast_concat, List.getElem_append_left c]
    have := List.set_perm_cons_eraseIdx (l := m) c x
    refine List.Perm.trans ?_ (List.Perm.cons _ this.symm)
    refine (List.perm_append_singleton x m).trans ?_
    refine List.Perm.trans (List.Perm.cons x (List.getElem_cons_eraseIdx_perm c).symm) (List.Perm.swap _ _ _)
  · have e : b = m.length := by simp at h; omega
    subst e
    simp

/-- Ends `es` to be joined, starts `S` unused. -/
structure Inv3 (w : Work) (P : List Piece) (es S : List Nat) : Prop where
  nodup : (P.flatMap Piece.nodes).Nodup
  lt : ∀ k ∈ P.flatMap Piece.nodes, k < w.np
  keep : ∀ k, k < w.np → ((w.lp k).keep = true ↔ k ∈ P.flatMap Piece.nodes)
  first : ∀ p ∈ P, (w.lp p.first).anchor = false
  chain : ∀ p ∈ P, p.nodes.IsChain (fun i j => (w.lp i).next = j)
  esub : ∀ e ∈ es, e ∈ P.map Piece.last
  ssub : ∀ s ∈ S, s ∈ P.map Piece.first
  enod : es.Nodup
  snod : S.Nodup
  starts : ∀ c, (w.starts c).Perm (S.filter (fun i => decide ((w.lp i).data = c)))
  open_ : ∀ p ∈ P, p.last ∈ es → (w.lp (w.lp p.last).next).data = p.target
  closed : ∀ p ∈ P, p.last ∉ es → ∃ q ∈ P, (w.lp p.last).next = q.first ∧ q.first ∉ S ∧ (w.lp q.first).data = p.target
  inj : ∀ p ∈ P, ∀ p' ∈ P, p.last ∉ es → p'.last ∉ es → (w.lp p.last).next = (w.lp p'.last).next → p.last = p'.last
  bal : (es.map w.endPoint).Perm (S.map (fun i => (w.lp i).data))

theorem Piece.last_mem (p : Piece) : p.last ∈ p.nodes := List.getLast_mem _

theorem Piece.first_inj {P : List Piece} (hn : (P.flatMap Piece.nodes).Nodup) {p q : Piece} (hp : p ∈ P) (hq : q ∈ P) {k : Nat}
    (h1 : k ∈ p.nodes) (h2 : k ∈ q.nodes) : p = q := by
  by_contra hne
  have hd := (List.nodup_flatMap.mp hn).2
  haveI : Std.Symm (Function.onFun List.Disjoint Piece.nodes) := ⟨fun x y h k hk hk2 => h hk2 hk⟩
  exact hd.forall hp hq hne h1 h2

/-- A point with a successor in its piece is no last point. -/
theorem not_last {P : List Piece} (hn : (P.flatMap Piece.nodes).Nodup) {p q : Piece} (hp : p ∈ P) (hq : q ∈ P)
    {l1 l2 : List Nat} {i j : Nat} (e : p.nodes = l1 ++ i :: j :: l2) : i ≠ q.last := by
  intro c
  have hp' : p.nodes.Nodup := (List.nodup_flatMap.mp hn).1 p hp
  have hi : i ∈ p.nodes := by rw [e]; simp
  have hiq : i ∈ q.nodes := c ▸ q.last_mem
  have epq : p = q := Piece.first_inj hn hp hq hi hiq
  subst epq
  have e2 : p.last = (j :: l2).getLast (by simp) := by
    have : p.last = p.nodes.getLast (by simp [Piece.nodes]) := rfl
    rw [this]
    simp only [e]
    rw [List.getLast_append_of_ne_nil _ (by simp), List.getLast_cons (by simp)]
  rw [e, List.nodup_append] at hp'
  have := (List.nodup_cons.mp hp'.2.1).1
  rw [c, e2] at this
  exact this (List.getLast_mem _)

theorem isChain_iff_split {R : Nat → Nat → Prop} : ∀ {l : List Nat}, l.IsChain R ↔ ∀ l1 i j l2, l = l1 ++ i :: j :: l2 → R i j := by
  intro l
  constructor
  · intro h l1 i j l2 e
    rw [e] at h
    have := (List.isChain_append.mp h).2.1
    exact (List.isChain_cons_cons.mp this).1
  · intro h
    induction l with
    | nil => simp
    | cons a l ih =>
      cases l with
      | nil => simp
      | cons b l =>
        rw [List.isChain_cons_cons]
        exact ⟨h [] a b l rfl, ih (fun l1 i j l2 e => h (a :: l1) i j l2 (by rw [e]; rfl))⟩

theorem Inv3.join {w : Work} {P : List Piece} {e : Nat} {es S : List Nat} (h : Inv3 w P (e :: es) S) :
    ∃ w' S', w.join e = some w' ∧ Inv3 w' P es S' ∧ (∀ k, (w'.lp k).data = (w.lp k).data) ∧
      (∀ k, (w'.lp k).anchor = (w.lp k).anchor) ∧ w'.np = w.np ∧ S' = S.erase (w'.lp e).next ∧ ∀ k, k ≠ e → w'.lp k = w.lp k := by
  have hb := h.bal
  rw [List.map_cons] at hb
  obtain ⟨s0, hs0, hs0d⟩ := List.mem_map.mp (hb.subset List.mem_cons_self)
  have hne : w.starts (w.endPoint e) ≠ [] := by
    intro c
    have := (h.starts (w.endPoint e)).symm
    rw [c] at this
    have h1 := List.Perm.eq_nil this
    have : s0 ∈ S.filter (fun i => decide ((w.lp i).data = w.endPoint e)) := List.mem_filter.mpr ⟨hs0, by simpa using hs0d⟩
    rw [h1] at this
    simp at this
  have hlt : pick (w.lp e).data (w.endPoint e) ((w.starts (w.endPoint e)).map w.naEnd) < (w.starts (w.endPoint e)).length := by
    have := pick_lt (w.lp e).data (w.endPoint e) (ends := (w.starts (w.endPoint e)).map w.naEnd) (by simpa using hne)
    simpa using this
  generalize hpk : pick (w.lp e).data (w.endPoint e) ((w.starts (w.endPoint e)).map w.naEnd) = b at hlt
  let s := (w.starts (w.endPoint e))[b]
  have hsm : s ∈ w.starts (w.endPoint e) := List.getElem_mem _
  have hsf := (h.starts _).subset hsm
  have hsS : s ∈ S := (List.mem_filter.mp hsf).1
  have hsd : (w.lp s).data = w.endPoint e := by simpa using (List.mem_filter.mp hsf).2
  let w' : Work := { w with
    lp := setFn w.lp e { w.lp e with next := s }
    starts := setPt w.starts (w.endPoint e) (swapPop (w.starts (w.endPoint e)) b) }
  have lpe : w'.lp e = { w.lp e with next := s } := setFn_same _ _ _
  have lpn : ∀ k, k ≠ e → w'.lp k = w.lp k := fun k hk => setFn_ne _ _ hk
  have lpd : ∀ k, (w'.lp k).data = (w.lp k).data := by
    intro k; by_cases c : k = e
    · rw [c, lpe]
    · rw [lpn k c]
  have lpa : ∀ k, (w'.lp k).anchor = (w.lp k).anchor := by
    intro k; by_cases c : k = e
    · rw [c, lpe]
    · rw [lpn k c]
  have lpk : ∀ k, (w'.lp k).keep = (w.lp k).keep := by
    intro k; by_cases c : k = e
    · rw [c, lpe]; rfl
    · rw [lpn k c]
  have ew : w.join e = some w' := by
    unfold Work.join
    dsimp only
    rw [hpk, List.getElem?_eq_getElem hlt]
  obtain ⟨pe, hpe, hpel⟩ := List.mem_map.mp (h.esub e List.mem_cons_self)
  obtain ⟨ps, hps, hpsf⟩ := List.mem_map.mp (h.ssub s hsS)
  have hen := List.nodup_cons.mp h.enod
  refine ⟨w', S.erase s, ew, ?_, lpd, lpa, rfl, by rw [lpe], lpn⟩
  constructor
  · exact h.nodup
  · exact h.lt
  · intro k hk; rw [lpk k]; exact h.keep k hk
  · intro p hp; rw [lpa]; exact h.first p hp
  · intro p hp
    rw [isChain_iff_split]
    intro l1 i j l2 e1
    have := not_last h.nodup hp hpe e1
    rw [hpel] at this
    rw [lpn i this]
    exact isChain_iff_split.mp (h.chain p hp) l1 i j l2 e1
  · intro x hx; exact h.esub x (List.mem_cons_of_mem _ hx)
  · intro x hx; exact h.ssub x (List.mem_of_mem_erase hx)
  · exact hen.2
  · exact h.snod.erase _
  · intro c
    change (setPt w.starts (w.endPoint e) (swapPop (w.starts (w.endPoint e)) b) c).Perm _
    have e0 : (S.erase s).filter (fun i => decide ((w'.lp i).data = c)) = (S.erase s).filter (fun i => decide ((w.lp i).data = c)) :=
      List.filter_congr (fun i _ => by rw [lpd i])
    rw [e0]
    by_cases hc : c = w.endPoint e
    · rw [hc, setPt_same]
      have h1 : (s :: swapPop (w.starts (w.endPoint e)) b).Perm (S.filter (fun i => decide ((w.lp i).data = w.endPoint e))) :=
        (swapPop_perm hlt).symm.trans (h.starts _)
      have h2 : S.Perm (s :: S.erase s) := List.perm_cons_erase hsS
      have h3 := h2.filter (fun i => decide ((w.lp i).data = w.endPoint e))
      rw [List.filter_cons, if_pos (by simp [hsd])] at h3
      exact (List.perm_cons _).mp (h1.trans h3)
    · rw [setPt_ne _ _ hc]
      refine (h.starts c).trans ?_
      have h2 : S.Perm (s :: S.erase s) := List.perm_cons_erase hsS
      have h3 := h2.filter (fun i => decide ((w.lp i).data = c))
      rw [List.filter_cons, if_neg (by rw [hsd]; simpa using fun x => hc x.symm)] at h3
      exact h3
  · intro p hp hpm
    have hpe' : p.last ≠ e := fun c => hen.1 (c ▸ hpm)
    rw [lpd, lpn _ hpe']
    exact h.open_ p hp (List.mem_cons_of_mem _ hpm)
  · intro p hp hpm
    by_cases c : p.last = e
    · refine ⟨ps, hps, ?_, ?_, ?_⟩
      · rw [c, lpe, hpsf]
      · rw [hpsf]; exact fun x => (List.Nodup.mem_erase_iff h.snod).mp x |>.1 rfl
      · rw [lpd, hpsf, hsd]
        have := h.open_ p hp (by rw [c]; simp)
        rw [← this, c]
        rfl
    · obtain ⟨q, q1, q2, q3, q4⟩ := h.closed p hp (by simp [c, hpm])
      refine ⟨q, q1, ?_, ?_, ?_⟩
      · rw [lpn _ c]; exact q2
      · exact fun x => q3 (List.mem_of_mem_erase x)
      · rw [lpd]; exact q4
  · intro p hp p' hp' hpm hpm' heq
    by_cases c : p.last = e <;> by_cases c' : p'.last = e
    · rw [c, c']
    · rw [c, lpe, lpn _ c'] at heq
      obtain ⟨q, q1, q2, q3, q4⟩ := h.closed p' hp' (by simp [c', hpm'])
      rw [q2] at heq
      exact absurd (heq ▸ hsS) q3
    · rw [c', lpe, lpn _ c] at heq
      obtain ⟨q, q1, q2, q3, q4⟩ := h.closed p hp (by simp [c, hpm])
      rw [q2] at heq
      exact absurd (heq ▸ hsS) q3
    · rw [lpn _ c, lpn _ c'] at heq
      exact h.inj p hp p' hp' (by simp [c, hpm]) (by simp [c', hpm']) heq
  · have e1 : es.map w'.endPoint = es.map w.endPoint := by
      apply List.map_congr_left
      intro x hx
      have : x ≠ e := fun c => hen.1 (c ▸ hx)
      unfold Work.endPoint
      rw [lpd, lpn x this]
    have e2 : (S.erase s).map (fun i => (w'.lp i).data) = (S.erase s).map (fun i => (w.lp i).data) :=
      List.map_congr_left (fun i _ => lpd i)
    rw [e1, e2]
    have h2 : (S.map (fun i => (w.lp i).data)).Perm ((s :: S.erase s).map (fun i => (w.lp i).data)) :=
      (List.perm_cons_erase hsS).map _
    rw [List.map_cons, hsd] at h2
    exact (List.perm_cons _).mp (hb.trans h2)

theorem Inv3.joinAll : ∀ {es : List Nat} {w : Work} {P : List Piece} {S : List Nat}, Inv3 w P es S →
    ∃ w', w.joinAll es = some w' ∧ Inv3 w' P [] [] ∧ (∀ k, (w'.lp k).data = (w.lp k).data) ∧
      (∀ k, (w'.lp k).anchor = (w.lp k).anchor) ∧ w'.np = w.np
  | [], w, P, S, h => by
    have hS : S = [] := by
      have := h.bal.length_eq
      simpa using this.symm
    subst hS
    exact ⟨w, rfl, h, fun _ => rfl, fun _ => rfl, rfl⟩
  | e :: es, w, P, S, h => by
    obtain ⟨w1, S1, e1, h1, d1, a1, n1, _⟩ := h.join
    obtain ⟨w2, e2, h2, d2, a2, n2⟩ := Inv3.joinAll h1
    refine ⟨w2, ?_, h2, fun k => (d2 k).trans (d1 k), fun k => (a2 k).trans (a1 k), n2.trans n1⟩
    unfold Work.joinAll
    rw [e1, Option.bind_some, e2]

theorem Sq.chain {nx : Nat → Nat} {z : Nat} : ∀ {ps : List Nat} {x : Nat}, Sq nx (nx x) ps z →
    (x :: ps).IsChain (fun i j => nx i = j) ∧ nx ((x :: ps).getLast (by simp)) = z
  | [], x, h => ⟨by simp, h⟩
  | p :: ps, x, h => by
    obtain ⟨h1, h2⟩ := Sq.chain h.2
    refine ⟨?_, ?_⟩
    · rw [List.isChain_cons_cons]; exact ⟨h.1, h1⟩
    · rw [List.getLast_cons (by simp)]; exact h2

/-- First and last corners. -/
def heads (C : List (List Pt)) : List Pt := C.map (fun l => l.headD default)
def lasts (C : List (List Pt)) : List Pt := C.map (fun l => l.getLastD default)

theorem Inv2.inv3 {w : Work} {P : List Piece} (h : Inv2 w P [] []) (hb : (heads (corners2 w P [])).Perm (lasts (corners2 w P []))) :
    Inv3 w P w.ends (P.map Piece.first) := by
  have hn : (P.flatMap Piece.nodes).Nodup := by simpa using h.nodup
  have hends : w.ends.Perm (P.map Piece.last) := by simpa [endsOf] using h.ends
  have h1 := (List.nodup_flatMap.mp hn).2
  have hnf : (P.map Piece.first).Nodup := by
    rw [List.Nodup, List.pairwise_map]
    refine h1.imp ?_
    intro a b hab c
    exact hab (List.mem_cons_self : a.first ∈ a.nodes) (by rw [c]; exact List.mem_cons_self)
  have hnl : (P.map Piece.last).Nodup := by
    rw [List.Nodup, List.pairwise_map]
    refine h1.imp ?_
    intro a b hab c
    exact hab a.last_mem (by rw [c]; exact b.last_mem)
  have hsq := fun p hp => (h.pieces p hp).sq
  refine ⟨hn, ?_, ?_, fun p hp => (h.pieces p hp).anchor, ?_, ?_, fun s hs => hs, hends.nodup_iff.mpr hnl, hnf, h.starts, ?_, ?_, ?_, ?_⟩
  · intro k hk; exact h.lt k (by simpa using hk)
  · intro k hk
    constructor
    · intro c; simpa using h.rest k hk c
    · intro c
      obtain ⟨p, hp, hkp⟩ := List.mem_flatMap.mp c
      exact (h.pieces p hp).keep k hkp
  · intro p hp
    obtain ⟨z, z1, _, _⟩ := hsq p hp
    exact (Sq.chain (nx := fun i => (w.lp i).next) z1).1
  · intro e he; exact hends.subset he
  · intro p hp _
    obtain ⟨z, z1, z2, _⟩ := hsq p hp
    have : (w.lp p.last).next = z := (Sq.chain (nx := fun i => (w.lp i).next) z1).2
    rw [this, z2]
  · intro p hp c
    exact absurd (hends.symm.subset (List.mem_map.mpr ⟨p, hp, rfl⟩)) c
  · intro p hp _ _ c
    exact absurd (hends.symm.subset (List.mem_map.mpr ⟨p, hp, rfl⟩)) c
  · have e1 : (P.map Piece.last).map w.endPoint = lasts (corners2 w P []) := by
      unfold lasts corners2
      rw [List.filter_nil, List.map_nil, List.append_nil, List.map_map, List.map_map]
      apply List.map_congr_left
      intro p hp
      obtain ⟨z, z1, z2, _⟩ := hsq p hp
      have : (w.lp p.last).next = z := (Sq.chain (nx := fun i => (w.lp i).next) z1).2
      simp only [Function.comp, Work.endPoint, Piece.corners]
      rw [this, z2]
      simp
    have e2 : (P.map Piece.first).map (fun i => (w.lp i).data) = heads (corners2 w P []) := by
      unfold heads corners2
      rw [List.filter_nil, List.map_nil, List.append_nil, List.map_map, List.map_map]
      apply List.map_congr_left
      intro p hp
      simp only [Function.comp, Piece.corners, Piece.nodes]
      rw [crd_cons _ (h.pieces p hp).anchor]
      rfl
    rw [e2]
    refine (hends.map _).trans ?_
    rw [e1]
    exact hb.symm

/-- The links after reconnecting, in terms of pieces. -/
structure Joined (w : Work) (P : List Piece) : Prop where
  nodup : (P.flatMap Piece.nodes).Nodup
  lt : ∀ k ∈ P.flatMap Piece.nodes, k < w.np
  keep : ∀ k, k < w.np → ((w.lp k).keep = true ↔ k ∈ P.flatMap Piece.nodes)
  first : ∀ p ∈ P, (w.lp p.first).anchor = false
  chain : ∀ p ∈ P, p.nodes.IsChain (fun i j => (w.lp i).next = j)
  link : ∀ p ∈ P, ∃ q ∈ P, (w.lp p.last).next = q.first ∧ (w.lp q.first).data = p.target
  inj : ∀ p ∈ P, ∀ p' ∈ P, (w.lp p.last).next = (w.lp p'.last).next → p = p'

theorem Inv3.joined {w : Work} {P : List Piece} (h : Inv3 w P [] []) : Joined w P := by
  refine ⟨h.nodup, h.lt, h.keep, h.first, h.chain, ?_, ?_⟩
  · intro p hp
    obtain ⟨q, a, b, _, c⟩ := h.closed p hp (by simp)
    exact ⟨q, a, b, c⟩
  · intro p hp p' hp' e
    have := h.inj p hp p' hp' (by simp) (by simp) e
    exact Piece.first_inj h.nodup hp hp' p.last_mem (this ▸ p'.last_mem)

/-- The points of `K` form a permutation: next stays inside and is injective. -/
theorem Joined.mem {w : Work} {P : List Piece} (h : Joined w P) {k : Nat} (hk : k ∈ P.flatMap Piece.nodes) :
    (∃ p ∈ P, ∃ l1 l2 j, p.nodes = l1 ++ k :: j :: l2 ∧ (w.lp k).next = j) ∨
    (∃ p ∈ P, k = p.last ∧ ∃ q ∈ P, (w.lp k).next = q.first) := by
  obtain ⟨p, hp, hkp⟩ := List.mem_flatMap.mp hk
  obtain ⟨l1, l2, e⟩ := List.append_of_mem hkp
  cases l2 with
  | nil =>
    right
    have : p.last = k := by
      have : p.last = p.nodes.getLast (by simp [Piece.nodes]) := rfl
      rw [this]
      simp [e]
    obtain ⟨q, hq, e1, _⟩ := h.link p hp
    exact ⟨p, hp, this.symm, q, hq, this ▸ e1⟩
  | cons j l2 =>
    left
    exact ⟨p, hp, l1, l2, j, e, isChain_iff_split.mp (h.chain p hp) l1 k j l2 e⟩

theorem Joined.next_mem {w : Work} {P : List Piece} (h : Joined w P) {k : Nat} (hk : k ∈ P.flatMap Piece.nodes) :
    (w.lp k).next ∈ P.flatMap Piece.nodes := by
  rcases h.mem hk with ⟨p, hp, l1, l2, j, e, e2⟩ | ⟨p, hp, e, q, hq, e2⟩
  · rw [e2]; exact List.mem_flatMap.mpr ⟨p, hp, by rw [e]; simp⟩
  · rw [e2]; exact List.mem_flatMap.mpr ⟨q, hq, List.mem_cons_self⟩

/-- An inner point of a piece is no first point. -/
theorem not_first {P : List Piece} (hn : (P.flatMap Piece.nodes).Nodup) {p q : Piece} (hp : p ∈ P) (hq : q ∈ P)
    {l1 l2 : List Nat} {i j : Nat} (e : p.nodes = l1 ++ i :: j :: l2) : j ≠ q.first := by
  intro c
  have e1 : p = q := Piece.first_inj hn hp hq (k := j) (by rw [e]; simp) (by rw [c]; exact List.mem_cons_self)
  subst e1
  have hp' : p.nodes.Nodup := (List.nodup_flatMap.mp hn).1 p hp
  have e2 : p.nodes = p.first :: p.rest := rfl
  rw [e2] at hp'
  have hj : j ∈ p.rest := by
    rw [e2] at e
    cases l1 with
    | nil =>
      have := (List.cons.inj e).2
      rw [this]; simp
    | cons a l1 =>
      have := (List.cons.inj e).2
      rw [this]; simp
  rw [c] at hj
  exact (List.nodup_cons.mp hp').1 hj

theorem Joined.next_inj {w : Work} {P : List Piece} (h : Joined w P) {k k' : Nat} (hk : k ∈ P.flatMap Piece.nodes)
    (hk' : k' ∈ P.flatMap Piece.nodes) (e : (w.lp k).next = (w.lp k').next) : k = k' := by
  rcases h.mem hk with ⟨p, hp, l1, l2, j, e1, e2⟩ | ⟨p, hp, e1, q, hq, e2⟩ <;>
    rcases h.mem hk' with ⟨p', hp', l1', l2', j', e1', e2'⟩ | ⟨p', hp', e1', q', hq', e2'⟩
  · have ej : j = j' := by rw [← e2, ← e2', e]
    have epp : p = p' := Piece.first_inj h.nodup hp hp' (k := j) (by rw [e1]; simp) (by rw [ej, e1']; simp)
    subst epp
    have hnd : p.nodes.Nodup := (List.nodup_flatMap.mp h.nodup).1 p hp
    have hi : (l1 ++ [k]).length = (l1' ++ [k']).length := by
      have a1 : p.nodes[(l1 ++ [k]).length]? = some j := by rw [e1]; simp
      have a2 : p.nodes[(l1' ++ [k']).length]? = some j := by rw [e1', ej]; simp
      have b1 : (l1 ++ [k]).length < p.nodes.length := by rw [e1]; simp
      exact (List.getElem?_inj b1 hnd).mp (a1.trans a2.symm)
    have : l1 ++ k :: j :: l2 = l1' ++ k' :: j' :: l2' := e1.symm.trans e1'
    have := List.append_inj this (by simpa using hi)
    exact (List.cons.inj this.2).1
  · exact absurd ((e2.symm.trans e).trans e2') (not_first h.nodup hp hq' e1)
  · exact absurd ((e2'.symm.trans e.symm).trans e2) (not_first h.nodup hp' hq e1')
  · rw [e1, e1'] at e
    rw [e1, e1', h.inj p hp p' hp' e]

end PolyOps.Loops
