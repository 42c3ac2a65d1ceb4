import Verif.Lemmas.Loops

/-! What the first phase (following every arc) leaves behind: pieces to be joined, pieces without a first point, orphans. -/
namespace PolyOps.Loops
open PolyOps PolyOps.Sweep

/-- Coordinates of the points of a list that are not anchors. -/
def crd (lp : Nat → OP) (l : List Nat) : List Pt := (l.filter (fun i => !(lp i).anchor)).map (fun i => (lp i).data)

theorem crd_congr {lp lp' : Nat → OP} {l : List Nat} (h : ∀ p ∈ l, (lp' p).anchor = (lp p).anchor)
    (h2 : ∀ p ∈ l, (lp p).anchor = false → (lp' p).data = (lp p).data) : crd lp' l = crd lp l := by
  unfold crd
  have e : l.filter (fun i => !(lp' i).anchor) = l.filter (fun i => !(lp i).anchor) := by
    apply List.filter_congr
    intro p hp
    rw [h p hp]
  rw [e]
  apply List.map_congr_left
  intro p hp
  have := List.mem_filter.mp hp
  exact h2 p this.1 (by simpa using this.2)

theorem crd_reverse (lp : Nat → OP) (l : List Nat) : crd lp l.reverse = (crd lp l).reverse := by
  unfold crd
  rw [List.filter_reverse, List.map_reverse]

theorem crd_cons {lp : Nat → OP} {i : Nat} (l : List Nat) (h : (lp i).anchor = false) : crd lp (i :: l) = (lp i).data :: crd lp l := by
  unfold crd
  rw [List.filter_cons, if_pos (by rw [h]; rfl), List.map_cons]

/-- The corners of an arc, in the direction it is to be used; none if it is dropped. -/
def Arc.lines (lp : Nat → OP) (a : Arc) : List (List Pt) :=
  if (lp a.head).ls.keep then
    [if (lp a.head).ls.rev then (crd lp a.nodes ++ [(lp a.stop).data]).reverse else crd lp a.nodes ++ [(lp a.stop).data]]
  else []

/-- Linked kept points with the coordinates of the point they are to be joined to. -/
structure Piece where
  first : Nat
  rest : List Nat
  target : Pt

def Piece.nodes (p : Piece) : List Nat := p.first :: p.rest
def Piece.last (p : Piece) : Nat := (p.first :: p.rest).getLast (by simp)
def Piece.corners (lp : Nat → OP) (p : Piece) : List Pt := crd lp p.nodes ++ [p.target]

structure Piece.OK (lp : Nat → OP) (p : Piece) : Prop where
  sq : ∃ z, Sq (fun i => (lp i).next) (lp p.first).next p.rest z ∧ (lp z).data = p.target ∧ (lp z).st ≠ .undef
  keep : ∀ i ∈ p.nodes, (lp i).keep = true
  anchor : (lp p.first).anchor = false

/-- A reversed arc that waits for its first point. -/
structure VPiece where
  pos : Pt
  next : Nat
  rest : List Nat
  target : Pt
  keep : Bool

def VPiece.vp (v : VPiece) : VP := ⟨v.next, v.keep, decide (v.keep = true ∧ v.rest = [])⟩
def VPiece.corners (lp : Nat → OP) (v : VPiece) : List Pt := v.pos :: crd lp v.rest ++ [v.target]

structure VPiece.OK (lp : Nat → OP) (v : VPiece) : Prop where
  sq : v.keep = true → ∃ z, Sq (fun i => (lp i).next) v.next v.rest z ∧ (lp z).data = v.target ∧ (lp z).st ≠ .undef
  keep : ∀ i ∈ v.rest, (lp i).keep = true
  drop : v.keep = false → v.rest = []

/-- The ends in the list of broken ends. -/
def endsOf (P : List Piece) (V : List VPiece) : List Nat :=
  P.map Piece.last ++ (V.filter (fun v => !v.rest.isEmpty)).map (fun v => v.rest.getLastD 0)

/-- Arcs `R` to follow, pieces `P`, waiting pieces `V`. -/
structure Inv1 (w : Work) (R : List Arc) (P : List Piece) (V : List VPiece) : Prop where
  arcs : ∀ a ∈ R, IsArc w.lp a
  pieces : ∀ p ∈ P, p.OK w.lp
  virts : ∀ v ∈ V, v.OK w.lp
  nodup : (R.flatMap Arc.nodes ++ (P.flatMap Piece.nodes ++ (V.flatMap VPiece.rest ++ w.orphans))).Nodup
  lt : ∀ k ∈ R.flatMap Arc.nodes ++ (P.flatMap Piece.nodes ++ (V.flatMap VPiece.rest ++ w.orphans)), k < w.np
  rest : ∀ k, k < w.np → (w.lp k).keep = true →
    k ∈ R.flatMap Arc.nodes ++ (P.flatMap Piece.nodes ++ (V.flatMap VPiece.rest ++ w.orphans))
  orphan : ∀ o ∈ w.orphans, (w.lp o).anchor = false ∧ (w.lp o).st ≠ .undef
  starts : ∀ c, (w.starts c).Perm ((P.map Piece.first).filter (fun i => decide ((w.lp i).data = c)))
  ends : w.ends.Perm (endsOf P V)
  vps : ∀ c, w.virts c = (V.filter (fun v => decide (v.pos = c))).map VPiece.vp

/-- All corners: of the arcs to follow, the pieces, the waiting pieces. -/
def corners (w : Work) (R : List Arc) (P : List Piece) (V : List VPiece) : List (List Pt) :=
  R.flatMap (Arc.lines w.lp) ++ (P.map (Piece.corners w.lp) ++ (V.filter VPiece.keep).map (VPiece.corners w.lp))

def revHeads (w : Work) (R : List Arc) : List Pt :=
  w.orphans.map (fun i => (w.lp i).data) ++ (R.filter (fun a => (w.lp a.head).ls.rev)).map (fun a => (w.lp a.head).data)

def revStops (w : Work) (R : List Arc) (V : List VPiece) : List Pt :=
  V.map VPiece.pos ++ (R.filter (fun a => (w.lp a.head).ls.rev)).map (fun a => (w.lp a.stop).data)

theorem updAll_facts {lp : Nat → OP} {a : Arc} (h : IsArc lp a) (st : LState) {p : Nat} (hp : p ∈ a.mid) :
    (updAll st lp a.head a.mid p).st = .res st ∧ (updAll st lp a.head a.mid p).anchor = (lp p).anchor ∧
    ((lp p).anchor = false → (updAll st lp a.head a.mid p).data = (lp p).data) ∧
    (¬(st.keep = true ∧ st.rev = true) → (updAll st lp a.head a.mid p).next = (lp p).next) := by
  obtain ⟨l1, l2, e⟩ := List.append_of_mem hp
  have hn := (List.nodup_cons.mp h.nodup).2
  have hs := h.sq
  have hst := h.stop_notMem
  rw [e] at hn hs hst ⊢
  rw [updAll_mem st a.stop l1 lp a.head p _ l2 hn hst hs]
  exact ⟨upd_st _ _ _ _, upd_anchor _ _ _ _, upd_data _ _ _ _, upd_next _ _ _ _⟩

/-- A point not undefined keeps everything while other arcs are followed. -/
theorem updAll_keep {lp : Nat → OP} {a : Arc} (h : IsArc lp a) (st : LState) {k : Nat} (hk : (lp k).st ≠ .undef) :
    updAll st lp a.head a.mid k = lp k :=
  updAll_other _ _ _ _ _ (fun c => hk (h.mid _ c))

theorem followed_lp (w : Work) (a : Arc) : (w.followed a).lp = updAll (w.lp a.head).ls w.lp a.head a.mid := by
  unfold Work.followed
  dsimp only
  split
  · split <;> rfl
  · rfl

theorem followed_np (w : Work) (a : Arc) : (w.followed a).np = w.np := by
  unfold Work.followed
  dsimp only
  split
  · split <;> rfl
  · rfl

/-- Another arc, a piece or a waiting piece after the change of points they do not contain. -/
theorem IsArc.congr {lp lp' : Nat → OP} {b : Arc} (h : IsArc lp b) (e : ∀ k ∈ b.nodes, lp' k = lp k)
    (e2 : (lp' b.stop).st ≠ .undef) : IsArc lp' b := by
  have eh : lp' b.head = lp b.head := e _ List.mem_cons_self
  refine ⟨?_, ?_, ?_, ?_, e2, h.nodup⟩
  · rw [eh]
    exact Sq.congr h.sq (fun p hp => by change (lp' p).next = _; rw [e p (List.mem_cons_of_mem _ hp)])
  · intro p hp; rw [e p (List.mem_cons_of_mem _ hp)]; exact h.mid p hp
  · rw [eh]; exact h.head
  · rw [eh]; exact h.anchor

theorem Piece.OK.congr {lp lp' : Nat → OP} {b : Piece} (h : b.OK lp) (e : ∀ k ∈ b.nodes, lp' k = lp k)
    (e2 : ∀ k, (lp k).st ≠ .undef → (lp' k).data = (lp k).data ∧ (lp' k).st ≠ .undef) : b.OK lp' := by
  have eh : lp' b.first = lp b.first := e _ List.mem_cons_self
  obtain ⟨z, z1, z2, z3⟩ := h.sq
  refine ⟨⟨z, ?_, ?_, (e2 z z3).2⟩, ?_, ?_⟩
  · rw [eh]
    exact Sq.congr z1 (fun p hp => by change (lp' p).next = _; rw [e p (List.mem_cons_of_mem _ hp)])
  · rw [(e2 z z3).1, z2]
  · intro i hi; rw [e i hi]; exact h.keep i hi
  · rw [eh]; exact h.anchor

theorem VPiece.OK.congr {lp lp' : Nat → OP} {b : VPiece} (h : b.OK lp) (e : ∀ k ∈ b.rest, lp' k = lp k)
    (e2 : ∀ k, (lp k).st ≠ .undef → (lp' k).data = (lp k).data ∧ (lp' k).st ≠ .undef) : b.OK lp' := by
  refine ⟨fun hk => ?_, ?_, h.drop⟩
  · obtain ⟨z, z1, z2, z3⟩ := h.sq hk
    refine ⟨z, ?_, ?_, (e2 z z3).2⟩
    · exact Sq.congr z1 (fun p hp => by change (lp' p).next = _; rw [e p hp])
    · rw [(e2 z z3).1, z2]
  · intro i hi; rw [e i hi]; exact h.keep i hi

theorem Arc.lines_congr {lp lp' : Nat → OP} {b : Arc} (e : ∀ k ∈ b.nodes, lp' k = lp k) (e2 : (lp' b.stop).data = (lp b.stop).data) :
    b.lines lp' = b.lines lp := by
  unfold Arc.lines
  rw [e b.head List.mem_cons_self, e2, crd_congr (fun p hp => by rw [e p hp]) (fun p hp _ => by rw [e p hp])]

theorem Piece.corners_congr {lp lp' : Nat → OP} {b : Piece} (e : ∀ k ∈ b.nodes, lp' k = lp k) : b.corners lp' = b.corners lp := by
  unfold Piece.corners
  rw [crd_congr (fun p hp => by rw [e p hp]) (fun p hp _ => by rw [e p hp])]

theorem VPiece.corners_congr {lp lp' : Nat → OP} {b : VPiece} (e : ∀ k ∈ b.rest, lp' k = lp k) : b.corners lp' = b.corners lp := by
  unfold VPiece.corners
  rw [crd_congr (fun p hp => by rw [e p hp]) (fun p hp _ => by rw [e p hp])]

/-- The piece made from a kept arc. -/
def Arc.piece (lp : Nat → OP) (a : Arc) : Piece := ⟨a.head, a.mid, (lp a.stop).data⟩

/-- The waiting piece made from a reversed arc. -/
def Arc.vpiece (lp : Nat → OP) (a : Arc) : VPiece :=
  ⟨(lp a.stop).data, a.last, if (lp a.head).ls.keep then a.mid.reverse else [], (lp a.head).data, (lp a.head).ls.keep⟩

theorem Arc.piece_ok {lp : Nat → OP} {a : Arc} (h : IsArc lp a) (k : (lp a.head).ls.keep = true) (r : (lp a.head).ls.rev = false) :
    (a.piece lp).OK (updAll (lp a.head).ls lp a.head a.mid) ∧
    (a.piece lp).corners (updAll (lp a.head).ls lp a.head a.mid) = crd lp a.nodes ++ [(lp a.stop).data] := by
  have hnd := List.nodup_cons.mp h.nodup
  have eh : updAll (lp a.head).ls lp a.head a.mid a.head = lp a.head := updAll_other _ _ _ _ _ hnd.1
  have es : updAll (lp a.head).ls lp a.head a.mid a.stop = lp a.stop := updAll_keep h _ h.stop
  have f := fun {p : Nat} (hp : p ∈ a.mid) => updAll_facts h (lp a.head).ls hp
  refine ⟨⟨⟨a.stop, ?_, ?_, ?_⟩, ?_, ?_⟩, ?_⟩
  · change Sq _ ((updAll (lp a.head).ls lp a.head a.mid a.head).next) a.mid a.stop
    rw [eh]
    exact Sq.congr h.sq (fun p hp => (f hp).2.2.2 (by simp [r]))
  · rw [es]; rfl
  · rw [es]; exact h.stop
  · intro i hi
    rcases List.mem_cons.mp hi with c | c
    · have c : i = a.head := c
      rw [c, eh]; unfold OP.keep; rw [h.head_st]; exact k
    · unfold OP.keep; rw [(f c).1]; exact k
  · change (updAll _ lp a.head a.mid a.head).anchor = false
    rw [eh]; exact h.anchor
  · unfold Piece.corners
    congr 1
    apply crd_congr
    · intro p hp
      rcases List.mem_cons.mp hp with c | c
      · have c : p = a.head := c
        rw [c, eh]
      · exact (f c).2.1
    · intro p hp hp2
      rcases List.mem_cons.mp hp with c | c
      · have c : p = a.head := c
        rw [c, eh]
      · exact (f c).2.2.1 hp2

theorem Arc.vpiece_ok {lp : Nat → OP} {a : Arc} (h : IsArc lp a) (r : (lp a.head).ls.rev = true) :
    (a.vpiece lp).OK (updAll (lp a.head).ls lp a.head a.mid) ∧
    ((lp a.head).ls.keep = true →
      (a.vpiece lp).corners (updAll (lp a.head).ls lp a.head a.mid) = (crd lp a.nodes ++ [(lp a.stop).data]).reverse) := by
  have hnd := List.nodup_cons.mp h.nodup
  have eh : updAll (lp a.head).ls lp a.head a.mid a.head = lp a.head := updAll_other _ _ _ _ _ hnd.1
  have f := fun {p : Nat} (hp : p ∈ a.mid) => updAll_facts h (lp a.head).ls hp
  refine ⟨⟨fun k => ⟨a.head, ?_, ?_, ?_⟩, ?_, ?_⟩, ?_⟩
  · have k : (lp a.head).ls.keep = true := k
    change Sq _ a.last (if (lp a.head).ls.keep then a.mid.reverse else []) a.head
    rw [if_pos k]
    apply Sq.reverse
    intro l1 p l2 e
    have hn := hnd.2
    have hs := h.sq
    have hst := h.stop_notMem
    rw [e] at hn hs hst
    change (updAll (lp a.head).ls lp a.head a.mid p).next = _
    rw [e, updAll_mem _ a.stop l1 lp a.head p _ l2 hn hst hs]
    exact upd_next_rev _ _ _ _ k r
  · rw [eh]; rfl
  · rw [eh, h.head_st]; simp
  · intro i hi
    change i ∈ (if (lp a.head).ls.keep then a.mid.reverse else []) at hi
    by_cases k : (lp a.head).ls.keep = true
    · rw [if_pos k] at hi
      unfold OP.keep; rw [(f (List.mem_reverse.mp hi)).1]; exact k
    · rw [if_neg k] at hi; exact absurd hi (by simp)
  · intro k
    change (if (lp a.head).ls.keep then a.mid.reverse else []) = []
    have k : (lp a.head).ls.keep = false := k
    rw [if_neg (by simp [k])]
  · intro k
    change (lp a.stop).data :: crd _ (if (lp a.head).ls.keep then a.mid.reverse else []) ++ [(lp a.head).data] = _
    rw [if_pos k, crd_reverse]
    rw [crd_congr (lp := lp) (fun p hp => (f hp).2.1) (fun p hp hp2 => (f hp).2.2.1 hp2)]
    unfold Arc.nodes
    rw [crd_cons _ h.anchor]
    simp

/-- The pieces, waiting pieces and orphans after an arc is followed. -/
def Arc.P (lp : Nat → OP) (a : Arc) : List Piece := if (lp a.head).ls.keep = true ∧ (lp a.head).ls.rev = false then [a.piece lp] else []
def Arc.V (lp : Nat → OP) (a : Arc) : List VPiece := if (lp a.head).ls.rev = true then [a.vpiece lp] else []
def Arc.O (lp : Nat → OP) (a : Arc) : List Nat := if (lp a.head).ls.rev = true then [a.head] else []
/-- The points dropped. -/
def Arc.D (lp : Nat → OP) (a : Arc) : List Nat :=
  if (lp a.head).ls.keep = true then [] else if (lp a.head).ls.rev = true then a.mid else a.nodes

theorem Arc.split_perm (lp : Nat → OP) (a : Arc) :
    ((a.P lp).flatMap Piece.nodes ++ ((a.V lp).flatMap VPiece.rest ++ (a.O lp ++ a.D lp))).Perm a.nodes := by
  unfold Arc.P Arc.V Arc.O Arc.D
  by_cases k : (lp a.head).ls.keep = true <;> by_cases r : (lp a.head).ls.rev = true
  · have e1 : ¬((lp a.head).ls.keep = true ∧ (lp a.head).ls.rev = false) := by simp [r]
    rw [if_neg e1, if_pos r, if_pos r, if_pos k]
    simp only [List.flatMap_nil, List.nil_append, List.flatMap_cons, List.append_nil]
    change ((if (lp a.head).ls.keep then a.mid.reverse else []) ++ [a.head]).Perm (a.head :: a.mid)
    rw [if_pos k]
    exact (List.perm_append_singleton _ _).trans ((List.reverse_perm _).cons _)
  · have e1 : ((lp a.head).ls.keep = true ∧ (lp a.head).ls.rev = false) := ⟨k, by simpa using r⟩
    rw [if_pos e1, if_neg r, if_neg r, if_pos k]
    simp only [List.flatMap_nil, List.flatMap_cons, List.append_nil]
    exact List.Perm.refl _
  · have e1 : ¬((lp a.head).ls.keep = true ∧ (lp a.head).ls.rev = false) := by simp [r]
    rw [if_neg e1, if_pos r, if_pos r, if_neg k, if_pos r]
    simp only [List.flatMap_nil, List.nil_append, List.flatMap_cons, List.append_nil]
    change ((if (lp a.head).ls.keep then a.mid.reverse else []) ++ ([a.head] ++ a.mid)).Perm (a.head :: a.mid)
    rw [if_neg k]
    exact List.Perm.refl _
  · have e1 : ¬((lp a.head).ls.keep = true ∧ (lp a.head).ls.rev = false) := by simp [k]
    rw [if_neg e1, if_neg r, if_neg r, if_neg k, if_neg r]
    exact List.Perm.refl _

theorem Arc.P_keep {lp : Nat → OP} {a : Arc} (k : (lp a.head).ls.keep = true) (r : (lp a.head).ls.rev = false) : a.P lp = [a.piece lp] :=
  if_pos ⟨k, r⟩
theorem Arc.P_drop {lp : Nat → OP} {a : Arc} (k : (lp a.head).ls.keep = false) : a.P lp = [] := if_neg (by simp [k])
theorem Arc.P_rev {lp : Nat → OP} {a : Arc} (r : (lp a.head).ls.rev = true) : a.P lp = [] := if_neg (by simp [r])
theorem Arc.V_rev {lp : Nat → OP} {a : Arc} (r : (lp a.head).ls.rev = true) : a.V lp = [a.vpiece lp] := if_pos r
theorem Arc.V_nil {lp : Nat → OP} {a : Arc} (r : (lp a.head).ls.rev = false) : a.V lp = [] := if_neg (by simp [r])
theorem Arc.O_rev {lp : Nat → OP} {a : Arc} (r : (lp a.head).ls.rev = true) : a.O lp = [a.head] := if_pos r
theorem Arc.O_nil {lp : Nat → OP} {a : Arc} (r : (lp a.head).ls.rev = false) : a.O lp = [] := if_neg (by simp [r])

theorem followed_orphans (w : Work) (a : Arc) : (w.followed a).orphans = w.orphans ++ a.O w.lp := by
  by_cases r : (w.lp a.head).ls.rev = false
  · rw [Arc.O_nil r, List.append_nil]
    unfold Work.followed
    dsimp only
    rw [if_pos r]
    split <;> rfl
  · rw [Arc.O_rev (by simpa using r)]
    unfold Work.followed
    dsimp only
    rw [if_neg r]

theorem followed_starts (w : Work) (a : Arc) (c : Pt) :
    (w.followed a).starts c = w.starts c ++ ((a.P w.lp).map Piece.first).filter (fun i => decide ((w.lp i).data = c)) := by
  by_cases r : (w.lp a.head).ls.rev = false
  · by_cases k : (w.lp a.head).ls.keep = false
    · rw [Arc.P_drop k]
      unfold Work.followed
      dsimp only
      rw [if_pos r, if_pos k]
      simp
    · rw [Arc.P_keep (by simpa using k) r]
      unfold Work.followed
      dsimp only
      rw [if_pos r, if_neg k]
      change setPt w.starts (w.lp a.head).data (w.starts (w.lp a.head).data ++ [a.head]) c = _
      have e : [a.piece w.lp].map Piece.first = [a.head] := rfl
      rw [e]
      by_cases h : (w.lp a.head).data = c
      · rw [← h, setPt_same]; simp
      · rw [setPt_ne _ _ (fun x => h x.symm)]; simp [h]
  · rw [Arc.P_rev (by simpa using r)]
    unfold Work.followed
    dsimp only
    rw [if_neg r]
    simp

theorem followed_virts (w : Work) (a : Arc) (c : Pt) :
    (w.followed a).virts c = w.virts c ++ ((a.V w.lp).filter (fun v => decide (v.pos = c))).map VPiece.vp := by
  by_cases r : (w.lp a.head).ls.rev = false
  · rw [Arc.V_nil r]
    unfold Work.followed
    dsimp only
    rw [if_pos r]
    split <;> simp
  · rw [Arc.V_rev (by simpa using r)]
    have e : (a.vpiece w.lp).vp = ⟨a.last, (w.lp a.head).ls.keep, decide ((w.lp a.head).ls.keep = true ∧ a.mid = [])⟩ := by
      unfold VPiece.vp Arc.vpiece
      by_cases k : (w.lp a.head).ls.keep = true
      · simp [k]
      · simp [k]
    have e2 : (a.vpiece w.lp).pos = (w.lp a.stop).data := rfl
    unfold Work.followed
    dsimp only
    rw [if_neg r]
    dsimp only
    by_cases h : (w.lp a.stop).data = c
    · rw [h, setPt_same, List.filter_cons, if_pos (by rw [e2, h]; simp), List.filter_nil, List.map_cons, List.map_nil, e]
    · rw [setPt_ne _ _ (fun x => h x.symm), List.filter_cons, if_neg (by rw [e2]; simp [h])]; simp

theorem followed_ends (w : Work) (a : Arc) : (w.followed a).ends = w.ends ++ endsOf (a.P w.lp) (a.V w.lp) := by
  by_cases r : (w.lp a.head).ls.rev = false
  · rw [Arc.V_nil r]
    by_cases k : (w.lp a.head).ls.keep = false
    · rw [Arc.P_drop k]
      unfold Work.followed
      dsimp only
      rw [if_pos r, if_pos k]
      simp [endsOf]
    · rw [Arc.P_keep (by simpa using k) r]
      unfold Work.followed
      dsimp only
      rw [if_pos r, if_neg k]
      rfl
  · rw [Arc.P_rev (by simpa using r), Arc.V_rev (by simpa using r)]
    unfold Work.followed endsOf
    dsimp only
    rw [if_neg r]
    dsimp only
    by_cases k : (w.lp a.head).ls.keep = true ∧ a.mid ≠ []
    · rw [if_pos k]
      have e : (a.vpiece w.lp).rest = a.mid.reverse := by unfold Arc.vpiece; simp [k.1]
      rw [List.filter_cons, if_pos (by rw [e]; simp [k.2])]
      simp only [List.map_nil, List.nil_append, List.filter_nil, List.map_cons, e]
      congr 2
      obtain ⟨p, ps, hm⟩ := List.exists_cons_of_ne_nil k.2
      rw [hm]; simp
    · rw [if_neg k]
      have e : (a.vpiece w.lp).rest = [] := by
        unfold Arc.vpiece
        by_cases k1 : (w.lp a.head).ls.keep = true
        · simp only [k1, if_true]
          by_cases m : a.mid = []
          · simp [m]
          · exact absurd ⟨k1, m⟩ k
        · simp [k1]
      rw [List.filter_cons, if_neg (by rw [e]; simp)]; simp

theorem endsOf_append (P P' : List Piece) (V V' : List VPiece) :
    (endsOf (P ++ P') (V ++ V')).Perm (endsOf P V ++ endsOf P' V') := by
  unfold endsOf
  rw [List.map_append, List.filter_append, List.map_append, List.perm_iff_count]
  intro k
  simp only [List.count_append]
  omega

theorem Inv1.follow {w : Work} {a : Arc} {R : List Arc} {P : List Piece} {V : List VPiece} (h : Inv1 w (a :: R) P V) :
    w.follow a.head = some (w.followed a) ∧ Inv1 (w.followed a) R (P ++ a.P w.lp) (V ++ a.V w.lp) := by
  have ha := h.arcs a List.mem_cons_self
  have hnd : ((a.nodes ++ R.flatMap Arc.nodes) ++ (P.flatMap Piece.nodes ++ (V.flatMap VPiece.rest ++ w.orphans))).Nodup := h.nodup
  have hlt : ∀ k ∈ (a.nodes ++ R.flatMap Arc.nodes) ++ (P.flatMap Piece.nodes ++ (V.flatMap VPiece.rest ++ w.orphans)), k < w.np := h.lt
  have hrest : ∀ k, k < w.np → (w.lp k).keep = true →
    k ∈ (a.nodes ++ R.flatMap Arc.nodes) ++ (P.flatMap Piece.nodes ++ (V.flatMap VPiece.rest ++ w.orphans)) := h.rest
  have hperm : (((R.flatMap Arc.nodes ++ ((P ++ a.P w.lp).flatMap Piece.nodes ++ ((V ++ a.V w.lp).flatMap VPiece.rest ++ (w.followed a).orphans))))
      ++ a.D w.lp).Perm ((a.nodes ++ R.flatMap Arc.nodes) ++ (P.flatMap Piece.nodes ++ (V.flatMap VPiece.rest ++ w.orphans))) := by
    rw [followed_orphans, List.flatMap_append, List.flatMap_append, List.perm_iff_count]
    intro k
    have := List.perm_iff_count.mp (a.split_perm w.lp) k
    simp only [List.count_append] at this ⊢
    omega
  have hlen : a.mid.length ≤ w.np := by
    have h1 : a.nodes.Nodup := ha.nodup
    have h2 : a.nodes ⊆ List.range w.np := by
      intro k hk
      exact List.mem_range.mpr (hlt k (by simp [hk]))
    have := (List.subperm_of_subset h1 h2).length_le
    simp [Arc.nodes] at this
    omega
  refine ⟨follow_spec w a ha hlen, ?_⟩
  -- disjointness
  have dj : ∀ k, k ∈ R.flatMap Arc.nodes ++ (P.flatMap Piece.nodes ++ (V.flatMap VPiece.rest ++ w.orphans)) → k ∉ a.mid := by
    intro k hk c
    rw [List.append_assoc, List.nodup_append] at hnd
    exact hnd.2.2 k (List.mem_cons_of_mem _ c) k hk rfl
  have djr : ∀ k, k ∉ a.mid → (w.followed a).lp k = w.lp k := by
    intro k hk
    rw [followed_lp]
    exact updAll_other _ _ _ _ _ hk
  have ek : ∀ k, (w.lp k).st ≠ .undef → (w.followed a).lp k = w.lp k := fun k hk => djr k (fun c => hk (ha.mid k c))
  have ek2 : ∀ k, (w.lp k).st ≠ .undef → ((w.followed a).lp k).data = (w.lp k).data ∧ ((w.followed a).lp k).st ≠ .undef :=
    fun k hk => by rw [ek k hk]; exact ⟨rfl, hk⟩
  constructor
  · intro b hb
    have hb' := h.arcs b (List.mem_cons_of_mem _ hb)
    refine hb'.congr (fun k hk => djr k (dj k ?_)) (ek2 _ hb'.stop).2
    exact List.mem_append_left _ (List.mem_flatMap.mpr ⟨b, hb, hk⟩)
  · intro b hb
    rcases List.mem_append.mp hb with c | c
    · refine (h.pieces b c).congr (fun k hk => djr k (dj k ?_)) ek2
      exact List.mem_append_right _ (List.mem_append_left _ (List.mem_flatMap.mpr ⟨b, c, hk⟩))
    · unfold Arc.P at c
      split at c
      · rename_i kr
        rw [List.mem_singleton.mp c, followed_lp]
        exact (Arc.piece_ok ha kr.1 kr.2).1
      · simp at c
  · intro b hb
    rcases List.mem_append.mp hb with c | c
    · refine (h.virts b c).congr (fun k hk => djr k (dj k ?_)) ek2
      exact List.mem_append_right _ (List.mem_append_right _ (List.mem_append_left _ (List.mem_flatMap.mpr ⟨b, c, hk⟩)))
    · unfold Arc.V at c
      split at c
      · rename_i kr
        rw [List.mem_singleton.mp c, followed_lp]
        exact (Arc.vpiece_ok ha kr).1
      · simp at c
  · exact (List.nodup_append.mp (hperm.nodup_iff.mpr hnd)).1
  · intro k hk
    rw [followed_np]
    exact hlt k (hperm.subset (List.mem_append_left _ hk))
  · intro k hk hkk
    rw [followed_np] at hk
    have h1 : k ∈ (a.nodes ++ R.flatMap Arc.nodes) ++ (P.flatMap Piece.nodes ++ (V.flatMap VPiece.rest ++ w.orphans)) := by
      by_cases m : k ∈ a.mid
      · simp [Arc.nodes, m]
      · rw [djr k m] at hkk
        exact hrest k hk hkk
    rcases List.mem_append.mp (hperm.symm.subset h1) with c | c
    · exact c
    · exfalso
      unfold Arc.D at c
      by_cases kp : (w.lp a.head).ls.keep = true
      · rw [if_pos kp] at c; simp at c
      · rw [if_neg kp] at c
        have km : k ∈ a.nodes := by
          split at c
          · exact List.mem_cons_of_mem _ c
          · exact c
        rcases List.mem_cons.mp km with e | e
        · have e : k = a.head := e
          rw [e, djr _ (List.nodup_cons.mp ha.nodup).1] at hkk
          unfold OP.keep at hkk
          rw [ha.head_st] at hkk
          exact kp hkk
        · rw [followed_lp] at hkk
          unfold OP.keep at hkk
          rw [(updAll_facts ha _ e).1] at hkk
          exact kp hkk
  · intro o ho
    rw [followed_orphans] at ho
    rcases List.mem_append.mp ho with c | c
    · rw [djr o (dj o (by simp [c]))]; exact h.orphan o c
    · unfold Arc.O at c
      split at c
      · rw [List.mem_singleton.mp c, djr _ (List.nodup_cons.mp ha.nodup).1, ha.head_st]
        exact ⟨ha.anchor, by simp⟩
      · simp at c
  · intro c
    rw [followed_starts, List.map_append, List.filter_append]
    have e : ∀ i ∈ P.map Piece.first, (w.followed a).lp i = w.lp i := by
      intro i hi
      obtain ⟨b, hb, rfl⟩ := List.mem_map.mp hi
      refine djr _ (dj _ ?_)
      exact List.mem_append_right _ (List.mem_append_left _ (List.mem_flatMap.mpr ⟨b, hb, List.mem_cons_self⟩))
    have e2 : ∀ i ∈ (a.P w.lp).map Piece.first, (w.followed a).lp i = w.lp i := by
      intro i hi
      obtain ⟨b, hb, rfl⟩ := List.mem_map.mp hi
      unfold Arc.P at hb
      split at hb
      · rw [List.mem_singleton.mp hb]
        exact djr _ (List.nodup_cons.mp ha.nodup).1
      · simp at hb
    rw [List.filter_congr (fun i hi => by rw [e i hi] : ∀ i ∈ P.map Piece.first, (decide (((w.followed a).lp i).data = c)) = decide ((w.lp i).data = c))]
    rw [List.filter_congr (fun i hi => by rw [e2 i hi] : ∀ i ∈ (a.P w.lp).map Piece.first, (decide (((w.followed a).lp i).data = c)) = decide ((w.lp i).data = c))]
    exact (h.starts c).append_right _
  · rw [followed_ends]
    exact ((h.ends.append_right _).trans (endsOf_append _ _ _ _).symm)
  · intro c
    rw [followed_virts, h.vps c, List.filter_append, List.map_append]

theorem Inv1.follow_corners {w : Work} {a : Arc} {R : List Arc} {P : List Piece} {V : List VPiece} (h : Inv1 w (a :: R) P V) :
    (corners (w.followed a) R (P ++ a.P w.lp) (V ++ a.V w.lp)).Perm (corners w (a :: R) P V) ∧
    (revHeads (w.followed a) R).Perm (revHeads w (a :: R)) ∧
    (revStops (w.followed a) R (V ++ a.V w.lp)).Perm (revStops w (a :: R) V) := by
  have ha := h.arcs a List.mem_cons_self
  have hnd : ((a.nodes ++ R.flatMap Arc.nodes) ++ (P.flatMap Piece.nodes ++ (V.flatMap VPiece.rest ++ w.orphans))).Nodup := h.nodup
  have dj : ∀ k, k ∈ R.flatMap Arc.nodes ++ (P.flatMap Piece.nodes ++ (V.flatMap VPiece.rest ++ w.orphans)) → (w.followed a).lp k = w.lp k := by
    intro k hk
    rw [followed_lp]
    refine updAll_other _ _ _ _ _ (fun c => ?_)
    rw [List.append_assoc, List.nodup_append] at hnd
    exact hnd.2.2 k (List.mem_cons_of_mem _ c) k hk rfl
  have ek : ∀ k, (w.lp k).st ≠ .undef → (w.followed a).lp k = w.lp k := fun k hk => by
    rw [followed_lp]
    exact updAll_keep ha _ hk
  have djR : ∀ b ∈ R, ∀ k ∈ b.nodes, (w.followed a).lp k = w.lp k := fun b hb k hk =>
    dj k (List.mem_append_left _ (List.mem_flatMap.mpr ⟨b, hb, hk⟩))
  have eR : R.flatMap (Arc.lines (w.followed a).lp) = R.flatMap (Arc.lines w.lp) := by
    apply List.flatMap_congr
    intro b hb
    apply Arc.lines_congr (djR b hb)
    rw [ek _ (h.arcs b (List.mem_cons_of_mem _ hb)).stop]
  have ehd : ∀ b ∈ R, (w.followed a).lp b.head = w.lp b.head := fun b hb => djR b hb _ List.mem_cons_self
  have est : ∀ b ∈ R, (w.followed a).lp b.stop = w.lp b.stop := fun b hb => ek _ (h.arcs b (List.mem_cons_of_mem _ hb)).stop
  have eF : R.filter (fun b => ((w.followed a).lp b.head).ls.rev) = R.filter (fun b => (w.lp b.head).ls.rev) :=
    List.filter_congr (fun b hb => by rw [ehd b hb])
  refine ⟨?_, ?_, ?_⟩
  · unfold corners
    rw [List.flatMap_cons, eR, List.map_append, List.filter_append, List.map_append]
    have eP : P.map (Piece.corners (w.followed a).lp) = P.map (Piece.corners w.lp) := by
      apply List.map_congr_left
      intro b hb
      exact Piece.corners_congr (fun k hk => dj k
        (List.mem_append_right _ (List.mem_append_left _ (List.mem_flatMap.mpr ⟨b, hb, hk⟩))))
    have eV : (V.filter VPiece.keep).map (VPiece.corners (w.followed a).lp) = (V.filter VPiece.keep).map (VPiece.corners w.lp) := by
      apply List.map_congr_left
      intro b hb
      exact VPiece.corners_congr (fun k hk => dj k
        (List.mem_append_right _ (List.mem_append_right _ (List.mem_append_left _ (List.mem_flatMap.mpr ⟨b, (List.mem_filter.mp hb).1, hk⟩)))))
    rw [eP, eV]
    have key : ((a.P w.lp).map (Piece.corners (w.followed a).lp) ++ ((a.V w.lp).filter VPiece.keep).map (VPiece.corners (w.followed a).lp)).Perm
        (a.lines w.lp) := by
      rw [followed_lp]
      unfold Arc.P Arc.V Arc.lines
      by_cases k : (w.lp a.head).ls.keep = true <;> by_cases r : (w.lp a.head).ls.rev = true
      · rw [if_neg (by simp [r]), if_pos r, if_pos k, if_pos r]
        have e : (a.vpiece w.lp).keep = true := k
        rw [List.filter_cons, if_pos e, List.filter_nil, List.map_cons, (Arc.vpiece_ok ha r).2 k]
        exact List.Perm.refl _
      · have r' : (w.lp a.head).ls.rev = false := by simpa using r
        rw [if_pos ⟨k, r'⟩, if_neg r, if_pos k, if_neg r, List.map_cons, (Arc.piece_ok ha k r').2]
        exact List.Perm.refl _
      · rw [if_neg (by simp [r]), if_pos r, if_neg k]
        have e : ¬(a.vpiece w.lp).keep = true := k
        rw [List.filter_cons, if_neg e]
        exact List.Perm.refl _
      · rw [if_neg (by simp [k]), if_neg r, if_neg k]
        exact List.Perm.refl _
    rw [List.perm_iff_count] at key ⊢
    intro l
    have := key l
    simp only [List.count_append] at this ⊢
    omega
  · unfold revHeads
    rw [eF, followed_orphans, List.map_append]
    have e1 : w.orphans.map (fun i => ((w.followed a).lp i).data) = w.orphans.map (fun i => (w.lp i).data) :=
      List.map_congr_left (fun i hi => by rw [dj i (by simp [hi])])
    have e2 : (R.filter (fun b => (w.lp b.head).ls.rev)).map (fun b => ((w.followed a).lp b.head).data) =
        (R.filter (fun b => (w.lp b.head).ls.rev)).map (fun b => (w.lp b.head).data) :=
      List.map_congr_left (fun i hi => by rw [ehd i (List.mem_filter.mp hi).1])
    have e3 : (a.O w.lp).map (fun i => ((w.followed a).lp i).data) = (a.O w.lp).map (fun i => (w.lp i).data) := by
      apply List.map_congr_left
      intro i hi
      unfold Arc.O at hi
      split at hi
      · rw [List.mem_singleton.mp hi, ek _ (by rw [ha.head_st]; simp)]
      · simp at hi
    rw [e1, e2, e3, List.append_assoc]
    refine List.Perm.append_left _ ?_
    unfold Arc.O
    by_cases r : (w.lp a.head).ls.rev = true
    · rw [if_pos r, List.filter_cons, if_pos r]; exact List.Perm.refl _
    · rw [if_neg r, List.filter_cons, if_neg r]; exact List.Perm.refl _
  · unfold revStops
    rw [eF, List.map_append]
    have e2 : (R.filter (fun b => (w.lp b.head).ls.rev)).map (fun b => ((w.followed a).lp b.stop).data) =
        (R.filter (fun b => (w.lp b.head).ls.rev)).map (fun b => (w.lp b.stop).data) :=
      List.map_congr_left (fun i hi => by rw [est i (List.mem_filter.mp hi).1])
    rw [e2, List.append_assoc]
    refine List.Perm.append_left _ ?_
    unfold Arc.V
    by_cases r : (w.lp a.head).ls.rev = true
    · rw [if_pos r, List.filter_cons, if_pos r]; exact List.Perm.refl _
    · rw [if_neg r, List.filter_cons, if_neg r]; exact List.Perm.refl _

/-- Anchors stay anchors, the other points keep their coordinates. -/
def Same (w w' : Work) : Prop :=
  w'.np = w.np ∧ ∀ k, (w'.lp k).anchor = (w.lp k).anchor ∧ ((w.lp k).anchor = false → (w'.lp k).data = (w.lp k).data)

theorem Same.refl (w : Work) : Same w w := ⟨rfl, fun _ => ⟨rfl, fun _ => rfl⟩⟩

theorem Same.trans {a b c : Work} (h : Same a b) (g : Same b c) : Same a c :=
  ⟨g.1.trans h.1, fun k => ⟨(g.2 k).1.trans (h.2 k).1, fun e => ((g.2 k).2 ((h.2 k).1.trans e)).trans ((h.2 k).2 e)⟩⟩

theorem IsArc.same {w : Work} {a : Arc} (h : IsArc w.lp a) : Same w (w.followed a) := by
  refine ⟨followed_np w a, fun k => ?_⟩
  rw [followed_lp]
  by_cases c : k ∈ a.mid
  · exact ⟨(updAll_facts h _ c).2.1, (updAll_facts h _ c).2.2.1⟩
  · rw [updAll_other _ _ _ _ _ c]; exact ⟨rfl, fun _ => rfl⟩

/-- Following all arcs. -/
theorem Inv1.followAll : ∀ {R : List Arc} {w : Work} {P : List Piece} {V : List VPiece}, Inv1 w R P V →
    ∃ w' P' V', w.followAll (R.map Arc.head) = some w' ∧ Inv1 w' [] P' V' ∧ (corners w' [] P' V').Perm (corners w R P V) ∧
      (revHeads w' []).Perm (revHeads w R) ∧ (revStops w' [] V').Perm (revStops w R V) ∧ Same w w'
  | [], w, P, V, h => ⟨w, P, V, rfl, h, List.Perm.refl _, List.Perm.refl _, List.Perm.refl _, Same.refl w⟩
  | a :: R, w, P, V, h => by
    obtain ⟨h1, h2⟩ := h.follow
    obtain ⟨c1, c2, c3⟩ := h.follow_corners
    obtain ⟨w', P', V', e1, e2, e3, e4, e5, e6⟩ := Inv1.followAll h2
    refine ⟨w', P', V', ?_, e2, e3.trans c1, e4.trans c2, e5.trans c3, (h.arcs a List.mem_cons_self).same.trans e6⟩
    rw [List.map_cons]
    unfold Work.followAll
    rw [h1, Option.bind_some, e1]

end PolyOps.Loops
