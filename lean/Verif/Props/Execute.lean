import Mathlib.Data.Sym.Sym2
import Verif.Lemmas.Stored
import Verif.Lemmas.Deform
import Verif.Props.Ends
import Verif.Props.Planar
import Verif.Lemmas.OutParts

/-! C52: an operation from the polygons given to the polygons returned. -/
namespace PolyOps.Exec
open PolyOps PolyOps.Sweep PolyOps.Region PolyOps.Planarity PolyOps.Loops PolyOps.PointSink PolyOps.Clipper

/-! ### Edges of the output -/

theorem edges_range (n : Nat) (hn : 0 < n) (h : Nat → Pt) (hc : h n = h 0) : edges ((List.range n).map h) = (List.range n).map fun m => (h m, h (m + 1)) := by
  obtain ⟨n, rfl⟩ : ∃ m, n = m + 1 := ⟨n - 1, by omega⟩
  have e : (List.range (n + 1)).map h = h 0 :: (List.range n).map fun m => h (m + 1) := by
    rw [List.range_succ_eq_map, List.map_cons, List.map_map]; rfl
  rw [e]
  change walk (h 0) (((List.range n).map fun m => h (m + 1)) ++ [h 0]) = _
  have e2 : ((List.range n).map fun m => h (m + 1)) ++ [h 0] = (List.range (n + 1)).map fun m => h (m + 1) := by
    rw [List.range_succ, List.map_append, List.map_singleton, hc]
  rw [e2, walk_eq, List.length_map, List.length_range]
  have e3 : h 0 :: (List.range (n + 1)).map (fun m => h (m + 1)) = (List.range (n + 2)).map h := by
    rw [List.range_succ_eq_map (n := n + 1), List.map_cons, List.map_map]; rfl
  rw [e3]
  apply List.map_congr_left
  intro i hi
  rw [List.mem_range] at hi
  rw [List.getD_eq_getElem _ _ (by simp; omega), List.getD_eq_getElem _ _ (by simp; omega)]
  simp

theorem loops_ne (w : Work) (g : Found) (h : ∀ l ∈ g.loops, 0 < l.2 ∧ g.next^[l.2] l.1 = l.1) : ∀ l ∈ g.loops.map (loopPts w g), l ≠ [] := by
  intro l hl e
  obtain ⟨m, hm, rfl⟩ := List.mem_map.mp hl
  have := congrArg List.length e
  simp only [loopPts, List.length_map, List.length_range, List.length_nil] at this
  exact absurd this (h m hm).1.ne'

theorem loop_edges (w : Work) (g : Found) (h : ∀ l ∈ g.loops, 0 < l.2 ∧ g.next^[l.2] l.1 = l.1) :
    (g.loops.map (loopPts w g)).flatMap edges = (g.loops.flatMap g.ring).map fun i => ((w.lp i).data, (w.lp (g.next i)).data) := by
  rw [List.flatMap_map, List.map_flatMap]
  apply List.flatMap_congr
  intro l hl
  obtain ⟨h1, h2⟩ := h l hl
  unfold loopPts Found.ring
  rw [edges_range l.2 h1 (fun m => (w.lp (g.next^[m] l.1)).data) (by rw [h2]; rfl), List.map_map]
  apply List.map_congr_left
  intro m _
  simp only [Function.comp, Function.iterate_succ_apply']

theorem loop_lines (w : Work) (g : Found) (h : ∀ l ∈ g.loops, 0 < l.2 ∧ g.next^[l.2] l.1 = l.1) {m : Nat} (hm : m < g.loops.length) :
    edges ((g.loops.map (loopPts w g)).getD m []) = Loops.loopLines w g m := by
  have hl : g.loops.getD m (0, 0) ∈ g.loops := by rw [List.getD_eq_getElem _ _ hm]; exact List.getElem_mem hm
  obtain ⟨h1, h2⟩ := h _ hl
  unfold Loops.loopLines Found.ring lineOf
  rw [List.getD_eq_getElem _ _ (by simpa using hm), List.getElem_map]
  rw [List.getD_eq_getElem _ _ hm] at h1 h2 ⊢
  unfold loopPts
  rw [edges_range _ h1 (fun m' => (w.lp (g.next^[m'] g.loops[m].1)).data) (by rw [h2]; rfl), List.map_map]
  apply List.map_congr_left
  intro m _
  simp only [Function.comp, Function.iterate_succ_apply']

theorem Single.perm {E E' : List (Pt × Pt)} (h : Single E) (p : E.Perm E') : Single E' :=
  ⟨p.nodup_iff.mp h.1, fun e he hc => h.2 e (p.mem_iff.mpr he) (p.mem_iff.mpr hc)⟩

theorem single_used {f : Clip} {op : BoolOp} {lp' : Nat → OP} (hd : ∀ i, (lp' i).data = (f.lp i).data) (hx : ∀ i, (lp' i).next = (f.lp i).next)
    (hS : Single (f.lines.map fun l => (l.p, l.q))) : Single (keptLines lp' f.np (cls f op)) := by
  unfold Clip.lines at hS
  rw [List.map_map] at hS
  have mem : ∀ i < f.np, ((f.lp i).data, (f.lp (f.lp i).next).data) ∈ (List.range f.np).map ((fun l : Line => (l.p, l.q)) ∘ f.line) :=
    fun i hi => List.mem_map.mpr ⟨i, List.mem_range.mpr hi, rfl⟩
  have inj : ∀ i < f.np, ∀ j < f.np, ((f.lp i).data, (f.lp (f.lp i).next).data) = ((f.lp j).data, (f.lp (f.lp j).next).data) → i = j :=
    fun i hi j hj h => List.inj_on_of_nodup_map hS.1 (List.mem_range.mpr hi) (List.mem_range.mpr hj) h
  have hu : ∀ i, used lp' (cls f op) i = ((f.lp i).data, (f.lp (f.lp i).next).data) ∨ used lp' (cls f op) i = ((f.lp (f.lp i).next).data, (f.lp i).data) := by
    intro i
    unfold used
    rw [hd, hx, hd]
    split
    · exact Or.inr rfl
    · exact Or.inl rfl
  have norev : ∀ i < f.np, ∀ j < f.np, ((f.lp i).data, (f.lp (f.lp i).next).data) ≠ ((f.lp (f.lp j).next).data, (f.lp j).data) := by
    intro i hi j hj h
    have := hS.2 _ (mem j hj)
    rw [← h] at this
    exact this (mem i hi)
  have lt : ∀ i ∈ (List.range f.np).filter fun i => (cls f op i).keep, i < f.np := fun i hi => List.mem_range.mp (List.mem_filter.mp hi).1
  constructor
  · refine List.Nodup.map_on ?_ (List.nodup_range.filter _)
    intro i hi j hj h
    rcases hu i with a | a <;> rcases hu j with b | b <;> rw [a, b] at h
    · exact inj i (lt i hi) j (lt j hj) h
    · exact absurd h (norev i (lt i hi) j (lt j hj))
    · exact absurd h.symm (norev j (lt j hj) i (lt i hi))
    · rw [Prod.mk.injEq] at h
      exact inj i (lt i hi) j (lt j hj) (by rw [h.1, h.2])
  · intro e he hr
    obtain ⟨i, hi, rfl⟩ := List.mem_map.mp he
    obtain ⟨j, hj, h⟩ := List.mem_map.mp hr
    rcases hu i with a | a <;> rcases hu j with b | b <;> rw [a, b] at h
    · exact norev j (lt j hj) i (lt i hi) h
    · have := inj i (lt i hi) j (lt j hj) (by rw [Prod.mk.injEq] at h; rw [h.1, h.2])
      subst this
      exact norev i (lt i hi) i (lt i hi) (a.symm.trans b)
    · have := inj i (lt i hi) j (lt j hj) (by rw [Prod.mk.injEq] at h; rw [h.1, h.2])
      subst this
      exact norev i (lt i hi) i (lt i hi) (b.symm.trans a)
    · rw [Prod.mk.injEq] at h
      exact norev i (lt i hi) j (lt j hj) (by dsimp only at h; rw [h.1, h.2])

theorem Parts.congr {K : List (Pt × Pt)} {n : Nat} {L L' : Nat → List (Pt × Pt)} (P : Parts K n L) (h : ∀ m < n, L m = L' m) : Parts K n L' :=
  ⟨P.arr, fun a ha => by rw [← h a ha]; exact P.sub a ha, fun a ha => by rw [← h a ha]; exact P.bal a ha,
    fun a ha => by rw [← h a ha]; exact P.nodup a ha, fun a ha => by rw [← h a ha]; exact P.ne a ha,
    fun a ha b hb => by rw [← h a ha, ← h b hb]; exact P.disj a ha b hb, fun a ha b hb => by rw [← h a ha, ← h b hb]; exact P.const a ha b hb⟩

theorem above_filter (T : List (BSet × Pt × Pt)) (k : BSet) (x y : Rat) : edgesAbove ((T.filter fun e => e.1 = k).map Prod.snd) x y =
    (T.map fun e => if e.1 = k then Sweep.contrib x y e.2.1 e.2.2 else 0).sum := by
  induction T with
  | nil => rfl
  | cons e T ih =>
    rw [List.filter_cons, List.map_cons, List.sum_cons, ← ih]
    by_cases c : e.1 = k
    · rw [if_pos (by simpa using c), if_pos c, ← contrib_eq]
      unfold edgesAbove
      simp
    · rw [if_neg (by simpa using c), if_neg c, zero_add]

theorem cross_filter (L : List Line) (k : BSet) (x y : Rat) :
    crossAbove L k x y = edgesAbove (((L.map fun l => (l.set, l.p, l.q)).filter fun e => e.1 = k).map Prod.snd) x y := by
  rw [above_filter, crossAbove_mul, List.map_map]; rfl

theorem pieces_filter (B : List Bent) (k : BSet) :
    ((B.flatMap fun b => b.pieces.map fun e => (b.set, e)).filter fun e => e.1 = k).map Prod.snd = piecesOf B k := by
  induction B with
  | nil => rfl
  | cons b B ih =>
    unfold piecesOf at *
    rw [List.flatMap_cons, List.filter_append, List.map_append, ih, List.filter_cons, List.filter_map]
    by_cases c : b.set = k
    · rw [if_pos (by simpa using c), List.flatMap_cons]
      congr 1
      have : ((fun e : BSet × Pt × Pt => decide (e.1 = k)) ∘ fun e : Pt × Pt => (b.set, e)) = fun _ => true := by
        funext e; simp [c]
      rw [this, List.filter_true, List.map_map]
      exact List.map_id _
    · rw [if_neg (by simpa using c)]
      have : ((fun e : BSet × Pt × Pt => decide (e.1 = k)) ∘ fun e : Pt × Pt => (b.set, e)) = fun _ => false := by
        funext e; simp [c]
      rw [this]; simp

theorem pieces_mem {B : List Bent} {k : BSet} {e : Pt × Pt} (h : e ∈ piecesOf B k) : e ∈ B.flatMap Bent.pieces := by
  obtain ⟨b, hb, he⟩ := List.mem_flatMap.mp h
  exact List.mem_flatMap.mpr ⟨b, (List.mem_filter.mp hb).1, he⟩

/-! ### The operation -/

/-- The place is an end of the edge. -/
def EndOf (e : Pt × Pt) (x y : Rat) : Prop := (x = e.1.x ∧ y = e.1.y) ∨ (x = e.2.x ∧ y = e.2.y)

/-- The edges without their directions. -/
def undirected (L : List (Pt × Pt)) : List (Sym2 Pt) := L.map fun e => s(e.1, e.2)

/-- What is known of the polygons `out` returned for bent input edges `B`. -/
structure Shape (op : BoolOp) (B : List Bent) (out : List (List Pt)) : Prop where
  /-- Each edge is a piece of an input edge, in one of its directions. -/
  edge : ∀ e ∈ out.flatMap edges, e ∈ B.flatMap Bent.pieces ∨ (e.2, e.1) ∈ B.flatMap Bent.pieces
  /-- The winding number is 1 in the region of the operation and 0 elsewhere. -/
  wind : ∀ x y, Off (B.flatMap Bent.pieces) x y → wind (out.flatMap edges) x y =
    if region op (wind (piecesOf B .subject) x y) (wind (piecesOf B .clip) x y) then 1 else 0
  /-- The pieces of a bent edge have two ends. -/
  two : ∀ b ∈ B, ∀ e ∈ b.pieces, e.1 ≠ e.2
  /-- If no two pieces coincide, no two edges returned do. -/
  single : Single (B.flatMap Bent.pieces) → Single (out.flatMap edges)
  /-- If no two edges returned coincide, the polygons are nested. -/
  nested : Single (out.flatMap edges) → Nested out
  /-- Any two edges have the same ends or meet only at places that are ends of both. -/
  meet : ∀ e ∈ out.flatMap edges, ∀ f ∈ out.flatMap edges, e = f ∨ e = (f.2, f.1) ∨ ∀ x y, OnSegQ x y e.1 e.2 → OnSegQ x y f.1 f.2 →
    EndOf e x y ∧ EndOf f x y
  /-- No polygon is empty. -/
  ne : ∀ l ∈ out, l ≠ []
  /-- No piece is returned more often than it is there. -/
  part : (undirected (out.flatMap edges)).Subperm (undirected (B.flatMap Bent.pieces))
  /-- `normalize` returns all pieces. -/
  whole : op = .normalize → (undirected (out.flatMap edges)).Perm (undirected (B.flatMap Bent.pieces))

/-- In addition bent edges go ahead. -/
structure Result (op : BoolOp) (B : List Bent) (out : List (List Pt)) : Prop extends Shape op B out where
  /-- A bent edge does not turn back along either axis, and its pieces have two ends. -/
  ahead : ∀ b ∈ B, Ahead b.edge.1 b.via b.edge.2 ∧ ∀ e ∈ b.pieces, e.1 ≠ e.2
  /-- An edge bent at `k` points stays within `k` units. -/
  near : ∀ b ∈ B, ∀ p ∈ b.via, NearEdge b.via.length b.edge.1 b.edge.2 p

/-- The edges of `out`, without their directions, are the lines of `f` that the operation keeps. -/
def Kept (f : Clip) (op : BoolOp) (out : List (List Pt)) : Prop :=
  (undirected (out.flatMap edges)).Perm (((List.range f.np).filter fun i => (cls f op i).keep).map fun i => s((f.lp i).data, (f.lp (f.lp i).next).data))

theorem kept_of {f s : Clip} {op : BoolOp} (sm : ∀ i, (s.lp i).data = (f.lp i).data ∧ (s.lp i).next = (f.lp i).next ∧ (s.lp i).set = (f.lp i).set) {out : List (List Pt)}
    (e4 : (out.flatMap edges).Perm (keptLines (fun i => opOf (s.lp i)) f.np (cls f op))) : Kept f op out := by
  unfold Kept undirected
  refine (e4.map _).trans (List.Perm.of_eq ?_)
  unfold keptLines
  rw [List.map_map]
  apply List.map_congr_left
  intro i _
  have d : ∀ i, (opOf (s.lp i)).data = (f.lp i).data := fun i => (sm i).1
  have n : ∀ i, (opOf (s.lp i)).next = (f.lp i).next := fun i => (sm i).2.1
  simp only [Function.comp, used, d, n]
  split
  · exact Sym2.eq_swap
  · rfl

section
variable {env env2 : Env} {lp : Nat → LP} {np : Nat} {f : Clip} (hok : EnvOk env) (hl : Loops lp np) (hr : Clip.Reach env lp np f) (hm : f.q.more = false)

include hok hl hr hm in
/-- What is known of polygons whose edges are the lines to be kept. -/
theorem shape_of (hp : Planar f.lines) {op : BoolOp} {s : Clip} (sm : ∀ i, (s.lp i).data = (f.lp i).data ∧ (s.lp i).next = (f.lp i).next ∧ (s.lp i).set = (f.lp i).set)
    {B : List Bent} (b3 : (f.lines.map fun l => (l.set, l.p, l.q)).Perm (B.flatMap fun b => b.pieces.map fun e => (b.set, e)))
    {out : List (List Pt)}
    (e4 : (out.flatMap edges).Perm (keptLines (fun i => opOf (s.lp i)) f.np (cls f op))) (hnest : Single (out.flatMap edges) → Nested out)
    (hfull : ∀ l ∈ out, l ≠ []) : Shape op B out := by
  have hmem : ∀ i < f.np, ((f.lp i).data, (f.lp (f.lp i).next).data) ∈ B.flatMap Bent.pieces := by
    intro i hi
    have : ((f.lp i).set, (f.lp i).data, (f.lp (f.lp i).next).data) ∈ f.lines.map fun l => (l.set, l.p, l.q) := by
      refine List.mem_map.mpr ⟨f.line i, List.mem_map.mpr ⟨i, List.mem_range.mpr hi, rfl⟩, rfl⟩
    have := b3.subset this
    obtain ⟨b, hb, he⟩ := List.mem_flatMap.mp this
    obtain ⟨e, he, h⟩ := List.mem_map.mp he
    simp only [Prod.mk.injEq] at h
    refine List.mem_flatMap.mpr ⟨b, hb, ?_⟩
    rw [← h.2]; exact he
  have hedge : ∀ e ∈ out.flatMap edges, e ∈ B.flatMap Bent.pieces ∨ (e.2, e.1) ∈ B.flatMap Bent.pieces := by
    intro e he
    have := e4.subset he
    unfold keptLines at this
    obtain ⟨i, hi, rfl⟩ := List.mem_map.mp this
    have hi := hmem i (List.mem_range.mp (List.mem_filter.mp hi).1)
    unfold used
    have d : ∀ i, (opOf (s.lp i)).data = (f.lp i).data := fun i => (sm i).1
    have n : ∀ i, (opOf (s.lp i)).next = (f.lp i).next := fun i => (sm i).2.1
    simp only [d, n]
    split
    · exact Or.inr hi
    · exact Or.inl hi
  have hlo := (reach_spec hok hl hr).1.1.toLoops
  have hpc : (f.lines.map fun l => (l.p, l.q)).Perm (B.flatMap Bent.pieces) := by
    have := b3.map Prod.snd
    rw [List.map_map, List.map_flatMap] at this
    refine this.trans (List.Perm.of_eq (List.flatMap_congr fun b _ => ?_))
    rw [List.map_map]
    exact List.map_id _
  have hne : ∀ b ∈ B, ∀ e ∈ b.pieces, e.1 ≠ e.2 := by
    intro b hb e he
    have := hpc.mem_iff.mpr (List.mem_flatMap.mpr ⟨b, hb, he⟩)
    obtain ⟨l, hl, rfl⟩ := List.mem_map.mp this
    obtain ⟨i, hi, rfl⟩ := List.mem_map.mp hl
    exact (hlo.pt_ne i (List.mem_range.mp hi)).symm
  have hsing : Single (B.flatMap Bent.pieces) → Single (out.flatMap edges) := by
    intro hS
    exact (single_used (fun i => (sm i).1) (fun i => (sm i).2.1) (hS.perm hpc.symm)).perm e4.symm
  have hmeet : ∀ e ∈ out.flatMap edges, ∀ f ∈ out.flatMap edges, e = f ∨ e = (f.2, f.1) ∨ ∀ x y, OnSegQ x y e.1 e.2 → OnSegQ x y f.1 f.2 →
      EndOf e x y ∧ EndOf f x y := by
    have line : ∀ e ∈ out.flatMap edges, ∃ l ∈ f.lines, e = (l.p, l.q) ∨ e = (l.q, l.p) := by
      intro e he
      rcases hedge e he with h | h <;> obtain ⟨l, hl, h⟩ := List.mem_map.mp (hpc.mem_iff.mpr h)
      · exact ⟨l, hl, Or.inl h.symm⟩
      · refine ⟨l, hl, Or.inr ?_⟩
        rw [Prod.mk.injEq] at h
        rw [h.1, h.2]
    have on : ∀ {e : Pt × Pt} {l : Line} {x y : Rat}, e = (l.p, l.q) ∨ e = (l.q, l.p) → (OnSegQ x y e.1 e.2 → l.on x y) ∧ (l.endAt x y → EndOf e x y) := by
      rintro _ l x y (rfl | rfl)
      · exact ⟨id, id⟩
      · exact ⟨onq_swap, Or.symm⟩
    intro e he g hg
    obtain ⟨l, hl, a⟩ := line e he
    obtain ⟨m, hm, b⟩ := line g hg
    rcases hp l hl m hm with (⟨c, d⟩ | ⟨c, d⟩) | h
    · rcases a with rfl | rfl <;> rcases b with rfl | rfl <;> simp only [c, d, Prod.mk.injEq, true_or, or_true, true_and, and_self]
    · rcases a with rfl | rfl <;> rcases b with rfl | rfl <;> simp only [c, d, Prod.mk.injEq, true_or, or_true, true_and, and_self]
    · refine Or.inr (Or.inr fun x y hx hy => ?_)
      obtain ⟨q1, q2⟩ := h x y ((on a).1 hx) ((on b).1 hy)
      exact ⟨(on a).2 q1, (on b).2 q2⟩
  have hund := kept_of sm e4
  have hlin : ((List.range f.np).map fun i => s((f.lp i).data, (f.lp (f.lp i).next).data)).Perm (undirected (B.flatMap Bent.pieces)) := by
    refine (List.Perm.of_eq ?_).trans (hpc.map fun e => s(e.1, e.2))
    rw [List.map_map]
    unfold Clip.lines
    rw [List.map_map]
    rfl
  refine ⟨hedge, fun x y hoff => ?_, hne, hsing, hnest, hmeet, hfull, ?_, ?_⟩
  rotate_left
  · exact (hund.subperm.trans (List.filter_sublist.map _).subperm).trans hlin.subperm
  · rintro rfl
    refine hund.trans ((List.Perm.of_eq ?_).trans hlin)
    congr 1
    refine List.filter_eq_self.mpr fun i _ => ?_
    unfold cls lbResult
    dsimp only
    split <;> rfl
  obtain ⟨z, hz, hk⟩ := wind_right (B.flatMap Bent.pieces ++ (B.flatMap Bent.pieces).map fun e => (e.2, e.1)) (x := x) (y := y) (by
    rw [Off.append]
    refine ⟨hoff, fun e he hc => ?_⟩
    obtain ⟨e', he', rfl⟩ := List.mem_map.mp he
    exact hoff e' he' (onq_swap hc))
  have gen : PolyOps.Generic f.lines z := by
    intro l hl
    obtain ⟨i, hi, rfl⟩ := List.mem_map.mp hl
    exact hz _ (List.mem_append_left _ (hmem i (List.mem_range.mp hi)))
  have hset : ∀ k, crossAbove f.lines k z y = wind (piecesOf B k) x y := by
    intro k
    rw [cross_filter, edgesAbove_perm ((b3.filter _).map _), pieces_filter, hk _ fun e he => List.mem_append_left _ (pieces_mem he)]
  rw [← hk, edgesAbove_perm e4, kept_winding hok hl hr hm hp op (fun i => (sm i).1) (fun i => (sm i).2.1) gen, hset, hset]
  intro e he
  rcases hedge e he with h | h
  · exact List.mem_append_left _ h
  · exact List.mem_append_right _ (List.mem_map.mpr ⟨_, h, rfl⟩)

theorem Shape.result {op : BoolOp} {B : List Bent} {out : List (List Pt)} (h : Shape op B out) (b4 : ∀ b ∈ B, Ahead b.edge.1 b.via b.edge.2)
    (b5 : ∀ b ∈ B, ∀ p ∈ b.via, NearEdge b.via.length b.edge.1 b.edge.2 p) : Result op B out := ⟨h, fun b hb => ⟨b4 b hb, h.two b hb⟩, b5⟩

end

/-! ### Fuel -/

theorem sweep1_stable {env : Env} {fuel : Nat} {s : Clip} {o : Out Clip} (h : sweep1 env fuel s = o) (ho : o ≠ .fuel) {fuel' : Nat} (hf : fuel ≤ fuel') :
    sweep1 env fuel' s = o := by
  induction fuel generalizing s fuel' with
  | zero => exact absurd h.symm ho
  | succ n ih =>
    obtain ⟨m, rfl⟩ : ∃ m, fuel' = m + 1 := ⟨fuel' - 1, by omega⟩
    unfold sweep1 at h ⊢
    split at h
    · rename_i c
      rw [if_pos c]
      cases ht : s.step env with
      | none => rw [ht] at h; exact h
      | some t => rw [ht] at h; exact ih h (by omega)
    · rename_i c
      rw [if_neg c]; exact h

theorem sweep2_stable {env : Env} {op : BoolOp} {fuel : Nat} {s : Clip} {r : List (Nat × List Nat)} {o : Out (Clip × List (Nat × List Nat))}
    (h : sweep2 env op fuel s r = o) (ho : o ≠ .fuel) {fuel' : Nat} (hf : fuel ≤ fuel') : sweep2 env op fuel' s r = o := by
  induction fuel generalizing s r fuel' with
  | zero => exact absurd h.symm ho
  | succ n ih =>
    obtain ⟨m, rfl⟩ : ∃ m, fuel' = m + 1 := ⟨fuel' - 1, by omega⟩
    unfold sweep2 at h ⊢
    split at h
    · rename_i c
      rw [if_pos c]
      cases ht : s.step2 env op with
      | none => rw [ht] at h; exact h
      | some t => rw [ht] at h; exact ih h (by omega)
    · rename_i c
      rw [if_neg c]; exact h

/-- The first sweep stops in a state without further events or needs more fuel. -/
theorem sweep1_cases {env : Env} (he : EnvOk env) {lp : Nat → LP} {np : Nat} (hl : Loops lp np) {s : Clip} (h : Clip.Reach env lp np s) (fuel : Nat) :
    sweep1 env fuel s = .fuel ∨ ∃ f, sweep1 env fuel s = .ok f ∧ Clip.Reach env lp np f ∧ f.q.more = false := by
  induction fuel generalizing s with
  | zero => exact Or.inl rfl
  | succ n ih =>
    unfold sweep1
    cases hm : s.q.more with
    | false => exact Or.inr ⟨s, rfl, h, hm⟩
    | true =>
      obtain ⟨t, ht, -⟩ := step_spec he (reach_spec he hl h).1 hm
      rw [ht]
      exact ih (h.step hm ht)

section
variable {G : Type} {P : Params G} {g : G} {rnd : Rat → Rat} {r : Nat → Bool × Bool} {pos : Clip → Nat → Nat} (hP : P.env1 g = realEnv rnd r pos)
  (hpos : PosOk (realEnv rnd r pos))

include hP hpos in
/-- What `execute` does if its first sweep stops with the lines `f`. -/
theorem exec_shape {c : Clipper G} (hc : c.ran = false) (hsm : c.samples = []) (hnn : c.nodes = 1) (hrg : c.rgen = g) (hg : Good c.pts)
    {f : Clip} (hr : Clip.Reach (realEnv rnd r pos) (lpOf c.pts) c.pts.length f) (hm : f.q.more = false) (hR : RangeOk c.pts.length f)
    {B : List Bent} (b3 : (f.lines.map fun l => (l.set, l.p, l.q)).Perm (B.flatMap fun b => b.pieces.map fun e => (b.set, e)))
    {k0 : Clip} (hk0 : (Clip.start (lpOf c.pts) c.pts.length).addLines c.pts.length = some k0) (op : BoolOp) (log : List TCall) :
    ∃ N st out, (∀ fuel, sweep1 (realEnv rnd r pos) fuel k0 = .ok f → (Clipper.execute P fuel op false (c, log) = .fuel ∧ fuel < N) ∨
      Clipper.execute P fuel op false (c, log) = .ok (st, ⟨out, none⟩)) ∧ Shape op B out ∧ Kept f op out := by
  have hok := realEnv_ok rnd r pos
  have hsound := realEnv_sound rnd r pos
  obtain ⟨N2, s, o, hs, hsm', hso⟩ := Ends.C51_second hok hg.loops hr hm (Clip.Reach2.init (env := P.env2 g) (op := op))
  have hp := planar_end hsound hpos hg.loops hr hm hR
  have hM := marks_end hsound hpos hg.loops hr hm hR
  obtain ⟨w, gf, e1, e2, e3, e4⟩ := out_edges hok hg.loops hr hm hg.unset hg.check hp hM hs hsm'
  obtain ⟨-, sm, -, -⟩ := C29_final hok hg.loops hr hm hs hsm'
  have hj : joinLoops ⟨fun i => opOf (s.lp i), s.np, fun _ => [], [], fun _ => [], [], []⟩ false o = some (w, gf, o) := by
    unfold joinLoops
    unfold Loops.doOp Work.init at e1
    rw [if_neg (by simp)]
    simp only [Option.bind_eq_some_iff, Option.map_eq_some_iff] at e1 ⊢
    obtain ⟨w1, h1, w2, h2, f', h3, h4⟩ := e1
    simp only [Prod.mk.injEq] at h4
    exact ⟨w1, h1, w2, h2, f', h3, by rw [h4.1, h4.2]⟩
  refine ⟨N2, ?_⟩
  have hex : ∃ st, ∀ fuel, sweep1 (realEnv rnd r pos) fuel k0 = .ok f → (Clipper.execute P fuel op false (c, log) = .fuel ∧ fuel < N2) ∨
      Clipper.execute P fuel op false (c, log) = .ok (st, ⟨gf.loops.map (loopPts w gf), none⟩) := by
    apply Exists.intro
    intro fuel hf
    unfold Clipper.execute
    simp only [hc, Bool.false_eq_true, if_false]
    unfold Clipper.doOp
    simp only [hc, Bool.false_eq_true, if_false]
    have hclip : ∀ ev : Events.Queue, ∀ st en vi orp lo tp, ev = Events.Queue.empty → (⟨c.pts, c.samples, ev, c.nodes, st, en, vi, orp, c.rgen, c.nextOrig, true, lo, tp⟩ : Clipper G).clip =
        Clip.start (lpOf c.pts) c.pts.length := by
      rintro ev st en vi orp lo tp rfl
      unfold Clipper.clip Clip.start
      dsimp only
      rw [hnn]; rfl
    rw [hclip _ _ _ _ _ _ _ rfl]
    have : (Clip.start (lpOf c.pts) c.pts.length).np = c.pts.length := rfl
    rw [this, hk0]
    simp only [Out.of, Out.bind]
    rw [hrg, hP, hf]
    simp only
    rw [hsm]
    by_cases h2 : sweep2 (P.env2 g) op fuel { f with q := f.q.rewind, sweep := [] } [] = .fuel
    · rw [h2]
      refine Or.inl ⟨rfl, ?_⟩
      by_contra hc
      rw [hso fuel (by omega)] at h2
      cases h2
    · right
      have := sweep2_stable rfl h2 (Nat.le_max_left fuel N2)
      rw [← this, hso _ (Nat.le_max_right fuel N2)]
      simp only
      rw [hj]
  obtain ⟨st, hst⟩ := hex
  refine ⟨st, gf.loops.map (loopPts w gf), hst, ?_⟩
  have hnest : Single ((gf.loops.map (loopPts w gf)).flatMap edges) → Nested (gf.loops.map (loopPts w gf)) := by
    intro hS
    have hpm : ((gf.loops.map (loopPts w gf)).flatMap edges).Perm (keptLines (fun i => opOf (s.lp i)) f.np (cls f op)) := by
      rw [loop_edges w gf e2]; exact e4
    obtain ⟨w', g', q1, q2, q3⟩ := out_parts hok hg.loops hr hm hg.unset hg.check hp hM hs hsm' (hS.perm hpm)
    rw [e1, Option.some.injEq, Prod.mk.injEq] at q1
    obtain ⟨rfl, rfl⟩ := q1
    refine nested_of ?_ hpm q3
    rw [List.length_map]
    exact q2.congr fun m hm => (loop_lines w gf e2 hm).symm
  exact ⟨shape_of hok hg.loops hr hm hp sm b3 (by rw [loop_edges w gf e2]; exact e4) hnest (loops_ne w gf e2), kept_of sm (by rw [loop_edges w gf e2]; exact e4)⟩

end

section
variable {G : Type} {P : Params G} {g : G} {r : Nat → Bool × Bool} {pos : Clip → Nat → Nat} (hP : P.env1 g = realEnv id r pos)
  (hpos : PosOk (realEnv id r pos))

/-- The first pass over the stored points `pts` ends with the lines `f`, and these are the pieces of the bent lines `B`. It does not depend on the operation. -/
structure Pass (r : Nat → Bool × Bool) (pos : Clip → Nat → Nat) (pts : List LP) (f : Clip) (B : List Bent) : Prop where
  reach : Clip.Reach (realEnv id r pos) (lpOf pts) pts.length f
  more : f.q.more = false
  ends : ∃ N s, (Clip.start (lpOf pts) pts.length).addLines pts.length = some s ∧ ∀ fuel ≥ N, sweep1 (realEnv id r pos) fuel s = .ok f
  ahead : ∀ b ∈ B, Ahead b.edge.1 b.via b.edge.2
  near : ∀ b ∈ B, ∀ p ∈ b.via, NearEdge b.via.length b.edge.1 b.edge.2 p
  bent : (f.lines.map fun l => (l.set, l.p, l.q)).Perm (B.flatMap fun b => b.pieces.map fun e => (b.set, e))

/-- Points are added at most one unit away from the lines they are added to. -/
theorem realEnv_within (r : Nat → Bool × Bool) (pos : Clip → Nat → Nat) : EnvLog (NearEdge 1) (realEnv id r pos) := by
  intro k s t q c hs ht _ h hp
  rcases realEnv_report r pos hs ht h hp with ⟨h1, h2⟩ | ⟨-, ⟨x, y, o1, o2, n1, n2⟩, -⟩
  · exact ⟨⟨_, _, h1, by simp, by simp⟩, ⟨_, _, h2, by simp, by simp⟩⟩
  · exact ⟨⟨x, y, o1, n1.le, n2.le⟩, ⟨x, y, o2, n1.le, n2.le⟩⟩

theorem pass_core (r : Nat → Bool × Bool) (pos : Clip → Nat → Nat) {Q : Pt → Pt → Pt → Prop} (hq1 : ∀ a b, Q a b a) (hq2 : ∀ a b, Q a b b)
    (hQ : ∀ p q a b c, Q p q a → Q p q b → Q a b c → Q p q c) (hbox : ∀ a b c, Q a b c → InBox c a b) {pts : List LP} (hg : Good pts)
    (hlog : ∀ f, Clip.Reach (realEnv id r pos) (lpOf pts) pts.length f → LogIn Q pts.length f) :
    ∃ f B, Pass r pos pts f B ∧ B.map (fun b => (b.set, b.edge)) = linesOf pts ∧ ∀ b ∈ B, ∀ p ∈ b.via, Q b.edge.1 b.edge.2 p := by
  obtain ⟨k0, hk0, -⟩ := start_inv hg.loops
  obtain ⟨N1, f, hr, hm, hf⟩ := Ends.C51_exact r pos hg.loops hk0
  obtain ⟨B, b1, b2, b4, b5, b3⟩ := bent_lines hq1 hq2 hQ (realEnv_ok id r pos) hg.loops hr (hlog f hr)
  rw [lines_input] at b1
  refine ⟨f, B, ⟨hr, hm, ⟨N1, k0, hk0, hf⟩, b4 hbox, fun b hb p hp => ?_, b3⟩, b1, b2⟩
  have := b5 _ _ (near_grade zero_le_one) (reach_log (Q := NearEdge 1) (fun _ _ _ => NearEdge.symm) (realEnv_ok id r pos) (realEnv_within r pos) hg.loops hr) b hb p hp
  rwa [mul_one] at this

include hP hpos in
theorem exec_core_kept {c : Clipper G} (hc : c.ran = false) (hsm : c.samples = []) (hnn : c.nodes = 1) (hrg : c.rgen = g) (hg : Good c.pts)
    {f : Clip} {B : List Bent} (hpass : Pass r pos c.pts f B) (op : BoolOp) (log : List TCall) :
    ∃ N st out, (∀ fuel ≥ N, Clipper.execute P fuel op false (c, log) = .ok (st, ⟨out, none⟩)) ∧ Result op B out ∧ Kept f op out := by
  obtain ⟨hr, hm, ⟨N1, k0, hk0, hf⟩, b4, b5, b3⟩ := hpass
  obtain ⟨N2, st, out, h1, h2, h3⟩ := exec_shape hP hpos hc hsm hnn hrg hg hr hm (reach_range (realEnv_ok id r pos) (realEnv_range r pos) hg.loops hr) b3 hk0 op log
  refine ⟨max N1 N2, st, out, fun fuel hfu => ?_, h2.result b4 b5, h3⟩
  rcases h1 fuel (hf fuel (by omega)) with ⟨_, h⟩ | h
  · omega
  · exact h

include hP hpos in
theorem exec_core {c : Clipper G} (hc : c.ran = false) (hsm : c.samples = []) (hnn : c.nodes = 1) (hrg : c.rgen = g) (hg : Good c.pts)
    {f : Clip} {B : List Bent} (hpass : Pass r pos c.pts f B) (op : BoolOp) (log : List TCall) :
    ∃ N st out, (∀ fuel ≥ N, Clipper.execute P fuel op false (c, log) = .ok (st, ⟨out, none⟩)) ∧ Result op B out := by
  obtain ⟨N, st, out, h1, h2, -⟩ := exec_core_kept hP hpos hc hsm hnn hrg hg hpass op log
  exact ⟨N, st, out, h1, h2⟩

end

/-! ### Added points with exact coordinates -/

/-- The cross product of the directions of two edges; 0 if they are parallel. -/
def cross (e f : Pt × Pt) : Int := (e.1.x - e.2.x) * (f.1.y - f.2.y) - (e.1.y - e.2.y) * (f.1.x - f.2.x)

/-- Edges that are not parallel only meet at places with integer coordinates. -/
def Lattice (E : List (Pt × Pt)) : Prop := ∀ e ∈ E, ∀ f ∈ E, cross e f ≠ 0 → ∀ x y : Rat, OnSegQ x y e.1 e.2 → OnSegQ x y f.1 f.2 →
  ∃ p : Pt, x = p.x ∧ y = p.y

theorem onq_box {a b c : Pt} (h : OnSegQ c.x c.y a b) : InBox c a b := by
  obtain ⟨t, t0, t1, h1, h2⟩ := h
  have key : ∀ u v w : Int, (w : Rat) = u + t * (v - u) → min u v ≤ w ∧ w ≤ max u v := by
    intro u v w e
    rcases le_total u v with c | c
    · have c' : (u : Rat) ≤ v := by exact_mod_cast c
      have l1 : (u : Rat) ≤ w := by rw [e]; nlinarith
      have l2 : (w : Rat) ≤ v := by rw [e]; nlinarith
      have l1 : u ≤ w := by exact_mod_cast l1
      have l2 : w ≤ v := by exact_mod_cast l2
      omega
    · have c' : (v : Rat) ≤ u := by exact_mod_cast c
      have l1 : (w : Rat) ≤ u := by rw [e]; nlinarith
      have l2 : (v : Rat) ≤ w := by rw [e]; nlinarith
      have l1 : w ≤ u := by exact_mod_cast l1
      have l2 : v ≤ w := by exact_mod_cast l2
      omega
  exact ⟨(key _ _ _ h1).1, (key _ _ _ h1).2, (key _ _ _ h2).1, (key _ _ _ h2).2⟩

/-- Both points are on one of the edges. -/
def Along (E : List (Pt × Pt)) (a b : Pt) : Prop := ∃ e ∈ E, OnSegQ a.x a.y e.1 e.2 ∧ OnSegQ b.x b.y e.1 e.2

theorem along_cross {e f : Pt × Pt} {s t : CSeg} (h1 : OnSegQ s.pa.x s.pa.y e.1 e.2) (h2 : OnSegQ s.pb.x s.pb.y e.1 e.2)
    (h3 : OnSegQ t.pa.x t.pa.y f.1 f.2) (h4 : OnSegQ t.pb.x t.pb.y f.1 f.2) (h : isD s t ≠ 0) : cross e f ≠ 0 := by
  intro h0
  apply h
  obtain ⟨a, -, -, a1, a2⟩ := h1
  obtain ⟨b, -, -, b1, b2⟩ := h2
  obtain ⟨c, -, -, c1, c2⟩ := h3
  obtain ⟨d, -, -, d1, d2⟩ := h4
  have h0' : ((e.1.x : Rat) - e.2.x) * (f.1.y - f.2.y) - (e.1.y - e.2.y) * (f.1.x - f.2.x) = 0 := by
    have : ((cross e f : Int) : Rat) = 0 := by rw [h0]; rfl
    unfold cross at this; push_cast at this; exact this
  have : ((isD s t : Int) : Rat) = 0 := by
    unfold isD
    push_cast
    rw [a1, a2, b1, b2, c1, c2, d1, d2]
    linear_combination (a - b) * (c - d) * h0'
  exact_mod_cast this

theorem near_int {m n : Int} (h : |(m : Rat) - n| < 1) : m = n := by
  have : |m - n| < 1 := by exact_mod_cast h
  rw [abs_lt] at this; omega

theorem lattice_env {E : List (Pt × Pt)} (hE : Lattice E) (r : Nat → Bool × Bool) (pos : Clip → Nat → Nat) :
    EnvLogOn (Along E) (fun a b c => OnSegQ c.x c.y a b) (realEnv id r pos) := by
  intro k s t q c hs ht _ ⟨e, he, e1, e2⟩ ⟨f, hf, f1, f2⟩ h hp
  rcases realEnv_report r pos hs ht h hp with h | ⟨hd, ⟨x, y, o1, o2, n1, n2⟩, -⟩
  · exact h
  · obtain ⟨p, rfl, rfl⟩ := hE e he f hf (along_cross e1 e2 f1 f2 hd) x y (onq_trans e1 e2 o1) (onq_trans f1 f2 o2)
    have hc : c = p := by
      cases c; cases p; rw [Pt.mk.injEq]; exact ⟨near_int n1, near_int n2⟩
    subst hc
    exact ⟨o1, o2⟩

theorem lattice_log {pts : List LP} (hg : Good pts) {E : List (Pt × Pt)} (hE : Lattice E) (hin : ∀ e ∈ linesOf pts, e.2 ∈ E)
    (r : Nat → Bool × Bool) (pos : Clip → Nat → Nat) {f : Clip} (hr : Clip.Reach (realEnv id r pos) (lpOf pts) pts.length f) :
    LogIn (fun a b c => OnSegQ c.x c.y a b) pts.length f := by
  refine (reach_logOn (R := Along E) (Q := fun a b c => OnSegQ c.x c.y a b) (fun _ _ _ => onq_swap) ?_ ?_ (realEnv_ok id r pos) (lattice_env hE r pos) hg.loops ?_ hr).log
  · rintro a b ⟨e, he, h1, h2⟩; exact ⟨e, he, h2, h1⟩
  · rintro a b c ⟨e, he, h1, h2⟩ hq
    have := onq_trans h1 h2 hq
    exact ⟨⟨e, he, h1, this⟩, e, he, this, h2⟩
  · intro i hi
    refine ⟨((lpOf pts i).data, (lpOf pts (lpOf pts i).next).data), hin ((lpOf pts i).set, _, _) ?_, onq_left _ _, onq_right _ _⟩
    refine List.mem_map.mpr ⟨lpOf pts i, ?_, rfl⟩
    unfold lpOf
    rw [List.getD_eq_getElem _ _ hi]
    exact List.getElem_mem hi

/-! ### Sequences of calls -/

/-- A clipper that holds no polygons. -/
structure Empty {G : Type} (c : Clipper G) : Prop where
  ran : c.ran = false
  pts : c.pts = []
  samples : c.samples = []
  nodes : c.nodes = 1

theorem fresh_empty {G : Type} (g : G) : Empty (Clipper.fresh g) := ⟨rfl, rfl, rfl, rfl⟩
theorem reset_empty {G : Type} (c : Clipper G) : Empty c.reset := ⟨rfl, rfl, rfl, rfl⟩

section
variable {G : Type} {P : Params G} {r : Nat → Bool × Bool} {pos : Clip → Nat → Nat} {c : Clipper G} (hP : P.env1 c.rgen = realEnv id r pos)
  (hpos : PosOk (realEnv id r pos)) (hc : Empty c)

/-- The first pass for the polygons added. -/
theorem run_pass (r : Nat → Bool × Bool) (pos : Clip → Nat → Nat) {Q : Pt → Pt → Pt → Prop} (hq1 : ∀ a b, Q a b a) (hq2 : ∀ a b, Q a b b)
    (hQ : ∀ p q a b c, Q p q a → Q p q b → Q a b c → Q p q c) (hbox : ∀ a b c, Q a b c → InBox c a b) {ps : List Poly}
    (hlog : ∀ pts f, Good pts → linesOf pts = inEdges ps → Clip.Reach (realEnv id r pos) (lpOf pts) pts.length f → LogIn Q pts.length f) :
    ∃ f B, Pass r pos (store [] ps) f B ∧ B.map (fun b => (b.set, b.edge)) = inEdges ps ∧ ∀ b ∈ B, ∀ p ∈ b.via, Q b.edge.1 b.edge.2 p := by
  have hg := good_store ps good_nil
  have hl : linesOf (store [] ps) = inEdges ps := lines_store ps good_nil
  rw [← hl]
  exact pass_core r pos hq1 hq2 hQ hbox hg fun f hr => hlog _ f hg hl hr

theorem box_pass (r : Nat → Bool × Bool) (pos : Clip → Nat → Nat) (ps : List Poly) :
    ∃ f B, Pass r pos (store [] ps) f B ∧ B.map (fun b => (b.set, b.edge)) = inEdges ps ∧ ∀ b ∈ B, ∀ p ∈ b.via, InBox p b.edge.1 b.edge.2 :=
  run_pass r pos (Q := Box) box_left box_right box_trans (fun _ _ _ h => h)
    (fun _ _ hg _ hr => reach_log (Q := Box) (fun _ _ _ => Box.symm) (realEnv_ok id r pos) (realEnv_box r pos) hg.loops hr)

/-- If edges that are not parallel only meet at integer points, all added points are on their edges. -/
theorem lattice_pass (r : Nat → Bool × Bool) (pos : Clip → Nat → Nat) {ps : List Poly} (hE : Lattice (ps.flatMap fun p => edges p.pts)) :
    ∃ f B, Pass r pos (store [] ps) f B ∧ B.map (fun b => (b.set, b.edge)) = inEdges ps ∧ ∀ b ∈ B, ∀ p ∈ b.via, OnSegQ p.x p.y b.edge.1 b.edge.2 := by
  have hin : ∀ e ∈ inEdges ps, e.2 ∈ ps.flatMap fun p => edges p.pts := by
    intro e he
    obtain ⟨p, hp, -, h⟩ := inEdges_mem he
    exact List.mem_flatMap.mpr ⟨p, hp, h⟩
  exact run_pass r pos (Q := fun a b c => OnSegQ c.x c.y a b) onq_left onq_right (fun _ _ _ _ _ h1 h2 h3 => onq_trans h1 h2 h3) (fun _ _ _ => onq_box)
    (fun pts f hg hl hr => lattice_log hg hE (by rw [hl]; exact hin) r pos hr)

include hP hpos hc in
theorem run_kept {ps : List Poly} (hf : Fine none ps) {f : Clip} {B : List Bent} (hpass : Pass r pos (store [] ps) f B) (op : BoolOp) (log : List TCall) :
    ∃ N st out, (∀ fuel ≥ N, run P fuel (ps.map Poly.cmd ++ [.exec op false]) (c, log) = .ok (st, List.replicate ps.length none ++ [some ⟨out, none⟩])) ∧
      Result op B out ∧ Kept f op out := by
  obtain ⟨h1, h2, h3, h4⟩ := hc
  obtain ⟨n, log', hrun⟩ := run_adds P ps c log h1 (by rw [h2]; exact hf)
  rw [h2] at hrun
  have hg := good_store ps good_nil
  obtain ⟨N, st, out, e1, e4⟩ := exec_core_kept (c := { c with pts := store [] ps, nextOrig := n }) hP hpos h1 h3 h4 rfl hg hpass op log'
  refine ⟨N, st, out, fun fuel hN => ?_, e4⟩
  rw [hrun]
  show ((((Clipper.execute P fuel op false _).bind _).bind _).bind _) = _
  rw [e1 fuel hN]
  rfl

include hP hpos hc in
theorem run_core {ps : List Poly} (hf : Fine none ps) {f : Clip} {B : List Bent} (hpass : Pass r pos (store [] ps) f B) (op : BoolOp) (log : List TCall) :
    ∃ N st out, (∀ fuel ≥ N, run P fuel (ps.map Poly.cmd ++ [.exec op false]) (c, log) = .ok (st, List.replicate ps.length none ++ [some ⟨out, none⟩])) ∧
      Result op B out := by
  obtain ⟨N, st, out, h1, h2, -⟩ := run_kept hP hpos hc hf hpass op log
  exact ⟨N, st, out, h1, h2⟩

include hP hpos hc in
/-- **C52 (what an operation returns).** Polygons are added to an empty clipper and an operation is run; with exact numbers this ends
without error for every sequence of polygons that is stored as intended. There is a way to bend the edges of the stored polygons, each
through points of its own rectangle and the same way for all operations, such that every edge of the output is a piece of a bent edge, and
for every place that is not on a bent edge, the output winds around it once if it is in the region of the operation on the bent polygons,
and not at all otherwise. -/
theorem C52_execute {ps : List Poly} (hf : Fine none ps) :
    ∃ B, B.map (fun b => (b.set, b.edge)) = inEdges ps ∧ (∀ b ∈ B, ∀ p ∈ b.via, InBox p b.edge.1 b.edge.2) ∧ ∀ (op : BoolOp) (log : List TCall), ∃ N st out,
      (∀ fuel ≥ N, run P fuel (ps.map Poly.cmd ++ [.exec op false]) (c, log) = .ok (st, List.replicate ps.length none ++ [some ⟨out, none⟩])) ∧
      Result op B out := by
  obtain ⟨f, B, h1, h2, h3⟩ := box_pass r pos ps
  exact ⟨B, h2, h3, run_core hP hpos hc hf h1⟩

/-- The edges of the polygons of one category. -/
def edgesOf (ps : List Poly) (k : BSet) : List (Pt × Pt) := (ps.filter fun p => p.set = k).flatMap fun p => edges p.pts

include hP hpos hc in
/-- **C52 (exact results).** If edges that are not parallel only meet at integer points, the output winds once around each place in the
region of the operation on the polygons given and not at all around other places; the places are those that are on no edge given. -/
theorem C52_exact {ps : List Poly} (hf : Fine none ps) (hE : Lattice (ps.flatMap fun p => edges p.pts)) (op : BoolOp) (log : List TCall) :
    ∃ N st out, (∀ fuel ≥ N, run P fuel (ps.map Poly.cmd ++ [.exec op false]) (c, log) = .ok (st, List.replicate ps.length none ++ [some ⟨out, none⟩])) ∧
      (∀ e ∈ out.flatMap edges, ∃ f ∈ ps.flatMap fun p => edges p.pts, OnSegQ e.1.x e.1.y f.1 f.2 ∧ OnSegQ e.2.x e.2.y f.1 f.2) ∧
      ∀ x y, Off (ps.flatMap fun p => edges p.pts) x y → wind (out.flatMap edges) x y =
        if region op (wind (edgesOf ps .subject) x y) (wind (edgesOf ps .clip) x y) then 1 else 0 := by
  have hin : ∀ e ∈ inEdges ps, e.2 ∈ ps.flatMap fun p => edges p.pts := by
    intro e he
    obtain ⟨p, hp, -, h⟩ := inEdges_mem he
    exact List.mem_flatMap.mpr ⟨p, hp, h⟩
  obtain ⟨f, B, e0, e2, e3⟩ := lattice_pass r pos hE
  obtain ⟨N, st, out, e1, e4⟩ := run_core hP hpos hc hf e0 op log
  have hB : ∀ b ∈ B, b.edge ∈ ps.flatMap fun p => edges p.pts := by
    intro b hb
    refine hin (b.set, b.edge) ?_
    rw [← e2]
    exact List.mem_map.mpr ⟨b, hb, rfl⟩
  refine ⟨N, st, out, e1, fun e he => ?_, fun x y hoff => ?_⟩
  · have key : ∀ e ∈ B.flatMap Bent.pieces, ∃ f ∈ ps.flatMap fun p => edges p.pts, OnSegQ e.1.x e.1.y f.1 f.2 ∧ OnSegQ e.2.x e.2.y f.1 f.2 := by
      intro e he
      obtain ⟨b, hb, he⟩ := List.mem_flatMap.mp he
      have all : ∀ p ∈ b.edge.1 :: (b.via ++ [b.edge.2]), OnSegQ p.x p.y b.edge.1 b.edge.2 := by
        intro p hp
        rcases List.mem_cons.mp hp with rfl | hp
        · exact onq_left _ _
        rcases List.mem_append.mp hp with hp | hp
        · exact e3 b hb p hp
        · rw [List.mem_singleton.mp hp]; exact onq_right _ _
      obtain ⟨h1, h2⟩ := walk_mem he
      exact ⟨b.edge, hB b hb, all _ h1, all _ (List.mem_cons_of_mem _ h2)⟩
    rcases e4.edge e he with h | h
    · exact key e h
    · obtain ⟨f, hf, h1, h2⟩ := key _ h; exact ⟨f, hf, h2, h1⟩
  · have cut : ∀ b ∈ B, Off b.pieces x y ∧ wind b.pieces x y = count b.edge x y := fun b hb => cut_wind (e3 b hb) (hoff _ (hB b hb))
    have hw : ∀ k, wind (piecesOf B k) x y = wind (edgesOf ps k) x y := by
      intro k
      unfold edgesOf
      rw [← inEdges_wind, ← e2]
      unfold piecesOf
      rw [wind_flatMap, List.filter_map, List.map_map]
      unfold wind
      rw [List.map_map]
      congr 1
      apply List.map_congr_left
      intro b hb
      exact (cut b (List.mem_filter.mp hb).1).2
    rw [e4.wind x y, hw, hw]
    intro e he
    obtain ⟨b, hb, he⟩ := List.mem_flatMap.mp he
    exact (cut b hb).1 e he

/-- Parallel to an axis. -/
def Axis (e : Pt × Pt) : Prop := e.1.x = e.2.x ∨ e.1.y = e.2.y

theorem axis_lattice {E : List (Pt × Pt)} (h : ∀ e ∈ E, Axis e) : Lattice E := by
  intro e he f hf hc x y ⟨t, _, _, t1, t2⟩ ⟨u, _, _, u1, u2⟩
  unfold cross at hc
  rcases h e he with a | a <;> rcases h f hf with b | b
  · exact absurd (by rw [a, b]; ring) hc
  · exact ⟨⟨e.1.x, f.1.y⟩, by rw [t1, ← a]; ring, by rw [u2, ← b]; ring⟩
  · exact ⟨⟨f.1.x, e.1.y⟩, by rw [u1, ← b]; ring, by rw [t2, ← a]; ring⟩
  · exact absurd (by rw [a, b]; ring) hc

include hP hpos hc in
/-- **C52 (polygons with horizontal and vertical edges).** Their operations are exact. -/
theorem C52_rectilinear {ps : List Poly} (hf : Fine none ps) (hE : ∀ p ∈ ps, ∀ e ∈ edges p.pts, Axis e) (op : BoolOp) (log : List TCall) :
    ∃ N st out, (∀ fuel ≥ N, run P fuel (ps.map Poly.cmd ++ [.exec op false]) (c, log) = .ok (st, List.replicate ps.length none ++ [some ⟨out, none⟩])) ∧
      ∀ x y, Off (ps.flatMap fun p => edges p.pts) x y → wind (out.flatMap edges) x y =
        if region op (wind (edgesOf ps .subject) x y) (wind (edgesOf ps .clip) x y) then 1 else 0 := by
  obtain ⟨N, st, out, h1, -, h2⟩ := C52_exact hP hpos hc hf (axis_lattice fun e he => by
    obtain ⟨p, hp, h⟩ := List.mem_flatMap.mp he; exact hE p hp e h) op log
  exact ⟨N, st, out, h1, h2⟩

end

/-! ### Cases -/

/-- Two squares that overlap. -/
def squares : List Poly := [⟨.subject, false, [⟨0, 0⟩, ⟨4, 0⟩, ⟨4, 4⟩, ⟨0, 4⟩]⟩, ⟨.clip, false, [⟨2, 2⟩, ⟨6, 2⟩, ⟨6, 6⟩, ⟨2, 6⟩]⟩]

/-- The hypotheses are met by the library with exact numbers and an insertion position found by walking over the sweep set. -/
example (g : Nat → Bool × Bool) (op : BoolOp) : ∃ N st out, (∀ fuel ≥ N, run lib fuel (squares.map Poly.cmd ++ [.exec op false]) (Clipper.fresh g, []) =
      .ok (st, List.replicate squares.length none ++ [some ⟨out, none⟩])) ∧
      ∀ x y, Off (squares.flatMap fun p => edges p.pts) x y → wind (out.flatMap edges) x y =
        if region op (wind (edgesOf squares .subject) x y) (wind (edgesOf squares .clip) x y) then 1 else 0 :=
  C52_rectilinear (P := lib) rfl (takeWhile_posOk id g) (fresh_empty g) (by decide +kernel)
    (by intro p hp e he; unfold Axis; revert p e; decide +kernel) op []

/-- Both squares wind once around (7/2, 5/2), only one of them around (1, 1). -/
example (g : Nat → Bool × Bool) : ∃ N st out, (∀ fuel ≥ N, run lib fuel (squares.map Poly.cmd ++ [.exec .intersection false]) (Clipper.fresh g, []) =
      .ok (st, List.replicate squares.length none ++ [some ⟨out, none⟩])) ∧ wind (out.flatMap edges) (7/2) (5/2) = 1 ∧ wind (out.flatMap edges) 1 1 = 0 := by
  obtain ⟨N, st, out, h1, h2⟩ := C52_rectilinear (P := lib) rfl (takeWhile_posOk id g) (fresh_empty g) (ps := squares) (by decide +kernel)
    (by intro p hp e he; unfold Axis; revert p e; decide +kernel) .intersection []
  have off : ∀ x y : Rat, (∀ n ∈ [0, 2, 4, 6], x ≠ n ∧ y ≠ n) → Off (squares.flatMap fun p => edges p.pts) x y := by
    intro x y h e he ⟨t, _, _, t1, t2⟩
    simp only [List.mem_cons, List.not_mem_nil, or_false, forall_eq_or_imp, forall_eq] at h
    obtain ⟨⟨a0, b0⟩, ⟨a2, b2⟩, ⟨a4, b4⟩, a6, b6⟩ := h
    have : e = (⟨0, 0⟩, ⟨4, 0⟩) ∨ e = (⟨4, 0⟩, ⟨4, 4⟩) ∨ e = (⟨4, 4⟩, ⟨0, 4⟩) ∨ e = (⟨0, 4⟩, ⟨0, 0⟩) ∨
        e = (⟨2, 2⟩, ⟨6, 2⟩) ∨ e = (⟨6, 2⟩, ⟨6, 6⟩) ∨ e = (⟨6, 6⟩, ⟨2, 6⟩) ∨ e = (⟨2, 6⟩, ⟨2, 2⟩) := by
      simpa [squares, edges, walk] using he
    rcases this with rfl | rfl | rfl | rfl | rfl | rfl | rfl | rfl <;> norm_num at t1 t2 <;> contradiction
  refine ⟨N, st, out, h1, ?_, ?_⟩
  · rw [h2 _ _ (off _ _ (by norm_num))]; decide +kernel
  · rw [h2 _ _ (off _ _ (by norm_num))]; decide +kernel

/-- A bow tie of which two edges cross between integer points, after a reset of any clipper. -/
example (c : Clipper (Nat → Bool × Bool)) : ∃ B, B.map (fun b => (b.set, b.edge)) = [(.subject, ⟨0, 0⟩, ⟨3, 3⟩), (.subject, ⟨3, 3⟩, ⟨3, 0⟩), (.subject, ⟨3, 0⟩, ⟨0, 3⟩), (.subject, ⟨0, 3⟩, ⟨0, 0⟩)] ∧
    (∀ b ∈ B, ∀ p ∈ b.via, InBox p b.edge.1 b.edge.2) ∧ ∀ (op : BoolOp) (log : List TCall), ∃ N st out, (∀ fuel ≥ N,
    run lib fuel ([⟨.subject, true, bow⟩].map Poly.cmd ++ [.exec op false]) (c.reset, log) = .ok (st, [none, some ⟨out, none⟩])) ∧
      Result op B out :=
  C52_execute (P := lib) (c := c.reset) rfl (takeWhile_posOk id c.rgen) (reset_empty c) (ps := [⟨.subject, true, bow⟩]) (by decide +kernel)

end PolyOps.Exec
