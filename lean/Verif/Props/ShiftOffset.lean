import Verif.Props.Shift
import Verif.Model.OffsetClip

/-! C69 for `offset`: where the polygons lie does not matter. `movePts` and `moveOut` are in `Props/Shift.lean`. -/
namespace PolyOps.Offset
open PolyOps PolyOps.PointSink PolyOps.Sweep PolyOps.Clipper PolyOps.Exec

/-! ### Specification -/

/-- How a call ended, what it returned and what the tracker was told. -/
def told1 {G : Type} : Out ((Clipper G × List TCall) × Output) → Out (Output × List TCall)
  | .ok r => .ok (r.2, r.1.2)
  | .bad => .bad
  | .fuel => .fuel

/-- The same with every point moved. -/
def moveTold1 (v : Pt) : Out (Output × List TCall) → Out (Output × List TCall)
  | .ok r => .ok (moveOut v r.1, r.2)
  | .bad => .bad
  | .fuel => .fuel

/-! ### Proof -/

/-- Emitted points moved. -/
def moveE (v : Pt) (e : Emit) : Emit := e.map fun q => (q.1 + v, q.2)

variable (v : Pt) (m : ℝ) (arc : Int)

theorem moveE_append (a b : Emit) : moveE v (a ++ b) = moveE v a ++ moveE v b := List.map_append

theorem addRound_move (p : Pt) (d : Vec) : addRound (p + v) d = addRound p d + v := by
  unfold addRound; ext <;> simp <;> ring

theorem perpVector_move (p q : Pt) : perpVector (p + v) (q + v) m = perpVector p q m := by
  unfold perpVector; simp only [Pt.add_x, Pt.add_y, add_sub_add_right_eq_sub]

theorem arcPts_move (p q r : Pt) : arcPts m arc (p + v) (q + v) (r + v) = (arcPts m arc p q r).map (· + v) := by
  unfold arcPts
  simp only [Pt.add_inj, triangleWinding_shift, Pt.sub_add_add, perpVector_move, apply_ite (List.map (· + v)), List.map_nil, List.map_map]
  have h : addRound (q + v) = (fun x => x + v) ∘ addRound q := funext fun d => addRound_move v q d
  rw [h]

theorem addOffsetPoint_move (o1 o2 : Int) (p q r : Pt) :
    addOffsetPoint m arc o1 o2 (p + v) (q + v) (r + v) = (addOffsetPoint m arc o1 o2 p q r).map (moveE v) := by
  unfold addOffsetPoint
  simp only [Pt.add_inj, perpVector_move, addRound_move, arcPts_move, apply_ite (Option.map (moveE v)), Option.map_none, Option.map_some]
  simp only [moveE, List.map_cons, List.map_map]
  rfl

theorem offsetLonePoint_move (next : Int) (p : Pt) :
    offsetLonePoint m arc next (p + v) = (offsetLonePoint m arc next p).map fun r => (moveE v r.1, r.2) := by
  unfold offsetLonePoint
  simp only [apply_ite (Option.map _), Option.map_none, Option.map_some, addRound_move]
  simp only [moveE, List.map_map, List.map_nil]
  rfl

theorem walk_move (step : Int) (l : List Pt) : ∀ (i : Int) (p q : Pt), walk m arc step (movePts v l) i (p + v) (q + v) =
    (walk m arc step l i p q).map fun r => (moveE v r.1, r.2.1, r.2.2.1 + v, r.2.2.2 + v) := by
  induction l with
  | nil => intros; rfl
  | cons a l ih =>
    intro i p q
    show (if a + v ≠ q + v then (addOffsetPoint m arc i (i + step) (p + v) (q + v) (a + v)).bind _ else walk m arc step (movePts v l) (i + step) (p + v) (q + v)) =
      Option.map _ (if a ≠ q then (addOffsetPoint m arc i (i + step) p q a).bind _ else walk m arc step l (i + step) p q)
    simp only [ne_eq, Pt.add_inj, addOffsetPoint_move, ih, apply_ite (Option.map _)]
    congr 1
    cases addOffsetPoint m arc i (i + step) p q a with
    | none => rfl
    | some e =>
      simp only [Option.map_some, Option.bind_some]
      show Option.map _ (walk m arc step (movePts v l) (i + step) (q + v) (a + v)) = _
      rw [ih]
      cases walk m arc step l (i + step) q a with
      | none => rfl
      | some r => simp only [Option.map_some, moveE_append]

theorem tailOpen_move (l : List Pt) (i step : Int) (p q : Pt) : tailOpen m arc (movePts v l) i step (p + v) (q + v) =
    (tailOpen m arc l i step p q).map fun r => (moveE v r.1, r.2.1, r.2.2.1 + v, r.2.2.2 + v) := by
  unfold tailOpen
  rw [walk_move]
  cases walk m arc step l i p q with
  | none => rfl
  | some r =>
    simp only [Option.map_some, Option.bind_some, addOffsetPoint_move]
    cases addOffsetPoint m arc r.2.1 (r.2.1 + step) r.2.2.1 r.2.2.2 r.2.2.1 with
    | none => rfl
    | some e => simp only [Option.map_some, moveE_append]

theorem dropWhile_move (p : Pt) (l : List Pt) : (movePts v l).dropWhile (fun q => decide (q = p + v)) = movePts v (l.dropWhile fun q => decide (q = p)) := by
  induction l with
  | nil => rfl
  | cons a l ih =>
    show List.dropWhile _ ((a + v) :: movePts v l) = _
    simp only [List.dropWhile_cons, Pt.add_inj, ih]
    split <;> rfl

theorem emitOpen_move (next : Int) (p : Pt) (l : List Pt) : emitOpen m arc next (p + v) (movePts v l) = (emitOpen m arc next p l).map fun r => (moveE v r.1, r.2) := by
  unfold emitOpen
  rw [dropWhile_move]
  cases l.dropWhile fun q => decide (q = p) with
  | nil => exact offsetLonePoint_move v m arc next p
  | cons q t =>
    show (tailOpen m arc (movePts v t) next 1 (p + v) (q + v)).bind _ = Option.map _ ((tailOpen m arc t next 1 p q).bind _)
    rw [tailOpen_move]
    cases tailOpen m arc t next 1 p q with
    | none => rfl
    | some r =>
      simp only [Option.map_some, Option.bind_some]
      have h : ((p + v) :: movePts v l).reverse.drop 2 = movePts v ((p :: l).reverse.drop 2) := by
        show (List.map (· + v) (p :: l)).reverse.drop 2 = List.map (· + v) _
        rw [← List.map_reverse, List.map_drop]
      rw [h, tailOpen_move]
      cases tailOpen m arc ((p :: l).reverse.drop 2) r.2.1 (-1) r.2.2.1 r.2.2.2 with
      | none => rfl
      | some s => simp only [Option.map_some, moveE_append]

theorem emitClosed_move (next : Int) (p : Pt) (l : List Pt) :
    emitClosed m arc next (p + v) (movePts v l) = (emitClosed m arc next p l).map fun r => (moveE v r.1, r.2) := by
  unfold emitClosed
  rw [dropWhile_move]
  cases l.dropWhile fun q => decide (q = p) with
  | nil => exact offsetLonePoint_move v m arc next p
  | cons s t =>
    show (walk m arc 1 (movePts v t) next (p + v) (s + v)).bind _ = Option.map _ ((walk m arc 1 t next p s).bind _)
    rw [walk_move]
    cases walk m arc 1 t next p s with
    | none => rfl
    | some r =>
      obtain ⟨e, i, q2, q1⟩ := r
      simp only [Option.map_some, Option.bind_some]
      have h1 : (if q2 + v ≠ q1 + v then addOffsetPoint m arc i (i + 1) (q2 + v) (q1 + v) (if q1 + v = p + v then s + v else p + v) else some []) =
          (if q2 ≠ q1 then addOffsetPoint m arc i (i + 1) q2 q1 (if q1 = p then s else p) else some []).map (moveE v) := by
        have h0 : (if q1 + v = p + v then s + v else p + v) = (if q1 = p then s else p) + v := by
          simp only [Pt.add_inj]; split <;> rfl
        rw [h0, addOffsetPoint_move]
        simp only [ne_eq, Pt.add_inj, apply_ite (Option.map (moveE v))]
        rfl
      have h2 : (if q1 + v ≠ p + v then addOffsetPoint m arc (i + 1) next (q1 + v) (p + v) (s + v) else some []) =
          (if q1 ≠ p then addOffsetPoint m arc (i + 1) next q1 p s else some []).map (moveE v) := by
        rw [addOffsetPoint_move]
        simp only [ne_eq, Pt.add_inj, apply_ite (Option.map (moveE v))]
        rfl
      show (if q2 + v ≠ q1 + v then addOffsetPoint m arc i (i + 1) (q2 + v) (q1 + v) (if q1 + v = p + v then s + v else p + v) else some []).bind _ = _
      have hs : (⟨s.x + v.x, s.y + v.y⟩ : Pt) = s + v := rfl
      rw [h1, hs, h2]
      cases (if q2 ≠ q1 then addOffsetPoint m arc i (i + 1) q2 q1 (if q1 = p then s else p) else some []) with
      | none => rfl
      | some e2 =>
        simp only [Option.map_some, Option.bind_some]
        cases (if q1 ≠ p then addOffsetPoint m arc (i + 1) next q1 p s else some []) with
        | none => rfl
        | some e3 => simp only [Option.map_some, moveE_append]

theorem addLoop_move (c : Store) (cat : BSet) (pt : Bool) (e : Emit) : addLoop (c.shift v) cat pt (moveE v e) = (addLoop c cat pt e).map (Store.shift v) := by
  unfold addLoop
  have go : ∀ (l : Emit) (s : Store × Sink), (moveE v l).foldl put (s.1.shift v, s.2.shift v) = ((l.foldl put s).1.shift v, (l.foldl put s).2.shift v) := by
    intro l
    induction l with
    | nil => intro s; rfl
    | cons p l ih =>
      intro s
      show List.foldl put (put (s.1.shift v, s.2.shift v) (p.1 + v, p.2)) (moveE v l) = _
      rw [put_shift]
      exact ih _
  cases e with
  | nil => rfl
  | cons p l =>
    show close (List.foldl put (put (Store.shift v c, Sink.init (Store.shift v c) cat pt) (p.1 + v, p.2)) (moveE v l)) = _
    have h : put (Store.shift v c, Sink.init (Store.shift v c) cat pt) (p.1 + v, p.2) =
        ((put (c, Sink.init c cat pt) p).1.shift v, (put (c, Sink.init c cat pt) p).2.shift v) := by
      unfold put Sink.init Store.shift Sink.shift
      simp
    rw [h, go, close_shift]
    rfl

theorem addOffset_move (c : Store) (cat : BSet) (pt closed : Bool) (l : List Pt) :
    addOffset (c.shift v) cat pt m arc closed (movePts v l) = (addOffset c cat pt m arc closed l).map (Store.shift v) := by
  cases l with
  | nil => rfl
  | cons p l =>
    show ((if closed = true then emitClosed m arc c.nextOrig (p + v) (movePts v l) else emitOpen m arc c.nextOrig (p + v) (movePts v l)).bind _) =
      Option.map _ ((if closed = true then emitClosed m arc c.nextOrig p l else emitOpen m arc c.nextOrig p l).bind _)
    rw [emitClosed_move, emitOpen_move, ← apply_ite (Option.map _)]
    cases (if closed = true then emitClosed m arc c.nextOrig p l else emitOpen m arc c.nextOrig p l) with
    | none => rfl
    | some r =>
      simp only [Option.map_some, Option.bind_some, addLoop_move]
      cases addLoop c cat pt r.1 <;> rfl

theorem addOffsets_move (cat : BSet) (pt closed : Bool) (ls : List (List Pt)) : ∀ c : Store,
    addOffsets cat pt m arc closed (ls.map (movePts v)) (c.shift v) = (addOffsets cat pt m arc closed ls c).map (Store.shift v) := by
  induction ls with
  | nil => intro c; rfl
  | cons l ls ih =>
    intro c
    show (addOffset (c.shift v) cat pt m arc closed (movePts v l)).bind _ = Option.map _ ((addOffset c cat pt m arc closed l).bind _)
    rw [addOffset_move]
    cases addOffset c cat pt m arc closed l with
    | none => rfl
    | some c => exact ih c

/-- **C69 (offsets).** The offset of polygons moved by a vector is the offset of the polygons moved by this vector: the same points in the
same order, the same nesting, and the tracker is told the same. -/
theorem C69_offset {G : Type} {P : Params G} (hP : Params.Free P) (fuel : Nat) (seed : G) (pt closed tree : Bool) (input : List (List Pt)) :
    told1 (offset P fuel seed pt m arc closed tree (input.map (movePts v))) = moveTold1 v (told1 (offset P fuel seed pt m arc closed tree input)) := by
  unfold offset
  have h := addOffsets_move v m arc .subject pt closed input ⟨[], [], 0⟩
  show told1 ((Out.of (addOffsets .subject pt m arc closed (input.map (movePts v)) (Store.shift v ⟨[], [], 0⟩))).bind _) = _
  rw [h]
  cases addOffsets .subject pt m arc closed input ⟨[], [], 0⟩ with
  | none => rfl
  | some r =>
    show told1 (Clipper.execute P fuel .union tree (moveC v { Clipper.fresh seed with pts := r.pts, nextOrig := r.nextOrig }, r.tr.map .added)) =
      moveTold1 v (told1 (Clipper.execute P fuel .union tree ({ Clipper.fresh seed with pts := r.pts, nextOrig := r.nextOrig }, r.tr.map .added)))
    rw [execute_move v hP fuel .union tree _ _ fun _ => rfl]
    cases Clipper.execute P fuel .union tree ({ Clipper.fresh seed with pts := r.pts, nextOrig := r.nextOrig }, r.tr.map .added) <;> rfl

/-- The parameters of the library meet the hypothesis. -/
example (input : List (List Pt)) : told1 (offset lib 1000 gen true 5 2 true true (input.map (movePts ⟨7, -9⟩))) =
    moveTold1 ⟨7, -9⟩ (told1 (offset lib 1000 gen true 5 2 true true input)) := C69_offset ⟨7, -9⟩ 5 2 lib_free 1000 gen true true true input

end PolyOps.Offset
