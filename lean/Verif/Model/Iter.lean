import Verif.Model.Clipper
import Verif.Model.MiniSet

/-! Model of reading a result with an origin tracker: /repo/include/poly_ops/clip.hpp:1585-1676 (`proto_loop_iterator`,
`temp_polygon_proxy`) and /repo/include/poly_ops/offset.hpp:384 (`get_value`).

Simplifications: reading beyond the points, asking the tracker about a point without record, and going on from the end are `none`;
two iterators belong to the same result, so the assertion on `lpoints` (1622) is left out. The postfix `++` (1613) is not
modelled; it does not compile. -/
namespace PolyOps.Clipper
open PolyOps PolyOps.Sweep

/-- clip.hpp:1585 `proto_loop_iterator`. -/
structure Iter where
  i : Nat
  dist : Nat
deriving DecidableEq, Repr

/-- clip.hpp:1664 `begin`, of a loop given by its start and size. -/
def Iter.begin (l : Nat × Nat) : Iter := ⟨l.1, l.2⟩

/-- clip.hpp:1669 `end`. -/
def Iter.end (l : Nat × Nat) : Iter := ⟨l.1, 0⟩

/-- clip.hpp:1607 `operator++`. -/
def Iter.inc (pts : List LP) (it : Iter) : Option Iter :=
  match pts[it.i]?, it.dist with
  | some p, d + 1 => some ⟨p.next, d⟩
  | _, _ => none

/-- clip.hpp:1621 `operator==`. -/
def Iter.eq (a b : Iter) : Bool := decide (a.dist = b.dist)

/-- A point that is returned: its `index()` (clip.hpp:1631), its place and its origins. -/
structure Visited where
  idx : Nat
  data : Pt
  origins : List Nat
deriving DecidableEq, Repr

/-- clip.hpp:1617 `operator*` with `get_value`. -/
def Iter.get (pts : List LP) (t : List MiniSet.MSet) (it : Iter) : Option Visited :=
  match pts[it.i]?, MiniSet.origins t it.i with
  | some p, some o => some ⟨it.i, p.data, o⟩
  | _, _ => none

/-- `for(auto it = begin(); it != end(); ++it) *it`, at most `fuel` rounds. -/
def visitFrom (pts : List LP) (t : List MiniSet.MSet) (e : Iter) : Nat → Iter → Option (List Visited)
  | 0, it => if it.eq e then some [] else none
  | fuel + 1, it =>
    if it.eq e then some []
    else (it.get pts t).bind fun v => (it.inc pts).bind fun it => (visitFrom pts t e fuel it).map fun l => v :: l

/-- All points of a polygon that is returned. -/
def visit (pts : List LP) (t : List MiniSet.MSet) (l : Nat × Nat) : Option (List Visited) :=
  visitFrom pts t (Iter.end l) l.2 (Iter.begin l)

/-- The calls as `origin_point_tracker` gets them; numbers are not negative. -/
def toCall : TCall → MiniSet.Call
  | .added n => .added n.toNat
  | .between a b => .between a b
  | .merge a b => .merge a b

end PolyOps.Clipper
