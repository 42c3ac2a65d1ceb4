import Verif.Model.Sweep

/-! Model of adding polygons to a clipper, /repo/include/poly_ops/clip.hpp:1839-1885 and 2028-2077. -/
namespace PolyOps.PointSink
open PolyOps PolyOps.Sweep

/-- What adding a polygon changes: `clipper::lpoints`, `clipper::_next_orig_i` and the arguments of the calls of
`i_point_tracker::point_added` so far. -/
structure Store where
  pts : List LP
  tr : List Int
  nextOrig : Int
deriving DecidableEq, Repr

/-- clip.hpp:1840 `point_sink`; `pt` tells whether there is a tracker. -/
structure Sink where
  prev : Pt
  prevOrig : Int
  first : Nat
  fo : Int
  so : Int
  cat : BSet
  started : Bool
  pt : Bool

/-- clip.hpp:1857 the constructor. The members that the source leaves uninitialised have some value. -/
def Sink.init (c : Store) (cat : BSet) (pt : Bool) : Sink := ⟨default, 0, c.pts.length, 0, 0, cat, false, pt⟩

/-- clip.hpp:2028 `finalize_prev`. The third argument of `emplace_back` is the set; the state starts as `undef`. -/
def finalizePrev (s : Store × Sink) : Store × Sink :=
  let c := s.1
  let k := s.2
  if (c.pts.getLast?).map LP.data = some k.prev then s
  else
    let added := c.pts.length - k.first
    let tr := if k.pt then
        (if added = 0 ∨ added = 1 then c.tr else if added = 2 then c.tr ++ [k.fo, k.so] ++ [k.prevOrig] else c.tr ++ [k.prevOrig])
      else c.tr
    let k := if k.pt then (if added = 0 then { k with fo := k.prevOrig } else if added = 1 then { k with so := k.prevOrig } else k) else k
    ({ c with pts := c.pts ++ [⟨k.prev, c.pts.length + 1, k.cat, .undef⟩], tr := tr }, k)

/-- clip.hpp:2052 `operator()(p, orig_i)`. -/
def put (s : Store × Sink) (p : Pt × Int) : Store × Sink :=
  let s := if s.2.started then finalizePrev s else s
  ({ s.1 with nextOrig := p.2 + 1 }, { s.2 with prev := p.1, prevOrig := p.2, started := true })

/-- clip.hpp:2060 the destructor. `none`: `n.lpoints[first_i]` is read past the end of the vector. -/
def close (s : Store × Sink) : Option Store :=
  if s.2.started then
    match s.1.pts[s.2.first]? with
    | none => none
    | some f =>
      let s := if s.2.prev ≠ f.data then finalizePrev s else s
      let c := s.1
      if c.pts.length - s.2.first < 3 then some { c with pts := c.pts.take s.2.first }
      else some { c with pts := c.pts.modify (c.pts.length - 1) fun p => { p with next := s.2.first, state := .check } }
  else some s.1

/-- A point sink that is given points with their original indices, from `add_loop` (clip.hpp:1955) to its destructor. -/
def addLoop (c : Store) (cat : BSet) (pt : Bool) (l : List (Pt × Int)) : Option Store :=
  close (l.foldl put (c, Sink.init c cat pt))

/-- clip.hpp:1833 `_add_loop`: the indices are counted on from `_next_orig_i`. -/
def addPts (c : Store) (cat : BSet) (pt : Bool) (l : List Pt) : Option Store :=
  close (l.foldl (fun s p => put s (p, s.1.nextOrig)) (c, Sink.init c cat pt))

end PolyOps.PointSink
