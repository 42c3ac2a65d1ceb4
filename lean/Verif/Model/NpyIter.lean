import Verif.Model.PointSink

/-! Model of the point iterator over NumPy arrays, /repo/py/common.pxd:17-131 (`polyops_npy_range`, `npy_point_proxy`, `npy_point_iterator`).

NumPy's own iterator (`NpyIter` with `NPY_ITER_EXTERNAL_LOOP` in C order, without buffering) is described by the runs that it gives: with one run for each row of an
array with two columns, or, when the two axes can be merged into one, a single run for all elements. Axes are merged if stepping to the next row is the same as stepping two columns
further, or if there is one row only. Addresses and strides are integers; `load` is the memory. -/
namespace PolyOps.Npy
open PolyOps

/-- What `NpyIter` gives at a time: address of the first element, stride in bytes, number of elements. -/
structure Run where
  ptr : Int
  stride : Int
  size : Nat

/-- The runs of an array of `n` rows and two columns with the given address and strides. -/
def runsOf (ptr s0 s1 : Int) (n : Nat) : List Run :=
  if n = 1 ∨ s0 = 2 * s1 then [⟨ptr, s1, 2 * n⟩] else (List.range n).map fun (i : Nat) => ⟨ptr + (i : Int) * s0, s1, 2⟩

/-- common.pxd:17 the members; `rest` are the runs that `NpyIter` has not given yet; `data` is `none` for a null pointer. -/
structure Range where
  rest : List Run
  data : Option Int
  stride : Int
  runEnd : Int

/-- common.pxd:59 `read_pointers`. -/
def Range.read (r : Run) (rest : List Run) : Range := ⟨rest, some r.ptr, r.stride, r.ptr + r.size * r.stride⟩

/-- common.pxd:28 the constructor. -/
def Range.start : List Run → Option Range
  | [] => none
  | r :: rs => some (.read r rs)

/-- common.pxd:103 `operator++`. `none`: a null pointer is used. -/
def Range.inc (r : Range) : Option Range :=
  r.data.map fun d =>
    let d := d + r.stride * 2
    if d = r.runEnd then
      match r.rest with
      | [] => { r with data := none }
      | n :: rs => .read n rs
    else { r with data := some d }

/-- common.pxd:76, 90 `operator[]`, `get_x`, `get_y`: the addresses of the coordinates. -/
def Range.at (r : Range) : Option (Int × Int) := r.data.map fun d => (d, d + r.stride)

/-- A loop from `begin` to `end` (123 `operator==` with the sentinel): the addresses of the coordinates of each point visited. `none`: not done after that many points. -/
def visit : Nat → Range → Option (List (Int × Int))
  | 0, r => if r.data = none then some [] else none
  | f + 1, r => if r.data = none then some [] else r.at.bind fun a => r.inc.bind fun r => (visit f r).map (a :: ·)

/-- Reading the points of an array. -/
def readPts (load : Int → Int) (ptr s0 s1 : Int) (n fuel : Nat) : Option (List Pt) :=
  (Range.start (runsOf ptr s0 s1 n)).bind fun r => (visit fuel r).map fun l => l.map fun a => ⟨load a.1, load a.2⟩

def store (m : Int → Int) (a v : Int) : Int → Int := fun b => if b = a then v else m b

/-- `std::ranges::copy` of points to an array (_polyops.pyx:64), with common.pxd:81 `operator=`: the memory after it. -/
def copyTo : List Pt → Range → (Int → Int) → Option (Int → Int)
  | [], _, m => some m
  | p :: ps, r, m => r.at.bind fun a => r.inc.bind fun r => copyTo ps r (store (store m a.1 p.x) a.2 p.y)

/-- Writing points to an array. -/
def writePts (m : Int → Int) (ptr s0 s1 : Int) (ps : List Pt) : Option (Int → Int) :=
  (Range.start (runsOf ptr s0 s1 ps.length)).bind fun r => copyTo ps r m

end PolyOps.Npy
