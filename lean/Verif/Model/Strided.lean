import Verif.Model.Geom

/-! Model of /repo/include/poly_ops/strided_itr.hpp. Addresses are integers; memory is read by a function `load`. -/
namespace PolyOps.Strided
open PolyOps

/-- strided_itr.hpp:16 `strided_itr`. -/
structure Itr where
  ptr : Int
  stride : Int
deriving DecidableEq, Repr

/-- strided_itr.hpp:27 `operator*`. -/
def Itr.deref (a : Itr) : Int := a.ptr
/-- strided_itr.hpp:29 `operator[]`. -/
def Itr.at (a : Itr) (i : Int) : Int := a.ptr + i * a.stride
/-- strided_itr.hpp:37, 41 `operator++`, `operator--`. -/
def Itr.inc (a : Itr) : Itr := { a with ptr := a.ptr + a.stride }
def Itr.dec (a : Itr) : Itr := { a with ptr := a.ptr - a.stride }
/-- strided_itr.hpp:46, 49: the postfix operators: (result, new value). -/
def Itr.postInc (a : Itr) : Itr × Itr := (⟨a.ptr, a.stride⟩, { a with ptr := a.ptr + a.stride })
def Itr.postDec (a : Itr) : Itr × Itr := (⟨a.ptr, a.stride⟩, { a with ptr := a.ptr - a.stride })
/-- strided_itr.hpp:53-70: `+=`, `-=`, `+`, `-` with a number. -/
def Itr.add (a : Itr) (n : Int) : Itr := { a with ptr := a.ptr + n * a.stride }
def Itr.sub (a : Itr) (n : Int) : Itr := { a with ptr := a.ptr - n * a.stride }
/-- strided_itr.hpp:78: the difference of two iterators. -/
def Itr.diff (a b : Itr) : Int := a.ptr - b.ptr
/-- strided_itr.hpp:82, 86: comparison. -/
def Itr.lt (a b : Itr) : Bool := decide (a.ptr < b.ptr)
def Itr.eq (a b : Itr) : Bool := decide (a.ptr = b.ptr)

/-- strided_itr.hpp:92 `_make_strided_range`: begin and end of the subrange. The transformation is applied by the caller. -/
def mkRange (start : Int) (length : Nat) (stride : Int) : Itr × Itr := (⟨start, stride⟩, Itr.add ⟨start, stride⟩ length)

/-- `std::ranges::size` of a subrange of iterators with a difference. -/
def rsize (r : Itr × Itr) : Int := r.2.diff r.1

/-- A range-based `for` loop: the elements visited. `none`: not done after `fuel` steps. -/
def visit : Nat → Itr → Itr → Option (List Int)
  | 0, _, _ => none
  | fuel + 1, i, e => if i.eq e then some [] else (visit fuel i.inc e).map (i.deref :: ·)

/-- strided_itr.hpp:112 `blob_to_point_range`: the points visited. -/
def blobPoints (load : Int → Int) (data coordStride pointStride : Int) (n fuel : Nat) : Option (List Pt) :=
  let r := mkRange data n pointStride
  (visit fuel r.1 r.2).map fun l => l.map fun p => ⟨load p, load (p + coordStride)⟩

/-- strided_itr.hpp:130 `blob_to_point_range_range`: all points visited by two nested loops. -/
def blobLoops (load : Int → Int) (data coordStride pointStride loopStride : Int) (n m fuel : Nat) : Option (List (List Pt)) :=
  let r := mkRange data m loopStride
  (visit fuel r.1 r.2).bind fun l => l.mapM fun p => blobPoints load p coordStride pointStride n fuel

end PolyOps.Strided
