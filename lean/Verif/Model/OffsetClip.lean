import Verif.Model.Offset
import Verif.Model.Clipper

/-! Model of the function `offset`, /repo/include/poly_ops/offset.hpp:391-411 and 486-511, made of the models of `add_offset` for one loop and of
`clipper::execute`. As there, `m` is a real number and all operations on it are exact. -/
namespace PolyOps.Offset
open PolyOps PolyOps.PointSink PolyOps.Sweep PolyOps.Clipper

/-- offset.hpp:405: `add_offset` of a range of loops. -/
noncomputable def addOffsets (cat : BSet) (pt : Bool) (m : ℝ) (arc : Int) (closed : Bool) : List (List Pt) → Store → Option Store
  | [], c => some c
  | l :: ls, c => (addOffset c cat pt m arc closed l).bind (addOffsets cat pt m arc closed ls)

/-- offset.hpp:490 `offset`; `pt`: there is a tracker, `seed`: the default state of the random generator. -/
noncomputable def offset {G : Type} (P : Params G) (fuel : Nat) (seed : G) (pt : Bool) (m : ℝ) (arc : Int) (closed tree : Bool) (input : List (List Pt)) :
    Out ((Clipper G × List TCall) × Output) :=
  (Out.of (addOffsets .subject pt m arc closed input ⟨[], [], 0⟩)).bind fun r =>
    Clipper.execute P fuel .union tree ({ Clipper.fresh seed with pts := r.pts, nextOrig := r.nextOrig }, r.tr.map .added)

end PolyOps.Offset
