import Verif.Model.PyFuncs
import Verif.Model.OffsetClip

/-! Model of the function `offset` of the Python binding (/repo/py/_polyops.pyx:558-575). Real numbers take the place of floating point, as in the model of the C++ function. -/
namespace PolyOps.PyClipper
open PolyOps PolyOps.Clipper PolyOps.PointSink

section
variable {G D : Type} (promote : D → D → Option D)

/-- offset.hpp:391 `add_offset` for one polygon and a C++ object that has not run yet, so that clip.hpp:1955 `add_loop` does not reset it. -/
noncomputable def addOffset (set : BSet) (pt : Bool) (m : ℝ) (arc : Int) (closed : Bool) (l : List Pt) (s : Clipper G × List TCall) : Out (Clipper G × List TCall) :=
  (Out.of (Offset.addOffset ⟨s.1.pts, [], s.1.nextOrig⟩ set pt m arc closed l)).bind fun r =>
    .ok ({ s.1 with pts := r.pts, nextOrig := r.nextOrig }, s.2 ++ r.tr.map .added)

/-- _polyops.pyx:471 `load_offset` with 245 `_clipper_add_offset`. -/
noncomputable def loadOffset (tracked : Bool) (set : BSet) (m : ℝ) (arc : Int) (closed : Bool) (s : Clipper G × List TCall) (c : Option D) (a : Arg D) :
    Out ((Clipper G × List TCall) × Option D) :=
  if arc < 1 then .ok (s, none) else
  match a with
  | .notArray => .ok (s, none)
  | .array d castable l =>
    match common promote c d with
    | none => .ok (s, none)
    | some r => if l = [] then .ok (s, some r) else if castable then (addOffset set tracked m arc closed l s).bind fun s => .ok (s, some r) else .ok (s, none)

/-- _polyops.pyx:486 `load_offsets`. -/
noncomputable def loadOffsets (tracked : Bool) (set : BSet) (m : ℝ) (arc : Int) (closed : Bool) : List (Arg D) → Clipper G × List TCall → Option D →
    Out ((Clipper G × List TCall) × Option (Option D))
  | [], s, c => .ok (s, some c)
  | a :: as, s, c => (loadOffset promote tracked set m arc closed s c a).bind fun r =>
    match r.2 with
    | none => .ok (r.1, none)
    | some d => loadOffsets tracked set m arc closed as r.1 (some d)

/-- _polyops.pyx:558 `offset`. -/
noncomputable def offsetOp (P : Params G) (fuel : Nat) (g : G) (loops : List (Arg D)) (m : ℝ) (arc : Int) (closed : Bool) (dtype : Option (Option D)) (tree tracked : Bool) : Out (Ret D) :=
  match dtype with
  | none => .ok .raised
  | some e => (loadOffsets promote tracked .subject m arc closed loops (Clipper.fresh g, []) none).bind fun r =>
    match r.2 with
    | none => .ok .raised
    | some c => finish P fuel tracked (some .union) e tree r.1 c

end

end PolyOps.PyClipper
