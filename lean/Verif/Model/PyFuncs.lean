import Verif.Model.PyClipper
import Verif.Model.NpyIter
import Verif.Model.Geom

/-! Model of the functions `union`, `normalize`, `boolean_op` and `winding_dir` of the Python binding (/repo/py/_polyops.pyx:504-596, 771). Offsets are left out. -/
namespace PolyOps.PyClipper
open PolyOps PolyOps.Clipper

section
variable {G D : Type} (promote : D → D → Option D)

/-- _polyops.pyx:274 `_clipper_execute_`, 294 `_tracked_clipper_execute_` with the lines before the calls in 504 `unary_op_` and 577 `boolean_op`. -/
def finish (P : Params G) (fuel : Nat) (tracked : Bool) (op : Option BoolOp) (e : Option D) (tree : Bool) (s : Clipper G × List TCall) : Option D → Out (Ret D)
  | none => .ok .empty
  | some d =>
    match op with
    | none => .ok .raised
    | some op => (Clipper.execute P fuel op tree s).bind fun r => if convertRaises tracked r.2 then .ok .raised else .ok (.result r.2 (e.getD d))

/-- _polyops.pyx:504 `unary_op_`, for 552 `union` and 555 `normalize`. `g` is the state of the generator of a new C++ object. -/
def unaryOp (P : Params G) (fuel : Nat) (g : G) (op : BoolOp) (loops : List (Arg D)) (dtype : Option (Option D)) (tree tracked : Bool) : Out (Ret D) :=
  match dtype with
  | none => .ok .raised
  | some e => (loadLoops promote tracked .subject loops (Clipper.fresh g, []) none).bind fun r =>
    match r.2 with
    | none => .ok .raised
    | some c => finish P fuel tracked (some op) e tree r.1 c

/-- _polyops.pyx:577 `boolean_op`. -/
def booleanOp (P : Params G) (fuel : Nat) (g : G) (subject clip : List (Arg D)) (op : Option BoolOp) (dtype : Option (Option D)) (tree tracked : Bool) : Out (Ret D) :=
  match dtype with
  | none => .ok .raised
  | some e => (loadLoops promote tracked .subject subject (Clipper.fresh g, []) none).bind fun r =>
    match r.2 with
    | none => .ok .raised
    | some c => (loadLoops promote tracked .clip clip r.1 c).bind fun r =>
      match r.2 with
      | none => .ok .raised
      | some c => finish P fuel tracked op e tree r.1 c

end

/-- _polyops.pyx:771 `winding_dir` with 329 `_winding_dir`, for an array of `n` rows with the address and strides given. The number of steps is that of the rows. -/
def pyWindingDir (load : Int → Int) (ptr s0 s1 : Int) (n : Nat) : Option Int :=
  if n = 0 then some 0 else (Npy.readPts load ptr s0 s1 n n).map windingDir

end PolyOps.PyClipper
