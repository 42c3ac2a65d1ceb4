import Verif.Model.Clipper
import Verif.Model.PointMap

/-! Model of the classes `Clipper` and `TrackedClipper` of the Python binding (/repo/py/_polyops.pyx:599-770): the calls that add polygons, `execute` and
`reset`, with the exceptions that they raise, on top of the model of the C++ object.

Simplifications: NumPy is not modelled. `Arg` says what NumPy makes of an object given as polygon; the type of array elements has any type `D`, and `promote` is
`PyArray_PromoteTypes`. Memory does not run out. The calls that add offset polygons and the setter of `next_orig_i` are left out. The list of tracker calls means
nothing for `Clipper`. -/
namespace PolyOps.PyClipper
open PolyOps PolyOps.Clipper

/-- What is given as a polygon. `notArray`: /repo/py/common.pxd `to_array` raises an exception (or getting the object from the sequence does). Otherwise it is an array of
points with some type of elements; `castable` says whether the casting rule in use lets it be read as coordinates. -/
inductive Arg (D : Type)
  | notArray
  | array (d : D) (castable : Bool) (l : List Pt)

/-- A call. A set or operation is `none` if it is not one of the valid ones. `dtype` is `none` if it is not a type that coordinates can be converted to, and `some none` if it is
not given. -/
inductive Call (D : Type)
  | addLoop (set : Option BSet) (a : Arg D)
  | addLoops (set : Option BSet) (as : List (Arg D))
  | exec (op : Option BoolOp) (dtype : Option (Option D)) (tree : Bool)
  | reset

/-- How a call ends. `empty` is the tuple without elements that `execute` returns without doing anything. -/
inductive Ret (D : Type)
  | nothing
  | raised
  | empty
  | result (o : Output) (d : D)

/-- _polyops.pyx:599-602, 681-684: the members: the C++ object with its tracker, and `calc_dtype`. -/
structure Py (G D : Type) where
  core : Clipper G × List TCall
  dtype : Option D

section
variable {G D : Type} (promote : D → D → Option D)

/-- _polyops.pyx:459-462: the type of the result so far. `none`: an exception. -/
def common (c : Option D) (d : D) : Option D :=
  match c with
  | none => some d
  | some c => promote d c

/-- _polyops.pyx:454 `load_loop` with 219 `_clipper_add_loop`. The state of the C++ object, and the new type or `none` for an exception. -/
def loadLoop (tracked : Bool) (set : BSet) (s : Clipper G × List TCall) (c : Option D) : Arg D → Out ((Clipper G × List TCall) × Option D)
  | .notArray => .ok (s, none)
  | .array d castable l =>
    match common promote c d with
    | none => .ok (s, none)
    | some r => if l = [] then .ok (s, some r) else if castable then (Clipper.add set tracked l s).bind fun s => .ok (s, some r) else .ok (s, none)

/-- _polyops.pyx:466 `load_loops`. The type is `none` if there was no polygon at all. -/
def loadLoops (tracked : Bool) (set : BSet) : List (Arg D) → Clipper G × List TCall → Option D → Out ((Clipper G × List TCall) × Option (Option D))
  | [], s, c => .ok (s, some c)
  | a :: as, s, c => (loadLoop promote tracked set s c a).bind fun r =>
    match r.2 with
    | none => .ok (r.1, none)
    | some d => loadLoops tracked set as r.1 (some d)

/-- _polyops.pyx:175 `proxy_range_to_py` with 155 `tracked_poly_proxy_to_py_tree`: whether making the result raises an exception. -/
def convertRaises (tracked : Bool) (o : Output) : Bool :=
  match o.tree with
  | none => false
  | some t => tracked && !PyMap.makeTrackedRecurLoop && !t.top.isEmpty

/-- _polyops.pyx:612, 640, 666, 676 (and the same of `TrackedClipper`): one call. -/
def step (P : Params G) (fuel : Nat) (tracked : Bool) (s : Py G D) : Call D → Out (Py G D × Ret D)
  | .addLoop none _ => .ok (s, .raised)
  | .addLoop (some set) a => (loadLoop promote tracked set s.core s.dtype a).bind fun r =>
    match r.2 with
    | none => .ok (⟨r.1, s.dtype⟩, .raised)
    | some d => .ok (⟨r.1, some d⟩, .nothing)
  | .addLoops none _ => .ok (s, .raised)
  | .addLoops (some set) as => (loadLoops promote tracked set as s.core s.dtype).bind fun r =>
    match r.2 with
    | none => .ok (⟨r.1, s.dtype⟩, .raised)
    | some d => .ok (⟨r.1, d⟩, .nothing)
  | .exec op dtype tree =>
    match dtype, s.dtype, op with
    | none, _, _ => .ok (s, .raised)
    | some _, none, _ => .ok (s, .empty)
    | some _, some _, none => .ok (s, .raised)
    | some e, some d, some op => (Clipper.execute P fuel op tree s.core).bind fun r =>
      if convertRaises tracked r.2 then .ok (⟨r.1, some d⟩, .raised)
      else .ok (⟨(r.1.1.reset, []), none⟩, .result r.2 (e.getD d))
  | .reset => .ok (⟨(s.core.1.reset, []), none⟩, .nothing)

/-- A sequence of calls. -/
def run (P : Params G) (fuel : Nat) (tracked : Bool) : List (Call D) → Py G D → Out (Py G D × List (Ret D))
  | [], s => .ok (s, [])
  | c :: cs, s => (step promote P fuel tracked s c).bind fun r => (run P fuel tracked cs r.1).bind fun q => .ok (q.1, r.2 :: q.2)

end

/-- _polyops.pyx:604, 686 `__cinit__`. -/
def Py.new {G : Type} (D : Type) (g : G) : Py G D := ⟨(Clipper.fresh g, []), none⟩

end PolyOps.PyClipper
