/-! Model of the origin map of the Python binding: /repo/py/_polyops.pyx:75-130 (`tracked_poly_proxy_to_py_common`), 398-439
(`PointMap`), 441-452 (the tuples returned).

Not modelled: numpy allocation, reference counts and the array of coordinates. Array elements are natural numbers. -/
namespace PolyOps.PyMap

/-- The arrays `offsets` and `indices`. -/
structure PointMap where
  offsets : List Nat
  indices : List Nat
deriving DecidableEq, Repr

/-- _polyops.pyx:91-101: the number of indices. -/
def total (sets : List (List Nat)) : Nat := sets.foldl (fun t s => t + s.length) 0

/-- _polyops.pyx:116-123: the second pass; arguments are the points left, the offset, what has been written so far. -/
def fill : List (List Nat) → Nat → PointMap → PointMap
  | [], off, m => { m with offsets := m.offsets ++ [off] }
  | s :: l, off, m => fill l (off + s.length) ⟨m.offsets ++ [off], m.indices ++ s⟩

/-- _polyops.pyx:81; `sets` are the origin sets of the points of a loop. -/
def build (sets : List (List Nat)) : PointMap := fill sets 0 ⟨[], []⟩

/-- _polyops.pyx:412 `__len__`. -/
def PointMap.len (m : PointMap) : Nat := m.offsets.length - 1

/-- _polyops.pyx:415 `__getitem__`: `none` is IndexError. -/
def PointMap.get (m : PointMap) (i : Int) : Option (List Nat) :=
  if 0 ≤ i ∧ i < (m.offsets.length : Int) - 1 then
    let a := m.offsets.getD i.toNat 0
    let b := m.offsets.getD (i.toNat + 1) 0
    some ((m.indices.take b).drop a)
  else none

/-- _polyops.pyx:434-436: the inner loop. `none`: write outside of the array. -/
def writeUpTo (next orig : Nat) : Nat → List (Option Nat) × Nat → Option (List (Option Nat) × Nat)
  | 0, s => some s
  | fuel + 1, (out, k) =>
    if k < next then
      if k < out.length then writeUpTo next orig fuel (out.set k (some orig), k + 1) else none
    else some (out, k)

/-- _polyops.pyx:433-437: the outer loop. -/
def indexLoop : List Nat → Nat → List (Option Nat) × Nat → Option (List (Option Nat) × Nat)
  | [], _, s => some s
  | next :: l, orig, s => (writeUpTo next orig (next + 1) s).bind fun s => indexLoop l (orig + 1) s

/-- _polyops.pyx:420 `index_map` with `out=None`: the cells of the array, `none` for one never written. -/
def PointMap.indexMap (m : PointMap) : Option (List (Option Nat)) :=
  (indexLoop m.offsets.tail 0 (List.replicate m.indices.length none, 0)).map Prod.fst

/-- Calling a named tuple class: `false` is TypeError. -/
def tupleCall (fields args : List String) : Bool := decide (fields.length = args.length)

/-- _polyops.pyx:441-442. -/
def trackedLoop : List String := ["loop", "originals"]
def recursiveLoop : List String := ["loop", "children"]

/-- _polyops.pyx:445, 448, 451: the three constructors of results. -/
def makeTrackedLoop : Bool := tupleCall trackedLoop ["loop", "PointMap"]
def makeRecurLoop : Bool := tupleCall recursiveLoop ["loop", "children"]
def makeTrackedRecurLoop : Bool := tupleCall recursiveLoop ["loop", "children", "PointMap"]

end PolyOps.PyMap
