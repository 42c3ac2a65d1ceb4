import Verif.Model.Events
import Verif.Model.Balance

/-! Model of the two sweeps of the clipper: finding and splitting intersections (clip.hpp:2079-2270) and scanning line
balances (clip.hpp:2272-2314).

Simplifications: a vector is a function from indices with a size; indices are unbounded; the sweep set is the list of
its nodes in order. Where the tree puts a new node is left open (`Env.pos`), and so are the intersection
test and its random choices (`Env.isect`); both may depend on how many calls were made before. Theorems
about this model hold for every choice. A failed `POLY_OPS_ASSERT` (except the slow ones) and undefined behaviour
are `none`. -/
namespace PolyOps.Sweep
open PolyOps PolyOps.Events

/-- clip.hpp:207 `line_state` without the anchor flag. -/
inductive Base | undef | check | res (s : LState)
deriving DecidableEq, Repr

/-- clip.hpp:250 `loop_point`. -/
structure LP where
  data : Pt
  next : Nat
  set : BSet
  state : Base
deriving DecidableEq, Repr

/-- The parts of `clipper` used by the sweeps. `seg n` are the ends of `sweep_nodes[n]` (node 0 is the header, `nn` is the
number of nodes), `log` are the calls of `new_point_between`, `clock` counts intersection tests and insertions. -/
structure Clip where
  lp : Nat → LP
  np : Nat
  q : Queue
  seg : Nat → Nat × Nat
  nn : Nat
  sweep : List Nat
  log : List (Nat × Nat)
  clock : Nat

/-- What is left open: the result of the intersection test at a time (it uses the random generator), and the place in which
the tree puts a node. -/
structure Env where
  isect : Nat → CSeg → CSeg → Option Isect
  pos : Clip → Nat → Nat

def Clip.x (s : Clip) (i : Nat) : Int := (s.lp i).data.x

/-- Vector write. -/
def setFn {α : Type} (f : Nat → α) (i : Nat) (a : α) : Nat → α := fun k => if k = i then a else f k

/-- clip.hpp:2080 `add_fb_events`. The assertion of clip.hpp:969 (a vertical line keeps its loop order). -/
def Clip.addFb (s : Clip) (sa sb : Nat) : Option Clip :=
  if s.x sa = s.x sb ∧ (s.lp sa).next ≠ sb then none
  else some { s with q := s.q.addFb s.x sa sb s.nn, seg := setFn s.seg s.nn (sa, sb), nn := s.nn + 1 }

/-- `cached_segment` of a node. -/
def Clip.cseg (s : Clip) (n : Nat) : CSeg :=
  ⟨(s.seg n).1, (s.seg n).2, (s.lp (s.seg n).1).data, (s.lp (s.seg n).2).data⟩

/-- `lpoints[i].state() = check`. -/
def Clip.mark (s : Clip) (i : Nat) : Clip := { s with lp := setFn s.lp i { s.lp i with state := .check } }

/-- clip.hpp:2195-2203: events of the input lines. -/
def Clip.addLines (s : Clip) : Nat → Option Clip
  | 0 => some s
  | i + 1 => (s.addLines i).bind fun s =>
    if s.x i > s.x (s.lp i).next then s.addFb (s.lp i).next i else s.addFb i (s.lp i).next

/-- clip.hpp:2103-2108: take the node out of the sweep and mark its start event deleted. -/
def Clip.unlink (s : Clip) (n : Nat) : Option Clip :=
  if n ∈ s.sweep then
    let sa := (s.seg n).1
    let sb := (s.seg n).2
    let ty := if s.x sa = s.x sb then EvTy.vforward else .forward
    let k := s.q.findIdx s.x sa sb ty
    match (s.q.events.take s.q.last)[k]? with
    | some e => if e.a = sa ∧ e.b = sb ∧ e.ty = ty then some { s with sweep := s.sweep.erase n, q := s.q.delAt k } else none
    | none => none
  else none

/-- clip.hpp:2110-2133: insert the point `c` into the line from `sa` to `sb` (in loop order) and add the two lines. -/
def Clip.insertMid (s : Clip) (sa sb : Nat) (c : Pt) : Option (Nat × Clip) :=
  if (s.lp sa).data = c ∨ (s.lp sb).data = c then none
  else if (s.lp sa).set ≠ (s.lp sb).set then none
  else
    let mid := s.np
    let lp := setFn s.lp sa { s.lp sa with next := mid }
    let lp := setFn lp mid ⟨c, sb, (lp sa).set, .undef⟩
    let s := { s with lp := lp, np := s.np + 1, log := s.log ++ [(sa, sb)] }
    let s := if s.x sa ≤ s.x mid then s.addFb sa mid else s.addFb mid sa
    s.bind fun s =>
      let s := if s.x mid ≤ s.x sb then s.addFb mid sb else s.addFb sb mid
      s.map fun s => (mid, s)

/-- clip.hpp:2086 `split_segment`. -/
def Clip.split (s : Clip) (n : Nat) (c : Option Pt) (edge : AtEdge) : Option (Nat × Clip) :=
  let sa := (s.seg n).1
  let sb := (s.seg n).2
  match edge with
  | .both => none
  | .start => some (sa, s)
  | .end => some (sb, s)
  | .no =>
    match c with
    | none => none
    | some c => (s.unlink n).bind fun s =>
      if (s.lp sa).next = sb then s.insertMid sa sb c else s.insertMid sb sa c

/-- End of a node named by an edge flag, clip.hpp:2173. -/
def Clip.endOf (s : Clip) (n : Nat) (e : AtEdge) : Nat := if e = .start then (s.seg n).1 else (s.seg n).2

/-- clip.hpp:2139 `check_intersection`. The flag says whether a line was split. -/
def Clip.checkIsect (env : Env) (s : Clip) (n1 n2 : Nat) : Option (Bool × Clip) :=
  let t := { s with clock := s.clock + 1 }
  match env.isect s.clock (s.cseg n1) (s.cseg n2) with
  | none => some (false, t)
  | some r =>
    if ¬ (r.e0 = .both ↔ r.e1 = .both) then none
    else if r.e0 = .no ∨ r.e1 = .no then
      (t.split n1 r.p r.e0).bind fun (i1, t) => (t.split n2 r.p r.e1).map fun (i2, t) => (true, (t.mark i1).mark i2)
    else if r.e0 = .both then
      some (false, (((t.mark (t.seg n1).1).mark (t.seg n1).2).mark (t.seg n2).1).mark (t.seg n2).2)
    else some (false, (t.mark (t.endOf n1 r.e0)).mark (t.endOf n2 r.e1))

/-- `sweep.insert`; linking a node that is already linked is undefined. -/
def Clip.insert (env : Env) (s : Clip) (n : Nat) : Option Clip :=
  if n ∈ s.sweep then none
  else some { s with sweep := s.sweep.insertIdx (min (env.pos s n) s.sweep.length) n, clock := s.clock + 1 }

/-- `sweep.erase`; unlinking a node that is not linked is undefined. -/
def Clip.erase (s : Clip) (n : Nat) : Option Clip :=
  if n ∈ s.sweep then some { s with sweep := s.sweep.erase n } else none

/-- The node before a node. -/
def prevOf (l : List Nat) (n : Nat) : Option Nat :=
  match l.idxOf n with
  | 0 => none
  | k + 1 => l[k]?

/-- The node after a node. -/
def nextOf (l : List Nat) (n : Nat) : Option Nat := l[l.idxOf n + 1]?

/-- Test a node against a neighbour if there is one. -/
def Clip.checkOpt (env : Env) (s : Clip) (n : Nat) : Option Nat → Option (Bool × Clip)
  | none => some (false, s)
  | some m => s.checkIsect env n m

/-- clip.hpp:2232-2240, a start event going forward. -/
def Clip.onForward (env : Env) (s : Clip) (e : Ev) : Option Clip :=
  (s.insert env e.node).bind fun s =>
    (s.checkOpt env e.node (prevOf s.sweep e.node)).bind fun (split, s) =>
      if split then some s
      else (s.checkOpt env e.node (nextOf s.sweep e.node)).map fun (_, s) => s

/-- clip.hpp:2248-2262, an end event going forward. -/
def Clip.onBackward (env : Env) (s : Clip) (e : Ev) : Option Clip :=
  if e.node ∈ s.sweep then
    let p := prevOf s.sweep e.node
    let n := nextOf s.sweep e.node
    let s := { s with sweep := s.sweep.erase e.node }
    match p, n with
    | some p, some n => (s.checkIsect env p n).map fun (_, s) => s
    | _, _ => some s
  else some { s with q := s.q.delAt s.q.cur.toNat }

/-- clip.hpp:2217-2269, one iteration of the sweep. -/
def Clip.step (env : Env) (s : Clip) : Option Clip :=
  (s.q.next s.x).bind fun (e, fwd, q) =>
    let s := { s with q := q }
    if e.del then some s
    else match e.ty.isFwd, fwd with
      | true, true => s.onForward env e
      | true, false => s.erase e.node
      | false, true => s.onBackward env e
      | false, false => s.insert env e.node

/-- The clipper after its loops were added: nothing swept yet. -/
def Clip.start (lp : Nat → LP) (np : Nat) : Clip := ⟨lp, np, Queue.empty, fun _ => (0, 0), 1, [], [], 0⟩

/-- clip.hpp:2190 `self_intersection`: states reached at the head of the loop. -/
inductive Clip.Reach (env : Env) (lp : Nat → LP) (np : Nat) : Clip → Prop
  | init {s} : (Clip.start lp np).addLines np = some s → Reach env lp np s
  | step {s s'} : Reach env lp np s → s.q.more = true → s.step env = some s' → Reach env lp np s'

/-! ### The second sweep -/

/-- The line that starts at point `i`. -/
def Clip.line (s : Clip) (i : Nat) : Line := ⟨i, (s.lp i).data, (s.lp (s.lp i).next).data, (s.lp i).set⟩

/-- clip.hpp:767 `check` on a segment: the line is named by its start in loop order (`a_is_main`). -/
def Clip.mainOf (s : Clip) (ab : Nat × Nat) : Nat := if (s.lp ab.1).next = ab.2 then ab.1 else ab.2

/-- clip.hpp:2282-2284: the lines tested for one point. -/
def Clip.scanned (s : Clip) : List Nat :=
  (s.sweep.map fun n => s.mainOf (s.seg n)) ++
    (s.q.touchingRemoved s.x).map s.mainOf ++ (s.q.touchingPending s.x).map s.mainOf

/-- clip.hpp:2278 `scan`; also returns the samples (the point and the lines above it). -/
def Clip.scan (op : BoolOp) (s : Clip) (i : Nat) : Clip × List (Nat × List Nat) :=
  if (s.lp i).state = .check then
    let r := lineBal (s.line i) (s.scanned.map s.line)
    ({ s with lp := setFn s.lp i { s.lp i with state := .res (lbResult op (s.lp i).set r.wn) } }, [(i, r.hits)])
  else (s, [])

/-- clip.hpp:2294-2313, one iteration of the second sweep. Insertion is by index order (`line_bal_sweep_cmp`), left open
again. -/
def Clip.step2 (env : Env) (op : BoolOp) (s : Clip) : Option (Clip × List (Nat × List Nat)) :=
  (s.q.next s.x).bind fun (e, fwd, q) =>
    let s := { s with q := q }
    if fwd = false then none
    else if e.del then some (s, [])
    else if e.ty.isFwd then (s.insert env e.node).map fun s => s.scan op e.a
    else
      let (s, r) := s.scan op e.a
      (s.erase e.node).map fun s => (s, r)

end PolyOps.Sweep
