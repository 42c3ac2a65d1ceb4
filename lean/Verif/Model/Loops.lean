import Verif.Model.Sweep

/-! Model of how the clipper joins the kept lines to loops: /repo/include/poly_ops/clip.hpp:1147-1307 (`follow_balance`,
`find_loops`) and 2316-2437 (`insert_anchor_point`, the second half of `do_op`).

Simplifications: vectors are functions with a size; `std::map` from points to vectors is a function from points to lists, absent
keys are empty lists. Loops in the source that follow links take a step count (`fuel`) here, running out is `none`; the
theorems show that it does not happen. Failed assertions are `none` too, except that in `non_anchor_end_point`. -/
namespace PolyOps.Loops
open PolyOps PolyOps.Sweep

/-- clip.hpp:250 `loop_point` with the anchor flag (clip.hpp:217) apart. -/
structure OP where
  data : Pt
  next : Nat
  st : Base
  anchor : Bool
deriving DecidableEq, Repr

/-- clip.hpp:264 `has_line_bal`. -/
def OP.hasBal (p : OP) : Bool := decide (p.st ≠ .undef)

/-- `state() & keep`. -/
def OP.keep (p : OP) : Bool := match p.st with | .res s => s.keep | _ => false

/-- clip.hpp:1147 `virt_point`. -/
structure VP where
  next : Nat
  keep : Bool
  nextIsEnd : Bool
deriving DecidableEq, Repr

/-- `lpoints`, `breaks` (clip.hpp:1173) and the calls of `point_merge` so far. -/
structure Work where
  lp : Nat → OP
  np : Nat
  starts : Pt → List Nat
  ends : List Nat
  virts : Pt → List VP
  orphans : List Nat
  merges : List (Nat × Nat)

def Work.init (lp : Nat → OP) (np : Nat) : Work := ⟨lp, np, fun _ => [], [], fun _ => [], [], []⟩

/-- Write to a map. -/
def setPt {α : Type} (f : Pt → α) (p : Pt) (a : α) : Pt → α := fun k => if k = p then a else f k

/-- clip.hpp:2317 `insert_anchor_point`. -/
def Work.insertAnchor (w : Work) (i : Nat) : Work × Nat :=
  if (w.lp (w.lp i).next).anchor then (w, (w.lp i).next)
  else
    let lp := setFn w.lp w.np { w.lp i with st := .undef, anchor := true }
    ({ w with lp := setFn lp i { lp i with next := w.np }, np := w.np + 1 }, w.np)

/-- clip.hpp:1352 `end_point`. -/
def Work.endPoint (w : Work) (i : Nat) : Pt := (w.lp (w.lp i).next).data

/-- clip.hpp:1355 `non_anchor_end_point`. -/
def Work.naEnd (w : Work) (i : Nat) : Pt :=
  let j := (w.lp i).next
  if (w.lp j).anchor then (w.lp (w.lp j).next).data else (w.lp j).data

/-- clip.hpp:1207-1225: the loop of `follow_balance`; `st` is the state of the first point. -/
def Work.walk (st : LState) : Nat → Work → Nat → Nat → Option (Work × Nat × Nat)
  | 0, _, _, _ => none
  | fuel + 1, w, prev, next =>
    let n := w.lp next
    if n.hasBal then some (w, prev, next)
    else
      let nn := n.next
      let n1 := { n with st := .res st }
      let w1 : Work := if st.keep = false then { w with lp := setFn w.lp next n1, merges := w.merges ++ [(prev, next)] }
        else if st.rev then
          { w with lp := setFn w.lp next { n1 with data := if n1.anchor then w.endPoint next else n1.data, next := prev } }
        else { w with lp := setFn w.lp next n1 }
      Work.walk st fuel w1 next nn

/-- clip.hpp:1199 `follow_balance`. -/
def Work.follow (w : Work) (intr : Nat) : Option Work :=
  match (w.lp intr).st, (w.lp intr).anchor with
  | .res st, false =>
    (Work.walk st (w.np + 1) w intr (w.lp intr).next).map fun (w, prev, next) =>
      if st.rev = false then
        if st.keep = false then { w with merges := w.merges ++ [(prev, next)] }
        else
          { w with
            starts := setPt w.starts (w.lp intr).data (w.starts (w.lp intr).data ++ [intr])
            ends := w.ends ++ [prev] }
      else
        let d := (w.lp next).data
        { w with
          orphans := w.orphans ++ [intr]
          ends := if st.keep = true ∧ prev ≠ intr then w.ends ++ [(w.lp intr).next] else w.ends
          virts := setPt w.virts d (w.virts d ++ [⟨prev, st.keep, decide (st.keep = true ∧ prev = intr)⟩]) }
  | _, _ => none

/-- clip.hpp:2352-2365: without tree output. -/
def Work.followAll (w : Work) : List Nat → Option Work
  | [] => some w
  | i :: l => (w.follow i).bind fun w => w.followAll l

/-- clip.hpp:2346-2349: an anchor after every line above a sample. Returns the hits renamed. -/
def Work.anchorHits (w : Work) : List Nat → Work × List Nat
  | [] => (w, [])
  | i :: l =>
    let (w, j) := w.insertAnchor i
    let (w, js) := w.anchorHits l
    (w, j :: js)

def Work.anchorAll (w : Work) : List (Nat × List Nat) → Work × List (Nat × List Nat)
  | [] => (w, [])
  | (p, hs) :: l =>
    let (w, hs) := w.anchorHits hs
    let (w, r) := w.anchorAll l
    (w, (p, hs) :: r)

/-- clip.hpp:2350-2356: with tree output. The samples then name the anchors. -/
def Work.followTree (w : Work) : List (Nat × List Nat) → Option (Work × List (Nat × List Nat))
  | [] => some (w, [])
  | (p, hs) :: l =>
    let (w, a) := w.insertAnchor p
    (w.follow p).bind fun w => (w.followTree l).map fun (w, r) => (w, (a, hs) :: r)

/-- clip.hpp:2367-2390: one orphan. -/
def Work.adopt (w : Work) (i : Nat) : Option Work :=
  let d := (w.lp i).data
  match (w.virts d).getLast? with
  | none => none
  | some vp =>
    if vp.nextIsEnd = true ∧ vp.keep = false then none
    else
      let n := w.lp i
      some { w with
        virts := setPt w.virts d (w.virts d).dropLast
        starts := if vp.keep then setPt w.starts d (w.starts d ++ [i]) else w.starts
        ends := if vp.nextIsEnd then w.ends ++ [i] else w.ends
        lp := setFn w.lp i { n with st := .res (if vp.keep then .kept else .discard), next := vp.next } }

def Work.adoptAll (w : Work) : List Nat → Option Work
  | [] => some w
  | i :: l => (w.adopt i).bind fun w => w.adoptAll l

/-- clip.hpp:2406-2416: the choice among several starts at `p` after the line from `q`; `ends` are the other ends of the lines
that start at `p`. Result: index into `ends`. -/
def pickFrom (q p : Pt) (ends : List Pt) (b : Nat) (left : Bool) (i : Nat) : Nat → Nat
  | 0 => b
  | fuel + 1 =>
    if h : i < ends.length then
      let p3 := ends[i]
      let iLeft := decide (triangleWinding q p p3 < 0)
      let leftOfBs := decide (triangleWinding p (ends.getD b default) p3 < 0)
      if !(if left then iLeft && leftOfBs else iLeft || leftOfBs) then pickFrom q p ends i iLeft (i + 1) fuel
      else pickFrom q p ends b left (i + 1) fuel
    else b

/-- clip.hpp:2400-2417 `b_start`. -/
def pick (q p : Pt) (ends : List Pt) : Nat :=
  if 1 < ends.length then
    pickFrom q p ends 0 (decide (triangleWinding q p (ends.getD 0 default) < 0)) 1 ends.length
  else 0

/-- `swap(v[b], v.back()); v.pop_back()` (clip.hpp:2420-2423). -/
def swapPop (l : List Nat) (b : Nat) : List Nat :=
  match l.getLast? with
  | none => []
  | some x => (l.set b x).dropLast

/-- clip.hpp:2392-2424: one broken end. The assertion of line 2394 (the line has some length) is left out. -/
def Work.join (w : Work) (i : Nat) : Option Work :=
  let p := w.endPoint i
  let os := w.starts p
  match os[pick (w.lp i).data p (os.map w.naEnd)]? with
  | none => none
  | some s =>
    some { w with
      lp := setFn w.lp i { w.lp i with next := s }
      starts := setPt w.starts p (swapPop os (pick (w.lp i).data p (os.map w.naEnd))) }

def Work.joinAll (w : Work) : List Nat → Option Work
  | [] => some w
  | i :: l => (w.join i).bind fun w => w.joinAll l

/-- clip.hpp:2367-2424: orphans, then ends. -/
def Work.reconnect (w : Work) : Option Work :=
  (w.adoptAll w.orphans).bind fun w => w.joinAll w.ends

/-- clip.hpp:240: `loop_index`. -/
inductive LIdx | unset | discarded | anchor | loop (k : Nat)
deriving DecidableEq, Repr

/-- clip.hpp:2426-2434. -/
def OP.mark (p : OP) : LIdx := if p.keep then (if p.anchor then .anchor else .unset) else .discarded

/-- Links, loop indices and loops (`loop_location`: start and size). -/
structure Found where
  next : Nat → Nat
  idx : Nat → LIdx
  loops : List (Nat × Nat)

/-- clip.hpp:1291-1304: the inner loop of `find_loops`. -/
def Found.trace (k i : Nat) : Nat → Found → Nat → Nat → Nat → Option (Found × Nat)
  | 0, _, _, _, _ => none
  | fuel + 1, f, prev, j, size =>
    if j = i then some (f, size)
    else
      match f.idx j with
      | .anchor =>
        let f1 : Found := { f with next := setFn f.next prev (f.next j), idx := setFn f.idx j (.loop k) }
        Found.trace k i fuel f1 prev (f1.next j) size
      | .unset =>
        let f1 : Found := { f with idx := setFn f.idx j (.loop k) }
        Found.trace k i fuel f1 j (f1.next j) (size + 1)
      | _ => none

/-- clip.hpp:1277 `find_loops`, up to point `n`. `fuel` for each loop. -/
def Found.find (fuel : Nat) (f : Found) : Nat → Option Found
  | 0 => some f
  | n + 1 => (Found.find fuel f n).bind fun f =>
    if f.idx n = .unset then
      let k := f.loops.length
      let f1 : Found := { f with idx := setFn f.idx n (.loop k) }
      (Found.trace k n fuel f1 n (f1.next n) 1).map fun (f, size) => { f with loops := f.loops ++ [(n, size)] }
    else some f

def Work.findLoops (w : Work) : Option Found :=
  Found.find (w.np + 1) ⟨fun i => (w.lp i).next, fun i => (w.lp i).mark, []⟩ w.np

/-- clip.hpp:2330 `do_op` after the second sweep, without tree output. -/
def doOp (lp : Nat → OP) (np : Nat) (samples : List Nat) : Option (Work × Found) :=
  ((Work.init lp np).followAll samples).bind fun w => w.reconnect.bind fun w => w.findLoops.map fun f => (w, f)

/-- The same with tree output; also the samples. -/
def doOpTree (lp : Nat → OP) (np : Nat) (samples : List (Nat × List Nat)) : Option (Work × Found × List (Nat × List Nat)) :=
  let (w, samples) := (Work.init lp np).anchorAll samples
  (w.followTree samples).bind fun (w, samples) => w.reconnect.bind fun w => w.findLoops.map fun f => (w, f, samples)

end PolyOps.Loops
