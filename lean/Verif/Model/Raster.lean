import Verif.Model.Geom
import Verif.Model.Events
import Mathlib.Algebra.Order.Group.Unbundled.Abs
import Mathlib.Algebra.Order.Ring.Int
/-! Model of the rasteriser (include/poly_ops/polydraw.hpp).

Simplifications: coordinates, `std::size_t` and `long` are unbounded integers (C42_fits bounds the intermediate
values); `std::vector` is a list; node `k` here is `sweep_nodes[k+1]` in the source, whose element 0 is the header of the
tree; the ordered set is the list of its nodes in iteration order, and the place where `insert` puts a node, given
the row, the tree and the node, is left open (`orc n` for the n-th insertion), so that nothing depends on the shape of the
tree or on the comparison being consistent; theorems that need it assume of `orc` what every search tree grants; the position in the event queue is `pos = current_i + 1`; recursion and loops take fuel.
A coroutine step of `scan_line_sweep_state` is not modelled: the spans are given as one list in the order of emission.
The outcome `ub` stands for undefined behaviour: reading the tree links of a node that is not in the tree, and reading
an event through a reference after the storage of the events was reallocated (`realloc n` says whether appending to
a vector of size `n` reallocates). -/
namespace PolyOps.Raster
open PolyOps.Events

/-! ### Fractions -/

/-- polydraw.hpp:27 `fraction`; the assertion `denom > 0` of lines 57, 61, 65 is a field. -/
structure Frac where
  num : Int
  den : Int
  pos : 0 < den
deriving DecidableEq

/-- polydraw.hpp:37 the constructor, which moves the sign to the numerator. -/
def Frac.of (n d : Int) (h : d ≠ 0) : Frac :=
  if c : d < 0 then ⟨-n, -d, by omega⟩ else ⟨n, d, by omega⟩

/-- polydraw.hpp:55 `<=>` of fractions. -/
def Frac.cmp (a b : Frac) : Ordering := compare (a.num * b.den) (b.num * a.den)

/-- polydraw.hpp:59 `<=>` with an integer. -/
def Frac.cmpInt (a : Frac) (b : Int) : Ordering := compare a.num (b * a.den)

/-- polydraw.hpp:73 `whole_and_frac`. -/
structure IntrY where
  whole : Int
  frac : Frac
deriving DecidableEq

/-- polydraw.hpp:85 `<=>`. -/
def IntrY.cmp (a b : IntrY) : Ordering := (compare a.whole b.whole).then (a.frac.cmp b.frac)

/-- polydraw.hpp:90 `<=>` with an integer. -/
def IntrY.cmpInt (a : IntrY) (b : Int) : Ordering := (compare a.whole b).then (a.frac.cmpInt 0)

/-- polydraw.hpp:95 `==`. -/
def IntrY.eq (a b : IntrY) : Bool := decide (a.whole = b.whole ∧ a.frac.num * b.frac.den = b.frac.num * a.frac.den)

/-! ### Lines -/

/-- base.hpp:598 `cached_segment`. `a` is the upper end (smaller y). -/
structure Seg where
  a : Nat
  b : Nat
  pa : Pt
  pb : Pt
deriving DecidableEq

instance : Inhabited Pt := ⟨⟨0, 0⟩⟩
instance : Inhabited Seg := ⟨⟨0, 0, ⟨0, 0⟩, ⟨0, 0⟩⟩⟩

/-- large_ints.hpp:1179-1185, 1310-1316, 1340-1345: quotient and remainder of `unmul` with `modulo_t::euclid`
(`C08_unmul_pair` ties it to the model of the multi-word division). -/
def euclid (n d : Int) : Int × Int :=
  if (decide (n < 0) != decide (d < 0)) then
    (-1 - ((n.natAbs / d.natAbs : Nat) : Int), (d.natAbs : Int) - ((n.natAbs % d.natAbs : Nat) : Int))
  else (((n.natAbs / d.natAbs : Nat) : Int), ((n.natAbs % d.natAbs : Nat) : Int))

/-- polydraw.hpp:143. -/
def dDet (s1 s2 : Seg) : Int := (s1.pa.x - s1.pb.x) * (s2.pa.y - s2.pb.y) - (s1.pa.y - s1.pb.y) * (s2.pa.x - s2.pb.x)
/-- polydraw.hpp:146. -/
def tDet (s1 s2 : Seg) : Int := (s1.pa.x - s2.pa.x) * (s2.pa.y - s2.pb.y) - (s1.pa.y - s2.pa.y) * (s2.pa.x - s2.pb.x)
/-- polydraw.hpp:147. -/
def uDet (s1 s2 : Seg) : Int := (s1.pa.x - s2.pa.x) * (s1.pa.y - s1.pb.y) - (s1.pa.y - s2.pa.y) * (s1.pa.x - s1.pb.x)

/-- polydraw.hpp:141: the lines have an end in common. -/
def shareEnd (s1 s2 : Seg) : Bool := s1.a == s2.a || s1.a == s2.b || s1.b == s2.a || s1.b == s2.b

/-- polydraw.hpp:149-151: the test that both parameters lie strictly between 0 and 1 (negated). -/
def outside (d t u : Int) : Bool :=
  if d > 0 then decide (t ≤ 0) || decide (t ≥ d) || decide (u ≤ 0) || decide (u ≥ d)
  else decide (t ≥ 0) || decide (t ≤ d) || decide (u ≥ 0) || decide (u ≤ d)

/-- polydraw.hpp:153-156: the height of the crossing. -/
def height (s1 s2 : Seg) (h : dDet s1 s2 ≠ 0) : IntrY :=
  let qr := euclid (tDet s1 s2 * (s1.pb.y - s1.pa.y) + dDet s1 s2 * s1.pa.y) (dDet s1 s2)
  ⟨qr.1, ⟨qr.2, |dDet s1 s2|, abs_pos.mpr h⟩⟩

/-- polydraw.hpp:126 `intersects`. -/
def isect (s1 s2 : Seg) : Option IntrY :=
  if shareEnd s1 s2 then none
  else if h : dDet s1 s2 = 0 then none
  else if outside (dDet s1 s2) (tDet s1 s2) (uDet s1 s2) then none
  else some (height s1 s2 h)

/-- polydraw.hpp:162 `x_intercept`. -/
def xIntercept (s e : Pt) (y : Int) (h : s.y - e.y ≠ 0) : Frac :=
  Frac.of (s.x * (y - e.y) + e.x * (s.y - y)) (s.y - e.y) h

/-- polydraw.hpp:172 `sweep_cmp`. Horizontal lines do not get into the tree (polydraw.hpp:730); the value for them is
chosen to be `false`. -/
def sweepCmp (y : Int) (s1 s2 : Seg) : Bool :=
  if h : s1.pa.y - s1.pb.y ≠ 0 ∧ s2.pa.y - s2.pb.y ≠ 0 then
    match (xIntercept s1.pa s1.pb y h.1).cmp (xIntercept s2.pa s2.pb y h.2) with
    | .gt => true
    | .lt => false
    | .eq =>
      match (xIntercept s1.pa s1.pb (y + 1) h.1).cmp (xIntercept s2.pa s2.pb (y + 1) h.2) with
      | .gt => true
      | .lt => false
      | .eq => if s1.b = s2.b then decide (s1.a > s2.a) else decide (s1.b > s2.b)
  else false

/-- Where a search from the front puts a new line: before the first line it compares less than. A place a search tree may
choose (sweep_set.hpp:350 `_insert`), used for the examples. -/
def ordPlace (nodes : List Seg) (y : Int) (l : List Nat) (k : Nat) : Nat :=
  (l.takeWhile fun j => !sweepCmp y (nodes.getD k default) (nodes.getD j default)).length

/-! ### Events -/

/-- polydraw.hpp:222 `event`. -/
inductive REv
  | edge (fwd : Bool) (a b node : Nat)
  | swap (s1 s2 : Nat) (iy : IntrY)
deriving DecidableEq

instance : Inhabited REv := ⟨.edge false 0 0 0⟩

/-- polydraw.hpp:219 `event_type_t`: backward, forward, swap. -/
def REv.rank : REv → Nat
  | .edge false _ _ _ => 0
  | .edge true _ _ _ => 1
  | .swap _ _ _ => 2

/-- `ab.a` -/
def REv.a : REv → Nat
  | .edge _ a _ _ => a
  | .swap a _ _ => a

/-- `ab.b` -/
def REv.b : REv → Nat
  | .edge _ _ b _ => b
  | .swap _ b _ => b

/-- polydraw.hpp:258-270: comparison of the heights; `py` is the y coordinate of a point index. The comparison
`Coord <=> whole_and_frac` of line 266 is the reversed one. -/
def ordY (py : Nat → Int) : REv → REv → Ordering
  | .swap _ _ i, .swap _ _ j => i.cmp j
  | .swap _ _ i, .edge _ a _ _ => i.cmpInt (py a)
  | .edge _ a _ _, .swap _ _ j => (j.cmpInt (py a)).swap
  | .edge _ a _ _, .edge _ b _ _ => compare (py a) (py b)

/-- polydraw.hpp:254 `event_cmp`. -/
def rless (py : Nat → Int) (e f : REv) : Bool :=
  match ordY py e f with
  | .lt => true
  | .gt => false
  | .eq =>
    if e.rank ≠ f.rank then decide (e.rank < f.rank)
    else if e.a ≠ f.a then decide (e.a < f.a)
    else decide (e.b < f.b)

/-- polydraw.hpp:276 `less_than_or_equal`. -/
def leY (py : Nat → Int) (e : REv) (y : Int) : Bool :=
  match e with
  | .swap _ _ i => i.cmpInt y != .gt
  | .edge _ a _ _ => decide (py a ≤ y)

/-- polydraw.hpp:286 `events_t`, without the work space `new_events`. -/
structure RQueue where
  events : List REv
  pos : Nat
  last : Nat

/-- `std::lower_bound` on a sorted range. -/
def rLowerBound (py : Nat → Int) (l : List REv) (e : REv) : Nat := (l.takeWhile fun f => rless py f e).length

/-- polydraw.hpp:355 comparison of the items to insert. -/
def rInsLess (py : Nat → Int) (a b : REv × Nat) : Bool :=
  if a.2 ≠ b.2 then decide (a.2 < b.2) else rless py a.1 b.1

/-- polydraw.hpp:336-359: positions of the events added since the last call. -/
def rPlaceNew (py : Nat → Int) (events : List REv) (last : Nat) : List (REv × Nat) :=
  addIdx (sortBy (rInsLess py) ((events.drop last).map fun e => (e, rLowerBound py (events.take last) e)))

/-- polydraw.hpp:300 `incorporate_new`: the loops are those of clip.hpp:855 (`incLoop`). -/
def rIncorporate (news : List (REv × Nat)) (events : List REv) : List REv :=
  (List.range events.length).map (incLoop news.reverse (events.length - 1) (fun k => events.getD k default))

/-- polydraw.hpp:328 `next`. -/
def RQueue.next (py : Nat → Int) (q : RQueue) : RQueue :=
  if q.events.length > q.last then
    if q.last = 0 then ⟨sortBy (rless py) q.events, q.pos + 1, q.events.length⟩
    else ⟨rIncorporate (rPlaceNew py q.events q.last) q.events, q.pos + 1, q.events.length⟩
  else { q with pos := q.pos + 1 }

/-- polydraw.hpp:324 `at_end` and 393 `current`: the current event, if not at the end. -/
def RQueue.current (q : RQueue) : Option REv := if q.pos = 0 then none else q.events[q.pos - 1]?

/-! ### Adding loops -/

/-- polydraw.hpp:101 `loop_point`. -/
abbrev LPts := List (Pt × Nat)

/-- polydraw.hpp:506 `point_sink::operator()`. The second component is `none` before the first point, then `prev` and
`first_i`. -/
def sinkStep (s : LPts × Option (Pt × Nat)) (p : Pt) : LPts × Option (Pt × Nat) :=
  match s with
  | (l, none) => (l ++ [(p, l.length + 1)], some (p, l.length))
  | (l, some (prev, first)) =>
    if prev = (l.getLastD default).1 then (l, some (p, first)) else (l ++ [(prev, l.length + 1)], some (p, first))

/-- polydraw.hpp:524 `~point_sink`. -/
def sinkEnd (s : LPts × Option (Pt × Nat)) : LPts :=
  match s with
  | (l, none) => l
  | (l, some (prev, first)) =>
    let l := if prev ≠ (l.getLastD default).1 ∧ prev ≠ (l.getD first default).1 then l ++ [(prev, 0)] else l
    if l.length - first < 3 then l.take first
    else l.dropLast ++ [((l.getLastD default).1, first)]

/-- polydraw.hpp:441 `_add_loop`. -/
def addLoop (l : LPts) (loop : List Pt) : LPts := sinkEnd (loop.foldl sinkStep (l, none))

/-- polydraw.hpp:476 `add_loops` on a fresh or cleared rasteriser. -/
def addLoops (loops : List (List Pt)) : LPts := loops.foldl addLoop []

/-- y coordinate of a stored point. -/
def ptY (l : LPts) (i : Nat) : Int := (l.getD i default).1.y

/-- polydraw.hpp:722-735: the lines that are not horizontal, upper end first. -/
def edges (l : LPts) : List Seg :=
  (List.range l.length).filterMap fun i =>
    let j := (l.getD i default).2
    let s := if ptY l i > ptY l j then (j, i) else (i, j)
    if ptY l i ≠ ptY l j then some ⟨s.1, s.2, (l.getD s.1 default).1, (l.getD s.2 default).1⟩ else none

/-- polydraw.hpp:379 `add_fb_events`, for node `k`. -/
def fbEvents (s : Seg) (k : Nat) : List REv := [.edge true s.a s.b k, .edge false s.b s.a k]

/-- All the events added by polydraw.hpp:722-735. -/
def initEvents (nodes : List Seg) : List REv := nodes.zipIdx.flatMap fun e => fbEvents e.1 e.2

/-! ### The sweep -/

/-- What does not change during a scan: the points, the lines, and when appending an event reallocates. -/
structure Env where
  pts : LPts
  nodes : List Seg
  realloc : Nat → Bool

/-- y coordinate of a point -/
def Env.py (E : Env) (i : Nat) : Int := ptY E.pts i
/-- the line of a node -/
def Env.seg (E : Env) (k : Nat) : Seg := E.nodes.getD k default

/-- Where a new node is put: from the row, the nodes of the tree in order, and the node. -/
abbrev Place := Int → List Nat → Nat → Nat

/-- The state. `orc` gives the places of the insertions to come. `gen` counts the reallocations of the storage of the events. -/
structure St where
  sweep : List Nat
  q : RQueue
  gen : Nat
  orc : Nat → Place

/-- Outcome: a value, undefined behaviour, or no fuel left. -/
inductive Res (α : Type)
  | ok (a : α)
  | ub
  | fuel

/-- sequencing -/
def Res.bind {α β : Type} (r : Res α) (f : α → Res β) : Res β :=
  match r with
  | .ok a => f a
  | .ub => .ub
  | .fuel => .fuel

/-- The element after the first occurrence of `k`. -/
def nextOf (l : List Nat) (k : Nat) : Option Nat := (l.dropWhile (· ≠ k))[1]?

/-- The element before the first occurrence of `k`. -/
def prevOf (l : List Nat) (k : Nat) : Option Nat := (l.takeWhile (· ≠ k)).getLast?

/-- `insert_before(s1,s2)`: `s2` is put before `s1`. -/
def insertBefore (l : List Nat) (s1 s2 : Nat) : List Nat := l.takeWhile (· ≠ s1) ++ s2 :: l.dropWhile (· ≠ s1)

/-- polydraw.hpp:384 `add_swap_event`. -/
def addSwap (E : Env) (s1 s2 : Nat) (iy : IntrY) (st : St) : St :=
  { st with q := { st.q with events := st.q.events ++ [.swap s1 s2 iy] }
            gen := if E.realloc st.q.events.length then st.gen + 1 else st.gen }

/-- polydraw.hpp:549 `check_intersection`. -/
def check (E : Env) (s1 s2 : Nat) (y : Int) (st : St) : St :=
  match isect (E.seg s1) (E.seg s2) with
  | none => st
  | some iy => if iy.cmpInt y != .lt then addSwap E s1 s2 iy st else st

/-- polydraw.hpp:563 `check_intersection_after_swap`. `y` is a reference into the events made when the generation was
`g`. `again` is `swap_and_check`. -/
def checkAfter (E : Env) (g : Nat) (y : IntrY) (again : Nat → Nat → St → Res St) (s1 s2 : Nat) (st : St) : Res St :=
  match isect (E.seg s1) (E.seg s2) with
  | none => .ok st
  | some iy =>
    if g ≠ st.gen then .ub
    else if iy.cmp y != .lt then
      if iy.eq y then again s1 s2 st else .ok (addSwap E s1 s2 iy st)
    else .ok st

/-- polydraw.hpp:588 `swap_and_check`. -/
def swapAndCheck (E : Env) (g : Nat) (y : IntrY) : Nat → Nat → Nat → St → Res St
  | 0, _, _, _ => .fuel
  | f + 1, s1, s2, st =>
    if s1 ∈ st.sweep ∧ s2 ∈ st.sweep then
      if nextOf st.sweep s1 ≠ some s2 then .ok st
      else
        let st := { st with sweep := insertBefore (st.sweep.erase s2) s1 s2 }
        (match prevOf st.sweep s2 with
          | none => Res.ok st
          | some p => checkAfter E g y (swapAndCheck E g y f) p s2 st).bind fun st =>
        match nextOf st.sweep s1 with
        | none => .ok st
        | some n => checkAfter E g y (swapAndCheck E g y f) s1 n st
    else .ub

/-- `events.next` -/
def step (E : Env) (st : St) : St := { st with q := st.q.next E.py }

/-- polydraw.hpp:636-651: the swaps up to row `y`. -/
def swapPhase (E : Env) (y : Int) : Nat → St → Res St
  | 0, _ => .fuel
  | f + 1, st =>
    match st.q.current with
    | some (.swap s1 s2 iy) =>
      if leY E.py (.swap s1 s2 iy) y then
        (swapAndCheck E st.gen iy f s1 s2 st).bind fun st => swapPhase E y f (step E st)
      else .ok st
    | _ => .ok st

/-- polydraw.hpp:660-666: `erase` and the check of the lines that become neighbours. The node after the erased one is
`itr`. -/
def doBackward (E : Env) (node : Nat) (y : Int) (st : St) : Res St :=
  if node ∈ st.sweep then
    let itr := nextOf st.sweep node
    let st := { st with sweep := st.sweep.erase node }
    match itr with
    | none => .ok st
    | some n =>
      match prevOf st.sweep n with
      | none => .ok st
      | some p => .ok (check E p n y st)
  else .ub

/-- polydraw.hpp:652-667: the lines that end at row `y`. -/
def backwardPhase (E : Env) (y : Int) : Nat → St → Res St
  | 0, _ => .fuel
  | f + 1, st =>
    match st.q.current with
    | some (.edge false a b k) =>
      if leY E.py (.edge false a b k) y then
        (doBackward E k (E.py a) st).bind fun st => backwardPhase E y f (step E st)
      else .ok st
    | _ => .ok st

/-- polydraw.hpp:678-683: `insert` and the checks with the neighbours. `row` is the `current_y` of the comparison. `e` is a
reference into the events, read again for the second check. -/
def doForward (E : Env) (row : Int) (node : Nat) (y : Int) (st : St) : Res St :=
  if node ∈ st.sweep then .ub
  else
    let i := st.orc 0 row st.sweep node
    let g := st.gen
    let st := { st with sweep := st.sweep.take i ++ node :: st.sweep.drop i, orc := fun n => st.orc (n + 1) }
    let st := match prevOf st.sweep node with
      | none => st
      | some p => check E p node y st
    match nextOf st.sweep node with
    | none => .ok st
    | some n => if g ≠ st.gen then .ub else .ok (check E node n y st)

/-- polydraw.hpp:668-686: the lines that start at row `y`. -/
def forwardPhase (E : Env) (y : Int) : Nat → St → Res St
  | 0, _ => .fuel
  | f + 1, st =>
    match st.q.current with
    | some (.edge true a b k) =>
      if leY E.py (.edge true a b k) y then
        (doForward E y k (E.py a) st).bind fun st => forwardPhase E y f (step E st)
      else .ok st
    | _ => .ok st

/-- polydraw.hpp:633-686: what is done before row `y` is emitted. -/
def doRow (E : Env) (y : Int) (f : Nat) (st : St) : Res St :=
  (swapPhase E y f st).bind fun st => (backwardPhase E y f st).bind fun st => forwardPhase E y f st

/-- polydraw.hpp:633: the loop over the rows. Gives each row with the lines of the tree in order. -/
def rows (E : Env) (h : Int) : Nat → Int → St → Res (List (Int × List Nat))
  | 0, _, _ => .fuel
  | f + 1, y, st =>
    if st.q.current.isSome ∧ y < h then
      (doRow E y f st).bind fun st => (rows E h f (y + 1) st).bind fun r => .ok ((y, st.sweep) :: r)
    else .ok []

/-- polydraw.hpp:718 `scan_lines`: the lines and the sorted events. -/
def initSt (E : Env) (orc : Nat → Place) : St :=
  ⟨[], RQueue.next E.py ⟨initEvents E.nodes, 0, 0⟩, 0, orc⟩

/-- polydraw.hpp:739: the first row. -/
def firstRow (E : Env) (st : St) : Int :=
  match st.q.current with
  | none => 0
  | some e => E.py e.a

/-- The environment of a scan. -/
def envOf (l : LPts) (realloc : Nat → Bool) : Env := ⟨l, edges l, realloc⟩

/-- The rows of a scan of the stored points. -/
def scanRows (l : LPts) (realloc : Nat → Bool) (orc : Nat → Place) (h : Int) (f : Nat) : Res (List (Int × List Nat)) :=
  let E := envOf l realloc
  let st := initSt E orc
  rows E h f (firstRow E st) st

/-! ### Emission -/

/-- base.hpp:576 `a_is_main`. -/
def aIsMain (l : LPts) (s : Seg) : Bool := decide ((l.getD s.a default).2 = s.b)

/-- polydraw.hpp:398 `clamp`. -/
def clamp (x lo hi : Int) : Int := if x < lo then lo else if x > hi then hi else x

/-- polydraw.hpp:405 `to_coord`: truncating division. -/
def toCoord (x : Frac) (lo hi : Int) : Int := clamp (Int.tdiv x.num x.den) lo hi

/-- polydraw.hpp:605 `scan_line`. -/
structure Span where
  x1 : Int
  x2 : Int
  y : Int
  winding : Int
deriving DecidableEq, Repr

/-- A crossing of a row: where, and +1 or -1. -/
structure Crossing where
  x : Frac
  sign : Int

/-- The crossings of row `y`. -/
def crossings (l : LPts) (nodes : List Seg) (y : Int) (ks : List Nat) : List Crossing :=
  ks.filterMap fun k =>
    let s := nodes.getD k default
    if h : s.pa.y - s.pb.y ≠ 0 then some ⟨xIntercept s.pa s.pb y h, if aIsMain l s then 1 else -1⟩ else none

/-- polydraw.hpp:695-711: the loop over the tree. `x` is the member of that name. -/
def emit (width : Int) (y : Int) : List Crossing → Int → Int → List Span
  | [], _, _ => []
  | c :: cs, x, winding =>
    let x' := toCoord c.x 0 (width - 1)
    let r := emit width y cs x' (winding + c.sign)
    if winding ≠ 0 then ⟨x', x, y, winding⟩ :: r else r

/-- polydraw.hpp:691: the spans of a row; rows above the image give none. -/
def rowSpans (l : LPts) (nodes : List Seg) (width : Int) (x0 : Int) (row : Int × List Nat) : List Span :=
  if row.1 ≥ 0 then emit width row.1 (crossings l nodes row.1 row.2) x0 0 else []

/-- polydraw.hpp:22 `fill_rule_t`. -/
inductive Rule | nonZero | evenOdd | positive | negative

/-- polydraw.hpp:409 `should_fill`. -/
def shouldFill : Rule → Int → Bool
  | .nonZero, w => decide (w ≠ 0)
  | .evenOdd, w => decide (Int.tmod w 2 ≠ 0)
  | .positive, w => decide (w > 0)
  | .negative, w => decide (w < 0)

/-- polydraw.hpp:742 `draw`: the calls of `fill_row`, from the rows of the scan. -/
def drawCalls (l : LPts) (nodes : List Seg) (width : Int) (rule : Rule) (rs : List (Int × List Nat)) :
    List (Int × Int × Int) :=
  ((rs.flatMap (rowSpans l nodes width 0)).filter fun s => shouldFill rule s.winding).map fun s => (s.x1, s.x2, s.y)

end PolyOps.Raster
