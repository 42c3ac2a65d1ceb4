import Verif.Model.PointSink
import Verif.Model.Hierarchy

/-! Model of the object `clipper` (clip.hpp:1790-2025, 2190, 2272, 2330, 2440-2495): its members, and the operations that
add polygons, execute and reset, made of the models of the parts.

Simplifications: as in the parts. The state of the random generator has any type `G`; `Params` says what the intersection test
and the sweep sets do depending on it, and how a sweep changes it. Loops take fuel. The calls that the tracker gets are a
list; `reset` of a tracker empties it. `Out.bad` is undefined behaviour or a failed assertion. -/
namespace PolyOps.Clipper
open PolyOps PolyOps.Events PolyOps.Sweep PolyOps.Loops PolyOps.Hierarchy

inductive Out (α : Type)
  | ok (a : α)
  | bad
  | fuel

def Out.bind {α β : Type} (r : Out α) (f : α → Out β) : Out β :=
  match r with
  | .ok a => f a
  | .bad => .bad
  | .fuel => .fuel

/-- A step that may fail. -/
def Out.of {α : Type} : Option α → Out α
  | some a => .ok a
  | none => .bad

/-- Calls of a point tracker (clip.hpp:80 `i_point_tracker`). -/
inductive TCall
  | added (orig : Int)
  | between (a b : Nat)
  | merge (a b : Nat)
deriving DecidableEq, Repr

/-- clip.hpp:1797 the members of `clipper`. `nodes` is the size of `sweep_nodes`. -/
structure Clipper (G : Type) where
  pts : List LP
  samples : List (Nat × List Nat)
  events : Queue
  nodes : Nat
  starts : Pt → List Nat
  ends : List Nat
  virts : Pt → List VP
  orphans : List Nat
  rgen : G
  nextOrig : Int
  ran : Bool
  loopsOut : List (Nat × Nat)
  top : List Nat

/-- clip.hpp:1886 the constructor. `seed` is the default state of the generator. -/
def Clipper.fresh {G : Type} (seed : G) : Clipper G :=
  ⟨[], [], Queue.empty, 1, fun _ => [], [], fun _ => [], [], seed, 0, false, [], []⟩

/-- clip.hpp:2489 `reset`. -/
def Clipper.reset {G : Type} (c : Clipper G) : Clipper G :=
  { c with pts := [], samples := [], nodes := 1, nextOrig := 0, ran := false }

/-- clip.hpp:1833 `_add_loop` with 1955 `add_loop`. `pt`: a tracker is given; `log` are the calls it got. -/
def Clipper.add {G : Type} (cat : BSet) (pt : Bool) (l : List Pt) (s : Clipper G × List TCall) : Out (Clipper G × List TCall) :=
  let s := if s.1.ran then (s.1.reset, if pt then [] else s.2) else s
  (Out.of (PointSink.addPts ⟨s.1.pts, [], s.1.nextOrig⟩ cat pt l)).bind fun r =>
    .ok ({ s.1 with pts := r.pts, nextOrig := r.nextOrig }, s.2 ++ r.tr.map .added)

/-- What is left open: the tests and the places in the two sweeps given the state of the generator, and its state after the
first sweep. -/
structure Params (G : Type) where
  env1 : G → Env
  env2 : G → Env
  adv : G → Clip → G

/-- clip.hpp:2217: the loop of the first sweep. -/
def sweep1 (env : Env) : Nat → Clip → Out Clip
  | 0, _ => .fuel
  | f + 1, s => if s.q.more then (Out.of (s.step env)).bind fun s => sweep1 env f s else .ok s

/-- clip.hpp:2294: the loop of the second sweep. -/
def sweep2 (env : Env) (op : BoolOp) : Nat → Clip → List (Nat × List Nat) → Out (Clip × List (Nat × List Nat))
  | 0, _, _ => .fuel
  | f + 1, s, r =>
    if s.q.more then (Out.of (s.step2 env op)).bind fun t => sweep2 env op f t.1 (r ++ t.2) else .ok (s, r)

/-- What is read past the end of the vector (undefined in the source; it does not happen): the first point. -/
def noPt (l : List LP) : LP := l.headD ⟨⟨0, 0⟩, 0, .subject, .undef⟩

/-- The state at the start of the first sweep. -/
def Clipper.clip {G : Type} (c : Clipper G) : Clip :=
  ⟨fun i => c.pts.getD i (noPt c.pts), c.pts.length, c.events, fun _ => (0, 0), c.nodes, [], [], 0⟩

/-- The points as the second half of `do_op` sees them. -/
def opOf (p : LP) : OP := ⟨p.data, p.next, p.state, false⟩

/-- What `execute` returns: the points of each loop in order, and with tree output the nesting. -/
structure Output where
  loops : List (List Pt)
  tree : Option Tree

/-- clip.hpp:2343-2437: the second half of `do_op`. The samples are returned. -/
def joinLoops (w : Work) (tree : Bool) (samples : List (Nat × List Nat)) : Option (Work × Found × List (Nat × List Nat)) :=
  if tree then
    let (w, samples) := w.anchorAll samples
    (w.followTree samples).bind fun (w, samples) => w.reconnect.bind fun w => w.findLoops.map fun f => (w, f, samples)
  else
    (w.followAll (samples.map Prod.fst)).bind fun w => w.reconnect.bind fun w => w.findLoops.map fun f => (w, f, samples)

/-- The points of a loop that was found: `n` points from `l.1` on. -/
def loopPts (w : Work) (f : Found) (l : Nat × Nat) : List Pt := (List.range l.2).map fun m => (w.lp (f.next^[m] l.1)).data

/-- clip.hpp:2330 `do_op` and 2451 `loop_hierarchy`. -/
def Clipper.doOp {G : Type} (P : Params G) (fuel : Nat) (op : BoolOp) (tree : Bool) (s : Clipper G × List TCall) :
    Out ((Clipper G × List TCall) × Output) :=
  let c := s.1
  if c.ran then .bad
  else
    let c := { c with ran := true, events := Queue.empty, starts := fun _ => [], ends := [], virts := fun _ => [], orphans := [],
                      loopsOut := [], top := [] }
    (Out.of (c.clip.addLines c.clip.np)).bind fun k =>
    (sweep1 (P.env1 c.rgen) fuel k).bind fun k =>
    (sweep2 (P.env2 c.rgen) op fuel { k with q := k.q.rewind, sweep := [] } c.samples).bind fun (k2, samples) =>
    (Out.of (joinLoops ⟨fun i => opOf (k2.lp i), k2.np, c.starts, c.ends, c.virts, c.orphans, []⟩ tree samples)).bind fun (w, f, samples) =>
    let c := { c with pts := (List.range w.np).map fun i => ⟨(w.lp i).data, f.next i, (k2.lp i).set, (w.lp i).st⟩
                      samples := samples, events := k2.q, nodes := k2.nn
                      starts := w.starts, ends := w.ends, virts := w.virts, orphans := w.orphans
                      rgen := P.adv c.rgen k, loopsOut := f.loops }
    let log := s.2 ++ k.log.map (fun p => .between p.1 p.2) ++ w.merges.map fun p => .merge p.1 p.2
    let loops := f.loops.map (loopPts w f)
    if tree then
      (Out.of (loopHierarchy (fun i => (w.lp i).data) f.next f.idx f.loops.length samples)).bind fun t =>
      .ok (({ c with top := t.top }, log), ⟨loops, some t⟩)
    else .ok ((c, log), ⟨loops, none⟩)

/-- clip.hpp:2444 `execute`. -/
def Clipper.execute {G : Type} (P : Params G) (fuel : Nat) (op : BoolOp) (tree : Bool) (s : Clipper G × List TCall) :
    Out ((Clipper G × List TCall) × Output) :=
  let s := if s.1.ran then (s.1.reset, []) else s
  Clipper.doOp P fuel op tree s

/-- The calls a user makes; `add` with the set, whether the tracker is passed, and the points of one polygon; `resetAll` is
`tclipper::reset` (clip.hpp:2548). -/
inductive Cmd
  | add (cat : BSet) (pt : Bool) (l : List Pt)
  | exec (op : BoolOp) (tree : Bool)
  | reset
  | resetAll

/-- One call. -/
def step {G : Type} (P : Params G) (fuel : Nat) (s : Clipper G × List TCall) : Cmd → Out ((Clipper G × List TCall) × Option Output)
  | .add cat pt l => (Clipper.add cat pt l s).bind fun s => .ok (s, none)
  | .exec op tree => (Clipper.execute P fuel op tree s).bind fun r => .ok (r.1, some r.2)
  | .reset => .ok ((s.1.reset, s.2), none)
  | .resetAll => .ok ((s.1.reset, []), none)

/-- A sequence of calls: the final state and what each call returned. -/
def run {G : Type} (P : Params G) (fuel : Nat) : List Cmd → Clipper G × List TCall → Out ((Clipper G × List TCall) × List (Option Output))
  | [], s => .ok (s, [])
  | c :: cs, s => (step P fuel s c).bind fun r => (run P fuel cs r.1).bind fun q => .ok (q.1, r.2 :: q.2)

end PolyOps.Clipper
