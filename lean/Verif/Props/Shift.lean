import Verif.Lemmas.Shift
import Verif.Props.Double

/-! C69: where the polygons lie does not matter. -/
namespace PolyOps.Exec
open PolyOps PolyOps.Events PolyOps.Sweep PolyOps.Loops PolyOps.Hierarchy PolyOps.Clipper PolyOps.Double

/-! ### Specification -/

/-- Points moved by a vector. -/
def movePts (v : Pt) (l : List Pt) : List Pt := l.map fun p => ⟨p.x + v.x, p.y + v.y⟩

/-- The same call with every point moved. -/
def moveCmd (v : Pt) : Cmd → Cmd
  | .add cat pt l => .add cat pt (movePts v l)
  | c => c

/-- The same output with every point moved; the nesting stays. -/
def moveOut (v : Pt) (o : Output) : Output := ⟨o.loops.map (movePts v), o.tree⟩

/-- How a sequence of calls ended, what each call returned and what the tracker was told. -/
def told {G : Type} : Out ((Clipper G × List TCall) × List (Option Output)) → Out (List (Option Output) × List TCall)
  | .ok r => .ok (r.2, r.1.2)
  | .bad => .bad
  | .fuel => .fuel

/-- The same with every point moved. -/
def moveTold (v : Pt) : Out (List (Option Output) × List TCall) → Out (List (Option Output) × List TCall)
  | .ok r => .ok (r.1.map (Option.map (moveOut v)), r.2)
  | .bad => .bad
  | .fuel => .fuel

/-- The tests, the places in the sweep sets and the use of random numbers depend on the mutual position of points only. -/
structure Params.Free {G : Type} (P : Params G) : Prop where
  env1 : ∀ g, (P.env1 g).Free
  env2 : ∀ g, (P.env2 g).Free
  adv : ∀ g v k, P.adv g (Clip.shift v k) = P.adv g k

/-! ### Proof -/

theorem movePts_eq (v : Pt) (l : List Pt) : movePts v l = l.map (· + v) := rfl

section
variable {G : Type} (v : Pt)

def moveC (c : Clipper G) : Clipper G :=
  { c with pts := c.pts.map (LP.shift v), starts := fun p => c.starts (p - v), virts := fun p => c.virts (p - v) }

/-- Maps the value. -/
def omap {α β : Type} (f : α → β) : Out α → Out β
  | .ok a => .ok (f a)
  | .bad => .bad
  | .fuel => .fuel

theorem Out.of_map {α β : Type} (f : α → β) (o : Option α) : Out.of (o.map f) = omap f (Out.of o) := by cases o <;> rfl

theorem omap_bind {α β γ δ : Type} (f : α → β) (g : γ → δ) (x : Out α) (h : α → Out γ) (h' : β → Out δ) (hh : ∀ a, h' (f a) = omap g (h a)) :
    (omap f x).bind h' = omap g (x.bind h) := by
  cases x with
  | ok a => exact hh a
  | bad => rfl
  | fuel => rfl

variable {P : Params G} (hP : Params.Free P) (fuel : Nat)

theorem clip_move (c : Clipper G) (h : c.pts ≠ []) : (moveC v c).clip = c.clip.shift v := by
  unfold Clipper.clip Clip.shift moveC
  simp only [List.length_map, Clip.mk.injEq, and_self, and_true]
  funext i
  have h0 : noPt (c.pts.map (LP.shift v)) = (noPt c.pts).shift v := by
    cases hp : c.pts with
    | nil => exact absurd hp h
    | cons a l => rfl
  rw [h0, List.getD_map]

theorem sweep1_move {env : Env} (he : env.Free) : ∀ (f : Nat) (s : Clip), sweep1 env f (s.shift v) = omap (Clip.shift v) (sweep1 env f s) := by
  intro f
  induction f with
  | zero => intro s; rfl
  | succ f ih =>
    intro s
    show (if s.q.more = true then (Out.of ((s.shift v).step env)).bind _ else _) = omap _ (if s.q.more = true then _ else _)
    cases s.q.more with
    | false => rfl
    | true =>
      simp only [if_true]
      rw [Clip.step_shift v s he, Out.of_map]
      exact omap_bind _ _ _ _ _ fun a => ih a

theorem sweep2_move {env : Env} (he : env.Free) (op : BoolOp) : ∀ (f : Nat) (s : Clip) (r : List (Nat × List Nat)),
    sweep2 env op f (s.shift v) r = omap (fun t => (t.1.shift v, t.2)) (sweep2 env op f s r) := by
  intro f
  induction f with
  | zero => intro s r; rfl
  | succ f ih =>
    intro s r
    show (if s.q.more = true then (Out.of ((s.shift v).step2 env op)).bind _ else _) = omap _ (if s.q.more = true then _ else _)
    cases s.q.more with
    | false => rfl
    | true =>
      simp only [if_true]
      rw [Clip.step2_shift v s he, Out.of_map]
      exact omap_bind _ _ _ _ _ fun a => ih a.1 _

theorem joinLoops_move (w : Work) (tree : Bool) (samples : List (Nat × List Nat)) :
    joinLoops (w.shift v) tree samples = (joinLoops w tree samples).map fun r => (r.1.shift v, r.2) := by
  have rest : ∀ (w : Work) (s : List (Nat × List Nat)), ((w.shift v).reconnect.bind fun w => w.findLoops.map fun f => (w, f, s)) =
      (w.reconnect.bind fun w => w.findLoops.map fun f => (w, f, s)).map fun r => (r.1.shift v, r.2) := by
    intro w s
    rw [Work.reconnect_shift]
    cases w.reconnect with
    | none => rfl
    | some u =>
      simp only [Option.map_some, Option.bind_some, Work.findLoops_shift]
      cases u.findLoops <;> rfl
  unfold joinLoops
  cases tree with
  | false =>
    simp only [Bool.false_eq_true, if_false]
    rw [Work.followAll_shift]
    cases w.followAll (samples.map Prod.fst) with
    | none => rfl
    | some u => exact rest u samples
  | true =>
    simp only [if_true]
    rw [Work.anchorAll_shift]
    simp only
    rw [Work.followTree_shift]
    cases (w.anchorAll samples).1.followTree (w.anchorAll samples).2 with
    | none => rfl
    | some u => exact rest u.1 u.2

theorem loopPts_move (w : Work) (f : Found) (l : Nat × Nat) : loopPts (w.shift v) f l = movePts v (loopPts w f l) := by
  unfold loopPts movePts
  rw [List.map_map]
  rfl

/-- What `execute` gives, moved. -/
def moveR (r : (Clipper G × List TCall) × Output) : (Clipper G × List TCall) × Output := ((moveC v r.1.1, r.1.2), moveOut v r.2)

/-- Nothing is sampled before an operation. -/
def Calm (c : Clipper G) : Prop := c.ran = false → c.samples = []

/-- The clipper when the operation starts. -/
def begun (c : Clipper G) : Clipper G :=
  { c with ran := true, events := Queue.empty, starts := fun _ => [], ends := [], virts := fun _ => [], orphans := [], loopsOut := [], top := [] }

theorem doOp_eq (op : BoolOp) (tree : Bool) (c : Clipper G) (log : List TCall) : Clipper.doOp P fuel op tree (c, log) =
    if c.ran then .bad else
    (Out.of ((begun c).clip.addLines (begun c).clip.np)).bind fun k =>
    (sweep1 (P.env1 c.rgen) fuel k).bind fun k =>
    (sweep2 (P.env2 c.rgen) op fuel { k with q := k.q.rewind, sweep := [] } c.samples).bind fun t =>
    (Out.of (joinLoops ⟨fun i => opOf (t.1.lp i), t.1.np, fun _ => [], [], fun _ => [], [], []⟩ tree t.2)).bind fun u =>
    let c := { begun c with pts := (List.range u.1.np).map fun i => ⟨(u.1.lp i).data, u.2.1.next i, (t.1.lp i).set, (u.1.lp i).st⟩
                            samples := u.2.2, events := t.1.q, nodes := t.1.nn
                            starts := u.1.starts, ends := u.1.ends, virts := u.1.virts, orphans := u.1.orphans
                            rgen := P.adv c.rgen k, loopsOut := u.2.1.loops }
    let log := log ++ k.log.map (fun p => .between p.1 p.2) ++ u.1.merges.map fun p => .merge p.1 p.2
    let loops := u.2.1.loops.map (loopPts u.1 u.2.1)
    if tree then
      (Out.of (loopHierarchy (fun i => (u.1.lp i).data) u.2.1.next u.2.1.idx u.2.1.loops.length u.2.2)).bind fun t =>
      .ok (({ c with top := t.top }, log), ⟨loops, some t⟩)
    else .ok ((c, log), ⟨loops, none⟩) := rfl

include hP in
theorem doOp_move (op : BoolOp) (tree : Bool) (c : Clipper G) (log : List TCall) (hc : Calm c) :
    Clipper.doOp P fuel op tree (moveC v c, log) = omap (moveR v) (Clipper.doOp P fuel op tree (c, log)) := by
  rw [doOp_eq, doOp_eq]
  show (if c.ran = true then _ else _) = _
  cases hr : c.ran with
  | true => rfl
  | false =>
    simp only [Bool.false_eq_true, if_false]
    by_cases hn : c.pts = []
    · have hs := hc hr
      cases fuel with
      | zero =>
        have h1 : (begun (moveC v c)).clip = (begun c).clip := by
          unfold begun moveC Clipper.clip; simp [hn]
        rw [h1]
        have h2 : (begun c).clip.np = 0 := by show c.pts.length = 0; rw [hn]; rfl
        rw [h2]
        rfl
      | succ f =>
        obtain ⟨pts, samples, events, nodes, starts, ends, virts, orphans, rgen, nextOrig, ran, loopsOut, top⟩ := c
        simp only at hn hs hr
        subst hn hs hr
        cases tree with
        | false => rfl
        | true =>
          have h : ∀ (data : Nat → Pt) (next : Nat → Nat) (idx : Nat → LIdx), loopHierarchy data next idx 0 [] = some ⟨[], fun _ => []⟩ := by
            intro data next idx
            simp [loopHierarchy, uniqueSorted, Hierarchy.sortBy, uniqBy, arrangeLoops, arrange]
          show (Out.of (loopHierarchy _ _ _ 0 [])).bind _ = omap _ ((Out.of (loopHierarchy _ _ _ 0 [])).bind _)
          rw [h, h]
          rfl
    · have h1 : (begun (moveC v c)).clip = (begun c).clip.shift v := clip_move v (begun c) hn
      rw [h1]
      show (Out.of (((begun c).clip.shift v).addLines (begun c).clip.np)).bind _ = _
      rw [Clip.addLines_shift, Out.of_map]
      refine omap_bind _ _ _ _ _ fun k => ?_
      show (sweep1 (P.env1 c.rgen) fuel (k.shift v)).bind _ = _
      rw [sweep1_move v (hP.env1 _)]
      refine omap_bind _ _ _ _ _ fun k => ?_
      show (sweep2 (P.env2 c.rgen) op fuel (Clip.shift v { k with q := k.q.rewind, sweep := [] }) c.samples).bind _ = _
      rw [sweep2_move v (hP.env2 _)]
      refine omap_bind _ _ _ _ _ fun t => ?_
      show (Out.of (joinLoops (Work.shift v ⟨fun i => opOf (t.1.lp i), t.1.np, fun _ => [], [], fun _ => [], [], []⟩) tree t.2)).bind _ = _
      rw [joinLoops_move, Out.of_map]
      refine omap_bind _ _ _ _ _ fun u => ?_
      have hl : u.2.1.loops.map (loopPts (u.1.shift v) u.2.1) = (u.2.1.loops.map (loopPts u.1 u.2.1)).map (movePts v) := by
        rw [List.map_map]
        exact List.map_congr_left fun l _ => loopPts_move v _ _ l
      have hp : ((List.range (u.1.shift v).np).map fun i => (⟨((u.1.shift v).lp i).data, u.2.1.next i, ((t.1.shift v).lp i).set, ((u.1.shift v).lp i).st⟩ : LP)) =
          ((List.range u.1.np).map fun i => (⟨(u.1.lp i).data, u.2.1.next i, (t.1.lp i).set, (u.1.lp i).st⟩ : LP)).map (LP.shift v) := by
        rw [List.map_map]
        rfl
      cases tree with
      | false =>
        simp only [Bool.false_eq_true, if_false]
        have ha : P.adv (moveC v c).rgen (k.shift v) = P.adv c.rgen k := hP.adv _ _ _
        rw [hl, hp, ha]
        rfl
      | true =>
        simp only [if_true]
        have ha : P.adv (moveC v c).rgen (k.shift v) = P.adv c.rgen k := hP.adv _ _ _
        rw [hl, hp, ha]
        show (Out.of (loopHierarchy (fun i => (u.1.lp i).data + v) u.2.1.next u.2.1.idx u.2.1.loops.length u.2.2)).bind _ = _
        rw [loopHierarchy_shift]
        cases loopHierarchy (fun i => (u.1.lp i).data) u.2.1.next u.2.1.idx u.2.1.loops.length u.2.2 <;> rfl

theorem reset_move (c : Clipper G) : (moveC v c).reset = moveC v c.reset := rfl

include hP in
theorem execute_move (op : BoolOp) (tree : Bool) (c : Clipper G) (log : List TCall) (hc : Calm c) :
    Clipper.execute P fuel op tree (moveC v c, log) = omap (moveR v) (Clipper.execute P fuel op tree (c, log)) := by
  unfold Clipper.execute
  show Clipper.doOp P fuel op tree (if c.ran = true then _ else _) = omap _ (Clipper.doOp P fuel op tree (if c.ran = true then _ else _))
  cases hr : c.ran with
  | true => exact doOp_move v hP fuel op tree c.reset [] fun _ => rfl
  | false => exact doOp_move v hP fuel op tree c log hc

theorem add_move (cat : BSet) (pt : Bool) (l : List Pt) (c : Clipper G) (log : List TCall) :
    Clipper.add cat pt (movePts v l) (moveC v c, log) = omap (fun s => (moveC v s.1, s.2)) (Clipper.add cat pt l (c, log)) := by
  have core : ∀ (c : Clipper G) (log : List TCall),
      ((Out.of (PointSink.addPts ⟨(moveC v c).pts, [], (moveC v c).nextOrig⟩ cat pt (movePts v l))).bind fun r =>
        Out.ok (({ moveC v c with pts := r.pts, nextOrig := r.nextOrig } : Clipper G), log ++ r.tr.map .added)) =
      omap (fun s => (moveC v s.1, s.2)) ((Out.of (PointSink.addPts ⟨c.pts, [], c.nextOrig⟩ cat pt l)).bind fun r =>
        Out.ok (({ c with pts := r.pts, nextOrig := r.nextOrig } : Clipper G), log ++ r.tr.map .added)) := by
    intro c log
    have h := PointSink.addPts_shift v ⟨c.pts, [], c.nextOrig⟩ cat pt l
    show (Out.of (PointSink.addPts (PointSink.Store.shift v ⟨c.pts, [], c.nextOrig⟩) cat pt (l.map (· + v)))).bind _ = _
    rw [h, Out.of_map]
    exact omap_bind _ _ _ _ _ fun r => rfl
  unfold Clipper.add
  have hm : (moveC v c).ran = c.ran := rfl
  cases hr : c.ran with
  | true => simp only [hm, hr, if_true]; exact core c.reset _
  | false => simpa only [hm, hr, Bool.false_eq_true, if_false] using core c log

theorem add_calm {cat : BSet} {pt : Bool} {l : List Pt} {c c' : Clipper G} {log log' : List TCall} (hc : Calm c)
    (h : Clipper.add cat pt l (c, log) = .ok (c', log')) : Calm c' := by
  unfold Clipper.add at h
  cases hr : c.ran with
  | true =>
    simp only [hr, if_true] at h
    cases ha : PointSink.addPts ⟨c.reset.pts, [], c.reset.nextOrig⟩ cat pt l with
    | none => rw [ha] at h; cases h
    | some r => rw [ha] at h; cases h; exact fun _ => rfl
  | false =>
    simp only [hr, Bool.false_eq_true, if_false] at h
    cases ha : PointSink.addPts ⟨c.pts, [], c.nextOrig⟩ cat pt l with
    | none => rw [ha] at h; cases h
    | some r => rw [ha] at h; cases h; exact fun h => hc hr

theorem exec_calm {op : BoolOp} {tree : Bool} {s : Clipper G × List TCall} {r : (Clipper G × List TCall) × Output}
    (h : Clipper.execute P fuel op tree s = .ok r) : r.1.1.ran = true := by
  unfold Clipper.execute at h
  generalize (if s.1.ran = true then (s.1.reset, []) else s) = s' at h
  obtain ⟨c, log⟩ := s'
  rw [doOp_eq] at h
  cases hr : c.ran with
  | true => rw [hr] at h; cases h
  | false =>
    rw [hr] at h
    simp only [Bool.false_eq_true, if_false] at h
    cases h1 : Out.of ((begun c).clip.addLines (begun c).clip.np) with
    | bad => rw [h1] at h; cases h
    | fuel => rw [h1] at h; cases h
    | ok k1 =>
      rw [h1] at h
      simp only [Out.bind] at h
      split at h <;> try (cases h; done)
      split at h <;> try (cases h; done)
      split at h <;> try (cases h; done)
      cases tree with
      | false => cases h; rfl
      | true =>
        simp only [if_true] at h
        split at h <;> try (cases h; done)
        cases h; rfl

/-- Results of a sequence of calls, moved. -/
def moveS (r : (Clipper G × List TCall) × List (Option Output)) : (Clipper G × List TCall) × List (Option Output) :=
  ((moveC v r.1.1, r.1.2), r.2.map (Option.map (moveOut v)))

include hP in
theorem run_move (cs : List Cmd) : ∀ (c : Clipper G) (log : List TCall), Calm c →
    run P fuel (cs.map (moveCmd v)) (moveC v c, log) = omap (moveS v) (run P fuel cs (c, log)) := by
  induction cs with
  | nil => intro c log _; rfl
  | cons d cs ih =>
    intro c log hc
    have tail : ∀ (c' : Clipper G) (log' : List TCall) (o : Option Output), Calm c' →
        ((run P fuel (cs.map (moveCmd v)) (moveC v c', log')).bind fun q => Out.ok (q.1, o.map (moveOut v) :: q.2)) =
          omap (moveS v) ((run P fuel cs (c', log')).bind fun q => Out.ok (q.1, o :: q.2)) := by
      intro c' log' o h'
      rw [ih c' log' h']
      cases run P fuel cs (c', log') <;> rfl
    show (step P fuel (moveC v c, log) (moveCmd v d)).bind _ = omap _ ((step P fuel (c, log) d).bind _)
    cases d with
    | add cat pt l =>
      show ((Clipper.add cat pt (movePts v l) (moveC v c, log)).bind _).bind _ = omap _ (((Clipper.add cat pt l (c, log)).bind _).bind _)
      rw [add_move]
      cases h : Clipper.add cat pt l (c, log) with
      | bad => rfl
      | fuel => rfl
      | ok s => exact tail s.1 s.2 none (add_calm hc h)
    | exec op tree =>
      show ((Clipper.execute P fuel op tree (moveC v c, log)).bind _).bind _ = omap _ (((Clipper.execute P fuel op tree (c, log)).bind _).bind _)
      rw [execute_move v hP fuel op tree c log hc]
      cases h : Clipper.execute P fuel op tree (c, log) with
      | bad => rfl
      | fuel => rfl
      | ok r =>
        exact tail r.1.1 r.1.2 (some r.2) fun h' => by rw [exec_calm fuel h] at h'; cases h'
    | reset => exact tail c.reset log none fun _ => rfl
    | resetAll => exact tail c.reset [] none fun _ => rfl

/-- The sorted sets of the library. -/
theorem place1_free (rnd : Rat → Rat) (g : Nat → Bool × Bool) : (realEnv rnd g place1).Free where
  isect v t s1 s2 := intersects_shift rnd _ _ v s1 s2
  pos v s n := by
    show (s.sweep.takeWhile fun m => SweepCmp.sweepCmp ((s.cseg m).shift v) ((s.cseg n).shift v)).length = _
    simp only [sweepCmp_shift]
    rfl
theorem place2_free (rnd : Rat → Rat) (g : Nat → Bool × Bool) : (realEnv rnd g place2).Free where
  isect v t s1 s2 := intersects_shift rnd _ _ v s1 s2
  pos v s n := rfl

theorem lib_free : Params.Free lib := ⟨place1_free id, place2_free id, fun _ _ _ => rfl⟩
theorem libDouble_free : Params.Free libDouble := ⟨place1_free dbl, place2_free dbl, fun _ _ _ => rfl⟩

include hP in
/-- **C69.** Any sequence of calls on a new clipper is made again with all polygons moved by a vector. It ends in the same way, each
call returns the same polygons moved by this vector, with the same nesting and in the same order, and the tracker is told the same. -/
theorem C69_moved (cs : List Cmd) (g : G) (log : List TCall) :
    told (run P fuel (cs.map (moveCmd v)) (Clipper.fresh g, log)) = moveTold v (told (run P fuel cs (Clipper.fresh g, log))) := by
  have h := run_move v hP fuel cs (Clipper.fresh g) log fun _ => rfl
  show told (run P fuel (cs.map (moveCmd v)) (moveC v (Clipper.fresh g), log)) = _
  rw [h]
  cases run P fuel cs (Clipper.fresh g, log) <;> rfl

end

/-- **C69 (doubles).** -/
theorem C69_double (v : Pt) (fuel : Nat) (cs : List Cmd) (g : Nat → Bool × Bool) (log : List TCall) :
    told (run libDouble fuel (cs.map (moveCmd v)) (Clipper.fresh g, log)) = moveTold v (told (run libDouble fuel cs (Clipper.fresh g, log))) :=
  C69_moved v libDouble_free fuel cs g log

/-- **C69 (exact numbers).** -/
theorem C69_exact (v : Pt) (fuel : Nat) (cs : List Cmd) (g : Nat → Bool × Bool) (log : List TCall) :
    told (run lib fuel (cs.map (moveCmd v)) (Clipper.fresh g, log)) = moveTold v (told (run lib fuel cs (Clipper.fresh g, log))) :=
  C69_moved v lib_free fuel cs g log

/-! ### Cases -/

/-- The polygons returned. -/
def polysOf : Out (List (Option Output) × List TCall) → Option (List (List (List Pt)))
  | .ok r => some (r.1.filterMap fun o => o.map Output.loops)
  | _ => none

/-- A bow tie at another place. -/
example : polysOf (told (run lib 100 ([.add .subject true bow, .exec .normalize false].map (moveCmd ⟨100, -7⟩)) (Clipper.fresh gen, []))) =
    some [[[⟨100, -7⟩, ⟨101, -6⟩, ⟨100, -4⟩], [⟨103, -4⟩, ⟨101, -6⟩, ⟨103, -7⟩]]] := by decide +kernel

end PolyOps.Exec
