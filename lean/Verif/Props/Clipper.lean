import Verif.Model.Clipper
import Verif.Model.SweepCmp
import Verif.Props.Sweep
import Verif.Props.PointSink

/-! C35 and C46: the life cycle of a clipper. What a user sees of a sequence of calls is `trace`: what each call returned and
what the tracker has been told since it was last reset. -/
namespace PolyOps.Clipper
open PolyOps PolyOps.Events PolyOps.Sweep PolyOps.Loops PolyOps.Hierarchy PolyOps.PointSink

variable {G : Type} (P : Params G) (fuel : Nat)

/-- What is seen of a sequence of calls. -/
def trace : List Cmd → Clipper G × List TCall → Out (List (Option Output × List TCall))
  | [], _ => .ok []
  | c :: cs, s => (step P fuel s c).bind fun r => (trace cs r.1).bind fun q => .ok ((r.2, r.1.2) :: q)

/-- The members that do not matter between calls, emptied. -/
def strip (c : Clipper G) : Clipper G :=
  { c with events := Queue.empty, starts := fun _ => [], ends := [], virts := fun _ => [], orphans := [], loopsOut := [], top := [] }

theorem Out.bind_ok {α β : Type} {r : Out α} {f : α → Out β} {b : β} (h : r.bind f = .ok b) : ∃ a, r = .ok a ∧ f a = .ok b := by
  cases r with
  | ok a => exact ⟨a, rfl, h⟩
  | bad => cases h
  | fuel => cases h

theorem execute_strip (op : BoolOp) (tree : Bool) (s : Clipper G × List TCall) :
    Clipper.execute P fuel op tree s = Clipper.execute P fuel op tree (strip s.1, s.2) := by
  unfold Clipper.execute
  cases h : s.1.ran with
  | true => rw [if_pos rfl, if_pos (show (strip s.1).ran = true from h)]; rfl
  | false =>
    rw [if_neg (by simp), if_neg (by rw [show (strip s.1).ran = false from h]; simp)]; rfl

theorem add_strip (cat : BSet) (pt : Bool) (l : List Pt) (s : Clipper G × List TCall) :
    Clipper.add cat pt l (strip s.1, s.2) = (Clipper.add cat pt l s).bind fun r => .ok (strip r.1, r.2) := by
  unfold Clipper.add
  cases h : s.1.ran with
  | true =>
    rw [if_pos rfl, if_pos (show (strip s.1).ran = true from h)]
    show (Out.of (addPts ⟨[], [], 0⟩ cat pt l)).bind _ = ((Out.of (addPts ⟨[], [], 0⟩ cat pt l)).bind _).bind _
    cases Out.of (addPts ⟨[], [], 0⟩ cat pt l) <;> rfl
  | false =>
    have h' : ¬ (strip s.1).ran = true := by rw [show (strip s.1).ran = false from h]; simp
    rw [if_neg h', if_neg (by simp)]
    show (Out.of (addPts ⟨s.1.pts, [], s.1.nextOrig⟩ cat pt l)).bind _ = ((Out.of (addPts ⟨s.1.pts, [], s.1.nextOrig⟩ cat pt l)).bind _).bind _
    cases Out.of (addPts ⟨s.1.pts, [], s.1.nextOrig⟩ cat pt l) <;> rfl

theorem trace_strip (cs : List Cmd) : ∀ s : Clipper G × List TCall, trace P fuel cs s = trace P fuel cs (strip s.1, s.2) := by
  induction cs with
  | nil => intro s; rfl
  | cons c cs ih =>
    intro s
    cases c with
    | add cat pt l =>
      show ((Clipper.add cat pt l s).bind fun s => .ok (s, none)).bind _ = ((Clipper.add cat pt l (strip s.1, s.2)).bind fun s => .ok (s, none)).bind _
      rw [add_strip]
      cases h : Clipper.add cat pt l s with
      | ok r =>
        show (trace P fuel cs r).bind _ = (trace P fuel cs (strip r.1, r.2)).bind _
        rw [← ih r]
      | bad => rfl
      | fuel => rfl
    | exec op tree =>
      show ((Clipper.execute P fuel op tree s).bind fun r => .ok (r.1, some r.2)).bind _ = ((Clipper.execute P fuel op tree (strip s.1, s.2)).bind fun r => .ok (r.1, some r.2)).bind _
      rw [execute_strip]
    | reset =>
      show (trace P fuel cs (s.1.reset, s.2)).bind _ = (trace P fuel cs ((strip s.1).reset, s.2)).bind _
      rw [ih (s.1.reset, s.2)]; rfl
    | resetAll =>
      show (trace P fuel cs (s.1.reset, [])).bind _ = (trace P fuel cs ((strip s.1).reset, [])).bind _
      rw [ih (s.1.reset, [])]; rfl

/-- C35: whatever a clipper holds, after `reset` it behaves like a new one whose generator is in the state of this one. Its
tracker is not reset. -/
theorem C35_reset (s : Clipper G × List TCall) (cs : List Cmd) :
    trace P fuel cs (s.1.reset, s.2) = trace P fuel cs (.fresh s.1.rgen, s.2) := by
  rw [trace_strip]; rfl

/-- C35: `reset` of a clipper with a tracker also resets the tracker. -/
theorem C35_reset_all (s : Clipper G × List TCall) (cs : List Cmd) :
    trace P fuel (.resetAll :: cs) s = (trace P fuel cs (.fresh s.1.rgen, [])).bind fun q => .ok ((none, []) :: q) := by
  show (trace P fuel cs (s.1.reset, [])).bind _ = _
  rw [C35_reset P fuel (s.1, [])]

/-- C35: after `execute`, adding a polygon discards all that was added before: this call and all later ones go as with a
new clipper. The tracker is reset if it is passed. -/
theorem C35_restart (s : Clipper G × List TCall) (h : s.1.ran = true) (cat : BSet) (pt : Bool) (l : List Pt) (cs : List Cmd) :
    trace P fuel (.add cat pt l :: cs) s = trace P fuel (.add cat pt l :: cs) (.fresh s.1.rgen, if pt then [] else s.2) := by
  have e : Clipper.add cat pt l s = Clipper.add cat pt l (s.1.reset, if pt then [] else s.2) := by
    unfold Clipper.add
    rw [if_pos h]; rfl
  have : trace P fuel (.add cat pt l :: cs) s = trace P fuel (.add cat pt l :: cs) (s.1.reset, if pt then [] else s.2) := by
    show ((Clipper.add cat pt l s).bind fun s => .ok (s, none)).bind _ = ((Clipper.add cat pt l _).bind fun s => .ok (s, none)).bind _
    rw [e]
  rw [this, C35_reset P fuel (s.1, if pt then [] else s.2)]

/-- C35: the restart happens after every `execute` that came to an end. -/
theorem C35_ran {op : BoolOp} {tree : Bool} {s : Clipper G × List TCall} {r : (Clipper G × List TCall) × Output}
    (h : Clipper.execute P fuel op tree s = .ok r) : r.1.1.ran = true := by
  unfold Clipper.execute at h
  generalize (if s.1.ran = true then (s.1.reset, ([] : List TCall)) else s) = t at h
  unfold Clipper.doOp at h
  simp only at h
  split at h
  · cases h
  · obtain ⟨k, -, h⟩ := Out.bind_ok h
    obtain ⟨k1, -, h⟩ := Out.bind_ok h
    obtain ⟨⟨k2, sm⟩, -, h⟩ := Out.bind_ok h
    obtain ⟨⟨w, f, sm2⟩, -, h⟩ := Out.bind_ok h
    simp only at h
    split at h
    · obtain ⟨t, -, h⟩ := Out.bind_ok h
      cases h; rfl
    · cases h; rfl

theorem add_ran {cat : BSet} {pt : Bool} {l : List Pt} {s r : Clipper G × List TCall} (h : Clipper.add cat pt l s = .ok r) :
    r.1.ran = false := by
  unfold Clipper.add at h
  obtain ⟨q, -, h⟩ := Out.bind_ok h
  cases h
  show (if s.1.ran = true then (s.1.reset, if pt = true then [] else s.2) else s).1.ran = false
  split
  · rfl
  · rename_i h; simpa using h

theorem hierarchy_nothing (d : Nat → Pt) (n : Nat → Nat) (idx : Nat → LIdx) : loopHierarchy d n idx 0 [] = some ⟨[], fun _ => []⟩ := by
  unfold loopHierarchy arrangeLoops uniqueSorted
  simp [Hierarchy.sortBy, uniqBy, arrange]

/-- No points: the operation gives no loops. -/
theorem exec_nothing (op : BoolOp) (tree : Bool) (c : Clipper G) (log : List TCall) (h1 : c.pts = []) (h2 : c.samples = [])
    (h3 : c.ran = false) : ∃ s' o, Clipper.doOp P (fuel + 1) op tree (c, log) = .ok (s', o) ∧ o.loops = [] ∧
      (∀ t, o.tree = some t → t.top = [] ∧ ∀ i, t.children i = []) ∧ o.tree.isSome = tree ∧ s'.2 = log ∧ s'.1.pts = [] := by
  obtain ⟨pts, samples, ev, nodes, st, en, vi, orp, rgen, no, ran, lo, top⟩ := c
  subst h1 h2 h3
  cases tree with
  | true =>
    refine ⟨_, _, (show Clipper.doOp P (fuel + 1) op true _ = (Out.of (loopHierarchy _ _ _ 0 [])).bind _ from rfl).trans
      (by rw [hierarchy_nothing]; rfl), ?_⟩
    refine ⟨rfl, ?_, rfl, ?_, rfl⟩
    on_goal 2 => exact (List.append_nil _).trans (List.append_nil _)
    intro t ht; cases ht; exact ⟨rfl, fun i => rfl⟩
  | false =>
    refine ⟨_, _, rfl, ?_⟩
    refine ⟨rfl, ?_, rfl, ?_, rfl⟩
    on_goal 2 => exact (List.append_nil _).trans (List.append_nil _)
    intro t ht; cases ht

/-- C35: `execute` without new input gives an empty result, and the tracker is reset. -/
theorem C35_again (op : BoolOp) (tree : Bool) (s : Clipper G × List TCall) (h : s.1.ran = true) :
    ∃ s' o, Clipper.execute P (fuel + 1) op tree s = .ok (s', o) ∧ o.loops = [] ∧
      (∀ t, o.tree = some t → t.top = [] ∧ ∀ i, t.children i = []) ∧ o.tree.isSome = tree ∧ s'.2 = [] := by
  unfold Clipper.execute
  rw [if_pos h]
  obtain ⟨s', o, a, b, c, d, e, -⟩ := exec_nothing P fuel op tree s.1.reset [] rfl rfl rfl
  exact ⟨s', o, a, b, c, d, e⟩

/-- C35: the same for a new clipper and after `reset`. -/
theorem C35_empty (op : BoolOp) (tree : Bool) (s : Clipper G × List TCall) (c : Clipper G) (hc : c = .fresh s.1.rgen ∨ c = s.1.reset) :
    ∃ s' o, Clipper.execute P (fuel + 1) op tree (c, s.2) = .ok (s', o) ∧ o.loops = [] ∧
      (∀ t, o.tree = some t → t.top = [] ∧ ∀ i, t.children i = []) ∧ o.tree.isSome = tree ∧ s'.2 = s.2 := by
  unfold Clipper.execute
  have hr : c.ran = false := by rcases hc with rfl | rfl <;> rfl
  rw [if_neg (by rw [hr]; simp)]
  obtain ⟨s', o, a, b, c, d, e, -⟩ := exec_nothing P fuel op tree c s.2 (by rcases hc with rfl | rfl <;> rfl)
    (by rcases hc with rfl | rfl <;> rfl) hr
  exact ⟨s', o, a, b, c, d, e⟩

/-- C35: indices restart at 0. After `execute`, the points stored by adding a polygon and the calls of its tracker are the two
columns of a subsequence of the points of this polygon numbered from 0 on. -/
theorem C35_indices {cat : BSet} {l : List Pt} {s r : Clipper G × List TCall} (hs : s.1.ran = true) (h : Clipper.add cat true l s = .ok r) :
    ∃ ds : List (Pt × Int), ds.Sublist ((List.range l.length).map fun i => (l.getD i default, (i : Int))) ∧
      r.1.pts.map LP.data = ds.map Prod.fst ∧ r.2 = ds.map fun d => .added d.2 := by
  unfold Clipper.add at h
  rw [if_pos hs] at h
  obtain ⟨q, hq, h⟩ := Out.bind_ok h
  cases h
  have hq' : addPts ⟨[], [], 0⟩ cat true l = some q := by
    revert hq
    show Out.of (addPts ⟨[], [], 0⟩ cat true l) = .ok q → _
    cases addPts ⟨[], [], 0⟩ cat true l with
    | none => intro h; cases h
    | some a => intro h; cases h; rfl
  rw [addPts_eq] at hq'
  obtain ⟨ds, d1, d2, d3⟩ := C26_added (Tracked.add cat _ Tracked.empty hq')
  refine ⟨ds, ?_, d2, ?_⟩
  · simpa using d1
  · show [] ++ q.tr.map TCall.added = _
    rw [d3, List.map_map]; rfl

/-! ### C46 -/

/-- C46: the history of a clipper does not matter but for the state of the generator. -/
theorem C46_history (s t : Clipper G × List TCall) (h : s.1.rgen = t.1.rgen) (cs : List Cmd) :
    trace P fuel (.resetAll :: cs) s = trace P fuel (.resetAll :: cs) t := by
  rw [C35_reset_all, C35_reset_all, h]

/-- The same calls without a tracker. -/
def Cmd.untrack : Cmd → Cmd
  | .add cat _ l => .add cat false l
  | c => c

/-- What the calls return, without what the tracker is told. -/
def outputs (cs : List Cmd) (s : Clipper G × List TCall) : Out (List (Option Output)) :=
  (trace P fuel cs s).bind fun q => .ok (q.map Prod.fst)

theorem finalizePrev_untrack (s t : Store × Sink) (h1 : s.1.pts = t.1.pts) (h2 : s.1.nextOrig = t.1.nextOrig)
    (h3 : s.2.prev = t.2.prev ∧ s.2.first = t.2.first ∧ s.2.cat = t.2.cat ∧ s.2.started = t.2.started) :
    (finalizePrev s).1.pts = (finalizePrev t).1.pts ∧ (finalizePrev s).1.nextOrig = (finalizePrev t).1.nextOrig ∧
    (finalizePrev s).2.prev = (finalizePrev t).2.prev ∧ (finalizePrev s).2.first = (finalizePrev t).2.first ∧
    (finalizePrev s).2.cat = (finalizePrev t).2.cat ∧ (finalizePrev s).2.started = (finalizePrev t).2.started := by
  obtain ⟨⟨p, tr, no⟩, pv, po, f, fo, so, cat, st, pt⟩ := s
  obtain ⟨⟨p', tr', no'⟩, pv', po', f', fo', so', cat', st', pt'⟩ := t
  simp only at h1 h2 h3
  obtain ⟨rfl, rfl, rfl, rfl⟩ := h3
  subst h1 h2
  unfold finalizePrev
  simp only
  by_cases h : p.getLast?.map LP.data = some pv
  · rw [if_pos h, if_pos h]; exact ⟨rfl, rfl, rfl, rfl, rfl, rfl⟩
  · rw [if_neg h, if_neg h]
    cases pt <;> cases pt' <;> refine ⟨?_, ?_, ?_, ?_, ?_, ?_⟩ <;> (repeat' split) <;> rfl

/-- What is stored does not depend on the tracker. -/
theorem addPts_untrack (c d : Store) (h1 : c.pts = d.pts) (h2 : c.nextOrig = d.nextOrig) (cat : BSet) (pt pt' : Bool) (l : List Pt) :
    (addPts c cat pt l).map (fun r => (r.pts, r.nextOrig)) = (addPts d cat pt' l).map fun r => (r.pts, r.nextOrig) := by
  unfold addPts
  have h : ∀ m : List Pt, ∀ s t : Store × Sink, (s.1.pts = t.1.pts ∧ s.1.nextOrig = t.1.nextOrig ∧ s.2.prev = t.2.prev ∧
      s.2.first = t.2.first ∧ s.2.cat = t.2.cat ∧ s.2.started = t.2.started) →
      let s' := m.foldl (fun s p => put s (p, s.1.nextOrig)) s
      let t' := m.foldl (fun s p => put s (p, s.1.nextOrig)) t
      (s'.1.pts = t'.1.pts ∧ s'.1.nextOrig = t'.1.nextOrig ∧ s'.2.prev = t'.2.prev ∧
      s'.2.first = t'.2.first ∧ s'.2.cat = t'.2.cat ∧ s'.2.started = t'.2.started) := by
    intro m
    induction m with
    | nil => intro s t h; exact h
    | cons x m ih =>
      intro s t ⟨a1, a2, a3, a4, a5, a6⟩
      apply ih
      unfold put
      simp only
      rw [← a6]
      cases hst : s.2.started with
      | true =>
        rw [if_pos rfl, if_pos rfl]
        obtain ⟨b1, b2, b3, b4, b5, b6⟩ := finalizePrev_untrack s t a1 a2 ⟨a3, a4, a5, a6⟩
        exact ⟨b1, by rw [a2], trivial, b4, b5, trivial⟩
      | false =>
        rw [if_neg (by simp), if_neg (by simp)]
        exact ⟨a1, by rw [a2], trivial, a4, a5, trivial⟩
  have h0 := h l (c, Sink.init c cat pt) (d, Sink.init d cat pt') ⟨h1, h2, rfl, by unfold Sink.init; simp only; rw [h1], rfl, rfl⟩
  simp only at h0
  generalize l.foldl (fun s p => put s (p, s.1.nextOrig)) (c, Sink.init c cat pt) = s at h0 ⊢
  generalize l.foldl (fun s p => put s (p, s.1.nextOrig)) (d, Sink.init d cat pt') = t at h0 ⊢
  obtain ⟨a1, a2, a3, a4, a5, a6⟩ := h0
  unfold close
  rw [← a6]
  cases hst : s.2.started with
  | false =>
    rw [if_neg (by simp), if_neg (by simp)]
    simp only [Option.map_some]; rw [a1, a2]
  | true =>
    rw [if_pos rfl, if_pos rfl, ← a1, ← a4]
    cases hf : s.1.pts[s.2.first]? with
    | none => rfl
    | some f =>
      simp only
      obtain ⟨b1, b2, b3, b4, b5, b6⟩ := finalizePrev_untrack s t a1 a2 ⟨a3, a4, a5, a6⟩
      rw [← a3]
      by_cases hp : s.2.prev ≠ f.data
      · rw [if_pos hp, if_pos hp, ← b1, ← b4]
        split
        · simp only [Option.map_some]; rw [b2]
        · simp only [Option.map_some]; rw [b2]
      · rw [if_neg hp, if_neg hp, ← a1, ← a4]
        split
        · simp only [Option.map_some]; rw [a2]
        · simp only [Option.map_some]; rw [a2]

theorem doOp_untrack (op : BoolOp) (tree : Bool) (c : Clipper G) (l1 l2 : List TCall) :
    (Clipper.doOp P fuel op tree (c, l1)).bind (fun r => .ok (r.1.1, r.2)) =
    (Clipper.doOp P fuel op tree (c, l2)).bind fun r => Out.ok (r.1.1, r.2) := by
  unfold Clipper.doOp
  simp only
  split
  · rfl
  · cases Out.of (Clip.addLines _ _) with
    | bad => rfl
    | fuel => rfl
    | ok k =>
      simp only [Out.bind]
      cases sweep1 (P.env1 c.rgen) fuel k with
      | bad => rfl
      | fuel => rfl
      | ok k1 =>
        simp only
        cases sweep2 (P.env2 c.rgen) op fuel { k1 with q := k1.q.rewind, sweep := [] } c.samples with
        | bad => rfl
        | fuel => rfl
        | ok k2 =>
          simp only
          cases Out.of (joinLoops _ tree k2.2) with
          | bad => rfl
          | fuel => rfl
          | ok w =>
            cases tree with
            | true =>
              simp only [if_true]
              cases Out.of (loopHierarchy (fun i => (w.1.lp i).data) w.2.1.next w.2.1.idx w.2.1.loops.length w.2.2) <;> rfl
            | false => rfl

theorem trace_outputs (cs : List Cmd) : ∀ (c : Clipper G) (l1 l2 : List TCall),
    outputs P fuel cs (c, l1) = outputs P fuel (cs.map Cmd.untrack) (c, l2) := by
  induction cs with
  | nil => intro c l1 l2; rfl
  | cons a cs ih =>
    intro c l1 l2
    unfold outputs
    have key : ∀ (r1 r2 : Out ((Clipper G × List TCall) × Option Output)),
        r1.bind (fun r => .ok (r.1.1, r.2)) = r2.bind (fun r => Out.ok (r.1.1, r.2)) →
        ((r1.bind fun r => (trace P fuel cs r.1).bind fun q => .ok ((r.2, r.1.2) :: q)).bind fun q => Out.ok (q.map Prod.fst)) =
        ((r2.bind fun r => (trace P fuel (cs.map Cmd.untrack) r.1).bind fun q => .ok ((r.2, r.1.2) :: q)).bind fun q => Out.ok (q.map Prod.fst)) := by
      intro r1 r2 h
      cases r1 with
      | bad => cases r2 <;> cases h <;> rfl
      | fuel => cases r2 <;> cases h <;> rfl
      | ok x =>
        cases r2 with
        | bad => cases h
        | fuel => cases h
        | ok y =>
          obtain ⟨⟨xc, xl⟩, xo⟩ := x
          obtain ⟨⟨yc, yl⟩, yo⟩ := y
          simp only [Out.bind, Out.ok.injEq, Prod.mk.injEq] at h
          obtain ⟨rfl, rfl⟩ := h
          have i := ih xc xl yl
          unfold outputs at i
          simp only [Out.bind] at i ⊢
          cases h1 : trace P fuel cs (xc, xl) with
          | ok q =>
            rw [h1] at i
            cases h2 : trace P fuel (cs.map Cmd.untrack) (xc, yl) with
            | ok q' =>
              rw [h2] at i
              simp only [Out.ok.injEq] at i
              simp only [List.map_cons, i]
            | bad => rw [h2] at i; cases i
            | fuel => rw [h2] at i; cases i
          | bad =>
            rw [h1] at i
            cases h2 : trace P fuel (cs.map Cmd.untrack) (xc, yl) with
            | ok q' => rw [h2] at i; cases i
            | bad => rfl
            | fuel => rw [h2] at i; cases i
          | fuel =>
            rw [h1] at i
            cases h2 : trace P fuel (cs.map Cmd.untrack) (xc, yl) with
            | ok q' => rw [h2] at i; cases i
            | bad => rw [h2] at i; cases i
            | fuel => rfl
    apply key
    cases a with
    | reset => rfl
    | resetAll => rfl
    | exec op tree =>
      show ((Clipper.execute P fuel op tree (c, l1)).bind _).bind _ = ((Clipper.execute P fuel op tree (c, l2)).bind _).bind _
      have h : (Clipper.execute P fuel op tree (c, l1)).bind (fun r => .ok (r.1.1, r.2)) =
          (Clipper.execute P fuel op tree (c, l2)).bind fun r => Out.ok (r.1.1, r.2) := by
        unfold Clipper.execute
        simp only
        split
        · rfl
        · exact doOp_untrack P fuel op tree c l1 l2
      cases h1 : Clipper.execute P fuel op tree (c, l1) <;> cases h2 : Clipper.execute P fuel op tree (c, l2) <;>
        rw [h1, h2] at h <;> simp only [Out.bind, Out.ok.injEq, Prod.mk.injEq, reduceCtorEq] at h ⊢
      exact ⟨h.1, by rw [h.2]⟩
    | add cat pt l =>
      show ((Clipper.add cat pt l (c, l1)).bind _).bind _ = ((Clipper.add cat false l (c, l2)).bind _).bind _
      unfold Clipper.add
      simp only
      have h : ∀ d : Clipper G, ∀ m1 m2 : List TCall,
          ((Out.of (addPts ⟨d.pts, [], d.nextOrig⟩ cat pt l)).bind fun r =>
            .ok ({ d with pts := r.pts, nextOrig := r.nextOrig }, m1 ++ r.tr.map .added)).bind (fun r => Out.ok r.1) =
          ((Out.of (addPts ⟨d.pts, [], d.nextOrig⟩ cat false l)).bind fun r =>
            .ok ({ d with pts := r.pts, nextOrig := r.nextOrig }, m2 ++ r.tr.map TCall.added)).bind (fun r => Out.ok r.1) := by
        intro d m1 m2
        have := addPts_untrack ⟨d.pts, [], d.nextOrig⟩ ⟨d.pts, [], d.nextOrig⟩ rfl rfl cat pt false l
        cases h1 : addPts ⟨d.pts, [], d.nextOrig⟩ cat pt l <;> cases h2 : addPts ⟨d.pts, [], d.nextOrig⟩ cat false l <;>
          rw [h1, h2] at this <;> simp only [Option.map_some, Option.map_none, Option.some.injEq, Prod.mk.injEq, reduceCtorEq] at this
        · rfl
        · simp only [Out.of, Out.bind]; rw [this.1, this.2]
      have fin : ∀ (r1 r2 : Out (Clipper G × List TCall)), r1.bind (fun r => Out.ok r.1) = r2.bind (fun r => Out.ok r.1) →
          ((r1.bind fun s => .ok (s, (none : Option Output))).bind fun r => .ok (r.1.1, r.2)) =
          ((r2.bind fun s => .ok (s, (none : Option Output))).bind fun r => Out.ok (r.1.1, r.2)) := by
        intro r1 r2 h
        cases r1 <;> cases r2 <;> simp only [Out.bind, Out.ok.injEq, Prod.mk.injEq, reduceCtorEq] at h ⊢
        exact ⟨h, trivial⟩
      apply fin
      cases hr : c.ran with
      | true => simp only [if_true]; exact h c.reset _ _
      | false => simp only [Bool.false_eq_true, if_false]; exact h c _ _

/-- C46: the results do not depend on whether points are tracked, nor on what the tracker was told before. -/
theorem C46_untracked (cs : List Cmd) (c : Clipper G) (l1 l2 : List TCall) :
    outputs P fuel cs (c, l1) = outputs P fuel (cs.map Cmd.untrack) (c, l2) := trace_outputs P fuel cs c l1 l2

/-- C46, the bad part: `reset` leaves the generator as it is. -/
theorem C46_reset_keeps (c : Clipper G) : c.reset.rgen = c.rgen := rfl

/-! ### Concrete cases -/

/-- The place a sorted set gives a node in the first sweep: after the lines that are before it. -/
def place1 (s : Clip) (n : Nat) : Nat := (s.sweep.takeWhile fun m => SweepCmp.sweepCmp (s.cseg m) (s.cseg n)).length

/-- The same in the second sweep. -/
def place2 (s : Clip) (n : Nat) : Nat := (s.sweep.takeWhile fun m => SweepCmp.tieCmp (s.cseg m) (s.cseg n)).length

/-- The library with exact rational numbers: the state of the generator is the sequence of its future decisions. -/
def lib : Params (Nat → Bool × Bool) where
  env1 g := realEnv id g place1
  env2 g := realEnv id g place2
  adv g k := fun n => g (n + k.clock)

/-- A bow tie whose lines cross at (3/2, 3/2). -/
def bow : List Pt := [⟨0, 0⟩, ⟨3, 3⟩, ⟨3, 0⟩, ⟨0, 3⟩]

/-- Rounds down in the first ten tests and up later. -/
def gen : Nat → Bool × Bool := fun n => if n < 10 then (true, true) else (false, false)

/-- What calls return, to compare. -/
def shown : Out (List (Option Output × List TCall)) → Option (List (Option (List (List Pt) × Option (List Nat))))
  | .ok q => some (q.map fun r => r.1.map fun o => (o.loops, o.tree.map Tree.top))
  | _ => none

/-- C46: a clipper that did an operation and was reset can give another result than it gave before for the same input. -/
theorem C46_reset_differs : ∃ a b : List (List Pt), a ≠ b ∧
    shown (trace lib 100 [.add .subject true bow, .exec .normalize false, .resetAll, .add .subject true bow, .exec .normalize false]
      (.fresh gen, [])) = some [none, some (a, none), none, none, some (b, none)] :=
  ⟨[[⟨0, 0⟩, ⟨1, 1⟩, ⟨0, 3⟩], [⟨3, 3⟩, ⟨1, 1⟩, ⟨3, 0⟩]], [[⟨0, 0⟩, ⟨2, 2⟩, ⟨0, 3⟩], [⟨3, 3⟩, ⟨2, 2⟩, ⟨3, 0⟩]], by decide, by decide +kernel⟩

/-- C35: `reset` of the clipper alone leaves the tracker with the records of the old points: it has six records after a
triangle is added anew. -/
theorem C35_tracker_kept : ∃ r, run lib 100 [.add .subject true [⟨0, 0⟩, ⟨4, 0⟩, ⟨0, 4⟩], .reset, .add .subject true [⟨0, 0⟩, ⟨4, 0⟩, ⟨0, 4⟩]]
      (.fresh gen, []) = .ok r ∧ r.1.1.pts.length = 3 ∧ r.1.2.length = 6 :=
  ⟨_, rfl, rfl, rfl⟩

/-- The cases that the theorems speak of: an operation that ends, after which a triangle is added, and an operation without input. -/
example : shown (trace lib 100 [.add .subject true bow, .exec .union false, .add .subject true [⟨0, 0⟩, ⟨4, 0⟩, ⟨0, 4⟩], .exec .union true,
    .exec .union false] (.fresh gen, [])) =
    some [none, some ([[⟨0, 0⟩, ⟨1, 1⟩, ⟨0, 3⟩]], none), none, some ([[⟨0, 0⟩, ⟨4, 0⟩, ⟨0, 4⟩]], some [0]), some ([], none)] := by decide +kernel

end PolyOps.Clipper
