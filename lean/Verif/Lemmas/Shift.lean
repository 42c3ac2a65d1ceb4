import Verif.Props.Clipper

/-! Moving the input of a clipper by a vector: every function of the model does the same to the moved points. -/
namespace PolyOps

/-! ### Geometry -/

theorem Pt.sub_add_add (a b v : Pt) : (a + v) - (b + v) = a - b := by ext <;> simp
theorem Pt.add_inj {a b : Pt} (v : Pt) : a + v = b + v ↔ a = b := by
  constructor
  · intro h
    have h1 := congrArg Pt.x h
    have h2 := congrArg Pt.y h
    simp only [Pt.add_x, Pt.add_y] at h1 h2
    exact Pt.ext (by omega) (by omega)
  · rintro rfl; rfl
theorem Pt.add_sub (a v : Pt) : a + v - v = a := by ext <;> simp
theorem Pt.sub_add (a v : Pt) : a - v + v = a := by ext <;> simp

theorem triangleWinding_shift (v a b c : Pt) : triangleWinding (a + v) (b + v) (c + v) = triangleWinding a b c := by
  unfold triangleWinding; simp only [Pt.add_x, Pt.add_y]; ring

/-- A segment moved. -/
def CSeg.shift (v : Pt) (s : CSeg) : CSeg := { s with pa := s.pa + v, pb := s.pb + v }
/-- The result of an intersection test moved. -/
def Isect.shift (v : Pt) (r : Isect) : Isect := { r with p := r.p.map (· + v) }

theorem isD_shift (v : Pt) (s1 s2 : CSeg) : isD (s1.shift v) (s2.shift v) = isD s1 s2 := by
  unfold isD CSeg.shift; simp only [Pt.add_x, Pt.add_y]; ring
theorem isT_shift (v : Pt) (s1 s2 : CSeg) : isT (s1.shift v) (s2.shift v) = isT s1 s2 := by
  unfold isT CSeg.shift; simp only [Pt.add_x, Pt.add_y]; ring
theorem isU_shift (v : Pt) (s1 s2 : CSeg) : isU (s1.shift v) (s2.shift v) = isU s1 s2 := by
  unfold isU CSeg.shift; simp only [Pt.add_x, Pt.add_y]; ring

theorem intersectsParallel_shift (v : Pt) (s1 s2 : CSeg) :
    intersectsParallel (s1.shift v) (s2.shift v) = (intersectsParallel s1 s2).map (Isect.shift v) := by
  unfold intersectsParallel
  simp only [CSeg.shift, triangleWinding_shift, Pt.sub_add_add, apply_ite (Option.map (Isect.shift v)), Option.map_some, Option.map_none,
    Isect.shift]
  rfl

theorem crossing_shift (rnd : Rat → Rat) (bx by' : Bool) (v : Pt) (s1 s2 : CSeg) :
    crossing rnd bx by' (s1.shift v) (s2.shift v) = (crossing rnd bx by' s1 s2).shift v := by
  unfold crossing
  rw [isD_shift, isT_shift]
  have hx : (s1.shift v).pb.x - (s1.shift v).pa.x = s1.pb.x - s1.pa.x := by simp [CSeg.shift]
  have hy : (s1.shift v).pb.y - (s1.shift v).pa.y = s1.pb.y - s1.pa.y := by simp [CSeg.shift]
  rw [hx, hy]
  generalize roundedOffset rnd _ _ (s1.pb.x - s1.pa.x) bx = ox
  generalize roundedOffset rnd _ _ (s1.pb.y - s1.pa.y) by' = oy
  have hp : (⟨(s1.shift v).pa.x + ox, (s1.shift v).pa.y + oy⟩ : Pt) = ⟨s1.pa.x + ox, s1.pa.y + oy⟩ + v := by
    ext <;> simp [CSeg.shift] <;> ring
  rw [hp]
  simp only [CSeg.shift, Pt.add_inj, Isect.shift, Option.map_some]

theorem intersects_shift (rnd : Rat → Rat) (bx by' : Bool) (v : Pt) (s1 s2 : CSeg) :
    intersects rnd bx by' (s1.shift v) (s2.shift v) = (intersects rnd bx by' s1 s2).map (Isect.shift v) := by
  unfold intersects
  simp only [isD_shift, isT_shift, isU_shift, crossing_shift, intersectsParallel_shift]
  simp only [CSeg.shift, apply_ite (Option.map (Isect.shift v)), Option.map_some, Option.map_none]
  rfl

theorem upRay_shift (v sa sb p : Pt) (h : Int) (dp : Pt) (tie : Bool) : upRay (sa + v) (sb + v) (p + v) h dp tie = upRay sa sb p h dp tie := by
  unfold upRay vertOverlap
  simp only [Pt.sub_add_add, Pt.add_x, Pt.add_y, add_lt_add_iff_right, add_left_inj, gt_iff_lt, add_sub_add_right_eq_sub]

/-- A line moved. -/
def Line.shift (v : Pt) (l : Line) : Line := { l with p := l.p + v, q := l.q + v }

theorem Line.delta_shift (v : Pt) (l : Line) : (l.shift v).delta = l.delta := Pt.sub_add_add _ _ _
theorem Line.aIsMain_shift (v : Pt) (l : Line) : (l.shift v).aIsMain = l.aIsMain := by
  unfold Line.aIsMain Line.shift; simp
theorem Line.sa_shift (v : Pt) (l : Line) : (l.shift v).sa = l.sa + v := by
  unfold Line.sa; rw [Line.aIsMain_shift]; split <;> rfl
theorem Line.sb_shift (v : Pt) (l : Line) : (l.shift v).sb = l.sb + v := by
  unfold Line.sb; rw [Line.aIsMain_shift]; split <;> rfl

theorem lineBal_shift (v : Pt) (l : Line) (segs : List Line) : lineBal (l.shift v) (segs.map (Line.shift v)) = lineBal l segs := by
  unfold lineBal
  have h0 : LineBal.init (l.shift v) = LineBal.init l := by unfold LineBal.init; rw [Line.delta_shift]; rfl
  rw [h0, List.foldl_map]
  congr 1
  funext b s
  unfold LineBal.check
  rw [Line.sa_shift, Line.sb_shift, Line.aIsMain_shift, Line.delta_shift]
  show (if s.idx ≠ l.idx then if upRay (s.sa + v) (s.sb + v) (l.p + v) _ _ (decide (s.idx > l.idx)) = true then _ else _ else _) = _
  rw [upRay_shift]
  rfl

theorem sweepCmp_shift (v : Pt) (s1 s2 : CSeg) : SweepCmp.sweepCmp (s1.shift v) (s2.shift v) = SweepCmp.sweepCmp s1 s2 := by
  unfold SweepCmp.sweepCmp SweepCmp.tieCmp
  simp only [CSeg.shift, triangleWinding_shift, Pt.add_x, Pt.add_y, ne_eq, add_left_inj, add_sub_add_right_eq_sub, add_lt_add_iff_right]
  rfl

/-! ### Events -/
namespace Events

/-- The x coordinates moved. -/
def shx (k : Int) (x : Nat → Int) : Nat → Int := fun i => x i + k

variable (k : Int) (x : Nat → Int)

theorem shx_eq (i j : Nat) : (shx k x i = shx k x j) = (x i = x j) := by unfold shx; simp
theorem shx_lt (i j : Nat) : (shx k x i < shx k x j) = (x i < x j) := by unfold shx; simp
theorem shx_le (i j : Nat) : (shx k x i ≤ shx k x j) = (x i ≤ x j) := by unfold shx; simp

theorem less_shift : less (shx k x) = less x := by
  funext a b; unfold less; simp only [shx_eq, shx_lt, ne_eq]
theorem lowerBound_shift : lowerBound (shx k x) = lowerBound x := by unfold lowerBound; rw [less_shift]
theorem insLess_shift : insLess (shx k x) = insLess x := by unfold insLess; rw [less_shift]
theorem placeNew_shift : placeNew (shx k x) = placeNew x := by unfold placeNew; rw [insLess_shift, lowerBound_shift]
theorem next_shift (q : Queue) : q.next (shx k x) = q.next x := by unfold Queue.next; rw [less_shift, placeNew_shift]
theorem addFb_shift (q : Queue) (a b n : Nat) : q.addFb (shx k x) a b n = q.addFb x a b n := by
  unfold Queue.addFb; simp only [shx_eq]
theorem findIdx_shift (q : Queue) (a b : Nat) (ty : EvTy) : q.findIdx (shx k x) a b ty = q.findIdx x a b ty := by
  unfold Queue.findIdx; rw [lowerBound_shift]
theorem touchingRemoved_shift (q : Queue) : q.touchingRemoved (shx k x) = q.touchingRemoved x := by
  unfold Queue.touchingRemoved; simp only [shx_eq]
theorem touchingPending_shift (q : Queue) : q.touchingPending (shx k x) = q.touchingPending x := by
  unfold Queue.touchingPending; simp only [shx_eq]

end Events

/-! ### The sweeps -/
namespace Sweep
open Events

def LP.shift (v : Pt) (p : LP) : LP := { p with data := p.data + v }
def Clip.shift (v : Pt) (s : Clip) : Clip := { s with lp := fun i => (s.lp i).shift v }

/-- Tests and places that depend on the mutual position of points only. -/
structure Env.Free (env : Env) : Prop where
  isect : ∀ v t s1 s2, env.isect t (s1.shift v) (s2.shift v) = (env.isect t s1 s2).map (Isect.shift v)
  pos : ∀ v s n, env.pos (Clip.shift v s) n = env.pos s n

variable (v : Pt) (s : Clip)

theorem Clip.x_shift : (s.shift v).x = shx v.x s.x := rfl
theorem Clip.x_shift_eq (i j : Nat) : ((s.shift v).x i = (s.shift v).x j) = (s.x i = s.x j) := shx_eq v.x s.x i j
theorem Clip.x_shift_lt (i j : Nat) : ((s.shift v).x i < (s.shift v).x j) = (s.x i < s.x j) := shx_lt v.x s.x i j
theorem Clip.x_shift_le (i j : Nat) : ((s.shift v).x i ≤ (s.shift v).x j) = (s.x i ≤ s.x j) := shx_le v.x s.x i j
theorem Clip.cseg_shift (n : Nat) : (s.shift v).cseg n = (s.cseg n).shift v := rfl
theorem Clip.next_shift (i : Nat) : ((s.shift v).lp i).next = (s.lp i).next := rfl

theorem setFn_shift (f : Nat → LP) (i : Nat) (a : LP) :
    setFn (fun j => (f j).shift v) i (a.shift v) = fun j => (setFn f i a j).shift v := by
  funext j; unfold setFn; split <;> rfl

theorem Clip.addFb_shift (a b : Nat) : (s.shift v).addFb a b = (s.addFb a b).map (Clip.shift v) := by
  unfold Clip.addFb
  simp only [Clip.x_shift_eq, Clip.next_shift]
  rw [Clip.x_shift]
  show (if _ then none else some { Clip.shift v s with q := s.q.addFb (shx v.x s.x) a b s.nn, seg := _, nn := _ }) = _
  rw [Events.addFb_shift]
  split <;> rfl

theorem Clip.mark_shift (i : Nat) : (s.shift v).mark i = (s.mark i).shift v := by
  unfold Clip.mark
  show ({ s.shift v with lp := setFn (fun j => (s.lp j).shift v) i (LP.shift v { s.lp i with state := .check }) } : Clip) = _
  rw [setFn_shift]
  rfl

theorem Clip.addLines_shift (i : Nat) : (s.shift v).addLines i = (s.addLines i).map (Clip.shift v) := by
  induction i with
  | zero => rfl
  | succ i ih =>
    show ((s.shift v).addLines i).bind _ = ((s.addLines i).bind _).map _
    rw [ih]
    cases s.addLines i with
    | none => rfl
    | some t =>
      simp only [Option.map_some, Option.bind_some, Clip.next_shift, gt_iff_lt, Clip.x_shift_lt, Clip.addFb_shift]
      split <;> rfl

/-- The start event of a node. -/
def Clip.startTy (s : Clip) (n : Nat) : EvTy := if s.x (s.seg n).1 = s.x (s.seg n).2 then .vforward else .forward

theorem Clip.startTy_shift (n : Nat) : (s.shift v).startTy n = s.startTy n := by
  unfold Clip.startTy; simp only [Clip.x_shift_eq]; rfl

/-- Deleting the event at place `k` if it is the one looked for. -/
def Clip.unlinkAt (s : Clip) (n : Nat) (ty : EvTy) (k : Nat) : Option Clip :=
  match (s.q.events.take s.q.last)[k]? with
  | some e => if e.a = (s.seg n).1 ∧ e.b = (s.seg n).2 ∧ e.ty = ty then some { s with sweep := s.sweep.erase n, q := s.q.delAt k } else none
  | none => none

theorem Clip.unlinkAt_shift (n : Nat) (ty : EvTy) (k : Nat) : (s.shift v).unlinkAt n ty k = (s.unlinkAt n ty k).map (Clip.shift v) := by
  unfold Clip.unlinkAt
  show (match (s.q.events.take s.q.last)[k]? with
    | some e => _
    | none => _) = _
  cases (s.q.events.take s.q.last)[k]? with
  | none => rfl
  | some e =>
    simp only [apply_ite (Option.map _), Option.map_some, Option.map_none]
    rfl

theorem Clip.unlink_shift (n : Nat) : (s.shift v).unlink n = (s.unlink n).map (Clip.shift v) := by
  have hu : ∀ s : Clip, s.unlink n = if n ∈ s.sweep then s.unlinkAt n (s.startTy n) (s.q.findIdx s.x (s.seg n).1 (s.seg n).2 (s.startTy n)) else none :=
    fun _ => rfl
  rw [hu, hu, Clip.startTy_shift, Clip.unlinkAt_shift, Clip.x_shift, Events.findIdx_shift, apply_ite (Option.map _)]
  rfl

/-- The clipper with the new point, before the events are added. -/
def Clip.withMid (s : Clip) (a b : Nat) (c : Pt) : Clip :=
  { s with
    lp := setFn (setFn s.lp a { s.lp a with next := s.np }) s.np ⟨c, b, (setFn s.lp a { s.lp a with next := s.np } a).set, .undef⟩
    np := s.np + 1, log := s.log ++ [(a, b)] }

theorem Clip.withMid_shift (a b : Nat) (c : Pt) : (s.shift v).withMid a b (c + v) = (s.withMid a b c).shift v := by
  unfold Clip.withMid
  have h1 := setFn_shift v s.lp a { s.lp a with next := s.np }
  have h2 := setFn_shift v (setFn s.lp a { s.lp a with next := s.np }) s.np ⟨c, b, (setFn s.lp a { s.lp a with next := s.np } a).set, .undef⟩
  unfold Clip.shift
  simp only
  rw [← h2, ← h1]
  unfold LP.shift setFn
  simp

theorem Clip.insertMid_shift (a b : Nat) (c : Pt) :
    (s.shift v).insertMid a b (c + v) = (s.insertMid a b c).map fun r => (r.1, r.2.shift v) := by
  have hm : ∀ (s : Clip) (c : Pt), s.insertMid a b c = if (s.lp a).data = c ∨ (s.lp b).data = c then none
      else if (s.lp a).set ≠ (s.lp b).set then none
      else (if (s.withMid a b c).x a ≤ (s.withMid a b c).x s.np then (s.withMid a b c).addFb a s.np else (s.withMid a b c).addFb s.np a).bind fun t =>
        (if t.x s.np ≤ t.x b then t.addFb s.np b else t.addFb b s.np).map fun t => (s.np, t) := fun _ _ => rfl
  rw [hm, hm, Clip.withMid_shift]
  have e1 : ∀ i, ((s.shift v).lp i).data = (s.lp i).data + v := fun _ => rfl
  have e2 : ∀ i, ((s.shift v).lp i).set = (s.lp i).set := fun _ => rfl
  have e3 : (s.shift v).np = s.np := rfl
  simp only [e1, Pt.add_inj, e2, e3, Clip.x_shift_le, Clip.addFb_shift]
  split
  · rfl
  split
  · rfl
  generalize s.withMid a b c = t
  have e4 : (if t.x a ≤ t.x s.np then (t.addFb a s.np).map (Clip.shift v) else (t.addFb s.np a).map (Clip.shift v)) =
    (if t.x a ≤ t.x s.np then t.addFb a s.np else t.addFb s.np a).map (Clip.shift v) := by split <;> rfl
  rw [e4]
  cases (if t.x a ≤ t.x s.np then t.addFb a s.np else t.addFb s.np a) with
  | none => rfl
  | some t =>
    simp only [Option.map_some, Option.bind_some, Clip.x_shift_le, Clip.addFb_shift]
    split
    · cases t.addFb s.np b <;> rfl
    · cases t.addFb b s.np <;> rfl

theorem Clip.split_shift (n : Nat) (c : Option Pt) (e : AtEdge) :
    (s.shift v).split n (c.map (· + v)) e = (s.split n c e).map fun r => (r.1, r.2.shift v) := by
  unfold Clip.split
  cases e with
  | both => rfl
  | start => rfl
  | «end» => rfl
  | no =>
    cases c with
    | none => rfl
    | some c =>
      show ((s.shift v).unlink n).bind _ = ((s.unlink n).bind _).map _
      rw [Clip.unlink_shift]
      cases s.unlink n with
      | none => rfl
      | some t =>
        simp only [Option.map_some, Option.bind_some, Clip.next_shift]
        show (if _ then (t.shift v).insertMid _ _ (c + v) else (t.shift v).insertMid _ _ (c + v)) = _
        rw [Clip.insertMid_shift, Clip.insertMid_shift, apply_ite (Option.map _)]
        rfl

section
variable {env : Env} (he : env.Free)
include he

theorem Clip.checkIsect_shift (n m : Nat) : (s.shift v).checkIsect env n m = (s.checkIsect env n m).map fun r => (r.1, r.2.shift v) := by
  unfold Clip.checkIsect
  have ht : ({ s.shift v with clock := (s.shift v).clock + 1 } : Clip) = Clip.shift v { s with clock := s.clock + 1 } := rfl
  rw [ht]
  generalize ({ s with clock := s.clock + 1 } : Clip) = t
  have hi : env.isect (s.shift v).clock ((s.shift v).cseg n) ((s.shift v).cseg m) = (env.isect s.clock (s.cseg n) (s.cseg m)).map (Isect.shift v) :=
    he.isect v s.clock (s.cseg n) (s.cseg m)
  simp only [hi]
  cases env.isect s.clock (s.cseg n) (s.cseg m) with
  | none => rfl
  | some r =>
    have hs1 : ∀ n e, (t.shift v).split n (r.shift v).p e = (t.split n r.p e).map fun q => (q.1, q.2.shift v) := fun n e => Clip.split_shift v t n r.p e
    simp only [Option.map_some]
    show (if ¬ (r.e0 = .both ↔ r.e1 = .both) then none else if r.e0 = .no ∨ r.e1 = .no then
      ((t.shift v).split n (r.shift v).p r.e0).bind _ else if r.e0 = .both then _ else _) = _
    rw [hs1]
    split
    · rfl
    split
    · cases h1 : t.split n r.p r.e0 with
      | none => rfl
      | some q =>
        obtain ⟨i, t'⟩ := q
        simp only [Option.map_some, Option.bind_some]
        have hs2 : (t'.shift v).split m (r.shift v).p (r.shift v).e1 = (t'.split m r.p r.e1).map fun q => (q.1, q.2.shift v) := Clip.split_shift v t' m r.p r.e1
        rw [hs2]
        cases h2 : t'.split m r.p r.e1 with
        | none => rfl
        | some q =>
          simp only [Option.map_some, Clip.mark_shift]
    split
    · simp only [Clip.mark_shift]; rfl
    · simp only [Clip.mark_shift]; rfl

theorem Clip.insert_shift (n : Nat) : (s.shift v).insert env n = (s.insert env n).map (Clip.shift v) := by
  unfold Clip.insert
  rw [he.pos, apply_ite (Option.map _)]
  rfl

omit he in
theorem Clip.erase_shift (n : Nat) : (s.shift v).erase n = (s.erase n).map (Clip.shift v) := by
  unfold Clip.erase
  rw [apply_ite (Option.map _)]
  rfl

theorem Clip.checkOpt_shift (n : Nat) (m : Option Nat) : (s.shift v).checkOpt env n m = (s.checkOpt env n m).map fun r => (r.1, r.2.shift v) := by
  cases m with
  | none => rfl
  | some m => exact Clip.checkIsect_shift v s he n m

theorem Clip.onForward_shift (e : Ev) : (s.shift v).onForward env e = (s.onForward env e).map (Clip.shift v) := by
  unfold Clip.onForward
  rw [Clip.insert_shift v s he]
  cases s.insert env e.node with
  | none => rfl
  | some t =>
    simp only [Option.map_some, Option.bind_some]
    show ((t.shift v).checkOpt env e.node (prevOf t.sweep e.node)).bind _ = _
    rw [Clip.checkOpt_shift v t he]
    cases t.checkOpt env e.node (prevOf t.sweep e.node) with
    | none => rfl
    | some r =>
      obtain ⟨b, t⟩ := r
      simp only [Option.map_some, Option.bind_some]
      cases b with
      | true => rfl
      | false =>
        show Option.map _ ((t.shift v).checkOpt env e.node (nextOf t.sweep e.node)) = Option.map _ (Option.map _ _)
        rw [Clip.checkOpt_shift v t he]
        cases t.checkOpt env e.node (nextOf t.sweep e.node) <;> rfl

theorem Clip.onBackward_shift (e : Ev) : (s.shift v).onBackward env e = (s.onBackward env e).map (Clip.shift v) := by
  unfold Clip.onBackward
  show (if e.node ∈ s.sweep then _ else _) = Option.map _ (if e.node ∈ s.sweep then _ else _)
  split
  · show (match prevOf s.sweep e.node, nextOf s.sweep e.node with
      | some p, some n => _
      | _, _ => _) = Option.map _ (match prevOf s.sweep e.node, nextOf s.sweep e.node with
      | some p, some n => _
      | _, _ => _)
    cases prevOf s.sweep e.node with
    | none => rfl
    | some p =>
      cases nextOf s.sweep e.node with
      | none => rfl
      | some n =>
        show Option.map _ ((Clip.shift v { s with sweep := s.sweep.erase e.node }).checkIsect env p n) =
          Option.map _ (Option.map _ (({ s with sweep := s.sweep.erase e.node } : Clip).checkIsect env p n))
        rw [Clip.checkIsect_shift v _ he]
        cases ({ s with sweep := s.sweep.erase e.node } : Clip).checkIsect env p n <;> rfl
  · rfl

theorem Clip.step_shift : (s.shift v).step env = (s.step env).map (Clip.shift v) := by
  unfold Clip.step
  show (s.q.next (shx v.x s.x)).bind _ = _
  rw [Events.next_shift]
  cases s.q.next s.x with
  | none => rfl
  | some r =>
    obtain ⟨e, b, q⟩ := r
    simp only [Option.bind_some]
    have ht : ({ s.shift v with q := q } : Clip) = Clip.shift v { s with q := q } := rfl
    rw [ht]
    generalize ({ s with q := q } : Clip) = t
    split
    · rfl
    cases e.ty.isFwd <;> cases b
    · exact Clip.insert_shift v t he _
    · exact Clip.onBackward_shift v t he _
    · exact Clip.erase_shift v t _
    · exact Clip.onForward_shift v t he _

omit he in
theorem Clip.line_shift (i : Nat) : (s.shift v).line i = (s.line i).shift v := rfl
omit he in
theorem Clip.scanned_shift : (s.shift v).scanned = s.scanned := by
  unfold Clip.scanned
  show _ ++ List.map _ (s.q.touchingRemoved (shx v.x s.x)) ++ List.map _ (s.q.touchingPending (shx v.x s.x)) = _
  rw [Events.touchingRemoved_shift, Events.touchingPending_shift]
  rfl

omit he in
theorem Clip.scan_shift (op : BoolOp) (i : Nat) : (s.shift v).scan op i = ((s.scan op i).1.shift v, (s.scan op i).2) := by
  unfold Clip.scan
  have hl : lineBal ((s.shift v).line i) ((s.shift v).scanned.map (s.shift v).line) = lineBal (s.line i) (s.scanned.map s.line) := by
    rw [Clip.scanned_shift]
    have : List.map (s.shift v).line s.scanned = (List.map s.line s.scanned).map (Line.shift v) := by rw [List.map_map]; rfl
    rw [this, Clip.line_shift, lineBal_shift]
  simp only [hl]
  show (if (s.lp i).state = .check then _ else _) = ((if (s.lp i).state = .check then _ else _ : Clip × List (Nat × List Nat)).1.shift v, (if (s.lp i).state = .check then _ else _ : Clip × List (Nat × List Nat)).2)
  split
  · have h := setFn_shift v s.lp i { s.lp i with state := .res (lbResult op (s.lp i).set (lineBal (s.line i) (s.scanned.map s.line)).wn) }
    unfold Clip.shift
    rw [← h]
    rfl
  · rfl

theorem Clip.step2_shift (op : BoolOp) : (s.shift v).step2 env op = (s.step2 env op).map fun r => (r.1.shift v, r.2) := by
  unfold Clip.step2
  show (s.q.next (shx v.x s.x)).bind _ = _
  rw [Events.next_shift]
  cases s.q.next s.x with
  | none => rfl
  | some r =>
    obtain ⟨e, b, q⟩ := r
    simp only [Option.bind_some]
    have ht : ({ s.shift v with q := q } : Clip) = Clip.shift v { s with q := q } := rfl
    rw [ht]
    generalize ({ s with q := q } : Clip) = t
    split
    · rfl
    split
    · rfl
    split
    · rw [Clip.insert_shift v t he]
      cases t.insert env e.node with
      | none => rfl
      | some t => simp only [Option.map_some, Clip.scan_shift]
    · simp only [Clip.scan_shift, Clip.erase_shift]
      cases (t.scan op e.a).1.erase e.node <;> rfl

end
end Sweep

/-! ### Joining the loops -/
namespace Loops
open Sweep

def OP.shift (v : Pt) (p : OP) : OP := { p with data := p.data + v }
def Work.shift (v : Pt) (w : Work) : Work :=
  { w with lp := fun i => (w.lp i).shift v, starts := fun p => w.starts (p - v), virts := fun p => w.virts (p - v) }

variable (v : Pt) (w : Work)

theorem setFn_shiftOP (f : Nat → OP) (i : Nat) (a : OP) : setFn (fun j => (f j).shift v) i (a.shift v) = fun j => (setFn f i a j).shift v := by
  funext j; unfold setFn; split <;> rfl

theorem setPt_shift {α : Type} (f : Pt → α) (d : Pt) (a : α) : setPt (fun p => f (p - v)) (d + v) a = fun p => setPt f d a (p - v) := by
  funext p
  unfold setPt
  have : (p = d + v) = (p - v = d) := by
    apply propext
    constructor
    · rintro rfl; exact Pt.add_sub _ _
    · rintro rfl; exact (Pt.sub_add _ _).symm
  simp only [this]

theorem Work.insertAnchor_shift (i : Nat) : (w.shift v).insertAnchor i = ((w.insertAnchor i).1.shift v, (w.insertAnchor i).2) := by
  unfold Work.insertAnchor
  show (if (w.lp (w.lp i).next).anchor = true then _ else _) = _
  cases (w.lp (w.lp i).next).anchor with
  | true => rfl
  | false =>
    simp only [Bool.false_eq_true, if_false]
    have h1 := setFn_shiftOP v w.lp w.np { w.lp i with st := .undef, anchor := true }
    have h2 := setFn_shiftOP v (setFn w.lp w.np { w.lp i with st := .undef, anchor := true }) i
      { setFn w.lp w.np { w.lp i with st := .undef, anchor := true } i with next := w.np }
    unfold Work.shift
    simp only
    rw [← h2, ← h1]
    refine Prod.ext ?_ rfl
    simp only [Work.mk.injEq, and_self, and_true]
    congr 1
    unfold OP.shift setFn
    split <;> rfl

theorem Work.endPoint_shift (i : Nat) : (w.shift v).endPoint i = w.endPoint i + v := rfl
theorem Work.naEnd_shift (i : Nat) : (w.shift v).naEnd i = w.naEnd i + v := by
  have h : ∀ w : Work, w.naEnd i = if (w.lp (w.lp i).next).anchor then (w.lp (w.lp (w.lp i).next).next).data else (w.lp (w.lp i).next).data := fun _ => rfl
  rw [h, h, apply_ite (· + v)]
  rfl

/-- One step of `walk`. -/
def Work.walk1 (st : LState) (w : Work) (prev next : Nat) : Work :=
  if st.keep = false then { w with lp := setFn w.lp next { w.lp next with st := .res st }, merges := w.merges ++ [(prev, next)] }
  else if st.rev then
    { w with lp := setFn w.lp next { { w.lp next with st := .res st } with data := if (w.lp next).anchor then w.endPoint next else (w.lp next).data, next := prev } }
  else { w with lp := setFn w.lp next { w.lp next with st := .res st } }

theorem Work.walk1_shift (st : LState) (prev next : Nat) : (w.shift v).walk1 st prev next = (w.walk1 st prev next).shift v := by
  have h1 := setFn_shiftOP v w.lp next { w.lp next with st := .res st }
  have h2 := setFn_shiftOP v w.lp next
    { { w.lp next with st := .res st } with data := if (w.lp next).anchor then w.endPoint next else (w.lp next).data, next := prev }
  unfold Work.walk1
  cases st.keep with
  | false => unfold Work.shift; simp only [if_true]; rw [← h1]; rfl
  | true =>
    cases st.rev with
    | false => unfold Work.shift; simp only [Bool.false_eq_true, Bool.true_eq_false, if_false]; rw [← h1]; rfl
    | true =>
      unfold Work.shift
      simp only [Bool.true_eq_false, if_false, if_true]
      rw [← h2]
      simp only [Work.mk.injEq, and_self, and_true]
      congr 1
      unfold OP.shift
      simp only [OP.mk.injEq, and_self, and_true]
      show (if (w.lp next).anchor = true then w.endPoint next + v else (w.lp next).data + v) = _
      cases (w.lp next).anchor <;> rfl

theorem Work.walk_shift (st : LState) (fuel : Nat) : ∀ (w : Work) (prev next : Nat),
    Work.walk st fuel (w.shift v) prev next = (Work.walk st fuel w prev next).map fun r => (r.1.shift v, r.2) := by
  induction fuel with
  | zero => intros; rfl
  | succ fuel ih =>
    intro w prev next
    have hw : ∀ w : Work, Work.walk st (fuel + 1) w prev next = if (w.lp next).hasBal then some (w, prev, next) else Work.walk st fuel (w.walk1 st prev next) next (w.lp next).next :=
      fun _ => rfl
    rw [hw, hw, Work.walk1_shift, ih, apply_ite (Option.map _)]
    rfl

theorem Work.follow_shift (i : Nat) : (w.shift v).follow i = (w.follow i).map (Work.shift v) := by
  unfold Work.follow
  show (match (w.lp i).st, (w.lp i).anchor with
    | .res st, false => (Work.walk st (w.np + 1) (w.shift v) i (w.lp i).next).map _
    | _, _ => none) = _
  cases (w.lp i).st with
  | undef => rfl
  | check => rfl
  | res st =>
    cases (w.lp i).anchor with
    | true => rfl
    | false =>
      simp only
      rw [Work.walk_shift]
      cases Work.walk st (w.np + 1) w i (w.lp i).next with
      | none => rfl
      | some r =>
        obtain ⟨u, prev, next⟩ := r
        simp only [Option.map_some, Option.some.injEq]
        cases st.rev with
        | false =>
          simp only [if_true]
          cases st.keep with
          | false => rfl
          | true =>
            simp only [Bool.true_eq_false, if_false]
            have h := setPt_shift v u.starts (u.lp i).data (u.starts (u.lp i).data ++ [i])
            have h0 : (u.shift v).starts ((u.shift v).lp i).data = u.starts (u.lp i).data := congrArg u.starts (Pt.add_sub _ _)
            rw [h0]
            unfold Work.shift
            simp only
            rw [← h]
            rfl
        | true =>
          simp only [Bool.true_eq_false, if_false]
          have h := fun a : List VP => setPt_shift v u.virts (u.lp next).data a
          have h0 : (u.shift v).virts ((u.shift v).lp next).data = u.virts (u.lp next).data := congrArg u.virts (Pt.add_sub _ _)
          rw [h0]
          unfold Work.shift
          simp only
          rw [← h]
          rfl

theorem Work.followAll_shift (l : List Nat) : ∀ w : Work, (w.shift v).followAll l = (w.followAll l).map (Work.shift v) := by
  induction l with
  | nil => intro w; rfl
  | cons i l ih =>
    intro w
    show ((w.shift v).follow i).bind _ = ((w.follow i).bind _).map _
    rw [Work.follow_shift]
    cases w.follow i with
    | none => rfl
    | some w => exact ih w

theorem Work.anchorHits_shift (l : List Nat) : ∀ w : Work, (w.shift v).anchorHits l = ((w.anchorHits l).1.shift v, (w.anchorHits l).2) := by
  induction l with
  | nil => intro w; rfl
  | cons i l ih =>
    intro w
    have h : ∀ w : Work, w.anchorHits (i :: l) = (((w.insertAnchor i).1.anchorHits l).1, (w.insertAnchor i).2 :: ((w.insertAnchor i).1.anchorHits l).2) := fun _ => rfl
    rw [h, h, Work.insertAnchor_shift]
    simp only [ih]

theorem Work.anchorAll_shift (l : List (Nat × List Nat)) : ∀ w : Work, (w.shift v).anchorAll l = ((w.anchorAll l).1.shift v, (w.anchorAll l).2) := by
  induction l with
  | nil => intro w; rfl
  | cons i l ih =>
    intro w
    have h : ∀ w : Work, w.anchorAll (i :: l) = (((w.anchorHits i.2).1.anchorAll l).1, (i.1, (w.anchorHits i.2).2) :: ((w.anchorHits i.2).1.anchorAll l).2) := fun _ => rfl
    rw [h, h, Work.anchorHits_shift]
    simp only [ih]

theorem Work.followTree_shift (l : List (Nat × List Nat)) : ∀ w : Work, (w.shift v).followTree l = (w.followTree l).map fun r => (r.1.shift v, r.2) := by
  induction l with
  | nil => intro w; rfl
  | cons i l ih =>
    intro w
    have h : ∀ w : Work, w.followTree (i :: l) = ((w.insertAnchor i.1).1.follow i.1).bind fun u =>
        (u.followTree l).map fun r => (r.1, ((w.insertAnchor i.1).2, i.2) :: r.2) := fun _ => rfl
    rw [h, h, Work.insertAnchor_shift]
    simp only [Work.follow_shift]
    cases (w.insertAnchor i.1).1.follow i.1 with
    | none => rfl
    | some u =>
      simp only [Option.map_some, Option.bind_some, ih]
      cases u.followTree l <;> rfl

theorem Work.adopt_shift (i : Nat) : (w.shift v).adopt i = (w.adopt i).map (Work.shift v) := by
  unfold Work.adopt
  have h0 : (w.shift v).virts ((w.shift v).lp i).data = w.virts (w.lp i).data := congrArg w.virts (Pt.add_sub _ _)
  have h1 : (w.shift v).starts ((w.shift v).lp i).data = w.starts (w.lp i).data := congrArg w.starts (Pt.add_sub _ _)
  simp only [h0, h1]
  cases (w.virts (w.lp i).data).getLast? with
  | none => rfl
  | some vp =>
    simp only [apply_ite (Option.map _), Option.map_none, Option.map_some]
    have h2 := setPt_shift v w.virts (w.lp i).data (w.virts (w.lp i).data).dropLast
    have h3 := setPt_shift v w.starts (w.lp i).data (w.starts (w.lp i).data ++ [i])
    have h4 := setFn_shiftOP v w.lp i { w.lp i with st := .res (if vp.keep then .kept else .discard), next := vp.next }
    congr 2
    unfold Work.shift
    simp only
    rw [← h2, ← h4]
    cases vp.keep with
    | false => rfl
    | true =>
      simp only [if_true]
      rw [← h3]
      rfl

theorem Work.adoptAll_shift (l : List Nat) : ∀ w : Work, (w.shift v).adoptAll l = (w.adoptAll l).map (Work.shift v) := by
  induction l with
  | nil => intro w; rfl
  | cons i l ih =>
    intro w
    show ((w.shift v).adopt i).bind _ = ((w.adopt i).bind _).map _
    rw [Work.adopt_shift]
    cases w.adopt i with
    | none => rfl
    | some w => exact ih w

theorem getD_shift (l : List Pt) (b : Nat) (h : b < l.length) : (l.map (· + v)).getD b default = l.getD b default + v := by
  rw [List.getD_eq_getElem _ _ (by simpa using h), List.getD_eq_getElem _ _ h, List.getElem_map]

theorem pickFrom_shift (q p : Pt) (ends : List Pt) (fuel : Nat) : ∀ (b : Nat) (left : Bool) (i : Nat), b < ends.length →
    pickFrom (q + v) (p + v) (ends.map (· + v)) b left i fuel = pickFrom q p ends b left i fuel := by
  induction fuel with
  | zero => intros; rfl
  | succ fuel ih =>
    intro b left i hb
    unfold pickFrom
    by_cases h : i < ends.length
    · rw [dif_pos h, dif_pos (by simpa using h), getD_shift v ends b hb]
      simp only [List.getElem_map, triangleWinding_shift, ih _ _ _ h, ih _ _ _ hb]
    · rw [dif_neg h, dif_neg (by simpa using h)]

theorem pick_shift (q p : Pt) (ends : List Pt) : pick (q + v) (p + v) (ends.map (· + v)) = pick q p ends := by
  unfold pick
  rw [List.length_map]
  split
  · rw [getD_shift v ends 0 (by omega), triangleWinding_shift, pickFrom_shift v _ _ _ _ _ _ _ (by omega)]
  · rfl

theorem Work.join_shift (i : Nat) : (w.shift v).join i = (w.join i).map (Work.shift v) := by
  unfold Work.join
  rw [Work.endPoint_shift]
  have h0 : (w.shift v).starts (w.endPoint i + v) = w.starts (w.endPoint i) := congrArg w.starts (Pt.add_sub _ _)
  have h1 : (w.starts (w.endPoint i)).map (w.shift v).naEnd = ((w.starts (w.endPoint i)).map w.naEnd).map (· + v) := by
    rw [List.map_map]
    exact List.map_congr_left fun j _ => Work.naEnd_shift v w j
  have h2 : ((w.shift v).lp i).data = (w.lp i).data + v := rfl
  simp only [h0, h1, h2, pick_shift]
  cases (w.starts (w.endPoint i))[pick (w.lp i).data (w.endPoint i) ((w.starts (w.endPoint i)).map w.naEnd)]? with
  | none => rfl
  | some s =>
    simp only [Option.map_some, Option.some.injEq]
    have h3 := setFn_shiftOP v w.lp i { w.lp i with next := s }
    have h4 := setPt_shift v w.starts (w.endPoint i) (swapPop (w.starts (w.endPoint i)) (pick (w.lp i).data (w.endPoint i) ((w.starts (w.endPoint i)).map w.naEnd)))
    unfold Work.shift
    simp only
    rw [← h3, ← h4]
    rfl

theorem Work.joinAll_shift (l : List Nat) : ∀ w : Work, (w.shift v).joinAll l = (w.joinAll l).map (Work.shift v) := by
  induction l with
  | nil => intro w; rfl
  | cons i l ih =>
    intro w
    show ((w.shift v).join i).bind _ = ((w.join i).bind _).map _
    rw [Work.join_shift]
    cases w.join i with
    | none => rfl
    | some w => exact ih w

theorem Work.reconnect_shift : (w.shift v).reconnect = w.reconnect.map (Work.shift v) := by
  unfold Work.reconnect
  show ((w.shift v).adoptAll w.orphans).bind _ = _
  rw [Work.adoptAll_shift]
  cases w.adoptAll w.orphans with
  | none => rfl
  | some u => exact Work.joinAll_shift v _ u

theorem Work.findLoops_shift : (w.shift v).findLoops = w.findLoops := rfl

end Loops

namespace Hierarchy
open Sweep Loops

theorem loopHierarchy_shift (v : Pt) (data : Nat → Pt) (next : Nat → Nat) (idx : Nat → LIdx) (n : Nat) (samples : List (Nat × List Nat)) :
    loopHierarchy (fun i => data i + v) next idx n samples = loopHierarchy data next idx n samples := by
  have h1 : lineSign (fun i => data i + v) next = lineSign data next := by
    funext i
    unfold lineSign
    simp only [Pt.add_x, Pt.add_y, add_sub_add_right_eq_sub]
  have h2 : replaceHits (fun i => data i + v) next idx n = replaceHits data next idx n := by
    funext item
    unfold replaceHits
    have : countHit (fun i => data i + v) next idx = countHit data next idx := by
      funext own inside i
      unfold countHit
      rw [h1]
    rw [this]
  unfold loopHierarchy
  rw [h2]

end Hierarchy

/-! ### Adding polygons -/
namespace PointSink
open Sweep

def Store.shift (v : Pt) (c : Store) : Store := { c with pts := c.pts.map (LP.shift v) }
def Sink.shift (v : Pt) (k : Sink) : Sink := { k with prev := k.prev + v }

variable (v : Pt)

theorem finalizePrev_shift (s : Store × Sink) : finalizePrev (s.1.shift v, s.2.shift v) = ((finalizePrev s).1.shift v, (finalizePrev s).2.shift v) := by
  obtain ⟨c, k⟩ := s
  unfold finalizePrev
  have h : ((Store.shift v c).pts.getLast?.map LP.data = some (Sink.shift v k).prev) = (c.pts.getLast?.map LP.data = some k.prev) := by
    show ((c.pts.map (LP.shift v)).getLast?.map LP.data = some (k.prev + v)) = _
    rw [List.getLast?_map]
    cases c.pts.getLast? with
    | none => simp
    | some p =>
      simp only [Option.map_some, Option.some.injEq, eq_iff_iff]
      exact Pt.add_inj v
  have hl : (Store.shift v c).pts.length = c.pts.length := List.length_map _
  simp only [h, hl]
  have hs : (Sink.shift v k).first = k.first := rfl
  simp only [hs]
  split
  · rfl
  · refine Prod.ext ?_ ?_
    · show Store.mk _ _ _ = Store.mk _ _ _
      congr 1
      show List.map (LP.shift v) c.pts ++ _ = List.map (LP.shift v) (c.pts ++ _)
      rw [List.map_append]
      congr 1
      have hp : ∀ (b : Bool) (p q : Prop) [Decidable p] [Decidable q] (k k1 k2 : Sink), k1.prev = k.prev → k2.prev = k.prev → k1.cat = k.cat → k2.cat = k.cat →
          (if b then if p then k1 else if q then k2 else k else k : Sink).prev = k.prev ∧ (if b then if p then k1 else if q then k2 else k else k : Sink).cat = k.cat := by
        intro b p q _ _ k k1 k2 e1 e2 e3 e4
        repeat' split
        all_goals simp_all
      simp only [List.map_cons, List.map_nil, LP.shift]
      rw [(hp k.pt _ _ k { k with fo := k.prevOrig } { k with so := k.prevOrig } rfl rfl rfl rfl).1, (hp k.pt _ _ k { k with fo := k.prevOrig } { k with so := k.prevOrig } rfl rfl rfl rfl).2]
      have h2 := hp k.pt (c.pts.length - k.first = 0) (c.pts.length - k.first = 1) (k.shift v) { k.shift v with fo := k.prevOrig } { k.shift v with so := k.prevOrig } rfl rfl rfl rfl
      congr 2
      · exact h2.1
      · exact h2.2
    · simp only [apply_ite (Sink.shift v)]
      rfl

theorem put_shift (s : Store × Sink) (p : Pt × Int) : put (s.1.shift v, s.2.shift v) (p.1 + v, p.2) = ((put s p).1.shift v, (put s p).2.shift v) := by
  have h : ∀ (s : Store × Sink) (p : Pt × Int), put s p = ({ (if s.2.started then finalizePrev s else s).1 with nextOrig := p.2 + 1 },
      { (if s.2.started then finalizePrev s else s).2 with prev := p.1, prevOrig := p.2, started := true }) := fun _ _ => rfl
  have h2 : (if (s.1.shift v, s.2.shift v).2.started then finalizePrev (s.1.shift v, s.2.shift v) else (s.1.shift v, s.2.shift v)) =
      ((if s.2.started then finalizePrev s else s).1.shift v, (if s.2.started then finalizePrev s else s).2.shift v) := by
    show (if s.2.started = true then _ else _) = _
    rw [finalizePrev_shift]
    split <;> rfl
  rw [h, h, h2]
  rfl

theorem close_shift (s : Store × Sink) : close (s.1.shift v, s.2.shift v) = (close s).map (Store.shift v) := by
  unfold close
  show (if s.2.started = true then _ else _) = _
  cases s.2.started with
  | false => rfl
  | true =>
    simp only [if_true]
    show (match (s.1.pts.map (LP.shift v))[s.2.first]? with
      | none => _
      | some f => _) = _
    rw [List.getElem?_map]
    cases s.1.pts[s.2.first]? with
    | none => rfl
    | some f =>
      simp only [Option.map_some]
      have h : ((Sink.shift v s.2).prev ≠ (LP.shift v f).data) = (s.2.prev ≠ f.data) := by
        apply propext; exact not_congr (Pt.add_inj v)
      have key : ∀ s : Store × Sink, (if (s.1.shift v).pts.length - s.2.first < 3 then some { s.1.shift v with pts := (s.1.shift v).pts.take s.2.first }
          else some { s.1.shift v with pts := (s.1.shift v).pts.modify ((s.1.shift v).pts.length - 1) fun p => { p with next := s.2.first, state := .check } }) =
          (if s.1.pts.length - s.2.first < 3 then some { s.1 with pts := s.1.pts.take s.2.first }
          else some { s.1 with pts := s.1.pts.modify (s.1.pts.length - 1) fun p => { p with next := s.2.first, state := .check } }).map (Store.shift v) := by
        intro s
        have hl : (Store.shift v s.1).pts.length = s.1.pts.length := List.length_map _
        rw [hl]
        split
        · simp only [Store.shift, Option.map_some, List.map_take]
        · simp only [Store.shift, Option.map_some, Option.some.injEq, Store.mk.injEq, and_self, and_true]
          apply List.ext_getElem?
          intro n
          simp only [List.getElem?_modify, List.getElem?_map]
          cases s.1.pts[n]? with
          | none => rfl
          | some p =>
            simp only [Option.map_some]
            split <;> rfl
      simp only [h]
      by_cases c : s.2.prev ≠ f.data
      · simp only [if_pos c]
        rw [finalizePrev_shift]
        exact key (finalizePrev s)
      · simp only [if_neg c]
        exact key s

theorem addPts_shift (c : Store) (cat : BSet) (pt : Bool) (l : List Pt) :
    addPts (c.shift v) cat pt (l.map (· + v)) = (addPts c cat pt l).map (Store.shift v) := by
  unfold addPts
  have go : ∀ (l : List Pt) (s : Store × Sink), (l.map (· + v)).foldl (fun s p => put s (p, s.1.nextOrig)) (s.1.shift v, s.2.shift v) =
      ((l.foldl (fun s p => put s (p, s.1.nextOrig)) s).1.shift v, (l.foldl (fun s p => put s (p, s.1.nextOrig)) s).2.shift v) := by
    intro l
    induction l with
    | nil => intro s; rfl
    | cons p l ih =>
      intro s
      simp only [List.map_cons, List.foldl_cons]
      have := put_shift v s (p, s.1.nextOrig)
      show List.foldl _ (put (s.1.shift v, s.2.shift v) (p + v, s.1.nextOrig)) _ = _
      rw [this]
      exact ih _
  cases l with
  | nil => rfl
  | cons p l =>
    simp only [List.map_cons, List.foldl_cons]
    have h : put (Store.shift v c, Sink.init (Store.shift v c) cat pt) (p + v, (Store.shift v c).nextOrig) =
        ((put (c, Sink.init c cat pt) (p, c.nextOrig)).1.shift v, (put (c, Sink.init c cat pt) (p, c.nextOrig)).2.shift v) := by
      unfold put Sink.init Store.shift Sink.shift
      simp
    rw [h, go, close_shift]

end PointSink
end PolyOps
