import Verif.Props.Clipper

/-! Giving polygons to other sets: the clipper does the same as long as the operation does not tell the sets apart. -/
namespace PolyOps

/-- Whenever the first succeeds, the second does, with the image of the value. -/
def SimO {α β : Type} (g : α → β) (o : Option α) (o' : Option β) : Prop := ∀ a, o = some a → o' = some (g a)

namespace SimO
variable {α β γ δ : Type}

theorem none {g : α → β} {o : Option β} : SimO g .none o := by intro a h; cases h
theorem some {g : α → β} {a : α} {b : β} (h : b = g a) : SimO g (.some a) (.some b) := by intro a h'; cases h'; rw [h]
theorem bind {g : α → β} {h : γ → δ} {o : Option α} {o' : Option β} {k : α → Option γ} {k' : β → Option δ} (h1 : SimO g o o')
    (h2 : ∀ a, SimO h (k a) (k' (g a))) : SimO h (o.bind k) (o'.bind k') := by
  intro c hc
  cases o with
  | none => cases hc
  | some a => rw [h1 a rfl]; exact h2 a c hc
theorem map {g : α → β} {h : γ → δ} {o : Option α} {o' : Option β} {k : α → γ} {k' : β → δ} (h1 : SimO g o o')
    (h2 : ∀ a, k' (g a) = h (k a)) : SimO h (o.map k) (o'.map k') := by
  intro c hc
  cases o with
  | none => cases hc
  | some a => rw [h1 a rfl]; cases hc; exact congrArg _ (h2 a)
theorem ite {g : α → β} {p : Prop} [Decidable p] {a b : Option α} {a' b' : Option β} (h1 : p → SimO g a a') (h2 : ¬p → SimO g b b') :
    SimO g (if p then a else b) (if p then a' else b') := by
  split
  · exact h1 ‹_›
  · exact h2 ‹_›
theorem of_eq {g : α → β} {o : Option α} {o' : Option β} (h : o' = o.map g) : SimO g o o' := by
  intro a ha; rw [h, ha]; rfl
end SimO

variable (φ : BSet → BSet)

/-! ### The tallies -/

/-- The tallies when the sets are renamed. -/
def Wn.push (w : Wn) : Wn := ((Wn.mk 0 0).add (φ .subject) w.s).add (φ .clip) w.c

theorem Wn.push_add (w : Wn) (k : BSet) (v : Int) : (w.add k v).push φ = (w.push φ).add (φ k) v := by
  unfold Wn.push
  cases k <;> cases φ .subject <;> cases φ .clip <;> simp [Wn.add] <;> ring

theorem Wn.push_zero : (Wn.mk 0 0).push φ = ⟨0, 0⟩ := by
  unfold Wn.push
  cases φ .subject <;> cases φ .clip <;> simp [Wn.add]

/-- The operation gives the same when the sets are renamed. -/
def Blind (op : BoolOp) : Prop := ∀ k w, lbResult op (φ k) (w.push φ) = lbResult op k w

theorem blind_union : Blind φ .union := by
  intro k w
  have : (w.push φ).s + (w.push φ).c = w.s + w.c := by
    unfold Wn.push
    cases φ .subject <;> cases φ .clip <;> simp [Wn.add] <;> ring
  unfold lbResult
  simp only [this]

theorem blind_normalize : Blind φ .normalize := by
  intro k w
  have : (w.push φ).s + (w.push φ).c = w.s + w.c := by
    unfold Wn.push
    cases φ .subject <;> cases φ .clip <;> simp [Wn.add] <;> ring
  unfold lbResult
  simp only [this]

def Line.recol (l : Line) : Line := { l with set := φ l.set }

theorem lineBal_recol (l : Line) (segs : List Line) :
    lineBal (l.recol φ) (segs.map (Line.recol φ)) = ⟨(lineBal l segs).wn.push φ, (lineBal l segs).hits⟩ := by
  unfold lineBal
  rw [List.foldl_map]
  have h0 : LineBal.init (l.recol φ) = ⟨(LineBal.init l).wn.push φ, (LineBal.init l).hits⟩ := by
    unfold LineBal.init
    show (⟨if l.delta.x < 0 then _ else _, []⟩ : LineBal) = _
    simp only [apply_ite (Wn.push φ), Wn.push_add, Wn.push_zero]
    rfl
  rw [h0]
  generalize LineBal.init l = b
  induction segs generalizing b with
  | nil => rfl
  | cons s segs ih =>
    simp only [List.foldl_cons]
    have h1 : LineBal.check (l.recol φ) ⟨b.wn.push φ, b.hits⟩ (s.recol φ) = ⟨(LineBal.check l b s).wn.push φ, (LineBal.check l b s).hits⟩ := by
      unfold LineBal.check
      show (if s.idx ≠ l.idx then if upRay s.sa s.sb l.p (hsignOf l.delta) l.delta (decide (s.idx > l.idx)) then
        (⟨(b.wn.push φ).add (φ s.set) (if s.aIsMain then 1 else -1), b.hits ++ [s.idx]⟩ : LineBal) else _ else _) = _
      split
      · split
        · simp only [Wn.push_add]
        · rfl
      · rfl
    rw [h1]
    exact ih _

/-! ### The sweeps -/
namespace Sweep
open Events

def LP.recol (p : LP) : LP := { p with set := φ p.set }
def Clip.recol (s : Clip) : Clip := { s with lp := fun i => (s.lp i).recol φ }

/-- The tree does not look at the sets. -/
def Env.Blind (env : Env) : Prop := ∀ φ s n, env.pos (Clip.recol φ s) n = env.pos s n

variable (s : Clip)

theorem setFn_recol (f : Nat → LP) (i : Nat) (a : LP) : setFn (fun j => (f j).recol φ) i (a.recol φ) = fun j => (setFn f i a j).recol φ := by
  funext j; unfold setFn; split <;> rfl

theorem Clip.addFb_recol (a b : Nat) : (s.recol φ).addFb a b = (s.addFb a b).map (Clip.recol φ) := by
  unfold Clip.addFb
  rw [apply_ite (Option.map _)]
  rfl

theorem Clip.mark_recol (i : Nat) : (s.recol φ).mark i = (s.mark i).recol φ := by
  unfold Clip.mark
  show ({ s.recol φ with lp := setFn (fun j => (s.lp j).recol φ) i (LP.recol φ { s.lp i with state := .check }) } : Clip) = _
  rw [setFn_recol]
  rfl

theorem Clip.addLines_recol (i : Nat) : (s.recol φ).addLines i = (s.addLines i).map (Clip.recol φ) := by
  induction i with
  | zero => rfl
  | succ i ih =>
    show ((s.recol φ).addLines i).bind _ = ((s.addLines i).bind _).map _
    rw [ih]
    cases s.addLines i with
    | none => rfl
    | some t =>
      simp only [Option.map_some, Option.bind_some, Clip.addFb_recol]
      rw [apply_ite (Option.map _)]
      rfl

theorem Clip.unlink_recol (n : Nat) : (s.recol φ).unlink n = (s.unlink n).map (Clip.recol φ) := by
  unfold Clip.unlink
  rw [apply_ite (Option.map _)]
  congr 1
  simp only
  show (match (s.q.events.take s.q.last)[s.q.findIdx s.x (s.seg n).1 (s.seg n).2 (if s.x (s.seg n).1 = s.x (s.seg n).2 then EvTy.vforward else .forward)]? with
    | some e => _
    | none => _) = _
  cases (s.q.events.take s.q.last)[s.q.findIdx s.x (s.seg n).1 (s.seg n).2 (if s.x (s.seg n).1 = s.x (s.seg n).2 then EvTy.vforward else .forward)]? with
  | none => rfl
  | some e =>
    simp only [apply_ite (Option.map _), Option.map_some, Option.map_none]
    rfl

theorem Clip.insertMid_recol (a b : Nat) (c : Pt) : SimO (fun r : Nat × Clip => (r.1, r.2.recol φ)) (s.insertMid a b c) ((s.recol φ).insertMid a b c) := by
  unfold Clip.insertMid
  show SimO _ _ (if (s.lp a).data = c ∨ (s.lp b).data = c then none else if φ (s.lp a).set ≠ φ (s.lp b).set then none else _)
  refine SimO.ite (fun _ => SimO.none) fun _ => ?_
  by_cases hs : (s.lp a).set = (s.lp b).set
  · rw [if_neg (not_not.mpr hs), if_neg (not_not.mpr (congrArg φ hs))]
    have e3 : ({ s.recol φ with
        lp := setFn (setFn (s.recol φ).lp a { (s.recol φ).lp a with next := s.np }) s.np
          ⟨c, b, (setFn (s.recol φ).lp a { (s.recol φ).lp a with next := s.np } a).set, .undef⟩
        np := s.np + 1, log := s.log ++ [(a, b)] } : Clip) =
        Clip.recol φ { s with
          lp := setFn (setFn s.lp a { s.lp a with next := s.np }) s.np ⟨c, b, (setFn s.lp a { s.lp a with next := s.np } a).set, .undef⟩
          np := s.np + 1, log := s.log ++ [(a, b)] } := by
      unfold Clip.recol
      simp only [Clip.mk.injEq, and_self, and_true]
      have h1 := setFn_recol φ s.lp a { s.lp a with next := s.np }
      have h2 := setFn_recol φ (setFn s.lp a { s.lp a with next := s.np }) s.np ⟨c, b, (setFn s.lp a { s.lp a with next := s.np } a).set, .undef⟩
      rw [← h2, ← h1]
      congr 1
      unfold LP.recol setFn
      simp
    have key : ∀ t : Clip, SimO (fun r : Nat × Clip => (r.1, r.2.recol φ))
        ((if t.x a ≤ t.x s.np then t.addFb a s.np else t.addFb s.np a).bind fun t =>
          (if t.x s.np ≤ t.x b then t.addFb s.np b else t.addFb b s.np).map fun t => (s.np, t))
        ((if (t.recol φ).x a ≤ (t.recol φ).x s.np then (t.recol φ).addFb a s.np else (t.recol φ).addFb s.np a).bind fun t =>
          (if t.x s.np ≤ t.x b then t.addFb s.np b else t.addFb b s.np).map fun t => (s.np, t)) := by
      intro t
      refine SimO.bind (g := Clip.recol φ) ?_ fun t => ?_
      · exact SimO.ite (fun _ => SimO.of_eq (Clip.addFb_recol φ t _ _)) fun _ => SimO.of_eq (Clip.addFb_recol φ t _ _)
      · refine SimO.map (g := Clip.recol φ) ?_ fun t => rfl
        exact SimO.ite (fun _ => SimO.of_eq (Clip.addFb_recol φ t _ _)) fun _ => SimO.of_eq (Clip.addFb_recol φ t _ _)
    have := key { s with
        lp := setFn (setFn s.lp a { s.lp a with next := s.np }) s.np ⟨c, b, (setFn s.lp a { s.lp a with next := s.np } a).set, .undef⟩
        np := s.np + 1, log := s.log ++ [(a, b)] }
    rw [← e3] at this
    exact this
  · rw [if_pos hs]
    exact SimO.none

theorem Clip.split_recol (n : Nat) (c : Option Pt) (e : AtEdge) : SimO (fun r : Nat × Clip => (r.1, r.2.recol φ)) (s.split n c e) ((s.recol φ).split n c e) := by
  unfold Clip.split
  cases e with
  | both => exact SimO.none
  | start => exact SimO.some rfl
  | «end» => exact SimO.some rfl
  | no =>
    cases c with
    | none => exact SimO.none
    | some c =>
      refine SimO.bind (g := Clip.recol φ) (SimO.of_eq (Clip.unlink_recol φ s n)) fun t => ?_
      exact SimO.ite (fun _ => Clip.insertMid_recol φ t _ _ c) fun _ => Clip.insertMid_recol φ t _ _ c

theorem Clip.checkIsect_recol {env : Env} (n m : Nat) :
    SimO (fun r : Bool × Clip => (r.1, r.2.recol φ)) (s.checkIsect env n m) ((s.recol φ).checkIsect env n m) := by
  unfold Clip.checkIsect
  have ht : ({ s.recol φ with clock := (s.recol φ).clock + 1 } : Clip) = Clip.recol φ { s with clock := s.clock + 1 } := rfl
  rw [ht]
  generalize ({ s with clock := s.clock + 1 } : Clip) = t
  show SimO _ _ (match env.isect s.clock (s.cseg n) (s.cseg m) with
    | none => _
    | some r => _)
  cases env.isect s.clock (s.cseg n) (s.cseg m) with
  | none => exact SimO.some rfl
  | some r =>
    refine SimO.ite (fun _ => SimO.none) fun _ => SimO.ite (fun _ => ?_) fun _ => SimO.ite (fun _ => ?_) fun _ => ?_
    · refine SimO.bind (Clip.split_recol φ t n r.p r.e0) fun q => ?_
      obtain ⟨i, u⟩ := q
      refine SimO.map (Clip.split_recol φ u m r.p r.e1) fun q => ?_
      simp only [Clip.mark_recol]
    · exact SimO.some (by simp only [Clip.mark_recol]; rfl)
    · exact SimO.some (by simp only [Clip.mark_recol]; rfl)

section
variable {env : Env} (he : env.Blind)
include he

theorem Clip.insert_recol (n : Nat) : (s.recol φ).insert env n = (s.insert env n).map (Clip.recol φ) := by
  unfold Clip.insert
  rw [he, apply_ite (Option.map _)]
  rfl

omit he in
theorem Clip.erase_recol (n : Nat) : (s.recol φ).erase n = (s.erase n).map (Clip.recol φ) := by
  unfold Clip.erase
  rw [apply_ite (Option.map _)]
  rfl

omit he in
theorem Clip.checkOpt_recol (n : Nat) (m : Option Nat) :
    SimO (fun r : Bool × Clip => (r.1, r.2.recol φ)) (s.checkOpt env n m) ((s.recol φ).checkOpt env n m) := by
  cases m with
  | none => exact SimO.some rfl
  | some m => exact Clip.checkIsect_recol φ s n m

theorem Clip.onForward_recol (e : Ev) : SimO (Clip.recol φ) (s.onForward env e) ((s.recol φ).onForward env e) := by
  unfold Clip.onForward
  refine SimO.bind (SimO.of_eq (Clip.insert_recol φ s he e.node)) fun t => ?_
  refine SimO.bind (Clip.checkOpt_recol φ t _ _) fun r => ?_
  obtain ⟨b, u⟩ := r
  refine SimO.ite (fun _ => SimO.some rfl) fun _ => ?_
  exact SimO.map (Clip.checkOpt_recol φ u _ _) fun _ => rfl

omit he in
theorem Clip.onBackward_recol (e : Ev) : SimO (Clip.recol φ) (s.onBackward env e) ((s.recol φ).onBackward env e) := by
  unfold Clip.onBackward
  refine SimO.ite (p := e.node ∈ s.sweep) (fun _ => ?_) fun _ => SimO.some rfl
  show SimO _ (match prevOf s.sweep e.node, nextOf s.sweep e.node with
      | some p, some n => _
      | _, _ => _) (match prevOf s.sweep e.node, nextOf s.sweep e.node with
      | some p, some n => _
      | _, _ => _)
  cases prevOf s.sweep e.node with
  | none => exact SimO.some rfl
  | some p =>
    cases nextOf s.sweep e.node with
    | none => exact SimO.some rfl
    | some n => exact SimO.map (Clip.checkIsect_recol φ { s with sweep := s.sweep.erase e.node } p n) fun _ => rfl

theorem Clip.step_recol : SimO (Clip.recol φ) (s.step env) ((s.recol φ).step env) := by
  unfold Clip.step
  refine SimO.bind (g := fun r => r) (o' := s.q.next s.x) (SimO.of_eq (by cases s.q.next s.x <;> rfl)) fun r => ?_
  obtain ⟨e, b, q⟩ := r
  refine SimO.ite (fun _ => SimO.some rfl) fun _ => ?_
  cases e.ty.isFwd <;> cases b
  · exact SimO.of_eq (Clip.insert_recol φ { s with q := q } he e.node)
  · exact Clip.onBackward_recol φ { s with q := q } e
  · exact SimO.of_eq (Clip.erase_recol φ { s with q := q } e.node)
  · exact Clip.onForward_recol φ { s with q := q } he e

omit he in
theorem Clip.scan_recol {op : BoolOp} (hop : PolyOps.Blind φ op) (i : Nat) : (s.recol φ).scan op i = ((s.scan op i).1.recol φ, (s.scan op i).2) := by
  unfold Clip.scan
  have hl : lineBal ((s.recol φ).line i) ((s.recol φ).scanned.map (s.recol φ).line) =
      ⟨(lineBal (s.line i) (s.scanned.map s.line)).wn.push φ, (lineBal (s.line i) (s.scanned.map s.line)).hits⟩ := by
    rw [← lineBal_recol, List.map_map]
    rfl
  have hr : lbResult op ((s.recol φ).lp i).set ((lineBal (s.line i) (s.scanned.map s.line)).wn.push φ) =
      lbResult op (s.lp i).set (lineBal (s.line i) (s.scanned.map s.line)).wn := hop _ _
  have h := setFn_recol φ s.lp i { s.lp i with state := .res (lbResult op (s.lp i).set (lineBal (s.line i) (s.scanned.map s.line)).wn) }
  simp only [hl, hr]
  by_cases c : (s.lp i).state = .check
  · rw [if_pos (show ((s.recol φ).lp i).state = .check from c), if_pos c]
    unfold Clip.recol
    rw [← h]
    rfl
  · rw [if_neg (show ¬ ((s.recol φ).lp i).state = .check from c), if_neg c]

theorem Clip.step2_recol {op : BoolOp} (hop : PolyOps.Blind φ op) :
    SimO (fun r : Clip × List (Nat × List Nat) => (r.1.recol φ, r.2)) (s.step2 env op) ((s.recol φ).step2 env op) := by
  unfold Clip.step2
  refine SimO.bind (g := fun r => r) (o' := s.q.next s.x) (SimO.of_eq (by cases s.q.next s.x <;> rfl)) fun r => ?_
  obtain ⟨e, b, q⟩ := r
  have ht : ({ s.recol φ with q := q } : Clip) = Clip.recol φ { s with q := q } := rfl
  simp only [ht]
  generalize ({ s with q := q } : Clip) = t
  refine SimO.ite (fun _ => SimO.none) fun _ => SimO.ite (fun _ => SimO.some rfl) fun _ => SimO.ite (fun _ => ?_) fun _ => ?_
  · exact SimO.map (SimO.of_eq (Clip.insert_recol φ t he _)) fun u => Clip.scan_recol φ u hop _
  · rw [Clip.scan_recol φ t hop]
    exact SimO.map (SimO.of_eq (Clip.erase_recol φ _ _)) fun u => rfl

end
end Sweep

/-! ### Adding polygons -/
namespace PointSink
open Sweep

def Store.recol (c : Store) : Store := { c with pts := c.pts.map (LP.recol φ) }
def Sink.recol (k : Sink) : Sink := { k with cat := φ k.cat }

theorem finalizePrev_recol (s : Store × Sink) : finalizePrev (s.1.recol φ, s.2.recol φ) = ((finalizePrev s).1.recol φ, (finalizePrev s).2.recol φ) := by
  obtain ⟨c, k⟩ := s
  unfold finalizePrev
  have h : ((Store.recol φ c).pts.getLast?.map LP.data = some (Sink.recol φ k).prev) = (c.pts.getLast?.map LP.data = some k.prev) := by
    show ((c.pts.map (LP.recol φ)).getLast?.map LP.data = some k.prev) = _
    rw [List.getLast?_map, Option.map_map]
    rfl
  have hl : (Store.recol φ c).pts.length = c.pts.length := List.length_map _
  simp only [h, hl]
  have hs : (Sink.recol φ k).first = k.first := rfl
  simp only [hs]
  split
  · rfl
  · refine Prod.ext ?_ ?_
    · show Store.mk _ _ _ = Store.mk _ _ _
      congr 1
      show List.map (LP.recol φ) c.pts ++ _ = List.map (LP.recol φ) (c.pts ++ _)
      rw [List.map_append]
      congr 1
      have hp : ∀ (b : Bool) (p q : Prop) [Decidable p] [Decidable q] (k k1 k2 : Sink), k1.prev = k.prev → k2.prev = k.prev → k1.cat = k.cat → k2.cat = k.cat →
          (if b then if p then k1 else if q then k2 else k else k : Sink).prev = k.prev ∧ (if b then if p then k1 else if q then k2 else k else k : Sink).cat = k.cat := by
        intro b p q _ _ k k1 k2 e1 e2 e3 e4
        repeat' split
        all_goals simp_all
      simp only [List.map_cons, List.map_nil, LP.recol]
      rw [(hp k.pt _ _ k { k with fo := k.prevOrig } { k with so := k.prevOrig } rfl rfl rfl rfl).1, (hp k.pt _ _ k { k with fo := k.prevOrig } { k with so := k.prevOrig } rfl rfl rfl rfl).2]
      have h2 := hp k.pt (c.pts.length - k.first = 0) (c.pts.length - k.first = 1) (k.recol φ) { k.recol φ with fo := k.prevOrig } { k.recol φ with so := k.prevOrig } rfl rfl rfl rfl
      congr 2
      · exact h2.1
      · exact h2.2
    · simp only [apply_ite (Sink.recol φ)]
      rfl

theorem put_recol (s : Store × Sink) (p : Pt × Int) : put (s.1.recol φ, s.2.recol φ) p = ((put s p).1.recol φ, (put s p).2.recol φ) := by
  have h : ∀ (s : Store × Sink) (p : Pt × Int), put s p = ({ (if s.2.started then finalizePrev s else s).1 with nextOrig := p.2 + 1 },
      { (if s.2.started then finalizePrev s else s).2 with prev := p.1, prevOrig := p.2, started := true }) := fun _ _ => rfl
  have h2 : (if (s.1.recol φ, s.2.recol φ).2.started then finalizePrev (s.1.recol φ, s.2.recol φ) else (s.1.recol φ, s.2.recol φ)) =
      ((if s.2.started then finalizePrev s else s).1.recol φ, (if s.2.started then finalizePrev s else s).2.recol φ) := by
    show (if s.2.started = true then _ else _) = _
    rw [finalizePrev_recol]
    split <;> rfl
  rw [h, h, h2]
  rfl

theorem close_recol (s : Store × Sink) : close (s.1.recol φ, s.2.recol φ) = (close s).map (Store.recol φ) := by
  unfold close
  show (if s.2.started = true then _ else _) = _
  cases s.2.started with
  | false => rfl
  | true =>
    simp only [if_true]
    show (match (s.1.pts.map (LP.recol φ))[s.2.first]? with
      | none => _
      | some f => _) = _
    rw [List.getElem?_map]
    cases s.1.pts[s.2.first]? with
    | none => rfl
    | some f =>
      simp only [Option.map_some]
      have key : ∀ s : Store × Sink, (if (s.1.recol φ).pts.length - s.2.first < 3 then some { s.1.recol φ with pts := (s.1.recol φ).pts.take s.2.first }
          else some { s.1.recol φ with pts := (s.1.recol φ).pts.modify ((s.1.recol φ).pts.length - 1) fun p => { p with next := s.2.first, state := .check } }) =
          (if s.1.pts.length - s.2.first < 3 then some { s.1 with pts := s.1.pts.take s.2.first }
          else some { s.1 with pts := s.1.pts.modify (s.1.pts.length - 1) fun p => { p with next := s.2.first, state := .check } }).map (Store.recol φ) := by
        intro s
        have hl : (Store.recol φ s.1).pts.length = s.1.pts.length := List.length_map _
        rw [hl]
        split
        · simp only [Store.recol, Option.map_some, List.map_take]
        · simp only [Store.recol, Option.map_some, Option.some.injEq, Store.mk.injEq, and_self, and_true]
          apply List.ext_getElem?
          intro n
          simp only [List.getElem?_modify, List.getElem?_map]
          cases s.1.pts[n]? with
          | none => rfl
          | some p =>
            simp only [Option.map_some]
            split <;> rfl
      have h : ((Sink.recol φ s.2).prev ≠ (LP.recol φ f).data) = (s.2.prev ≠ f.data) := rfl
      simp only [h]
      by_cases c : s.2.prev ≠ f.data
      · simp only [if_pos c]
        rw [finalizePrev_recol]
        exact key (finalizePrev s)
      · simp only [if_neg c]
        exact key s

theorem addPts_recol (c : Store) (cat : BSet) (pt : Bool) (l : List Pt) : addPts (c.recol φ) (φ cat) pt l = (addPts c cat pt l).map (Store.recol φ) := by
  unfold addPts
  have go : ∀ (l : List Pt) (s : Store × Sink), l.foldl (fun s p => put s (p, s.1.nextOrig)) (s.1.recol φ, s.2.recol φ) =
      ((l.foldl (fun s p => put s (p, s.1.nextOrig)) s).1.recol φ, (l.foldl (fun s p => put s (p, s.1.nextOrig)) s).2.recol φ) := by
    intro l
    induction l with
    | nil => intro s; rfl
    | cons p l ih =>
      intro s
      simp only [List.foldl_cons]
      have := put_recol φ s (p, s.1.nextOrig)
      show List.foldl _ (put (s.1.recol φ, s.2.recol φ) (p, s.1.nextOrig)) _ = _
      rw [this]
      exact ih _
  have h : Sink.init (c.recol φ) (φ cat) pt = (Sink.init c cat pt).recol φ := by
    unfold Sink.init Sink.recol Store.recol; simp
  rw [h, go l (c, Sink.init c cat pt), close_recol]

end PointSink
end PolyOps
