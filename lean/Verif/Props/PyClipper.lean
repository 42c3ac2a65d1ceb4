import Verif.Model.PyClipper
import Verif.Props.Clipper

/-! C75: the clipper objects of the Python binding. -/
namespace PolyOps.PyClipper
open PolyOps PolyOps.Clipper PolyOps.PointSink

/-! ### Specification -/

/-- What a user thinks the object holds: the polygons added since the last result or `reset`, and the type of their elements, `none` before anything is added. -/
structure Held (D : Type) where
  polys : List (BSet × List Pt)
  dtype : Option D

section
variable {D : Type} (promote : D → D → Option D)

/-- The type common to what was added before and an array. -/
def joint : Option D → D → Option D
  | none, d => some d
  | some c, d => promote d c

/-- The polygons of a sequence and the common type; `none` if one of them is not valid. -/
def allOf : List (Arg D) → Option D → Option (List (List Pt) × Option D)
  | [], c => some ([], c)
  | .notArray :: _, _ => none
  | .array d castable l :: as, c =>
    match joint promote c d with
    | none => none
    | some r => if l = [] ∨ castable = true then (allOf as (some r)).map fun q => (l :: q.1, q.2) else none

/-- Adding polygons: all of them, or none if one of them or the set is not valid. -/
def Held.add (h : Held D) (set : Option BSet) (as : List (Arg D)) : Held D :=
  match set, allOf promote as h.dtype with
  | some k, some q => ⟨h.polys ++ q.1.map fun l => (k, l), q.2⟩
  | _, _ => h

/-- What the object holds after a call. -/
def Held.after (h : Held D) : Call D → Held D
  | .addLoop set a => h.add promote set [a]
  | .addLoops set as => h.add promote set as
  | .exec (some _) (some _) _ =>
    match h.dtype with
    | none => h
    | some _ => ⟨[], none⟩
  | .exec _ _ _ => h
  | .reset => ⟨[], none⟩

/-- Calls that this is true of: sequences of polygons are valid, or their first polygon is not; results with a tracker are not asked for as trees. -/
def Regular (tracked : Bool) : List (Call D) → Held D → Prop
  | [], _ => True
  | c :: cs, h => (match c with
      | .addLoops (some _) (a :: as) => allOf promote (a :: as) h.dtype ≠ none ∨ allOf promote [a] h.dtype = none
      | .exec _ _ tree => tracked = false ∨ tree = false
      | _ => True) ∧ Regular tracked cs (h.after promote c)

/-- The polygons with at least one point, as calls of the C++ object. -/
def adds (tracked : Bool) (polys : List (BSet × List Pt)) : List Cmd := (polys.filter fun p => !p.2.isEmpty).map fun p => .add p.1 tracked p.2

end

/-! ### Proof -/

section
variable {G D : Type} (promote : D → D → Option D) (P : Params G) (fuel : Nat) (tracked : Bool)

theorem run_add {s : Clipper G × List TCall} {s1 s2 : Clipper G × List TCall} {rs : List (Option Output)} (cs : List Cmd) {k : BSet} {l : List Pt}
    (h : Clipper.run P fuel cs s = .ok (s1, rs)) (h' : Clipper.add k tracked l s1 = .ok s2) :
    Clipper.run P fuel (cs ++ [.add k tracked l]) s = .ok (s2, rs ++ [none]) := by
  induction cs generalizing s rs with
  | nil =>
    cases h
    show ((Clipper.add k tracked l s1).bind _).bind _ = _
    rw [h']
    rfl
  | cons c cs ih =>
    obtain ⟨r, e1, h⟩ := Out.bind_ok h
    obtain ⟨q, e2, h⟩ := Out.bind_ok h
    cases h
    show (Clipper.step P fuel s c).bind _ = _
    rw [e1]
    show (Clipper.run P fuel (cs ++ _) r.1).bind _ = _
    rw [ih e2]
    rfl

theorem run_exec {s : Clipper G × List TCall} {s1 st : Clipper G × List TCall} {rs rs' : List (Option Output)} (cs : List Cmd) {op : BoolOp} {tree : Bool} {o : Output}
    (h : Clipper.run P fuel cs s = .ok (s1, rs)) (h' : Clipper.run P fuel (cs ++ [.exec op tree]) s = .ok (st, rs' ++ [some o])) :
    Clipper.execute P fuel op tree s1 = .ok (st, o) := by
  induction cs generalizing s rs rs' with
  | nil =>
    cases h
    obtain ⟨r, e1, h'⟩ := Out.bind_ok h'
    obtain ⟨q, e2, h'⟩ := Out.bind_ok h'
    cases e2
    obtain ⟨x, e3, e1⟩ := Out.bind_ok e1
    cases e1
    cases rs' with
    | nil => cases h'; exact e3
    | cons a rs' =>
      injection h' with h'
      injection h' with _ h'
      injection h' with _ h'
      exact absurd h' (by simp)
  | cons c cs ih =>
    obtain ⟨r, e1, h⟩ := Out.bind_ok h
    obtain ⟨q, e2, h⟩ := Out.bind_ok h
    cases h
    obtain ⟨r', e1', h'⟩ := Out.bind_ok h'
    rw [e1] at e1'
    cases e1'
    obtain ⟨q', e2', h'⟩ := Out.bind_ok h'
    cases rs' with
    | nil =>
      exfalso
      injection h' with h'
      injection h' with _ h'
      injection h' with _ h'
      have : ∀ (cs : List Cmd) (s : Clipper G × List TCall) q, Clipper.run P fuel (cs ++ [.exec op tree]) s = .ok q → q.2 ≠ [] := by
        intro cs
        cases cs with
        | nil =>
          intro s q h
          obtain ⟨_, _, h⟩ := Out.bind_ok h
          obtain ⟨_, _, h⟩ := Out.bind_ok h
          cases h
          simp
        | cons c cs =>
          intro s q h
          obtain ⟨_, _, h⟩ := Out.bind_ok h
          obtain ⟨_, _, h⟩ := Out.bind_ok h
          cases h
          simp
      exact this cs r.1 q' e2' h'
    | cons a rs' =>
      injection h' with h4
      injection h4 with h1 h4
      injection h4 with _ h4
      obtain ⟨a1, a2⟩ := q'
      simp only at h1 h4
      subst h1 h4
      exact ih e2 e2'

/-- The C++ object holds what a new one holds after these polygons have been added. -/
def Loaded (polys : List (BSet × List Pt)) (s : Clipper G × List TCall) : Prop :=
  s.1.ran = false ∧ ∃ c0 rs, Clipper.run P fuel (adds tracked polys) (Clipper.fresh s.1.rgen, []) = .ok ((c0, s.2), rs) ∧ strip s.1 = strip c0

theorem loaded_fresh (c : Clipper G) : Loaded P fuel tracked [] (c.reset, []) := ⟨rfl, _, _, rfl, rfl⟩

theorem adds_append (a b : List (BSet × List Pt)) : adds tracked (a ++ b) = adds tracked a ++ adds tracked b := by
  unfold adds; rw [List.filter_append, List.map_append]

theorem add_keeps {k : BSet} {l : List Pt} {s s' : Clipper G × List TCall} (hr : s.1.ran = false) (h : Clipper.add k tracked l s = .ok s') :
    s'.1.ran = false ∧ s'.1.rgen = s.1.rgen := by
  unfold Clipper.add at h
  rw [if_neg (by rw [hr]; simp)] at h
  obtain ⟨q, -, h⟩ := Out.bind_ok h
  cases h
  exact ⟨hr, rfl⟩

theorem loaded_add {polys : List (BSet × List Pt)} {s s' : Clipper G × List TCall} {k : BSet} {l : List Pt} (h : Loaded P fuel tracked polys s)
    (hl : l ≠ []) (ha : Clipper.add k tracked l s = .ok s') : Loaded P fuel tracked (polys ++ [(k, l)]) s' := by
  obtain ⟨hr, c0, rs, h1, h2⟩ := h
  obtain ⟨hr', hg⟩ := add_keeps tracked hr ha
  have e1 := add_strip k tracked l s
  have e2 := add_strip k tracked l (c0, s.2)
  rw [ha] at e1
  rw [← h2, e1] at e2
  obtain ⟨⟨c1, l1⟩, e3, e4⟩ := Out.bind_ok e2.symm
  injection e4 with e4
  injection e4 with e4 e5
  simp only at e4 e5
  subst e5
  refine ⟨hr', c1, rs ++ [none], ?_, e4.symm⟩
  rw [adds_append, hg]
  have : adds tracked [(k, l)] = [.add k tracked l] := by
    unfold adds
    cases l with
    | nil => exact absurd rfl hl
    | cons a l => rfl
  rw [this]
  exact run_add P fuel tracked _ h1 e3

theorem loaded_nil {polys : List (BSet × List Pt)} {s : Clipper G × List TCall} {k : BSet} (h : Loaded P fuel tracked polys s) :
    Loaded P fuel tracked (polys ++ [(k, [])]) s := by
  obtain ⟨hr, c0, rs, h1, h2⟩ := h
  refine ⟨hr, c0, rs, ?_, h2⟩
  rw [adds_append]
  have : adds tracked [(k, [])] = [] := rfl
  rw [this, List.append_nil]
  exact h1

/-- One polygon. -/
theorem common_joint (c : Option D) (d : D) : common promote c d = joint promote c d := by cases c <;> rfl

theorem loadLoop_spec {polys : List (BSet × List Pt)} {s : Clipper G × List TCall} {k : BSet} {c : Option D} {a : Arg D} {r : (Clipper G × List TCall) × Option D}
    (h : Loaded P fuel tracked polys s) (hr : loadLoop promote tracked k s c a = .ok r) :
    (allOf promote [a] c = none ∧ r = (s, none)) ∨
      ∃ l d, allOf promote [a] c = some ([l], some d) ∧ r.2 = some d ∧ Loaded P fuel tracked (polys ++ [(k, l)]) r.1 := by
  cases a with
  | notArray => cases hr; exact .inl ⟨rfl, rfl⟩
  | array d castable l =>
    unfold loadLoop at hr
    unfold allOf
    simp only [common_joint] at hr
    cases hc : joint promote c d with
    | none => rw [hc] at hr; cases hr; exact .inl ⟨rfl, rfl⟩
    | some e =>
      rw [hc] at hr
      simp only at hr ⊢
      split at hr
      · rename_i hl
        cases hr
        subst hl
        exact .inr ⟨[], e, by simp [allOf], rfl, loaded_nil P fuel tracked h⟩
      · rename_i hl
        split at hr
        · rename_i hk
          obtain ⟨s', ha, hr⟩ := Out.bind_ok hr
          cases hr
          exact .inr ⟨l, e, by simp [allOf, hk], rfl, loaded_add P fuel tracked h hl ha⟩
        · rename_i hk
          cases hr
          exact .inl ⟨by simp [hl, hk], rfl⟩

theorem add_none {h : Held D} {k : Option BSet} {as : List (Arg D)} (h0 : allOf promote as h.dtype = none) : h.add promote k as = h := by
  unfold Held.add; rw [h0]; cases k <;> rfl

theorem add_some {h : Held D} {k : BSet} {as : List (Arg D)} {q : List (List Pt) × Option D} (h0 : allOf promote as h.dtype = some q) :
    h.add promote (some k) as = ⟨h.polys ++ q.1.map fun l => (k, l), q.2⟩ := by
  unfold Held.add; rw [h0]

theorem allOf_cons (a : Arg D) (as : List (Arg D)) (c : Option D) : allOf promote (a :: as) c =
    match allOf promote [a] c with
    | none => none
    | some (l, e) => (allOf promote as e).map fun q => (l ++ q.1, q.2) := by
  cases a with
  | notArray => rfl
  | array d castable l =>
    rw [allOf, allOf]
    cases joint promote c d with
    | none => rfl
    | some e =>
      simp only
      split
      · rfl
      · rfl

/-- All polygons of a sequence that is valid. -/
theorem loadLoops_spec {k : BSet} (as : List (Arg D)) : ∀ {polys : List (BSet × List Pt)} {s : Clipper G × List TCall} {c : Option D}
    {r : (Clipper G × List TCall) × Option (Option D)}, Loaded P fuel tracked polys s → loadLoops promote tracked k as s c = .ok r →
    (allOf promote as c = none ∧ r.2 = none) ∨
      ∃ ls e, allOf promote as c = some (ls, e) ∧ r.2 = some e ∧ Loaded P fuel tracked (polys ++ ls.map fun l => (k, l)) r.1 := by
  induction as with
  | nil =>
    intro polys s c r h hr
    cases hr
    exact .inr ⟨[], c, rfl, rfl, by simpa using h⟩
  | cons a as ih =>
    intro polys s c r h hr
    unfold loadLoops at hr
    obtain ⟨r1, e1, hr⟩ := Out.bind_ok hr
    rw [allOf_cons]
    rcases loadLoop_spec promote P fuel tracked h e1 with ⟨h1, h2⟩ | ⟨l, d, h1, h2, h3⟩
    · subst h2
      cases hr
      rw [h1]
      exact .inl ⟨rfl, rfl⟩
    · rw [h2] at hr
      rw [h1]
      rcases ih h3 hr with ⟨h4, h5⟩ | ⟨ls, e, h4, h5, h6⟩
      · refine .inl ⟨?_, h5⟩
        simp [h4]
      · refine .inr ⟨l :: ls, e, ?_, h5, ?_⟩
        · simp [h4]
        · simpa using h6

/-- The object holds what the user thinks. -/
def Agrees (s : Py G D) (h : Held D) : Prop := s.dtype = h.dtype ∧ Loaded P fuel tracked h.polys s.core

theorem untree {op : BoolOp} {s : Clipper G × List TCall} {r : (Clipper G × List TCall) × Output}
    (h : Clipper.execute P fuel op false s = .ok r) : r.2.tree = none := by
  unfold Clipper.execute at h
  generalize (if s.1.ran = true then (s.1.reset, ([] : List TCall)) else s) = t at h
  unfold Clipper.doOp at h
  simp only at h
  split at h
  · cases h
  · obtain ⟨k, -, h⟩ := Out.bind_ok h
    obtain ⟨k1, -, h⟩ := Out.bind_ok h
    obtain ⟨⟨k2, sm⟩, -, h⟩ := Out.bind_ok h
    obtain ⟨⟨w, f, sm'⟩, -, h⟩ := Out.bind_ok h
    cases h
    rfl

theorem agrees_step {s s' : Py G D} {h : Held D} {c : Call D} {r : Ret D} (ha : Agrees P fuel tracked s h) (hreg : Regular promote tracked [c] h)
    (hs : step promote P fuel tracked s c = .ok (s', r)) : Agrees P fuel tracked s' (h.after promote c) := by
  obtain ⟨hd, hl⟩ := ha
  cases c with
  | addLoop set a =>
    cases set with
    | none => cases hs; exact ⟨hd, hl⟩
    | some k =>
      obtain ⟨q, e, hs⟩ := Out.bind_ok hs
      unfold Held.after
      simp only
      rcases loadLoop_spec promote P fuel tracked hl e with ⟨h1, h2⟩ | ⟨l, d, h1, h2, h3⟩
      · subst h2
        cases hs
        rw [add_none promote (by rw [← hd]; exact h1)]
        exact ⟨hd, hl⟩
      · rw [h2] at hs
        cases hs
        rw [add_some promote (by rw [← hd]; exact h1)]
        exact ⟨rfl, h3⟩
  | addLoops set as =>
    cases set with
    | none => cases hs; exact ⟨hd, hl⟩
    | some k =>
      obtain ⟨q, e, hs⟩ := Out.bind_ok hs
      unfold Held.after
      simp only
      rcases loadLoops_spec promote P fuel tracked as hl e with ⟨h1, h2⟩ | ⟨ls, d, h1, h2, h3⟩
      · rw [h2] at hs
        cases hs
        rw [add_none promote (by rw [← hd]; exact h1)]
        refine ⟨hd, ?_⟩
        cases as with
        | nil => cases h1
        | cons a as =>
          have hreg := hreg.1
          simp only at hreg
          rw [← hd, h1] at hreg
          have h0 := hreg.resolve_left (fun h => h rfl)
          unfold loadLoops at e
          obtain ⟨r1, e1, e⟩ := Out.bind_ok e
          rcases loadLoop_spec promote P fuel tracked hl e1 with ⟨h1, h2⟩ | ⟨l, d, h1, h2, h3⟩
          · subst h2
            cases e
            exact hl
          · rw [h0] at h1; cases h1
      · rw [h2] at hs
        cases hs
        rw [add_some promote (by rw [← hd]; exact h1)]
        exact ⟨rfl, h3⟩
  | exec op dtype tree =>
    have hreg := hreg.1
    simp only at hreg
    cases dtype with
    | none => cases hs; cases op <;> exact ⟨hd, hl⟩
    | some e =>
      cases hx : s.dtype with
      | none =>
        unfold step at hs
        rw [hx] at hs
        cases op with
        | none => cases hs; exact ⟨hd, hl⟩
        | some op =>
          cases hs
          unfold Held.after
          rw [← hd, hx]
          exact ⟨hd, hl⟩
      | some d =>
        cases op with
        | none =>
          unfold step at hs
          rw [hx] at hs
          cases hs
          exact ⟨hd, hl⟩
        | some op =>
          unfold step at hs
          rw [hx] at hs
          obtain ⟨q, e1, hs⟩ := Out.bind_ok hs
          have hc : convertRaises tracked q.2 = false := by
            unfold convertRaises
            cases ht : q.2.tree with
            | none => rfl
            | some t =>
              rcases hreg with h0 | h0
              · rw [h0]; rfl
              · subst h0
                rw [untree P fuel e1] at ht
                cases ht
          rw [hc] at hs
          cases hs
          unfold Held.after
          rw [← hd, hx]
          exact ⟨rfl, loaded_fresh P fuel tracked _⟩
  | reset => cases hs; exact ⟨rfl, loaded_fresh P fuel tracked _⟩

theorem agrees_run {cs : List (Call D)} : ∀ {s s' : Py G D} {h : Held D} {rs : List (Ret D)}, Agrees P fuel tracked s h → Regular promote tracked cs h →
    run promote P fuel tracked cs s = .ok (s', rs) → Agrees P fuel tracked s' (cs.foldl (fun h c => h.after promote c) h) := by
  induction cs with
  | nil => intro s s' h rs ha _ hs; cases hs; exact ha
  | cons c cs ih =>
    intro s s' h rs ha hreg hs
    obtain ⟨r, e1, hs⟩ := Out.bind_ok hs
    obtain ⟨q, e2, hs⟩ := Out.bind_ok hs
    cases hs
    exact ih (agrees_step promote P fuel tracked ha ⟨hreg.1, trivial⟩ e1) hreg.2 e2

/-- What an object holds after calls, from its creation on. -/
def holds (cs : List (Call D)) : Held D := cs.foldl (fun h c => h.after promote c) ⟨[], none⟩

/-- **C75 (Python objects).** After any regular sequence of calls, `execute` gives what the C++ object gives when it is new (but for the state of its generator) and is given exactly
the polygons added since the last result or `reset`; calls that raised an exception added nothing. If nothing was added, it returns the empty tuple. The type of the result is the one asked for or
the common type of the polygons. -/
theorem C75_execute_partial {cs : List (Call D)} {g : G} {s : Py G D} {rs : List (Ret D)} (hs : run promote P fuel tracked cs (.new D g) = .ok (s, rs))
    (hreg : Regular promote tracked cs ⟨[], none⟩) : ∃ g', ∀ (op : BoolOp) (e : Option D) (tree : Bool), tracked = false ∨ tree = false →
      match (holds promote cs).dtype with
      | none => step promote P fuel tracked s (.exec (some op) (some e) tree) = .ok (s, .empty)
      | some d => ∀ st rs' o, Clipper.run P fuel (adds tracked (holds promote cs).polys ++ [.exec op tree]) (Clipper.fresh g', []) = .ok (st, rs' ++ [some o]) →
        step promote P fuel tracked s (.exec (some op) (some e) tree) = .ok (⟨(st.1.reset, []), none⟩, .result o (e.getD d)) := by
  obtain ⟨hd, hr, c0, rs0, h1, h2⟩ := agrees_run promote P fuel tracked (s := .new D g) (h := ⟨[], none⟩) ⟨rfl, rfl, _, _, rfl, rfl⟩ hreg hs
  refine ⟨s.core.1.rgen, fun op e tree ht => ?_⟩
  change s.dtype = (holds promote cs).dtype at hd
  change Clipper.run P fuel (adds tracked (holds promote cs).polys) _ = _ at h1
  rw [← hd]
  cases hx : s.dtype with
  | none =>
    simp only
    unfold step
    rw [hx]
  | some d =>
    simp only
    intro st rs' o h3
    have h4 := run_exec P fuel _ h1 h3
    rw [execute_strip] at h4
    simp only at h4
    rw [← h2, ← execute_strip P fuel op tree s.core] at h4
    unfold step
    rw [hx]
    simp only
    rw [h4]
    have hc : convertRaises tracked o = false := by
      unfold convertRaises
      cases hto : o.tree with
      | none => rfl
      | some t =>
        rcases ht with h0 | h0
        · rw [h0]; rfl
        · subst h0
          rw [untree P fuel h4] at hto
          cases hto
    show (if convertRaises tracked o = true then _ else _) = _
    rw [hc]
    rfl

/-- **C75 (exceptions).** A call that adds polygons raises an exception if and only if the set or one of the polygons is not valid, in whatever state the object is that regular calls lead to. -/
theorem C75_raises {cs : List (Call D)} {g : G} {s s' : Py G D} {rs : List (Ret D)} {r : Ret D} (hs : run promote P fuel tracked cs (.new D g) = .ok (s, rs))
    (hreg : Regular promote tracked cs ⟨[], none⟩) (set : Option BSet) (as : List (Arg D)) (h : step promote P fuel tracked s (.addLoops set as) = .ok (s', r)) :
    r = .raised ∧ (set = none ∨ allOf promote as (holds promote cs).dtype = none) ∨ r = .nothing ∧ set ≠ none ∧ allOf promote as (holds promote cs).dtype ≠ none := by
  obtain ⟨hd, hl⟩ := agrees_run promote P fuel tracked (s := .new D g) (h := ⟨[], none⟩) ⟨rfl, rfl, _, _, rfl, rfl⟩ hreg hs
  change s.dtype = (holds promote cs).dtype at hd
  cases set with
  | none => cases h; exact .inl ⟨rfl, .inl rfl⟩
  | some k =>
    obtain ⟨q, e, h⟩ := Out.bind_ok h
    rw [← hd]
    rcases loadLoops_spec promote P fuel tracked as hl e with ⟨h1, h2⟩ | ⟨ls, d, h1, h2, h3⟩
    · rw [h2] at h
      cases h
      exact .inl ⟨rfl, .inr h1⟩
    · rw [h2] at h
      cases h
      exact .inr ⟨rfl, by simp, by rw [h1]; simp⟩

end

/-! ### Cases -/

/-- How calls end, to compare. -/
inductive Shown
  | nothing
  | raised
  | empty
  | result (loops : List (List Pt)) (d : Nat)
deriving DecidableEq

def Ret.shown : Ret Nat → Shown
  | .nothing => .nothing
  | .raised => .raised
  | .empty => .empty
  | .result o d => .result o.loops d

def shownAll {G : Type} : Out (Py G Nat × List (Ret Nat)) → Option (List Shown)
  | .ok q => some (q.2.map Ret.shown)
  | _ => none

/-- Types are numbers; the common type is the larger one. -/
def larger (a b : Nat) : Option Nat := some (max a b)

def tri : List Pt := [⟨0, 0⟩, ⟨4, 0⟩, ⟨0, 4⟩]
def tri2 : List Pt := [⟨10, 0⟩, ⟨14, 0⟩, ⟨10, 4⟩]

/-- Calls that are regular: a polygon, something that is not one, a sequence of which the first element is not valid, an operation, and another one without polygons. -/
def calls : List (Call Nat) := [.addLoop (some .subject) (.array 3 true tri), .addLoop (some .clip) .notArray, .addLoops (some .clip) [.array 5 false tri2, .array 1 true tri2],
  .exec none (some none) false, .exec (some .union) (some none) true, .exec (some .union) (some none) true]

theorem calls_regular : Regular larger false calls ⟨[], none⟩ := by
  refine ⟨trivial, trivial, .inr rfl, .inl rfl, .inl rfl, .inl rfl, trivial⟩

example : shownAll (run larger lib 100 false calls (.new Nat gen)) = some [.nothing, .raised, .raised, .raised, .result [tri] 3, .empty] := by decide +kernel

example (s : Py (Nat → Bool × Bool) Nat) (rs : List (Ret Nat)) (hs : run larger lib 100 false (calls.take 4) (.new Nat gen) = .ok (s, rs)) :
    ∃ g', ∀ (op : BoolOp) (e : Option Nat) (tree : Bool), ∀ st rs' o, Clipper.run lib 100 ([.add .subject false tri] ++ [.exec op tree]) (Clipper.fresh g', []) = .ok (st, rs' ++ [some o]) →
      step larger lib 100 false s (.exec (some op) (some e) tree) = .ok (⟨(st.1.reset, []), none⟩, .result o (e.getD 3)) := by
  obtain ⟨g', h⟩ := C75_execute_partial larger lib 100 false hs ⟨trivial, trivial, .inr rfl, .inl rfl, trivial⟩
  exact ⟨g', fun op e tree => h op e tree (.inl rfl)⟩

/-- Finding: a sequence of which a later polygon is not valid. The call raises an exception, but the polygons before that one stay in the object; `execute` returns the empty tuple
as if nothing had been added and does not discard them; they are in the result of a later operation. -/
theorem C75_left_behind : shownAll (run larger lib 100 false [.addLoops (some .subject) [.array 3 true tri, .notArray], .exec (some .union) (some none) false,
      .addLoop (some .subject) (.array 3 true tri2), .exec (some .union) (some none) false] (.new Nat gen)) =
    some [.raised, .empty, .nothing, .result [tri, tri2] 3] := by decide +kernel

/-- Finding: with a tracker, `execute` raises an exception when a tree is asked for (C44). The polygons are gone after that, but the type of the next result still depends on them. -/
theorem C75_type_kept : shownAll (run larger lib 100 true [.addLoop (some .subject) (.array 3 true tri), .exec (some .union) (some none) true,
      .addLoop (some .subject) (.array 1 true tri2), .exec (some .union) (some none) false] (.new Nat gen)) =
    some [.nothing, .raised, .nothing, .result [tri2] 3] := by decide +kernel

end PolyOps.PyClipper
