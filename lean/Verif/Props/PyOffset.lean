import Verif.Model.PyOffset
import Verif.Props.PyFuncs
import Verif.Props.Grow

/-! C80: the function `offset` of the Python binding. -/
namespace PolyOps.PyClipper
open PolyOps PolyOps.Clipper PolyOps.PointSink PolyOps.Exec

/-! ### Calls of the tracker before -/

/-- The same with earlier calls of the tracker. -/
def prior (t : List Int) (c : Store) : Store := { c with tr := t ++ c.tr }

theorem finalizePrev_prior (t : List Int) (s : Store × Sink) : finalizePrev (prior t s.1, s.2) = (prior t (finalizePrev s).1, (finalizePrev s).2) := by
  obtain ⟨c, k⟩ := s
  unfold finalizePrev prior
  simp only
  split
  · rfl
  · simp only [Prod.mk.injEq, Store.mk.injEq, and_true, true_and]
    split
    · split
      · rfl
      · split <;> simp
    · rfl

theorem put_prior (t : List Int) (s : Store × Sink) (p : Pt × Int) : put (prior t s.1, s.2) p = (prior t (put s p).1, (put s p).2) := by
  unfold put
  simp only
  split
  · rw [finalizePrev_prior]; rfl
  · rfl

theorem puts_prior (t : List Int) (l : List (Pt × Int)) : ∀ s : Store × Sink, l.foldl put (prior t s.1, s.2) = (prior t (l.foldl put s).1, (l.foldl put s).2) := by
  induction l with
  | nil => intro s; rfl
  | cons p l ih => intro s; rw [List.foldl_cons, put_prior, ih]; rfl

theorem close_prior (t : List Int) (s : Store × Sink) : close (prior t s.1, s.2) = (close s).map (prior t) := by
  unfold close
  simp only
  split
  · show (match s.1.pts[s.2.first]? with | none => none | some f => _) = _
    cases s.1.pts[s.2.first]? with
    | none => rfl
    | some f =>
      simp only
      by_cases h : s.2.prev ≠ f.data
      · simp only [if_pos h, finalizePrev_prior]
        show (if (finalizePrev s).1.pts.length - _ < 3 then _ else _) = _
        split <;> rfl
      · simp only [if_neg h]
        show (if s.1.pts.length - _ < 3 then _ else _) = _
        split <;> rfl
  · rfl

theorem addLoop_prior (t : List Int) (c : Store) (cat : BSet) (pt : Bool) (l : List (Pt × Int)) : addLoop (prior t c) cat pt l = (addLoop c cat pt l).map (prior t) := by
  unfold addLoop
  rw [show Sink.init (prior t c) cat pt = Sink.init c cat pt from rfl, puts_prior t l (c, Sink.init c cat pt), close_prior]

theorem addOffset_prior (t : List Int) (c : Store) (set : BSet) (pt : Bool) (m : ℝ) (arc : Int) (closed : Bool) (l : List Pt) :
    Offset.addOffset (prior t c) set pt m arc closed l = (Offset.addOffset c set pt m arc closed l).map (prior t) := by
  unfold Offset.addOffset
  cases l with
  | nil => rfl
  | cons p l =>
    simp only
    show ((if closed then Offset.emitClosed m arc c.nextOrig p l else Offset.emitOpen m arc c.nextOrig p l).bind _) = _
    cases (if closed then Offset.emitClosed m arc c.nextOrig p l else Offset.emitOpen m arc c.nextOrig p l) with
    | none => rfl
    | some r =>
      simp only [Option.bind_some]
      rw [addLoop_prior]
      cases addLoop c set pt r.1 <;> rfl

/-! ### Loading -/

section
variable {G D : Type} (promote : D → D → Option D) (P : Params G) (fuel : Nat) (tracked : Bool)

/-- The C++ object that holds what is stored. -/
def holding (g : G) (c : Store) : Clipper G × List TCall := ({ Clipper.fresh g with pts := c.pts, nextOrig := c.nextOrig }, c.tr.map .added)

theorem addOffset_holding (g : G) (c : Store) (set : BSet) (pt : Bool) (m : ℝ) (arc : Int) (closed : Bool) (l : List Pt) :
    addOffset set pt m arc closed l (holding g c) = (Out.of (Offset.addOffset c set pt m arc closed l)).bind fun r => .ok (holding g r) := by
  have h := addOffset_prior c.tr ⟨c.pts, [], c.nextOrig⟩ set pt m arc closed l
  rw [show prior c.tr ⟨c.pts, [], c.nextOrig⟩ = c by unfold prior; simp] at h
  unfold addOffset
  rw [h]
  show (Out.of (Offset.addOffset ⟨c.pts, [], c.nextOrig⟩ set pt m arc closed l)).bind _ = _
  cases Offset.addOffset ⟨c.pts, [], c.nextOrig⟩ set pt m arc closed l with
  | none => rfl
  | some r =>
    show Out.ok _ = Out.ok _
    unfold holding prior
    simp

theorem loadOffsets_spec (g : G) (set : BSet) (m : ℝ) {arc : Int} (ha : 1 ≤ arc) (closed : Bool) (as : List (Arg D)) : ∀ (st : Store) (c : Option D)
    (r : (Clipper G × List TCall) × Option (Option D)), loadOffsets promote tracked set m arc closed as (holding g st) c = .ok r →
    (allOf promote as c = none ∧ r.2 = none) ∨
      ∃ ls e st', allOf promote as c = some (ls, e) ∧ r = (holding g st', some e) ∧ Offset.addOffsets set tracked m arc closed ls st = some st' := by
  induction as with
  | nil =>
    intro st c r h
    cases h
    exact .inr ⟨[], c, st, rfl, rfl, rfl⟩
  | cons a as ih =>
    intro st c r h
    unfold loadOffsets at h
    obtain ⟨q, h1, h⟩ := Out.bind_ok h
    unfold loadOffset at h1
    rw [if_neg (by omega)] at h1
    cases a with
    | notArray =>
      cases h1
      cases h
      exact .inl ⟨rfl, rfl⟩
    | array d castable l =>
      simp only [common_joint] at h1
      unfold allOf
      cases hj : joint promote c d with
      | none =>
        rw [hj] at h1
        cases h1
        cases h
        exact .inl ⟨rfl, rfl⟩
      | some e =>
        rw [hj] at h1
        simp only at h1 ⊢
        have next : ∀ st1, q = (holding g st1, some e) → Offset.addOffset st set tracked m arc closed l = some st1 → l = [] ∨ castable = true →
            ((if l = [] ∨ castable = true then (allOf promote as (some e)).map fun q => (l :: q.1, q.2) else none) = none ∧ r.2 = none) ∨
            ∃ ls e' st', (if l = [] ∨ castable = true then (allOf promote as (some e)).map fun q => (l :: q.1, q.2) else none) = some (ls, e') ∧
              r = (holding g st', some e') ∧ Offset.addOffsets set tracked m arc closed ls st = some st' := by
          rintro st1 rfl h2 h3
          rw [if_pos h3]
          rcases ih st1 (some e) r h with ⟨k1, k2⟩ | ⟨ls, e', st', k1, k2, k3⟩
          · exact .inl ⟨by rw [k1]; rfl, k2⟩
          · exact .inr ⟨l :: ls, e', st', by rw [k1]; rfl, k2, by unfold Offset.addOffsets; rw [h2]; exact k3⟩
        by_cases hl : l = []
        · rw [if_pos hl] at h1
          cases h1
          subst hl
          exact next st rfl rfl (.inl rfl)
        · rw [if_neg hl] at h1
          cases castable with
          | false =>
            cases h1
            cases h
            exact .inl ⟨by simp [hl], rfl⟩
          | true =>
            simp only [if_true] at h1
            obtain ⟨s, h2, h1⟩ := Out.bind_ok h1
            cases h1
            rw [addOffset_holding] at h2
            cases h3 : Offset.addOffset st set tracked m arc closed l with
            | none => rw [h3] at h2; cases h2
            | some st1 =>
              rw [h3] at h2
              cases h2
              exact next st1 rfl h3 (.inr rfl)

theorem allOf_more (as : List (Arg D)) : ∀ (d : D) (ls : List (List Pt)), allOf promote as (some d) ≠ some (ls, none) := by
  induction as with
  | nil => intro d ls h; cases h
  | cons a as ih =>
    intro d ls h
    cases a with
    | notArray => cases h
    | array d' castable l =>
      unfold allOf at h
      split at h
      · cases h
      · split at h
        · rename_i e _ _
          cases k : allOf promote as (some e) with
          | none => rw [k] at h; cases h
          | some q =>
            rw [k] at h
            simp only [Option.map_some, Option.some.injEq, Prod.mk.injEq] at h
            exact ih e q.1 (by rw [k, ← h.2])
        · cases h

theorem allOf_some (a : Arg D) (as : List (Arg D)) (c : Option D) (ls : List (List Pt)) : allOf promote (a :: as) c ≠ some (ls, none) := by
  intro h
  cases a with
  | notArray => cases h
  | array d' castable l =>
    unfold allOf at h
    split at h
    · cases h
    · split at h
      · rename_i e _ _
        cases k : allOf promote as (some e) with
        | none => rw [k] at h; cases h
        | some q =>
          rw [k] at h
          simp only [Option.map_some, Option.some.injEq, Prod.mk.injEq] at h
          exact allOf_more promote as e q.1 (by rw [k, ← h.2])
      · cases h

/-- **C80 (`offset`).** A call that ends raises an exception if the type asked for or one of the polygons is not valid, or if the step size is less than one and there are polygons. It returns
an empty tuple if there are no polygons. Otherwise it returns what the C++ function `offset` gives for exactly these polygons, with the type asked for or the common type of the polygons. The
only other case: with a tracker, trees that are not empty raise an exception. -/
theorem C80_offset {g : G} {loops : List (Arg D)} {m : ℝ} {arc : Int} {closed : Bool} {dtype : Option (Option D)} {tree : Bool} {ret : Ret D}
    (h : offsetOp promote P fuel g loops m arc closed dtype tree tracked = .ok ret) :
    match (generalizing := false) dtype, loops with
    | none, _ => ret = .raised
    | some _, [] => ret = .empty
    | some e, a :: as =>
      if arc < 1 then ret = .raised else
      match (generalizing := false) allOf promote (a :: as) none with
      | some (ls, some d) => ∃ st o, Offset.offset P fuel g tracked m arc closed tree ls = .ok (st, o) ∧
          (ret = .result o (e.getD d) ∨ ret = .raised ∧ tracked = true ∧ ∃ t, o.tree = some t ∧ t.top ≠ [])
      | _ => ret = .raised := by
  unfold offsetOp at h
  cases dtype with
  | none => cases h; rfl
  | some e =>
    simp only at h ⊢
    obtain ⟨r, h1, h0⟩ := Out.bind_ok h
    clear h
    rename' h0 => h
    cases loops with
    | nil => cases h1; cases h; rfl
    | cons a as =>
      simp only
      by_cases ha : arc < 1
      · rw [if_pos ha]
        unfold loadOffsets loadOffset at h1
        rw [if_pos ha] at h1
        cases h1
        cases h
        rfl
      · rw [if_neg ha]
        rcases loadOffsets_spec promote tracked g .subject m (by omega) closed (a :: as) ⟨[], [], 0⟩ none r h1 with ⟨k1, k2⟩ | ⟨ls, c, st', k1, rfl, k3⟩
        · rw [k1]
          rw [k2] at h
          cases h
          rfl
        · rw [k1]
          cases c with
          | none => exact absurd k1 (allOf_some promote a as none ls)
          | some d =>
            simp only at h ⊢
            unfold finish at h
            simp only at h
            obtain ⟨⟨st, o⟩, h2, h⟩ := Out.bind_ok h
            refine ⟨st, o, ?_, ?_⟩
            · unfold Offset.offset
              rw [k3]
              exact h2
            · simp only at h
              split at h
              · rename_i hc
                cases h
                unfold convertRaises at hc
                split at hc
                · cases hc
                · rename_i t ht
                  simp only [Bool.and_eq_true, Bool.not_eq_true', List.isEmpty_eq_false_iff] at hc
                  exact .inr ⟨rfl, hc.1.1, t, ht, hc.2⟩
              · cases h
                exact .inl rfl

theorem loadOffsets_ends (g : G) (set : BSet) (m : ℝ) {arc : Int} (ha : 1 ≤ arc) (closed : Bool) (as : List (Arg D)) : ∀ (st : Store) (c : Option D) (ls : List (List Pt)) (e : Option D)
    (st' : Store), allOf promote as c = some (ls, e) → Offset.addOffsets set tracked m arc closed ls st = some st' →
    loadOffsets promote tracked set m arc closed as (holding g st) c = .ok (holding g st', some e) := by
  induction as with
  | nil =>
    intro st c ls e st' h1 h2
    cases h1
    cases h2
    rfl
  | cons a as ih =>
    intro st c ls e st' h1 h2
    cases a with
    | notArray => cases h1
    | array d castable l =>
      unfold allOf at h1
      cases hj : joint promote c d with
      | none => rw [hj] at h1; cases h1
      | some j =>
        rw [hj] at h1
        simp only at h1
        split at h1
        · rename_i hv
          cases hq : allOf promote as (some j) with
          | none => rw [hq] at h1; cases h1
          | some q =>
            rw [hq] at h1
            cases h1
            unfold Offset.addOffsets at h2
            cases ho : Offset.addOffset st set tracked m arc closed l with
            | none => rw [ho] at h2; cases h2
            | some st1 =>
              rw [ho] at h2
              have key : loadOffset promote tracked set m arc closed (holding g st) c (.array d castable l) = .ok (holding g st1, some j) := by
                unfold loadOffset
                rw [if_neg (by omega)]
                simp only [common_joint, hj]
                by_cases hl : l = []
                · subst hl
                  cases ho
                  rw [if_pos rfl]
                · rw [if_neg hl, if_pos (hv.resolve_left hl), addOffset_holding, ho]
                  rfl
              unfold loadOffsets
              rw [key]
              exact ih st1 (some j) q.1 q.2 st' hq h2
        · cases h1

/-- **C80 (calls with valid arguments end).** If all arguments are valid and the C++ function ends without error, so does the call, with its result. -/
theorem C80_ends {g : G} {loops : List (Arg D)} {m : ℝ} {arc : Int} (ha : 1 ≤ arc) {closed : Bool} {e : Option D} {tree : Bool} {ls : List (List Pt)} {d : D}
    (h1 : allOf promote loops none = some (ls, some d)) {st : Clipper G × List TCall} {o : Output} (h2 : Offset.offset P fuel g tracked m arc closed tree ls = .ok (st, o))
    (h3 : tracked = false ∨ tree = false) : offsetOp promote P fuel g loops m arc closed (some e) tree tracked = .ok (.result o (e.getD d)) := by
  unfold Offset.offset at h2
  cases ho : Offset.addOffsets .subject tracked m arc closed ls ⟨[], [], 0⟩ with
  | none => rw [ho] at h2; cases h2
  | some st' =>
    rw [ho] at h2
    unfold offsetOp
    simp only
    have := loadOffsets_ends promote tracked g .subject m ha closed loops ⟨[], [], 0⟩ none ls (some d) st' h1 ho
    rw [show (Clipper.fresh g, ([] : List TCall)) = holding g ⟨[], [], 0⟩ from rfl, this]
    show finish P fuel tracked (some .union) e tree (holding g st') (some d) = _
    unfold finish
    simp only
    have h2 : Clipper.execute P fuel .union tree (holding g st') = .ok (st, o) := h2
    rw [h2]
    show (if convertRaises tracked o then _ else _) = _
    rw [if_neg]
    unfold convertRaises
    rcases h3 with rfl | rfl
    · split <;> simp
    · have := untree P fuel h2
      simp only at this
      rw [this]; simp

end

/-! ### Cases -/

/-- A square with a hole, given as arrays of different types and with an empty array. -/
example : ∃ o, offsetOp larger lib 500 gen [.array 3 true (holed.getD 0 []), .array 1 false [], .array 5 true (holed.getD 1 [])] 20 100 true (some none) false false = .ok (.result o 5) ∧
    wind (o.loops.flatMap edges) 93 100 = 0 := by
  have : allOf larger [.array 3 true (holed.getD 0 []), .array 1 false [], .array 5 true (holed.getD 1 [])] none =
      some ([holed.getD 0 [], [], holed.getD 1 []], some 5) := by decide +kernel
  obtain ⟨st, out, h1, -, h2⟩ := C62_grow_wrong
  have h1 : Offset.offset lib 500 gen false 20 100 true false [holed.getD 0 [], [], holed.getD 1 []] = .ok (st, ⟨out, none⟩) := h1
  exact ⟨_, C80_ends larger lib 500 false (by norm_num) (e := none) this h1 (.inl rfl), h2⟩

/-- The step size is only looked at if there are polygons. -/
example : offsetOp larger lib 500 gen [.array 3 true [⟨0, 0⟩]] 20 0 true (some none) false false = .ok .raised ∧
    offsetOp larger lib 500 gen [] 20 0 true (some none) false false = .ok .empty := ⟨rfl, rfl⟩

end PolyOps.PyClipper
