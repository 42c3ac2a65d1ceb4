import Verif.Model.PyFuncs
import Verif.Props.PyClipper
import Verif.Props.NpyIter

/-! C78: the functions of the Python binding. -/
namespace PolyOps.PyClipper
open PolyOps PolyOps.Clipper PolyOps.PointSink

/-! ### Proof -/

section
variable {G D : Type} (promote : D → D → Option D) (P : Params G) (fuel : Nat) (tracked : Bool)

theorem loadLoop_keeps {k : BSet} {s : Clipper G × List TCall} {c : Option D} {a : Arg D} {r : (Clipper G × List TCall) × Option D} (hr : s.1.ran = false)
    (h : loadLoop promote tracked k s c a = .ok r) : r.1.1.ran = false ∧ r.1.1.rgen = s.1.rgen := by
  cases a with
  | notArray => cases h; exact ⟨hr, rfl⟩
  | array d castable l =>
    unfold loadLoop at h
    simp only at h
    split at h
    · cases h; exact ⟨hr, rfl⟩
    · split at h
      · cases h; exact ⟨hr, rfl⟩
      · split at h
        · obtain ⟨s', ha, h⟩ := Out.bind_ok h
          cases h
          exact add_keeps tracked hr ha
        · cases h; exact ⟨hr, rfl⟩

theorem loadLoops_keeps {k : BSet} (as : List (Arg D)) : ∀ {s : Clipper G × List TCall} {c : Option D} {r : (Clipper G × List TCall) × Option (Option D)}, s.1.ran = false →
    loadLoops promote tracked k as s c = .ok r → r.1.1.ran = false ∧ r.1.1.rgen = s.1.rgen := by
  induction as with
  | nil => intro s c r hr h; cases h; exact ⟨hr, rfl⟩
  | cons a as ih =>
    intro s c r hr h
    unfold loadLoops at h
    obtain ⟨q, e, h⟩ := Out.bind_ok h
    obtain ⟨h1, h2⟩ := loadLoop_keeps promote tracked hr e
    split at h
    · cases h; exact ⟨h1, h2⟩
    · obtain ⟨h3, h4⟩ := ih h1 h
      exact ⟨h3, h4.trans h2⟩

theorem exec_run {s s1 st : Clipper G × List TCall} {rs : List (Option Output)} (cs : List Cmd) {op : BoolOp} {tree : Bool} {o : Output}
    (h : Clipper.run P fuel cs s = .ok (s1, rs)) (h' : Clipper.execute P fuel op tree s1 = .ok (st, o)) :
    Clipper.run P fuel (cs ++ [.exec op tree]) s = .ok (st, rs ++ [some o]) := by
  induction cs generalizing s rs with
  | nil =>
    cases h
    show ((Clipper.execute P fuel op tree s1).bind _).bind _ = _
    rw [h']
    rfl
  | cons c cs ih =>
    obtain ⟨r, e1, h⟩ := Out.bind_ok h
    obtain ⟨q, e2, h⟩ := Out.bind_ok h
    cases h
    show (Clipper.step P fuel s c).bind _ = _
    rw [e1]
    show (Clipper.run P fuel (cs ++ _) r.1).bind _ = _
    rw [ih e2]
    rfl

/-- How a call ends in which all polygons were valid. -/
def Ends (g : G) (polys : List (BSet × List Pt)) (c : Option D) (op : Option BoolOp) (e : Option D) (tree : Bool) (ret : Ret D) : Prop :=
  match c, op with
  | none, _ => ret = .empty
  | some _, none => ret = .raised
  | some d, some op => ∃ st rs o, Clipper.run P fuel (adds tracked polys ++ [.exec op tree]) (Clipper.fresh g, []) = .ok (st, rs ++ [some o]) ∧
    (ret = .result o (e.getD d) ∨ ret = .raised ∧ tracked = true ∧ ∃ t, o.tree = some t ∧ t.top ≠ [])

theorem finish_spec {polys : List (BSet × List Pt)} {s : Clipper G × List TCall} (hl : Loaded P fuel tracked polys s) {c : Option D} {op : Option BoolOp} {e : Option D}
    {tree : Bool} {ret : Ret D} (h : finish P fuel tracked op e tree s c = .ok ret) : Ends P fuel tracked s.1.rgen polys c op e tree ret := by
  unfold finish at h
  unfold Ends
  cases c with
  | none => cases h; rfl
  | some d =>
    cases op with
    | none => cases h; rfl
    | some op =>
      obtain ⟨⟨st, o⟩, h1, h⟩ := Out.bind_ok h
      obtain ⟨-, c0, rs, h2, h3⟩ := hl
      rw [execute_strip, h3, ← execute_strip P fuel op tree (c0, s.2)] at h1
      refine ⟨st, rs, o, exec_run P fuel _ h2 h1, ?_⟩
      simp only at h
      split at h
      · rename_i hc
        cases h
        unfold convertRaises at hc
        split at hc
        · cases hc
        · rename_i t ht
          simp only [Bool.and_eq_true, Bool.not_eq_true', List.isEmpty_eq_false_iff] at hc
          exact .inr ⟨rfl, hc.1.1, t, ht, hc.2⟩
      · cases h
        exact .inl rfl

theorem fresh_loaded (g : G) : Loaded P fuel tracked [] (Clipper.fresh g, []) := ⟨rfl, _, _, rfl, rfl⟩

/-- **C78 (`union`, `normalize`).** A call that ends raises an exception if the type asked for or one of the polygons is not valid, and returns an empty tuple if there are none. Otherwise
it returns what a new C++ object gives for exactly these polygons, with the type asked for or the common type of the polygons. The only other case: with a tracker, trees that are not empty raise an exception. -/
theorem C78_unary_partial {g : G} {op : BoolOp} {loops : List (Arg D)} {dtype : Option (Option D)} {tree : Bool} {ret : Ret D}
    (h : unaryOp promote P fuel g op loops dtype tree tracked = .ok ret) :
    match dtype, allOf promote loops none with
    | some e, some (ls, c) => Ends P fuel tracked g (ls.map fun l => (.subject, l)) c (some op) e tree ret
    | _, _ => ret = .raised := by
  unfold unaryOp at h
  cases dtype with
  | none => cases h; rfl
  | some e =>
    simp only at h ⊢
    obtain ⟨r, h1, h⟩ := Out.bind_ok h
    obtain ⟨-, hg⟩ := loadLoops_keeps promote tracked loops rfl h1
    rcases loadLoops_spec promote P fuel tracked loops (fresh_loaded P fuel tracked g) h1 with ⟨h2, h3⟩ | ⟨ls, c, h2, h3, h4⟩
    · rw [h2]
      rw [h3] at h
      cases h
      rfl
    · rw [h2]
      rw [h3] at h
      have := finish_spec P fuel tracked h4 h
      rw [hg] at this
      exact this

/-- **C78 (`boolean_op`).** The same for `boolean_op`; it also raises an exception if the operation is not valid, unless there are no polygons. -/
theorem C78_boolean_partial {g : G} {subject clip : List (Arg D)} {op : Option BoolOp} {dtype : Option (Option D)} {tree : Bool} {ret : Ret D}
    (h : booleanOp promote P fuel g subject clip op dtype tree tracked = .ok ret) :
    match dtype, allOf promote subject none with
    | some e, some (ls, c) =>
      (match allOf promote clip c with
      | some (lc, c) => Ends P fuel tracked g ((ls.map fun l => (.subject, l)) ++ lc.map fun l => (.clip, l)) c op e tree ret
      | none => ret = .raised)
    | _, _ => ret = .raised := by
  unfold booleanOp at h
  cases dtype with
  | none => cases h; rfl
  | some e =>
    simp only at h ⊢
    obtain ⟨r, h1, h⟩ := Out.bind_ok h
    obtain ⟨hr, hg⟩ := loadLoops_keeps promote tracked subject rfl h1
    rcases loadLoops_spec promote P fuel tracked subject (fresh_loaded P fuel tracked g) h1 with ⟨h2, h3⟩ | ⟨ls, c, h2, h3, h4⟩
    · rw [h2]
      rw [h3] at h
      cases h
      rfl
    · rw [h2]
      rw [h3] at h
      simp only at h ⊢
      obtain ⟨r', h1', h⟩ := Out.bind_ok h
      obtain ⟨-, hg'⟩ := loadLoops_keeps promote tracked clip hr h1'
      rcases loadLoops_spec promote P fuel tracked clip h4 h1' with ⟨h5, h6⟩ | ⟨lc, c', h5, h6, h7⟩
      · rw [h5]
        rw [h6] at h
        cases h
        rfl
      · rw [h5]
        rw [h6] at h
        have := finish_spec P fuel tracked h7 h
        rw [hg', hg] at this
        exact this

end

/-- **C78 (`winding_dir`).** For every layout of the array, also those of which not all points are read, it is twice the area of the polygon whose vertices are the rows. -/
theorem C78_winding (load : Int → Int) (ptr s0 s1 : Int) (n : Nat) :
    pyWindingDir load ptr s0 s1 n = some (windingDir ((List.range n).map fun (i : Nat) => ⟨load (ptr + (i : Int) * s0), load (ptr + (i : Int) * s0 + s1)⟩)) := by
  unfold pyWindingDir
  by_cases hn : n = 0
  · subst hn; rfl
  rw [if_neg hn]
  by_cases hs : s1 ≠ 0 ∨ s0 ≠ 0 ∨ n = 1
  · rw [Npy.C76_read_partial load (by omega) hs le_rfl]; rfl
  · have h1 : s1 = 0 := by by_contra c; exact hs (.inl c)
    have h0 : s0 = 0 := by by_contra c; exact hs (.inr (.inl c))
    subst h0 h1
    obtain ⟨k, rfl⟩ : ∃ k, n = k + 1 := ⟨n - 1, by omega⟩
    rw [Npy.C76_broadcast load ptr k]
    simp only [mul_zero, add_zero, Option.map_some, Option.some.injEq]
    have : ∀ (p : Pt) (l : List Nat) (s : WindSink), s.first = p → s.prev = p → s.r = 0 → ((l.map fun _ => p).foldl WindSink.put s).close = 0 := by
      intro p l
      induction l with
      | nil => intro s h1 h2 h3; simp [WindSink.close, h1, h2, h3]
      | cons a l ih =>
        intro s h1 h2 h3
        refine ih _ h1 rfl ?_
        simp [WindSink.put, h2, h3]
    rw [List.range_succ_eq_map, List.map_cons, List.map_map]
    show _ = ((List.map (fun _ => (⟨load ptr, load ptr⟩ : Pt)) (List.range k)).foldl WindSink.put (WindSink.init ⟨load ptr, load ptr⟩)).close
    rw [this ⟨load ptr, load ptr⟩ (List.range k) (WindSink.init ⟨load ptr, load ptr⟩) rfl rfl rfl]
    simp [windingDir, WindSink.close, WindSink.init]

/-! ### Cases -/

def shownOne : Out (Ret Nat) → Option Shown
  | .ok q => some q.shown
  | _ => none

/-- A difference; an operation that is not valid, with and without polygons; a polygon that is not valid. -/
example : shownOne (booleanOp larger lib 100 gen [.array 3 true tri, .array 1 true []] [.array 5 true tri2] (some .difference) (some none) false false) = some (.result [[⟨0, 0⟩, ⟨4, 0⟩, ⟨0, 4⟩]] 5) ∧
    shownOne (booleanOp larger lib 100 gen [.array 3 true tri] [] none (some none) false true) = some .raised ∧
    shownOne (booleanOp larger lib 100 gen [] [] none (some none) false true) = some .empty ∧
    shownOne (booleanOp larger lib 100 gen [.array 3 true tri] [.array 3 true tri2, .notArray] (some .union) (some (some 9)) true false) = some .raised ∧
    shownOne (unaryOp larger lib 100 gen .union [.array 3 true tri] (some (some 9)) true false) = some (.result [[⟨0, 0⟩, ⟨4, 0⟩, ⟨0, 4⟩]] 9) := by decide +kernel

/-- **C78 is wrong** for trees with a tracker: the union of one triangle raises an exception. -/
theorem C78_tree_raises : shownOne (unaryOp larger lib 100 gen .union [.array 3 true tri] (some none) true true) = some .raised := by decide +kernel

example : pyWindingDir Npy.cells 0 0 0 3 = some 0 ∧ pyWindingDir (fun a => [0, 0, 4, 0, 0, 4].getD a.toNat 0) 0 2 1 3 = some 16 ∧
    pyWindingDir (fun a => [0, 0, 4, 0, 0, 4].getD a.toNat 0) 4 (-2) 1 3 = some (-16) := by decide +kernel

end PolyOps.PyClipper
