import Verif.Props.RasterWind
/-! C40: the bound on steps is not observable, and two inputs on which the sweep of the rasteriser goes wrong. -/
namespace PolyOps.Raster
open PolyOps.Events

deriving instance DecidableEq for Res

/-- The result with less fuel: out of fuel or the same. -/
def Res.Below {α : Type} (a b : Res α) : Prop := a = .fuel ∨ a = b

theorem Res.Below.refl {α : Type} (a : Res α) : a.Below a := Or.inr rfl

theorem Res.Below.bind {α β : Type} {a b : Res α} {k k' : α → Res β} (h : a.Below b) (hk : ∀ x, (k x).Below (k' x)) :
    (a.bind k).Below (b.bind k') := by
  rcases h with rfl | rfl
  · exact Or.inl rfl
  · cases a with
    | ok x => exact hk x
    | ub => exact Or.inr rfl
    | fuel => exact Or.inl rfl

theorem checkAfter_below (E : Env) (g : Nat) (y : IntrY) (r r' : Nat → Nat → St → Res St) (h : ∀ a b s, (r a b s).Below (r' a b s))
    (s1 s2 : Nat) (st : St) : (checkAfter E g y r s1 s2 st).Below (checkAfter E g y r' s1 s2 st) := by
  unfold checkAfter
  split
  · exact .refl _
  · split
    · exact .refl _
    · split
      · split
        · exact h _ _ _
        · exact .refl _
      · exact .refl _

theorem swapAndCheck_below (E : Env) (g : Nat) (y : IntrY) : ∀ (f s1 s2 : Nat) (st : St),
    (swapAndCheck E g y f s1 s2 st).Below (swapAndCheck E g y (f + 1) s1 s2 st) := by
  intro f
  induction f with
  | zero => intro _ _ _; exact Or.inl rfl
  | succ f ih =>
    intro s1 s2 st
    conv_lhs => unfold swapAndCheck
    conv_rhs => unfold swapAndCheck
    split
    · split
      · exact .refl _
      · refine Res.Below.bind ?_ ?_
        · split
          · exact .refl _
          · exact checkAfter_below _ _ _ _ _ ih _ _ _
        · intro x
          split
          · exact .refl _
          · exact checkAfter_below _ _ _ _ _ ih _ _ _
    · exact .refl _

theorem swapPhase_below (E : Env) (y : Int) : ∀ (f : Nat) (st : St), (swapPhase E y f st).Below (swapPhase E y (f + 1) st) := by
  intro f
  induction f with
  | zero => intro _; exact Or.inl rfl
  | succ f ih =>
    intro st
    conv_lhs => unfold swapPhase
    conv_rhs => unfold swapPhase
    split
    · split
      · exact Res.Below.bind (swapAndCheck_below _ _ _ _ _ _ _) fun x => ih _
      · exact .refl _
    · exact .refl _

theorem backwardPhase_below (E : Env) (y : Int) : ∀ (f : Nat) (st : St), (backwardPhase E y f st).Below (backwardPhase E y (f + 1) st) := by
  intro f
  induction f with
  | zero => intro _; exact Or.inl rfl
  | succ f ih =>
    intro st
    conv_lhs => unfold backwardPhase
    conv_rhs => unfold backwardPhase
    split
    · split
      · exact Res.Below.bind (.refl _) fun x => ih _
      · exact .refl _
    · exact .refl _

theorem forwardPhase_below (E : Env) (y : Int) : ∀ (f : Nat) (st : St), (forwardPhase E y f st).Below (forwardPhase E y (f + 1) st) := by
  intro f
  induction f with
  | zero => intro _; exact Or.inl rfl
  | succ f ih =>
    intro st
    conv_lhs => unfold forwardPhase
    conv_rhs => unfold forwardPhase
    split
    · split
      · exact Res.Below.bind (.refl _) fun x => ih _
      · exact .refl _
    · exact .refl _

theorem doRow_below (E : Env) (y : Int) (f : Nat) (st : St) : (doRow E y f st).Below (doRow E y (f + 1) st) := by
  unfold doRow
  exact Res.Below.bind (swapPhase_below _ _ _ _) fun x => Res.Below.bind (backwardPhase_below _ _ _ _) fun x =>
    forwardPhase_below _ _ _ _

theorem rows_below (E : Env) (h : Int) : ∀ (f : Nat) (y : Int) (st : St), (rows E h f y st).Below (rows E h (f + 1) y st) := by
  intro f
  induction f with
  | zero => intro _ _; exact Or.inl rfl
  | succ f ih =>
    intro y st
    conv_lhs => unfold rows
    conv_rhs => unfold rows
    split
    · exact Res.Below.bind (doRow_below _ _ _ _) fun x => Res.Below.bind (ih _ _) fun x => .refl _
    · exact .refl _

theorem below_add {α : Type} (r : Nat → Res α) (h : ∀ f, (r f).Below (r (f + 1))) (f n : Nat) : (r f).Below (r (f + n)) := by
  induction n with
  | zero => exact .refl _
  | succ n ih =>
    rcases ih with ih | ih
    · exact Or.inl ih
    · rcases h (f + n) with h | h
      · exact Or.inl (ih.trans h)
      · exact Or.inr (ih.trans h)

/-- C40: the result of a scan that ends is the same whatever bound on the steps it is run with. -/
theorem C40_bound_free (l : LPts) (realloc : Nat → Bool) (orc : Nat → Place) (h : Int) (f f' : Nat) (hf : f ≤ f')
    (hr : scanRows l realloc orc h f ≠ .fuel) : scanRows l realloc orc h f' = scanRows l realloc orc h f := by
  obtain ⟨n, rfl⟩ : ∃ n, f' = f + n := ⟨f' - f, by omega⟩
  rcases below_add (fun f => scanRows l realloc orc h f) (fun f => rows_below _ _ _ _ _) f n with h | h
  · exact absurd h hr
  · exact h.symm

/-! ### Three lines through one place -/

/-- A loop with three sides through (4,4). -/
def star : List (List Pt) := [[⟨0, 0⟩, ⟨8, 8⟩, ⟨4, 8⟩, ⟨4, 0⟩, ⟨8, 0⟩, ⟨0, 8⟩]]
/-- Where the tree puts the four lines that are not horizontal: from right to left. -/
def starOrc : Nat → Place := fun _ => ordPlace (edges (addLoops star))
def starEnv : Env := envOf (addLoops star) (fun _ => false)
/-- The height of the crossing. -/
def starY : IntrY := ⟨4, ⟨0, 64, by decide⟩⟩

theorem star_pair : ∀ a ∈ [0, 1, 2], ∀ b ∈ [0, 1, 2], a ≠ b → ∃ iy, isect (starEnv.seg a) (starEnv.seg b) = some iy ∧
    (iy.cmp starY != .lt) = true ∧ iy.eq starY = true := by
  have h : ∀ a ∈ [0, 1, 2], ∀ b ∈ [0, 1, 2], a ≠ b → (match isect (starEnv.seg a) (starEnv.seg b) with
      | none => false
      | some iy => (iy.cmp starY != .lt) && iy.eq starY) = true := by decide +kernel
  intro a ha b hb hab
  have := h a ha b hb hab
  cases hi : isect (starEnv.seg a) (starEnv.seg b) with
  | none => rw [hi] at this; cases this
  | some iy =>
    rw [hi] at this
    simp only [Bool.and_eq_true] at this
    exact ⟨iy, rfl, this.1, this.2⟩

theorem star_check (again : Nat → Nat → St → Res St) (a b : Nat) (ha : a ∈ [0, 1, 2]) (hb : b ∈ [0, 1, 2]) (hab : a ≠ b) (st : St) :
    checkAfter starEnv st.gen starY again a b st = again a b st := by
  obtain ⟨iy, h1, h2, h3⟩ := star_pair a ha b hb hab
  unfold checkAfter
  rw [h1]
  simp only [ne_eq, not_true_eq_false, if_false, h2, h3, if_true]

/-- One swap that is followed by another. -/
theorem star_step (f s1 s2 : Nat) (st : St) (l' : List Nat) (h1 : s1 ∈ st.sweep) (h2 : s2 ∈ st.sweep)
    (hn : nextOf st.sweep s1 = some s2) (hl : insertBefore (st.sweep.erase s2) s1 s2 = l') :
    (∀ p, prevOf l' s2 = some p → p ∈ [0, 1, 2] → s2 ∈ [0, 1, 2] → p ≠ s2 →
      swapAndCheck starEnv st.gen starY f p s2 { st with sweep := l' } = .fuel →
      swapAndCheck starEnv st.gen starY (f + 1) s1 s2 st = .fuel) ∧
    (prevOf l' s2 = none → ∀ n, nextOf l' s1 = some n → n ∈ [0, 1, 2] → s1 ∈ [0, 1, 2] → s1 ≠ n →
      swapAndCheck starEnv st.gen starY f s1 n { st with sweep := l' } = .fuel →
      swapAndCheck starEnv st.gen starY (f + 1) s1 s2 st = .fuel) := by
  constructor
  · intro p hp hp3 hs3 hne hrec
    conv_lhs => unfold swapAndCheck
    rw [if_pos ⟨h1, h2⟩, hn]
    simp only [ne_eq, not_true_eq_false, if_false, hl, hp]
    rw [star_check _ p s2 hp3 hs3 hne { st with sweep := l' }, hrec]
    rfl
  · intro hp n hnx hn3 hs3 hne hrec
    conv_lhs => unfold swapAndCheck
    rw [if_pos ⟨h1, h2⟩, hn]
    simp only [ne_eq, not_true_eq_false, if_false, hl, hp, Res.bind, hnx]
    rw [star_check _ s1 n hs3 hn3 hne { st with sweep := l' }, hrec]

/-- The six swaps that follow each other for ever. -/
theorem star_cycle (f : Nat) : ∀ st : St,
    (st.sweep = [2, 1, 0, 3] → swapAndCheck starEnv st.gen starY f 1 0 st = .fuel) ∧
    (st.sweep = [2, 0, 1, 3] → swapAndCheck starEnv st.gen starY f 2 0 st = .fuel) ∧
    (st.sweep = [0, 2, 1, 3] → swapAndCheck starEnv st.gen starY f 2 1 st = .fuel) ∧
    (st.sweep = [0, 1, 2, 3] → swapAndCheck starEnv st.gen starY f 0 1 st = .fuel) ∧
    (st.sweep = [1, 0, 2, 3] → swapAndCheck starEnv st.gen starY f 0 2 st = .fuel) ∧
    (st.sweep = [1, 2, 0, 3] → swapAndCheck starEnv st.gen starY f 1 2 st = .fuel) := by
  induction f with
  | zero => intro st; exact ⟨fun _ => rfl, fun _ => rfl, fun _ => rfl, fun _ => rfl, fun _ => rfl, fun _ => rfl⟩
  | succ f ih =>
    intro st
    refine ⟨?_, ?_, ?_, ?_, ?_, ?_⟩ <;> intro h
    · exact (star_step f 1 0 st [2, 0, 1, 3] (by rw [h]; decide) (by rw [h]; decide) (by rw [h]; decide) (by rw [h]; decide)).1
        2 (by decide) (by decide) (by decide) (by decide) ((ih { st with sweep := [2, 0, 1, 3] }).2.1 rfl)
    · exact (star_step f 2 0 st [0, 2, 1, 3] (by rw [h]; decide) (by rw [h]; decide) (by rw [h]; decide) (by rw [h]; decide)).2
        (by decide) 1 (by decide) (by decide) (by decide) (by decide) ((ih { st with sweep := [0, 2, 1, 3] }).2.2.1 rfl)
    · exact (star_step f 2 1 st [0, 1, 2, 3] (by rw [h]; decide) (by rw [h]; decide) (by rw [h]; decide) (by rw [h]; decide)).1
        0 (by decide) (by decide) (by decide) (by decide) ((ih { st with sweep := [0, 1, 2, 3] }).2.2.2.1 rfl)
    · exact (star_step f 0 1 st [1, 0, 2, 3] (by rw [h]; decide) (by rw [h]; decide) (by rw [h]; decide) (by rw [h]; decide)).2
        (by decide) 2 (by decide) (by decide) (by decide) (by decide) ((ih { st with sweep := [1, 0, 2, 3] }).2.2.2.2.1 rfl)
    · exact (star_step f 0 2 st [1, 2, 0, 3] (by rw [h]; decide) (by rw [h]; decide) (by rw [h]; decide) (by rw [h]; decide)).1
        1 (by decide) (by decide) (by decide) (by decide) ((ih { st with sweep := [1, 2, 0, 3] }).2.2.2.2.2 rfl)
    · exact (star_step f 1 2 st [2, 1, 0, 3] (by rw [h]; decide) (by rw [h]; decide) (by rw [h]; decide) (by rw [h]; decide)).2
        (by decide) 0 (by decide) (by decide) (by decide) (by decide) ((ih { st with sweep := [2, 1, 0, 3] }).1 rfl)

/-- The state before row 4. -/
def starSt : Res St := (doRow starEnv 0 20 (initSt starEnv starOrc)).bind fun st => (doRow starEnv 1 20 st).bind fun st =>
  (doRow starEnv 2 20 st).bind fun st => doRow starEnv 3 20 st

theorem star_before : ∃ st, starSt = .ok st ∧ st.sweep = [2, 1, 0, 3] ∧ st.q.current = some (.swap 1 0 starY) := by
  have h : (match starSt with
      | .ok st => decide (st.sweep = [2, 1, 0, 3]) && decide (st.q.current = some (.swap 1 0 starY))
      | _ => false) = true := by decide +kernel
  cases hs : starSt with
  | ok st =>
    rw [hs] at h
    simp only [Bool.and_eq_true, decide_eq_true_eq] at h
    exact ⟨st, rfl, h.1, h.2⟩
  | ub => rw [hs] at h; cases h
  | fuel => rw [hs] at h; cases h

theorem bind_ok {α β : Type} {r : Res α} {k : α → Res β} {b : β} (h : r.bind k = .ok b) : ∃ a, r = .ok a ∧ k a = .ok b := by
  cases r with
  | ok a => exact ⟨a, rfl, h⟩
  | ub => cases h
  | fuel => cases h

theorem doRow_more {E : Env} {y : Int} {f n : Nat} {st st' : St} (h : doRow E y f st = .ok st') : doRow E y (f + n) st = .ok st' := by
  rcases below_add (fun f => doRow E y f st) (fun f => doRow_below _ _ _ _) f n with hb | hb
  · rw [h] at hb; cases hb
  · rw [← hb, h]

theorem rows_more_fuel {E : Env} {h y : Int} {f : Nat} {st st' : St} (hc : st.q.current.isSome = true) (hy : y < h)
    (hd : doRow E y f st = .ok st') (hr : rows E h f (y + 1) st' = .fuel) : rows E h (f + 1) y st = .fuel := by
  unfold rows
  rw [if_pos ⟨hc, hy⟩, hd]
  show (rows E h f (y + 1) st').bind _ = _
  rw [hr]; rfl

/-- C40: the code recurses without end on a loop with three sides that cross in one place: the scan of `star` does not end,
whatever bound on the steps it is given. The lines are in the right order until the crossing (`star_before`). -/
theorem C40_concurrent_diverges (f : Nat) : scanRows (addLoops star) (fun _ => false) starOrc 9 f = .fuel := by
  by_contra hne
  have hbig := C40_bound_free _ _ _ _ f (f + 30) (by omega) hne
  rw [← hbig] at hne
  apply hne
  obtain ⟨st, hs, hsw, hcur⟩ := star_before
  unfold starSt at hs
  obtain ⟨s1, h1, hs⟩ := bind_ok hs
  obtain ⟨s2, h2, hs⟩ := bind_ok hs
  obtain ⟨s3, h3, h4⟩ := bind_ok hs
  have c0 : (initSt starEnv starOrc).q.current.isSome = true := by decide +kernel
  have hy0 : firstRow starEnv (initSt starEnv starOrc) = 0 := by decide +kernel
  have cs : (match doRow starEnv 0 20 (initSt starEnv starOrc) with
      | .ok a => a.q.current.isSome && (match doRow starEnv 1 20 a with
        | .ok b => b.q.current.isSome && (match doRow starEnv 2 20 b with
          | .ok c => c.q.current.isSome
          | _ => false)
        | _ => false)
      | _ => false) = true := by decide +kernel
  rw [h1] at cs
  simp only [h2, h3, Bool.and_eq_true] at cs
  have e1 : doRow starEnv 0 (f + 29) (initSt starEnv starOrc) = .ok s1 := by
    rw [show f + 29 = 20 + (f + 9) by omega]; exact doRow_more h1
  have e2 : doRow starEnv (0 + 1) (f + 28) s1 = .ok s2 := by
    rw [show f + 28 = 20 + (f + 8) by omega]; exact doRow_more h2
  have e3 : doRow starEnv (0 + 1 + 1) (f + 27) s2 = .ok s3 := by
    rw [show f + 27 = 20 + (f + 7) by omega]; exact doRow_more h3
  have e4 : doRow starEnv (0 + 1 + 1 + 1) (f + 26) s3 = .ok st := by
    rw [show f + 26 = 20 + (f + 6) by omega]; exact doRow_more h4
  show rows starEnv 9 (f + 30) (firstRow starEnv (initSt starEnv starOrc)) (initSt starEnv starOrc) = .fuel
  rw [hy0]
  refine rows_more_fuel c0 (by decide) e1 (rows_more_fuel cs.1 (by decide) e2 (rows_more_fuel cs.2.1 (by decide) e3
    (rows_more_fuel cs.2.2 (by decide) e4 ?_)))
  show rows starEnv 9 (f + 26) 4 st = .fuel
  have hsp : swapPhase starEnv 4 (f + 25) st = .fuel := by
    rw [show f + 25 = (f + 24) + 1 by omega]
    unfold swapPhase
    rw [hcur]
    simp only
    rw [if_pos (by decide), (star_cycle (f + 24) st).1 hsw]
    rfl
  rw [show f + 26 = (f + 25) + 1 by omega]
  unfold rows
  rw [if_pos ⟨by rw [hcur]; rfl, by decide⟩]
  unfold doRow
  rw [hsp]
  rfl

/-! ### Reallocation -/

/-- A loop with four sides: eight events, which fill the storage of a vector that doubles. -/
def quad : List (List Pt) := [[⟨8, 0⟩, ⟨4, 4⟩, ⟨0, 0⟩, ⟨6, 4⟩]]
/-- Where the tree puts the lines: from right to left. -/
def quadOrc : Nat → Place := fun _ => ordPlace (edges (addLoops quad))

/-- C40: the code reads a reference into storage that was freed. When a line is added to the tree and crosses the line
before it, the swap event may be appended to full storage; the line after it is then compared using `e`, which refers to the
old storage (polydraw.hpp:672-683). With storage that doubles this happens for `quad`; without reallocation the scan ends. -/
theorem C40_dangling : scanRows (addLoops quad) (fun n => n &&& (n - 1) == 0) quadOrc 9 20 = .ub ∧
    scanRows (addLoops quad) (fun _ => false) quadOrc 9 20 =
      .ok [(0, [3, 0, 2, 1]), (1, [3, 0, 2, 1]), (2, [3, 0, 2, 1]), (3, [3, 0, 2, 1]), (4, [])] := by
  decide +kernel

/-- A square: the hypotheses of the theorems on rows hold. -/
example : scanRows (addLoops [[⟨1, 1⟩, ⟨5, 1⟩, ⟨5, 3⟩, ⟨1, 3⟩]]) (fun _ => false) (fun _ _ _ _ => 0) 9 20 =
    .ok [(1, [0, 1]), (2, [0, 1]), (3, [])] := by decide +kernel

example : RightToLeft (crossings (addLoops [[⟨1, 1⟩, ⟨5, 1⟩, ⟨5, 3⟩, ⟨1, 3⟩]]) (edges (addLoops [[⟨1, 1⟩, ⟨5, 1⟩, ⟨5, 3⟩, ⟨1, 3⟩]])) 2 [0, 1]) := by
  have h : (crossings (addLoops [[⟨1, 1⟩, ⟨5, 1⟩, ⟨5, 3⟩, ⟨1, 3⟩]]) (edges (addLoops [[⟨1, 1⟩, ⟨5, 1⟩, ⟨5, 3⟩, ⟨1, 3⟩]])) 2 [0, 1]).map
      (fun c => (c.x.num, c.x.den)) = [(10, 2), (2, 2)] := by decide +kernel
  generalize crossings (addLoops [[⟨1, 1⟩, ⟨5, 1⟩, ⟨5, 3⟩, ⟨1, 3⟩]]) (edges (addLoops [[⟨1, 1⟩, ⟨5, 1⟩, ⟨5, 3⟩, ⟨1, 3⟩]])) 2 [0, 1] = cs at h
  rcases cs with _ | ⟨a, _ | ⟨b, _ | ⟨c, cs⟩⟩⟩
  · simp at h
  · simp at h
  · simp only [List.map_cons, List.map_nil, List.cons.injEq, Prod.mk.injEq, and_true] at h
    simp only [RightToLeft, List.pairwise_cons, List.mem_singleton, forall_eq, List.not_mem_nil, false_implies, implies_true,
      List.Pairwise.nil, and_true, Frac.val, h]
    norm_num
  · simp at h

/-- The winding number of a square around a place inside it and beside it. -/
example : winding [[⟨1, 1⟩, ⟨5, 1⟩, ⟨5, 3⟩, ⟨1, 3⟩]] 2 3 = 1 ∧ winding [[⟨1, 1⟩, ⟨5, 1⟩, ⟨5, 3⟩, ⟨1, 3⟩]] 2 0 = 0 := by
  decide +kernel

end PolyOps.Raster
