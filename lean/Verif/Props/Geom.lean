import Verif.Model.Geom
import Mathlib.Tactic.Ring
import Mathlib.Tactic.Linarith
import Mathlib.Tactic.LinearCombination
import Mathlib.Tactic.FieldSimp
import Mathlib.Tactic.Positivity
import Mathlib.Tactic.Push
import Mathlib.Data.List.Rotate

/-! Properties C13 to C17: orientation, polygon area, segment intersection. -/
namespace PolyOps

/-! ### C13 -/

/-- Three points lie on one line `a*x + b*y = c`. -/
def OnOneLine (p q r : Pt) : Prop :=
  ∃ a b c : Int, (a ≠ 0 ∨ b ≠ 0) ∧ a * p.x + b * p.y = c ∧ a * q.x + b * q.y = c ∧ a * r.x + b * r.y = c

/-- C13: zero exactly for collinear points. -/
theorem C13_zero_iff (p q r : Pt) : triangleWinding p q r = 0 ↔ OnOneLine p q r := by
  unfold triangleWinding OnOneLine
  constructor
  · intro h
    by_cases h1 : q.y - p.y = 0 ∧ p.x - q.x = 0
    · by_cases h2 : r.y - p.y = 0 ∧ p.x - r.x = 0
      · exact ⟨1, 0, p.x, Or.inl one_ne_zero, by ring, by linarith [h1.2], by linarith [h2.2]⟩
      · refine ⟨r.y - p.y, p.x - r.x, (r.y - p.y) * p.x + (p.x - r.x) * p.y, ?_, rfl, ?_, ?_⟩
        · by_contra hc; push Not at hc; exact h2 hc
        · linear_combination h
        · ring
    · refine ⟨q.y - p.y, p.x - q.x, (q.y - p.y) * p.x + (p.x - q.x) * p.y, ?_, rfl, by ring, ?_⟩
      · by_contra hc; push Not at hc; exact h1 hc
      · linear_combination -h
  · rintro ⟨a, b, c, h, h1, h2, h3⟩
    rcases h with h | h
    · have : a * ((q.x - p.x) * (r.y - p.y) - (r.x - p.x) * (q.y - p.y)) = 0 := by
        linear_combination (r.y - p.y) * (h2 - h1) - (q.y - p.y) * (h3 - h1)
      exact (mul_eq_zero.mp this).resolve_left h
    · have : b * ((q.x - p.x) * (r.y - p.y) - (r.x - p.x) * (q.y - p.y)) = 0 := by
        linear_combination (q.x - p.x) * (h3 - h1) - (r.x - p.x) * (h2 - h1)
      exact (mul_eq_zero.mp this).resolve_left h

/-- C13: exchanging two points changes the sign. -/
theorem C13_swap (p q r : Pt) : triangleWinding p r q = -triangleWinding p q r ∧
    triangleWinding q p r = -triangleWinding p q r ∧ triangleWinding r q p = -triangleWinding p q r := by
  unfold triangleWinding
  refine ⟨by ring, by ring, by ring⟩

/-- C13: invariant under rotation of the arguments. -/
theorem C13_rotate (p q r : Pt) : triangleWinding q r p = triangleWinding p q r := by
  unfold triangleWinding; ring

/-- C13: invariant under translation. -/
theorem C13_translate (p q r v : Pt) : triangleWinding (p + v) (q + v) (r + v) = triangleWinding p q r := by
  simp only [triangleWinding, Pt.add_x, Pt.add_y]; ring

/-- Twice the signed area of a polygon by the shoelace formula, as a cyclic sum over its edges. -/
def shoelace (ps : List Pt) : Int :=
  ((List.zipWith (fun p q => p.x * q.y - q.x * p.y) ps (ps.rotate 1)).sum)

/-- C13: equals twice the signed area. -/
theorem C13_area (p q r : Pt) : triangleWinding p q r = shoelace [p, q, r] := by
  simp [triangleWinding, shoelace]; ring

example : triangleWinding ⟨0,0⟩ ⟨4,0⟩ ⟨0,3⟩ = 12 := by decide

/-! ### C14 -/

/-- Sum of a function over the consecutive pairs of a path. -/
def pathSum (f : Pt → Pt → Int) : Pt → List Pt → Int
  | _, [] => 0
  | p, q :: qs => f p q + pathSum f q qs

theorem pathSum_append (f : Pt → Pt → Int) (p : Pt) (as : List Pt) (q : Pt) (bs : List Pt) :
    pathSum f p (as ++ q :: bs) = pathSum f p (as ++ [q]) + pathSum f q bs := by
  induction as generalizing p with
  | nil => simp [pathSum]
  | cons a as ih => simp only [List.cons_append, pathSum]; rw [ih]; ring

theorem foldl_put (ps : List Pt) (s : WindSink) :
    (ps.foldl WindSink.put s).close = s.r + pathSum (fun p q => (p.x - q.x) * (p.y + q.y)) s.prev (ps ++ [s.first]) := by
  induction ps generalizing s with
  | nil => simp [WindSink.close, pathSum]
  | cons p ps ih =>
    rw [List.foldl_cons, ih]
    simp only [WindSink.put, List.cons_append, pathSum]
    ring

theorem pathSum_telescope (p : Pt) (qs : List Pt) (z : Pt) :
    pathSum (fun p q => (p.x - q.x) * (p.y + q.y)) p (qs ++ [z]) =
      pathSum (fun p q => p.x * q.y - q.x * p.y) p (qs ++ [z]) + p.x * p.y - z.x * z.y := by
  induction qs generalizing p with
  | nil => simp [pathSum]; ring
  | cons q qs ih => simp only [List.cons_append, pathSum]; rw [ih]; ring

theorem zipWith_pathSum (f : Pt → Pt → Int) (p : Pt) (qs : List Pt) (z : Pt) :
    (List.zipWith f (p :: qs) (qs ++ [z])).sum = pathSum f p (qs ++ [z]) := by
  induction qs generalizing p with
  | nil => simp [pathSum]
  | cons q qs ih => simp only [List.cons_append, List.zipWith_cons_cons, List.sum_cons, pathSum, ih]

/-- C14: `winding_dir` is the shoelace sum, for polygons of every length. -/
theorem C14_shoelace (ps : List Pt) : windingDir ps = shoelace ps := by
  cases ps with
  | nil => simp [windingDir, shoelace]
  | cons p qs =>
    show (qs.foldl WindSink.put (WindSink.init p)).close = _
    unfold shoelace
    rw [foldl_put]
    simp only [WindSink.init, zero_add]
    rw [pathSum_telescope, List.rotate_cons_succ, List.rotate_zero, zipWith_pathSum]
    ring

theorem shoelace_cons (p : Pt) (qs : List Pt) :
    shoelace (p :: qs) = pathSum (fun p q => p.x * q.y - q.x * p.y) p (qs ++ [p]) := by
  unfold shoelace
  rw [List.rotate_cons_succ, List.rotate_zero, zipWith_pathSum]

/-- C14: the starting vertex does not matter. -/
theorem C14_rotate (ps : List Pt) (n : Nat) : windingDir (ps.rotate n) = windingDir ps := by
  rw [C14_shoelace, C14_shoelace]
  have one : ∀ ps : List Pt, shoelace (ps.rotate 1) = shoelace ps := by
    intro ps
    cases ps with
    | nil => simp
    | cons p qs =>
      rw [List.rotate_cons_succ, List.rotate_zero]
      cases qs with
      | nil => rfl
      | cons q qs =>
        rw [List.cons_append, shoelace_cons, shoelace_cons, List.append_assoc, List.singleton_append,
          pathSum_append]
        simp only [List.cons_append, pathSum]
        ring
  induction n generalizing ps with
  | zero => simp
  | succ n ih => rw [show n + 1 = 1 + n by omega, ← List.rotate_rotate, ih, one]

theorem pathSum_translate (v p : Pt) (qs : List Pt) (z : Pt) :
    pathSum (fun p q => p.x * q.y - q.x * p.y) (p + v) ((qs ++ [z]).map (· + v)) =
      pathSum (fun p q => p.x * q.y - q.x * p.y) p (qs ++ [z]) + (p.x - z.x) * v.y - (p.y - z.y) * v.x := by
  induction qs generalizing p with
  | nil => simp [pathSum]; ring
  | cons q qs ih => simp only [List.cons_append, List.map_cons, pathSum]; rw [ih]; simp only [Pt.add_x, Pt.add_y]; ring

/-- C14: translation does not matter. -/
theorem C14_translate (ps : List Pt) (v : Pt) : windingDir (ps.map (· + v)) = windingDir ps := by
  rw [C14_shoelace, C14_shoelace]
  cases ps with
  | nil => rfl
  | cons p qs =>
    rw [List.map_cons, shoelace_cons, shoelace_cons]
    have : qs.map (· + v) ++ [p + v] = (qs ++ [p]).map (· + v) := by simp
    rw [this, pathSum_translate]; ring

theorem pathSum_reverse (p : Pt) (qs : List Pt) (z : Pt) :
    pathSum (fun p q => p.x * q.y - q.x * p.y) z (qs.reverse ++ [p]) =
      -pathSum (fun p q => p.x * q.y - q.x * p.y) p (qs ++ [z]) := by
  induction qs generalizing p with
  | nil => simp [pathSum]
  | cons q qs ih =>
    rw [List.reverse_cons, List.append_assoc, List.singleton_append, pathSum_append, ih]
    simp only [List.cons_append, pathSum]; ring

/-- C14: reversal changes the sign. -/
theorem C14_reverse (ps : List Pt) : windingDir ps.reverse = -windingDir ps := by
  cases ps with
  | nil => simp [windingDir]
  | cons p qs =>
    have h1 : windingDir (p :: qs).reverse = windingDir (p :: qs.reverse) := by
      have h := C14_rotate (p :: qs.reverse) 1
      rw [List.rotate_cons_succ, List.rotate_zero] at h
      rw [List.reverse_cons]; exact h
    rw [h1, C14_shoelace, C14_shoelace, shoelace_cons, shoelace_cons, pathSum_reverse]

/-- C14: cutting along the chord `p q` adds up. -/
theorem C14_chord (p q : Pt) (as bs : List Pt) :
    windingDir (p :: as ++ q :: bs) = windingDir (p :: as ++ [q]) + windingDir (p :: q :: bs) := by
  simp only [C14_shoelace, List.cons_append, shoelace_cons, List.append_assoc, List.singleton_append, List.nil_append]
  rw [pathSum_append _ p as q (bs ++ [p]), pathSum_append _ p as q [p]]
  simp only [pathSum]
  ring

/-- C14: fewer than three points have no area. -/
theorem C14_degenerate (ps : List Pt) (h : ps.length < 3) : windingDir ps = 0 := by
  match ps, h with
  | [], _ => rfl
  | [p], _ => simp [windingDir, WindSink.init, WindSink.close]
  | [p, q], _ => simp [windingDir, WindSink.init, WindSink.close, WindSink.put]; ring

example : windingDir [⟨0,0⟩, ⟨4,0⟩, ⟨4,4⟩, ⟨0,4⟩] = 32 := by decide

/-! ### C15 -/

/-- The rational point at parameter `t` of the segment from `a` to `b`. -/
def At (a b : Pt) (t : Rat) (x y : Rat) : Prop :=
  x = a.x + t * ((b.x : Rat) - a.x) ∧ y = a.y + t * ((b.y : Rat) - a.y)

/-- The closed segments have a common point. -/
def Meet (a b c d : Pt) : Prop :=
  ∃ x y t u : Rat, 0 ≤ t ∧ t ≤ 1 ∧ 0 ≤ u ∧ u ≤ 1 ∧ At a b t x y ∧ At c d u x y

/-- A point lies on the closed segment. -/
def OnSeg (p a b : Pt) : Prop := ∃ t : Rat, 0 ≤ t ∧ t ≤ 1 ∧ At a b t p.x p.y

def SharesIndex (s1 s2 : CSeg) : Prop := s1.a = s2.a ∨ s1.a = s2.b ∨ s1.b = s2.a ∨ s1.b = s2.b

theorem cramer (s1 s2 : CSeg) (hd : isD s1 s2 ≠ 0) (t u : Rat) :
    (∃ x y, At s1.pa s1.pb t x y ∧ At s2.pa s2.pb u x y) ↔
      t * isD s1 s2 = isT s1 s2 ∧ u * isD s1 s2 = isU s1 s2 := by
  have hd' : (isD s1 s2 : Rat) ≠ 0 := by exact_mod_cast hd
  unfold At
  constructor
  · rintro ⟨x, y, ⟨h1, h2⟩, h3, h4⟩
    simp only [isD, isT, isU]
    push_cast
    have hx := h1.symm.trans h3
    have hy := h2.symm.trans h4
    constructor
    · linear_combination ((s2.pb.y:Rat) - s2.pa.y) * hx - ((s2.pb.x:Rat) - s2.pa.x) * hy
    · linear_combination ((s1.pb.y:Rat) - s1.pa.y) * hx - ((s1.pb.x:Rat) - s1.pa.x) * hy
  · rintro ⟨h1, h2⟩
    refine ⟨_, _, ⟨rfl, rfl⟩, ?_, ?_⟩
    · apply mul_left_cancel₀ hd'
      have e1 : (isD s1 s2 : Rat) * (s1.pa.x + t * (s1.pb.x - s1.pa.x)) =
          isD s1 s2 * s1.pa.x + (t * isD s1 s2) * (s1.pb.x - s1.pa.x) := by ring
      have e2 : (isD s1 s2 : Rat) * (s2.pa.x + u * (s2.pb.x - s2.pa.x)) =
          isD s1 s2 * s2.pa.x + (u * isD s1 s2) * (s2.pb.x - s2.pa.x) := by ring
      rw [e1, e2, h1, h2]
      simp only [isD, isT, isU]; push_cast; ring
    · apply mul_left_cancel₀ hd'
      have e1 : (isD s1 s2 : Rat) * (s1.pa.y + t * (s1.pb.y - s1.pa.y)) =
          isD s1 s2 * s1.pa.y + (t * isD s1 s2) * (s1.pb.y - s1.pa.y) := by ring
      have e2 : (isD s1 s2 : Rat) * (s2.pa.y + u * (s2.pb.y - s2.pa.y)) =
          isD s1 s2 * s2.pa.y + (u * isD s1 s2) * (s2.pb.y - s2.pa.y) := by ring
      rw [e1, e2, h1, h2]
      simp only [isD, isT, isU]; push_cast; ring

/-- The inclusive range test of clip.hpp:483-485. -/
def InBoth (s1 s2 : CSeg) : Prop :=
  (0 < isD s1 s2 → 0 ≤ isT s1 s2 ∧ isT s1 s2 ≤ isD s1 s2 ∧ 0 ≤ isU s1 s2 ∧ isU s1 s2 ≤ isD s1 s2) ∧
  (isD s1 s2 < 0 → isT s1 s2 ≤ 0 ∧ isD s1 s2 ≤ isT s1 s2 ∧ isU s1 s2 ≤ 0 ∧ isD s1 s2 ≤ isU s1 s2)

theorem unit_iff {d n : Int} (hd : d ≠ 0) {t : Rat} (h : t * d = n) :
    (0 ≤ t ∧ t ≤ 1) ↔ ((0 < d → 0 ≤ n ∧ n ≤ d) ∧ (d < 0 → n ≤ 0 ∧ d ≤ n)) := by
  rcases lt_or_gt_of_ne hd with h0 | h0
  · have h0' : (d:Rat) < 0 := by exact_mod_cast h0
    constructor
    · rintro ⟨h1, h2⟩
      refine ⟨fun h3 => absurd h3 (by omega), fun _ => ⟨?_, ?_⟩⟩
      · have : (n:Rat) ≤ 0 := by rw [← h]; nlinarith
        exact_mod_cast this
      · have : (d:Rat) ≤ n := by rw [← h]; nlinarith
        exact_mod_cast this
    · rintro ⟨_, h2⟩
      obtain ⟨h3, h4⟩ := h2 h0
      have h3' : (n:Rat) ≤ 0 := by exact_mod_cast h3
      have h4' : (d:Rat) ≤ n := by exact_mod_cast h4
      constructor <;> nlinarith
  · have h0' : (0:Rat) < d := by exact_mod_cast h0
    constructor
    · rintro ⟨h1, h2⟩
      refine ⟨fun _ => ⟨?_, ?_⟩, fun h3 => absurd h3 (by omega)⟩
      · have : (0:Rat) ≤ n := by rw [← h]; positivity
        exact_mod_cast this
      · have : (n:Rat) ≤ d := by rw [← h]; nlinarith
        exact_mod_cast this
    · rintro ⟨h2, _⟩
      obtain ⟨h3, h4⟩ := h2 h0
      have h3' : (0:Rat) ≤ n := by exact_mod_cast h3
      have h4' : (n:Rat) ≤ d := by exact_mod_cast h4
      constructor <;> nlinarith

theorem meet_iff_inBoth (s1 s2 : CSeg) (hd : isD s1 s2 ≠ 0) :
    Meet s1.pa s1.pb s2.pa s2.pb ↔ InBoth s1 s2 := by
  have hd' : (isD s1 s2 : Rat) ≠ 0 := by exact_mod_cast hd
  unfold InBoth
  constructor
  · rintro ⟨x, y, t, u, h1, h2, h3, h4, h5, h6⟩
    obtain ⟨e1, e2⟩ := (cramer s1 s2 hd t u).mp ⟨x, y, h5, h6⟩
    have a1 := (unit_iff hd e1).mp ⟨h1, h2⟩
    have a2 := (unit_iff hd e2).mp ⟨h3, h4⟩
    tauto
  · rintro ⟨h1, h2⟩
    have e1 : (isT s1 s2 / isD s1 s2 : Rat) * isD s1 s2 = isT s1 s2 := div_mul_cancel₀ _ hd'
    have e2 : (isU s1 s2 / isD s1 s2 : Rat) * isD s1 s2 = isU s1 s2 := div_mul_cancel₀ _ hd'
    obtain ⟨x, y, h5, h6⟩ := (cramer s1 s2 hd _ _).mpr ⟨e1, e2⟩
    have a1 := (unit_iff hd e1).mpr (by tauto)
    have a2 := (unit_iff hd e2).mpr (by tauto)
    exact ⟨x, y, _, _, a1.1, a1.2, a2.1, a2.2, h5, h6⟩

/-- The test, with the range check named. -/
theorem intersects_eq (rnd : Rat → Rat) (bx by' : Bool) (s1 s2 : CSeg) (hd : isD s1 s2 ≠ 0)
    (hi : ¬ SharesIndex s1 s2) :
    (InBoth s1 s2 → intersects rnd bx by' s1 s2 =
      if isT s1 s2 = 0 then some ⟨some s1.pa, .start, isEdge (isU s1 s2) (isD s1 s2)⟩
      else if isT s1 s2 = isD s1 s2 then some ⟨some s1.pb, .end, isEdge (isU s1 s2) (isD s1 s2)⟩
      else if isU s1 s2 = 0 then some ⟨some s2.pa, .no, .start⟩
      else if isU s1 s2 = isD s1 s2 then some ⟨some s2.pb, .no, .end⟩
      else some (crossing rnd bx by' s1 s2)) ∧
    (¬ InBoth s1 s2 → intersects rnd bx by' s1 s2 = none) := by
  unfold intersects InBoth
  unfold SharesIndex at hi
  simp only [if_neg hd, if_neg hi]
  constructor
  · intro h
    rw [if_neg, if_neg]
    · rintro ⟨h1, h2⟩
      have := h.2 (by omega); omega
    · rintro ⟨h1, h2⟩
      have := h.1 (by omega); omega
  · intro h
    by_cases h0 : isD s1 s2 > 0
    · rw [if_pos]
      refine ⟨h0, ?_⟩
      by_contra hc
      apply h
      refine ⟨fun _ => by omega, fun h' => by omega⟩
    · rw [if_neg (by tauto), if_pos]
      refine ⟨h0, ?_⟩
      by_contra hc
      apply h
      refine ⟨fun h' => by omega, fun h' => by omega⟩

/-- C15: for non-parallel segments without a common end index the test is true exactly when the
closed segments have a common point, whatever the rounding and the random decisions. -/
theorem C15_intersects_iff (rnd : Rat → Rat) (bx by' : Bool) (s1 s2 : CSeg) (hd : isD s1 s2 ≠ 0)
    (hi : ¬ SharesIndex s1 s2) :
    (intersects rnd bx by' s1 s2).isSome = true ↔ Meet s1.pa s1.pb s2.pa s2.pb := by
  rw [meet_iff_inBoth s1 s2 hd]
  obtain ⟨h1, h2⟩ := intersects_eq rnd bx by' s1 s2 hd hi
  constructor
  · intro h
    by_contra hc
    rw [h2 hc] at h; cases h
  · intro h
    rw [h1 h]
    split
    · rfl
    · split
      · rfl
      · split
        · rfl
        · split <;> rfl

/-- Segments are parallel exactly when the determinant is zero. -/
theorem C15_parallel_iff (s1 s2 : CSeg) : isD s1 s2 = 0 ↔
    ∃ a b : Int, (a ≠ 0 ∨ b ≠ 0) ∧ a * (s1.pb.x - s1.pa.x) + b * (s1.pb.y - s1.pa.y) = 0 ∧
      a * (s2.pb.x - s2.pa.x) + b * (s2.pb.y - s2.pa.y) = 0 := by
  have key := C13_zero_iff ⟨0,0⟩ (s1.pb - s1.pa) (s2.pb - s2.pa)
  have e : triangleWinding ⟨0,0⟩ (s1.pb - s1.pa) (s2.pb - s2.pa) = isD s1 s2 := by
    simp only [triangleWinding, isD, Pt.sub_x, Pt.sub_y]; ring
  rw [e] at key
  rw [key]
  unfold OnOneLine
  constructor
  · rintro ⟨a, b, c, h, h1, h2, h3⟩
    simp only [mul_zero, add_zero] at h1
    exact ⟨a, b, h, by rw [h1]; exact h2, by rw [h1]; exact h3⟩
  · rintro ⟨a, b, h, h2, h3⟩
    exact ⟨a, b, 0, h, by simp, h2, h3⟩

theorem at_zero (a b : Pt) : At a b 0 a.x a.y := by simp [At]
theorem at_one (a b : Pt) : At a b 1 b.x b.y := by simp [At]

theorem onSeg_start1 (s1 s2 : CSeg) (hd : isD s1 s2 ≠ 0) (hb : InBoth s1 s2) : isT s1 s2 = 0 ↔ OnSeg s1.pa s2.pa s2.pb := by
  have hd' : (isD s1 s2 : Rat) ≠ 0 := by exact_mod_cast hd
  constructor
  · intro h
    have e2 : (isU s1 s2 / isD s1 s2 : Rat) * isD s1 s2 = isU s1 s2 := div_mul_cancel₀ _ hd'
    obtain ⟨x, y, h5, h6⟩ := (cramer s1 s2 hd 0 _).mpr ⟨by rw [h]; simp, e2⟩
    have h7 := at_zero s1.pa s1.pb
    unfold InBoth at hb
    have a2 := (unit_iff hd e2).mpr (by tauto)
    refine ⟨_, a2.1, a2.2, ?_⟩
    rw [h7.1, h7.2, ← h5.1, ← h5.2]; exact h6
  · rintro ⟨u, h1, h2, h3⟩
    have := ((cramer s1 s2 hd 0 u).mp ⟨_, _, at_zero _ _, h3⟩).1
    simp at this
    exact_mod_cast this.symm

theorem onSeg_end1 (s1 s2 : CSeg) (hd : isD s1 s2 ≠ 0) (hb : InBoth s1 s2) : isT s1 s2 = isD s1 s2 ↔ OnSeg s1.pb s2.pa s2.pb := by
  have hd' : (isD s1 s2 : Rat) ≠ 0 := by exact_mod_cast hd
  constructor
  · intro h
    have e2 : (isU s1 s2 / isD s1 s2 : Rat) * isD s1 s2 = isU s1 s2 := div_mul_cancel₀ _ hd'
    obtain ⟨x, y, h5, h6⟩ := (cramer s1 s2 hd 1 _).mpr ⟨by rw [h]; simp, e2⟩
    have h7 := at_one s1.pa s1.pb
    unfold InBoth at hb
    have a2 := (unit_iff hd e2).mpr (by tauto)
    refine ⟨_, a2.1, a2.2, ?_⟩
    rw [h7.1, h7.2, ← h5.1, ← h5.2]; exact h6
  · rintro ⟨u, h1, h2, h3⟩
    have := ((cramer s1 s2 hd 1 u).mp ⟨_, _, at_one _ _, h3⟩).1
    rw [one_mul] at this
    exact_mod_cast this.symm

theorem onSeg_start2 (s1 s2 : CSeg) (hd : isD s1 s2 ≠ 0) (hb : InBoth s1 s2) : isU s1 s2 = 0 ↔ OnSeg s2.pa s1.pa s1.pb := by
  have hd' : (isD s1 s2 : Rat) ≠ 0 := by exact_mod_cast hd
  constructor
  · intro h
    have e2 : (isT s1 s2 / isD s1 s2 : Rat) * isD s1 s2 = isT s1 s2 := div_mul_cancel₀ _ hd'
    obtain ⟨x, y, h5, h6⟩ := (cramer s1 s2 hd _ 0).mpr ⟨e2, by rw [h]; simp⟩
    have h7 := at_zero s2.pa s2.pb
    unfold InBoth at hb
    have a2 := (unit_iff hd e2).mpr (by tauto)
    refine ⟨_, a2.1, a2.2, ?_⟩
    rw [h7.1, h7.2, ← h6.1, ← h6.2]; exact h5
  · rintro ⟨u, h1, h2, h3⟩
    have := ((cramer s1 s2 hd u 0).mp ⟨_, _, h3, at_zero _ _⟩).2
    simp at this
    exact_mod_cast this.symm

theorem onSeg_end2 (s1 s2 : CSeg) (hd : isD s1 s2 ≠ 0) (hb : InBoth s1 s2) : isU s1 s2 = isD s1 s2 ↔ OnSeg s2.pb s1.pa s1.pb := by
  have hd' : (isD s1 s2 : Rat) ≠ 0 := by exact_mod_cast hd
  constructor
  · intro h
    have e2 : (isT s1 s2 / isD s1 s2 : Rat) * isD s1 s2 = isT s1 s2 := div_mul_cancel₀ _ hd'
    obtain ⟨x, y, h5, h6⟩ := (cramer s1 s2 hd _ 1).mpr ⟨e2, by rw [h]; simp⟩
    have h7 := at_one s2.pa s2.pb
    unfold InBoth at hb
    have a2 := (unit_iff hd e2).mpr (by tauto)
    refine ⟨_, a2.1, a2.2, ?_⟩
    rw [h7.1, h7.2, ← h6.1, ← h6.2]; exact h5
  · rintro ⟨u, h1, h2, h3⟩
    have := ((cramer s1 s2 hd u 1).mp ⟨_, _, h3, at_one _ _⟩).2
    rw [one_mul] at this
    exact_mod_cast this.symm

/-- C15: when an end point of one segment lies on the other segment, the reported point is that end
point, exactly, and the flags name exactly the end points that lie on the other segment. -/
theorem C15_edges (rnd : Rat → Rat) (bx by' : Bool) (s1 s2 : CSeg) (hd : isD s1 s2 ≠ 0)
    (hi : ¬ SharesIndex s1 s2)
    (ht : OnSeg s1.pa s2.pa s2.pb ∨ OnSeg s1.pb s2.pa s2.pb ∨ OnSeg s2.pa s1.pa s1.pb ∨ OnSeg s2.pb s1.pa s1.pb) :
    ∃ r p, intersects rnd bx by' s1 s2 = some r ∧ r.p = some p ∧
      (r.e0 = .start ↔ OnSeg s1.pa s2.pa s2.pb) ∧ (r.e0 = .end ↔ OnSeg s1.pb s2.pa s2.pb) ∧
      (r.e1 = .start ↔ OnSeg s2.pa s1.pa s1.pb) ∧ (r.e1 = .end ↔ OnSeg s2.pb s1.pa s1.pb) ∧
      (r.e0 = .start → p = s1.pa) ∧ (r.e0 = .end → p = s1.pb) ∧
      (r.e1 = .start → p = s2.pa) ∧ (r.e1 = .end → p = s2.pb) := by
  have hm : Meet s1.pa s1.pb s2.pa s2.pb := by
    rcases ht with ⟨u, h1, h2, h3⟩ | ⟨u, h1, h2, h3⟩ | ⟨u, h1, h2, h3⟩ | ⟨u, h1, h2, h3⟩
    · exact ⟨_, _, 0, u, le_rfl, zero_le_one, h1, h2, at_zero _ _, h3⟩
    · exact ⟨_, _, 1, u, zero_le_one, le_rfl, h1, h2, at_one _ _, h3⟩
    · exact ⟨_, _, u, 0, h1, h2, le_rfl, zero_le_one, h3, at_zero _ _⟩
    · exact ⟨_, _, u, 1, h1, h2, zero_le_one, le_rfl, h3, at_one _ _⟩
  have hb := (meet_iff_inBoth s1 s2 hd).mp hm
  have hT0 := onSeg_start1 s1 s2 hd hb
  have hT1 := onSeg_end1 s1 s2 hd hb
  have hU0 := onSeg_start2 s1 s2 hd hb
  have hU1 := onSeg_end2 s1 s2 hd hb
  rw [(intersects_eq rnd bx by' s1 s2 hd hi).1 hb]
  rw [← hT0, ← hT1, ← hU0, ← hU1] at ht ⊢
  have hd' : (isD s1 s2 : Rat) ≠ 0 := by exact_mod_cast hd
  -- both parameters at an end: the end points coincide
  have cc : ∀ t u : Rat, t * isD s1 s2 = isT s1 s2 → u * isD s1 s2 = isU s1 s2 →
      (s1.pa.x : Rat) + t * (s1.pb.x - s1.pa.x) = s2.pa.x + u * (s2.pb.x - s2.pa.x) ∧
      (s1.pa.y : Rat) + t * (s1.pb.y - s1.pa.y) = s2.pa.y + u * (s2.pb.y - s2.pa.y) := by
    intro t u h1 h2
    obtain ⟨x, y, h5, h6⟩ := (cramer s1 s2 hd t u).mpr ⟨h1, h2⟩
    exact ⟨h5.1.symm.trans h6.1, h5.2.symm.trans h6.2⟩
  have z0 : ∀ n : Int, n = 0 → (0:Rat) * isD s1 s2 = n := by intro n h; rw [h]; simp
  have z1 : ∀ n : Int, n = isD s1 s2 → (1:Rat) * isD s1 s2 = n := by intro n h; rw [h]; simp
  unfold isEdge
  by_cases t0 : isT s1 s2 = 0
  · have tn : ¬ isT s1 s2 = isD s1 s2 := fun h => hd (by rw [← h, t0])
    refine ⟨_, s1.pa, if_pos t0, rfl, by simp [t0], by simp [tn], ?_, ?_, by simp, by simp, ?_, ?_⟩
    · by_cases u0 : isU s1 s2 = 0
      · simp [u0]
      · simp only [u0, if_false, iff_false]; split <;> simp
    · by_cases u0 : isU s1 s2 = 0
      · simp only [u0, if_true]; constructor
        · intro h; cases h
        · intro h; exact absurd h.symm hd
      · by_cases u1 : isU s1 s2 = isD s1 s2 <;> simp [u0, u1, hd]
    · intro h
      have u0 : isU s1 s2 = 0 := by
        by_contra hc; simp only [hc, if_false] at h; split at h <;> cases h
      have := cc 0 0 (z0 _ t0) (z0 _ u0)
      simp at this
      exact Pt.ext (by exact_mod_cast this.1) (by exact_mod_cast this.2)
    · intro h
      have u1 : isU s1 s2 = isD s1 s2 := by
        by_contra hc; simp only [hc, if_false] at h; split at h <;> cases h
      have := cc 0 1 (z0 _ t0) (z1 _ u1)
      simp at this
      exact Pt.ext (by exact_mod_cast this.1) (by exact_mod_cast this.2)
  · rw [if_neg t0]
    by_cases t1 : isT s1 s2 = isD s1 s2
    · refine ⟨_, s1.pb, if_pos t1, rfl, by simp [t0], by simp [t1], ?_, ?_, by simp, by simp, ?_, ?_⟩
      · by_cases u0 : isU s1 s2 = 0
        · simp [u0]
        · simp only [u0, if_false, iff_false]; split <;> simp
      · by_cases u0 : isU s1 s2 = 0
        · simp only [u0, if_true]; constructor
          · intro h; cases h
          · intro h; exact absurd h.symm hd
        · by_cases u1 : isU s1 s2 = isD s1 s2 <;> simp [u0, u1, hd]
      · intro h
        have u0 : isU s1 s2 = 0 := by
          by_contra hc; simp only [hc, if_false] at h; split at h <;> cases h
        have := cc 1 0 (z1 _ t1) (z0 _ u0)
        simp at this
        exact Pt.ext (by exact_mod_cast this.1) (by exact_mod_cast this.2)
      · intro h
        have u1 : isU s1 s2 = isD s1 s2 := by
          by_contra hc; simp only [hc, if_false] at h; split at h <;> cases h
        have := cc 1 1 (z1 _ t1) (z1 _ u1)
        simp at this
        exact Pt.ext (by exact_mod_cast this.1) (by exact_mod_cast this.2)
    · rw [if_neg t1]
      by_cases u0 : isU s1 s2 = 0
      · refine ⟨_, s2.pa, if_pos u0, rfl, by simp [t0], by simp [t1], by simp [u0], ?_, by simp, by simp, by simp, by simp⟩
        simp only [reduceCtorEq, false_iff]
        intro h; exact hd (by rw [← h, u0])
      · rw [if_neg u0]
        have u1 : isU s1 s2 = isD s1 s2 := by tauto
        exact ⟨_, s2.pb, if_pos u1, rfl, by simp [t0], by simp [t1], by simp [u0], by simp [u1], by simp, by simp, by simp, by simp⟩

/-- Non-vacuity: a T junction. -/
example : isD ⟨0, 1, ⟨0,0⟩, ⟨4,0⟩⟩ ⟨2, 3, ⟨2,0⟩, ⟨2,5⟩⟩ ≠ 0 ∧
    intersects id true true ⟨0, 1, ⟨0,0⟩, ⟨4,0⟩⟩ ⟨2, 3, ⟨2,0⟩, ⟨2,5⟩⟩ = some ⟨some ⟨2,0⟩, .no, .start⟩ := by
  decide

end PolyOps
