import Mathlib.Data.Rat.Floor
import Mathlib.Algebra.Order.Floor.Ring

/-! Model of the geometric predicates of /repo/include/poly_ops/base.hpp and clip.hpp.

Coordinates are unbounded integers here; `Verif/Model/GeomChecked.lean` repeats the expressions with
the C++ ranges, and property C12 says when the two agree. -/
namespace PolyOps

/-- `point_t<Coord>` (base.hpp:318). -/
structure Pt where
  x : Int
  y : Int
deriving DecidableEq, Repr

instance : Add Pt := ⟨fun a b => ⟨a.x + b.x, a.y + b.y⟩⟩
instance : Sub Pt := ⟨fun a b => ⟨a.x - b.x, a.y - b.y⟩⟩
instance : Neg Pt := ⟨fun a => ⟨-a.x, -a.y⟩⟩
instance : Inhabited Pt := ⟨⟨0, 0⟩⟩

@[simp] theorem Pt.add_x (a b : Pt) : (a + b).x = a.x + b.x := rfl
@[simp] theorem Pt.add_y (a b : Pt) : (a + b).y = a.y + b.y := rfl
@[simp] theorem Pt.sub_x (a b : Pt) : (a - b).x = a.x - b.x := rfl
@[simp] theorem Pt.sub_y (a b : Pt) : (a - b).y = a.y - b.y := rfl
@[simp] theorem Pt.neg_x (a : Pt) : (-a).x = -a.x := rfl
@[simp] theorem Pt.neg_y (a : Pt) : (-a).y = -a.y := rfl

@[ext] theorem Pt.ext {a b : Pt} (hx : a.x = b.x) (hy : a.y = b.y) : a = b := by
  cases a; cases b; simp_all

/-- base.hpp:476 `triangle_winding`. -/
def triangleWinding (p1 p2 p3 : Pt) : Int :=
  (p2.x - p1.x) * (p3.y - p1.y) - (p3.x - p1.x) * (p2.y - p1.y)

/-- base.hpp:528 `winding_dir_sink`. -/
structure WindSink where
  first : Pt
  prev : Pt
  r : Int

def WindSink.init (first : Pt) : WindSink := ⟨first, first, 0⟩
def WindSink.put (s : WindSink) (p : Pt) : WindSink :=
  { s with r := s.r + (s.prev.x - p.x) * (s.prev.y + p.y), prev := p }
def WindSink.close (s : WindSink) : Int :=
  s.r + (s.prev.x - s.first.x) * (s.prev.y + s.first.y)

/-- base.hpp:556 `winding_dir`. -/
def windingDir : List Pt → Int
  | [] => 0
  | p :: ps => (ps.foldl WindSink.put (WindSink.init p)).close

/-- clip.hpp: `cached_segment`: the two end indices and their coordinates. -/
structure CSeg where
  a : Nat
  b : Nat
  pa : Pt
  pb : Pt
deriving DecidableEq, Repr

/-- clip.hpp:321 `at_edge_t`. -/
inductive AtEdge | start | no | «end» | both
deriving DecidableEq, Repr

/-- clip.hpp:328 `is_edge`. -/
def isEdge (v e : Int) : AtEdge := if v = 0 then .start else if v = e then .end else .no

/-- clip.hpp:334 `between`. -/
def between (x lo hi : Int) : Bool := decide (x > lo) && decide (x < hi)

/-- clip.hpp:338 `int_dot`. -/
def intDot (a b : Pt) : Int := a.x * b.x + a.y * b.y

/-- Result of an intersection test that returned true: the point (`none` when the source leaves it
unset) and the two edge flags. -/
structure Isect where
  p : Option Pt
  e0 : AtEdge
  e1 : AtEdge
deriving DecidableEq, Repr

/-- clip.hpp:342 `intersects_parallel`; `none` is `return false`. The assertion
`0 != d1b && d2a != d2b` is a precondition (segments of nonzero length). -/
def intersectsParallel (s1 s2 : CSeg) : Option Isect :=
  if triangleWinding s1.pa s1.pb s2.pa ≠ 0 then none else
  let v1b := s1.pb - s1.pa
  let d1a : Int := 0
  let d1b := intDot v1b v1b
  let d2a := intDot (s2.pa - s1.pa) v1b
  let d2b := intDot (s2.pb - s1.pa) v1b
  let lo1 := min d1a d1b
  let hi1 := max d1a d1b
  let lo2 := min d2a d2b
  let hi2 := max d2a d2b
  if between d1a lo2 hi2 then some ⟨some s1.pa, .start, .no⟩
  else if between d1b lo2 hi2 then some ⟨some s1.pb, .end, .no⟩
  else if between d2a lo1 hi1 then some ⟨some s2.pa, .no, .start⟩
  else if between d2b lo1 hi1 then some ⟨some s2.pb, .no, .end⟩
  else if lo1 = lo2 ∧ hi1 = hi2 then
    if d1a = d2a then
      if s1.a ≠ s2.a then
        if s1.b ≠ s2.b then some ⟨none, .both, .both⟩
        else some ⟨some s1.pa, .start, .start⟩
      else if s1.b ≠ s2.b then some ⟨some s1.pb, .end, .end⟩
      else none
    else
      if s1.a ≠ s2.b then
        if s1.b ≠ s2.a then some ⟨none, .both, .both⟩
        else some ⟨some s1.pa, .start, .end⟩
      else if s1.b ≠ s2.a then some ⟨some s1.pb, .end, .start⟩
      else none
  else none

/-- The three determinants of clip.hpp:472, 480, 481. -/
def isD (s1 s2 : CSeg) : Int :=
  (s1.pa.x - s1.pb.x) * (s2.pa.y - s2.pb.y) - (s1.pa.y - s1.pb.y) * (s2.pa.x - s2.pb.x)
def isT (s1 s2 : CSeg) : Int :=
  (s1.pa.x - s2.pa.x) * (s2.pa.y - s2.pb.y) - (s1.pa.y - s2.pa.y) * (s2.pa.x - s2.pb.x)
def isU (s1 s2 : CSeg) : Int :=
  (s1.pa.x - s2.pa.x) * (s1.pa.y - s1.pb.y) - (s1.pa.y - s2.pa.y) * (s1.pa.x - s1.pb.x)

/-- Floating-point arithmetic of clip.hpp:507-520: `rnd` is the rounding of every operation and of
every conversion to floating point. -/
def roundedOffset (rnd : Rat → Rat) (t d delta : Int) (down : Bool) : Int :=
  let q := rnd (rnd t / rnd d)
  let r := rnd (q * rnd delta)
  if down then ⌊r⌋ else ⌈r⌉

/-- The proper-crossing branch, clip.hpp:506-524. `bx` and `by'` are the two `rand_bool` results. -/
def crossing (rnd : Rat → Rat) (bx by' : Bool) (s1 s2 : CSeg) : Isect :=
  let p : Pt := ⟨s1.pa.x + roundedOffset rnd (isT s1 s2) (isD s1 s2) (s1.pb.x - s1.pa.x) bx,
                 s1.pa.y + roundedOffset rnd (isT s1 s2) (isD s1 s2) (s1.pb.y - s1.pa.y) by'⟩
  ⟨some p,
   if p = s1.pa then .start else if p = s1.pb then .end else .no,
   if p = s2.pa then .start else if p = s2.pb then .end else .no⟩

/-- clip.hpp:450 `intersects`; `none` is `return false`. -/
def intersects (rnd : Rat → Rat) (bx by' : Bool) (s1 s2 : CSeg) : Option Isect :=
  let d := isD s1 s2
  if d = 0 then intersectsParallel s1 s2
  else if s1.a = s2.a ∨ s1.a = s2.b ∨ s1.b = s2.a ∨ s1.b = s2.b then none
  else
    let t := isT s1 s2
    let u := isU s1 s2
    if d > 0 ∧ (t < 0 ∨ t > d ∨ u < 0 ∨ u > d) then none
    else if ¬ d > 0 ∧ (t > 0 ∨ t < d ∨ u > 0 ∨ u < d) then none
    else if t = 0 then some ⟨some s1.pa, .start, isEdge u d⟩
    else if t = d then some ⟨some s1.pb, .end, isEdge u d⟩
    else if u = 0 then some ⟨some s2.pa, .no, .start⟩
    else if u = d then some ⟨some s2.pb, .no, .end⟩
    else some (crossing rnd bx by' s1 s2)

/-- clip.hpp:529 `lower_angle`. -/
def lowerAngle (ds dp : Pt) (tie : Bool) : Bool :=
  let v := ds.y * dp.x
  let w := dp.y * ds.x
  decide (v < w) || (decide (v = w) && tie)

/-- clip.hpp:536 `vert_overlap`. -/
def vertOverlap (sa sb p dp : Pt) (tie : Bool) : Bool :=
  tie && decide (dp.x = 0) && (decide (dp.y > 0) == decide (sb.y > sa.y)) && decide (p.y = sa.y)

/-- clip.hpp:550 `line_segment_up_ray_intersection`. -/
def upRay (sa sb p : Pt) (hsign : Int) (dp : Pt) (tie : Bool) : Bool :=
  let ds := sb - sa
  if ds.x = 0 then vertOverlap sa sb p dp tie
  else if p.x < sa.x ∨ (p.x = sa.x ∧ hsign < 0) then false
  else if p.x > sb.x ∨ (p.x = sb.x ∧ hsign > 0) then false
  else
    let t := (p.x - sa.x) * ds.y
    let u := (p.y - sa.y) * ds.x
    decide (t < u) || (decide (t = u) && lowerAngle ds dp tie)

/-- clip.hpp:577 `dual_line_segment_up_ray_intersection`. -/
def dualUpRay (sa sb p : Pt) (h1 : Int) (dp1 : Pt) (tie1 : Bool) (h2 : Int) (dp2 : Pt) (tie2 : Bool) : Bool × Bool :=
  let ds := sb - sa
  if ds.x = 0 then (vertOverlap sa sb p dp1 tie1, vertOverlap sa sb p dp2 tie2)
  else if p.x < sa.x ∨ p.x > sb.x then (false, false)
  else
    let r : Bool × Bool :=
      if p.x = sa.x then (decide (h1 > 0), decide (h2 > 0))
      else if p.x = sb.x then (decide (h1 < 0), decide (h2 < 0))
      else (true, true)
    let t := (p.x - sa.x) * ds.y
    let u := (p.y - sa.y) * ds.x
    if t > u then (false, false)
    else if t = u then (r.1 && lowerAngle ds dp1 tie1, r.2 && lowerAngle ds dp2 tie2)
    else r

/-- clip.hpp:612 `hsign_of`. -/
def hsignOf (d : Pt) : Int := if d.x ≠ 0 then d.x else d.y

end PolyOps
