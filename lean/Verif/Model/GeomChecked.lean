import Verif.Model.Geom

/-! The geometric predicates again, with every intermediate value checked against its C++ type.
`Coord` is a signed type of `w` bits, `long_coord_t` one of `2*w` bits (base.hpp:44). `none` is signed
overflow, which is undefined behaviour (or a wrong value once converted back to `Coord`). -/
namespace PolyOps

/-- A value that must fit a signed type of `w` bits. -/
def fit (w : Nat) (v : Int) : Option Int :=
  if -2 ^ (w - 1) ≤ v ∧ v < 2 ^ (w - 1) then some v else none

def subC (w : Nat) (a b : Int) : Option Int := fit w (a - b)
def addC (w : Nat) (a b : Int) : Option Int := fit w (a + b)
/-- `coord_ops<Coord>::mul` (base.hpp:60): the product of two `Coord`s as a `long_coord_t`. -/
def mulC (w : Nat) (a b : Int) : Option Int := fit (2 * w) (a * b)
def subL (w : Nat) (a b : Int) : Option Int := fit (2 * w) (a - b)
def addL (w : Nat) (a b : Int) : Option Int := fit (2 * w) (a + b)

/-- `mul(a-b,c-d) - mul(e-f,g-h)`, the shape of every determinant in the code. -/
def detC (w : Nat) (a b c d e f g h : Int) : Option Int := do
  let m ← mulC w (← subC w a b) (← subC w c d)
  let n ← mulC w (← subC w e f) (← subC w g h)
  subL w m n

/-- base.hpp:476. -/
def triangleWindingC (w : Nat) (p1 p2 p3 : Pt) : Option Int :=
  detC w p2.x p1.x p3.y p1.y p3.x p1.x p2.y p1.y
/-- clip.hpp:472. -/
def isDC (w : Nat) (s1 s2 : CSeg) : Option Int :=
  detC w s1.pa.x s1.pb.x s2.pa.y s2.pb.y s1.pa.y s1.pb.y s2.pa.x s2.pb.x
/-- clip.hpp:480. -/
def isTC (w : Nat) (s1 s2 : CSeg) : Option Int :=
  detC w s1.pa.x s2.pa.x s2.pa.y s2.pb.y s1.pa.y s2.pa.y s2.pa.x s2.pb.x
/-- clip.hpp:481. -/
def isUC (w : Nat) (s1 s2 : CSeg) : Option Int :=
  detC w s1.pa.x s2.pa.x s1.pa.y s1.pb.y s1.pa.y s2.pa.y s1.pa.x s1.pb.x

/-- clip.hpp:338 `int_dot` of the differences `a-b` and `c-d`. -/
def intDotC (w : Nat) (a b c d : Pt) : Option Int := do
  let m ← mulC w (← subC w a.x b.x) (← subC w c.x d.x)
  let n ← mulC w (← subC w a.y b.y) (← subC w c.y d.y)
  addL w m n

/-- clip.hpp:529 `lower_angle`; the arguments are `Coord` values. -/
def lowerAngleC (w : Nat) (ds dp : Pt) (tie : Bool) : Option Bool := do
  let v ← mulC w ds.y dp.x
  let u ← mulC w dp.y ds.x
  return decide (v < u) || (decide (v = u) && tie)

/-- clip.hpp:550 with `dp = e - p` (line_delta, clip.hpp:619) also computed in `Coord`. -/
def upRayC (w : Nat) (sa sb p e : Pt) (tie : Bool) : Option Bool := do
  let dp : Pt := ⟨← subC w e.x p.x, ← subC w e.y p.y⟩
  let ds : Pt := ⟨← subC w sb.x sa.x, ← subC w sb.y sa.y⟩
  let hsign := hsignOf dp
  if ds.x = 0 then return vertOverlap sa sb p dp tie
  else if p.x < sa.x ∨ (p.x = sa.x ∧ hsign < 0) then return false
  else if p.x > sb.x ∨ (p.x = sb.x ∧ hsign > 0) then return false
  else
    let t ← mulC w (← subC w p.x sa.x) ds.y
    let u ← mulC w (← subC w p.y sa.y) ds.x
    if t < u then return true
    else if t = u then lowerAngleC w ds dp tie
    else return false

/-- base.hpp:528-543 with every value checked. -/
def windPutC (w : Nat) (s : WindSink) (p : Pt) : Option WindSink := do
  let m ← mulC w (← subC w s.prev.x p.x) (← addC w s.prev.y p.y)
  return { s with r := ← addL w s.r m, prev := p }

def windFoldC (w : Nat) (s : WindSink) : List Pt → Option WindSink
  | [] => some s
  | p :: ps => do windFoldC w (← windPutC w s p) ps

def windingDirC (w : Nat) : List Pt → Option Int
  | [] => some 0
  | p :: ps => do
    let s ← windFoldC w (WindSink.init p) ps
    return (← windPutC w s s.first).r

end PolyOps
