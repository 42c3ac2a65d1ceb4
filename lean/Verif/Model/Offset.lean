import Verif.Model.PointSink
import Mathlib.Analysis.SpecialFunctions.Trigonometric.Inverse

/-! Model of /repo/include/poly_ops/offset.hpp:91-347, and of `vround`, `vmag`, `vangle`, `perp_vector` of
/repo/include/poly_ops/base.hpp:447-499.

Real numbers take the place of floating point. A failed assertion and a division of zero by an integer that is zero (the result is
then not a number and its conversion to an integer undefined) are `none`. Emission is the list of the arguments given to the point
sink. `Index` is an unbounded integer; `Coord` too. -/
namespace PolyOps.Offset
open PolyOps PolyOps.PointSink PolyOps.Sweep
open scoped Classical

abbrev Vec := ℝ × ℝ
abbrev Emit := List (Pt × Int)

/-- base.hpp:111 `round`, `std::lround`: to the nearest integer, halves away from zero. -/
noncomputable def lround (x : ℝ) : Int := if 0 ≤ x then ⌊x + 1 / 2⌋ else ⌈x - 1 / 2⌉

/-- base.hpp:136 `to_coord`: a conversion to an integer, towards zero. -/
noncomputable def toCoord (x : ℝ) : Int := if 0 ≤ x then ⌊x⌋ else ⌈x⌉

/-- base.hpp:448 `vround`, and the addition that follows it. -/
noncomputable def addRound (p : Pt) (v : Vec) : Pt := ⟨p.x + lround v.1, p.y + lround v.2⟩

/-- base.hpp:453 `vmag`. -/
noncomputable def vmag (v : Vec) : ℝ := Real.sqrt (v.1 * v.1 + v.2 * v.2)

/-- base.hpp:490 `perp_vector`. -/
noncomputable def perpVector (p1 p2 : Pt) (m : ℝ) : Vec :=
  let perp : Vec := (((p2.y - p1.y : Int) : ℝ), ((p1.x - p2.x : Int) : ℝ))
  (perp.1 * (m / vmag perp), perp.2 * (m / vmag perp))

/-- base.hpp:458 `vangle`. The vectors are not zero. -/
noncomputable def vangle (a b : Pt) : ℝ :=
  let cosine : ℝ := ((a.x : ℝ) * b.x + a.y * b.y) / (vmag (a.x, a.y) * vmag (b.x, b.y))
  Real.arccos (if cosine > 1 then 1 else if cosine < -1 then -1 else cosine)

/-- The loops offset.hpp:126 and 162: `k` more vectors. -/
noncomputable def turns (s c : ℝ) (v : Vec) : Nat → List Vec
  | 0 => []
  | k + 1 =>
    let v' : Vec := (c * v.1 - s * v.2, s * v.1 + c * v.2)
    v' :: turns s c v' k

/-- offset.hpp:114-131: the points of the arc. -/
noncomputable def arcPts (m : ℝ) (arc : Int) (p1 p2 p3 : Pt) : List Pt :=
  let concave := p1 = p3 ∨ triangleWinding p1 p2 p3 > 0
  let concave := if m < 0 then ¬concave else concave
  if concave then
    let angle := Real.pi - vangle (p1 - p2) (p3 - p2)
    let steps := toCoord (m * angle / (arc : ℝ))
    let lsteps := steps.natAbs
    if 1 < lsteps then
      let s := Real.sin (angle / (steps : ℝ))
      let c := Real.cos (angle / (steps : ℝ))
      (turns s c (perpVector p1 p2 m) (lsteps - 1)).map (addRound p2)
    else []
  else []

/-- offset.hpp:95 `add_offset_point`. -/
noncomputable def addOffsetPoint (m : ℝ) (arc : Int) (o1 o2 : Int) (p1 p2 p3 : Pt) : Option Emit :=
  if p1 = p2 ∨ p2 = p3 then none
  else
    let v := perpVector p1 p2 m
    some ((addRound p1 v, o1) :: (addRound p2 v, o2) :: (arcPts m arc p1 p2 p3).map (fun q => (q, o2)))

/-- offset.hpp:137 `offset_lone_point`: what is emitted, and the index returned. -/
noncomputable def offsetLonePoint (m : ℝ) (arc : Int) (next : Int) (p : Pt) : Option (Emit × Int) :=
  if m ≤ 0 then some ([], next)
  else
    let angle := Real.pi * 2
    let steps := toCoord (m * angle / (arc : ℝ))
    let lsteps := max steps 3
    if steps = 0 then none
    else
      let s := Real.sin (angle / (steps : ℝ))
      let c := Real.cos (angle / (steps : ℝ))
      some ((turns s c (m, 0) (lsteps.toNat - 1)).map (fun v => (addRound p v, next)), next + 1)

/-- The loops offset.hpp:191-198 and, with step 1, 308-315: what is emitted, the next index, `prev2` and `prev1`. -/
noncomputable def walk (m : ℝ) (arc : Int) (step : Int) : List Pt → Int → Pt → Pt → Option (Emit × Int × Pt × Pt)
  | [], i, prev2, prev1 => some ([], i, prev2, prev1)
  | p :: l, i, prev2, prev1 =>
    if p ≠ prev1 then
      (addOffsetPoint m arc i (i + step) prev2 prev1 p).bind fun e =>
        (walk m arc step l (i + step) prev1 p).map fun r => (e ++ r.1, r.2)
    else walk m arc step l (i + step) prev2 prev1

/-- offset.hpp:181 `_add_offset_tail_open`: what is emitted, and `orig_i`, `prev1`, `prev2`. -/
noncomputable def tailOpen (m : ℝ) (arc : Int) (l : List Pt) (first step : Int) (prev2 prev1 : Pt) : Option (Emit × Int × Pt × Pt) :=
  (walk m arc step l first prev2 prev1).bind fun (e, i, prev2, prev1) =>
    (addOffsetPoint m arc i (i + step) prev2 prev1 prev2).map fun e' => (e ++ e', i + step, prev1, prev2)

/-- offset.hpp:208 `_add_offset_open` on input that is not empty: what is emitted, and `end_orig_i`. -/
noncomputable def emitOpen (m : ℝ) (arc : Int) (next : Int) (p : Pt) (rest : List Pt) : Option (Emit × Int) :=
  match rest.dropWhile (fun q => decide (q = p)) with
  | [] => offsetLonePoint m arc next p
  | q :: l =>
    (tailOpen m arc l next 1 p q).bind fun (e, i, prev1, prev2) =>
      (tailOpen m arc ((p :: rest).reverse.drop 2) i (-1) prev1 prev2).map fun r => (e ++ r.1, i)

/-- offset.hpp:272 `_add_offset_closed` on input that is not empty: what is emitted, and `end_orig_i`. -/
noncomputable def emitClosed (m : ℝ) (arc : Int) (next : Int) (p : Pt) (rest : List Pt) : Option (Emit × Int) :=
  match rest.dropWhile (fun q => decide (q = p)) with
  | [] => offsetLonePoint m arc next p
  | second :: l =>
    (walk m arc 1 l next p second).bind fun (e, i, prev2, prev1) =>
      (if prev2 ≠ prev1 then addOffsetPoint m arc i (i + 1) prev2 prev1 (if prev1 = p then second else p) else some []).bind fun e2 =>
        (if prev1 ≠ p then addOffsetPoint m arc (i + 1) next prev1 p second else some []).map fun e3 => (e ++ e2 ++ e3, i + 1 + 1)

/-- offset.hpp:393 `add_offset` of one loop: the clipper after it. -/
noncomputable def addOffset (c : Store) (cat : BSet) (pt : Bool) (m : ℝ) (arc : Int) (closed : Bool) (l : List Pt) : Option Store :=
  match l with
  | [] => some c
  | p :: rest =>
    ((if closed then emitClosed m arc c.nextOrig p rest else emitOpen m arc c.nextOrig p rest).bind fun r =>
      (addLoop c cat pt r.1).map fun c => { c with nextOrig := r.2 })

end PolyOps.Offset
