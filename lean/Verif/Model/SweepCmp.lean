import Verif.Model.Geom

/-! Model of the orders of the sweep sets, /repo/include/poly_ops/clip.hpp:1030-1065. -/
namespace PolyOps.SweepCmp

/-- clip.hpp:1063 `line_bal_sweep_cmp`, also the last line of `sweep_cmp`. -/
def tieCmp (s1 s2 : CSeg) : Bool := if s1.b = s2.b then decide (s1.a > s2.a) else decide (s1.b > s2.b)

/-- clip.hpp:1030 `sweep_cmp`. Coordinates are unbounded; `r = s1.pa.y() - s2.pa.y()` is computed in `Coord` in the source (C12). -/
def sweepCmp (s1 s2 : CSeg) : Bool :=
  if s1.pa.x = s2.pa.x then
    if s1.pa.y - s2.pa.y ≠ 0 then decide (s1.pa.y - s2.pa.y > 0)
    else if triangleWinding s1.pb s1.pa s2.pb ≠ 0 then decide (triangleWinding s1.pb s1.pa s2.pb > 0)
    else if s1.pb.y - s2.pb.y ≠ 0 then decide (s1.pb.y - s2.pb.y > 0)
    else tieCmp s1 s2
  else if s1.pa.x < s2.pa.x then
    if s1.pa.x ≠ s1.pb.x then
      if triangleWinding s1.pb s1.pa s2.pa ≠ 0 then decide (triangleWinding s1.pb s1.pa s2.pa > 0)
      else if triangleWinding s1.pb s1.pa s2.pb ≠ 0 then decide (triangleWinding s1.pb s1.pa s2.pb > 0)
      else tieCmp s1 s2
    else tieCmp s1 s2
  else
    if s2.pa.x ≠ s2.pb.x then
      if triangleWinding s2.pa s2.pb s1.pa ≠ 0 then decide (triangleWinding s2.pa s2.pb s1.pa > 0)
      else if triangleWinding s2.pa s2.pb s1.pb ≠ 0 then decide (triangleWinding s2.pa s2.pb s1.pb > 0)
      else tieCmp s1 s2
    else tieCmp s1 s2

end PolyOps.SweepCmp
