import Mathlib.Data.Rat.Floor
import Mathlib.Algebra.Order.Ring.Rat

/-! The arithmetic of `double`, base.hpp:51 `real_t`, as used in clip.hpp:503-514. Each operation gives the exact result
rounded to 53 bits. Simplified: no bound on the exponent (quotients of 64 bit integers times 32 bit integers are far from both bounds), no
infinities, no negative zero; the rounding mode is the default one, to nearest. -/
namespace PolyOps.Double

def pow2 (e : Int) : Rat := if 0 ≤ e then (2 : Rat) ^ e.toNat else 1 / (2 : Rat) ^ (-e).toNat

/-- Nearest integer, halves to the even one. -/
def nearest (q : Rat) : Int :=
  let f := ⌊q⌋
  let r := q - f
  if r < 1 / 2 then f else if 1 / 2 < r then f + 1 else if f % 2 = 0 then f else f + 1

/-- `e` with `2^e ≤ q < 2^(e+1)`, for positive `q`. -/
def expo (q : Rat) : Int :=
  let e : Int := (Nat.log2 q.num.natAbs : Int) - Nat.log2 q.den
  if q < pow2 e then e - 1 else e

/-- Rounding of a positive number to 53 bits. -/
def dblPos (q : Rat) : Rat :=
  let e := expo q - 52
  (nearest (q / pow2 e) : Rat) * pow2 e

/-- Rounding to a `double`. -/
def dbl (q : Rat) : Rat := if q = 0 then 0 else if q < 0 then - dblPos (-q) else dblPos q

end PolyOps.Double
