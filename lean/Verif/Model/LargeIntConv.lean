import Verif.Model.LargeInt

/-! Model of the literals and of the conversions to built-in types of
/repo/include/poly_ops/large_ints.hpp:283-292, 347-356, 413-434, 1390-1460. -/
namespace PolyOps.LargeInt

/-- `digit_value<C>` (large_ints.hpp:1391); `none` is the failing `static_assert`. -/
def digitValue (c : Char) : Option Nat :=
  if '0' ≤ c ∧ c ≤ '9' then some (c.toNat - '0'.toNat)
  else if 'a' ≤ c ∧ c ≤ 'f' then some (c.toNat - 'a'.toNat + 10)
  else if 'A' ≤ c ∧ c ≤ 'F' then some (c.toNat - 'A'.toNat + 10)
  else none

/-- `hex_value` (large_ints.hpp:1411, 1416): digits least significant first, the nybble index, and
the packed words, most significant first. -/
def hexValue : List Nat → Nat → Nat → List Nat → List Nat
  | [], _, cur, vals => cur :: vals
  | d :: ds, nyb, cur, vals =>
    if nyb ≥ 16 then hexValue ds 1 d (cur :: vals)
    else if ds.isEmpty && decide (nyb + 1 = 16) && decide (d ≥ 8) then
      0 :: (cur ||| ((d <<< (nyb * 4)) % B)) :: vals
    else hexValue ds (nyb + 1) (cur ||| ((d <<< (nyb * 4)) % B)) vals

/-- `operator""_compi` (large_ints.hpp:1454) with `skip_0x` and `rev_char_pack`. `none` is a
compile-time error. The result type is `compound_int<size>`. -/
def hexLiteral : List Char → Option Opd
  | '0' :: x :: c :: cs =>
    if x = 'x' ∨ x = 'X' then
      ((c :: cs).mapM digitValue).map fun ds => ⟨true, false, (hexValue ds.reverse 0 0 []).reverse⟩
    else none
  | _ => none

/-- `detail::cast<T,U>` (large_ints.hpp:283) on the unsigned bits: `bits` is the width of `T` (at
most 64, so `int_count<false,T> = 1`; with a wider `T`, such as `__int128`, `tw` words). The shift
distance is `(N-1) * sizeof(full_int)`, i.e. 8 per word. -/
def castInt (bits tw : Nat) (x : List Nat) : Nat → Nat
  | 0 => 0
  | 1 => rd0 x 0 % 2 ^ bits
  | n + 2 =>
    if tw ≥ n + 2 then (((rd0 x (n+1) % 2 ^ bits) <<< ((n+1) * 8)) % 2 ^ bits) ||| castInt bits tw x (n+1)
    else castInt bits tw x (n+1)
where rd0 (x : List Nat) (i : Nat) : Nat := x.getD i 0

/-- `unsigned_to_float` (large_ints.hpp:348) in exact arithmetic: the weight of word `N-1` is
`2^(32*N)`. Rounding of the floating point operations is not modelled. -/
def unsignedToFloat (x : List Nat) : Nat → Nat
  | 0 => 0
  | 1 => x.getD 0 0
  | n + 2 => x.getD (n+1) 0 * 2 ^ (32 * (n+2)) + unsignedToFloat x (n+1)

/-- `explicit operator T` for floating point `T` (large_ints.hpp:420), in exact arithmetic. -/
def toFloat (p : CarryImpl) (x : Opd) : Int :=
  if x.words.length > 1 then
    if x.signed then
      if negative x then -(unsignedToFloat (neg p x).words x.words.length : Int)
      else unsignedToFloat x.words x.words.length
    else unsignedToFloat x.words x.words.length
  else if x.signed then sword (x.words.getD 0 0) else (x.words.getD 0 0 : Int)

/-- `explicit operator bool` (large_ints.hpp:440). -/
def toBool (x : Opd) : Bool := x.words.any (· != 0)

end PolyOps.LargeInt
