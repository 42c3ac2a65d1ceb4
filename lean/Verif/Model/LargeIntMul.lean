import Verif.Model.LargeInt

/-! Model of the multiplication of /repo/include/poly_ops/large_ints.hpp:1005-1119. -/
namespace PolyOps.LargeInt

/-- One back end of `mul1x1` (large_ints.hpp:1005): the two-word product of two words, unsigned
(`u`) or signed (`s`), low word first. -/
structure MulImpl where
  u : Nat → Nat → List Nat
  s : Nat → Nat → List Nat

/-- large_ints.hpp:1010-1020: a 128-bit built-in product split into two words (`int128`,
`_umul128`/`_mul128`). -/
def wideMul : MulImpl where
  u a b := [a * b % B, a * b / B]
  s a b :=
    let v := (sword a * sword b) % ((B:Int) * B)
    [(v % B).toNat, (v / B).toNat]

/-- large_ints.hpp:1021-1037: standard C++, from 32-bit halves. `M` is `2^32`; `x & 0xffffffff` is
`x % M`, `x >> 32` is `x / M`, `x << 32` is `x * M % B`. The or of the last line is kept as an or. -/
def M : Nat := 4294967296

def plainMulWords (au bu : Nat) : Nat × Nat :=
  let lo_lo := (au % M) * (bu % M) % B
  let hi_lo := (au / M) * (bu % M) % B
  let lo_hi := (au % M) * (bu / M) % B
  let hi_hi := (au / M) * (bu / M) % B
  let cross := (lo_lo / M + hi_lo % M + lo_hi) % B
  let r_hi := (hi_lo / M + cross / M + hi_hi) % B
  let r_lo := (cross * M % B) ||| (lo_lo % M)
  (r_lo, r_hi)

def plainMul : MulImpl where
  u a b := [(plainMulWords a b).1, (plainMulWords a b).2]
  s a b :=
    let r := plainMulWords a b
    [r.1, (r.2 + (b * extendedWord true a % B + a * extendedWord true b % B)) % B]

/-- `shift<k>(x)` (large_ints.hpp:681): a `padded_compound_int`, i.e. `k` zero words below. -/
def padded (k : Nat) (ws : List Nat) : Opd := ⟨false, false, List.replicate k 0 ++ ws⟩

/-- An unsigned multi-word value. -/
def uopd (ws : List Nat) : Opd := ⟨false, false, ws⟩

/-- large_ints.hpp:1045 `umulnx1<N>(a,b)`; `a` is read at words `0..N-1`. (`N = 0` is not
instantiable.) -/
def umulnx1 (p : CarryImpl) (m : MulImpl) (a : List Nat) (b : Nat) : Nat → List Nat
  | 0 => []
  | 1 => m.u (a.getD 0 0) b
  | n + 2 => (add p (uopd (umulnx1 p m a b (n+1))) (padded (n+1) (m.u (a.getD (n+1) 0) b))).words

/-- large_ints.hpp:1053 `offset_add<N,Shift>(r,x)`: `r += x << 64*Shift`, then the same with one word
less of `x` and a larger shift; `k = N - Shift` is the number of words of `x` still used. -/
def offsetAdd (p : CarryImpl) : Nat → Nat → List Nat → List Nat → List Nat
  | 0, _, r, _ => r
  | k + 1, s, r, x =>
    offsetAdd p k (s+1) (addAssign p (uopd r) (padded s (x.take (k+1)))).words x

/-- large_ints.hpp:1060 `offset_mul_add<N>(a,b)`: the product modulo `2^(64N)`. -/
def offsetMulAdd (p : CarryImpl) (m : MulImpl) : Nat → List Nat → List Nat → List Nat
  | 0, _, _ => []
  | 1, a, b => [a.getD 0 0 * b.getD 0 0 % B]
  | n + 2, a, b =>
    let hi := [a.getD (n+1) 0 * b.getD 0 0 % B]
    (add p (add p (uopd (umulnx1 p m a (b.getD 0 0) (n+1))) (padded (n+1) hi))
      (padded 1 (offsetMulAdd p m (n+1) a (b.drop 1)))).words

/-- large_ints.hpp:1085-1118: `mul` for `int_count(a) >= int_count(b)`. `none` is the branch
without a return statement (unsigned, `Na > 1`, `Nb = 1`): the call yields no value. -/
def mulOrdered (p : CarryImpl) (m : MulImpl) (s : Bool) (a b : Opd) : Option Opd :=
  let na := intCount s a
  let nb := intCount s b
  if na = 1 then
    some ⟨s, false, (if s then m.s else m.u) (word a 0) (word b 0)⟩
  else if nb = 1 then
    let lo := toWords a (na - 1)
    let r := add p (uopd (umulnx1 p m lo (word b 0) (na - 1)))
      (padded (na - 1) ((if s then m.s else m.u) (word a (na - 1)) (word b 0)))
    if s then
      some ⟨true, false, offsetAdd p na 1 r.words (umulnx1 p m lo (word b 1) (na - 1))⟩
    else none
  else
    some ⟨s, false, offsetMulAdd p m (na + nb) (toWords a (na + nb)) (toWords b (na + nb))⟩

/-- large_ints.hpp:1078 `mul` when at least one operand is not a built-in type narrower than a
word. -/
def mul (p : CarryImpl) (m : MulImpl) (a b : Opd) : Option Opd :=
  let s := resSigned a b
  if intCount s b > intCount s a then mulOrdered p m s b a else mulOrdered p m s a b

/-- Built-in integer ranges. -/
def fitsBits (signed : Bool) (bits : Nat) (v : Int) : Prop :=
  if signed then -(2:Int)^(bits-1) ≤ v ∧ v < (2:Int)^(bits-1) else 0 ≤ v ∧ v < (2:Int)^bits

instance (s : Bool) (n : Nat) (v : Int) : Decidable (fitsBits s n v) := by
  unfold fitsBits; split <;> infer_instance

/-- large_ints.hpp:1081 and 1379: `mul` of two built-in types of `8*sa` and `8*sb` bits, both
narrower than a word. The product is computed in the signed type of `sa + sb` bytes rounded up to
4 or 8 (`bltin_sized_int`, and at least `int` after integral promotion); leaving its range is
undefined behaviour (`none`). -/
def mulSmall (sa sb : Nat) (a b : Int) : Option Int :=
  let bits := if sa + sb ≤ 4 then 32 else 64
  if fitsBits true bits (a * b) then some (a * b) else none

end PolyOps.LargeInt
