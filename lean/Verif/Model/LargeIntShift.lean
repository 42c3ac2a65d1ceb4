import Verif.Model.LargeInt

/-! Model of the shifts of /repo/include/poly_ops/large_ints.hpp:598-622, 796-835, 891-907, 982-999.

The loops write into an array while reading another one that may be the same array (`>>=`, `<<=`,
and the division use them in place).  The state is the pair of arrays; `inPlace` says that they are
one array. -/
namespace PolyOps.LargeInt

/-- `_ext_shift_right` (large_ints.hpp:615, 703). `fill << (64-amount)` drops the high bits. -/
def extShiftRight (a fill amount : Nat) : Nat :=
  if amount = 0 then a else (a >>> amount) ||| ((fill <<< (64 - amount)) % B)

/-- `_ext_shift_left` (large_ints.hpp:619, 718). -/
def extShiftLeft (a fill amount : Nat) : Nat :=
  if amount = 0 then a else ((a <<< amount) % B) ||| (fill >>> (64 - amount))

/-- `static_cast<full_uint>(static_cast<full_xint<Signed>>(a) >> bit)` (large_ints.hpp:805):
arithmetic shift when signed. -/
def shiftWord (signed : Bool) (a bit : Nat) : Nat :=
  if signed && decide (H ≤ a) then (B - 1) - ((B - 1 - a) >>> bit) else a >>> bit

/-- Array read. -/
def rd (a : List Nat) (i : Nat) : Nat := a.getD i 0

/-- One assignment `r[i] = f(a)` of the shift loops; when the arrays are one, `a` changes too. -/
def wr (inPlace : Bool) (st : List Nat × List Nat) (i v : Nat) : List Nat × List Nat :=
  let r := st.1.set i v
  (r, if inPlace then r else st.2)

/-- The first loop of `_shift_right` (large_ints.hpp:801-803), `k` iterations from index `i`. -/
def srLoop1 (ip : Bool) (word bit : Nat) : Nat → Nat → List Nat × List Nat → List Nat × List Nat
  | 0, _, st => st
  | k + 1, i, st =>
    srLoop1 ip word bit k (i+1) (wr ip st i (extShiftRight (rd st.2 (i+word)) (rd st.2 (i+1+word)) bit))

/-- The last loop of `_shift_right` (large_ints.hpp:807-809), `k` iterations from index `i`. -/
def srLoop2 (signed ip : Bool) (n : Nat) : Nat → Nat → List Nat × List Nat → List Nat × List Nat
  | 0, _, st => st
  | k + 1, i, st => srLoop2 signed ip n k (i+1) (wr ip st i (extendedWord signed (rd st.2 (n-1))))

/-- large_ints.hpp:796 `_shift_right<Signed,N>(r,a,amount)`; `r0` is the old content of `r`.
`none` is the case `amount >= 64*N`, where the unsigned bound `N-1-word` wraps around and the loop
runs out of the arrays (undefined behaviour). -/
def shiftRightArr (signed ip : Bool) (r0 a : List Nat) (amount : Nat) : Option (List Nat) :=
  let n := a.length
  let word := amount / 64
  let bit := amount % 64
  if n ≤ word then none else
  let st : List Nat × List Nat := (if ip then a else r0, a)
  let st := srLoop1 ip word bit (n - 1 - word) 0 st
  let i := n - 1 - word
  let st := wr ip st i (shiftWord signed (rd st.2 (i+word)) bit)
  let st := srLoop2 signed ip n (n - (i+1)) (i+1) st
  some st.1

/-- The first loop of `_shift_left` (large_ints.hpp:818-821): `while(i > word+1)`, `k` iterations
from index `i` downwards. -/
def slLoop1 (ip : Bool) (word bit : Nat) : Nat → Nat → List Nat × List Nat → List Nat × List Nat
  | 0, _, st => st
  | k + 1, i, st =>
    let i := i - 1
    slLoop1 ip word bit k i (wr ip st i (extShiftLeft (rd st.2 (i-word)) (rd st.2 (i-1-word)) bit))

/-- The last loop of `_shift_left` (large_ints.hpp:826-829): zero the low words. -/
def slLoop2 (ip : Bool) : Nat → List Nat × List Nat → List Nat × List Nat
  | 0, st => st
  | i + 1, st => slLoop2 ip i (wr ip st i 0)

/-- large_ints.hpp:812 `_shift_left<N>(r,a,amount)`. An amount of at least `64*N` zeroes the
result. -/
def shiftLeftArr (ip : Bool) (r0 a : List Nat) (amount : Nat) : List Nat :=
  let n := a.length
  let word := amount / 64
  let bit := amount % 64
  let st : List Nat × List Nat := (if ip then a else r0, a)
  let st := slLoop1 ip word bit (n - (word+1)) n st
  let i := n - (n - (word+1))
  let st := if i > word then wr ip st (i-1) ((rd st.2 (i-1-word) <<< bit) % B) else st
  let i := if i > word then i-1 else i
  (slLoop2 ip i st).1

/-- large_ints.hpp:891 `shift_right`, `operator>>` (`unsigned char` amounts are at most 255; larger
arguments of the operator are reduced modulo 256 by the conversion). The result array starts
uninitialised: its old content `r0` is arbitrary. -/
def shiftRight (x : Opd) (r0 : List Nat) (amount : Nat) : Option Opd :=
  (shiftRightArr x.signed false r0 x.words amount).map fun ws => ⟨x.signed, false, ws⟩

/-- large_ints.hpp:986 `operator>>=`. -/
def shiftRightAssign (x : Opd) (amount : Nat) : Option Opd :=
  (shiftRightArr x.signed true [] x.words amount).map fun ws => { x with words := ws }

/-- large_ints.hpp:899 `shift_left`, `operator<<`. -/
def shiftLeft (x : Opd) (r0 : List Nat) (amount : Nat) : Opd :=
  ⟨x.signed, false, shiftLeftArr false r0 x.words amount⟩

/-- large_ints.hpp:995 `operator<<=`. -/
def shiftLeftAssign (x : Opd) (amount : Nat) : Opd :=
  { x with words := shiftLeftArr true [] x.words amount }

end PolyOps.LargeInt
