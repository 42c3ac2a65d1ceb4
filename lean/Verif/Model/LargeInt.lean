/-
Model of /repo/include/poly_ops/large_ints.hpp.

A `full_uint` is a natural number below `B = 2^64` (the 64-bit configuration, large_ints.hpp:90-110).
A multi-word integer is a little-endian list of words, exactly like the `_data` array of
`compound_xint` (large_ints.hpp:365-471).  All wrap-around is written explicitly as `% B`.
-/
namespace PolyOps.LargeInt

/-- `2^64`, the number of values of `full_uint`. -/
def B : Nat := 18446744073709551616

/-- `2^63`, the weight of the sign bit of a word. -/
def H : Nat := 9223372036854775808

/-- Numeric value of a little-endian word array (the value of a `_compound_xint_ref`). -/
def val : List Nat → Nat
  | [] => 0
  | w :: ws => w + B * val ws

/-- All elements are words. -/
def Words (ws : List Nat) : Prop := ∀ w ∈ ws, w < B

/-- large_ints.hpp:185 `extended_word<Signed>`: the word that sign/zero extends a value whose top
word is `x`. `(full_int)x >> 63` is all ones for a negative word. -/
def extendedWord (signed : Bool) (x : Nat) : Nat :=
  if signed && decide (H ≤ x) then B - 1 else 0

/-- An operand of the generic functions: a `compound_xint<N,Signed>` or a built-in integer.
`spare` marks an unsigned built-in type that is narrower than its last word (e.g. `uint32_t`), for
which `_int_count<true,T>` (large_ints.hpp:206) needs no extra word. A built-in signed integer
narrower than a word is its sign-extended word, which is what `compi_hi<1>` reads. -/
structure Opd where
  signed : Bool
  spare : Bool
  words : List Nat
deriving DecidableEq, Repr

/-- Top word `hi()` (large_ints.hpp:449). -/
def Opd.hi (x : Opd) : Nat := x.words.getLastD 0

structure Opd.WF (x : Opd) : Prop where
  nonempty : x.words ≠ []
  words : Words x.words
  spare : x.spare = true → x.signed = false ∧ x.hi < H

/-- The mathematical value of a word array read as `N`-word two's complement. -/
def sval (ws : List Nat) : Int :=
  if 2 * val ws < B ^ ws.length then (val ws : Int) else (val ws : Int) - (B : Int) ^ ws.length

/-- The mathematical value of an operand. -/
def Opd.value (x : Opd) : Int := if x.signed then sval x.words else (val x.words : Int)

/-- `int_count<Signed,T>` (large_ints.hpp:206-224, 485-488). -/
def intCount (signed : Bool) (x : Opd) : Nat :=
  x.words.length + (if signed && !x.signed && !x.spare then 1 else 0)

/-- `compi_hi<i+1>(x)` (large_ints.hpp:226-239, 259-271): word `i`, extended past the end. -/
def word (x : Opd) (i : Nat) : Nat :=
  x.words.getD i (extendedWord x.signed x.hi)

/-- The words that a template of size `N` reads from `x`: `compi_hi<N>` of the repeated `compi_lo`
(large_ints.hpp:273, 476). -/
def toWords (x : Opd) (n : Nat) : List Nat := (List.range n).map (word x)

/-! ### carry primitives (large_ints.hpp:497-592) -/

/-- One back end of the word primitives. Every function returns (result word, carry out). -/
structure CarryImpl where
  /-- `_addcarry(a,b,out,carry)` -/
  add : Nat → Nat → Nat → Nat × Nat
  /-- `_addcarry_to(a,b,carry)` -/
  addTo : Nat → Nat → Nat → Nat × Nat
  /-- `_subborrow(a,b,out,carry)` -/
  sub : Nat → Nat → Nat → Nat × Nat
  /-- `_subborrow_to(a,b,carry)` -/
  subTo : Nat → Nat → Nat → Nat × Nat

/-- large_ints.hpp:501-535: the Intel intrinsics and Clang builtins, whose documented meaning is
the exact carry. -/
def intrinsicImpl : CarryImpl where
  add a b c := ((a + b + c) % B, (a + b + c) / B)
  addTo a b c := ((a + b + c) % B, (a + b + c) / B)
  sub a b c := ((a + B + B - b - c) % B, if a < b + c then 1 else 0)
  subTo a b c := ((a + B + B - b - c) % B, if a < b + c then 1 else 0)

/-- large_ints.hpp:538-565: GCC, two `__builtin_*_overflow` calls whose flags are or-ed. -/
def gccImpl : CarryImpl where
  add a b c :=
    let carry2 := if B ≤ a + b then 1 else 0
    let out := (a + b) % B
    let carry3 := if B ≤ out + c then 1 else 0
    ((out + c) % B, carry2 ||| carry3)
  addTo a b c :=
    let carry2 := if B ≤ a + b then 1 else 0
    let a := (a + b) % B
    let carry3 := if B ≤ a + c then 1 else 0
    ((a + c) % B, carry2 ||| carry3)
  sub a b c :=
    let carry2 := if a < b then 1 else 0
    let out := (a + B - b) % B
    let carry3 := if out < c then 1 else 0
    ((out + B - c) % B, carry2 ||| carry3)
  subTo a b c :=
    let carry2 := if a < b then 1 else 0
    let a := (a + B - b) % B
    let carry3 := if a < c then 1 else 0
    ((a + B - c) % B, carry2 ||| carry3)

/-- large_ints.hpp:568-592: plain C++. The comparisons are the ones in the source, including the
comparison of the final sum with `a` (or `b`) after the carry was added. -/
def plainImpl : CarryImpl where
  add a b c :=
    let out := (a + b) % B
    let cr := if out < a then 1 else 0
    let out := (out + c) % B
    (out, (if out < a then 1 else 0) ||| cr)
  addTo a b c :=
    let a := (a + b) % B
    let cr := if a < b then 1 else 0
    let a := (a + c) % B
    (a, (if a < b then 1 else 0) ||| cr)
  sub a b c :=
    let out := (a + B - b) % B
    let cr := if a < out then 1 else 0
    let out := (out + B - c) % B
    (out, (if a < out then 1 else 0) ||| cr)
  subTo a b c :=
    let prev_a := a
    let a := (a + B - b) % B
    let cr := if prev_a < a then 1 else 0
    let a := (a + B - c) % B
    (a, (if prev_a < a then 1 else 0) ||| cr)

/-! ### addition and subtraction (large_ints.hpp:737-775, 838-881) -/

/-- large_ints.hpp:737 `addcarry<N>(a,b,out)`, with the low words first; the recursion of the
template processes word 0 first and passes the carry up. -/
def addcarry (p : CarryImpl) : List Nat → List Nat → Nat → List Nat × Nat
  | a :: as, b :: bs, c =>
    let o := p.add a b c
    let os := addcarry p as bs o.2
    (o.1 :: os.1, os.2)
  | _, _, c => ([], c)

/-- large_ints.hpp:748 `addcarry<N>(a,b)`: in place. -/
def addcarryTo (p : CarryImpl) : List Nat → List Nat → Nat → List Nat × Nat
  | a :: as, b :: bs, c =>
    let o := p.addTo a b c
    let os := addcarryTo p as bs o.2
    (o.1 :: os.1, os.2)
  | _, _, c => ([], c)

/-- large_ints.hpp:758 `subborrow<N>(a,b,out)`. -/
def subborrow (p : CarryImpl) : List Nat → List Nat → Nat → List Nat × Nat
  | a :: as, b :: bs, c =>
    let o := p.sub a b c
    let os := subborrow p as bs o.2
    (o.1 :: os.1, os.2)
  | _, _, c => ([], c)

/-- large_ints.hpp:769 `subborrow<N>(a,b)`: in place. -/
def subborrowTo (p : CarryImpl) : List Nat → List Nat → Nat → List Nat × Nat
  | a :: as, b :: bs, c =>
    let o := p.subTo a b c
    let os := subborrowTo p as bs o.2
    (o.1 :: os.1, os.2)
  | _, _, c => ([], c)

/-- large_ints.hpp:780 `subborrow_or<N>(a,b,out)`: the borrow, and the bitwise or of all difference
words. -/
def subborrowOr (p : CarryImpl) : List Nat → List Nat → Nat → Nat → Nat × Nat
  | a :: as, b :: bs, out, c =>
    let x := p.sub a b c
    subborrowOr p as bs (out ||| x.1) x.2
  | _, _, out, c => (out, c)

/-- Result signedness and size of `add`, `sub`, `cmp`, `divmod` (large_ints.hpp:839-840). -/
def resSigned (a b : Opd) : Bool := a.signed || b.signed
def resCount (a b : Opd) : Nat :=
  max (intCount (resSigned a b) a) (intCount (resSigned a b) b)

/-- large_ints.hpp:838 `add`. -/
def add (p : CarryImpl) (a b : Opd) : Opd :=
  let n := resCount a b
  ⟨resSigned a b, false, (addcarry p (toWords a n) (toWords b n) 0).1⟩

/-- large_ints.hpp:845 `sub`. -/
def sub (p : CarryImpl) (a b : Opd) : Opd :=
  let n := resCount a b
  ⟨resSigned a b, false, (subborrow p (toWords a n) (toWords b n) 0).1⟩

/-- large_ints.hpp:974 `operator+=`: `b` must be safely convertible (`safe_comp_or_single_i`). -/
def addAssign (p : CarryImpl) (a b : Opd) : Opd :=
  { a with words := (addcarryTo p a.words (toWords b a.words.length) 0).1 }

/-- large_ints.hpp:978 `operator-=`. -/
def subAssign (p : CarryImpl) (a b : Opd) : Opd :=
  { a with words := (subborrowTo p a.words (toWords b a.words.length) 0).1 }

/-- Concept `safe_comp_or_single_i<T,N,Signed>` (large_ints.hpp:362). -/
def SafeConv (n : Nat) (signed : Bool) (x : Opd) : Prop :=
  intCount signed x ≤ n ∧ (signed = true ∨ x.signed = false)

/-- large_ints.hpp:870 `ar_add` (a plain loop over arrays). -/
def arAdd (p : CarryImpl) (a b : List Nat) : List Nat := (addcarry p a b 0).1
/-- large_ints.hpp:876 `ar_sub`. -/
def arSub (p : CarryImpl) (a b : List Nat) : List Nat := (subborrow p a b 0).1

/-- A word-sized unsigned constant, `full_uint(x)`. -/
def u64 (x : Nat) : Opd := ⟨false, false, [x]⟩

/-- large_ints.hpp:406 unary minus (`N == 1` negates the word, otherwise `full_uint(0) - x`). -/
def neg (p : CarryImpl) (x : Opd) : Opd :=
  match x.words with
  | [w] => { x with words := [(B - w) % B] }
  | _ => sub p (u64 0) x

/-- large_ints.hpp:437 `negative()`. -/
def negative (x : Opd) : Bool := x.signed && decide (H ≤ x.hi)

/-- large_ints.hpp:853 `abs` for compound types (built-in types use `std::abs`, which has undefined
behaviour on the minimum value; the model wraps there like the other branch). -/
def abs (p : CarryImpl) (x : Opd) : Opd :=
  if x.signed then (if H ≤ x.hi then neg p x else x) else x

/-- Converting constructor of `compound_xint<N,Signed>` (large_ints.hpp:387). -/
def convert (n : Nat) (signed : Bool) (x : Opd) : Opd := ⟨signed, false, toWords x n⟩

/-! ### comparison (large_ints.hpp:909-946) -/

/-- large_ints.hpp:909 `eq`. -/
def eq (a b : Opd) : Bool :=
  let n := resCount a b
  (List.range n).all fun i => word a i == word b i

/-- A word read as `full_int`. -/
def sword (w : Nat) : Int := if w < H then (w : Int) else (w : Int) - B

def cmpInt (a b : Int) : Ordering := if a < b then .lt else if a = b then .eq else .gt

/-- large_ints.hpp:917 `cmp`. -/
def cmp (p : CarryImpl) (a b : Opd) : Ordering :=
  let s := resSigned a b
  let n := resCount a b
  if n > 1 then
    if s then
      let r := subborrowOr p (toWords a (n-1)) (toWords b (n-1)) 0 0
      let ah := sword (word a (n-1))
      let bh := sword (word b (n-1))
      if ah ≠ bh then cmpInt ah bh
      else if r.1 ≠ 0 then (if r.2 ≠ 0 then .lt else .gt) else .eq
    else
      let r := subborrowOr p (toWords a n) (toWords b n) 0 0
      if r.2 ≠ 0 then .lt else if r.1 ≠ 0 then .gt else .eq
  else if s then cmpInt (sword (word a 0)) (sword (word b 0))
  else cmpInt (word a 0) (word b 0)

end PolyOps.LargeInt
