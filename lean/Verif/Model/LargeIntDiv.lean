import Verif.Model.LargeIntShift
import Verif.Model.LargeIntMul

/-! Model of the division of /repo/include/poly_ops/large_ints.hpp:883, 1135-1367. `none` is a
processor fault or undefined behaviour (division by zero, quotient too large for the instruction,
signed overflow). -/
namespace PolyOps.LargeInt

/-- `std::countl_zero` of a word. -/
def clzWord (w : Nat) : Nat := if w = 0 then 64 else 63 - Nat.log2 w

/-- large_ints.hpp:883 `countl_zero` of the low `n` words of `x`. -/
def countlZero (x : List Nat) : Nat → Nat
  | 0 => 0
  | 1 => clzWord (rd x 0)
  | n + 2 => if rd x (n+1) = 0 then countlZero x (n+1) + 64 else clzWord (rd x (n+1))

/-- The `div` instruction (large_ints.hpp:1154, 1170): two words by one word; faults unless the
quotient fits in a word. -/
def divInstr (hi lo b : Nat) : Option (Nat × Nat) :=
  if hi < b then some ((hi * B + lo) / b, (hi * B + lo) % b) else none

/-- large_ints.hpp:1201 `divmod_each_word_long<N>`: (quotient words, remainder). -/
def divEachWord (a : List Nat) (b : Nat) : Nat → Nat → Option (List Nat × Nat)
  | 0, hi => some ([], hi)
  | n + 1, hi =>
    match divInstr hi (rd a n) b with
    | none => none
    | some (q, r) =>
      match divEachWord a b n r with
      | none => none
      | some (qs, r') => some (qs ++ [q], r')

/-- large_ints.hpp:1216 `udivmod_long<N>`: (quotient, new content of `a`, i.e. the remainder). -/
def udivmodLong (a : List Nat) (b : Nat) : Option (List Nat × List Nat) :=
  let n := a.length
  if n > 1 then
    (divEachWord a b n 0).map fun r => (r.1, r.2 :: List.replicate (n-1) 0)
  else if b = 0 then none
  else some ([rd a 0 / b], [rd a 0 % b])

/-- State of the shift-and-subtract loop: `a`, `b` and the quotient word being built. -/
structure SS where
  a : List Nat
  b : List Nat
  q : Nat

/-- large_ints.hpp:1274-1280: one iteration. -/
def ssStep (p : CarryImpl) (st : SS) : Option SS :=
  let tmp := subborrowTo p st.a st.b 0
  let q := (st.q <<< 1) % B
  let a := if tmp.2 = 0 then tmp.1 else st.a
  let q := if tmp.2 = 0 then q ||| 1 else q
  (shiftRightArr false true [] st.b 1).map fun b => ⟨a, b, q⟩

def ssIter (p : CarryImpl) : Nat → SS → Option SS
  | 0, st => some st
  | k + 1, st =>
    match ssStep p st with
    | none => none
    | some st' => ssIter p k st'

/-- large_ints.hpp:1266-1281: the loop over quotient words `n-1, ..., 0`; `m` is `shift + 1`. Returns
the quotient words and the final `a`. -/
def ssWords (p : CarryImpl) : Nat → Nat → List Nat → List Nat → Option (List Nat × List Nat)
  | 0, _, a, _ => some ([], a)
  | n + 1, m, a, b =>
    match ssIter p (m - 64 * n) ⟨a, b, 0⟩ with
    | none => none
    | some st =>
      match ssWords p n (min m (64 * n)) st.a st.b with
      | none => none
      | some (qs, a') => some (qs ++ [st.q], a')

/-- large_ints.hpp:1249 `udivmod_shift_sub<N>` on the low `n` words: (quotient, remainder). -/
def udivmodShiftSub (p : CarryImpl) : Nat → List Nat → List Nat → Option (List Nat × List Nat)
  | 0, _, _ => none
  | 1, a, b => if rd b 0 = 0 then none else some ([rd a 0 / rd b 0], [rd a 0 % rd b 0])
  | n + 2, a, b =>
    if rd a (n+1) = 0 ∧ rd b (n+1) = 0 then
      (udivmodShiftSub p (n+1) (a.take (n+1)) (b.take (n+1))).map fun r => (r.1 ++ [0], r.2 ++ [0])
    else
      let cb := countlZero b (n+2)
      let ca := countlZero a (n+2)
      if cb < ca then some (List.replicate (n+2) 0, a)
      else
        let shift := cb - ca
        ssWords p (n+2) (shift + 1) a (shiftLeftArr true [] b shift)

inductive Mod | truncate | euclid
deriving DecidableEq

/-- `-x` on words, wrapping (large_ints.hpp:406). -/
def negIf (p : CarryImpl) (c : Bool) (x : Opd) : Opd := if c then neg p x else x

/-- A word from an integer, wrapping. -/
def wrapWord (v : Int) : Nat := (v % (B:Int)).toNat

/-- large_ints.hpp:1292 `divmod`: (quotient, remainder). -/
def divmod (p : CarryImpl) (hw : Bool) (mod : Mod) (a b : Opd) : Option (Opd × Opd) :=
  let s := resSigned a b
  let n := resCount a b
  let nu := intCount s b          -- words of the remainder type
  let nb := if hw && nu == 1 then 1 else n
  if n = 1 then
    let rv (x : Opd) : Int := if s then sword (word x 0) else (word x 0 : Int)
    let av := rv a
    let bv := rv b
    -- built-in `/` and `%`
    if bv = 0 then none
    else if s && decide (av = -(H:Int)) && decide (bv = -1) then none
    else
      let q := Int.tdiv av bv
      let r := Int.tmod av bv
      if s && decide (mod = .euclid) then
        let r : Int := r.natAbs
        if decide (av < 0) != decide (bv < 0) then
          -- `abs(b_tmp)` of the minimum is undefined
          if bv = -(H:Int) then none
          else some (⟨s, false, [wrapWord (q - 1)]⟩, ⟨s, false, [wrapWord ((bv.natAbs : Int) - r)]⟩)
        else some (⟨s, false, [wrapWord q]⟩, ⟨s, false, [wrapWord r]⟩)
      else some (⟨s, false, [wrapWord q]⟩, ⟨s, false, [wrapWord r]⟩)
  else if s then
    let at0 := convert n true a
    let bt0 := convert nb true b
    let sa := negative at0
    let sb := negative bt0
    let at1 := negIf p sa at0
    let bt1 := negIf p sb bt0
    match (if hw && nu == 1 then udivmodLong at1.words (rd bt1.words 0)
           else udivmodShiftSub p n at1.words bt1.words) with
    | none => none
    | some (qw, rw) =>
      let quot : Opd := ⟨true, false, qw⟩
      -- line 1335: narrowed to a signed type with the word count of `U`, then widened
      let rem := convert nu true (convert b.words.length true ⟨true, false, rw⟩)
      match mod with
      | .truncate => some (negIf p (sa != sb) quot, negIf p sa rem)
      | .euclid =>
        if sa != sb then
          some (sub p ⟨true, false, [B-1]⟩ quot,
            convert nu true (sub p (abs p b) rem))
        else some (quot, rem)
  else
    let at0 := convert n false a
    let bt0 := convert nb false b
    match (if hw && nu == 1 then udivmodLong at0.words (rd bt0.words 0)
           else udivmodShiftSub p n at0.words bt0.words) with
    | none => none
    | some (qw, rw) => some (⟨false, false, qw⟩, convert nu false (convert b.words.length false ⟨false, false, rw⟩))

/-- `r.rem = abs(r.rem); if(signs differ) {r.quot -= 1; r.rem = abs(b) - r.rem;}`
(large_ints.hpp:1179-1185), on the values. -/
def unmulFix (av bv q r : Int) : Int × Int :=
  if decide (av < 0) != decide (bv < 0) then (q - 1, (bv.natAbs : Int) - r.natAbs) else (q, (r.natAbs : Int))

/-- large_ints.hpp:1135 `unmul<Nr>`. -/
def unmul (p : CarryImpl) (hw : Bool) (mod : Mod) (nr : Nat) (a b : Opd) : Option (Opd × Opd) :=
  let s := resSigned a b
  let na := intCount s a
  let nb := intCount s b
  if hw && decide (nr = 1) && decide (na = 2) && decide (nb = 1) then
    let av := readVal' s (toWords a 2)
    let bv := readVal' s (toWords b 1)
    -- `idiv`/`div`: fault when the divisor is zero or the quotient does not fit
    if bv = 0 then none
    else
      let q := Int.tdiv av bv
      let r := Int.tmod av bv
      if (if s then decide (-(H:Int) ≤ q) && decide (q < H) else decide (q < B)) then
        let qr := if s && decide (mod = .euclid) then unmulFix av bv q r else (q, r)
        some (⟨s, false, [wrapWord qr.1]⟩, ⟨s, false, [wrapWord qr.2]⟩)
      else none
  else
    (divmod p hw mod a b).map fun qr => (convert nr s qr.1, qr.2)
where
  /-- value of a word array -/
  readVal' (s : Bool) (ws : List Nat) : Int := if s then sval ws else (val ws : Int)

end PolyOps.LargeInt
