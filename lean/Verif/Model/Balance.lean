import Verif.Model.Geom

/-! Model of `line_balance` of /repo/include/poly_ops/clip.hpp:745-826. -/
namespace PolyOps

/-- clip.hpp:203 `bool_set`. -/
inductive BSet | subject | clip
deriving DecidableEq, Repr

/-- A directed line of the polygons: the loop point `idx` at `p`, the next loop point at `q`, and the
set of the point. In the code the lines are named by their start index (`main_i`). -/
structure Line where
  idx : Nat
  p : Pt
  q : Pt
  set : BSet
deriving DecidableEq, Repr

/-- `line_delta` (clip.hpp:618). -/
def Line.delta (l : Line) : Pt := l.q - l.p

/-- clip.hpp:2196-2204: the segment of a line is ordered by x; a vertical line keeps its direction. -/
def Line.aIsMain (l : Line) : Bool := decide (l.p.x ≤ l.q.x)
def Line.sa (l : Line) : Pt := if l.aIsMain then l.p else l.q
def Line.sb (l : Line) : Pt := if l.aIsMain then l.q else l.p

/-- The two counters `wn[2]`. -/
structure Wn where
  s : Int
  c : Int
deriving DecidableEq, Repr

def Wn.get (w : Wn) : BSet → Int
  | .subject => w.s
  | .clip => w.c
def Wn.add (w : Wn) (k : BSet) (v : Int) : Wn :=
  match k with
  | .subject => { w with s := w.s + v }
  | .clip => { w with c := w.c + v }

/-- The members `wn` and `intrs_tmp`. -/
structure LineBal where
  wn : Wn
  hits : List Nat
deriving DecidableEq, Repr

/-- clip.hpp:759 constructor. -/
def LineBal.init (l : Line) : LineBal :=
  ⟨if l.delta.x < 0 then (Wn.mk 0 0).add l.set (-1) else ⟨0, 0⟩, []⟩

/-- clip.hpp:767 `check`: the line `l` being classified, and another segment `s`. -/
def LineBal.check (l : Line) (b : LineBal) (s : Line) : LineBal :=
  if s.idx ≠ l.idx then
    if upRay s.sa s.sb l.p (hsignOf l.delta) l.delta (decide (s.idx > l.idx)) then
      ⟨b.wn.add s.set (if s.aIsMain then 1 else -1), b.hits ++ [s.idx]⟩
    else b
  else b

/-- All checks of one scan (clip.hpp:2281-2283). -/
def lineBal (l : Line) (segs : List Line) : LineBal := segs.foldl (LineBal.check l) (LineBal.init l)

/-- clip.hpp:150 `bool_op`. -/
inductive BoolOp | union | intersection | xor | difference | normalize
deriving DecidableEq, Repr

/-- The line states that `result` can give (clip.hpp:207): the `keep` bit and the `reverse` bit. -/
structure LState where
  keep : Bool
  rev : Bool
deriving DecidableEq, Repr

def LState.kept : LState := ⟨true, false⟩
def LState.discard : LState := ⟨false, false⟩
def LState.keepRev : LState := ⟨true, true⟩
def LState.discardRev : LState := ⟨false, true⟩

/-- clip.hpp:790 `result(op)`; `k` is the set of the line. `int` arithmetic is unbounded here. -/
def lbResult (op : BoolOp) (k : BSet) (w : Wn) : LState :=
  match op with
  | .union => if w.s + w.c = 0 then .kept else .discard
  | .intersection =>
    let ws := if k = .clip then w.c else w.s
    let wc := if k = .clip then w.s else w.c
    if ws = 0 ∧ wc > 0 then .kept else .discard
  | .xor =>
    let ws := if k = .clip then w.c else w.s
    let wc := if k = .clip then w.s else w.c
    if ws = 0 then (if wc > 0 then .keepRev else .kept) else .discard
  | .difference =>
    if k = .subject then
      if w.s = 0 then (if w.c > 0 then .discard else .kept) else .discard
    else if w.c = 0 then (if w.s > 0 then .keepRev else .discardRev) else .discard
  | .normalize => if Int.tmod (w.s + w.c) 2 = 0 then .kept else .keepRev

/-- clip.hpp:661-745 `dual_line_balance`: two lines with one start point (used to orient the loops of a
tree). The sets are not distinguished. -/
structure DualBal where
  w1 : Int
  w2 : Int
  h1 : List Nat
  h2 : List Nat
deriving DecidableEq, Repr

def DualBal.init (l1 l2 : Line) : DualBal :=
  ⟨if l1.delta.x < 0 then -1 else 0, if l2.delta.x < 0 then -1 else 0, [], []⟩

/-- clip.hpp:684 `check`. -/
def DualBal.check (l1 l2 : Line) (b : DualBal) (s : Line) : DualBal :=
  let v : Int := if s.aIsMain then 1 else -1
  if s.idx = l1.idx then
    if upRay s.sa s.sb l1.p (hsignOf l2.delta) l2.delta (decide (s.idx > l2.idx)) then
      { b with w2 := b.w2 + v, h2 := b.h2 ++ [s.idx] }
    else b
  else if s.idx = l2.idx then
    if upRay s.sa s.sb l1.p (hsignOf l1.delta) l1.delta (decide (s.idx > l1.idx)) then
      { b with w1 := b.w1 + v, h1 := b.h1 ++ [s.idx] }
    else b
  else
    let r := dualUpRay s.sa s.sb l1.p (hsignOf l1.delta) l1.delta (decide (s.idx > l1.idx))
      (hsignOf l2.delta) l2.delta (decide (s.idx > l2.idx))
    let b := if r.1 then { b with w1 := b.w1 + v, h1 := b.h1 ++ [s.idx] } else b
    if r.2 then { b with w2 := b.w2 + v, h2 := b.h2 ++ [s.idx] } else b

def dualBal (l1 l2 : Line) (segs : List Line) : DualBal := segs.foldl (DualBal.check l1 l2) (DualBal.init l1 l2)

end PolyOps
