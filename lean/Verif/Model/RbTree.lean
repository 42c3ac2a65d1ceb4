/-! Model of the red-black tree of the sweep sets: /repo/include/poly_ops/rbtree_algorithms.hpp and sweep_set.hpp.

The elements of the vector are numbered; element 0 is the header. `none` as a link is `NIL`. A function gives `none` where the
source would follow `NIL` as a link, or when the fuel of a loop runs out. The values of the elements and the comparison are
given by a function `cmp` on elements. -/
namespace PolyOps.RbTree

/-- sweep_set.hpp:16 `set_node` without the value, for all elements. -/
structure Mem where
  parent : Nat → Option Nat
  left : Nat → Option Nat
  right : Nat → Option Nat
  red : Nat → Bool

def upd {α : Type} (f : Nat → α) (i : Nat) (a : α) : Nat → α := fun k => if k = i then a else f k

/-- sweep_set.hpp:96 `_node_traits`. -/
def Mem.setParent (m : Mem) (i : Nat) (p : Option Nat) : Mem := { m with parent := upd m.parent i p }
def Mem.setLeft (m : Mem) (i : Nat) (p : Option Nat) : Mem := { m with left := upd m.left i p }
def Mem.setRight (m : Mem) (i : Nat) (p : Option Nat) : Mem := { m with right := upd m.right i p }
def Mem.setRed (m : Mem) (i : Nat) (c : Bool) : Mem := { m with red := upd m.red i c }

/-- `if(x) set_parent(x, p)`. -/
def Mem.adopt (m : Mem) (x : Option Nat) (p : Nat) : Mem :=
  match x with
  | some i => m.setParent i (some p)
  | none => m

/-- `x && get_color(x) == red()`. -/
def Mem.isRed (m : Mem) (x : Option Nat) : Bool :=
  match x with
  | some i => m.red i
  | none => false

/-- rbtree_algorithms.hpp:102 `minimum`. -/
def Mem.minimum (m : Mem) : Nat → Nat → Option Nat
  | 0, _ => none
  | f + 1, n =>
    match m.left n with
    | none => some n
    | some l => m.minimum f l

/-- rbtree_algorithms.hpp:112 `maximum`. -/
def Mem.maximum (m : Mem) : Nat → Nat → Option Nat
  | 0, _ => none
  | f + 1, n =>
    match m.right n with
    | none => some n
    | some l => m.maximum f l

/-- rbtree_algorithms.hpp:75: up while a right child. -/
def Mem.climbR (m : Mem) : Nat → Nat → Nat → Option (Nat × Nat)
  | 0, _, _ => none
  | f + 1, n, p => if m.right p = some n then (m.parent p).bind fun pp => m.climbR f p pp else some (n, p)

/-- rbtree_algorithms.hpp:67 `next_node`. -/
def Mem.next (m : Mem) (f n : Nat) : Option Nat :=
  match m.right n with
  | some r => m.minimum f r
  | none => (m.parent n).bind fun p => (m.climbR f n p).map fun (n, p) => if m.right n ≠ some p then p else n

/-- rbtree_algorithms.hpp:122 `is_header`. -/
def Mem.isHeader (m : Mem) (p : Nat) : Bool :=
  (m.parent p).isNone ||
    match m.left p, m.right p with
    | some l, some r => decide (l = r) || (decide (m.parent l ≠ some p) || decide (m.parent r ≠ some p))
    | _, _ => false

/-- rbtree_algorithms.hpp:94: up while a left child. -/
def Mem.climbL (m : Mem) : Nat → Nat → Nat → Option Nat
  | 0, _, _ => none
  | f + 1, p, x => if m.left x = some p then (m.parent x).bind fun xx => m.climbL f x xx else some x

/-- rbtree_algorithms.hpp:83 `prev_node`. -/
def Mem.prev (m : Mem) (f n : Nat) : Option Nat :=
  if m.isHeader n then m.right n
  else
    match m.left n with
    | some l => m.maximum f l
    | none => (m.parent n).bind fun x => m.climbL f n x

/-- rbtree_algorithms.hpp:1037, 210 `init_header`. -/
def Mem.initHeader (m : Mem) : Mem := (((m.setParent 0 none).setLeft 0 (some 0)).setRight 0 (some 0)).setRed 0 true

/-- rbtree_algorithms.hpp:372-404 `insert_unique_check`: the search. `y`: the last element visited, `lc`: whether it went left
from there, `prev`: the last element from which it went right. -/
def Mem.search (m : Mem) (cmp : Nat → Nat → Bool) (key : Nat) : Nat → Option Nat → Nat → Bool → Option Nat → Option (Nat × Bool × Option Nat)
  | _, none, y, lc, prev => some (y, lc, prev)
  | 0, some _, _, _, _ => none
  | f + 1, some x, _, _, prev =>
    if cmp key x then m.search cmp key f (m.left x) x true prev else m.search cmp key f (m.right x) x false (some x)

/-- rbtree_algorithms.hpp:809 `insert_commit`. -/
def Mem.commit (m : Mem) (new p : Nat) (ll : Bool) : Mem :=
  let m := if p = 0 then ((m.setParent 0 (some new)).setRight 0 (some new)).setLeft 0 (some new)
    else if ll then
      let m := m.setLeft p (some new)
      if m.left 0 = some p then m.setLeft 0 (some new) else m
    else
      let m := m.setRight p (some new)
      if m.right 0 = some p then m.setRight 0 (some new) else m
  ((m.setParent new (some p)).setRight new none).setLeft new none

/-- rbtree_algorithms.hpp:835 `set_child`. -/
def Mem.setChild (m : Mem) (c : Option Nat) (p : Nat) (ll : Bool) : Mem :=
  if p = 0 then m.setParent 0 c else if ll then m.setLeft p c else m.setRight p c

/-- rbtree_algorithms.hpp:845. -/
def Mem.rotLeftNoFix (m : Mem) (p pr : Nat) : Mem :=
  let prl := m.left pr
  let m := (m.setRight p prl).adopt prl p
  (m.setLeft pr (some p)).setParent p (some pr)

/-- rbtree_algorithms.hpp:856. -/
def Mem.rotLeft (m : Mem) (p pr pp : Nat) : Mem :=
  let wasLeft := decide (m.left pp = some p)
  ((m.rotLeftNoFix p pr).setParent pr (some pp)).setChild (some pr) pp wasLeft

/-- rbtree_algorithms.hpp:864. -/
def Mem.rotRightNoFix (m : Mem) (p pl : Nat) : Mem :=
  let plr := m.right pl
  let m := (m.setLeft p plr).adopt plr p
  (m.setRight pl (some p)).setParent p (some pl)

/-- rbtree_algorithms.hpp:875. -/
def Mem.rotRight (m : Mem) (p pl pp : Nat) : Mem :=
  let wasLeft := decide (m.left pp = some p)
  ((m.rotRightNoFix p pl).setParent pl (some pp)).setChild (some pl) pp wasLeft

/-- rbtree_algorithms.hpp:1236-1260: the final step. -/
def Mem.insFinal (m : Mem) (p pp pg : Nat) (ppLeft : Bool) : Option Mem :=
  let pLeft := decide (m.left pp = some p)
  if ppLeft then
    let (m, pp) := if !pLeft then (m.rotLeftNoFix pp p, p) else (m, pp)
    (m.parent pg).map fun gg => (m.rotRight pg pp gg).setRed pp false
  else
    let (m, pp) := if pLeft then (m.rotRightNoFix pp p, p) else (m, pp)
    (m.parent pg).map fun gg => (m.rotLeft pg pp gg).setRed pp false

/-- rbtree_algorithms.hpp:1217-1261: the loop of `rebalance_after_insertion`. -/
def Mem.insFix : Nat → Mem → Nat → Option Mem
  | 0, _, _ => none
  | f + 1, m, p =>
    (m.parent p).bind fun pp =>
    if pp = 0 then some m
    else
      (m.parent pp).bind fun pg =>
      if m.red pp = false ∨ pg = 0 then some m
      else
        let m := m.setRed pg true
        let pgl := m.left pg
        let ppLeft := decide (pgl = some pp)
        let x := if ppLeft then m.right pg else pgl
        match x with
        | some x =>
          if m.red x then Mem.insFix f ((m.setRed x false).setRed pp false) pg else m.insFinal p pp pg ppLeft
        | none => m.insFinal p pp pg ppLeft

/-- rbtree_algorithms.hpp:1214 `rebalance_after_insertion`. In the source the grandparent is read even if the parent is the
header; it is not used then. -/
def Mem.rebalanceIns (m : Mem) (f p : Nat) : Option Mem :=
  (Mem.insFix f (m.setRed p true) p).bind fun m => (m.parent 0).map fun r => m.setRed r false

/-- sweep_set.hpp:342 `_insert`: the memory, the element it is at or that was found, and whether it was inserted. -/
def Mem.insert (m : Mem) (cmp : Nat → Nat → Bool) (f n : Nat) : Option (Mem × Nat × Bool) :=
  (m.search cmp n f (m.parent 0) 0 true none).bind fun (y, lc, prev) =>
  match prev with
  | none => ((m.commit n y lc).rebalanceIns f n).map fun m => (m, n, true)
  | some v => if cmp v n then ((m.commit n y lc).rebalanceIns f n).map fun m => (m, n, true) else some (m, v, false)

/-- rbtree_algorithms.hpp:701, 469, 1078 `insert_before`. -/
def Mem.insertBefore (m : Mem) (f pos n : Nat) : Option Mem :=
  (if some pos ≠ m.left 0 then m.prev f pos else some pos).bind fun prev =>
  let ll := (m.parent 0).isNone || (m.left pos).isNone
  (m.commit n (if ll then pos else prev) ll).rebalanceIns f n

/-- rbtree_algorithms.hpp:602-625: `z` has two children, `y` is its successor. Also gives `x_parent`. -/
def Mem.eraseTwo (m : Mem) (z zl zr y : Nat) (x : Option Nat) (zp : Nat) (zLeft : Bool) : Option (Mem × Nat) :=
  let m := (m.setParent zl (some y)).setLeft y (some zl)
  (if y ≠ zr then
    let m := (m.setRight y (some zr)).setParent zr (some y)
    (m.parent y).map fun xp => ((m.adopt x xp).setLeft xp x, xp)
  else some (m, y)).map fun (m, xp) => ((m.setParent y (some zp)).setChild (some y) zp zLeft, xp)

/-- rbtree_algorithms.hpp:635-648: the new first element, and the new last one. -/
def Mem.minOr (m : Mem) (f zp : Nat) : Option Nat → Option Nat
  | none => some zp
  | some r => m.minimum f r

def Mem.maxOr (m : Mem) (f zp : Nat) : Option Nat → Option Nat
  | none => some zp
  | some l => m.maximum f l

/-- rbtree_algorithms.hpp:626-648: `z` has at most one child. -/
def Mem.eraseOne (m : Mem) (f z : Nat) (zl zr x : Option Nat) (zp : Nat) (zLeft : Bool) : Option Mem :=
  let m := (m.adopt x zp).setChild x zp zLeft
  (if m.left 0 = some z then (m.minOr f zp zr).map fun v => m.setLeft 0 (some v) else some m).bind fun m =>
  if m.right 0 = some z then (m.maxOr f zp zl).map fun v => m.setRight 0 (some v) else some m

/-- rbtree_algorithms.hpp:577-650 `erase` of the plain tree: the memory, `x`, `y` and `x_parent`. -/
def Mem.unlink (m : Mem) (f z : Nat) : Option (Mem × Option Nat × Nat × Nat) :=
  (m.parent z).bind fun zp =>
  let zLeft := decide (m.left zp = some z)
  match m.left z, m.right z with
  | some zl, some zr =>
    (m.minimum f zr).bind fun y =>
    let x := m.right y
    (m.eraseTwo z zl zr y x zp zLeft).map fun (m, xp) => (m, x, y, xp)
  | none, zr => (m.eraseOne f z none zr zr zp zLeft).map fun m => (m, zr, z, zp)
  | some zl, none => (m.eraseOne f z (some zl) none (some zl) zp zLeft).map fun m => (m, some zl, z, zp)

/-- rbtree_algorithms.hpp:1143-1170: `x` is the left child of `xp`. The new `x` and its parent, or nothing if that was the last
iteration. -/
def Mem.eraseLeft (m : Mem) (xp : Nat) : Option (Mem × Option Nat) :=
  (m.right xp).bind fun w =>
  (if m.red w then
    let m := (m.setRed w false).setRed xp true
    (m.parent xp).bind fun xpp =>
    let m := m.rotLeft xp w xpp
    (m.right xp).map fun w => (m, w)
  else some (m, w)).bind fun (m, w) =>
  if ¬ m.isRed (m.left w) ∧ ¬ m.isRed (m.right w) then some (m.setRed w true, some xp)
  else
    (if ¬ m.isRed (m.right w) then
      (m.left w).bind fun wl =>
      let m := (m.setRed wl false).setRed w true
      (m.parent w).bind fun wp =>
      let m := m.rotRight w wl wp
      (m.right xp).map fun w => (m, w)
    else some (m, w)).bind fun (m, w) =>
    let m := (m.setRed w (m.red xp)).setRed xp false
    let m := match m.right w with | some v => m.setRed v false | none => m
    (m.right xp).bind fun w => (m.parent xp).map fun xpp => (m.rotLeft xp w xpp, none)

/-- rbtree_algorithms.hpp:1172-1201: `x` is the right child. -/
def Mem.eraseRight (m : Mem) (xp : Nat) : Option (Mem × Option Nat) :=
  (m.left xp).bind fun w =>
  (if m.red w then
    let m := (m.setRed w false).setRed xp true
    (m.parent xp).bind fun xpp =>
    let m := m.rotRight xp w xpp
    (m.left xp).map fun w => (m, w)
  else some (m, w)).bind fun (m, w) =>
  if ¬ m.isRed (m.right w) ∧ ¬ m.isRed (m.left w) then some (m.setRed w true, some xp)
  else
    (if ¬ m.isRed (m.left w) then
      (m.right w).bind fun wr =>
      let m := (m.setRed wr false).setRed w true
      (m.parent w).bind fun wp =>
      let m := m.rotLeft w wr wp
      (m.left xp).map fun w => (m, w)
    else some (m, w)).bind fun (m, w) =>
    let m := (m.setRed w (m.red xp)).setRed xp false
    let m := match m.left w with | some v => m.setRed v false | none => m
    (m.left xp).bind fun w => (m.parent xp).map fun xpp => (m.rotRight xp w xpp, none)

/-- rbtree_algorithms.hpp:1206: `if(x) set_color(x, black())`. -/
def Mem.blacken (m : Mem) (x : Option Nat) : Mem :=
  match x with
  | some i => m.setRed i false
  | none => m

/-- rbtree_algorithms.hpp:1131 `rebalance_after_erasure_restore_invariants`. -/
def Mem.eraseFix : Nat → Mem → Option Nat → Nat → Option Mem
  | 0, _, _, _ => none
  | f + 1, m, x, xp =>
    if xp = 0 ∨ m.isRed x = true then some (m.blacken x)
    else
      (if x = m.left xp then m.eraseLeft xp else m.eraseRight xp).bind fun (m, r) =>
      match r with
      | none => some (m.blacken x)
      | some x' => (m.parent x').bind fun xp => Mem.eraseFix f m (some x') xp

/-- rbtree_algorithms.hpp:1113 `rebalance_after_erasure`. -/
def Mem.rebalanceErase (m : Mem) (f z : Nat) (x : Option Nat) (y xp : Nat) : Option Mem :=
  if y ≠ z then
    let c := m.red y
    let m := m.setRed y (m.red z)
    if c then some m else Mem.eraseFix f m x xp
  else if m.red z then some m else Mem.eraseFix f m x xp

/-- sweep_set.hpp:333 `_erase`: the memory and the element after the erased one. -/
def Mem.erase (m : Mem) (f z : Nat) : Option (Mem × Nat) :=
  (m.next f z).bind fun r => (m.unlink f z).bind fun (m, x, y, xp) => (m.rebalanceErase f z x y xp).map fun m => (m, r)

end PolyOps.RbTree
