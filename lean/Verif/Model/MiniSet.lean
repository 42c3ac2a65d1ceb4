/-! Model of the small sorted set /repo/include/poly_ops/mini_flat_set.hpp:15-236 and of the origin tracker
/repo/include/poly_ops/offset.hpp:357-390.

Elements are natural numbers. Reading the union member that was not written last, and reading cells beyond the allocated ones, is
undefined behaviour: `none`. `std::sort`, `std::inplace_merge` and `std::upper_bound` are insertion sort, a merge, and a linear
search (equal results on sorted input). Allocation does not fail; memory is not freed in the model, use after free is not
represented except that a set is never merged with itself. -/
namespace PolyOps.MiniSet

/-- The union: nothing written yet, one element, or a pointer to a block with its capacity and the cells written so far. -/
inductive U | uninit | item (v : Nat) | data (cap : Nat) (items : List Nat)
deriving DecidableEq, Repr

/-- mini_flat_set.hpp:30. -/
structure MSet where
  size : Nat
  u : U
deriving DecidableEq, Repr

/-- mini_flat_set.hpp:105. -/
def MSet.mk0 : MSet := ⟨0, .uninit⟩

/-- mini_flat_set.hpp:160-163 `begin`, `end`: the elements. -/
def MSet.elems (s : MSet) : Option (List Nat) :=
  if 1 < s.size then
    match s.u with
    | .data _ l => if s.size ≤ l.length then some (l.take s.size) else none
    | _ => none
  else if s.size = 1 then
    match s.u with
    | .item v => some [v]
    | _ => none
  else some []

/-- mini_flat_set.hpp:159 `empty`. -/
def MSet.empty (s : MSet) : Bool := decide (s.size ≠ 0)

/-- `std::sort`. -/
def ins (v : Nat) : List Nat → List Nat
  | [] => [v]
  | a :: l => if v ≤ a then v :: a :: l else a :: ins v l
def sort : List Nat → List Nat
  | [] => []
  | a :: l => ins a (sort l)

/-- `std::inplace_merge`. -/
def merge2 : List Nat → List Nat → List Nat
  | [], m => m
  | a :: l, m => ins a (merge2 l m)

/-- `std::unique`. -/
def uniq : List Nat → List Nat
  | [] => []
  | [a] => [a]
  | a :: b :: l => if a = b then uniq (a :: l) else a :: uniq (b :: l)
termination_by l => l.length

/-- mini_flat_set.hpp:165 `insert` of one value. -/
def MSet.insert (s : MSet) (v : Nat) : Option MSet :=
  if s.size = 0 then some ⟨1, .item v⟩
  else if s.size = 1 then
    match s.u with
    | .item t => some (if v = t then s else { s with u := .data 2 (if v < t then [v, t] else [t, v]) })
    | _ => none
  else
    match s.u with
    | .data cap l =>
      let pos := (l.take s.size).takeWhile (fun x => decide (x ≤ v))
      if pos.getLast? = some v then some s
      else
        let l' := pos ++ v :: (l.take s.size).drop pos.length
        some ⟨s.size + 1, .data (if s.size = cap then s.size * 2 else cap) l'⟩
    | _ => none

/-- mini_flat_set.hpp:203-233 `insert` of a range, from a set of size 1 on; `create_items` (60) and `append_items` (90) are those for
pointers. -/
def MSet.insertMore (s : MSet) (l : List Nat) : Option MSet :=
  if s.size = 1 then
    match s.u with
    | .item t =>
      match l.dropWhile (fun x => decide (x = t)) with
      | [] => some s
      | l' =>
        let r := uniq (sort (t :: l'))
        some ⟨r.length, .data (l'.length + 1) r⟩
    | _ => none
  else
    match l with
    | [] => some s
    | l =>
      match s.u with
      | .data cap items =>
        let total := s.size + l.length
        let r := uniq (merge2 (items.take s.size) (sort l))
        some ⟨r.length, .data (if total > cap then total else cap) r⟩
      | _ => none

def MSet.insertRange (s : MSet) (l : List Nat) : Option MSet :=
  if s.size = 0 then
    match l with
    | [] => some s
    | a :: l => MSet.insertMore ⟨1, .item a⟩ l
  else s.insertMore l

/-- The condition of `merge`: the block of `b` has room for both. -/
def MSet.fits (a b : MSet) : Option Bool :=
  if 1 < b.size then
    match b.u with
    | .data cap _ => some (decide (a.size + b.size ≤ cap))
    | _ => none
  else some false

/-- mini_flat_set.hpp:235 `merge`: the new values of `*this` and of `b`. -/
def MSet.merge (a b : MSet) : Option (MSet × MSet) :=
  (MSet.fits a b).bind fun sw =>
    let (a, b) := if sw then (b, a) else (a, b)
    b.elems.bind fun l => (a.insertRange l).map fun a => (a, b)

/-- Callbacks of a tracker. -/
inductive Call | added (i : Nat) | between (a b : Nat) | merge (src dst : Nat)
deriving DecidableEq, Repr

/-- offset.hpp:369-380 `origin_point_tracker`. Indices out of range: `none`. -/
def track (t : List MSet) : Call → Option (List MSet)
  | .added i => (MSet.mk0.insert i).map fun s => t ++ [s]
  | .between _ _ => some (t ++ [.mk0])
  | .merge f d =>
    match t[d]?, t[f]? with
    | some a, some b => (a.merge b).map fun (a, b) => (t.set f b).set d a
    | _, _ => none

def trackAll (t : List MSet) : List Call → Option (List MSet)
  | [] => some t
  | c :: l => (track t c).bind fun t => trackAll t l

/-- offset.hpp:384 `get_value`: the origins of point `i`. -/
def origins (t : List MSet) (i : Nat) : Option (List Nat) := (t[i]?).bind MSet.elems

end PolyOps.MiniSet
