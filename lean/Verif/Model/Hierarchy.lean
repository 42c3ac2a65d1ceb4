import Verif.Model.Loops

/-! Model of the nesting of loops: /repo/include/poly_ops/clip.hpp:1308-1425 (`unique_sorted_loop_points`,
`replace_line_indices_with_loop_indices`, `arrange_loops`, `loop_hierarchy`).

Simplifications: `std::ranges::sort`, which need not be stable, is a stable sort; the theorems are for all orders of the samples and
so cover every order of equal elements. The children of a loop are a list of loop numbers in place of pointers. -/
namespace PolyOps.Hierarchy
open PolyOps PolyOps.Sweep PolyOps.Loops

/-- Adjacent elements with equal keys: the first is kept (`std::ranges::unique`). -/
def uniqBy {α : Type} (key : α → Nat) : List α → List α
  | [] => []
  | [a] => [a]
  | a :: b :: l => if key a = key b then uniqBy key (a :: l) else a :: uniqBy key (b :: l)
termination_by l => l.length

/-- Insertion of the sort. -/
def insertBy {α : Type} (key : α → Nat) (a : α) : List α → List α
  | [] => [a]
  | b :: l => if key a ≤ key b then a :: b :: l else b :: insertBy key a l

def sortBy {α : Type} (key : α → Nat) : List α → List α
  | [] => []
  | a :: l => insertBy key a (sortBy key l)

/-- The loop number, if not negative. -/
def loopOf : LIdx → Option Nat
  | .loop k => some k
  | _ => none

/-- clip.hpp:1330 `unique_sorted_loop_points`: (loop number, hits) of the samples. The point is replaced by its loop number here
already, in the source at the end of the next function. -/
def uniqueSorted (idx : Nat → LIdx) (samples : List (Nat × List Nat)) : List (Nat × List Nat) :=
  uniqBy Prod.fst (sortBy Prod.fst (samples.filterMap fun s => (loopOf (idx s.1)).map fun k => (k, s.2)))

/-- clip.hpp:1389-1392: the direction of the line from point `i`. -/
def lineSign (data : Nat → Pt) (next : Nat → Nat) (i : Nat) : Int :=
  let dx := (data i).x - (data (next i)).x
  let dy := (data i).y - (data (next i)).y
  if (if dx ≠ 0 then dx else dy) > 0 then 1 else -1

/-- clip.hpp:1382-1393: one hit of a sample on loop `own`. -/
def countHit (data : Nat → Pt) (next : Nat → Nat) (idx : Nat → LIdx) (own : Nat) (inside : Nat → Int) (i : Nat) : Nat → Int :=
  match idx i with
  | .loop l => if l = own then inside else setFn inside l (inside l + lineSign data next i)
  | _ => inside

/-- clip.hpp:1367 `replace_line_indices_with_loop_indices`; `n` loops. -/
def replaceHits (data : Nat → Pt) (next : Nat → Nat) (idx : Nat → LIdx) (n : Nat) (item : Nat × List Nat) : Nat × List Nat :=
  let inside := item.2.foldl (countHit data next idx item.1) (fun _ => 0)
  (item.1, (List.range n).filter (fun l => decide (inside l ≠ 0)))

/-- Result of `arrange_loops`: the loops at top level, the children of each. -/
structure Tree where
  top : List Nat
  children : Nat → List Nat

/-- clip.hpp:1417: the first hit contained in one loop less. -/
def parentOf (items : List (Nat × List Nat)) (hits : List Nat) : Option Nat :=
  hits.find? fun o => decide ((items.getD o (0, [])).2.length + 1 = hits.length)

/-- clip.hpp:1412-1424: the items `l` from the list of all items. -/
def arrange (items : List (Nat × List Nat)) : List (Nat × List Nat) → Tree → Option Tree
  | [], t => some t
  | (p, hits) :: l, t =>
    if hits = [] then arrange items l { t with top := t.top ++ [p] }
    else match parentOf items hits with
      | none => none
      | some o => arrange items l { t with children := setFn t.children o (t.children o ++ [p]) }

/-- clip.hpp:1403 `arrange_loops` with its first assertion. -/
def arrangeLoops (items : List (Nat × List Nat)) (n : Nat) : Option Tree :=
  if items.map Prod.fst = List.range n then arrange items items ⟨[], fun _ => []⟩ else none

/-- clip.hpp:1431 `loop_hierarchy`. -/
def loopHierarchy (data : Nat → Pt) (next : Nat → Nat) (idx : Nat → LIdx) (n : Nat) (samples : List (Nat × List Nat)) : Option Tree :=
  arrangeLoops ((uniqueSorted idx samples).map (replaceHits data next idx n)) n

end PolyOps.Hierarchy
