import Verif.Model.Hierarchy

/-! Model of going through the tree that an operation returns: /repo/include/poly_ops/clip.hpp:1565-1577, 1646-1680 (`inner_loops`), 1691-1705, and of the recursion of the Python binding that does
this, /repo/py/_polyops.pyx:142-190 (`proxy_range_to_py`, `poly_proxy_to_py_tree`).

Polygons are named by their number in the list of all polygons. Memory does not run out. -/
namespace PolyOps.TreeWalk
open PolyOps.Hierarchy

/-- _polyops.pyx:175 `proxy_range_to_py`: a tuple of what the function makes of each element; `none` if it fails for one of them. -/
def tuple {α β : Type} (g : α → Option β) : List α → Option (List β)
  | [] => some []
  | a :: l => (g a).bind fun b => (tuple g l).map fun bs => b :: bs

/-- _polyops.pyx:145 `poly_proxy_to_py_tree`: the tuple of the inner loops (clip.hpp:1677), then an object made of the polygon and this tuple; `f` makes it. The recursion is at most `depth` deep,
or the result is `none`. -/
def visit {β : Type} (f : Nat → List β → β) (t : Tree) : Nat → Nat → Option β
  | 0, _ => none
  | depth + 1, i => (tuple (visit f t depth) (t.children i)).map (f i)

/-- _polyops.pyx:274 `_clipper_execute_` with tree output: the same for the polygons at top level. -/
def convert {β : Type} (f : Nat → List β → β) (t : Tree) (depth : Nat) : Option (List β) := tuple (visit f t depth) t.top

end PolyOps.TreeWalk
