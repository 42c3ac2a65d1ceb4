import Verif.Props.Area
import Verif.Props.Compose
import Verif.Props.Far

/-! C53, C56, C58 and C67 with crossings computed with doubles. -/
namespace PolyOps.Exec
open PolyOps PolyOps.Sweep PolyOps.Region PolyOps.Planarity PolyOps.Loops PolyOps.PointSink PolyOps.Clipper

section
variable (g : Nat → Bool × Bool) (o : Pt) {ps : List Poly} (hf : Fine none ps) (hsq : ∀ p ∈ ps, ∀ v ∈ p.pts, InSq o 90000 v)

include hf hsq in
/-- **C53 and C67 with doubles.** For polygons in a square with side 90000, when an operation returns, the polygons returned have two vertices
or more and no edges without length; if no two of their edges coincide they are nested and each encloses an area. -/
theorem C53_double (op : BoolOp) (log : List TCall) (fuel : Nat) :
    run libDouble fuel (ps.map Poly.cmd ++ [.exec op false]) (Clipper.fresh g, log) = .fuel ∨
      ∃ st out, run libDouble fuel (ps.map Poly.cmd ++ [.exec op false]) (Clipper.fresh g, log) =
          .ok (st, List.replicate ps.length none ++ [some ⟨out, none⟩]) ∧
        (∀ l ∈ out, 2 ≤ l.length ∧ ∀ e ∈ edges l, e.1 ≠ e.2) ∧
        (Single (out.flatMap edges) → Nested out ∧ ∀ l ∈ out, 3 ≤ l.length ∧ Encloses l) := by
  obtain ⟨B, -, -, h⟩ := C59_double g o hf hsq
  rcases h op log fuel with h | ⟨st, out, e1, e2⟩
  · exact Or.inl h
  · exact Or.inr ⟨st, out, e1, e2.area.1, fun hS => ⟨e2.nested hS, e2.area.2 hS⟩⟩

include hf hsq in
/-- **C56 with doubles.** For polygons in a square with side 90000, when an operation returns, any two edges returned have the same ends or
meet only at places that are ends of both, the polygons wind once or not at all around every place off their edges, and drawing them
ends and shows the places around which they wind once. -/
theorem C56_double (op : BoolOp) (log : List TCall) (fuel : Nat) :
    run libDouble fuel (ps.map Poly.cmd ++ [.exec op false]) (Clipper.fresh g, log) = .fuel ∨
      ∃ st out, run libDouble fuel (ps.map Poly.cmd ++ [.exec op false]) (Clipper.fresh g, log) =
          .ok (st, List.replicate ps.length none ++ [some ⟨out, none⟩]) ∧
        (∀ e ∈ out.flatMap edges, ∀ f ∈ out.flatMap edges, e = f ∨ e = (f.2, f.1) ∨ ∀ x y, OnSegQ x y e.1 e.2 → OnSegQ x y f.1 f.2 →
          EndOf e x y ∧ EndOf f x y) ∧
        (∀ x y, Off (out.flatMap edges) x y → wind (out.flatMap edges) x y = 0 ∨ wind (out.flatMap edges) x y = 1) ∧
        ∀ (realloc : Nat → Bool) (orc : Nat → Raster.Place), (∀ n, realloc n = false) →
          (∀ n, Raster.Fair (Raster.envOf (Raster.addLoops out) realloc) (orc n)) → ∀ width height : Int, 0 < width → ∀ rule, rule ≠ .negative →
          ∃ runs, Draws out realloc orc width height rule runs ∧
            Shows runs width height (out.flatMap edges) fun x y => wind (out.flatMap edges) x y = 1 := by
  obtain ⟨B, -, -, h⟩ := C59_double g o hf hsq
  rcases h op log fuel with h | ⟨st, out, e1, e2⟩
  · exact Or.inl h
  · exact Or.inr ⟨st, out, e1, e2.meet, fun x y => e2.zero_or_one, fun realloc orc hs hfa width height hw rule hr =>
      e2.shows realloc hs orc hfa width height hw hr⟩

include hf hsq in
/-- **C58 with doubles.** For polygons in a square with side 90000, when all operations return, their results fit together: what is in the
difference is in the exclusive or; nothing is in both the exclusive or and the intersection; what is in the intersection is in the union;
and what is in the union is in the exclusive or or the intersection. -/
theorem C58_double (log : List TCall) (fuel : Nat)
    (hret : ∀ op, run libDouble fuel (ps.map Poly.cmd ++ [.exec op false]) (Clipper.fresh g, log) ≠ .fuel) :
    ∃ out : BoolOp → List (List Pt), (∀ op, ∃ st, run libDouble fuel (ps.map Poly.cmd ++ [.exec op false]) (Clipper.fresh g, log) =
        .ok (st, List.replicate ps.length none ++ [some ⟨out op, none⟩])) ∧
      ∀ x y, (∀ op, Off ((out op).flatMap edges) x y) → ∀ w : BoolOp → Int, (∀ op, w op = wind ((out op).flatMap edges) x y) →
        w .difference ≤ w .xor ∧ w .xor + w .intersection ≤ 1 ∧ w .intersection ≤ w .union ∧ w .union ≤ w .xor + w .intersection := by
  obtain ⟨B, -, -, h⟩ := C59_double g o hf hsq
  choose st out e1 e2 using fun op => (h op log fuel).resolve_left (hret op)
  exact ⟨out, fun op => ⟨st op, e1 op⟩, fun x y ho w hw => fit_of e2 ho hw⟩

end

/-! ### Cases -/

/-- The two rectangles of C59 meet the conditions, and all operations return. -/
example : Fine none rects ∧ (∀ p ∈ rects, ∀ v ∈ p.pts, InSq ⟨0, 0⟩ 90000 v) ∧
    ∀ op ∈ [BoolOp.union, .intersection, .xor, .difference, .normalize],
      (outOf (run libDouble 100 (rects.map Poly.cmd ++ [.exec op false]) (Clipper.fresh down, []))).isSome = true := by
  refine ⟨by decide +kernel, ?_, by decide +kernel⟩
  intro p hp v hv; unfold InSq; revert p v; decide +kernel

end PolyOps.Exec
