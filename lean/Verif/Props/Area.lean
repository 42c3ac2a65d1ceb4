import Verif.Props.TreeOut

/-! C67: polygons returned enclose an area; what happens where edges returned coincide. -/
namespace PolyOps.Exec
open PolyOps PolyOps.Sweep PolyOps.Region PolyOps.Planarity PolyOps.Loops PolyOps.PointSink PolyOps.Clipper

/-! ### Specification -/

/-- A polygon winds around some place. -/
def Encloses (l : List Pt) : Prop := ∃ x y, Off (edges l) x y ∧ wind (edges l) x y ≠ 0

/-! ### Proof -/

/-- No polygon has an edge without length, so each has two vertices or more; if no two edges coincide, each encloses an area. -/
theorem Shape.area {op : BoolOp} {B : List Bent} {out : List (List Pt)} (h : Shape op B out) :
    (∀ l ∈ out, 2 ≤ l.length ∧ ∀ e ∈ edges l, e.1 ≠ e.2) ∧ (Single (out.flatMap edges) → ∀ l ∈ out, 3 ≤ l.length ∧ Encloses l) := by
  have hne : ∀ l ∈ out, ∀ e ∈ edges l, e.1 ≠ e.2 := by
    intro l hl e he
    rcases h.edge e (List.mem_flatMap.mpr ⟨l, hl, he⟩) with k | k <;> obtain ⟨b, hb, k⟩ := List.mem_flatMap.mp k
    · exact h.two b hb e k
    · exact (h.two b hb _ k).symm
  have h2 : ∀ l ∈ out, 2 ≤ l.length := by
    intro l hl
    match l, h.ne l hl, hne l hl with
    | [p], _, k => exact absurd rfl (k (p, p) (by simp [edges, walk]))
    | p :: q :: l, _, _ => simp
  refine ⟨fun l hl => ⟨h2 l hl, hne l hl⟩, fun hS l hl => ⟨?_, ?_⟩⟩
  · have := h2 l hl
    match l, this, hl with
    | [p, q], _, hl =>
      exact absurd (List.mem_flatMap.mpr ⟨_, hl, by simp [edges, walk]⟩) (hS.2 (p, q) (List.mem_flatMap.mpr ⟨_, hl, by simp [edges, walk]⟩))
    | p :: q :: r :: l, _, _ => simp
  · rcases (h.nested hS).simple l hl with ⟨-, x, y, ho, e⟩ | ⟨-, x, y, ho, e⟩
    · exact ⟨x, y, ho, by rw [e]; decide⟩
    · exact ⟨x, y, ho, by rw [e]; decide⟩

section
variable {G : Type} {P : Params G} {r : Nat → Bool × Bool} {pos : Clip → Nat → Nat} {c : Clipper G} (hP : P.env1 c.rgen = realEnv id r pos)
  (hpos : PosOk (realEnv id r pos)) (hc : Empty c)

include hP hpos hc in
/-- **C67 (area of polygons).** Polygons are added to an empty clipper and an operation is run. Each polygon returned has two vertices or more
and no edge without length. If no two edges returned coincide, each has three vertices or more and encloses an area. Without the
condition this is wrong: `C67_flat`. -/
theorem C67_area_partial {ps : List Poly} (hf : Fine none ps) (op : BoolOp) (log : List TCall) :
    ∃ N st out, (∀ fuel ≥ N, run P fuel (ps.map Poly.cmd ++ [.exec op false]) (c, log) = .ok (st, List.replicate ps.length none ++ [some ⟨out, none⟩])) ∧
      (∀ l ∈ out, 2 ≤ l.length ∧ ∀ e ∈ edges l, e.1 ≠ e.2) ∧ (Single (out.flatMap edges) → ∀ l ∈ out, 3 ≤ l.length ∧ Encloses l) := by
  obtain ⟨B, -, -, h⟩ := C52_execute hP hpos hc hf
  obtain ⟨N, st, out, h1, h4⟩ := h op log
  exact ⟨N, st, out, h1, h4.toShape.area⟩

include hP hpos hc in
/-- **C67 (edges that do not overlap).** If no two edges of the polygons given overlap, and those that are not parallel only meet at integer
points, each polygon returned has three vertices or more and encloses an area. -/
theorem C67_apart {ps : List Poly} (hf : Fine none ps) (hE : Lattice (ps.flatMap fun p => edges p.pts))
    (hA : (ps.flatMap fun p => edges p.pts).Pairwise Apart) (op : BoolOp) (log : List TCall) :
    ∃ N st out, (∀ fuel ≥ N, run P fuel (ps.map Poly.cmd ++ [.exec op false]) (c, log) = .ok (st, List.replicate ps.length none ++ [some ⟨out, none⟩])) ∧
      ∀ l ∈ out, 3 ≤ l.length ∧ Encloses l := by
  obtain ⟨f, B, h0, h2, h3⟩ := lattice_pass r pos hE
  obtain ⟨N, st, out, h1, h4⟩ := run_core hP hpos hc hf h0 op log
  have hS := h4.single (single_pieces (by
    have : B.map Bent.edge = (inEdges ps).map Prod.snd := by rw [← h2, List.map_map]; rfl
    rw [this]
    exact hA.sublist (inEdges_sublist ps)) h4.ahead h3)
  exact ⟨N, st, out, h1, h4.toShape.area.2 hS⟩

end

/-! ### Cases -/

/-- Two squares that overlap meet the conditions. -/
example (g : Nat → Bool × Bool) (op : BoolOp) : ∃ N st out, (∀ fuel ≥ N, run lib fuel (squares.map Poly.cmd ++ [.exec op false]) (Clipper.fresh g, []) =
      .ok (st, List.replicate squares.length none ++ [some ⟨out, none⟩])) ∧ ∀ l ∈ out, 3 ≤ l.length ∧ Encloses l :=
  C67_apart (P := lib) rfl (takeWhile_posOk id g) (fresh_empty g) (by decide +kernel)
    (axis_lattice (by intro e he; unfold Axis; revert e; decide +kernel)) (List.Pairwise.imp (fun h => BoxApart.apart h) (by decide +kernel)) op []

/-- The polygons returned by the last of some calls. -/
def lastOut {G : Type} : Out ((Clipper G × List TCall) × List (Option Output)) → Option (List (List Pt))
  | .ok (_, l) => (l.getLast?.bind id).map Output.loops
  | _ => none

/-- Three rectangles that touch: an upright one, one to its right that lies lower and one above that. -/
def touching : List Poly := [⟨.subject, false, [⟨0, 0⟩, ⟨1, 0⟩, ⟨1, 2⟩, ⟨0, 2⟩]⟩, ⟨.subject, false, [⟨1, 1⟩, ⟨2, 1⟩, ⟨2, 3⟩, ⟨1, 3⟩]⟩,
  ⟨.subject, false, [⟨1, 0⟩, ⟨3, 0⟩, ⟨3, 1⟩, ⟨1, 1⟩]⟩]

/-- **C67 is wrong** where edges coincide: the union of three rectangles that touch has a polygon of two vertices, which encloses nothing. -/
theorem C67_flat : Fine none touching ∧ (lastOut (run lib 100 (touching.map Poly.cmd ++ [.exec .union false]) (Clipper.fresh gen, []))).map
    (fun o => decide ([⟨1, 1⟩, ⟨2, 1⟩] ∈ o)) = some true ∧ ¬ Encloses [⟨1, 1⟩, ⟨2, 1⟩] := by
  refine ⟨by decide +kernel, by decide +kernel, ?_⟩
  rintro ⟨x, y, -, h⟩
  apply h
  simp only [wind, edges, walk, List.cons_append, List.nil_append, List.map_cons, List.map_nil, List.sum_cons, List.sum_nil, count_swap ⟨1, 1⟩]
  omega

/-- A call ended with an error. -/
def failed {α : Type} : Out α → Bool
  | .bad => true
  | _ => false

/-- Three rectangles with a common lower right corner. -/
def corner : List Poly := [⟨.subject, false, [⟨1, 1⟩, ⟨2, 1⟩, ⟨2, 2⟩, ⟨1, 2⟩]⟩, ⟨.subject, false, [⟨1, 1⟩, ⟨2, 1⟩, ⟨2, 3⟩, ⟨1, 3⟩]⟩,
  ⟨.subject, false, [⟨0, 1⟩, ⟨2, 1⟩, ⟨2, 3⟩, ⟨0, 3⟩]⟩]

/-- Two triangles with spikes along a side. -/
def spikes : List Poly := [⟨.subject, false, [⟨1, 1⟩, ⟨0, 1⟩, ⟨1, 1⟩, ⟨0, 1⟩, ⟨0, 0⟩]⟩, ⟨.subject, false, [⟨1, 1⟩, ⟨1, 0⟩, ⟨0, 1⟩, ⟨1, 1⟩, ⟨0, 1⟩]⟩]

/-- C54 needs its condition: normalising three rectangles that have parts of edges in common returns polygons, but with tree output the
check that every polygon finds its parent (clip.hpp:1423) fails; without assertions such a
polygon would not be in the tree at all. The same happens with a union of triangles with spikes. -/
theorem C54_coincident_fails :
    (Fine none corner ∧ (lastOut (run lib 100 (corner.map Poly.cmd ++ [.exec .normalize false]) (Clipper.fresh gen, []))).isSome = true ∧
      failed (run lib 100 (corner.map Poly.cmd ++ [.exec .normalize true]) (Clipper.fresh gen, [])) = true) ∧
    (Fine none spikes ∧ (lastOut (run lib 100 (spikes.map Poly.cmd ++ [.exec .union false]) (Clipper.fresh gen, []))).isSome = true ∧
      failed (run lib 100 (spikes.map Poly.cmd ++ [.exec .union true]) (Clipper.fresh gen, [])) = true) := by
  refine ⟨⟨?_, ?_, ?_⟩, ?_, ?_, ?_⟩ <;> decide +kernel

end PolyOps.Exec
