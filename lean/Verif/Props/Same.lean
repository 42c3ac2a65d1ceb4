import Verif.Props.Compose
import Verif.Props.Far
import Mathlib.Data.List.Rotate

/-! C68: the result depends on the regions given only, not on the order of the polygons or of the vertices. -/
namespace PolyOps.Exec
open PolyOps PolyOps.Sweep PolyOps.Region PolyOps.Planarity PolyOps.Loops PolyOps.PointSink PolyOps.Clipper

/-! ### Specification -/

/-- All edges of some polygons. -/
def allEdges (ps : List Poly) : List (Pt × Pt) := ps.flatMap fun p => edges p.pts

/-- Two lists of polygons wind equally often around each place that is on none of their edges, subjects as subjects and clips as clips. -/
def Alike (ps qs : List Poly) : Prop := ∀ k x y, Off (allEdges ps) x y → Off (allEdges qs) x y → wind (edgesOf ps k) x y = wind (edgesOf qs k) x y

/-- The same polygon, from another vertex on. -/
def Turned (p q : Poly) : Prop := p.set = q.set ∧ p.pts ~r q.pts

/-! ### Proof -/

theorem edges_rotate {l m : List Pt} (h : l ~r m) : (edges l).Perm (edges m) := by
  have one : ∀ l : List Pt, (edges l).Perm (edges (l.rotate 1)) := by
    intro l
    match l with
    | [] => exact List.Perm.refl _
    | [a] => rw [List.rotate_singleton]
    | a :: b :: t =>
      show (walk a (b :: (t ++ [a]))).Perm (walk b ((t ++ [a]) ++ [b]))
      have : walk b (t ++ [a] ++ [b]) = walk b (t ++ [a]) ++ [(a, b)] := by
        rw [List.append_assoc]
        exact walk_append b a t [b]
      rw [this]
      exact List.perm_append_comm (l₁ := [(a, b)])
  obtain ⟨n, rfl⟩ := h
  induction n with
  | zero => rw [List.rotate_zero]
  | succ n ih => rw [← List.rotate_rotate]; exact ih.trans (one _)

theorem edgesOf_perm {ps qs : List Poly} (h : ps.Perm qs) (k : BSet) : (edgesOf ps k).Perm (edgesOf qs k) := (h.filter _).flatMap_right _

theorem edgesOf_turned {ps qs : List Poly} (h : List.Forall₂ Turned ps qs) (k : BSet) : (edgesOf ps k).Perm (edgesOf qs k) := by
  induction h with
  | nil => exact List.Perm.refl _
  | @cons p q ps qs h1 _ ih =>
    have hset : ∀ p : Poly, ∀ ps, edgesOf (p :: ps) k = (if p.set = k then edges p.pts else []) ++ edgesOf ps k := by
      intro p ps
      unfold edgesOf
      rw [List.filter_cons]
      by_cases c : p.set = k
      · rw [if_pos (by simpa using c), if_pos c]; rfl
      · rw [if_neg (by simpa using c), if_neg c]; rfl
    rw [hset, hset, h1.1]
    refine List.Perm.append ?_ ih
    split
    · exact edges_rotate h1.2
    · exact List.Perm.refl _

theorem allEdges_turned {ps qs : List Poly} (h : List.Forall₂ Turned ps qs) : (allEdges ps).Perm (allEdges qs) := by
  induction h with
  | nil => exact List.Perm.refl _
  | @cons p q ps qs h1 _ ih => exact (edges_rotate h1.2).append ih

section
variable {G : Type} {P : Params G} {r : Nat → Bool × Bool} {pos : Clip → Nat → Nat} {c : Clipper G} (hP : P.env1 c.rgen = realEnv id r pos)
  (hpos : PosOk (realEnv id r pos)) (hc : Empty c)
variable {G' : Type} {P' : Params G'} {r' : Nat → Bool × Bool} {pos' : Clip → Nat → Nat} {c' : Clipper G'} (hP' : P'.env1 c'.rgen = realEnv id r' pos')
  (hpos' : PosOk (realEnv id r' pos')) (hc' : Empty c')

include hP hpos hc hP' hpos' hc' in
/-- **C68 (equal regions).** Two lists of polygons with the same winding numbers are given to two empty clippers, whatever their random
numbers are, and the same operation is run. If edges that are not parallel only meet at integer points, in each list, the results wind
equally often around every place that is on no edge returned. -/
theorem C68_alike {ps qs : List Poly} (hf : Fine none ps) (hf' : Fine none qs) (hE : Lattice (allEdges ps)) (hE' : Lattice (allEdges qs))
    (h : Alike ps qs) (op : BoolOp) (log log' : List TCall) :
    ∃ N st st' out out', (∀ fuel ≥ N, run P fuel (ps.map Poly.cmd ++ [.exec op false]) (c, log) = .ok (st, List.replicate ps.length none ++ [some ⟨out, none⟩]) ∧
        run P' fuel (qs.map Poly.cmd ++ [.exec op false]) (c', log') = .ok (st', List.replicate qs.length none ++ [some ⟨out', none⟩])) ∧
      ∀ x y, Off (out.flatMap edges) x y → Off (out'.flatMap edges) x y → wind (out.flatMap edges) x y = wind (out'.flatMap edges) x y := by
  obtain ⟨N, st, out, h1, -, h3⟩ := C52_exact hP hpos hc hf hE op log
  obtain ⟨N', st', out', h1', -, h3'⟩ := C52_exact hP' hpos' hc' hf' hE' op log'
  refine ⟨max N N', st, st', out, out', fun fuel hN => ⟨h1 fuel (by omega), h1' fuel (by omega)⟩, fun x y ho ho' => ?_⟩
  obtain ⟨z, w, -, k2, k3⟩ := Compose.wind_near (out.flatMap edges ++ out'.flatMap edges) (allEdges ps ++ allEdges qs) (x := x) (y := y) (by
    rw [Off.append]; exact ⟨ho, ho'⟩)
  rw [Off.append] at k2
  rw [← k3 (out.flatMap edges) fun e he => List.mem_append_left _ he, ← k3 (out'.flatMap edges) fun e he => List.mem_append_right _ he,
    h3 z w k2.1, h3' z w k2.2, h _ z w k2.1 k2.2, h _ z w k2.1 k2.2]

include hP hpos hc hP' hpos' hc' in
/-- **C68 (order).** The polygons are added in another order, each from another vertex on, to a clipper with other random numbers. -/
theorem C68_order {ps os qs : List Poly} (hf : Fine none ps) (hf' : Fine none qs) (hE : Lattice (allEdges ps))
    (ho : ps.Perm os) (ht : List.Forall₂ Turned os qs) (op : BoolOp) (log log' : List TCall) :
    ∃ N st st' out out', (∀ fuel ≥ N, run P fuel (ps.map Poly.cmd ++ [.exec op false]) (c, log) = .ok (st, List.replicate ps.length none ++ [some ⟨out, none⟩]) ∧
        run P' fuel (qs.map Poly.cmd ++ [.exec op false]) (c', log') = .ok (st', List.replicate qs.length none ++ [some ⟨out', none⟩])) ∧
      ∀ x y, Off (out.flatMap edges) x y → Off (out'.flatMap edges) x y → wind (out.flatMap edges) x y = wind (out'.flatMap edges) x y := by
  have hall : (allEdges ps).Perm (allEdges qs) := (ho.flatMap_right _).trans (allEdges_turned ht)
  refine C68_alike hP hpos hc hP' hpos' hc' hf hf' hE ?_ ?_ op log log'
  · exact fun e he f hf => hE e (hall.mem_iff.mpr he) f (hall.mem_iff.mpr hf)
  · exact fun k x y _ _ => wind_perm ((edgesOf_perm ho k).trans (edgesOf_turned ht k)) x y

include hP hpos hc hP' hpos' hc' in
/-- **C68 (any polygons).** Whatever the polygons are, the results for another order wind equally often around each place outside the
rectangles of all edges; closer to the edges, points may be rounded differently. -/
theorem C68_far {ps os qs : List Poly} (hf : Fine none ps) (hf' : Fine none qs) (ho : ps.Perm os) (ht : List.Forall₂ Turned os qs)
    (op : BoolOp) (log log' : List TCall) :
    ∃ N st st' out out', (∀ fuel ≥ N, run P fuel (ps.map Poly.cmd ++ [.exec op false]) (c, log) = .ok (st, List.replicate ps.length none ++ [some ⟨out, none⟩]) ∧
        run P' fuel (qs.map Poly.cmd ++ [.exec op false]) (c', log') = .ok (st', List.replicate qs.length none ++ [some ⟨out', none⟩])) ∧
      ∀ x y, (∀ p ∈ ps, ∀ e ∈ edges p.pts, Outside e x y) → wind (out.flatMap edges) x y = wind (out'.flatMap edges) x y := by
  have hall : (allEdges ps).Perm (allEdges qs) := (ho.flatMap_right _).trans (allEdges_turned ht)
  obtain ⟨N, st, out, h1, h2⟩ := C60_outside hP hpos hc hf op log
  obtain ⟨N', st', out', h1', h2'⟩ := C60_outside hP' hpos' hc' hf' op log'
  refine ⟨max N N', st, st', out, out', fun fuel hN => ⟨h1 fuel (by omega), h1' fuel (by omega)⟩, fun x y hxy => ?_⟩
  rw [h2 x y hxy, h2' x y fun q hq e he => ?_]
  · rw [wind_perm ((edgesOf_perm ho .subject).trans (edgesOf_turned ht .subject)), wind_perm ((edgesOf_perm ho .clip).trans (edgesOf_turned ht .clip))]
  · obtain ⟨p, hp, h⟩ := List.mem_flatMap.mp (hall.mem_iff.mpr (List.mem_flatMap.mpr ⟨q, hq, he⟩))
    exact hxy p hp e h

end

/-! ### Cases -/

/-- Two squares that overlap, in the other order and one of them from its third vertex on. -/
def turned : List Poly := [⟨.clip, false, [⟨6, 6⟩, ⟨2, 6⟩, ⟨2, 2⟩, ⟨6, 2⟩]⟩, ⟨.subject, false, [⟨0, 0⟩, ⟨4, 0⟩, ⟨4, 4⟩, ⟨0, 4⟩]⟩]

example (g g' : Nat → Bool × Bool) (op : BoolOp) : ∃ N st st' out out', (∀ fuel ≥ N,
        run lib fuel (squares.map Poly.cmd ++ [.exec op false]) (Clipper.fresh g, []) = .ok (st, List.replicate squares.length none ++ [some ⟨out, none⟩]) ∧
        run lib fuel (turned.map Poly.cmd ++ [.exec op false]) (Clipper.fresh g', []) = .ok (st', List.replicate turned.length none ++ [some ⟨out', none⟩])) ∧
      ∀ x y, Off (out.flatMap edges) x y → Off (out'.flatMap edges) x y → wind (out.flatMap edges) x y = wind (out'.flatMap edges) x y :=
  C68_order (P := lib) (P' := lib) (c := Clipper.fresh g) (c' := Clipper.fresh g') (ps := squares) (os := squares.reverse) (qs := turned) rfl
    (takeWhile_posOk id g) (fresh_empty g) rfl (takeWhile_posOk id g') (fresh_empty g') (by decide +kernel) (by decide +kernel)
    (axis_lattice (by intro e he; unfold Axis; revert e; decide +kernel)) (squares.reverse_perm.symm)
    (.cons ⟨rfl, 2, by decide +kernel⟩ (.cons ⟨rfl, 0, by decide +kernel⟩ .nil)) op [] []

end PolyOps.Exec
