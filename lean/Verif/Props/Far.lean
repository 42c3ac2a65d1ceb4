import Verif.Props.Double

/-! C60: places far from the edges. `NearEdge`, `FarFrom` are in `Lemmas/Deform.lean`. -/
namespace PolyOps.Exec
open PolyOps PolyOps.Sweep PolyOps.Region PolyOps.Planarity PolyOps.Loops PolyOps.PointSink PolyOps.Clipper PolyOps.Double

/-- The place is outside the rectangle spanned by the ends of the edge. -/
def Outside (e : Pt × Pt) (x y : Rat) : Prop :=
  (x < e.1.x ∧ x < e.2.x) ∨ ((e.1.x : Rat) < x ∧ (e.2.x : Rat) < x) ∨ (y < e.1.y ∧ y < e.2.y) ∨ ((e.1.y : Rat) < y ∧ (e.2.y : Rat) < y)

/-- Points of the rectangle of an edge are on one side of a line through each place outside. -/
theorem outside_side {a b : Pt} {x y : Rat} (h : Outside (a, b) x y) : ∃ α β : ℝ, ∀ c, InBox c a b → Side α β x y c := by
  have lt : ∀ (u v w : Int) (z : Rat), z < u → z < v → min u v ≤ w → (z : ℝ) < w := by
    intro u v w z h1 h2 h3
    have : z < w := by
      have h3 : ((min u v : Int) : Rat) ≤ w := by exact_mod_cast h3
      rw [Int.cast_min] at h3
      exact (lt_min h1 h2).trans_le h3
    exact_mod_cast this
  have gt : ∀ (u v w : Int) (z : Rat), (u : Rat) < z → (v : Rat) < z → w ≤ max u v → (w : ℝ) < z := by
    intro u v w z h1 h2 h3
    have : w < z := by
      have h3 : (w : Rat) ≤ ((max u v : Int) : Rat) := by exact_mod_cast h3
      rw [Int.cast_max] at h3
      exact h3.trans_lt (max_lt h1 h2)
    exact_mod_cast this
  rcases h with h | h | h | h <;> dsimp only at h
  · exact ⟨-1, 0, fun c hc => by have := lt _ _ _ _ h.1 h.2 hc.1; unfold Side; linarith⟩
  · exact ⟨1, 0, fun c hc => by have := gt _ _ _ _ h.1 h.2 hc.2.1; unfold Side; linarith⟩
  · exact ⟨0, -1, fun c hc => by have := lt _ _ _ _ h.1 h.2 hc.2.2.1; unfold Side; linarith⟩
  · exact ⟨0, 1, fun c hc => by have := gt _ _ _ _ h.1 h.2 hc.2.2.2; unfold Side; linarith⟩

/-- The winding number of the output around a place for which each bent edge counts as much as the straight one. -/
theorem Shape.straight {op : BoolOp} {B : List Bent} {out : List (List Pt)} (h : Shape op B out) {ps : List Poly}
    (hB : B.map (fun b => (b.set, b.edge)) = inEdges ps) {x y : Rat}
    (far : ∀ b ∈ B, Exec.wind b.pieces x y = Exec.wind [b.edge] x y ∧ Off b.pieces x y) :
    Exec.wind (out.flatMap edges) x y = if region op (Exec.wind (edgesOf ps .subject) x y) (Exec.wind (edgesOf ps .clip) x y) then 1 else 0 := by
  have hw : ∀ k, Exec.wind (piecesOf B k) x y = Exec.wind (edgesOf ps k) x y := by
    intro k
    unfold edgesOf
    rw [← inEdges_wind, ← hB]
    unfold piecesOf
    rw [wind_flatMap, List.filter_map, List.map_map]
    unfold Exec.wind
    rw [List.map_map]
    congr 1
    apply List.map_congr_left
    intro b hb
    have := (far b (List.mem_filter.mp hb).1).1
    unfold Exec.wind at this
    simpa using this
  rw [h.wind x y, hw, hw]
  intro e he
  obtain ⟨b, hb, he⟩ := List.mem_flatMap.mp he
  exact (far b hb).2 e he

section
variable {G : Type} {P : Params G} {r : Nat → Bool × Bool} {pos : Clip → Nat → Nat} {c : Clipper G} (hP : P.env1 c.rgen = realEnv id r pos)
  (hpos : PosOk (realEnv id r pos)) (hc : Empty c)

include hP hpos hc in
/-- **C60 (exact numbers).** An operation bends each edge at some points of its rectangle, the same for all operations, and departs from it by at most
one unit along each axis for each point. For each place that is for each edge outside the rectangle or farther away than that, the output winds around
it once if it is in the region of the operation on the polygons given, and not at all otherwise. -/
theorem C60_far {ps : List Poly} (hf : Fine none ps) :
    ∃ B, B.map (fun b => (b.set, b.edge)) = inEdges ps ∧
      (∀ b ∈ B, ∀ p ∈ b.via, InBox p b.edge.1 b.edge.2 ∧ NearEdge b.via.length b.edge.1 b.edge.2 p) ∧ ∀ (op : BoolOp) (log : List TCall), ∃ N st out,
      (∀ fuel ≥ N, run P fuel (ps.map Poly.cmd ++ [.exec op false]) (c, log) = .ok (st, List.replicate ps.length none ++ [some ⟨out, none⟩])) ∧
      Result op B out ∧ ∀ x y, (∀ b ∈ B, Outside b.edge x y ∨ FarFrom b.via.length b.edge x y) → wind (out.flatMap edges) x y =
        if region op (wind (edgesOf ps .subject) x y) (wind (edgesOf ps .clip) x y) then 1 else 0 := by
  obtain ⟨f, B, h1, h2, h3⟩ := box_pass r pos ps
  refine ⟨B, h2, fun b hb p hp => ⟨h3 b hb p hp, h1.near b hb p hp⟩, fun op log => ?_⟩
  obtain ⟨N, st, out, e1, e2⟩ := run_core hP hpos hc hf h1 op log
  refine ⟨N, st, out, e1, e2, fun x y hxy => e2.straight h2 fun b hb => ?_⟩
  rcases hxy b hb with h | h
  · obtain ⟨α, β, hs⟩ := outside_side h
    exact bent_side (hs _ (box_left _ _)) (hs _ (box_right _ _)) fun p hp => hs p (h3 b hb p hp)
  · exact bent_far (by positivity) (h1.near b hb) h

include hP hpos hc in
/-- **C60 (rectangles).** Around a place outside the rectangles of all edges the output winds as it should. -/
theorem C60_outside {ps : List Poly} (hf : Fine none ps) (op : BoolOp) (log : List TCall) : ∃ N st out,
      (∀ fuel ≥ N, run P fuel (ps.map Poly.cmd ++ [.exec op false]) (c, log) = .ok (st, List.replicate ps.length none ++ [some ⟨out, none⟩])) ∧
      ∀ x y, (∀ p ∈ ps, ∀ e ∈ edges p.pts, Outside e x y) → wind (out.flatMap edges) x y =
        if region op (wind (edgesOf ps .subject) x y) (wind (edgesOf ps .clip) x y) then 1 else 0 := by
  obtain ⟨B, h1, -, h2⟩ := C60_far hP hpos hc hf
  obtain ⟨N, st, out, e1, -, e2⟩ := h2 op log
  refine ⟨N, st, out, e1, fun x y hxy => e2 x y fun b hb => Or.inl ?_⟩
  obtain ⟨p, hp, -, h⟩ := inEdges_mem (e := (b.set, b.edge)) (by rw [← h1]; exact List.mem_map.mpr ⟨b, hb, rfl⟩)
  exact hxy p hp _ h

end

/-- **C60 (doubles).** Polygons in a square with side 90000; the edges depart by at most one and a half units for each point. -/
theorem C60_double (g : Nat → Bool × Bool) (o : Pt) {ps : List Poly} (hf : Fine none ps) (hsq : ∀ p ∈ ps, ∀ v ∈ p.pts, InSq o 90000 v) :
    ∃ B : List Bent, B.map (fun b => (b.set, b.edge)) = inEdges ps ∧
      (∀ b ∈ B, ∀ p ∈ b.via, NearEdge (b.via.length * (3 / 2)) b.edge.1 b.edge.2 p) ∧
      ∀ (op : BoolOp) (log : List TCall) (fuel : Nat), run libDouble fuel (ps.map Poly.cmd ++ [.exec op false]) (Clipper.fresh g, log) = .fuel ∨
        ∃ st out, run libDouble fuel (ps.map Poly.cmd ++ [.exec op false]) (Clipper.fresh g, log) =
          .ok (st, List.replicate ps.length none ++ [some ⟨out, none⟩]) ∧ Shape op B out ∧
          ∀ x y, (∀ b ∈ B, FarFrom (b.via.length * (3 / 2)) b.edge x y) → wind (out.flatMap edges) x y =
            if region op (wind (edgesOf ps .subject) x y) (wind (edgesOf ps .clip) x y) then 1 else 0 := by
  obtain ⟨B, h1, h2, h3⟩ := C59_double g o hf hsq
  refine ⟨B, h1, fun b hb p hp => (h2 b hb p hp).2.2, fun op log fuel => ?_⟩
  rcases h3 op log fuel with h | ⟨st, out, e1, e2⟩
  · exact Or.inl h
  · exact Or.inr ⟨st, out, e1, e2, fun x y hxy => e2.straight h1 fun b hb => bent_far (by positivity) (fun p hp => (h2 b hb p hp).2.2) (hxy b hb)⟩

/-! ### A case -/

/-- An octagon, and a triangle with sides that cross those of the octagon at places that are not whole. -/
def octagon : List Poly := [⟨.subject, false, [⟨30, 0⟩, ⟨70, 0⟩, ⟨100, 30⟩, ⟨100, 70⟩, ⟨70, 100⟩, ⟨30, 100⟩, ⟨0, 70⟩, ⟨0, 30⟩]⟩,
  ⟨.clip, false, [⟨35, 45⟩, ⟨37, -9⟩, ⟨130, 43⟩]⟩]

instance (e : Pt × Pt) (x y : Rat) : Decidable (Outside e x y) := by unfold Outside; infer_instance

/-- The union contains the place (30, 50), and not the place (101, 99). -/
example (g : Nat → Bool × Bool) : ∃ N st out, (∀ fuel ≥ N, run lib fuel (octagon.map Poly.cmd ++ [.exec .union false]) (Clipper.fresh g, []) =
    .ok (st, [none, none, some ⟨out, none⟩])) ∧ wind (out.flatMap edges) 30 50 = 1 ∧ wind (out.flatMap edges) 101 99 = 0 := by
  obtain ⟨N, st, out, h1, h2⟩ := C60_outside (P := lib) rfl (takeWhile_posOk id g) (fresh_empty g) (ps := octagon) (by decide +kernel) .union []
  refine ⟨N, st, out, h1, ?_, ?_⟩
  · rw [h2 30 50 (by decide +kernel)]; decide +kernel
  · rw [h2 101 99 (by decide +kernel)]; decide +kernel

end PolyOps.Exec
