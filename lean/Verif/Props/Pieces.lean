import Verif.Props.Vertices
import Verif.Props.TreeDouble
import Verif.Lemmas.WindRays

/-! C85: how often the edges given are returned. -/
namespace PolyOps.Exec
open PolyOps PolyOps.Sweep PolyOps.Region PolyOps.Planarity PolyOps.Loops PolyOps.PointSink PolyOps.Clipper PolyOps.Double

/-! ### Specification -/

/-- The number of vertices of all polygons. -/
def size (out : List (List Pt)) : Nat := (out.map List.length).sum

/-- Any two edges have the same ends or meet only at places that are ends of both. -/
def Separate (E : List (Pt × Pt)) : Prop := ∀ e ∈ E, ∀ f ∈ E, e = f ∨ e = (f.2, f.1) ∨ ∀ x y : Rat, OnSegQ x y e.1 e.2 → OnSegQ x y f.1 f.2 → EndOf e x y ∧ EndOf f x y

theorem edges_len (l : List Pt) : (edges l).length = l.length := by
  rw [Compose.edges_zip]
  simp

theorem undirected_len (out : List (List Pt)) : (undirected (out.flatMap edges)).length = size out := by
  unfold undirected size
  rw [List.length_map, List.length_flatMap]
  congr 1
  apply List.map_congr_left
  intro l _
  exact edges_len l

theorem walk_len : ∀ (l : List Pt) (a : Pt), (walk a l).length = l.length
  | [], _ => rfl
  | b :: l, _ => by
    unfold walk
    rw [List.length_cons, walk_len l b, List.length_cons]

theorem pieces_len (B : List Bent) : B.length ≤ (undirected (B.flatMap Bent.pieces)).length := by
  unfold undirected
  rw [List.length_map]
  induction B with
  | nil => simp
  | cons b B ih =>
    rw [List.flatMap_cons, List.length_append, List.length_cons]
    have : (b.pieces).length = b.via.length + 1 := by
      unfold Bent.pieces
      rw [walk_len, List.length_append]
      rfl
    omega

/-! ### Edges that are not cut -/

theorem box_point {c q : Pt} (h : InBox c q q) : c = q := by
  obtain ⟨h1, h2, h3, h4⟩ := h
  rw [min_self] at h1 h3
  rw [max_self] at h2 h4
  cases c; cases q
  rw [Pt.mk.injEq]
  exact ⟨le_antisymm h2 h1, le_antisymm h4 h3⟩

theorem end_eq {e : Pt × Pt} {c : Pt} (h : EndOf e c.x c.y) : c = e.1 ∨ c = e.2 := by
  rcases h with ⟨h1, h2⟩ | ⟨h1, h2⟩
  · left
    cases c
    exact Pt.mk.injEq .. ▸ ⟨by exact_mod_cast h1, by exact_mod_cast h2⟩
  · right
    cases c
    exact Pt.mk.injEq .. ▸ ⟨by exact_mod_cast h1, by exact_mod_cast h2⟩

theorem Separate.lattice {E : List (Pt × Pt)} (h : Separate E) : Lattice E := by
  intro e he f hf hc x y o1 o2
  rcases h e he f hf with rfl | rfl | h
  · exact absurd (by unfold cross; ring) hc
  · exact absurd (by unfold cross; ring) hc
  · rcases (h x y o1 o2).1 with h | h
    · exact ⟨_, h⟩
    · exact ⟨_, h⟩

/-- Edges that meet only at their ends are not bent. -/
theorem not_bent {ps : List Poly} (hM : Separate (allEdges ps)) {r : Nat → Bool × Bool} {pos : Clip → Nat → Nat} {f : Clip} {B : List Bent}
    (h : Pass r pos (store [] ps) f B) (e2 : B.map (fun b => (b.set, b.edge)) = inEdges ps) (e3 : ∀ b ∈ B, ∀ p ∈ b.via, OnSegQ p.x p.y b.edge.1 b.edge.2)
    (two : ∀ b ∈ B, ∀ e ∈ b.pieces, e.1 ≠ e.2) : ∀ b ∈ B, b.via = [] := by
  intro b hb
  have hj := junction_ends hM.lattice h
  have ha := h.ahead b hb
  have h3 := e3 b hb
  have h2 := two b hb
  have hbe : b.edge ∈ allEdges ps := by
    have : (b.set, b.edge) ∈ inEdges ps := by rw [← e2]; exact List.mem_map.mpr ⟨b, hb, rfl⟩
    obtain ⟨p, hp, -, h⟩ := inEdges_mem this
    exact List.mem_flatMap.mpr ⟨p, hp, h⟩
  have hjb : ∀ e ∈ b.pieces, Junction ps e.2 := fun e he => (hj e (List.mem_flatMap.mpr ⟨b, hb, he⟩)).2
  unfold Bent.pieces at h2 hjb
  cases hv : b.via with
  | nil => rfl
  | cons c l =>
    exfalso
    rw [hv] at ha h3 h2 hjb
    have c1 : b.edge.1 ≠ c := h2 (b.edge.1, c) List.mem_cons_self
    have hon := h3 c List.mem_cons_self
    have c2 : c ≠ b.edge.2 := by
      intro e
      have ha' := ha.2
      rw [e] at ha'
      cases l with
      | nil => exact h2 (c, b.edge.2) (List.mem_cons_of_mem _ List.mem_cons_self) e
      | cons d l =>
        have := box_point ha'.1
        exact h2 (c, d) (List.mem_cons_of_mem _ List.mem_cons_self) (e.trans this.symm)
    have no : ¬EndOf b.edge c.x c.y := fun h => (end_eq h).elim (fun e => c1 e.symm) c2
    have key : ∀ e ∈ allEdges ps, EndOf e c.x c.y → OnSegQ c.x c.y e.1 e.2 → False := by
      intro e he hen ho
      rcases hM b.edge hbe e he with h | h | h
      · rw [h] at no; exact no hen
      · refine no ?_
        rw [h]
        exact hen.symm
      · exact no (h _ _ hon ho).1
    rcases hjb (b.edge.1, c) List.mem_cons_self with ⟨p, hp, hc⟩ | ⟨e, he, f, hf, hcr, o1, o2⟩
    · obtain ⟨e, he, rfl⟩ := vertex_edge hc
      exact key e (List.mem_flatMap.mpr ⟨p, hp, he⟩) (.inl ⟨rfl, rfl⟩) (onq_left _ _)
    · refine key e he ?_ o1
      rcases hM e he f hf with rfl | rfl | h
      · exact absurd (by unfold cross; ring) hcr
      · exact absurd (by unfold cross; ring) hcr
      · exact (h _ _ o1 o2).1

/-- Each edge of `out` is an edge that was stored, in one of its directions, none more often than it was stored; all of them with `normalize`. -/
structure Chosen (op : BoolOp) (ps : List Poly) (out : List (List Pt)) : Prop where
  part : (undirected (out.flatMap edges)).Subperm (undirected ((inEdges ps).map Prod.snd))
  le : size out ≤ (inEdges ps).length
  whole : op = .normalize → (undirected (out.flatMap edges)).Perm (undirected ((inEdges ps).map Prod.snd))

/-! ### C85 -/

section
variable {G : Type} {P : Params G} {r : Nat → Bool × Bool} {pos : Clip → Nat → Nat} {c : Clipper G} (hP : P.env1 c.rgen = realEnv id r pos)
  (hpos : PosOk (realEnv id r pos)) (hc : Empty c)

include hP hpos hc in
/-- **C85 (every edge at most once).** The edges returned by any operation, whatever their directions, are among those that `normalize` returns for the same polygons, no edge more often than
`normalize` returns it; so no operation returns more vertices than `normalize`. `normalize` returns at least as many edges as were stored. This also holds for the polygons of a tree. -/
theorem C85_edges {ps : List Poly} (hf : Fine none ps) (log : List TCall) : ∃ N st full,
    (∀ fuel ≥ N, run P fuel (ps.map Poly.cmd ++ [.exec .normalize false]) (c, log) = .ok (st, List.replicate ps.length none ++ [some ⟨full, none⟩])) ∧
    (inEdges ps).length ≤ size full ∧ ∀ op,
    (∃ N st out, (∀ fuel ≥ N, run P fuel (ps.map Poly.cmd ++ [.exec op false]) (c, log) = .ok (st, List.replicate ps.length none ++ [some ⟨out, none⟩])) ∧
      (undirected (out.flatMap edges)).Subperm (undirected (full.flatMap edges)) ∧ size out ≤ size full) ∧
    ∃ N o out, (∀ fuel ≥ N, run P fuel (ps.map Poly.cmd ++ [.exec op true]) (c, log) = o) ∧ TreeEnd o ps.length out ∧
      (undirected (out.flatMap edges)).Subperm (undirected (full.flatMap edges)) ∧ size out ≤ size full := by
  obtain ⟨f, B, e0, e2, -⟩ := box_pass r pos ps
  obtain ⟨N, st, full, e1, e4⟩ := run_core hP hpos hc hf e0 .normalize log
  have le : ∀ {op out}, Result op B out → (undirected (out.flatMap edges)).Subperm (undirected (full.flatMap edges)) ∧ size out ≤ size full := by
    intro op out h
    have := h.part.trans (e4.whole rfl).symm.subperm
    refine ⟨this, ?_⟩
    rw [← undirected_len, ← undirected_len]
    exact this.length_le
  refine ⟨N, st, full, e1, ?_, fun op => ⟨?_, ?_⟩⟩
  · rw [← e2, List.length_map, ← undirected_len, (e4.whole rfl).length_eq]
    exact pieces_len B
  · obtain ⟨N, st, out, h1, h2⟩ := run_core hP hpos hc hf e0 op log
    exact ⟨N, st, out, h1, le h2⟩
  · obtain ⟨N, o, out, h1, h2, h3⟩ := run_tree hP hpos hc hf e0 op log
    exact ⟨N, o, out, h1, h2, le h3⟩

include hP hpos hc in
/-- **C85 (edges that meet only at their ends).** If any two edges given have the same ends or meet only at ends of both, each edge returned is an edge that was stored, in one of its directions, none more often
than it was stored; and `normalize` returns all of them. -/
theorem C85_separate {ps : List Poly} (hf : Fine none ps) (hM : Separate (allEdges ps)) (op : BoolOp) (log : List TCall) :
    (∃ N st out, (∀ fuel ≥ N, run P fuel (ps.map Poly.cmd ++ [.exec op false]) (c, log) = .ok (st, List.replicate ps.length none ++ [some ⟨out, none⟩])) ∧ Chosen op ps out) ∧
    ∃ N o out, (∀ fuel ≥ N, run P fuel (ps.map Poly.cmd ++ [.exec op true]) (c, log) = o) ∧ TreeEnd o ps.length out ∧ Chosen op ps out := by
  obtain ⟨f, B, e0, e2, e3⟩ := lattice_pass r pos hM.lattice
  obtain ⟨N, st, out, e1, e4⟩ := run_core hP hpos hc hf e0 op log
  obtain ⟨N', o, out', k1, k2, k3⟩ := run_tree hP hpos hc hf e0 op log
  have hv := not_bent hM e0 e2 e3 e4.two
  have hB : B.flatMap Bent.pieces = (inEdges ps).map Prod.snd := by
    rw [← e2, List.map_map]
    clear e0 e2 e3 e4 k3
    induction B with
    | nil => rfl
    | cons b B ih =>
      rw [List.flatMap_cons, List.map_cons, ih fun b hb => hv b (List.mem_cons_of_mem _ hb)]
      unfold Bent.pieces
      rw [hv b List.mem_cons_self]
      rfl
  have key : ∀ {out}, Result op B out → Chosen op ps out := by
    intro out h
    have hp := h.part
    have hw := h.whole
    rw [hB] at hp hw
    refine ⟨hp, ?_, hw⟩
    have := hp.length_le
    rw [undirected_len] at this
    unfold undirected at this
    simpa using this
  exact ⟨⟨N, st, out, e1, key e4⟩, N', o, out', k1, k2, key k3⟩

end

/-- After this many calls there is a result with these polygons, as a list or as a tree. -/
def Returns {G : Type} (o : Out ((Clipper G × List TCall) × List (Option Output))) (n : Nat) (out : List (List Pt)) : Prop :=
  ∃ st t, o = .ok (st, List.replicate n none ++ [some ⟨out, t⟩])

/-- **C85 (with doubles).** With doubles, for polygons in a square, each call that returns gives no edge more often than `normalize` does when that returns, for lists and for trees. -/
theorem C85_double (g : Nat → Bool × Bool) (o : Pt) {ps : List Poly} (hf : Fine none ps) (hsq : ∀ p ∈ ps, ∀ v ∈ p.pts, InSq o 90000 v) {op : BoolOp} {tree tree' : Bool} {log log' : List TCall}
    {fuel fuel' : Nat} {out full : List (List Pt)} (h : Returns (run libDouble fuel (ps.map Poly.cmd ++ [.exec op tree]) (Clipper.fresh g, log)) ps.length out)
    (h' : Returns (run libDouble fuel' (ps.map Poly.cmd ++ [.exec .normalize tree']) (Clipper.fresh g, log')) ps.length full) :
    (undirected (out.flatMap edges)).Subperm (undirected (full.flatMap edges)) ∧ size out ≤ size full ∧ (inEdges ps).length ≤ size full := by
  obtain ⟨B, b1, -, hB⟩ := C54_near (P := libDouble) dbl_arith rfl (takeWhile_posOk dbl g) (fresh_empty g) hf hsq
  have same : ∀ {o : Out ((Clipper (Nat → Bool × Bool) × List TCall) × List (Option Output))} {st st' n u v t t'}, o = .ok (st, List.replicate n none ++ [some ⟨u, t⟩]) →
      o = .ok (st', List.replicate n none ++ [some ⟨v, t'⟩]) → v = u := by
    intro o st st' n u v t t' e h
    rw [e] at h
    injection h with h
    have := congrArg Prod.snd h
    simp only [List.append_cancel_left_eq, List.cons.injEq, Option.some.injEq, Output.mk.injEq, and_true] at this
    exact this.1.symm
  have key : ∀ {op tree log fuel out}, Returns (run libDouble fuel (ps.map Poly.cmd ++ [.exec op tree]) (Clipper.fresh g, log)) ps.length out → Shape op B out := by
    rintro op (_ | _) log fuel out ⟨st, t, h⟩
    · rcases (hB op log fuel).1 with e | ⟨st', out', e, s⟩
      · rw [e] at h; cases h
      · exact same e h ▸ s
    · rcases (hB op log fuel).2 with e | ⟨out', e, s⟩
      · rw [e] at h; cases h
      · rcases e.ends with e | ⟨st', t', e⟩
        · rw [e] at h; cases h
        · exact same e h ▸ s
  have s := (key h).part.trans ((key h').whole rfl).symm.subperm
  refine ⟨s, ?_, ?_⟩
  · rw [← undirected_len, ← undirected_len]
    exact s.length_le
  · rw [← b1, List.length_map, ← undirected_len, ((key h').whole rfl).length_eq]
    exact pieces_len B

/-! ### Cases -/

/-- The boxes of the edges have no common point, or just one, which is an end of both. -/
def boxesMeet (e f : Pt × Pt) : Prop :=
  min (max e.1.x e.2.x) (max f.1.x f.2.x) < max (min e.1.x e.2.x) (min f.1.x f.2.x) ∨ min (max e.1.y e.2.y) (max f.1.y f.2.y) < max (min e.1.y e.2.y) (min f.1.y f.2.y) ∨
    ∃ v ∈ [e.1, e.2], v ∈ [f.1, f.2] ∧ min (max e.1.x e.2.x) (max f.1.x f.2.x) ≤ v.x ∧ v.x ≤ max (min e.1.x e.2.x) (min f.1.x f.2.x) ∧
      min (max e.1.y e.2.y) (max f.1.y f.2.y) ≤ v.y ∧ v.y ≤ max (min e.1.y e.2.y) (min f.1.y f.2.y)

theorem onq_bounds {x y : Rat} {a b : Pt} (h : OnSegQ x y a b) : ((min a.x b.x : Int) : Rat) ≤ x ∧ x ≤ ((max a.x b.x : Int) : Rat) ∧ ((min a.y b.y : Int) : Rat) ≤ y ∧ y ≤ ((max a.y b.y : Int) : Rat) := by
  have key : ∀ (p q : Int) (t : Rat), 0 ≤ t → t ≤ 1 → ((min p q : Int) : Rat) ≤ p + t * (q - p) ∧ (p : Rat) + t * (q - p) ≤ ((max p q : Int) : Rat) := by
    intro p q t t0 t1
    rcases le_total p q with h | h
    · rw [min_eq_left h, max_eq_right h]
      have : (p : Rat) ≤ q := by exact_mod_cast h
      constructor <;> nlinarith
    · rw [min_eq_right h, max_eq_left h]
      have : (q : Rat) ≤ p := by exact_mod_cast h
      constructor <;> nlinarith
  obtain ⟨t, t0, t1, hx, hy⟩ := h
  rw [hx, hy]
  exact ⟨(key _ _ t t0 t1).1, (key _ _ t t0 t1).2, (key _ _ t t0 t1).1, (key _ _ t t0 t1).2⟩

theorem boxes_separate {E : List (Pt × Pt)} (h : ∀ e ∈ E, ∀ f ∈ E, e = f ∨ e = (f.2, f.1) ∨ boxesMeet e f) : Separate E := by
  intro e he f hf
  refine (h e he f hf).imp_right (Or.imp_right fun hb x y o1 o2 => ?_)
  obtain ⟨a1, a2, a3, a4⟩ := onq_bounds o1
  obtain ⟨b1, b2, b3, b4⟩ := onq_bounds o2
  have x1 : ((max (min e.1.x e.2.x) (min f.1.x f.2.x) : Int) : Rat) ≤ x := by rw [Int.cast_max]; exact max_le a1 b1
  have x2 : x ≤ ((min (max e.1.x e.2.x) (max f.1.x f.2.x) : Int) : Rat) := by rw [Int.cast_min]; exact le_min a2 b2
  have y1 : ((max (min e.1.y e.2.y) (min f.1.y f.2.y) : Int) : Rat) ≤ y := by rw [Int.cast_max]; exact max_le a3 b3
  have y2 : y ≤ ((min (max e.1.y e.2.y) (max f.1.y f.2.y) : Int) : Rat) := by rw [Int.cast_min]; exact le_min a4 b4
  rcases hb with h | h | ⟨v, v1, v2, c1, c2, c3, c4⟩
  · exact absurd (by exact_mod_cast x1.trans x2) (not_le.mpr h)
  · exact absurd (by exact_mod_cast y1.trans y2) (not_le.mpr h)
  · have ex : x = v.x := le_antisymm (x2.trans (by exact_mod_cast c1)) (le_trans (by exact_mod_cast c2) x1)
    have ey : y = v.y := le_antisymm (y2.trans (by exact_mod_cast c3)) (le_trans (by exact_mod_cast c4) y1)
    have en : ∀ e : Pt × Pt, v ∈ [e.1, e.2] → EndOf e x y := by
      intro e he
      rw [List.mem_cons, List.mem_singleton] at he
      rcases he with rfl | rfl
      · exact .inl ⟨ex, ey⟩
      · exact .inr ⟨ex, ey⟩
    exact ⟨en e v1, en f v2⟩

/-- Nested squares: the edges meet only at their ends. -/
example (g : Nat → Bool × Bool) (op : BoolOp) : ∃ N st out, (∀ fuel ≥ N, run lib fuel (rings.map Poly.cmd ++ [.exec op false]) (Clipper.fresh g, []) =
      .ok (st, List.replicate rings.length none ++ [some ⟨out, none⟩])) ∧ Chosen op rings out :=
  (C85_separate (P := lib) rfl (takeWhile_posOk id g) (fresh_empty g) (by decide +kernel) (boxes_separate (by unfold boxesMeet; decide +kernel)) op []).1

/-- Squares that overlap: two crossings, so `normalize` returns twelve edges; the intersection has four of them and the union the others. -/
example : (outOf (run lib 100 (squares.map Poly.cmd ++ [.exec .normalize false]) (Clipper.fresh gen, []))).map size = some 12 ∧
    (outOf (run lib 100 (squares.map Poly.cmd ++ [.exec .intersection false]) (Clipper.fresh gen, []))).map size = some 4 ∧
    (outOf (run lib 100 (squares.map Poly.cmd ++ [.exec .union false]) (Clipper.fresh gen, []))).map size = some 8 ∧ (inEdges squares).length = 8 := by decide +kernel

/-- With doubles. -/
example {op : BoolOp} {tree : Bool} {fuel fuel' : Nat} {out full : List (List Pt)} (h : Returns (run libDouble fuel (rects.map Poly.cmd ++ [.exec op tree]) (Clipper.fresh down, [])) 2 out)
    (h' : Returns (run libDouble fuel' (rects.map Poly.cmd ++ [.exec .normalize false]) (Clipper.fresh down, [])) 2 full) : size out ≤ size full :=
  (C85_double down ⟨0, 0⟩ (ps := rects) (by decide +kernel) (by intro p hp v hv; unfold InSq; revert p v; decide +kernel) h h').2.1

example : (outOf (run libDouble 100 (rects.map Poly.cmd ++ [.exec .normalize false]) (Clipper.fresh down, []))).isSome = true ∧
    (outOf (run libDouble 100 (rects.map Poly.cmd ++ [.exec .union false]) (Clipper.fresh down, []))).isSome = true := by decide +kernel

end PolyOps.Exec
