import Verif.Lemmas.AreaPos
import Verif.Props.Areas
import Verif.Props.Same

/-! C72: the sign of `winding_dir` tells outlines from holes. -/
namespace PolyOps.Exec
open PolyOps PolyOps.Sweep PolyOps.Region PolyOps.Planarity PolyOps.Loops PolyOps.PointSink PolyOps.Clipper PolyOps.Double

/-! ### Specification -/

open Classical in
/-- How many of the polygons contain polygon `b`. -/
noncomputable def depthOf (out : List (List Pt)) (b : Nat) : Nat := ((List.range out.length).filter fun a => decide (Contains out a b)).length

/-- No polygon has `winding_dir` zero. It is positive for polygons inside an even number of others (outlines), negative for those inside an odd number (holes). -/
def Signed (out : List (List Pt)) : Prop := ∀ b < out.length,
  (Even (depthOf out b) → 0 < windingDir (out.getD b [])) ∧ (¬ Even (depthOf out b) → windingDir (out.getD b []) < 0)

/-! ### Proof -/

theorem Simple.pos {l : List Pt} (h : Simple (edges l) 1) : 0 < windingDir l := by
  obtain ⟨h1, x, y, ho, e⟩ := h
  have := area_pos (A := [l]) (x := x) (y := y) (by
    intro x y ho
    simp only [List.flatMap_cons, List.flatMap_nil, List.append_nil] at ho ⊢
    rcases h1 x y ho with k | k <;> rw [k] <;> decide) (by simpa using ho) (by simp [e])
  simpa using this

theorem edges_flip (l : List Pt) : ∃ m, (edges m).Perm ((edges l).map Prod.swap) ∧ windingDir m = - windingDir l := by
  cases l with
  | nil => exact ⟨[], List.Perm.refl _, rfl⟩
  | cons a l =>
    have hw : ∀ (l : List Pt) (a z : Pt), walk z (l.reverse ++ [a]) = ((walk a (l ++ [z])).map Prod.swap).reverse := by
      intro l
      induction l with
      | nil => intro a z; rfl
      | cons b l ih =>
        intro a z
        have happ : ∀ (l : List Pt) (z b a : Pt), walk z (l ++ [b] ++ [a]) = walk z (l ++ [b]) ++ [(b, a)] := by
          intro l
          induction l with
          | nil => intro z b a; rfl
          | cons c l ih => intro z b a; show (z, c) :: walk c (l ++ [b] ++ [a]) = _; rw [ih]; rfl
        rw [List.reverse_cons, happ, ih]
        show _ = (((a, b) :: walk b (l ++ [z])).map Prod.swap).reverse
        rw [List.map_cons, List.reverse_cons]
        rfl
    have he : edges (a :: l.reverse) = ((edges (a :: l)).map Prod.swap).reverse := hw l a a
    refine ⟨a :: l.reverse, by rw [he]; exact List.reverse_perm _, ?_⟩
    rw [windingDir_edges, windingDir_edges, he, List.map_reverse, List.sum_reverse, List.map_map]
    generalize edges (a :: l) = E
    induction E with
    | nil => rfl
    | cons e E ih =>
      rw [List.map_cons, List.map_cons, List.sum_cons, List.sum_cons, ih]
      show trap (e.2, e.1) + _ = _
      unfold trap
      ring

theorem count_flip (e : Pt × Pt) (x y : ℚ) : count e.swap x y = - count e x y := by
  obtain ⟨a, b⟩ := e
  show count (b, a) x y = _
  rw [count_cr, count_cr, crDir_swap]
  by_cases c : a.x = b.x
  · have : crDir (a, b) x = 0 := by unfold crDir; simp [c]
    rw [this]; simp
  · rw [height_swap c]
    split <;> rfl

theorem wind_flip (E : List (Pt × Pt)) (x y : ℚ) : wind (E.map Prod.swap) x y = - wind E x y := by
  unfold wind
  induction E with
  | nil => rfl
  | cons e E ih =>
    simp only [List.map_cons, List.sum_cons] at ih ⊢
    rw [ih, count_flip]; ring

theorem off_flip {E : List (Pt × Pt)} {x y : ℚ} : Off (E.map Prod.swap) x y ↔ Off E x y := by
  have key : ∀ {a b : Pt}, OnSegQ x y a b → OnSegQ x y b a := by
    rintro a b ⟨t, t0, t1, hx, hy⟩
    exact ⟨1 - t, by linarith, by linarith, by rw [hx]; ring, by rw [hy]; ring⟩
  constructor
  · intro h e he k
    exact h e.swap (List.mem_map.mpr ⟨e, he, rfl⟩) (key k)
  · intro h e he k
    obtain ⟨f, hf, rfl⟩ := List.mem_map.mp he
    exact h f hf (key k)

theorem Simple.neg {l : List Pt} (h : Simple (edges l) (-1)) : windingDir l < 0 := by
  obtain ⟨m, h1, h2⟩ := edges_flip l
  have ho : ∀ x y, Off (edges m) x y ↔ Off (edges l) x y := fun x y => (forall_congr' fun e => by rw [h1.mem_iff]).trans off_flip
  have hw : ∀ x y, wind (edges m) x y = - wind (edges l) x y := fun x y => (wind_perm h1 x y).trans (wind_flip _ x y)
  have : Simple (edges m) 1 := by
    obtain ⟨k1, x, y, k2, k3⟩ := h
    refine ⟨fun x y h => ?_, x, y, (ho x y).mpr k2, by rw [hw, k3]; rfl⟩
    rw [hw]
    rcases k1 x y ((ho x y).mp h) with k | k <;> rw [k] <;> decide
  have := this.pos
  omega

theorem Nested.signed {out : List (List Pt)} (h : Nested out) : Signed out := by
  classical
  have key : ∀ d b, b < out.length → depthOf out b = d → Simple (edges (out.getD b [])) (if Even d then 1 else -1) := by
    intro d
    induction d with
    | zero =>
      intro b hb hd
      rw [if_pos (by decide)]
      refine h.top b hb fun a ha => ?_
      unfold depthOf at hd
      have := List.eq_nil_of_length_eq_zero hd
      have hm : a ∈ (List.range out.length).filter fun a => decide (Contains out a b) := List.mem_filter.mpr ⟨List.mem_range.mpr ha.1, by simpa using ha⟩
      rw [this] at hm
      simp at hm
    | succ d ih =>
      intro b hb hd
      have : ∃ a, Contains out a b := by
        by_contra hn
        push Not at hn
        have : depthOf out b = 0 := by unfold depthOf; simp [hn]
        omega
      obtain ⟨a, ha⟩ := this
      obtain ⟨p, hp⟩ := Hierarchy.exists_direct h.laminar ha
      have hl := Hierarchy.direct_len h.laminar hp
      have hd' : depthOf out p + 1 = depthOf out b := by
        unfold depthOf
        unfold Hierarchy.outer at hl
        convert hl
      have hp' := direct_iff.mp hp
      have k := h.turn p b hp' _ (ih p hp'.1.1 (by omega))
      have e : (if Even (d + 1) then 1 else -1 : Int) = - (if Even d then 1 else -1) := by
        by_cases c : Even d
        · rw [if_pos c, if_neg (by rw [Nat.even_add_one]; simpa using c)]
        · rw [if_neg c, if_pos (by rw [Nat.even_add_one]; exact c)]; rfl
      rw [e]
      exact k
  intro b hb
  have := key _ b hb rfl
  constructor
  · intro c
    rw [if_pos c] at this
    exact this.pos
  · intro c
    rw [if_neg c] at this
    exact this.neg

theorem edgesOf_sub (ps : List Poly) (k : BSet) : ∀ e ∈ edgesOf ps k, e ∈ allEdges ps := by
  intro e he
  obtain ⟨p, hp, h⟩ := List.mem_flatMap.mp he
  exact List.mem_flatMap.mpr ⟨p, (List.mem_filter.mp hp).1, h⟩

theorem Signed.child {out : List (List Pt)} (h : Signed out) (hn : Nested out) {a b : Nat} (k : Directly out a b) :
    0 < windingDir (out.getD a []) ∧ windingDir (out.getD b []) < 0 ∨ windingDir (out.getD a []) < 0 ∧ 0 < windingDir (out.getD b []) := by
  classical
  have hl := Hierarchy.direct_len hn.laminar (direct_iff.mpr k)
  have hd : depthOf out a + 1 = depthOf out b := by
    unfold depthOf
    unfold Hierarchy.outer at hl
    convert hl
  have ha := h a k.1.1
  have hb := h b k.1.2.1
  by_cases c : Even (depthOf out a)
  · exact Or.inl ⟨ha.1 c, hb.2 (by rw [← hd, Nat.even_add_one]; simpa using c)⟩
  · exact Or.inr ⟨ha.2 c, hb.1 (by rw [← hd, Nat.even_add_one]; exact c)⟩

section
variable {G : Type} {P : Params G} {r : Nat → Bool × Bool} {pos : Clip → Nat → Nat} {c : Clipper G} (hP : P.env1 c.rgen = realEnv id r pos)
  (hpos : PosOk (realEnv id r pos)) (hc : Empty c)

include hP hpos hc in
/-- **C72 (outlines and holes).** Polygons are added to an empty clipper and an operation is run. If no two edges of the polygons returned coincide,
`winding_dir` of none of these is zero, and it is positive just for those inside an even number of the others. -/
theorem C72_signed {ps : List Poly} (hf : Fine none ps) (op : BoolOp) (log : List TCall) :
    ∃ N st out, (∀ fuel ≥ N, run P fuel (ps.map Poly.cmd ++ [.exec op false]) (c, log) = .ok (st, List.replicate ps.length none ++ [some ⟨out, none⟩])) ∧
      (Single (out.flatMap edges) → Signed out) := by
  obtain ⟨N, st, out, h1, h2⟩ := C53_nested hP hpos hc hf op log
  exact ⟨N, st, out, h1, fun hS => (h2 hS).signed⟩

include hP hpos hc in
/-- **C72 (edges that do not overlap).** If no two edges of the polygons given overlap, and those that are not parallel only meet at integer
points, the condition of `C72_signed` is met. -/
theorem C72_apart {ps : List Poly} (hf : Fine none ps) (hE : Lattice (ps.flatMap fun p => edges p.pts))
    (hA : (ps.flatMap fun p => edges p.pts).Pairwise Apart) (op : BoolOp) (log : List TCall) :
    ∃ N st out, (∀ fuel ≥ N, run P fuel (ps.map Poly.cmd ++ [.exec op false]) (c, log) = .ok (st, List.replicate ps.length none ++ [some ⟨out, none⟩])) ∧
      Signed out := by
  obtain ⟨N, st, out, h1, -, h2⟩ := C53_apart hP hpos hc hf hE hA op log
  exact ⟨N, st, out, h1, h2.signed⟩

include hP hpos hc in
/-- **C72 (tree output).** The same for tree output: if no two edges of the polygons returned coincide, `winding_dir` is positive for the top polygons
of the tree, and it has opposite signs for a polygon and its children. -/
theorem C72_tree {ps : List Poly} (hf : Fine none ps) (op : BoolOp) (log : List TCall) :
    ∃ N o out, (∀ fuel ≥ N, run P fuel (ps.map Poly.cmd ++ [.exec op true]) (c, log) = o) ∧
      (o = .bad ∨ ∃ st t, o = .ok (st, List.replicate ps.length none ++ [some ⟨out, some t⟩])) ∧
      (Single (out.flatMap edges) → ∃ st t, o = .ok (st, List.replicate ps.length none ++ [some ⟨out, some t⟩]) ∧ Signed out ∧
        (∀ p ∈ t.top, 0 < windingDir (out.getD p [])) ∧
        ∀ a, ∀ p ∈ t.children a, 0 < windingDir (out.getD a []) ∧ windingDir (out.getD p []) < 0 ∨
          windingDir (out.getD a []) < 0 ∧ 0 < windingDir (out.getD p [])) := by
  obtain ⟨B, -, -, h⟩ := C54_tree hP hpos hc hf
  obtain ⟨N, o, out, h1, h2, h3⟩ := h op log
  refine ⟨N, o, out, h1, h2.ends, fun hS => ?_⟩
  obtain ⟨st, t, e, -, -, ht, hc⟩ := h2.tree hS
  have hn := h3.nested hS
  exact ⟨st, t, e, hn.signed, fun p hp => (hn.top p ((ht p).mp hp).1 ((ht p).mp hp).2).pos, fun a p hp => hn.signed.child hn ((hc a p).mp hp)⟩

include hP hpos hc in
/-- **C71 (tree output).** The polygons returned have the same area with and without tree output. -/
theorem C71_tree {ps : List Poly} (hf : Fine none ps) (op : BoolOp) (log log' : List TCall) :
    ∃ N st o out out', (∀ fuel ≥ N, run P fuel (ps.map Poly.cmd ++ [.exec op false]) (c, log) = .ok (st, List.replicate ps.length none ++ [some ⟨out, none⟩]) ∧
        run P fuel (ps.map Poly.cmd ++ [.exec op true]) (c, log') = o) ∧
      (o = .bad ∨ ∃ st t, o = .ok (st, List.replicate ps.length none ++ [some ⟨out', some t⟩])) ∧ areaOf out = areaOf out' := by
  obtain ⟨N, st, o, out, out', h1, h2, h3⟩ := C54_same hP hpos hc hf op log log'
  exact ⟨N, st, o, out, out', h1, h2.ends, area_eq h3⟩

include hP hpos hc in
/-- **C71 (no area).** If edges that are not parallel only meet at integer points, the area returned is zero just if the operation has no place inside;
for instance, that of the intersection if no place is inside both sets. -/
theorem C71_zero {ps : List Poly} (hf : Fine none ps) (hE : Lattice (allEdges ps)) (op : BoolOp) (log : List TCall) :
    ∃ N st out, (∀ fuel ≥ N, run P fuel (ps.map Poly.cmd ++ [.exec op false]) (c, log) = .ok (st, List.replicate ps.length none ++ [some ⟨out, none⟩])) ∧
      (areaOf out = 0 ↔ ∀ x y, Off (allEdges ps) x y → ¬ region op (wind (edgesOf ps .subject) x y) (wind (edgesOf ps .clip) x y)) := by
  obtain ⟨N, st, out, h1, h2, h3⟩ := C52_exact hP hpos hc hf hE op log
  refine ⟨N, st, out, h1, fun h0 x y ho hr => ?_, fun h => ?_⟩
  · obtain ⟨z, w, o1, o2, k⟩ := Compose.wind_near (allEdges ps) (out.flatMap edges) ho
    have hw : wind (out.flatMap edges) z w = 1 := by
      rw [h3 z w o1, k (edgesOf ps .subject) (edgesOf_sub _ _), k (edgesOf ps .clip) (edgesOf_sub _ _), if_pos hr]
    have := area_pos (A := out) (x := z) (y := w) (by
      intro x y ho
      obtain ⟨z, w, o1, o2, k⟩ := Compose.wind_near (out.flatMap edges) (allEdges ps) ho
      rw [← k _ fun e he => he, h3 z w o2]
      split <;> decide) o2 (by rw [hw]; decide)
    unfold areaOf at h0
    omega
  · refine (area_same (allEdges ps) (C := []) fun x y ho => ?_).trans rfl
    rw [h3 x y ho, if_neg (h x y ho)]
    rfl

end

section
variable {G G' : Type} {P : Params G} {P' : Params G'} {r r' : Nat → Bool × Bool} {pos pos' : Clip → Nat → Nat} {c : Clipper G} {c' : Clipper G'}
  (hP : P.env1 c.rgen = realEnv id r pos) (hpos : PosOk (realEnv id r pos)) (hc : Empty c) (hP' : P'.env1 c'.rgen = realEnv id r' pos')
  (hpos' : PosOk (realEnv id r' pos')) (hc' : Empty c')

include hP hpos hc hP' hpos' hc' in
/-- **C71 (order).** If edges that are not parallel only meet at integer points, the area returned does not depend on the order of the polygons, on their first vertices or on the random numbers. -/
theorem C71_order {ps os qs : List Poly} (hf : Fine none ps) (hf' : Fine none qs) (hE : Lattice (allEdges ps))
    (ho : ps.Perm os) (ht : List.Forall₂ Turned os qs) (op : BoolOp) (log log' : List TCall) :
    ∃ N st st' out out', (∀ fuel ≥ N, run P fuel (ps.map Poly.cmd ++ [.exec op false]) (c, log) = .ok (st, List.replicate ps.length none ++ [some ⟨out, none⟩]) ∧
        run P' fuel (qs.map Poly.cmd ++ [.exec op false]) (c', log') = .ok (st', List.replicate qs.length none ++ [some ⟨out', none⟩])) ∧
      areaOf out = areaOf out' := by
  obtain ⟨N, st, st', out, out', h1, h2⟩ := C68_order hP hpos hc hP' hpos' hc' hf hf' hE ho ht op log log'
  exact ⟨N, st, st', out, out', h1, area_eq h2⟩

end

section
variable (g : Nat → Bool × Bool) (o : Pt) {ps : List Poly} (hf : Fine none ps) (hsq : ∀ p ∈ ps, ∀ v ∈ p.pts, InSq o 90000 v)

include hf hsq in
/-- **C72 with doubles.** For polygons in a square with side 90000. -/
theorem C72_double (op : BoolOp) (log : List TCall) (fuel : Nat) :
    run libDouble fuel (ps.map Poly.cmd ++ [.exec op false]) (Clipper.fresh g, log) = .fuel ∨
      ∃ st out, run libDouble fuel (ps.map Poly.cmd ++ [.exec op false]) (Clipper.fresh g, log) =
          .ok (st, List.replicate ps.length none ++ [some ⟨out, none⟩]) ∧ (Single (out.flatMap edges) → Signed out) := by
  rcases C53_double g o hf hsq op log fuel with h | ⟨st, out, e1, -, e2⟩
  · exact Or.inl h
  · exact Or.inr ⟨st, out, e1, fun hS => (e2 hS).1.signed⟩

end

/-! ### Cases -/

/-- Three nested squares. -/
example (g : Nat → Bool × Bool) (op : BoolOp) : ∃ N st out, (∀ fuel ≥ N, run lib fuel (rings.map Poly.cmd ++ [.exec op false]) (Clipper.fresh g, []) =
      .ok (st, List.replicate rings.length none ++ [some ⟨out, none⟩])) ∧ Signed out :=
  C72_apart (P := lib) rfl (takeWhile_posOk id g) (fresh_empty g) (by decide +kernel)
    (axis_lattice (by intro e he; unfold Axis; revert e; decide +kernel)) (List.Pairwise.imp (fun h => BoxApart.apart h) (by decide +kernel)) op []

/-- The difference of nested squares: an outline, a hole in it and another outline in the hole. -/
example : (outOf (run lib 100 (rings.map Poly.cmd ++ [.exec .difference false]) (Clipper.fresh gen, []))).map (List.map windingDir) = some [200, -72, 8] := by decide +kernel

/-- The intersection of two squares apart has no area, and that of two squares that overlap has one. -/
def distant : List Poly := [⟨.subject, false, [⟨0, 0⟩, ⟨4, 0⟩, ⟨4, 4⟩, ⟨0, 4⟩]⟩, ⟨.clip, false, [⟨7, 2⟩, ⟨11, 2⟩, ⟨11, 6⟩, ⟨7, 6⟩]⟩]

example (g : Nat → Bool × Bool) (op : BoolOp) : ∃ N st out, (∀ fuel ≥ N, run lib fuel (distant.map Poly.cmd ++ [.exec op false]) (Clipper.fresh g, []) =
        .ok (st, List.replicate distant.length none ++ [some ⟨out, none⟩])) ∧
      (areaOf out = 0 ↔ ∀ x y, Off (allEdges distant) x y → ¬ region op (wind (edgesOf distant .subject) x y) (wind (edgesOf distant .clip) x y)) :=
  C71_zero (P := lib) rfl (takeWhile_posOk id g) (fresh_empty g) (by decide +kernel)
    (axis_lattice (by intro e he; unfold Axis; revert e; decide +kernel)) op []

example : (outOf (run lib 100 (distant.map Poly.cmd ++ [.exec .intersection false]) (Clipper.fresh gen, []))).map areaOf = some 0 ∧
    (outOf (run lib 100 (squares.map Poly.cmd ++ [.exec .intersection false]) (Clipper.fresh gen, []))).map areaOf = some 8 := by decide +kernel

end PolyOps.Exec
