import Verif.Props.Perimeter

/-! C87: boundaries of a union and an intersection together. -/
namespace PolyOps.Exec
open PolyOps PolyOps.Sweep PolyOps.Region PolyOps.Planarity PolyOps.Loops PolyOps.PointSink PolyOps.Clipper PolyOps.Double

theorem filter_disjoint {α : Type} {p q : α → Bool} (h : ∀ a, p a = true → q a = false) : ∀ l : List α, (l.filter p ++ l.filter q).Subperm l
  | [] => .refl _
  | a :: l => by
    have ih := filter_disjoint h l
    by_cases hp : p a = true
    · rw [List.filter_cons_of_pos hp, List.filter_cons_of_neg (by rw [h a hp]; simp)]
      exact (List.subperm_cons a).mpr ih
    · rw [List.filter_cons_of_neg hp]
      by_cases hq : q a = true
      · rw [List.filter_cons_of_pos hq]
        exact List.perm_middle.subperm.trans (((List.subperm_cons a).mpr ih))
      · rw [List.filter_cons_of_neg hq]
        exact ih.trans (List.sublist_cons_self a l).subperm

theorem subperm_map {α β : Type} (g : α → β) {l m : List α} (h : l.Subperm m) : (l.map g).Subperm (m.map g) := by
  obtain ⟨k, p, s⟩ := h
  exact ⟨k.map g, p.map g, s.map g⟩

/-- Lines kept by two operations that have none in common. -/
theorem kept_apart {f : Clip} {op op' full : BoolOp} {out out' whole : List (List Pt)} (h : Kept f op out) (h' : Kept f op' out') (hw : Kept f full whole)
    (hf : ∀ k w, (lbResult full k w).keep = true) (ha : ∀ k w, (lbResult op k w).keep = true → (lbResult op' k w).keep = false) :
    (undirected ((out ++ out').flatMap edges)).Subperm (undirected (whole.flatMap edges)) := by
  unfold Kept at h h' hw
  have hall : ((List.range f.np).filter fun i => (cls f full i).keep) = List.range f.np := List.filter_eq_self.mpr fun i _ => hf _ _
  rw [hall] at hw
  have e : undirected ((out ++ out').flatMap edges) = undirected (out.flatMap edges) ++ undirected (out'.flatMap edges) := by
    unfold undirected
    rw [List.flatMap_append, List.map_append]
  rw [e]
  refine ((h.append h').subperm.trans ?_).trans hw.symm.subperm
  rw [← List.map_append]
  exact subperm_map _ (filter_disjoint (fun i => ha _ _) _)

/-- Lines kept by one operation only if they are kept by another one. -/
theorem kept_sub {f : Clip} {op op' : BoolOp} {out out' : List (List Pt)} (h : Kept f op out) (h' : Kept f op' out')
    (ha : ∀ k w, (lbResult op k w).keep = true → (lbResult op' k w).keep = true) : (undirected (out.flatMap edges)).Subperm (undirected (out'.flatMap edges)) := by
  unfold Kept at h h'
  refine (h.subperm.trans ?_).trans h'.symm.subperm
  exact ((List.monotone_filter_right _ fun i => ha _ _).map _).subperm

theorem union_not_intersection (k : BSet) (w : Wn) (h : (lbResult .union k w).keep = true) : (lbResult .intersection k w).keep = false := by
  unfold lbResult at *
  dsimp only at *
  split at h
  · rename_i e
    rw [if_neg]
    · rfl
    · split <;> omega
  · cases h

theorem intersection_xor (k : BSet) (w : Wn) (h : (lbResult .intersection k w).keep = true) : (lbResult .xor k w).keep = true := by
  unfold lbResult at *
  cases k <;> dsimp only at * <;> simp only [reduceCtorEq, if_true, if_false] at * <;> split at h <;> first
    | (rename_i e; rw [if_pos e.1]; split <;> rfl)
    | (cases h)

theorem difference_xor (k : BSet) (w : Wn) (h : (lbResult .difference k w).keep = true) : (lbResult .xor k w).keep = true := by
  unfold lbResult at *
  cases k <;> dsimp only at * <;> simp only [reduceCtorEq, if_true, if_false] at * <;> split at h <;> first
    | (cases h)
    | (rename_i e; rw [if_pos e]; split <;> rfl)

theorem normalize_keep (k : BSet) (w : Wn) : (lbResult .normalize k w).keep = true := by
  unfold lbResult
  dsimp only
  split <;> rfl

/-! ### C87 -/

section
variable {G : Type} {P : Params G} {r : Nat → Bool × Bool} {pos : Clip → Nat → Nat} {c : Clipper G} (hP : P.env1 c.rgen = realEnv id r pos)
  (hpos : PosOk (realEnv id r pos)) (hc : Empty c)

include hP hpos hc in
/-- **C87 (edges of several operations).** The edges of the union and those of the intersection, taken together and without direction, are among those of `normalize`, none more often than there; the edges of the
intersection and those of the difference are each among those of the exclusive or. So the vertices of union and intersection together are at most as many as those of `normalize`. -/
theorem C87_together {ps : List Poly} (hf : Fine none ps) (log : List TCall) : ∃ N, ∃ out : BoolOp → List (List Pt),
    (∀ op, ∃ st, ∀ fuel ≥ N, run P fuel (ps.map Poly.cmd ++ [.exec op false]) (c, log) = .ok (st, List.replicate ps.length none ++ [some ⟨out op, none⟩])) ∧
    (undirected ((out .union ++ out .intersection).flatMap edges)).Subperm (undirected ((out .normalize).flatMap edges)) ∧
    (undirected ((out .intersection).flatMap edges)).Subperm (undirected ((out .xor).flatMap edges)) ∧
    (undirected ((out .difference).flatMap edges)).Subperm (undirected ((out .xor).flatMap edges)) ∧
    size (out .union) + size (out .intersection) ≤ size (out .normalize) ∧ size (out .intersection) ≤ size (out .xor) ∧ size (out .difference) ≤ size (out .xor) ∧
    total spanX ((out .union).flatMap edges) + total spanX ((out .intersection).flatMap edges) ≤ total spanX (allEdges ps) ∧
    total spanY ((out .union).flatMap edges) + total spanY ((out .intersection).flatMap edges) ≤ total spanY (allEdges ps) := by
  obtain ⟨f, B, e0, e2, -⟩ := box_pass r pos ps
  have hr := fun op => run_kept hP hpos hc hf e0 op log
  choose N st out h1 h2 h3 using hr
  have hu := kept_apart (h3 .union) (h3 .intersection) (h3 .normalize) normalize_keep union_not_intersection
  have hi := kept_sub (h3 .intersection) (h3 .xor) intersection_xor
  have hd := kept_sub (h3 .difference) (h3 .xor) difference_xor
  have hn := notFurther (h2 .normalize) e2
  have sum : ∀ m : Pt × Pt → Int, total m ((out .union ++ out .intersection).flatMap edges) = total m ((out .union).flatMap edges) + total m ((out .intersection).flatMap edges) := by
    intro m
    unfold total
    rw [List.flatMap_append, List.map_append, List.sum_append]
  refine ⟨max (N .union) (max (N .intersection) (max (N .xor) (max (N .difference) (N .normalize)))), out, fun op => ⟨st op, fun fuel hN => h1 op fuel ?_⟩, hu, hi, hd, ?_, ?_, ?_, ?_, ?_⟩
  · cases op <;> omega
  · have := hu.length_le
    rw [undirected_len, undirected_len] at this
    unfold size at this ⊢
    rwa [List.map_append, List.sum_append] at this
  · rw [← undirected_len, ← undirected_len]
    exact hi.length_le
  · rw [← undirected_len, ← undirected_len]
    exact hd.length_le
  · rw [← sum]
    exact (total_subperm spanX_symm (fun _ => abs_nonneg _) hu).trans hn.x
  · rw [← sum]
    exact (total_subperm spanY_symm (fun _ => abs_nonneg _) hu).trans hn.y

include hP hpos hc in
/-- **C87 (length).** If edges that are not parallel only meet at integer points, the boundaries of the union and of the intersection together are at most as long as those of the polygons given. -/
theorem C87_length {ps : List Poly} (hf : Fine none ps) (hE : Lattice (allEdges ps)) (log : List TCall) : ∃ N, ∃ out : BoolOp → List (List Pt),
    (∀ op, ∃ st, ∀ fuel ≥ N, run P fuel (ps.map Poly.cmd ++ [.exec op false]) (c, log) = .ok (st, List.replicate ps.length none ++ [some ⟨out op, none⟩])) ∧
    total span ((out .union).flatMap edges) + total span ((out .intersection).flatMap edges) ≤ total span (allEdges ps) ∧
    total span ((out .intersection).flatMap edges) ≤ total span ((out .xor).flatMap edges) ∧ total span ((out .difference).flatMap edges) ≤ total span ((out .xor).flatMap edges) := by
  obtain ⟨f, B, e0, e2, e3⟩ := lattice_pass r pos hE
  have hr := fun op => run_kept hP hpos hc hf e0 op log
  choose N st out h1 h2 h3 using hr
  have hu := kept_apart (h3 .union) (h3 .intersection) (h3 .normalize) normalize_keep union_not_intersection
  have hi := kept_sub (h3 .intersection) (h3 .xor) intersection_xor
  have hd := kept_sub (h3 .difference) (h3 .xor) difference_xor
  have hn := total_result span_symm (fun _ => Real.sqrt_nonneg _) (h2 .normalize).toShape e2 fun b hb => ahead_span (bent_ends (h2 .normalize) hb) ((h2 .normalize).ahead b hb).1 (e3 b hb)
  refine ⟨max (N .union) (max (N .intersection) (max (N .xor) (max (N .difference) (N .normalize)))), out, fun op => ⟨st op, fun fuel hN => h1 op fuel ?_⟩, ?_, ?_, ?_⟩
  · cases op <;> omega
  · have := (total_subperm span_symm (fun _ => Real.sqrt_nonneg _) hu).trans hn.1
    unfold total at this ⊢
    rwa [List.flatMap_append, List.map_append, List.sum_append] at this
  · exact total_subperm span_symm (fun _ => Real.sqrt_nonneg _) hi
  · exact total_subperm span_symm (fun _ => Real.sqrt_nonneg _) hd

end

section
variable {G : Type} {rnd : Rat → Rat} {ε : Rat} {M : Int} (hA : Arith rnd ε M) {P : Params G} {r : Nat → Bool × Bool} {pos : Clip → Nat → Nat} {c : Clipper G}
  (hP : P.env1 c.rgen = realEnv rnd r pos) (hpos : PosOk (realEnv rnd r pos)) (hc : Empty c)

include hA hP hpos hc in
/-- Calls that return keep lines of the same first pass. -/
theorem near_kept {o : Pt} {ps : List Poly} (hf : Fine none ps) (hsq : ∀ p ∈ ps, ∀ v ∈ p.pts, InSq o M v) :
    ∃ f : Clip, ∀ {op : BoolOp} {log : List TCall} {fuel : Nat} {out : List (List Pt)}, Returns (run P fuel (ps.map Poly.cmd ++ [.exec op false]) (c, log)) ps.length out → Kept f op out := by
  obtain ⟨B, k0, b1, b2, hk0, h⟩ := near_lines hA hpos hsq
  have hc' := hc
  obtain ⟨h1, -, h3, h4⟩ := hc'
  have no : ∀ {op fuel n log}, sweep1 (realEnv rnd r pos) fuel k0 = .fuel → Clipper.execute P fuel op false ({ c with pts := store [] ps, nextOrig := n }, log) = .fuel := fun {op fuel n log} h =>
    exec_fuel (c := { c with pts := store [] ps, nextOrig := n }) h1 h4 hk0 (by rw [← h, ← hP]) op log
  rcases h with h | ⟨f, hr, hm, hR, b3, h⟩
  · refine ⟨k0, ?_⟩
    rintro op log fuel out ⟨st, t, e⟩
    obtain ⟨n, log', e'⟩ := run_one (P := P) hf hc op false log fuel
    rw [e', no (h fuel)] at e
    cases e
  · refine ⟨f, ?_⟩
    rintro op log fuel out ⟨st, t, e⟩
    obtain ⟨n, log', e'⟩ := run_one (P := P) hf hc op false log fuel
    obtain ⟨N, st', out', k1, -, k2⟩ := exec_shape (c := { c with pts := store [] ps, nextOrig := n }) hP hpos h1 h3 h4 rfl (good_store ps good_nil) hr hm hR b3 hk0 op log'
    rw [e'] at e
    rcases h fuel with h | h
    · rw [no h] at e
      cases e
    · rcases k1 fuel h with ⟨h, -⟩ | h
      · rw [h] at e
        cases e
      · rw [h] at e
        injection e with e
        have := congrArg Prod.snd e
        simp only [List.append_cancel_left_eq, List.cons.injEq, Option.some.injEq, Output.mk.injEq, and_true] at this
        exact this.1 ▸ k2

end

/-- **C87 (with doubles).** With doubles, for polygons in a square, the same holds for the edges of calls that return. -/
theorem C87_double (g : Nat → Bool × Bool) (o : Pt) {ps : List Poly} (hf : Fine none ps) (hsq : ∀ p ∈ ps, ∀ v ∈ p.pts, InSq o 90000 v) {fuel : Nat} {log : List TCall} {out : BoolOp → List (List Pt)}
    (h : ∀ op, Returns (run libDouble fuel (ps.map Poly.cmd ++ [.exec op false]) (Clipper.fresh g, log)) ps.length (out op)) :
    (undirected ((out .union ++ out .intersection).flatMap edges)).Subperm (undirected ((out .normalize).flatMap edges)) ∧
    (undirected ((out .intersection).flatMap edges)).Subperm (undirected ((out .xor).flatMap edges)) ∧
    (undirected ((out .difference).flatMap edges)).Subperm (undirected ((out .xor).flatMap edges)) := by
  obtain ⟨f, hk⟩ := near_kept (P := libDouble) dbl_arith rfl (takeWhile_posOk dbl g) (fresh_empty g) hf hsq
  exact ⟨kept_apart (hk (h .union)) (hk (h .intersection)) (hk (h .normalize)) normalize_keep union_not_intersection, kept_sub (hk (h .intersection)) (hk (h .xor)) intersection_xor,
    kept_sub (hk (h .difference)) (hk (h .xor)) difference_xor⟩

/-! ### Cases -/

example (g : Nat → Bool × Bool) : ∃ N, ∃ out : BoolOp → List (List Pt),
    (∀ op, ∃ st, ∀ fuel ≥ N, run lib fuel (squares.map Poly.cmd ++ [.exec op false]) (Clipper.fresh g, []) = .ok (st, List.replicate squares.length none ++ [some ⟨out op, none⟩])) ∧
    total span ((out .union).flatMap edges) + total span ((out .intersection).flatMap edges) ≤ total span (allEdges squares) ∧
    total span ((out .intersection).flatMap edges) ≤ total span ((out .xor).flatMap edges) ∧ total span ((out .difference).flatMap edges) ≤ total span ((out .xor).flatMap edges) :=
  C87_length (P := lib) rfl (takeWhile_posOk id g) (fresh_empty g) (by decide +kernel) (axis_lattice (by intro e he; unfold Axis; revert e; decide +kernel)) []

/-- Here union and intersection together use all pieces, and the exclusive or has more edges than the others. -/
example : (outOf (run lib 100 (leaning.map Poly.cmd ++ [.exec .union false]) (Clipper.fresh gen, []))).map size = some 10 ∧
    (outOf (run lib 100 (leaning.map Poly.cmd ++ [.exec .intersection false]) (Clipper.fresh gen, []))).map size = some 5 ∧
    (outOf (run lib 100 (leaning.map Poly.cmd ++ [.exec .difference false]) (Clipper.fresh gen, []))).map size = some 6 ∧
    (outOf (run lib 100 (leaning.map Poly.cmd ++ [.exec .xor false]) (Clipper.fresh gen, []))).map size = some 15 ∧ Fine none leaning := by decide +kernel


/-- With doubles all operations return for two rectangles that overlap crosswise. -/
example : Fine none rects ∧ (∀ p ∈ rects, ∀ v ∈ p.pts, InSq ⟨0, 0⟩ 90000 v) ∧
    ∀ op ∈ [BoolOp.union, .intersection, .xor, .difference, .normalize], (outOf (run libDouble 100 (rects.map Poly.cmd ++ [.exec op false]) (Clipper.fresh down, []))).isSome = true := by
  refine ⟨by decide +kernel, ?_, by decide +kernel⟩
  intro p hp v hv; unfold InSq; revert p v; decide +kernel

end PolyOps.Exec
