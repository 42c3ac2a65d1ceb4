import Verif.Props.Pieces
import Verif.Props.Cover
import Mathlib.Algebra.Order.BigOperators.Group.List
import Mathlib.Analysis.Real.Sqrt

/-! C86: boundaries do not get longer. -/
namespace PolyOps.Exec
open PolyOps PolyOps.Sweep PolyOps.Region PolyOps.Planarity PolyOps.Loops PolyOps.PointSink PolyOps.Clipper PolyOps.Double

/-! ### Specification -/

/-- How far an edge goes along the x axis. -/
def spanX (e : Pt × Pt) : Int := |e.2.x - e.1.x|

/-- How far an edge goes along the y axis. -/
def spanY (e : Pt × Pt) : Int := |e.2.y - e.1.y|

/-- The length of an edge. -/
noncomputable def span (e : Pt × Pt) : ℝ := Real.sqrt (((e.2.x - e.1.x : Int) : ℝ) ^ 2 + ((e.2.y - e.1.y : Int) : ℝ) ^ 2)

/-- The sum over a list of edges. -/
def total {α : Type} [AddCommMonoid α] (m : Pt × Pt → α) (E : List (Pt × Pt)) : α := (E.map m).sum

/-! ### Sums over edges without direction -/

section
variable {α : Type} [AddCommGroup α] [LinearOrder α] [IsOrderedAddMonoid α] {m : Pt × Pt → α}

theorem total_undirected (hm : ∀ a b, m (a, b) = m (b, a)) (L : List (Pt × Pt)) : total m L = ((undirected L).map (Sym2.lift ⟨fun a b => m (a, b), hm⟩)).sum := by
  unfold total undirected
  rw [List.map_map]
  rfl

theorem total_perm (hm : ∀ a b, m (a, b) = m (b, a)) {L M : List (Pt × Pt)} (h : (undirected L).Perm (undirected M)) : total m L = total m M := by
  rw [total_undirected hm, total_undirected hm]
  exact (h.map _).sum_eq

theorem total_sublist (h0 : ∀ e, 0 ≤ m e) {L M : List (Pt × Pt)} (h : L.Sublist M) : total m L ≤ total m M := by
  unfold total
  refine (h.map m).sum_le_sum fun x hx => ?_
  obtain ⟨e, -, rfl⟩ := List.mem_map.mp hx
  exact h0 e

theorem total_subperm (hm : ∀ a b, m (a, b) = m (b, a)) (h0 : ∀ e, 0 ≤ m e) {L M : List (Pt × Pt)} (h : (undirected L).Subperm (undirected M)) : total m L ≤ total m M := by
  rw [total_undirected hm, total_undirected hm]
  obtain ⟨K, p, s⟩ := h
  rw [← (p.map _).sum_eq]
  refine (s.map _).sum_le_sum fun x hx => ?_
  obtain ⟨e, -, rfl⟩ := List.mem_map.mp hx
  induction e with
  | _ a b => exact h0 (a, b)

theorem total_flat {B : List Bent} (h : ∀ b ∈ B, total m b.pieces = m b.edge) : total m (B.flatMap Bent.pieces) = total m (B.map fun b => b.edge) := by
  induction B with
  | nil => rfl
  | cons b B ih =>
    have := ih fun b hb => h b (List.mem_cons_of_mem _ hb)
    unfold total at this ⊢
    rw [List.flatMap_cons, List.map_append, List.sum_append, this, List.map_cons, List.map_cons, List.sum_cons]
    congr 1
    exact h b List.mem_cons_self

/-- A measure that is added up by the pieces of each edge. -/
theorem total_result (hm : ∀ a b, m (a, b) = m (b, a)) (h0 : ∀ e, 0 ≤ m e) {ps : List Poly} {op : BoolOp} {B : List Bent} {out : List (List Pt)} (s : Shape op B out)
    (e2 : B.map (fun b => (b.set, b.edge)) = inEdges ps) (h : ∀ b ∈ B, total m b.pieces = m b.edge) :
    total m (out.flatMap edges) ≤ total m (allEdges ps) ∧ (op = .normalize → total m (out.flatMap edges) = total m ((inEdges ps).map Prod.snd)) := by
  have e : (inEdges ps).map Prod.snd = B.map fun b => b.edge := by
    rw [← e2, List.map_map]
    rfl
  rw [e]
  refine ⟨?_, fun hop => (total_perm hm (s.whole hop)).trans (total_flat h)⟩
  refine (total_subperm hm h0 s.part).trans ?_
  rw [total_flat h, ← e]
  exact total_sublist h0 (inEdges_sublist ps)

end

/-! ### The measures -/

theorem abs_between {a b c : Int} (h1 : min a b ≤ c) (h2 : c ≤ max a b) : |c - a| + |b - c| = |b - a| := by
  rcases le_total a b with h | h
  · rw [min_eq_left h] at h1
    rw [max_eq_right h] at h2
    rw [abs_of_nonneg (by omega), abs_of_nonneg (by omega), abs_of_nonneg (by omega)]
    omega
  · rw [min_eq_right h] at h1
    rw [max_eq_left h] at h2
    rw [abs_of_nonpos (by omega), abs_of_nonpos (by omega), abs_of_nonpos (by omega)]
    omega

theorem ahead_x {b : Pt} : ∀ {l : List Pt} {a : Pt}, Ahead a l b → total spanX (walk a (l ++ [b])) = spanX (a, b)
  | [], a, _ => by simp [total, walk]
  | c :: l, a, h => by
    have ih := ahead_x h.2
    obtain ⟨⟨h1, h2, -, -⟩, -⟩ := h
    show spanX (a, c) + total spanX (walk c (l ++ [b])) = _
    rw [ih]
    exact abs_between h1 h2

theorem ahead_y {b : Pt} : ∀ {l : List Pt} {a : Pt}, Ahead a l b → total spanY (walk a (l ++ [b])) = spanY (a, b)
  | [], a, _ => by simp [total, walk]
  | c :: l, a, h => by
    have ih := ahead_y h.2
    obtain ⟨⟨-, -, h1, h2⟩, -⟩ := h
    show spanY (a, c) + total spanY (walk c (l ++ [b])) = _
    rw [ih]
    exact abs_between h1 h2

theorem spanX_symm (a b : Pt) : spanX (a, b) = spanX (b, a) := abs_sub_comm _ _
theorem spanY_symm (a b : Pt) : spanY (a, b) = spanY (b, a) := abs_sub_comm _ _
theorem span_symm (a b : Pt) : span (a, b) = span (b, a) := by
  unfold span
  congr 1
  push_cast
  ring

/-- The length of an edge between places on a line. -/
theorem span_on {a b : Pt} {e : Pt × Pt} (h1 : OnSegQ e.1.x e.1.y a b) (h2 : OnSegQ e.2.x e.2.y a b) :
    span e * (spanX (a, b) : ℝ) = span (a, b) * (spanX e : ℝ) ∧ span e * (spanY (a, b) : ℝ) = span (a, b) * (spanY e : ℝ) := by
  obtain ⟨s, -, -, s1, s2⟩ := h1
  obtain ⟨t, -, -, t1, t2⟩ := h2
  have hx : ((e.2.x - e.1.x : Int) : ℝ) = ((t - s : Rat) : ℝ) * ((b.x - a.x : Int) : ℝ) := by
    have : ((e.2.x - e.1.x : Int) : Rat) = (t - s) * ((b.x - a.x : Int) : Rat) := by
      push_cast
      rw [t1, s1]
      ring
    exact_mod_cast congrArg (fun q : Rat => (q : ℝ)) this
  have hy : ((e.2.y - e.1.y : Int) : ℝ) = ((t - s : Rat) : ℝ) * ((b.y - a.y : Int) : ℝ) := by
    have : ((e.2.y - e.1.y : Int) : Rat) = (t - s) * ((b.y - a.y : Int) : Rat) := by
      push_cast
      rw [t2, s2]
      ring
    exact_mod_cast congrArg (fun q : Rat => (q : ℝ)) this
  have hs : span e = |((t - s : Rat) : ℝ)| * span (a, b) := by
    unfold span
    rw [hx, hy, mul_pow, mul_pow, ← mul_add, Real.sqrt_mul (sq_nonneg _), Real.sqrt_sq_eq_abs]
  have ex : (spanX e : ℝ) = |((t - s : Rat) : ℝ)| * (spanX (a, b) : ℝ) := by
    unfold spanX
    rw [Int.cast_abs, Int.cast_abs, hx, abs_mul]
  have ey : (spanY e : ℝ) = |((t - s : Rat) : ℝ)| * (spanY (a, b) : ℝ) := by
    unfold spanY
    rw [Int.cast_abs, Int.cast_abs, hy, abs_mul]
  rw [hs, ex, ey]
  constructor <;> ring

theorem total_scaled {E : List (Pt × Pt)} {m : Pt × Pt → Int} {k u : ℝ} (h : ∀ e ∈ E, span e * k = u * (m e : ℝ)) : total span E * k = u * ((total m E : Int) : ℝ) := by
  unfold total
  induction E with
  | nil => simp
  | cons e E ih =>
    have := ih fun e he => h e (List.mem_cons_of_mem _ he)
    rw [List.map_cons, List.map_cons, List.sum_cons, List.sum_cons, add_mul, this, h e List.mem_cons_self]
    push_cast
    ring

theorem walk_on {Q : Pt → Prop} {b : Pt} : ∀ {l : List Pt} {a : Pt}, Q a → (∀ p ∈ l, Q p) → Q b → ∀ e ∈ walk a (l ++ [b]), Q e.1 ∧ Q e.2
  | [], a, ha, _, hb, e, he => by
    rcases List.mem_cons.mp he with rfl | he
    · exact ⟨ha, hb⟩
    · cases he
  | c :: l, a, ha, h, hb, e, he => by
    rcases List.mem_cons.mp he with rfl | he
    · exact ⟨ha, h c List.mem_cons_self⟩
    · exact walk_on (h c List.mem_cons_self) (fun p hp => h p (List.mem_cons_of_mem _ hp)) hb e he

theorem ahead_span {a b : Pt} {l : List Pt} (hab : a ≠ b) (h : Ahead a l b) (ho : ∀ p ∈ l, OnSegQ p.x p.y a b) : total span (walk a (l ++ [b])) = span (a, b) := by
  have hon := walk_on (Q := fun p => OnSegQ p.x p.y a b) (onq_left a b) ho (onq_right a b)
  have kx := total_scaled (E := walk a (l ++ [b])) (m := spanX) fun e he => (span_on (hon e he).1 (hon e he).2).1
  have ky := total_scaled (E := walk a (l ++ [b])) (m := spanY) fun e he => (span_on (hon e he).1 (hon e he).2).2
  rw [ahead_x h] at kx
  rw [ahead_y h] at ky
  by_cases c : spanX (a, b) = 0
  · have c' : spanY (a, b) ≠ 0 := by
      intro c'
      apply hab
      unfold spanX at c
      unfold spanY at c'
      rw [abs_eq_zero] at c c'
      cases a; cases b
      rw [Pt.mk.injEq]
      dsimp only at c c'
      omega
    exact mul_right_cancel₀ (Int.cast_ne_zero.mpr c') ky
  · exact mul_right_cancel₀ (Int.cast_ne_zero.mpr c) kx

theorem bent_ends {op : BoolOp} {B : List Bent} {out : List (List Pt)} (h : Result op B out) {b : Bent} (hb : b ∈ B) : b.edge.1 ≠ b.edge.2 := by
  intro e
  obtain ⟨ha, h2⟩ := h.ahead b hb
  unfold Bent.pieces at h2
  cases hv : b.via with
  | nil =>
    rw [hv] at h2
    exact h2 _ List.mem_cons_self e
  | cons c l =>
    rw [hv] at h2 ha
    have := ha.1
    rw [← e] at this
    exact h2 (b.edge.1, c) List.mem_cons_self (box_point this).symm

/-! ### C86 -/

section
variable {G : Type} {P : Params G} {r : Nat → Bool × Bool} {pos : Clip → Nat → Nat} {c : Clipper G} (hP : P.env1 c.rgen = realEnv id r pos)
  (hpos : PosOk (realEnv id r pos)) (hc : Empty c)

/-- The boundaries of `out` go no further along either axis than the edges given; with `normalize` as far as those stored. -/
structure NotFurther (op : BoolOp) (ps : List Poly) (out : List (List Pt)) : Prop where
  x : total spanX (out.flatMap edges) ≤ total spanX (allEdges ps)
  y : total spanY (out.flatMap edges) ≤ total spanY (allEdges ps)
  wholeX : op = .normalize → total spanX (out.flatMap edges) = total spanX ((inEdges ps).map Prod.snd)
  wholeY : op = .normalize → total spanY (out.flatMap edges) = total spanY ((inEdges ps).map Prod.snd)

theorem notFurther {op : BoolOp} {ps : List Poly} {B : List Bent} {out : List (List Pt)} (s : Result op B out) (e2 : B.map (fun b => (b.set, b.edge)) = inEdges ps) : NotFurther op ps out := by
  have hx := total_result spanX_symm (fun _ => abs_nonneg _) s.toShape e2 fun b hb => ahead_x (s.ahead b hb).1
  have hy := total_result spanY_symm (fun _ => abs_nonneg _) s.toShape e2 fun b hb => ahead_y (s.ahead b hb).1
  exact ⟨hx.1, hy.1, hx.2, hy.2⟩

include hP hpos hc in
/-- **C86 (along the axes).** For all polygons: the distance along each axis covered by the boundaries returned is at most that of the polygons given, also when the crossings are rounded; with
`normalize` it is the same as that of the edges stored. -/
theorem C86_axes {ps : List Poly} (hf : Fine none ps) (op : BoolOp) (log : List TCall) :
    (∃ N st out, (∀ fuel ≥ N, run P fuel (ps.map Poly.cmd ++ [.exec op false]) (c, log) = .ok (st, List.replicate ps.length none ++ [some ⟨out, none⟩])) ∧ NotFurther op ps out) ∧
    ∃ N o out, (∀ fuel ≥ N, run P fuel (ps.map Poly.cmd ++ [.exec op true]) (c, log) = o) ∧ TreeEnd o ps.length out ∧ NotFurther op ps out := by
  obtain ⟨f, B, e0, e2, -⟩ := box_pass r pos ps
  obtain ⟨N, st, out, h1, h2⟩ := run_core hP hpos hc hf e0 op log
  obtain ⟨N', o, out', k1, k2, k3⟩ := run_tree hP hpos hc hf e0 op log
  exact ⟨⟨N, st, out, h1, notFurther h2 e2⟩, N', o, out', k1, k2, notFurther k3 e2⟩

/-- The boundaries of `out` are no longer than the edges given; with `normalize` as long as those stored. -/
structure NotLonger (op : BoolOp) (ps : List Poly) (out : List (List Pt)) : Prop where
  le : total span (out.flatMap edges) ≤ total span (allEdges ps)
  whole : op = .normalize → total span (out.flatMap edges) = total span ((inEdges ps).map Prod.snd)

include hP hpos hc in
/-- **C86 (length).** If edges that are not parallel only meet at integer points, the boundaries returned are at most as long as those of the polygons given; with `normalize` as long as the edges stored. -/
theorem C86_length {ps : List Poly} (hf : Fine none ps) (hE : Lattice (allEdges ps)) (op : BoolOp) (log : List TCall) :
    (∃ N st out, (∀ fuel ≥ N, run P fuel (ps.map Poly.cmd ++ [.exec op false]) (c, log) = .ok (st, List.replicate ps.length none ++ [some ⟨out, none⟩])) ∧ NotLonger op ps out) ∧
    ∃ N o out, (∀ fuel ≥ N, run P fuel (ps.map Poly.cmd ++ [.exec op true]) (c, log) = o) ∧ TreeEnd o ps.length out ∧ NotLonger op ps out := by
  obtain ⟨f, B, e0, e2, e3⟩ := lattice_pass r pos hE
  obtain ⟨N, st, out, h1, h2⟩ := run_core hP hpos hc hf e0 op log
  obtain ⟨N', o, out', k1, k2, k3⟩ := run_tree hP hpos hc hf e0 op log
  have key : ∀ {out}, Result op B out → NotLonger op ps out := by
    intro out s
    have := total_result span_symm (fun _ => Real.sqrt_nonneg _) s.toShape e2 fun b hb => ahead_span (bent_ends s hb) (s.ahead b hb).1 (e3 b hb)
    exact ⟨this.1, this.2⟩
  exact ⟨⟨N, st, out, h1, key h2⟩, N', o, out', k1, k2, key k3⟩

theorem span_le (e : Pt × Pt) : span e ≤ (spanX e : ℝ) + (spanY e : ℝ) ∧ (spanX e : ℝ) + (spanY e : ℝ) ≤ Real.sqrt 2 * span e := by
  unfold span spanX spanY
  rw [Int.cast_abs, Int.cast_abs]
  generalize ((e.2.x - e.1.x : Int) : ℝ) = u
  generalize ((e.2.y - e.1.y : Int) : ℝ) = v
  have hu := abs_nonneg u
  have hv := abs_nonneg v
  rw [← sq_abs u, ← sq_abs v]
  constructor
  · rw [Real.sqrt_le_left (by positivity)]
    nlinarith
  · rw [← Real.sqrt_mul (by norm_num)]
    apply Real.le_sqrt_of_sq_le
    nlinarith [sq_nonneg (|u| - |v|)]

theorem total_le {m n : Pt × Pt → ℝ} (h : ∀ e, m e ≤ n e) (E : List (Pt × Pt)) : total m E ≤ total n E := by
  unfold total
  induction E with
  | nil => rfl
  | cons e E ih =>
    rw [List.map_cons, List.map_cons, List.sum_cons, List.sum_cons]
    exact add_le_add (h e) ih

theorem total_axes (E : List (Pt × Pt)) : total (fun e => (spanX e : ℝ) + (spanY e : ℝ)) E = ((total spanX E : Int) : ℝ) + ((total spanY E : Int) : ℝ) := by
  unfold total
  induction E with
  | nil => simp
  | cons e E ih =>
    rw [List.map_cons, List.map_cons, List.map_cons, List.sum_cons, List.sum_cons, List.sum_cons, ih]
    push_cast
    ring

theorem total_mul (k : ℝ) (m : Pt × Pt → ℝ) (E : List (Pt × Pt)) : total (fun e => k * m e) E = k * total m E := by
  unfold total
  induction E with
  | nil => simp
  | cons e E ih =>
    rw [List.map_cons, List.map_cons, List.sum_cons, List.sum_cons, ih]
    ring

theorem NotFurther.length {op : BoolOp} {ps : List Poly} {out : List (List Pt)} (h : NotFurther op ps out) : total span (out.flatMap edges) ≤ Real.sqrt 2 * total span (allEdges ps) := by
  have h1 := total_le (fun e => (span_le e).1) (out.flatMap edges)
  have h2 := total_le (fun e => (span_le e).2) (allEdges ps)
  rw [total_axes] at h1 h2
  rw [total_mul] at h2
  have hx : ((total spanX (out.flatMap edges) : Int) : ℝ) ≤ ((total spanX (allEdges ps) : Int) : ℝ) := Int.cast_le.mpr h.x
  have hy : ((total spanY (out.flatMap edges) : Int) : ℝ) ≤ ((total spanY (allEdges ps) : Int) : ℝ) := Int.cast_le.mpr h.y
  linarith

include hP hpos hc in
/-- **C86 (length with rounding).** For all polygons the boundaries returned are at most √2 times as long as those given, however often their edges cross. -/
theorem C86_rounded {ps : List Poly} (hf : Fine none ps) (op : BoolOp) (log : List TCall) :
    (∃ N st out, (∀ fuel ≥ N, run P fuel (ps.map Poly.cmd ++ [.exec op false]) (c, log) = .ok (st, List.replicate ps.length none ++ [some ⟨out, none⟩])) ∧
      total span (out.flatMap edges) ≤ Real.sqrt 2 * total span (allEdges ps)) ∧
    ∃ N o out, (∀ fuel ≥ N, run P fuel (ps.map Poly.cmd ++ [.exec op true]) (c, log) = o) ∧ TreeEnd o ps.length out ∧
      total span (out.flatMap edges) ≤ Real.sqrt 2 * total span (allEdges ps) := by
  obtain ⟨⟨N, st, out, h1, h2⟩, N', o, out', k1, k2, k3⟩ := C86_axes hP hpos hc hf op log
  exact ⟨⟨N, st, out, h1, h2.length⟩, N', o, out', k1, k2, k3.length⟩

end

/-! ### Cases -/

example (g : Nat → Bool × Bool) (op : BoolOp) : ∃ N st out, (∀ fuel ≥ N, run lib fuel (squares.map Poly.cmd ++ [.exec op false]) (Clipper.fresh g, []) =
      .ok (st, List.replicate squares.length none ++ [some ⟨out, none⟩])) ∧ NotLonger op squares out :=
  (C86_length (P := lib) rfl (takeWhile_posOk id g) (fresh_empty g) (by decide +kernel) (axis_lattice (by intro e he; unfold Axis; revert e; decide +kernel)) op []).1

/-- Two triangles whose edges cross at places that are not integer. -/
def leaning : List Poly := [⟨.subject, false, [⟨0, 0⟩, ⟨7, 2⟩, ⟨3, 8⟩]⟩, ⟨.clip, false, [⟨1, 5⟩, ⟨6, 0⟩, ⟨8, 7⟩]⟩]

example (g : Nat → Bool × Bool) (op : BoolOp) : ∃ N st out, (∀ fuel ≥ N, run lib fuel (leaning.map Poly.cmd ++ [.exec op false]) (Clipper.fresh g, []) =
      .ok (st, List.replicate leaning.length none ++ [some ⟨out, none⟩])) ∧ NotFurther op leaning out :=
  (C86_axes (P := lib) rfl (takeWhile_posOk id g) (fresh_empty g) (by decide +kernel) op []).1

example (g : Nat → Bool × Bool) (op : BoolOp) : ∃ N st out, (∀ fuel ≥ N, run lib fuel (leaning.map Poly.cmd ++ [.exec op false]) (Clipper.fresh g, []) =
      .ok (st, List.replicate leaning.length none ++ [some ⟨out, none⟩])) ∧ total span (out.flatMap edges) ≤ Real.sqrt 2 * total span (allEdges leaning) :=
  (C86_rounded (P := lib) rfl (takeWhile_posOk id g) (fresh_empty g) (by decide +kernel) op []).1

/-- All of it is there with `normalize`, and less with an intersection. -/
example : (outOf (run lib 100 (leaning.map Poly.cmd ++ [.exec .normalize false]) (Clipper.fresh gen, []))).map (fun l => (size l, total spanX (l.flatMap edges), total spanY (l.flatMap edges))) = some (15, 28, 30) ∧
    (outOf (run lib 100 (leaning.map Poly.cmd ++ [.exec .intersection false]) (Clipper.fresh gen, []))).map (fun l => (size l, total spanX (l.flatMap edges), total spanY (l.flatMap edges))) = some (5, 12, 10) ∧
    total spanX (allEdges leaning) = 28 ∧ total spanY (allEdges leaning) = 30 := by decide +kernel

end PolyOps.Exec
