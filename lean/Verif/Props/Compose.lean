import Verif.Props.TreeOut
import Verif.Lemmas.WindNear

/-! C56: drawing the polygons an operation returns. C57: running another operation on them. -/
namespace PolyOps.Exec
open PolyOps PolyOps.Sweep PolyOps.Region PolyOps.Planarity PolyOps.Loops PolyOps.PointSink PolyOps.Clipper PolyOps.Compose

/-! ### Specification

`Result`, `EndOf`, `region` and `edgesOf` are those of C52, `wind` and `Off` of `Lemmas/Winding.lean`. -/

/-- Runs of pixels `(x1, x2, y)` of an image show a region: every place in the image that is in the region is in a pixel of a run, and every
run goes from the pixel of one place to the pixel of another with all places between them in the region. Nothing is said about places on
the lines `E`. -/
def Shows (runs : List (Int × Int × Int)) (width height : Int) (E : List (Pt × Pt)) (inR : ℚ → ℚ → Prop) : Prop :=
  (∀ (x : ℚ) (y : Int), 0 ≤ x → x < width → 0 ≤ y → y < height → Off E x y → inR x y →
    ∃ x1 x2, (x1, x2, y) ∈ runs ∧ x1 ≤ ⌊x⌋ ∧ ⌊x⌋ ≤ x2) ∧
  ∀ x1 x2 y, (x1, x2, y) ∈ runs → 0 ≤ x1 ∧ x1 ≤ x2 ∧ x2 < width ∧ 0 ≤ y ∧ y < height ∧
    ∃ L R : ℚ, L ≤ R ∧ x1 = max 0 (min ⌊L⌋ (width - 1)) ∧ x2 = max 0 (min ⌊R⌋ (width - 1)) ∧
      ∀ x, L < x → x < R → Off E x y → inR x y

/-- Drawing polygons with the rasteriser: the scan ends, and these are the runs. -/
def Draws (loops : List (List Pt)) (realloc : Nat → Bool) (orc : Nat → Raster.Place) (width height : Int) (rule : Raster.Rule)
    (runs : List (Int × Int × Int)) : Prop :=
  ∃ r, (∃ f0, ∀ f ≥ f0, Raster.scanRows (Raster.addLoops loops) realloc orc height f = .ok r) ∧
    runs = Raster.drawCalls (Raster.addLoops loops) (Raster.edges (Raster.addLoops loops)) width rule r

/-! ### Results -/

theorem par_of_same {e f : Pt × Pt} (h : e = f ∨ e = (f.2, f.1)) : Raster.Par e f := by
  rcases h with rfl | rfl
  · unfold Raster.Par; ring
  · unfold Raster.Par; ring

theorem inside_on {e : Pt × Pt} {x y : ℚ} (h : Raster.Inside e.1 e.2 x y) : OnSegQ x y e.1 e.2 := by
  obtain ⟨t, t0, t1, h1, h2⟩ := h
  exact ⟨t, t0.le, t1.le, h1, h2⟩

theorem inside_not_end {e : Pt × Pt} {x y : ℚ} (hy : e.1.y ≠ e.2.y) (h : Raster.Inside e.1 e.2 x y) : ¬ EndOf e x y := by
  obtain ⟨t, t0, t1, -, h2⟩ := h
  have hd : (e.2.y : ℚ) - e.1.y ≠ 0 := by
    intro hc
    apply hy
    have : (e.2.y : ℚ) = e.1.y := by linarith
    exact_mod_cast this.symm
  rintro (⟨-, h⟩ | ⟨-, h⟩)
  · have : t * ((e.2.y : ℚ) - e.1.y) = 0 := by linarith
    rcases mul_eq_zero.mp this with h | h
    · linarith
    · exact hd h
  · have : (1 - t) * ((e.2.y : ℚ) - e.1.y) = 0 := by linarith
    rcases mul_eq_zero.mp this with h | h
    · linarith
    · exact hd h

namespace Shape
variable {op : BoolOp} {B : List Bent} {out : List (List Pt)} (h : Shape op B out)
include h

/-- The sides of the result nowhere cross between their ends. -/
theorem noKnot : Raster.NoKnot out := by
  intro s hs s' hs' s'' _ h1 h2 _ hp x y i1 i2 _
  rw [sides_edges] at hs hs'
  rcases h.meet s hs s' hs' with e | e | e
  · exact absurd (par_of_same (Or.inl e)) hp
  · exact absurd (par_of_same (Or.inr e)) hp
  · exact absurd (e x y (inside_on i1) (inside_on i2)).1 (inside_not_end h1 i1)

theorem off {x y : ℚ} (ho : Off (B.flatMap Bent.pieces) x y) : Off (out.flatMap edges) x y := by
  intro e he hc
  rcases h.edge e he with h | h
  · exact ho _ h hc
  · exact ho _ h (onq_swap hc)

/-- The result winds once or not at all around each place that is not on one of its edges. -/
theorem zero_or_one {x y : ℚ} (ho : Off (out.flatMap edges) x y) :
    Exec.wind (out.flatMap edges) x y = 0 ∨ Exec.wind (out.flatMap edges) x y = 1 := by
  obtain ⟨z, w, -, h2, h3⟩ := Compose.wind_near (out.flatMap edges) (B.flatMap Bent.pieces) ho
  rw [← h3 _ fun _ h => h, h.wind z w h2]
  split
  · exact Or.inr rfl
  · exact Or.inl rfl

end Shape

theorem fill_iff {rule : Raster.Rule} (hr : rule ≠ .negative) {w : Int} (h : w = 0 ∨ w = 1) : Raster.shouldFill rule w = true ↔ w = 1 := by
  rcases h with rfl | rfl <;> cases rule <;> first | exact absurd rfl hr | decide

theorem crosses_on {s : Pt × Pt} {x : ℚ} {y : Int} (hc : Raster.Crosses s y) (hx : Raster.xAt s.1 s.2 y = x) : OnSegQ x y s.1 s.2 := by
  have hne : (s.2.y : ℚ) - s.1.y ≠ 0 := by
    intro h
    have : (s.2.y : ℚ) = s.1.y := by linarith
    have : s.2.y = s.1.y := by exact_mod_cast this
    unfold Raster.Crosses at hc
    omega
  refine ⟨(y - s.1.y) / (s.2.y - s.1.y), ?_, ?_, ?_, ?_⟩
  · rcases hc with ⟨a, b⟩ | ⟨a, b⟩
    · have a : (s.1.y : ℚ) ≤ y := by exact_mod_cast a
      have b : (y : ℚ) < s.2.y := by exact_mod_cast b
      exact div_nonneg (by linarith) (by linarith)
    · have a : (s.2.y : ℚ) ≤ y := by exact_mod_cast a
      have b : (y : ℚ) < s.1.y := by exact_mod_cast b
      exact div_nonneg_of_nonpos (by linarith) (by linarith)
  · rcases hc with ⟨a, b⟩ | ⟨a, b⟩
    · have a : (s.1.y : ℚ) ≤ y := by exact_mod_cast a
      have b : (y : ℚ) < s.2.y := by exact_mod_cast b
      rw [div_le_one (by linarith)]; linarith
    · have a : (s.2.y : ℚ) ≤ y := by exact_mod_cast a
      have b : (y : ℚ) < s.1.y := by exact_mod_cast b
      rw [div_le_one_of_neg (by linarith)]; linarith
  · rw [← hx]; unfold Raster.xAt; field_simp
  · field_simp; ring

theorem Shape.shows {op : BoolOp} {B : List Bent} {out : List (List Pt)} (h : Shape op B out) (realloc : Nat → Bool) (hs : ∀ n, realloc n = false)
    (orc : Nat → Raster.Place) (hf : ∀ n, Raster.Fair (Raster.envOf (Raster.addLoops out) realloc) (orc n)) (width height : Int) (hw : 0 < width)
    {rule : Raster.Rule} (hr : rule ≠ .negative) :
    ∃ runs, Draws out realloc orc width height rule runs ∧ Shows runs width height (out.flatMap edges) fun x y => Exec.wind (out.flatMap edges) x y = 1 := by
  obtain ⟨r, hsc, h1, h2⟩ := Raster.C55_draw out h.noKnot realloc hs orc hf width height hw rule
  refine ⟨_, ⟨r, hsc, rfl⟩, fun x y x0 x1 y0 y1 ho hin => ?_, fun x1 x2 y hm => ?_⟩
  · refine h1 y y0 y1 x x0 x1 (fun s hs hc hx => ?_) ?_
    · rw [sides_edges] at hs
      exact ho s hs (crosses_on hc hx)
    · rw [← wind_winding ho, fill_iff hr (Or.inr hin)]; exact hin
  · obtain ⟨a, b, c, d, e, L, R, hLR, e1, e2, -, -, hmid⟩ := h2 x1 x2 y hm
    refine ⟨a, b, c, d, e, L, R, hLR, e1, e2, fun x hx1 hx2 ho => ?_⟩
    have := hmid x hx1 hx2
    rw [← wind_winding ho, fill_iff hr (h.zero_or_one ho)] at this
    exact this

theorem Shows.mono {runs : List (Int × Int × Int)} {width height : Int} {E F : List (Pt × Pt)} {A C : ℚ → ℚ → Prop} (h : Shows runs width height E A)
    (h1 : ∀ x y, Off F x y → Off E x y) (h2 : ∀ x y, Off F x y → (A x y ↔ C x y)) : Shows runs width height F C := by
  refine ⟨fun x y x0 x1 y0 y1 ho hin => h.1 x y x0 x1 y0 y1 (h1 _ _ ho) ((h2 _ _ ho).mpr hin), fun x1 x2 y hm => ?_⟩
  obtain ⟨a, b, c, d, e, L, R, hLR, e1, e2, hmid⟩ := h.2 x1 x2 y hm
  exact ⟨a, b, c, d, e, L, R, hLR, e1, e2, fun x hx1 hx2 ho => (h2 _ _ ho).mp (hmid x hx1 hx2 (h1 _ _ ho))⟩

/-! ### C56 -/

section
variable {G : Type} {P : Params G} {r : Nat → Bool × Bool} {pos : Clip → Nat → Nat} {c : Clipper G} (hP : P.env1 c.rgen = realEnv id r pos)
  (hpos : PosOk (realEnv id r pos)) (hc : Empty c)

include hP hpos hc in
/-- **C56 (the edges returned).** Polygons are added to an empty clipper and an operation is run. Any two edges of the polygons returned
have the same ends or meet only at places that are ends of both, and the polygons wind once or not at all around every place that is not
on one of their edges. -/
theorem C56_edges {ps : List Poly} (hf : Fine none ps) (op : BoolOp) (log : List TCall) :
    ∃ N st out, (∀ fuel ≥ N, run P fuel (ps.map Poly.cmd ++ [.exec op false]) (c, log) = .ok (st, List.replicate ps.length none ++ [some ⟨out, none⟩])) ∧
      (∀ e ∈ out.flatMap edges, ∀ f ∈ out.flatMap edges, e = f ∨ e = (f.2, f.1) ∨ ∀ x y, OnSegQ x y e.1 e.2 → OnSegQ x y f.1 f.2 →
        EndOf e x y ∧ EndOf f x y) ∧
      ∀ x y, Off (out.flatMap edges) x y → wind (out.flatMap edges) x y = 0 ∨ wind (out.flatMap edges) x y = 1 := by
  obtain ⟨B, -, -, h⟩ := C52_execute hP hpos hc hf
  obtain ⟨N, st, out, h1, h4⟩ := h op log
  exact ⟨N, st, out, h1, h4.meet, fun x y => h4.zero_or_one⟩

include hP hpos hc in
/-- **C56 (drawing a result).** The polygons an operation returned are drawn with any fill rule but the one for negative winding numbers,
and with any search tree, while the storage of the rasteriser's events is not reallocated. Then drawing ends without error, and shows the
places around which the polygons wind once: these are those of the region of the operation on the bent polygons of C52. -/
theorem C56_draw {ps : List Poly} (hf : Fine none ps) (op : BoolOp) (log : List TCall) :
    ∃ N st out B, (∀ fuel ≥ N, run P fuel (ps.map Poly.cmd ++ [.exec op false]) (c, log) = .ok (st, List.replicate ps.length none ++ [some ⟨out, none⟩])) ∧
      B.map (fun b => (b.set, b.edge)) = inEdges ps ∧ (∀ b ∈ B, ∀ p ∈ b.via, InBox p b.edge.1 b.edge.2) ∧
      ∀ (realloc : Nat → Bool) (orc : Nat → Raster.Place), (∀ n, realloc n = false) →
        (∀ n, Raster.Fair (Raster.envOf (Raster.addLoops out) realloc) (orc n)) → ∀ width height : Int, 0 < width → ∀ rule, rule ≠ .negative →
        ∃ runs, Draws out realloc orc width height rule runs ∧
          Shows runs width height (out.flatMap edges) (fun x y => wind (out.flatMap edges) x y = 1) ∧
          Shows runs width height (B.flatMap Bent.pieces) fun x y => region op (wind (piecesOf B .subject) x y) (wind (piecesOf B .clip) x y) := by
  obtain ⟨B, h2, h3, h⟩ := C52_execute hP hpos hc hf
  obtain ⟨N, st, out, h1, h4⟩ := h op log
  refine ⟨N, st, out, B, h1, h2, h3, fun realloc orc hs hfa width height hw rule hr => ?_⟩
  obtain ⟨runs, d1, d2⟩ := h4.shows realloc hs orc hfa width height hw hr
  refine ⟨runs, d1, d2, d2.mono (fun _ _ => h4.off) fun x y ho => ?_⟩
  rw [h4.wind x y ho]
  split <;> simp_all

include hP hpos hc in
/-- **C56 (drawing an exact result).** If edges that are not parallel only meet at integer points, the pixels drawn show the region of the operation on the
polygons given. -/
theorem C56_draw_exact {ps : List Poly} (hf : Fine none ps) (hE : Lattice (ps.flatMap fun p => edges p.pts)) (op : BoolOp) (log : List TCall) :
    ∃ N st out, (∀ fuel ≥ N, run P fuel (ps.map Poly.cmd ++ [.exec op false]) (c, log) = .ok (st, List.replicate ps.length none ++ [some ⟨out, none⟩])) ∧
      ∀ (realloc : Nat → Bool) (orc : Nat → Raster.Place), (∀ n, realloc n = false) →
        (∀ n, Raster.Fair (Raster.envOf (Raster.addLoops out) realloc) (orc n)) → ∀ width height : Int, 0 < width → ∀ rule, rule ≠ .negative →
        ∃ runs, Draws out realloc orc width height rule runs ∧
          Shows runs width height (ps.flatMap fun p => edges p.pts) fun x y => region op (wind (edgesOf ps .subject) x y) (wind (edgesOf ps .clip) x y) := by
  obtain ⟨N, st, out, h1, h2, h3⟩ := C52_exact hP hpos hc hf hE op log
  obtain ⟨B, -, -, h⟩ := C52_execute hP hpos hc hf
  obtain ⟨N', st', out', h1', h4⟩ := h op log
  have heq := (h1 (max N N') (le_max_left _ _)).symm.trans (h1' (max N N') (le_max_right _ _))
  obtain rfl : out = out' := by
    simp only [Out.ok.injEq, Prod.mk.injEq, List.append_cancel_left_eq, List.cons.injEq, Option.some.injEq] at heq
    exact congrArg (·.loops) heq.2.1
  refine ⟨N, st, out, h1, fun realloc orc hs hfa width height hw rule hr => ?_⟩
  obtain ⟨runs, d1, d2⟩ := h4.shows realloc hs orc hfa width height hw hr
  refine ⟨runs, d1, d2.mono (fun x y ho e he hc => ?_) fun x y ho => ?_⟩
  · obtain ⟨f, hf, o1, o2⟩ := h2 e he
    exact ho f hf (onq_trans o1 o2 hc)
  · rw [h3 x y ho]
    split <;> simp_all

end

/-! ### Results of several operations -/

/-- An equation between the winding numbers of results for the same bent edges holds everywhere if it holds where none of these pass. -/
theorem everywhere {B : List Bent} (outs : List (List (List Pt))) {φ : List Int → Prop}
    (h : ∀ x y, Off (B.flatMap Bent.pieces) x y → φ (outs.map fun out => wind (out.flatMap edges) x y)) {x y : ℚ}
    (ho : ∀ out ∈ outs, Off (out.flatMap edges) x y) : φ (outs.map fun out => wind (out.flatMap edges) x y) := by
  obtain ⟨z, w, -, h2, h3⟩ := Compose.wind_near (outs.flatMap fun out => out.flatMap edges) (B.flatMap Bent.pieces) (x := x) (y := y) (by
    intro e he
    obtain ⟨out, h1, h2⟩ := List.mem_flatMap.mp he
    exact ho out h1 e h2)
  have := h z w h2
  rwa [List.map_congr_left fun out hout => h3 (out.flatMap edges) fun e he => List.mem_flatMap.mpr ⟨out, hout, he⟩] at this

/-- Results of all operations for the same bent edges fit together. -/
theorem fit_of {B : List Bent} {out : BoolOp → List (List Pt)} (h5 : ∀ op, Shape op B (out op)) {x y : ℚ} (ho : ∀ op, Off ((out op).flatMap edges) x y)
    {w : BoolOp → Int} (hw : ∀ op, w op = wind ((out op).flatMap edges) x y) :
    w .difference ≤ w .xor ∧ w .xor + w .intersection ≤ 1 ∧ w .intersection ≤ w .union ∧ w .union ≤ w .xor + w .intersection := by
  have := everywhere [out .union, out .intersection, out .xor, out .difference] (B := B)
    (φ := fun l => l.getD 3 0 ≤ l.getD 2 0 ∧ l.getD 2 0 + l.getD 1 0 ≤ 1 ∧ l.getD 1 0 ≤ l.getD 0 0 ∧ l.getD 0 0 ≤ l.getD 2 0 + l.getD 1 0) (fun x y ho => by
    show wind ((out .difference).flatMap edges) x y ≤ wind ((out .xor).flatMap edges) x y ∧
      wind ((out .xor).flatMap edges) x y + wind ((out .intersection).flatMap edges) x y ≤ 1 ∧
      wind ((out .intersection).flatMap edges) x y ≤ wind ((out .union).flatMap edges) x y ∧
      wind ((out .union).flatMap edges) x y ≤ wind ((out .xor).flatMap edges) x y + wind ((out .intersection).flatMap edges) x y
    simp only [fun op => (h5 op).wind x y ho, region]
    generalize wind (piecesOf B .subject) x y = a
    generalize wind (piecesOf B .clip) x y = b
    split_ifs <;> omega) (x := x) (y := y) (by simp [ho])
  simp only [hw]
  exact this

section
variable {G : Type} {P : Params G} {r : Nat → Bool × Bool} {pos : Clip → Nat → Nat} {c : Clipper G} (hP : P.env1 c.rgen = realEnv id r pos)
  (hpos : PosOk (realEnv id r pos)) (hc : Empty c)

include hP hpos hc in
/-- **C54 (with and without tree output).** Around every place that is on no edge returned, the polygons returned with tree output wind as
often as those returned without. -/
theorem C54_same {ps : List Poly} (hf : Fine none ps) (op : BoolOp) (log log' : List TCall) :
    ∃ N st o out out', (∀ fuel ≥ N, run P fuel (ps.map Poly.cmd ++ [.exec op false]) (c, log) = .ok (st, List.replicate ps.length none ++ [some ⟨out, none⟩]) ∧
        run P fuel (ps.map Poly.cmd ++ [.exec op true]) (c, log') = o) ∧ TreeEnd o ps.length out' ∧
      ∀ x y, Off (out.flatMap edges) x y → Off (out'.flatMap edges) x y → wind (out.flatMap edges) x y = wind (out'.flatMap edges) x y := by
  obtain ⟨f, B, h1, h2, h3⟩ := box_pass r pos ps
  obtain ⟨N, st, out, h4, h5⟩ := run_core hP hpos hc hf h1 op log
  obtain ⟨N', o, out', h6, h7, h8⟩ := run_tree hP hpos hc hf h1 op log'
  refine ⟨max N N', st, o, out, out', fun fuel hN => ⟨h4 fuel (by omega), h6 fuel (by omega)⟩, h7, fun x y ho ho' => ?_⟩
  have := everywhere [out, out'] (B := B) (φ := fun l => l.getD 0 0 = l.getD 1 0) (fun x y ho => by
    show wind (out.flatMap edges) x y = wind (out'.flatMap edges) x y
    rw [h5.wind x y ho, h8.wind x y ho]) (x := x) (y := y) (by simp [ho, ho'])
  exact this

include hP hpos hc in
/-- **C58 (results fit together).** All operations are run on the same polygons with the same random numbers, whatever these polygons are.
Around every place that is on no edge returned: what is in the difference is in the exclusive or; nothing is in both the exclusive or and
the intersection; what is in the intersection is in the union; and what is in the union is in the exclusive or or the intersection. So no
gaps and overlaps between results come from rounded points. -/
theorem C58_fit {ps : List Poly} (hf : Fine none ps) (log : List TCall) :
    ∃ N, ∃ out : BoolOp → List (List Pt), (∀ op, ∃ st, ∀ fuel ≥ N, run P fuel (ps.map Poly.cmd ++ [.exec op false]) (c, log) =
        .ok (st, List.replicate ps.length none ++ [some ⟨out op, none⟩])) ∧
      ∀ x y, (∀ op, Off ((out op).flatMap edges) x y) → ∀ w : BoolOp → Int, (∀ op, w op = wind ((out op).flatMap edges) x y) →
        w .difference ≤ w .xor ∧ w .xor + w .intersection ≤ 1 ∧ w .intersection ≤ w .union ∧ w .union ≤ w .xor + w .intersection := by
  obtain ⟨f, B, h1, h2, h3⟩ := box_pass r pos ps
  choose N st out h4 h5 using fun op => run_core hP hpos hc hf h1 op log
  let ops : List BoolOp := [.union, .intersection, .xor, .difference, .normalize]
  have hops : ∀ op : BoolOp, op ∈ ops := by intro op; cases op <;> decide
  refine ⟨(ops.map N).sum, out, fun op => ⟨st op, fun fuel hfu => h4 op fuel (le_trans ?_ hfu)⟩, fun x y ho w hw => ?_⟩
  · exact List.single_le_sum (by simp) _ (List.mem_map.mpr ⟨op, hops op, rfl⟩)
  exact fit_of (fun op => (h5 op).toShape) ho hw

include hP hpos hc in
/-- **C58 (subjects and clips exchanged).** If edges that are not parallel only meet at integer points, exchanging subjects and clips
changes the region of no operation but the difference. -/
theorem C58_swap {ps : List Poly} (hf : Fine none ps) (hE : Lattice (ps.flatMap fun p => edges p.pts)) (op : BoolOp) (hop : op ≠ .difference) (log log' : List TCall) :
    let qs := ps.map fun p => { p with set := if p.set = .subject then .clip else .subject }
    ∃ N st st' out out', (∀ fuel ≥ N,
        run P fuel (ps.map Poly.cmd ++ [.exec op false]) (c, log) = .ok (st, List.replicate ps.length none ++ [some ⟨out, none⟩]) ∧
        run P fuel (qs.map Poly.cmd ++ [.exec op false]) (c, log') = .ok (st', List.replicate ps.length none ++ [some ⟨out', none⟩])) ∧
      ∀ x y, Off (ps.flatMap fun p => edges p.pts) x y → wind (out.flatMap edges) x y = wind (out'.flatMap edges) x y := by
  intro qs
  have hfq : ∀ (ps : List Poly) b, Fine b ps → Fine b (ps.map fun p => { p with set := if p.set = .subject then .clip else .subject }) := by
    intro ps
    induction ps with
    | nil => intro b h; exact h
    | cons p ps ih => intro b h; exact ⟨h.1, ih _ h.2⟩
  have he : (qs.flatMap fun p => edges p.pts) = ps.flatMap fun p => edges p.pts := List.flatMap_map _ _ _
  obtain ⟨N, st, out, h1, -, h3⟩ := C52_exact hP hpos hc hf hE op log
  obtain ⟨N', st', out', h1', -, h3'⟩ := C52_exact hP hpos hc (ps := qs) (hfq ps none hf) (by rw [he]; exact hE) op log'
  have hlen : qs.length = ps.length := List.length_map _
  rw [hlen] at h1'
  refine ⟨max N N', st, st', out, out', fun fuel hN => ⟨h1 fuel (by omega), h1' fuel (by omega)⟩, fun x y ho => ?_⟩
  rw [h3 x y ho, h3' x y (by rw [he]; exact ho)]
  have e1 : edgesOf qs .subject = edgesOf ps .clip := by
    unfold edgesOf
    simp only [qs]
    rw [List.filter_map, List.flatMap_map]
    congr 1
    refine List.filter_congr fun p _ => ?_
    rcases p with ⟨k, t, l⟩
    cases k <;> rfl
  have e2 : edgesOf qs .clip = edgesOf ps .subject := by
    unfold edgesOf
    simp only [qs]
    rw [List.filter_map, List.flatMap_map]
    congr 1
    refine List.filter_congr fun p _ => ?_
    rcases p with ⟨k, t, l⟩
    cases k <;> rfl
  rw [e1, e2]
  generalize wind (edgesOf ps .subject) x y = a
  generalize wind (edgesOf ps .clip) x y = b
  have : region op a b ↔ region op b a := by
    cases op <;> simp only [region] <;> first | exact absurd rfl hop | omega
  simp only [this]

end

/-! ### C57 -/

/-- The edges of a result that are not parallel only meet at integer points. -/
theorem Shape.lattice {op : BoolOp} {B : List Bent} {out : List (List Pt)} (h : Shape op B out) : Lattice (out.flatMap edges) := by
  intro e he f hf hc x y he' hf'
  rcases h.meet e he f hf with rfl | rfl | hm
  · exact absurd (by unfold cross; ring) hc
  · exact absurd (by unfold cross; ring) hc
  · rcases (hm x y he' hf').1 with ⟨a, b⟩ | ⟨a, b⟩
    · exact ⟨e.1, a, b⟩
    · exact ⟨e.2, a, b⟩

section
variable {G G' : Type} {P : Params G} {r : Nat → Bool × Bool} {pos : Clip → Nat → Nat} {c : Clipper G} (hP : P.env1 c.rgen = realEnv id r pos)
  (hpos : PosOk (realEnv id r pos)) (hc : Empty c) {P' : Params G'} {r' : Nat → Bool × Bool} {pos' : Clip → Nat → Nat} {c' : Clipper G'}
  (hP' : P'.env1 c'.rgen = realEnv id r' pos') (hpos' : PosOk (realEnv id r' pos')) (hc' : Empty c')

include hP hpos hc hP' hpos' hc' in
/-- **C57 (an operation on a result).** The polygons an operation returned are added to another empty clipper, as subjects or as clips and
stored as intended (C25), and an operation is run. Whatever the polygons given to the first operation were, the second one is exact:
its output winds once around each place in its region, and not at all around other places; the places are those that are on no edge of
the first result. -/
theorem C57_exact_partial {ps : List Poly} (hf : Fine none ps) (op : BoolOp) (log : List TCall) :
    ∃ N st out, (∀ fuel ≥ N, run P fuel (ps.map Poly.cmd ++ [.exec op false]) (c, log) = .ok (st, List.replicate ps.length none ++ [some ⟨out, none⟩])) ∧
      ∀ qs : List Poly, qs.map Poly.pts = out → Fine none qs → ∀ op' log', ∃ N' st' out',
        (∀ fuel ≥ N', run P' fuel (qs.map Poly.cmd ++ [.exec op' false]) (c', log') = .ok (st', List.replicate qs.length none ++ [some ⟨out', none⟩])) ∧
        ∀ x y, Off (out.flatMap edges) x y → wind (out'.flatMap edges) x y =
          if region op' (wind (edgesOf qs .subject) x y) (wind (edgesOf qs .clip) x y) then 1 else 0 := by
  obtain ⟨B, -, -, h⟩ := C52_execute hP hpos hc hf
  obtain ⟨N, st, out, h1, h4⟩ := h op log
  refine ⟨N, st, out, h1, fun qs hq hfq op' log' => ?_⟩
  have he : (qs.flatMap fun p => edges p.pts) = out.flatMap edges := by rw [← hq, List.flatMap_map]
  obtain ⟨N', st', out', h1', -, h3'⟩ := C52_exact hP' hpos' hc' hfq (by rw [he]; exact h4.lattice) op' log'
  exact ⟨N', st', out', h1', by rw [← he]; exact h3'⟩

include hP hpos hc hP' hpos' hc' in
/-- **C57 (a result is kept).** If the polygons returned are all added as subjects, then every operation but the intersection gives
polygons that wind around the same places as these. -/
theorem C57_same_partial {ps : List Poly} (hf : Fine none ps) (op : BoolOp) (log : List TCall) :
    ∃ N st out, (∀ fuel ≥ N, run P fuel (ps.map Poly.cmd ++ [.exec op false]) (c, log) = .ok (st, List.replicate ps.length none ++ [some ⟨out, none⟩])) ∧
      ∀ qs : List Poly, qs.map Poly.pts = out → (∀ q ∈ qs, q.set = .subject) → Fine none qs → ∀ op' log', op' ≠ .intersection → ∃ N' st' out',
        (∀ fuel ≥ N', run P' fuel (qs.map Poly.cmd ++ [.exec op' false]) (c', log') = .ok (st', List.replicate qs.length none ++ [some ⟨out', none⟩])) ∧
        ∀ x y, Off (out.flatMap edges) x y → wind (out'.flatMap edges) x y = wind (out.flatMap edges) x y := by
  obtain ⟨B, -, -, h⟩ := C52_execute hP hpos hc hf
  obtain ⟨N, st, out, h1, h4⟩ := h op log
  refine ⟨N, st, out, h1, fun qs hq hs hfq op' log' hop => ?_⟩
  have he : (qs.flatMap fun p => edges p.pts) = out.flatMap edges := by rw [← hq, List.flatMap_map]
  obtain ⟨N', st', out', h1', -, h3'⟩ := C52_exact hP' hpos' hc' hfq (by rw [he]; exact h4.lattice) op' log'
  refine ⟨N', st', out', h1', fun x y ho => ?_⟩
  rw [h3' x y (by rw [he]; exact ho)]
  have e1 : edgesOf qs .subject = out.flatMap edges := by
    unfold edgesOf
    rw [List.filter_eq_self.mpr fun q hq => by simpa using hs q hq, he]
  have e2 : edgesOf qs .clip = [] := by
    unfold edgesOf
    rw [List.filter_eq_nil_iff.mpr fun q hq => by simp [hs q hq]]
    rfl
  rw [e1, e2]
  have e3 : wind [] x y = 0 := rfl
  rw [e3]
  rcases h4.zero_or_one ho with h | h <;> rw [h] <;> cases op' <;> first | exact absurd rfl hop | rfl | decide

end

/-! ### Cases -/

/-- The two squares of C52 in an image of eight times eight pixels. -/
example (g : Nat → Bool × Bool) (op : BoolOp) : ∃ N st out, (∀ fuel ≥ N, run lib fuel (squares.map Poly.cmd ++ [.exec op false]) (Clipper.fresh g, []) =
      .ok (st, List.replicate squares.length none ++ [some ⟨out, none⟩])) ∧
      ∃ runs, Draws out (fun _ => false) (fun _ => Raster.ordPlace (Raster.edges (Raster.addLoops out))) 8 8 .nonZero runs ∧
        Shows runs 8 8 (squares.flatMap fun p => edges p.pts) fun x y => region op (wind (edgesOf squares .subject) x y) (wind (edgesOf squares .clip) x y) := by
  obtain ⟨N, st, out, h1, h2⟩ := C56_draw_exact (P := lib) rfl (takeWhile_posOk id g) (fresh_empty g) (ps := squares) (by decide +kernel)
    (axis_lattice (by unfold Axis; decide +kernel)) op []
  exact ⟨N, st, out, h1, h2 _ _ (fun _ => rfl) (fun _ => Raster.ordPlace_fair _) 8 8 (by decide) .nonZero (by simp)⟩

/-- The polygons that the exclusive or of the squares returns, and the pixels of their drawing. -/
def xorOut : List (List Pt) := [[⟨0, 0⟩, ⟨4, 0⟩, ⟨4, 2⟩, ⟨2, 2⟩, ⟨2, 4⟩, ⟨0, 4⟩], [⟨4, 4⟩, ⟨4, 2⟩, ⟨6, 2⟩, ⟨6, 6⟩, ⟨2, 6⟩, ⟨2, 4⟩]]

example : shown (trace lib 100 (squares.map Poly.cmd ++ [.exec .xor false]) (.fresh gen, [])) = some [none, none, some (xorOut, none)] := by decide +kernel

example : ∃ r, Raster.scanRows (Raster.addLoops xorOut) (fun _ => false) (fun _ => Raster.ordPlace (Raster.edges (Raster.addLoops xorOut))) 8 60 = .ok r ∧
    (2, 6, 5) ∈ Raster.drawCalls (Raster.addLoops xorOut) (Raster.edges (Raster.addLoops xorOut)) 8 .nonZero r := by
  refine ⟨_, rfl, ?_⟩; decide +kernel

/-- They are stored as intended when they are added again. -/
example : Fine none (xorOut.map fun l => ⟨.subject, false, l⟩) := by decide +kernel

/-- The operations on the squares. -/
example (g : Nat → Bool × Bool) : ∃ N, ∃ out : BoolOp → List (List Pt), (∀ op, ∃ st, ∀ fuel ≥ N, run lib fuel (squares.map Poly.cmd ++ [.exec op false])
      (Clipper.fresh g, []) = .ok (st, List.replicate squares.length none ++ [some ⟨out op, none⟩])) ∧
      ∀ x y, (∀ op, Off ((out op).flatMap edges) x y) → ∀ w : BoolOp → Int, (∀ op, w op = wind ((out op).flatMap edges) x y) →
        w .difference ≤ w .xor ∧ w .xor + w .intersection ≤ 1 ∧ w .intersection ≤ w .union ∧ w .union ≤ w .xor + w .intersection :=
  C58_fit (P := lib) rfl (takeWhile_posOk id g) (fresh_empty g) (by decide +kernel) []

/-- A square, a triangle that winds backwards, and a triangle that starts at a corner of the square. -/
def corners : List Poly := [⟨.subject, false, [⟨0, 0⟩, ⟨4, 0⟩, ⟨4, 4⟩, ⟨0, 4⟩]⟩, ⟨.subject, false, [⟨10, 10⟩, ⟨10, 12⟩, ⟨12, 10⟩]⟩,
  ⟨.subject, false, [⟨0, 4⟩, ⟨2, 6⟩, ⟨0, 8⟩]⟩]

/-- Their union. -/
def cornersOut : List (List Pt) := [[⟨0, 0⟩, ⟨4, 0⟩, ⟨4, 4⟩, ⟨0, 4⟩], [⟨0, 4⟩, ⟨2, 6⟩, ⟨0, 8⟩]]

/-- Finding: a result may not be stored as intended. The union of these polygons, all of which are stored as intended, is the square and the
second triangle, and winds once around (1, 6). The triangle starts where the square ended; when both are added again, this vertex is lost (C25), what is
left of the triangle is dropped, and the union of the union does not wind around (1, 6). -/
theorem C57_again_wrong : Fine none corners ∧
    shown (trace lib 100 (corners.map Poly.cmd ++ [.exec .union false]) (.fresh gen, [])) = some [none, none, none, some (cornersOut, none)] ∧
    wind (cornersOut.flatMap edges) 1 6 = 1 ∧
    ∃ out, shown (trace lib 100 (cornersOut.map (fun l => .add .subject false l) ++ [.exec .union false]) (.fresh gen, [])) = some [none, none, some (out, none)] ∧
      wind (out.flatMap edges) 1 6 = 0 := by
  refine ⟨by decide +kernel, by decide +kernel, by decide +kernel, [[⟨0, 0⟩, ⟨4, 0⟩, ⟨4, 4⟩, ⟨0, 4⟩]], by decide +kernel, by decide +kernel⟩

end PolyOps.Exec
