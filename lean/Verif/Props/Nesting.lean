import Verif.Props.Execute

/-! C53: the polygons returned are nested. -/
namespace PolyOps.Exec
open PolyOps PolyOps.Sweep PolyOps.Region PolyOps.Planarity PolyOps.Loops PolyOps.PointSink PolyOps.Clipper

/-! ### Specification

`Nested` is in `Lemmas/Nested.lean`. -/

/-- The edges do not overlap: they have at most one place in common. -/
def Apart (e f : Pt × Pt) : Prop := ∀ x y x' y' : Rat, OnSegQ x y e.1 e.2 → OnSegQ x y f.1 f.2 → OnSegQ x' y' e.1 e.2 → OnSegQ x' y' f.1 f.2 →
  x = x' ∧ y = y'

/-! ### Pieces of edges that do not overlap -/

/-- Distance along the axes. -/
def far (p q : Pt) : Int := |p.x - q.x| + |p.y - q.y|

theorem far_lt {c p q : Pt} (h : InBox c p q) (hne : p ≠ c) : far c q < far p q := by
  have : p.x ≠ c.x ∨ p.y ≠ c.y := by
    by_contra hc
    rw [not_or, not_not, not_not] at hc
    exact hne (by cases p; cases c; rw [Pt.mk.injEq]; exact hc)
  unfold InBox at h
  unfold far
  rcases abs_cases (c.x - q.x) with ⟨a, _⟩ | ⟨a, _⟩ <;> rcases abs_cases (c.y - q.y) with ⟨b, _⟩ | ⟨b, _⟩ <;>
    rcases abs_cases (p.x - q.x) with ⟨a', _⟩ | ⟨a', _⟩ <;> rcases abs_cases (p.y - q.y) with ⟨b', _⟩ | ⟨b', _⟩ <;> rw [a, b, a', b'] <;> omega

theorem ahead_far : ∀ {l : List Pt} {p q : Pt}, Ahead p l q → (∀ e ∈ walk p (l ++ [q]), e.1 ≠ e.2) →
    (∀ e ∈ walk p (l ++ [q]), far e.2 q < far e.1 q ∧ far e.1 q ≤ far p q) ∧ (walk p (l ++ [q])).Nodup
  | [], p, q, _, hne => by
    have h0 : p ≠ q := hne (p, q) List.mem_cons_self
    refine ⟨fun e he => ?_, List.nodup_singleton _⟩
    obtain rfl : e = (p, q) := List.mem_singleton.mp he
    exact ⟨far_lt (box_right _ _) h0, le_rfl⟩
  | c :: l, p, q, h, hne => by
    have h0 : p ≠ c := hne (p, c) List.mem_cons_self
    have lt := far_lt h.1 h0
    obtain ⟨i1, i2⟩ := ahead_far h.2 fun e he => hne e (List.mem_cons_of_mem _ he)
    constructor
    · intro e he
      rcases List.mem_cons.mp he with rfl | he
      · exact ⟨lt, le_rfl⟩
      · have := i1 e he; exact ⟨this.1, by omega⟩
    · refine List.nodup_cons.mpr ⟨fun hc => ?_, i2⟩
      have := (i1 _ hc).2
      dsimp only at this; omega

theorem single_bent {b : Bent} (h : Ahead b.edge.1 b.via b.edge.2 ∧ ∀ e ∈ b.pieces, e.1 ≠ e.2) : Single b.pieces := by
  obtain ⟨h1, h2⟩ := ahead_far h.1 h.2
  refine ⟨h2, fun e he hr => ?_⟩
  have a := (h1 e he).1
  have b := (h1 _ hr).1
  dsimp only at b; omega

theorem piece_on {b : Bent} (h : ∀ p ∈ b.via, OnSegQ p.x p.y b.edge.1 b.edge.2) {e : Pt × Pt} (he : e ∈ b.pieces) :
    OnSegQ e.1.x e.1.y b.edge.1 b.edge.2 ∧ OnSegQ e.2.x e.2.y b.edge.1 b.edge.2 := by
  have all : ∀ p ∈ b.edge.1 :: (b.via ++ [b.edge.2]), OnSegQ p.x p.y b.edge.1 b.edge.2 := by
    intro p hp
    rcases List.mem_cons.mp hp with rfl | hp
    · exact onq_left _ _
    rcases List.mem_append.mp hp with hp | hp
    · exact h p hp
    · rw [List.mem_singleton.mp hp]; exact onq_right _ _
  obtain ⟨h1, h2⟩ := walk_mem he
  exact ⟨all _ h1, all _ (List.mem_cons_of_mem _ h2)⟩

theorem single_pieces : ∀ {B : List Bent}, (B.map Bent.edge).Pairwise Apart → (∀ b ∈ B, Ahead b.edge.1 b.via b.edge.2 ∧ ∀ e ∈ b.pieces, e.1 ≠ e.2) →
    (∀ b ∈ B, ∀ p ∈ b.via, OnSegQ p.x p.y b.edge.1 b.edge.2) → Single (B.flatMap Bent.pieces)
  | [], _, _, _ => ⟨List.nodup_nil, fun e he => by simp at he⟩
  | b :: B, hA, h1, h2 => by
    rw [List.map_cons, List.pairwise_cons] at hA
    obtain ⟨i1, i2⟩ := single_pieces hA.2 (fun b hb => h1 b (List.mem_cons_of_mem _ hb)) fun b hb => h2 b (List.mem_cons_of_mem _ hb)
    obtain ⟨j1, j2⟩ := single_bent (h1 b List.mem_cons_self)
    have no : ∀ e ∈ b.pieces, e ∉ B.flatMap Bent.pieces ∧ (e.2, e.1) ∉ B.flatMap Bent.pieces := by
      intro e he
      have hne := (h1 b List.mem_cons_self).2 e he
      obtain ⟨o1, o2⟩ := piece_on (h2 b List.mem_cons_self) he
      have bad : ∀ b' ∈ B, OnSegQ e.1.x e.1.y b'.edge.1 b'.edge.2 → OnSegQ e.2.x e.2.y b'.edge.1 b'.edge.2 → False := by
        intro b' hb' p1 p2
        obtain ⟨q1, q2⟩ := hA.1 b'.edge (List.mem_map.mpr ⟨b', hb', rfl⟩) _ _ _ _ o1 p1 o2 p2
        apply hne
        obtain ⟨⟨x1, y1⟩, ⟨x2, y2⟩⟩ := e
        rw [Pt.mk.injEq]
        exact ⟨by exact_mod_cast q1, by exact_mod_cast q2⟩
      constructor <;> intro hc <;> obtain ⟨b', hb', he'⟩ := List.mem_flatMap.mp hc
      · obtain ⟨p1, p2⟩ := piece_on (h2 b' (List.mem_cons_of_mem _ hb')) he'
        exact bad b' hb' p1 p2
      · obtain ⟨p1, p2⟩ := piece_on (h2 b' (List.mem_cons_of_mem _ hb')) he'
        exact bad b' hb' p2 p1
    rw [List.flatMap_cons]
    constructor
    · rw [List.nodup_append]
      refine ⟨j1, i1, fun e he f hf hc => ?_⟩
      subst hc
      exact (no e he).1 hf
    · intro e he hr
      rcases List.mem_append.mp he with he | he <;> rcases List.mem_append.mp hr with hr | hr
      · exact j2 e he hr
      · exact (no e he).2 hr
      · exact (no _ hr).2 he
      · exact i2 e he hr

/-! ### C53 -/

section
variable {G : Type} {P : Params G} {r : Nat → Bool × Bool} {pos : Clip → Nat → Nat} {c : Clipper G} (hP : P.env1 c.rgen = realEnv id r pos)
  (hpos : PosOk (realEnv id r pos)) (hc : Empty c)

include hP hpos hc in
/-- **C53 (nesting).** Polygons are added to an empty clipper and an operation is run. If no two edges of the polygons returned coincide,
then each of these polygons winds around its inside once and always in the same direction, and around nothing else; of two of them one is
inside the other one as a whole, or outside of it; outermost ones wind forwards, and a polygon directly inside another one winds in the
opposite direction of that one. -/
theorem C53_nested {ps : List Poly} (hf : Fine none ps) (op : BoolOp) (log : List TCall) :
    ∃ N st out, (∀ fuel ≥ N, run P fuel (ps.map Poly.cmd ++ [.exec op false]) (c, log) = .ok (st, List.replicate ps.length none ++ [some ⟨out, none⟩])) ∧
      (Single (out.flatMap edges) → Nested out) := by
  obtain ⟨B, -, -, h⟩ := C52_execute hP hpos hc hf
  obtain ⟨N, st, out, h1, h4⟩ := h op log
  exact ⟨N, st, out, h1, h4.nested⟩

include hP hpos hc in
/-- **C53 (edges that do not overlap).** If no two edges of the polygons given overlap, and those that are not parallel only meet at integer
points, then no two edges of the polygons returned coincide, and these polygons are nested. -/
theorem C53_apart {ps : List Poly} (hf : Fine none ps) (hE : Lattice (ps.flatMap fun p => edges p.pts))
    (hA : (ps.flatMap fun p => edges p.pts).Pairwise Apart) (op : BoolOp) (log : List TCall) :
    ∃ N st out, (∀ fuel ≥ N, run P fuel (ps.map Poly.cmd ++ [.exec op false]) (c, log) = .ok (st, List.replicate ps.length none ++ [some ⟨out, none⟩])) ∧
      Single (out.flatMap edges) ∧ Nested out := by
  obtain ⟨f, B, h0, h2, h3⟩ := lattice_pass r pos hE
  obtain ⟨N, st, out, h1, h4⟩ := run_core hP hpos hc hf h0 op log
  have hS := h4.single (single_pieces (by
    have : B.map Bent.edge = (inEdges ps).map Prod.snd := by rw [← h2, List.map_map]; rfl
    rw [this]
    exact hA.sublist (inEdges_sublist ps)) h4.ahead h3)
  exact ⟨N, st, out, h1, hS, h4.nested hS⟩

end

/-! ### Cases -/

/-- Ranges of numbers with at most one in common, and with none. -/
def Touch (a b c d : Int) : Prop := min (max a b) (max c d) ≤ max (min a b) (min c d)
def Away (a b c d : Int) : Prop := min (max a b) (max c d) < max (min a b) (min c d)

/-- The rectangles of two edges have at most one place in common. -/
def BoxApart (e f : Pt × Pt) : Prop := Away e.1.x e.2.x f.1.x f.2.x ∨ Away e.1.y e.2.y f.1.y f.2.y ∨
  (Touch e.1.x e.2.x f.1.x f.2.x ∧ Touch e.1.y e.2.y f.1.y f.2.y)

instance : DecidableRel BoxApart := fun _ _ => by unfold BoxApart Away Touch; infer_instance

theorem onq_range {x y : Rat} {a b : Pt} (h : OnSegQ x y a b) : ((min a.x b.x : Int) : Rat) ≤ x ∧ x ≤ ((max a.x b.x : Int) : Rat) ∧
    ((min a.y b.y : Int) : Rat) ≤ y ∧ y ≤ ((max a.y b.y : Int) : Rat) := by
  obtain ⟨t, t0, t1, h1, h2⟩ := h
  have key : ∀ (u v : Int) (w : Rat), w = u + t * (v - u) → ((min u v : Int) : Rat) ≤ w ∧ w ≤ ((max u v : Int) : Rat) := by
    intro u v w e
    rcases le_total u v with c | c
    · have c' : (u : Rat) ≤ v := by exact_mod_cast c
      rw [min_eq_left c, max_eq_right c, e]
      constructor <;> nlinarith
    · have c' : (v : Rat) ≤ u := by exact_mod_cast c
      rw [min_eq_right c, max_eq_left c, e]
      constructor <;> nlinarith
  exact ⟨(key _ _ _ h1).1, (key _ _ _ h1).2, (key _ _ _ h2).1, (key _ _ _ h2).2⟩

theorem BoxApart.apart {e f : Pt × Pt} (h : BoxApart e f) : Apart e f := by
  intro x y x' y' a b a' b'
  obtain ⟨a1, a2, a3, a4⟩ := onq_range a
  obtain ⟨b1, b2, b3, b4⟩ := onq_range b
  obtain ⟨c1, c2, c3, c4⟩ := onq_range a'
  obtain ⟨d1, d2, d3, d4⟩ := onq_range b'
  have mid : ∀ (l h l' h' : Int) (z : Rat), (l : Rat) ≤ z → z ≤ h → (l' : Rat) ≤ z → z ≤ h' → ((max l l' : Int) : Rat) ≤ z ∧ z ≤ ((min h h' : Int) : Rat) := by
    intro l h l' h' z k1 k2 k3 k4
    constructor
    · rcases max_choice l l' with e | e <;> rw [e] <;> assumption
    · rcases min_choice h h' with e | e <;> rw [e] <;> assumption
  have X := mid _ _ _ _ _ a1 a2 b1 b2
  have X' := mid _ _ _ _ _ c1 c2 d1 d2
  have Y := mid _ _ _ _ _ a3 a4 b3 b4
  have Y' := mid _ _ _ _ _ c3 c4 d3 d4
  have no : ∀ (l h : Int) (z : Rat), h < l → (l : Rat) ≤ z → z ≤ h → False := by
    intro l h z k k1 k2
    have : (h : Rat) < l := by exact_mod_cast k
    linarith
  have one : ∀ (l h : Int) (z z' : Rat), h ≤ l → (l : Rat) ≤ z → z ≤ h → (l : Rat) ≤ z' → z' ≤ h → z = z' := by
    intro l h z z' k k1 k2 k3 k4
    have : (h : Rat) ≤ l := by exact_mod_cast k
    linarith
  rcases h with h | h | h
  · exact (no _ _ _ h X.1 X.2).elim
  · exact (no _ _ _ h Y.1 Y.2).elim
  · exact ⟨one _ _ _ _ h.1 X.1 X.2 X'.1 X'.2, one _ _ _ _ h.2 Y.1 Y.2 Y'.1 Y'.2⟩

/-- The hypotheses are met by two squares that overlap. -/
example (g : Nat → Bool × Bool) (op : BoolOp) : ∃ N st out, (∀ fuel ≥ N, run lib fuel (squares.map Poly.cmd ++ [.exec op false]) (Clipper.fresh g, []) =
      .ok (st, List.replicate squares.length none ++ [some ⟨out, none⟩])) ∧ Single (out.flatMap edges) ∧ Nested out :=
  C53_apart (P := lib) rfl (takeWhile_posOk id g) (fresh_empty g) (by decide +kernel)
    (axis_lattice (by intro e he; unfold Axis; revert e; decide +kernel)) (List.Pairwise.imp (fun h => BoxApart.apart h) (by decide +kernel)) op []

/-- A square, a square to be cut out of it, and one inside of that again. -/
def rings : List Poly := [⟨.subject, false, [⟨0, 0⟩, ⟨10, 0⟩, ⟨10, 10⟩, ⟨0, 10⟩]⟩, ⟨.clip, false, [⟨2, 2⟩, ⟨8, 2⟩, ⟨8, 8⟩, ⟨2, 8⟩]⟩,
  ⟨.clip, false, [⟨4, 4⟩, ⟨4, 6⟩, ⟨6, 6⟩, ⟨6, 4⟩]⟩]

/-- Here three polygons are returned, and the middle one is a hole. -/
example (g : Nat → Bool × Bool) : ∃ N st out, (∀ fuel ≥ N, run lib fuel (rings.map Poly.cmd ++ [.exec .difference false]) (Clipper.fresh g, []) =
      .ok (st, List.replicate rings.length none ++ [some ⟨out, none⟩])) ∧ Single (out.flatMap edges) ∧ Nested out :=
  C53_apart (P := lib) rfl (takeWhile_posOk id g) (fresh_empty g) (by decide +kernel)
    (axis_lattice (by intro e he; unfold Axis; revert e; decide +kernel)) (List.Pairwise.imp (fun h => BoxApart.apart h) (by decide +kernel)) .difference []

end PolyOps.Exec
