import Verif.Props.TreeOut
import Verif.Props.Same

/-! C79: which vertices the polygons returned have. -/
namespace PolyOps.Exec
open PolyOps PolyOps.Sweep PolyOps.Region PolyOps.Planarity PolyOps.Loops PolyOps.PointSink PolyOps.Clipper

/-! ### Specification -/

/-- A vertex of one of the polygons, or a point of two edges that are not parallel. -/
def Junction (ps : List Poly) (c : Pt) : Prop :=
  (∃ p ∈ ps, c ∈ p.pts) ∨ ∃ e ∈ allEdges ps, ∃ f ∈ allEdges ps, cross e f ≠ 0 ∧ OnSegQ c.x c.y e.1 e.2 ∧ OnSegQ c.x c.y f.1 f.2

/-- Edges that are not parallel to `e`, and the ends of all edges, meet `e` only at its ends. -/
def Uncut (E : List (Pt × Pt)) (e : Pt × Pt) : Prop := ∀ f ∈ E, ∀ x y : Rat, OnSegQ x y e.1 e.2 → OnSegQ x y f.1 f.2 → cross e f ≠ 0 ∨ EndOf f x y → EndOf e x y

/-! ### Points reported -/

theorem parallel_end {s t : CSeg} {q : Isect} {c : Pt} (h : intersectsParallel s t = some q) (hp : q.p = some c) :
    c = s.pa ∨ c = s.pb ∨ c = t.pa ∨ c = t.pb := by
  unfold intersectsParallel at h
  simp only at h
  repeat' split at h
  all_goals first
    | (cases h; done)
    | (cases h; cases hp; simp; done)
    | (cases h; cases hp; done)

theorem junction_env {ps : List Poly} (hE : Lattice (allEdges ps)) (r : Nat → Bool × Bool) (pos : Clip → Nat → Nat) :
    EnvLogOn (fun a b => Along (allEdges ps) a b ∧ Junction ps a ∧ Junction ps b) (fun a b c => OnSegQ c.x c.y a b ∧ Junction ps c) (realEnv id r pos) := by
  intro k s t q c hs ht hc ⟨ha, j1, j2⟩ ⟨hb, j3, j4⟩ h hp
  obtain ⟨o1, o2⟩ := lattice_env hE r pos k s t q c hs ht hc ha hb h hp
  have : Junction ps c := by
    by_cases hd : isD s t = 0
    · change intersects id (r k).1 (r k).2 s t = some q at h
      unfold intersects at h
      simp only at h
      rw [if_pos hd] at h
      rcases parallel_end h hp with rfl | rfl | rfl | rfl <;> assumption
    · obtain ⟨e, he, e1, e2⟩ := ha
      obtain ⟨f, hf, f1, f2⟩ := hb
      exact Or.inr ⟨e, he, f, hf, along_cross e1 e2 f1 f2 hd, onq_trans e1 e2 o1, onq_trans f1 f2 o2⟩
  exact ⟨⟨o1, this⟩, o2, this⟩

theorem edges_ends {l : List Pt} {e : Pt × Pt} (h : e ∈ edges l) : e.1 ∈ l ∧ e.2 ∈ l := by
  cases l with
  | nil => cases h
  | cons a l =>
    obtain ⟨h1, h2⟩ := walk_mem (l := l ++ [a]) h
    simp only [List.mem_cons, List.mem_append, List.not_mem_nil, or_false] at h1 h2 ⊢
    exact ⟨by tauto, by tauto⟩

/-- The ends of all lines of the first pass. -/
theorem junction_ends {ps : List Poly} (hE : Lattice (allEdges ps)) {r : Nat → Bool × Bool} {pos : Clip → Nat → Nat} {f : Clip} {B : List Bent}
    (h : Pass r pos (store [] ps) f B) : ∀ e ∈ B.flatMap Bent.pieces, Junction ps e.1 ∧ Junction ps e.2 := by
  have hg := good_store ps good_nil
  have hl : linesOf (store [] ps) = inEdges ps := lines_store ps good_nil
  have hlog := reach_logOn (R := fun a b => Along (allEdges ps) a b ∧ Junction ps a ∧ Junction ps b) (Q := fun a b c => OnSegQ c.x c.y a b ∧ Junction ps c)
    (fun _ _ _ h => ⟨onq_swap h.1, h.2⟩) (by rintro a b ⟨⟨e, he, h1, h2⟩, j1, j2⟩; exact ⟨⟨e, he, h2, h1⟩, j2, j1⟩)
    (by
      rintro a b c ⟨⟨e, he, h1, h2⟩, j1, j2⟩ ⟨hq, jc⟩
      have := onq_trans h1 h2 hq
      exact ⟨⟨⟨e, he, h1, this⟩, j1, jc⟩, ⟨e, he, this, h2⟩, jc, j2⟩)
    (realEnv_ok id r pos) (junction_env hE r pos) hg.loops
    (by
      intro i hi
      have hm : ((lpOf (store [] ps) i).set, (lpOf (store [] ps) i).data, (lpOf (store [] ps) (lpOf (store [] ps) i).next).data) ∈ inEdges ps := by
        rw [← hl]
        refine List.mem_map.mpr ⟨lpOf (store [] ps) i, ?_, rfl⟩
        unfold lpOf
        rw [List.getD_eq_getElem _ _ hi]
        exact List.getElem_mem hi
      obtain ⟨p, hp, -, he⟩ := inEdges_mem hm
      exact ⟨⟨_, List.mem_flatMap.mpr ⟨p, hp, he⟩, onq_left _ _, onq_right _ _⟩, Or.inl ⟨p, hp, (edges_ends he).1⟩, Or.inl ⟨p, hp, (edges_ends he).2⟩⟩) h.reach
  intro e he
  obtain ⟨b, hb, he⟩ := List.mem_flatMap.mp he
  have : (b.set, e) ∈ f.lines.map fun l => (l.set, l.p, l.q) := h.bent.mem_iff.mpr (List.mem_flatMap.mpr ⟨b, hb, List.mem_map.mpr ⟨e, he, rfl⟩⟩)
  obtain ⟨l, hl, e1⟩ := List.mem_map.mp this
  obtain ⟨i, hi, rfl⟩ := List.mem_map.mp hl
  rw [← show ((f.line i).p, (f.line i).q) = e from congrArg Prod.snd e1]
  exact (hlog.rel i (List.mem_range.mp hi)).2

/-! ### Pieces cover their edge -/

theorem between_on {p q a b : Pt} {u v t : Rat} {x y : Rat} (ha : At p q u a.x a.y) (hb : At p q v b.x b.y) (ht : At p q t x y) (h1 : u ≤ t) (h2 : t ≤ v) :
    OnSegQ x y a b := by
  obtain ⟨a1, a2⟩ := ha
  obtain ⟨b1, b2⟩ := hb
  obtain ⟨t1, t2⟩ := ht
  rcases (h1.trans h2).eq_or_lt with k | k
  · have : t = u := le_antisymm (k ▸ h2) h1
    subst this
    exact ⟨0, le_rfl, zero_le_one, by rw [t1, a1]; ring, by rw [t2, a2]; ring⟩
  · have hk : v - u ≠ 0 := by linarith
    refine ⟨(t - u) / (v - u), div_nonneg (by linarith) (by linarith), (div_le_one (by linarith)).mpr (by linarith), ?_, ?_⟩
    · rw [t1, a1, b1]; field_simp; ring
    · rw [t2, a2, b2]; field_simp; ring

theorem walk_cover {p q : Pt} {x y t : Rat} (ht : At p q t x y) (h1 : t ≤ 1) : ∀ (l : List Pt) (a : Pt) (u : Rat), At p q u a.x a.y → u ≤ t →
    (∀ c ∈ l, OnSegQ c.x c.y p q) → ∃ e ∈ walk a (l ++ [q]), OnSegQ x y e.1 e.2
  | [], a, u, ha, hu, _ => ⟨(a, q), by simp [walk], between_on ha (v := 1) (by constructor <;> ring) ht hu h1⟩
  | c :: l, a, u, ha, hu, hl => by
    obtain ⟨v, -, -, hv⟩ := hl c (List.mem_cons_self ..)
    rcases le_total t v with k | k
    · exact ⟨(a, c), List.mem_cons_self .., between_on ha hv ht hu k⟩
    · obtain ⟨e, he, h⟩ := walk_cover ht h1 l c v hv k fun d hd => hl d (List.mem_cons_of_mem _ hd)
      exact ⟨e, List.mem_cons_of_mem _ he, h⟩

theorem pieces_cover {b : Bent} (h : ∀ p ∈ b.via, OnSegQ p.x p.y b.edge.1 b.edge.2) {x y : Rat} (hon : OnSegQ x y b.edge.1 b.edge.2) :
    ∃ e ∈ b.pieces, OnSegQ x y e.1 e.2 := by
  obtain ⟨t, t0, t1, ht⟩ := hon
  exact walk_cover ht t1 b.via b.edge.1 0 (by constructor <;> ring) t0 h

theorem walk_ends (a : Pt) (l : List Pt) (q : Pt) : (∃ e ∈ walk a (l ++ [q]), e.1 = a) ∧ ∃ e ∈ walk a (l ++ [q]), e.2 = q := by
  refine ⟨by cases l <;> exact ⟨_, List.mem_cons_self .., rfl⟩, ?_⟩
  induction l generalizing a with
  | nil => exact ⟨(a, q), by simp [walk], rfl⟩
  | cons b l ih =>
    obtain ⟨e, he, h⟩ := ih b
    exact ⟨e, List.mem_cons_of_mem _ he, h⟩

theorem pieces_on {b : Bent} (h : ∀ p ∈ b.via, OnSegQ p.x p.y b.edge.1 b.edge.2) {e : Pt × Pt} (he : e ∈ b.pieces) :
    OnSegQ e.1.x e.1.y b.edge.1 b.edge.2 ∧ OnSegQ e.2.x e.2.y b.edge.1 b.edge.2 := by
  have all : ∀ p ∈ b.edge.1 :: (b.via ++ [b.edge.2]), OnSegQ p.x p.y b.edge.1 b.edge.2 := by
    intro p hp
    rcases List.mem_cons.mp hp with rfl | hp
    · exact onq_left _ _
    rcases List.mem_append.mp hp with hp | hp
    · exact h p hp
    · rw [List.mem_singleton.mp hp]; exact onq_right _ _
  obtain ⟨h1, h2⟩ := walk_mem he
  exact ⟨all _ h1, all _ (List.mem_cons_of_mem _ h2)⟩

theorem cross_piece {e f g : Pt × Pt} (h1 : OnSegQ g.1.x g.1.y f.1 f.2) (h2 : OnSegQ g.2.x g.2.y f.1 f.2) (h : e = g ∨ e = (g.2, g.1)) : cross e f = 0 := by
  obtain ⟨a, -, -, a1, a2⟩ := h1
  obtain ⟨b, -, -, b1, b2⟩ := h2
  have : ((cross e f : Int) : Rat) = 0 := by
    unfold cross
    push_cast
    rcases h with rfl | rfl
    · rw [a1, a2, b1, b2]; ring
    · simp only; rw [a1, a2, b1, b2]; ring
  exact_mod_cast this

theorem endOf_swap {e : Pt × Pt} {x y : Rat} : EndOf (e.2, e.1) x y ↔ EndOf e x y := or_comm

/-- Pieces are not cut by the edges given. -/
theorem uncut_pieces {ps : List Poly} {r : Nat → Bool × Bool} {pos : Clip → Nat → Nat} (hpos : PosOk (realEnv id r pos)) {f : Clip} {B : List Bent}
    (h : Pass r pos (store [] ps) f B) (h2 : B.map (fun b => (b.set, b.edge)) = inEdges ps) (h3 : ∀ b ∈ B, ∀ p ∈ b.via, OnSegQ p.x p.y b.edge.1 b.edge.2) :
    ∀ e, e ∈ B.flatMap Bent.pieces ∨ (e.2, e.1) ∈ B.flatMap Bent.pieces → Uncut ((inEdges ps).map Prod.snd) e := by
  have hg := good_store ps good_nil
  have hpl : Planar f.lines := planar_end (realEnv_sound id r pos) hpos hg.loops h.reach h.more (reach_range (realEnv_ok id r _) (realEnv_range r _) hg.loops h.reach)
  have line : ∀ e ∈ B.flatMap Bent.pieces, ∃ l ∈ f.lines, (l.p, l.q) = e := by
    intro e he
    obtain ⟨b, hb, he⟩ := List.mem_flatMap.mp he
    have : (b.set, e) ∈ f.lines.map fun l => (l.set, l.p, l.q) := h.bent.mem_iff.mpr (List.mem_flatMap.mpr ⟨b, hb, List.mem_map.mpr ⟨e, he, rfl⟩⟩)
    obtain ⟨l, hl, e1⟩ := List.mem_map.mp this
    exact ⟨l, hl, congrArg Prod.snd e1⟩
  have key : ∀ e ∈ B.flatMap Bent.pieces, Uncut ((inEdges ps).map Prod.snd) e := by
    intro e he g hgm x y o1 o2 hor
    obtain ⟨d, hd, rfl⟩ := List.mem_map.mp hgm
    rw [← h2] at hd
    obtain ⟨b, hb, rfl⟩ := List.mem_map.mp hd
    simp only at o2 hor
    obtain ⟨l, hl, rfl⟩ := line e he
    have meet : ∀ g ∈ b.pieces, OnSegQ x y g.1 g.2 → cross (l.p, l.q) b.edge ≠ 0 ∨ EndOf g x y → EndOf (l.p, l.q) x y := by
      intro g hgp o3 hor
      obtain ⟨m, hm, rfl⟩ := line g (List.mem_flatMap.mpr ⟨b, hb, hgp⟩)
      rcases hpl l hl m hm with c | c
      · rcases hor with hcr | hend
        · refine absurd (cross_piece (e := (l.p, l.q)) (g := (m.p, m.q)) ?_ ?_ ?_) hcr
          · exact (pieces_on (h3 b hb) hgp).1
          · exact (pieces_on (h3 b hb) hgp).2
          · rcases c with ⟨c1, c2⟩ | ⟨c1, c2⟩
            · left; rw [c1, c2]
            · right; rw [c1, c2]
        · rcases c with ⟨c1, c2⟩ | ⟨c1, c2⟩
          · rw [c1, c2]; exact hend
          · rw [c1, c2]; exact hend.symm
      · exact (c x y o1 o3).1
    rcases hor with hcr | hend
    · obtain ⟨g, hgp, o3⟩ := pieces_cover (h3 b hb) o2
      exact meet g hgp o3 (Or.inl hcr)
    · rcases hend with ⟨rfl, rfl⟩ | ⟨rfl, rfl⟩
      · obtain ⟨g, hgp, e1⟩ := (walk_ends b.edge.1 b.via b.edge.2).1
        refine meet g hgp (by rw [← e1]; exact onq_left _ _) (Or.inr (Or.inl ?_))
        rw [e1]; exact ⟨rfl, rfl⟩
      · obtain ⟨g, hgp, e1⟩ := (walk_ends b.edge.1 b.via b.edge.2).2
        refine meet g hgp (by rw [← e1]; exact onq_right _ _) (Or.inr (Or.inr ?_))
        rw [e1]; exact ⟨rfl, rfl⟩
  rintro e (he | he)
  · exact key e he
  · intro g hg x y o1 o2 hor
    refine endOf_swap.mp (key _ he g hg x y (onq_swap o1) o2 (hor.imp_left fun c k => c ?_))
    unfold cross at k ⊢
    simp only at k
    linarith

theorem vertex_edge {l : List Pt} {v : Pt} (h : v ∈ l) : ∃ e ∈ edges l, e.1 = v := by
  have key : ∀ (l : List Pt) (a q : Pt), v ∈ a :: l → ∃ e ∈ walk a (l ++ [q]), e.1 = v := by
    intro l
    induction l with
    | nil => intro a q h; exact ⟨(a, q), by simp [walk], by simpa [eq_comm] using h⟩
    | cons b l ih =>
      intro a q h
      rcases List.mem_cons.mp h with rfl | h
      · exact ⟨_, List.mem_cons_self .., rfl⟩
      · obtain ⟨e, he, h⟩ := ih b q h
        exact ⟨e, List.mem_cons_of_mem _ he, h⟩
  cases l with
  | nil => cases h
  | cons a l => exact key l a a h

theorem Result.junctions {op : BoolOp} {B : List Bent} {out : List (List Pt)} (h : Result op B out) {ps : List Poly}
    (hB : ∀ e ∈ B.flatMap Bent.pieces, Junction ps e.1 ∧ Junction ps e.2) : ∀ l ∈ out, ∀ v ∈ l, Junction ps v := by
  intro l hl v hv
  obtain ⟨e, he, rfl⟩ := vertex_edge hv
  rcases h.edge e (List.mem_flatMap.mpr ⟨l, hl, he⟩) with k | k
  · exact (hB _ k).1
  · exact (hB _ k).2

section
variable {G : Type} {P : Params G} {r : Nat → Bool × Bool} {pos : Clip → Nat → Nat} {c : Clipper G} (hP : P.env1 c.rgen = realEnv id r pos)
  (hpos : PosOk (realEnv id r pos)) (hc : Empty c)

include hP hpos hc in
/-- **C79 (vertices).** Polygons of which edges that are not parallel only meet at integer points are added to an empty clipper and an operation is run. Each vertex returned is a vertex of
a polygon given or a point where two edges given cross; and no edge returned passes a vertex that was stored or crosses a stored edge: between its ends it meets only edges that run along it. -/
theorem C79_vertices {ps : List Poly} (hf : Fine none ps) (hE : Lattice (allEdges ps)) (op : BoolOp) (log : List TCall) :
    ∃ N st out, (∀ fuel ≥ N, run P fuel (ps.map Poly.cmd ++ [.exec op false]) (c, log) = .ok (st, List.replicate ps.length none ++ [some ⟨out, none⟩])) ∧
      (∀ l ∈ out, ∀ v ∈ l, Junction ps v) ∧ ∀ e ∈ out.flatMap edges, Uncut ((inEdges ps).map Prod.snd) e := by
  obtain ⟨f, B, e0, e2, e3⟩ := lattice_pass r pos hE
  obtain ⟨N, st, out, e1, e4⟩ := run_core hP hpos hc hf e0 op log
  exact ⟨N, st, out, e1, e4.junctions (junction_ends hE e0), fun e he => uncut_pieces hpos e0 e2 e3 e (e4.edge e he)⟩

include hP hpos hc in
/-- **C79 (tree output).** The same for tree output. -/
theorem C79_tree {ps : List Poly} (hf : Fine none ps) (hE : Lattice (allEdges ps)) (op : BoolOp) (log : List TCall) :
    ∃ N o out, (∀ fuel ≥ N, run P fuel (ps.map Poly.cmd ++ [.exec op true]) (c, log) = o) ∧ TreeEnd o ps.length out ∧
      (∀ l ∈ out, ∀ v ∈ l, Junction ps v) ∧ ∀ e ∈ out.flatMap edges, Uncut ((inEdges ps).map Prod.snd) e := by
  obtain ⟨f, B, e0, e2, e3⟩ := lattice_pass r pos hE
  obtain ⟨N, o, out, e1, e1', e4⟩ := run_tree hP hpos hc hf e0 op log
  exact ⟨N, o, out, e1, e1', e4.junctions (junction_ends hE e0), fun e he => uncut_pieces hpos e0 e2 e3 e (e4.edge e he)⟩

include hP hpos hc in
/-- **C79 (separate polygons).** If no two edges that are not parallel meet except at a vertex of a polygon given, all vertices returned are vertices given. -/
theorem C79_given {ps : List Poly} (hf : Fine none ps)
    (hM : ∀ e ∈ allEdges ps, ∀ f ∈ allEdges ps, cross e f ≠ 0 → ∀ x y : Rat, OnSegQ x y e.1 e.2 → OnSegQ x y f.1 f.2 → ∃ p ∈ ps, ∃ v ∈ p.pts, x = v.x ∧ y = v.y)
    (op : BoolOp) (log : List TCall) :
    ∃ N st out, (∀ fuel ≥ N, run P fuel (ps.map Poly.cmd ++ [.exec op false]) (c, log) = .ok (st, List.replicate ps.length none ++ [some ⟨out, none⟩])) ∧
      ∀ l ∈ out, ∀ v ∈ l, ∃ p ∈ ps, v ∈ p.pts := by
  have hE : Lattice (allEdges ps) := by
    intro e he f hf h x y o1 o2
    obtain ⟨_, _, v, _, h⟩ := hM e he f hf h x y o1 o2
    exact ⟨v, h⟩
  obtain ⟨N, st, out, h1, h2, -⟩ := C79_vertices hP hpos hc hf hE op log
  refine ⟨N, st, out, h1, fun l hl v hv => ?_⟩
  rcases h2 l hl v hv with h | ⟨e, he, f, hf, hcr, o1, o2⟩
  · exact h
  · obtain ⟨p, hp, w, hw, e1, e2⟩ := hM e he f hf hcr _ _ o1 o2
    have : v = w := by
      cases v; cases w; rw [Pt.mk.injEq]; exact ⟨by exact_mod_cast e1, by exact_mod_cast e2⟩
    exact ⟨p, hp, this ▸ hw⟩

end

/-! ### Cases -/

example (g : Nat → Bool × Bool) (op : BoolOp) : ∃ N st out, (∀ fuel ≥ N, run lib fuel (squares.map Poly.cmd ++ [.exec op false]) (Clipper.fresh g, []) =
      .ok (st, List.replicate squares.length none ++ [some ⟨out, none⟩])) ∧ (∀ l ∈ out, ∀ v ∈ l, Junction squares v) ∧
      ∀ e ∈ out.flatMap edges, Uncut ((inEdges squares).map Prod.snd) e :=
  C79_vertices (P := lib) rfl (takeWhile_posOk id g) (fresh_empty g) (by decide +kernel)
    (axis_lattice (by intro e he; unfold Axis; revert e; decide +kernel)) op []

/-- Here two vertices are crossings. -/
example : outOf (run lib 100 (squares.map Poly.cmd ++ [.exec .intersection false]) (Clipper.fresh gen, [])) = some [[⟨4, 4⟩, ⟨2, 4⟩, ⟨2, 2⟩, ⟨4, 2⟩]] := by decide +kernel

/-- Edges along the axes that meet only at vertices. -/
theorem axis_meet {ps : List Poly} (h : ∀ e ∈ allEdges ps, ∀ f ∈ allEdges ps, cross e f = 0 ∨
      (e.1.x = e.2.x ∧ f.1.y = f.2.y ∧ ((∃ p ∈ ps, ⟨e.1.x, f.1.y⟩ ∈ p.pts) ∨ ¬ InBox ⟨e.1.x, f.1.y⟩ e.1 e.2 ∨ ¬ InBox ⟨e.1.x, f.1.y⟩ f.1 f.2)) ∨
      (f.1.x = f.2.x ∧ e.1.y = e.2.y ∧ ((∃ p ∈ ps, ⟨f.1.x, e.1.y⟩ ∈ p.pts) ∨ ¬ InBox ⟨f.1.x, e.1.y⟩ e.1 e.2 ∨ ¬ InBox ⟨f.1.x, e.1.y⟩ f.1 f.2))) :
    ∀ e ∈ allEdges ps, ∀ f ∈ allEdges ps, cross e f ≠ 0 → ∀ x y : Rat, OnSegQ x y e.1 e.2 → OnSegQ x y f.1 f.2 → ∃ p ∈ ps, ∃ v ∈ p.pts, x = v.x ∧ y = v.y := by
  have key : ∀ e f : Pt × Pt, e.1.x = e.2.x → f.1.y = f.2.y → ((∃ p ∈ ps, (⟨e.1.x, f.1.y⟩ : Pt) ∈ p.pts) ∨ ¬ InBox ⟨e.1.x, f.1.y⟩ e.1 e.2 ∨ ¬ InBox ⟨e.1.x, f.1.y⟩ f.1 f.2) →
      ∀ x y : Rat, OnSegQ x y e.1 e.2 → OnSegQ x y f.1 f.2 → ∃ p ∈ ps, ∃ v ∈ p.pts, x = v.x ∧ y = v.y := by
    intro e f h1 h2 h3 x y o1 o2
    have hx : x = e.1.x := by obtain ⟨t, -, -, k, -⟩ := o1; rw [k, ← h1]; ring
    have hy : y = f.1.y := by obtain ⟨t, -, -, -, k⟩ := o2; rw [k, ← h2]; ring
    subst hx hy
    rcases h3 with ⟨p, hp, hv⟩ | h3 | h3
    · exact ⟨p, hp, _, hv, rfl, rfl⟩
    · exact absurd (onq_box (c := ⟨e.1.x, f.1.y⟩) o1) h3
    · exact absurd (onq_box (c := ⟨e.1.x, f.1.y⟩) o2) h3
  intro e he f hf hcr x y o1 o2
  rcases h e he f hf with k | ⟨k1, k2, k3⟩ | ⟨k1, k2, k3⟩
  · exact absurd k hcr
  · exact key e f k1 k2 k3 x y o1 o2
  · exact key f e k1 k2 (k3.imp_right Or.symm) x y o2 o1

/-- Nested squares. -/
example (g : Nat → Bool × Bool) (op : BoolOp) : ∃ N st out, (∀ fuel ≥ N, run lib fuel (rings.map Poly.cmd ++ [.exec op false]) (Clipper.fresh g, []) =
      .ok (st, List.replicate rings.length none ++ [some ⟨out, none⟩])) ∧ ∀ l ∈ out, ∀ v ∈ l, ∃ p ∈ rings, v ∈ p.pts :=
  C79_given (P := lib) rfl (takeWhile_posOk id g) (fresh_empty g) (by decide +kernel) (axis_meet (by unfold InBox; decide +kernel)) op []

end PolyOps.Exec
