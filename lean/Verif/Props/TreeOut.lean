import Verif.Props.Nesting
import Verif.Lemmas.OutTree

/-! C54: the tree of polygons returned. -/
namespace PolyOps.Exec
open PolyOps PolyOps.Sweep PolyOps.Region PolyOps.Planarity PolyOps.Loops PolyOps.PointSink PolyOps.Clipper

/-! ### Specification

`Contains` and `Single` are in `Lemmas/Nested.lean`, `Result` in `Props/Execute.lean`. -/

/-- A call with tree output ended: with an error, or with the polygons `out` and a tree of them. If no two edges of the polygons coincide,
it ended with the tree in which the children of a polygon are the polygons directly inside it and the top ones are those in no other. -/
structure TreeEnd {σ : Type} (o : Out (σ × List (Option Output))) (n : Nat) (out : List (List Pt)) : Prop where
  ends : o = .bad ∨ ∃ st t, o = .ok (st, List.replicate n none ++ [some ⟨out, some t⟩])
  tree : Single (out.flatMap edges) → ∃ st t, o = .ok (st, List.replicate n none ++ [some ⟨out, some t⟩]) ∧
    t.top.Nodup ∧ (∀ a < out.length, (t.children a).Nodup) ∧
    (∀ p, p ∈ t.top ↔ p < out.length ∧ ∀ a, ¬ Contains out a p) ∧ ∀ a p, p ∈ t.children a ↔ Directly out a p

/-! ### Proof -/

theorem direct_iff {out : List (List Pt)} {a p : Nat} : Hierarchy.Direct (Contains out) a p ↔ Directly out a p :=
  and_congr_right fun _ => forall_congr' fun _ => imp_congr_right fun _ => or_iff_not_imp_left

section
variable {G : Type} {P : Params G} {g : G} {rnd : Rat → Rat} {r : Nat → Bool × Bool} {pos : Clip → Nat → Nat} (hP : P.env1 g = realEnv rnd r pos)
  (hpos : PosOk (realEnv rnd r pos))

include hP hpos in
/-- What `execute` with tree output does if its first sweep stops with the lines `f`. -/
theorem exec_hier {c : Clipper G} (hc : c.ran = false) (hsm : c.samples = []) (hnn : c.nodes = 1) (hrg : c.rgen = g) (hg : Good c.pts)
    {f : Clip} (hr : Clip.Reach (realEnv rnd r pos) (lpOf c.pts) c.pts.length f) (hm : f.q.more = false) (hR : RangeOk c.pts.length f)
    {B : List Bent} (b3 : (f.lines.map fun l => (l.set, l.p, l.q)).Perm (B.flatMap fun b => b.pieces.map fun e => (b.set, e)))
    {k0 : Clip} (hk0 : (Clip.start (lpOf c.pts) c.pts.length).addLines c.pts.length = some k0) (op : BoolOp) (log : List TCall) :
    ∃ N o out, (∀ fuel, sweep1 (realEnv rnd r pos) fuel k0 = .ok f → (Clipper.execute P fuel op true (c, log) = .fuel ∧ fuel < N) ∨ Clipper.execute P fuel op true (c, log) = o) ∧
      (o = .bad ∨ ∃ st t, o = .ok (st, ⟨out, some t⟩)) ∧
      (Single (out.flatMap edges) → ∃ st t, o = .ok (st, ⟨out, some t⟩) ∧ Hierarchy.Nested out.length (Contains out) t) ∧ Shape op B out := by
  have hok := realEnv_ok rnd r pos
  have hsound := realEnv_sound rnd r pos
  obtain ⟨N2, s, sp, hs, hsm', hso⟩ := Ends.C51_second hok hg.loops hr hm (Clip.Reach2.init (env := P.env2 g) (op := op))
  have hp := planar_end hsound hpos hg.loops hr hm hR
  have hM := marks_end hsound hpos hg.loops hr hm hR
  obtain ⟨w, gf, S, e1, e2, e4, e5⟩ := out_tree hok hg.loops hr hm hg.unset hg.check hp hM hs hsm'
  obtain ⟨-, sm, -, -⟩ := C29_final hok hg.loops hr hm hs hsm'
  have hj : joinLoops ⟨fun i => opOf (s.lp i), s.np, fun _ => [], [], fun _ => [], [], []⟩ true sp = some (w, gf, S) := by
    unfold joinLoops
    rw [if_pos rfl]
    exact e1
  have hex : ∃ st : Hierarchy.Tree → Clipper G × List TCall, ∀ fuel, sweep1 (realEnv rnd r pos) fuel k0 = .ok f → (Clipper.execute P fuel op true (c, log) = .fuel ∧ fuel < N2) ∨
      Clipper.execute P fuel op true (c, log) =
      (Out.of (Hierarchy.loopHierarchy (fun i => (w.lp i).data) gf.next gf.idx gf.loops.length S)).bind fun t => .ok (st t, ⟨gf.loops.map (loopPts w gf), some t⟩) := by
    apply Exists.intro
    intro fuel hf
    unfold Clipper.execute
    simp only [hc, Bool.false_eq_true, if_false]
    unfold Clipper.doOp
    simp only [hc, Bool.false_eq_true, if_false]
    have hclip : ∀ ev : Events.Queue, ∀ st en vi orp lo tp, ev = Events.Queue.empty → (⟨c.pts, c.samples, ev, c.nodes, st, en, vi, orp, c.rgen, c.nextOrig, true, lo, tp⟩ : Clipper G).clip =
        Clip.start (lpOf c.pts) c.pts.length := by
      rintro ev st en vi orp lo tp rfl
      unfold Clipper.clip Clip.start
      dsimp only
      rw [hnn]; rfl
    rw [hclip _ _ _ _ _ _ _ rfl]
    have : (Clip.start (lpOf c.pts) c.pts.length).np = c.pts.length := rfl
    rw [this, hk0]
    simp only [Out.of, Out.bind]
    rw [hrg, hP, hf]
    simp only
    rw [hsm]
    by_cases h2 : sweep2 (P.env2 g) op fuel { f with q := f.q.rewind, sweep := [] } [] = .fuel
    · rw [h2]
      refine Or.inl ⟨rfl, ?_⟩
      by_contra hc
      rw [hso fuel (by omega)] at h2
      cases h2
    · right
      have := sweep2_stable rfl h2 (Nat.le_max_left fuel N2)
      rw [← this, hso _ (Nat.le_max_right fuel N2)]
      simp only
      rw [hj]
      simp only [if_true]
      rfl
  obtain ⟨st, hst⟩ := hex
  have hpm : ((gf.loops.map (loopPts w gf)).flatMap edges).Perm (keptLines (fun i => opOf (s.lp i)) f.np (cls f op)) := by
    rw [loop_edges w gf e2]; exact e4
  have hnest : Single ((gf.loops.map (loopPts w gf)).flatMap edges) → Nested (gf.loops.map (loopPts w gf)) := by
    intro hS
    obtain ⟨q2, q3, -⟩ := e5 (hS.perm hpm)
    refine nested_of ?_ hpm q3
    rw [List.length_map]
    exact q2.congr fun m hm => (loop_lines w gf e2 hm).symm
  refine ⟨N2, _, gf.loops.map (loopPts w gf), hst, ?_, ?_, shape_of hok hg.loops hr hm hp sm b3 hpm hnest (loops_ne w gf e2)⟩
  · cases Hierarchy.loopHierarchy (fun i => (w.lp i).data) gf.next gf.idx gf.loops.length S with
    | none => exact Or.inl rfl
    | some t => exact Or.inr ⟨st t, t, rfl⟩
  · intro hS
    obtain ⟨q2, q3, q4, q5, q6⟩ := e5 (hS.perm hpm)
    have hN := hnest hS
    have hlen : (gf.loops.map (loopPts w gf)).length = gf.loops.length := List.length_map _
    obtain ⟨t, ht, hn⟩ := Hierarchy.C33_nested (n := gf.loops.length) (hlen ▸ hN.laminar) (fun i => (w.lp i).data) gf.next gf.idx S q4 q5 (by
      intro p hp k hk l hl hlk
      have hkl := q5 p hp k hk
      obtain ⟨e, he, x, y, o1, o2, o3⟩ := q6 p hp k hk l hl hlk
      rw [← loop_lines w gf e2 hkl] at he
      rw [← loop_lines w gf e2 hl] at o2 o3
      rw [o3]
      constructor
      · intro h0
        exact ⟨by rw [hlen]; exact hl, by rw [hlen]; exact hkl, hlk, e, he, x, y, o1, o2, fun c => h0 (by omega)⟩
      · rintro ⟨c1, c2, c3, e', he', x', y', p1, p2, p3⟩
        obtain ⟨sv, hsv⟩ := hN.whole l c1 k c2 c3
        rw [hsv e' he' x' y' p1 p2] at p3
        rw [hsv e he x y o1 o2]
        omega)
    refine ⟨st t, t, ?_, by rw [hlen]; exact hn⟩
    rw [ht]; rfl

end

section
variable {G : Type} {P : Params G} {g : G} {r : Nat → Bool × Bool} {pos : Clip → Nat → Nat} (hP : P.env1 g = realEnv id r pos)
  (hpos : PosOk (realEnv id r pos))

include hP hpos in
theorem exec_tree {c : Clipper G} (hc : c.ran = false) (hsm : c.samples = []) (hnn : c.nodes = 1) (hrg : c.rgen = g) (hg : Good c.pts)
    {f : Clip} {B : List Bent} (hpass : Pass r pos c.pts f B) (op : BoolOp) (log : List TCall) :
    ∃ N o out, (∀ fuel ≥ N, Clipper.execute P fuel op true (c, log) = o) ∧ (o = .bad ∨ ∃ st t, o = .ok (st, ⟨out, some t⟩)) ∧
      (Single (out.flatMap edges) → ∃ st t, o = .ok (st, ⟨out, some t⟩) ∧ Hierarchy.Nested out.length (Contains out) t) ∧ Result op B out := by
  obtain ⟨hr, hm, ⟨N1, k0, hk0, hf⟩, b4, b5, b3⟩ := hpass
  obtain ⟨N2, o, out, e1, e2, e3, e4⟩ := exec_hier hP hpos hc hsm hnn hrg hg hr hm (reach_range (realEnv_ok id r pos) (realEnv_range r pos) hg.loops hr) b3 hk0 op log
  refine ⟨max N1 N2, o, out, fun fuel hfu => ?_, e2, e3, e4.result b4 b5⟩
  rcases e1 fuel (hf fuel (by omega)) with ⟨-, h⟩ | h
  · omega
  · exact h

end

section
variable {G : Type} {P : Params G} {r : Nat → Bool × Bool} {pos : Clip → Nat → Nat} {c : Clipper G} (hP : P.env1 c.rgen = realEnv id r pos)
  (hpos : PosOk (realEnv id r pos)) (hc : Empty c)

include hP hpos hc in
theorem run_tree {ps : List Poly} (hf : Fine none ps) {f : Clip} {B : List Bent} (hpass : Pass r pos (store [] ps) f B) (op : BoolOp) (log : List TCall) :
    ∃ N o out, (∀ fuel ≥ N, run P fuel (ps.map Poly.cmd ++ [.exec op true]) (c, log) = o) ∧ TreeEnd o ps.length out ∧ Result op B out := by
  obtain ⟨h1, h2, h3, h4⟩ := hc
  obtain ⟨n, log', hrun⟩ := run_adds P ps c log h1 (by rw [h2]; exact hf)
  rw [h2] at hrun
  have hg := good_store ps good_nil
  obtain ⟨N, o, out, e0, e1, e1', e4⟩ := exec_tree (c := { c with pts := store [] ps, nextOrig := n }) hP hpos h1 h3 h4 rfl hg hpass op log'
  have key : ∃ F : Out ((Clipper G × List TCall) × Output) → Out ((Clipper G × List TCall) × List (Option Output)), F .bad = .bad ∧
      (∀ st u, F (.ok (st, u)) = .ok (st, List.replicate ps.length none ++ [some u])) ∧
      ∀ fuel ≥ N, run P fuel (ps.map Poly.cmd ++ [.exec op true]) (c, log) = F o := by
    refine ⟨fun o => match o with
      | .ok (st, u) => .ok (st, List.replicate ps.length none ++ [some u])
      | .bad => .bad
      | .fuel => .fuel, rfl, fun _ _ => rfl, fun fuel hN => ?_⟩
    rw [hrun]
    show ((((Clipper.execute P fuel op true _).bind _).bind _).bind _) = _
    rw [e0 fuel hN]
    rcases o with ⟨st, u⟩ | _ | _ <;> rfl
  obtain ⟨F, f1, f2, f3⟩ := key
  refine ⟨N, F o, out, f3, ⟨?_, fun hS => ?_⟩, e4⟩
  · rcases e1 with rfl | ⟨st, t, rfl⟩
    · exact Or.inl f1
    · exact Or.inr ⟨st, t, f2 _ _⟩
  · obtain ⟨st, t, rfl, hn⟩ := e1' hS
    refine ⟨st, t, f2 _ _, ?_, ?_, hn.top, fun a p => (hn.child a p).trans direct_iff⟩
    · exact (List.nodup_append.mp (hn.once.nodup_iff.mpr List.nodup_range)).1
    · intro a ha
      have := (List.nodup_append.mp (hn.once.nodup_iff.mpr List.nodup_range)).2.1
      exact (List.nodup_flatMap.mp this).1 a (List.mem_range.mpr ha)

include hP hpos hc in
/-- **C54 (tree output).** Polygons are added to an empty clipper and an operation is run with tree output. The polygons returned are
as without tree output (C52, C53). If no two edges of them coincide, no internal check fails, and the tree is that of the containment of
the polygons: the children of a polygon are those directly inside it, and the top ones are those in no other polygon. -/
theorem C54_tree {ps : List Poly} (hf : Fine none ps) :
    ∃ B, B.map (fun b => (b.set, b.edge)) = inEdges ps ∧ (∀ b ∈ B, ∀ p ∈ b.via, InBox p b.edge.1 b.edge.2) ∧ ∀ (op : BoolOp) (log : List TCall),
      ∃ N o out, (∀ fuel ≥ N, run P fuel (ps.map Poly.cmd ++ [.exec op true]) (c, log) = o) ∧ TreeEnd o ps.length out ∧ Result op B out := by
  obtain ⟨f, B, h1, h2, h3⟩ := box_pass r pos ps
  exact ⟨B, h2, h3, run_tree hP hpos hc hf h1⟩

include hP hpos hc in
/-- **C54 (edges that do not overlap).** If no two edges of the polygons given overlap, and those that are not parallel only meet at
integer points, an operation with tree output ends without error and returns nested polygons and the tree of their containment. -/
theorem C54_apart {ps : List Poly} (hf : Fine none ps) (hE : Lattice (ps.flatMap fun p => edges p.pts))
    (hA : (ps.flatMap fun p => edges p.pts).Pairwise Apart) (op : BoolOp) (log : List TCall) :
    ∃ N st out t, (∀ fuel ≥ N, run P fuel (ps.map Poly.cmd ++ [.exec op true]) (c, log) = .ok (st, List.replicate ps.length none ++ [some ⟨out, some t⟩])) ∧
      Single (out.flatMap edges) ∧ Nested out ∧ t.top.Nodup ∧ (∀ a < out.length, (t.children a).Nodup) ∧
      (∀ p, p ∈ t.top ↔ p < out.length ∧ ∀ a, ¬ Contains out a p) ∧ ∀ a p, p ∈ t.children a ↔ Directly out a p := by
  obtain ⟨f, B, h0, h2, h3⟩ := lattice_pass r pos hE
  obtain ⟨N, o, out, h1, h1', h4⟩ := run_tree hP hpos hc hf h0 op log
  have hS := h4.single (single_pieces (by
    have : B.map Bent.edge = (inEdges ps).map Prod.snd := by rw [← h2, List.map_map]; rfl
    rw [this]
    exact hA.sublist (inEdges_sublist ps)) h4.ahead h3)
  obtain ⟨st, t, e, ht⟩ := h1'.tree hS
  exact ⟨N, st, out, t, fun fuel hN => by rw [h1 fuel hN, e], hS, h4.nested hS, ht⟩

end

/-! ### Cases -/

/-- Two squares that overlap. -/
example (g : Nat → Bool × Bool) (op : BoolOp) : ∃ N st out t, (∀ fuel ≥ N, run lib fuel (squares.map Poly.cmd ++ [.exec op true]) (Clipper.fresh g, []) =
      .ok (st, List.replicate squares.length none ++ [some ⟨out, some t⟩])) ∧
      Single (out.flatMap edges) ∧ Nested out ∧ t.top.Nodup ∧ (∀ a < out.length, (t.children a).Nodup) ∧
      (∀ p, p ∈ t.top ↔ p < out.length ∧ ∀ a, ¬ Contains out a p) ∧ ∀ a p, p ∈ t.children a ↔ Directly out a p :=
  C54_apart (P := lib) rfl (takeWhile_posOk id g) (fresh_empty g) (by decide +kernel)
    (axis_lattice (by intro e he; unfold Axis; revert e; decide +kernel)) (List.Pairwise.imp (fun h => BoxApart.apart h) (by decide +kernel)) op []

/-- Three nested squares. -/
example (g : Nat → Bool × Bool) (op : BoolOp) : ∃ N st out t, (∀ fuel ≥ N, run lib fuel (rings.map Poly.cmd ++ [.exec op true]) (Clipper.fresh g, []) =
      .ok (st, List.replicate rings.length none ++ [some ⟨out, some t⟩])) ∧
      Single (out.flatMap edges) ∧ Nested out ∧ t.top.Nodup ∧ (∀ a < out.length, (t.children a).Nodup) ∧
      (∀ p, p ∈ t.top ↔ p < out.length ∧ ∀ a, ¬ Contains out a p) ∧ ∀ a p, p ∈ t.children a ↔ Directly out a p :=
  C54_apart (P := lib) rfl (takeWhile_posOk id g) (fresh_empty g) (by decide +kernel)
    (axis_lattice (by intro e he; unfold Axis; revert e; decide +kernel)) (List.Pairwise.imp (fun h => BoxApart.apart h) (by decide +kernel)) op []

end PolyOps.Exec
