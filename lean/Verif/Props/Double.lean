import Verif.Lemmas.DoubleRnd
import Verif.Props.Execute

/-! C59: operations with the arithmetic of `double`. `Arith`, `InSq` and `XIn` are in `Lemmas/NearRange.lean` and `Lemmas/PlanarEnd.lean`, `Shape` in
`Props/Execute.lean`, `dbl` in `Model/Double.lean`. -/
namespace PolyOps.Exec
open PolyOps PolyOps.Sweep PolyOps.Region PolyOps.Planarity PolyOps.Loops PolyOps.PointSink PolyOps.Clipper PolyOps.Double

/-- Between the ends of the edge; in the square if both ends are. -/
def Keeps (o : Pt) (M : Int) (a b c : Pt) : Prop := XIn a b c ∧ (InSq o M a → InSq o M b → InSq o M c)

theorem edges_mem {l : List Pt} {e : Pt × Pt} (h : e ∈ edges l) : e.1 ∈ l ∧ e.2 ∈ l := by
  cases l with
  | nil => simp [edges] at h
  | cons a l =>
    obtain ⟨h1, h2⟩ := walk_mem (show e ∈ walk a (l ++ [a]) from h)
    simp only [List.mem_cons, List.mem_append, List.not_mem_nil, or_false] at h1 h2 ⊢
    tauto

/-- If the first sweep needs more fuel, so does the operation. -/
theorem exec_fuel {G : Type} {P : Params G} {c : Clipper G} (hc : c.ran = false) (hnn : c.nodes = 1) {k0 : Clip}
    (hk0 : (Clip.start (lpOf c.pts) c.pts.length).addLines c.pts.length = some k0) {fuel : Nat} (h : sweep1 (P.env1 c.rgen) fuel k0 = .fuel)
    (op : BoolOp) {tree : Bool} (log : List TCall) : Clipper.execute P fuel op tree (c, log) = .fuel := by
  unfold Clipper.execute
  simp only [hc, Bool.false_eq_true, if_false]
  unfold Clipper.doOp
  simp only [hc, Bool.false_eq_true, if_false]
  have hclip : ∀ ev : Events.Queue, ∀ st en vi orp lo tp, ev = Events.Queue.empty → (⟨c.pts, c.samples, ev, c.nodes, st, en, vi, orp, c.rgen, c.nextOrig, true, lo, tp⟩ : Clipper G).clip =
      Clip.start (lpOf c.pts) c.pts.length := by
    rintro ev st en vi orp lo tp rfl
    unfold Clipper.clip Clip.start
    dsimp only
    rw [hnn]; rfl
  rw [hclip _ _ _ _ _ _ _ rfl]
  have : (Clip.start (lpOf c.pts) c.pts.length).np = c.pts.length := rfl
  rw [this, hk0]
  simp only [Out.of, Out.bind]
  rw [h]

section
variable {G : Type} {P : Params G} {rnd : Rat → Rat} {ε : Rat} {M : Int} {r : Nat → Bool × Bool} {pos : Clip → Nat → Nat} {c : Clipper G}
  (hA : Arith rnd ε M) (hP : P.env1 c.rgen = realEnv rnd r pos) (hpos : PosOk (realEnv rnd r pos)) (hc : Empty c)

include hA hpos in
/-- The lines at the end of the first sweep, if it ends. -/
theorem near_lines {o : Pt} {ps : List Poly} (hsq : ∀ p ∈ ps, ∀ v ∈ p.pts, InSq o M v) :
    ∃ (B : List Bent) (k0 : Clip), B.map (fun b => (b.set, b.edge)) = inEdges ps ∧ (∀ b ∈ B, ∀ p ∈ b.via, XIn b.edge.1 b.edge.2 p ∧ InSq o M p ∧ NearEdge (b.via.length * (3 / 2)) b.edge.1 b.edge.2 p) ∧
      (Clip.start (lpOf (store [] ps)) (store [] ps).length).addLines (store [] ps).length = some k0 ∧
      ((∀ fuel, sweep1 (realEnv rnd r pos) fuel k0 = .fuel) ∨ ∃ f, Clip.Reach (realEnv rnd r pos) (lpOf (store [] ps)) (store [] ps).length f ∧ f.q.more = false ∧
        RangeOk (store [] ps).length f ∧ (f.lines.map fun l => (l.set, l.p, l.q)).Perm (B.flatMap fun b => b.pieces.map fun e => (b.set, e)) ∧
        ∀ fuel, sweep1 (realEnv rnd r pos) fuel k0 = .fuel ∨ sweep1 (realEnv rnd r pos) fuel k0 = .ok f) := by
  have hin : ∀ e ∈ inEdges ps, InSq o M e.2.1 ∧ InSq o M e.2.2 := by
    intro e he
    obtain ⟨p, hp, -, h⟩ := inEdges_mem he
    exact ⟨hsq p hp _ (edges_mem h).1, hsq p hp _ (edges_mem h).2⟩
  have hg := good_store ps good_nil
  have hl : linesOf (store [] ps) = inEdges ps := lines_store ps good_nil
  obtain ⟨k0, hk0, -⟩ := start_inv hg.loops
  have hok := realEnv_ok rnd r pos
  have h0 : ∀ i < (store [] ps).length, InSq o M (lpOf (store [] ps) i).data := by
    intro i hi
    have : ((lpOf (store [] ps) i).set, (lpOf (store [] ps) i).data, (lpOf (store [] ps) (lpOf (store [] ps) i).next).data) ∈ linesOf (store [] ps) := by
      refine List.mem_map.mpr ⟨lpOf (store [] ps) i, ?_, rfl⟩
      unfold lpOf
      rw [List.getD_eq_getElem _ _ hi]
      exact List.getElem_mem hi
    exact (hin _ (hl ▸ this)).1
  by_cases hex : ∃ fuel f, sweep1 (realEnv rnd r pos) fuel k0 = .ok f
  · obtain ⟨fuel0, f, hf0⟩ := hex
    obtain ⟨hr, hm⟩ : Clip.Reach (realEnv rnd r pos) (lpOf (store [] ps)) (store [] ps).length f ∧ f.q.more = false := by
      rcases sweep1_cases hok hg.loops (.init hk0) fuel0 with h | ⟨f', h, h', h''⟩
      · rw [h] at hf0; cases hf0
      · rw [h] at hf0; cases hf0; exact ⟨h', h''⟩
    have hlog := (near_logOn hA o hpos hg.loops h0 hr).log
    obtain ⟨B, b1, b2, -, b5, b3⟩ := bent_lines (Q := Keeps o M) (fun a b => ⟨by unfold XIn; omega, fun h _ => h⟩) (fun a b => ⟨by unfold XIn; omega, fun _ h => h⟩)
      (fun p q a b c h h' h'' => ⟨by have := h.1; have := h'.1; have := h''.1; unfold XIn at *; omega, fun u v => h''.2 (h.2 u v) (h'.2 u v)⟩)
      hok hg.loops hr (fun k ab hk => ⟨(hlog k ab hk).1, (hlog k ab hk).2.1, (hlog k ab hk).2.2.1, fun _ _ => (hlog k ab hk).2.2.2.1⟩)
    rw [lines_input, hl] at b1
    refine ⟨B, k0, b1, fun b hb p hp => ?_, hk0, .inr ⟨f, hr, hm, near_range hA o hpos hg.loops h0 hr, b3, fun fuel => ?_⟩⟩
    · have := b2 b hb p hp
      have he := hin (b.set, b.edge) (by rw [← b1]; exact List.mem_map.mpr ⟨b, hb, rfl⟩)
      exact ⟨this.1, this.2 he.1 he.2, b5 _ _ (near_grade (by norm_num)) (fun k ab hk => ⟨(hlog k ab hk).1, (hlog k ab hk).2.1, (hlog k ab hk).2.2.2.2⟩) b hb p hp⟩
    · rcases sweep1_cases hok hg.loops (.init hk0) fuel with h | ⟨f', h, -⟩
      · exact .inl h
      · have : f' = f := by
          have a := sweep1_stable h (by simp) (Nat.le_max_left fuel fuel0)
          have b := sweep1_stable hf0 (by simp) (Nat.le_max_right fuel fuel0)
          rw [a] at b; cases b; rfl
        exact .inr (this ▸ h)
  · refine ⟨(inEdges ps).map fun e => ⟨e.1, e.2, []⟩, k0, ?_, ?_, hk0, .inl fun fuel => ?_⟩
    · rw [List.map_map]; exact List.map_id _
    · intro b hb p hp
      obtain ⟨e, _, rfl⟩ := List.mem_map.mp hb
      simp at hp
    · rcases sweep1_cases hok hg.loops (.init hk0) fuel with h | ⟨f, h, -⟩
      · exact h
      · exact absurd ⟨fuel, f, h⟩ hex

include hA hP hpos hc in
/-- `execute` on stored polygons. -/
theorem near_exec {o : Pt} {ps : List Poly} (hsq : ∀ p ∈ ps, ∀ v ∈ p.pts, InSq o M v) :
    ∃ B : List Bent, B.map (fun b => (b.set, b.edge)) = inEdges ps ∧ (∀ b ∈ B, ∀ p ∈ b.via, XIn b.edge.1 b.edge.2 p ∧ InSq o M p ∧ NearEdge (b.via.length * (3 / 2)) b.edge.1 b.edge.2 p) ∧
      ∀ (op : BoolOp) (n : Int) (log : List TCall) (fuel : Nat), Clipper.execute P fuel op false ({ c with pts := store [] ps, nextOrig := n }, log) = .fuel ∨
        ∃ st out, Clipper.execute P fuel op false ({ c with pts := store [] ps, nextOrig := n }, log) = .ok (st, ⟨out, none⟩) ∧ Shape op B out := by
  obtain ⟨h1, -, h3, h4⟩ := hc
  obtain ⟨B, k0, b1, b2, hk0, h⟩ := near_lines hA hpos hsq
  refine ⟨B, b1, b2, fun op n log fuel => ?_⟩
  have no : sweep1 (realEnv rnd r pos) fuel k0 = .fuel → Clipper.execute P fuel op false ({ c with pts := store [] ps, nextOrig := n }, log) = .fuel := fun h =>
    exec_fuel (c := { c with pts := store [] ps, nextOrig := n }) h1 h4 hk0 (by rw [← h, ← hP]) op log
  rcases h with h | ⟨f, hr, hm, hR, b3, h⟩
  · exact .inl (no (h fuel))
  · obtain ⟨N, st, out, k1, k2, -⟩ := exec_shape (c := { c with pts := store [] ps, nextOrig := n }) hP hpos h1 h3 h4 rfl (good_store ps good_nil) hr hm hR b3 hk0 op log
    rcases h fuel with h | h
    · exact .inl (no h)
    · rcases k1 fuel h with ⟨h, -⟩ | h <;> rw [h]
      · exact Or.inl rfl
      · exact Or.inr ⟨st, out, rfl, k2⟩

include hA hP hpos hc in
/-- **C59 (inexact arithmetic).** Polygons in a square with side `M` are added to an empty clipper and an operation is run, with numbers that are
rounded, at most by the relative error `ε`, where `12 ε M³ ≤ 1`. There is a way to bend the edges of the stored polygons, each through points between
its ends that are in the square and at most one and a half units away for each point it goes through, and the same way for all operations, such that whenever the operation returns, it does so without error, every edge
of the output is a piece of a bent edge, and for every place that is not on a bent edge, the output winds around it once if it is in the region of
the operation on the bent polygons, and not at all otherwise. -/
theorem C59_near {o : Pt} {ps : List Poly} (hf : Fine none ps) (hsq : ∀ p ∈ ps, ∀ v ∈ p.pts, InSq o M v) :
    ∃ B : List Bent, B.map (fun b => (b.set, b.edge)) = inEdges ps ∧ (∀ b ∈ B, ∀ p ∈ b.via, XIn b.edge.1 b.edge.2 p ∧ InSq o M p ∧ NearEdge (b.via.length * (3 / 2)) b.edge.1 b.edge.2 p) ∧
      ∀ (op : BoolOp) (log : List TCall) (fuel : Nat), run P fuel (ps.map Poly.cmd ++ [.exec op false]) (c, log) = .fuel ∨
        ∃ st out, run P fuel (ps.map Poly.cmd ++ [.exec op false]) (c, log) = .ok (st, List.replicate ps.length none ++ [some ⟨out, none⟩]) ∧ Shape op B out := by
  obtain ⟨B, b1, b2, b3⟩ := near_exec hA hP hpos hc hsq
  obtain ⟨h1, h2, h3, h4⟩ := hc
  refine ⟨B, b1, b2, fun op log fuel => ?_⟩
  -- how a call runs
  have hrun : ∃ n log', run P fuel (ps.map Poly.cmd ++ [.exec op false]) (c, log) =
      (Clipper.execute P fuel op false ({ c with pts := store [] ps, nextOrig := n }, log')).bind fun x => .ok (x.1, List.replicate ps.length none ++ [some x.2]) := by
    obtain ⟨n, log', hrun⟩ := run_adds P ps c log h1 (by rw [h2]; exact hf)
    rw [h2] at hrun
    refine ⟨n, log', ?_⟩
    rw [hrun]
    show ((((Clipper.execute P fuel op false _).bind _).bind _).bind _) = _
    cases Clipper.execute P fuel op false ({ c with pts := store [] ps, nextOrig := n }, log') <;> rfl
  obtain ⟨n, log', e⟩ := hrun
  rw [e]
  rcases b3 op n log' fuel with h | ⟨st, out, h, hs⟩ <;> rw [h]
  · exact Or.inl rfl
  · exact Or.inr ⟨st, out, rfl, hs⟩

end

/-! ### Doubles -/

/-- The library with the arithmetic of `double`. -/
def libDouble : Params (Nat → Bool × Bool) where
  env1 g := realEnv dbl g place1
  env2 g := realEnv dbl g place2
  adv g k := fun n => g (n + k.clock)

/-- **C59 (doubles).** Polygons in a square with side 90000. -/
theorem C59_double (g : Nat → Bool × Bool) (o : Pt) {ps : List Poly} (hf : Fine none ps) (hsq : ∀ p ∈ ps, ∀ v ∈ p.pts, InSq o 90000 v) :
    ∃ B : List Bent, B.map (fun b => (b.set, b.edge)) = inEdges ps ∧ (∀ b ∈ B, ∀ p ∈ b.via, XIn b.edge.1 b.edge.2 p ∧ InSq o 90000 p ∧
        NearEdge (b.via.length * (3 / 2)) b.edge.1 b.edge.2 p) ∧
      ∀ (op : BoolOp) (log : List TCall) (fuel : Nat), run libDouble fuel (ps.map Poly.cmd ++ [.exec op false]) (Clipper.fresh g, log) = .fuel ∨
        ∃ st out, run libDouble fuel (ps.map Poly.cmd ++ [.exec op false]) (Clipper.fresh g, log) =
          .ok (st, List.replicate ps.length none ++ [some ⟨out, none⟩]) ∧ Shape op B out :=
  C59_near (P := libDouble) dbl_arith rfl (takeWhile_posOk dbl g) (fresh_empty g) hf hsq

/-- The polygons returned by a sequence of calls. -/
def outOf {G : Type} : Out ((Clipper G × List TCall) × List (Option Output)) → Option (List (List Pt))
  | .ok (_, l) => some (l.flatMap fun u => match u with | none => [] | some u => u.loops)
  | _ => none

/-- Two rectangles that overlap crosswise. -/
def rects : List Poly := [⟨.subject, false, [⟨0, 1⟩, ⟨20, 1⟩, ⟨20, 30⟩, ⟨0, 30⟩]⟩, ⟨.clip, false, [⟨5, 0⟩, ⟨15, 0⟩, ⟨15, 49⟩, ⟨5, 49⟩]⟩]

/-- The generator always decides to round down. -/
def down : Nat → Bool × Bool := fun _ => (true, true)

theorem rects_run : outOf (run libDouble 100 (rects.map Poly.cmd ++ [.exec .union false]) (Clipper.fresh down, [])) =
    some [[⟨0, 1⟩, ⟨5, 1⟩, ⟨5, 0⟩, ⟨15, 0⟩, ⟨20, 1⟩, ⟨20, 30⟩, ⟨15, 30⟩, ⟨15, 49⟩, ⟨5, 49⟩, ⟨5, 30⟩, ⟨0, 30⟩]] := by decide +kernel

/-- The hypotheses of `C59_double` are met by the two rectangles, and the run returns. -/
example : Fine none rects ∧ (∀ p ∈ rects, ∀ v ∈ p.pts, InSq ⟨0, 0⟩ 90000 v) ∧
    run libDouble 100 (rects.map Poly.cmd ++ [.exec .union false]) (Clipper.fresh down, []) ≠ .fuel := by
  refine ⟨by decide +kernel, by unfold InSq; decide +kernel, fun h => ?_⟩
  have := rects_run
  rw [h] at this
  cases this

/-- **C59 (a corner is lost).** With doubles the union of two rectangles with horizontal and vertical sides need not be exact, unlike with exact
numbers (`C52_rectilinear`): the place (16, 1/2) is in neither rectangle, but the output winds around it. The corner (15, 1) of the union
is missing from the output: the crossing is computed as the product of 49 and the rounded quotient 1/49, which is less than 1 and is rounded
down to 0. -/
theorem C59_double_wrong : ∃ (ps : List Poly) (g : Nat → Bool × Bool) (fuel : Nat) (out : List (List Pt)), (∀ p ∈ ps, ∀ e ∈ edges p.pts, Axis e) ∧
    outOf (run libDouble fuel (ps.map Poly.cmd ++ [.exec .union false]) (Clipper.fresh g, [])) = some out ∧
    Off (ps.flatMap fun p => edges p.pts) 16 (1 / 2) ∧ Off (out.flatMap edges) 16 (1 / 2) ∧
    wind (edgesOf ps .subject) 16 (1 / 2) = 0 ∧ wind (edgesOf ps .clip) 16 (1 / 2) = 0 ∧ wind (out.flatMap edges) 16 (1 / 2) = 1 := by
  have off : ∀ E : List (Pt × Pt), (∀ e ∈ E, ((e.2.x : Rat) - e.1.x) * (1 / 2 - e.1.y) ≠ (e.2.y - e.1.y) * (16 - e.1.x)) → Off E 16 (1 / 2) := by
    rintro E h e he ⟨t, _, _, t1, t2⟩
    apply h e he
    rw [t1, t2]; ring
  refine ⟨rects, down, 100, _, ?_, rects_run, off _ ?_, off _ ?_, ?_, ?_, ?_⟩
  · intro p hp e he; unfold Axis; revert p e; decide +kernel
  all_goals decide +kernel

/-- With doubles the point reported for a crossing may be outside the rectangle of the second line: it is below both ends of the horizontal line. -/
theorem C59_outside : ∃ (s t : CSeg) (c : Pt), (intersects dbl true true s t).bind Isect.p = some c ∧ InBox c s.pa s.pb ∧ ¬ InBox c t.pa t.pb :=
  ⟨⟨0, 1, ⟨15, 0⟩, ⟨15, 49⟩⟩, ⟨2, 3, ⟨0, 1⟩, ⟨20, 1⟩⟩, ⟨15, 0⟩, by decide +kernel, by unfold InBox; decide, by unfold InBox; decide⟩

end PolyOps.Exec
