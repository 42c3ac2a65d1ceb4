import Verif.Props.Compose
import Verif.Props.Double
import Verif.Props.TreeWalk

/-! C54 and C81 with crossings computed with doubles. -/
namespace PolyOps.Exec
open PolyOps PolyOps.Sweep PolyOps.Region PolyOps.Planarity PolyOps.Loops PolyOps.PointSink PolyOps.Clipper PolyOps.Double

/-! ### Proof -/

section
variable {G : Type} {P : Params G} {rnd : Rat → Rat} {ε : Rat} {M : Int} {r : Nat → Bool × Bool} {pos : Clip → Nat → Nat} {c : Clipper G}
  (hA : Arith rnd ε M) (hP : P.env1 c.rgen = realEnv rnd r pos) (hpos : PosOk (realEnv rnd r pos)) (hc : Empty c)

/-- How polygons are added and an operation is run. -/
theorem run_one {ps : List Poly} (hf : Fine none ps) (hc : Empty c) (op : BoolOp) (tree : Bool) (log : List TCall) (fuel : Nat) :
    ∃ n log', run P fuel (ps.map Poly.cmd ++ [.exec op tree]) (c, log) =
      (Clipper.execute P fuel op tree ({ c with pts := store [] ps, nextOrig := n }, log')).bind fun x => .ok (x.1, List.replicate ps.length none ++ [some x.2]) := by
  obtain ⟨h1, h2, -, -⟩ := hc
  obtain ⟨n, log', hrun⟩ := run_adds P ps c log h1 (by rw [h2]; exact hf)
  rw [h2] at hrun
  refine ⟨n, log', ?_⟩
  rw [hrun]
  show ((((Clipper.execute P fuel op tree _).bind _).bind _).bind _) = _
  cases Clipper.execute P fuel op tree ({ c with pts := store [] ps, nextOrig := n }, log') <;> rfl

include hA hP hpos hc in
/-- **C54 (inexact arithmetic).** The same as C59 with and without tree output: there is one way to bend the edges for both. With tree output the operation may also fail an internal check, but
not if no two edges returned coincide. -/
theorem C54_near {o : Pt} {ps : List Poly} (hf : Fine none ps) (hsq : ∀ p ∈ ps, ∀ v ∈ p.pts, InSq o M v) :
    ∃ B : List Bent, B.map (fun b => (b.set, b.edge)) = inEdges ps ∧ (∀ b ∈ B, ∀ p ∈ b.via, XIn b.edge.1 b.edge.2 p ∧ InSq o M p ∧ NearEdge (b.via.length * (3 / 2)) b.edge.1 b.edge.2 p) ∧
      ∀ (op : BoolOp) (log : List TCall) (fuel : Nat),
        (run P fuel (ps.map Poly.cmd ++ [.exec op false]) (c, log) = .fuel ∨
          ∃ st out, run P fuel (ps.map Poly.cmd ++ [.exec op false]) (c, log) = .ok (st, List.replicate ps.length none ++ [some ⟨out, none⟩]) ∧ Shape op B out) ∧
        (run P fuel (ps.map Poly.cmd ++ [.exec op true]) (c, log) = .fuel ∨
          ∃ out, TreeEnd (run P fuel (ps.map Poly.cmd ++ [.exec op true]) (c, log)) ps.length out ∧ Shape op B out) := by
  obtain ⟨B, k0, b1, b2, hk0, h⟩ := near_lines hA hpos hsq
  refine ⟨B, b1, b2, fun op log fuel => ?_⟩
  obtain ⟨n, log', e⟩ := run_one (P := P) hf hc op false log fuel
  obtain ⟨n', log'', e'⟩ := run_one (P := P) hf hc op true log fuel
  obtain ⟨h1, -, h3, h4⟩ := hc
  have no : ∀ tree n log, sweep1 (realEnv rnd r pos) fuel k0 = .fuel → Clipper.execute P fuel op tree ({ c with pts := store [] ps, nextOrig := n }, log) = .fuel := fun tree n log h =>
    exec_fuel (c := { c with pts := store [] ps, nextOrig := n }) h1 h4 hk0 (by rw [← h, ← hP]) op log
  rw [e, e']
  rcases h with h | ⟨f, hr, hm, hR, b3, h⟩
  · rw [no _ _ _ (h fuel), no _ _ _ (h fuel)]
    exact ⟨.inl rfl, .inl rfl⟩
  rcases h fuel with h | h
  · rw [no _ _ _ h, no _ _ _ h]
    exact ⟨.inl rfl, .inl rfl⟩
  have hg := good_store ps good_nil
  obtain ⟨N, st, out, k1, k2, -⟩ := exec_shape (c := { c with pts := store [] ps, nextOrig := n }) hP hpos h1 h3 h4 rfl hg hr hm hR b3 hk0 op log'
  obtain ⟨N', o', out', q1, q2, q3, q4⟩ := exec_hier (c := { c with pts := store [] ps, nextOrig := n' }) hP hpos h1 h3 h4 rfl hg hr hm hR b3 hk0 op log''
  constructor
  · rcases k1 fuel h with ⟨h, -⟩ | h <;> rw [h]
    · exact Or.inl rfl
    · exact Or.inr ⟨st, out, rfl, k2⟩
  · rcases q1 fuel h with ⟨h, -⟩ | h <;> rw [h]
    · exact Or.inl rfl
    · refine Or.inr ⟨out', ⟨?_, fun hS => ?_⟩, q4⟩
      · rcases q2 with rfl | ⟨st, t, rfl⟩
        · exact .inl rfl
        · exact .inr ⟨st, t, rfl⟩
      · obtain ⟨st, t, rfl, hn⟩ := q3 hS
        refine ⟨st, t, rfl, ?_, ?_, hn.top, fun a p => (hn.child a p).trans direct_iff⟩
        · exact (List.nodup_append.mp (hn.once.nodup_iff.mpr List.nodup_range)).1
        · intro a ha
          have := (List.nodup_append.mp (hn.once.nodup_iff.mpr List.nodup_range)).2.1
          exact (List.nodup_flatMap.mp this).1 a (List.mem_range.mpr ha)

end

section
variable (g : Nat → Bool × Bool) (o : Pt) {ps : List Poly} (hf : Fine none ps) (hsq : ∀ p ∈ ps, ∀ v ∈ p.pts, InSq o 90000 v)

include hf hsq in
/-- **C54 with doubles.** For polygons in a square with side 90000, when an operation with tree output returns: if no two edges of the polygons returned coincide, no internal check fails, the polygons
are nested, the children of a polygon are those directly inside it, and the top ones are those in no other polygon. If the operation returns both with and without tree output, the polygons wind
equally often around every place off their edges. -/
theorem C54_double (op : BoolOp) (log : List TCall) (fuel : Nat) :
    run libDouble fuel (ps.map Poly.cmd ++ [.exec op true]) (Clipper.fresh g, log) = .fuel ∨
      ∃ out, TreeEnd (run libDouble fuel (ps.map Poly.cmd ++ [.exec op true]) (Clipper.fresh g, log)) ps.length out ∧ (Single (out.flatMap edges) → Nested out) ∧
        (run libDouble fuel (ps.map Poly.cmd ++ [.exec op false]) (Clipper.fresh g, log) = .fuel ∨
          ∃ st out', run libDouble fuel (ps.map Poly.cmd ++ [.exec op false]) (Clipper.fresh g, log) = .ok (st, List.replicate ps.length none ++ [some ⟨out', none⟩]) ∧
            ∀ x y, Off (out.flatMap edges) x y → Off (out'.flatMap edges) x y → wind (out.flatMap edges) x y = wind (out'.flatMap edges) x y) := by
  obtain ⟨B, -, -, h⟩ := C54_near (P := libDouble) dbl_arith rfl (takeWhile_posOk dbl g) (fresh_empty g) hf hsq
  obtain ⟨h1, h2⟩ := h op log fuel
  rcases h2 with h2 | ⟨out, e1, e2⟩
  · exact .inl h2
  refine .inr ⟨out, e1, e2.nested, ?_⟩
  rcases h1 with h1 | ⟨st, out', e3, e4⟩
  · exact .inl h1
  · refine .inr ⟨st, out', e3, fun x y ho ho' => ?_⟩
    have := everywhere [out, out'] (B := B) (φ := fun l => l.getD 0 0 = l.getD 1 0) (fun x y ho => by
      show wind (out.flatMap edges) x y = wind (out'.flatMap edges) x y
      rw [e2.wind x y ho, e4.wind x y ho]) (x := x) (y := y) (by simp [ho, ho'])
    exact this

include hf hsq in
/-- **C81 with doubles.** For polygons in a square with side 90000, when an operation with tree output returns polygons of which no two edges coincide, going through the tree ends, and finds each
polygon once, below exactly those that contain it. -/
theorem C81_double (op : BoolOp) (log : List TCall) (fuel : Nat) :
    run libDouble fuel (ps.map Poly.cmd ++ [.exec op true]) (Clipper.fresh g, log) = .fuel ∨
      ∃ out, TreeEnd (run libDouble fuel (ps.map Poly.cmd ++ [.exec op true]) (Clipper.fresh g, log)) ps.length out ∧
        (Single (out.flatMap edges) → ∃ st t, run libDouble fuel (ps.map Poly.cmd ++ [.exec op true]) (Clipper.fresh g, log) =
          .ok (st, List.replicate ps.length none ++ [some ⟨out, some t⟩]) ∧ TreeWalk.Walked out t) := by
  rcases C54_double g o hf hsq op log fuel with h | ⟨out, e1, e2, -⟩
  · exact .inl h
  · refine .inr ⟨out, e1, fun hS => ?_⟩
    obtain ⟨st, t, e, h1, h2, h3, h4⟩ := e1.tree hS
    exact ⟨st, t, e, TreeWalk.walked (e2 hS) h1 h2 h3 h4⟩

end

/-! ### Cases -/

/-- The tree returned. -/
def treeOf {σ : Type} : Out (σ × List (Option Output)) → Option (List (List Pt) × List Nat × List (List Nat))
  | .ok (_, l) => l.getLast?.join.bind fun u => u.tree.map fun t => (u.loops, t.top, (List.range u.loops.length).map t.children)
  | _ => none

/-- For three nested squares the conditions are met, the operation returns, and no two edges coincide. -/
example : Fine none rings ∧ (∀ p ∈ rings, ∀ v ∈ p.pts, InSq ⟨0, 0⟩ 90000 v) ∧
    ((treeOf (run libDouble 1000 (rings.map Poly.cmd ++ [.exec .xor true]) (Clipper.fresh down, []))).map Prod.snd) = some ([0], [[1], [2], []]) ∧
    ∀ u, treeOf (run libDouble 1000 (rings.map Poly.cmd ++ [.exec .xor true]) (Clipper.fresh down, [])) = some u → Single (u.1.flatMap edges) := by
  refine ⟨by decide +kernel, ?_, by decide +kernel, ?_⟩
  · intro p hp v hv; unfold InSq; revert p v; decide +kernel
  · intro u hu
    have h : (treeOf (run libDouble 1000 (rings.map Poly.cmd ++ [.exec .xor true]) (Clipper.fresh down, []))).all (fun u => decide ((u.1.flatMap edges).Nodup ∧ ∀ e ∈ u.1.flatMap edges, (e.2, e.1) ∉ u.1.flatMap edges)) = true := by decide +kernel
    rw [hu] at h
    unfold Single
    simpa using h

/-- For the two rectangles of C59 too. -/
example : Fine none rects ∧ (∀ p ∈ rects, ∀ v ∈ p.pts, InSq ⟨0, 0⟩ 90000 v) ∧
    ∀ op ∈ [BoolOp.union, .intersection, .xor, .difference, .normalize],
      (treeOf (run libDouble 100 (rects.map Poly.cmd ++ [.exec op true]) (Clipper.fresh down, []))).isSome = true := by
  refine ⟨by decide +kernel, ?_, by decide +kernel⟩
  intro p hp v hv; unfold InSq; revert p v; decide +kernel

end PolyOps.Exec
