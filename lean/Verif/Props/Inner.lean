import Verif.Props.Signs
import Verif.Props.TreeDouble

/-! C82: what inner polygons enclose. `Contains`, `Directly` and `Nested` are in `Lemmas/Nested.lean`. -/
namespace PolyOps.Exec
open PolyOps PolyOps.Sweep PolyOps.Region PolyOps.Planarity PolyOps.Loops PolyOps.PointSink PolyOps.Clipper PolyOps.Double

/-! ### Specification -/

/-- The place is on no edge of polygon `a`, and `a` winds around it. -/
def Encl (out : List (List Pt)) (a : Nat) (x y : ℚ) : Prop := Off (edges (out.getD a [])) x y ∧ wind (edges (out.getD a [])) x y ≠ 0

/-- What the polygons enclose is nested as they are. -/
structure Inner (out : List (List Pt)) : Prop where
  /-- A place inside a polygon, off the edges of those that contain it, is inside these. -/
  up : ∀ a b, Contains out a b → ∀ x y, Encl out b x y → Off (edges (out.getD a [])) x y → Encl out a x y
  /-- If a place is inside two polygons, one contains the other: polygons at top level, and the children of one polygon, have no place in common. -/
  apart : ∀ a < out.length, ∀ b < out.length, a ≠ b → ∀ x y, Encl out a x y → Encl out b x y → Contains out a b ∨ Contains out b a
  /-- Each polygon encloses a place that is in no polygon inside it. -/
  own : ∀ a < out.length, ∃ x y, Off (out.flatMap edges) x y ∧ Encl out a x y ∧ ∀ b, Contains out a b → ¬ Encl out b x y
  /-- The polygons directly inside a polygon have a smaller area than it, all together. -/
  area : ∀ a < out.length, ∀ cs : List Nat, cs.Nodup → (∀ c ∈ cs, Directly out a c) → (cs.map fun c => |windingDir (out.getD c [])|).sum < |windingDir (out.getD a [])|

/-! ### Proof -/

/-- Closed polygons that wind nowhere forwards and at least once backwards around some place have a negative area. -/
theorem area_neg {A : List (List Pt)} (h : ∀ x y, Off (A.flatMap edges) x y → wind (A.flatMap edges) x y ≤ 0) {x y : ℚ} (ho : Off (A.flatMap edges) x y)
    (h0 : wind (A.flatMap edges) x y < 0) : (A.map windingDir).sum < 0 := by
  choose fl h1 h2 using edges_flip
  have hp : ((A.map fl).flatMap edges).Perm ((A.flatMap edges).map Prod.swap) := by
    clear h ho h0
    induction A with
    | nil => exact List.Perm.refl _
    | cons l A ih =>
      rw [List.map_cons, List.flatMap_cons, List.flatMap_cons, List.map_append]
      exact (h1 l).append ih
  have hs : ((A.map fl).map windingDir).sum = - (A.map windingDir).sum := by
    clear h ho h0 hp
    induction A with
    | nil => rfl
    | cons l A ih => rw [List.map_cons, List.map_cons, List.map_cons, List.sum_cons, List.sum_cons, ih, h2]; ring
  have hoff : ∀ x y, Off ((A.map fl).flatMap edges) x y ↔ Off (A.flatMap edges) x y := fun x y => (forall_congr' fun e => by rw [hp.mem_iff]).trans off_flip
  have hw : ∀ x y, wind ((A.map fl).flatMap edges) x y = - wind (A.flatMap edges) x y := fun x y => (wind_perm hp x y).trans (wind_flip _ x y)
  have := area_pos (A := A.map fl) (x := x) (y := y) (fun x y k => by
    rw [hw]; have := h x y ((hoff x y).mp k); omega) ((hoff x y).mpr ho) (by rw [hw]; omega)
  omega

section
variable {out : List (List Pt)} (h : Nested out)
include h

theorem Nested.siblings {a c d : Nat} (h1 : Directly out a c) (h2 : Directly out a d) : ¬ Contains out c d := by
  intro k
  by_cases e : c = a
  · subst e
    exact h.laminar.irrefl _ h1.1
  · exact h.laminar.irrefl _ (h.laminar.trans _ _ _ h1.1 (h2.2 c k e))

theorem Nested.asymm {a b : Nat} (h1 : Contains out a b) (h2 : Contains out b a) : False := h.laminar.irrefl _ (h.laminar.trans _ _ _ h1 h2)

theorem Nested.encl : Inner out := by
  have family : ∀ a < out.length, ∀ cs : List Nat, cs.Nodup → (∀ c ∈ cs, Directly out a c) → ∀ d, Simple (edges (out.getD a [])) d →
      (∀ x y, Off ((out.getD a [] :: cs.map fun c => out.getD c []).flatMap edges) x y →
        wind ((out.getD a [] :: cs.map fun c => out.getD c []).flatMap edges) x y = 0 ∨ wind ((out.getD a [] :: cs.map fun c => out.getD c []).flatMap edges) x y = d) ∧
      ∃ x y, Off ((out.getD a [] :: cs.map fun c => out.getD c []).flatMap edges) x y ∧ wind ((out.getD a [] :: cs.map fun c => out.getD c []).flatMap edges) x y = d := by
    intro a ha cs hn hd d hs
    have hw : ∀ x y, wind ((out.getD a [] :: cs.map fun c => out.getD c []).flatMap edges) x y =
        wind (edges (out.getD a [])) x y + (cs.map fun c => wind (edges (out.getD c [])) x y).sum := by
      intro x y
      rw [List.flatMap_cons, wind_append, List.flatMap_map, wind_flatMap]
    constructor
    · intro x y ho
      have oa : Off (edges (out.getD a [])) x y := fun e he => ho e (List.mem_flatMap.mpr ⟨_, List.mem_cons_self .., he⟩)
      have oc : ∀ c ∈ cs, Off (edges (out.getD c [])) x y := fun c hc e he =>
        ho e (List.mem_flatMap.mpr ⟨_, List.mem_cons_of_mem _ (List.mem_map.mpr ⟨c, hc, rfl⟩), he⟩)
      rw [hw]
      by_cases hall : ∀ c ∈ cs, wind (edges (out.getD c [])) x y = 0
      · have : (cs.map fun c => wind (edges (out.getD c [])) x y).sum = 0 := List.sum_eq_zero (by
          intro i hi
          obtain ⟨c, hc, rfl⟩ := List.mem_map.mp hi
          exact hall c hc)
        rw [this, add_zero]
        exact hs.1 x y oa
      · push Not at hall
        obtain ⟨c, hc, wc⟩ := hall
        left
        have : (cs.map fun c => wind (edges (out.getD c [])) x y).sum = wind (edges (out.getD c [])) x y := by
          rw [List.sum_map_eq_nsmul_single c _ (fun c' hne hc' => ?_), List.count_eq_one_of_mem hn hc, one_nsmul]
          by_contra w'
          rcases h.both c (hd c hc).1.2.1 c' (hd c' hc').1.2.1 hne.symm x y (oc c hc) (oc c' hc') wc w' with k | k
          · exact h.siblings (hd c hc) (hd c' hc') k
          · exact h.siblings (hd c' hc') (hd c hc) k
        rw [this]
        have w1 := h.inner a c (hd c hc).1 x y oa (oc c hc) wc
        have w2 := (hs.1 x y oa).resolve_left w1
        have w3 := ((h.turn a c (hd c hc) d hs).1 x y (oc c hc)).resolve_left wc
        rw [w2, w3]; omega
    · obtain ⟨x, y, h1, h2, h3⟩ := h.rim a ha
      have sub : ∀ b < out.length, ∀ e ∈ edges (out.getD b []), e ∈ out.flatMap edges := fun b hb e he =>
        List.mem_flatMap.mpr ⟨_, by rw [List.getD_eq_getElem _ _ hb]; exact List.getElem_mem hb, he⟩
      refine ⟨x, y, ?_, ?_⟩
      · intro e he
        obtain ⟨l, hl, he⟩ := List.mem_flatMap.mp he
        rcases List.mem_cons.mp hl with rfl | hl
        · exact h1 e (sub a ha e he)
        · obtain ⟨c, hc, rfl⟩ := List.mem_map.mp hl
          exact h1 e (sub c (hd c hc).1.2.1 e he)
      · rw [hw]
        have : (cs.map fun c => wind (edges (out.getD c [])) x y).sum = 0 := List.sum_eq_zero (by
          intro i hi
          obtain ⟨c, hc, rfl⟩ := List.mem_map.mp hi
          exact h3 c (hd c hc).1.2.1 (hd c hc).1.2.2.1.symm fun k => h.asymm (hd c hc).1 k)
        rw [this, add_zero]
        exact (hs.1 x y fun e he => h1 e (sub a ha e he)).resolve_left h2
  refine ⟨?_, ?_, ?_, ?_⟩
  · rintro a b k x y ⟨ob, wb⟩ oa
    exact ⟨oa, h.inner a b k x y oa ob wb⟩
  · rintro a ha b hb hab x y ⟨oa, wa⟩ ⟨ob, wb⟩
    exact h.both a ha b hb hab x y oa ob wa wb
  · intro a ha
    obtain ⟨x, y, h1, h2, h3⟩ := h.rim a ha
    refine ⟨x, y, h1, ⟨fun e he => h1 e (List.mem_flatMap.mpr ⟨_, by rw [List.getD_eq_getElem _ _ ha]; exact List.getElem_mem ha, he⟩), h2⟩, fun b k hb => ?_⟩
    exact hb.2 (h3 b k.2.1 k.2.2.1.symm fun k' => h.asymm k k')
  · intro a ha cs hn hd
    have hm : out.getD a [] ∈ out := by rw [List.getD_eq_getElem _ _ ha]; exact List.getElem_mem ha
    rcases h.simple _ hm with hs | hs
    · obtain ⟨f1, x, y, f2, f3⟩ := family a ha cs hn hd 1 hs
      have hA := area_pos (fun x y k => by rcases f1 x y k with e | e <;> rw [e] <;> decide) f2 (by rw [f3]; decide)
      rw [List.map_cons, List.sum_cons, List.map_map] at hA
      have neg : ∀ c ∈ cs, windingDir (out.getD c []) < 0 := fun c hc => (h.turn a c (hd c hc) 1 hs).neg
      rw [abs_of_pos hs.pos]
      have : (cs.map fun c => |windingDir (out.getD c [])|).sum = - (cs.map (windingDir ∘ fun c => out.getD c [])).sum := by
        clear hA hn hd f1 f2 f3
        induction cs with
        | nil => rfl
        | cons c cs ih =>
          rw [List.map_cons, List.map_cons, List.sum_cons, List.sum_cons, ih fun c hc => neg c (List.mem_cons_of_mem _ hc), abs_of_neg (neg c (List.mem_cons_self ..)), Function.comp_apply]
          ring
      omega
    · obtain ⟨f1, x, y, f2, f3⟩ := family a ha cs hn hd (-1) hs
      have hA := area_neg (fun x y k => by rcases f1 x y k with e | e <;> rw [e] <;> decide) f2 (by rw [f3]; decide)
      rw [List.map_cons, List.sum_cons, List.map_map] at hA
      have pos : ∀ c ∈ cs, 0 < windingDir (out.getD c []) := fun c hc => (h.turn a c (hd c hc) (-1) hs).pos
      rw [abs_of_neg hs.neg]
      have : (cs.map fun c => |windingDir (out.getD c [])|).sum = (cs.map (windingDir ∘ fun c => out.getD c [])).sum := by
        clear hA hn hd f1 f2 f3
        induction cs with
        | nil => rfl
        | cons c cs ih =>
          rw [List.map_cons, List.map_cons, List.sum_cons, List.sum_cons, ih fun c hc => pos c (List.mem_cons_of_mem _ hc), abs_of_pos (pos c (List.mem_cons_self ..)), Function.comp_apply]
      omega

end

section
variable {G : Type} {P : Params G} {r : Nat → Bool × Bool} {pos : Clip → Nat → Nat} {c : Clipper G} (hP : P.env1 c.rgen = realEnv id r pos)
  (hpos : PosOk (realEnv id r pos)) (hc : Empty c)

include hP hpos hc in
/-- **C82.** Polygons are added to an empty clipper and an operation is run. If no two edges of the polygons returned coincide: what is inside a polygon is inside those that contain it; polygons of
which none contains the other have no place in common; each encloses a place that is in no polygon inside it; and the polygons directly inside it have together a smaller area than it. -/
theorem C82_inner {ps : List Poly} (hf : Fine none ps) (op : BoolOp) (log : List TCall) :
    ∃ N st out, (∀ fuel ≥ N, run P fuel (ps.map Poly.cmd ++ [.exec op false]) (c, log) = .ok (st, List.replicate ps.length none ++ [some ⟨out, none⟩])) ∧
      (Single (out.flatMap edges) → Inner out) := by
  obtain ⟨N, st, out, h1, h2⟩ := C53_nested hP hpos hc hf op log
  exact ⟨N, st, out, h1, fun hS => (h2 hS).encl⟩

include hP hpos hc in
/-- **C82 (edges that do not overlap).** If no two edges of the polygons given overlap, and those that are not parallel only meet at integer points, the condition of `C82_inner` is met. -/
theorem C82_apart {ps : List Poly} (hf : Fine none ps) (hE : Lattice (ps.flatMap fun p => edges p.pts))
    (hA : (ps.flatMap fun p => edges p.pts).Pairwise Apart) (op : BoolOp) (log : List TCall) :
    ∃ N st out, (∀ fuel ≥ N, run P fuel (ps.map Poly.cmd ++ [.exec op false]) (c, log) = .ok (st, List.replicate ps.length none ++ [some ⟨out, none⟩])) ∧
      Inner out := by
  obtain ⟨N, st, out, h1, -, h2⟩ := C53_apart hP hpos hc hf hE hA op log
  exact ⟨N, st, out, h1, h2.encl⟩

theorem TreeEnd.family {σ : Type} {o : Out (σ × List (Option Output))} {n : Nat} {out : List (List Pt)} (h : TreeEnd o n out) (hS : Single (out.flatMap edges)) (hn : Nested out) :
    ∃ st t, o = .ok (st, List.replicate n none ++ [some ⟨out, some t⟩]) ∧ Inner out ∧
      ∀ a < out.length, ((t.children a).map fun c => |windingDir (out.getD c [])|).sum < |windingDir (out.getD a [])| := by
  obtain ⟨st, t, e, -, h2, -, h4⟩ := h.tree hS
  exact ⟨st, t, e, hn.encl, fun a ha => hn.encl.area a ha _ (h2 a ha) fun c hc => (h4 a c).mp hc⟩

include hP hpos hc in
/-- **C82 (tree output).** The same for tree output, where the children of a polygon have together a smaller area than it. -/
theorem C82_tree {ps : List Poly} (hf : Fine none ps) (op : BoolOp) (log : List TCall) :
    ∃ N o out, (∀ fuel ≥ N, run P fuel (ps.map Poly.cmd ++ [.exec op true]) (c, log) = o) ∧
      (o = .bad ∨ ∃ st t, o = .ok (st, List.replicate ps.length none ++ [some ⟨out, some t⟩])) ∧
      (Single (out.flatMap edges) → ∃ st t, o = .ok (st, List.replicate ps.length none ++ [some ⟨out, some t⟩]) ∧ Inner out ∧
        ∀ a < out.length, ((t.children a).map fun c => |windingDir (out.getD c [])|).sum < |windingDir (out.getD a [])|) := by
  obtain ⟨B, -, -, h⟩ := C54_tree hP hpos hc hf
  obtain ⟨N, o, out, h1, h2, h3⟩ := h op log
  exact ⟨N, o, out, h1, h2.ends, fun hS => h2.family hS (h3.nested hS)⟩

end

section
variable (g : Nat → Bool × Bool) (o : Pt) {ps : List Poly} (hf : Fine none ps) (hsq : ∀ p ∈ ps, ∀ v ∈ p.pts, InSq o 90000 v)

include hf hsq in
/-- **C82 with doubles.** For polygons in a square with side 90000, when an operation returns, with and without tree output. -/
theorem C82_double (op : BoolOp) (log : List TCall) (fuel : Nat) :
    (run libDouble fuel (ps.map Poly.cmd ++ [.exec op false]) (Clipper.fresh g, log) = .fuel ∨
      ∃ st out, run libDouble fuel (ps.map Poly.cmd ++ [.exec op false]) (Clipper.fresh g, log) =
          .ok (st, List.replicate ps.length none ++ [some ⟨out, none⟩]) ∧ (Single (out.flatMap edges) → Inner out)) ∧
    (run libDouble fuel (ps.map Poly.cmd ++ [.exec op true]) (Clipper.fresh g, log) = .fuel ∨
      ∃ out, TreeEnd (run libDouble fuel (ps.map Poly.cmd ++ [.exec op true]) (Clipper.fresh g, log)) ps.length out ∧
        (Single (out.flatMap edges) → ∃ st t, run libDouble fuel (ps.map Poly.cmd ++ [.exec op true]) (Clipper.fresh g, log) =
          .ok (st, List.replicate ps.length none ++ [some ⟨out, some t⟩]) ∧ Inner out ∧
          ∀ a < out.length, ((t.children a).map fun c => |windingDir (out.getD c [])|).sum < |windingDir (out.getD a [])|)) := by
  constructor
  · rcases C53_double g o hf hsq op log fuel with h | ⟨st, out, e1, -, e2⟩
    · exact Or.inl h
    · exact Or.inr ⟨st, out, e1, fun hS => (e2 hS).1.encl⟩
  · rcases C54_double g o hf hsq op log fuel with h | ⟨out, e1, e2, -⟩
    · exact Or.inl h
    · exact Or.inr ⟨out, e1, fun hS => e1.family hS (e2 hS)⟩

end

/-! ### Cases -/

/-- Three nested squares. -/
example (g : Nat → Bool × Bool) (op : BoolOp) : ∃ N st out, (∀ fuel ≥ N, run lib fuel (rings.map Poly.cmd ++ [.exec op false]) (Clipper.fresh g, []) =
      .ok (st, List.replicate rings.length none ++ [some ⟨out, none⟩])) ∧ Inner out :=
  C82_apart (P := lib) rfl (takeWhile_posOk id g) (fresh_empty g) (by decide +kernel)
    (axis_lattice (by intro e he; unfold Axis; revert e; decide +kernel)) (List.Pairwise.imp (fun h => BoxApart.apart h) (by decide +kernel)) op []

/-- The areas of their exclusive or: a square, the hole in it, and a square in the hole. -/
example : (outOf (run libDouble 1000 (rings.map Poly.cmd ++ [.exec .xor false]) (Clipper.fresh down, []))).map (List.map windingDir) = some [200, -72, 8] := by decide +kernel

end PolyOps.Exec
