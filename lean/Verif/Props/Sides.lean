import Verif.Props.Signs
import Verif.Props.Linear
import Verif.Props.Area
import Verif.Lemmas.Fuel

/-! C77: the inside is to the left of each edge returned; nothing is returned just if nothing is inside. -/
namespace PolyOps.Exec
open PolyOps PolyOps.Sweep PolyOps.Region PolyOps.Planarity PolyOps.Loops PolyOps.PointSink PolyOps.Clipper PolyOps.Double

/-! ### Specification -/

/-- Going from any place of the edge `e` that is not an end a little in the direction `(u, v)`, there are places with winding number 1 if the direction turns left from the edge (where the
y axis is counted upwards, and the x axis to the right), and 0 if it turns right. -/
def LeftIn (E : List (Pt × Pt)) (e : Pt × Pt) : Prop := ∀ x y : Rat, OnSegQ x y e.1 e.2 → ¬ EndOf e x y → ∀ u v : Rat, ∃ d > 0, ∀ ε, 0 < ε → ε ≤ d →
  (0 < ((e.2.x : Rat) - e.1.x) * v - ((e.2.y : Rat) - e.1.y) * u → Off E (x + ε * u) (y + ε * v) ∧ wind E (x + ε * u) (y + ε * v) = 1) ∧
  (((e.2.x : Rat) - e.1.x) * v - ((e.2.y : Rat) - e.1.y) * u < 0 → Off E (x + ε * u) (y + ε * v) ∧ wind E (x + ε * u) (y + ε * v) = 0)

/-! ### Proof -/

section
variable {op : BoolOp} {B : List Bent} {out : List (List Pt)} (h : Shape op B out) (hS : Single (out.flatMap edges))
include h hS

theorem Shape.arr : Arr (out.flatMap edges) where
  nodup := hS.1
  ne := by
    intro e he c
    rcases h.edge e he with k | k
    · obtain ⟨b, hb, k⟩ := List.mem_flatMap.mp k
      exact h.two b hb e k c
    · obtain ⟨b, hb, k⟩ := List.mem_flatMap.mp k
      exact h.two b hb _ k c.symm
  one := hS.2
  meet := by
    intro e he f hf hne x y h1 h2
    rcases h.meet e he f hf with k | k | k
    · exact absurd k hne
    · exact absurd (by rw [k] at he; exact he) (hS.2 f hf)
    · exact k x y h1 h2

theorem Shape.unit (x y : Rat) (ho : Off (out.flatMap edges) x y) : PolyOps.Exec.wind (out.flatMap edges) x y = 0 ∨ PolyOps.Exec.wind (out.flatMap edges) x y = 1 := by
  obtain ⟨z, w, o1, o2, k⟩ := Compose.wind_near (out.flatMap edges) (B.flatMap Bent.pieces) ho
  rw [← k _ fun e he => he, h.wind z w o2]
  split
  · exact Or.inr rfl
  · exact Or.inl rfl

theorem Shape.leftIn : ∀ e ∈ out.flatMap edges, LeftIn (out.flatMap edges) e := by
  intro e he x y hon hend u v
  have hA := h.arr hS
  have hB := polys_bal out
  have hw : Within e (x, y) := ⟨hon, hend⟩
  have hn := nrm_pos (hA.ne e he)
  have hm : cr (vec e.1 e.2) (-nrm e) = - cr (vec e.1 e.2) (nrm e) := by simp [cr]; ring
  obtain ⟨s, hs⟩ := beside_exists hA (fun _ k => k) hB he hn.ne'
  obtain ⟨t, ht⟩ := beside_exists hA (fun _ k => k) hB he (neg_cross hA he)
  have hc := crossing hA (fun _ k => k) hB hS.1 he hs ht
  rw [if_pos he] at hc
  have unit : ∀ {n : V} {s : Int}, cr (vec e.1 e.2) n ≠ 0 → Beside (out.flatMap edges) e n s → s = 0 ∨ s = 1 := by
    intro n s h0 hs
    obtain ⟨ε, _, g1, g2⟩ := (Small.and hs (near_off hA (fun _ k => k) he (mid_within (hA.ne e he)) h0)).get
    rw [← g1]
    exact h.unit hS _ _ g2
  have h1 := unit hn.ne' hs
  have h2 := unit (neg_cross hA he) ht
  obtain rfl : s = 1 := by omega
  obtain rfl : t = 0 := by omega
  have hcr : cr (vec e.1 e.2) (u, v) = ((e.2.x : Rat) - e.1.x) * v - ((e.2.y : Rat) - e.1.y) * u := rfl
  rw [← hcr]
  rcases lt_trichotomy (cr (vec e.1 e.2) (u, v)) 0 with k | k | k
  · obtain ⟨d, d0, g⟩ := (Small.and (near_off hA (fun _ k => k) he hw (n := (u, v)) k.ne)
      (Small.and ht (slide hA (fun _ k => k) hB he hw (mid_within (hA.ne e he)) (n := (u, v)) (m := -nrm e) (by rw [hm]; nlinarith))))
    exact ⟨d, d0, fun ε e0 e1 => ⟨fun c => absurd c (by linarith), fun _ => ⟨(g ε e0 e1).1, (g ε e0 e1).2.2.trans (g ε e0 e1).2.1⟩⟩⟩
  · exact ⟨1, one_pos, fun _ _ _ => ⟨fun c => absurd k c.ne', fun c => absurd k c.ne⟩⟩
  · obtain ⟨d, d0, g⟩ := (Small.and (near_off hA (fun _ k => k) he hw (n := (u, v)) k.ne')
      (Small.and hs (slide hA (fun _ k => k) hB he hw (mid_within (hA.ne e he)) (n := (u, v)) (m := nrm e) (mul_pos k hn))))
    exact ⟨d, d0, fun ε e0 e1 => ⟨fun _ => ⟨(g ε e0 e1).1, (g ε e0 e1).2.2.trans (g ε e0 e1).2.1⟩, fun c => absurd c (by linarith)⟩⟩

/-- Nothing is returned just if nothing is inside. -/
theorem Shape.empty_iff : out = [] ↔ ∀ x y, Off (B.flatMap Bent.pieces) x y → ¬ region op (PolyOps.Exec.wind (piecesOf B .subject) x y) (PolyOps.Exec.wind (piecesOf B .clip) x y) := by
  constructor
  · rintro rfl x y ho hr
    have := h.wind x y ho
    rw [if_pos hr] at this
    simp [PolyOps.Exec.wind] at this
  · intro hn
    by_contra hne
    obtain ⟨l, hl⟩ := List.exists_mem_of_ne_nil _ hne
    have hl0 := h.ne l hl
    obtain ⟨e, he⟩ : ∃ e, e ∈ edges l := by
      cases l with
      | nil => exact absurd rfl hl0
      | cons a l => cases l <;> exact ⟨_, List.mem_cons_self ..⟩
    have he' : e ∈ out.flatMap edges := List.mem_flatMap.mpr ⟨l, hl, he⟩
    have hA := h.arr hS
    have hw := mid_within (hA.ne e he')
    obtain ⟨d, d0, g⟩ := h.leftIn hS e he' _ _ hw.1 hw.2 (nrm e).1 (nrm e).2
    obtain ⟨ho, g1⟩ := (g d d0 le_rfl).1 (nrm_pos (hA.ne e he'))
    obtain ⟨z, w, o1, o2, k⟩ := Compose.wind_near (out.flatMap edges) (B.flatMap Bent.pieces) ho
    have := h.wind z w o2
    rw [k _ fun e he => he, g1, if_neg (hn z w o2)] at this
    exact absurd this one_ne_zero

end

section
variable {G : Type} {P : Params G} {r : Nat → Bool × Bool} {pos : Clip → Nat → Nat} {c : Clipper G} (hP : P.env1 c.rgen = realEnv id r pos)
  (hpos : PosOk (realEnv id r pos)) (hc : Empty c)

include hP hpos hc in
/-- **C77 (sides).** Polygons are added to an empty clipper and an operation is run. If no two edges of the polygons returned coincide, the inside of the result is to the left of each edge,
and the outside to the right. -/
theorem C77_sides_partial {ps : List Poly} (hf : Fine none ps) (op : BoolOp) (log : List TCall) :
    ∃ N st out, (∀ fuel ≥ N, run P fuel (ps.map Poly.cmd ++ [.exec op false]) (c, log) = .ok (st, List.replicate ps.length none ++ [some ⟨out, none⟩])) ∧
      (Single (out.flatMap edges) → ∀ e ∈ out.flatMap edges, LeftIn (out.flatMap edges) e) := by
  obtain ⟨B, -, -, h⟩ := C52_execute hP hpos hc hf
  obtain ⟨N, st, out, h1, h4⟩ := h op log
  exact ⟨N, st, out, h1, h4.toShape.leftIn⟩

include hP hpos hc in
/-- **C77 (edges that do not overlap).** If no two edges of the polygons given overlap, and those that are not parallel only meet at integer
points, the inside of the result is to the left of each edge returned, the outside to the right, and nothing is returned just if the operation has no place inside. -/
theorem C77_apart {ps : List Poly} (hf : Fine none ps) (hE : Lattice (ps.flatMap fun p => edges p.pts))
    (hA : (ps.flatMap fun p => edges p.pts).Pairwise Apart) (op : BoolOp) (log : List TCall) :
    ∃ N st out, (∀ fuel ≥ N, run P fuel (ps.map Poly.cmd ++ [.exec op false]) (c, log) = .ok (st, List.replicate ps.length none ++ [some ⟨out, none⟩])) ∧
      (∀ e ∈ out.flatMap edges, LeftIn (out.flatMap edges) e) ∧
      (out = [] ↔ ∀ x y, Off (allEdges ps) x y → ¬ region op (wind (edgesOf ps .subject) x y) (wind (edgesOf ps .clip) x y)) := by
  obtain ⟨N, st, out, h1, h2⟩ := C77_sides_partial hP hpos hc hf op log
  obtain ⟨N', st', out', h1', hS, -⟩ := C53_apart hP hpos hc hf hE hA op log
  obtain ⟨N2, st2, out2, h12, -, h3⟩ := C52_exact hP hpos hc hf hE op log
  obtain ⟨N3, st3, out3, h13, hlen, -⟩ := C67_area_partial hP hpos hc hf op log
  have same : ∀ {N N' : Nat} {st st' : Clipper G × List TCall} {out out' : List (List Pt)},
      (∀ fuel ≥ N, run P fuel (ps.map Poly.cmd ++ [.exec op false]) (c, log) = .ok (st, List.replicate ps.length none ++ [some ⟨out, none⟩])) →
      (∀ fuel ≥ N', run P fuel (ps.map Poly.cmd ++ [.exec op false]) (c, log) = .ok (st', List.replicate ps.length none ++ [some ⟨out', none⟩])) → out = out' := by
    intro N N' st st' out out' h h'
    have := (h _ (le_max_left N N')).symm.trans (h' _ (le_max_right N N'))
    simp only [Out.ok.injEq, Prod.mk.injEq, List.append_cancel_left_eq, List.cons.injEq, Option.some.injEq, Output.mk.injEq] at this
    exact this.2.1.1
  obtain rfl := same h1 h1'
  obtain rfl := same h1 h12
  obtain rfl := same h1 h13
  refine ⟨N, st, out, h1, h2 hS, ?_, fun hn => ?_⟩
  · rintro rfl x y ho hr
    have := h3 x y ho
    rw [if_pos hr] at this
    simp [wind] at this
  · by_contra hne
    obtain ⟨l, hl⟩ := List.exists_mem_of_ne_nil _ hne
    obtain ⟨e, he⟩ : ∃ e, e ∈ edges l := by
      have := (hlen l hl).1
      cases l with
      | nil => simp at this
      | cons a l => cases l <;> exact ⟨_, List.mem_cons_self ..⟩
    have he' : e ∈ out.flatMap edges := List.mem_flatMap.mpr ⟨l, hl, he⟩
    have hne := (hlen l hl).2 e he
    have hw := mid_within hne
    obtain ⟨d, d0, g⟩ := h2 hS e he' _ _ hw.1 hw.2 (nrm e).1 (nrm e).2
    obtain ⟨ho, g1⟩ := (g d d0 le_rfl).1 (nrm_pos hne)
    obtain ⟨z, w, o1, o2, k⟩ := Compose.wind_near (out.flatMap edges) (allEdges ps) ho
    have := h3 z w o2
    rw [k _ fun e he => he, g1, if_neg (hn z w o2)] at this
    exact absurd this one_ne_zero

include hP hpos hc in
/-- **C77 (tree output).** The same for tree output. -/
theorem C77_tree {ps : List Poly} (hf : Fine none ps) (op : BoolOp) (log : List TCall) :
    ∃ N o out, (∀ fuel ≥ N, run P fuel (ps.map Poly.cmd ++ [.exec op true]) (c, log) = o) ∧ TreeEnd o ps.length out ∧
      (Single (out.flatMap edges) → ∀ e ∈ out.flatMap edges, LeftIn (out.flatMap edges) e) := by
  obtain ⟨B, -, -, h⟩ := C54_tree hP hpos hc hf
  obtain ⟨N, o, out, h1, h2, h3⟩ := h op log
  exact ⟨N, o, out, h1, h2, h3.toShape.leftIn⟩

end

/-- **C77 (double).** The same for the arithmetic of double, if the first pass ends. -/
theorem C77_double (g : Nat → Bool × Bool) (o : Pt) {ps : List Poly} (hf : Fine none ps) (hsq : ∀ p ∈ ps, ∀ v ∈ p.pts, InSq o 90000 v) (op : BoolOp)
    (log : List TCall) (fuel : Nat) :
    run libDouble fuel (ps.map Poly.cmd ++ [.exec op false]) (Clipper.fresh g, log) = .fuel ∨
      ∃ st out, run libDouble fuel (ps.map Poly.cmd ++ [.exec op false]) (Clipper.fresh g, log) =
          .ok (st, List.replicate ps.length none ++ [some ⟨out, none⟩]) ∧ (Single (out.flatMap edges) → ∀ e ∈ out.flatMap edges, LeftIn (out.flatMap edges) e) := by
  obtain ⟨B, -, -, h⟩ := C59_double g o hf hsq
  rcases h op log fuel with h | ⟨st, out, e1, e2⟩
  · exact Or.inl h
  · exact Or.inr ⟨st, out, e1, e2.leftIn⟩

/-! ### Cases -/

/-- Nested squares, and squares apart. -/
example (g : Nat → Bool × Bool) (op : BoolOp) : ∃ N st out, (∀ fuel ≥ N, run lib fuel (rings.map Poly.cmd ++ [.exec op false]) (Clipper.fresh g, []) =
      .ok (st, List.replicate rings.length none ++ [some ⟨out, none⟩])) ∧ (∀ e ∈ out.flatMap edges, LeftIn (out.flatMap edges) e) ∧
      (out = [] ↔ ∀ x y, Off (allEdges rings) x y → ¬ region op (wind (edgesOf rings .subject) x y) (wind (edgesOf rings .clip) x y)) :=
  C77_apart (P := lib) rfl (takeWhile_posOk id g) (fresh_empty g) (by decide +kernel)
    (axis_lattice (by intro e he; unfold Axis; revert e; decide +kernel)) (List.Pairwise.imp (fun h => BoxApart.apart h) (by decide +kernel)) op []

example : outOf (run lib 100 (distant.map Poly.cmd ++ [.exec .intersection false]) (Clipper.fresh gen, [])) = some [] ∧
    (outOf (run lib 100 (distant.map Poly.cmd ++ [.exec .union false]) (Clipper.fresh gen, []))).map List.length = some 2 := by decide +kernel

/-- Two rectangles beside each other. -/
def adjoined : List Poly := [⟨.subject, false, [⟨1, 1⟩, ⟨2, 1⟩, ⟨2, 2⟩, ⟨1, 2⟩]⟩, ⟨.clip, false, [⟨0, 1⟩, ⟨1, 1⟩, ⟨1, 3⟩, ⟨0, 3⟩]⟩]

/-- **C77 is wrong** where edges coincide: two rectangles have a part of a side in common and no place is inside both, and their intersection is a polygon of two vertices. -/
theorem C77_flat : Fine none adjoined ∧ outOf (run lib 100 (adjoined.map Poly.cmd ++ [.exec .intersection false]) (Clipper.fresh gen, [])) = some [[⟨1, 2⟩, ⟨1, 1⟩]] ∧
    (∀ x y, Off (allEdges adjoined) x y → ¬ region .intersection (wind (edgesOf adjoined .subject) x y) (wind (edgesOf adjoined .clip) x y)) ∧
    ¬ LeftIn (edges [⟨1, 2⟩, ⟨1, 1⟩]) (⟨1, 2⟩, ⟨1, 1⟩) := by
  have hf : Fine none adjoined := by decide +kernel
  have hout : outOf (run lib 100 (adjoined.map Poly.cmd ++ [.exec .intersection false]) (Clipper.fresh gen, [])) = some [[⟨1, 2⟩, ⟨1, 1⟩]] := by decide +kernel
  refine ⟨hf, hout, ?_, ?_⟩
  · obtain ⟨N, st, out, h1, h2⟩ := C71_zero (P := lib) (c := Clipper.fresh gen) rfl (takeWhile_posOk id gen) (fresh_empty gen) hf
      (axis_lattice (by intro e he; unfold Axis; revert e; decide +kernel)) .intersection []
    refine h2.mp ?_
    have hn : run lib 100 (adjoined.map Poly.cmd ++ [.exec .intersection false]) (Clipper.fresh gen, []) ≠ .fuel := by
      intro k; rw [k] at hout; cases hout
    have e := run_unique (m := N) hn (by rw [h1 N le_rfl]; simp)
    rw [e, h1 N le_rfl] at hout
    have : out = [[⟨1, 2⟩, ⟨1, 1⟩]] := by simpa [outOf, adjoined] using hout
    rw [this]
    decide
  · intro h
    obtain ⟨d, d0, g⟩ := h 1 (3 / 2) ⟨1 / 2, by norm_num, by norm_num, by norm_num, by norm_num⟩ (by rintro (⟨-, k⟩ | ⟨-, k⟩) <;> norm_num at k) 1 0
    have := ((g d d0 le_rfl).1 (by norm_num)).2
    simp only [wind, edges, walk, List.cons_append, List.nil_append, List.map_cons, List.map_nil, List.sum_cons, List.sum_nil, count_swap ⟨1, 2⟩] at this
    omega

end PolyOps.Exec
