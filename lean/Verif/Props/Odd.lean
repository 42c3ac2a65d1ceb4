import Verif.Props.Inner

/-! C83: how to tell from the polygons returned whether a place is in the result. `Encl` is in `Props/Inner.lean`. -/
namespace PolyOps.Exec
open PolyOps PolyOps.Sweep PolyOps.Region PolyOps.Planarity PolyOps.Loops PolyOps.PointSink PolyOps.Clipper PolyOps.Double
open scoped Classical

/-! ### Specification -/

/-- How many of the polygons wind around a place. -/
noncomputable def around (out : List (List Pt)) (x y : ℚ) : Nat := ((List.range out.length).filter fun a => decide (Encl out a x y)).length

/-- The innermost polygon around a place is an outline: it winds forwards, and none of the polygons directly inside it winds around the place. -/
def InOutline (out : List (List Pt)) (x y : ℚ) : Prop := ∃ a < out.length, Encl out a x y ∧ 0 < windingDir (out.getD a []) ∧ ∀ c, Directly out a c → ¬ Encl out c x y

/-! ### Proof -/

theorem sum_parity {l : List Int} (h : ∀ i ∈ l, i = 0 ∨ i = 1 ∨ i = -1) : l.sum % 2 = ((l.filter fun i => decide (i ≠ 0)).length : Int) % 2 := by
  induction l with
  | nil => rfl
  | cons i l ih =>
    have := ih fun j hj => h j (List.mem_cons_of_mem _ hj)
    rw [List.sum_cons, List.filter_cons]
    rcases h i (List.mem_cons_self ..) with rfl | rfl | rfl
    · rw [if_neg (by decide), zero_add]; exact this
    · rw [if_pos (by decide), List.length_cons, Nat.cast_add, Nat.cast_one]; omega
    · rw [if_pos (by decide), List.length_cons, Nat.cast_add, Nat.cast_one]; omega

section
variable {out : List (List Pt)} (h : Nested out) {x y : ℚ} (ho : Off (out.flatMap edges) x y)

theorem edges_sub {a : Nat} (ha : a < out.length) : ∀ e ∈ edges (out.getD a []), e ∈ out.flatMap edges := fun _ he =>
  List.mem_flatMap.mpr ⟨_, by rw [List.getD_eq_getElem _ _ ha]; exact List.getElem_mem ha, he⟩

include h ho in
theorem Nested.parity : wind (out.flatMap edges) x y % 2 = (around out x y : Int) % 2 := by
  have e : out = (List.range out.length).map fun m => out.getD m [] := by
    apply List.ext_getElem
    · simp
    · intro i h1 h2
      simp [h1]
  have hw : wind (out.flatMap edges) x y = ((List.range out.length).map fun a => wind (edges (out.getD a [])) x y).sum := by
    conv_lhs => rw [e, List.flatMap_map, wind_flatMap]
  have off : ∀ a < out.length, Off (edges (out.getD a [])) x y := fun a ha e he => ho e (edges_sub ha e he)
  rw [hw, sum_parity]
  · unfold around
    rw [List.filter_map, List.length_map]
    congr 3
    refine List.filter_congr fun a ha => ?_
    have := off a (List.mem_range.mp ha)
    simp only [Function.comp_apply, decide_eq_decide]
    exact ⟨fun k => ⟨this, k⟩, fun k => k.2⟩
  · intro i hi
    obtain ⟨a, ha, rfl⟩ := List.mem_map.mp hi
    have ha := List.mem_range.mp ha
    rcases h.simple _ (show out.getD a [] ∈ out by rw [List.getD_eq_getElem _ _ ha]; exact List.getElem_mem ha) with k | k <;> rcases k.1 x y (off a ha) with k | k <;> tauto

include h ho in
/-- The polygons around a place, if `b` is the innermost one. -/
theorem Nested.around_eq {b : Nat} (hb : Encl out b x y) (hbn : b < out.length) (hin : ∀ c, Contains out b c → ¬ Encl out c x y) : around out x y = depthOf out b + 1 := by
  unfold around depthOf
  have hp : ((List.range out.length).filter fun a => decide (Encl out a x y)).Perm (b :: (List.range out.length).filter fun a => decide (Contains out a b)) := by
    refine (List.perm_ext_iff_of_nodup (List.Nodup.filter _ List.nodup_range) (List.nodup_cons.mpr ⟨?_, List.Nodup.filter _ List.nodup_range⟩)).mpr fun a => ?_
    · intro k
      exact h.laminar.irrefl b (of_decide_eq_true (List.mem_filter.mp k).2)
    · rw [List.mem_cons, List.mem_filter, List.mem_filter, List.mem_range]
      simp only [decide_eq_true_eq]
      constructor
      · rintro ⟨ha, k⟩
        by_cases e : a = b
        · exact .inl e
        rcases h.encl.apart a ha b hbn e x y k hb with c | c
        · exact .inr ⟨ha, c⟩
        · exact absurd k (hin a c)
      · rintro (rfl | ⟨ha, k⟩)
        · exact ⟨hbn, hb⟩
        · exact ⟨ha, h.encl.up a b k x y hb fun e he => ho e (edges_sub ha e he)⟩
  rw [hp.length_eq, List.length_cons]

include h ho in
theorem Nested.outline_iff (h01 : wind (out.flatMap edges) x y = 0 ∨ wind (out.flatMap edges) x y = 1) :
    (wind (out.flatMap edges) x y = 1 ↔ Odd (around out x y)) ∧ (wind (out.flatMap edges) x y = 1 ↔ InOutline out x y) := by
  have hpar := h.parity ho
  have hodd : wind (out.flatMap edges) x y = 1 ↔ Odd (around out x y) := by
    rw [Nat.odd_iff]
    omega
  refine ⟨hodd, hodd.trans ⟨fun k => ?_, ?_⟩⟩
  · -- the innermost polygon
    have hne : (List.range out.length).filter (fun a => decide (Encl out a x y)) ≠ [] := fun e => by
      unfold around at k
      rw [e] at k
      exact absurd k (by decide)
    obtain ⟨a0, ha0⟩ := List.exists_mem_of_ne_nil _ hne
    obtain ⟨b, hb, -, hmax⟩ := exists_last' (Contains out) (fun _ => True) (fun a _ => h.laminar.irrefl a) (fun a b c _ _ _ => h.laminar.trans a b c) _ ⟨a0, ha0, trivial⟩
    obtain ⟨hb1, hb2⟩ := List.mem_filter.mp hb
    have hb1 := List.mem_range.mp hb1
    have hb2 := of_decide_eq_true hb2
    have hin : ∀ c, Contains out b c → ¬ Encl out c x y := fun c kc ke => hmax c (List.mem_filter.mpr ⟨List.mem_range.mpr kc.2.1, decide_eq_true ke⟩) trivial kc
    rw [h.around_eq ho hb2 hb1 hin] at k
    refine ⟨b, hb1, hb2, (h.signed b hb1).1 ?_, fun c hc => hin c hc.1⟩
    rw [Nat.odd_iff] at k
    rw [Nat.even_iff]
    omega
  · rintro ⟨a, ha, k1, k2, k3⟩
    have hin : ∀ c, Contains out a c → ¬ Encl out c x y := by
      intro c kc ke
      obtain ⟨d, hd, e⟩ := TreeWalk.exists_child h.laminar _ c rfl kc
      have hd := direct_iff.mp hd
      rcases e with rfl | e
      · exact k3 _ hd ke
      · exact k3 d hd (h.encl.up d c e x y ke fun f hf => ho f (edges_sub hd.1.2.1 f hf))
    rw [h.around_eq ho k1 ha hin]
    by_contra hn
    have : ¬ Even (depthOf out a) := by
      rw [Nat.even_iff]
      rw [Nat.odd_iff] at hn
      omega
    have := (h.signed a ha).2 this
    omega

end

section
variable {G : Type} {P : Params G} {r : Nat → Bool × Bool} {pos : Clip → Nat → Nat} {c : Clipper G} (hP : P.env1 c.rgen = realEnv id r pos)
  (hpos : PosOk (realEnv id r pos)) (hc : Empty c)

include hP hpos hc in
/-- **C83.** Polygons are added to an empty clipper and an operation is run. If no two edges of the polygons returned coincide, then for every place off these edges, the polygons wind around it once just
if it is inside an odd number of them, and just if the innermost one around it is an outline; otherwise not at all. -/
theorem C83_odd {ps : List Poly} (hf : Fine none ps) (op : BoolOp) (log : List TCall) :
    ∃ N st out, (∀ fuel ≥ N, run P fuel (ps.map Poly.cmd ++ [.exec op false]) (c, log) = .ok (st, List.replicate ps.length none ++ [some ⟨out, none⟩])) ∧
      (Single (out.flatMap edges) → ∀ x y, Off (out.flatMap edges) x y → (wind (out.flatMap edges) x y = 0 ∨ wind (out.flatMap edges) x y = 1) ∧
        (wind (out.flatMap edges) x y = 1 ↔ Odd (around out x y)) ∧ (wind (out.flatMap edges) x y = 1 ↔ InOutline out x y)) := by
  obtain ⟨B, -, -, h⟩ := C52_execute hP hpos hc hf
  obtain ⟨N, st, out, h1, h4⟩ := h op log
  exact ⟨N, st, out, h1, fun hS x y ho => ⟨h4.toShape.zero_or_one ho, (h4.nested hS).outline_iff ho (h4.toShape.zero_or_one ho)⟩⟩

include hP hpos hc in
/-- **C83 (edges that do not overlap).** If no two edges of the polygons given overlap, and those that are not parallel only meet at integer points, a place off all edges is in the region of the operation
just if it is inside an odd number of the polygons returned, and just if the innermost one around it is an outline. -/
theorem C83_apart {ps : List Poly} (hf : Fine none ps) (hE : Lattice (ps.flatMap fun p => edges p.pts))
    (hA : (ps.flatMap fun p => edges p.pts).Pairwise Apart) (op : BoolOp) (log : List TCall) :
    ∃ N st out, (∀ fuel ≥ N, run P fuel (ps.map Poly.cmd ++ [.exec op false]) (c, log) = .ok (st, List.replicate ps.length none ++ [some ⟨out, none⟩])) ∧
      ∀ x y, Off (allEdges ps) x y → Off (out.flatMap edges) x y →
        (region op (wind (edgesOf ps .subject) x y) (wind (edgesOf ps .clip) x y) ↔ Odd (around out x y)) ∧
        (region op (wind (edgesOf ps .subject) x y) (wind (edgesOf ps .clip) x y) ↔ InOutline out x y) := by
  obtain ⟨N, st, out, h1, -, h2⟩ := C53_apart hP hpos hc hf hE hA op log
  obtain ⟨N', st', out', h1', -, h3⟩ := C52_exact hP hpos hc hf hE op log
  have e := (h1 (max N N') (le_max_left ..)).symm.trans (h1' (max N N') (le_max_right ..))
  have e : out = out' := by
    injection e with e
    have e := congrArg Prod.snd e
    have e := List.append_cancel_left e
    injection e with e
    injection e with e
    exact congrArg Output.loops e
  subst e
  refine ⟨N, st, out, h1, fun x y ho ho' => ?_⟩
  have hw := h3 x y ho
  have h01 : wind (out.flatMap edges) x y = 0 ∨ wind (out.flatMap edges) x y = 1 := by rw [hw]; split <;> simp
  have hr : region op (wind (edgesOf ps .subject) x y) (wind (edgesOf ps .clip) x y) ↔ wind (out.flatMap edges) x y = 1 := by
    rw [hw]; split <;> simp [*]
  obtain ⟨k1, k2⟩ := h2.outline_iff ho' h01
  exact ⟨hr.trans k1, hr.trans k2⟩

end

section
variable (g : Nat → Bool × Bool) (o : Pt) {ps : List Poly} (hf : Fine none ps) (hsq : ∀ p ∈ ps, ∀ v ∈ p.pts, InSq o 90000 v)

include hf hsq in
/-- **C83 with doubles.** For polygons in a square with side 90000, when an operation returns. -/
theorem C83_double (op : BoolOp) (log : List TCall) (fuel : Nat) :
    run libDouble fuel (ps.map Poly.cmd ++ [.exec op false]) (Clipper.fresh g, log) = .fuel ∨
      ∃ st out, run libDouble fuel (ps.map Poly.cmd ++ [.exec op false]) (Clipper.fresh g, log) =
          .ok (st, List.replicate ps.length none ++ [some ⟨out, none⟩]) ∧
        (Single (out.flatMap edges) → ∀ x y, Off (out.flatMap edges) x y → (wind (out.flatMap edges) x y = 0 ∨ wind (out.flatMap edges) x y = 1) ∧
          (wind (out.flatMap edges) x y = 1 ↔ Odd (around out x y)) ∧ (wind (out.flatMap edges) x y = 1 ↔ InOutline out x y)) := by
  obtain ⟨B, -, -, h⟩ := C59_double g o hf hsq
  rcases h op log fuel with h | ⟨st, out, e1, e2⟩
  · exact Or.inl h
  · exact Or.inr ⟨st, out, e1, fun hS x y ho => ⟨e2.zero_or_one ho, (e2.nested hS).outline_iff ho (e2.zero_or_one ho)⟩⟩

end

/-! ### Cases -/

/-- Three nested squares. -/
example (g : Nat → Bool × Bool) (op : BoolOp) : ∃ N st out, (∀ fuel ≥ N, run lib fuel (rings.map Poly.cmd ++ [.exec op false]) (Clipper.fresh g, []) =
      .ok (st, List.replicate rings.length none ++ [some ⟨out, none⟩])) ∧
      ∀ x y, Off (allEdges rings) x y → Off (out.flatMap edges) x y →
        (region op (wind (edgesOf rings .subject) x y) (wind (edgesOf rings .clip) x y) ↔ Odd (around out x y)) ∧
        (region op (wind (edgesOf rings .subject) x y) (wind (edgesOf rings .clip) x y) ↔ InOutline out x y) :=
  C83_apart (P := lib) rfl (takeWhile_posOk id g) (fresh_empty g) (by decide +kernel)
    (axis_lattice (by intro e he; unfold Axis; revert e; decide +kernel)) (List.Pairwise.imp (fun h => BoxApart.apart h) (by decide +kernel)) op []

end PolyOps.Exec
