import Verif.Lemmas.WindLinear
import Verif.Props.Signs

/-! C73: scaling, mirroring, turning and other linear maps; a resolution that is fine enough makes results exact. -/
namespace PolyOps.Exec
open PolyOps PolyOps.Sweep PolyOps.Region PolyOps.Planarity PolyOps.Loops PolyOps.PointSink PolyOps.Clipper PolyOps.Double

/-! ### Specification -/

/-- The image of a polygon. For maps that reverse orientation, such as mirroring, the vertices are listed in reverse, so that an outline stays an outline. -/
def Lin.loop (T : Lin) (l : List Pt) : List Pt := if T.det < 0 then (l.map T.pt).reverse else l.map T.pt

def Lin.polys (T : Lin) (ps : List Poly) : List Poly := ps.map fun p => { p with pts := T.loop p.pts }

/-- Enlarging by a factor. -/
def Lin.times (M : Int) : Lin := ⟨M, 0, 0, M⟩

/-! ### Proof -/

namespace Lin

theorem det_times (M : Int) : (times M).det = M * M := by unfold times det; ring

theorem pt_inj {T : Lin} (h : T.det ≠ 0) : Function.Injective T.pt := by
  intro p q e
  unfold pt at e
  simp only [Pt.mk.injEq] at e
  obtain ⟨e1, e2⟩ := e
  unfold det at h
  have h1 : (T.a * T.d - T.b * T.c) * p.x = (T.a * T.d - T.b * T.c) * q.x := by linear_combination T.d * e1 - T.b * e2
  have h2 : (T.a * T.d - T.b * T.c) * p.y = (T.a * T.d - T.b * T.c) * q.y := by linear_combination T.a * e2 - T.c * e1
  obtain ⟨px, py⟩ := p
  obtain ⟨qx, qy⟩ := q
  simp only at h1 h2
  rw [mul_left_cancel₀ h h1, mul_left_cancel₀ h h2]

theorem walk_pt (T : Lin) (l : List Pt) : ∀ a, walk (T.pt a) (l.map T.pt) = (walk a l).map T.edge := by
  induction l with
  | nil => intro a; rfl
  | cons b l ih => intro a; show (T.pt a, T.pt b) :: _ = _; rw [ih]; rfl

theorem edges_pt (T : Lin) (l : List Pt) : edges (l.map T.pt) = (edges l).map T.edge := by
  cases l with
  | nil => rfl
  | cons a l =>
    show walk (T.pt a) (l.map T.pt ++ [T.pt a]) = (walk a (l ++ [a])).map T.edge
    rw [← walk_pt, List.map_append]; rfl

end Lin

theorem edges_rev (l : List Pt) : (edges l.reverse).Perm ((edges l).map Prod.swap) := by
  cases l with
  | nil => exact List.Perm.refl _
  | cons a l =>
    have hw : ∀ (l : List Pt) (a z : Pt), walk z (l.reverse ++ [a]) = ((walk a (l ++ [z])).map Prod.swap).reverse := by
      intro l
      induction l with
      | nil => intro a z; rfl
      | cons b l ih =>
        intro a z
        have happ : ∀ (l : List Pt) (z b a : Pt), walk z (l ++ [b] ++ [a]) = walk z (l ++ [b]) ++ [(b, a)] := by
          intro l
          induction l with
          | nil => intro z b a; rfl
          | cons c l ih => intro z b a; show (z, c) :: walk c (l ++ [b] ++ [a]) = _; rw [ih]; rfl
        rw [List.reverse_cons, happ, ih]
        show _ = (((a, b) :: walk b (l ++ [z])).map Prod.swap).reverse
        rw [List.map_cons, List.reverse_cons]
        rfl
    have h1 : (a :: l).reverse ~r (a :: l.reverse) := by
      rw [List.reverse_cons]
      exact (List.isRotated_append (l := l.reverse) (l' := [a]))
    exact (edges_rotate h1).trans (by rw [show edges (a :: l.reverse) = ((edges (a :: l)).map Prod.swap).reverse from hw l a a]; exact List.reverse_perm _)

theorem polys_bal (A : List (List Pt)) : Bal (A.flatMap edges) := by
  intro φ
  induction A with
  | nil => rfl
  | cons l A ih => rw [List.flatMap_cons, List.map_append, List.sum_append, ih, edges_bal l φ]; rfl

theorem flatMap_perm {α β : Type} (l : List α) {f g : α → List β} (h : ∀ a, (f a).Perm (g a)) : (l.flatMap f).Perm (l.flatMap g) := by
  induction l with
  | nil => exact List.Perm.refl _
  | cons a l ih => rw [List.flatMap_cons, List.flatMap_cons]; exact (h a).append ih

namespace Lin

/-- The edges of the image, up to order and direction. -/
theorem edges_loop (T : Lin) (l : List Pt) : (edges (T.loop l)).Perm (if T.det < 0 then ((edges l).map T.edge).map Prod.swap else (edges l).map T.edge) := by
  unfold loop
  split
  · exact (edges_rev _).trans (by rw [edges_pt])
  · rw [edges_pt]

theorem edges_loops (T : Lin) (A : List (List Pt)) : ((A.map T.loop).flatMap edges).Perm
    (if T.det < 0 then ((A.flatMap edges).map T.edge).map Prod.swap else (A.flatMap edges).map T.edge) := by
  rw [List.flatMap_map]
  refine (flatMap_perm A fun l => edges_loop T l).trans ?_
  split
  · rw [List.map_flatMap, List.map_flatMap]
  · rw [List.map_flatMap]

theorem off_loops {T : Lin} (h : T.det ≠ 0) {A : List (List Pt)} {x y : ℚ} : Off ((A.map T.loop).flatMap edges) (T.X x y) (T.Y x y) ↔ Off (A.flatMap edges) x y := by
  have h1 : Off ((A.map T.loop).flatMap edges) (T.X x y) (T.Y x y) ↔ _ := forall_congr' fun e => by rw [(edges_loops T A).mem_iff]
  rw [h1]
  split
  · exact off_flip.trans (off_iff h)
  · exact off_iff h

theorem wind_loops {T : Lin} (h : T.det ≠ 0) {A : List (List Pt)} {x y : ℚ} (ho : Off (A.flatMap edges) x y) :
    wind ((A.map T.loop).flatMap edges) (T.X x y) (T.Y x y) = wind (A.flatMap edges) x y := by
  rw [wind_perm (edges_loops T A)]
  split
  · next hn => rw [wind_flip, good h _ _ _ (polys_bal A) ho, Int.sign_eq_neg_one_of_neg hn]; ring
  · rw [good h _ _ _ (polys_bal A) ho, Int.sign_eq_one_of_pos (by omega), one_mul]

theorem area_loops (T : Lin) (A : List (List Pt)) : areaOf (A.map T.loop) = |T.det| * areaOf A := by
  have hx : ∀ E : List (Pt × Pt), Bal E → (E.map trap).sum = (E.map fun e => e.1.x * e.2.y - e.2.x * e.1.y).sum := by
    intro E hb
    have := hb fun p => p.x * p.y
    have e : ∀ E : List (Pt × Pt), (E.map trap).sum = (E.map fun e => e.1.x * e.2.y - e.2.x * e.1.y).sum + (E.map fun e => e.1.x * e.1.y - e.2.x * e.2.y).sum := by
      intro E
      induction E with
      | nil => rfl
      | cons e E ih => simp only [List.map_cons, List.sum_cons, ih]; unfold trap; ring
    rw [e, this, add_zero]
  have hm : ∀ E : List (Pt × Pt), ((E.map T.edge).map fun e => e.1.x * e.2.y - e.2.x * e.1.y).sum = T.det * (E.map fun e => e.1.x * e.2.y - e.2.x * e.1.y).sum := by
    intro E
    induction E with
    | nil => simp
    | cons e E ih => simp only [List.map_cons, List.sum_cons, ih]; unfold det edge pt; simp only; ring
  unfold areaOf
  rw [polys_trap, polys_trap, ((edges_loops T A).map trap).sum_eq, hx (A.flatMap edges) (polys_bal A)]
  split
  · next hn =>
    rw [abs_of_neg hn]
    have hs : ∀ E : List (Pt × Pt), ((E.map Prod.swap).map trap).sum = - (E.map trap).sum := by
      intro E
      induction E with
      | nil => rfl
      | cons e E ih =>
        rw [List.map_cons, List.map_cons, List.sum_cons, ih, List.map_cons, List.sum_cons]
        show trap (e.2, e.1) + _ = _
        unfold trap
        ring
    rw [hs, hx _ ((polys_bal A).lin T), hm]
    ring
  · next hn => rw [abs_of_nonneg (by omega), hx _ ((polys_bal A).lin T), hm]

theorem all_polys (T : Lin) (ps : List Poly) : allEdges (T.polys ps) = ((ps.map Poly.pts).map T.loop).flatMap edges := by
  unfold allEdges polys
  rw [List.flatMap_map, List.flatMap_map, List.flatMap_map]

theorem all_given (ps : List Poly) : allEdges ps = (ps.map Poly.pts).flatMap edges := by
  unfold allEdges
  rw [List.flatMap_map]

theorem of_polys (T : Lin) (ps : List Poly) (k : BSet) : edgesOf (T.polys ps) k = ((given ps k).map T.loop).flatMap edges := by
  unfold edgesOf polys given
  rw [List.filter_map, List.flatMap_map, List.flatMap_map, List.flatMap_map]
  rfl

theorem off_polys {T : Lin} (h : T.det ≠ 0) {ps : List Poly} {x y : ℚ} : Off (allEdges (T.polys ps)) (T.X x y) (T.Y x y) ↔ Off (allEdges ps) x y := by
  rw [all_polys, all_given]
  exact off_loops h

theorem wind_of {T : Lin} (h : T.det ≠ 0) {ps : List Poly} {x y : ℚ} (ho : Off (allEdges ps) x y) (k : BSet) :
    wind (edgesOf (T.polys ps) k) (T.X x y) (T.Y x y) = wind (edgesOf ps k) x y := by
  rw [of_polys, wind_loops h, given_edges]
  rw [given_edges]
  exact fun e he => ho e (edgesOf_sub ps k e he)

/-- Each place is the image of one. -/
theorem onto {T : Lin} (h : T.det ≠ 0) (u v : ℚ) : ∃ x y, u = T.X x y ∧ v = T.Y x y := by
  have hd : (T.a : ℚ) * T.d - T.b * T.c ≠ 0 := by unfold det at h; exact_mod_cast h
  refine ⟨(T.d * u - T.b * v) / (T.a * T.d - T.b * T.c), (T.a * v - T.c * u) / (T.a * T.d - T.b * T.c), ?_, ?_⟩
  · unfold X
    rw [← mul_div_assoc, ← mul_div_assoc, ← add_div, eq_div_iff hd]; ring
  · unfold Y
    rw [← mul_div_assoc, ← mul_div_assoc, ← add_div, eq_div_iff hd]; ring

theorem cross_edge (T : Lin) (e f : Pt × Pt) : cross (T.edge e) (T.edge f) = T.det * cross e f := by unfold cross edge pt det; ring

theorem mem_loops {T : Lin} {ps : List Poly} {e : Pt × Pt} (he : e ∈ allEdges (T.polys ps)) : ∃ f ∈ allEdges ps, e = T.edge f ∨ e = (T.edge f).swap := by
  rw [all_polys, (edges_loops T _).mem_iff, ← all_given] at he
  split at he
  · obtain ⟨g, hg, rfl⟩ := List.mem_map.mp he
    obtain ⟨f, hf, rfl⟩ := List.mem_map.mp hg
    exact ⟨f, hf, Or.inr rfl⟩
  · obtain ⟨f, hf, rfl⟩ := List.mem_map.mp he
    exact ⟨f, hf, Or.inl rfl⟩

theorem on_swap {x y : ℚ} {a b : Pt} (h : OnSegQ x y a b) : OnSegQ x y b a := by
  obtain ⟨t, t0, t1, hx, hy⟩ := h
  exact ⟨1 - t, by linarith, by linarith, by rw [hx]; ring, by rw [hy]; ring⟩

/-- Crossings of the images are images of crossings. -/
theorem meet_polys {T : Lin} (h : T.det ≠ 0) {ps : List Poly} {e f : Pt × Pt} (he : e ∈ allEdges (T.polys ps)) (hf : f ∈ allEdges (T.polys ps)) (hx : cross e f ≠ 0) {u v : ℚ}
    (h1 : OnSegQ u v e.1 e.2) (h2 : OnSegQ u v f.1 f.2) : ∃ e' ∈ allEdges ps, ∃ f' ∈ allEdges ps, ∃ x y, u = T.X x y ∧ v = T.Y x y ∧
      cross e' f' ≠ 0 ∧ OnSegQ x y e'.1 e'.2 ∧ OnSegQ x y f'.1 f'.2 := by
  obtain ⟨x, y, rfl, rfl⟩ := onto h u v
  obtain ⟨e', he', ke⟩ := mem_loops he
  obtain ⟨f', hf', kf⟩ := mem_loops hf
  have cs : ∀ e f : Pt × Pt, cross e.swap f = - cross e f ∧ cross e f.swap = - cross e f := by
    intro e f; unfold cross; constructor <;> simp only [Prod.fst_swap, Prod.snd_swap] <;> ring
  refine ⟨e', he', f', hf', x, y, rfl, rfl, ?_, ?_, ?_⟩
  · intro hz
    apply hx
    have := cross_edge T e' f'
    rw [hz, mul_zero] at this
    rcases ke with rfl | rfl <;> rcases kf with rfl | rfl <;> simp only [(cs _ _).1, (cs _ _).2, this, neg_zero]
  · rcases ke with rfl | rfl
    · exact (on_iff h).mp h1
    · exact (on_iff h).mp (on_swap h1)
  · rcases kf with rfl | rfl
    · exact (on_iff h).mp h2
    · exact (on_iff h).mp (on_swap h2)

theorem lattice_polys {T : Lin} (h : T.det ≠ 0) {ps : List Poly} (hE : Lattice (allEdges ps)) : Lattice (allEdges (T.polys ps)) := by
  intro e he f hf hx u v h1 h2
  obtain ⟨e', he', f', hf', x, y, rfl, rfl, k1, k2, k3⟩ := meet_polys h he hf hx h1 h2
  obtain ⟨p, rfl, rfl⟩ := hE e' he' f' hf' k1 x y k2 k3
  exact ⟨T.pt p, by unfold X pt; push_cast; rfl, by unfold Y pt; push_cast; rfl⟩

/-- A common multiple of all determinants. -/
theorem exists_multiple (E : List (Pt × Pt)) : ∃ M : Int, 0 < M ∧ ∀ e ∈ E, ∀ f ∈ E, cross e f ≠ 0 → cross e f ∣ M := by
  have key : ∀ l : List Int, ∃ M : Int, 0 < M ∧ ∀ a ∈ l, a ≠ 0 → a ∣ M := by
    intro l
    induction l with
    | nil => exact ⟨1, one_pos, by simp⟩
    | cons a l ih =>
      obtain ⟨M, h1, h2⟩ := ih
      by_cases ha : a = 0
      · refine ⟨M, h1, fun b hb hne => ?_⟩
        rcases List.mem_cons.mp hb with rfl | hb
        · exact absurd ha hne
        · exact h2 b hb hne
      · refine ⟨|a| * M, mul_pos (abs_pos.mpr ha) h1, fun b hb hne => ?_⟩
        rcases List.mem_cons.mp hb with rfl | hb
        · exact Dvd.dvd.mul_right ((dvd_abs _ _).mpr (dvd_refl _)) _
        · exact Dvd.dvd.mul_left (h2 b hb hne) _
  obtain ⟨M, h1, h2⟩ := key (E.flatMap fun e => E.map fun f => cross e f)
  exact ⟨M, h1, fun e he f hf => h2 _ (List.mem_flatMap.mpr ⟨e, he, List.mem_map.mpr ⟨f, hf, rfl⟩⟩)⟩

/-- Coordinates of crossings are fractions with the determinant as denominator. -/
theorem crossing_frac {e f : Pt × Pt} {x y : ℚ} (h1 : OnSegQ x y e.1 e.2) (h2 : OnSegQ x y f.1 f.2) : ∃ p : Pt, (cross e f : ℚ) * x = p.x ∧ (cross e f : ℚ) * y = p.y := by
  obtain ⟨t, -, -, a1, a2⟩ := h1
  obtain ⟨s, -, -, b1, b2⟩ := h2
  have P : ((e.1.y : ℚ) - e.2.y) * x - (e.1.x - e.2.x) * y = (e.1.y - e.2.y) * e.1.x - (e.1.x - e.2.x) * e.1.y := by rw [a1, a2]; ring
  have Q : ((f.1.y : ℚ) - f.2.y) * x - (f.1.x - f.2.x) * y = (f.1.y - f.2.y) * f.1.x - (f.1.x - f.2.x) * f.1.y := by rw [b1, b2]; ring
  refine ⟨⟨(e.1.x - e.2.x) * ((f.1.y - f.2.y) * f.1.x - (f.1.x - f.2.x) * f.1.y) - (f.1.x - f.2.x) * ((e.1.y - e.2.y) * e.1.x - (e.1.x - e.2.x) * e.1.y),
    (e.1.y - e.2.y) * ((f.1.y - f.2.y) * f.1.x - (f.1.x - f.2.x) * f.1.y) - (f.1.y - f.2.y) * ((e.1.y - e.2.y) * e.1.x - (e.1.x - e.2.x) * e.1.y)⟩, ?_, ?_⟩
  · unfold cross
    push_cast
    linear_combination ((e.1.x : ℚ) - e.2.x) * Q - ((f.1.x : ℚ) - f.2.x) * P
  · unfold cross
    push_cast
    linear_combination ((e.1.y : ℚ) - e.2.y) * Q - ((f.1.y : ℚ) - f.2.y) * P

theorem lattice_times (ps : List Poly) : ∃ M : Int, 0 < M ∧ ∀ k : Int, 0 < k → Lattice (allEdges ((times (k * M)).polys ps)) := by
  obtain ⟨M, hM, hd⟩ := exists_multiple (allEdges ps)
  refine ⟨M, hM, fun k hk e he f hf hx u v h1 h2 => ?_⟩
  have hp := mul_pos hk hM
  have h0 : (times (k * M)).det ≠ 0 := by rw [det_times]; exact (mul_pos hp hp).ne'
  obtain ⟨e', he', f', hf', x, y, rfl, rfl, k1, k2, k3⟩ := meet_polys h0 he hf hx h1 h2
  obtain ⟨p, p1, p2⟩ := crossing_frac k2 k3
  obtain ⟨c, hc⟩ := hd e' he' f' hf' k1
  refine ⟨⟨k * c * p.x, k * c * p.y⟩, ?_, ?_⟩
  · unfold X times
    push_cast
    rw [hc, ← p1]
    push_cast
    ring
  · unfold Y times
    push_cast
    rw [hc, ← p2]
    push_cast
    ring

/-- Maps that keep orientation keep the conditions on polygons given. -/
theorem fine_polys {T : Lin} (h : 0 < T.det) (ps : List Poly) : ∀ b, Fine b ps → Fine (b.map T.pt) (T.polys ps) := by
  have hi := pt_inj h.ne'
  have hl : ∀ l, T.loop l = l.map T.pt := fun l => if_neg (by omega)
  have hclean : ∀ l : List Pt, clean (l.map T.pt) = (clean l).map T.pt := by
    intro l
    unfold clean
    simp only
    rw [← List.map_destutter_ne (l := l) hi, List.length_map, List.getLast?_map, List.head?_map]
    have : (Option.map T.pt (List.destutter (fun x1 x2 => x1 ≠ x2) l).getLast? = Option.map T.pt (List.destutter (fun x1 x2 => x1 ≠ x2) l).head?) ↔
        (List.destutter (fun x1 x2 => x1 ≠ x2) l).getLast? = (List.destutter (fun x1 x2 => x1 ≠ x2) l).head? := (Option.map_injective hi).eq_iff
    simp only [this]
    split
    · rw [List.map_dropLast]
    · rfl
  induction ps with
  | nil => intro b _; trivial
  | cons p ps ih =>
    intro b hf
    obtain ⟨h1, h2⟩ := hf
    refine ⟨?_, ?_⟩
    · simp only [hl]
      rcases h1 with h1 | ⟨a, b', c⟩
      · left; rw [h1]; rfl
      · right
        refine ⟨by rw [List.length_map]; exact a, ?_, ?_⟩
        · rw [List.head?_map]
          exact fun k => b' (Option.map_injective hi k)
        · rw [List.getLast?_map, List.head?_map, ← List.map_dropLast, List.getLast?_map]
          exact fun k => c ⟨Option.map_injective hi k.1, Option.map_injective hi k.2⟩
    · have := ih _ h2
      have e : (if Poly.big { p with pts := T.loop p.pts } then (clean (T.loop p.pts)).getLast? else b.map T.pt) =
          (if p.big then (clean p.pts).getLast? else b).map T.pt := by
        have hb : Poly.big { p with pts := T.loop p.pts } ↔ p.big := by unfold Poly.big; simp only [hl, hclean, List.length_map]
        by_cases c : p.big
        · rw [if_pos c, if_pos (hb.mpr c), hl, hclean, List.getLast?_map]
        · rw [if_neg c, if_neg fun k => c (hb.mp k)]
      show Fine (if Poly.big { p with pts := T.loop p.pts } then (clean (T.loop p.pts)).getLast? else b.map T.pt) _
      rw [e]
      exact this

end Lin

section
variable {G G' : Type} {P : Params G} {P' : Params G'} {r r' : Nat → Bool × Bool} {pos pos' : Clip → Nat → Nat} {c : Clipper G} {c' : Clipper G'}
  (hP : P.env1 c.rgen = realEnv id r pos) (hpos : PosOk (realEnv id r pos)) (hc : Empty c) (hP' : P'.env1 c'.rgen = realEnv id r' pos')
  (hpos' : PosOk (realEnv id r' pos')) (hc' : Empty c')

include hP hpos hc hP' hpos' hc' in
/-- **C73 (linear maps).** The polygons are mapped by a linear map that can be inverted: enlarged, mirrored, turned, stretched or sheared. If edges that are not
parallel only meet at integer points, the result for the images winds around the image of each place as often as the result for the polygons around the place, and has
the area multiplied by the factor of the map. Random numbers may be different. -/
theorem C73_mapped {T : Lin} (h : T.det ≠ 0) {ps : List Poly} (hf : Fine none ps) (hf' : Fine none (T.polys ps)) (hE : Lattice (allEdges ps)) (op : BoolOp) (log log' : List TCall) :
    ∃ N st st' out out', (∀ fuel ≥ N, run P fuel (ps.map Poly.cmd ++ [.exec op false]) (c, log) = .ok (st, List.replicate ps.length none ++ [some ⟨out, none⟩]) ∧
        run P' fuel ((T.polys ps).map Poly.cmd ++ [.exec op false]) (c', log') = .ok (st', List.replicate ps.length none ++ [some ⟨out', none⟩])) ∧
      (∀ x y, Off (allEdges ps) x y → wind (out'.flatMap edges) (T.X x y) (T.Y x y) = wind (out.flatMap edges) x y) ∧
      areaOf out' = |T.det| * areaOf out := by
  obtain ⟨N, st, out, h1, -, h3⟩ := C52_exact hP hpos hc hf hE op log
  obtain ⟨N', st', out', h1', -, h3'⟩ := C52_exact hP' hpos' hc' hf' (Lin.lattice_polys h hE) op log'
  have hw : ∀ x y, Off (allEdges ps) x y → wind (out'.flatMap edges) (T.X x y) (T.Y x y) = wind (out.flatMap edges) x y := by
    intro x y ho
    rw [h3 x y ho, h3' _ _ ((Lin.off_polys h).mpr ho), Lin.wind_of h ho, Lin.wind_of h ho]
  refine ⟨max N N', st, st', out, out', fun fuel hN => ⟨h1 fuel (by omega), ?_⟩, hw, ?_⟩
  · have e : (T.polys ps).length = ps.length := by unfold Lin.polys; rw [List.length_map]
    rw [h1' fuel (by omega), e]
  · rw [← Lin.area_loops]
    refine area_same (allEdges (T.polys ps) ++ (out.map T.loop).flatMap edges) fun u v ho => ?_
    obtain ⟨o1, o2⟩ := Off.append.mp ho
    obtain ⟨x, y, rfl, rfl⟩ := Lin.onto h u v
    rw [hw x y ((Lin.off_polys h).mp o1), Lin.wind_loops h ((Lin.off_loops h).mp o2)]

include hP hpos hc hP' hpos' hc' in
/-- **C73 (any polygons).** Whatever the polygons are, the results fit at all places that are outside the rectangles of all edges before and after the map. -/
theorem C73_far {T : Lin} (h : T.det ≠ 0) {ps : List Poly} (hf : Fine none ps) (hf' : Fine none (T.polys ps)) (op : BoolOp) (log log' : List TCall) :
    ∃ N st st' out out', (∀ fuel ≥ N, run P fuel (ps.map Poly.cmd ++ [.exec op false]) (c, log) = .ok (st, List.replicate ps.length none ++ [some ⟨out, none⟩]) ∧
        run P' fuel ((T.polys ps).map Poly.cmd ++ [.exec op false]) (c', log') = .ok (st', List.replicate ps.length none ++ [some ⟨out', none⟩])) ∧
      ∀ x y, (∀ e ∈ allEdges ps, Outside e x y ∧ Outside (T.edge e) (T.X x y) (T.Y x y)) →
        wind (out'.flatMap edges) (T.X x y) (T.Y x y) = wind (out.flatMap edges) x y := by
  obtain ⟨N, st, out, h1, h2⟩ := C60_outside hP hpos hc hf op log
  obtain ⟨N', st', out', h1', h2'⟩ := C60_outside hP' hpos' hc' hf' op log'
  refine ⟨max N N', st, st', out, out', fun fuel hN => ⟨h1 fuel (by omega), ?_⟩, fun x y hxy => ?_⟩
  · have e : (T.polys ps).length = ps.length := by unfold Lin.polys; rw [List.length_map]
    rw [h1' fuel (by omega), e]
  · have ho : Off (allEdges ps) x y := by
      rintro e he ⟨t, t0, t1, hx, hy⟩
      have key : ∀ u v : ℚ, 0 < u → 0 < v → (1 - t) * u + t * v ≠ 0 := by
        intro u v hu hv hz
        rcases eq_or_lt_of_le t0 with k | k
        · rw [← k] at hz; linarith
        · have := mul_pos k hv
          have := mul_nonneg (sub_nonneg.mpr t1) hu.le
          linarith
      rcases (hxy e he).1 with k | k | k | k
      · exact key (e.1.x - x) (e.2.x - x) (by linarith [k.1]) (by linarith [k.2]) (by rw [hx]; ring)
      · exact key (x - e.1.x) (x - e.2.x) (by linarith [k.1]) (by linarith [k.2]) (by rw [hx]; ring)
      · exact key (e.1.y - y) (e.2.y - y) (by linarith [k.1]) (by linarith [k.2]) (by rw [hy]; ring)
      · exact key (y - e.1.y) (y - e.2.y) (by linarith [k.1]) (by linarith [k.2]) (by rw [hy]; ring)
    rw [h2 x y fun p hp e he => (hxy e (List.mem_flatMap.mpr ⟨p, hp, he⟩)).1, h2' _ _ ?_, Lin.wind_of h ho, Lin.wind_of h ho]
    intro p hp e he
    obtain ⟨f, hf, k⟩ := Lin.mem_loops (T := T) (ps := ps) (List.mem_flatMap.mpr ⟨p, hp, he⟩)
    have hk := (hxy f hf).2
    rcases k with rfl | rfl
    · exact hk
    · unfold Outside at hk ⊢
      simp only [Prod.fst_swap, Prod.snd_swap]
      tauto

include hP hpos hc in
/-- **C73 (resolution).** For any polygons there is a factor such that results are exact when the polygons are enlarged by it or by a multiple of it:
they wind once around the images of all places in the region and not around other ones. -/
theorem C73_resolution {ps : List Poly} (hf : Fine none ps) : ∃ M : Int, 0 < M ∧ ∀ k : Int, 0 < k → ∀ (op : BoolOp) (log : List TCall),
    ∃ N st out, (∀ fuel ≥ N, run P fuel (((Lin.times (k * M)).polys ps).map Poly.cmd ++ [.exec op false]) (c, log) =
        .ok (st, List.replicate ps.length none ++ [some ⟨out, none⟩])) ∧
      ∀ x y : ℚ, Off (allEdges ps) x y → wind (out.flatMap edges) ((k * M : Int) * x) ((k * M : Int) * y) =
        if region op (wind (edgesOf ps .subject) x y) (wind (edgesOf ps .clip) x y) then 1 else 0 := by
  obtain ⟨M, hM, hL⟩ := Lin.lattice_times ps
  refine ⟨M, hM, fun k hk op log => ?_⟩
  have hp := mul_pos hk hM
  have hd : 0 < (Lin.times (k * M)).det := by rw [Lin.det_times]; exact mul_pos hp hp
  obtain ⟨N, st, out, h1, -, h3⟩ := C52_exact hP hpos hc (Lin.fine_polys hd ps none hf) (hL k hk) op log
  refine ⟨N, st, out, fun fuel hN => ?_, fun x y ho => ?_⟩
  · have e : ((Lin.times (k * M)).polys ps).length = ps.length := by unfold Lin.polys; rw [List.length_map]
    rw [h1 fuel hN, e]
  · have := h3 _ _ ((Lin.off_polys hd.ne').mpr ho)
    rw [Lin.wind_of hd.ne' ho, Lin.wind_of hd.ne' ho] at this
    rw [← this]
    congr 1
    · unfold Lin.X Lin.times; push_cast; ring
    · unfold Lin.Y Lin.times; push_cast; ring

end

/-! ### Cases -/

/-- Turned by 90 degrees, mirrored, and stretched in one direction. -/
def Lin.quarter : Lin := ⟨0, -1, 1, 0⟩
def Lin.mirror : Lin := ⟨-1, 0, 0, 1⟩
def Lin.stretch : Lin := ⟨3, 1, 0, 1⟩

example (g g' : Nat → Bool × Bool) (op : BoolOp) : ∀ T ∈ [Lin.quarter, Lin.mirror, Lin.stretch],
    ∃ N st st' out out', (∀ fuel ≥ N, run lib fuel (squares.map Poly.cmd ++ [.exec op false]) (Clipper.fresh g, []) = .ok (st, List.replicate squares.length none ++ [some ⟨out, none⟩]) ∧
        run lib fuel ((T.polys squares).map Poly.cmd ++ [.exec op false]) (Clipper.fresh g', []) = .ok (st', List.replicate squares.length none ++ [some ⟨out', none⟩])) ∧
      (∀ x y, Off (allEdges squares) x y → wind (out'.flatMap edges) (T.X x y) (T.Y x y) = wind (out.flatMap edges) x y) ∧
      areaOf out' = |T.det| * areaOf out := by
  intro T hT
  refine C73_mapped (P := lib) (P' := lib) (c := Clipper.fresh g) (c' := Clipper.fresh g') rfl (takeWhile_posOk id g) (fresh_empty g) rfl (takeWhile_posOk id g') (fresh_empty g')
    ?_ (by decide +kernel) ?_ (axis_lattice (by intro e he; unfold Axis; revert e; decide +kernel)) op [] []
  · revert T; decide
  · revert T; decide +kernel

/-- The area of the union of the stretched squares is three times as large. -/
example : [Lin.quarter, Lin.mirror, Lin.stretch].map (fun T => (outOf (run lib 100 ((T.polys squares).map Poly.cmd ++ [.exec .union false]) (Clipper.fresh gen, []))).map areaOf) =
    [some 56, some 56, some 168] := by decide +kernel

/-- Two triangles whose sides cross at places that are not integer. -/
example (g : Nat → Bool × Bool) : ∃ M : Int, 0 < M ∧ ∀ k : Int, 0 < k → ∀ (op : BoolOp) (log : List TCall),
    ∃ N st out, (∀ fuel ≥ N, run lib fuel (((Lin.times (k * M)).polys slanted).map Poly.cmd ++ [.exec op false]) (Clipper.fresh g, log) =
        .ok (st, List.replicate slanted.length none ++ [some ⟨out, none⟩])) ∧
      ∀ x y : ℚ, Off (allEdges slanted) x y → wind (out.flatMap edges) ((k * M : Int) * x) ((k * M : Int) * y) =
        if region op (wind (edgesOf slanted .subject) x y) (wind (edgesOf slanted .clip) x y) then 1 else 0 :=
  C73_resolution (P := lib) (c := Clipper.fresh g) rfl (takeWhile_posOk id g) (fresh_empty g) (by decide +kernel)

end PolyOps.Exec
