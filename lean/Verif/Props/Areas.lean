import Verif.Lemmas.Area
import Verif.Props.Recolor
import Verif.Props.Compose
import Verif.Props.ComposeDouble
import Verif.Props.Cover

/-! C71: the areas of results. -/
namespace PolyOps.Exec
open PolyOps PolyOps.Sweep PolyOps.Region PolyOps.Planarity PolyOps.Loops PolyOps.PointSink PolyOps.Clipper PolyOps.Double

/-! ### Specification -/

/-- The sum of `winding_dir` (base.hpp) over polygons: twice the area they enclose, where holes count negatively (C14). -/
def areaOf (out : List (List Pt)) : Int := (out.map windingDir).sum

/-- The polygons of one set. -/
def given (ps : List Poly) (k : BSet) : List (List Pt) := (ps.filter fun p => p.set = k).map Poly.pts

/-- Subjects and clips exchanged. -/
def exchanged (ps : List Poly) : List Poly := ps.map fun p => { p with set := other p.set }

/-- The polygons of one set wind at most once around each place, and not backwards: they do not overlap, and holes are inside. -/
def Plain (ps : List Poly) (k : BSet) : Prop := ∀ x y, Off (allEdges ps) x y → wind (edgesOf ps k) x y = 0 ∨ wind (edgesOf ps k) x y = 1

/-! ### Proof -/

theorem area_append (A C : List (List Pt)) : areaOf (A ++ C) = areaOf A + areaOf C := by unfold areaOf; rw [List.map_append, List.sum_append]

theorem wind_polys (A C : List (List Pt)) (x y : ℚ) : wind ((A ++ C).flatMap edges) x y = wind (A.flatMap edges) x y + wind (C.flatMap edges) x y := by
  rw [List.flatMap_append, wind_append]

/-- It is enough to look at places that are on none of some more edges. -/
theorem area_mono (B : List (Pt × Pt)) {A C : List (List Pt)} (h : ∀ x y, Off B x y → wind (A.flatMap edges) x y ≤ wind (C.flatMap edges) x y) :
    areaOf A ≤ areaOf C := by
  refine area_le fun x y ha hc => ?_
  obtain ⟨z, w, -, h2, h3⟩ := Compose.wind_near (A.flatMap edges ++ C.flatMap edges) B (x := x) (y := y) (Off.append.mpr ⟨ha, hc⟩)
  rw [← h3 _ fun e he => List.mem_append_left _ he, ← h3 _ fun e he => List.mem_append_right _ he]
  exact h z w h2

theorem area_same (B : List (Pt × Pt)) {A C : List (List Pt)} (h : ∀ x y, Off B x y → wind (A.flatMap edges) x y = wind (C.flatMap edges) x y) :
    areaOf A = areaOf C := le_antisymm (area_mono B fun x y ho => (h x y ho).le) (area_mono B fun x y ho => (h x y ho).ge)

theorem Shape.area_nonneg {op : BoolOp} {B : List Bent} {out : List (List Pt)} (h : Shape op B out) : 0 ≤ areaOf out := by
  have : areaOf [] ≤ areaOf out := area_mono (B.flatMap Bent.pieces) fun x y ho => by
    rw [h.wind x y ho]
    show (0 : Int) ≤ _
    split <;> decide
  exact this

/-- Areas of the results of all operations for the same bent edges. -/
theorem areas_of {B : List Bent} {out : BoolOp → List (List Pt)} (h : ∀ op, Shape op B (out op)) :
    (∀ op, 0 ≤ areaOf (out op)) ∧ areaOf (out .difference) ≤ areaOf (out .xor) ∧ areaOf (out .intersection) ≤ areaOf (out .union) ∧
      areaOf (out .union) ≤ areaOf (out .xor) + areaOf (out .intersection) := by
  refine ⟨fun op => (h op).area_nonneg, ?_, ?_, ?_⟩
  · refine area_mono (B.flatMap Bent.pieces) fun x y ho => ?_
    rw [(h _).wind x y ho, (h _).wind x y ho]
    simp only [region]
    split_ifs <;> omega
  · refine area_mono (B.flatMap Bent.pieces) fun x y ho => ?_
    rw [(h _).wind x y ho, (h _).wind x y ho]
    simp only [region]
    split_ifs <;> omega
  · rw [← area_append]
    refine area_mono (B.flatMap Bent.pieces) fun x y ho => ?_
    rw [wind_polys, (h _).wind x y ho, (h _).wind x y ho, (h _).wind x y ho]
    simp only [region]
    split_ifs <;> omega

/-! Subjects and clips exchanged. -/

def tagged (B : List Bent) : List (BSet × Pt × Pt) := B.flatMap fun b => b.pieces.map fun e => (b.set, e)

theorem pieces_tagged (B : List Bent) : B.flatMap Bent.pieces = (tagged B).map Prod.snd := by
  induction B with
  | nil => rfl
  | cons b B ih => unfold tagged at ih ⊢; simp [List.flatMap_cons, ih, List.map_map, Function.comp_def]

theorem piecesOf_tagged (B : List Bent) (k : BSet) : piecesOf B k = ((tagged B).filter fun t => t.1 = k).map Prod.snd := by
  induction B with
  | nil => rfl
  | cons b B ih =>
    unfold tagged piecesOf at ih ⊢
    rw [List.filter_cons, List.flatMap_cons, List.filter_append, List.map_append, ← ih]
    by_cases c : b.set = k
    · simp [c, List.filter_map, Function.comp_def, List.map_map]
    · simp [c, List.filter_map, Function.comp_def]

theorem store_recol (φ : BSet → BSet) (ps : List Poly) : ∀ pts, store (pts.map (LP.recol φ)) (ps.map fun p => { p with set := φ p.set }) = (store pts ps).map (LP.recol φ) := by
  induction ps with
  | nil => intro pts; rfl
  | cons p ps ih =>
    intro pts
    have hb : block pts.length (φ p.set) (clean p.pts) = (block pts.length p.set (clean p.pts)).map (LP.recol φ) := by
      unfold block; rw [List.map_map]; rfl
    show store (if p.big then pts.map (LP.recol φ) ++ block (pts.map (LP.recol φ)).length (φ p.set) (clean p.pts) else pts.map (LP.recol φ)) _ = _
    rw [List.length_map, hb, ← List.map_append, ← apply_ite (List.map (LP.recol φ)), ih]
    rfl

theorem lpOf_recol (φ : BSet → BSet) {pts : List LP} (h : pts ≠ []) : lpOf (pts.map (LP.recol φ)) = fun i => (lpOf pts i).recol φ := by
  funext i
  unfold lpOf
  cases pts with
  | nil => exact absurd rfl h
  | cons a l => exact List.getD_map (l := a :: l) a (LP.recol φ)

theorem start_recol (φ : BSet → BSet) (lp : Nat → LP) (n : Nat) : Clip.start (fun i => (lp i).recol φ) n = (Clip.start lp n).recol φ := rfl

/-- The first pass gives the same pieces, in the other sets. -/
theorem pass_exchanged {r : Nat → Bool × Bool} {pos : Clip → Nat → Nat} (hb : (realEnv id r pos).Blind) {ps : List Poly} {f f' : Clip} {B B' : List Bent}
    (h : Pass r pos (store [] ps) f B) (h' : Pass r pos (store [] (exchanged ps)) f' B') : (tagged B').Perm ((tagged B).map fun t => (other t.1, t.2)) := by
  have hs : store [] (exchanged ps) = (store [] ps).map (LP.recol other) := store_recol other ps []
  rw [hs] at h'
  generalize store [] ps = pts at h h'
  have hl : (f'.lines.map fun l => (l.set, l.p, l.q)) = (f.lines.map fun l => (l.set, l.p, l.q)).map fun t => (other t.1, t.2) := by
    obtain ⟨N, s, e1, e2⟩ := h.ends
    obtain ⟨N', s', e1', e2'⟩ := h'.ends
    by_cases hn : pts = []
    · subst hn
      have a : f = s := by
        have := e2 (N + 1) (by omega)
        have hs : s = Clip.start (lpOf []) 0 := by
          have : some s = some (Clip.start (lpOf []) 0) := e1.symm
          simpa using this
        subst hs
        have h0 : sweep1 (realEnv id r pos) (N + 1) (Clip.start (lpOf []) 0) = .ok (Clip.start (lpOf []) 0) := rfl
        rw [h0] at this
        injection this with this
        exact this.symm
      have a' : f' = s' := by
        have := e2' (N' + 1) (by omega)
        have hs : s' = Clip.start (lpOf []) 0 := by
          have : some s' = some (Clip.start (lpOf []) 0) := e1'.symm
          simpa using this
        subst hs
        have h0 : sweep1 (realEnv id r pos) (N' + 1) (Clip.start (lpOf []) 0) = .ok (Clip.start (lpOf []) 0) := rfl
        rw [h0] at this
        injection this with this
        exact this.symm
      have hs : s = Clip.start (lpOf []) 0 := by
        have : some s = some (Clip.start (lpOf []) 0) := e1.symm
        simpa using this
      have hs' : s' = Clip.start (lpOf []) 0 := by
        have : some s' = some (Clip.start (lpOf []) 0) := e1'.symm
        simpa using this
      rw [a, a', hs, hs']
      rfl
    · rw [lpOf_recol other hn, List.length_map, start_recol, Clip.addLines_recol, e1] at e1'
      have hs' : s.recol other = s' := by simpa using e1'
      have k := sweep1_recol other hb (max N N') s
      rw [e2 _ (le_max_left _ _), hs'] at k
      have k : sweep1 (realEnv id r pos) (max N N') s' = .ok (f.recol other) := k
      rw [e2' _ (le_max_right _ _)] at k
      injection k with k
      rw [k]
      unfold Clip.lines
      rw [List.map_map, List.map_map, List.map_map]
      rfl
  exact h'.bent.symm.trans (by rw [hl]; exact h.bent.map _)

theorem exchanged_wind {B B' : List Bent} (h : (tagged B').Perm ((tagged B).map fun t => (other t.1, t.2))) (k : BSet) (x y : ℚ) :
    wind (piecesOf B' k) x y = wind (piecesOf B (other k)) x y := by
  rw [piecesOf_tagged, piecesOf_tagged]
  refine wind_perm (((h.filter _).map _).trans ?_) x y
  rw [List.filter_map, List.map_map]
  have : ((fun t : BSet × Pt × Pt => decide (t.1 = k)) ∘ fun t : BSet × Pt × Pt => (other t.1, t.2)) = fun t : BSet × Pt × Pt => decide (t.1 = other k) := by
    funext t
    obtain ⟨k', e⟩ := t
    cases k <;> cases k' <;> rfl
  rw [this]
  exact List.Perm.refl _

theorem exchanged_off {B B' : List Bent} (h : (tagged B').Perm ((tagged B).map fun t => (other t.1, t.2))) {x y : ℚ} (ho : Off (B.flatMap Bent.pieces) x y) :
    Off (B'.flatMap Bent.pieces) x y := by
  rw [pieces_tagged] at ho ⊢
  intro e he
  refine ho e ?_
  have := ((h.map Prod.snd).mem_iff (a := e)).mp he
  rw [List.map_map] at this
  exact this

theorem fine_exchanged (ps : List Poly) : ∀ b, Fine b ps → Fine b (exchanged ps) := by
  induction ps with
  | nil => intro b h; exact h
  | cons p ps ih => intro b h; exact ⟨h.1, ih _ h.2⟩

section
variable {G : Type} {P : Params G} {r : Nat → Bool × Bool} {pos : Clip → Nat → Nat} {c : Clipper G} (hP : P.env1 c.rgen = realEnv id r pos)
  (hpos : PosOk (realEnv id r pos)) (hc : Empty c)

include hP hpos hc in
/-- **C71 (areas of results).** All operations are run on the same polygons with the same random numbers, and the difference is also run with subjects
and clips exchanged. No area is negative; the area of the exclusive or is the sum of the areas of the two differences; the area of the
intersection is at most that of the union, and this is at most the sum of those of the exclusive or and the intersection. Rounded points change nothing about this. -/
theorem C71_results (hb : (realEnv id r pos).Blind) {ps : List Poly} (hf : Fine none ps) (log : List TCall) :
    ∃ N, ∃ out : BoolOp → List (List Pt), ∃ dif, (∀ op, ∃ st, ∀ fuel ≥ N, run P fuel (ps.map Poly.cmd ++ [.exec op false]) (c, log) =
        .ok (st, List.replicate ps.length none ++ [some ⟨out op, none⟩])) ∧
      (∃ st, ∀ fuel ≥ N, run P fuel ((exchanged ps).map Poly.cmd ++ [.exec .difference false]) (c, log) =
        .ok (st, List.replicate ps.length none ++ [some ⟨dif, none⟩])) ∧
      (∀ op, 0 ≤ areaOf (out op)) ∧ areaOf (out .xor) = areaOf (out .difference) + areaOf dif ∧
      areaOf (out .intersection) ≤ areaOf (out .union) ∧ areaOf (out .union) ≤ areaOf (out .xor) + areaOf (out .intersection) := by
  obtain ⟨f, B, h1, -, -⟩ := box_pass r pos ps
  obtain ⟨f', B', h1', -, -⟩ := box_pass r pos (exchanged ps)
  choose N st out h4 h5 using fun op => run_core hP hpos hc hf h1 op log
  obtain ⟨N', st', dif, h4', h5'⟩ := run_core hP hpos hc (fine_exchanged ps none hf) h1' .difference log
  have hperm := pass_exchanged hb h1 h1'
  let ops : List BoolOp := [.union, .intersection, .xor, .difference, .normalize]
  have hops : ∀ op : BoolOp, op ∈ ops := by intro op; cases op <;> decide
  obtain ⟨a1, -, a3, a4⟩ := areas_of fun op => (h5 op).toShape
  refine ⟨(ops.map N).sum + N', out, dif, fun op => ⟨st op, fun fuel hfu => h4 op fuel (le_trans ?_ (le_trans (Nat.le_add_right _ N') hfu))⟩,
    ⟨st', fun fuel hfu => ?_⟩, a1, ?_, a3, a4⟩
  · exact List.single_le_sum (by simp) _ (List.mem_map.mpr ⟨op, hops op, rfl⟩)
  · rw [h4' fuel (by omega)]
    unfold exchanged
    rw [List.length_map]
  · rw [← area_append]
    refine area_same (B.flatMap Bent.pieces) fun x y ho => ?_
    rw [wind_polys, (h5 _).wind x y ho, (h5 _).wind x y ho, h5'.wind x y (exchanged_off hperm ho), exchanged_wind hperm, exchanged_wind hperm]
    simp only [region, other]
    split_ifs <;> omega

theorem given_edges (ps : List Poly) (k : BSet) : (given ps k).flatMap edges = edgesOf ps k := by
  unfold given edgesOf
  rw [List.flatMap_map]

include hP hpos hc in
/-- **C71 (areas given and returned).** If edges that are not parallel only meet at integer points and neither the subjects nor the clips overlap among themselves,
the areas of the difference and the intersection sum up to the area of the subjects, and the areas of the union and the intersection to the area of all polygons given;
the area of the exclusive or is that of all polygons given less twice that of the intersection. -/
theorem C71_exact {ps : List Poly} (hf : Fine none ps) (hE : Lattice (allEdges ps)) (hs : ∀ k, Plain ps k) (log : List TCall) :
    ∃ N, ∃ out : BoolOp → List (List Pt), (∀ op, ∃ st, ∀ fuel ≥ N, run P fuel (ps.map Poly.cmd ++ [.exec op false]) (c, log) =
        .ok (st, List.replicate ps.length none ++ [some ⟨out op, none⟩])) ∧
      areaOf (out .difference) + areaOf (out .intersection) = areaOf (given ps .subject) ∧
      areaOf (out .union) + areaOf (out .intersection) = areaOf (given ps .subject) + areaOf (given ps .clip) ∧
      areaOf (out .xor) + 2 * areaOf (out .intersection) = areaOf (given ps .subject) + areaOf (given ps .clip) := by
  choose N st out h4 _ h5 using fun op => C52_exact hP hpos hc hf hE op log
  let ops : List BoolOp := [.union, .intersection, .xor, .difference, .normalize]
  have hops : ∀ op : BoolOp, op ∈ ops := by intro op; cases op <;> decide
  have key : ∀ {A C : List (List Pt)}, (∀ x y, Off (allEdges ps) x y → wind (A.flatMap edges) x y = wind (C.flatMap edges) x y) → areaOf A = areaOf C :=
    fun h => area_same (allEdges ps) h
  refine ⟨(ops.map N).sum, out, fun op => ⟨st op, fun fuel hfu => h4 op fuel (le_trans ?_ hfu)⟩, ?_, ?_, ?_⟩
  · exact List.single_le_sum (by simp) _ (List.mem_map.mpr ⟨op, hops op, rfl⟩)
  · rw [← area_append]
    refine key fun x y ho => ?_
    rw [wind_polys, given_edges, h5 _ x y ho, h5 _ x y ho]
    simp only [region]
    rcases hs .subject x y ho with h | h <;> rcases hs .clip x y ho with h' | h' <;> rw [h, h'] <;> decide
  · rw [← area_append, ← area_append]
    refine key fun x y ho => ?_
    rw [wind_polys, wind_polys, given_edges, given_edges, h5 _ x y ho, h5 _ x y ho]
    simp only [region]
    rcases hs .subject x y ho with h | h <;> rcases hs .clip x y ho with h' | h' <;> rw [h, h'] <;> decide
  · rw [two_mul, ← area_append, ← area_append, ← area_append]
    refine key fun x y ho => ?_
    rw [wind_polys, wind_polys, wind_polys, given_edges, given_edges, h5 _ x y ho, h5 _ x y ho]
    simp only [region]
    rcases hs .subject x y ho with h | h <;> rcases hs .clip x y ho with h' | h' <;> rw [h, h'] <;> decide

end

section
variable (g : Nat → Bool × Bool) (o : Pt) {ps : List Poly} (hf : Fine none ps) (hsq : ∀ p ∈ ps, ∀ v ∈ p.pts, InSq o 90000 v)

include hf hsq in
/-- **C71 with doubles.** For polygons in a square with side 90000, when all operations return. -/
theorem C71_double (log : List TCall) (fuel : Nat)
    (hret : ∀ op, run libDouble fuel (ps.map Poly.cmd ++ [.exec op false]) (Clipper.fresh g, log) ≠ .fuel) :
    ∃ out : BoolOp → List (List Pt), (∀ op, ∃ st, run libDouble fuel (ps.map Poly.cmd ++ [.exec op false]) (Clipper.fresh g, log) =
        .ok (st, List.replicate ps.length none ++ [some ⟨out op, none⟩])) ∧
      (∀ op, 0 ≤ areaOf (out op)) ∧ areaOf (out .difference) ≤ areaOf (out .xor) ∧ areaOf (out .intersection) ≤ areaOf (out .union) ∧
      areaOf (out .union) ≤ areaOf (out .xor) + areaOf (out .intersection) := by
  obtain ⟨B, -, -, h⟩ := C59_double g o hf hsq
  choose st out e1 e2 using fun op => (h op log fuel).resolve_left (hret op)
  exact ⟨out, fun op => ⟨st op, e1 op⟩, areas_of e2⟩

end

/-- **C71 (growing).** Growing a convex polygon that winds at most once around each place does not make its area smaller, if no side added is bent at so many points `K` that
`arc² / (2 m) + 3/4 + 3/2 K` reaches `m`. -/
theorem C71_grown {G : Type} {P : Params G} {r : Nat → Bool × Bool} {pos : Clip → Nat → Nat} {g : G} (hP : P.env1 g = realEnv id r pos)
    (hpos : PosOk (realEnv id r pos)) {m : ℝ} (hm0 : 0 < m) {arc : Int} (ha : 0 < arc) (hm : 4 * (arc : ℝ) ≤ 3 * m) {pt : Bool} {l z : List Pt}
    (h : emitted m arc true l = some z) (hc : Convex m l) (hf : Fine none (added pt [z])) (hl : ∀ x y, Off (edges l) x y → wind (edges l) x y ≤ 1) :
    ∃ (B : List Bent) (N : Nat) (st : Clipper G × List TCall) (out : List (List Pt)), B.map (fun b => (b.set, b.edge)) = inEdges (added pt [z]) ∧
      (∀ fuel ≥ N, Offset.offset P fuel g pt m arc true false [l] = .ok (st, ⟨out, none⟩)) ∧
      ∀ K : Nat, (∀ b ∈ B, b.via.length ≤ K) → 0 < m - (arc : ℝ) ^ 2 / (2 * m) - 3 / 4 - 3 / 2 * K → windingDir l ≤ areaOf out := by
  obtain ⟨B, N, st, out, h1, h2, h3, h4⟩ := offset_added (pt := pt) hP hpos (.cons h .nil) hf
  refine ⟨B, N, st, out, h1, h2, fun K hK hpos => ?_⟩
  have e : windingDir l = areaOf [l] := by simp [areaOf]
  rw [e]
  refine area_mono (edges l ++ B.flatMap Bent.pieces) fun x y ho => ?_
  obtain ⟨o1, o2⟩ := Off.append.mp ho
  show wind (edges l ++ []) x y ≤ _
  rw [List.append_nil]
  rcases lt_or_ge 0 (wind (edges l) x y) with hw | hw
  · obtain ⟨k1, -⟩ := cover_far hm0 ha hm h hc (K := K) (by positivity) (x := x) (y := y)
    push_cast at k1
    obtain ⟨c1, c2⟩ := k1 x y hw ⟨hpos, by simpa using pow_pos hpos 2⟩
    rw [h4 K hK x y (by simpa using c2), if_pos (by simpa using c1)]
    exact hl x y o1
  · refine le_trans hw ?_
    rw [h3.wind x y o2]
    split <;> decide

/-! ### Cases -/

/-- A square winds at most once around each place. -/
theorem square_wind (a b s : Int) (hs : 0 ≤ s) (x y : ℚ) :
    wind (edges [⟨a, b⟩, ⟨a + s, b⟩, ⟨a + s, b + s⟩, ⟨a, b + s⟩]) x y = 0 ∨ wind (edges [⟨a, b⟩, ⟨a + s, b⟩, ⟨a + s, b + s⟩, ⟨a, b + s⟩]) x y = 1 := by
  have h1 : ∀ x y, count (⟨a + s, b⟩, ⟨a + s, b + s⟩) x y = 0 := by
    intro x y; rw [count_cr]; unfold crDir; simp
  have h2 : ∀ x y, count (⟨a, b + s⟩, ⟨a, b⟩) x y = 0 := by
    intro x y; rw [count_cr]; unfold crDir; simp
  have e : wind (edges [⟨a, b⟩, ⟨a + s, b⟩, ⟨a + s, b + s⟩, ⟨a, b + s⟩]) x y = count (⟨a, b⟩, ⟨a + s, b⟩) x y + count (⟨a + s, b + s⟩, ⟨a, b + s⟩) x y := by
    show count _ x y + (count _ x y + (count _ x y + (count _ x y + 0))) = _
    rw [h1, h2]; ring
  rw [e, count_cr, count_cr]
  have k1 : height (⟨a, b⟩, ⟨a + s, b⟩) x = b := by unfold height; simp
  have k2 : height (⟨a + s, b + s⟩, ⟨a, b + s⟩) x = ((b + s : Int) : ℚ) := by unfold height; simp
  rw [k1, k2, crDir_swap ⟨a, b + s⟩ ⟨a + s, b + s⟩]
  have hb : (b : ℚ) ≤ ((b + s : Int) : ℚ) := by exact_mod_cast (by omega : b ≤ b + s)
  have hx : crDir (⟨a, b⟩, ⟨a + s, b⟩) x = crDir (⟨a, b + s⟩, ⟨a + s, b + s⟩) x := rfl
  have hd : crDir (⟨a, b⟩, ⟨a + s, b⟩) x = 0 ∨ crDir (⟨a, b⟩, ⟨a + s, b⟩) x = 1 := by
    unfold crDir
    have : (a : ℚ) ≤ ((a + s : Int) : ℚ) := by exact_mod_cast (by omega : a ≤ a + s)
    simp only
    split_ifs
    · left; rfl
    · right; rfl
    · exfalso; linarith
    · left; rfl
  rw [← hx]
  split_ifs <;> first | omega | (exfalso; linarith)

theorem squares_plain (k : BSet) : Plain squares k := by
  intro x y _
  cases k with
  | subject => exact square_wind 0 0 4 (by decide) x y
  | clip => exact square_wind 2 2 4 (by decide) x y

/-- Two squares that overlap: the areas given are 32 and 32 (twice 16); those returned are 56 for the union, 8 for the intersection, 48 for the
exclusive or and 24 for the difference. -/
example (g : Nat → Bool × Bool) : ∃ N, ∃ out : BoolOp → List (List Pt), (∀ op, ∃ st, ∀ fuel ≥ N, run lib fuel (squares.map Poly.cmd ++ [.exec op false]) (Clipper.fresh g, []) =
        .ok (st, List.replicate squares.length none ++ [some ⟨out op, none⟩])) ∧
      areaOf (out .difference) + areaOf (out .intersection) = areaOf (given squares .subject) ∧
      areaOf (out .union) + areaOf (out .intersection) = areaOf (given squares .subject) + areaOf (given squares .clip) ∧
      areaOf (out .xor) + 2 * areaOf (out .intersection) = areaOf (given squares .subject) + areaOf (given squares .clip) :=
  C71_exact (P := lib) (c := Clipper.fresh g) rfl (takeWhile_posOk id g) (fresh_empty g) (by decide +kernel)
    (axis_lattice (by intro e he; unfold Axis; revert e; decide +kernel)) squares_plain []

example : areaOf (given squares .subject) = 32 ∧ areaOf (given squares .clip) = 32 ∧
    [BoolOp.union, .intersection, .xor, .difference].map (fun op => (outOf (run lib 100 (squares.map Poly.cmd ++ [.exec op false]) (Clipper.fresh gen, []))).map areaOf) =
      [some 56, some 8, some 48, some 24] := by decide +kernel

/-- Two triangles whose sides cross at places that are not integer: points are rounded, and the areas returned still add up. -/
def slanted : List Poly := [⟨.subject, false, [⟨0, 0⟩, ⟨10, 3⟩, ⟨4, 9⟩]⟩, ⟨.clip, false, [⟨1, 5⟩, ⟨9, 0⟩, ⟨8, 8⟩]⟩]

example (g : Nat → Bool × Bool) : ∃ N, ∃ out : BoolOp → List (List Pt), ∃ dif, (∀ op, ∃ st, ∀ fuel ≥ N, run lib fuel (slanted.map Poly.cmd ++ [.exec op false]) (Clipper.fresh g, []) =
        .ok (st, List.replicate slanted.length none ++ [some ⟨out op, none⟩])) ∧
      (∃ st, ∀ fuel ≥ N, run lib fuel ((exchanged slanted).map Poly.cmd ++ [.exec .difference false]) (Clipper.fresh g, []) =
        .ok (st, List.replicate slanted.length none ++ [some ⟨dif, none⟩])) ∧
      (∀ op, 0 ≤ areaOf (out op)) ∧ areaOf (out .xor) = areaOf (out .difference) + areaOf dif ∧
      areaOf (out .intersection) ≤ areaOf (out .union) ∧ areaOf (out .union) ≤ areaOf (out .xor) + areaOf (out .intersection) :=
  C71_results (P := lib) (c := Clipper.fresh g) rfl (takeWhile_posOk id g) (fresh_empty g) (lib_blind.env1 g) (by decide +kernel) []

end PolyOps.Exec
