import Verif.Lemmas.Grow
import Verif.Props.OffsetFar

/-! C62: growing keeps what is inside, shrinking adds nothing outside. -/
namespace PolyOps.Exec
open PolyOps PolyOps.Sweep PolyOps.Region PolyOps.Planarity PolyOps.Loops PolyOps.PointSink PolyOps.Clipper PolyOps.Double

/-! ### Specification -/

/-- Consecutive triples of a list. -/
def triples : List Pt → List (Pt × Pt × Pt)
  | a :: b :: c :: l => (a, b, c) :: triples (b :: c :: l)
  | _ => []

/-- The cornersOf of a closed polygon. -/
def cornersOf : List Pt → List (Pt × Pt × Pt)
  | p :: q :: l => triples (p :: q :: l ++ [p, q])
  | _ => []

/-- A polygon without points that repeat the one before, also at the end. -/
def tidy : List Pt → List Pt
  | [] => []
  | p :: l => if (p :: Offset.dedup p l).getLast? = some p ∧ Offset.dedup p l ≠ [] then (p :: Offset.dedup p l).dropLast else p :: Offset.dedup p l

/-- No corner turns right (for negative `m`: left). -/
def Rounded (m : ℝ) (l : List Pt) : Prop := ∀ t ∈ cornersOf (tidy l), 0 ≤ sgn m * turn t.1 t.2.1 t.2.2

/-! ### Proof -/

theorem tri_triples : ∀ W : List (Pt × Int), (Offset.tri W).map (fun t => (t.1.1, t.2.1.1, t.2.2)) = triples (W.map Prod.fst)
  | [] => rfl
  | [_] => rfl
  | [_, _] => rfl
  | a :: b :: c :: l => by
    have := tri_triples (b :: c :: l)
    simp only [Offset.tri, List.map_cons, triples] at this ⊢
    rw [this]

theorem triples_steps : ∀ W : List Pt, Offset.Steps W → ∀ t ∈ triples W, t.1 ≠ t.2.1 ∧ t.2.1 ≠ t.2.2
  | [], _, t, ht => by simp [triples] at ht
  | [_], _, t, ht => by simp [triples] at ht
  | [_, _], _, t, ht => by simp [triples] at ht
  | a :: b :: c :: l, h, t, ht => by
    obtain ⟨h1, h2⟩ := List.isChain_cons_cons.mp h
    unfold triples at ht
    rcases List.mem_cons.mp ht with rfl | ht
    · exact ⟨h1, (List.isChain_cons_cons.mp h2).1⟩
    · exact triples_steps (b :: c :: l) h2 t ht

/-- The gaps between a closed polygon and what is emitted for it. -/
theorem emitted_gaps {m : ℝ} {arc : Int} (ha : 0 < arc) {p : Pt} {l z : List Pt} (hl : ∃ x ∈ l, x ≠ p) (h : emitted m arc true (p :: l) = some z) :
    ∃ G : List Gap, ∃ T : List ((Pt × Int) × (Pt × Int) × Pt), List.Forall₂ (Gap.Of m arc) T G ∧
      T.map (fun t => (t.1.1, t.2.1.1, t.2.2)) = cornersOf (tidy (p :: l)) ∧ (∀ t ∈ cornersOf (tidy (p :: l)), t.1 ≠ t.2.1 ∧ t.2.1 ≠ t.2.2) ∧ edges z = G.flatMap Gap.sides ∧
      ∀ x y, wind (edges z) x y = wind (edges (p :: l)) x y + (G.map fun g => g.strip x y + g.fan x y).sum := by
  obtain ⟨r, hr, rfl⟩ := Option.map_eq_some_iff.mp (show (Offset.emitClosed m arc 0 p l).map _ = some z from h)
  obtain ⟨e, i⟩ := r
  dsimp only
  obtain ⟨e1, i1, e', i', h1, h2, h3, -⟩ := Offset.C38_closed_points (m := m) ha 0 p l hl
  rw [h1] at hr
  simp only [Option.some.injEq, Prod.mk.injEq] at hr
  obtain ⟨rfl, rfl⟩ := hr
  rw [h3]
  have hst := Offset.dedup_steps l p
  have hw := fun x y => (dedup_walk l p p x y).1
  have htd : tidy (p :: l) = if (p :: Offset.dedup p l).getLast? = some p ∧ Offset.dedup p l ≠ [] then (p :: Offset.dedup p l).dropLast else p :: Offset.dedup p l := rfl
  cases hd : Offset.dedup p l with
  | nil =>
    exfalso
    obtain ⟨x, hx, hxp⟩ := hl
    exact hxp (dedup_nil l p hd x hx)
  | cons q k =>
    rw [hd] at h2 hst hw htd
    have hpq : p ≠ q := (List.isChain_cons_cons.mp hst).1
    by_cases hr : (p :: q :: k).getLast? = some p
    · rw [if_pos ⟨hr, by simp⟩] at htd
      obtain ⟨e2, g1, g2⟩ := Offset.C38_closed_repeat (m := m) ha 0 p q k hst hr
      rw [g1] at h2
      simp only [Option.some.injEq, Prod.mk.injEq] at h2
      obtain ⟨rfl, -⟩ := h2
      rcases List.eq_nil_or_concat k with rfl | ⟨M, p', rfl⟩
      · simp at hr; exact absurd hr hpq.symm
      have hp' : p' = p := by simpa [List.getLast?_cons] using hr
      subst hp'
      have hW : (Offset.tag 0 1 (p' :: q :: (M ++ [p'])) ++ [(q, 0 + 1)]).map Prod.fst = p' :: q :: (M ++ [p', q]) := by
        rw [List.map_append, tag_fst]; simp
      have ht : tidy (p' :: l) = p' :: q :: M := by
        rw [htd]
        have : p' :: q :: (M ++ [p']) = (p' :: q :: M) ++ [p'] := by simp
        rw [List.concat_eq_append, this, List.dropLast_concat]
      rw [List.concat_eq_append] at g2 hw hst
      obtain ⟨G, G1, G0, G2⟩ := closed_gaps g2 hW
      have hc : (Offset.tri (Offset.tag 0 1 (p' :: q :: (M ++ [p'])) ++ [(q, 0 + 1)])).map (fun t => (t.1.1, t.2.1.1, t.2.2)) = cornersOf (tidy (p' :: l)) := by
        rw [tri_triples, hW, ht]; rfl
      refine ⟨G, _, G1, hc, fun t h => ?_, G0, fun x y => ?_⟩
      · rw [ht] at h
        refine triples_steps (p' :: q :: M ++ [p', q]) ?_ t h
        have e : p' :: q :: M ++ [p', q] = (p' :: q :: (M ++ [p'])) ++ [q] := by simp
        rw [e]
        refine List.isChain_append.mpr ⟨hst, by simp, fun a ha b hb => ?_⟩
        simp [List.getLast?_cons] at ha hb
        rw [← ha, ← hb]; exact hpq
      · rw [G2]
        congr 1
        have e1 := hw x y
        show _ = wind (walk p' (l ++ [p'])) x y
        rw [← e1]
        show wind (walk p' (q :: M ++ [p'])) x y = _
        have e2 : q :: (M ++ [p']) ++ [p'] = (q :: M) ++ p' :: [p'] := by simp
        have e3 : wind (walk p' [p']) x y = 0 := by simp [walk, wind, count_self]
        rw [e2, walk_append p' p' (q :: M) [p'], wind_append, e3, add_zero]
    · rw [if_neg (by tauto)] at htd
      obtain ⟨e2, g1, g2⟩ := Offset.C38_closed_partial (m := m) ha 0 p q k hst hr
      rw [g1] at h2
      simp only [Option.some.injEq, Prod.mk.injEq] at h2
      obtain ⟨rfl, -⟩ := h2
      have hW : (Offset.tag 0 1 (p :: q :: k) ++ [(p, 0), (q, 0 + 1)]).map Prod.fst = p :: q :: (k ++ [p, q]) := by
        rw [List.map_append, tag_fst]; simp
      obtain ⟨G, G1, G0, G2⟩ := closed_gaps g2 hW
      refine ⟨G, _, G1, by rw [tri_triples, hW, htd]; rfl, fun t h => ?_, G0, fun x y => ?_⟩
      · rw [htd] at h
        refine triples_steps (p :: q :: k ++ [p, q]) ?_ t h
        refine List.isChain_append.mpr ⟨hst, by simpa using hpq, fun a ha b hb => ?_⟩
        simp at hb
        subst hb
        intro c
        subst c
        exact hr ha
      · rw [G2]
        congr 1
        exact hw x y

theorem forall₂_left {α β : Type} {R : α → β → Prop} : ∀ {l : List α} {k : List β}, List.Forall₂ R l k → ∀ a ∈ l, ∃ b ∈ k, R a b
  | _, _, .nil, b, hb => by simp at hb
  | a :: l, c :: k, .cons h t, b, hb => by
    rcases List.mem_cons.mp hb with rfl | hb
    · exact ⟨c, by simp, h⟩
    · obtain ⟨a', h1, h2⟩ := forall₂_left t b hb
      exact ⟨a', by simp [h1], h2⟩

theorem sum_le {α : Type} (f : α → Int) : ∀ (l : List α), (∀ a ∈ l, 0 ≤ f a) → 0 ≤ (l.map f).sum ∧ ∀ a ∈ l, f a ≤ (l.map f).sum
  | [], _ => by simp
  | b :: l, h => by
    obtain ⟨h1, h2⟩ := sum_le f l fun a ha => h a (by simp [ha])
    have hb := h b (by simp)
    rw [List.map_cons, List.sum_cons]
    refine ⟨by omega, fun a ha => ?_⟩
    rcases List.mem_cons.mp ha with rfl | ha
    · omega
    · have := h2 a ha; omega

/-- **C62 (one polygon).** If no corner of a closed polygon turns right, then the polygon that growing it adds winds at least as often around every place. If
no corner turns left, then the polygon that shrinking it adds winds at most as often. -/
theorem C62_grow_partial {m : ℝ} {arc : Int} (ha : 0 < arc) (hm : 4 * (arc : ℝ) ≤ 3 * |m|) {p : Pt} {l z : List Pt} (hl : ∃ x ∈ l, x ≠ p)
    (h : emitted m arc true (p :: l) = some z) (hr : Rounded m (p :: l)) (x y : Rat) : sgn m * wind (edges (p :: l)) x y ≤ sgn m * wind (edges z) x y := by
  obtain ⟨G, T, h1, h2, h3, -, h4⟩ := emitted_gaps ha hl h
  rw [h4, mul_add, ← List.sum_map_mul_left]
  have := (sum_le (fun g : Gap => sgn m * (g.strip x y + g.fan x y)) G fun g hg => ?_).1
  · linarith
  · obtain ⟨t, ht, hg'⟩ := forall₂_right h1 g hg
    have hc : (t.1.1, t.2.1.1, t.2.2) ∈ cornersOf (tidy (p :: l)) := by rw [← h2]; exact List.mem_map.mpr ⟨t, ht, rfl⟩
    have := gap_sign ha hm hg' (h3 _ hc).1 (h3 _ hc).2 (hr _ hc) x y
    rw [mul_add]
    linarith

theorem grow_all {m : ℝ} {arc : Int} (ha : 0 < arc) (hm : 4 * (arc : ℝ) ≤ 3 * |m|) {ls Z : List (List Pt)} (hZ : List.Forall₂ (fun l z => emitted m arc true l = some z) ls Z)
    (hr : ∀ l ∈ ls, Rounded m l ∧ ∃ a ∈ l, ∃ b ∈ l, a ≠ b) (x y : Rat) : sgn m * wind (ls.flatMap edges) x y ≤ sgn m * wind (Z.flatMap edges) x y := by
  induction hZ with
  | nil => exact le_rfl
  | @cons l z ls Z h ht ih =>
    have i1 := ih fun k hk => hr k (by simp [hk])
    obtain ⟨h1, a, ha', b, hb, hab⟩ := hr l (by simp)
    rw [List.flatMap_cons, List.flatMap_cons, wind_append, wind_append, mul_add, mul_add]
    cases l with
    | nil => simp at ha'
    | cons p l =>
      have : ∃ x ∈ l, x ≠ p := by
        by_contra c
        push Not at c
        have e : ∀ w ∈ p :: l, w = p := by
          intro w hw
          rcases List.mem_cons.mp hw with rfl | hw
          · rfl
          · exact c w hw
        exact hab ((e a ha').trans (e b hb).symm)
      exact add_le_add (C62_grow_partial ha hm this h h1 x y) i1

/-- What `offset` returns in terms of the polygons it adds. -/
theorem offset_added {G : Type} {P : Params G} {r : Nat → Bool × Bool} {pos : Clip → Nat → Nat} {g : G} (hP : P.env1 g = realEnv id r pos)
    (hpos : PosOk (realEnv id r pos)) {m : ℝ} {arc : Int} {closed pt : Bool} {ls Z : List (List Pt)}
    (hZ : List.Forall₂ (fun l z => emitted m arc closed l = some z) ls Z) (hf : Fine none (added pt Z)) :
    ∃ (B : List Bent) (N : Nat) (st : Clipper G × List TCall) (out : List (List Pt)), B.map (fun b => (b.set, b.edge)) = inEdges (added pt Z) ∧
      (∀ fuel ≥ N, Offset.offset P fuel g pt m arc closed false ls = .ok (st, ⟨out, none⟩)) ∧ Result .union B out ∧
      ∀ K : Nat, (∀ b ∈ B, b.via.length ≤ K) → ∀ x y, (∀ d ∈ Z.flatMap edges, FarFrom K d x y) →
        wind (out.flatMap edges) x y = if 0 < wind (Z.flatMap edges) x y then 1 else 0 := by
  obtain ⟨f, B, h1, h2, h3⟩ := box_pass r pos (added pt Z)
  obtain ⟨tr, n, hadd⟩ := add_all (pt := pt) ls Z [] [] 0 hZ hf
  obtain ⟨N, st, out, e1, e2⟩ := exec_core (P := P) (c := { Clipper.fresh g with pts := store [] (added pt Z), nextOrig := n }) hP hpos rfl rfl rfl rfl
    (good_store _ good_nil) h1 .union (tr.map .added)
  refine ⟨B, N, st, out, h2, fun fuel hN => ?_, e2, fun K hK x y hxy => ?_⟩
  · unfold Offset.offset
    rw [hadd]
    exact e1 fuel hN
  · have k1 : edgesOf (added pt Z) .subject = Z.flatMap edges := by
      unfold edgesOf added
      rw [List.filter_eq_self.mpr (by simp), List.flatMap_map]
    have k2 : edgesOf (added pt Z) .clip = [] := by
      unfold edgesOf added
      rw [List.filter_eq_nil_iff.mpr (by simp)]; rfl
    rw [e2.straight h2 fun b hb => ?_, k1, k2]
    · show (if region .union (wind (Z.flatMap edges) x y) 0 then (1 : Int) else 0) = _
      unfold region
      simp
    · have hle : ((b.via.length : Nat) : Rat) ≤ K := by exact_mod_cast hK b hb
      refine bent_far (by positivity) (fun p hp => (h1.near b hb p hp).mono hle) (hxy b.edge ?_)
      have hm : (b.set, b.edge) ∈ inEdges (added pt Z) := by rw [← h2]; exact List.mem_map.mpr ⟨b, hb, rfl⟩
      obtain ⟨q, hq, -, hd⟩ := inEdges_mem hm
      obtain ⟨z, hz, rfl⟩ := List.mem_map.mp hq
      exact List.mem_flatMap.mpr ⟨z, hz, hd⟩

/-- **C62 (what `offset` returns, partial).** Growing polygons without right turns returns; around each place that they wind around, the result winds once.
Shrinking polygons without left turns returns; the result does not wind around places that they do not wind around. This is about places that differ by more
than `K` in a coordinate from those on the polygons added, if the sides of these are bent at no more than `K` points each. Not true for other polygons:
`C62_shrink_wrong`, `C62_grow_wrong`. -/
theorem C62_offset_partial {G : Type} {P : Params G} {r : Nat → Bool × Bool} {pos : Clip → Nat → Nat} {g : G} (hP : P.env1 g = realEnv id r pos)
    (hpos : PosOk (realEnv id r pos)) {m : ℝ} {arc : Int} (ha : 0 < arc) (hm : 4 * (arc : ℝ) ≤ 3 * |m|) {pt : Bool} {ls Z : List (List Pt)}
    (hZ : List.Forall₂ (fun l z => emitted m arc true l = some z) ls Z) (hr : ∀ l ∈ ls, Rounded m l ∧ ∃ a ∈ l, ∃ b ∈ l, a ≠ b) (hf : Fine none (added pt Z)) :
    ∃ (B : List Bent) (N : Nat) (st : Clipper G × List TCall) (out : List (List Pt)), B.map (fun b => (b.set, b.edge)) = inEdges (added pt Z) ∧
      (∀ fuel ≥ N, Offset.offset P fuel g pt m arc true false ls = .ok (st, ⟨out, none⟩)) ∧
      ∀ K : Nat, (∀ b ∈ B, b.via.length ≤ K) → ∀ x y, (∀ d ∈ Z.flatMap edges, FarFrom K d x y) →
        (0 < m → 0 < wind (ls.flatMap edges) x y → wind (out.flatMap edges) x y = 1) ∧
        (m < 0 → wind (ls.flatMap edges) x y ≤ 0 → wind (out.flatMap edges) x y = 0) := by
  obtain ⟨B, N, st, out, h1, h2, -, h4⟩ := offset_added (pt := pt) hP hpos hZ hf
  refine ⟨B, N, st, out, h1, h2, fun K hK x y hxy => ?_⟩
  have hw := grow_all ha hm hZ hr x y
  rw [h4 K hK x y hxy]
  rcases sgn_cases m with ⟨s1, s2⟩ | ⟨s1, s2⟩
  · rw [s2] at hw
    exact ⟨fun h => absurd h (by linarith), fun _ h => if_neg (by omega)⟩
  · rw [s2] at hw
    exact ⟨fun _ h => if_pos (by omega), fun h => absurd h (by linarith)⟩

/-- A clockwise square: what an inset by 5 does to a hole. -/
def hole : List Pt := [⟨0, 0⟩, ⟨0, 100⟩, ⟨100, 100⟩, ⟨100, 0⟩]

/-- The hypotheses on the polygon are met, for outsetting a square and for insetting a hole. -/
example : Rounded 5 inSquare ∧ Rounded (-5) hole ∧ 4 * ((3 : Int) : ℝ) ≤ 3 * |(5 : ℝ)| ∧ (∃ z, emitted 5 3 true inSquare = some z) ∧ ∃ z, emitted (-5) 3 true hole = some z := by
  have h1 : sgn 5 = 1 := by unfold sgn; rw [if_neg (by norm_num)]
  have h2 : sgn (-5) = -1 := by unfold sgn; rw [if_pos (by norm_num)]
  refine ⟨?_, ?_, by norm_num, ?_, ?_⟩
  · unfold Rounded; rw [h1]; decide
  · unfold Rounded; rw [h2]; decide
  · obtain ⟨e, i, -, -, h, -⟩ := Offset.C38_closed_points (m := 5) (arc := 3) (by norm_num) 0 ⟨0, 0⟩ [⟨100, 0⟩, ⟨100, 100⟩, ⟨0, 100⟩] ⟨⟨100, 0⟩, by simp, by simp⟩
    exact ⟨e.map Prod.fst, by unfold emitted inSquare; simp [h]⟩
  · obtain ⟨e, i, -, -, h, -⟩ := Offset.C38_closed_points (m := -5) (arc := 3) (by norm_num) 0 ⟨0, 0⟩ [⟨0, 100⟩, ⟨100, 100⟩, ⟨100, 0⟩] ⟨⟨0, 100⟩, by simp, by simp⟩
    exact ⟨e.map Prod.fst, by unfold emitted hole; simp [h]⟩

/-! ### Shrinking by more than the half width -/

/-- A square with side 10. -/
def small : List Pt := [⟨0, 0⟩, ⟨10, 0⟩, ⟨10, 10⟩, ⟨0, 10⟩]

/-- What shrinking it by 20 emits. -/
def smallZ : List (Pt × Int) := [(⟨0, 20⟩, 0), (⟨10, 20⟩, 1), (⟨-10, 0⟩, 1), (⟨-10, 10⟩, 2), (⟨10, -10⟩, 2), (⟨0, -10⟩, 3), (⟨20, 10⟩, 3), (⟨20, 0⟩, 0)]

theorem small_emitted {arc : Int} (ha : 0 < arc) : Offset.emitClosed (-20) arc 0 ⟨0, 0⟩ [⟨10, 0⟩, ⟨10, 10⟩, ⟨0, 10⟩] = some (smallZ, 4) := by
  have a1 := inset_corner (D := 10) (k := 20) (by norm_num) 0 1 (p := ⟨0, 0⟩) (q := ⟨10, 0⟩) (r := ⟨10, 10⟩) (a := 1) (b := 0) (by norm_num) (by norm_num) (by norm_num) (by norm_num) (by decide) ha
  have a2 := inset_corner (D := 10) (k := 20) (by norm_num) 1 2 (p := ⟨10, 0⟩) (q := ⟨10, 10⟩) (r := ⟨0, 10⟩) (a := 0) (b := 1) (by norm_num) (by norm_num) (by norm_num) (by norm_num) (by decide) ha
  have a3 := inset_corner (D := 10) (k := 20) (by norm_num) 2 3 (p := ⟨10, 10⟩) (q := ⟨0, 10⟩) (r := ⟨0, 0⟩) (a := -1) (b := 0) (by norm_num) (by norm_num) (by norm_num) (by norm_num) (by decide) ha
  have a4 := inset_corner (D := 10) (k := 20) (by norm_num) 3 0 (p := ⟨0, 10⟩) (q := ⟨0, 0⟩) (r := ⟨10, 0⟩) (a := 0) (b := -1) (by norm_num) (by norm_num) (by norm_num) (by norm_num) (by decide) ha
  norm_num at a1 a2 a3 a4
  unfold Offset.emitClosed
  simp [Offset.walk, a1, a2, a3, a4, smallZ]

/-- What adding it does. -/
theorem small_added {arc : Int} (ha : 0 < arc) : Offset.addOffsets .subject false (-20) arc true [small] ⟨[], [], 0⟩ =
    (PointSink.addLoop ⟨[], [], 0⟩ .subject false smallZ).map fun c => { c with nextOrig := 4 } := by
  unfold Offset.addOffsets Offset.addOffset small
  dsimp only
  rw [if_pos rfl, small_emitted ha]
  rfl

/-- A test of the loops returned. -/
def probe {α : Type} (o : Out (α × Output)) (f : List (List Pt) → Bool) : Bool := match o with
  | .ok (_, ⟨out, none⟩) => f out
  | _ => false

theorem probe_ok {α : Type} {o : Out (α × Output)} {f : List (List Pt) → Bool} (h : probe o f = true) : ∃ st out, o = .ok (st, ⟨out, none⟩) ∧ f out = true := by
  match o, h with
  | .ok (st, ⟨out, none⟩), h => exact ⟨st, out, rfl, h⟩

/-- **Finding.** Shrinking a square with side 10 by 20 does not remove it: the result winds around places that are outside the square. -/
theorem C62_shrink_wrong {arc : Int} (ha : 0 < arc) : ∃ st out, Offset.offset lib 200 gen false (-20) arc true false [small] = .ok (st, ⟨out, none⟩) ∧
    wind (out.flatMap edges) (-2) 5 = 1 ∧ wind (edges small) (-2) 5 = 0 := by
  unfold Offset.offset
  rw [small_added ha]
  obtain ⟨st, out, h1, h2⟩ := probe_ok (o := (Out.of ((PointSink.addLoop ⟨[], [], 0⟩ .subject false smallZ).map fun c => { c with nextOrig := 4 })).bind fun r =>
    Clipper.execute lib 200 .union false ({ Clipper.fresh gen with pts := r.pts, nextOrig := r.nextOrig }, r.tr.map .added))
    (f := fun out => decide (wind (out.flatMap edges) (-2) 5 = 1)) (by decide +kernel)
  exact ⟨st, out, h1, of_decide_eq_true h2, by decide +kernel⟩

/-! ### Growing with a hole that is too small -/

/-- A line in the direction of an axis, shifted by a whole number, at a corner without arc. -/
theorem shift_corner {D : Int} (hD : 0 < D) (k o1 o2 : Int) {p q r : Pt} {a b : Int} (ha : q.x - p.x = a * D) (hb : q.y - p.y = b * D) (hab : a * a + b * b = 1)
    (n1 : p ≠ q) (n2 : q ≠ r) {arc : Int} (harc : Offset.arcPts (k : ℝ) arc p q r = []) :
    Offset.addOffsetPoint (k : ℝ) arc o1 o2 p q r = some [(⟨p.x + b * k, p.y - a * k⟩, o1), (⟨q.x + b * k, q.y - a * k⟩, o2)] := by
  have hD' : (0 : ℝ) < D := by exact_mod_cast hD
  have hv : Offset.perpVector p q (k : ℝ) = (((b * k : Int) : ℝ), ((-(a * k) : Int) : ℝ)) := by
    have e1 : (q.x : ℝ) - p.x = a * D := by exact_mod_cast ha
    have e2 : (q.y : ℝ) - p.y = b * D := by exact_mod_cast hb
    have hm : Offset.vmag (Offset.vec p q) = D := by
      unfold Offset.vmag Offset.vec
      dsimp only
      rw [e1, e2, show (a : ℝ) * D * (a * D) + b * D * (b * D) = (a * a + b * b : Int) * (D * D) by push_cast; ring, hab]
      rw [Int.cast_one, one_mul, Real.sqrt_mul_self hD'.le]
    rw [Offset.perpVector_eq, hm]
    unfold Offset.vec
    dsimp only
    rw [e1, e2]
    push_cast
    congr 1 <;> field_simp
  unfold Offset.addOffsetPoint
  rw [if_neg (by tauto)]
  dsimp only
  rw [hv, harc]
  unfold Offset.addRound
  dsimp only
  rw [lround_whole, lround_whole]
  simp [sub_eq_add_neg]

/-- With steps that are longer than half a turn there are no points on arcs. -/
theorem no_arc {m : ℝ} {arc : Int} (ha : 0 < arc) (h : 4 * |m| < arc) {p q r : Pt} (h1 : p ≠ q) (h2 : q ≠ r) : Offset.arcPts m arc p q r = [] := by
  have ha' : (0 : ℝ) < arc := by exact_mod_cast ha
  by_cases ho : Offset.Opens m p q r
  · obtain ⟨θ, σ, N, t0, t1, -, -, -, hN, hlen, -⟩ := (Offset.arc_spec ha h1 h2).1 ho
    have : |m| * θ / arc < 1 := by
      rw [div_lt_one ha']
      nlinarith [abs_nonneg m, Real.pi_lt_four]
    have : N = 0 := by rw [hN]; exact Nat.floor_eq_zero.mpr this
    exact List.length_eq_zero_iff.mp (by omega)
  · exact (Offset.arc_spec ha h1 h2).2 ho

/-- A square with side 200 and a hole with side 10. -/
def holed : List (List Pt) := [[⟨0, 0⟩, ⟨200, 0⟩, ⟨200, 200⟩, ⟨0, 200⟩], [⟨95, 95⟩, ⟨95, 105⟩, ⟨105, 105⟩, ⟨105, 95⟩]]

def holedZ1 : List (Pt × Int) := [(⟨0, -20⟩, 0), (⟨200, -20⟩, 1), (⟨220, 0⟩, 1), (⟨220, 200⟩, 2), (⟨200, 220⟩, 2), (⟨0, 220⟩, 3), (⟨-20, 200⟩, 3), (⟨-20, 0⟩, 0)]
def holedZ2 : List (Pt × Int) := [(⟨115, 95⟩, 4), (⟨115, 105⟩, 5), (⟨95, 85⟩, 5), (⟨105, 85⟩, 6), (⟨85, 105⟩, 6), (⟨85, 95⟩, 7), (⟨105, 115⟩, 7), (⟨95, 115⟩, 4)]

theorem holed_emitted : Offset.emitClosed 20 100 0 ⟨0, 0⟩ [⟨200, 0⟩, ⟨200, 200⟩, ⟨0, 200⟩] = some (holedZ1, 4) ∧
    Offset.emitClosed 20 100 4 ⟨95, 95⟩ [⟨95, 105⟩, ⟨105, 105⟩, ⟨105, 95⟩] = some (holedZ2, 8) := by
  have key : ∀ {D : Int}, 0 < D → ∀ (o1 o2 : Int) {p q r : Pt} {a b : Int}, q.x - p.x = a * D → q.y - p.y = b * D → a * a + b * b = 1 → p ≠ q → q ≠ r →
      Offset.addOffsetPoint 20 100 o1 o2 p q r = some [(⟨p.x + b * 20, p.y - a * 20⟩, o1), (⟨q.x + b * 20, q.y - a * 20⟩, o2)] := by
    intro D hD o1 o2 p q r a b e1 e2 e3 n1 n2
    have := shift_corner hD 20 o1 o2 e1 e2 e3 n1 n2 (arc := 100) (no_arc (by norm_num) (by norm_num) n1 n2)
    exact_mod_cast this
  constructor
  · have a1 := key (D := 200) (by norm_num) 0 1 (p := ⟨0, 0⟩) (q := ⟨200, 0⟩) (r := ⟨200, 200⟩) (a := 1) (b := 0) (by norm_num) (by norm_num) (by norm_num) (by decide) (by decide)
    have a2 := key (D := 200) (by norm_num) 1 2 (p := ⟨200, 0⟩) (q := ⟨200, 200⟩) (r := ⟨0, 200⟩) (a := 0) (b := 1) (by norm_num) (by norm_num) (by norm_num) (by decide) (by decide)
    have a3 := key (D := 200) (by norm_num) 2 3 (p := ⟨200, 200⟩) (q := ⟨0, 200⟩) (r := ⟨0, 0⟩) (a := -1) (b := 0) (by norm_num) (by norm_num) (by norm_num) (by decide) (by decide)
    have a4 := key (D := 200) (by norm_num) 3 0 (p := ⟨0, 200⟩) (q := ⟨0, 0⟩) (r := ⟨200, 0⟩) (a := 0) (b := -1) (by norm_num) (by norm_num) (by norm_num) (by decide) (by decide)
    norm_num at a1 a2 a3 a4
    unfold Offset.emitClosed
    simp [Offset.walk, a1, a2, a3, a4, holedZ1]
  · have a1 := key (D := 10) (by norm_num) 4 5 (p := ⟨95, 95⟩) (q := ⟨95, 105⟩) (r := ⟨105, 105⟩) (a := 0) (b := 1) (by norm_num) (by norm_num) (by norm_num) (by decide) (by decide)
    have a2 := key (D := 10) (by norm_num) 5 6 (p := ⟨95, 105⟩) (q := ⟨105, 105⟩) (r := ⟨105, 95⟩) (a := 1) (b := 0) (by norm_num) (by norm_num) (by norm_num) (by decide) (by decide)
    have a3 := key (D := 10) (by norm_num) 6 7 (p := ⟨105, 105⟩) (q := ⟨105, 95⟩) (r := ⟨95, 95⟩) (a := 0) (b := -1) (by norm_num) (by norm_num) (by norm_num) (by decide) (by decide)
    have a4 := key (D := 10) (by norm_num) 7 4 (p := ⟨105, 95⟩) (q := ⟨95, 95⟩) (r := ⟨95, 105⟩) (a := -1) (b := 0) (by norm_num) (by norm_num) (by norm_num) (by decide) (by decide)
    norm_num at a1 a2 a3 a4
    unfold Offset.emitClosed
    simp [Offset.walk, a1, a2, a3, a4, holedZ2]

theorem holed_added : Offset.addOffsets .subject false 20 100 true holed ⟨[], [], 0⟩ =
    ((PointSink.addLoop ⟨[], [], 0⟩ .subject false holedZ1).map fun c => { c with nextOrig := 4 }).bind fun c =>
      (PointSink.addLoop c .subject false holedZ2).map fun c => { c with nextOrig := 8 } := by
  have h1 : Offset.addOffset ⟨[], [], 0⟩ .subject false 20 100 true [⟨0, 0⟩, ⟨200, 0⟩, ⟨200, 200⟩, ⟨0, 200⟩] =
      (PointSink.addLoop ⟨[], [], 0⟩ .subject false holedZ1).map fun c => { c with nextOrig := 4 } := by
    unfold Offset.addOffset
    dsimp only
    rw [if_pos rfl, holed_emitted.1]
    rfl
  unfold Offset.addOffsets holed
  dsimp only
  rw [h1]
  cases PointSink.addLoop ⟨[], [], 0⟩ .subject false holedZ1 with
  | none => rfl
  | some c =>
    simp only [Option.map_some, Option.bind_some]
    unfold Offset.addOffsets Offset.addOffset
    dsimp only
    rw [if_pos rfl, holed_emitted.2]
    unfold Offset.addOffsets
    rw [Option.bind_some]
    dsimp only
    cases PointSink.addLoop { c with nextOrig := 4 } .subject false holedZ2 <;> rfl

/-- **Finding.** Growing a square with a hole with side 10 by 20 does not close the hole but widens it: a place inside the square is outside the result. -/
theorem C62_grow_wrong : ∃ st out, Offset.offset lib 500 gen false 20 100 true false holed = .ok (st, ⟨out, none⟩) ∧
    wind (holed.flatMap edges) 93 100 = 1 ∧ wind (out.flatMap edges) 93 100 = 0 := by
  unfold Offset.offset
  rw [holed_added]
  obtain ⟨st, out, h1, h2⟩ := probe_ok (o := (Out.of (((PointSink.addLoop ⟨[], [], 0⟩ .subject false holedZ1).map fun c => { c with nextOrig := 4 }).bind fun c =>
      (PointSink.addLoop c .subject false holedZ2).map fun c => { c with nextOrig := 8 })).bind fun r =>
    Clipper.execute lib 500 .union false ({ Clipper.fresh gen with pts := r.pts, nextOrig := r.nextOrig }, r.tr.map .added))
    (f := fun out => decide (wind (out.flatMap edges) 93 100 = 0)) (by decide +kernel)
  exact ⟨st, out, h1, by decide +kernel, of_decide_eq_true h2⟩

end PolyOps.Exec
