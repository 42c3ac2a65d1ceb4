import Verif.Lemmas.Deform
import Verif.Props.Offset

/-! Moving the vertices of a polygon by at most some distance. -/
namespace PolyOps.Exec
open PolyOps PolyOps.Sweep PolyOps.Region PolyOps.Planarity

/-! ### Specification -/

/-- Each place of the edge is farther than `R` from `(x, y)`. -/
def Beyond (R : ℝ) (e : Pt × Pt) (x y : Rat) : Prop := ∀ t : ℝ, 0 ≤ t → t ≤ 1 →
  R ^ 2 < ((x : ℝ) - (e.1.x + t * ((e.2.x : ℝ) - e.1.x))) ^ 2 + ((y : ℝ) - (e.1.y + t * ((e.2.y : ℝ) - e.1.y))) ^ 2

/-- The points are at most `R` apart. -/
def Close (R : ℝ) (z o : Pt) : Prop := ((z.x : ℝ) - o.x) ^ 2 + ((z.y : ℝ) - o.y) ^ 2 ≤ R ^ 2

/-! ### A line between -/

/-- The place of a segment that is nearest to a given one. -/
theorem foot (a1 a2 d1 d2 q1 q2 : ℝ) : ∃ s : ℝ, 0 ≤ s ∧ s ≤ 1 ∧ ∀ t : ℝ, 0 ≤ t → t ≤ 1 →
    (q1 - (a1 + s * d1)) * ((t - s) * d1) + (q2 - (a2 + s * d2)) * ((t - s) * d2) ≤ 0 := by
  rcases le_or_gt ((q1 - a1) * d1 + (q2 - a2) * d2) 0 with h | h
  · exact ⟨0, le_rfl, zero_le_one, fun t t0 _ => by nlinarith⟩
  · rcases le_or_gt (d1 ^ 2 + d2 ^ 2) ((q1 - a1) * d1 + (q2 - a2) * d2) with h' | h'
    · exact ⟨1, zero_le_one, le_rfl, fun t t0 t1 => by nlinarith⟩
    · have hd : 0 < d1 ^ 2 + d2 ^ 2 := h.trans h'
      refine ⟨((q1 - a1) * d1 + (q2 - a2) * d2) / (d1 ^ 2 + d2 ^ 2), by positivity, by rw [div_le_one hd]; exact h'.le, fun t _ _ => ?_⟩
      set s := ((q1 - a1) * d1 + (q2 - a2) * d2) / (d1 ^ 2 + d2 ^ 2)
      have e : s * (d1 ^ 2 + d2 ^ 2) = (q1 - a1) * d1 + (q2 - a2) * d2 := div_mul_cancel₀ _ hd.ne'
      have : (q1 - (a1 + s * d1)) * ((t - s) * d1) + (q2 - (a2 + s * d2)) * ((t - s) * d2) =
          (t - s) * ((q1 - a1) * d1 + (q2 - a2) * d2 - s * (d1 ^ 2 + d2 ^ 2)) := by ring
      rw [this, e]; simp

/-- Points that are at most `R` from some place of the edge are on one side of a line through each place that is farther from the edge. -/
theorem beyond_side {R : ℝ} {a b : Pt} {x y : Rat} (h : Beyond R (a, b) x y) : ∃ α β : ℝ, ∀ (c : Pt) (t : ℝ), 0 ≤ t → t ≤ 1 →
    ((c.x : ℝ) - (a.x + t * ((b.x : ℝ) - a.x))) ^ 2 + ((c.y : ℝ) - (a.y + t * ((b.y : ℝ) - a.y))) ^ 2 ≤ R ^ 2 → Side α β x y c := by
  obtain ⟨s, s0, s1, hs⟩ := foot a.x a.y ((b.x : ℝ) - a.x) ((b.y : ℝ) - a.y) x y
  have hR := h s s0 s1
  dsimp only at hR
  refine ⟨(x : ℝ) - (a.x + s * ((b.x : ℝ) - a.x)), (y : ℝ) - (a.y + s * ((b.y : ℝ) - a.y)), fun c t t0 t1 hc => ?_⟩
  have ht := hs t t0 t1
  set u1 := (x : ℝ) - (a.x + s * ((b.x : ℝ) - a.x)) with hu1
  set u2 := (y : ℝ) - (a.y + s * ((b.y : ℝ) - a.y)) with hu2
  set w1 := (c.x : ℝ) - (a.x + t * ((b.x : ℝ) - a.x)) with hw1
  set w2 := (c.y : ℝ) - (a.y + t * ((b.y : ℝ) - a.y)) with hw2
  have k : u1 * w1 + u2 * w2 < u1 ^ 2 + u2 ^ 2 := by
    have := sq_nonneg (u1 - w1)
    have := sq_nonneg (u2 - w2)
    nlinarith
  unfold Side
  have e1 : (c.x : ℝ) = w1 + (t - s) * ((b.x : ℝ) - a.x) + (x - u1) := by rw [hw1, hu1]; ring
  have e2 : (c.y : ℝ) = w2 + (t - s) * ((b.y : ℝ) - a.y) + (y - u2) := by rw [hw2, hu2]; ring
  rw [e1, e2]
  nlinarith

/-! ### Moving vertices -/

/-- Two vertices after one another, each with its original. -/
def Link (x y : Rat) (a b : Pt × Pt) : Prop := ∃ α β : ℝ, Side α β x y a.1 ∧ Side α β x y a.2 ∧ Side α β x y b.1 ∧ Side α β x y b.2

theorem link_count {x y : Rat} {a b : Pt × Pt} (h : Link x y a b) :
    count (a.1, b.1) x y = count (a.1, a.2) x y + count (a.2, b.2) x y - count (b.1, b.2) x y := by
  obtain ⟨α, β, h1, h2, h3, h4⟩ := h
  have := walk_side [a.2, b.2] a.1 b.1 h1 h3 (by simp [h2, h4])
  rw [← this, count_swap b.2 b.1]
  simp [walk, wind]
  ring

theorem shadow_walk {x y : Rat} : ∀ (l : List (Pt × Pt)) (a z : Pt × Pt), (a :: (l ++ [z])).IsChain (Link x y) →
    wind (walk a.1 (l.map Prod.fst ++ [z.1])) x y = count (a.1, a.2) x y + wind (walk a.2 (l.map Prod.snd ++ [z.2])) x y - count (z.1, z.2) x y
  | [], a, z, h => by
    have := link_count (List.isChain_cons_cons.mp h).1
    simpa [walk, wind] using this
  | b :: l, a, z, h => by
    have h' := List.isChain_cons_cons.mp h
    have ih := shadow_walk l b z h'.2
    have := link_count h'.1
    have e1 : wind (walk a.1 ((b :: l).map Prod.fst ++ [z.1])) x y = count (a.1, b.1) x y + wind (walk b.1 (l.map Prod.fst ++ [z.1])) x y := by
      simp [walk, wind]
    have e2 : wind (walk a.2 ((b :: l).map Prod.snd ++ [z.2])) x y = count (a.2, b.2) x y + wind (walk b.2 (l.map Prod.snd ++ [z.2])) x y := by
      simp [walk, wind]
    rw [e1, e2, ih, this]; ring

/-- A polygon winds around a place as its original if the sides and their originals are beside it. -/
theorem shadow_wind {x y : Rat} {a : Pt × Pt} {l : List (Pt × Pt)} (h : (a :: (l ++ [a])).IsChain (Link x y)) :
    wind (edges ((a :: l).map Prod.fst)) x y = wind (edges ((a :: l).map Prod.snd)) x y := by
  have := shadow_walk l a a h
  simp only [List.map_cons, edges]
  rw [this]; ring

/-! ### Shifted sides -/

theorem close_near {s p : Pt} {m : ℝ} {v : Offset.Vec} (hv : Offset.dot v v = m * m) (h : Offset.Near s p v) : Close (|m| + 3 / 4) s p := by
  unfold Close
  obtain ⟨⟨h1, -⟩, h2, -⟩ := h
  push_cast at h1 h2
  rw [sub_sub, abs_le] at h1 h2
  set r1 := (s.x : ℝ) - (p.x + v.1) with e1
  set r2 := (s.y : ℝ) - (p.y + v.2) with e2
  have g1 : (s.x : ℝ) - p.x = v.1 + r1 := by rw [e1]; ring
  have g2 : (s.y : ℝ) - p.y = v.2 + r2 := by rw [e2]; ring
  rw [g1, g2]
  unfold Offset.dot at hv
  have a1 : r1 ^ 2 ≤ 1 / 4 := by nlinarith
  have a2 : r2 ^ 2 ≤ 1 / 4 := by nlinarith
  have hm : |m| ^ 2 = m * m := by rw [sq_abs]; ring
  have k : v.1 * r1 + v.2 * r2 ≤ 3 / 4 * |m| := by
    apply abs_le_of_sq_le_sq' _ (by positivity) |>.2
    have : (v.1 * r1 + v.2 * r2) ^ 2 ≤ (v.1 * v.1 + v.2 * v.2) * (r1 ^ 2 + r2 ^ 2) := by nlinarith [sq_nonneg (v.1 * r2 - v.2 * r1)]
    nlinarith [mul_self_nonneg m, mul_self_nonneg v.1, mul_self_nonneg v.2]
  nlinarith

theorem rot_dot (a : ℝ) (v : Offset.Vec) : Offset.dot (Offset.rot a v) (Offset.rot a v) = Offset.dot v v := by
  have := Real.sin_sq_add_cos_sq a
  unfold Offset.dot Offset.rot
  dsimp only
  linear_combination (v.1 * v.1 + v.2 * v.2) * this

/-- The points emitted for one line, with the ends of the line they belong to. -/
theorem block_pairs {m : ℝ} {arc : Int} {a b : Pt × Int} {c : Pt} {e : Offset.Emit} (h : Offset.Block m arc (a, b, c) e) :
    ∃ s s' pts, e.map Prod.fst = s :: s' :: pts ∧ Close (|m| + 3 / 4) s a.1 ∧ Close (|m| + 3 / 4) s' b.1 ∧ ∀ z ∈ pts, Close (|m| + 3 / 4) z b.1 := by
  obtain ⟨v, hn, s, s', pts, rfl, h1, h2, h3, h4⟩ := h
  refine ⟨s, s', pts, by simp [List.map_map, Function.comp_def], close_near hn.2.1 h1, close_near hn.2.1 h2, fun z hz => ?_⟩
  by_cases ho : Offset.Opens m a.1 b.1 c
  · obtain ⟨θ, σ, N, -, -, -, -, -, -, -, ha⟩ := h3 ho
    obtain ⟨k, hk⟩ := List.mem_iff_getElem?.mp hz
    exact close_near (by rw [rot_dot]; exact hn.2.1) (ha k z hk)
  · rw [h4 ho] at hz; simp at hz

/-- Two vertices with originals: the same one, or the ends of a side. -/
def Join (E : List (Pt × Pt)) (p q : Pt × Pt) : Prop := p.2 = q.2 ∨ (p.2, q.2) ∈ E

theorem path_pairs {m : ℝ} {arc : Int} {E : List (Pt × Pt)} : ∀ (l : List (Pt × Int)) (a b c : Pt × Int) (e : Offset.Emit),
    Offset.Path m arc (a :: b :: c :: l) e → (∀ d ∈ walk a.1 ((b :: c :: l).map Prod.fst).dropLast, d ∈ E) →
    ∃ h PL u, e.map Prod.fst = (h :: PL).map Prod.fst ∧ h.2 = a.1 ∧ (h :: PL).IsChain (Join E) ∧ (∀ p ∈ h :: PL, Close (|m| + 3 / 4) p.1 p.2 ∧ ∃ d ∈ E, d.1 = p.2 ∨ d.2 = p.2) ∧
      (h :: PL).getLast? = some u ∧ some u.2 = ((a :: b :: c :: l).map Prod.fst).dropLast.getLast? ∧
      ∀ z x y, wind (walk h.2 (PL.map Prod.snd ++ [z])) x y = wind (walk a.1 (((b :: c :: l).map Prod.fst).dropLast ++ [z])) x y
  | l, a, b, c, e, hp, hE => by
    obtain ⟨es, hf, rfl⟩ := hp
    unfold Offset.tri at hf
    cases hf with
    | @cons _ e1 _ es' hb hf =>
      obtain ⟨s, s', pts, h1, h2, h3, h4⟩ := block_pairs hb
      have hab : (a.1, b.1) ∈ E := hE _ (by simp [walk])
      have chain : ∀ pts : List Pt, ((s, a.1) :: (s', b.1) :: pts.map fun z => (z, b.1)).IsChain (Join E) := by
        intro pts
        refine List.isChain_cons_cons.mpr ⟨Or.inr hab, ?_⟩
        clear h1 h3
        induction pts generalizing s' with
        | nil => simp
        | cons z pts ih => exact List.isChain_cons_cons.mpr ⟨Or.inl rfl, ih z⟩
      have close : ∀ p ∈ (s, a.1) :: (s', b.1) :: pts.map fun z => (z, b.1), Close (|m| + 3 / 4) p.1 p.2 ∧ ∃ d ∈ E, d.1 = p.2 ∨ d.2 = p.2 := by
        intro p hp
        rcases List.mem_cons.mp hp with rfl | hp
        · exact ⟨h2, _, hab, Or.inl rfl⟩
        rcases List.mem_cons.mp hp with rfl | hp
        · exact ⟨h3, _, hab, Or.inr rfl⟩
        obtain ⟨z, hz, rfl⟩ := List.mem_map.mp hp
        exact ⟨h4 z hz, _, hab, Or.inr rfl⟩
      have stay : ∀ (pts : List Pt) (r : List Pt) (x y : Rat), wind (walk b.1 (pts.map (fun _ => b.1) ++ r)) x y = wind (walk b.1 r) x y := by
        intro pts r x y
        induction pts with
        | nil => rfl
        | cons z pts ih =>
          have : wind (walk b.1 ((z :: pts).map (fun _ => b.1) ++ r)) x y = count (b.1, b.1) x y + wind (walk b.1 (pts.map (fun _ => b.1) ++ r)) x y := by
            simp [walk, wind]
          rw [this, ih, count_self]; simp
      cases l with
      | nil =>
        unfold Offset.tri at hf
        cases hf
        have hlast : ∃ u, ((s, a.1) :: (s', b.1) :: pts.map fun z => (z, b.1)).getLast? = some u ∧ u.2 = b.1 := by
          rcases List.eq_nil_or_concat pts with rfl | ⟨A, z, rfl⟩
          · exact ⟨(s', b.1), by simp, rfl⟩
          · exact ⟨(z, b.1), by simp [List.getLast?_cons], rfl⟩
        obtain ⟨u, u1, u2⟩ := hlast
        refine ⟨(s, a.1), (s', b.1) :: pts.map fun z => (z, b.1), u, ?_, rfl, chain pts, close, u1, ?_, fun z x y => ?_⟩
        · simp [h1, List.map_map, Function.comp_def]
        · simp [u2]
        · have := stay pts [z] x y
          simp only [walk, wind, List.map_cons, List.cons_append, List.map_map, Function.comp_def, List.sum_cons, List.dropLast, List.map_nil,
            List.nil_append] at this ⊢
          rw [this]
      | cons d l =>
        obtain ⟨h, PL, u, i1, i2, i3, i4, i5, i6, i7⟩ := path_pairs (E := E) l b c d es'.flatten ⟨es', hf, rfl⟩
          (fun f hf => hE f (by simp only [List.map_cons, List.dropLast_cons_cons, walk] at hf ⊢; exact List.mem_cons_of_mem _ hf))
        refine ⟨(s, a.1), ((s', b.1) :: pts.map fun z => (z, b.1)) ++ h :: PL, u, ?_, rfl, ?_, ?_, ?_, ?_, fun z x y => ?_⟩
        · rw [List.flatten_cons, List.map_append, h1, i1]
          simp [List.map_map, Function.comp_def]
        · rw [← List.cons_append]
          refine List.isChain_append.mpr ⟨chain pts, i3, ?_⟩
          intro p hp q hq
          rw [List.head?_cons, Option.mem_some_iff] at hq
          subst hq
          left
          rw [i2]
          have : ∀ p ∈ (s', b.1) :: pts.map fun z => (z, b.1), p.2 = b.1 := by simp
          apply this
          rw [List.getLast?_cons_cons] at hp
          exact List.mem_of_getLast? hp
        · intro p hp
          rw [← List.cons_append] at hp
          rcases List.mem_append.mp hp with hp | hp
          · exact close p hp
          · exact i4 p hp
        · rw [← List.cons_append, List.getLast?_append_of_ne_nil _ (by simp)]; exact i5
        · rw [i6]; simp [List.getLast?_cons]
        · have := stay pts (b.1 :: (PL.map Prod.snd ++ [z])) x y
          have e0 : wind (walk b.1 (b.1 :: (PL.map Prod.snd ++ [z]))) x y = wind (walk b.1 (PL.map Prod.snd ++ [z])) x y := by
            have : wind (walk b.1 (b.1 :: (PL.map Prod.snd ++ [z]))) x y = count (b.1, b.1) x y + wind (walk b.1 (PL.map Prod.snd ++ [z])) x y := by
              simp [walk, wind]
            rw [this, count_self]; simp
          rw [i2] at i7
          rw [e0, i7] at this
          have e1 : wind (walk a.1 ((((s', b.1) :: pts.map fun z => (z, b.1)) ++ h :: PL).map Prod.snd ++ [z])) x y =
              count (a.1, b.1) x y + wind (walk b.1 (pts.map (fun _ => b.1) ++ (h.2 :: (PL.map Prod.snd ++ [z])))) x y := by
            simp [walk, wind, Function.comp_def]
          have e2 : wind (walk a.1 (((b :: c :: d :: l).map Prod.fst).dropLast ++ [z])) x y =
              count (a.1, b.1) x y + wind (walk b.1 (((c :: d :: l).map Prod.fst).dropLast ++ [z])) x y := by
            simp [walk, wind]
          dsimp only
          rw [e1, e2, i2, this]

/-- Two vertices with originals `R` apart, such that what is far from the sides `E` is far from the side between the originals. -/
def Pair (R : ℝ) (E : List (Pt × Pt)) (p q : Pt × Pt) : Prop :=
  Close R p.1 p.2 ∧ Close R q.1 q.2 ∧ ∀ S x y, (∀ d ∈ E, Beyond S d x y) → Beyond S (p.2, q.2) x y

/-- The polygon `Z` has vertices at most `R` apart from those of `O`, and its sides are beside sides in `E`. -/
def Shadow (R : ℝ) (E : List (Pt × Pt)) (Z O : List Pt) : Prop := (Z = [] ∧ O = []) ∨ ∃ h L, Z = (h :: L).map Prod.fst ∧ O = (h :: L).map Prod.snd ∧
  (h :: (L ++ [h])).IsChain (Pair R E)

theorem beyond_self {S : ℝ} {d : Pt × Pt} {o : Pt} {x y : Rat} (hd : Beyond S d x y) (ho : d.1 = o ∨ d.2 = o) : Beyond S (o, o) x y := by
  intro t t0 t1
  rcases ho with rfl | rfl
  · have := hd 0 le_rfl zero_le_one; simpa using this
  · have := hd 1 zero_le_one le_rfl; simpa using this

/-- What is emitted for a path that returns to its start. -/
theorem path_shadow {m : ℝ} {arc : Int} {l : List (Pt × Int)} {a b c : Pt × Int} {e : Offset.Emit} (hp : Offset.Path m arc (a :: b :: c :: l) e)
    (hl : ((a :: b :: c :: l).map Prod.fst).dropLast.getLast? = some a.1) {E : List (Pt × Pt)}
    (hE : ∀ d ∈ walk a.1 ((b :: c :: l).map Prod.fst).dropLast, d ∈ E) :
    ∃ O, Shadow (|m| + 3 / 4) E (e.map Prod.fst) O ∧
      ∀ x y, wind (edges O) x y = wind (walk a.1 (((b :: c :: l).map Prod.fst).dropLast ++ [a.1])) x y := by
  obtain ⟨h, PL, u, i1, i2, i3, i4, i5, i6, i7⟩ := path_pairs l a b c e hp hE
  have hu : u.2 = a.1 := by rw [hl] at i6; simpa using i6
  have pair : ∀ {p q : Pt × Pt}, p ∈ h :: PL → q ∈ h :: PL → Join E p q → Pair (|m| + 3 / 4) E p q := by
    intro p q hp hq hj
    refine ⟨(i4 p hp).1, (i4 q hq).1, fun S x y hS => ?_⟩
    rcases hj with hj | hj
    · obtain ⟨d, hd, ho⟩ := (i4 p hp).2
      rw [← hj]
      exact beyond_self (hS d hd) ho
    · exact hS _ hj
  refine ⟨(h :: PL).map Prod.snd, Or.inr ⟨h, PL, i1, rfl, ?_⟩, fun x y => ?_⟩
  · rw [← List.cons_append]
    refine List.isChain_append.mpr ⟨i3.imp_of_mem_imp fun p q hp hq hj => pair hp hq hj, by simp, ?_⟩
    intro p hp q hq
    rw [List.head?_cons, Option.mem_some_iff] at hq
    rw [i5, Option.mem_some_iff] at hp
    subst hp hq
    exact pair (List.mem_of_getLast? i5) (by simp) (Or.inl (by rw [hu, i2]))
  · have := i7 a.1 x y
    rw [i2] at this
    show wind (walk h.2 (PL.map Prod.snd ++ [h.2])) x y = _
    rw [i2, this]

theorem path_shadow' {m : ℝ} {arc : Int} {W : List (Pt × Int)} {e : Offset.Emit} (hp : Offset.Path m arc W e) {p z : Pt} {M : List Pt}
    (hW : W.map Prod.fst = p :: (M ++ [z])) (hl : M.getLast? = some p) {E : List (Pt × Pt)} (hE : ∀ d ∈ walk p M, d ∈ E) :
    ∃ O, Shadow (|m| + 3 / 4) E (e.map Prod.fst) O ∧ ∀ x y, wind (edges O) x y = wind (walk p (M ++ [p])) x y := by
  have hM : M ≠ [] := by rintro rfl; simp at hl
  match W, hW with
  | [], hW => simp at hW
  | [a], hW => simp at hW
  | [a, b], hW =>
    exfalso
    have := congrArg List.length hW
    simp at this
    exact hM this
  | a :: b :: c :: l, hW =>
    have h1 : a.1 = p := by simpa using congrArg List.head? hW
    have h2 : (b :: c :: l).map Prod.fst = M ++ [z] := by have := congrArg List.tail hW; simpa using this
    have h3 : ((b :: c :: l).map Prod.fst).dropLast = M := by rw [h2]; simp
    have h4 : ((a :: b :: c :: l).map Prod.fst).dropLast = p :: M := by
      rw [hW, ← List.cons_append, List.dropLast_concat]
    have := path_shadow (E := E) hp (by rw [h4, h1, List.getLast?_cons, hl]; rfl) (by rw [h3, h1]; exact hE)
    rw [h3, h1] at this
    exact this

theorem Pair.link {R : ℝ} {E : List (Pt × Pt)} {p q : Pt × Pt} (h : Pair R E p q) {x y : Rat} (hf : ∀ d ∈ E, Beyond R d x y) : Link x y p q := by
  obtain ⟨hp, hq, hb⟩ := h
  obtain ⟨α, β, hs⟩ := beyond_side (hb R x y hf)
  unfold Close at hp hq
  exact ⟨α, β, hs _ 0 le_rfl zero_le_one (by simpa using hp), hs _ 0 le_rfl zero_le_one (by simp; positivity),
    hs _ 1 zero_le_one le_rfl (by simpa using hq), hs _ 1 zero_le_one le_rfl (by simp; positivity)⟩

/-- Around a place that is far from the sides a polygon winds as its original. -/
theorem Shadow.wind {R : ℝ} {E : List (Pt × Pt)} {Z O : List Pt} (h : Shadow R E Z O) {x y : Rat} (hf : ∀ d ∈ E, Beyond R d x y) :
    Exec.wind (edges Z) x y = Exec.wind (edges O) x y := by
  rcases h with ⟨rfl, rfl⟩ | ⟨h, L, rfl, rfl, hc⟩
  · rfl
  · exact shadow_wind (hc.imp fun p q hp => hp.link hf)

theorem chain_walk {S : Pt × Pt → Pt × Pt → Prop} : ∀ (l : List (Pt × Pt)) (a : Pt × Pt), (a :: l).IsChain S →
    ∀ d ∈ walk a.1 (l.map Prod.fst), ∃ p q, d = (p.1, q.1) ∧ S p q
  | [], a, _, d, hd => by simp [walk] at hd
  | b :: l, a, h, d, hd => by
    have h' := List.isChain_cons_cons.mp h
    rw [List.map_cons] at hd
    rcases List.mem_cons.mp hd with rfl | hd
    · exact ⟨a, b, rfl, h'.1⟩
    · exact chain_walk l b h'.2 d hd

theorem norm_add {w1 w2 g1 g2 R S : ℝ} (hR : 0 ≤ R) (hS : 0 ≤ S) (hw : w1 ^ 2 + w2 ^ 2 ≤ R ^ 2) (hg : g1 ^ 2 + g2 ^ 2 ≤ S ^ 2) :
    (g1 + w1) ^ 2 + (g2 + w2) ^ 2 ≤ (R + S) ^ 2 := by
  have k : w1 * g1 + w2 * g2 ≤ R * S := by
    apply abs_le_of_sq_le_sq' _ (by positivity) |>.2
    have h1 : (w1 * g1 + w2 * g2) ^ 2 ≤ (w1 ^ 2 + w2 ^ 2) * (g1 ^ 2 + g2 ^ 2) := by nlinarith [sq_nonneg (w1 * g2 - w2 * g1)]
    have h2 : (w1 ^ 2 + w2 ^ 2) * (g1 ^ 2 + g2 ^ 2) ≤ R ^ 2 * S ^ 2 := mul_le_mul hw hg (by positivity) (by positivity)
    calc _ ≤ _ := h1
      _ ≤ _ := h2
      _ = _ := by ring
  nlinarith

theorem norm_mix {a1 a2 b1 b2 R t : ℝ} (ha : a1 ^ 2 + a2 ^ 2 ≤ R ^ 2) (hb : b1 ^ 2 + b2 ^ 2 ≤ R ^ 2) (t0 : 0 ≤ t) (t1 : t ≤ 1) :
    ((1 - t) * a1 + t * b1) ^ 2 + ((1 - t) * a2 + t * b2) ^ 2 ≤ R ^ 2 := by
  have e : ((1 - t) * a1 + t * b1) ^ 2 + ((1 - t) * a2 + t * b2) ^ 2 =
      (1 - t) * (a1 ^ 2 + a2 ^ 2) + t * (b1 ^ 2 + b2 ^ 2) - t * (1 - t) * ((a1 - b1) ^ 2 + (a2 - b2) ^ 2) := by ring
  have k : 0 ≤ t * (1 - t) * ((a1 - b1) ^ 2 + (a2 - b2) ^ 2) := mul_nonneg (mul_nonneg t0 (by linarith)) (by positivity)
  have k1 := mul_le_mul_of_nonneg_left ha (show 0 ≤ 1 - t by linarith)
  have k2 := mul_le_mul_of_nonneg_left hb t0
  rw [e]; linarith

/-- The sides of such a polygon are at most `R` from those in `E`. -/
theorem Shadow.side {R : ℝ} (hR : 0 ≤ R) {E : List (Pt × Pt)} {Z O : List Pt} (h : Shadow R E Z O) {d : Pt × Pt} (hd : d ∈ edges Z) {K : Rat} (hK : 0 ≤ K)
    {x y : Rat} (hf : ∀ d ∈ E, Beyond (R + 3 / 2 * (K : ℝ)) d x y) : FarFrom K d x y := by
  rcases h with ⟨rfl, rfl⟩ | ⟨h, L, rfl, rfl, hc⟩
  · simp [edges] at hd
  · have hd : d ∈ walk h.1 ((L ++ [h]).map Prod.fst) := by rw [List.map_append]; exact hd
    obtain ⟨p, q, rfl, hp, hq, hb⟩ := chain_walk _ _ hc d hd
    intro u v hon
    by_contra c
    rw [not_or, not_lt, not_lt, abs_le, abs_le] at c
    obtain ⟨⟨c1, c2⟩, c3, c4⟩ := c
    obtain ⟨t, t0, t1, e1, e2⟩ := hon
    dsimp only at e1 e2
    have f1 : (u : ℝ) = p.1.x + t * ((q.1.x : ℝ) - p.1.x) := by rw [e1]; push_cast; ring
    have f2 : (v : ℝ) = p.1.y + t * ((q.1.y : ℝ) - p.1.y) := by rw [e2]; push_cast; ring
    have t0' : (0 : ℝ) ≤ t := by exact_mod_cast t0
    have t1' : (t : ℝ) ≤ 1 := by exact_mod_cast t1
    have hK' : (0 : ℝ) ≤ K := by exact_mod_cast hK
    have k := hb _ x y hf t t0' t1'
    dsimp only at k
    have m1 := norm_mix hp hq t0' t1'
    have d1 : -(K : ℝ) ≤ x - u := by exact_mod_cast c1
    have d2 : (x : ℝ) - u ≤ K := by exact_mod_cast c2
    have d3 : -(K : ℝ) ≤ y - v := by exact_mod_cast c3
    have d4 : (y : ℝ) - v ≤ K := by exact_mod_cast c4
    have m2 := norm_add (g1 := (x : ℝ) - u) (g2 := (y : ℝ) - v) (S := 3 / 2 * K) hR (by positivity) m1 (by nlinarith)
    have g1 : (x : ℝ) - (p.2.x + t * ((q.2.x : ℝ) - p.2.x)) = x - u + ((1 - t) * ((p.1.x : ℝ) - p.2.x) + t * ((q.1.x : ℝ) - q.2.x)) := by rw [f1]; ring
    have g2 : (y : ℝ) - (p.2.y + t * ((q.2.y : ℝ) - p.2.y)) = y - v + ((1 - t) * ((p.1.y : ℝ) - p.2.y) + t * ((q.1.y : ℝ) - q.2.y)) := by rw [f2]; ring
    rw [g1, g2] at k
    exact absurd k (not_lt.mpr m2)

end PolyOps.Exec
