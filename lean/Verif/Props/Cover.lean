import Verif.Lemmas.Cover
import Verif.Props.Grow

/-! C63: growing a convex polygon covers all places near it. -/
namespace PolyOps.Exec
open PolyOps PolyOps.Sweep PolyOps.Region PolyOps.Planarity PolyOps.Loops PolyOps.PointSink PolyOps.Clipper PolyOps.Double

/-! ### Specification -/

/-- No vertex is to the right of a side (for negative `m`: to the left). -/
def Convex (m : ℝ) (l : List Pt) : Prop := ∀ e ∈ edges l, ∀ v ∈ l, 0 ≤ sgn m * turn e.1 e.2 v

/-- Two places less than `R` apart. -/
def Nearby (R : ℝ) (x y fx fy : Rat) : Prop := 0 < R ∧ ((x : ℝ) - fx) ^ 2 + ((y : ℝ) - fy) ^ 2 < R ^ 2

/-! ### Proof -/

theorem tidy_spec {p : Pt} {l : List Pt} (hl : ∃ x ∈ l, x ≠ p) : ∃ q M, tidy (p :: l) = p :: q :: M ∧ (∀ d ∈ walk p (q :: M ++ [p]), d ∈ edges (p :: l)) ∧
    ∀ v ∈ p :: q :: M, v ∈ p :: l := by
  have hE : ∀ d ∈ walk p (Offset.dedup p l ++ [p]), d ∈ edges (p :: l) := (dedup_walk l p p 0 0).2
  have hmem : ∀ v ∈ p :: Offset.dedup p l, v ∈ p :: l := by
    intro v hv
    rcases List.mem_cons.mp hv with rfl | hv
    · simp
    · exact List.mem_cons_of_mem _ (Offset.dedup_mem l p v hv)
  have hst := Offset.dedup_steps l p
  have htd : tidy (p :: l) = if (p :: Offset.dedup p l).getLast? = some p ∧ Offset.dedup p l ≠ [] then (p :: Offset.dedup p l).dropLast else p :: Offset.dedup p l := rfl
  cases hd : Offset.dedup p l with
  | nil =>
    exfalso
    obtain ⟨x, hx, hxp⟩ := hl
    exact hxp (dedup_nil l p hd x hx)
  | cons q k =>
    rw [hd] at hE hmem htd hst
    have hpq : p ≠ q := (List.isChain_cons_cons.mp hst).1
    by_cases hr : (p :: q :: k).getLast? = some p
    · rw [if_pos ⟨hr, by simp⟩] at htd
      rcases List.eq_nil_or_concat k with rfl | ⟨M, p', rfl⟩
      · simp at hr; exact absurd hr hpq.symm
      have hp' : p' = p := by simpa [List.getLast?_cons] using hr
      subst hp'
      refine ⟨q, M, ?_, fun d hd' => hE d ?_, fun v hv => hmem v ?_⟩
      · rw [htd]
        have : p' :: q :: (M ++ [p']) = (p' :: q :: M) ++ [p'] := by simp
        rw [List.concat_eq_append, this, List.dropLast_concat]
      · rw [List.concat_eq_append]
        have e2 : q :: (M ++ [p']) ++ [p'] = (q :: M) ++ p' :: [p'] := by simp
        rw [e2, walk_append p' p' (q :: M) [p']]
        exact List.mem_append_left _ hd'
      · simp only [List.mem_cons, List.concat_eq_append, List.mem_append] at hv ⊢
        tauto
    · rw [if_neg (by tauto)] at htd
      exact ⟨q, k, htd, hE, hmem⟩

theorem triples_walk : ∀ (W : List Pt) (a : Pt), ∀ t ∈ triples (a :: W), (t.1, t.2.1) ∈ walk a W ∧ (t.2.1, t.2.2) ∈ walk a W
  | [], a, t, ht => by simp [triples] at ht
  | [_], a, t, ht => by simp [triples] at ht
  | b :: c :: l, a, t, ht => by
    unfold triples at ht
    rcases List.mem_cons.mp ht with rfl | ht
    · simp [walk]
    · obtain ⟨h1, h2⟩ := triples_walk (c :: l) b t ht
      exact ⟨List.mem_cons_of_mem _ h1, List.mem_cons_of_mem _ h2⟩

/-- The lines at a corner are sides of the polygon. -/
theorem corner_sides {p : Pt} {l : List Pt} (hl : ∃ x ∈ l, x ≠ p) {t : Pt × Pt × Pt} (ht : t ∈ cornersOf (tidy (p :: l))) :
    (t.1, t.2.1) ∈ edges (p :: l) ∧ (t.2.1, t.2.2) ∈ edges (p :: l) ∧ t.2.2 ∈ p :: l := by
  obtain ⟨q, M, h1, h2, h3⟩ := tidy_spec hl
  rw [h1] at ht
  have e : ∀ d ∈ walk p (q :: M ++ [p, q]), d ∈ edges (p :: l) := by
    intro d hd
    have : q :: M ++ [p, q] = (q :: M) ++ p :: [q] := by simp
    rw [this, walk_append p p (q :: M) [q]] at hd
    rcases List.mem_append.mp hd with hd | hd
    · exact h2 d hd
    · simp [walk] at hd
      rw [hd]
      exact h2 _ (by simp [walk])
  obtain ⟨w1, w2⟩ := triples_walk (q :: M ++ [p, q]) p t ht
  refine ⟨e _ w1, e _ w2, h3 _ ?_⟩
  have : ∀ (k : List Pt) (a : Pt), ∀ d ∈ walk a k, d.2 ∈ k := by
    intro k
    induction k with
    | nil => intro a d hd; simp [walk] at hd
    | cons b k ih =>
      intro a d hd
      rcases List.mem_cons.mp (show d ∈ (a, b) :: walk b k from hd) with rfl | hd
      · simp
      · exact List.mem_cons_of_mem _ (ih b d hd)
  have := this _ _ _ w2
  simp only [List.mem_append, List.mem_cons, List.not_mem_nil, or_false] at this ⊢
  tauto

theorem Convex.rounded {m : ℝ} {p : Pt} {l : List Pt} (hl : ∃ x ∈ l, x ≠ p) (h : Convex m (p :: l)) : Rounded m (p :: l) := fun _ ht =>
  h _ (corner_sides hl ht).1 _ (corner_sides hl ht).2.2

/-- Every side added is in front of the polygon. -/
theorem emitted_front {m : ℝ} {arc : Int} (ha : 0 < arc) (hm : m ≠ 0) {p : Pt} {l z : List Pt} (hl : ∃ x ∈ l, x ≠ p) (h : emitted m arc true (p :: l) = some z)
    (hc : Convex m (p :: l)) {fx fy : Rat} (hf : wind (edges (p :: l)) fx fy ≠ 0) :
    ∀ e ∈ edges z, InFront m (|m| - (arc : ℝ) ^ 2 / (2 * |m|) - 3 / 4) (p :: l) e := by
  obtain ⟨G, T, h1, h2, h3, h4, -⟩ := emitted_gaps ha hl h
  intro e he
  rw [h4] at he
  obtain ⟨g, hg, he⟩ := List.mem_flatMap.mp he
  obtain ⟨t, ht, hg'⟩ := forall₂_right h1 g hg
  have hcor : (t.1.1, t.2.1.1, t.2.2) ∈ cornersOf (tidy (p :: l)) := by rw [← h2]; exact List.mem_map.mpr ⟨t, ht, rfl⟩
  obtain ⟨s1, s2, s3⟩ := corner_sides hl hcor
  obtain ⟨d1, d2⟩ := h3 _ hcor
  refine gap_ahead ha hm hg' d1 d2 (hc _ s1) (hc _ s2) (hc _ s1 _ s3) ?_ e he
  by_contra c
  push Not at c
  exact hf (wind_flat d1 c fx fy)

theorem dot_bound {ν : Offset.Vec} {m a b R : ℝ} (hν : Offset.dot ν ν = m * m) (hR : 0 ≤ R) (h : a ^ 2 + b ^ 2 ≤ R ^ 2) : ν.1 * a + ν.2 * b ≤ |m| * R := by
  unfold Offset.dot at hν
  have cs : (ν.1 * a + ν.2 * b) ^ 2 ≤ (|m| * R) ^ 2 := by
    have h1 : (ν.1 * a + ν.2 * b) ^ 2 ≤ (ν.1 * ν.1 + ν.2 * ν.2) * (a ^ 2 + b ^ 2) := by nlinarith [sq_nonneg (ν.1 * b - ν.2 * a)]
    rw [hν] at h1
    have h2 := mul_le_mul_of_nonneg_left h (mul_self_nonneg m)
    rw [mul_pow, sq_abs]
    nlinarith
  exact (abs_le.mp (abs_le_of_sq_le_sq cs (by positivity))).2

/-- A place inside is behind the line. -/
theorem front_inside {m R : ℝ} {P : List Pt} {ν : Offset.Vec} {o : Pt} (hb : ∀ p ∈ P, Offset.dot ν (Offset.vec o p) ≤ 0) {fx fy : Rat} (hf : wind (edges P) fx fy ≠ 0) :
    ν.1 * ((fx : ℝ) - o.x) + ν.2 * ((fy : ℝ) - o.y) ≤ 0 := by
  by_contra c
  rw [not_le] at c
  apply hf
  refine wind_outside (α := ν.1) (β := ν.2) fun v hv => ?_
  have := hb v hv
  unfold Offset.dot Offset.vec at this
  dsimp only at this
  unfold Side
  linarith

theorem front_apart {m R : ℝ} (hm : m ≠ 0) {P : List Pt} {e : Pt × Pt} (h : InFront m R P e) {x y fx fy : Rat} (hn : Nearby R x y fx fy) (hf : wind (edges P) fx fy ≠ 0) :
    Parted x y fx fy e := by
  obtain ⟨ν, o, h1, h2, h3, h4⟩ := h
  obtain ⟨hR, hd⟩ := hn
  have hm0 : 0 < |m| := abs_pos.mpr hm
  have hin := front_inside (m := m) (R := R) h2 hf
  have hpos : 0 < |m| * R := mul_pos hm0 hR
  have hcf : ν.1 * ((x : ℝ) - fx) + ν.2 * ((y : ℝ) - fy) < |m| * R := by
    obtain ⟨S, hS0, hS1, hS2⟩ : ∃ S : ℝ, 0 ≤ S ∧ S < R ∧ ((x : ℝ) - fx) ^ 2 + ((y : ℝ) - fy) ^ 2 ≤ S ^ 2 := by
      refine ⟨Real.sqrt (((x : ℝ) - fx) ^ 2 + ((y : ℝ) - fy) ^ 2), Real.sqrt_nonneg _, ?_, ?_⟩
      · rw [Real.sqrt_lt' hR]; exact hd
      · rw [Real.sq_sqrt (by positivity)]
    have := dot_bound h1 hS0 hS2
    have := mul_lt_mul_of_pos_left hS1 hm0
    linarith
  unfold Offset.dot Offset.vec at h3 h4
  dsimp only at h3 h4
  refine ⟨-ν.1, -ν.2, ?_, ?_, ?_, ?_⟩ <;> unfold Side <;> linarith

/-- **C63 (one polygon).** Growing a convex polygon by `m`, or shrinking around a convex hole: around each place that is closer than `|m| - arc² / (2 |m|) - 3/4` to
a place that the polygon winds around, the polygon added winds in the same direction. -/
theorem C63_emitted {m : ℝ} {arc : Int} (ha : 0 < arc) (hm : 4 * (arc : ℝ) ≤ 3 * |m|) {p : Pt} {l z : List Pt} (h : emitted m arc true (p :: l) = some z)
    (hc : Convex m (p :: l)) {x y fx fy : Rat} (hn : Nearby (|m| - (arc : ℝ) ^ 2 / (2 * |m|) - 3 / 4) x y fx fy) (hf : 0 < sgn m * wind (edges (p :: l)) fx fy) :
    0 < sgn m * wind (edges z) x y := by
  have hf0 : wind (edges (p :: l)) fx fy ≠ 0 := by rintro c; rw [c] at hf; simp at hf
  have hm0 : m ≠ 0 := by
    rintro rfl
    have : (0 : ℝ) < arc := by exact_mod_cast ha
    simp at hm
    linarith
  have hl : ∃ x ∈ l, x ≠ p := by
    by_contra c
    push Not at c
    apply hf0
    have hne : p ≠ ⟨p.x + 1, p.y⟩ := by intro h; have := congrArg Pt.x h; simp at this
    refine wind_flat hne (fun q hq => ?_) fx fy
    have : q = p := by
      rcases List.mem_cons.mp hq with rfl | hq
      · rfl
      · exact c q hq
    rw [this]; unfold turn; ring
  have hfront := emitted_front ha hm0 hl h hc hf0
  rw [wind_move fun e he => front_apart hm0 (hfront e he) hn hf0]
  exact lt_of_lt_of_le hf (C62_grow_partial ha hm hl h (hc.rounded hl) fx fy)

/-- The sides added are far from the places that the polygon grows by. -/
theorem front_far {m R : ℝ} (hm : m ≠ 0) {P : List Pt} {e : Pt × Pt} (h : InFront m R P e) {K : Rat} (hK : 0 ≤ K) {x y fx fy : Rat} (hn : Nearby (R - 3 / 2 * K) x y fx fy)
    (hf : wind (edges P) fx fy ≠ 0) : FarFrom K e x y := by
  obtain ⟨ν, o, h1, h2, h3, h4⟩ := h
  obtain ⟨hR, hd⟩ := hn
  have hm0 : 0 < |m| := abs_pos.mpr hm
  have hK' : (0 : ℝ) ≤ K := by exact_mod_cast hK
  have hin := front_inside (m := m) (R := R) h2 hf
  have hcf : ν.1 * ((x : ℝ) - fx) + ν.2 * ((y : ℝ) - fy) < |m| * (R - 3 / 2 * K) := by
    obtain ⟨S, hS0, hS1, hS2⟩ : ∃ S : ℝ, 0 ≤ S ∧ S < R - 3 / 2 * K ∧ ((x : ℝ) - fx) ^ 2 + ((y : ℝ) - fy) ^ 2 ≤ S ^ 2 := by
      refine ⟨Real.sqrt (((x : ℝ) - fx) ^ 2 + ((y : ℝ) - fy) ^ 2), Real.sqrt_nonneg _, ?_, ?_⟩
      · rw [Real.sqrt_lt' hR]; exact hd
      · rw [Real.sq_sqrt (by positivity)]
    have := dot_bound h1 hS0 hS2
    have := mul_lt_mul_of_pos_left hS1 hm0
    linarith
  intro u v ⟨t, t0, t1, hu, hv⟩
  by_contra c
  push Not at c
  obtain ⟨c1, c2⟩ := c
  have c1' : |(x : ℝ) - u| ≤ K := by exact_mod_cast c1
  have c2' : |(y : ℝ) - v| ≤ K := by exact_mod_cast c2
  have t0' : (0 : ℝ) ≤ t := by exact_mod_cast t0
  have t1' : (t : ℝ) ≤ 1 := by exact_mod_cast t1
  have hu' : (u : ℝ) = e.1.x + t * (e.2.x - e.1.x) := by exact_mod_cast hu
  have hv' : (v : ℝ) = e.1.y + t * (e.2.y - e.1.y) := by exact_mod_cast hv
  have hb : ν.1 * ((u : ℝ) - x) + ν.2 * ((v : ℝ) - y) ≤ |m| * (3 / 2 * K) := by
    refine dot_bound h1 (by positivity) ?_
    have a := sq_abs ((x : ℝ) - u)
    have b := sq_abs ((y : ℝ) - v)
    have a' := pow_le_pow_left₀ (abs_nonneg _) c1' 2
    have b' := pow_le_pow_left₀ (abs_nonneg _) c2' 2
    nlinarith [sq_nonneg (K : ℝ)]
  unfold Offset.dot Offset.vec at h3 h4
  dsimp only at h3 h4
  have hfr : |m| * R ≤ ν.1 * ((u : ℝ) - o.x) + ν.2 * ((v : ℝ) - o.y) := by
    have e1 := mul_le_mul_of_nonneg_left h3 (sub_nonneg.mpr t1')
    have e2 := mul_le_mul_of_nonneg_left h4 t0'
    rw [hu', hv']
    linarith
  linarith

/-- What is added around places near a convex polygon, and around places far from it. -/
theorem cover_far {m : ℝ} (hm0 : 0 < m) {arc : Int} (ha : 0 < arc) (hm : 4 * (arc : ℝ) ≤ 3 * m) {l z : List Pt} (h : emitted m arc true l = some z) (hc : Convex m l)
    {K : Rat} (hK : 0 ≤ K) {x y : Rat} :
    (∀ fx fy, 0 < wind (edges l) fx fy → Nearby (m - (arc : ℝ) ^ 2 / (2 * m) - 3 / 4 - 3 / 2 * K) x y fx fy →
      0 < wind (edges z) x y ∧ ∀ d ∈ edges z, FarFrom K d x y) ∧
    ((∀ d ∈ edges l, Beyond (m + 3 / 4 + 3 / 2 * K) d x y) → wind (edges l) x y ≤ 0 → wind (edges z) x y ≤ 0 ∧ ∀ d ∈ edges z, FarFrom K d x y) := by
  have habs : |m| = m := abs_of_pos hm0
  have hs : sgn m = 1 := by
    rcases sgn_cases m with ⟨s1, -⟩ | ⟨-, s2⟩
    · linarith
    · exact s2
  have hK' : (0 : ℝ) ≤ K := by exact_mod_cast hK
  refine ⟨fun fx fy hw hn => ?_, fun hfar hw => ?_⟩
  · cases l with
    | nil => exact absurd hw (by simp [edges, wind])
    | cons p l =>
      have hf0 : wind (edges (p :: l)) fx fy ≠ 0 := by omega
      have hn' : Nearby (|m| - (arc : ℝ) ^ 2 / (2 * |m|) - 3 / 4) x y fx fy := by
        rw [habs]
        refine ⟨by linarith [hn.1], lt_of_lt_of_le hn.2 (pow_le_pow_left₀ hn.1.le (by linarith) 2)⟩
      have hz := C63_emitted ha (by rw [habs]; exact hm) h hc hn' (by rw [hs]; omega)
      have hl : ∃ x ∈ l, x ≠ p := by
        by_contra c
        push Not at c
        apply hf0
        have hne : p ≠ ⟨p.x + 1, p.y⟩ := by intro h; have := congrArg Pt.x h; simp at this
        refine wind_flat hne (fun q hq => ?_) fx fy
        have : q = p := by
          rcases List.mem_cons.mp hq with rfl | hq
          · rfl
          · exact c q hq
        rw [this]; unfold turn; ring
      refine ⟨by rw [hs, one_mul] at hz; exact hz, fun d hd => ?_⟩
      refine front_far hm0.ne' (emitted_front ha hm0.ne' hl h hc hf0 d hd) hK ?_ hf0
      rw [habs]
      exact hn
  · have hsd : sides true l = edges l := by cases l <;> rfl
    have hf' : ∀ d ∈ sides true l, Beyond (|m| + 3 / 4 + 3 / 2 * (K : ℝ)) d x y := by
      rw [hsd, habs]; exact hfar
    refine ⟨?_, fun d hd => ?_⟩
    · rw [C61_emitted ha h (Or.inl rfl) fun d hd => (hf' d hd).mono (by positivity) (by linarith), if_pos rfl]
      exact hw
    · obtain ⟨O, o1, -⟩ := emitted_shadow ha h (Or.inl rfl)
      exact o1.side (by positivity) hd hK hf'

/-- **C63 (what `offset` returns).** Growing a convex polygon by `m` returns. If no side added is bent at more than `K` points, then around each place closer than
`m - arc² / (2 m) - 3/4 - 3/2 K` to a place that the polygon winds around a positive number of times, the result winds once; and around each place farther than
`m + 3/4 + 3/2 K` from all sides that the polygon does not wind around, the result does not wind. -/
theorem C63_offset {G : Type} {P : Params G} {r : Nat → Bool × Bool} {pos : Clip → Nat → Nat} {g : G} (hP : P.env1 g = realEnv id r pos)
    (hpos : PosOk (realEnv id r pos)) {m : ℝ} (hm0 : 0 < m) {arc : Int} (ha : 0 < arc) (hm : 4 * (arc : ℝ) ≤ 3 * m) {pt : Bool} {l z : List Pt}
    (h : emitted m arc true l = some z) (hc : Convex m l) (hf : Fine none (added pt [z])) :
    ∃ (B : List Bent) (N : Nat) (st : Clipper G × List TCall) (out : List (List Pt)), B.map (fun b => (b.set, b.edge)) = inEdges (added pt [z]) ∧
      (∀ fuel ≥ N, Offset.offset P fuel g pt m arc true false [l] = .ok (st, ⟨out, none⟩)) ∧
      ∀ K : Nat, (∀ b ∈ B, b.via.length ≤ K) → ∀ x y,
        (∀ fx fy, 0 < wind (edges l) fx fy → Nearby (m - (arc : ℝ) ^ 2 / (2 * m) - 3 / 4 - 3 / 2 * K) x y fx fy → wind (out.flatMap edges) x y = 1) ∧
        ((∀ d ∈ edges l, Beyond (m + 3 / 4 + 3 / 2 * K) d x y) → wind (edges l) x y ≤ 0 → wind (out.flatMap edges) x y = 0) := by
  obtain ⟨B, N, st, out, h1, h2, -, h4⟩ := offset_added (pt := pt) hP hpos (.cons h .nil) hf
  refine ⟨B, N, st, out, h1, h2, fun K hK x y => ?_⟩
  obtain ⟨k1, k2⟩ := cover_far hm0 ha hm h hc (K := K) (by positivity) (x := x) (y := y)
  push_cast at k1 k2
  refine ⟨fun fx fy hw hn => ?_, fun hfar hw => ?_⟩
  · obtain ⟨c1, c2⟩ := k1 fx fy hw hn
    rw [h4 K hK x y (by simpa using c2), if_pos (by simpa using c1)]
  · obtain ⟨c1, c2⟩ := k2 hfar hw
    rw [h4 K hK x y (by simpa using c2), if_neg (by simpa using c1)]

/-- **C63 (with doubles).** The same as `C63_offset` with `9/4` instead of `3/2` for each bend, if the points added are within 90000 of a point `o` in each coordinate
and the run ends. -/
theorem C63_double (g : Nat → Bool × Bool) (o : Pt) {m : ℝ} (hm0 : 0 < m) {arc : Int} (ha : 0 < arc) (hm : 4 * (arc : ℝ) ≤ 3 * m) {pt : Bool} {l z : List Pt}
    (h : emitted m arc true l = some z) (hc : Convex m l) (hf : Fine none (added pt [z])) (hsq : ∀ v ∈ z, InSq o 90000 v) (fuel : Nat) :
    ∃ B : List Bent, B.map (fun b => (b.set, b.edge)) = inEdges (added pt [z]) ∧ (Offset.offset libDouble fuel g pt m arc true false [l] = .fuel ∨
      ∃ st out, Offset.offset libDouble fuel g pt m arc true false [l] = .ok (st, ⟨out, none⟩) ∧
      ∀ K : Nat, (∀ b ∈ B, b.via.length ≤ K) → ∀ x y,
        (∀ fx fy, 0 < wind (edges l) fx fy → Nearby (m - (arc : ℝ) ^ 2 / (2 * m) - 3 / 4 - 9 / 4 * K) x y fx fy → wind (out.flatMap edges) x y = 1) ∧
        ((∀ d ∈ edges l, Beyond (m + 3 / 4 + 9 / 4 * K) d x y) → wind (edges l) x y ≤ 0 → wind (out.flatMap edges) x y = 0)) := by
  obtain ⟨B, b1, b2, b3⟩ := near_exec (P := libDouble) (c := Clipper.fresh g) dbl_arith rfl (takeWhile_posOk dbl g) (fresh_empty g) (o := o) (ps := added pt [z])
    (by intro p hp; obtain ⟨z', hz, rfl⟩ := List.mem_map.mp hp; rw [List.mem_singleton.mp hz]; exact hsq)
  obtain ⟨tr, n, hadd⟩ := add_all (pt := pt) [l] [z] [] [] 0 (.cons h .nil) hf
  refine ⟨B, b1, ?_⟩
  have e : Offset.offset libDouble fuel g pt m arc true false [l] =
      Clipper.execute libDouble fuel .union false ({ Clipper.fresh g with pts := store [] (added pt [z]), nextOrig := n }, tr.map .added) := by
    unfold Offset.offset
    rw [hadd]; rfl
  rw [e]
  rcases b3 .union n (tr.map .added) fuel with h' | ⟨st, out, h', hsh⟩ <;> rw [h']
  · exact Or.inl rfl
  · refine Or.inr ⟨st, out, rfl, fun K hK x y => ?_⟩
    have key : (∀ d ∈ edges z, FarFrom (K * (3 / 2)) d x y) → wind (out.flatMap edges) x y = if 0 < wind (edges z) x y then 1 else 0 := by
      intro hd
      have k1 : edgesOf (added pt [z]) .subject = edges z := by simp [edgesOf, added]
      have k2 : edgesOf (added pt [z]) .clip = [] := by simp [edgesOf, added]
      rw [hsh.straight b1 fun b hb => ?_, k1, k2]
      · show (if region .union (wind (edges z) x y) 0 then (1 : Int) else 0) = _
        unfold region
        simp
      · have hle : ((b.via.length : Nat) : Rat) * (3 / 2) ≤ K * (3 / 2) := by
          have : ((b.via.length : Nat) : Rat) ≤ K := by exact_mod_cast hK b hb
          linarith
        refine bent_far (by positivity) (fun p hp => (b2 b hb p hp).2.2.mono hle) (hd b.edge ?_)
        have hm : (b.set, b.edge) ∈ inEdges (added pt [z]) := by rw [← b1]; exact List.mem_map.mpr ⟨b, hb, rfl⟩
        obtain ⟨q, hq, -, hd⟩ := inEdges_mem hm
        obtain ⟨z', hz, rfl⟩ := List.mem_map.mp hq
        rw [List.mem_singleton.mp hz] at hd
        exact hd
    obtain ⟨k1, k2⟩ := cover_far hm0 ha hm h hc (K := K * (3 / 2)) (by positivity) (x := x) (y := y)
    push_cast at k1 k2
    refine ⟨fun fx fy hw hn => ?_, fun hfar hw => ?_⟩
    · obtain ⟨c1, c2⟩ := k1 fx fy hw (by convert hn using 1; ring)
      rw [key c2, if_pos c1]
    · obtain ⟨c1, c2⟩ := k2 (fun d hd => by convert hfar d hd using 1; ring) hw
      rw [key c2, if_neg (by omega)]

/-! ### A case -/

/-- The corner of a shape with sides along the axes, where the path turns to the left: there is at most one point on the arc. -/
theorem grow_corner {D : Int} (hD : 0 < D) (k o1 o2 : Int) {p q r : Pt} {a b : Int} (ha : q.x - p.x = a * D) (hb : q.y - p.y = b * D) (hab : a * a + b * b = 1)
    (n1 : p ≠ q) (n2 : q ≠ r) (hr : (q.x - p.x) * (r.x - q.x) + (q.y - p.y) * (r.y - q.y) = 0) {arc : Int} (harc : 0 < arc) (hk : 2 * |(k : ℝ)| < 3 * arc) :
    ∃ A : List Pt, A.length ≤ 1 ∧
      Offset.addOffsetPoint (k : ℝ) arc o1 o2 p q r = some ((⟨p.x + b * k, p.y - a * k⟩, o1) :: (⟨q.x + b * k, q.y - a * k⟩, o2) :: A.map fun s => (s, o2)) := by
  have hD' : (0 : ℝ) < D := by exact_mod_cast hD
  have hv : Offset.perpVector p q (k : ℝ) = (((b * k : Int) : ℝ), ((-(a * k) : Int) : ℝ)) := by
    have e1 : (q.x : ℝ) - p.x = a * D := by exact_mod_cast ha
    have e2 : (q.y : ℝ) - p.y = b * D := by exact_mod_cast hb
    have hm : Offset.vmag (Offset.vec p q) = D := by
      unfold Offset.vmag Offset.vec
      dsimp only
      rw [e1, e2, show (a : ℝ) * D * (a * D) + b * D * (b * D) = (a * a + b * b : Int) * (D * D) by push_cast; ring, hab]
      rw [Int.cast_one, one_mul, Real.sqrt_mul_self hD'.le]
    rw [Offset.perpVector_eq, hm]
    unfold Offset.vec
    dsimp only
    rw [e1, e2]
    push_cast
    congr 1 <;> field_simp
  refine ⟨Offset.arcPts (k : ℝ) arc p q r, ?_, ?_⟩
  · have harc' : (0 : ℝ) < arc := by exact_mod_cast harc
    by_cases ho : Offset.Opens (k : ℝ) p q r
    · obtain ⟨θ, σ, N, t0, t1, t2, -, -, hN, hlen, -⟩ := (Offset.arc_spec harc n1 n2).1 ho
      have hd : Offset.dot (Offset.vec p q) (Offset.vec q r) = 0 := by
        unfold Offset.dot Offset.vec
        dsimp only
        exact_mod_cast hr
      have hc : Real.cos θ = 0 := by
        rw [hd] at t2
        have i1 := Offset.vmag_pos (Offset.vec_ne n1)
        have i2 := Offset.vmag_pos (Offset.vec_ne n2)
        rcases mul_eq_zero.mp t2 with h | h
        · exact h
        · exact absurd h (mul_pos i1 i2).ne'
      have hθ : θ = Real.pi / 2 := by
        apply Real.injOn_cos ⟨t0, t1⟩ ⟨by positivity, by linarith [Real.pi_pos]⟩
        rw [hc, Real.cos_pi_div_two]
      have hlt : |(k : ℝ)| * θ / arc < 3 := by
        rw [div_lt_iff₀ harc', hθ]
        nlinarith [abs_nonneg (k : ℝ), Real.pi_lt_four]
      have : N < 3 := by
        rw [hN]
        exact (Nat.floor_lt (by rw [hθ]; positivity)).mpr (by exact_mod_cast hlt)
      omega
    · rw [(Offset.arc_spec harc n1 n2).2 ho]; simp
  · unfold Offset.addOffsetPoint
    rw [if_neg (by tauto)]
    dsimp only
    rw [hv]
    unfold Offset.addRound
    dsimp only
    rw [lround_whole, lround_whole]
    simp [sub_eq_add_neg]

theorem fine_one {pt : Bool} {h v : Pt} (B : List Pt) {A : List Pt} (hv : v ≠ h) (hA : A.length ≤ 1) : Fine none (added pt [h :: (B ++ v :: A)]) := by
  refine ⟨Or.inr ⟨by simp; omega, by simp, ?_⟩, trivial⟩
  match A, hA with
  | [], _ =>
    rintro ⟨c, -⟩
    dsimp only at c
    rw [← List.cons_append, List.getLast?_concat] at c
    simp at c
    exact hv c
  | [s], _ =>
    rintro ⟨-, c⟩
    dsimp only at c
    rw [show h :: (B ++ [v, s]) = (h :: B ++ [v]) ++ [s] by simp, List.dropLast_concat, List.getLast?_concat] at c
    simp at c
    exact hv c
  | _ :: _ :: _, h => simp at h

/-- A square with side 100 grown by 40, with steps of 30 on the arcs, meets the hypotheses of `C63_offset`. The place `(-15, 50)` is near to it if the sides are bent
at no more than seven points each. -/
example : 4 * ((30 : Int) : ℝ) ≤ 3 * 40 ∧ Convex 40 inSquare ∧ (∃ z, emitted 40 30 true inSquare = some z ∧ Fine none (added false [z])) ∧
    0 < wind (edges inSquare) 1 50 ∧ Nearby (40 - ((30 : Int) : ℝ) ^ 2 / (2 * 40) - 3 / 4 - 3 / 2 * ((7 : Nat) : ℝ)) (-15) 50 1 50 := by
  have h1 : sgn 40 = 1 := by unfold sgn; rw [if_neg (by norm_num)]
  refine ⟨by norm_num, ?_, ?_, by decide +kernel, by norm_num, by norm_num⟩
  · unfold Convex; rw [h1]; decide
  · obtain ⟨A1, -, a1⟩ := grow_corner (D := 100) (by norm_num) 40 0 1 (p := ⟨0, 0⟩) (q := ⟨100, 0⟩) (r := ⟨100, 100⟩) (a := 1) (b := 0) (by norm_num) (by norm_num) (by norm_num) (by decide) (by decide) (by norm_num) (arc := 30) (by norm_num) (by norm_num)
    obtain ⟨A2, -, a2⟩ := grow_corner (D := 100) (by norm_num) 40 1 2 (p := ⟨100, 0⟩) (q := ⟨100, 100⟩) (r := ⟨0, 100⟩) (a := 0) (b := 1) (by norm_num) (by norm_num) (by norm_num) (by decide) (by decide) (by norm_num) (arc := 30) (by norm_num) (by norm_num)
    obtain ⟨A3, -, a3⟩ := grow_corner (D := 100) (by norm_num) 40 2 3 (p := ⟨100, 100⟩) (q := ⟨0, 100⟩) (r := ⟨0, 0⟩) (a := -1) (b := 0) (by norm_num) (by norm_num) (by norm_num) (by decide) (by decide) (by norm_num) (arc := 30) (by norm_num) (by norm_num)
    obtain ⟨A4, h4, a4⟩ := grow_corner (D := 100) (by norm_num) 40 3 0 (p := ⟨0, 100⟩) (q := ⟨0, 0⟩) (r := ⟨100, 0⟩) (a := 0) (b := -1) (by norm_num) (by norm_num) (by norm_num) (by decide) (by decide) (by norm_num) (arc := 30) (by norm_num) (by norm_num)
    norm_num at a1 a2 a3 a4
    refine ⟨_, ?_, fine_one (h := ⟨0, -40⟩) (v := ⟨-40, 0⟩)
      (⟨100, -40⟩ :: A1 ++ ⟨140, 0⟩ :: ⟨140, 100⟩ :: A2 ++ ⟨100, 140⟩ :: ⟨0, 140⟩ :: A3 ++ [⟨-40, 100⟩]) (by decide) h4⟩
    unfold emitted inSquare Offset.emitClosed
    simp [Offset.walk, a1, a2, a3, a4]
    simp [Function.comp_def]

end PolyOps.Exec
