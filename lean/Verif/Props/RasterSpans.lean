import Verif.Props.RasterFrac
import Mathlib.Data.Rat.Floor
import Mathlib.Algebra.BigOperators.Group.List.Basic
/-! C41: the spans of a row.

Specification: the winding number of a row at abscissa `q` is the sum of the signs of the crossings to the right of `q`
(`windAt`); a pixel column `p` is `[p,p+1)`. -/
namespace PolyOps.Raster

/-- The winding number of a row at abscissa `q`. -/
def windAt (cs : List Crossing) (q : ℚ) : Int := ((cs.filter fun c => decide (q < c.x.val)).map Crossing.sign).sum

/-- The crossings are ordered from right to left. -/
def RightToLeft (cs : List Crossing) : Prop := cs.Pairwise fun a b => b.x.val ≤ a.x.val

/-- C41: a crossing is put into the pixel column that contains it, or the nearest column of the image. -/
theorem C41_column (x : Frac) (hi : Int) (h : 0 ≤ hi) : toCoord x 0 hi = max 0 (min ⌊x.val⌋ hi) := by
  have hf : ⌊x.val⌋ = x.num / x.den := by
    unfold Frac.val
    obtain ⟨n, d, hd⟩ := x
    obtain ⟨k, rfl⟩ : ∃ k : Nat, d = k := ⟨d.toNat, by omega⟩
    simp only [Int.cast_natCast]
    exact Rat.floor_intCast_div_natCast n k
  rw [hf]
  have ht : Int.tdiv x.num x.den = if 0 ≤ x.num then x.num / x.den else -(-x.num / x.den) := by
    split
    · rename_i h0; exact Int.tdiv_eq_ediv_of_nonneg h0
    · rename_i h0
      rw [← Int.tdiv_eq_ediv_of_nonneg (show 0 ≤ -x.num by omega), Int.neg_tdiv, neg_neg]
  unfold toCoord clamp
  rw [ht]
  by_cases c : 0 ≤ x.num
  · rw [if_pos c]
    have := Int.ediv_nonneg c x.pos.le
    generalize x.num / x.den = v at *
    split
    · omega
    · split <;> omega
  · rw [if_neg c]
    have h1 := Int.ediv_nonneg (show 0 ≤ -x.num by omega) x.pos.le
    have h2 := Int.ediv_neg_of_neg_of_pos (show x.num < 0 by omega) x.pos
    generalize x.num / x.den = v at *
    generalize -x.num / x.den = u at *
    split
    · omega
    · split <;> omega

theorem column_mono {a b : Frac} (h : a.val ≤ b.val) {hi : Int} (h0 : 0 ≤ hi) : toCoord a 0 hi ≤ toCoord b 0 hi := by
  rw [C41_column _ _ h0, C41_column _ _ h0]
  have := Int.floor_le_floor h
  omega

theorem column_range (a : Frac) {hi : Int} (h0 : 0 ≤ hi) : 0 ≤ toCoord a 0 hi ∧ toCoord a 0 hi ≤ hi := by
  rw [C41_column _ _ h0]; omega

/-- The spans of a row given the crossing before. -/
theorem emit_props (width y : Int) (hw : 0 < width) : ∀ (cs : List Crossing) (p : Crossing) (w : Int),
    RightToLeft (p :: cs) →
    (∀ s ∈ emit width y cs (toCoord p.x 0 (width - 1)) w, 0 ≤ s.x1 ∧ s.x1 ≤ s.x2 ∧ s.x2 < width ∧ s.y = y ∧
      s.x2 ≤ toCoord p.x 0 (width - 1)) ∧
    (emit width y cs (toCoord p.x 0 (width - 1)) w).Pairwise fun s t => t.x2 ≤ s.x1 := by
  intro cs
  induction cs with
  | nil => intro p w _; simp [emit]
  | cons c cs ih =>
    intro p w hs
    have hs' : RightToLeft (c :: cs) := (List.pairwise_cons.mp hs).2
    have hpc : c.x.val ≤ p.x.val := (List.pairwise_cons.mp hs).1 c (by simp)
    obtain ⟨i1, i2⟩ := ih c (w + c.sign) hs'
    have hm := column_mono hpc (hi := width - 1) (by omega)
    have r1 := column_range c.x (hi := width - 1) (by omega)
    have r2 := column_range p.x (hi := width - 1) (by omega)
    unfold emit
    simp only
    split
    · constructor
      · intro s hm'
        rcases List.mem_cons.mp hm' with rfl | hm'
        · exact ⟨r1.1, hm, by show toCoord p.x 0 (width - 1) < width; omega, rfl, le_rfl⟩
        · obtain ⟨a, b, d, e, f⟩ := i1 s hm'
          exact ⟨a, b, d, e, f.trans hm⟩
      · rw [List.pairwise_cons]
        exact ⟨fun s hs => (i1 s hs).2.2.2.2, i2⟩
    · exact ⟨fun s hs => by
        obtain ⟨a, b, d, e, f⟩ := i1 s hs
        exact ⟨a, b, d, e, f.trans hm⟩, i2⟩

/-- C41: the spans of a row lie in the image, their ends are in order, they belong to the row, and each starts where
or right of where the next one ends. -/
theorem C41_in_bounds (width y : Int) (hw : 0 < width) (cs : List Crossing) (hs : RightToLeft cs) (x0 : Int) :
    (∀ s ∈ emit width y cs x0 0, 0 ≤ s.x1 ∧ s.x1 ≤ s.x2 ∧ s.x2 < width ∧ s.y = y) ∧
    (emit width y cs x0 0).Pairwise fun s t => t.x2 ≤ s.x1 := by
  cases cs with
  | nil => simp [emit]
  | cons c cs =>
    obtain ⟨h1, h2⟩ := emit_props width y hw cs c (0 + c.sign) hs
    simp only [emit, ne_eq, not_true, if_false]
    exact ⟨fun s hs => ⟨(h1 s hs).1, (h1 s hs).2.1, (h1 s hs).2.2.1, (h1 s hs).2.2.2.1⟩, h2⟩

theorem windAt_append (a b : List Crossing) (q : ℚ) : windAt (a ++ b) q = windAt a q + windAt b q := by
  unfold windAt; rw [List.filter_append, List.map_append, List.sum_append]

theorem windAt_left (cs : List Crossing) (q : ℚ) (h : ∀ c ∈ cs, q < c.x.val) : windAt cs q = (cs.map Crossing.sign).sum := by
  unfold windAt
  rw [List.filter_eq_self.mpr]
  intro c hc
  exact decide_eq_true (h c hc)

theorem windAt_right (cs : List Crossing) (q : ℚ) (h : ∀ c ∈ cs, c.x.val ≤ q) : windAt cs q = 0 := by
  unfold windAt
  rw [List.filter_eq_nil_iff.mpr]
  · rfl
  · intro c hc
    rw [decide_eq_true_eq, not_lt]
    exact h c hc

/-- What a span stands for: two crossings, one after the other, with that sum of signs up to the first. -/
def FromPair (width y : Int) (cs : List Crossing) (s : Span) (l : List Crossing) (R L : Crossing) (r : List Crossing) : Prop :=
  cs = l ++ R :: L :: r ∧ s = ⟨toCoord L.x 0 (width - 1), toCoord R.x 0 (width - 1), y, ((l ++ [R]).map Crossing.sign).sum⟩

theorem emit_mem (width y : Int) : ∀ (cs l : List Crossing) (p : Crossing) (s : Span),
    s ∈ emit width y cs (toCoord p.x 0 (width - 1)) ((l ++ [p]).map Crossing.sign).sum ↔
      ∃ l' R L r, FromPair width y (l ++ p :: cs) s l' R L r ∧ l.length ≤ l'.length ∧ s.winding ≠ 0 := by
  intro cs
  induction cs with
  | nil =>
    intro l p s
    simp only [emit, List.not_mem_nil, false_iff]
    rintro ⟨l', R, L, r, ⟨h, _⟩, hl, _⟩
    have := congrArg List.length h
    simp at this
    omega
  | cons c cs ih =>
    intro l p s
    have e1 : ((l ++ [p]).map Crossing.sign).sum + c.sign = (((l ++ [p]) ++ [c]).map Crossing.sign).sum := by simp [add_assoc]
    have e2 : l ++ p :: c :: cs = (l ++ [p]) ++ c :: cs := by simp
    unfold emit
    simp only
    rw [e1]
    have key := ih (l ++ [p]) c s
    rw [← e2] at key
    have hsplit : (∃ l' R L r, FromPair width y (l ++ p :: c :: cs) s l' R L r ∧ l.length ≤ l'.length ∧ s.winding ≠ 0) ↔
        (s = ⟨toCoord c.x 0 (width - 1), toCoord p.x 0 (width - 1), y, ((l ++ [p]).map Crossing.sign).sum⟩ ∧
          ((l ++ [p]).map Crossing.sign).sum ≠ 0) ∨
        ∃ l' R L r, FromPair width y (l ++ p :: c :: cs) s l' R L r ∧ (l ++ [p]).length ≤ l'.length ∧ s.winding ≠ 0 := by
      constructor
      · rintro ⟨l', R, L, r, ⟨h, hs⟩, hl, hw⟩
        by_cases hlen : l.length = l'.length
        · obtain ⟨rfl, h2⟩ := List.append_inj h hlen
          rw [List.cons.injEq, List.cons.injEq] at h2
          obtain ⟨rfl, rfl, rfl⟩ := h2
          left
          refine ⟨hs, ?_⟩
          rw [hs] at hw
          exact hw
        · right
          exact ⟨l', R, L, r, ⟨h, hs⟩, by simp; omega, hw⟩
      · rintro (⟨hs, hw⟩ | ⟨l', R, L, r, h, hl, hw⟩)
        · exact ⟨l, p, c, cs, ⟨rfl, hs⟩, le_rfl, by rw [hs]; exact hw⟩
        · exact ⟨l', R, L, r, h, by simp at hl; omega, hw⟩
    rw [hsplit]
    split
    · rename_i hw
      rw [List.mem_cons, key]
      exact or_congr (by constructor
                         · intro h; exact ⟨h, hw⟩
                         · exact fun h => h.1) Iff.rfl
    · rename_i hw
      rw [key]
      constructor
      · exact Or.inr
      · rintro (⟨_, h⟩ | h)
        · exact absurd h hw
        · exact h

/-- C41: a row has exactly one span for each pair of successive crossings between which the sum of signs is not zero;
it goes from the column of the left one to the column of the right one. -/
theorem C41_spans (width y x0 : Int) (cs : List Crossing) (s : Span) :
    s ∈ emit width y cs x0 0 ↔ ∃ l R L r, FromPair width y cs s l R L r ∧ s.winding ≠ 0 := by
  cases cs with
  | nil =>
    simp only [emit, List.not_mem_nil, false_iff]
    rintro ⟨l', R, L, r, ⟨h, _⟩, _⟩
    simp at h
  | cons c cs =>
    have := emit_mem width y cs [] c s
    simp only [emit, ne_eq, not_true, if_false]
    simp only [List.nil_append, List.map_cons, List.map_nil, List.sum_cons, List.sum_nil, add_zero, zero_add,
      List.length_nil, Nat.zero_le, true_and] at this ⊢
    exact this

/-- The span between the crossings number `i` and `i+1`, if the sum of signs up to `i` is not zero. -/
def spanAt (width y : Int) (cs : List Crossing) (i : Nat) : Option Span :=
  match cs[i]?, cs[i+1]? with
  | some R, some L =>
    if ((cs.take (i+1)).map Crossing.sign).sum ≠ 0 then
      some ⟨toCoord L.x 0 (width - 1), toCoord R.x 0 (width - 1), y, ((cs.take (i+1)).map Crossing.sign).sum⟩
    else none
  | _, _ => none

/-- C41: the whole list of spans of a row, one for each two successive crossings with a sum of signs different from 0, in
the order of the crossings. -/
theorem C41_list (width y x0 : Int) (cs : List Crossing) :
    emit width y cs x0 0 = (List.range (cs.length - 1)).filterMap (spanAt width y cs) := by
  have gen : ∀ (cs l : List Crossing) (p : Crossing),
      emit width y cs (toCoord p.x 0 (width - 1)) ((l ++ [p]).map Crossing.sign).sum =
        (List.range cs.length).filterMap fun i => spanAt width y (l ++ p :: cs) (l.length + i) := by
    intro cs
    induction cs with
    | nil => intro l p; rfl
    | cons c cs ih =>
      intro l p
      have e1 : ((l ++ [p]).map Crossing.sign).sum + c.sign = (((l ++ [p]) ++ [c]).map Crossing.sign).sum := by simp [add_assoc]
      have h0 : spanAt width y (l ++ p :: c :: cs) (l.length + 0) = if ((l ++ [p]).map Crossing.sign).sum ≠ 0 then
          some ⟨toCoord c.x 0 (width - 1), toCoord p.x 0 (width - 1), y, ((l ++ [p]).map Crossing.sign).sum⟩ else none := by
        unfold spanAt
        have i1 : (l ++ p :: c :: cs)[l.length + 0]? = some p := by simp
        have i2 : (l ++ p :: c :: cs)[l.length + 0 + 1]? = some c := by simp
        have i3 : (l ++ p :: c :: cs).take (l.length + 0 + 1) = l ++ [p] := by
          rw [List.take_append]; simp
        rw [i1, i2, i3]
      have h1 : (List.range cs.length).filterMap (fun i => spanAt width y (l ++ p :: c :: cs) (l.length + (i + 1))) =
          emit width y cs (toCoord c.x 0 (width - 1)) (((l ++ [p]) ++ [c]).map Crossing.sign).sum := by
        rw [ih (l ++ [p]) c]
        congr 1
        funext i
        simp [Nat.add_assoc, Nat.add_comm 1 i]
      rw [List.length_cons, List.range_succ_eq_map, List.filterMap_cons, List.filterMap_map]
      unfold emit
      simp only [Function.comp_def, Nat.succ_eq_add_one]
      rw [h0, h1, e1]
      by_cases c : ((l ++ [p]).map Crossing.sign).sum = 0
      · rw [if_neg (not_not.mpr c), if_neg (not_not.mpr c)]
      · rw [if_pos c, if_pos c]
  cases cs with
  | nil => rfl
  | cons c cs =>
    have := gen cs [] c
    simp only [emit, ne_eq, not_true, if_false]
    simp only [List.nil_append, List.map_cons, List.map_nil, List.sum_cons, List.sum_nil, add_zero, zero_add,
      List.length_nil] at this
    rw [zero_add, this]
    rfl

/-- C41: the winding carried by a span is the winding number at every abscissa strictly between its two crossings, and
no crossing lies strictly between them. -/
theorem C41_span_winding (width y x0 : Int) (cs : List Crossing) (hs : RightToLeft cs) (s : Span)
    (h : s ∈ emit width y cs x0 0) : ∃ L R, L ∈ cs ∧ R ∈ cs ∧ L.x.val ≤ R.x.val ∧ s.x1 = toCoord L.x 0 (width - 1) ∧
      s.x2 = toCoord R.x 0 (width - 1) ∧ s.winding ≠ 0 ∧
      (∀ q, L.x.val < q → q < R.x.val → windAt cs q = s.winding ∧ ∀ c ∈ cs, c.x.val ≠ q) := by
  obtain ⟨l, R, L, r, ⟨rfl, hs'⟩, hw⟩ := (C41_spans width y x0 cs s).mp h
  unfold RightToLeft at hs
  rw [List.pairwise_append] at hs
  obtain ⟨p1, p2, p3⟩ := hs
  rw [List.pairwise_cons, List.pairwise_cons] at p2
  obtain ⟨q1, q2, q3⟩ := p2
  refine ⟨L, R, by simp, by simp, q1 L (by simp), by rw [hs'], by rw [hs'], hw, ?_⟩
  intro q h1 h2
  constructor
  · rw [show l ++ R :: L :: r = (l ++ [R]) ++ L :: r by simp, windAt_append,
      windAt_left (l ++ [R]), windAt_right (L :: r), add_zero, hs']
    · intro c hc
      rcases List.mem_cons.mp hc with rfl | hc
      · exact h1.le
      · exact (q2 c hc).trans h1.le
    · intro c hc
      rcases List.mem_append.mp hc with hc | hc
      · exact lt_of_lt_of_le h2 (p3 c hc R (by simp))
      · rw [List.mem_singleton] at hc; rw [hc]; exact h2
  · intro c hc
    rcases List.mem_append.mp hc with hc | hc
    · exact (lt_of_lt_of_le h2 (p3 c hc R (by simp))).ne'
    · rcases List.mem_cons.mp hc with rfl | hc
      · exact h2.ne'
      · rcases List.mem_cons.mp hc with rfl | hc
        · exact h1.ne
        · exact (lt_of_le_of_lt (q2 c hc) h1).ne

/-- C41: conversely, every abscissa that is no crossing and has a winding number different from 0 lies strictly between the
two crossings of a span that carries this winding. `hz`: the signs of the row sum to zero (C40). -/
theorem C41_covered (width y x0 : Int) (cs : List Crossing) (hs : RightToLeft cs) (hz : (cs.map Crossing.sign).sum = 0)
    (q : ℚ) (hq : ∀ c ∈ cs, c.x.val ≠ q) (hw : windAt cs q ≠ 0) :
    ∃ s ∈ emit width y cs x0 0, s.winding = windAt cs q ∧ ∃ L R, L ∈ cs ∧ R ∈ cs ∧ L.x.val < q ∧ q < R.x.val ∧
      s.x1 = toCoord L.x 0 (width - 1) ∧ s.x2 = toCoord R.x 0 (width - 1) := by
  -- split the crossings at `q`
  have split : ∀ cs : List Crossing, RightToLeft cs → (∀ c ∈ cs, c.x.val ≠ q) →
      ∃ l r, cs = l ++ r ∧ (∀ c ∈ l, q < c.x.val) ∧ ∀ c ∈ r, c.x.val < q := by
    intro cs
    induction cs with
    | nil => intro _ _; exact ⟨[], [], rfl, by simp, by simp⟩
    | cons c cs ih =>
      intro hs hq
      unfold RightToLeft at hs
      rw [List.pairwise_cons] at hs
      rcases lt_or_gt_of_ne (hq c (by simp)) with h | h
      · refine ⟨[], c :: cs, rfl, by simp, ?_⟩
        intro d hd
        rcases List.mem_cons.mp hd with rfl | hd
        · exact h
        · exact lt_of_le_of_lt (hs.1 d hd) h
      · obtain ⟨l, r, rfl, h1, h2⟩ := ih hs.2 (fun d hd => hq d (by simp [hd]))
        refine ⟨c :: l, r, rfl, ?_, h2⟩
        intro d hd
        rcases List.mem_cons.mp hd with rfl | hd
        · exact h
        · exact h1 d hd
  obtain ⟨l, r, rfl, h1, h2⟩ := split cs hs hq
  have hwl : windAt (l ++ r) q = (l.map Crossing.sign).sum := by
    rw [windAt_append, windAt_left l q h1, windAt_right r q (fun c hc => (h2 c hc).le), add_zero]
  rw [hwl] at hw ⊢
  rcases List.eq_nil_or_concat l with rfl | ⟨l', R, rfl⟩
  · simp at hw
  · cases r with
    | nil => rw [List.append_nil] at hz; exact absurd hz hw
    | cons L r =>
      refine ⟨⟨toCoord L.x 0 (width - 1), toCoord R.x 0 (width - 1), y, ((l' ++ [R]).map Crossing.sign).sum⟩, ?_, ?_, L, R, ?_⟩
      · rw [C41_spans]
        exact ⟨l', R, L, r, ⟨by simp, rfl⟩, by simpa using hw⟩
      · simp
      · exact ⟨by simp, by simp, h2 L (by simp), h1 R (by simp), rfl, rfl⟩

/-- C41: a span whose crossings are `L` and `R` paints exactly the columns of the image that meet the closed interval from
`L` to `R`, provided this interval meets the image. -/
theorem C41_pixels (width : Int) (L R : Frac) (hL : L.val < width) (hR : 0 ≤ R.val) (p : Int) (h0 : 0 ≤ p) (h1 : p < width) :
    (toCoord L 0 (width - 1) ≤ p ∧ p ≤ toCoord R 0 (width - 1)) ↔ (L.val < p + 1 ∧ (p : ℚ) ≤ R.val) := by
  rw [C41_column _ _ (by omega), C41_column _ _ (by omega)]
  have a1 : L.val < p + 1 ↔ ⌊L.val⌋ ≤ p := by
    rw [← Int.lt_add_one_iff, Int.floor_lt]; push_cast; rfl
  have a2 : (p : ℚ) ≤ R.val ↔ p ≤ ⌊R.val⌋ := Int.le_floor.symm
  have a3 : ⌊L.val⌋ < width := Int.floor_lt.mpr hL
  have a4 : 0 ≤ ⌊R.val⌋ := Int.le_floor.mpr (by exact_mod_cast hR)
  rw [a1, a2]
  omega

/-- C41 is false for shapes beside the image: a span that ends left of the image paints column 0, and one that starts right
of it paints the last column. -/
theorem C41_outside (width : Int) (hw : 0 < width) (L R : Frac) (hLR : L.val ≤ R.val) :
    (R.val < 0 → toCoord L 0 (width - 1) = 0 ∧ toCoord R 0 (width - 1) = 0) ∧
    ((width : ℚ) ≤ L.val → toCoord L 0 (width - 1) = width - 1 ∧ toCoord R 0 (width - 1) = width - 1) := by
  rw [C41_column _ _ (by omega), C41_column _ _ (by omega)]
  have := Int.floor_le_floor hLR
  constructor
  · intro h
    have : ⌊R.val⌋ < 0 := Int.floor_lt.mpr (by exact_mod_cast h)
    omega
  · intro h
    have : width ≤ ⌊L.val⌋ := Int.le_floor.mpr h
    omega

/-- C41: the fill rules select by the winding number. -/
theorem C41_fill (w : Int) : (shouldFill .nonZero w = true ↔ w ≠ 0) ∧ (shouldFill .evenOdd w = true ↔ w % 2 = 1) ∧
    (shouldFill .positive w = true ↔ 0 < w) ∧ (shouldFill .negative w = true ↔ w < 0) := by
  refine ⟨by simp [shouldFill], ?_, by simp [shouldFill], by simp [shouldFill]⟩
  simp only [shouldFill, ne_eq, decide_eq_true_eq]
  have := Int.tmod_two_eq w
  have h2 := Int.mul_tdiv_add_tmod w 2
  omega

/-- C41: a scan calls the fill function for exactly the spans, of rows from 0 on, that the rule selects. -/
theorem C41_draw (l : LPts) (nodes : List Seg) (width : Int) (rule : Rule) (rs : List (Int × List Nat)) (x1 x2 y : Int) :
    (x1, x2, y) ∈ drawCalls l nodes width rule rs ↔
      ∃ row ∈ rs, row.1 ≥ 0 ∧ ∃ s ∈ emit width row.1 (crossings l nodes row.1 row.2) 0 0,
        shouldFill rule s.winding = true ∧ s.x1 = x1 ∧ s.x2 = x2 ∧ s.y = y := by
  unfold drawCalls
  simp only [List.mem_map, List.mem_filter, List.mem_flatMap, rowSpans, Prod.mk.injEq]
  constructor
  · rintro ⟨s, ⟨⟨row, hr, hs⟩, hf⟩, h1, h2, h3⟩
    split at hs
    · rename_i h; exact ⟨row, hr, h, s, hs, hf, h1, h2, h3⟩
    · simp at hs
  · rintro ⟨row, hr, h, s, hs, hf, h1, h2, h3⟩
    exact ⟨s, ⟨⟨row, hr, by rw [if_pos h]; exact hs⟩, hf⟩, h1, h2, h3⟩

/-- Non-vacuity: two crossings, at 7/2 and 3/2, of signs +1 and -1, give one span over the columns 1 to 3. -/
example : emit 10 0 [⟨⟨7, 2, by decide⟩, 1⟩, ⟨⟨3, 2, by decide⟩, -1⟩] 0 0 = [⟨1, 3, 0, 1⟩] := by decide

example : RightToLeft [⟨⟨7, 2, by decide⟩, 1⟩, ⟨⟨3, 2, by decide⟩, -1⟩] := by
  simp [RightToLeft, Frac.val]; norm_num

end PolyOps.Raster
