import Verif.Model.Balance
import Verif.Props.GeomChecked

/-! Properties C18, C19 (paired scan), C20. -/
namespace PolyOps

/-! ### C18: the geometric meaning of the scan

Specification: crossings of a vertical ray. All points are rational. -/

/-- The vertical line at `x` crosses the line strictly between its ends. -/
def Line.covers (l : Line) (x : Rat) : Prop :=
  ((l.p.x : Rat) < x ∧ x < l.q.x) ∨ ((l.q.x : Rat) < x ∧ x < l.p.x)

instance (l : Line) (x : Rat) : Decidable (l.covers x) := by unfold Line.covers; infer_instance

/-- Height of the line at `x` (y grows downwards). -/
def Line.yAt (l : Line) (x : Rat) : Rat :=
  l.p.y + (x - l.p.x) * ((l.q.y : Rat) - l.p.y) / ((l.q.x : Rat) - l.p.x)

/-- +1 for a line going right, -1 for a line going left, 0 for a vertical one. -/
def Line.dir (l : Line) : Int := if l.p.x < l.q.x then 1 else if l.q.x < l.p.x then -1 else 0

/-- Signed number of lines of one set above a point: the winding number of the point (for a point whose
vertical line meets no vertex). -/
def crossAbove (L : List Line) (k : BSet) (x y : Rat) : Int :=
  (L.map fun l => if l.set = k ∧ l.covers x ∧ l.yAt x < y then l.dir else 0).sum

/-- The same, with coincident lines stacked: of two lines at the same height the one with the larger index is
above. `(y, i)` is the position of line `i` at height `y`. -/
def stackAbove (L : List Line) (k : BSet) (x y : Rat) (i : Nat) : Int :=
  (L.map fun l => if l.set = k ∧ l.covers x ∧ (l.yAt x < y ∨ (l.yAt x = y ∧ l.idx > i)) then l.dir else 0).sum

/-- Vertical lines that coincide with `l` from their start, have the same direction and a larger index. -/
def vertStack (L : List Line) (k : BSet) (l : Line) : Int :=
  (L.map fun s => if s.set = k ∧ s.p = l.p ∧ s.q.x = s.p.x ∧ (s.q.y > s.p.y ↔ l.q.y > l.p.y) ∧ s.idx > l.idx
    then 1 else 0).sum

/-- `hits` of the stacked count. -/
def stackHits (L : List Line) (x y : Rat) (i : Nat) : List Nat :=
  (L.filter fun l => decide (l.covers x ∧ (l.yAt x < y ∨ (l.yAt x = y ∧ l.idx > i)))).map Line.idx

/-! Auxiliary: the ray test against one line. -/

theorem eventually_and {P Q : Rat → Prop}
    (hP : ∃ e0 : Rat, 0 < e0 ∧ ∀ e, 0 < e → e < e0 → P e) (hQ : ∃ e0 : Rat, 0 < e0 ∧ ∀ e, 0 < e → e < e0 → Q e) :
    ∃ e0 : Rat, 0 < e0 ∧ ∀ e, 0 < e → e < e0 → P e ∧ Q e := by
  obtain ⟨a, ha, h1⟩ := hP
  obtain ⟨b, hb, h2⟩ := hQ
  exact ⟨min a b, lt_min ha hb, fun e h0 h => ⟨h1 e h0 (lt_of_lt_of_le h (min_le_left _ _)),
    h2 e h0 (lt_of_lt_of_le h (min_le_right _ _))⟩⟩

theorem eventually_list {α : Type} (L : List α) {P : α → Rat → Prop}
    (h : ∀ a ∈ L, ∃ e0 : Rat, 0 < e0 ∧ ∀ e, 0 < e → e < e0 → P a e) :
    ∃ e0 : Rat, 0 < e0 ∧ ∀ e, 0 < e → e < e0 → ∀ a ∈ L, P a e := by
  induction L with
  | nil => exact ⟨1, one_pos, by simp⟩
  | cons a L ih =>
    obtain ⟨e0, h0, h1⟩ := eventually_and (h a (by simp)) (ih (fun b hb => h b (by simp [hb])))
    refine ⟨e0, h0, fun e he hl b hb => ?_⟩
    rcases List.mem_cons.mp hb with rfl | hb
    · exact (h1 e he hl).1
    · exact (h1 e he hl).2 b hb

theorem sa_le_sb (l : Line) : l.sa.x ≤ l.sb.x := by
  unfold Line.sa Line.sb Line.aIsMain
  by_cases h : l.p.x ≤ l.q.x
  · simp [h]
  · simp [h]; omega

theorem covers_iff (l : Line) (x : Rat) : l.covers x ↔ (l.sa.x : Rat) < x ∧ x < l.sb.x := by
  unfold Line.covers Line.sa Line.sb Line.aIsMain
  by_cases h : l.p.x ≤ l.q.x
  · have h' : (l.p.x : Rat) ≤ l.q.x := by exact_mod_cast h
    simp only [h, decide_true, if_true]
    constructor
    · rintro (h1 | ⟨h1, h2⟩)
      · exact h1
      · exact absurd (h1.trans h2) (not_lt.mpr h')
    · exact Or.inl
  · have h' : (l.q.x : Rat) < l.p.x := by exact_mod_cast (not_le.mp h)
    simp only [h, decide_false, Bool.false_eq_true, if_false]
    constructor
    · rintro (⟨h1, h2⟩ | h1)
      · exact absurd (h1.trans h2) (not_lt.mpr h'.le)
      · exact h1
    · exact Or.inr

/-- Height in terms of the ordered segment. -/
theorem yAt_seg (l : Line) (h : l.p.x ≠ l.q.x) (x : Rat) :
    l.yAt x = l.sa.y + (x - l.sa.x) * ((l.sb.y : Rat) - l.sa.y) / ((l.sb.x : Rat) - l.sa.x) := by
  unfold Line.yAt Line.sa Line.sb Line.aIsMain
  by_cases hl : l.p.x ≤ l.q.x
  · simp only [hl, decide_true, if_true]
  · simp only [hl, decide_false, Bool.false_eq_true, if_false]
    have h1 : (l.p.x : Rat) - l.q.x ≠ 0 := by
      rw [sub_ne_zero]; exact_mod_cast h
    have h2 : (l.q.x : Rat) - l.p.x ≠ 0 := by
      rw [sub_ne_zero]; exact_mod_cast (Ne.symm h)
    field_simp
    ring

/-- Sign of an integer as a rational step. -/
def sgn (v : Int) : Rat := if v < 0 then -1 else 1

theorem cover_near (a b p : Int) (σ : Rat) (hσ : σ = 1 ∨ σ = -1) (e : Rat) (h0 : 0 < e) (h1 : e < 1) :
    ((a : Rat) < p + σ * e ∧ (p : Rat) + σ * e < b) ↔
      ¬ (p < a ∨ (p = a ∧ σ = -1)) ∧ ¬ (p > b ∨ (p = b ∧ σ = 1)) := by
  rcases hσ with rfl | rfl
  · have e1 : ((a : Rat) < p + 1 * e) ↔ a ≤ p := by
      constructor
      · intro h
        have : (a : Rat) < p + 1 := by linarith
        have : a < p + 1 := by exact_mod_cast this
        omega
      · intro h
        have : (a : Rat) ≤ p := by exact_mod_cast h
        linarith
    have e2 : ((p : Rat) + 1 * e < b) ↔ p < b := by
      constructor
      · intro h
        have : (p : Rat) < b := by linarith
        exact_mod_cast this
      · intro h
        have : (p : Rat) + 1 ≤ b := by exact_mod_cast h
        linarith
    rw [e1, e2]
    have : ¬ (1 : Rat) = -1 := by norm_num
    simp only [this, and_false, or_false, and_true]
    omega
  · have e1 : ((a : Rat) < p + -1 * e) ↔ a < p := by
      constructor
      · intro h
        have : (a : Rat) < p := by linarith
        exact_mod_cast this
      · intro h
        have : (a : Rat) + 1 ≤ p := by exact_mod_cast h
        linarith
    have e2 : ((p : Rat) + -1 * e < b) ↔ p ≤ b := by
      constructor
      · intro h
        have : (p : Rat) < b + 1 := by linarith
        have : p < b + 1 := by exact_mod_cast this
        omega
      · intro h
        have : (p : Rat) ≤ b := by exact_mod_cast h
        linarith
    rw [e1, e2]
    have : ¬ (-1 : Rat) = 1 := by norm_num
    simp only [this, and_false, or_false, and_true]
    omega

/-- Two affine functions of `e` with integer values at 0 that differ keep their order near 0. -/
theorem affine_lt (t u : Int) (h : t < u) (A C : Rat) :
    ∃ e0 : Rat, 0 < e0 ∧ ∀ e, 0 < e → e < e0 → (t : Rat) + e * A < u + e * C := by
  refine ⟨1 / (|A - C| + 1), by positivity, fun e h0 h1 => ?_⟩
  have hp : 0 < |A - C| + 1 := by positivity
  rw [lt_div_iff₀ hp] at h1
  have h2 : (t : Rat) + 1 ≤ u := by exact_mod_cast h
  have h3 : e * (A - C) ≤ e * |A - C| := mul_le_mul_of_nonneg_left (le_abs_self _) h0.le
  nlinarith

/-- The ray test for a line that is not vertical. -/
theorem upRay_iff (s : Line) (l : Line) (hl : l.p.x ≠ l.q.x) (tie : Bool) :
    ∃ e0 : Rat, 0 < e0 ∧ ∀ e, 0 < e → e < e0 →
      (upRay s.sa s.sb l.p (hsignOf l.delta) l.delta tie = true ↔
        s.covers (l.p.x + sgn (l.q.x - l.p.x) * e) ∧
        (s.yAt (l.p.x + sgn (l.q.x - l.p.x) * e) < l.yAt (l.p.x + sgn (l.q.x - l.p.x) * e) ∨
          (s.yAt (l.p.x + sgn (l.q.x - l.p.x) * e) = l.yAt (l.p.x + sgn (l.q.x - l.p.x) * e) ∧ tie = true))) := by
  have hdx : l.delta.x = l.q.x - l.p.x := rfl
  have hdy : l.delta.y = l.q.y - l.p.y := rfl
  have hdx0 : l.delta.x ≠ 0 := by rw [hdx]; omega
  have hh : hsignOf l.delta = l.delta.x := by unfold hsignOf; rw [if_pos hdx0]
  rw [hh]
  by_cases hs : s.p.x = s.q.x
  · -- vertical `s`: never counted, never covered
    have e1 : s.sb.x - s.sa.x = 0 := by
      unfold Line.sa Line.sb Line.aIsMain; simp [hs]
    refine ⟨1, one_pos, fun e _ _ => ?_⟩
    have c1 : ¬ s.covers (l.p.x + sgn (l.q.x - l.p.x) * e) := by
      rw [covers_iff]
      rintro ⟨h1, h2⟩
      have : (s.sb.x : Rat) = s.sa.x := by
        have : s.sb.x = s.sa.x := by omega
        exact_mod_cast this
      linarith
    have u1 : upRay s.sa s.sb l.p l.delta.x l.delta tie = false := by
      unfold upRay vertOverlap
      simp only [Pt.sub_x, e1, if_true, hdx0, decide_false, Bool.and_false, Bool.false_and]
    rw [u1]; simp [c1]
  · have hlt : s.sa.x < s.sb.x := by
      have := sa_le_sb s
      rcases lt_or_eq_of_le this with h | h
      · exact h
      · exfalso; apply hs
        unfold Line.sa Line.sb Line.aIsMain at h
        by_cases c : s.p.x ≤ s.q.x
        · simpa [c] using h
        · simp [c] at h; exact h.symm
    have hltq : (0 : Rat) < (s.sb.x : Rat) - s.sa.x := by
      have : (s.sa.x : Rat) < s.sb.x := by exact_mod_cast hlt
      linarith
    have hσ : sgn (l.q.x - l.p.x) = 1 ∨ sgn (l.q.x - l.p.x) = -1 := by
      unfold sgn; split <;> simp
    have hσd : ∃ m : Rat, 0 < m ∧ ((l.q.x : Rat) - l.p.x) = sgn (l.q.x - l.p.x) * m := by
      unfold sgn
      split
      · rename_i h
        refine ⟨(l.p.x : Rat) - l.q.x, ?_, by ring⟩
        have : (l.q.x : Rat) < l.p.x := by exact_mod_cast (by omega : l.q.x < l.p.x)
        linarith
      · rename_i h
        refine ⟨(l.q.x : Rat) - l.p.x, ?_, by ring⟩
        have : (l.p.x : Rat) < l.q.x := by exact_mod_cast (by omega : l.p.x < l.q.x)
        linarith
    have hneg : sgn (l.q.x - l.p.x) = -1 ↔ l.delta.x < 0 := by
      rw [hdx]; unfold sgn; split
      · simp [*]
      · rename_i h; simp only [h, iff_false]; norm_num
    have hpos : sgn (l.q.x - l.p.x) = 1 ↔ l.delta.x > 0 := by
      rw [hdx]; unfold sgn; split
      · rename_i h
        constructor
        · intro h'; norm_num at h'
        · intro h'; omega
      · rename_i h
        constructor
        · intro _; rw [hdx] at hdx0; omega
        · intro _; rfl
    generalize sgn (l.q.x - l.p.x) = σ at *
    -- heights, multiplied by the positive width of `s`
    let t : Int := (l.p.x - s.sa.x) * (s.sb.y - s.sa.y)
    let u : Int := (l.p.y - s.sa.y) * (s.sb.x - s.sa.x)
    let A : Rat := σ * ((s.sb.y : Rat) - s.sa.y)
    let C : Rat := σ * (((l.q.y : Rat) - l.p.y) / ((l.q.x : Rat) - l.p.x)) * ((s.sb.x : Rat) - s.sa.x)
    have hdxq : ((l.q.x : Rat) - l.p.x) ≠ 0 := by
      rw [sub_ne_zero]; exact_mod_cast (Ne.symm hl)
    have ht : (t : Rat) = ((l.p.x : Rat) - s.sa.x) * ((s.sb.y : Rat) - s.sa.y) := by simp only [t]; push_cast; ring
    have hu : (u : Rat) = ((l.p.y : Rat) - s.sa.y) * ((s.sb.x : Rat) - s.sa.x) := by simp only [u]; push_cast; ring
    have hS : ∀ e : Rat, (s.yAt (l.p.x + σ * e) - s.sa.y) * ((s.sb.x : Rat) - s.sa.x) = t + e * A := by
      intro e
      rw [yAt_seg s hs, ht]
      simp only [A]
      field_simp
      ring
    have hL : ∀ e : Rat, (l.yAt (l.p.x + σ * e) - s.sa.y) * ((s.sb.x : Rat) - s.sa.x) = u + e * C := by
      intro e
      rw [hu]
      unfold Line.yAt
      simp only [C]
      field_simp
      ring
    have lt_iff : ∀ e : Rat, s.yAt (l.p.x + σ * e) < l.yAt (l.p.x + σ * e) ↔ (t : Rat) + e * A < u + e * C := by
      intro e
      rw [← hS, ← hL]
      constructor
      · intro h; exact mul_lt_mul_of_pos_right (by linarith) hltq
      · intro h; have := lt_of_mul_lt_mul_right h hltq.le; linarith
    have eq_iff : ∀ e : Rat, s.yAt (l.p.x + σ * e) = l.yAt (l.p.x + σ * e) ↔ (t : Rat) + e * A = u + e * C := by
      intro e
      rw [← hS, ← hL]
      constructor
      · intro h; rw [h]
      · intro h; have := mul_right_cancel₀ hltq.ne' h; linarith
    -- slopes
    let v : Int := (s.sb.y - s.sa.y) * l.delta.x
    let w : Int := l.delta.y * (s.sb.x - s.sa.x)
    obtain ⟨m, hm, hmd⟩ := hσd
    have hσ2 : σ * σ = 1 := by rcases hσ with h | h <;> rw [h] <;> norm_num
    have hAv : A * m = (v : Rat) := by
      simp only [A, v]; push_cast; rw [hdx]; push_cast; rw [hmd]; ring
    have hCw : C * m = (w : Rat) := by
      have hC : C = σ * ((l.q.y : Rat) - l.p.y) * ((s.sb.x : Rat) - s.sa.x) / (σ * m) := by
        simp only [C]; rw [hmd]; ring
      have hσ0 : σ ≠ 0 := by rcases hσ with h | h <;> rw [h] <;> norm_num
      rw [hC]
      simp only [w, hdy]; push_cast
      field_simp
    have AC_lt : A < C ↔ v < w := by
      constructor
      · intro h
        have := mul_lt_mul_of_pos_right h hm
        rw [hAv, hCw] at this; exact_mod_cast this
      · intro h
        have h' : (v : Rat) < w := by exact_mod_cast h
        rw [← hAv, ← hCw] at h'
        exact lt_of_mul_lt_mul_right h' hm.le
    have AC_eq : A = C ↔ v = w := by
      constructor
      · intro h
        have : A * m = C * m := by rw [h]
        rw [hAv, hCw] at this; exact_mod_cast this
      · intro h
        have h' : (v : Rat) = w := by exact_mod_cast h
        rw [← hAv, ← hCw] at h'
        exact mul_right_cancel₀ hm.ne' h'
    -- the order of the heights near the start
    have order : ∃ e0 : Rat, 0 < e0 ∧ ∀ e, 0 < e → e < e0 →
        ((t : Rat) + e * A < u + e * C ↔ t < u ∨ (t = u ∧ v < w)) ∧
        ((t : Rat) + e * A = u + e * C ↔ t = u ∧ v = w) := by
      rcases lt_trichotomy t u with h | h | h
      · obtain ⟨e0, h0, h1⟩ := affine_lt t u h A C
        refine ⟨e0, h0, fun e he hl => ?_⟩
        have := h1 e he hl
        exact ⟨by simp [this, h], by simp [this.ne, h.ne]⟩
      · refine ⟨1, one_pos, fun e he _ => ?_⟩
        rw [h]
        constructor
        · rw [add_lt_add_iff_left, mul_lt_mul_iff_right₀ he, AC_lt]; simp
        · rw [add_right_inj, mul_right_inj' he.ne', AC_eq]; simp
      · obtain ⟨e0, h0, h1⟩ := affine_lt u t h C A
        refine ⟨e0, h0, fun e he hl => ?_⟩
        have := h1 e he hl
        refine ⟨?_, ?_⟩
        · constructor
          · intro h'; exact absurd this (not_lt.mpr h'.le)
          · rintro (h' | ⟨h', _⟩) <;> omega
        · constructor
          · intro h'; exact absurd this (by rw [h']; exact lt_irrefl _)
          · rintro ⟨h', _⟩; omega
    obtain ⟨e0, h0, h1⟩ := order
    refine ⟨min e0 1, lt_min h0 one_pos, fun e he hle => ?_⟩
    obtain ⟨o1, o2⟩ := h1 e he (lt_of_lt_of_le hle (min_le_left _ _))
    rw [covers_iff, lt_iff, eq_iff, o1, o2,
      cover_near _ _ _ σ hσ e he (lt_of_lt_of_le hle (min_le_right _ _)), hneg, hpos]
    have hds : ¬ (s.sb - s.sa).x = 0 := by simp only [Pt.sub_x]; omega
    unfold upRay lowerAngle
    simp only [hds, if_false]
    by_cases c1 : l.p.x < s.sa.x ∨ l.p.x = s.sa.x ∧ l.delta.x < 0
    · simp only [c1, if_true, not_true, false_and, Bool.false_eq_true]
    by_cases c2 : l.p.x > s.sb.x ∨ l.p.x = s.sb.x ∧ l.delta.x > 0
    · simp only [c1, c2, if_true, if_false, not_true, and_false, false_and, Bool.false_eq_true]
    simp only [c1, c2, if_false, not_false_eq_true, true_and, Bool.or_eq_true, Bool.and_eq_true, decide_eq_true_eq, Pt.sub_x, Pt.sub_y]
    have key : ∀ a b c d : Prop, (a ∨ b ∧ (c ∨ d ∧ tie = true)) ↔ ((a ∨ b ∧ c) ∨ (b ∧ d) ∧ tie = true) := by
      intro a b c d
      constructor
      · rintro (h | ⟨h, h' | ⟨h', h''⟩⟩)
        · exact Or.inl (Or.inl h)
        · exact Or.inl (Or.inr ⟨h, h'⟩)
        · exact Or.inr ⟨⟨h, h'⟩, h''⟩
      · rintro ((h | ⟨h, h'⟩) | ⟨⟨h, h'⟩, h''⟩)
        · exact Or.inl h
        · exact Or.inr ⟨h, Or.inl h'⟩
        · exact Or.inr ⟨h, Or.inr ⟨h', h''⟩⟩
    exact key _ _ _ _

/-- The ray test for a vertical line, against a line that is not vertical: the sample point lies a little
further along the line (`δ`) and much less to its outer side (`e`). -/
theorem upRay_vert_iff (s l : Line) (hl : l.p.x = l.q.x) (hly : l.p.y ≠ l.q.y) (hs : s.p.x ≠ s.q.x) (tie : Bool) :
    ∃ d0 : Rat, 0 < d0 ∧ ∀ d, 0 < d → d < d0 → ∃ e0 : Rat, 0 < e0 ∧ ∀ e, 0 < e → e < e0 →
      (upRay s.sa s.sb l.p (hsignOf l.delta) l.delta tie = true ↔
        s.covers (l.p.x + sgn (l.q.y - l.p.y) * e) ∧
        s.yAt (l.p.x + sgn (l.q.y - l.p.y) * e) < l.p.y + sgn (l.q.y - l.p.y) * d) := by
  have hdx0 : l.delta.x = 0 := by show l.q.x - l.p.x = 0; omega
  have hdy : l.delta.y = l.q.y - l.p.y := rfl
  have hh : hsignOf l.delta = l.delta.y := by unfold hsignOf; rw [if_neg (by simpa using hdx0)]
  rw [hh]
  have hlt : s.sa.x < s.sb.x := by
    have := sa_le_sb s
    rcases lt_or_eq_of_le this with h | h
    · exact h
    · exfalso; apply hs
      unfold Line.sa Line.sb Line.aIsMain at h
      by_cases c : s.p.x ≤ s.q.x
      · simpa [c] using h
      · simp [c] at h; exact h.symm
  have hltq : (0 : Rat) < (s.sb.x : Rat) - s.sa.x := by
    have : (s.sa.x : Rat) < s.sb.x := by exact_mod_cast hlt
    linarith
  have hσ : sgn (l.q.y - l.p.y) = 1 ∨ sgn (l.q.y - l.p.y) = -1 := by
    unfold sgn; split <;> simp
  have hneg : sgn (l.q.y - l.p.y) = -1 ↔ l.delta.y < 0 := by
    rw [hdy]; unfold sgn; split
    · simp [*]
    · rename_i h; simp only [h, iff_false]; norm_num
  have hpos : sgn (l.q.y - l.p.y) = 1 ↔ l.delta.y > 0 := by
    rw [hdy]; unfold sgn; split
    · rename_i h
      constructor
      · intro h'; norm_num at h'
      · intro h'; omega
    · rename_i h
      constructor
      · intro _; omega
      · intro _; rfl
  generalize sgn (l.q.y - l.p.y) = σ at *
  let t : Int := (l.p.x - s.sa.x) * (s.sb.y - s.sa.y)
  let u : Int := (l.p.y - s.sa.y) * (s.sb.x - s.sa.x)
  let A : Rat := σ * ((s.sb.y : Rat) - s.sa.y)
  let W : Rat := (s.sb.x : Rat) - s.sa.x
  have ht : (t : Rat) = ((l.p.x : Rat) - s.sa.x) * ((s.sb.y : Rat) - s.sa.y) := by simp only [t]; push_cast; ring
  have hu : (u : Rat) = ((l.p.y : Rat) - s.sa.y) * ((s.sb.x : Rat) - s.sa.x) := by simp only [u]; push_cast; ring
  have hS : ∀ e : Rat, (s.yAt (l.p.x + σ * e) - s.sa.y) * W = t + e * A := by
    intro e
    rw [yAt_seg s hs, ht]
    simp only [A, W]
    field_simp
    ring
  have lt_iff : ∀ e d : Rat, s.yAt (l.p.x + σ * e) < l.p.y + σ * d ↔ (t : Rat) + e * A < u + σ * d * W := by
    intro e d
    have : (l.p.y + σ * d - s.sa.y) * W = u + σ * d * W := by rw [hu]; simp only [W]; ring
    rw [← hS, ← this]
    constructor
    · intro h; exact mul_lt_mul_of_pos_right (by linarith) hltq
    · intro h; have := lt_of_mul_lt_mul_right h hltq.le; linarith
  have hds : ¬ (s.sb - s.sa).x = 0 := by simp only [Pt.sub_x]; omega
  -- what the test computes
  have htest : upRay s.sa s.sb l.p l.delta.y l.delta tie = true ↔
      (¬ (l.p.x < s.sa.x ∨ (l.p.x = s.sa.x ∧ σ = -1)) ∧ ¬ (l.p.x > s.sb.x ∨ (l.p.x = s.sb.x ∧ σ = 1))) ∧
      (t < u ∨ (t = u ∧ σ = 1)) := by
    rw [hneg, hpos]
    unfold upRay lowerAngle
    simp only [hds, if_false]
    by_cases c1 : l.p.x < s.sa.x ∨ l.p.x = s.sa.x ∧ l.delta.y < 0
    · simp only [c1, if_true, not_true, false_and, Bool.false_eq_true]
    by_cases c2 : l.p.x > s.sb.x ∨ l.p.x = s.sb.x ∧ l.delta.y > 0
    · simp only [c1, c2, if_true, if_false, not_true, and_false, false_and, Bool.false_eq_true]
    simp only [c1, c2, if_false, not_false_eq_true, true_and, Bool.or_eq_true, Bool.and_eq_true, decide_eq_true_eq, hdx0, mul_zero]
    have hw : (s.sb - s.sa).x > 0 := by simp only [Pt.sub_x]; omega
    have k1 : (0 < l.delta.y * (s.sb - s.sa).x) ↔ l.delta.y > 0 := by
      constructor
      · intro h; exact (mul_pos_iff_of_pos_right hw).mp h
      · intro h; exact mul_pos h hw
    have k2 : ¬ (0 = l.delta.y * (s.sb - s.sa).x) := by
      intro h
      rcases mul_eq_zero.mp h.symm with h | h
      · rw [hdy] at h; omega
      · omega
    rw [k1]
    simp only [k2, false_and, or_false]
    exact Iff.rfl
  have shrink : ∀ z : Rat, 0 < z → ∃ e0 : Rat, 0 < e0 ∧ ∀ e, 0 < e → e < e0 → |e * A| < z := by
    intro z hz
    refine ⟨z / (|A| + 1), by positivity, fun e he h => ?_⟩
    have hp : 0 < |A| + 1 := by positivity
    rw [lt_div_iff₀ hp] at h
    rw [abs_mul, abs_of_pos he]
    nlinarith [abs_nonneg A]
  have hdpos : 0 < 1 / (W + 1) := by
    have : 0 < W + 1 := by simp only [W]; linarith
    positivity
  refine ⟨1 / (W + 1), hdpos, fun d hd0 hd1 => ?_⟩
  have hWpos : 0 < W := hltq
  have hdW : d * W < 1 := by
    rw [lt_div_iff₀ (by linarith)] at hd1
    nlinarith
  have hdW0 : 0 < d * W := mul_pos hd0 hWpos
  obtain ⟨e0, he0, he1⟩ := shrink (min (d * W) (1 - d * W)) (lt_min hdW0 (by linarith))
  refine ⟨min e0 1, lt_min he0 one_pos, fun e he hle => ?_⟩
  have hea := he1 e he (lt_of_lt_of_le hle (min_le_left _ _))
  rw [covers_iff, lt_iff, cover_near _ _ _ σ hσ e he (lt_of_lt_of_le hle (min_le_right _ _)), htest]
  have hea1 := lt_of_lt_of_le hea (min_le_left _ _)
  have hea2 := lt_of_lt_of_le hea (min_le_right _ _)
  rw [abs_lt] at hea1 hea2
  refine and_congr_right fun _ => ?_
  rcases lt_trichotomy t u with h | h | h
  · have hq : (t : Rat) + 1 ≤ u := by exact_mod_cast h
    constructor
    · intro _
      rcases hσ with hσ | hσ <;> rw [hσ] <;> nlinarith
    · intro _; exact Or.inl h
  · have hq : (t : Rat) = u := by exact_mod_cast h
    constructor
    · rintro (h' | ⟨_, h'⟩)
      · omega
      · rw [h']; nlinarith
    · intro h'
      rcases hσ with hσ | hσ
      · exact Or.inr ⟨h, hσ⟩
      · rw [hσ] at h'; nlinarith
  · have hq : (u : Rat) + 1 ≤ t := by exact_mod_cast h
    constructor
    · rintro (h' | ⟨h', _⟩) <;> omega
    · intro h'
      rcases hσ with hσ | hσ <;> rw [hσ] at h' <;> nlinarith

theorem sum_map_add {α : Type} (L : List α) (f g : α → Int) :
    (L.map fun a => f a + g a).sum = (L.map f).sum + (L.map g).sum := by
  induction L with
  | nil => rfl
  | cons a L ih => simp only [List.map_cons, List.sum_cons, ih]; ring

/-- One line's contribution to the scan. -/
def contrib (l : Line) (k : BSet) (s : Line) : Int :=
  if s.idx ≠ l.idx ∧ upRay s.sa s.sb l.p (hsignOf l.delta) l.delta (decide (s.idx > l.idx)) = true ∧ s.set = k
  then (if s.aIsMain then 1 else -1) else 0

theorem Wn.get_add (w : Wn) (j k : BSet) (v : Int) : (w.add j v).get k = w.get k + if j = k then v else 0 := by
  cases j <;> cases k <;> simp [Wn.add, Wn.get]

theorem lineBal_get (l : Line) (L : List Line) (k : BSet) :
    (lineBal l L).wn.get k = (LineBal.init l).wn.get k + (L.map (contrib l k)).sum := by
  unfold lineBal
  generalize LineBal.init l = b
  induction L generalizing b with
  | nil => simp
  | cons s L ih =>
    rw [List.foldl_cons, ih, List.map_cons, List.sum_cons, ← add_assoc]
    congr 1
    unfold LineBal.check contrib
    by_cases c1 : s.idx ≠ l.idx
    · by_cases c2 : upRay s.sa s.sb l.p (hsignOf l.delta) l.delta (decide (s.idx > l.idx)) = true
      · simp only [c1, c2, if_true, not_false_eq_true, true_and, ne_eq]
        rw [Wn.get_add]
      · simp [c1, c2]
    · simp [c1]

theorem init_get (l : Line) (k : BSet) :
    (LineBal.init l).wn.get k = if l.set = k ∧ l.q.x < l.p.x then -1 else 0 := by
  have : l.delta.x < 0 ↔ l.q.x < l.p.x := by show l.q.x - l.p.x < 0 ↔ _; omega
  unfold LineBal.init
  by_cases c : l.delta.x < 0
  · rw [if_pos c]
    rw [this] at c
    rw [Wn.get_add]
    cases k <;> simp [Wn.get, c]
  · rw [if_neg c]
    rw [this] at c
    cases k <;> simp [Wn.get, c]

theorem aIsMain_dir (s : Line) (h : s.p.x ≠ s.q.x) : (if s.aIsMain then (1:Int) else -1) = s.dir := by
  unfold Line.aIsMain Line.dir
  by_cases c : s.p.x < s.q.x
  · have : s.p.x ≤ s.q.x := by omega
    simp [c, this]
  · have c1 : ¬ s.p.x ≤ s.q.x := by omega
    have c2 : s.q.x < s.p.x := by omega
    simp [c, c1, c2]

theorem covers_ne {s : Line} {x : Rat} (h : s.covers x) : s.p.x ≠ s.q.x := by
  intro he
  rcases h with ⟨h1, h2⟩ | ⟨h1, h2⟩ <;> rw [he] at * <;> linarith

/-- Indices name lines. -/
def IdxInj (L : List Line) : Prop := ∀ s ∈ L, ∀ t ∈ L, s.idx = t.idx → s = t

instance (L : List Line) : Decidable (IdxInj L) := by unfold IdxInj; infer_instance

/-- C18, lines that are not vertical: for every point of the line near its start, the scan over any list
of lines that contains the line gives the stacked winding number just outside the line (a line going left
counts itself, because its outer side is below it). -/
theorem C18_stacked (L : List Line) (hi : IdxInj L) (l : Line) (hl : l ∈ L) (hx : l.p.x ≠ l.q.x) :
    ∃ e0 : Rat, 0 < e0 ∧ ∀ e, 0 < e → e < e0 → ∀ k,
      (lineBal l L).wn.get k =
        stackAbove L k (l.p.x + sgn (l.q.x - l.p.x) * e) (l.yAt (l.p.x + sgn (l.q.x - l.p.x) * e)) l.idx +
        if l.set = k ∧ l.q.x < l.p.x then -1 else 0 := by
  have h := eventually_list L (P := fun s e =>
      (upRay s.sa s.sb l.p (hsignOf l.delta) l.delta (decide (s.idx > l.idx)) = true ↔
        s.covers (l.p.x + sgn (l.q.x - l.p.x) * e) ∧
        (s.yAt (l.p.x + sgn (l.q.x - l.p.x) * e) < l.yAt (l.p.x + sgn (l.q.x - l.p.x) * e) ∨
          (s.yAt (l.p.x + sgn (l.q.x - l.p.x) * e) = l.yAt (l.p.x + sgn (l.q.x - l.p.x) * e) ∧
            decide (s.idx > l.idx) = true)))) (fun s _ => upRay_iff s l hx _)
  obtain ⟨e0, h0, h1⟩ := h
  refine ⟨e0, h0, fun e he hle k => ?_⟩
  have h2 := h1 e he hle
  generalize (l.p.x + sgn (l.q.x - l.p.x) * e : Rat) = x at *
  rw [lineBal_get, init_get, add_comm]
  congr 1
  unfold stackAbove
  congr 1
  apply List.map_congr_left
  intro s hs
  unfold contrib
  have h3 := h2 s hs
  by_cases c : s.idx = l.idx
  · have : s = l := hi s hs l hl c
    subst this
    simp
  · simp only [h3]
    by_cases c2 : s.covers x ∧ (s.yAt x < l.yAt x ∨ s.yAt x = l.yAt x ∧ decide (s.idx > l.idx) = true)
    · have := covers_ne c2.1
      rw [aIsMain_dir s this]
      simp only [decide_eq_true_eq] at c2 ⊢
      by_cases c3 : s.set = k <;> simp [c, c2, c3]
    · have c2' : ¬ (s.covers x ∧ (s.yAt x < l.yAt x ∨ s.yAt x = l.yAt x ∧ s.idx > l.idx)) := by
        simpa using c2
      rw [if_neg (by tauto), if_neg (by tauto)]

/-- No other line lies on top of `l` near its start. -/
def NoStack (L : List Line) (l : Line) : Prop :=
  ∃ e0 : Rat, 0 < e0 ∧ ∀ e, 0 < e → e < e0 → ∀ s ∈ L, s ≠ l →
    s.covers (l.p.x + sgn (l.q.x - l.p.x) * e) →
      s.yAt (l.p.x + sgn (l.q.x - l.p.x) * e) ≠ l.yAt (l.p.x + sgn (l.q.x - l.p.x) * e)

theorem sum_single {L : List Line} (hn : L.Nodup) {l : Line} (hl : l ∈ L) (c : Int) :
    (L.map fun s => if s = l then c else 0).sum = c := by
  induction L with
  | nil => simp at hl
  | cons a L ih =>
    rw [List.nodup_cons] at hn
    rw [List.map_cons, List.sum_cons]
    rcases List.mem_cons.mp hl with rfl | h
    · have : (L.map fun s => if s = l then c else 0) = L.map fun _ => (0:Int) := by
        apply List.map_congr_left
        intro s hs
        rw [if_neg]; rintro rfl; exact hn.1 hs
      rw [this]; simp
    · have : a ≠ l := by rintro rfl; exact hn.1 h
      rw [if_neg this, ih hn.2 h]; ring

theorem sgn_cases (l : Line) (hx : l.p.x ≠ l.q.x) :
    (sgn (l.q.x - l.p.x) = 1 ∧ l.p.x < l.q.x ∧ l.dir = 1) ∨ (sgn (l.q.x - l.p.x) = -1 ∧ l.q.x < l.p.x ∧ l.dir = -1) := by
  unfold sgn Line.dir
  by_cases c : l.p.x < l.q.x
  · left; rw [if_neg (by omega)]; simp [c]
  · right
    have : l.q.x < l.p.x := by omega
    rw [if_pos (by omega)]; simp [c, this]

theorem covers_self (l : Line) (hx : l.p.x ≠ l.q.x) (e : Rat) (h0 : 0 < e) (h1 : e < 1) :
    l.covers (l.p.x + sgn (l.q.x - l.p.x) * e) := by
  unfold Line.covers
  rcases sgn_cases l hx with ⟨h, h', _⟩ | ⟨h, h', _⟩ <;> rw [h]
  · left
    have : (l.p.x : Rat) + 1 ≤ l.q.x := by exact_mod_cast h'
    constructor <;> linarith
  · right
    have : (l.q.x : Rat) + 1 ≤ l.p.x := by exact_mod_cast h'
    constructor <;> linarith

/-- C18: without coincident lines the scan gives, for each set, the winding number of every point a
little outside the line (above a line going right, below a line going left), and the winding
number a little inside the line is one larger for the set of the line and the same for the other set. -/
theorem C18_winding (L : List Line) (hi : IdxInj L) (hn : L.Nodup) (l : Line) (hl : l ∈ L) (hx : l.p.x ≠ l.q.x)
    (hc : NoStack L l) :
    ∃ e0 : Rat, 0 < e0 ∧ ∀ e, 0 < e → e < e0 → ∃ η0 : Rat, 0 < η0 ∧ ∀ η, 0 < η → η < η0 → ∀ k,
      crossAbove L k (l.p.x + sgn (l.q.x - l.p.x) * e)
        (l.yAt (l.p.x + sgn (l.q.x - l.p.x) * e) - sgn (l.q.x - l.p.x) * η) = (lineBal l L).wn.get k ∧
      crossAbove L k (l.p.x + sgn (l.q.x - l.p.x) * e)
        (l.yAt (l.p.x + sgn (l.q.x - l.p.x) * e) + sgn (l.q.x - l.p.x) * η) =
          (lineBal l L).wn.get k + if l.set = k then 1 else 0 := by
  obtain ⟨e0, h0, h1⟩ := eventually_and (C18_stacked L hi l hl hx) hc
  refine ⟨min e0 1, lt_min h0 one_pos, fun e he hle => ?_⟩
  obtain ⟨h2, h3⟩ := h1 e he (lt_of_lt_of_le hle (min_le_left _ _))
  have hcov := covers_self l hx e he (lt_of_lt_of_le hle (min_le_right _ _))
  have hsg := sgn_cases l hx
  generalize (l.p.x + sgn (l.q.x - l.p.x) * e : Rat) = x at *
  have hη := eventually_list L (P := fun s η => s ≠ l → s.covers x →
      ((s.yAt x < l.yAt x - sgn (l.q.x - l.p.x) * η ↔ s.yAt x < l.yAt x) ∧
       (s.yAt x < l.yAt x + sgn (l.q.x - l.p.x) * η ↔ s.yAt x < l.yAt x))) (by
    intro s hs
    by_cases hsl : s ≠ l ∧ s.covers x
    · have hne := h3 s hs hsl.1 hsl.2
      refine ⟨|s.yAt x - l.yAt x|, abs_pos.mpr (sub_ne_zero.mpr hne), fun η a1 a2 _ _ => ?_⟩
      have hd : sgn (l.q.x - l.p.x) = 1 ∨ sgn (l.q.x - l.p.x) = -1 := by
        rcases hsg with h | h
        · exact Or.inl h.1
        · exact Or.inr h.1
      rcases lt_or_gt_of_ne hne with c | c
      · rw [abs_of_neg (by linarith)] at a2
        rcases hd with hd | hd <;> rw [hd] <;> constructor <;> constructor <;> intro _ <;> linarith
      · rw [abs_of_pos (by linarith)] at a2
        rcases hd with hd | hd <;> rw [hd] <;> constructor <;> constructor <;> intro _ <;> linarith
    · exact ⟨1, one_pos, fun η _ _ a b => absurd ⟨a, b⟩ hsl⟩)
  obtain ⟨η0, g0, g1⟩ := hη
  refine ⟨η0, g0, fun η a1 a2 k => ?_⟩
  have g2 := g1 η a1 a2
  rw [h2 k]
  have split1 : ∀ y : Rat, (∀ s ∈ L, s ≠ l → s.covers x → (s.yAt x < y ↔ s.yAt x < l.yAt x)) →
      crossAbove L k x y = stackAbove L k x (l.yAt x) l.idx + if l.set = k ∧ l.yAt x < y then l.dir else 0 := by
    intro y hy
    rw [← sum_single hn hl (if l.set = k ∧ l.yAt x < y then l.dir else 0)]
    unfold crossAbove stackAbove
    rw [← sum_map_add]
    congr 1
    apply List.map_congr_left
    intro s hs
    by_cases c : s = l
    · subst c
      simp only [lt_irrefl, gt_iff_lt, and_false, or_false, if_false, hcov, true_and, if_true, zero_add]
    · simp only [c, if_false, add_zero]
      by_cases c2 : s.covers x
      · have := hy s hs c c2
        have hne := h3 s hs c c2
        simp only [this, hne, false_and, or_false]
      · simp only [c2, false_and, and_false, if_false]
  constructor
  · rw [split1 _ (fun s hs a b => (g2 s hs a b).1)]
    congr 1
    rcases hsg with ⟨h, h', h''⟩ | ⟨h, h', h''⟩
    · rw [h, h'', if_neg (by rintro ⟨_, h⟩; linarith), if_neg (by rintro ⟨_, h⟩; omega)]
    · rw [h, h'']
      have : l.yAt x < l.yAt x - -1 * η := by linarith
      simp only [this, h', and_true]
  · rw [split1 _ (fun s hs a b => (g2 s hs a b).2), add_assoc]
    congr 1
    rcases hsg with ⟨h, h', h''⟩ | ⟨h, h', h''⟩
    · rw [h, h'']
      have : l.yAt x < l.yAt x + 1 * η := by linarith
      have h2 : ¬ l.q.x < l.p.x := by omega
      simp only [this, h2, and_true, and_false, if_false, zero_add]
    · rw [h, h'', if_neg (by rintro ⟨_, h⟩; linarith)]
      by_cases c : l.set = k <;> simp [c, h']

/-- C18, vertical lines: the sample point lies a little further along the line and even less to its outer
side (right of a line going down, left of a line going up). Coincident vertical lines are stacked: those
of the same direction with a larger index lie further out. The hypothesis on vertical lines is what the sweep
provides: only lines touching the sweep position are scanned (C29). -/
theorem C18_vertical (L : List Line) (hi : IdxInj L) (l : Line) (hl : l ∈ L) (hx : l.p.x = l.q.x) (hy : l.p.y ≠ l.q.y)
    (hv : ∀ s ∈ L, s.p.x = s.q.x → s.p.x = l.p.x) :
    ∃ d0 : Rat, 0 < d0 ∧ ∀ d, 0 < d → d < d0 → ∃ e0 : Rat, 0 < e0 ∧ ∀ e, 0 < e → e < e0 → ∀ k,
      (lineBal l L).wn.get k =
        crossAbove L k (l.p.x + sgn (l.q.y - l.p.y) * e) (l.p.y + sgn (l.q.y - l.p.y) * d) + vertStack L k l := by
  have h := eventually_list L (P := fun s d => ∃ e0 : Rat, 0 < e0 ∧ ∀ e, 0 < e → e < e0 → (s.p.x ≠ s.q.x →
      (upRay s.sa s.sb l.p (hsignOf l.delta) l.delta (decide (s.idx > l.idx)) = true ↔
        s.covers (l.p.x + sgn (l.q.y - l.p.y) * e) ∧
        s.yAt (l.p.x + sgn (l.q.y - l.p.y) * e) < l.p.y + sgn (l.q.y - l.p.y) * d))) (by
    intro s hs
    by_cases c : s.p.x = s.q.x
    · exact ⟨1, one_pos, fun d _ _ => ⟨1, one_pos, fun e _ _ h => absurd c h⟩⟩
    · obtain ⟨d0, h0, h1⟩ := upRay_vert_iff s l hx hy c (decide (s.idx > l.idx))
      refine ⟨d0, h0, fun d a b => ?_⟩
      obtain ⟨e0, g0, g1⟩ := h1 d a b
      exact ⟨e0, g0, fun e a b _ => g1 e a b⟩)
  obtain ⟨d0, h0, h1⟩ := h
  refine ⟨d0, h0, fun d hd0 hd1 => ?_⟩
  obtain ⟨e0, g0, g1⟩ := eventually_list L (h1 d hd0 hd1)
  refine ⟨e0, g0, fun e he0 he1 k => ?_⟩
  have g2 := g1 e he0 he1
  generalize (l.p.x + sgn (l.q.y - l.p.y) * e : Rat) = x at *
  generalize (l.p.y + sgn (l.q.y - l.p.y) * d : Rat) = y at *
  have hdx0 : l.delta.x = 0 := by show l.q.x - l.p.x = 0; omega
  have hdy : l.delta.y = l.q.y - l.p.y := rfl
  rw [lineBal_get, init_get, if_neg (by rintro ⟨_, h⟩; omega), zero_add]
  unfold crossAbove vertStack
  rw [← sum_map_add]
  congr 1
  apply List.map_congr_left
  intro s hs
  unfold contrib
  by_cases c : s.p.x = s.q.x
  · have nc : ¬ s.covers x := fun h => covers_ne h c
    simp only [nc, false_and, and_false, if_false, zero_add]
    have hm : s.aIsMain = true := by unfold Line.aIsMain; simp [c]
    have e1 : s.sa = s.p := by unfold Line.sa; simp [hm]
    have e2 : s.sb = s.q := by unfold Line.sb; simp [hm]
    have ex := hv s hs c
    simp only [hm, if_true, e1, e2]
    have hu : (upRay s.p s.q l.p (hsignOf l.delta) l.delta (decide (s.idx > l.idx)) = true) ↔
        (s.idx > l.idx ∧ (s.q.y > s.p.y ↔ l.q.y > l.p.y) ∧ l.p.y = s.p.y) := by
      unfold upRay vertOverlap
      have : (s.q - s.p).x = 0 := by simp only [Pt.sub_x]; omega
      simp only [this, if_true, hdx0, decide_true, Bool.and_true, Bool.and_eq_true, decide_eq_true_eq, beq_iff_eq,
        decide_eq_decide, hdy]
      constructor
      · rintro ⟨⟨h1, h2⟩, h3⟩; exact ⟨h1, by constructor <;> intro h <;> omega, h3⟩
      · rintro ⟨h1, h2, h3⟩; exact ⟨⟨h1, by constructor <;> intro h <;> omega⟩, h3⟩
    simp only [hu]
    have hp : s.p = l.p ↔ l.p.y = s.p.y := by
      constructor
      · intro h; rw [h]
      · intro h; exact Pt.ext ex h.symm
    apply if_congr _ rfl rfl
    rw [hp]
    have hc : s.q.x = s.p.x := c.symm
    constructor
    · rintro ⟨_, ⟨h1, h2, h3⟩, h4⟩; exact ⟨h4, h3, hc, h2, h1⟩
    · rintro ⟨h4, h3, _, h2, h1⟩; exact ⟨by omega, ⟨h1, h2, h3⟩, h4⟩
  · have h3 := g2 s hs c
    have hz : ¬ (s.set = k ∧ s.p = l.p ∧ s.q.x = s.p.x ∧ (s.q.y > s.p.y ↔ l.q.y > l.p.y) ∧ s.idx > l.idx) := by
      rintro ⟨_, _, h, _⟩; exact c h.symm
    rw [if_neg hz, add_zero]
    simp only [h3]
    have hne : s.idx ≠ l.idx := by
      intro h; exact c (by rw [hi s hs l hl h]; exact hx)
    rw [aIsMain_dir s c]
    apply if_congr _ rfl rfl
    constructor
    · rintro ⟨_, ⟨h1, h2⟩, h4⟩; exact ⟨h4, h1, h2⟩
    · rintro ⟨h4, h1, h2⟩; exact ⟨hne, ⟨h1, h2⟩, h4⟩

/-! ### C19, the whole scan -/

/-- C19: the paired scan gives for each of its two lines what two single scans give (both sets summed). -/
theorem C19_scan (l1 l2 : Line) (hp : l1.p = l2.p) (hne : l1.idx ≠ l2.idx)
    (h1 : l1.p ≠ l1.q) (h2 : l2.p ≠ l2.q) (L : List Line) :
    (dualBal l1 l2 L).w1 = (lineBal l1 L).wn.s + (lineBal l1 L).wn.c ∧
    (dualBal l1 l2 L).w2 = (lineBal l2 L).wn.s + (lineBal l2 L).wn.c ∧
    (dualBal l1 l2 L).h1 = (lineBal l1 L).hits ∧ (dualBal l1 l2 L).h2 = (lineBal l2 L).hits := by
  have hd : ∀ l : Line, l.p ≠ l.q → l.delta ≠ ⟨0, 0⟩ := by
    intro l h e
    apply h
    have ex : l.q.x - l.p.x = 0 := congrArg Pt.x e
    have ey : l.q.y - l.p.y = 0 := congrArg Pt.y e
    exact Pt.ext (by omega) (by omega)
  have hadd : ∀ (w : Wn) (j : BSet) (v : Int), (w.add j v).s + (w.add j v).c = w.s + w.c + v := by
    intro w j v; cases j <;> simp [Wn.add] <;> ring
  have hinit : ∀ l : Line, (LineBal.init l).wn.s + (LineBal.init l).wn.c = if l.delta.x < 0 then -1 else 0 := by
    intro l; unfold LineBal.init
    split
    · rw [hadd]; rfl
    · rfl
  suffices H : ∀ (b : DualBal) (b1 b2 : LineBal), b.w1 = b1.wn.s + b1.wn.c → b.w2 = b2.wn.s + b2.wn.c →
      b.h1 = b1.hits → b.h2 = b2.hits →
      (L.foldl (DualBal.check l1 l2) b).w1 = (L.foldl (LineBal.check l1) b1).wn.s + (L.foldl (LineBal.check l1) b1).wn.c ∧
      (L.foldl (DualBal.check l1 l2) b).w2 = (L.foldl (LineBal.check l2) b2).wn.s + (L.foldl (LineBal.check l2) b2).wn.c ∧
      (L.foldl (DualBal.check l1 l2) b).h1 = (L.foldl (LineBal.check l1) b1).hits ∧
      (L.foldl (DualBal.check l1 l2) b).h2 = (L.foldl (LineBal.check l2) b2).hits by
    exact H _ _ _ (hinit l1).symm (hinit l2).symm rfl rfl
  induction L with
  | nil => intro b b1 b2 a1 a2 a3 a4; exact ⟨a1, a2, a3, a4⟩
  | cons s L ih =>
    intro b b1 b2 a1 a2 a3 a4
    simp only [List.foldl_cons]
    apply ih
    all_goals unfold DualBal.check LineBal.check
    all_goals rw [C19_dual _ _ _ _ _ _ _ (sa_le_sb s) (hd l1 h1) (hd l2 h2)]
    all_goals rw [hp]
    all_goals
      by_cases c1 : s.idx = l1.idx
      · have c2 : s.idx ≠ l2.idx := by rw [c1]; exact hne
        simp only [c1, if_true, ne_eq, not_true, if_false, hne, not_false_eq_true]
        first
          | exact a1
          | exact a3
          | (split <;> first | exact a1 | exact a2 | exact a3 | exact a4 | simp [hadd, a2, a4])
      · by_cases c2 : s.idx = l2.idx
        · simp only [c2, if_true, ne_eq, not_true, if_false, hne.symm, not_false_eq_true]
          first
            | exact a2
            | exact a4
            | (split <;> first | exact a1 | exact a2 | exact a3 | exact a4 | simp [hadd, a1, a3])
        · simp only [c1, c2, if_false, ne_eq, not_false_eq_true, if_true]
          split <;> split <;> first | exact a1 | exact a2 | exact a3 | exact a4 | simp [hadd, a1, a2, a3, a4]

/-! ### C20 -/

/-- The result region of each operation, as a condition on the two winding numbers of a point. -/
def region (op : BoolOp) (ws wc : Int) : Prop :=
  match op with
  | .union => ws + wc > 0
  | .intersection => ws > 0 ∧ wc > 0
  | .xor => (ws > 0 ∧ ¬ wc > 0) ∨ (¬ ws > 0 ∧ wc > 0)
  | .difference => ws > 0 ∧ ¬ wc > 0
  | .normalize => (ws + wc) % 2 = 1

instance (op : BoolOp) (a b : Int) : Decidable (region op a b) := by
  unfold region; cases op <;> infer_instance

/-- Winding numbers on the inner side of a line of set `k`. -/
def innerS (k : BSet) (ws : Int) : Int := if k = .subject then ws + 1 else ws
def innerC (k : BSet) (wc : Int) : Int := if k = .clip then wc + 1 else wc

theorem tmod2 (a : Int) : a.tmod 2 = 0 ↔ a % 2 = 0 := by
  rw [← Int.dvd_iff_tmod_eq_zero]; omega

/-- C20: a line is kept exactly when the region differs between its two sides. -/
theorem C20_kept_iff (op : BoolOp) (k : BSet) (ws wc : Int) :
    (lbResult op k ⟨ws, wc⟩).keep = true ↔ ¬ (region op ws wc ↔ region op (innerS k ws) (innerC k wc)) := by
  cases op <;> cases k <;> simp only [lbResult, region, innerS, innerC, LState.kept, LState.discard, LState.keepRev, LState.discardRev,
    reduceCtorEq, if_true, if_false]
  all_goals (repeat' split)
  all_goals (try simp only [Bool.false_eq_true, false_iff, true_iff])
  all_goals omega

/-- C20: a kept line is reversed exactly when the inside of the result is on its outer side. -/
theorem C20_reversed_iff (op : BoolOp) (k : BSet) (ws wc : Int) (h : (lbResult op k ⟨ws, wc⟩).keep = true) :
    (lbResult op k ⟨ws, wc⟩).rev = true ↔ region op ws wc := by
  revert h
  cases op <;> cases k <;> simp only [lbResult, region, LState.kept, LState.discard, LState.keepRev, LState.discardRev,
    reduceCtorEq, if_true, if_false]
  all_goals (repeat' split)
  all_goals (try simp only [Bool.false_eq_true, false_iff, true_iff, false_implies, forall_const])
  all_goals first
    | omega
    | (rename_i h; rw [tmod2] at h; omega)

/-- C20 with C18: a line that no other line covers is kept exactly when the result region, evaluated at the
winding numbers of the points beside it, differs between its two sides; a kept line is reversed exactly when
its outer side is inside the result. -/
theorem C20_boundary (op : BoolOp) (L : List Line) (hi : IdxInj L) (hn : L.Nodup) (l : Line) (hl : l ∈ L)
    (hx : l.p.x ≠ l.q.x) (hc : NoStack L l) :
    ∃ e0 : Rat, 0 < e0 ∧ ∀ e, 0 < e → e < e0 → ∃ η0 : Rat, 0 < η0 ∧ ∀ η, 0 < η → η < η0 →
      let x : Rat := l.p.x + sgn (l.q.x - l.p.x) * e
      let outY : Rat := l.yAt x - sgn (l.q.x - l.p.x) * η
      let inY : Rat := l.yAt x + sgn (l.q.x - l.p.x) * η
      let Inside (y : Rat) : Prop := region op (crossAbove L .subject x y) (crossAbove L .clip x y)
      ((lbResult op l.set (lineBal l L).wn).keep = true ↔ ¬ (Inside outY ↔ Inside inY)) ∧
      ((lbResult op l.set (lineBal l L).wn).keep = true →
        ((lbResult op l.set (lineBal l L).wn).rev = true ↔ Inside outY)) := by
  obtain ⟨e0, h0, h1⟩ := C18_winding L hi hn l hl hx hc
  refine ⟨e0, h0, fun e a b => ?_⟩
  obtain ⟨η0, g0, g1⟩ := h1 e a b
  refine ⟨η0, g0, fun η a b => ?_⟩
  have gs := g1 η a b .subject
  have gc := g1 η a b .clip
  simp only
  rw [gs.1, gs.2, gc.1, gc.2]
  have e1 : (lineBal l L).wn.get .subject + (if l.set = .subject then 1 else 0) = innerS l.set ((lineBal l L).wn.get .subject) := by
    unfold innerS; split <;> simp
  have e2 : (lineBal l L).wn.get .clip + (if l.set = .clip then 1 else 0) = innerC l.set ((lineBal l L).wn.get .clip) := by
    unfold innerC; split <;> simp
  rw [e1, e2]
  exact ⟨C20_kept_iff op l.set _ _, fun h => C20_reversed_iff op l.set _ _ h⟩

/-- C18: the recorded hits are the lines above, in scan order. -/
theorem C18_hits (L : List Line) (hi : IdxInj L) (l : Line) (hl : l ∈ L) (hx : l.p.x ≠ l.q.x) :
    ∃ e0 : Rat, 0 < e0 ∧ ∀ e, 0 < e → e < e0 →
      (lineBal l L).hits =
        stackHits L (l.p.x + sgn (l.q.x - l.p.x) * e) (l.yAt (l.p.x + sgn (l.q.x - l.p.x) * e)) l.idx := by
  have h := eventually_list L (P := fun s e =>
      (upRay s.sa s.sb l.p (hsignOf l.delta) l.delta (decide (s.idx > l.idx)) = true ↔
        s.covers (l.p.x + sgn (l.q.x - l.p.x) * e) ∧
        (s.yAt (l.p.x + sgn (l.q.x - l.p.x) * e) < l.yAt (l.p.x + sgn (l.q.x - l.p.x) * e) ∨
          (s.yAt (l.p.x + sgn (l.q.x - l.p.x) * e) = l.yAt (l.p.x + sgn (l.q.x - l.p.x) * e) ∧
            decide (s.idx > l.idx) = true)))) (fun s _ => upRay_iff s l hx _)
  obtain ⟨e0, h0, h1⟩ := h
  refine ⟨e0, h0, fun e he hle => ?_⟩
  have h2 := h1 e he hle
  generalize (l.p.x + sgn (l.q.x - l.p.x) * e : Rat) = x at *
  have key : ∀ (M : List Line), (∀ s ∈ M, s ∈ L) → ∀ b : LineBal,
      (M.foldl (LineBal.check l) b).hits = b.hits ++ stackHits M x (l.yAt x) l.idx := by
    intro M
    induction M with
    | nil => intro _ b; simp [stackHits]
    | cons s M ih =>
      intro hM b
      rw [List.foldl_cons, ih (fun t ht => hM t (List.mem_cons_of_mem _ ht))]
      have h3 := h2 s (hM s (by simp))
      unfold LineBal.check
      by_cases c : s.idx = l.idx
      · have : s = l := hi s (hM s (by simp)) l hl c
        subst this
        simp [stackHits]
      · by_cases c2 : s.covers x ∧ (s.yAt x < l.yAt x ∨ s.yAt x = l.yAt x ∧ decide (s.idx > l.idx) = true)
        · rw [if_pos c, if_pos (h3.mpr c2)]
          simp only [decide_eq_true_eq] at c2
          simp [stackHits, c2]
        · rw [if_pos c, if_neg (fun h => c2 (h3.mp h))]
          simp only [decide_eq_true_eq] at c2
          simp only [stackHits, List.filter_cons, c2, decide_false, Bool.false_eq_true, if_false]
  exact key L (fun _ h => h) _

/-! ### `crossAbove` is a winding number -/

/-- The lines of a closed loop through the given points. -/
def loopLines (k : BSet) (i : Nat) (ps : List Pt) : List Line :=
  (ps.zip (ps.tail ++ ps.head?.toList)).zipIdx.map fun e => ⟨i + e.2, e.1.1, e.1.2, k⟩

theorem tele (x : Rat) (a : Line) (h1 : (a.p.x : Rat) ≠ x) (h2 : (a.q.x : Rat) ≠ x) :
    (if a.covers x then a.dir else 0) = (if (a.p.x : Rat) < x then 1 else 0) - (if (a.q.x : Rat) < x then 1 else 0) := by
  unfold Line.covers Line.dir
  have c1 : (a.p.x < a.q.x) ↔ (a.p.x : Rat) < a.q.x := by norm_cast
  have c2 : (a.q.x < a.p.x) ↔ (a.q.x : Rat) < a.p.x := by norm_cast
  simp only [c1, c2]
  rcases lt_or_gt_of_ne h1 with g1 | g1 <;> rcases lt_or_gt_of_ne h2 with g2 | g2
  · rw [if_neg (by rintro (⟨_, h⟩ | ⟨_, h⟩) <;> linarith)]; simp [g1, g2]
  · have : (a.p.x : Rat) < a.q.x := g1.trans g2
    simp [g1, g2, this, not_lt.mpr g2.le]
  · have : (a.q.x : Rat) < a.p.x := g2.trans g1
    simp [g1, g2, this, not_lt.mpr g1.le, not_lt.mpr this.le]
  · rw [if_neg (by rintro (⟨h, _⟩ | ⟨h, _⟩) <;> linarith)]; simp [not_lt.mpr g1.le, not_lt.mpr g2.le]

theorem sum_zip_loop (f : Pt → Int) (a : Pt) (ps : List Pt) (b : Pt) :
    (((a :: ps).zip (ps ++ [b])).map fun e => f e.1 - f e.2).sum = f a - f b := by
  induction ps generalizing a with
  | nil => simp
  | cons c ps ih => simp only [List.cons_append, List.zip_cons_cons, List.map_cons, List.sum_cons]; rw [ih c]; ring

/-- Going all the way down a generic vertical line, the crossings of closed loops cancel: the winding number of a
point is 0 above and below everything, and counting above equals counting below with the opposite sign. -/
theorem C18_loop_balance (k : BSet) (i : Nat) (ps : List Pt) (x : Rat) (hx : ∀ p ∈ ps, (p.x : Rat) ≠ x) :
    ((loopLines k i ps).map fun l => if l.covers x then l.dir else 0).sum = 0 := by
  cases ps with
  | nil => simp [loopLines]
  | cons a ps =>
    have h := sum_zip_loop (fun p => if (p.x : Rat) < x then 1 else 0) a ps a
    rw [sub_self] at h
    refine Eq.trans ?_ h
    unfold loopLines
    simp only [List.tail_cons, List.head?_cons, Option.toList_some, List.map_map]
    have e1 : ∀ (z : List (Pt × Pt)) (n : Nat), (∀ e ∈ z, (e.1.x : Rat) ≠ x ∧ (e.2.x : Rat) ≠ x) →
        ((z.zipIdx n).map ((fun l : Line => if l.covers x then l.dir else 0) ∘ fun e => ⟨i + e.2, e.1.1, e.1.2, k⟩)).sum =
          (z.map fun e => (if (e.1.x : Rat) < x then (1 : Int) else 0) - (if (e.2.x : Rat) < x then 1 else 0)).sum := by
      intro z
      induction z with
      | nil => intro n _; simp
      | cons e z ih =>
        intro n hz
        rw [List.zipIdx_cons, List.map_cons, List.sum_cons, List.map_cons, List.sum_cons,
          ih _ (fun f hf => hz f (List.mem_cons_of_mem _ hf))]
        congr 1
        exact tele x ⟨i + n, e.1, e.2, k⟩ (hz e (by simp)).1 (hz e (by simp)).2
    apply e1
    intro e he
    have := List.of_mem_zip he
    refine ⟨hx _ this.1, hx _ ?_⟩
    have := this.2
    simp only [List.mem_append, List.mem_singleton, List.mem_cons] at this ⊢
    tauto

/-! ### Instances -/

/-- A unit-free square, clockwise on a screen (y down): lines right, down, left, up. -/
def exSquare : List Line := loopLines .subject 0 [⟨0, 0⟩, ⟨4, 0⟩, ⟨4, 4⟩, ⟨0, 4⟩]

example : (lineBal ⟨0, ⟨0, 0⟩, ⟨4, 0⟩, .subject⟩ exSquare).wn = ⟨0, 0⟩ := by decide
example : (lineBal ⟨2, ⟨4, 4⟩, ⟨0, 4⟩, .subject⟩ exSquare).wn = ⟨0, 0⟩ := by decide
example : (lineBal ⟨1, ⟨4, 0⟩, ⟨4, 4⟩, .subject⟩ exSquare).wn = ⟨0, 0⟩ := by decide
example : crossAbove exSquare .subject 2 2 = 1 := by decide +kernel
example : IdxInj exSquare := by decide
example : (lbResult .union .subject (lineBal ⟨0, ⟨0, 0⟩, ⟨4, 0⟩, .subject⟩ exSquare).wn).keep = true := by decide

theorem exSquare_noStack : NoStack exSquare ⟨0, ⟨0, 0⟩, ⟨4, 0⟩, .subject⟩ := by
  refine ⟨1, one_pos, fun e h0 h1 s hs hne hc => ?_⟩
  simp only [exSquare, loopLines, List.tail_cons, List.head?_cons, Option.toList_some, List.cons_append, List.nil_append,
    List.zip_cons_cons, List.zip_nil_right, List.zipIdx_cons, List.zipIdx_nil, List.map_cons, List.map_nil,
    List.mem_cons, List.not_mem_nil, or_false] at hs
  rcases hs with rfl | rfl | rfl | rfl
  · exact absurd rfl hne
  · simp [Line.covers] at hc; linarith
  · simp [Line.yAt]
  · simp [Line.covers] at hc; linarith

end PolyOps
