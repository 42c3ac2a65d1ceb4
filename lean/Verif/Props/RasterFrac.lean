import Verif.Model.Raster
import Verif.Props.LargeIntDiv
import Mathlib.Algebra.Order.Field.Rat
import Mathlib.Data.Rat.Cast.Order
import Mathlib.Data.Prod.Lex
import Mathlib.Tactic.Linarith
import Mathlib.Tactic.Ring
import Mathlib.Tactic.FieldSimp
import Mathlib.Tactic.LinearCombination
/-! C42: the rational comparisons of the rasteriser.

Specification: a fraction denotes the rational `num/den`; the abscissa of a line at height `y` is the `X` for which
`(X,y)` lies on the line through the two ends; the height of a crossing is the `Y` of a point on both lines. -/
namespace PolyOps.Raster

/-- The rational a fraction denotes. -/
def Frac.val (a : Frac) : ℚ := (a.num : ℚ) / a.den

/-- The rational a height denotes. -/
def IntrY.val (a : IntrY) : ℚ := a.whole + a.frac.val

/-- `(X,Y)` lies on the line through two points. -/
def OnLine (s e : Pt) (X Y : ℚ) : Prop := (X - s.x) * (e.y - s.y) = (e.x - s.x) * (Y - s.y)

theorem compare_scaled (a b c : ℚ) (hc : 0 < c) : compare (a * c) (b * c) = compare a b := by
  rcases lt_trichotomy a b with h | h | h
  · rw [compare_lt_iff_lt.mpr h, compare_lt_iff_lt]; exact mul_lt_mul_of_pos_right h hc
  · rw [h]; simp
  · rw [compare_gt_iff_gt.mpr h, compare_gt_iff_gt]; exact mul_lt_mul_of_pos_right h hc

theorem compare_cast (a b : Int) : compare (a : ℚ) (b : ℚ) = compare a b := by
  rcases lt_trichotomy a b with h | h | h
  · rw [compare_lt_iff_lt.mpr h, compare_lt_iff_lt]; exact_mod_cast h
  · rw [h]; simp
  · rw [compare_gt_iff_gt.mpr h, compare_gt_iff_gt]; exact_mod_cast h

theorem Frac.den_pos (a : Frac) : (0:ℚ) < a.den := by exact_mod_cast a.pos

/-- C42: the fraction built from numerator and denominator of any sign denotes their quotient. -/
theorem C42_of (n d : Int) (h : d ≠ 0) : (Frac.of n d h).val = (n : ℚ) / d := by
  unfold Frac.of Frac.val
  split
  · push_cast; rw [neg_div_neg_eq]
  · rfl

/-- C42: comparing two fractions is comparing the rationals. -/
theorem C42_cmp (a b : Frac) : a.cmp b = compare a.val b.val := by
  unfold Frac.cmp Frac.val
  have ha := a.den_pos
  have hb := b.den_pos
  rw [← compare_scaled _ _ _ (mul_pos ha hb), ← compare_cast]
  congr 1
  · push_cast; field_simp
  · push_cast; field_simp

/-- C42: comparing a fraction with an integer is comparing the rationals. -/
theorem C42_cmp_int (a : Frac) (b : Int) : a.cmpInt b = compare a.val b := by
  unfold Frac.cmpInt Frac.val
  have ha := a.den_pos
  rw [← compare_scaled _ _ _ ha, ← compare_cast]
  congr 1
  · field_simp
  · push_cast; ring

/-- C42: the abscissa computed for a line that is not horizontal lies on the line. -/
theorem C42_x_on_line (s e : Pt) (y : Int) (h : s.y - e.y ≠ 0) : OnLine s e (xIntercept s e y h).val y := by
  have h' : ((s.y : ℚ) - e.y) ≠ 0 := by exact_mod_cast h
  unfold xIntercept OnLine
  rw [C42_of]
  push_cast
  field_simp
  ring

theorem onLine_unique {s e : Pt} {X X' Y : ℚ} (h : s.y ≠ e.y) (h1 : OnLine s e X Y) (h2 : OnLine s e X' Y) : X = X' := by
  unfold OnLine at h1 h2
  have h' : ((e.y : ℚ) - s.y) ≠ 0 := by
    intro hc
    apply h
    have : (e.y : ℚ) = s.y := by linarith
    exact_mod_cast this.symm
  have : (X - s.x) * ((e.y : ℚ) - s.y) = (X' - s.x) * ((e.y : ℚ) - s.y) := by rw [h1, h2]
  have := mul_right_cancel₀ h' this
  linarith

/-- C42: comparing the computed abscissas of two lines is comparing the abscissas of the points of the lines at that
height. -/
theorem C42_x_cmp (s1 e1 s2 e2 : Pt) (y : Int) (h1 : s1.y - e1.y ≠ 0) (h2 : s2.y - e2.y ≠ 0) (X1 X2 : ℚ)
    (l1 : OnLine s1 e1 X1 y) (l2 : OnLine s2 e2 X2 y) :
    (xIntercept s1 e1 y h1).cmp (xIntercept s2 e2 y h2) = compare X1 X2 := by
  rw [C42_cmp, onLine_unique (by omega) (C42_x_on_line s1 e1 y h1) l1,
    onLine_unique (by omega) (C42_x_on_line s2 e2 y h2) l2]

/-- C42: the order of lines in a row, in terms of the abscissas at the row and at the next row. -/
theorem C42_sweep_order (y : Int) (s1 s2 : Seg) (h1 : s1.pa.y ≠ s1.pb.y) (h2 : s2.pa.y ≠ s2.pb.y) (X1 X2 X1' X2' : ℚ)
    (l1 : OnLine s1.pa s1.pb X1 y) (l2 : OnLine s2.pa s2.pb X2 y)
    (l1' : OnLine s1.pa s1.pb X1' (y + 1 : Int)) (l2' : OnLine s2.pa s2.pb X2' (y + 1 : Int)) :
    sweepCmp y s1 s2 = true ↔
      X1 > X2 ∨ (X1 = X2 ∧ (X1' > X2' ∨ (X1' = X2' ∧ (s1.b > s2.b ∨ (s1.b = s2.b ∧ s1.a > s2.a))))) := by
  unfold sweepCmp
  rw [dif_pos ⟨by omega, by omega⟩, C42_x_cmp _ _ _ _ _ _ _ X1 X2 l1 l2, C42_x_cmp _ _ _ _ _ _ _ X1' X2' l1' l2']
  rcases lt_trichotomy X1 X2 with h | h | h
  · rw [compare_lt_iff_lt.mpr h]
    simp only [Bool.false_eq_true, false_iff, not_or, not_and]
    exact ⟨not_lt.mpr h.le, fun hc => absurd hc h.ne⟩
  · subst h
    have e0 : compare X1 X1 = .eq := by simp
    rw [e0]
    simp only [gt_iff_lt, lt_irrefl, false_or, true_and]
    rcases lt_trichotomy X1' X2' with h | h | h
    · rw [compare_lt_iff_lt.mpr h]
      simp only [Bool.false_eq_true, false_iff, not_or, not_and]
      exact ⟨not_lt.mpr h.le, fun hc => absurd hc h.ne⟩
    · subst h
      have e0 : compare X1' X1' = .eq := by simp
      rw [e0]
      simp only [lt_irrefl, false_or, true_and]
      split
      · rename_i h; simp [h]
      · rename_i h; simp [h]
    · rw [compare_gt_iff_gt.mpr h]
      simp [h]
  · rw [compare_gt_iff_gt.mpr h]
    simp [h]

/-! ### Heights -/

theorem euclid_eq (n d : Int) : euclid n d = LargeInt.euclidPair n d := rfl

/-- The remainder is from 0 to the divisor's magnitude. -/
theorem euclid_rem (n d : Int) (h : d ≠ 0) : 0 ≤ (euclid n d).2 ∧ (euclid n d).2 ≤ |d| := by
  unfold euclid
  have hlt : n.natAbs % d.natAbs < d.natAbs := Nat.mod_lt _ (by omega)
  rw [Int.abs_eq_natAbs]
  split <;> simp only <;> omega

/-- quotient plus remainder over the divisor's magnitude is the exact quotient. -/
theorem euclid_val (n d : Int) (h : d ≠ 0) : ((euclid n d).1 : ℚ) + ((euclid n d).2 : ℚ) / (|d| : Int) = (n : ℚ) / d := by
  have hq : (d : ℚ) ≠ 0 := by exact_mod_cast h
  have hdm : ((d.natAbs : Int) : ℚ) * ((n.natAbs / d.natAbs : Nat) : ℚ) + ((n.natAbs % d.natAbs : Nat) : ℚ) = ((n.natAbs : Int) : ℚ) := by
    have h1 := Nat.div_add_mod n.natAbs d.natAbs
    have h2 : (d.natAbs : Int) * ((n.natAbs / d.natAbs : Nat) : Int) + ((n.natAbs % d.natAbs : Nat) : Int) = (n.natAbs : Int) := by
      exact_mod_cast h1
    have h3 := congrArg (Int.cast : Int → ℚ) h2
    simpa only [Int.cast_add, Int.cast_mul, Int.cast_natCast] using h3
  unfold euclid
  rw [Int.abs_eq_natAbs]
  generalize n.natAbs / d.natAbs = Q at *
  generalize n.natAbs % d.natAbs = R at *
  rcases lt_or_ge n 0 with hn | hn <;> rcases lt_or_ge d 0 with hd | hd
  · have e1 : (n.natAbs : Int) = -n := by omega
    have e2 : (d.natAbs : Int) = -d := by omega
    rw [e1, e2] at hdm
    rw [e2]
    simp only [hn, hd, decide_true, bne_self_eq_false, Bool.false_eq_true, if_false]
    push_cast at *
    field_simp
    linarith
  · have e1 : (n.natAbs : Int) = -n := by omega
    have e2 : (d.natAbs : Int) = d := by omega
    rw [e1, e2] at hdm
    rw [e2]
    simp only [hn, not_lt.mpr hd, decide_true, decide_false, show (true != false) = true from rfl, if_true]
    push_cast at *
    field_simp
    linarith
  · have e1 : (n.natAbs : Int) = n := by omega
    have e2 : (d.natAbs : Int) = -d := by omega
    rw [e1, e2] at hdm
    rw [e2]
    simp only [not_lt.mpr hn, hd, decide_true, decide_false, show (false != true) = true from rfl, if_true]
    push_cast at *
    field_simp
    linarith
  · have e1 : (n.natAbs : Int) = n := by omega
    have e2 : (d.natAbs : Int) = d := by omega
    rw [e1, e2] at hdm
    rw [e2]
    simp only [not_lt.mpr hn, not_lt.mpr hd, decide_false, bne_self_eq_false, Bool.false_eq_true, if_false]
    push_cast at *
    field_simp
    linarith

/-- The remainder equals the divisor's magnitude exactly when the signs differ and the division is exact. -/
theorem euclid_full (n d : Int) (h : d ≠ 0) : (euclid n d).2 = |d| ↔ (d ∣ n ∧ ¬ (n < 0 ↔ d < 0)) := by
  have hlt : n.natAbs % d.natAbs < d.natAbs := Nat.mod_lt _ (by omega)
  have hd : d ∣ n ↔ n.natAbs % d.natAbs = 0 := by
    rw [← Int.natAbs_dvd_natAbs, Nat.dvd_iff_mod_eq_zero]
  rw [hd, Int.abs_eq_natAbs]
  unfold euclid
  by_cases h1 : n < 0 <;> by_cases h2 : d < 0
  · simp only [h1, h2, decide_true, bne_self_eq_false, Bool.false_eq_true, if_false, iff_self, not_true, and_false, iff_false]
    omega
  · simp only [h1, h2, decide_true, decide_false, show (true != false) = true from rfl, if_true, iff_false, not_true,
      not_false_eq_true, and_true]
    omega
  · simp only [h1, h2, decide_true, decide_false, show (false != true) = true from rfl, if_true, iff_true,
      not_false_eq_true, and_true]
    omega
  · simp only [h1, h2, decide_false, bne_self_eq_false, Bool.false_eq_true, if_false, iff_self, not_true, and_false, iff_false]
    omega

/-- C42: the height computed for a crossing is the height of the point on both lines. -/
theorem C42_height (s1 s2 : Seg) (iy : IntrY) (h : isect s1 s2 = some iy) (X Y : ℚ)
    (l1 : OnLine s1.pa s1.pb X Y) (l2 : OnLine s2.pa s2.pb X Y) : iy.val = Y := by
  unfold isect at h
  split at h
  · cases h
  · split at h
    · cases h
    · rename_i hd
      split at h
      · cases h
      · cases h
        unfold height IntrY.val Frac.val
        simp only
        rw [euclid_val _ _ hd]
        have hq : (dDet s1 s2 : ℚ) ≠ 0 := by exact_mod_cast hd
        rw [div_eq_iff hq]
        unfold OnLine at l1 l2
        unfold dDet tDet
        push_cast
        linear_combination ((s2.pb.y : ℚ) - s2.pa.y) * l1 - ((s1.pb.y : ℚ) - s1.pa.y) * l2

/-- Strictly between the ends of a line. -/
def Inside (s e : Pt) (X Y : ℚ) : Prop := ∃ t : ℚ, 0 < t ∧ t < 1 ∧ X = s.x + t * (e.x - s.x) ∧ Y = s.y + t * (e.y - s.y)

theorem outside_iff (d t u : Int) (h : d ≠ 0) : outside d t u = false ↔
    (0 < (t : ℚ) / d ∧ (t : ℚ) / d < 1 ∧ 0 < (u : ℚ) / d ∧ (u : ℚ) / d < 1) := by
  unfold outside
  rcases lt_or_gt_of_ne h with h | h
  · have hq : (d : ℚ) < 0 := by exact_mod_cast h
    rw [if_neg (by omega)]
    rw [div_lt_one_of_neg hq, div_lt_one_of_neg hq, div_pos_iff, div_pos_iff]
    simp only [Bool.or_eq_false_iff, decide_eq_false_iff_not, not_le, ge_iff_le, hq, not_lt.mpr hq.le, and_false, and_true, false_or]
    norm_cast
    tauto
  · have hq : (0 : ℚ) < d := by exact_mod_cast h
    rw [if_pos h]
    rw [div_lt_one hq, div_lt_one hq, div_pos_iff, div_pos_iff]
    simp only [Bool.or_eq_false_iff, decide_eq_false_iff_not, not_le, ge_iff_le, hq, not_lt.mpr hq.le, and_false, and_true, or_false]
    norm_cast
    tauto

/-- C42: a crossing is reported exactly when the lines have no end index in common, are not parallel and have a point
strictly between the ends of both. -/
theorem C42_crosses (s1 s2 : Seg) : (isect s1 s2).isSome ↔
    (s1.a ≠ s2.a ∧ s1.a ≠ s2.b ∧ s1.b ≠ s2.a ∧ s1.b ≠ s2.b) ∧
    (s1.pb.x - s1.pa.x) * (s2.pb.y - s2.pa.y) ≠ (s1.pb.y - s1.pa.y) * (s2.pb.x - s2.pa.x) ∧
    ∃ X Y, Inside s1.pa s1.pb X Y ∧ Inside s2.pa s2.pb X Y := by
  have hsh : shareEnd s1 s2 = false ↔ (s1.a ≠ s2.a ∧ s1.a ≠ s2.b ∧ s1.b ≠ s2.a ∧ s1.b ≠ s2.b) := by
    unfold shareEnd
    simp only [Bool.or_eq_false_iff, beq_eq_false_iff_ne, and_assoc]
  have hdd : dDet s1 s2 ≠ 0 ↔ (s1.pb.x - s1.pa.x) * (s2.pb.y - s2.pa.y) ≠ (s1.pb.y - s1.pa.y) * (s2.pb.x - s2.pa.x) := by
    unfold dDet
    rw [not_iff_not]
    constructor <;> intro h <;> linarith
  unfold isect
  by_cases c1 : shareEnd s1 s2 = true
  · rw [if_pos c1]
    simp only [Option.isSome_none, Bool.false_eq_true, false_iff, not_and]
    intro h
    rw [← hsh, c1] at h
    cases h
  · rw [if_neg c1]
    rw [Bool.not_eq_true] at c1
    by_cases c2 : dDet s1 s2 = 0
    · rw [dif_pos c2]
      simp only [Option.isSome_none, Bool.false_eq_true, false_iff, not_and]
      intro _ h
      exact absurd c2 (hdd.mpr h)
    · rw [dif_neg c2]
      have hq : (dDet s1 s2 : ℚ) ≠ 0 := by exact_mod_cast c2
      have key : outside (dDet s1 s2) (tDet s1 s2) (uDet s1 s2) = false ↔
          ∃ X Y, Inside s1.pa s1.pb X Y ∧ Inside s2.pa s2.pb X Y := by
        rw [outside_iff _ _ _ c2]
        constructor
        · rintro ⟨h1, h2, h3, h4⟩
          refine ⟨_, _, ⟨_, h1, h2, rfl, rfl⟩, ⟨_, h3, h4, ?_, ?_⟩⟩
          · field_simp
            unfold tDet uDet dDet
            push_cast
            ring
          · field_simp
            unfold tDet uDet dDet
            push_cast
            ring
        · rintro ⟨X, Y, ⟨t, t0, t1, tx, ty⟩, ⟨u, u0, u1, ux, uy⟩⟩
          have et : (tDet s1 s2 : ℚ) / dDet s1 s2 = t := by
            rw [div_eq_iff hq]
            unfold tDet dDet
            push_cast
            rw [tx] at ux
            rw [ty] at uy
            linear_combination ((s2.pa.y : ℚ) - s2.pb.y) * ux - ((s2.pa.x : ℚ) - s2.pb.x) * uy
          have eu : (uDet s1 s2 : ℚ) / dDet s1 s2 = u := by
            rw [div_eq_iff hq]
            unfold uDet dDet
            push_cast
            rw [tx] at ux
            rw [ty] at uy
            linear_combination ((s1.pa.y : ℚ) - s1.pb.y) * ux - ((s1.pa.x : ℚ) - s1.pb.x) * uy
          rw [et, eu]
          exact ⟨t0, t1, u0, u1⟩
      by_cases c3 : outside (dDet s1 s2) (tDet s1 s2) (uDet s1 s2) = true
      · rw [if_pos c3]
        simp only [Option.isSome_none, Bool.false_eq_true, false_iff, not_and]
        intro _ _ h
        rw [← key, c3] at h
        cases h
      · rw [if_neg c3]
        simp only [Option.isSome_some, true_iff]
        rw [Bool.not_eq_true] at c3
        exact ⟨hsh.mp c1, hdd.mp c2, key.mp c3⟩

/-- A stored height is in normal form: the fractional part is less than 1. -/
def IntrY.Normal (a : IntrY) : Prop := 0 ≤ a.frac.val ∧ a.frac.val < 1

/-- A stored height whose fractional part is from 0 to 1. -/
def IntrY.Good (a : IntrY) : Prop := 0 ≤ a.frac.val ∧ a.frac.val ≤ 1

theorem isect_height {s1 s2 : Seg} {iy : IntrY} (h : isect s1 s2 = some iy) : ∃ hd, iy = height s1 s2 hd := by
  unfold isect at h
  split at h
  · cases h
  · split at h
    · cases h
    · split at h
      · cases h
      · cases h; exact ⟨_, rfl⟩

theorem height_good (s1 s2 : Seg) (h : dDet s1 s2 ≠ 0) : (height s1 s2 h).Good := by
  unfold height IntrY.Good Frac.val
  simp only
  have hp : (0:ℚ) < (|dDet s1 s2| : Int) := by exact_mod_cast abs_pos.mpr h
  obtain ⟨h1, h2⟩ := euclid_rem (tDet s1 s2 * (s1.pb.y - s1.pa.y) + dDet s1 s2 * s1.pa.y) _ h
  rw [div_le_one hp]
  exact ⟨div_nonneg (by exact_mod_cast h1) hp.le, by exact_mod_cast h2⟩

/-- The heights that come out of normal form are whole and not positive. -/
theorem C42_normal (s1 s2 : Seg) (iy : IntrY) (h : isect s1 s2 = some iy) (hv : 0 < iy.val ∨ ∀ z : Int, iy.val ≠ z) :
    iy.Normal := by
  obtain ⟨hd, rfl⟩ := isect_height h
  have hg := height_good s1 s2 hd
  refine ⟨hg.1, lt_of_le_of_ne hg.2 ?_⟩
  intro hc
  have hfull : (euclid (tDet s1 s2 * (s1.pb.y - s1.pa.y) + dDet s1 s2 * s1.pa.y) (dDet s1 s2)).2 = |dDet s1 s2| := by
    unfold height Frac.val at hc
    simp only at hc
    have hp : (0:ℚ) < (|dDet s1 s2| : Int) := by exact_mod_cast abs_pos.mpr hd
    rw [div_eq_one_iff_eq hp.ne'] at hc
    exact_mod_cast hc
  rw [euclid_full _ _ hd] at hfull
  have hval : (height s1 s2 hd).val = ((tDet s1 s2 * (s1.pb.y - s1.pa.y) + dDet s1 s2 * s1.pa.y : Int) : ℚ) / dDet s1 s2 := by
    unfold height IntrY.val Frac.val
    exact euclid_val _ _ hd
  rw [hval] at hv
  clear hval hc hg h
  generalize tDet s1 s2 * (s1.pb.y - s1.pa.y) + dDet s1 s2 * s1.pa.y = n at *
  generalize dDet s1 s2 = d at *
  have hq : (d : ℚ) ≠ 0 := by exact_mod_cast hd
  rcases hv with hv | hv
  · apply hfull.2
    rcases div_pos_iff.mp hv with ⟨a, b⟩ | ⟨a, b⟩ <;> norm_cast at a b <;> omega
  · obtain ⟨⟨z, rfl⟩, _⟩ := hfull
    apply hv z
    push_cast
    field_simp

theorem then_compare (a b : Int) (x y : ℚ) (hx : 0 ≤ x) (hx' : x < 1) (hy : 0 ≤ y) (hy' : y < 1) :
    (compare a b).then (compare x y) = compare (a + x : ℚ) (b + y) := by
  rcases lt_trichotomy a b with h | h | h
  · rw [compare_lt_iff_lt.mpr h]
    have : (a : ℚ) + 1 ≤ b := by exact_mod_cast h
    rw [compare_lt_iff_lt.mpr (by linarith : (a + x : ℚ) < b + y)]
    rfl
  · subst h
    have e0 : compare a a = .eq := by simp
    rw [e0]
    rcases lt_trichotomy x y with h | h | h
    · rw [compare_lt_iff_lt.mpr h, compare_lt_iff_lt.mpr (by linarith)]; rfl
    · subst h; simp
    · rw [compare_gt_iff_gt.mpr h, compare_gt_iff_gt.mpr (by linarith)]; rfl
  · rw [compare_gt_iff_gt.mpr h]
    have : (b : ℚ) + 1 ≤ a := by exact_mod_cast h
    rw [compare_gt_iff_gt.mpr (by linarith : (a + x : ℚ) > b + y)]
    rfl

/-- C42, the part that holds for heights: comparing two heights in normal form is comparing the rationals. By
`C42_normal` that is every crossing whose height is positive or not whole. Missing: whole heights up to 0, for which it
is false (`C42_height_wrong`, `C42_height_zero_wrong`); what still holds for them is `C42_height_strict`. -/
theorem C42_height_cmp_partial (a b : IntrY) (ha : a.Normal) (hb : b.Normal) :
    a.cmp b = compare a.val b.val ∧ (a.eq b = true ↔ a.val = b.val) := by
  have h1 : a.cmp b = compare a.val b.val := by
    unfold IntrY.cmp IntrY.val
    rw [C42_cmp, then_compare _ _ _ _ ha.1 ha.2 hb.1 hb.2]
  refine ⟨h1, ?_⟩
  have h2 : a.eq b = true ↔ a.cmp b = .eq := by
    unfold IntrY.eq IntrY.cmp Frac.cmp
    rw [decide_eq_true_eq]
    rcases lt_trichotomy a.whole b.whole with h | h | h
    · rw [compare_lt_iff_lt.mpr h]
      simp [Ordering.then, h.ne]
    · rw [h]
      have e0 : compare b.whole b.whole = .eq := by simp
      rw [e0]
      simp [Ordering.then, compare_eq_iff_eq]
    · rw [compare_gt_iff_gt.mpr h]
      simp [Ordering.then, h.ne']
  rw [h2, h1, compare_eq_iff_eq]

/-- C42, the part that holds for a height and a row. Missing: see `C42_height_cmp_partial`. -/
theorem C42_height_cmp_int_partial (a : IntrY) (ha : a.Normal) (b : Int) : a.cmpInt b = compare a.val b := by
  unfold IntrY.cmpInt IntrY.val
  rw [C42_cmp_int]
  have := then_compare a.whole b a.frac.val 0 ha.1 ha.2 le_rfl one_pos
  rw [add_zero] at this
  push_cast
  exact this

/-- C42: what holds for the heights of all crossings: different heights are ordered as the rationals, and a height
different from a row is on the right side of it. So the only wrong answer is that an equal height is called smaller
or greater. -/
theorem C42_height_strict (a b : IntrY) (ha : a.Good) (hb : b.Good) (r : Int) :
    (a.val < b.val → a.cmp b = .lt) ∧ (a.val > b.val → a.cmp b = .gt) ∧
    (a.val < r → a.cmpInt r = .lt) ∧ (a.val > r → a.cmpInt r = .gt) := by
  obtain ⟨a0, a1⟩ := ha
  obtain ⟨b0, b1⟩ := hb
  have gen : ∀ (p q : Int) (x y : ℚ), 0 ≤ x → x ≤ 1 → 0 ≤ y → y ≤ 1 → (p + x : ℚ) < q + y →
      (compare p q).then (compare x y) = .lt ∧ (compare q p).then (compare y x) = .gt := by
    intro p q x y x0 x1 y0 y1 h
    rcases lt_trichotomy p q with c | c | c
    · rw [compare_lt_iff_lt.mpr c, compare_gt_iff_gt.mpr c]; exact ⟨rfl, rfl⟩
    · subst c
      have hxy : x < y := by linarith
      have e0 : compare p p = .eq := by simp
      rw [e0, compare_lt_iff_lt.mpr hxy, compare_gt_iff_gt.mpr hxy]
      exact ⟨rfl, rfl⟩
    · have : (q : ℚ) + 1 ≤ p := by exact_mod_cast c
      linarith
  unfold IntrY.cmp IntrY.cmpInt IntrY.val
  simp only [C42_cmp, C42_cmp_int]
  refine ⟨fun h => (gen _ _ _ _ a0 a1 b0 b1 h).1, fun h => (gen _ _ _ _ b0 b1 a0 a1 h).2, fun h => ?_, fun h => ?_⟩
  · have := (gen _ _ _ _ a0 a1 le_rfl zero_le_one (by rw [add_zero]; exact h)).1
    exact_mod_cast this
  · have := (gen _ _ _ _ le_rfl zero_le_one a0 a1 (by rw [add_zero]; exact h)).2
    exact_mod_cast this

/-- The heights of crossings meet the hypothesis of `C42_height_strict`. -/
theorem C42_good (s1 s2 : Seg) (iy : IntrY) (h : isect s1 s2 = some iy) : iy.Good := by
  obtain ⟨hd, rfl⟩ := isect_height h
  exact height_good s1 s2 hd

/-- C42 is false: the lines from (-1,-3) to (1,-1) and from (1,-3) to (-1,-1) cross at height -2, which compares less
than the row -2. -/
theorem C42_height_wrong : ∃ s1 s2 : Seg, ∃ iy, isect s1 s2 = some iy ∧ iy.val = -2 ∧ iy.cmpInt (-2) = .lt := by
  refine ⟨⟨0, 1, ⟨-1, -3⟩, ⟨1, -1⟩⟩, ⟨2, 3, ⟨1, -3⟩, ⟨-1, -1⟩⟩, ⟨-3, ⟨8, 8, by decide⟩⟩, by decide, ?_, by decide⟩
  norm_num [IntrY.val, Frac.val]

/-- C42 is false: the same crossing at height 0 compares less than the row 0 in one order of the lines and equal in
the other. -/
theorem C42_height_zero_wrong : ∃ s1 s2 : Seg, ∃ iy iy', isect s1 s2 = some iy ∧ isect s2 s1 = some iy' ∧
    iy.val = 0 ∧ iy'.val = 0 ∧ iy.cmpInt 0 ≠ iy'.cmpInt 0 := by
  refine ⟨⟨0, 1, ⟨-1, -1⟩, ⟨1, 1⟩⟩, ⟨2, 3, ⟨1, -1⟩, ⟨-1, 1⟩⟩, ⟨0, ⟨0, 8, by decide⟩⟩, ⟨-1, ⟨8, 8, by decide⟩⟩, ?_⟩
  refine ⟨by decide, by decide, ?_, ?_, by decide⟩ <;> norm_num [IntrY.val, Frac.val]

/-- Non-vacuity: two lines crossing at height 1/2. -/
example : ∃ s1 s2 : Seg, ∃ iy, isect s1 s2 = some iy ∧ iy.val = 1 / 2 ∧ iy.Normal := by
  refine ⟨⟨0, 1, ⟨0, 0⟩, ⟨1, 1⟩⟩, ⟨2, 3, ⟨1, 0⟩, ⟨0, 1⟩⟩, ⟨0, ⟨1, 2, by decide⟩⟩, by decide, ?_, ?_⟩ <;>
    norm_num [IntrY.Normal, IntrY.val, Frac.val]

/-! ### Ranges -/

/-- `v` fits a signed integer of `w` bits. -/
def FitsBits (w : Nat) (v : Int) : Prop := -(2:Int)^(w-1) ≤ v ∧ v < (2:Int)^(w-1)

/-- A coordinate in the quarter range of `w` bits. -/
def Quarter (w : Nat) (v : Int) : Prop := -(2:Int)^(w-2) ≤ v ∧ v < (2:Int)^(w-2)

theorem diff_bound {M a b : Int} (h1 : -M ≤ a ∧ a < M) (h2 : -M ≤ b ∧ b < M) : |a - b| ≤ 2 * M - 1 := by
  rw [abs_le]; omega

theorem prod_bound {M a b : Int} (hM : 0 < M) (h1 : |a| ≤ 2 * M - 1) (h2 : |b| ≤ 2 * M - 1) : |a * b| ≤ 4 * M * M - 4 * M + 1 := by
  rw [abs_mul]
  have := mul_le_mul h1 h2 (abs_nonneg b) (by omega)
  nlinarith

theorem pow_step {w : Nat} (hw : 2 ≤ w) : (2:Int)^(w-1) = 2 * (2:Int)^(w-2) := by
  obtain ⟨k, rfl⟩ : ∃ k, w = k + 2 := ⟨w - 2, by omega⟩
  rw [show k + 2 - 1 = k + 1 by omega, show k + 2 - 2 = k by omega, pow_succ]; ring

theorem pow_step2 {w : Nat} (hw : 2 ≤ w) : (2:Int)^(2*w-1) = 8 * ((2:Int)^(w-2) * (2:Int)^(w-2)) := by
  obtain ⟨k, rfl⟩ : ∃ k, w = k + 2 := ⟨w - 2, by omega⟩
  rw [show 2 * (k + 2) - 1 = k + k + 3 by omega, show k + 2 - 2 = k by omega, pow_add, pow_add]; ring

/-- The coordinates of a line are in the quarter range. -/
def Seg.Quarter (w : Nat) (s : Seg) : Prop :=
  Raster.Quarter w s.pa.x ∧ Raster.Quarter w s.pa.y ∧ Raster.Quarter w s.pb.x ∧ Raster.Quarter w s.pb.y

/-- C42: with coordinates in the quarter range of `w` bits, the determinants of the crossing test fit `2w` bits, so the
unbounded integers of the model are those of the code. -/
theorem C42_fits_det (w : Nat) (hw : 2 ≤ w) (s1 s2 : Seg) (h1 : s1.Quarter w) (h2 : s2.Quarter w) :
    FitsBits (2*w) (dDet s1 s2) ∧ FitsBits (2*w) (tDet s1 s2) ∧ FitsBits (2*w) (uDet s1 s2) := by
  obtain ⟨a1, a2, a3, a4⟩ := h1
  obtain ⟨b1, b2, b3, b4⟩ := h2
  unfold FitsBits dDet tDet uDet
  rw [pow_step2 hw]
  have hM : (0:Int) < (2:Int)^(w-2) := by positivity
  unfold Raster.Quarter at *
  generalize (2:Int)^(w-2) = M at *
  have gen : ∀ a b c d a' b' c' d' : Int, (-M ≤ a ∧ a < M) → (-M ≤ b ∧ b < M) → (-M ≤ c ∧ c < M) → (-M ≤ d ∧ d < M) →
      (-M ≤ a' ∧ a' < M) → (-M ≤ b' ∧ b' < M) → (-M ≤ c' ∧ c' < M) → (-M ≤ d' ∧ d' < M) →
      -(8 * (M * M)) ≤ (a - b) * (c - d) - (a' - b') * (c' - d') ∧ (a - b) * (c - d) - (a' - b') * (c' - d') < 8 * (M * M) := by
    intro a b c d a' b' c' d' h1 h2 h3 h4 h5 h6 h7 h8
    have p1 := abs_le.mp (prod_bound hM (diff_bound h1 h2) (diff_bound h3 h4))
    have p2 := abs_le.mp (prod_bound hM (diff_bound h5 h6) (diff_bound h7 h8))
    have e : 4 * M * M = 4 * (M * M) := by ring
    rw [e] at p1 p2
    constructor <;> linarith [p1.1, p1.2, p2.1, p2.2]
  exact ⟨gen _ _ _ _ _ _ _ _ a1 a3 b2 b4 a2 a4 b1 b3, gen _ _ _ _ _ _ _ _ a1 b1 b2 b4 a2 b2 b1 b3,
    gen _ _ _ _ _ _ _ _ a1 b1 a2 a4 a2 b2 a1 a3⟩

/-- C42: with ends in the quarter range and a row (or the row after it) in that range, numerator and denominator of an
abscissa fit `2w` and `w` bits. -/
theorem C42_fits_x (w : Nat) (hw : 2 ≤ w) (s : Seg) (h1 : s.Quarter w) (y : Int) (hy : Raster.Quarter w y)
    (h : s.pa.y - s.pb.y ≠ 0) : FitsBits (2*w) (xIntercept s.pa s.pb y h).num ∧ FitsBits w (xIntercept s.pa s.pb y h).den := by
  obtain ⟨a1, a2, a3, a4⟩ := h1
  unfold FitsBits xIntercept Frac.of
  rw [pow_step2 hw, pow_step hw]
  have hM : (0:Int) < (2:Int)^(w-2) := by positivity
  unfold Raster.Quarter at *
  generalize (2:Int)^(w-2) = M at *
  have gen : ∀ x b c x' b' c' : Int, (-M ≤ x ∧ x < M) → (-M ≤ b ∧ b < M) → (-M ≤ c ∧ c < M) →
      (-M ≤ x' ∧ x' < M) → (-M ≤ b' ∧ b' < M) → (-M ≤ c' ∧ c' < M) →
      -(8 * (M * M)) < x * (b - c) + x' * (b' - c') ∧ x * (b - c) + x' * (b' - c') < 8 * (M * M) := by
    intro x b c x' b' c' h1 h2 h3 h4 h5 h6
    have q1 : |x| ≤ 2 * M - 1 := by rw [abs_le]; omega
    have q2 : |x'| ≤ 2 * M - 1 := by rw [abs_le]; omega
    have p1 := abs_le.mp (prod_bound hM q1 (diff_bound h2 h3))
    have p2 := abs_le.mp (prod_bound hM q2 (diff_bound h5 h6))
    have e : 4 * M * M = 4 * (M * M) := by ring
    rw [e] at p1 p2
    constructor <;> linarith [p1.1, p1.2, p2.1, p2.2]
  have g := gen _ _ _ _ _ _ a1 hy a4 a3 a2 hy
  generalize s.pa.x * (y - s.pb.y) + s.pb.x * (s.pa.y - y) = N at *
  split <;> simp only <;> refine ⟨⟨?_, ?_⟩, ?_, ?_⟩ <;> linarith [g.1, g.2, a2.1, a2.2, a4.1, a4.2]

end PolyOps.Raster
