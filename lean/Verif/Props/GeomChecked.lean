import Verif.Model.GeomChecked
import Verif.Props.Geom

/-! Properties C12 (no overflow) and C19 (paired ray test). -/
namespace PolyOps

/-- Quarter range of a `w`-bit type: two bits of head room. -/
def Quarter (w : Nat) (p : Pt) : Prop :=
  -2 ^ (w - 2) ≤ p.x ∧ p.x < 2 ^ (w - 2) ∧ -2 ^ (w - 2) ≤ p.y ∧ p.y < 2 ^ (w - 2)

theorem fit_some {w : Nat} {v : Int} (h1 : -2 ^ (w - 1) ≤ v) (h2 : v < 2 ^ (w - 1)) : fit w v = some v :=
  if_pos ⟨h1, h2⟩

theorem pow_half {w : Nat} (hw : 2 ≤ w) : (2:Int) ^ (w - 1) = 2 * 2 ^ (w - 2) := by
  rw [show w - 1 = (w - 2) + 1 by omega, pow_succ]; ring

theorem pow_long {w : Nat} (hw : 2 ≤ w) : (2:Int) ^ (2 * w - 1) = 8 * (2 ^ (w - 2) * 2 ^ (w - 2)) := by
  rw [← pow_add, show 2 * w - 1 = (w - 2 + (w - 2)) + 3 by omega, pow_add]; ring

/-- Quarter-range values: differences fit a `Coord`. -/
theorem subC_some {w : Nat} (hw : 2 ≤ w) {a b : Int} (ha : -2 ^ (w - 2) ≤ a ∧ a < 2 ^ (w - 2))
    (hb : -2 ^ (w - 2) ≤ b ∧ b < 2 ^ (w - 2)) : subC w a b = some (a - b) := by
  apply fit_some <;> rw [pow_half hw] <;> linarith [ha.1, ha.2, hb.1, hb.2]

theorem mul_abs_le {a b k : Int} (ha : |a| ≤ 2 * k) (hb : |b| ≤ 2 * k) : |a * b| ≤ 4 * (k * k) := by
  rw [abs_mul]
  have := mul_le_mul ha hb (abs_nonneg _) (le_trans (abs_nonneg _) ha)
  linarith

theorem sub_abs {a b k : Int} (ha : -k ≤ a ∧ a < k) (hb : -k ≤ b ∧ b < k) : |a - b| ≤ 2 * k - 1 := by
  rw [abs_le]; constructor <;> linarith [ha.1, ha.2, hb.1, hb.2, Int.add_one_le_of_lt ha.2, Int.add_one_le_of_lt hb.2]

theorem mul_abs_lt {a b k : Int} (hk : 1 ≤ k) (ha : |a| ≤ 2 * k - 1) (hb : |b| ≤ 2 * k - 1) :
    |a * b| ≤ 4 * (k * k) - 1 := by
  rw [abs_mul]
  have := mul_le_mul ha hb (abs_nonneg _) (le_trans (abs_nonneg _) ha)
  nlinarith

theorem mulC_some {w : Nat} (hw : 2 ≤ w) {a b : Int} (ha : |a| ≤ 2 * 2 ^ (w - 2) - 1) (hb : |b| ≤ 2 * 2 ^ (w - 2) - 1) :
    mulC w a b = some (a * b) := by
  have hk : (1:Int) ≤ 2 ^ (w - 2) := one_le_pow₀ (by norm_num)
  have := mul_abs_lt hk ha hb
  rw [abs_le] at this
  apply fit_some <;> rw [pow_long hw] <;> nlinarith [this.1, this.2]

theorem detC_some {w : Nat} (hw : 2 ≤ w) {a b c d e f g h : Int}
    (ha : -2 ^ (w - 2) ≤ a ∧ a < 2 ^ (w - 2)) (hb : -2 ^ (w - 2) ≤ b ∧ b < 2 ^ (w - 2))
    (hc : -2 ^ (w - 2) ≤ c ∧ c < 2 ^ (w - 2)) (hd : -2 ^ (w - 2) ≤ d ∧ d < 2 ^ (w - 2))
    (he : -2 ^ (w - 2) ≤ e ∧ e < 2 ^ (w - 2)) (hf : -2 ^ (w - 2) ≤ f ∧ f < 2 ^ (w - 2))
    (hg : -2 ^ (w - 2) ≤ g ∧ g < 2 ^ (w - 2)) (hh : -2 ^ (w - 2) ≤ h ∧ h < 2 ^ (w - 2)) :
    detC w a b c d e f g h = some ((a - b) * (c - d) - (e - f) * (g - h)) := by
  have hk : (1:Int) ≤ 2 ^ (w - 2) := one_le_pow₀ (by norm_num)
  unfold detC
  rw [subC_some hw ha hb, subC_some hw hc hd, subC_some hw he hf, subC_some hw hg hh]
  simp only [Option.bind_eq_bind, Option.bind_some]
  have m1 := mul_abs_lt hk (sub_abs ha hb) (sub_abs hc hd)
  have m2 := mul_abs_lt hk (sub_abs he hf) (sub_abs hg hh)
  rw [mulC_some hw (sub_abs ha hb) (sub_abs hc hd), mulC_some hw (sub_abs he hf) (sub_abs hg hh)]
  simp only [Option.bind_some]
  rw [abs_le] at m1 m2
  apply fit_some <;> rw [pow_long hw] <;> linarith [m1.1, m1.2, m2.1, m2.2]

/-- C12: orientation test. -/
theorem C12_triangleWinding (w : Nat) (hw : 2 ≤ w) (p q r : Pt) (hp : Quarter w p) (hq : Quarter w q) (hr : Quarter w r) :
    triangleWindingC w p q r = some (triangleWinding p q r) := by
  unfold Quarter at *
  unfold triangleWindingC triangleWinding
  rw [detC_some hw] <;> tauto

/-- C12: the three determinants of the intersection test. -/
theorem C12_intersects (w : Nat) (hw : 2 ≤ w) (s1 s2 : CSeg) (h1 : Quarter w s1.pa) (h2 : Quarter w s1.pb)
    (h3 : Quarter w s2.pa) (h4 : Quarter w s2.pb) :
    isDC w s1 s2 = some (isD s1 s2) ∧ isTC w s1 s2 = some (isT s1 s2) ∧ isUC w s1 s2 = some (isU s1 s2) := by
  unfold Quarter at *
  unfold isDC isTC isUC isD isT isU
  refine ⟨?_, ?_, ?_⟩ <;> rw [detC_some hw] <;> tauto

/-- C12: the projections of the collinear test. -/
theorem C12_intDot (w : Nat) (hw : 2 ≤ w) (a b c d : Pt) (h1 : Quarter w a) (h2 : Quarter w b)
    (h3 : Quarter w c) (h4 : Quarter w d) : intDotC w a b c d = some (intDot (a - b) (c - d)) := by
  have hk : (1:Int) ≤ 2 ^ (w - 2) := one_le_pow₀ (by norm_num)
  obtain ⟨a1, a2, a3, a4⟩ := h1
  obtain ⟨b1, b2, b3, b4⟩ := h2
  obtain ⟨c1, c2, c3, c4⟩ := h3
  obtain ⟨d1, d2, d3, d4⟩ := h4
  unfold intDotC intDot
  rw [subC_some hw ⟨a1, a2⟩ ⟨b1, b2⟩, subC_some hw ⟨c1, c2⟩ ⟨d1, d2⟩, subC_some hw ⟨a3, a4⟩ ⟨b3, b4⟩,
    subC_some hw ⟨c3, c4⟩ ⟨d3, d4⟩]
  have s1 := sub_abs ⟨a1, a2⟩ ⟨b1, b2⟩
  have s2 := sub_abs ⟨c1, c2⟩ ⟨d1, d2⟩
  have s3 := sub_abs ⟨a3, a4⟩ ⟨b3, b4⟩
  have s4 := sub_abs ⟨c3, c4⟩ ⟨d3, d4⟩
  simp only [Option.bind_eq_bind, Option.bind_some, Pt.sub_x, Pt.sub_y]
  have m1 := mul_abs_lt hk s1 s2
  have m2 := mul_abs_lt hk s3 s4
  rw [mulC_some hw s1 s2, mulC_some hw s3 s4]
  simp only [Option.bind_some]
  rw [abs_le] at m1 m2
  apply fit_some <;> rw [pow_long hw] <;> linarith [m1.1, m1.2, m2.1, m2.2]

/-- C12: the ray test for the line from `p` to `e`. -/
theorem C12_upRay (w : Nat) (hw : 2 ≤ w) (sa sb p e : Pt) (tie : Bool) (h1 : Quarter w sa) (h2 : Quarter w sb)
    (h3 : Quarter w p) (h4 : Quarter w e) :
    upRayC w sa sb p e tie = some (upRay sa sb p (hsignOf (e - p)) (e - p) tie) := by
  obtain ⟨a1, a2, a3, a4⟩ := h1
  obtain ⟨b1, b2, b3, b4⟩ := h2
  obtain ⟨c1, c2, c3, c4⟩ := h3
  obtain ⟨d1, d2, d3, d4⟩ := h4
  unfold upRayC upRay
  rw [subC_some hw ⟨d1, d2⟩ ⟨c1, c2⟩, subC_some hw ⟨d3, d4⟩ ⟨c3, c4⟩, subC_some hw ⟨b1, b2⟩ ⟨a1, a2⟩,
    subC_some hw ⟨b3, b4⟩ ⟨a3, a4⟩, subC_some hw ⟨c1, c2⟩ ⟨a1, a2⟩, subC_some hw ⟨c3, c4⟩ ⟨a3, a4⟩]
  simp only [Option.bind_eq_bind, Option.bind_some, Pt.sub_x, Pt.sub_y]
  rw [mulC_some hw (sub_abs ⟨c1, c2⟩ ⟨a1, a2⟩) (sub_abs ⟨b3, b4⟩ ⟨a3, a4⟩),
    mulC_some hw (sub_abs ⟨c3, c4⟩ ⟨a3, a4⟩) (sub_abs ⟨b1, b2⟩ ⟨a1, a2⟩)]
  simp only [Option.bind_some, lowerAngleC]
  rw [mulC_some hw (sub_abs ⟨b3, b4⟩ ⟨a3, a4⟩) (sub_abs ⟨d1, d2⟩ ⟨c1, c2⟩),
    mulC_some hw (sub_abs ⟨d3, d4⟩ ⟨c3, c4⟩) (sub_abs ⟨b1, b2⟩ ⟨a1, a2⟩)]
  simp only [Option.bind_some, pure, lowerAngle, Pt.sub_x, Pt.sub_y]
  have hh : hsignOf (e - p) = hsignOf ⟨e.x - p.x, e.y - p.y⟩ := rfl
  have hv : vertOverlap sa sb p (e - p) tie = vertOverlap sa sb p ⟨e.x - p.x, e.y - p.y⟩ tie := rfl
  rw [hh, hv]
  generalize hsignOf ⟨e.x - p.x, e.y - p.y⟩ = k
  by_cases k1 : sb.x - sa.x = 0
  · simp only [k1, if_true]
  by_cases k2 : p.x < sa.x ∨ p.x = sa.x ∧ k < 0
  · simp only [k1, k2, if_true, if_false]
  by_cases k3 : p.x > sb.x ∨ p.x = sb.x ∧ k > 0
  · simp only [k1, k2, k3, if_true, if_false]
  simp only [k1, k2, k3, if_false]
  by_cases k4 : (p.x - sa.x) * (sb.y - sa.y) < (p.y - sa.y) * (sb.x - sa.x)
  · simp only [k4, if_true, decide_true, Bool.true_or]
  by_cases k5 : (p.x - sa.x) * (sb.y - sa.y) = (p.y - sa.y) * (sb.x - sa.x)
  · simp only [k5, if_true, decide_true, Bool.true_and, lt_irrefl, if_false, decide_false, Bool.false_or]
    rfl
  · simp only [k4, k5, if_false, decide_false, Bool.false_and, Bool.or_false]

/-- The bound is sharp: one step outside the quarter range the orientation test overflows, for every width. -/
theorem C12_sharp (w : Nat) (hw : 2 ≤ w) :
    triangleWindingC w ⟨-2 ^ (w - 2), 0⟩ ⟨2 ^ (w - 2), 0⟩ ⟨0, 0⟩ = none := by
  unfold triangleWindingC detC subC fit
  have : ¬ (-(2:Int) ^ (w - 1) ≤ 2 ^ (w - 2) - -2 ^ (w - 2) ∧ (2:Int) ^ (w - 2) - -2 ^ (w - 2) < 2 ^ (w - 1)) := by
    rw [pow_half hw]; intro h; linarith [h.2]
  rw [if_neg this]
  rfl

/-- Coordinates bounded by `m`. -/
def Within (m : Int) (p : Pt) : Prop := |p.x| ≤ m ∧ |p.y| ≤ m

theorem windPutC_some {w : Nat} (hw : 2 ≤ w) {m : Int} {s : WindSink} {p : Pt}
    (hm : 2 * m < 2 ^ (w - 1)) (hs : Within m s.prev) (hp : Within m p)
    (hr : |s.r| + 4 * (m * m) < 2 ^ (2 * w - 1)) :
    windPutC w s p = some (s.put p) ∧ |(s.put p).r| ≤ |s.r| + 4 * (m * m) := by
  unfold Within at *
  obtain ⟨hs1, hs2⟩ := hs
  obtain ⟨hp1, hp2⟩ := hp
  have d1 : |s.prev.x - p.x| ≤ 2 * m := (abs_sub _ _).trans (by linarith)
  have d2 : |s.prev.y + p.y| ≤ 2 * m := (abs_add_le _ _).trans (by linarith)
  have d3 := mul_abs_le d1 d2
  have d4 : |s.r + (s.prev.x - p.x) * (s.prev.y + p.y)| ≤ |s.r| + 4 * (m * m) := (abs_add_le _ _).trans (by linarith)
  have d0 := abs_nonneg s.r
  refine ⟨?_, d4⟩
  unfold windPutC subC addC mulC addL
  rw [abs_le] at d1 d2 d3 d4
  rw [fit_some (by linarith [d1.1]) (by linarith [d1.2]), fit_some (by linarith [d2.1]) (by linarith [d2.2])]
  simp only [Option.bind_eq_bind, Option.bind_some]
  rw [fit_some (by linarith [d3.1]) (by linarith [d3.2])]
  simp only [Option.bind_some]
  rw [fit_some (by linarith [d4.1]) (by linarith [d4.2])]
  rfl

theorem windFoldC_some {w : Nat} (hw : 2 ≤ w) {m : Int} (hm : 2 * m < 2 ^ (w - 1)) (ps : List Pt) :
    ∀ (s : WindSink), Within m s.prev → (∀ p ∈ ps, Within m p) →
    |s.r| + 4 * (m * m) * (ps.length + 1) < 2 ^ (2 * w - 1) →
    windFoldC w s ps = some (ps.foldl WindSink.put s) ∧ Within m (ps.foldl WindSink.put s).prev ∧
    (ps.foldl WindSink.put s).first = s.first ∧
    |(ps.foldl WindSink.put s).r| ≤ |s.r| + 4 * (m * m) * ps.length := by
  induction ps with
  | nil => intro s h1 _ _; exact ⟨rfl, h1, rfl, by simp⟩
  | cons p ps ih =>
    intro s h1 h2 h3
    have hmm : 0 ≤ m * m := mul_self_nonneg m
    have hl : (0:Int) ≤ ps.length := by positivity
    simp only [List.length_cons, Nat.cast_add, Nat.cast_one] at h3
    have h4 := windPutC_some hw hm h1 (h2 p (by simp)) (by nlinarith)
    have h5 := ih (s.put p) (h2 p (by simp)) (fun q hq => h2 q (by simp [hq])) (by linarith [h4.2])
    refine ⟨?_, h5.2.1, h5.2.2.1, ?_⟩
    · simp only [windFoldC, h4.1, List.foldl_cons]; exact h5.1
    · simp only [List.foldl_cons, List.length_cons, Nat.cast_add, Nat.cast_one]
      linarith [h5.2.2.2, h4.2]

/-- C12: the area sum. All partial sums fit as long as the number of points times `4 m²` does. -/
theorem C12_windingDir (w : Nat) (hw : 2 ≤ w) (m : Int) (hm : 2 * m < 2 ^ (w - 1)) (ps : List Pt)
    (hp : ∀ p ∈ ps, Within m p) (hn : 4 * (m * m) * ps.length < 2 ^ (2 * w - 1)) :
    windingDirC w ps = some (windingDir ps) := by
  cases ps with
  | nil => rfl
  | cons p ps =>
    have hi := windFoldC_some hw hm ps (WindSink.init p) (hp p (by simp)) (fun q hq => hp q (by simp [hq]))
      (by simpa [WindSink.init] using hn)
    unfold windingDirC
    simp only [hi.1, Option.bind_eq_bind, Option.bind_some]
    have hf : (ps.foldl WindSink.put (WindSink.init p)).first = p := hi.2.2.1
    simp only [List.length_cons, Nat.cast_add, Nat.cast_one] at hn
    have h4 := windPutC_some hw hm hi.2.1 (p := (ps.foldl WindSink.put (WindSink.init p)).first)
      (by rw [hf]; exact hp p (by simp)) (by
        have := hi.2.2.2
        have e0 : |(WindSink.init p).r| = 0 := by simp [WindSink.init]
        rw [e0] at this; linarith)
    rw [h4.1]
    rfl

/-- Two turns around the largest 8-bit quarter-range square. -/
def twoTurns : List Pt :=
  [⟨-64,-64⟩, ⟨63,-64⟩, ⟨63,63⟩, ⟨-64,63⟩, ⟨-64,-64⟩, ⟨63,-64⟩, ⟨63,63⟩, ⟨-64,63⟩]

/-- Quarter-range coordinates alone do not suffice for the area sum: a polygon that winds twice around the
largest square overflows (8-bit coordinates, 16-bit sums). -/
theorem C12_windingDir_overflow : (∀ p ∈ twoTurns, Quarter 8 p) ∧ windingDirC 8 twoTurns = none := by
  constructor
  · intro p hp
    simp only [twoTurns, List.mem_cons, List.not_mem_nil, or_false] at hp
    rcases hp with h | h | h | h | h | h | h | h <;> subst h <;> unfold Quarter <;> decide
  · decide

example : Quarter 32 ⟨1073741823, -1073741824⟩ := by unfold Quarter; decide

/-! ### C19 -/

/-- C19: the paired ray test gives the same two answers as two single tests, for nonzero directions. -/
theorem C19_dual (sa sb p dp1 dp2 : Pt) (t1 t2 : Bool) (hs : sa.x ≤ sb.x)
    (h1 : dp1 ≠ ⟨0, 0⟩) (h2 : dp2 ≠ ⟨0, 0⟩) :
    dualUpRay sa sb p (hsignOf dp1) dp1 t1 (hsignOf dp2) dp2 t2 =
      (upRay sa sb p (hsignOf dp1) dp1 t1, upRay sa sb p (hsignOf dp2) dp2 t2) := by
  have hh : ∀ d : Pt, d ≠ ⟨0, 0⟩ → hsignOf d ≠ 0 := by
    intro d hd h
    apply hd
    unfold hsignOf at h
    split at h
    · contradiction
    · rename_i hx; exact Pt.ext (by simpa using hx) h
  have e1 := hh _ h1
  have e2 := hh _ h2
  generalize hsignOf dp1 = k1 at *
  generalize hsignOf dp2 = k2 at *
  unfold dualUpRay upRay
  simp only [Pt.sub_x, Pt.sub_y]
  by_cases c0 : sb.x - sa.x = 0
  · simp only [c0, if_true]
  simp only [c0, if_false]
  generalize lowerAngle (sb - sa) dp1 t1 = l1
  generalize lowerAngle (sb - sa) dp2 t2 = l2
  generalize (p.x - sa.x) * (sb.y - sa.y) = t
  generalize (p.y - sa.y) * (sb.x - sa.x) = u
  have single : ∀ (k : Int) (l : Bool), k ≠ 0 →
      (if p.x < sa.x ∨ p.x = sa.x ∧ k < 0 then false
        else if p.x > sb.x ∨ p.x = sb.x ∧ k > 0 then false else decide (t < u) || decide (t = u) && l) =
      (if p.x < sa.x ∨ p.x > sb.x then false else
        if t > u then false
        else if t = u then (if p.x = sa.x then decide (k > 0) else if p.x = sb.x then decide (k < 0) else true) && l
        else (if p.x = sa.x then decide (k > 0) else if p.x = sb.x then decide (k < 0) else true)) := by
    intro k l hk
    rcases lt_trichotomy t u with ht | ht | ht
    · rw [if_neg (show ¬ t > u by omega), if_neg (show ¬ t = u by omega)]
      simp only [ht, decide_true, Bool.true_or]
      repeat' split
      all_goals first | rfl | omega | (simp only [Bool.true_eq, Bool.false_eq, decide_eq_true_eq, decide_eq_false_iff_not]; omega)
    · subst ht
      simp only [lt_irrefl, decide_false, Bool.false_or, decide_true, Bool.true_and, gt_iff_lt, if_false, if_true]
      cases l
      · simp
      · simp only [Bool.and_true]
        repeat' split
        all_goals first | rfl | omega | (simp only [Bool.true_eq, Bool.false_eq, decide_eq_true_eq, decide_eq_false_iff_not]; omega)
    · rw [if_pos ht]
      have a1 : ¬ t < u := by omega
      have a2 : ¬ t = u := by omega
      simp only [a1, a2, decide_false, Bool.false_and, Bool.or_false, ite_self]
  rw [single k1 l1 e1, single k2 l2 e2]
  split
  · rfl
  · split
    · rfl
    · split
      · split
        · rfl
        · split <;> rfl
      · split
        · rfl
        · split <;> rfl

example : dualUpRay ⟨0,0⟩ ⟨4,0⟩ ⟨0,1⟩ (hsignOf ⟨2,1⟩) ⟨2,1⟩ false (hsignOf ⟨-2,1⟩) ⟨-2,1⟩ false = (true, false) := by decide

end PolyOps
