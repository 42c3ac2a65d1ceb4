import Verif.Model.SweepCmp
import Mathlib.Data.Prod.Lex
import Mathlib.Data.List.Sort
import Mathlib.Tactic.Linarith
import Mathlib.Tactic.LinearCombination
import Mathlib.Tactic.FieldSimp
import Mathlib.Tactic.Positivity

/-! C22: the order of the sweep set. -/
namespace PolyOps.SweepCmp

/-! ### Specification -/

def slope (s : CSeg) : Rat := (s.pb.y - s.pa.y) / (s.pb.x - s.pa.x)

/-- Height of the line through a segment that is not vertical; a vertical segment counts at its start. -/
def hAt (s : CSeg) (x : Rat) : Rat := s.pa.y + slope s * (x - s.pa.x)

/-- 1 for a vertical segment that goes up, −1 for one that goes down, 0 for other segments. -/
def vdir (s : CSeg) : Int := if s.pa.x = s.pb.x then (s.pb.y - s.pa.y).sign else 0

/-- Position of a segment on the vertical at `x`: height, then direction, then the height of its end. -/
def pos (x : Rat) (s : CSeg) : Rat ×ₗ Int ×ₗ Rat ×ₗ Int := toLex (hAt s x, toLex (vdir s, toLex (slope s, s.pb.y)))

/-- The same followed by the end indices. -/
def key (x : Rat) (s : CSeg) : (Rat ×ₗ Int ×ₗ Rat ×ₗ Int) ×ₗ Nat ×ₗ Nat := toLex (pos x s, toLex (s.b, s.a))

/-- The segment is met by the vertical at `x`, coming from the left (`x` is before its end, unless it is vertical). -/
structure Meets (x : Rat) (s : CSeg) : Prop where
  ne : s.pa ≠ s.pb
  le : s.pa.x ≤ s.pb.x
  start : (s.pa.x : Rat) ≤ x
  stop : s.pa.x = s.pb.x → (s.pa.x : Rat) = x

/-- Two segments do not meet after both started and up to `x`, except if they lie on one line; and if they do, then they share
their start or the height of their end. -/
structure Apart (x : Rat) (s t : CSeg) : Prop where
  cross : s.pa.x ≠ s.pb.x → t.pa.x ≠ t.pb.x → ∀ z : Rat, (s.pa.x : Rat) < z → (t.pa.x : Rat) < z → z ≤ x → hAt s z = hAt t z →
    slope s = slope t
  line : s.pa.x ≠ s.pb.x → t.pa.x ≠ t.pb.x → slope s = slope t → hAt s x = hAt t x → s.pa = t.pa ∨ s.pb.y = t.pb.y

/-! ### Properties of the comparison for all segments -/

theorem tw_swap (a b p : Pt) : triangleWinding b a p = - triangleWinding a b p := by
  unfold triangleWinding; ring

theorem tie_asymm (s t : CSeg) (h : tieCmp s t = true) : tieCmp t s = false := by
  unfold tieCmp at *
  split at h
  · rename_i e
    rw [if_pos e.symm]
    simp only [gt_iff_lt, decide_eq_true_eq] at h
    simp; omega
  · rename_i e
    rw [if_neg (Ne.symm e)]
    simp only [gt_iff_lt, decide_eq_true_eq] at h
    simp; omega

theorem tie_total (s t : CSeg) (h : (s.a, s.b) ≠ (t.a, t.b)) : tieCmp s t = true ∨ tieCmp t s = true := by
  unfold tieCmp
  by_cases e : s.b = t.b
  · have : s.a ≠ t.a := by
      intro h'; apply h; rw [h', e]
    rw [if_pos e, if_pos e.symm]
    simp; omega
  · rw [if_neg e, if_neg (Ne.symm e)]
    simp; omega

/-- The sign that decides before the tie rule. -/
def main (s1 s2 : CSeg) : Int :=
  if s1.pa.x = s2.pa.x then
    if s1.pa.y - s2.pa.y ≠ 0 then s1.pa.y - s2.pa.y
    else if triangleWinding s1.pb s1.pa s2.pb ≠ 0 then triangleWinding s1.pb s1.pa s2.pb
    else s1.pb.y - s2.pb.y
  else if s1.pa.x < s2.pa.x then
    if s1.pa.x ≠ s1.pb.x then
      if triangleWinding s1.pb s1.pa s2.pa ≠ 0 then triangleWinding s1.pb s1.pa s2.pa else triangleWinding s1.pb s1.pa s2.pb
    else 0
  else
    if s2.pa.x ≠ s2.pb.x then
      if triangleWinding s2.pa s2.pb s1.pa ≠ 0 then triangleWinding s2.pa s2.pb s1.pa else triangleWinding s2.pa s2.pb s1.pb
    else 0

theorem cmp_main (s t : CSeg) : sweepCmp s t = if main s t ≠ 0 then decide (main s t > 0) else tieCmp s t := by
  unfold sweepCmp main
  repeat' split
  all_goals first | rfl | (exfalso; simp_all)

theorem main_neg (s t : CSeg) : main t s = - main s t := by
  unfold main
  by_cases c : s.pa.x = t.pa.x
  · rw [if_pos c, if_pos c.symm]
    by_cases d : s.pa.y - t.pa.y = 0
    · have d' : t.pa.y - s.pa.y = 0 := by omega
      have hp : s.pa = t.pa := Pt.ext c (by omega)
      have e : triangleWinding t.pb t.pa s.pb = - triangleWinding s.pb s.pa t.pb := by
        rw [hp]; unfold triangleWinding; ring
      rw [if_neg (c := t.pa.y - s.pa.y ≠ 0) (by simpa using d'), if_neg (c := s.pa.y - t.pa.y ≠ 0) (by simpa using d), e]
      by_cases g : triangleWinding s.pb s.pa t.pb = 0
      · rw [if_neg (by simpa using g), if_neg (by simpa using g)]; ring
      · rw [if_pos (by simpa using g), if_pos g]
    · rw [if_pos (by omega), if_pos d]; ring
  · rw [if_neg c, if_neg (Ne.symm c)]
    by_cases l : s.pa.x < t.pa.x
    · rw [if_pos l, if_neg (by omega)]
      by_cases v : s.pa.x = s.pb.x
      · rw [if_neg (by simpa using v), if_neg (by simpa using v)]; rfl
      · rw [if_pos v, if_pos v, tw_swap s.pa s.pb, tw_swap s.pa s.pb]
        by_cases g : triangleWinding s.pa s.pb t.pa = 0
        · rw [if_neg (by simpa using g), if_neg (by simpa using g)]; ring
        · rw [if_pos (by simpa using g), if_pos (by simpa using g)]; ring
    · rw [if_neg l, if_pos (by omega)]
      by_cases v : t.pa.x = t.pb.x
      · rw [if_neg (by simpa using v), if_neg (by simpa using v)]; rfl
      · rw [if_pos v, if_pos v, tw_swap t.pa t.pb, tw_swap t.pa t.pb]
        by_cases g : triangleWinding t.pa t.pb s.pa = 0
        · rw [if_neg (by simpa using g), if_neg (by simpa using g)]
        · rw [if_pos (by simpa using g), if_pos (by simpa using g)]

/-- C22, asymmetry (hence irreflexivity), for all segments. -/
theorem C22_asymm (s t : CSeg) (h : sweepCmp s t = true) : sweepCmp t s = false := by
  rw [cmp_main] at *
  rw [main_neg]
  by_cases c : main s t = 0
  · rw [if_neg (by simpa using c)] at h
    rw [if_neg (by simpa using c)]
    exact tie_asymm s t h
  · rw [if_pos c] at h
    rw [if_pos (by omega)]
    simp only [gt_iff_lt, decide_eq_true_eq, decide_eq_false_iff_not] at *
    omega

theorem C22_irrefl (s : CSeg) : sweepCmp s s = false := by
  cases h : sweepCmp s s with
  | false => rfl
  | true => exact absurd (C22_asymm s s h) (by rw [h]; simp)

/-- C22, totality, for all segments: of two lines that are not the same line one is before the other, so an insertion into the
sweep set always succeeds. -/
theorem C22_total (s t : CSeg) (h : (s.a, s.b) ≠ (t.a, t.b)) : sweepCmp s t = true ∨ sweepCmp t s = true := by
  rw [cmp_main, cmp_main t s, main_neg s t]
  by_cases c : main s t = 0
  · rw [c]
    simpa using tie_total s t h
  · rw [if_pos c, if_pos (by omega)]
    simp only [gt_iff_lt, decide_eq_true_eq]
    omega

/-- C22 for the order of the second sweep: it is the descending order of (b, a). -/
theorem C22_tie (s t : CSeg) : tieCmp s t = true ↔ (toLex (t.b, t.a) : Nat ×ₗ Nat) < toLex (s.b, s.a) := by
  rw [Prod.Lex.toLex_lt_toLex]
  unfold tieCmp
  by_cases e : s.b = t.b
  · rw [if_pos e]; simp [e]
  · rw [if_neg e]; simp; omega

/-! ### Geometry -/

theorem tw_hAt (s : CSeg) (h : s.pa.x ≠ s.pb.x) (p : Pt) :
    (triangleWinding s.pb s.pa p : Rat) = (s.pb.x - s.pa.x) * (hAt s p.x - p.y) := by
  have : ((s.pb.x : Rat) - s.pa.x) ≠ 0 := by
    intro h'; apply h
    have : (s.pb.x : Rat) = s.pa.x := by linarith
    have : s.pb.x = s.pa.x := by exact_mod_cast this
    omega
  unfold hAt slope triangleWinding
  push_cast
  field_simp
  ring

theorem hAt_diff (s t : CSeg) (x z : Rat) : hAt s z - hAt t z = (hAt s x - hAt t x) + (slope s - slope t) * (z - x) := by
  unfold hAt; ring

theorem hAt_start (s : CSeg) : hAt s s.pa.x = s.pa.y := by unfold hAt; ring

theorem slope_end (s : CSeg) (h : s.pa.x ≠ s.pb.x) : hAt s s.pb.x = s.pb.y := by
  have : ((s.pb.x : Rat) - s.pa.x) ≠ 0 := by
    intro h'; apply h
    have : (s.pb.x : Rat) = s.pa.x := by linarith
    have : s.pb.x = s.pa.x := by exact_mod_cast this
    omega
  unfold hAt slope
  field_simp
  ring

theorem pos_lt_iff (x : Rat) (s t : CSeg) : pos x t < pos x s ↔ hAt t x < hAt s x ∨ hAt t x = hAt s x ∧
    (vdir t < vdir s ∨ vdir t = vdir s ∧ (slope t < slope s ∨ slope t = slope s ∧ t.pb.y < s.pb.y)) := by
  unfold pos
  rw [Prod.Lex.toLex_lt_toLex, Prod.Lex.toLex_lt_toLex, Prod.Lex.toLex_lt_toLex]

/-- A difference that starts at `d ≥ 0` (and grows if it starts at zero) and does not vanish up to `x`. -/
theorem keep_sign {s t : CSeg} {m x : Rat} (hm : m ≤ x)
    (hc : ∀ z, m < z → z ≤ x → hAt s z = hAt t z → slope s = slope t) (h : hAt t m < hAt s m) : hAt t x < hAt s x := by
  by_contra hn
  push Not at hn
  have e := hAt_diff s t m x
  have d0 : slope s - slope t < 0 := by
    by_contra hs
    push Not at hs
    have : 0 ≤ (slope s - slope t) * (x - m) := mul_nonneg hs (by linarith)
    linarith
  -- the place where they meet
  have : ∃ z, m < z ∧ z ≤ x ∧ hAt s z = hAt t z := by
    refine ⟨m + (hAt s m - hAt t m) / (slope t - slope s), ?_, ?_, ?_⟩
    · have : 0 < (hAt s m - hAt t m) / (slope t - slope s) := div_pos (by linarith) (by linarith)
      linarith
    · have : (hAt s m - hAt t m) / (slope t - slope s) ≤ x - m := by
        rw [div_le_iff₀ (by linarith)]
        nlinarith
      linarith
    · have h1 := hAt_diff s t m (m + (hAt s m - hAt t m) / (slope t - slope s))
      have h2 : (slope s - slope t) * (m + (hAt s m - hAt t m) / (slope t - slope s) - m) = -(hAt s m - hAt t m) := by
        have : slope t - slope s ≠ 0 := by intro h; linarith
        field_simp
        ring
      linarith
  obtain ⟨z, z1, z2, z3⟩ := this
  have := hc z z1 z2 z3
  linarith

/-- Two segments that are not vertical, `m` the later start: the order right after `m` is the order at `x`. -/
theorem order_at {s t : CSeg} {m x : Rat} (hs : s.pa.x ≠ s.pb.x) (ht : t.pa.x ≠ t.pb.x) (hm : m ≤ x)
    (hc : ∀ z, m < z → z ≤ x → hAt s z = hAt t z → slope s = slope t)
    (h : hAt t m < hAt s m ∨ hAt t m = hAt s m ∧ slope t < slope s) : pos x t < pos x s := by
  rw [pos_lt_iff]
  have vs : vdir s = 0 := by unfold vdir; rw [if_neg hs]
  have vt : vdir t = 0 := by unfold vdir; rw [if_neg ht]
  rcases h with h | ⟨h1, h2⟩
  · left; exact keep_sign hm hc h
  · have e := hAt_diff s t m x
    by_cases c : m = x
    · right
      rw [← c]
      exact ⟨h1, Or.inr ⟨by rw [vs, vt], Or.inl h2⟩⟩
    · left
      have : 0 < (slope s - slope t) * (x - m) := mul_pos (by linarith) (by
        have := lt_of_le_of_ne hm c
        linarith)
      linarith

theorem cast_lt {a b : Int} (h : a < b) : (0 : Rat) < (b : Rat) - a := by
  have : (a : Rat) < b := by exact_mod_cast h
  linarith

/-- The sign that decides, when `s` starts before `t`. -/
theorem main_before {x : Rat} {s t : CSeg} (hs : Meets x s) (ht : Meets x t) (ha : Apart x s t) (hlt : s.pa.x < t.pa.x) :
    (0 < main s t → pos x t < pos x s) ∧ (main s t < 0 → pos x s < pos x t) ∧ (main s t = 0 → pos x s = pos x t) := by
  have hsv : s.pa.x ≠ s.pb.x := by
    intro e
    have h1 := hs.stop e
    have h2 := ht.start
    have : (s.pa.x : Rat) < t.pa.x := by exact_mod_cast hlt
    linarith
  have dx : (0 : Rat) < (s.pb.x : Rat) - s.pa.x := cast_lt (by have := hs.le; omega)
  have vs : vdir s = 0 := by unfold vdir; rw [if_neg hsv]
  have lt1 : (s.pa.x : Rat) < t.pa.x := by exact_mod_cast hlt
  have w1 := tw_hAt s hsv t.pa
  have w2 := tw_hAt s hsv t.pb
  have e0 : main s t = if triangleWinding s.pb s.pa t.pa ≠ 0 then triangleWinding s.pb s.pa t.pa else triangleWinding s.pb s.pa t.pb := by
    unfold main
    rw [if_neg (by omega), if_pos hlt, if_pos hsv]
  have sgn : ∀ (w : Int) (d : Rat), (w : Rat) = (s.pb.x - s.pa.x) * d → (0 < w → 0 < d) ∧ (w < 0 → d < 0) ∧ (w = 0 → d = 0) := by
    intro w d hw
    refine ⟨fun h => ?_, fun h => ?_, fun h => ?_⟩
    · have : (0 : Rat) < w := by exact_mod_cast h
      rw [hw] at this
      exact (mul_pos_iff_of_pos_left dx).mp this
    · have : (w : Rat) < 0 := by exact_mod_cast h
      rw [hw] at this
      by_contra hn
      push Not at hn
      have := mul_nonneg dx.le hn
      linarith
    · rw [h] at hw
      have : (s.pb.x - s.pa.x : Rat) * d = 0 := by rw [← hw]; rfl
      rcases mul_eq_zero.mp this with h' | h'
      · linarith
      · exact h'
  have s1 := sgn _ _ w1
  have s2 := sgn _ _ w2
  by_cases tv : t.pa.x = t.pb.x
  · -- `t` is vertical
    have tx := ht.stop tv
    have hy : t.pa.y ≠ t.pb.y := fun e => ht.ne (Pt.ext tv e)
    have ht1 : hAt t x = t.pa.y := by rw [← tx]; exact hAt_start t
    have hvt : vdir t = (t.pb.y - t.pa.y).sign := by unfold vdir; rw [if_pos tv]
    rw [← tv] at s2
    rw [tx] at s1 s2
    rw [pos_lt_iff, pos_lt_iff, ht1, vs, hvt, e0]
    by_cases c : triangleWinding s.pb s.pa t.pa = 0
    · rw [if_neg (by simpa using c)]
      have e1 := s1.2.2 c
      have key : hAt s x - t.pb.y = (t.pa.y - t.pb.y : Rat) := by linarith
      rw [key] at s2
      refine ⟨fun h => ?_, fun h => ?_, fun h => ?_⟩
      · have := s2.1 h
        have : (t.pb.y : Rat) < t.pa.y := by linarith
        have : t.pb.y < t.pa.y := by exact_mod_cast this
        right
        refine ⟨by linarith, Or.inl ?_⟩
        rw [Int.sign_eq_neg_one_of_neg (by omega)]
        decide
      · have := s2.2.1 h
        have : (t.pa.y : Rat) < t.pb.y := by linarith
        have : t.pa.y < t.pb.y := by exact_mod_cast this
        right
        refine ⟨by linarith, Or.inl ?_⟩
        rw [Int.sign_eq_one_of_pos (by omega)]
        decide
      · have := s2.2.2 h
        have : (t.pa.y : Rat) = t.pb.y := by linarith
        exact absurd (by exact_mod_cast this) hy
    · rw [if_pos c]
      refine ⟨fun h => ?_, fun h => ?_, fun h => absurd h c⟩
      · left; have := s1.1 h; linarith
      · left; have := s1.2.1 h; linarith
  · -- neither is vertical
    have dt : (0 : Rat) < (t.pb.x : Rat) - t.pa.x := cast_lt (by have := ht.le; omega)
    have hcs : ∀ z, (t.pa.x : Rat) < z → z ≤ x → hAt s z = hAt t z → slope s = slope t :=
      fun z h1 h2 h3 => ha.cross hsv tv z (by linarith) h1 h2 h3
    have hct : ∀ z, (t.pa.x : Rat) < z → z ≤ x → hAt t z = hAt s z → slope t = slope s :=
      fun z h1 h2 h3 => (hcs z h1 h2 h3.symm).symm
    have st := hAt_start t
    have se := slope_end t tv
    have hd := hAt_diff s t t.pa.x t.pb.x
    rw [e0]
    by_cases c : triangleWinding s.pb s.pa t.pa = 0
    · rw [if_neg (by simpa using c)]
      have e1 := s1.2.2 c
      have e2 : hAt s t.pb.x - t.pb.y = (slope s - slope t) * (t.pb.x - t.pa.x) := by linarith
      rw [e2] at s2
      refine ⟨fun h => ?_, fun h => ?_, fun h => ?_⟩
      · have := (mul_pos_iff_of_pos_right dt).mp (s2.1 h)
        exact order_at hsv tv ht.start hcs (Or.inr ⟨by linarith, by linarith⟩)
      · have h3 := s2.2.1 h
        have : slope s - slope t < 0 := by
          by_contra hn
          push Not at hn
          have := mul_nonneg hn dt.le
          linarith
        exact order_at tv hsv ht.start hct (Or.inr ⟨by linarith, by linarith⟩)
      · have h3 := s2.2.2 h
        have sl : slope s = slope t := by
          rcases mul_eq_zero.mp h3 with h' | h' <;> linarith
        have hx : hAt s x = hAt t x := by
          have := hAt_diff s t t.pa.x x
          rw [sl] at this
          linarith
        have hp : s.pb.y = t.pb.y := by
          rcases ha.line hsv tv sl hx with h' | h'
          · exfalso
            have : s.pa.x = t.pa.x := by rw [h']
            omega
          · exact h'
        unfold pos
        rw [hx, sl, hp, vs]
        have : vdir t = 0 := by unfold vdir; rw [if_neg tv]
        rw [this]
    · rw [if_pos c]
      refine ⟨fun h => ?_, fun h => ?_, fun h => absurd h c⟩
      · have := s1.1 h
        exact order_at hsv tv ht.start hcs (Or.inl (by linarith))
      · have := s1.2.1 h
        exact order_at tv hsv ht.start hct (Or.inl (by linarith))

/-- The sign that decides, when both start at the same x. -/
theorem main_same {x : Rat} {s t : CSeg} (hs : Meets x s) (ht : Meets x t) (ha : Apart x s t) (hxe : s.pa.x = t.pa.x) :
    (0 < main s t → pos x t < pos x s) ∧ (main s t < 0 → pos x s < pos x t) ∧ (main s t = 0 → pos x s = pos x t) := by
  have e0 : main s t = if s.pa.y - t.pa.y ≠ 0 then s.pa.y - t.pa.y
    else if triangleWinding s.pb s.pa t.pb ≠ 0 then triangleWinding s.pb s.pa t.pb
    else s.pb.y - t.pb.y := by
    unfold main; rw [if_pos hxe]
  have gt : ∀ {a b : Int}, 0 < a - b → (b : Rat) < a := by
    intro a b h
    have : b < a := by omega
    exact_mod_cast this
  have lt : ∀ {a b : Int}, a - b < 0 → (a : Rat) < b := by
    intro a b h
    have : a < b := by omega
    exact_mod_cast this
  -- the winding with equal starts
  have tw : s.pa.y = t.pa.y → triangleWinding s.pb s.pa t.pb =
      (s.pb.y - s.pa.y) * (t.pb.x - t.pa.x) - (t.pb.y - t.pa.y) * (s.pb.x - s.pa.x) := by
    intro h
    unfold triangleWinding
    rw [hxe, h]; ring
  by_cases sv : s.pa.x = s.pb.x
  · have sx := hs.stop sv
    have hs1 : hAt s x = s.pa.y := by rw [← sx]; exact hAt_start s
    have ht1 : hAt t x = t.pa.y := by rw [← sx, hxe]; exact hAt_start t
    have sy : s.pa.y ≠ s.pb.y := fun e => hs.ne (Pt.ext sv e)
    have hvs : vdir s = (s.pb.y - s.pa.y).sign := by unfold vdir; rw [if_pos sv]
    have ss : slope s = 0 := by
      unfold slope
      have : (s.pb.x : Rat) - s.pa.x = 0 := by rw [sv]; ring
      rw [this, div_zero]
    rw [e0]
    by_cases cy : s.pa.y - t.pa.y = 0
    · rw [if_neg (by simpa using cy)]
      have ye : s.pa.y = t.pa.y := by omega
      have yr : (s.pa.y : Rat) = t.pa.y := by rw [ye]
      have w := tw ye
      by_cases tv : t.pa.x = t.pb.x
      · have hvt : vdir t = (t.pb.y - t.pa.y).sign := by unfold vdir; rw [if_pos tv]
        have st : slope t = 0 := by
          unfold slope
          have : (t.pb.x : Rat) - t.pa.x = 0 := by rw [tv]; ring
          rw [this, div_zero]
        have w0 : triangleWinding s.pb s.pa t.pb = 0 := by rw [w, ← sv, ← tv]; ring
        rw [if_neg (by simpa using w0)]
        have mono : ∀ {a b : Int}, a < b → a.sign ≤ b.sign := by
          intro a b h
          rcases Int.lt_trichotomy a 0 with h1 | h1 | h1
          · rw [Int.sign_eq_neg_one_of_neg h1]
            rcases Int.lt_trichotomy b 0 with h2 | h2 | h2
            · rw [Int.sign_eq_neg_one_of_neg h2]
            · rw [h2]; decide
            · rw [Int.sign_eq_one_of_pos h2]; decide
          · have h2 : 0 < b := by omega
            rw [h1, Int.sign_eq_one_of_pos h2]; decide
          · rw [Int.sign_eq_one_of_pos h1, Int.sign_eq_one_of_pos (by omega)]
        rw [pos_lt_iff, pos_lt_iff, hs1, ht1, hvs, hvt, ss, st, yr]
        refine ⟨fun h => Or.inr ⟨rfl, ?_⟩, fun h => Or.inr ⟨rfl, ?_⟩, fun h => ?_⟩
        · have := mono (a := t.pb.y - t.pa.y) (b := s.pb.y - s.pa.y) (by omega)
          rcases lt_or_eq_of_le this with h' | h'
          · exact Or.inl h'
          · exact Or.inr ⟨h', Or.inr ⟨rfl, by omega⟩⟩
        · have := mono (a := s.pb.y - s.pa.y) (b := t.pb.y - t.pa.y) (by omega)
          rcases lt_or_eq_of_le this with h' | h'
          · exact Or.inl h'
          · exact Or.inr ⟨h', Or.inr ⟨rfl, by omega⟩⟩
        · have yb : s.pb.y = t.pb.y := by omega
          unfold pos
          rw [hs1, ht1, hvs, hvt, ss, st, yb, ye]
      · have vt : vdir t = 0 := by unfold vdir; rw [if_neg tv]
        have dt : 0 < t.pb.x - t.pa.x := by have := ht.le; omega
        have w1 : triangleWinding s.pb s.pa t.pb = (s.pb.y - s.pa.y) * (t.pb.x - t.pa.x) := by rw [w, ← sv]; ring
        rw [pos_lt_iff, pos_lt_iff, hs1, ht1, hvs, vt, yr, w1]
        rcases lt_or_gt_of_ne sy with c | c
        · have : 0 < (s.pb.y - s.pa.y) * (t.pb.x - t.pa.x) := Int.mul_pos (by omega) dt
          rw [if_pos (by omega), Int.sign_eq_one_of_pos (by omega)]
          exact ⟨fun _ => Or.inr ⟨rfl, Or.inl (by decide)⟩, fun h => by omega, fun h => by omega⟩
        · have : (s.pb.y - s.pa.y) * (t.pb.x - t.pa.x) < 0 := Int.mul_neg_of_neg_of_pos (by omega) dt
          rw [if_pos (by omega), Int.sign_eq_neg_one_of_neg (by omega)]
          exact ⟨fun h => by omega, fun _ => Or.inr ⟨rfl, Or.inl (by decide)⟩, fun h => by omega⟩
    · rw [if_pos cy, pos_lt_iff, pos_lt_iff, hs1, ht1]
      exact ⟨fun h => Or.inl (gt h), fun h => Or.inl (lt h), fun h => absurd h cy⟩
  · have vs : vdir s = 0 := by unfold vdir; rw [if_neg sv]
    have ds : 0 < s.pb.x - s.pa.x := by have := hs.le; omega
    by_cases tv : t.pa.x = t.pb.x
    · have tx := ht.stop tv
      have hs1 : hAt s x = s.pa.y := by rw [← tx, ← hxe]; exact hAt_start s
      have ht1 : hAt t x = t.pa.y := by rw [← tx]; exact hAt_start t
      have ty : t.pa.y ≠ t.pb.y := fun e => ht.ne (Pt.ext tv e)
      have hvt : vdir t = (t.pb.y - t.pa.y).sign := by unfold vdir; rw [if_pos tv]
      rw [e0]
      by_cases cy : s.pa.y - t.pa.y = 0
      · rw [if_neg (by simpa using cy)]
        have ye : s.pa.y = t.pa.y := by omega
        have yr : (s.pa.y : Rat) = t.pa.y := by rw [ye]
        have w1 : triangleWinding s.pb s.pa t.pb = (t.pa.y - t.pb.y) * (s.pb.x - s.pa.x) := by rw [tw ye, ← tv]; ring
        rw [pos_lt_iff, pos_lt_iff, hs1, ht1, vs, hvt, yr, w1]
        rcases lt_or_gt_of_ne ty with c | c
        · have : (t.pa.y - t.pb.y) * (s.pb.x - s.pa.x) < 0 := Int.mul_neg_of_neg_of_pos (by omega) ds
          rw [if_pos (by omega), Int.sign_eq_one_of_pos (by omega)]
          exact ⟨fun h => by omega, fun _ => Or.inr ⟨rfl, Or.inl (by decide)⟩, fun h => by omega⟩
        · have : 0 < (t.pa.y - t.pb.y) * (s.pb.x - s.pa.x) := Int.mul_pos (by omega) ds
          rw [if_pos (by omega), Int.sign_eq_neg_one_of_neg (by omega)]
          exact ⟨fun _ => Or.inr ⟨rfl, Or.inl (by decide)⟩, fun h => by omega, fun h => by omega⟩
      · rw [if_pos cy, pos_lt_iff, pos_lt_iff, hs1, ht1]
        exact ⟨fun h => Or.inl (gt h), fun h => Or.inl (lt h), fun h => absurd h cy⟩
    · have vt : vdir t = 0 := by unfold vdir; rw [if_neg tv]
      have dt : 0 < t.pb.x - t.pa.x := by have := ht.le; omega
      have hxr : (s.pa.x : Rat) = t.pa.x := by rw [hxe]
      have hcs : ∀ z, (t.pa.x : Rat) < z → z ≤ x → hAt s z = hAt t z → slope s = slope t :=
        fun z h1 h2 h3 => ha.cross sv tv z (by linarith) h1 h2 h3
      have hct : ∀ z, (t.pa.x : Rat) < z → z ≤ x → hAt t z = hAt s z → slope t = slope s :=
        fun z h1 h2 h3 => (hcs z h1 h2 h3.symm).symm
      have s1 : hAt s t.pa.x = s.pa.y := by rw [← hxr]; exact hAt_start s
      have t1 := hAt_start t
      rw [e0]
      by_cases cy : s.pa.y - t.pa.y = 0
      · rw [if_neg (by simpa using cy)]
        have ye : s.pa.y = t.pa.y := by omega
        have yr : (s.pa.y : Rat) = t.pa.y := by rw [ye]
        have dsr : (0 : Rat) < s.pb.x - s.pa.x := cast_lt (by omega)
        have dtr : (0 : Rat) < t.pb.x - t.pa.x := cast_lt (by omega)
        have w1 : (triangleWinding s.pb s.pa t.pb : Rat) = (slope s - slope t) * ((s.pb.x - s.pa.x) * (t.pb.x - t.pa.x)) := by
          rw [tw ye]
          unfold slope
          push_cast
          field_simp
        have dd : (0 : Rat) < (s.pb.x - s.pa.x) * (t.pb.x - t.pa.x) := mul_pos dsr dtr
        by_cases c : triangleWinding s.pb s.pa t.pb = 0
        · rw [if_neg (by simpa using c)]
          have sl : slope s = slope t := by
            rw [c] at w1
            have h3 : (slope s - slope t) * ((s.pb.x - s.pa.x : Rat) * (t.pb.x - t.pa.x)) = 0 := by rw [← w1]; rfl
            rcases mul_eq_zero.mp h3 with h' | h' <;> linarith
          have hx : hAt s x = hAt t x := by unfold hAt; rw [sl, hxr, yr]
          rw [pos_lt_iff, pos_lt_iff, hx, vs, vt, sl]
          refine ⟨fun h => Or.inr ⟨rfl, Or.inr ⟨rfl, Or.inr ⟨rfl, by omega⟩⟩⟩, fun h => Or.inr ⟨rfl, Or.inr ⟨rfl, Or.inr ⟨rfl, by omega⟩⟩⟩,
            fun h => ?_⟩
          have yb : s.pb.y = t.pb.y := by omega
          unfold pos
          rw [hx, vs, vt, sl, yb]
        · rw [if_pos c]
          refine ⟨fun h => ?_, fun h => ?_, fun h => absurd h c⟩
          · have h1 : (0 : Rat) < triangleWinding s.pb s.pa t.pb := by exact_mod_cast h
            rw [w1] at h1
            have := (mul_pos_iff_of_pos_right dd).mp h1
            exact order_at sv tv ht.start hcs (Or.inr ⟨by linarith, by linarith⟩)
          · have h1 : (triangleWinding s.pb s.pa t.pb : Rat) < 0 := by exact_mod_cast h
            rw [w1] at h1
            have : slope s - slope t < 0 := by
              by_contra hn
              push Not at hn
              have := mul_nonneg hn dd.le
              linarith
            exact order_at tv sv ht.start hct (Or.inr ⟨by linarith, by linarith⟩)
      · rw [if_pos cy]
        refine ⟨fun h => ?_, fun h => ?_, fun h => absurd h cy⟩
        · have := gt h
          exact order_at sv tv ht.start hcs (Or.inl (by linarith))
        · have := lt h
          exact order_at tv sv ht.start hct (Or.inl (by linarith))

theorem Apart.symm {x : Rat} {s t : CSeg} (h : Apart x s t) : Apart x t s :=
  ⟨fun a b z c d e f => (h.cross b a z d c e f.symm).symm,
   fun a b c d => (h.line b a c.symm d.symm).imp Eq.symm Eq.symm⟩

theorem main_spec {x : Rat} {s t : CSeg} (hs : Meets x s) (ht : Meets x t) (ha : Apart x s t) :
    (0 < main s t → pos x t < pos x s) ∧ (main s t < 0 → pos x s < pos x t) ∧ (main s t = 0 → pos x s = pos x t) := by
  rcases Int.lt_trichotomy s.pa.x t.pa.x with h | h | h
  · exact main_before hs ht ha h
  · exact main_same hs ht ha h
  · obtain ⟨h1, h2, h3⟩ := main_before ht hs ha.symm h
    rw [main_neg s t] at h1 h2 h3
    exact ⟨fun h => h2 (by omega), fun h => h1 (by omega), fun h => (h3 (by omega)).symm⟩

/-- C22: on segments that a vertical meets and that do not meet each other between their starts and the vertical, the comparison
is the descending order of the position on the vertical: height, then direction, then height of the end, then indices. -/
theorem C22_order {x : Rat} {s t : CSeg} (hs : Meets x s) (ht : Meets x t) (ha : Apart x s t) :
    sweepCmp s t = true ↔ key x t < key x s := by
  obtain ⟨h1, h2, h3⟩ := main_spec hs ht ha
  rw [cmp_main]
  unfold key
  rw [Prod.Lex.toLex_lt_toLex]
  by_cases c : main s t = 0
  · rw [if_neg (by simpa using c), h3 c, C22_tie]
    simp
  · rw [if_pos c]
    simp only [gt_iff_lt, decide_eq_true_eq]
    rcases lt_or_gt_of_ne c with h | h
    · have := h2 h
      refine ⟨fun h' => by omega, fun h' => ?_⟩
      rcases h' with h' | h'
      · exact absurd h' this.asymm
      · rw [h'.1] at this; exact absurd this (lt_irrefl _)
    · exact ⟨fun _ => Or.inl (h1 h), fun _ => h⟩

/-- C22: a segment that is higher on the vertical comes first. -/
theorem C22_height {x : Rat} {s t : CSeg} (hs : Meets x s) (ht : Meets x t) (ha : Apart x s t) (h : hAt t x < hAt s x) :
    sweepCmp s t = true := by
  rw [C22_order hs ht ha]
  unfold key
  rw [Prod.Lex.toLex_lt_toLex]
  exact Or.inl ((pos_lt_iff x s t).mpr (Or.inl h))

/-- C22, transitivity. -/
theorem C22_trans {x : Rat} {s t u : CSeg} (hs : Meets x s) (ht : Meets x t) (hu : Meets x u) (h1 : Apart x s t) (h2 : Apart x t u)
    (h3 : Apart x s u) (a : sweepCmp s t = true) (b : sweepCmp t u = true) : sweepCmp s u = true :=
  (C22_order hs hu h3).mpr (lt_trans ((C22_order ht hu h2).mp b) ((C22_order hs ht h1).mp a))

/-- C22: a list of such segments with different indices has exactly one order in which every segment is before all those that
follow. -/
theorem C22_unique {x : Rat} {l : List CSeg} (hm : ∀ s ∈ l, Meets x s) (ha : ∀ s ∈ l, ∀ t ∈ l, Apart x s t)
    (hi : (l.map fun s => (s.a, s.b)).Nodup) : ∃! m : List CSeg, m.Perm l ∧ m.Pairwise (fun s t => sweepCmp s t = true) := by
  have hp := l.perm_insertionSort (fun s t => key x t ≤ key x s)
  have hs : (l.insertionSort (fun s t => key x t ≤ key x s)).Pairwise (fun s t => key x t ≤ key x s) := by
    haveI : Std.Total (fun s t => key x t ≤ key x s) := ⟨fun a b => le_total _ _⟩
    haveI : IsTrans CSeg (fun s t => key x t ≤ key x s) := ⟨fun a b c h1 h2 => le_trans h2 h1⟩
    exact List.pairwise_insertionSort _ _
  have hd : ((l.insertionSort (fun s t => key x t ≤ key x s)).map fun s => (s.a, s.b)).Nodup := (hp.map _).nodup_iff.mpr hi
  rw [List.nodup_iff_pairwise_ne, List.pairwise_map] at hd
  have hc : (l.insertionSort (fun s t => key x t ≤ key x s)).Pairwise (fun s t => sweepCmp s t = true) := by
    refine (hs.and hd).imp_of_mem (fun {s t} h1 h2 h3 => ?_)
    have m1 := hp.mem_iff.mp h1
    have m2 := hp.mem_iff.mp h2
    rw [C22_order (hm s m1) (hm t m2) (ha s m1 t m2)]
    refine lt_of_le_of_ne h3.1 (fun e => h3.2 ?_)
    unfold key at e
    have e2 := congrArg (fun k => (ofLex k).2) e
    simp only [ofLex_toLex] at e2
    have e3 := congrArg ofLex e2
    simp only [ofLex_toLex, Prod.mk.injEq] at e3
    rw [e3.1, e3.2]
  refine ⟨_, ⟨hp, hc⟩, fun m ⟨h1, h2⟩ => ?_⟩
  refine List.Perm.eq_of_pairwise (le := fun s t => sweepCmp s t = true) ?_ h2 hc (h1.trans hp.symm)
  intro a b _ _ h1 h2
  exact absurd (C22_asymm a b h1) (by rw [h2]; simp)

/-- The condition on segments of one line cannot be dropped: three overlapping segments of a line that are before each other in
a circle. -/
theorem C22_overlap_cycle : ∃ s t u : CSeg, (∀ v ∈ [s, t, u], Meets 3 v) ∧
    (∀ v ∈ [s, t, u], ∀ w ∈ [s, t, u], slope v = slope w) ∧
    sweepCmp s t = true ∧ sweepCmp t u = true ∧ sweepCmp u s = true := by
  refine ⟨⟨0, 1, ⟨2, 2⟩, ⟨6, 6⟩⟩, ⟨2, 5, ⟨2, 2⟩, ⟨5, 5⟩⟩, ⟨3, 4, ⟨0, 0⟩, ⟨4, 4⟩⟩, ?_, ?_, ?_⟩
  · intro v hv
    simp only [List.mem_cons, List.not_mem_nil, or_false] at hv
    rcases hv with rfl | rfl | rfl <;> exact ⟨by decide, by decide, by norm_num, by decide⟩
  · intro v hv w hw
    simp only [List.mem_cons, List.not_mem_nil, or_false] at hv hw
    rcases hv with rfl | rfl | rfl <;> rcases hw with rfl | rfl | rfl <;> (unfold slope; norm_num)
  · decide

/-- The hypotheses are met by a rising, a falling and a vertical segment at x = 2 that share the point (2, 2). -/
example : let s : CSeg := ⟨0, 1, ⟨0, 0⟩, ⟨4, 4⟩⟩
    let t : CSeg := ⟨2, 3, ⟨2, 2⟩, ⟨5, 0⟩⟩
    let u : CSeg := ⟨4, 5, ⟨2, 2⟩, ⟨2, 7⟩⟩
    (Meets 2 s ∧ Meets 2 t ∧ Meets 2 u) ∧ (Apart 2 s t ∧ Apart 2 t u ∧ Apart 2 s u) ∧
    sweepCmp u s = true ∧ sweepCmp s t = true := by
  refine ⟨⟨⟨by decide, by decide, by norm_num, by decide⟩, ⟨by decide, by decide, by norm_num, by decide⟩,
    ⟨by decide, by decide, by norm_num, by norm_num⟩⟩, ⟨⟨?_, ?_⟩, ⟨?_, ?_⟩, ⟨?_, ?_⟩⟩, by decide, by decide⟩
  · intro _ _ z h1 h2 h3 h4
    simp only [Int.cast_ofNat] at h2
    linarith
  · intro _ _ h; unfold slope at h; norm_num at h
  · intro _ h; exact absurd rfl h
  · intro _ h; exact absurd rfl h
  · intro _ h; exact absurd rfl h
  · intro _ h; exact absurd rfl h

end PolyOps.SweepCmp
