import Verif.Model.Offset
import Mathlib.Tactic.Linarith
import Mathlib.Tactic.FieldSimp
import Mathlib.Tactic.Ring
import Mathlib.Algebra.Order.Round
import Mathlib.Analysis.Real.Pi.Bounds
import Mathlib.Data.List.TakeWhile
import Mathlib.Analysis.SpecialFunctions.Trigonometric.Basic

/-! C38, C39: offsetting. -/
namespace PolyOps.Offset
open PolyOps PolyOps.PointSink PolyOps.Sweep
open scoped Classical

/-! ### Specification -/

/-- The vector from one point to another. -/
noncomputable def vec (p q : Pt) : Vec := ((q.x : ℝ) - p.x, (q.y : ℝ) - p.y)
def dot (a b : Vec) : ℝ := a.1 * b.1 + a.2 * b.2
def cross (a b : Vec) : ℝ := a.1 * b.2 - a.2 * b.1

/-- `v` is the shift of the line from `p` to `q` by `m`: at a right angle, of length `|m|`, on the negative side for positive `m`. -/
def Normal (p q : Pt) (m : ℝ) (v : Vec) : Prop :=
  dot v (vec p q) = 0 ∧ dot v v = m * m ∧ m * cross (vec p q) v ≤ 0

/-- `n` is the integer nearest to `x`; of two, the one farther from zero. -/
def Nearest (n : Int) (x : ℝ) : Prop := |(n : ℝ) - x| ≤ 1 / 2 ∧ (|(n : ℝ) - x| = 1 / 2 → |x| < |(n : ℝ)|)

/-- The point `s` is `p + v`, where `v` is rounded to nearest. -/
def Near (s p : Pt) (v : Vec) : Prop := Nearest (s.x - p.x) v.1 ∧ Nearest (s.y - p.y) v.2

/-- Rotation. -/
noncomputable def rot (a : ℝ) (v : Vec) : Vec := (Real.cos a * v.1 - Real.sin a * v.2, Real.sin a * v.1 + Real.cos a * v.2)

/-- The shifted lines part at the corner `p`, `q`, `r`: the corner turns away from the side of the offset. Where the path turns
straight back: for positive `m` if it goes to the same point, for negative `m` if not. -/
def Opens (m : ℝ) (p q r : Pt) : Prop :=
  0 < m * cross (vec p q) (vec q r) ∨ (cross (vec p q) (vec q r) = 0 ∧ ((0 < m ∧ p = r) ∨ (m < 0 ∧ p ≠ r)))

/-- Points of the arc at `q` from the end of one shifted line to the start of the next; `θ` is the angle of the turn, `N` the number of
parts. -/
def Arc (m : ℝ) (arc : Int) (p q r : Pt) (v : Vec) (pts : List Pt) : Prop :=
  ∃ (θ σ : ℝ) (N : Nat), 0 ≤ θ ∧ θ ≤ Real.pi ∧ Real.cos θ * (vmag (vec p q) * vmag (vec q r)) = dot (vec p q) (vec q r) ∧
    (σ = if m < 0 then -1 else 1) ∧ Normal q r m (rot (σ * θ) v) ∧ N = ⌊|m| * θ / arc⌋₊ ∧ pts.length = N - 1 ∧
    ∀ k s, pts[k]? = some s → Near s q (rot (σ * ((k + 1 : Nat) * θ / N)) v)

/-- What is emitted for the line from `a` to `b` (points with original index) where the next line leads to `c`. -/
def Block (m : ℝ) (arc : Int) (t : (Pt × Int) × (Pt × Int) × Pt) (e : Emit) : Prop :=
  ∃ v, Normal t.1.1 t.2.1.1 m v ∧ ∃ s s' pts, e = (s, t.1.2) :: (s', t.2.1.2) :: pts.map (fun q => (q, t.2.1.2)) ∧
    Near s t.1.1 v ∧ Near s' t.2.1.1 v ∧
    (Opens m t.1.1 t.2.1.1 t.2.2 → Arc m arc t.1.1 t.2.1.1 t.2.2 v pts) ∧ (¬Opens m t.1.1 t.2.1.1 t.2.2 → pts = [])

/-- Consecutive triples of a path. -/
def tri : List (Pt × Int) → List ((Pt × Int) × (Pt × Int) × Pt)
  | a :: b :: c :: l => (a, b, c.1) :: tri (b :: c :: l)
  | _ => []

/-- Points with indices from `i` in steps. -/
def tag (i step : Int) : List Pt → List (Pt × Int)
  | [] => []
  | p :: l => (p, i) :: tag (i + step) step l

/-- `e` is what is emitted for the path. -/
def Path (m : ℝ) (arc : Int) (l : List (Pt × Int)) (e : Emit) : Prop := ∃ es, List.Forall₂ (Block m arc) (tri l) es ∧ e = es.flatten

/-! ### Arithmetic -/

theorem lround_near (x : ℝ) : |(lround x : ℝ) - x| ≤ 1 / 2 := by
  unfold lround
  split
  · have h1 := Int.floor_le (x + 1 / 2)
    have h2 := Int.lt_floor_add_one (x + 1 / 2)
    rw [abs_le]; constructor <;> linarith
  · have h1 := Int.le_ceil (x - 1 / 2)
    have h2 := Int.ceil_lt_add_one (x - 1 / 2)
    rw [abs_le]; constructor <;> linarith

theorem lround_nearest (x : ℝ) : Nearest (lround x) x := by
  refine ⟨lround_near x, fun h => ?_⟩
  unfold lround at h ⊢
  split at h
  · rename_i hx
    rw [if_pos hx]
    have h1 := Int.floor_le (x + 1 / 2)
    have h2 := Int.lt_floor_add_one (x + 1 / 2)
    rcases abs_eq (by norm_num : (0 : ℝ) ≤ 1 / 2) |>.mp h with h | h
    · rw [abs_of_nonneg hx, abs_of_nonneg (by linarith)]; linarith
    · linarith
  · rename_i hx
    rw [if_neg hx]
    rw [not_le] at hx
    have h1 := Int.le_ceil (x - 1 / 2)
    have h2 := Int.ceil_lt_add_one (x - 1 / 2)
    rcases abs_eq (by norm_num : (0 : ℝ) ≤ 1 / 2) |>.mp h with h | h
    · linarith
    · rw [abs_of_neg hx, abs_of_neg (by linarith)]; linarith

theorem near_addRound (p : Pt) (v : Vec) : Near (addRound p v) p v := by
  unfold Near addRound
  dsimp only
  rw [add_sub_cancel_left, add_sub_cancel_left]
  exact ⟨lround_nearest _, lround_nearest _⟩

theorem vmag_pos {v : Vec} (h : v.1 ≠ 0 ∨ v.2 ≠ 0) : 0 < vmag v := by
  unfold vmag
  apply Real.sqrt_pos.mpr
  rcases h with h | h
  · have := mul_self_pos.mpr h; nlinarith [mul_self_nonneg v.2]
  · have := mul_self_pos.mpr h; nlinarith [mul_self_nonneg v.1]

theorem vmag_sq (v : Vec) : vmag v * vmag v = v.1 * v.1 + v.2 * v.2 := by
  unfold vmag
  exact Real.mul_self_sqrt (by nlinarith [mul_self_nonneg v.1, mul_self_nonneg v.2])

theorem vec_ne {p q : Pt} (h : p ≠ q) : (vec p q).1 ≠ 0 ∨ (vec p q).2 ≠ 0 := by
  by_contra c
  push Not at c
  apply h
  have h1 : (q.x : ℝ) = p.x := by have := c.1; unfold vec at this; dsimp only at this; linarith
  have h2 : (q.y : ℝ) = p.y := by have := c.2; unfold vec at this; dsimp only at this; linarith
  cases p; cases q
  simp at h1 h2
  simp [h1, h2]

theorem perpVector_eq (p q : Pt) (m : ℝ) :
    perpVector p q m = ((vec p q).2 * (m / vmag (vec p q)), -(vec p q).1 * (m / vmag (vec p q))) := by
  have : vmag (((q.y - p.y : Int) : ℝ), ((p.x - q.x : Int) : ℝ)) = vmag (vec p q) := by
    unfold vmag vec; congr 1; push_cast; ring
  unfold perpVector
  dsimp only
  rw [this]
  unfold vec
  push_cast
  simp

theorem normal_perp {p q : Pt} (h : p ≠ q) (m : ℝ) : Normal p q m (perpVector p q m) := by
  rw [perpVector_eq]
  have hp := vmag_pos (vec_ne h)
  have hs := vmag_sq (vec p q)
  set d := vec p q
  set M := vmag d
  refine ⟨?_, ?_, ?_⟩
  · unfold dot; dsimp only; ring
  · unfold dot; dsimp only
    have : d.2 * (m / M) * (d.2 * (m / M)) + -d.1 * (m / M) * (-d.1 * (m / M)) = (d.1 * d.1 + d.2 * d.2) * (m * m) / (M * M) := by
      field_simp; ring
    rw [this, ← hs]
    field_simp
  · unfold cross; dsimp only
    have : m * (d.1 * (-d.1 * (m / M)) - d.2 * (d.2 * (m / M))) = -(m * m * (d.1 * d.1 + d.2 * d.2) / M) := by
      field_simp; ring
    rw [this, ← hs]
    have : 0 ≤ m * m * (M * M) / M := by
      apply div_nonneg _ hp.le
      nlinarith [mul_self_nonneg m, mul_self_nonneg M]
    linarith

theorem lagrange (a b : Vec) : dot a b * dot a b + cross a b * cross a b = vmag a * vmag a * (vmag b * vmag b) := by
  rw [vmag_sq, vmag_sq]; unfold dot cross; ring

/-- The angle of the turn: its cosine and sine. -/
theorem turn_angle {p q r : Pt} (h1 : p ≠ q) (h2 : q ≠ r) :
    let θ := Real.pi - vangle (p - q) (r - q)
    0 ≤ θ ∧ θ ≤ Real.pi ∧ Real.cos θ * (vmag (vec p q) * vmag (vec q r)) = dot (vec p q) (vec q r) ∧
      Real.sin θ * (vmag (vec p q) * vmag (vec q r)) = |cross (vec p q) (vec q r)| := by
  intro θ
  have hp := vmag_pos (vec_ne h1)
  have hq := vmag_pos (vec_ne h2)
  have hm := mul_pos hp hq
  set d := vec p q with hd
  set e := vec q r with he
  have lag := lagrange d e
  have hle : |dot d e| ≤ vmag d * vmag e := by
    apply abs_le_of_sq_le_sq _ hm.le
    nlinarith [mul_self_nonneg (cross d e)]
  have va : vangle (p - q) (r - q) = Real.arccos (-(dot d e / (vmag d * vmag e))) := by
    unfold vangle
    dsimp only
    have e1 : vmag (((p - q : Pt).x : ℝ), ((p - q : Pt).y : ℝ)) = vmag d := by
      unfold vmag; rw [hd]; unfold vec; congr 1
      show (((p.x - q.x : Int) : ℝ)) * _ + ((p.y - q.y : Int) : ℝ) * _ = _
      push_cast
      show ((p.x : ℝ) - q.x) * (((p.x - q.x : Int) : ℝ)) + ((p.y : ℝ) - q.y) * ((p.y - q.y : Int) : ℝ) = _
      push_cast; ring
    have e2 : vmag (((r - q : Pt).x : ℝ), ((r - q : Pt).y : ℝ)) = vmag e := by
      unfold vmag; rw [he]; unfold vec; congr 1
      show (((r.x - q.x : Int) : ℝ)) * (((r.x - q.x : Int) : ℝ)) + ((r.y - q.y : Int) : ℝ) * ((r.y - q.y : Int) : ℝ) = _
      push_cast; ring
    have e3 : ((p - q : Pt).x : ℝ) * ((r - q : Pt).x : ℝ) + ((p - q : Pt).y : ℝ) * ((r - q : Pt).y : ℝ) = -dot d e := by
      rw [hd, he]; unfold vec dot
      show (((p.x - q.x : Int) : ℝ)) * (((r.x - q.x : Int) : ℝ)) + ((p.y - q.y : Int) : ℝ) * ((r.y - q.y : Int) : ℝ) = _
      push_cast; ring
    rw [e1, e2, e3, neg_div]
    congr 1
    have k := abs_le.mp hle
    have k1 : dot d e / (vmag d * vmag e) ≤ 1 := (div_le_one hm).mpr k.2
    have k2 : -1 ≤ dot d e / (vmag d * vmag e) := by
      rw [le_div_iff₀ hm]; linarith [k.1]
    rw [if_neg (by linarith), if_neg (by linarith)]
  have ht : θ = Real.arccos (dot d e / (vmag d * vmag e)) := by
    show Real.pi - vangle (p - q) (r - q) = _
    rw [va, Real.arccos_neg]; ring
  have k := abs_le.mp hle
  have k1 : dot d e / (vmag d * vmag e) ≤ 1 := (div_le_one hm).mpr k.2
  have k2 : -1 ≤ dot d e / (vmag d * vmag e) := by
    rw [le_div_iff₀ hm]; linarith [k.1]
  refine ⟨ht ▸ Real.arccos_nonneg _, ht ▸ Real.arccos_le_pi _, ?_, ?_⟩
  · rw [ht, Real.cos_arccos k2 k1]; field_simp
  · rw [ht, Real.sin_arccos]
    have : 1 - (dot d e / (vmag d * vmag e)) ^ 2 = (cross d e / (vmag d * vmag e)) ^ 2 := by
      rw [div_pow, div_pow]
      have : (vmag d * vmag e) ^ 2 = dot d e ^ 2 + cross d e ^ 2 := by nlinarith
      rw [this]
      have hne : dot d e ^ 2 + cross d e ^ 2 ≠ 0 := by rw [← this]; positivity
      field_simp
      ring
    rw [this, Real.sqrt_sq_eq_abs, abs_div, abs_of_pos hm]
    field_simp

/-- Turning the normal of one line by the angle of the turn gives the normal of the next. -/
theorem rot_normal {p q r : Pt} (h1 : p ≠ q) (h2 : q ≠ r) (m a : ℝ)
    (hc : Real.cos a * (vmag (vec p q) * vmag (vec q r)) = dot (vec p q) (vec q r))
    (hs : Real.sin a * (vmag (vec p q) * vmag (vec q r)) = cross (vec p q) (vec q r)) :
    rot a (perpVector p q m) = perpVector q r m := by
  rw [perpVector_eq, perpVector_eq]
  have hp := vmag_pos (vec_ne h1)
  have hq := vmag_pos (vec_ne h2)
  have sp := vmag_sq (vec p q)
  set d := vec p q
  set e := vec q r
  have hc' : Real.cos a = dot d e / (vmag d * vmag e) := by rw [← hc]; field_simp
  have hs' : Real.sin a = cross d e / (vmag d * vmag e) := by rw [← hs]; field_simp
  unfold rot
  rw [hc', hs']
  have i1 : dot d e * d.2 + cross d e * d.1 = e.2 * (vmag d * vmag d) := by rw [sp]; unfold dot cross; ring
  have i2 : dot d e * d.1 - cross d e * d.2 = e.1 * (vmag d * vmag d) := by rw [sp]; unfold dot cross; ring
  dsimp only
  congr 1
  · have : dot d e / (vmag d * vmag e) * (d.2 * (m / vmag d)) - cross d e / (vmag d * vmag e) * (-d.1 * (m / vmag d))
        = (dot d e * d.2 + cross d e * d.1) * m / (vmag d * vmag d * vmag e) := by field_simp; ring
    rw [this, i1]; field_simp
  · have : cross d e / (vmag d * vmag e) * (d.2 * (m / vmag d)) + dot d e / (vmag d * vmag e) * (-d.1 * (m / vmag d))
        = -((dot d e * d.1 - cross d e * d.2) * m / (vmag d * vmag d * vmag e)) := by field_simp; ring
    rw [this, i2]; field_simp

theorem rot_rot (a b : ℝ) (v : Vec) : rot a (rot b v) = rot (b + a) v := by
  unfold rot
  rw [Real.cos_add, Real.sin_add]
  dsimp only
  congr 1 <;> ring

theorem turns_spec (a : ℝ) : ∀ (n : Nat) (v : Vec) (b : ℝ), (turns (Real.sin a) (Real.cos a) (rot b v) n).length = n ∧
    ∀ (k : Nat) u, (turns (Real.sin a) (Real.cos a) (rot b v) n)[k]? = some u → u = rot (b + (k + 1 : Nat) * a) v
  | 0, v, b => ⟨rfl, by simp [turns]⟩
  | n + 1, v, b => by
    have e : ((Real.cos a * (rot b v).1 - Real.sin a * (rot b v).2, Real.sin a * (rot b v).1 + Real.cos a * (rot b v).2) : Vec) = rot (b + a) v := by
      rw [← rot_rot]; rfl
    obtain ⟨i1, i2⟩ := turns_spec a n v (b + a)
    unfold turns
    dsimp only
    rw [e]
    refine ⟨by rw [List.length_cons, i1], fun k u hk => ?_⟩
    cases k with
    | zero =>
      rw [List.getElem?_cons_zero] at hk
      cases hk
      congr 1
      push_cast; ring
    | succ k =>
      rw [List.getElem?_cons_succ] at hk
      rw [i2 k u hk]
      congr 1
      push_cast; ring

theorem rot_zero (v : Vec) : rot 0 v = v := by unfold rot; simp

/-! ### One line -/

theorem winding_cross (p q r : Pt) : ((triangleWinding p q r : Int) : ℝ) = cross (vec p q) (vec q r) := by
  unfold triangleWinding cross vec
  push_cast; ring

theorem opens_iff {m : ℝ} (hm : m ≠ 0) (p q r : Pt) :
    (if m < 0 then ¬(p = r ∨ triangleWinding p q r > 0) else (p = r ∨ triangleWinding p q r > 0)) ↔ Opens m p q r := by
  have hX := winding_cross p q r
  have h0 : p = r → triangleWinding p q r = 0 := by
    intro e; rw [e]; unfold triangleWinding; ring
  unfold Opens
  rw [← hX]
  generalize triangleWinding p q r = X at *
  have hX1 : ((X : ℝ) = 0) ↔ X = 0 := by norm_cast
  rw [hX1]
  rcases lt_trichotomy m 0 with h | h | h
  · rw [if_pos h]
    have : 0 < m * (X : ℝ) ↔ X < 0 := by
      constructor
      · intro k
        have : (X : ℝ) < 0 := by by_contra c; push Not at c; nlinarith
        exact_mod_cast this
      · intro k
        have : (X : ℝ) < 0 := by exact_mod_cast k
        nlinarith
    rw [this]
    have n0 : ¬(0 < m) := by linarith
    simp only [h, n0, true_and, false_and, false_or]
    constructor
    · intro k
      push Not at k
      rcases lt_or_eq_of_le k.2 with c | c
      · exact .inl c
      · exact .inr ⟨c, k.1⟩
    · rintro (k | ⟨k1, k2⟩) c
      · rcases c with c | c
        · have := h0 c; omega
        · omega
      · rcases c with c | c
        · exact k2 c
        · omega
  · exact absurd h hm
  · rw [if_neg (by linarith)]
    have : 0 < m * (X : ℝ) ↔ 0 < X := by
      constructor
      · intro k
        have : 0 < (X : ℝ) := by by_contra c; push Not at c; nlinarith
        exact_mod_cast this
      · intro k
        have : 0 < (X : ℝ) := by exact_mod_cast k
        exact mul_pos h this
    rw [this]
    have n0 : ¬(m < 0) := by linarith
    simp only [h, n0, true_and, false_and, or_false]
    constructor
    · rintro (k | k)
      · exact .inr ⟨h0 k, k⟩
      · exact .inl k
    · rintro (k | k)
      · exact .inr k
      · exact .inl k.2

/-- The number of parts. -/
theorem steps_eq {m θ : ℝ} {arc : Int} (ha : 0 < arc) (hθ : 0 ≤ θ) :
    (toCoord (m * θ / (arc : ℝ)) : ℝ) = (if m < 0 then -1 else 1) * (⌊|m| * θ / arc⌋₊ : ℝ) ∧
      (toCoord (m * θ / (arc : ℝ))).natAbs = ⌊|m| * θ / arc⌋₊ := by
  have har : (0 : ℝ) < arc := by exact_mod_cast ha
  have hx : 0 ≤ |m| * θ / arc := div_nonneg (mul_nonneg (abs_nonneg m) hθ) har.le
  have hf : ((⌊|m| * θ / arc⌋₊ : Nat) : Int) = ⌊|m| * θ / arc⌋ := Int.natCast_floor_eq_floor hx
  by_cases h : m < 0
  · have e : m * θ / arc = -(|m| * θ / arc) := by rw [abs_of_neg h]; ring
    have : toCoord (m * θ / (arc : ℝ)) = -((⌊|m| * θ / arc⌋₊ : Nat) : Int) := by
      unfold toCoord
      rw [e, hf]
      generalize |m| * θ / (arc : ℝ) = x at *
      by_cases c : 0 ≤ -x
      · rw [if_pos c]
        have : x = 0 := by linarith
        rw [this]; simp
      · rw [if_neg c, Int.ceil_neg]
    rw [this, if_pos h]
    refine ⟨by push_cast; ring, by simp⟩
  · have e : m * θ / arc = |m| * θ / arc := by rw [abs_of_nonneg (not_lt.mp h)]
    have : toCoord (m * θ / (arc : ℝ)) = ((⌊|m| * θ / arc⌋₊ : Nat) : Int) := by
      unfold toCoord
      rw [e, if_pos hx, hf]
    rw [this, if_neg h]
    refine ⟨by push_cast; ring, by simp⟩

theorem arc_spec {m : ℝ} {arc : Int} (ha : 0 < arc) {p q r : Pt} (h1 : p ≠ q) (h2 : q ≠ r) :
    (Opens m p q r → Arc m arc p q r (perpVector p q m) (arcPts m arc p q r)) ∧ (¬Opens m p q r → arcPts m arc p q r = []) := by
  obtain ⟨t1, t2, t3, t4⟩ := turn_angle h1 h2
  set θ := Real.pi - vangle (p - q) (r - q) with hθ
  obtain ⟨s1, s2⟩ := steps_eq (m := m) ha t1
  by_cases hm : m = 0
  · have hn : ¬Opens m p q r := by unfold Opens; rw [hm]; simp
    refine ⟨fun h => absurd h hn, fun _ => ?_⟩
    unfold arcPts
    dsimp only
    rw [← hθ]
    have : (toCoord (m * θ / (arc : ℝ))).natAbs = 0 := by rw [s2, hm]; simp
    rw [this]
    simp
  · have ho := opens_iff hm p q r
    unfold arcPts
    dsimp only
    by_cases hO : Opens m p q r
    · refine ⟨fun _ => ?_, fun h => absurd hO h⟩
      rw [if_pos (ho.mpr hO), ← hθ]
      refine ⟨θ, if m < 0 then -1 else 1, ⌊|m| * θ / arc⌋₊, t1, t2, t3, rfl, ?_, rfl, ?_⟩
      · have hc : Real.cos ((if m < 0 then -1 else 1) * θ) = Real.cos θ := by
          split <;> simp
        have hs : Real.sin ((if m < 0 then -1 else 1) * θ) * (vmag (vec p q) * vmag (vec q r)) = cross (vec p q) (vec q r) := by
          by_cases h : m < 0
          · rw [if_pos h, neg_one_mul, Real.sin_neg, neg_mul, t4]
            have : cross (vec p q) (vec q r) ≤ 0 := by
              rcases hO with k | k
              · by_contra c; push Not at c; nlinarith
              · exact k.1.le
            rw [abs_of_nonpos this]; ring
          · rw [if_neg h, one_mul, t4]
            have h' : 0 < m := lt_of_le_of_ne (not_lt.mp h) (Ne.symm hm)
            have : 0 ≤ cross (vec p q) (vec q r) := by
              rcases hO with k | k
              · by_contra c; push Not at c; nlinarith
              · exact k.1.ge
            rw [abs_of_nonneg this]
        rw [rot_normal h1 h2 m _ (by rw [hc]; exact t3) hs]
        exact normal_perp h2 m
      · rw [s2]
        by_cases hN : 1 < ⌊|m| * θ / arc⌋₊
        · rw [if_pos hN]
          set N := ⌊|m| * θ / (arc : ℝ)⌋₊ with hNdef
          have hNpos : (N : ℝ) ≠ 0 := by
            have : 0 < N := by omega
            positivity
          obtain ⟨i1, i2⟩ := turns_spec (θ / (toCoord (m * θ / (arc : ℝ)) : ℝ)) (N - 1) (perpVector p q m) 0
          rw [rot_zero] at i1 i2
          refine ⟨by rw [List.length_map, i1], fun k s hk => ?_⟩
          rw [List.getElem?_map] at hk
          obtain ⟨u, hu, rfl⟩ := Option.map_eq_some_iff.mp hk
          rw [i2 k u hu, zero_add, s1]
          have : ((k + 1 : Nat) : ℝ) * (θ / ((if m < 0 then -1 else 1) * (N : ℝ))) = (if m < 0 then -1 else 1) * (((k + 1 : Nat) : ℝ) * θ / N) := by
            split <;> field_simp
          rw [this]
          exact near_addRound _ _
        · rw [if_neg hN]
          refine ⟨by simp; omega, by simp⟩
    · refine ⟨fun h => absurd h hO, fun _ => ?_⟩
      rw [if_neg (fun c => hO (ho.mp c))]

theorem add_spec {m : ℝ} {arc : Int} (ha : 0 < arc) {p q r : Pt} (o1 o2 : Int) (h1 : p ≠ q) (h2 : q ≠ r) :
    ∃ e, addOffsetPoint m arc o1 o2 p q r = some e ∧ Block m arc ((p, o1), (q, o2), r) e := by
  refine ⟨_, by unfold addOffsetPoint; rw [if_neg (by tauto)], perpVector p q m, normal_perp h1 m, _, _, arcPts m arc p q r, rfl,
    near_addRound _ _, near_addRound _ _, ?_⟩
  exact arc_spec ha h1 h2

/-! ### Paths -/

theorem tri_append (A : List (Pt × Int)) (a b : Pt × Int) (C : List (Pt × Int)) :
    tri (A ++ a :: b :: C) = tri (A ++ [a, b]) ++ tri (a :: b :: C) := by
  induction A with
  | nil => simp [tri]
  | cons x A ih =>
    cases A with
    | nil => cases C <;> simp [tri]
    | cons y A =>
      cases A with
      | nil => simp only [List.cons_append, List.nil_append, tri] at ih ⊢
      | cons z A => simp only [List.cons_append, tri] at ih ⊢; rw [ih]

theorem Path.append {m : ℝ} {arc : Int} {A C : List (Pt × Int)} {a b : Pt × Int} {e1 e2 : Emit}
    (h1 : Path m arc (A ++ [a, b]) e1) (h2 : Path m arc (a :: b :: C) e2) : Path m arc (A ++ a :: b :: C) (e1 ++ e2) := by
  obtain ⟨l1, f1, rfl⟩ := h1
  obtain ⟨l2, f2, rfl⟩ := h2
  exact ⟨l1 ++ l2, by rw [tri_append]; exact List.rel_append f1 f2, by simp⟩

theorem Path.one {m : ℝ} {arc : Int} {a b c : Pt × Int} {e : Emit} (h : Block m arc (a, b, c.1) e) : Path m arc [a, b, c] e :=
  ⟨[e], List.Forall₂.cons h .nil, by simp⟩

theorem Path.two {m : ℝ} {arc : Int} {a b : Pt × Int} : Path m arc [a, b] [] := ⟨[], .nil, rfl⟩

/-- No point equal to the one before. -/
def Steps (l : List Pt) : Prop := l.IsChain (· ≠ ·)

theorem walk_spec {m : ℝ} {arc : Int} (ha : 0 < arc) (step : Int) : ∀ (l : List Pt) (i : Int) (p q : Pt), Steps (p :: q :: l) →
    ∃ e A a b, walk m arc step l i p q = some (e, i + step * l.length, a, b) ∧ p :: q :: l = A ++ [a, b] ∧
      Path m arc (tag i step (p :: q :: l)) e
  | [], i, p, q, _ => ⟨[], [], p, q, by simp [walk], rfl, Path.two⟩
  | r :: l, i, p, q, h => by
    have h' := List.isChain_cons_cons.mp h
    have h'' := List.isChain_cons_cons.mp h'.2
    obtain ⟨e, he, hb⟩ := add_spec (m := m) ha i (i + step) h'.1 h''.1
    obtain ⟨e2, A, a, b, w, hA, hP⟩ := walk_spec ha step l (i + step) q r h'.2
    refine ⟨e ++ e2, p :: A, a, b, ?_, by rw [hA]; rfl, ?_⟩
    · unfold walk
      rw [if_pos (fun c => h''.1 c.symm), he, Option.bind_some, w, Option.map_some]
      congr 4
      push_cast [List.length_cons]
      ring
    · have h1 : Path m arc ([(p, i)] ++ [(q, i + step), (r, i + step + step)]) e := Path.one hb
      exact Path.append h1 hP

theorem tag_append (s : Int) (B : List Pt) : ∀ (A : List Pt) (i : Int), tag i s (A ++ B) = tag i s A ++ tag (i + s * A.length) s B
  | [], i => by simp [tag]
  | a :: A, i => by
    rw [List.cons_append, tag, tag_append s B A, tag, List.cons_append]
    congr 3
    push_cast [List.length_cons]; ring

theorem tag_reverse : ∀ (A : List Pt) (i : Int), tag (i + A.length - 1) (-1) A.reverse = (tag i 1 A).reverse
  | [], i => by simp [tag]
  | a :: A, i => by
    have e0 : tag i 1 (a :: A) = (a, i) :: tag (i + 1) 1 A := rfl
    rw [e0, List.reverse_cons, tag_append, List.reverse_cons, ← tag_reverse A (i + 1)]
    have e1 : i + ((a :: A).length : Int) - 1 = i + 1 + (A.length : Int) - 1 := by push_cast [List.length_cons]; ring
    have e2 : i + 1 + (A.length : Int) - 1 + -1 * (A.reverse.length : Int) = i := by rw [List.length_reverse]; ring
    rw [e1, e2]
    rfl

theorem drop_ne {p q : Pt} (h : p ≠ q) (l : List Pt) : (q :: l).dropWhile (fun x => decide (x = p)) = q :: l := by
  rw [List.dropWhile_cons, if_neg (by simpa using h.symm)]

theorem len_of {l : List Pt} {p q a b : Pt} {A : List Pt} (h : p :: q :: l = A ++ [a, b]) : (A.length : Int) = l.length := by
  have := congrArg List.length h
  simp at this
  omega

theorem tag_last {l : List Pt} {p q a b : Pt} {A : List Pt} (h : p :: q :: l = A ++ [a, b]) (i : Int) :
    tag i 1 (p :: q :: l) = tag i 1 A ++ [(a, i + l.length), (b, i + l.length + 1)] := by
  rw [h, tag_append, one_mul, len_of h]; rfl

theorem Path.extend {m : ℝ} {arc : Int} {A : List (Pt × Int)} {a b c : Pt × Int} {e e2 : Emit}
    (h : Path m arc (A ++ [a, b]) e) (h2 : Block m arc (a, b, c.1) e2) : Path m arc (A ++ [a, b, c]) (e ++ e2) :=
  Path.append h (Path.one h2)

/-- C38, closed input without repeated points whose last point is not the first: the lines emitted are those of the cyclic path,
each end with the index of its input point, and the next index is larger by the number of points. -/
theorem C38_closed_partial {m : ℝ} {arc : Int} (ha : 0 < arc) (next : Int) (p q : Pt) (l : List Pt) (h : Steps (p :: q :: l))
    (hl : (p :: q :: l).getLast? ≠ some p) :
    ∃ e, emitClosed m arc next p (q :: l) = some (e, next + (p :: q :: l).length) ∧
      Path m arc (tag next 1 (p :: q :: l) ++ [(p, next), (q, next + 1)]) e := by
  have hpq := (List.isChain_cons_cons.mp h).1
  obtain ⟨e, A, a, b, w, hA, hP⟩ := walk_spec (m := m) ha 1 l next p q h
  rw [one_mul] at w
  have hab : a ≠ b := by
    have h' := h
    unfold Steps at h'
    rw [hA] at h'
    have := List.isChain_append.mp h'
    exact (List.isChain_cons_cons.mp this.2.1).1
  have hbp : b ≠ p := by
    intro c; apply hl; rw [hA, c]; simp
  obtain ⟨e2, he2, hb2⟩ := add_spec (m := m) ha (next + l.length) (next + l.length + 1) hab hbp
  obtain ⟨e3, he3, hb3⟩ := add_spec (m := m) ha (next + l.length + 1) next hbp hpq
  refine ⟨e ++ e2 ++ e3, ?_, ?_⟩
  · unfold emitClosed
    rw [drop_ne hpq]
    dsimp only
    rw [w, Option.bind_some]
    dsimp only
    rw [if_pos hab, if_neg hbp, he2, Option.bind_some, if_pos hbp, he3, Option.map_some]
    congr 2
    push_cast [List.length_cons]; ring
  · rw [tag_last hA] at hP ⊢
    have h1 := Path.extend (c := (p, next)) hP hb2
    have h2 : Path m arc ((tag next 1 A ++ [(a, next + (l.length : Int))]) ++ [(b, next + (l.length : Int) + 1), (p, next)]) (e ++ e2) := by
      simpa using h1
    have h3 := Path.extend (c := (q, next + 1)) h2 hb3
    simpa using h3

/-- C38, closed input whose last point repeats the first. -/
theorem C38_closed_repeat {m : ℝ} {arc : Int} (ha : 0 < arc) (next : Int) (p q : Pt) (l : List Pt) (h : Steps (p :: q :: l))
    (hl : (p :: q :: l).getLast? = some p) :
    ∃ e, emitClosed m arc next p (q :: l) = some (e, next + (p :: q :: l).length) ∧
      Path m arc (tag next 1 (p :: q :: l) ++ [(q, next + 1)]) e := by
  have hpq := (List.isChain_cons_cons.mp h).1
  obtain ⟨e, A, a, b, w, hA, hP⟩ := walk_spec (m := m) ha 1 l next p q h
  rw [one_mul] at w
  have hab : a ≠ b := by
    have h' := h
    unfold Steps at h'
    rw [hA] at h'
    have := List.isChain_append.mp h'
    exact (List.isChain_cons_cons.mp this.2.1).1
  have hbp : b = p := by
    rw [hA] at hl; simpa using hl
  obtain ⟨e2, he2, hb2⟩ := add_spec (m := m) ha (next + l.length) (next + l.length + 1) hab (hbp ▸ hpq)
  refine ⟨e ++ e2, ?_, ?_⟩
  · unfold emitClosed
    rw [drop_ne hpq]
    dsimp only
    rw [w, Option.bind_some]
    dsimp only
    rw [if_pos hab, if_pos hbp, he2, Option.bind_some, if_neg (not_not.mpr hbp), Option.map_some]
    simp only [List.append_nil]
    congr 2
    push_cast [List.length_cons]; ring
  · rw [tag_last hA] at hP ⊢
    have h1 := Path.extend (c := (q, next + 1)) hP hb2
    simpa using h1

/-- C38, open input without repeated points: there and back, both ends included. The next index is one less than it should be: the
last point of this line and the first of the next input share it. -/
theorem C38_open_partial {m : ℝ} {arc : Int} (ha : 0 < arc) (next : Int) (p q : Pt) (l : List Pt) (h : Steps (p :: q :: l)) :
    ∃ e, emitOpen m arc next p (q :: l) = some (e, next + (p :: q :: l).length - 1) ∧
      Path m arc (tag next 1 (p :: q :: l) ++ (tag next 1 (p :: q :: l)).reverse.tail ++ [(q, next + 1)]) e := by
  have hpq := (List.isChain_cons_cons.mp h).1
  obtain ⟨e, A, a, b, w, hA, hP⟩ := walk_spec (m := m) ha 1 l next p q h
  rw [one_mul] at w
  have hab : a ≠ b := by
    have h' := h
    unfold Steps at h'
    rw [hA] at h'
    have := List.isChain_append.mp h'
    exact (List.isChain_cons_cons.mp this.2.1).1
  obtain ⟨e2, he2, hb2⟩ := add_spec (m := m) ha (next + l.length) (next + l.length + 1) hab hab.symm
  have hrev : (p :: q :: l).reverse = b :: a :: A.reverse := by rw [hA]; simp
  have hdrop : (p :: q :: l).reverse.drop 2 = A.reverse := by rw [hrev]; rfl
  have hS : Steps (b :: a :: A.reverse) := by
    rw [← hrev]
    unfold Steps at h ⊢
    rw [List.isChain_reverse]
    exact h.imp (fun _ _ k => k.symm)
  obtain ⟨e3, A', a', b', w3, hA', hP3⟩ := walk_spec (m := m) ha (-1) A.reverse (next + l.length + 1) b a hS
  have hA'' : A' ++ [a', b'] = l.reverse ++ [q, p] := by
    rw [← hA', ← hrev]; simp
  obtain ⟨hAA, hq⟩ := List.append_inj' hA'' rfl
  simp only [List.cons.injEq, and_true] at hq
  obtain ⟨rfl, rfl⟩ := hq
  have hi : next + (l.length : Int) + 1 + -1 * (A.reverse.length : Int) = next + 1 := by
    rw [List.length_reverse, len_of hA]; ring
  rw [hi] at w3
  obtain ⟨e4, he4, hb4⟩ := add_spec (m := m) ha (next + 1) (next + 1 + -1) hpq.symm hpq
  refine ⟨e ++ e2 ++ (e3 ++ e4), ?_, ?_⟩
  · unfold emitOpen
    rw [drop_ne hpq, hdrop]
    dsimp only
    unfold tailOpen
    rw [w, Option.bind_some]
    dsimp only
    rw [he2, Option.map_some, Option.bind_some]
    dsimp only
    rw [w3, Option.bind_some]
    dsimp only
    rw [he4, Option.map_some, Option.map_some]
    congr 2
    push_cast [List.length_cons]; ring
  · have hT : tag (next + l.length + 1) (-1) (b :: a :: A.reverse) = (tag next 1 (b' :: a' :: l)).reverse := by
      rw [← tag_reverse, ← hrev]
      congr 1
      push_cast [List.length_cons]; ring
    have h0 : tag next 1 (b' :: a' :: l) = (b', next) :: (a', next + 1) :: tag (next + 1 + 1) 1 l := rfl
    rw [hT, h0] at hP3
    have h4 : Path m arc ((tag (next + 1 + 1) 1 l).reverse ++ [(a', next + 1), (b', next)] ++ [(a', next + 1)]) (e3 ++ e4) := by
      have e5 : next + 1 + -1 = next := by ring
      rw [e5] at hb4
      have := Path.extend (A := (tag (next + 1 + 1) 1 l).reverse) (c := (a', next + 1)) (by simpa using hP3) hb4
      simpa using this
    have h1 := hP
    rw [tag_last hA] at h1
    have h2 := Path.extend (c := (a, next + (l.length : Int))) h1 hb2
    have hR : (tag next 1 (b' :: a' :: l)).reverse = (b, next + (l.length : Int) + 1) :: (a, next + (l.length : Int)) :: (tag next 1 A).reverse := by
      rw [tag_last hA]; simp
    have h5 : Path m arc ((b, next + (l.length : Int) + 1) :: (a, next + (l.length : Int)) :: ((tag next 1 A).reverse ++ [(a', next + 1)])) (e3 ++ e4) := by
      have : (tag (next + 1 + 1) 1 l).reverse ++ [(a', next + 1), (b', next)] = (tag next 1 (b' :: a' :: l)).reverse := by
        rw [h0]; simp
      rw [this, hR] at h4
      simpa using h4
    have h6 := Path.append (A := tag next 1 A ++ [(a, next + (l.length : Int))]) (e1 := e ++ e2) (by simpa using h2) h5
    rw [hR, tag_last hA]
    simpa using h6

/-! ### Repeated points -/

/-- The path without points equal to the one before. -/
def dedup (p : Pt) : List Pt → List Pt
  | [] => []
  | q :: l => if q = p then dedup p l else q :: dedup q l

theorem dedup_steps : ∀ (l : List Pt) (p : Pt), Steps (p :: dedup p l)
  | [], p => by simp [dedup, Steps]
  | q :: l, p => by
    unfold dedup
    split
    · exact dedup_steps l p
    · rename_i h
      exact List.isChain_cons_cons.mpr ⟨fun c => h c.symm, dedup_steps l q⟩

theorem dedup_mem : ∀ (l : List Pt) (p x : Pt), x ∈ dedup p l → x ∈ l
  | [], p, x, h => by simp [dedup] at h
  | q :: l, p, x, h => by
    unfold dedup at h
    split at h
    · exact List.mem_cons_of_mem _ (dedup_mem l p x h)
    · rcases List.mem_cons.mp h with c | c
      · exact c ▸ List.mem_cons_self
      · exact List.mem_cons_of_mem _ (dedup_mem l q x c)

theorem dedup_eq {p q : Pt} (h : q = p) (l : List Pt) : dedup p (q :: l) = dedup p l := by
  conv_lhs => unfold dedup
  rw [if_pos h]

theorem dedup_ne {p q : Pt} (h : q ≠ p) (l : List Pt) : dedup p (q :: l) = q :: dedup q l := by
  conv_lhs => unfold dedup
  rw [if_neg h]

theorem walk_eq {m : ℝ} {arc : Int} (s : Int) {r q : Pt} (h : r = q) (l : List Pt) (i : Int) (p : Pt) :
    walk m arc s (r :: l) i p q = walk m arc s l (i + s) p q := by
  conv_lhs => unfold walk
  rw [if_neg (not_not.mpr h)]

theorem walk_ne {m : ℝ} {arc : Int} (s : Int) {r q : Pt} (h : r ≠ q) (l : List Pt) (i : Int) (p : Pt) {e : Emit}
    (he : addOffsetPoint m arc i (i + s) p q r = some e) :
    walk m arc s (r :: l) i p q = (walk m arc s l (i + s) q r).map fun x => (e ++ x.1, x.2) := by
  conv_lhs => unfold walk
  rw [if_pos h, he, Option.bind_some]

theorem dropWhile_dedup (p : Pt) : ∀ l : List Pt,
    dedup p l = match l.dropWhile (fun q => decide (q = p)) with | [] => [] | q :: l' => q :: dedup q l'
  | [] => rfl
  | q :: l => by
    rw [List.dropWhile_cons]
    by_cases h : q = p
    · rw [if_pos (by simpa using h), dedup_eq h]
      exact dropWhile_dedup p l
    · rw [if_neg (by simpa using h), dedup_ne h]

/-- Indices do not change the points. -/
theorem add_index {m : ℝ} {arc : Int} (o1 o2 o3 o4 : Int) (p q r : Pt) :
    (addOffsetPoint m arc o1 o2 p q r).map (fun e => e.map Prod.fst) = (addOffsetPoint m arc o3 o4 p q r).map (fun e => e.map Prod.fst) := by
  unfold addOffsetPoint
  split
  · rfl
  · simp [List.map_map, Function.comp_def]

theorem walk_dedup {m : ℝ} {arc : Int} (ha : 0 < arc) (s : Int) : ∀ (l : List Pt) (i j : Int) (p q : Pt), p ≠ q →
    ∃ e e' a b, a ≠ b ∧ walk m arc s l i p q = some (e, i + s * l.length, a, b) ∧
      walk m arc s (dedup q l) j p q = some (e', j + s * (dedup q l).length, a, b) ∧ e.map Prod.fst = e'.map Prod.fst
  | [], i, j, p, q, h => ⟨[], [], p, q, h, by simp [walk], by simp [walk, dedup], rfl⟩
  | r :: l, i, j, p, q, h => by
    by_cases c : r = q
    · obtain ⟨e, e', a, b, h0, h1, h2, h3⟩ := walk_dedup ha s l (i + s) j p q h
      refine ⟨e, e', a, b, h0, ?_, ?_, h3⟩
      · rw [walk_eq s c, h1]
        congr 3
        push_cast [List.length_cons]; ring
      · rw [dedup_eq c]; exact h2
    · obtain ⟨e, e', a, b, h0, h1, h2, h3⟩ := walk_dedup ha s l (i + s) (j + s) q r (Ne.symm c)
      obtain ⟨f, hf, _⟩ := add_spec (m := m) ha i (i + s) h (Ne.symm c)
      obtain ⟨f', hf', _⟩ := add_spec (m := m) ha j (j + s) h (Ne.symm c)
      have hff : f.map Prod.fst = f'.map Prod.fst := by
        have := add_index (m := m) (arc := arc) i (i + s) j (j + s) p q r
        rw [hf, hf'] at this
        simpa using this
      refine ⟨f ++ e, f' ++ e', a, b, h0, ?_, ?_, ?_⟩
      · rw [walk_ne s c _ _ _ hf, h1, Option.map_some]
        congr 4
        push_cast [List.length_cons]; ring
      · rw [dedup_ne c, walk_ne s c _ _ _ hf', h2, Option.map_some]
        congr 4
        push_cast [List.length_cons]; ring
      · rw [List.map_append, List.map_append, hff, h3]

/-- C38, every closed input with two different points: the points emitted are those for the input without repeated points, and no
assertion fails; if the first two points differ, the next index is right. -/
theorem C38_closed_points {m : ℝ} {arc : Int} (ha : 0 < arc) (next : Int) (p : Pt) (l : List Pt) (h : ∃ x ∈ l, x ≠ p) :
    ∃ e i e' i', emitClosed m arc next p l = some (e, i) ∧ emitClosed m arc next p (dedup p l) = some (e', i') ∧
      e.map Prod.fst = e'.map Prod.fst ∧ (l.head? ≠ some p → i = next + (p :: l).length) := by
  have hd := dropWhile_dedup p l
  cases hw : l.dropWhile (fun q => decide (q = p)) with
  | nil =>
    exfalso
    obtain ⟨x, hx, hn⟩ := h
    have := List.dropWhile_eq_nil_iff.mp hw x hx
    exact hn (by simpa using this)
  | cons q l' =>
    rw [hw] at hd
    dsimp only at hd
    have hqp : q ≠ p := by
      have := List.head_dropWhile_not (fun x => decide (x = p)) (l := l) (by rw [hw]; simp)
      simpa [hw] using this
    obtain ⟨e, e', a, b, hab, w, w', hp⟩ := walk_dedup (m := m) ha 1 l' next next p q hqp.symm
    have third : b ≠ (if b = p then q else p) := by
      by_cases c : b = p
      · rw [if_pos c, c]; exact hqp.symm
      · rw [if_neg c]; exact c
    obtain ⟨f, hf, _⟩ := add_spec (m := m) ha (next + 1 * l'.length) (next + 1 * l'.length + 1) hab third
    obtain ⟨f', hf', _⟩ := add_spec (m := m) ha (next + 1 * (dedup q l').length) (next + 1 * (dedup q l').length + 1) hab third
    have hff : f.map Prod.fst = f'.map Prod.fst := by
      have := add_index (m := m) (arc := arc) (next + 1 * l'.length) (next + 1 * l'.length + 1) (next + 1 * (dedup q l').length)
        (next + 1 * (dedup q l').length + 1) a b (if b = p then q else p)
      rw [hf, hf'] at this
      simpa using this
    have hg : ∃ g g', (if b ≠ p then addOffsetPoint m arc (next + 1 * l'.length + 1) next b p q else some []) = some g ∧
        (if b ≠ p then addOffsetPoint m arc (next + 1 * (dedup q l').length + 1) next b p q else some []) = some g' ∧
        g.map Prod.fst = g'.map Prod.fst := by
      by_cases c : b = p
      · rw [if_neg (not_not.mpr c), if_neg (not_not.mpr c)]; exact ⟨[], [], rfl, rfl, rfl⟩
      · rw [if_pos c, if_pos c]
        obtain ⟨g, hg, _⟩ := add_spec (m := m) ha (next + 1 * l'.length + 1) next c hqp.symm
        obtain ⟨g', hg', _⟩ := add_spec (m := m) ha (next + 1 * (dedup q l').length + 1) next c hqp.symm
        refine ⟨g, g', hg, hg', ?_⟩
        have := add_index (m := m) (arc := arc) (next + 1 * l'.length + 1) next (next + 1 * (dedup q l').length + 1) next b p q
        rw [hg, hg'] at this
        simpa using this
    obtain ⟨g, g', hg, hg', hgg⟩ := hg
    refine ⟨e ++ f ++ g, next + 1 * l'.length + 1 + 1, e' ++ f' ++ g', next + 1 * (dedup q l').length + 1 + 1, ?_, ?_, ?_, ?_⟩
    · unfold emitClosed
      rw [hw]
      dsimp only
      rw [w, Option.bind_some]
      dsimp only
      rw [if_pos hab, hf, Option.bind_some, hg, Option.map_some]
    · unfold emitClosed
      rw [hd, drop_ne hqp.symm]
      dsimp only
      rw [w', Option.bind_some]
      dsimp only
      rw [if_pos hab, hf', Option.bind_some, hg', Option.map_some]
    · simp only [List.map_append, hp, hff, hgg]
    · intro hh
      have : l = q :: l' := by
        cases l with
        | nil => simp at hw
        | cons x l =>
          have : x ≠ p := fun c => hh (by rw [c]; rfl)
          rw [drop_ne this.symm] at hw
          exact hw
      rw [this]
      push_cast [List.length_cons]; ring

/-- Finding: a repeated point in the middle shifts the index of the point before it: the first point emitted, a shift of the input
point with index `next`, has the index `next + 1`. -/
theorem C38_repeat_index {m : ℝ} {arc : Int} (ha : 0 < arc) (next : Int) {p q r : Pt} (h1 : p ≠ q) (h2 : q ≠ r) :
    ∃ e i v, emitClosed m arc next p [q, q, r] = some (e, i) ∧ Normal p q m v ∧ ∃ s, e.head? = some (s, next + 1) ∧ Near s p v := by
  obtain ⟨e, i, _, _, he, _⟩ := C38_closed_points (m := m) ha next p [q, q, r] ⟨q, by simp, h1.symm⟩
  obtain ⟨f, hf, v, hv, s, _, _, hs, hn, _⟩ := add_spec (m := m) ha (next + 1) (next + 1 + 1) h1 h2
  refine ⟨e, i, v, he, hv, s, ?_, hn⟩
  unfold emitClosed at he
  rw [drop_ne h1] at he
  dsimp only at he
  rw [walk_eq 1 rfl, walk_ne 1 h2.symm _ _ _ hf] at he
  simp only [walk, Option.map_some, List.append_nil, Option.bind_some] at he
  rw [Option.bind_eq_some_iff] at he
  obtain ⟨e2, _, he⟩ := he
  obtain ⟨e3, _, he⟩ := Option.map_eq_some_iff.mp he
  cases he
  rw [hs]
  simp

/-- Finding: a repetition of the first point is not counted: the input `p, p, q, l` has one point more than the next index grows by. -/
theorem C38_leading_repeat {m : ℝ} {arc : Int} (ha : 0 < arc) (next : Int) {p q : Pt} (h : p ≠ q) (l : List Pt) :
    ∃ e, emitClosed m arc next p (p :: q :: l) = some (e, next + (p :: q :: l).length) := by
  obtain ⟨e, i, _, _, he, _, _, hi⟩ := C38_closed_points (m := m) ha next p (q :: l) ⟨q, by simp, h.symm⟩
  refine ⟨e, ?_⟩
  rw [← hi (by simpa using h.symm), ← he]
  unfold emitClosed
  rw [List.dropWhile_cons, if_pos (by simp)]

/-- Finding: where a path turns straight back, not to the same point, nothing goes around its end. -/
theorem C38_spike {m : ℝ} (hm : 0 < m) (arc : Int) : arcPts m arc ⟨0, 0⟩ ⟨10, 0⟩ ⟨5, 0⟩ = [] := by
  unfold arcPts
  dsimp only
  rw [if_neg]
  rw [if_neg (by linarith)]
  simp [triangleWinding]

/-- Finding: an open line with two more copies of its last point goes around twice. -/
theorem C38_open_trailing {m : ℝ} {arc : Int} (ha : 0 < arc) (next : Int) {p q : Pt} (h : p ≠ q) :
    ∃ e i, emitOpen m arc next p [q, q, q] = some (e, i) ∧
      Path m arc [(p, next + 2), (q, next + 3), (p, next + 2), (q, next + 1), (p, next), (q, next + 1)] e := by
  obtain ⟨e1, h1, b1⟩ := add_spec (m := m) ha (next + 2) (next + 3) h h.symm
  obtain ⟨e2, h2, b2⟩ := add_spec (m := m) ha (next + 3) (next + 2) h.symm h
  obtain ⟨e3, h3, b3⟩ := add_spec (m := m) ha (next + 2) (next + 1) h h.symm
  obtain ⟨e4, h4, b4⟩ := add_spec (m := m) ha (next + 1) next h.symm h
  have i1 : next + 1 + 1 = next + 2 := by ring
  have i2 : next + 2 + 1 = next + 3 := by ring
  have i3 : next + 3 + -1 = next + 2 := by ring
  have i4 : next + 2 + -1 = next + 1 := by ring
  have i5 : next + 1 + -1 = next := by ring
  refine ⟨e1 ++ (e2 ++ (e3 ++ []) ++ e4), next + 3, ?_, ?_⟩
  · unfold emitOpen
    rw [drop_ne h]
    dsimp only
    have t1 : tailOpen m arc [q, q] next 1 p q = some (e1, next + 3, q, p) := by
      unfold tailOpen
      rw [walk_eq 1 rfl, walk_eq 1 rfl]
      simp only [walk, Option.bind_some, List.nil_append]
      rw [i1, i2, h1, Option.map_some]
    have t2 : tailOpen m arc [q, p] (next + 3) (-1) q p = some (e2 ++ (e3 ++ []) ++ e4, next, p, q) := by
      unfold tailOpen
      rw [walk_ne (-1) h.symm _ _ _ (by rw [i3]; exact h2), i3, walk_ne (-1) h _ _ _ (by rw [i4]; exact h3), i4]
      simp only [walk, Option.bind_some, Option.map_some]
      rw [i5, h4, Option.map_some]
    rw [t1, Option.bind_some]
    dsimp only
    rw [show [p, q, q, q].reverse.drop 2 = [q, p] from rfl, t2, Option.map_some]
  · refine ⟨[e1, e2, e3, e4], ?_, by simp⟩
    exact List.Forall₂.cons b1 (List.Forall₂.cons b2 (List.Forall₂.cons b3 (List.Forall₂.cons b4 .nil)))

/-! ### A lone point -/

/-- The number of parts of the circle. -/
noncomputable def parts (m : ℝ) (arc : Int) : Nat := ⌊m * (2 * Real.pi) / arc⌋₊

theorem lone_eq {m : ℝ} (hm : 0 < m) {arc : Int} (ha : 0 < arc) (next : Int) (p : Pt) (hN : 0 < parts m arc) :
    ∃ e, offsetLonePoint m arc next p = some (e, next + 1) ∧ e.length = max (parts m arc) 3 - 1 ∧
      ∀ (k : Nat) x, e[k]? = some x → x.2 = next ∧ Near x.1 p (rot ((k + 1 : Nat) * (2 * Real.pi) / parts m arc) (m, 0)) := by
  obtain ⟨s1, s2⟩ := steps_eq (m := m) (θ := Real.pi * 2) ha (by positivity)
  have hpa : ⌊|m| * (Real.pi * 2) / (arc : ℝ)⌋₊ = parts m arc := by
    unfold parts; rw [abs_of_pos hm, mul_comm Real.pi 2]
  rw [hpa] at s1 s2
  rw [if_neg (by linarith), one_mul] at s1
  have s3 : toCoord (m * (Real.pi * 2) / (arc : ℝ)) = (parts m arc : Int) := by exact_mod_cast s1
  unfold offsetLonePoint
  rw [if_neg (by linarith)]
  dsimp only
  rw [s3, if_neg (by omega)]
  have hmax : (max (parts m arc : Int) 3).toNat = max (parts m arc) 3 := by omega
  rw [hmax]
  obtain ⟨i1, i2⟩ := turns_spec (Real.pi * 2 / ((parts m arc : Int) : ℝ)) (max (parts m arc) 3 - 1) ((m, 0) : Vec) 0
  rw [rot_zero] at i1 i2
  refine ⟨_, rfl, by rw [List.length_map, i1], fun k x hk => ?_⟩
  rw [List.getElem?_map] at hk
  obtain ⟨u, hu, rfl⟩ := Option.map_eq_some_iff.mp hk
  refine ⟨rfl, ?_⟩
  rw [i2 k u hu]
  have : (0 : ℝ) + ((k + 1 : Nat) : ℝ) * (Real.pi * 2 / ((parts m arc : Int) : ℝ)) = ((k + 1 : Nat) : ℝ) * (2 * Real.pi) / (parts m arc : ℝ) := by
    push_cast; ring
  rw [this]
  exact near_addRound _ _

/-- C39 in part: with `N ≥ 3` parts, points of the circle at the multiples 1 to `N - 1` of the `N`th part of a full turn are emitted,
up to rounding. Missing from the full statement: the point at angle 0, which is never emitted (so the last and the first point are two
parts apart, and there are only two points if `N = 3`), and `N < 3`. -/
theorem C39_partial {m : ℝ} (hm : 0 < m) {arc : Int} (ha : 0 < arc) (next : Int) (p : Pt) (hN : 3 ≤ parts m arc) :
    ∃ e, offsetLonePoint m arc next p = some (e, next + 1) ∧ e.length = parts m arc - 1 ∧
      ∀ (k : Nat) x, e[k]? = some x → x.2 = next ∧ Near x.1 p (rot ((k + 1 : Nat) * (2 * Real.pi) / parts m arc) (m, 0)) := by
  obtain ⟨e, h1, h2, h3⟩ := lone_eq hm ha next p (by omega)
  exact ⟨e, h1, by rw [h2]; omega, h3⟩

/-- Finding: with one, two or three parts there are only two points. -/
theorem C39_two {m : ℝ} (hm : 0 < m) {arc : Int} (ha : 0 < arc) (next : Int) (p : Pt) (h1 : 0 < parts m arc) (h3 : parts m arc ≤ 3) :
    ∃ a b, offsetLonePoint m arc next p = some ([(a, next), (b, next)], next + 1) := by
  obtain ⟨e, e1, e2, e3⟩ := lone_eq hm ha next p h1
  have : e.length = 2 := by rw [e2]; omega
  match e, this with
  | [x, y], _ =>
    have hx := (e3 0 x rfl).1
    have hy := (e3 1 y rfl).1
    exact ⟨x.1, y.1, by rw [e1, ← hx, hx]; congr 2; simp [Prod.ext_iff, hx, hy]⟩

/-- Finding: then the circle is not stored at all. -/
theorem C39_lost {m : ℝ} (hm : 0 < m) {arc : Int} (ha : 0 < arc) (p : Pt) (h1 : 0 < parts m arc) (h3 : parts m arc ≤ 3)
    (c : Store) (hc : c.pts = []) (cat : BSet) (pt closed : Bool) :
    ∃ c', addOffset c cat pt m arc closed [p] = some c' ∧ c'.pts = [] := by
  obtain ⟨a, b, e⟩ := C39_two hm ha c.nextOrig p h1 h3
  have : ∀ cl : Bool, (if cl then emitClosed m arc c.nextOrig p [] else emitOpen m arc c.nextOrig p []) = offsetLonePoint m arc c.nextOrig p := by
    intro cl; cases cl <;> simp [emitClosed, emitOpen]
  unfold addOffset
  dsimp only
  rw [this, e, Option.bind_some]
  have : ∃ c', addLoop c cat pt [(a, c.nextOrig), (b, c.nextOrig)] = some c' ∧ c'.pts = [] := by
    obtain ⟨pts, tr, no⟩ := c
    dsimp only at hc
    subst hc
    unfold addLoop
    by_cases hab : b = a
    · cases pt <;> simp [put, Sink.init, finalizePrev, close, hab]
    · have hba : ¬a = b := fun c => hab c.symm
      cases pt <;> simp [put, Sink.init, finalizePrev, close, hab, hba]
  obtain ⟨c', h, h'⟩ := this
  exact ⟨{ c' with nextOrig := c.nextOrig + 1 }, by rw [h, Option.map_some], h'⟩

/-- Finding: with a step longer than the whole circle the result is undefined. -/
theorem C39_none {m : ℝ} (hm : 0 < m) {arc : Int} (ha : 0 < arc) (next : Int) (p : Pt) (h : parts m arc = 0) :
    offsetLonePoint m arc next p = none := by
  obtain ⟨s1, s2⟩ := steps_eq (m := m) (θ := Real.pi * 2) ha (by positivity)
  have hpa : ⌊|m| * (Real.pi * 2) / (arc : ℝ)⌋₊ = parts m arc := by
    unfold parts; rw [abs_of_pos hm, mul_comm Real.pi 2]
  rw [hpa, h] at s2
  unfold offsetLonePoint
  rw [if_neg (by linarith)]
  dsimp only
  rw [if_pos (Int.natAbs_eq_zero.mp s2)]

/-- A lone point is not counted if the magnitude is not positive. -/
theorem C39_negative {m : ℝ} (hm : m ≤ 0) (arc next : Int) (p : Pt) : offsetLonePoint m arc next p = some ([], next) := by
  unfold offsetLonePoint; rw [if_pos hm]

/-! ### Cases that meet the conditions -/

example : Steps [⟨0, 0⟩, ⟨10, 0⟩, ⟨10, 10⟩] ∧ [(⟨0, 0⟩ : Pt), ⟨10, 0⟩, ⟨10, 10⟩].getLast? ≠ some ⟨0, 0⟩ := by
  constructor
  · simp [Steps]
  · simp
example : Opens 5 ⟨0, 0⟩ ⟨10, 0⟩ ⟨10, 10⟩ := by left; unfold cross vec; norm_num
example : 3 ≤ parts 10 5 := by
  unfold parts
  apply Nat.le_floor
  have := Real.pi_gt_three
  push_cast
  linarith
example : 0 < parts 1 5 ∧ parts 1 5 ≤ 3 := by
  unfold parts
  have := Real.pi_gt_three
  have := Real.pi_lt_four
  constructor
  · rw [Nat.floor_pos]; push_cast; linarith
  · rw [← Nat.lt_succ_iff, Nat.floor_lt (by positivity)]; push_cast; linarith

end PolyOps.Offset
