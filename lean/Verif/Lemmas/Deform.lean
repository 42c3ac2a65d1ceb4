import Verif.Lemmas.Bent
import Mathlib.Data.Real.Basic
import Mathlib.Tactic.Linarith
import Mathlib.Tactic.FieldSimp

/-! Winding numbers of places far from the edges do not change when edges are bent a little. -/
namespace PolyOps.Exec
open PolyOps PolyOps.Sweep PolyOps.Region PolyOps.Planarity

/-! ### Distances along both axes -/

/-- Some place of the edge from `a` to `b` differs from `c` by at most `d` in each coordinate. -/
def NearEdge (d : Rat) (a b c : Pt) : Prop := ∃ u v, OnSegQ u v a b ∧ |(c.x : Rat) - u| ≤ d ∧ |(c.y : Rat) - v| ≤ d

/-- Each place of the edge differs from `(x, y)` by more than `d` in some coordinate. -/
def FarFrom (d : Rat) (e : Pt × Pt) (x y : Rat) : Prop := ∀ u v, OnSegQ u v e.1 e.2 → d < |x - u| ∨ d < |y - v|

theorem NearEdge.mono {d d' : Rat} (h : d ≤ d') {a b c : Pt} : NearEdge d a b c → NearEdge d' a b c := by
  rintro ⟨u, v, h1, h2, h3⟩; exact ⟨u, v, h1, h2.trans h, h3.trans h⟩

theorem NearEdge.symm {d : Rat} {a b c : Pt} (h : NearEdge d a b c) : NearEdge d b a c := by
  obtain ⟨u, v, h1, h2, h3⟩ := h; exact ⟨u, v, onq_swap h1, h2, h3⟩

theorem near_grade {δ : Rat} (h0 : 0 ≤ δ) : Grade (NearEdge δ) fun n => NearEdge (n * δ) := by
  refine ⟨fun a b => ⟨a.x, a.y, onq_left a b, by simp, by simp⟩, fun a b => ⟨b.x, b.y, onq_right a b, by simp, by simp⟩, fun m n a b c h => ?_, ?_⟩
  · refine NearEdge.mono ?_
    have : (m : Rat) ≤ n := by exact_mod_cast h
    exact mul_le_mul_of_nonneg_right this h0
  · rintro n p q a b c ⟨u1, v1, ⟨s1, s0, s1', hs⟩, a1, a2⟩ ⟨u2, v2, ⟨s2, r0, r1, hr⟩, b1, b2⟩ ⟨u, v, ⟨t, t0, t1, ht⟩, c1, c2⟩
    obtain ⟨rfl, rfl⟩ := hs
    obtain ⟨rfl, rfl⟩ := hr
    obtain ⟨rfl, rfl⟩ := ht
    refine ⟨p.x + ((1 - t) * s1 + t * s2) * ((q.x : Rat) - p.x), p.y + ((1 - t) * s1 + t * s2) * ((q.y : Rat) - p.y),
      ⟨_, by nlinarith, by nlinarith, rfl, rfl⟩, ?_, ?_⟩
    · rw [abs_le] at *; push_cast
      constructor <;> nlinarith [mul_le_mul_of_nonneg_left a1.1 (sub_nonneg.mpr t1), mul_le_mul_of_nonneg_left a1.2 (sub_nonneg.mpr t1),
        mul_le_mul_of_nonneg_left b1.1 t0, mul_le_mul_of_nonneg_left b1.2 t0]
    · rw [abs_le] at *; push_cast
      constructor <;> nlinarith [mul_le_mul_of_nonneg_left a2.1 (sub_nonneg.mpr t1), mul_le_mul_of_nonneg_left a2.2 (sub_nonneg.mpr t1),
        mul_le_mul_of_nonneg_left b2.1 t0, mul_le_mul_of_nonneg_left b2.2 t0]

/-! ### Half planes -/

/-- The point is on the side of the line through the place that `α`, `β` point away from. -/
def Side (α β : ℝ) (x y : Rat) (p : Pt) : Prop := α * p.x + β * p.y < α * (x : ℝ) + β * (y : ℝ)

/-- 1 if the vertical is to the left of the point. -/
def ind (x : Rat) (p : Pt) : Int := if x < p.x then 1 else 0

theorem height_side {α β : ℝ} {x y : Rat} {e : Pt × Pt} (h1 : Side α β x y e.1) (h2 : Side α β x y e.2)
    (hx : ((e.1.x : Rat) ≤ x ∧ x < e.2.x) ∨ ((e.2.x : Rat) ≤ x ∧ x < e.1.x)) : β * ((height e x : Rat) : ℝ) < β * (y : ℝ) := by
  obtain ⟨a, b⟩ := e
  unfold Side at h1 h2
  have hne : ((b.x : Rat) - a.x) ≠ 0 := by
    rcases hx with h | h
    · have := h.1.trans_lt h.2; dsimp only at this; intro h; linarith
    · have := h.1.trans_lt h.2; dsimp only at this; intro h; linarith
  obtain ⟨t, t0, t1, hxt, hh⟩ : ∃ t : Rat, 0 ≤ t ∧ t ≤ 1 ∧ x = a.x + t * ((b.x : Rat) - a.x) ∧ height (a, b) x = a.y + t * ((b.y : Rat) - a.y) := by
    refine ⟨(x - a.x) / ((b.x : Rat) - a.x), ?_, ?_, ?_, ?_⟩
    · rcases hx with h | h <;> dsimp only at h
      · exact div_nonneg (by linarith) (by linarith)
      · exact div_nonneg_of_nonpos (by linarith) (by linarith)
    · rcases hx with h | h <;> dsimp only at h
      · rw [div_le_one (by linarith)]; linarith
      · rw [div_le_one_of_neg (by linarith)]; linarith
    · field_simp; ring
    · unfold height; dsimp only; ring
  rw [hh]
  have hxr : (x : ℝ) = a.x + t * ((b.x : ℝ) - a.x) := by rw [hxt]; push_cast; ring
  push_cast
  have t0' : (0 : ℝ) ≤ t := by exact_mod_cast t0
  have t1' : (t : ℝ) ≤ 1 := by exact_mod_cast t1
  dsimp only at h1 h2
  rw [hxr] at h1 h2
  rcases t0'.eq_or_lt with h | h
  · rw [← h] at h1 ⊢; linarith
  · nlinarith [mul_lt_mul_of_pos_left h2 h, mul_le_mul_of_nonneg_left h1.le (sub_nonneg.mpr t1')]

theorem count_below {α β : ℝ} (hb : β ≤ 0) {x y : Rat} {e : Pt × Pt} (h1 : Side α β x y e.1) (h2 : Side α β x y e.2) : count e x y = 0 := by
  have key : ((e.1.x : Rat) ≤ x ∧ x < e.2.x) ∨ ((e.2.x : Rat) ≤ x ∧ x < e.1.x) → ¬ height e x < y := by
    intro hx hc
    have := height_side h1 h2 hx
    have hc' : ((height e x : Rat) : ℝ) < (y : ℝ) := by exact_mod_cast hc
    nlinarith
  unfold count
  rw [if_neg fun h => key (Or.inl ⟨h.1, h.2.1⟩) h.2.2, if_neg fun h => key (Or.inr ⟨h.1, h.2.1⟩) h.2.2]

theorem count_above {α β : ℝ} (hb : 0 < β) {x y : Rat} {e : Pt × Pt} (h1 : Side α β x y e.1) (h2 : Side α β x y e.2) :
    count e x y = ind x e.2 - ind x e.1 := by
  have key : ((e.1.x : Rat) ≤ x ∧ x < e.2.x) ∨ ((e.2.x : Rat) ≤ x ∧ x < e.1.x) → height e x < y := by
    intro hx
    have := height_side h1 h2 hx
    have : ((height e x : Rat) : ℝ) < (y : ℝ) := by nlinarith
    exact_mod_cast this
  unfold count ind
  by_cases c1 : x < e.1.x <;> by_cases c2 : x < e.2.x
  · rw [if_neg (by rintro ⟨h, -⟩; linarith), if_neg (by rintro ⟨h, -⟩; linarith), if_pos c1, if_pos c2]; rfl
  · rw [if_neg (by rintro ⟨h, -⟩; linarith), if_pos ⟨le_of_not_gt c2, c1, key (Or.inr ⟨le_of_not_gt c2, c1⟩)⟩, if_pos c1, if_neg c2]; rfl
  · rw [if_pos ⟨le_of_not_gt c1, c2, key (Or.inl ⟨le_of_not_gt c1, c2⟩)⟩, if_neg c1, if_pos c2]; rfl
  · rw [if_neg (by rintro ⟨-, h, -⟩; exact c2 h), if_neg (by rintro ⟨-, h, -⟩; exact c1 h), if_neg c1, if_neg c2]; rfl

/-- A walk on one side of a line through the place counts as much as the edge from its start to its end. -/
theorem walk_side {α β : ℝ} {x y : Rat} : ∀ (l : List Pt) (a b : Pt), Side α β x y a → Side α β x y b → (∀ p ∈ l, Side α β x y p) →
    wind (walk a (l ++ [b])) x y = count (a, b) x y
  | [], a, b, _, _, _ => by simp [walk, wind]
  | c :: l, a, b, ha, hb, hl => by
    have hc := hl c (by simp)
    have ih := walk_side l c b hc hb fun p hp => hl p (by simp [hp])
    change wind ((a, c) :: walk c (l ++ [b])) x y = _
    have : wind ((a, c) :: walk c (l ++ [b])) x y = count (a, c) x y + wind (walk c (l ++ [b])) x y := by unfold wind; simp
    rw [this, ih]
    rcases le_or_gt β 0 with h | h
    · rw [count_below h (e := (a, c)) ha hc, count_below h (e := (c, b)) hc hb, count_below h (e := (a, b)) ha hb]; rfl
    · rw [count_above h (e := (a, c)) ha hc, count_above h (e := (c, b)) hc hb, count_above h (e := (a, b)) ha hb]; ring

/-- The place is on no edge that is on one side of a line through it. -/
theorem side_off {α β : ℝ} {x y : Rat} {a b : Pt} (ha : Side α β x y a) (hb : Side α β x y b) : ¬ OnSegQ x y a b := by
  rintro ⟨t, t0, t1, h1, h2⟩
  unfold Side at ha hb
  have e1 : (x : ℝ) = a.x + t * ((b.x : ℝ) - a.x) := by rw [h1]; push_cast; ring
  have e2 : (y : ℝ) = a.y + t * ((b.y : ℝ) - a.y) := by rw [h2]; push_cast; ring
  have t0' : (0 : ℝ) ≤ t := by exact_mod_cast t0
  have t1' : (t : ℝ) ≤ 1 := by exact_mod_cast t1
  rcases t0'.eq_or_lt with h | h
  · rw [← h] at e1 e2; rw [e1, e2] at ha; linarith
  · have k1 := mul_lt_mul_of_pos_left hb h
    have k2 := mul_le_mul_of_nonneg_left ha.le (sub_nonneg.mpr t1')
    have : α * (x : ℝ) + β * (y : ℝ) = (1 - t) * (α * a.x + β * a.y) + t * (α * b.x + β * b.y) := by rw [e1, e2]; ring
    nlinarith

/-! ### Separation -/

theorem helly {sx sy X Y d : Rat} (h1 : 0 ≤ sx) (h2 : 0 ≤ sy) (hd : 0 ≤ d) (x1 : -d ≤ X) (x2 : X ≤ sx + d) (y1 : -d ≤ Y) (y2 : Y ≤ sy + d)
    (c1 : sx * Y - sy * X ≤ d * (sx + sy)) (c2 : sy * X - sx * Y ≤ d * (sx + sy)) :
    ∃ t : Rat, 0 ≤ t ∧ t ≤ 1 ∧ |X - t * sx| ≤ d ∧ |Y - t * sy| ≤ d := by
  rcases h1.eq_or_lt with e1 | e1
  · rcases h2.eq_or_lt with e2 | e2
    · exact ⟨0, le_rfl, zero_le_one, by rw [abs_le]; constructor <;> linarith, by rw [abs_le]; constructor <;> linarith⟩
    · refine ⟨max 0 ((Y - d) / sy), le_max_left _ _, max_le zero_le_one (by rw [div_le_one e2]; linarith), by rw [← e1, abs_le]; constructor <;> linarith, ?_⟩
      rw [abs_le]
      rcases le_total 0 ((Y - d) / sy) with h | h
      · rw [max_eq_right h, div_mul_cancel₀ _ e2.ne']; constructor <;> linarith
      · rw [max_eq_left h]
        have := (div_le_iff₀ e2).mp h
        constructor <;> linarith
  · rcases h2.eq_or_lt with e2 | e2
    · refine ⟨max 0 ((X - d) / sx), le_max_left _ _, max_le zero_le_one (by rw [div_le_one e1]; linarith), ?_, by rw [← e2, abs_le]; constructor <;> linarith⟩
      rw [abs_le]
      rcases le_total 0 ((X - d) / sx) with h | h
      · rw [max_eq_right h, div_mul_cancel₀ _ e1.ne']; constructor <;> linarith
      · rw [max_eq_left h]
        have := (div_le_iff₀ e1).mp h
        constructor <;> linarith
    · set t := max 0 (max ((X - d) / sx) ((Y - d) / sy)) with ht
      have l0 : 0 ≤ t := le_max_left _ _
      have lx : X - d ≤ t * sx := (div_le_iff₀ e1).mp ((le_max_left _ _).trans (le_max_right _ _))
      have ly : Y - d ≤ t * sy := (div_le_iff₀ e2).mp ((le_max_right _ _).trans (le_max_right _ _))
      have up : ∀ z, 0 ≤ z → (X - d) / sx ≤ z → (Y - d) / sy ≤ z → t ≤ z := fun z h h' h'' => max_le h (max_le h' h'')
      have u1 : t ≤ 1 := up _ zero_le_one (by rw [div_le_one e1]; linarith) (by rw [div_le_one e2]; linarith)
      have ux : t ≤ (X + d) / sx := up _ (div_nonneg (by linarith) h1) (by gcongr; linarith) (by rw [div_le_div_iff₀ e2 e1]; nlinarith)
      have uy : t ≤ (Y + d) / sy := up _ (div_nonneg (by linarith) h2) (by rw [div_le_div_iff₀ e1 e2]; nlinarith) (by gcongr; linarith)
      rw [le_div_iff₀ e1] at ux
      rw [le_div_iff₀ e2] at uy
      exact ⟨t, l0, u1, by rw [abs_le]; constructor <;> linarith, by rw [abs_le]; constructor <;> linarith⟩

/-- A place away from an edge is on the other side of a line than everything near the edge. -/
theorem far_side {d : Rat} (hd : 0 ≤ d) {a b : Pt} {x y : Rat} (h : FarFrom d (a, b) x y) :
    ∃ α β : ℝ, ∀ c, NearEdge d a b c → Side α β x y c := by
  obtain ⟨gx, sx, g1, e1, p1⟩ : ∃ gx sx : Rat, (gx = 1 ∨ gx = -1) ∧ sx = gx * ((b.x : Rat) - a.x) ∧ 0 ≤ sx := by
    rcases le_total (a.x : Rat) b.x with h | h
    · exact ⟨1, _, Or.inl rfl, rfl, by linarith⟩
    · exact ⟨-1, _, Or.inr rfl, rfl, by linarith⟩
  obtain ⟨gy, sy, g2, e2, p2⟩ : ∃ gy sy : Rat, (gy = 1 ∨ gy = -1) ∧ sy = gy * ((b.y : Rat) - a.y) ∧ 0 ≤ sy := by
    rcases le_total (a.y : Rat) b.y with h | h
    · exact ⟨1, _, Or.inl rfl, rfl, by linarith⟩
    · exact ⟨-1, _, Or.inr rfl, rfl, by linarith⟩
  -- a linear form with rational coefficients is enough
  suffices H : ∃ α β : Rat, ∀ c, NearEdge d a b c → α * c.x + β * c.y < α * x + β * y by
    obtain ⟨α, β, H⟩ := H
    refine ⟨α, β, fun c hc => ?_⟩
    have := H c hc
    unfold Side
    exact_mod_cast this
  have G1 : gx * gx = 1 := by rcases g1 with rfl | rfl <;> norm_num
  have G2 : gy * gy = 1 := by rcases g2 with rfl | rfl <;> norm_num
  have ab1 : ∀ z : Rat, |z| ≤ d → gx * z ≤ d ∧ -d ≤ gx * z := by
    intro z hz; rw [abs_le] at hz
    rcases g1 with rfl | rfl <;> constructor <;> linarith
  have ab2 : ∀ z : Rat, |z| ≤ d → gy * z ≤ d ∧ -d ≤ gy * z := by
    intro z hz; rw [abs_le] at hz
    rcases g2 with rfl | rfl <;> constructor <;> linarith
  -- what is near the edge, in turned coordinates
  have near : ∀ c, NearEdge d a b c → ∃ t u v : Rat, 0 ≤ t ∧ t ≤ 1 ∧ gx * ((c.x : Rat) - a.x) = t * sx + u ∧ gy * ((c.y : Rat) - a.y) = t * sy + v ∧
      u ≤ d ∧ -d ≤ u ∧ v ≤ d ∧ -d ≤ v := by
    rintro c ⟨p, q, ⟨t, t0, t1, h1, h2⟩, k1, k2⟩
    refine ⟨t, gx * (c.x - p), gy * (c.y - q), t0, t1, ?_, ?_, (ab1 _ k1).1, (ab1 _ k1).2, (ab2 _ k2).1, (ab2 _ k2).2⟩
    · rw [e1, h1]; ring
    · rw [e2, h2]; ring
  set X := gx * (x - a.x) with hX
  set Y := gy * (y - a.y) with hY
  by_contra hno
  have sep : ∀ A B : Rat, (∀ t u v : Rat, 0 ≤ t → t ≤ 1 → u ≤ d → -d ≤ u → v ≤ d → -d ≤ v → A * (t * sx + u) + B * (t * sy + v) < A * X + B * Y) → False := by
    intro A B hAB
    refine hno ⟨A * gx, B * gy, fun c hc => ?_⟩
    obtain ⟨t, u, v, t0, t1, h1, h2, u1, u2, v1, v2⟩ := near c hc
    have := hAB t u v t0 t1 u1 u2 v1 v2
    rw [← h1, ← h2, hX, hY] at this
    linarith
  obtain ⟨t, t0, t1, k1, k2⟩ := helly (sx := sx) (sy := sy) (X := X) (Y := Y) (d := d) p1 p2 hd
    (by by_contra hc; exact sep (-1) 0 fun t u v t0 t1 u1 u2 v1 v2 => by nlinarith)
    (by by_contra hc; exact sep 1 0 fun t u v t0 t1 u1 u2 v1 v2 => by nlinarith)
    (by by_contra hc; exact sep 0 (-1) fun t u v t0 t1 u1 u2 v1 v2 => by nlinarith)
    (by by_contra hc; exact sep 0 1 fun t u v t0 t1 u1 u2 v1 v2 => by nlinarith)
    (by by_contra hc; exact sep (-sy) sx fun t u v t0 t1 u1 u2 v1 v2 => by
          nlinarith [mul_le_mul_of_nonneg_left u2 p2, mul_le_mul_of_nonneg_left v1 p1])
    (by by_contra hc; exact sep sy (-sx) fun t u v t0 t1 u1 u2 v1 v2 => by
          nlinarith [mul_le_mul_of_nonneg_left u1 p2, mul_le_mul_of_nonneg_left v2 p1])
  have back : ∀ g z w : Rat, (g = 1 ∨ g = -1) → |g * z - t * (g * w)| = |z - t * w| := by
    rintro g z w (rfl | rfl)
    · simp
    · rw [show -1 * z - t * (-1 * w) = -(z - t * w) by ring, abs_neg]
  rw [hX, e1, back _ _ _ g1] at k1
  rw [hY, e2, back _ _ _ g2] at k2
  rcases h _ _ ⟨t, t0, t1, rfl, rfl⟩ with h | h
  · rw [show x - (a.x + t * ((b.x : Rat) - a.x)) = x - a.x - t * ((b.x : Rat) - a.x) by ring] at h
    exact absurd k1 (not_le.mpr h)
  · rw [show y - (a.y + t * ((b.y : Rat) - a.y)) = y - a.y - t * ((b.y : Rat) - a.y) by ring] at h
    exact absurd k2 (not_le.mpr h)

/-- A bent edge on one side of a line through the place counts as much as the straight one. -/
theorem bent_side {b : Bent} {α β : ℝ} {x y : Rat} (h1 : Side α β x y b.edge.1) (h2 : Side α β x y b.edge.2) (hs : ∀ p ∈ b.via, Side α β x y p) :
    wind b.pieces x y = wind [b.edge] x y ∧ Off b.pieces x y := by
  constructor
  · unfold Bent.pieces
    rw [walk_side b.via _ _ h1 h2 hs]
    simp [wind]
  · intro e he
    obtain ⟨k1, k2⟩ := walk_mem he
    have all : ∀ p ∈ b.edge.1 :: (b.via ++ [b.edge.2]), Side α β x y p := by
      intro p hp
      simp only [List.mem_cons, List.mem_append, List.not_mem_nil, or_false] at hp
      rcases hp with rfl | hp | rfl
      · exact h1
      · exact hs p hp
      · exact h2
    exact side_off (all _ k1) (all _ (List.mem_cons_of_mem _ k2))

/-- The same for places that are farther away than the points it goes through. -/
theorem bent_far {b : Bent} {d : Rat} (hd : 0 ≤ d) (hb : ∀ p ∈ b.via, NearEdge d b.edge.1 b.edge.2 p) {x y : Rat} (h : FarFrom d b.edge x y) :
    wind b.pieces x y = wind [b.edge] x y ∧ Off b.pieces x y := by
  obtain ⟨α, β, hs⟩ := far_side hd h
  exact bent_side (hs _ ⟨_, _, onq_left _ _, by simpa using hd, by simpa using hd⟩) (hs _ ⟨_, _, onq_right _ _, by simpa using hd, by simpa using hd⟩)
    fun p hp => hs p (hb p hp)

end PolyOps.Exec
