import Verif.Lemmas.Grow

/-! Places that a line separates from all sides of a polygon: winding numbers do not change between them. -/
namespace PolyOps.Exec
open PolyOps PolyOps.Sweep PolyOps.Region PolyOps.Planarity

/-! ### From one place to another -/

/-- 1 if the vertex is below the line between two places. -/
def lower (x1 y1 x2 y2 : Rat) (v : Pt) : Int := if (v.y : Rat) * (x2 - x1) < y1 * (x2 - x1) + (y2 - y1) * (v.x - x1) then 1 else 0

/-- One side: the change of its count between two places that are on one side of it. -/
theorem count_move {α β : ℝ} {x1 y1 x2 y2 : Rat} (hx : x1 ≤ x2) {e : Pt × Pt} (a1 : Side α β x1 y1 e.1) (a2 : Side α β x1 y1 e.2) (b1 : Side α β x2 y2 e.1) (b2 : Side α β x2 y2 e.2) :
    count e x1 y1 - count e x2 y2 = (ind x1 e.2 - ind x2 e.2) * lower x1 y1 x2 y2 e.2 - (ind x1 e.1 - ind x2 e.1) * lower x1 y1 x2 y2 e.1 := by
  have key : ∀ v : Pt, Side α β x1 y1 v → Side α β x2 y2 v → (ind x1 v - ind x2 v) * lower x1 y1 x2 y2 v = if 0 < β then ind x1 v - ind x2 v else 0 := by
    intro v h1 h2
    unfold Side at h1 h2
    by_cases c : x1 < v.x ∧ ¬ x2 < v.x
    · have c1 : (x1 : ℝ) < v.x := by exact_mod_cast c.1
      have c2 : (v.x : ℝ) ≤ x2 := by exact_mod_cast not_lt.mp c.2
      have comb : β * ((v.y : ℝ) * (x2 - x1)) < β * ((y1 : ℝ) * (x2 - x1) + (y2 - y1) * (v.x - x1)) := by
        have e1 : ((x2 : ℝ) - v.x) * (α * v.x + β * v.y) ≤ (x2 - v.x) * (α * x1 + β * y1) := mul_le_mul_of_nonneg_left h1.le (by linarith)
        have e2 : ((v.x : ℝ) - x1) * (α * v.x + β * v.y) < (v.x - x1) * (α * x2 + β * y2) := mul_lt_mul_of_pos_left h2 (by linarith)
        nlinarith
      by_cases hb : 0 < β
      · have : (v.y : ℝ) * (x2 - x1) < (y1 : ℝ) * (x2 - x1) + (y2 - y1) * (v.x - x1) := lt_of_mul_lt_mul_left comb hb.le
        have : (v.y : Rat) * (x2 - x1) < y1 * (x2 - x1) + (y2 - y1) * (v.x - x1) := by exact_mod_cast this
        unfold lower
        rw [if_pos this, if_pos hb, mul_one]
      · have : ¬ (v.y : ℝ) * (x2 - x1) < (y1 : ℝ) * (x2 - x1) + (y2 - y1) * (v.x - x1) := by
          intro h
          have := mul_le_mul_of_nonpos_left h.le (not_lt.mp hb)
          linarith
        have : ¬ (v.y : Rat) * (x2 - x1) < y1 * (x2 - x1) + (y2 - y1) * (v.x - x1) := by exact_mod_cast this
        unfold lower
        rw [if_neg this, if_neg hb, mul_zero]
    · have : ind x1 v - ind x2 v = 0 := by
        unfold ind
        by_cases h : x2 < v.x
        · rw [if_pos h, if_pos (lt_of_le_of_lt hx h)]; rfl
        · rw [if_neg h, if_neg (by tauto)]; rfl
      rw [this]; simp
  rw [key _ a2 b2, key _ a1 b1]
  by_cases hb : 0 < β
  · rw [count_above hb a1 a2, count_above hb b1 b2, if_pos hb, if_pos hb]; ring
  · rw [count_below (not_lt.mp hb) a1 a2, count_below (not_lt.mp hb) b1 b2, if_neg hb, if_neg hb]

/-- A line that has a side on one side and both places on the other. -/
def Parted (x1 y1 x2 y2 : Rat) (e : Pt × Pt) : Prop := ∃ α β : ℝ, Side α β x1 y1 e.1 ∧ Side α β x1 y1 e.2 ∧ Side α β x2 y2 e.1 ∧ Side α β x2 y2 e.2

theorem walk_move {x1 y1 x2 y2 : Rat} (hx : x1 ≤ x2) : ∀ (l : List Pt) (a z : Pt), (∀ e ∈ walk a (l ++ [z]), Parted x1 y1 x2 y2 e) →
    wind (walk a (l ++ [z])) x1 y1 - wind (walk a (l ++ [z])) x2 y2 = (ind x1 z - ind x2 z) * lower x1 y1 x2 y2 z - (ind x1 a - ind x2 a) * lower x1 y1 x2 y2 a
  | [], a, z, h => by
    obtain ⟨α, β, a1, a2, b1, b2⟩ := h (a, z) (by simp [walk])
    have := count_move hx a1 a2 b1 b2
    simp only [walk, wind, List.nil_append, List.map_cons, List.map_nil, List.sum_cons, List.sum_nil, add_zero] at this ⊢
    exact this
  | b :: l, a, z, h => by
    obtain ⟨α, β, a1, a2, b1, b2⟩ := h (a, b) (by simp [walk])
    have h1 := count_move hx a1 a2 b1 b2
    have h2 := walk_move hx l b z fun e he => h e (by simp [walk, he])
    simp only [walk, wind, List.cons_append, List.map_cons, List.sum_cons] at h1 h2 ⊢
    linarith

/-- Between two places that are separated from every side of a polygon, its winding number does not change. -/
theorem wind_move {l : List Pt} {x1 y1 x2 y2 : Rat} (h : ∀ e ∈ edges l, Parted x1 y1 x2 y2 e) : wind (edges l) x1 y1 = wind (edges l) x2 y2 := by
  cases l with
  | nil => rfl
  | cons a l =>
    rcases le_total x1 x2 with hx | hx
    · have := walk_move hx l a a h
      rw [sub_self] at this
      exact sub_eq_zero.mp this
    · have := walk_move (x1 := x2) (y1 := y2) (x2 := x1) (y2 := y1) hx l a a fun e he => by
        obtain ⟨α, β, a1, a2, b1, b2⟩ := h e he
        exact ⟨α, β, b1, b2, a1, a2⟩
      rw [sub_self] at this
      exact (sub_eq_zero.mp this).symm

/-- A polygon does not wind around a place if a line separates the place from all vertices. -/
theorem wind_outside {l : List Pt} {α β : ℝ} {x y : Rat} (h : ∀ v ∈ l, Side α β x y v) : wind (edges l) x y = 0 := by
  cases l with
  | nil => rfl
  | cons a l =>
    show wind (walk a (l ++ [a])) x y = 0
    rw [walk_side l a a (h a (by simp)) (h a (by simp)) fun p hp => h p (by simp [hp]), count_self]

theorem wind_flat_walk {a b : Pt} (hx : b.x ≠ a.x) {x y : Rat} : ∀ (l : List Pt) (p z : Pt), turn a b p = 0 → turn a b z = 0 → (∀ q ∈ l, turn a b q = 0) →
    wind (walk p (l ++ [z])) x y = (ind x z - ind x p) * if (a.y : Rat) + (b.y - a.y) * (x - a.x) / (b.x - a.x) < y then 1 else 0 := by
  have hx' : (b.x : Rat) - a.x ≠ 0 := sub_ne_zero.mpr (by exact_mod_cast hx)
  have one : ∀ p q : Pt, turn a b p = 0 → turn a b q = 0 →
      count (p, q) x y = (ind x q - ind x p) * if (a.y : Rat) + (b.y - a.y) * (x - a.x) / (b.x - a.x) < y then 1 else 0 := by
    intro p q hp hq
    rw [count_ind]
    dsimp only
    by_cases c : (p.x : Rat) = q.x
    · have : ind x q - ind x p = 0 := by unfold ind; rw [c]; ring
      rw [this]; simp
    · have hpq : (q.x : Rat) - p.x ≠ 0 := sub_ne_zero.mpr fun h => c h.symm
      have hp' : ((b.x : Rat) - a.x) * (p.y - a.y) - (b.y - a.y) * (p.x - a.x) = 0 := by unfold turn at hp; exact_mod_cast hp
      have hq' : ((b.x : Rat) - a.x) * (q.y - a.y) - (b.y - a.y) * (q.x - a.x) = 0 := by unfold turn at hq; exact_mod_cast hq
      have : height (p, q) x = (a.y : Rat) + (b.y - a.y) * (x - a.x) / (b.x - a.x) := by
        unfold height
        dsimp only
        field_simp
        linear_combination (x - p.x) * (hq' - hp') + (q.x - p.x) * hp'
      rw [this]
  intro l
  induction l with
  | nil => intro p z hp hz _; simpa [walk, wind] using one p z hp hz
  | cons q l ih =>
    intro p z hp hz hl
    have h1 := one p q hp (hl q (by simp))
    have h2 := ih q z (hl q (by simp)) hz fun r hr => hl r (by simp [hr])
    simp only [walk, wind, List.cons_append, List.map_cons, List.sum_cons] at h1 h2 ⊢
    rw [h1, h2]; ring

/-- A polygon with all vertices on one line winds around no place. -/
theorem wind_flat {a b : Pt} (hab : a ≠ b) {l : List Pt} (h : ∀ q ∈ l, turn a b q = 0) (x y : Rat) : wind (edges l) x y = 0 := by
  cases l with
  | nil => rfl
  | cons p l =>
    show wind (walk p (l ++ [p])) x y = 0
    by_cases hx : b.x = a.x
    · have hy : b.y - a.y ≠ 0 := by
        intro c
        apply hab
        cases a; cases b
        simp only [Pt.mk.injEq] at *
        omega
      have hv : ∀ q ∈ p :: l, q.x = a.x := by
        intro q hq
        have := h q hq
        unfold turn at this
        rw [hx] at this
        have : (b.y - a.y) * (q.x - a.x) = 0 := by linarith
        have := (mul_eq_zero.mp this).resolve_left hy
        omega
      have : ∀ (l : List Pt) (p z : Pt), p.x = a.x → z.x = a.x → (∀ q ∈ l, q.x = a.x) → wind (walk p (l ++ [z])) x y = 0 := by
        intro l
        induction l with
        | nil => intro p z hp hz _; simp [walk, wind, count_ind, ind, hp, hz]
        | cons q l ih =>
          intro p z hp hz hl
          have h2 := ih q z (hl q (by simp)) hz fun r hr => hl r (by simp [hr])
          have h1 : count (p, q) x y = 0 := by rw [count_ind]; unfold ind; dsimp only; rw [hp, hl q (by simp)]; simp
          simp only [walk, wind, List.cons_append, List.map_cons, List.sum_cons] at h2 ⊢
          rw [h1, h2]; rfl
      exact this l p p (hv p (by simp)) (hv p (by simp)) fun q hq => hv q (by simp [hq])
    · rw [wind_flat_walk hx l p p (h p (by simp)) (h p (by simp)) fun q hq => h q (by simp [hq])]
      simp

/-! ### How far the emitted sides are -/

theorem walk_isChain {S : Pt → Pt → Prop} : ∀ (l : List Pt) (a : Pt), (a :: l).IsChain S → ∀ e ∈ walk a l, S e.1 e.2
  | [], a, _, e, he => by simp [walk] at he
  | b :: l, a, h, e, he => by
    obtain ⟨h1, h2⟩ := List.isChain_cons_cons.mp h
    rcases List.mem_cons.mp (show e ∈ (a, b) :: walk b l from he) with rfl | he
    · exact h1
    · exact walk_isChain l b h2 e he

/-- A point and the vector it is rounded from, seen in a direction. -/
theorem near_dot {z o : Pt} {u ν : Offset.Vec} {m : ℝ} (h : Offset.Near z o u) (hν : Offset.dot ν ν = m * m) :
    Offset.dot ν u - |m| * (3 / 4) ≤ Offset.dot ν (Offset.vec o z) := by
  obtain ⟨⟨h1, -⟩, h2, -⟩ := h
  push_cast at h1 h2
  rw [abs_le] at h1 h2
  unfold Offset.dot at *
  unfold Offset.vec
  dsimp only
  set e1 := (z.x : ℝ) - o.x - u.1 with he1
  set e2 := (z.y : ℝ) - o.y - u.2 with he2
  have q1 : e1 * e1 ≤ 1 / 4 := by nlinarith
  have q2 : e2 * e2 ≤ 1 / 4 := by nlinarith
  have cs : (ν.1 * e1 + ν.2 * e2) ^ 2 ≤ (|m| * (3 / 4)) ^ 2 := by
    have : (ν.1 * e1 + ν.2 * e2) ^ 2 ≤ (ν.1 * ν.1 + ν.2 * ν.2) * (e1 * e1 + e2 * e2) := by nlinarith [sq_nonneg (ν.1 * e2 - ν.2 * e1)]
    rw [hν] at this
    have hm : |m| * |m| = m * m := abs_mul_abs_self m
    have h0 := mul_self_nonneg m
    nlinarith
  have := abs_le_of_sq_le_sq cs (by positivity)
  have := (abs_le.mp this).1
  have e : ν.1 * ((z.x : ℝ) - o.x) + ν.2 * ((z.y : ℝ) - o.y) = ν.1 * u.1 + ν.2 * u.2 + (ν.1 * e1 + ν.2 * e2) := by rw [he1, he2]; ring
  rw [e]; linarith

/-- The points of an arc are at equal turns of at most `2 arc / |m|`. -/
theorem arc_points {m : ℝ} {arc : Int} (ha : 0 < arc) {a b c s h : Pt} (hbc : b ≠ c) {v w : Offset.Vec} {pts : List Pt}
    (hA : Offset.Arc m arc a b c v pts) (hs : Offset.Near s b v) (hw : Offset.Normal b c m w) (hh : Offset.Near h b w) :
    ∃ (δ : ℝ) (M : Nat), 0 ≤ δ ∧ M * δ ≤ Real.pi ∧ δ * |m| ≤ 2 * arc ∧ (s :: (pts ++ [h])).length = M + 1 ∧
      (∀ (j : Nat) (z : Pt), (s :: (pts ++ [h]))[j]? = some z → Offset.Near z b (Offset.rot ((if m < 0 then -1 else 1) * (j * δ)) v)) ∧
      Offset.Normal b c m (Offset.rot ((if m < 0 then -1 else 1) * (M * δ)) v) := by
  obtain ⟨θ, σ, N, t0, t1, -, rfl, hn, hN, hlen, hk⟩ := hA
  obtain rfl := normal_unique hbc hw hn
  have ha' : (0 : ℝ) < arc := by exact_mod_cast ha
  set M := max N 1 with hM
  have hM1 : 1 ≤ M := le_max_right _ _
  have hM0 : (0 : ℝ) < M := by exact_mod_cast hM1
  have hlen' : pts.length + 1 = M := by omega
  have hMθ : (M : ℝ) * (θ / M) = θ := by field_simp
  refine ⟨θ / M, M, div_nonneg t0 hM0.le, by rw [hMθ]; exact t1, ?_, by simp [hlen'], ?_, by rw [hMθ]; exact hw⟩
  · have h1 : |m| * θ / arc < N + 1 := by
      have := Nat.lt_floor_add_one (|m| * θ / arc)
      rwa [← hN] at this
    rw [div_lt_iff₀ ha'] at h1
    have h2 : (N : ℝ) + 1 ≤ 2 * M := by exact_mod_cast (by omega : N + 1 ≤ 2 * M)
    rw [div_mul_eq_mul_div, div_le_iff₀ hM0]
    nlinarith
  · intro j z hz
    cases j with
    | zero =>
      simp at hz
      subst hz
      simp only [Nat.cast_zero, zero_mul, mul_zero, rot_zero]
      exact hs
    | succ j =>
      rw [List.getElem?_cons_succ] at hz
      rcases Nat.lt_or_ge j pts.length with hj | hj
      · rw [List.getElem?_append_left hj] at hz
        have e : M = N := by omega
        have := hk j z hz
        rw [e, ← mul_div_assoc]
        exact this
      · rw [List.getElem?_append_right hj] at hz
        have : j = pts.length := by
          by_contra c'
          have : 1 ≤ j - pts.length := by omega
          rw [List.getElem?_eq_none (by simpa using this)] at hz
          cases hz
        subst this
        simp at hz
        subst hz
        rw [hlen', hMθ]
        exact hh

/-- All vertices of a polygon are on the inner side of the shifted side. -/
theorem normal_support {a b p : Pt} (hab : a ≠ b) {m : ℝ} {v : Offset.Vec} (hv : Offset.Normal a b m v) (h : 0 ≤ sgn m * turn a b p) :
    Offset.dot v (Offset.vec a p) ≤ 0 ∧ Offset.dot v (Offset.vec b p) ≤ 0 ∧ (m ≠ 0 → Offset.dot v (Offset.vec b p) = 0 → turn a b p = 0) := by
  have hd := dot_pos hab
  obtain ⟨e1, e2⟩ := normal_eq hv
  have sv := normal_sign hab hv
  have ht : ((turn a b p : Int) : ℝ) = (Offset.vec a b).1 * (Offset.vec a p).2 - (Offset.vec a b).2 * (Offset.vec a p).1 := by
    unfold turn Offset.vec; push_cast; ring
  have key : Offset.dot (Offset.vec a b) (Offset.vec a b) * Offset.dot v (Offset.vec a p) = Offset.cross (Offset.vec a b) v * (turn a b p : Int) := by
    rw [ht]
    have : Offset.dot v (Offset.vec a p) = v.1 * (Offset.vec a p).1 + v.2 * (Offset.vec a p).2 := rfl
    rw [this]
    linear_combination (Offset.vec a p).1 * e1 + (Offset.vec a p).2 * e2
  have eq : Offset.dot v (Offset.vec b p) = Offset.dot v (Offset.vec a p) := by
    have := hv.1
    unfold Offset.dot Offset.vec at *
    dsimp only at *
    linarith
  have le : Offset.dot v (Offset.vec a p) ≤ 0 := by
    have : Offset.cross (Offset.vec a b) v * (turn a b p : Int) ≤ 0 := by
      rcases sgn_cases m with ⟨s1, s2⟩ | ⟨s1, s2⟩
      · rw [s2] at h
        have : ((turn a b p : Int) : ℝ) ≤ 0 := by exact_mod_cast (by omega : turn a b p ≤ 0)
        exact mul_nonpos_of_nonneg_of_nonpos (sv.1 s1) this
      · rw [s2] at h
        have : (0 : ℝ) ≤ ((turn a b p : Int) : ℝ) := by exact_mod_cast (by omega : 0 ≤ turn a b p)
        exact mul_nonpos_of_nonpos_of_nonneg (sv.2 s1) this
    rw [← key] at this
    exact nonpos_of_mul_nonpos_right this hd
  refine ⟨le, eq ▸ le, fun hm h0 => ?_⟩
  rw [eq] at h0
  rw [h0, mul_zero] at key
  have cv : Offset.cross (Offset.vec a b) v ≠ 0 := by
    intro c
    rw [c] at e1 e2
    have v1 : v.1 = 0 := by simpa [hd.ne'] using e1
    have v2 : v.2 = 0 := by simpa [hd.ne'] using e2
    have := hv.2.1
    unfold Offset.dot at this
    rw [v1, v2] at this
    have : m * m = 0 := by linarith
    exact hm (mul_self_eq_zero.mp this)
  exact_mod_cast (mul_eq_zero.mp key.symm).resolve_left cv

/-- The polygon `P` is behind the line through `o` at a right angle to `ν`, and the side is at least `R` in front of it. -/
def InFront (m R : ℝ) (P : List Pt) (e : Pt × Pt) : Prop := ∃ (ν : Offset.Vec) (o : Pt), Offset.dot ν ν = m * m ∧ (∀ p ∈ P, Offset.dot ν (Offset.vec o p) ≤ 0) ∧
  |m| * R ≤ Offset.dot ν (Offset.vec o e.1) ∧ |m| * R ≤ Offset.dot ν (Offset.vec o e.2)

theorem rot_support (θ φ σ : ℝ) (hσ : σ = 1 ∨ σ = -1) (v : Offset.Vec) : Real.sin θ * (Offset.rot (σ * φ) v).1 = Real.sin (θ - φ) * v.1 + Real.sin φ * (Offset.rot (σ * θ) v).1 ∧
    Real.sin θ * (Offset.rot (σ * φ) v).2 = Real.sin (θ - φ) * v.2 + Real.sin φ * (Offset.rot (σ * θ) v).2 := by
  unfold Offset.rot
  dsimp only
  rw [Real.sin_sub]
  rcases hσ with rfl | rfl
  · simp only [one_mul]
    constructor <;> ring
  · simp only [neg_one_mul, Real.sin_neg, Real.cos_neg]
    constructor <;> ring

theorem gap_ahead {m : ℝ} {arc : Int} (ha : 0 < arc) (hm : m ≠ 0) {t : (Pt × Int) × (Pt × Int) × Pt} {g : Gap} (h : g.Of m arc t)
    (hab : t.1.1 ≠ t.2.1.1) (hbc : t.2.1.1 ≠ t.2.2) {P : List Pt} (h1 : ∀ p ∈ P, 0 ≤ sgn m * turn t.1.1 t.2.1.1 p) (h2 : ∀ p ∈ P, 0 ≤ sgn m * turn t.2.1.1 t.2.2 p)
    (ht : 0 ≤ sgn m * turn t.1.1 t.2.1.1 t.2.2) (hflat : ∃ p ∈ P, turn t.1.1 t.2.1.1 p ≠ 0) : ∀ e ∈ g.sides, InFront m (|m| - (arc : ℝ) ^ 2 / (2 * |m|) - 3 / 4) P e := by
  obtain ⟨ea, eb, ⟨v, n1, n2, n3, o1, o2⟩, w, n4, n5⟩ := h
  rw [← ea, ← eb] at hab h1 hflat ht
  rw [← eb] at hbc h2
  have hm0 : 0 < |m| := abs_pos.mpr hm
  have ha' : (0 : ℝ) < arc := by exact_mod_cast ha
  have hR : |m| * (|m| - (arc : ℝ) ^ 2 / (2 * |m|) - 3 / 4) = m * m - (arc : ℝ) ^ 2 / 2 - |m| * (3 / 4) := by
    rw [mul_sub, mul_sub, abs_mul_abs_self]; field_simp
  have hR' : |m| * (|m| - (arc : ℝ) ^ 2 / (2 * |m|) - 3 / 4) ≤ m * m - |m| * (3 / 4) := by rw [hR]; nlinarith [sq_nonneg (arc : ℝ)]
  have chain : (g.s' :: (g.pts ++ [g.h])).IsChain fun p q => InFront m (|m| - (arc : ℝ) ^ 2 / (2 * |m|) - 3 / 4) P (p, q) := by
    by_cases ho : Offset.Opens m g.a g.b t.2.2
    · obtain ⟨δ, M, d0, d1, d2, hlen, hp, hn⟩ := arc_points ha hbc (o1 ho) n3 n4 n5
      set σ : ℝ := if m < 0 then -1 else 1 with hσ
      have hσ' : σ = 1 ∨ σ = -1 := by rw [hσ]; split <;> simp
      rw [List.isChain_iff_getElem]
      intro j hj
      have p1 := hp j _ (List.getElem?_eq_getElem (by omega))
      have p2 := hp (j + 1) _ (List.getElem?_eq_getElem hj)
      have hjM : j + 1 ≤ M := by omega
      set φ : ℝ := (j + 1 / 2) * δ with hφ
      have hjM' : (j : ℝ) + 1 ≤ M := by exact_mod_cast hjM
      have f0 : 0 ≤ φ := by positivity
      have f1 : φ ≤ M * δ := by rw [hφ]; nlinarith
      have lt : M * δ < Real.pi := by
        refine lt_of_le_of_ne d1 fun c => ?_
        obtain ⟨p, hp, hne⟩ := hflat
        apply hne
        have s1 := normal_support hab n1 (h1 p hp)
        have s2 := normal_support hbc hn (h2 p hp)
        apply s1.2.2 hm
        refine le_antisymm s1.2.1 ?_
        have := s2.1
        rw [c] at this
        have e : Offset.rot (σ * Real.pi) v = (-v.1, -v.2) := by
          unfold Offset.rot
          rcases hσ' with h | h <;> rw [h] <;> simp
        rw [e] at this
        unfold Offset.dot at *
        dsimp only at this
        linarith
      have sin0 : 0 ≤ Real.sin φ := Real.sin_nonneg_of_nonneg_of_le_pi f0 (by linarith)
      have sin1 : 0 ≤ Real.sin (M * δ - φ) := Real.sin_nonneg_of_nonneg_of_le_pi (by linarith) (by linarith)
      have cosd : m * m - (arc : ℝ) ^ 2 / 2 ≤ Real.cos (δ / 2) * (m * m) := by
        have := Real.one_sub_sq_div_two_le_cos (x := δ / 2)
        have h3 : (δ * |m|) ^ 2 ≤ (2 * (arc : ℝ)) ^ 2 := pow_le_pow_left₀ (by positivity) d2 2
        have h4 : (δ * |m|) ^ 2 = δ ^ 2 * (m * m) := by rw [mul_pow, sq_abs]; ring
        have h5 := mul_le_mul_of_nonneg_right this (mul_self_nonneg m)
        nlinarith
      refine ⟨Offset.rot (σ * φ) v, g.b, by rw [rot_dot]; exact n1.2.1, fun p hp => ?_, ?_, ?_⟩
      · have s1 := (normal_support hab n1 (h1 p hp)).2.1
        have s2 := (normal_support hbc hn (h2 p hp)).1
        by_cases hz : M * δ = 0
        · have : φ = 0 := le_antisymm (hz ▸ f1) f0
          rw [this, mul_zero, rot_zero]; exact s1
        · have hpos : 0 < M * δ := lt_of_le_of_ne (by positivity) (Ne.symm hz)
          have sinp := Real.sin_pos_of_pos_of_lt_pi hpos lt
          have hr := rot_support (M * δ) φ σ hσ' v
          have : Real.sin (M * δ) * Offset.dot (Offset.rot (σ * φ) v) (Offset.vec g.b p) ≤ 0 := by
            have e : Real.sin (M * δ) * Offset.dot (Offset.rot (σ * φ) v) (Offset.vec g.b p) =
                Real.sin (M * δ - φ) * Offset.dot v (Offset.vec g.b p) + Real.sin φ * Offset.dot (Offset.rot (σ * (M * δ)) v) (Offset.vec g.b p) := by
              unfold Offset.dot
              linear_combination (Offset.vec g.b p).1 * hr.1 + (Offset.vec g.b p).2 * hr.2
            rw [e]
            have := mul_nonpos_of_nonneg_of_nonpos sin1 s1
            have := mul_nonpos_of_nonneg_of_nonpos sin0 s2
            linarith
          exact nonpos_of_mul_nonpos_right this sinp
      · have := near_dot p1 (ν := Offset.rot (σ * φ) v) (m := m) (by rw [rot_dot]; exact n1.2.1)
        have e : Offset.dot (Offset.rot (σ * φ) v) (Offset.rot (σ * (j * δ)) v) = Real.cos (δ / 2) * (m * m) := by
          have hr := (rot_rel (σ * φ) (-(σ * (δ / 2))) v).1
          have hc : Real.cos (-(σ * (δ / 2))) = Real.cos (δ / 2) := by rcases hσ' with h | h <;> rw [h] <;> simp
          have ha : σ * φ + -(σ * (δ / 2)) = σ * (j * δ) := by rw [hφ]; ring
          rw [hc, ha, n1.2.1] at hr
          exact hr
        rw [e] at this
        rw [hR]; dsimp only; linarith
      · have := near_dot p2 (ν := Offset.rot (σ * φ) v) (m := m) (by rw [rot_dot]; exact n1.2.1)
        have e : Offset.dot (Offset.rot (σ * φ) v) (Offset.rot (σ * ((j + 1 : Nat) * δ)) v) = Real.cos (δ / 2) * (m * m) := by
          have hr := (rot_rel (σ * φ) (σ * (δ / 2)) v).1
          have hc : Real.cos (σ * (δ / 2)) = Real.cos (δ / 2) := by rcases hσ' with h | h <;> rw [h] <;> simp
          have ha : σ * φ + σ * (δ / 2) = σ * ((j + 1 : Nat) * δ) := by rw [hφ]; push_cast; ring
          rw [hc, ha, n1.2.1] at hr
          exact hr
        rw [e] at this
        rw [hR]; dsimp only; linarith
    · rw [o2 ho]
      refine List.isChain_cons_cons.mpr ⟨?_, by simp⟩
      have hz : turn g.a g.b t.2.2 = 0 := by
        by_contra c
        apply ho
        left
        have e : Offset.cross (Offset.vec g.a g.b) (Offset.vec g.b t.2.2) = ((turn g.a g.b t.2.2 : Int) : ℝ) := by
          unfold Offset.cross Offset.vec turn; push_cast; ring
        rw [e]
        rcases sgn_cases m with ⟨s1, s2⟩ | ⟨s1, s2⟩
        · rw [s2] at ht
          have : turn g.a g.b t.2.2 < 0 := by omega
          have : ((turn g.a g.b t.2.2 : Int) : ℝ) < 0 := by exact_mod_cast this
          exact mul_pos_of_neg_of_neg s1 this
        · rw [s2] at ht
          have : 0 < turn g.a g.b t.2.2 := by omega
          have : (0 : ℝ) < ((turn g.a g.b t.2.2 : Int) : ℝ) := by exact_mod_cast this
          exact mul_pos (lt_of_le_of_ne s1 hm.symm) this
      rcases normal_straight hab hbc n1 n4 hz with rfl | rfl
      · refine ⟨w, g.b, n1.2.1, fun p hp => (normal_support hab n1 (h1 p hp)).2.1, ?_, ?_⟩
        · have := near_dot n3 n1.2.1; rw [n1.2.1] at this; dsimp only; linarith
        · have := near_dot n5 n1.2.1; rw [n1.2.1] at this; dsimp only; linarith
      · exfalso
        obtain ⟨p, hp, hne⟩ := hflat
        apply hne
        have s1 := normal_support hab n1 (h1 p hp)
        have s2 := normal_support hbc n4 (h2 p hp)
        apply s1.2.2 hm
        refine le_antisymm s1.2.1 ?_
        have := s2.1
        unfold Offset.dot at *
        dsimp only at this
        linarith
  intro e he
  rcases List.mem_cons.mp (show e ∈ (g.s, g.s') :: walk g.s' (g.pts ++ [g.h]) from he) with rfl | he
  · refine ⟨v, g.a, n1.2.1, fun p hp => (normal_support hab n1 (h1 p hp)).1, ?_, ?_⟩
    · have := near_dot n2 n1.2.1; rw [n1.2.1] at this; dsimp only; linarith
    · have := near_dot n3 n1.2.1
      rw [n1.2.1] at this
      have e : Offset.dot v (Offset.vec g.a g.s') = Offset.dot v (Offset.vec g.b g.s') := by
        have := n1.1
        unfold Offset.dot Offset.vec at *
        dsimp only at *
        linarith
      dsimp only; rw [e]; linarith
  · exact walk_isChain _ _ chain e he

end PolyOps.Exec
