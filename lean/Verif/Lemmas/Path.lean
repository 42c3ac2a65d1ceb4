import Verif.Lemmas.Winding
import Verif.Lemmas.PlanarEnd

/-! Winding numbers along straight paths. -/
namespace PolyOps.Exec
open PolyOps PolyOps.Sweep PolyOps.Region PolyOps.Planarity

/-- At each place as many edges begin as end. -/
def Bal (E : List (Pt × Pt)) : Prop := ∀ φ : Pt → Int, (E.map fun e => φ e.1 - φ e.2).sum = 0

/-- A place of the plane, or a direction. -/
abbrev V := Rat × Rat

/-- The place on the way from `z` to `w`. -/
def mix (z w : V) (t : Rat) : V := (z.1 + t * (w.1 - z.1), z.2 + t * (w.2 - z.2))

/-- The straight path meets no edge. -/
def Clear (E : List (Pt × Pt)) (z w : V) : Prop := ∀ t : Rat, 0 ≤ t → t ≤ 1 → Off E (mix z w t).1 (mix z w t).2

/-- Below the path. -/
def under (z w : V) (v : Pt) : Int :=
  if z.1 < v.x ∧ (v.x : Rat) ≤ w.1 ∧ (v.y : Rat) < z.2 + ((v.x : Rat) - z.1) / (w.1 - z.1) * (w.2 - z.2) then 1 else 0

theorem onseg_height {e : Pt × Pt} (h : (e.1.x : Rat) < e.2.x) {x : Rat} (h1 : (e.1.x : Rat) ≤ x) (h2 : x ≤ e.2.x) : OnSegQ x (height e x) e.1 e.2 := by
  have hp : (0 : Rat) < (e.2.x : Rat) - e.1.x := by linarith
  refine ⟨(x - e.1.x) / ((e.2.x : Rat) - e.1.x), div_nonneg (by linarith) hp.le, (div_le_one hp).mpr (by linarith), ?_, ?_⟩
  · rw [div_mul_cancel₀ _ hp.ne']; ring
  · unfold height; ring

/-- An affine function without zero between two numbers has the same sign at both. -/
theorem affine_sign {a b x y : Rat} (h : ∀ z, min x y ≤ z → z ≤ max x y → a + b * z ≠ 0) (hx : a + b * x < 0) : a + b * y < 0 := by
  by_contra hy
  rw [not_lt] at hy
  have hb : b * (y - x) > 0 := by nlinarith
  have hb0 : b ≠ 0 := by rintro rfl; simp at hb
  apply h (-a / b)
  · rcases lt_or_gt_of_ne hb0 with c | c
    · have : y < x := by nlinarith
      rw [min_eq_right this.le, le_div_iff_of_neg c]; linarith
    · have : x < y := by nlinarith
      rw [min_eq_left this.le, le_div_iff₀ c]; linarith
  · rcases lt_or_gt_of_ne hb0 with c | c
    · have : y < x := by nlinarith
      rw [max_eq_left this.le, div_le_iff_of_neg c]; linarith
    · have : x < y := by nlinarith
      rw [max_eq_right this.le, div_le_iff₀ c]; linarith
  · field_simp; ring

/-- The counts of an edge at both ends of a path and of its ends, if it is on one side of the path. -/
theorem strip {x1 x2 u v : Rat} (hx : x1 < x2) (he : u < v) (N : Rat → Prop) [DecidablePred N]
    (sg : ∀ x x', x1 ≤ x → x ≤ x2 → u ≤ x → x ≤ v → x1 ≤ x' → x' ≤ x2 → u ≤ x' → x' ≤ v → N x → N x') :
    ((if u ≤ x2 ∧ x2 < v ∧ N x2 then 1 else if v ≤ x2 ∧ x2 < u ∧ N x2 then -1 else 0) -
      (if u ≤ x1 ∧ x1 < v ∧ N x1 then 1 else if v ≤ x1 ∧ x1 < u ∧ N x1 then -1 else 0) : Int) =
    (if x1 < u ∧ u ≤ x2 ∧ N u then 1 else 0) - (if x1 < v ∧ v ≤ x2 ∧ N v then 1 else 0) := by
  rw [if_neg (fun h => by linarith [h.1, h.2.1] : ¬ (v ≤ x1 ∧ x1 < u ∧ N x1)), if_neg (fun h => by linarith [h.1, h.2.1] : ¬ (v ≤ x2 ∧ x2 < u ∧ N x2))]
  by_cases c1 : u ≤ x1
  · rw [if_neg (fun h => by linarith [h.1] : ¬ (x1 < u ∧ u ≤ x2 ∧ N u))]
    by_cases c2 : x1 < v
    · by_cases c3 : x2 < v
      · rw [if_neg (fun h => by linarith [h.2.1] : ¬ (x1 < v ∧ v ≤ x2 ∧ N v))]
        by_cases c4 : N x1
        · rw [if_pos ⟨by linarith, c3, sg x1 x2 le_rfl hx.le c1 c2.le hx.le le_rfl (by linarith) c3.le c4⟩, if_pos ⟨c1, c2, c4⟩]; rfl
        · rw [if_neg (fun h => c4 (sg x2 x1 hx.le le_rfl (by linarith) c3.le le_rfl hx.le c1 c2.le h.2.2)), if_neg (fun h => c4 h.2.2)]
      · rw [not_lt] at c3
        rw [if_neg (fun h => by linarith [h.2.1] : ¬ (u ≤ x2 ∧ x2 < v ∧ N x2))]
        by_cases c4 : N x1
        · rw [if_pos ⟨c1, c2, c4⟩, if_pos ⟨c2, c3, sg x1 v le_rfl hx.le c1 c2.le c2.le c3 he.le le_rfl c4⟩]
        · rw [if_neg (fun h => c4 h.2.2), if_neg (fun h => c4 (sg v x1 c2.le c3 he.le le_rfl le_rfl hx.le c1 c2.le h.2.2))]
    · rw [not_lt] at c2
      rw [if_neg (fun h => by linarith [h.2.1] : ¬ (u ≤ x2 ∧ x2 < v ∧ N x2)), if_neg (fun h => by linarith [h.2.1] : ¬ (u ≤ x1 ∧ x1 < v ∧ N x1)),
        if_neg (fun h => by linarith [h.1] : ¬ (x1 < v ∧ v ≤ x2 ∧ N v))]
  · rw [not_le] at c1
    rw [if_neg (fun h => by linarith [h.1] : ¬ (u ≤ x1 ∧ x1 < v ∧ N x1))]
    by_cases c2 : u ≤ x2
    · by_cases c3 : x2 < v
      · rw [if_neg (fun h => by linarith [h.2.1] : ¬ (x1 < v ∧ v ≤ x2 ∧ N v))]
        by_cases c4 : N x2
        · rw [if_pos ⟨c2, c3, c4⟩, if_pos ⟨c1, c2, sg x2 u hx.le le_rfl c2 c3.le c1.le c2 le_rfl he.le c4⟩]
        · rw [if_neg (fun h => c4 h.2.2), if_neg (fun h => c4 (sg u x2 c1.le c2 le_rfl he.le hx.le le_rfl c2 c3.le h.2.2))]
      · rw [not_lt] at c3
        rw [if_neg (fun h => by linarith [h.2.1] : ¬ (u ≤ x2 ∧ x2 < v ∧ N x2))]
        by_cases c4 : N u
        · rw [if_pos ⟨c1, c2, c4⟩, if_pos ⟨by linarith, c3, sg u v c1.le c2 le_rfl he.le (by linarith) c3 he.le le_rfl c4⟩]; rfl
        · rw [if_neg (fun h => c4 h.2.2), if_neg (fun h => c4 (sg v u (by linarith) c3 he.le le_rfl c1.le c2 le_rfl he.le h.2.2))]
    · rw [not_le] at c2
      rw [if_neg (fun h => by linarith [h.1] : ¬ (u ≤ x2 ∧ x2 < v ∧ N x2)), if_neg (fun h => by linarith [h.2.1] : ¬ (x1 < u ∧ u ≤ x2 ∧ N u)),
        if_neg (fun h => by linarith [h.2.1] : ¬ (x1 < v ∧ v ≤ x2 ∧ N v))]

/-- What crossing the strip between two verticals does to one edge that does not meet the path, if it goes to the right. -/
theorem count_path_right {e : Pt × Pt} (he : (e.1.x : Rat) < e.2.x) {z w : V} (hx : z.1 < w.1) (h : Clear [e] z w) :
    count e w.1 w.2 - count e z.1 z.2 = under z w e.1 - under z w e.2 := by
  obtain ⟨x1, y1⟩ := z
  obtain ⟨x2, y2⟩ := w
  simp only at hx
  have hp : (0 : Rat) < (e.2.x : Rat) - e.1.x := by linarith
  have hq : (0 : Rat) < x2 - x1 := by linarith
  obtain ⟨s, hs⟩ : ∃ s, s = ((e.2.y : Rat) - e.1.y) / ((e.2.x : Rat) - e.1.x) := ⟨_, rfl⟩
  obtain ⟨r, hr⟩ : ∃ r, r = (y2 - y1) / (x2 - x1) := ⟨_, rfl⟩
  have hh : ∀ x, height e x = e.1.y + (x - e.1.x) * s := by intro x; unfold height; rw [hs]; ring
  have hpth : ∀ x, y1 + (x - x1) / (x2 - x1) * (y2 - y1) = y1 + (x - x1) * r := by intro x; rw [hr]; ring
  have e2y : (e.2.y : Rat) = e.1.y + ((e.2.x : Rat) - e.1.x) * s := by rw [hs]; field_simp; ring
  have y2e : y2 = y1 + (x2 - x1) * r := by rw [hr]; field_simp; ring
  -- no zero of the difference where both are defined
  have nz : ∀ x, x1 ≤ x → x ≤ x2 → (e.1.x : Rat) ≤ x → x ≤ e.2.x → (e.1.y - e.1.x * s - y1 + x1 * r) + (s - r) * x ≠ 0 := by
    intro x h1 h2 h3 h4 h0
    have := h ((x - x1) / (x2 - x1)) (div_nonneg (by linarith) hq.le) ((div_le_one hq).mpr (by linarith)) e (List.mem_singleton.mpr rfl)
    apply this
    have g1 : (mix (x1, y1) (x2, y2) ((x - x1) / (x2 - x1))).1 = x := by
      show x1 + (x - x1) / (x2 - x1) * (x2 - x1) = x
      rw [div_mul_cancel₀ _ hq.ne']; ring
    have g2 : (mix (x1, y1) (x2, y2) ((x - x1) / (x2 - x1))).2 = height e x := by
      show y1 + (x - x1) / (x2 - x1) * (y2 - y1) = height e x
      rw [hpth, hh]; linarith
    rw [g1, g2]
    exact onseg_height he h3 h4
  have sg : ∀ x x', x1 ≤ x → x ≤ x2 → (e.1.x : Rat) ≤ x → x ≤ e.2.x → x1 ≤ x' → x' ≤ x2 → (e.1.x : Rat) ≤ x' → x' ≤ e.2.x →
      (e.1.y - e.1.x * s - y1 + x1 * r) + (s - r) * x < 0 → (e.1.y - e.1.x * s - y1 + x1 * r) + (s - r) * x' < 0 := by
    intro x x' a1 a2 a3 a4 b1 b2 b3 b4
    refine affine_sign fun z c1 c2 => nz z ?_ ?_ ?_ ?_
    · exact le_trans (le_min a1 b1) c1
    · exact le_trans c2 (max_le a2 b2)
    · exact le_trans (le_min a3 b3) c1
    · exact le_trans c2 (max_le a4 b4)
  -- the four tests as tests of the difference
  have t1 : ∀ x y, y = y1 + (x - x1) * r → (height e x < y ↔ (e.1.y - e.1.x * s - y1 + x1 * r) + (s - r) * x < 0) := by
    intro x y hy; rw [hh, hy]; constructor <;> intro h <;> linarith
  have u1 : (e.1.y : Rat) < y1 + ((e.1.x : Rat) - x1) * r ↔ (e.1.y - e.1.x * s - y1 + x1 * r) + (s - r) * e.1.x < 0 := by
    constructor <;> intro h <;> linarith
  have u2 : (e.2.y : Rat) < y1 + ((e.2.x : Rat) - x1) * r ↔ (e.1.y - e.1.x * s - y1 + x1 * r) + (s - r) * e.2.x < 0 := by
    rw [e2y]; constructor <;> intro h <;> linarith
  unfold count under
  dsimp only
  rw [hpth, hpth]
  simp only [u1, u2, t1 x1 y1 (by ring), t1 x2 y2 y2e]
  exact strip hx he (fun x => (e.1.y - e.1.x * s - y1 + x1 * r) + (s - r) * x < 0) sg

theorem count_vert {e : Pt × Pt} (he : e.1.x = e.2.x) (x y : Rat) : count e x y = 0 := by
  unfold count
  rw [he, if_neg (fun h => absurd (h.1.trans_lt h.2.1) (lt_irrefl _)), if_neg (fun h => absurd (h.1.trans_lt h.2.1) (lt_irrefl _))]

theorem clear_swap {e : Pt × Pt} {z w : V} (h : Clear [e] z w) : Clear [(e.2, e.1)] z w := by
  intro t t0 t1 f hf hc
  rw [List.mem_singleton.mp hf] at hc
  exact h t t0 t1 e (List.mem_singleton.mpr rfl) (onq_swap hc)

theorem count_path {e : Pt × Pt} {z w : V} (hx : z.1 < w.1) (h : Clear [e] z w) :
    count e w.1 w.2 - count e z.1 z.2 = under z w e.1 - under z w e.2 := by
  rcases lt_trichotomy e.1.x e.2.x with c | c | c
  · exact count_path_right (by exact_mod_cast c) hx h
  · rw [count_vert c, count_vert c]
    obtain ⟨x1, y1⟩ := z
    obtain ⟨x2, y2⟩ := w
    simp only at hx
    have hq : (0 : Rat) < x2 - x1 := by linarith
    have key : ∀ a b : Pt, e = (a, b) ∨ e = (b, a) → x1 < (a.x : Rat) → (a.x : Rat) ≤ x2 → (a.y : Rat) < y1 + ((a.x : Rat) - x1) / (x2 - x1) * (y2 - y1) →
        ¬ (b.y : Rat) < y1 + ((a.x : Rat) - x1) / (x2 - x1) * (y2 - y1) → False := by
      intro a b hab h1 h2 h3 h4
      have hb : b.x = a.x := by rcases hab with rfl | rfl <;> simp_all
      rw [not_lt] at h4
      obtain ⟨Y, hY⟩ : ∃ Y, Y = y1 + ((a.x : Rat) - x1) / (x2 - x1) * (y2 - y1) := ⟨_, rfl⟩
      rw [← hY] at h3 h4
      refine h (((a.x : Rat) - x1) / (x2 - x1)) (div_nonneg (by linarith) hq.le) ((div_le_one hq).mpr (by linarith)) e (List.mem_singleton.mpr rfl) ?_
      have g1 : (mix (x1, y1) (x2, y2) (((a.x : Rat) - x1) / (x2 - x1))).1 = a.x := by
        show x1 + ((a.x : Rat) - x1) / (x2 - x1) * (x2 - x1) = a.x
        rw [div_mul_cancel₀ _ hq.ne']; ring
      have g2 : (mix (x1, y1) (x2, y2) (((a.x : Rat) - x1) / (x2 - x1))).2 = Y := hY.symm
      rw [g1, g2]
      have on : OnSegQ (a.x : Rat) Y a b := by
        have hpos : (0 : Rat) < (b.y : Rat) - a.y := by linarith
        refine ⟨(Y - a.y) / ((b.y : Rat) - a.y), div_nonneg (by linarith) hpos.le, (div_le_one hpos).mpr (by linarith), ?_, ?_⟩
        · rw [hb]; ring
        · rw [div_mul_cancel₀ _ hpos.ne']; ring
      rcases hab with rfl | rfl
      · exact on
      · exact onq_swap on
    unfold under
    dsimp only
    obtain ⟨a, b⟩ := e
    simp only at c
    rw [← c]
    by_cases c1 : x1 < (a.x : Rat) ∧ (a.x : Rat) ≤ x2
    · by_cases c2 : (a.y : Rat) < y1 + ((a.x : Rat) - x1) / (x2 - x1) * (y2 - y1)
      · by_cases c3 : (b.y : Rat) < y1 + ((a.x : Rat) - x1) / (x2 - x1) * (y2 - y1)
        · rw [if_pos ⟨c1.1, c1.2, c2⟩, if_pos ⟨c1.1, c1.2, c3⟩]; simp
        · exact (key a b (Or.inl rfl) c1.1 c1.2 c2 c3).elim
      · by_cases c3 : (b.y : Rat) < y1 + ((a.x : Rat) - x1) / (x2 - x1) * (y2 - y1)
        · exact (key b a (Or.inr rfl) (c ▸ c1.1) (c ▸ c1.2) (c ▸ c3) (c ▸ c2)).elim
        · rw [if_neg (fun h => c2 h.2.2), if_neg (fun h => c3 h.2.2)]
    · rw [if_neg (fun h => c1 ⟨h.1, h.2.1⟩), if_neg (fun h => c1 ⟨h.1, h.2.1⟩)]
  · have := count_path_right (e := (e.2, e.1)) (by exact_mod_cast c) hx (clear_swap h)
    rw [count_swap e.1 e.2, count_swap e.1 e.2] at this
    have e0 : (e.1, e.2) = e := rfl
    rw [e0] at this
    dsimp only at this
    linarith

theorem Clear.mono {E F : List (Pt × Pt)} {z w : V} (h : Clear E z w) (hs : ∀ e ∈ F, e ∈ E) : Clear F z w :=
  fun t t0 t1 e he => h t t0 t1 e (hs e he)

theorem Clear.symm {E : List (Pt × Pt)} {z w : V} (h : Clear E z w) : Clear E w z := by
  intro t t0 t1
  have := h (1 - t) (by linarith) (by linarith)
  have e1 : (mix z w (1 - t)).1 = (mix w z t).1 := by unfold mix; ring
  have e2 : (mix z w (1 - t)).2 = (mix w z t).2 := by unfold mix; ring
  rwa [e1, e2] at this

theorem Clear.left {E : List (Pt × Pt)} {z w : V} (h : Clear E z w) : Off E z.1 z.2 := by
  have := h 0 le_rfl zero_le_one
  unfold mix at this; simpa using this

/-- The change along a path to the right, of any edges that do not meet it. -/
theorem wind_path {E : List (Pt × Pt)} {z w : V} (hx : z.1 < w.1) (h : Clear E z w) :
    wind E w.1 w.2 - wind E z.1 z.2 = (E.map fun e => under z w e.1 - under z w e.2).sum := by
  induction E with
  | nil => rfl
  | cons e E ih =>
    have := ih (h.mono fun f hf => List.mem_cons_of_mem _ hf)
    have c := count_path hx (h.mono (F := [e]) fun f hf => by rw [List.mem_singleton.mp hf]; exact List.mem_cons_self ..)
    show (count e w.1 w.2 + wind E w.1 w.2) - (count e z.1 z.2 + wind E z.1 z.2) = _
    rw [List.map_cons, List.sum_cons, ← this, ← c]; ring

/-- Along a vertical path no edge that does not meet it changes its count. -/
theorem count_up {e : Pt × Pt} {x y1 y2 : Rat} (h : Clear [e] (x, y1) (x, y2)) : count e x y1 = count e x y2 := by
  have key : ∀ e : Pt × Pt, (e.1.x : Rat) ≤ x → x < e.2.x → ∀ y1 y2 : Rat, Clear [e] (x, y1) (x, y2) → height e x < y1 → height e x < y2 := by
    intro e h1 h2 y1 y2 h h3
    by_contra h4
    rw [not_lt] at h4
    have hp : (0 : Rat) < y1 - y2 := by linarith
    refine h ((y1 - height e x) / (y1 - y2)) (div_nonneg (by linarith) hp.le) ((div_le_one hp).mpr (by linarith)) e (List.mem_singleton.mpr rfl) ?_
    have g1 : (mix (x, y1) (x, y2) ((y1 - height e x) / (y1 - y2))).1 = x := by unfold mix; ring
    have g2 : (mix (x, y1) (x, y2) ((y1 - height e x) / (y1 - y2))).2 = height e x := by
      show y1 + (y1 - height e x) / (y1 - y2) * (y2 - y1) = height e x
      field_simp; ring
    rw [g1, g2]
    exact onseg_height (by linarith) h1 h2.le
  have e0 : ∀ x, x < (e.1.x : Rat) → (e.2.x : Rat) ≤ x → height (e.2, e.1) x = height e x := fun x h1 h2 =>
    height_swap (a := e.1) (b := e.2) (by intro c; rw [c] at h1; linarith) x
  have i1 : ∀ y1 y2 : Rat, Clear [e] (x, y1) (x, y2) → ((e.1.x : Rat) ≤ x ∧ x < e.2.x ∧ height e x < y1) → ((e.1.x : Rat) ≤ x ∧ x < e.2.x ∧ height e x < y2) :=
    fun y1 y2 h c => ⟨c.1, c.2.1, key e c.1 c.2.1 y1 y2 h c.2.2⟩
  have i2 : ∀ y1 y2 : Rat, Clear [e] (x, y1) (x, y2) → ((e.2.x : Rat) ≤ x ∧ x < e.1.x ∧ height e x < y1) → ((e.2.x : Rat) ≤ x ∧ x < e.1.x ∧ height e x < y2) := by
    intro y1 y2 h c
    have := key (e.2, e.1) c.1 c.2.1 y1 y2 (clear_swap h)
    rw [e0 x c.2.1 c.1] at this
    exact ⟨c.1, c.2.1, this c.2.2⟩
  have k1 : ((e.1.x : Rat) ≤ x ∧ x < e.2.x ∧ height e x < y1) = ((e.1.x : Rat) ≤ x ∧ x < e.2.x ∧ height e x < y2) :=
    propext ⟨i1 y1 y2 h, i1 y2 y1 h.symm⟩
  have k2 : ((e.2.x : Rat) ≤ x ∧ x < e.1.x ∧ height e x < y1) = ((e.2.x : Rat) ≤ x ∧ x < e.1.x ∧ height e x < y2) :=
    propext ⟨i2 y1 y2 h, i2 y2 y1 h.symm⟩
  unfold count
  simp only [k1, k2]

theorem wind_up {E : List (Pt × Pt)} {x y1 y2 : Rat} (h : Clear E (x, y1) (x, y2)) : wind E x y1 = wind E x y2 := by
  unfold wind
  congr 1
  apply List.map_congr_left
  intro e he
  exact count_up (h.mono fun f hf => by rw [List.mem_singleton.mp hf]; exact he)

/-- The winding number does not change along a straight path that meets no edge. -/
theorem wind_clear {E : List (Pt × Pt)} (hb : Bal E) {z w : V} (h : Clear E z w) : wind E z.1 z.2 = wind E w.1 w.2 := by
  rcases lt_trichotomy z.1 w.1 with c | c | c
  · have := wind_path c h; rw [hb] at this; linarith
  · obtain ⟨x, y⟩ := z; obtain ⟨x', y'⟩ := w; simp only at c; subst c; exact wind_up h
  · have := wind_path c h.symm; rw [hb] at this; linarith

theorem walk_bal : ∀ (l : List Pt) (a b : Pt) (φ : Pt → Int), ((walk a (l ++ [b])).map fun e => φ e.1 - φ e.2).sum = φ a - φ b
  | [], a, b, φ => by simp [walk]
  | c :: l, a, b, φ => by
    show ((φ a - φ c) + ((walk c (l ++ [b])).map fun e => φ e.1 - φ e.2).sum) = _
    rw [walk_bal l c b φ]; ring

theorem edges_bal : ∀ l : List Pt, Bal (edges l)
  | [], φ => rfl
  | a :: l, φ => by
    show ((walk a (l ++ [a])).map fun e => φ e.1 - φ e.2).sum = 0
    rw [walk_bal]; ring

end PolyOps.Exec
