import Verif.Lemmas.Area
import Verif.Lemmas.Path

/-! Lemmas for C73: winding numbers after a linear map of the plane. -/
namespace PolyOps.Exec
open PolyOps

/-- A linear map with integer coefficients: `x' = a x + b y`, `y' = c x + d y`. -/
structure Lin where
  a : Int
  b : Int
  c : Int
  d : Int

namespace Lin

def det (T : Lin) : Int := T.a * T.d - T.b * T.c

def pt (T : Lin) (p : Pt) : Pt := ⟨T.a * p.x + T.b * p.y, T.c * p.x + T.d * p.y⟩

def edge (T : Lin) (e : Pt × Pt) : Pt × Pt := (T.pt e.1, T.pt e.2)

/-- The coordinates of the image of a place. -/
def X (T : Lin) (x y : ℚ) : ℚ := T.a * x + T.b * y
def Y (T : Lin) (x y : ℚ) : ℚ := T.c * x + T.d * y

def comp (S T : Lin) : Lin := ⟨S.a * T.a + S.b * T.c, S.a * T.b + S.b * T.d, S.c * T.a + S.d * T.c, S.c * T.b + S.d * T.d⟩

theorem pt_comp (S T : Lin) (p : Pt) : (S.comp T).pt p = S.pt (T.pt p) := by
  unfold pt comp
  simp only [Pt.mk.injEq]
  constructor <;> ring

theorem edge_comp (S T : Lin) (e : Pt × Pt) : (S.comp T).edge e = S.edge (T.edge e) := by unfold edge; simp only [pt_comp]

theorem det_comp (S T : Lin) : (S.comp T).det = S.det * T.det := by unfold det comp; ring

theorem X_comp (S T : Lin) (x y : ℚ) : (S.comp T).X x y = S.X (T.X x y) (T.Y x y) := by unfold X Y comp; push_cast; ring
theorem Y_comp (S T : Lin) (x y : ℚ) : (S.comp T).Y x y = S.Y (T.X x y) (T.Y x y) := by unfold X Y comp; push_cast; ring

theorem on_iff {T : Lin} (h : T.det ≠ 0) {x y : ℚ} {p q : Pt} : OnSegQ (T.X x y) (T.Y x y) (T.pt p) (T.pt q) ↔ OnSegQ x y p q := by
  have hd : (T.a : ℚ) * T.d - T.b * T.c ≠ 0 := by unfold det at h; exact_mod_cast h
  constructor
  · rintro ⟨t, t0, t1, hx, hy⟩
    unfold X pt at hx
    unfold Y pt at hy
    push_cast at hx hy
    refine ⟨t, t0, t1, ?_, ?_⟩
    · refine mul_left_cancel₀ hd ?_
      linear_combination (T.d : ℚ) * hx - T.b * hy
    · refine mul_left_cancel₀ hd ?_
      linear_combination (T.a : ℚ) * hy - T.c * hx
  · rintro ⟨t, t0, t1, hx, hy⟩
    refine ⟨t, t0, t1, ?_, ?_⟩
    · unfold X pt; push_cast; rw [hx, hy]; ring
    · unfold Y pt; push_cast; rw [hx, hy]; ring

theorem off_iff {T : Lin} (h : T.det ≠ 0) {E : List (Pt × Pt)} {x y : ℚ} : Off (E.map T.edge) (T.X x y) (T.Y x y) ↔ Off E x y := by
  constructor
  · intro k e he hx
    exact k _ (List.mem_map.mpr ⟨e, he, rfl⟩) ((on_iff h).mpr hx)
  · intro k e he hx
    obtain ⟨f, hf, rfl⟩ := List.mem_map.mp he
    exact k f hf ((on_iff h).mp hx)

theorem _root_.PolyOps.Exec.Bal.lin {E : List (Pt × Pt)} (h : Bal E) (T : Lin) : Bal (E.map T.edge) := by
  intro φ
  rw [List.map_map]
  exact h fun p => φ (T.pt p)

/-- Winding numbers keep or change their sign with the map. -/
def Good (T : Lin) : Prop := ∀ E x y, Bal E → Off E x y → wind (E.map T.edge) (T.X x y) (T.Y x y) = T.det.sign * wind E x y

theorem Good.comp {S T : Lin} (hS : S.Good) (hT : T.Good) (h : T.det ≠ 0) : (S.comp T).Good := by
  intro E x y hb ho
  have e : E.map (S.comp T).edge = (E.map T.edge).map S.edge := by
    rw [List.map_map]; exact List.map_congr_left fun e _ => edge_comp S T e
  rw [e, X_comp, Y_comp, hS _ _ _ (hb.lin T) ((off_iff h).mpr ho), hT E x y hb ho, det_comp, Int.sign_mul]
  ring

theorem _root_.PolyOps.Exec.Bal.cr {E : List (Pt × Pt)} (h : Bal E) (x : ℚ) : (E.map fun e => crDir e x).sum = 0 := by
  have := h fun p => - (if x < p.x then 1 else 0)
  rw [← this]
  congr 1
  refine List.map_congr_left fun e _ => ?_
  unfold crDir
  omega

/-- An edge that crosses the vertical does not do so at a place it is not on. -/
theorem cr_height {e : Pt × Pt} {x y : ℚ} (ho : ¬ OnSegQ x y e.1 e.2) (h : crDir e x ≠ 0) : height e x ≠ y := by
  intro hy
  apply ho
  obtain ⟨p, q⟩ := e
  unfold crDir at h
  unfold height at hy
  simp only at h hy ⊢
  have h : (p.x ≤ x ∧ x < q.x) ∨ (q.x ≤ x ∧ x < p.x) := by
    by_cases c1 : x < q.x <;> by_cases c2 : x < p.x <;> simp [c1, c2] at h
    · exact Or.inl ⟨not_lt.mp c2, c1⟩
    · exact Or.inr ⟨not_lt.mp c1, c2⟩
  have h0 : (q.x : ℚ) - p.x ≠ 0 := by
    intro hc
    rcases h with ⟨a, b⟩ | ⟨a, b⟩ <;> linarith
  refine ⟨(x - p.x) / (q.x - p.x), ?_, ?_, ?_, ?_⟩
  · rcases h with ⟨a, b⟩ | ⟨a, b⟩
    · exact div_nonneg (by linarith) (by linarith)
    · exact div_nonneg_of_nonpos (by linarith) (by linarith)
  · rcases h with ⟨a, b⟩ | ⟨a, b⟩
    · rw [div_le_one (by linarith)]; linarith
    · rw [div_le_one_of_neg (by linarith)]; linarith
  · field_simp; ring
  · rw [← hy]; field_simp

/-- Maps that keep verticals and their order. -/
theorem good_vertical {a c d : Int} (ha : 0 < a) (hd : d ≠ 0) : Good ⟨a, 0, c, d⟩ := by
  intro E x y hb ho
  have haq : (0 : ℚ) < a := by exact_mod_cast ha
  have hdq : (d : ℚ) ≠ 0 := by exact_mod_cast hd
  let T : Lin := ⟨a, 0, c, d⟩
  have eX : T.X x y = a * x := by simp [X, T]
  have eY : T.Y x y = c * x + d * y := rfl
  have hcr : ∀ e, crDir (T.edge e) (a * x) = crDir e x := by
    intro e
    unfold crDir edge pt
    simp only [T, zero_mul, add_zero]
    push_cast
    simp only [mul_lt_mul_iff_right₀ haq]
  have hht : ∀ e, crDir e x ≠ 0 → height (T.edge e) (a * x) = c * x + d * height e x := by
    intro e he
    have h0 : (e.2.x : ℚ) - e.1.x ≠ 0 := by
      intro h
      apply he
      have : (e.2.x : ℚ) = e.1.x := by linarith
      unfold crDir
      rw [this]
      omega
    have h1 : (a : ℚ) * e.2.x - a * e.1.x ≠ 0 := by rw [← mul_sub]; exact mul_ne_zero haq.ne' h0
    unfold height edge pt
    simp only [T, zero_mul, add_zero]
    push_cast
    field_simp
    ring
  show wind (E.map T.edge) (T.X x y) (T.Y x y) = _
  have hdet : det ⟨a, 0, c, d⟩ = a * d := by unfold det; ring
  rw [eX, eY, hdet, Int.sign_mul, Int.sign_eq_one_of_pos ha, one_mul]
  unfold wind
  rw [List.map_map]
  rcases lt_or_gt_of_ne hd with hn | hp
  · rw [Int.sign_eq_neg_one_of_neg hn]
    have hdn : (d : ℚ) < 0 := by exact_mod_cast hn
    have : E.map ((fun e => count e (a * x) (c * x + d * y)) ∘ T.edge) = E.map fun e => crDir e x - count e x y := by
      refine List.map_congr_left fun e he => ?_
      show count (T.edge e) _ _ = _
      rw [count_cr, count_cr, hcr]
      by_cases hz : crDir e x = 0
      · rw [hz]; simp
      · rw [hht e hz]
        have hne := cr_height (ho e he) hz
        rcases lt_or_gt_of_ne hne with k | k
        · rw [if_pos k, if_neg (by nlinarith)]; omega
        · rw [if_neg (not_lt.mpr k.le), if_pos (by nlinarith)]; omega
    rw [this]
    have hs : ∀ E : List (Pt × Pt), (E.map fun e => crDir e x - count e x y).sum = (E.map fun e => crDir e x).sum - (E.map fun e => count e x y).sum := by
      intro E
      induction E with
      | nil => rfl
      | cons e E ih => simp only [List.map_cons, List.sum_cons, ih]; ring
    rw [hs, hb.cr]
    ring
  · rw [Int.sign_eq_one_of_pos hp, one_mul]
    have hdp : (0 : ℚ) < d := by exact_mod_cast hp
    congr 1
    refine List.map_congr_left fun e he => ?_
    show count (T.edge e) _ _ = _
    rw [count_cr, count_cr, hcr]
    by_cases hz : crDir e x = 0
    · rw [hz]; simp
    · rw [hht e hz]
      have : (c : ℚ) * x + d * height e x < c * x + d * y ↔ height e x < y := by
        rw [add_lt_add_iff_left, mul_lt_mul_iff_right₀ hdp]
      simp only [this]

/-- Exchange of the coordinates. -/
def flip : Lin := ⟨0, 1, 1, 0⟩

theorem flip_pt (p : Pt) : flip.pt p = ⟨p.y, p.x⟩ := by unfold flip pt; simp

/-- Not left of and below the place. -/
def beyond (x y : ℚ) (p : Pt) : Int := if (p.x : ℚ) ≤ x ∧ (p.y : ℚ) ≤ y then 0 else 1

theorem count_flip_sum {p q : Pt} {x y : ℚ} (ho : ¬ OnSegQ x y p q) : count (p, q) x y + count (flip.edge (p, q)) y x = beyond x y q - beyond x y p := by
  have ho' : ¬ OnSegQ y x (flip.pt p) (flip.pt q) := by
    rw [flip_pt, flip_pt]
    rintro ⟨t, t0, t1, hx, hy⟩
    exact ho ⟨t, t0, t1, hy, hx⟩
  have n1 := fun h => cr_height (e := (p, q)) ho h
  have n2 := fun h => cr_height (e := (flip.pt p, flip.pt q)) ho' h
  rw [count_cr, count_cr]
  have hs1 : (p.x : ℚ) < q.x → (height (p, q) x < y ↔ 0 < ((q.x : ℚ) - x) * (y - p.y) - (q.y - y) * (x - p.x)) := by
    intro h
    have h0 : (0 : ℚ) < q.x - p.x := by linarith
    unfold height
    simp only
    rw [← lt_sub_iff_add_lt', div_lt_iff₀ h0]
    constructor <;> intro h <;> nlinarith
  have hs2 : (q.x : ℚ) < p.x → (height (p, q) x < y ↔ ((q.x : ℚ) - x) * (y - p.y) - (q.y - y) * (x - p.x) < 0) := by
    intro h
    have h0 : (q.x : ℚ) - p.x < 0 := by linarith
    unfold height
    simp only
    rw [← lt_sub_iff_add_lt', div_lt_iff_of_neg h0]
    constructor <;> intro h <;> nlinarith
  have ht1 : (p.y : ℚ) < q.y → (height (flip.pt p, flip.pt q) y < x ↔ ((q.x : ℚ) - x) * (y - p.y) - (q.y - y) * (x - p.x) < 0) := by
    intro h
    have h0 : (0 : ℚ) < q.y - p.y := by linarith
    rw [flip_pt, flip_pt]
    unfold height
    simp only
    rw [← lt_sub_iff_add_lt', div_lt_iff₀ h0]
    constructor <;> intro h <;> nlinarith
  have ht2 : (q.y : ℚ) < p.y → (height (flip.pt p, flip.pt q) y < x ↔ 0 < ((q.x : ℚ) - x) * (y - p.y) - (q.y - y) * (x - p.x)) := by
    intro h
    have h0 : (q.y : ℚ) - p.y < 0 := by linarith
    rw [flip_pt, flip_pt]
    unfold height
    simp only
    rw [← lt_sub_iff_add_lt', div_lt_iff_of_neg h0]
    constructor <;> intro h <;> nlinarith
  have z1 : ((q.x : ℚ) - x) * (y - p.y) - (q.y - y) * (x - p.x) = 0 → (q.x : ℚ) ≠ p.x → height (p, q) x = y := by
    intro h hne
    have h0 : (q.x : ℚ) - p.x ≠ 0 := sub_ne_zero.mpr hne
    unfold height
    simp only
    field_simp
    linarith
  have z2 : ((q.x : ℚ) - x) * (y - p.y) - (q.y - y) * (x - p.x) = 0 → (q.y : ℚ) ≠ p.y → height (flip.pt p, flip.pt q) y = x := by
    intro h hne
    have h0 : (q.y : ℚ) - p.y ≠ 0 := sub_ne_zero.mpr hne
    rw [flip_pt, flip_pt]
    unfold height
    simp only
    field_simp
    linarith
  generalize hS : ((q.x : ℚ) - x) * (y - p.y) - (q.y - y) * (x - p.x) = s at *
  show (if height (p, q) x < y then crDir (p, q) x else 0) + (if height (flip.pt p, flip.pt q) y < x then crDir (flip.pt p, flip.pt q) y else 0) = _
  have hc2 : crDir (flip.pt p, flip.pt q) y = (if y < q.y then 1 else 0) - (if y < p.y then 1 else 0) := by rw [flip_pt, flip_pt]; rfl
  have hc1 : crDir (p, q) x = (if x < q.x then 1 else 0) - (if x < p.x then 1 else 0) := rfl
  rw [hc2] at n2 ⊢
  rw [hc1] at n1 ⊢
  unfold beyond
  have cx : ∀ a : Int, ((a : ℚ) ≤ x ∧ ¬ x < a) ∨ (x < a ∧ ¬ (a : ℚ) ≤ x) := fun a =>
    (le_or_gt (a : ℚ) x).imp (fun h => ⟨h, not_lt.mpr h⟩) fun h => ⟨h, not_le.mpr h⟩
  have cy : ∀ a : Int, ((a : ℚ) ≤ y ∧ ¬ y < a) ∨ (y < a ∧ ¬ (a : ℚ) ≤ y) := fun a =>
    (le_or_gt (a : ℚ) y).imp (fun h => ⟨h, not_lt.mpr h⟩) fun h => ⟨h, not_le.mpr h⟩
  rcases cx p.x with ⟨a, a'⟩ | ⟨a, a'⟩ <;> rcases cx q.x with ⟨b, b'⟩ | ⟨b, b'⟩ <;>
    rcases cy p.y with ⟨c, c'⟩ | ⟨c, c'⟩ <;> rcases cy q.y with ⟨d, d'⟩ | ⟨d, d'⟩ <;>
    simp only [a, a', b, b', c, c', d, d', if_true, if_false, and_true, and_false, sub_self, ite_self, ne_eq, not_true, false_implies, sub_zero, zero_sub, true_implies, add_zero, zero_add, one_ne_zero, not_false_iff, neg_eq_zero] at n1 n2 ⊢
  all_goals rcases lt_trichotomy s 0 with h | h | h
  all_goals first
    | (exfalso; exact n1 (z1 h (by intro hh; linarith)))
    | (exfalso; exact n2 (z2 h (by intro hh; linarith)))
    | (exfalso; nlinarith)
    | (simp only [hs1 (by linarith), ht1 (by linarith), h, not_lt.mpr h.le, if_true, if_false, add_zero, zero_add] <;> rfl)
    | (simp only [hs1 (by linarith), ht2 (by linarith), h, not_lt.mpr h.le, if_true, if_false, add_zero, zero_add] <;> rfl)
    | (simp only [hs2 (by linarith), ht1 (by linarith), h, not_lt.mpr h.le, if_true, if_false, add_zero, zero_add] <;> rfl)
    | (simp only [hs2 (by linarith), ht2 (by linarith), h, not_lt.mpr h.le, if_true, if_false, add_zero, zero_add] <;> rfl)
    | (simp only [hs1 (by linarith), h, not_lt.mpr h.le, if_true, if_false, add_zero, zero_add] <;> rfl)
    | (simp only [hs2 (by linarith), h, not_lt.mpr h.le, if_true, if_false, add_zero, zero_add] <;> rfl)
    | (simp only [ht1 (by linarith), h, not_lt.mpr h.le, if_true, if_false, add_zero, zero_add] <;> rfl)
    | (simp only [ht2 (by linarith), h, not_lt.mpr h.le, if_true, if_false, add_zero, zero_add] <;> rfl)

theorem good_flip : flip.Good := by
  intro E x y hb ho
  have eX : flip.X x y = y := by unfold flip X; push_cast; ring
  have eY : flip.Y x y = x := by unfold flip Y; push_cast; ring
  have hd : flip.det.sign = -1 := by decide
  rw [eX, eY, hd]
  have h0 := hb fun p => - beyond x y p
  unfold wind
  rw [List.map_map]
  have h1 : (E.map fun e => - beyond x y e.1 - - beyond x y e.2) = E.map fun e => count e x y + count (flip.edge e) y x := by
    refine List.map_congr_left fun e he => ?_
    have := count_flip_sum (p := e.1) (q := e.2) (ho e he)
    simp only [Prod.mk.eta] at this
    omega
  rw [h1, List.sum_map_add] at h0
  have h2 : (E.map ((fun e => count e y x) ∘ flip.edge)).sum = (E.map fun e => count (flip.edge e) y x).sum := rfl
  rw [h2]
  omega

theorem good_id_neg : Good ⟨-1, 0, 0, -1⟩ := by
  have h1 : Good ⟨1, 0, 0, -1⟩ := good_vertical (by decide) (by decide)
  have h2 := (h1.comp ((good_flip.comp h1 (by decide)).comp good_flip (by decide)) (by decide))
  exact h2

theorem good_pos {T : Lin} (ha : 0 < T.a) (h : T.det ≠ 0) : T.Good := by
  obtain ⟨a, b, c, d⟩ := T
  simp only at ha
  have hU : ∀ D : Int, 0 < D → Good ⟨a, b, 0, D⟩ := by
    intro D hD
    have h1 : Good ⟨D, 0, b, a⟩ := good_vertical hD ha.ne'
    have hd : det ⟨D, 0, b, a⟩ ≠ 0 := by unfold det; simp only; have := mul_pos hD ha; omega
    have h2 := (good_flip.comp (h1.comp good_flip (by decide)) (by rw [det_comp]; exact mul_ne_zero hd (by decide)))
    have e : flip.comp ((⟨D, 0, b, a⟩ : Lin).comp flip) = ⟨a, b, 0, D⟩ := by unfold comp flip; simp
    rw [e] at h2
    exact h2
  have hU' : ∀ D : Int, D ≠ 0 → Good ⟨a, b, 0, D⟩ := by
    intro D hD
    rcases lt_or_gt_of_ne hD with k | k
    · have h1 : Good ⟨1, 0, 0, -1⟩ := good_vertical (by decide) (by decide)
      have h2 := h1.comp (hU (-D) (by omega)) (by unfold det; simp only; have := mul_pos ha (show 0 < -D by omega); omega)
      have e : (⟨1, 0, 0, -1⟩ : Lin).comp ⟨a, b, 0, -D⟩ = ⟨a, b, 0, D⟩ := by unfold comp; simp
      rw [e] at h2
      exact h2
    · exact hU D k
  have hL : Good ⟨a, 0, c, 1⟩ := good_vertical ha one_ne_zero
  have hd0 : det ⟨a, b, c, d⟩ = a * d - b * c := rfl
  have hLU := hL.comp (hU' _ h) (by
    show a * det ⟨a, b, c, d⟩ - b * 0 ≠ 0
    rw [mul_zero, sub_zero]; exact mul_ne_zero ha.ne' h)
  have e : (⟨a, 0, c, 1⟩ : Lin).comp ⟨a, b, 0, det ⟨a, b, c, d⟩⟩ = (⟨a, 0, 0, a⟩ : Lin).comp ⟨a, b, c, d⟩ := by
    unfold comp
    simp only [Lin.mk.injEq, hd0]
    refine ⟨by ring, by ring, by ring, by ring⟩
  rw [e] at hLU
  have hS : Good ⟨a, 0, 0, a⟩ := good_vertical ha ha.ne'
  intro E x y hb ho
  have k := hLU E x y hb ho
  have k2 : E.map ((⟨a, 0, 0, a⟩ : Lin).comp ⟨a, b, c, d⟩).edge = (E.map (Lin.edge ⟨a, b, c, d⟩)).map (Lin.edge ⟨a, 0, 0, a⟩) := by
    rw [List.map_map]; exact List.map_congr_left fun e _ => edge_comp _ _ e
  rw [k2, X_comp, Y_comp, hS _ _ _ (hb.lin _) ((off_iff h).mpr ho), det_comp, Int.sign_mul] at k
  have hs : (det ⟨a, 0, 0, a⟩).sign = 1 := Int.sign_eq_one_of_pos (by unfold det; simp only; have := mul_pos ha ha; omega)
  rw [hs, one_mul, one_mul] at k
  exact k

/-- Linear maps that are invertible keep winding numbers, with a sign if they reverse orientation. -/
theorem good {T : Lin} (h : T.det ≠ 0) : T.Good := by
  have key : ∀ T : Lin, T.a ≠ 0 → T.det ≠ 0 → T.Good := by
    intro T ha h
    rcases lt_or_gt_of_ne ha with k | k
    · have h1 : Good ⟨-T.a, -T.b, -T.c, -T.d⟩ := good_pos (by simp only; omega) (by unfold det at h ⊢; simp only; rw [neg_mul_neg, neg_mul_neg]; exact h)
      have h2 := good_id_neg.comp h1 (by unfold det at h ⊢; simp only; rw [neg_mul_neg, neg_mul_neg]; exact h)
      have e : (⟨-1, 0, 0, -1⟩ : Lin).comp ⟨-T.a, -T.b, -T.c, -T.d⟩ = T := by unfold comp; simp
      rw [e] at h2
      exact h2
    · exact good_pos k h
  by_cases ha : T.a = 0
  · have hb : T.b ≠ 0 := by intro hb; apply h; unfold det; rw [ha, hb]; ring
    have h1 := key ⟨T.b, T.a, T.d, T.c⟩ hb (by unfold det at h ⊢; simp only; intro k; apply h; linarith)
    have h2 := h1.comp good_flip (by decide)
    have e : (⟨T.b, T.a, T.d, T.c⟩ : Lin).comp flip = T := by unfold comp flip; simp
    rw [e] at h2
    exact h2
  · exact key T ha h

end Lin
end PolyOps.Exec
