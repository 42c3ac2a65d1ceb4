import Verif.Lemmas.Dir

/-! Winding numbers beside the lines of an arrangement. -/
namespace PolyOps.Exec
open PolyOps PolyOps.Sweep PolyOps.Region PolyOps.Planarity

/-- A point as a place. -/
def pv (p : Pt) : V := (p.x, p.y)

/-- From one point to another. -/
def vec (a b : Pt) : V := ((b.x : Rat) - a.x, (b.y : Rat) - a.y)

/-- Shifted by a multiple of a direction. -/
def sh (z : V) (ε : Rat) (n : V) : V := (z.1 + ε * n.1, z.2 + ε * n.2)

/-- The middle between two points. -/
def mid (a b : Pt) : V := (((a.x : Rat) + b.x) / 2, ((a.y : Rat) + b.y) / 2)

theorem vec_ne {a b : Pt} (h : a ≠ b) : vec a b ≠ 0 := by
  intro e
  apply h
  have e1 : ((b.x : Rat) - a.x) = 0 := congrArg Prod.fst e
  have e2 : ((b.y : Rat) - a.y) = 0 := congrArg Prod.snd e
  have g1 : (a.x : Rat) = b.x := by linarith
  have g2 : (a.y : Rat) = b.y := by linarith
  cases a; cases b
  rw [Pt.mk.injEq]; exact ⟨by exact_mod_cast g1, by exact_mod_cast g2⟩

/-! ### Separation -/

/-- Two segments without a common place are on different sides of a line. -/
theorem sep {a b : V} {f : Pt × Pt} (hf : f.1 ≠ f.2) (h : ∀ t : Rat, 0 ≤ t → t ≤ 1 → ¬ OnSegQ (mix a b t).1 (mix a b t).2 f.1 f.2) :
    ∃ g : V, dt g a < dt g (pv f.1) ∧ dt g a < dt g (pv f.2) ∧ dt g b < dt g (pv f.1) ∧ dt g b < dt g (pv f.2) := by
  obtain ⟨a1, a2⟩ := a
  obtain ⟨b1, b2⟩ := b
  obtain ⟨⟨p1, p2⟩, ⟨q1, q2⟩⟩ := f
  simp only [mix, OnSegQ, At] at h
  simp only [dt, pv]
  have hw : (q1 : Rat) - p1 ≠ 0 ∨ (q2 : Rat) - p2 ≠ 0 := by
    by_contra c
    push Not at c
    apply hf
    rw [Pt.mk.injEq]
    constructor
    · have : (p1 : Rat) = q1 := by linarith [c.1]
      exact_mod_cast this
    · have : (p2 : Rat) = q2 := by linarith [c.2]
      exact_mod_cast this
  generalize (p1 : Rat) = p1 at *
  generalize (p2 : Rat) = p2 at *
  generalize (q1 : Rat) = q1 at *
  generalize (q2 : Rat) = q2 at *
  clear hf
  obtain ⟨D, hD⟩ : ∃ D, D = (b1 - a1) * (q2 - p2) - (b2 - a2) * (q1 - p1) := ⟨_, rfl⟩
  -- values of the functional that vanishes on the edge, at `a` and `b`
  obtain ⟨A, hA⟩ : ∃ A, A = (a1 - p1) * (q2 - p2) - (a2 - p2) * (q1 - p1) := ⟨_, rfl⟩
  obtain ⟨B, hB⟩ : ∃ B, B = (b1 - p1) * (q2 - p2) - (b2 - p2) * (q1 - p1) := ⟨_, rfl⟩
  have case1 : (A < 0 ∧ B < 0) ∨ (0 < A ∧ 0 < B) → ∃ g : V, g.1 * a1 + g.2 * a2 < g.1 * p1 + g.2 * p2 ∧ g.1 * a1 + g.2 * a2 < g.1 * q1 + g.2 * q2 ∧
      g.1 * b1 + g.2 * b2 < g.1 * p1 + g.2 * p2 ∧ g.1 * b1 + g.2 * b2 < g.1 * q1 + g.2 * q2 := by
    rintro (⟨c1, c2⟩ | ⟨c1, c2⟩)
    · exact ⟨(q2 - p2, -(q1 - p1)), by dsimp only; constructor; · linarith
                                       constructor; · linarith
                                       constructor <;> linarith⟩
    · exact ⟨(-(q2 - p2), q1 - p1), by dsimp only; constructor; · linarith
                                       constructor; · linarith
                                       constructor <;> linarith⟩
  by_cases c : D = 0
  · have hAB : A = B := by linarith
    by_cases cA : A = 0
    · -- on one line
      have key : ∀ (s u : Rat), a1 = p1 + s * (q1 - p1) → a2 = p2 + s * (q2 - p2) → b1 = p1 + u * (q1 - p1) → b2 = p2 + u * (q2 - p2) →
          (s < 0 ∧ u < 0) ∨ (1 < s ∧ 1 < u) := by
        intro s u e1 e2 e3 e4
        have nt : ∀ t, 0 ≤ t → t ≤ 1 → ¬ (0 ≤ s + t * (u - s) ∧ s + t * (u - s) ≤ 1) := by
          intro t t0 t1 g
          exact h t t0 t1 ⟨s + t * (u - s), g.1, g.2, by rw [e1, e3]; ring, by rw [e2, e4]; ring⟩
        have n0 := nt 0 le_rfl zero_le_one
        have n1 := nt 1 zero_le_one le_rfl
        simp only [zero_mul, add_zero, one_mul, add_sub_cancel] at n0 n1
        by_contra cc
        push Not at cc
        rcases lt_or_ge s 0 with s0 | s0
        · have u1 := cc.1 s0
          have u2 : 1 < u := by by_contra k; exact n1 ⟨u1, by linarith⟩
          have hp : 0 < u - s := by linarith
          refine nt ((-s) / (u - s)) (div_nonneg (by linarith) hp.le) ((div_le_one hp).mpr (by linarith)) ?_
          rw [div_mul_cancel₀ _ hp.ne']; constructor <;> linarith
        · have s1 : 1 < s := by by_contra k; exact n0 ⟨s0, by linarith⟩
          have u1 := cc.2 s1
          have u0 : u < 0 := by by_contra k; exact n1 ⟨by linarith, u1⟩
          have hp : 0 < s - u := by linarith
          refine nt (s / (s - u)) (div_nonneg (by linarith) hp.le) ((div_le_one hp).mpr (by linarith)) ?_
          have : s / (s - u) * (u - s) = -s := by field_simp; ring
          rw [this]; constructor <;> linarith
      obtain ⟨W, hW⟩ : ∃ W, W = (q1 - p1) ^ 2 + (q2 - p2) ^ 2 := ⟨_, rfl⟩
      have hWp : 0 < W := by
        rw [hW]
        rcases hw with k | k
        · have := pow_pos (abs_pos.mpr k) 2; rw [sq_abs] at this; nlinarith [sq_nonneg (q2 - p2)]
        · have := pow_pos (abs_pos.mpr k) 2; rw [sq_abs] at this; nlinarith [sq_nonneg (q1 - p1)]
      have coord : ∀ z1 z2 : Rat, (z1 - p1) * (q2 - p2) - (z2 - p2) * (q1 - p1) = 0 →
          z1 = p1 + ((z1 - p1) * (q1 - p1) + (z2 - p2) * (q2 - p2)) / W * (q1 - p1) ∧
          z2 = p2 + ((z1 - p1) * (q1 - p1) + (z2 - p2) * (q2 - p2)) / W * (q2 - p2) := by
        intro z1 z2 g
        constructor
        · have : (z1 - p1) * W = ((z1 - p1) * (q1 - p1) + (z2 - p2) * (q2 - p2)) * (q1 - p1) := by
            rw [hW]; linear_combination (q2 - p2) * g
          field_simp
          linear_combination this
        · have : (z2 - p2) * W = ((z1 - p1) * (q1 - p1) + (z2 - p2) * (q2 - p2)) * (q2 - p2) := by
            rw [hW]; linear_combination -(q1 - p1) * g
          field_simp
          linear_combination this
      obtain ⟨e1, e2⟩ := coord a1 a2 (by linarith)
      obtain ⟨e3, e4⟩ := coord b1 b2 (by linarith)
      generalize ((a1 - p1) * (q1 - p1) + (a2 - p2) * (q2 - p2)) / W = s at e1 e2
      generalize ((b1 - p1) * (q1 - p1) + (b2 - p2) * (q2 - p2)) / W = u at e3 e4
      have val : ∀ s : Rat, (q1 - p1) * (p1 + s * (q1 - p1)) + (q2 - p2) * (p2 + s * (q2 - p2)) = (q1 - p1) * p1 + (q2 - p2) * p2 + s * W := by
        intro s; rw [hW]; ring
      have valq : (q1 - p1) * q1 + (q2 - p2) * q2 = (q1 - p1) * p1 + (q2 - p2) * p2 + W := by rw [hW]; ring
      rcases key s u e1 e2 e3 e4 with ⟨k1, k2⟩ | ⟨k1, k2⟩
      · refine ⟨(q1 - p1, q2 - p2), ?_⟩
        dsimp only
        rw [e1, e2, e3, e4, val, val, valq]
        refine ⟨?_, ?_, ?_, ?_⟩ <;> nlinarith
      · refine ⟨(-(q1 - p1), -(q2 - p2)), ?_⟩
        dsimp only
        have val' : ∀ s : Rat, -(q1 - p1) * (p1 + s * (q1 - p1)) + -(q2 - p2) * (p2 + s * (q2 - p2)) = -((q1 - p1) * p1 + (q2 - p2) * p2 + s * W) := by
          intro s; rw [hW]; ring
        have valq' : -(q1 - p1) * q1 + -(q2 - p2) * q2 = -((q1 - p1) * p1 + (q2 - p2) * p2 + W) := by rw [hW]; ring
        rw [e1, e2, e3, e4, val', val', valq']
        refine ⟨?_, ?_, ?_, ?_⟩ <;> nlinarith
    · apply case1
      rcases lt_or_gt_of_ne cA with k | k
      · exact Or.inl ⟨k, by linarith⟩
      · exact Or.inr ⟨k, by linarith⟩
  · -- not parallel: the lines cross at `s` on the path and `t` on the edge
    obtain ⟨s, hs⟩ : ∃ s, s = -A / D := ⟨_, rfl⟩
    obtain ⟨P, hP⟩ : ∃ P, P = (p1 - a1) * (b2 - a2) - (p2 - a2) * (b1 - a1) := ⟨_, rfl⟩
    obtain ⟨t, ht⟩ : ∃ t, t = P / D := ⟨_, rfl⟩
    have sD : s * D = -A := by rw [hs]; exact div_mul_cancel₀ _ c
    have tD : t * D = P := by rw [ht]; exact div_mul_cancel₀ _ c
    have x1 : a1 + s * (b1 - a1) = p1 + t * (q1 - p1) := by
      have : (a1 + s * (b1 - a1) - (p1 + t * (q1 - p1))) * D = 0 := by
        have : (a1 + s * (b1 - a1) - (p1 + t * (q1 - p1))) * D = (a1 - p1) * D + (s * D) * (b1 - a1) - (t * D) * (q1 - p1) := by ring
        rw [this, sD, tD, hD, hA, hP]; ring
      have := (mul_eq_zero.mp this).resolve_right c
      linarith
    have x2 : a2 + s * (b2 - a2) = p2 + t * (q2 - p2) := by
      have : (a2 + s * (b2 - a2) - (p2 + t * (q2 - p2))) * D = 0 := by
        have : (a2 + s * (b2 - a2) - (p2 + t * (q2 - p2))) * D = (a2 - p2) * D + (s * D) * (b2 - a2) - (t * D) * (q2 - p2) := by ring
        rw [this, sD, tD, hD, hA, hP]; ring
      have := (mul_eq_zero.mp this).resolve_right c
      linarith
    have hBD : B = (1 - s) * D := by
      have : (1 - s) * D = D + A := by rw [sub_mul, sD]; ring
      rw [this, hB, hD, hA]; ring
    have hAD : A = -s * D := by linarith
    by_cases cs : 0 ≤ s ∧ s ≤ 1
    · have ct : ¬ (0 ≤ t ∧ t ≤ 1) := fun g => h s cs.1 cs.2 ⟨t, g.1, g.2, x1, x2⟩
      have hQ : (q1 - a1) * (b2 - a2) - (q2 - a2) * (b1 - a1) = (t - 1) * D := by
        have : (t - 1) * D = t * D - D := by ring
        rw [this, tD, hP, hD]; ring
      have hP' : (p1 - a1) * (b2 - a2) - (p2 - a2) * (b1 - a1) = t * D := by rw [tD, hP]
      have sgn : (0 < t * D ∧ 0 < (t - 1) * D) ∨ (t * D < 0 ∧ (t - 1) * D < 0) := by
        have : t < 0 ∨ 1 < t := by
          by_contra k; push Not at k; exact ct ⟨k.1, k.2⟩
        rcases lt_or_gt_of_ne c with k | k <;> rcases this with g | g
        · exact Or.inl ⟨mul_pos_of_neg_of_neg g k, mul_pos_of_neg_of_neg (by linarith) k⟩
        · exact Or.inr ⟨mul_neg_of_pos_of_neg (by linarith) k, mul_neg_of_pos_of_neg (by linarith) k⟩
        · exact Or.inr ⟨mul_neg_of_neg_of_pos g k, mul_neg_of_neg_of_pos (by linarith) k⟩
        · exact Or.inl ⟨mul_pos (by linarith) k, mul_pos (by linarith) k⟩
      rcases sgn with ⟨k1, k2⟩ | ⟨k1, k2⟩
      · refine ⟨(b2 - a2, -(b1 - a1)), ?_⟩
        dsimp only
        refine ⟨?_, ?_, ?_, ?_⟩ <;> linarith
      · refine ⟨(-(b2 - a2), b1 - a1), ?_⟩
        dsimp only
        refine ⟨?_, ?_, ?_, ?_⟩ <;> linarith
    · apply case1
      rw [hAD, hBD]
      have : s < 0 ∨ 1 < s := by
        by_contra k; push Not at k; exact cs ⟨k.1, k.2⟩
      rcases lt_or_gt_of_ne c with k | k <;> rcases this with g | g
      · exact Or.inl ⟨mul_neg_of_pos_of_neg (by linarith) k, mul_neg_of_pos_of_neg (by linarith) k⟩
      · exact Or.inr ⟨mul_pos_of_neg_of_neg (by linarith) k, mul_pos_of_neg_of_neg (by linarith) k⟩
      · exact Or.inr ⟨mul_pos (by linarith) k, mul_pos (by linarith) k⟩
      · exact Or.inl ⟨mul_neg_of_neg_of_pos (by linarith) k, mul_neg_of_neg_of_pos (by linarith) k⟩

/-- Small shifts of both ends of a segment keep it off an edge. -/
theorem clear_small {a b n m : V} {f : Pt × Pt} (hf : f.1 ≠ f.2) (h : ∀ t : Rat, 0 ≤ t → t ≤ 1 → ¬ OnSegQ (mix a b t).1 (mix a b t).2 f.1 f.2) :
    ∃ ε0 : Rat, 0 < ε0 ∧ ∀ ε, 0 < ε → ε ≤ ε0 → Clear [f] (sh a ε n) (sh b ε m) := by
  obtain ⟨g, h1, h2, h3, h4⟩ := sep hf h
  obtain ⟨δ, hδ, d1, d2, d3, d4⟩ : ∃ δ > 0, dt g a + δ ≤ dt g (pv f.1) ∧ dt g a + δ ≤ dt g (pv f.2) ∧ dt g b + δ ≤ dt g (pv f.1) ∧ dt g b + δ ≤ dt g (pv f.2) := by
    refine ⟨min (min (dt g (pv f.1) - dt g a) (dt g (pv f.2) - dt g a)) (min (dt g (pv f.1) - dt g b) (dt g (pv f.2) - dt g b)), ?_, ?_, ?_, ?_, ?_⟩
    · refine lt_min (lt_min ?_ ?_) (lt_min ?_ ?_) <;> linarith
    · linarith [min_le_left (min (dt g (pv f.1) - dt g a) (dt g (pv f.2) - dt g a)) (min (dt g (pv f.1) - dt g b) (dt g (pv f.2) - dt g b)), min_le_left (dt g (pv f.1) - dt g a) (dt g (pv f.2) - dt g a)]
    · linarith [min_le_left (min (dt g (pv f.1) - dt g a) (dt g (pv f.2) - dt g a)) (min (dt g (pv f.1) - dt g b) (dt g (pv f.2) - dt g b)), min_le_right (dt g (pv f.1) - dt g a) (dt g (pv f.2) - dt g a)]
    · linarith [min_le_right (min (dt g (pv f.1) - dt g a) (dt g (pv f.2) - dt g a)) (min (dt g (pv f.1) - dt g b) (dt g (pv f.2) - dt g b)), min_le_left (dt g (pv f.1) - dt g b) (dt g (pv f.2) - dt g b)]
    · linarith [min_le_right (min (dt g (pv f.1) - dt g a) (dt g (pv f.2) - dt g a)) (min (dt g (pv f.1) - dt g b) (dt g (pv f.2) - dt g b)), min_le_right (dt g (pv f.1) - dt g b) (dt g (pv f.2) - dt g b)]
  have hC : 0 < |dt g n| + |dt g m| + 1 := by linarith [abs_nonneg (dt g n), abs_nonneg (dt g m)]
  refine ⟨δ / 2 / (|dt g n| + |dt g m| + 1), by positivity, fun ε e0 e1 t t0 t1 e he ⟨u, u0, u1, o1, o2⟩ => ?_⟩
  rw [List.mem_singleton.mp he] at o1 o2
  rw [le_div_iff₀ hC] at e1
  have b1 : ε * dt g n ≤ δ / 2 := by
    have := mul_le_mul_of_nonneg_left (le_abs_self (dt g n)) e0.le
    nlinarith [mul_nonneg e0.le (abs_nonneg (dt g m))]
  have b2 : ε * dt g m ≤ δ / 2 := by
    have := mul_le_mul_of_nonneg_left (le_abs_self (dt g m)) e0.le
    nlinarith [mul_nonneg e0.le (abs_nonneg (dt g n))]
  have l : dt g (mix (sh a ε n) (sh b ε m) t) = (1 - t) * (dt g a + ε * dt g n) + t * (dt g b + ε * dt g m) := by
    unfold dt mix sh; ring
  have r : dt g (mix (sh a ε n) (sh b ε m) t) = (1 - u) * dt g (pv f.1) + u * dt g (pv f.2) := by
    unfold dt pv
    rw [o1, o2]; ring
  have e1' : (1 - t) * (dt g a + ε * dt g n) ≤ (1 - t) * (dt g (pv f.1) - δ / 2) := mul_le_mul_of_nonneg_left (by linarith) (by linarith)
  have e2' : (1 - t) * (dt g a + ε * dt g n) ≤ (1 - t) * (dt g (pv f.2) - δ / 2) := mul_le_mul_of_nonneg_left (by linarith) (by linarith)
  have e3' : t * (dt g b + ε * dt g m) ≤ t * (dt g (pv f.1) - δ / 2) := mul_le_mul_of_nonneg_left (by linarith) (by linarith)
  have e4' : t * (dt g b + ε * dt g m) ≤ t * (dt g (pv f.2) - δ / 2) := mul_le_mul_of_nonneg_left (by linarith) (by linarith)
  have s1 : dt g (mix (sh a ε n) (sh b ε m) t) ≤ dt g (pv f.1) - δ / 2 := by rw [l]; linarith
  have s2 : dt g (mix (sh a ε n) (sh b ε m) t) ≤ dt g (pv f.2) - δ / 2 := by rw [l]; linarith
  nlinarith [mul_le_mul_of_nonneg_left s1 (show 0 ≤ 1 - u by linarith), mul_le_mul_of_nonneg_left s2 u0]

/-! ### Arrangements -/

/-- Lines that meet only at their ends, each there once and in one direction. -/
structure Arr (K : List (Pt × Pt)) : Prop where
  nodup : K.Nodup
  ne : ∀ e ∈ K, e.1 ≠ e.2
  one : ∀ e ∈ K, (e.2, e.1) ∉ K
  meet : ∀ e ∈ K, ∀ f ∈ K, e ≠ f → ∀ x y : Rat, OnSegQ x y e.1 e.2 → OnSegQ x y f.1 f.2 → IsEnd x y e.1 e.2 ∧ IsEnd x y f.1 f.2

/-- The segment between the points, in one of its directions. -/
def Seg (K : List (Pt × Pt)) (v u : Pt) : Prop := (v, u) ∈ K ∨ (u, v) ∈ K

theorem Seg.symm {K : List (Pt × Pt)} {v u : Pt} (h : Seg K v u) : Seg K u v := Or.symm h

/-- What holds for small shifts for each of finitely many things holds for them together. -/
theorem small_all {α : Type} {P : α → Rat → Prop} : ∀ {l : List α}, (∀ a ∈ l, ∃ ε0 : Rat, 0 < ε0 ∧ ∀ ε, 0 < ε → ε ≤ ε0 → P a ε) →
    ∃ ε0 : Rat, 0 < ε0 ∧ ∀ ε, 0 < ε → ε ≤ ε0 → ∀ a ∈ l, P a ε
  | [], _ => ⟨1, one_pos, fun _ _ _ a ha => by simp at ha⟩
  | a :: l, h => by
    obtain ⟨e1, p1, h1⟩ := h a (List.mem_cons_self ..)
    obtain ⟨e2, p2, h2⟩ := small_all (l := l) fun b hb => h b (List.mem_cons_of_mem _ hb)
    refine ⟨min e1 e2, lt_min p1 p2, fun ε p hε b hb => ?_⟩
    rcases List.mem_cons.mp hb with rfl | hb
    · exact h1 ε p (hε.trans (min_le_left _ _))
    · exact h2 ε p (hε.trans (min_le_right _ _)) b hb

theorem clear_all {E : List (Pt × Pt)} {z w : V} (h : ∀ e ∈ E, Clear [e] z w) : Clear E z w :=
  fun t t0 t1 e he => h e he t t0 t1 e (List.mem_singleton.mpr rfl)

/-- The direction from `v` to a place on the way from beside the middle of the line to `u` to a place near `v`. -/
def toward (v u : Pt) (n m : V) (ε t : Rat) : V :=
  ((1 - t) * ((vec v u).1 / 2 + ε * n.1) + t * (ε * m.1), (1 - t) * ((vec v u).2 / 2 + ε * n.2) + t * (ε * m.2))

theorem toward_eq (v u : Pt) (n m : V) (ε t : Rat) : mix (sh (mid v u) ε n) (sh (pv v) ε m) t = sh (pv v) 1 (toward v u n m ε t) := by
  unfold mix sh mid pv toward vec
  ext <;> dsimp only <;> ring

/-- From beside the middle of a line to near its end `v`, on one side of it, if no other line from `v` is in the way. -/
theorem half {K E : List (Pt × Pt)} (hA : Arr K) (hE : ∀ e ∈ E, e ∈ K) {v u : Pt} (hs : Seg K v u) {n m : V}
    (hn : 0 < cr (vec v u) n * cr (vec v u) m)
    (hfree : ∃ ε0 : Rat, 0 < ε0 ∧ ∀ ε, 0 < ε → ε ≤ ε0 → ∀ t, 0 ≤ t → t ≤ 1 → ∀ r, Seg E v r → r ≠ u → ¬ Same (toward v u n m ε t) (vec v r)) :
    ∃ ε0 : Rat, 0 < ε0 ∧ ∀ ε, 0 < ε → ε ≤ ε0 → Clear E (sh (mid v u) ε n) (sh (pv v) ε m) := by
  have hvu : v ≠ u := by rcases hs with h | h; exacts [hA.ne _ h, (hA.ne _ h).symm]
  -- the line itself
  have own : ∀ ε > 0, ∀ t, 0 ≤ t → t ≤ 1 → cr (vec v u) (toward v u n m ε t) ≠ 0 := by
    intro ε e0 t t0 t1 h0
    have : cr (vec v u) (toward v u n m ε t) = ε * ((1 - t) * cr (vec v u) n + t * cr (vec v u) m) := by unfold cr toward; ring
    rw [this] at h0
    have h0 := (mul_eq_zero.mp h0).resolve_left e0.ne'
    rcases lt_trichotomy (cr (vec v u) n) 0 with k | k | k
    · have k2 : cr (vec v u) m < 0 := by nlinarith
      have g1 := mul_nonpos_of_nonneg_of_nonpos (show 0 ≤ 1 - t by linarith) k.le
      have g2 := mul_nonpos_of_nonneg_of_nonpos t0 k2.le
      have g3 : (1 - t) * cr (vec v u) n = 0 := by linarith
      have g4 : t * cr (vec v u) m = 0 := by linarith
      have := (mul_eq_zero.mp g3).resolve_right k.ne
      have := (mul_eq_zero.mp g4).resolve_right k2.ne
      linarith
    · rw [k] at hn; simp at hn
    · have k2 : 0 < cr (vec v u) m := by nlinarith
      have g1 := mul_nonneg (show 0 ≤ 1 - t by linarith) k.le
      have g2 := mul_nonneg t0 k2.le
      have g3 : (1 - t) * cr (vec v u) n = 0 := by linarith
      have g4 : t * cr (vec v u) m = 0 := by linarith
      have := (mul_eq_zero.mp g3).resolve_right k.ne'
      have := (mul_eq_zero.mp g4).resolve_right k2.ne'
      linarith
  have all : ∀ f ∈ E, ∃ ε0 : Rat, 0 < ε0 ∧ ∀ ε, 0 < ε → ε ≤ ε0 → Clear [f] (sh (mid v u) ε n) (sh (pv v) ε m) := by
    intro f hf
    have hfne := hA.ne f (hE f hf)
    by_cases c1 : f = (v, u) ∨ f = (u, v)
    · refine ⟨1, one_pos, fun ε e0 _ t t0 t1 e he hon => own ε e0 t t0 t1 ?_⟩
      rw [List.mem_singleton.mp he] at hon
      have hon : OnSegQ (mix (sh (mid v u) ε n) (sh (pv v) ε m) t).1 (mix (sh (mid v u) ε n) (sh (pv v) ε m) t).2 v u := by
        rcases c1 with rfl | rfl
        · exact hon
        · exact onq_swap hon
      obtain ⟨s, _, _, o1, o2⟩ := hon
      rw [toward_eq] at o1 o2
      have g1 : (toward v u n m ε t).1 = s * (vec v u).1 := by
        have : (v.x : Rat) + 1 * (toward v u n m ε t).1 = v.x + s * (vec v u).1 := o1
        linarith
      have g2 : (toward v u n m ε t).2 = s * (vec v u).2 := by
        have : (v.y : Rat) + 1 * (toward v u n m ε t).2 = v.y + s * (vec v u).2 := o2
        linarith
      unfold cr
      rw [g1, g2]; ring
    · by_cases c2 : ∀ t : Rat, 0 ≤ t → t ≤ 1 → ¬ OnSegQ (mix (mid v u) (pv v) t).1 (mix (mid v u) (pv v) t).2 f.1 f.2
      · exact clear_small hfne c2
      · push Not at c2
        obtain ⟨t, t0, t1, hon⟩ := c2
        -- the common place is the end `v`
        have ok : OnSegQ (mix (mid v u) (pv v) t).1 (mix (mid v u) (pv v) t).2 v u :=
          ⟨(1 - t) / 2, by linarith, by linarith, by unfold mix mid pv; dsimp only; ring, by unfold mix mid pv; dsimp only; ring⟩
        have ends : IsEnd (mix (mid v u) (pv v) t).1 (mix (mid v u) (pv v) t).2 v u ∧ IsEnd (mix (mid v u) (pv v) t).1 (mix (mid v u) (pv v) t).2 f.1 f.2 := by
          rcases hs with h | h
          · exact hA.meet _ h f (hE f hf) (fun e => c1 (Or.inl e.symm)) _ _ ok hon
          · have := hA.meet _ h f (hE f hf) (fun e => c1 (Or.inr e.symm)) _ _ (onq_swap ok) hon
            exact ⟨this.1.symm, this.2⟩
        have nv : ((mix (mid v u) (pv v) t).1 = v.x ∧ (mix (mid v u) (pv v) t).2 = v.y) := by
          rcases ends.1 with h | h
          · exact h
          · exfalso
            have e1 : (mix (mid v u) (pv v) t).1 = u.x := h.1
            have e2 : (mix (mid v u) (pv v) t).2 = u.y := h.2
            unfold mix mid pv at e1 e2
            dsimp only at e1 e2
            have g1 : ((u.x : Rat) - v.x) * (1 + t) = 0 := by linarith
            have g2 : ((u.y : Rat) - v.y) * (1 + t) = 0 := by linarith
            have p : (1 + t : Rat) ≠ 0 := by linarith
            apply vec_ne hvu
            exact Prod.ext ((mul_eq_zero.mp g1).resolve_right p) ((mul_eq_zero.mp g2).resolve_right p)
        have vf : v = f.1 ∨ v = f.2 := by
          rcases ends.2 with h | h
          · left
            have e1 : (v.x : Rat) = f.1.x := by rw [← nv.1]; exact h.1
            have e2 : (v.y : Rat) = f.1.y := by rw [← nv.2]; exact h.2
            cases v; rw [show f.1 = ⟨f.1.x, f.1.y⟩ from rfl, Pt.mk.injEq]
            exact ⟨by exact_mod_cast e1, by exact_mod_cast e2⟩
          · right
            have e1 : (v.x : Rat) = f.2.x := by rw [← nv.1]; exact h.1
            have e2 : (v.y : Rat) = f.2.y := by rw [← nv.2]; exact h.2
            cases v; rw [show f.2 = ⟨f.2.x, f.2.y⟩ from rfl, Pt.mk.injEq]
            exact ⟨by exact_mod_cast e1, by exact_mod_cast e2⟩
        obtain ⟨r, hr, hfr⟩ : ∃ r, Seg E v r ∧ (f = (v, r) ∨ f = (r, v)) := by
          rcases vf with rfl | rfl
          · exact ⟨f.2, Or.inl hf, Or.inl rfl⟩
          · exact ⟨f.1, Or.inr hf, Or.inr rfl⟩
        have hru : r ≠ u := by rintro rfl; exact c1 hfr
        have hvr : v ≠ r := by rcases hfr with rfl | rfl; exacts [hfne, hfne.symm]
        obtain ⟨ε0, e0, hfr2⟩ := hfree
        refine ⟨ε0, e0, fun ε p1 p2 t t0 t1 e he hon => ?_⟩
        rw [List.mem_singleton.mp he] at hon
        have hon : OnSegQ (mix (sh (mid v u) ε n) (sh (pv v) ε m) t).1 (mix (sh (mid v u) ε n) (sh (pv v) ε m) t).2 v r := by
          rcases hfr with rfl | rfl
          · exact hon
          · exact onq_swap hon
        obtain ⟨s, s0, _, o1, o2⟩ := hon
        rw [toward_eq] at o1 o2
        have g1 : (toward v u n m ε t).1 = s * (vec v r).1 := by
          have : (v.x : Rat) + 1 * (toward v u n m ε t).1 = v.x + s * (vec v r).1 := o1
          linarith
        have g2 : (toward v u n m ε t).2 = s * (vec v r).2 := by
          have : (v.y : Rat) + 1 * (toward v u n m ε t).2 = v.y + s * (vec v r).2 := o2
          linarith
        have tn : toward v u n m ε t ≠ 0 := by
          intro e
          apply own ε p1 t t0 t1
          rw [e]; simp [cr]
        have sp : 0 < s := by
          rcases s0.lt_or_eq with k | k
          · exact k
          · exact (tn (Prod.ext (by rw [g1, ← k]; simp) (by rw [g2, ← k]; simp))).elim
        apply hfr2 ε p1 p2 t t0 t1 r hr hru
        rw [same_iff tn (vec_ne hvr)]
        constructor
        · unfold cr; rw [g1, g2]; ring
        · unfold dt; rw [g1, g2]
          have : 0 < (vec v r).1 ^ 2 + (vec v r).2 ^ 2 := by
            have := norm_pos (vec_ne hvr)
            have := pow_pos this 2
            nlinarith [sq_abs (vec v r).1, sq_abs (vec v r).2, sq_nonneg (|(vec v r).1| - |(vec v r).2|)]
          nlinarith
  obtain ⟨ε0, p, h⟩ := small_all all
  exact ⟨ε0, p, fun ε p1 p2 => clear_all (h ε p1 p2)⟩

end PolyOps.Exec
