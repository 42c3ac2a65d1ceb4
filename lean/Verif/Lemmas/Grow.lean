import Verif.Lemmas.Shadow

/-! Moving the sides of a polygon outwards: what the places between a side and the moved side count. -/
namespace PolyOps.Exec
open PolyOps PolyOps.Sweep PolyOps.Region PolyOps.Planarity

/-! ### Triangles -/

/-- Twice the area of a triangle; positive if it is passed counterclockwise. -/
def turn (p q r : Pt) : Int := (q.x - p.x) * (r.y - p.y) - (q.y - p.y) * (r.x - p.x)

theorem turn_rot (p q r : Pt) : turn q r p = turn p q r := by unfold turn; ring

theorem turn_swap (p q r : Pt) : turn q p r = - turn p q r := by unfold turn; ring

theorem count_ind (e : Pt × Pt) (x y : Rat) : count e x y = (ind x e.2 - ind x e.1) * if height e x < y then 1 else 0 := by
  unfold count ind
  by_cases c1 : x < e.1.x <;> by_cases c2 : x < e.2.x <;> by_cases c3 : height e x < y <;>
    simp [c1, c2, c3, not_le.mpr, not_lt.mp, -not_lt]

theorem height_swap' (a b : Pt) (x : Rat) (h : (a.x : Rat) ≠ b.x) : height (b, a) x = height (a, b) x := by
  have h1 : (a.x : Rat) - b.x ≠ 0 := sub_ne_zero.mpr h
  have h2 : (b.x : Rat) - a.x ≠ 0 := sub_ne_zero.mpr h.symm
  unfold height
  dsimp only
  field_simp
  have : (b.x : Rat) - a.x = -((a.x : Rat) - b.x) := by ring
  rw [this]
  field_simp
  ring

/-- Two sides from an apex that is on the left of the vertical. -/
theorem apex_left {p q r : Pt} {x : Rat} (h : 0 ≤ turn p q r) (hp : ¬ x < p.x) (hq : x < q.x) (hr : x < r.x) : height (p, q) x ≤ height (r, p) x := by
  rw [not_lt] at hp
  rw [height_swap' p r x (by intro c; linarith)]
  have h1 : (0 : Rat) < (q.x : Rat) - p.x := by linarith
  have h2 : (0 : Rat) < (r.x : Rat) - p.x := by linarith
  have h' : (0 : Rat) ≤ ((q.x : Rat) - p.x) * ((r.y : Rat) - p.y) - ((q.y : Rat) - p.y) * ((r.x : Rat) - p.x) := by unfold turn at h; exact_mod_cast h
  unfold height
  dsimp only
  have : ((q.y : Rat) - p.y) / ((q.x : Rat) - p.x) ≤ ((r.y : Rat) - p.y) / ((r.x : Rat) - p.x) := by
    rw [div_le_div_iff₀ h1 h2]; linarith
  have := mul_le_mul_of_nonneg_left this (show 0 ≤ x - p.x by linarith)
  rw [mul_div_assoc, mul_div_assoc]; linarith

/-- Two sides from an apex that is on the right of the vertical. -/
theorem apex_right {p q r : Pt} {x : Rat} (h : 0 ≤ turn p q r) (hp : x < p.x) (hq : ¬ x < q.x) (hr : ¬ x < r.x) : height (r, p) x ≤ height (p, q) x := by
  rw [not_lt] at hq hr
  rw [height_swap' p r x (by intro c; linarith)]
  have h1 : (0 : Rat) < (p.x : Rat) - q.x := by linarith
  have h2 : (0 : Rat) < (p.x : Rat) - r.x := by linarith
  have h' : (0 : Rat) ≤ ((q.x : Rat) - p.x) * ((r.y : Rat) - p.y) - ((q.y : Rat) - p.y) * ((r.x : Rat) - p.x) := by unfold turn at h; exact_mod_cast h
  unfold height
  dsimp only
  have : ((r.y : Rat) - p.y) / ((p.x : Rat) - r.x) ≤ ((q.y : Rat) - p.y) / ((p.x : Rat) - q.x) := by
    rw [div_le_div_iff₀ h2 h1]; linarith
  have := mul_le_mul_of_nonneg_left this (show 0 ≤ p.x - x by linarith)
  have e1 : (x - p.x) * ((r.y : Rat) - p.y) / ((r.x : Rat) - p.x) = (p.x - x) * (((r.y : Rat) - p.y) / ((p.x : Rat) - r.x)) := by
    rw [← neg_sub (p.x : Rat) x, ← neg_sub (p.x : Rat) r.x, neg_mul, neg_div_neg_eq, mul_div_assoc]
  have e2 : (x - p.x) * ((q.y : Rat) - p.y) / ((q.x : Rat) - p.x) = (p.x - x) * (((q.y : Rat) - p.y) / ((p.x : Rat) - q.x)) := by
    rw [← neg_sub (p.x : Rat) x, ← neg_sub (p.x : Rat) q.x, neg_mul, neg_div_neg_eq, mul_div_assoc]
  rw [e1, e2]; linarith

theorem le_imp {a b y : Rat} (h : a ≤ b) : ((if b < y then 1 else 0 : Int) ≤ if a < y then 1 else 0) ∧ ((if a < y then 1 else 0 : Int) - if b < y then 1 else 0) ≤ 1 := by
  by_cases c : b < y
  · rw [if_pos c, if_pos (h.trans_lt c)]; omega
  · rw [if_neg c]; split <;> omega

/-- A triangle that is passed counterclockwise winds around a place once or not at all. -/
theorem tri_wind {p q r : Pt} (h : 0 ≤ turn p q r) (x y : Rat) : 0 ≤ wind (edges [p, q, r]) x y ∧ wind (edges [p, q, r]) x y ≤ 1 := by
  have e : wind (edges [p, q, r]) x y = count (p, q) x y + count (q, r) x y + count (r, p) x y := by simp [edges, walk, wind]; ring
  have h2 : 0 ≤ turn q r p := by rw [turn_rot]; exact h
  have h3 : 0 ≤ turn r p q := by rw [turn_rot]; exact h2
  rw [e, count_ind, count_ind, count_ind]
  unfold ind
  dsimp only
  by_cases cp : x < p.x <;> by_cases cq : x < q.x <;> by_cases cr : x < r.x <;> simp only [cp, cq, cr, if_true, if_false]
  · simp
  · have := le_imp (y := y) (apex_left h3 cr cp cq); omega
  · have := le_imp (y := y) (apex_left h2 cq cr cp); omega
  · have := le_imp (y := y) (apex_right h cp cq cr); omega
  · have := le_imp (y := y) (apex_left h cp cq cr); omega
  · have := le_imp (y := y) (apex_right h2 cq cr cp); omega
  · have := le_imp (y := y) (apex_right h3 cr cp cq); omega
  · simp

/-- A quadrilateral made of two triangles. -/
theorem quad_wind (p q r s : Pt) (x y : Rat) : wind (edges [p, q, r, s]) x y = wind (edges [p, q, r]) x y + wind (edges [p, r, s]) x y := by
  have := count_swap p r x y
  simp [edges, walk, wind]
  omega

theorem tri_flip (p q r : Pt) (x y : Rat) : wind (edges [q, p, r]) x y = - wind (edges [p, q, r]) x y := by
  have h1 := count_swap p q x y
  have h2 := count_swap q r x y
  have h3 := count_swap r p x y
  simp [edges, walk, wind]
  omega

/-! ### The places between a path and what is emitted for it -/

/-- Between one side and what is emitted for it: the shifted side `s`, `s'` beside `a`, `b`, and the points around `b` from `s'` to the first point `h`
of the next shifted side. -/
structure Gap where
  (a b s s' : Pt) (pts : List Pt) (h : Pt)

/-- The loop around the strip beside the side. -/
def Gap.strip (g : Gap) (x y : Rat) : Int := wind (edges [g.s, g.s', g.b, g.a]) x y

/-- The loop around the fan at the end of the side. -/
def Gap.fan (g : Gap) (x y : Rat) : Int := wind (edges (g.s' :: (g.pts ++ [g.h, g.b]))) x y

/-- The gap is what offsetting by `m` makes for the triple. -/
def Gap.Of (m : ℝ) (arc : Int) (t : (Pt × Int) × (Pt × Int) × Pt) (g : Gap) : Prop :=
  g.a = t.1.1 ∧ g.b = t.2.1.1 ∧ (∃ v, Offset.Normal g.a g.b m v ∧ Offset.Near g.s g.a v ∧ Offset.Near g.s' g.b v ∧
    (Offset.Opens m g.a g.b t.2.2 → Offset.Arc m arc g.a g.b t.2.2 v g.pts) ∧ (¬Offset.Opens m g.a g.b t.2.2 → g.pts = [])) ∧
    ∃ v, Offset.Normal g.b t.2.2 m v ∧ Offset.Near g.h g.b v

/-- The sides that are emitted. -/
def Gap.sides (g : Gap) : List (Pt × Pt) := walk g.s (g.s' :: (g.pts ++ [g.h]))

theorem gap_wind (g : Gap) (x y : Rat) :
    wind (walk g.s (g.s' :: (g.pts ++ [g.h]))) x y = count (g.s, g.a) x y + count (g.a, g.b) x y + count (g.b, g.h) x y + (g.strip x y + g.fan x y) := by
  have h1 := count_swap g.s g.a x y
  have h2 := count_swap g.b g.h x y
  have h3 := count_swap g.s' g.b x y
  have h4 := count_swap g.a g.b x y
  have e : wind (edges (g.s' :: (g.pts ++ [g.h, g.b]))) x y = wind (walk g.s' (g.pts ++ [g.h])) x y + count (g.h, g.b) x y + count (g.b, g.s') x y := by
    show wind (walk g.s' ((g.pts ++ [g.h, g.b]) ++ [g.s'])) x y = _
    have : (g.pts ++ [g.h, g.b]) ++ [g.s'] = g.pts ++ g.h :: [g.b, g.s'] := by simp
    rw [this, walk_append, wind_append]
    simp [walk, wind]
    ring
  unfold Gap.fan Gap.strip
  rw [e]
  simp [edges, walk, wind]
  omega

/-- What is emitted for a path, cut into gaps. `w` is the first point of the side after the path. -/
theorem path_gaps {m : ℝ} {arc : Int} : ∀ (l : List (Pt × Int)) (a b c : Pt × Int) (e : Offset.Emit), Offset.Path m arc (a :: b :: c :: l) e →
    ∃ s L, e.map Prod.fst = s :: L ∧ (∃ v, Offset.Normal a.1 b.1 m v ∧ Offset.Near s a.1 v) ∧
      ∀ (B : List Pt) (y z w : Pt), (b :: c :: l).map Prod.fst = B ++ [y, z] → (∃ v, Offset.Normal y z m v ∧ Offset.Near w y v) →
        ∃ G : List Gap, List.Forall₂ (Gap.Of m arc) (Offset.tri (a :: b :: c :: l)) G ∧ walk s (L ++ [w]) = G.flatMap Gap.sides ∧
          ∀ x y', wind (walk s (L ++ [w])) x y' = count (s, a.1) x y' + wind (walk a.1 (B ++ [y])) x y' + count (y, w) x y' +
            (G.map fun g => g.strip x y' + g.fan x y').sum
  | l, a, b, c, e, hp => by
    obtain ⟨es, hf, rfl⟩ := hp
    unfold Offset.tri at hf
    cases hf with
    | @cons _ e1 _ es' hb hf =>
      obtain ⟨v, hn, s, s', pts, rfl, n1, n2, o1, o2⟩ := hb
      cases l with
      | nil =>
        unfold Offset.tri at hf
        cases hf
        refine ⟨s, s' :: pts, by simp [List.map_map, Function.comp_def], ⟨v, hn, n1⟩, fun B y z w hB hw => ?_⟩
        have hB' : [b.1, c.1] = B ++ [y, z] := by simpa using hB
        obtain rfl : B = [] := by
          have := congrArg List.length hB'
          simp at this
          exact this
        simp at hB'
        obtain ⟨rfl, rfl⟩ := hB'
        refine ⟨[⟨a.1, b.1, s, s', pts, w⟩], List.Forall₂.cons ⟨rfl, rfl, ⟨v, hn, n1, n2, o1, o2⟩, hw⟩ .nil, by simp [Gap.sides], fun x y' => ?_⟩
        have := gap_wind ⟨a.1, b.1, s, s', pts, w⟩ x y'
        dsimp only at this
        rw [List.cons_append, this]
        simp [walk, wind]
      | cons d l =>
        obtain ⟨h, L, i1, i2, i3⟩ := path_gaps l b c d es'.flatten ⟨es', hf, rfl⟩
        refine ⟨s, s' :: (pts ++ h :: L), by simp [List.map_map, Function.comp_def, i1], ⟨v, hn, n1⟩, fun B y z w hB hw => ?_⟩
        obtain ⟨B', rfl⟩ : ∃ B', B = b.1 :: B' := by
          cases B with
          | nil => simp at hB
          | cons b' B' => simp at hB; exact ⟨B', by rw [hB.1]⟩
        obtain ⟨G, g1, g0, g2⟩ := i3 B' y z w (by simpa using hB) hw
        have e0 : walk s (s' :: (pts ++ h :: L) ++ [w]) = walk s (s' :: (pts ++ [h])) ++ walk h (L ++ [w]) := by
          have : s' :: (pts ++ h :: L) ++ [w] = (s' :: pts) ++ h :: (L ++ [w]) := by simp
          rw [this, walk_append]
          rfl
        refine ⟨⟨a.1, b.1, s, s', pts, h⟩ :: G, List.Forall₂.cons ⟨rfl, rfl, ⟨v, hn, n1, n2, o1, o2⟩, i2⟩ g1, by rw [List.flatMap_cons, ← g0]; exact e0, fun x y' => ?_⟩
        have h1 := gap_wind ⟨a.1, b.1, s, s', pts, h⟩ x y'
        have h2 := g2 x y'
        have h3 := count_swap h b.1 x y'
        dsimp only at h1
        have e1 : wind (walk s (s' :: (pts ++ h :: L) ++ [w])) x y' = wind (walk s (s' :: (pts ++ [h]))) x y' + wind (walk h (L ++ [w])) x y' := by
          rw [e0, wind_append]
        have e2 : wind (walk a.1 (b.1 :: B' ++ [y])) x y' = count (a.1, b.1) x y' + wind (walk b.1 (B' ++ [y])) x y' := by simp [walk, wind]
        rw [e1, e2, h1, h2, List.map_cons, List.sum_cons]
        omega

/-- What is emitted for a path that returns to its start winds as the path, and what the gaps add. -/
theorem closed_gaps {m : ℝ} {arc : Int} {W : List (Pt × Int)} {e : Offset.Emit} (hp : Offset.Path m arc W e) {p q : Pt} {M : List Pt}
    (hW : W.map Prod.fst = p :: q :: (M ++ [p, q])) :
    ∃ G : List Gap, List.Forall₂ (Gap.Of m arc) (Offset.tri W) G ∧ edges (e.map Prod.fst) = G.flatMap Gap.sides ∧
      ∀ x y, wind (edges (e.map Prod.fst)) x y = wind (edges (p :: q :: M)) x y + (G.map fun g => g.strip x y + g.fan x y).sum := by
  match W, hW with
  | [], hW => simp at hW
  | [a], hW => simp at hW
  | [a, b], hW => simp at hW
  | a :: b :: c :: l, hW =>
    have h1 : a.1 = p := by simpa using congrArg List.head? hW
    have h2 : (b :: c :: l).map Prod.fst = q :: M ++ [p, q] := by have := congrArg List.tail hW; simpa using this
    have h3 : b.1 = q := by simpa using congrArg List.head? h2
    obtain ⟨s, L, i1, i2, i3⟩ := path_gaps l a b c e hp
    rw [h1, h3] at i2
    obtain ⟨G, g1, g0, g2⟩ := i3 (q :: M) p q s h2 i2
    refine ⟨G, g1, by rw [i1]; exact g0, fun x y => ?_⟩
    rw [i1]
    show wind (walk s (L ++ [s])) x y = _
    rw [g2, h1]
    have := count_swap s p x y
    show _ = wind (walk p (q :: M ++ [p])) x y + _
    omega

/-! ### Rounded vectors -/

theorem nearest_mono {n k : Int} {x y : ℝ} (h : x ≤ y) (hn : Offset.Nearest n x) (hk : Offset.Nearest k y) : n ≤ k := by
  by_contra c
  rw [not_le] at c
  have c' : (k : ℝ) + 1 ≤ n := by exact_mod_cast c
  have n1 := abs_le.mp hn.1
  have k1 := abs_le.mp hk.1
  have hx : (n : ℝ) - x = 1 / 2 := by linarith
  have hy : (k : ℝ) - y = -(1 / 2) := by linarith
  have hxy : x = y := by linarith
  have a1 := hn.2 (by rw [hx]; norm_num)
  have a2 := hk.2 (by rw [hy]; norm_num)
  rw [hxy] at a1
  rcases le_or_gt 0 y with h0 | h0
  · rw [abs_of_nonneg h0] at a2
    have : (0 : ℝ) ≤ k := by
      have : (-1 : ℝ) < k := by linarith
      have : (-1 : Int) < k := by exact_mod_cast this
      exact_mod_cast (by omega : (0 : Int) ≤ k)
    rw [abs_of_nonneg this] at a2
    linarith
  · rw [abs_of_neg h0] at a1
    have : (n : ℝ) ≤ 0 := by
      have : (n : ℝ) < 1 := by linarith
      have : n < (1 : Int) := by exact_mod_cast this
      exact_mod_cast (by omega : n ≤ (0 : Int))
    rw [abs_of_nonpos this] at a1
    linarith

theorem nearest_unique {n k : Int} {x : ℝ} (hn : Offset.Nearest n x) (hk : Offset.Nearest k x) : n = k :=
  le_antisymm (nearest_mono le_rfl hn hk) (nearest_mono le_rfl hk hn)

theorem nearest_zero : Offset.Nearest 0 0 := by
  refine ⟨by norm_num, fun h => ?_⟩
  norm_num at h

theorem nearest_neg {n : Int} {x : ℝ} (h : Offset.Nearest n x) : Offset.Nearest (-n) (-x) := by
  have e : ((-n : Int) : ℝ) - -x = -((n : ℝ) - x) := by push_cast; ring
  unfold Offset.Nearest
  rw [e, abs_neg, abs_neg]
  refine ⟨h.1, fun c => ?_⟩
  have := h.2 c
  push_cast
  rwa [abs_neg]

theorem nearest_nonneg {n : Int} {x : ℝ} (h : Offset.Nearest n x) (hx : 0 ≤ x) : 0 ≤ n := nearest_mono hx nearest_zero h

theorem nearest_nonpos {n : Int} {x : ℝ} (h : Offset.Nearest n x) (hx : x ≤ 0) : n ≤ 0 := nearest_mono hx h nearest_zero

/-- A vector and its rounded vector. -/
def Rounds (n : Int × Int) (v : Offset.Vec) : Prop := Offset.Nearest n.1 v.1 ∧ Offset.Nearest n.2 v.2

theorem turn_first {u v : Offset.Vec} {n k : Int × Int} (hn : Rounds n u) (hk : Rounds k v) (h1 : 0 < u.1) (h2 : 0 ≤ u.2) (hl : Offset.dot u u = Offset.dot v v)
    (hd : 0 ≤ Offset.dot u v) (hc : 0 ≤ Offset.cross u v) : 0 ≤ n.1 * k.2 - n.2 * k.1 := by
  unfold Offset.dot at hl hd
  unfold Offset.cross at hc
  have n1 := nearest_nonneg hn.1 h1.le
  have n2 := nearest_nonneg hn.2 h2
  rcases le_or_gt 0 v.1 with h | h
  · have h4 : 0 ≤ v.2 := by
      by_contra c
      rw [not_le] at c
      nlinarith [mul_nonneg h2 h, mul_pos_of_neg_of_neg c (neg_lt_zero.mpr h1)]
    have h5 : v.1 ≤ u.1 := by
      by_contra c
      rw [not_le] at c
      have h6 : v.2 < u.2 := by
        by_contra c'
        rw [not_lt] at c'
        nlinarith
      nlinarith
    have h6 : u.2 ≤ v.2 := by
      by_contra c
      rw [not_le] at c
      nlinarith
    have k1 := nearest_nonneg hk.1 h
    have a := nearest_mono h5 hk.1 hn.1
    have b := nearest_mono h6 hn.2 hk.2
    nlinarith
  · have h4 : 0 ≤ v.2 := by
      by_contra c
      rw [not_le] at c
      nlinarith [mul_nonneg h2 (neg_pos.mpr c).le, mul_pos h1 (neg_pos.mpr h)]
    have k1 := nearest_nonpos hk.1 h.le
    have k2 := nearest_nonneg hk.2 h4
    nlinarith [mul_nonneg n1 k2, mul_nonneg n2 (neg_nonneg.mpr k1)]

/-- A vector and the vector turned left by at most a right angle: rounding keeps the direction of the turn. -/
theorem turn_left {u v : Offset.Vec} {n k : Int × Int} (hn : Rounds n u) (hk : Rounds k v) (hl : Offset.dot u u = Offset.dot v v)
    (hd : 0 ≤ Offset.dot u v) (hc : 0 ≤ Offset.cross u v) : 0 ≤ n.1 * k.2 - n.2 * k.1 := by
  by_cases z : u.1 = 0 ∧ u.2 = 0
  · have a : n.1 = 0 := nearest_unique (z.1 ▸ hn.1) nearest_zero
    have b : n.2 = 0 := nearest_unique (z.2 ▸ hn.2) nearest_zero
    rw [a, b]; simp
  have hl' := hl
  have hd' := hd
  have hc' := hc
  unfold Offset.dot at hl' hd'
  unfold Offset.cross at hc'
  rcases le_or_gt u.1 0 with h1 | h1
  · rcases le_or_gt u.2 0 with h2 | h2
    · rcases lt_or_eq_of_le h1 with h1 | h1
      · have := turn_first (u := (-u.1, -u.2)) (v := (-v.1, -v.2)) (n := (-n.1, -n.2)) (k := (-k.1, -k.2)) ⟨nearest_neg hn.1, nearest_neg hn.2⟩
          ⟨nearest_neg hk.1, nearest_neg hk.2⟩ (by dsimp only; linarith) (by dsimp only; linarith) (by unfold Offset.dot; dsimp only; linarith)
          (by unfold Offset.dot; dsimp only; linarith) (by unfold Offset.cross; dsimp only; linarith)
        dsimp only at this
        linarith
      · have h2 : u.2 < 0 := lt_of_le_of_ne h2 fun c => z ⟨h1, c⟩
        have := turn_first (u := (-u.2, u.1)) (v := (-v.2, v.1)) (n := (-n.2, n.1)) (k := (-k.2, k.1)) ⟨nearest_neg hn.2, hn.1⟩
          ⟨nearest_neg hk.2, hk.1⟩ (by dsimp only; linarith) (by dsimp only; linarith) (by unfold Offset.dot; dsimp only; linarith)
          (by unfold Offset.dot; dsimp only; linarith) (by unfold Offset.cross; dsimp only; linarith)
        dsimp only at this
        linarith
    · have := turn_first (u := (u.2, -u.1)) (v := (v.2, -v.1)) (n := (n.2, -n.1)) (k := (k.2, -k.1)) ⟨hn.2, nearest_neg hn.1⟩
        ⟨hk.2, nearest_neg hk.1⟩ (by dsimp only; linarith) (by dsimp only; linarith) (by unfold Offset.dot; dsimp only; linarith)
        (by unfold Offset.dot; dsimp only; linarith) (by unfold Offset.cross; dsimp only; linarith)
      dsimp only at this
      linarith
  · rcases le_or_gt 0 u.2 with h2 | h2
    · exact turn_first hn hk h1 h2 hl hd hc
    · have := turn_first (u := (-u.2, u.1)) (v := (-v.2, v.1)) (n := (-n.2, n.1)) (k := (-k.2, k.1)) ⟨nearest_neg hn.2, hn.1⟩
        ⟨nearest_neg hk.2, hk.1⟩ (by dsimp only; linarith) (by dsimp only; linarith) (by unfold Offset.dot; dsimp only; linarith)
        (by unfold Offset.dot; dsimp only; linarith) (by unfold Offset.cross; dsimp only; linarith)
      dsimp only at this
      linarith

/-! ### Strips and fans -/

/-- The direction in which a shift by `m` winds around what it passes. -/
noncomputable def sgn (m : ℝ) : Int := by classical exact if m < 0 then -1 else 1

theorem sgn_cases (m : ℝ) : (m < 0 ∧ sgn m = -1) ∨ (0 ≤ m ∧ sgn m = 1) := by
  unfold sgn
  rcases lt_or_ge m 0 with h | h
  · left; exact ⟨h, by rw [if_pos h]⟩
  · right; exact ⟨h, by rw [if_neg (not_lt.mpr h)]⟩

theorem sgn_tri {m : ℝ} {p q r : Pt} (h : 0 ≤ sgn m * turn p q r) (x y : Rat) : 0 ≤ sgn m * wind (edges [p, q, r]) x y := by
  rcases sgn_cases m with ⟨-, hs⟩ | ⟨-, hs⟩
  · rw [hs] at h ⊢
    have := tri_wind (p := q) (q := p) (r := r) (by rw [turn_swap]; linarith) x y
    rw [tri_flip] at this
    linarith
  · rw [hs, one_mul] at h ⊢
    exact (tri_wind h x y).1

theorem near_rounds {s p : Pt} {v : Offset.Vec} (h : Offset.Near s p v) : Rounds (s.x - p.x, s.y - p.y) v := by
  unfold Offset.Near at h
  unfold Rounds
  dsimp only
  exact ⟨by exact_mod_cast h.1, by exact_mod_cast h.2⟩

/-- A normal in terms of its line. -/
theorem normal_eq {p q : Pt} {m : ℝ} {v : Offset.Vec} (h : Offset.Normal p q m v) : Offset.dot (Offset.vec p q) (Offset.vec p q) * v.1 = -(Offset.vec p q).2 * Offset.cross (Offset.vec p q) v ∧
    Offset.dot (Offset.vec p q) (Offset.vec p q) * v.2 = (Offset.vec p q).1 * Offset.cross (Offset.vec p q) v := by
  have h1 := h.1
  unfold Offset.dot at h1
  unfold Offset.dot Offset.cross
  constructor
  · linear_combination (Offset.vec p q).1 * h1
  · linear_combination (Offset.vec p q).2 * h1

theorem normal_sign {p q : Pt} (hpq : p ≠ q) {m : ℝ} {v : Offset.Vec} (h : Offset.Normal p q m v) : (m < 0 → 0 ≤ Offset.cross (Offset.vec p q) v) ∧ (0 ≤ m → Offset.cross (Offset.vec p q) v ≤ 0) := by
  have h3 := h.2.2
  refine ⟨fun hm => ?_, fun hm => ?_⟩
  · by_contra c
    rw [not_le] at c
    nlinarith
  · rcases lt_or_eq_of_le hm with hm | hm
    · by_contra c
      rw [not_le] at c
      nlinarith
    · have h2 := h.2.1
      rw [← hm] at h2
      unfold Offset.dot at h2
      have h1 : v.1 = 0 := by nlinarith [mul_self_nonneg v.1, mul_self_nonneg v.2]
      have h2 : v.2 = 0 := by nlinarith [mul_self_nonneg v.1, mul_self_nonneg v.2]
      unfold Offset.cross
      rw [h1, h2]; simp

theorem dot_pos {p q : Pt} (h : p ≠ q) : 0 < Offset.dot (Offset.vec p q) (Offset.vec p q) := by
  unfold Offset.dot
  rcases Offset.vec_ne h with h | h
  · nlinarith [mul_self_pos.mpr h, mul_self_nonneg (Offset.vec p q).2]
  · nlinarith [mul_self_pos.mpr h, mul_self_nonneg (Offset.vec p q).1]

theorem normal_unique {p q : Pt} (hpq : p ≠ q) {m : ℝ} {v w : Offset.Vec} (hv : Offset.Normal p q m v) (hw : Offset.Normal p q m w) : v = w := by
  have hd := dot_pos hpq
  have v1 := normal_eq hv
  have w1 := normal_eq hw
  have cv : Offset.cross (Offset.vec p q) v ^ 2 = Offset.dot (Offset.vec p q) (Offset.vec p q) * (m * m) := by
    have a := hv.1
    have b := hv.2.1
    unfold Offset.dot at a b
    unfold Offset.dot Offset.cross
    linear_combination ((Offset.vec p q).1 ^ 2 + (Offset.vec p q).2 ^ 2) * b - (v.1 * (Offset.vec p q).1 + v.2 * (Offset.vec p q).2) * a
  have cw : Offset.cross (Offset.vec p q) w ^ 2 = Offset.dot (Offset.vec p q) (Offset.vec p q) * (m * m) := by
    have a := hw.1
    have b := hw.2.1
    unfold Offset.dot at a b
    unfold Offset.dot Offset.cross
    linear_combination ((Offset.vec p q).1 ^ 2 + (Offset.vec p q).2 ^ 2) * b - (w.1 * (Offset.vec p q).1 + w.2 * (Offset.vec p q).2) * a
  have sv := normal_sign hpq hv
  have sw := normal_sign hpq hw
  have hc : Offset.cross (Offset.vec p q) v = Offset.cross (Offset.vec p q) w := by
    have e : (Offset.cross (Offset.vec p q) v) ^ 2 = (Offset.cross (Offset.vec p q) w) ^ 2 := by rw [cv, cw]
    rcases sq_eq_sq_iff_eq_or_eq_neg.mp e with e | e
    · exact e
    · rcases lt_or_ge m 0 with hm | hm
      · have := sv.1 hm; have := sw.1 hm; linarith
      · have := sv.2 hm; have := sw.2 hm; linarith
  rw [hc] at v1
  have a : v.1 = w.1 := mul_left_cancel₀ hd.ne' (v1.1.trans w1.1.symm)
  have b : v.2 = w.2 := mul_left_cancel₀ hd.ne' (v1.2.trans w1.2.symm)
  exact Prod.ext a b

/-- The rounded shift of a side goes to the side of the shift. -/
theorem strip_turn {a b s s' : Pt} (hab : a ≠ b) {m : ℝ} {v : Offset.Vec} (hn : Offset.Normal a b m v) (h1 : Offset.Near s a v) (h2 : Offset.Near s' b v) :
    s.x - a.x = s'.x - b.x ∧ s.y - a.y = s'.y - b.y ∧ 0 ≤ sgn m * ((s.x - a.x) * (b.y - a.y) - (s.y - a.y) * (b.x - a.x)) := by
  have r1 := near_rounds h1
  have r2 := near_rounds h2
  have e1 : s.x - a.x = s'.x - b.x := nearest_unique r1.1 r2.1
  have e2 : s.y - a.y = s'.y - b.y := nearest_unique r1.2 r2.2
  refine ⟨e1, e2, ?_⟩
  have hd := dot_pos hab
  have ev := normal_eq hn
  have sv := normal_sign hab hn
  have dx : (Offset.vec a b).1 = ((b.x - a.x : Int) : ℝ) := by unfold Offset.vec; push_cast; rfl
  have dy : (Offset.vec a b).2 = ((b.y - a.y : Int) : ℝ) := by unfold Offset.vec; push_cast; rfl
  rw [dx, dy] at ev
  unfold Rounds at r1
  dsimp only at r1
  generalize b.x - a.x = d1 at *
  generalize b.y - a.y = d2 at *
  generalize s.x - a.x = w1 at *
  generalize s.y - a.y = w2 at *
  generalize Offset.dot (Offset.vec a b) (Offset.vec a b) = D at *
  generalize Offset.cross (Offset.vec a b) v = c at *
  have key : ∀ (w d : Int) (z k : ℝ), Offset.Nearest w z → D * z = d * k → 0 ≤ k → 0 ≤ w * d := by
    intro w d z k hw hz hk
    rcases le_total 0 d with h | h
    · have : 0 ≤ z := by
        have : (0 : ℝ) ≤ d := by exact_mod_cast h
        have := mul_nonneg this hk
        rw [← hz] at this
        exact nonneg_of_mul_nonneg_right this hd
      exact mul_nonneg (nearest_nonneg hw this) h
    · have : z ≤ 0 := by
        have : (d : ℝ) ≤ 0 := by exact_mod_cast h
        have := mul_nonpos_of_nonpos_of_nonneg this hk
        rw [← hz] at this
        exact nonpos_of_mul_nonpos_right this hd
      exact mul_nonneg_of_nonpos_of_nonpos (nearest_nonpos hw this) h
  rcases sgn_cases m with ⟨hm, hs⟩ | ⟨hm, hs⟩
  · rw [hs]
    have c0 := sv.1 hm
    have k1 := key w1 (-d2) v.1 c r1.1 (by rw [ev.1]; push_cast; ring) c0
    have k2 := key w2 d1 v.2 c r1.2 (by rw [ev.2]) c0
    linarith
  · rw [hs]
    have c0 := sv.2 hm
    have k1 := key w1 d2 v.1 (-c) r1.1 (by rw [ev.1]; ring) (by linarith)
    have k2 := key w2 (-d1) v.2 (-c) r1.2 (by rw [ev.2]; push_cast; ring) (by linarith)
    linarith

theorem strip_wind {a b s s' : Pt} (hab : a ≠ b) {m : ℝ} {v : Offset.Vec} (hn : Offset.Normal a b m v) (h1 : Offset.Near s a v) (h2 : Offset.Near s' b v)
    (x y : Rat) : 0 ≤ sgn m * wind (edges [s, s', b, a]) x y := by
  obtain ⟨e1, e2, h⟩ := strip_turn hab hn h1 h2
  rw [quad_wind, mul_add]
  have t1 : turn s s' b = (s.x - a.x) * (b.y - a.y) - (s.y - a.y) * (b.x - a.x) := by
    have f1 : s'.x = b.x + (s.x - a.x) := by linarith
    have f2 : s'.y = b.y + (s.y - a.y) := by linarith
    unfold turn
    rw [f1, f2]; ring
  have t2 : turn s b a = (s.x - a.x) * (b.y - a.y) - (s.y - a.y) * (b.x - a.x) := by
    unfold turn; ring
  exact add_nonneg (sgn_tri (by rw [t1]; exact h) x y) (sgn_tri (by rw [t2]; exact h) x y)

/-- A fan of triangles at a point. -/
theorem fan_chain {m : ℝ} {b : Pt} (x y : Rat) : ∀ (l : List Pt) (p : Pt), (p :: l).IsChain (fun u v => 0 ≤ sgn m * turn u v b) → l ≠ [] →
    0 ≤ sgn m * wind (edges (p :: (l ++ [b]))) x y
  | [], p, _, h => absurd rfl h
  | [q], p, hc, _ => by
    exact sgn_tri (List.isChain_cons_cons.mp hc).1 x y
  | q :: r :: l, p, hc, _ => by
    obtain ⟨h1, h2⟩ := List.isChain_cons_cons.mp hc
    have ih := fan_chain x y (r :: l) q h2 (by simp)
    have h3 := sgn_tri h1 x y
    have e : wind (edges (p :: (q :: r :: l ++ [b]))) x y = wind (edges [p, q, b]) x y + wind (edges (q :: (r :: l ++ [b]))) x y := by
      have e1 : wind (edges (p :: (q :: r :: l ++ [b]))) x y = count (p, q) x y + wind (walk q (r :: l ++ [b])) x y + count (b, p) x y := by
        show wind (walk p ((q :: r :: l ++ [b]) ++ [p])) x y = _
        have : (q :: r :: l ++ [b]) ++ [p] = (q :: r :: l) ++ b :: [p] := by simp
        rw [this, walk_append, wind_append]
        simp [walk, wind]
      have e2 : wind (edges (q :: (r :: l ++ [b]))) x y = wind (walk q (r :: l ++ [b])) x y + count (b, q) x y := by
        show wind (walk q ((r :: l ++ [b]) ++ [q])) x y = _
        have : (r :: l ++ [b]) ++ [q] = (r :: l) ++ b :: [q] := by simp
        rw [this, walk_append, wind_append]
        simp [walk, wind]
      have := count_swap q b x y
      rw [e1, e2]
      simp [edges, walk, wind]
      omega
    rw [e, mul_add]
    exact add_nonneg h3 ih

theorem rot_rel (a d : ℝ) (v : Offset.Vec) : Offset.dot (Offset.rot a v) (Offset.rot (a + d) v) = Real.cos d * Offset.dot v v ∧
    Offset.cross (Offset.rot a v) (Offset.rot (a + d) v) = Real.sin d * Offset.dot v v := by
  have h := Real.sin_sq_add_cos_sq a
  unfold Offset.dot Offset.cross Offset.rot
  dsimp only
  rw [Real.cos_add, Real.sin_add]
  constructor
  · linear_combination (Real.cos d * (v.1 * v.1 + v.2 * v.2)) * h
  · linear_combination (Real.sin d * (v.1 * v.1 + v.2 * v.2)) * h

theorem dot_self_nonneg (v : Offset.Vec) : 0 ≤ Offset.dot v v := by
  unfold Offset.dot; nlinarith [mul_self_nonneg v.1, mul_self_nonneg v.2]

/-- Two points around `b`, the second turned by at most a right angle in the direction of `m`. -/
theorem rot_turn {m : ℝ} {b p q : Pt} {v : Offset.Vec} {a d : ℝ} (h0 : 0 ≤ d) (h1 : d ≤ Real.pi / 2) (hp : Offset.Near p b (Offset.rot a v))
    (hq : Offset.Near q b (Offset.rot (a + (if m < 0 then -1 else 1) * d) v)) : 0 ≤ sgn m * turn p q b := by
  have hv := dot_self_nonneg v
  have hc := Real.cos_nonneg_of_neg_pi_div_two_le_of_le (x := d) (by linarith [Real.pi_pos]) h1
  have hs := Real.sin_nonneg_of_nonneg_of_le_pi (x := d) h0 (by linarith [Real.pi_pos])
  have np := near_rounds hp
  have nq := near_rounds hq
  have hl : Offset.dot (Offset.rot a v) (Offset.rot a v) = Offset.dot (Offset.rot (a + (if m < 0 then -1 else 1) * d) v) (Offset.rot (a + (if m < 0 then -1 else 1) * d) v) := by
    rw [rot_dot, rot_dot]
  have hr := rot_rel a ((if m < 0 then -1 else 1) * d) v
  rcases sgn_cases m with ⟨hm, e⟩ | ⟨hm, e⟩
  · rw [if_pos hm] at *
    rw [neg_one_mul, Real.cos_neg, Real.sin_neg] at hr
    rw [neg_one_mul] at nq hl
    have := turn_left nq np hl.symm (by rw [show Offset.dot (Offset.rot (a + -d) v) (Offset.rot a v) = Offset.dot (Offset.rot a v) (Offset.rot (a + -d) v) by unfold Offset.dot; ring, hr.1]; positivity)
      (by rw [show Offset.cross (Offset.rot (a + -d) v) (Offset.rot a v) = -Offset.cross (Offset.rot a v) (Offset.rot (a + -d) v) by unfold Offset.cross; ring, hr.2]
          have := mul_nonneg hs hv; linarith)
    dsimp only at this
    rw [e]; unfold turn; linarith
  · rw [if_neg (not_lt.mpr hm)] at *
    rw [one_mul] at hr nq hl
    have := turn_left np nq hl (by rw [hr.1]; positivity) (by rw [hr.2]; positivity)
    dsimp only at this
    rw [e, one_mul]; unfold turn; linarith

theorem rot_zero (v : Offset.Vec) : Offset.rot 0 v = v := by unfold Offset.rot; simp

/-- The points of an arc are at equal turns. -/
theorem arc_chain {m : ℝ} {arc : Int} (ha : 0 < arc) (hm : 4 * (arc : ℝ) ≤ 3 * |m|) {a b c s h : Pt} (hbc : b ≠ c) {v w : Offset.Vec} {pts : List Pt}
    (hA : Offset.Arc m arc a b c v pts) (hs : Offset.Near s b v) (hw : Offset.Normal b c m w) (hh : Offset.Near h b w) :
    (s :: (pts ++ [h])).IsChain fun p q => 0 ≤ sgn m * turn p q b := by
  obtain ⟨θ, σ, N, t0, t1, -, rfl, hn, hN, hlen, hk⟩ := hA
  obtain rfl := normal_unique hbc hw hn
  have ha' : (0 : ℝ) < arc := by exact_mod_cast ha
  have hm0 : 0 < |m| := by linarith
  set M := max N 1 with hM
  have hM1 : 1 ≤ M := le_max_right _ _
  have hM0 : (0 : ℝ) < M := by exact_mod_cast hM1
  have hlen' : pts.length + 1 = M := by omega
  have step : θ / M ≤ Real.pi / 2 := by
    rcases Nat.lt_or_ge N 2 with h2 | h2
    · have e : M = 1 := by omega
      rw [e, Nat.cast_one, div_one]
      have : |m| * θ / arc < 2 := by
        have := Nat.lt_floor_add_one (|m| * θ / arc)
        rw [← hN] at this
        have h3 : (N : ℝ) ≤ 1 := by exact_mod_cast (by omega : N ≤ 1)
        linarith
      rw [div_lt_iff₀ ha'] at this
      have h3 : θ < 3 / 2 := by
        by_contra c'
        rw [not_lt] at c'
        nlinarith
      linarith [Real.pi_gt_three]
    · have : (2 : ℝ) ≤ M := by exact_mod_cast (by omega : 2 ≤ M)
      rw [div_le_iff₀ hM0]
      nlinarith [Real.pi_pos]
  have step0 : 0 ≤ θ / M := div_nonneg t0 hM0.le
  have all : ∀ (j : Nat) (z : Pt), (s :: (pts ++ [h]))[j]? = some z → Offset.Near z b (Offset.rot ((if m < 0 then -1 else 1) * (j * (θ / M))) v) := by
    intro j z hz
    cases j with
    | zero =>
      simp at hz
      subst hz
      simp only [Nat.cast_zero, zero_mul, mul_zero, rot_zero]
      exact hs
    | succ j =>
      rw [List.getElem?_cons_succ] at hz
      rcases Nat.lt_or_ge j pts.length with hj | hj
      · rw [List.getElem?_append_left hj] at hz
        have e : M = N := by omega
        have := hk j z hz
        rw [e, ← mul_div_assoc]
        exact this
      · rw [List.getElem?_append_right hj] at hz
        have : j = pts.length := by
          by_contra c'
          have : 1 ≤ j - pts.length := by omega
          rw [List.getElem?_eq_none (by simpa using this)] at hz
          cases hz
        subst this
        simp at hz
        subst hz
        have e : ((pts.length + 1 : Nat) : ℝ) * (θ / M) = θ := by rw [hlen']; field_simp
        rw [e]
        exact hh
  rw [List.isChain_iff_getElem]
  intro j hj
  have h1 := all j _ (List.getElem?_eq_getElem (by omega))
  have h2 := all (j + 1) _ (List.getElem?_eq_getElem hj)
  refine rot_turn (m := m) step0 step h1 ?_
  have e : (if m < 0 then -1 else 1 : ℝ) * (((j + 1 : Nat) : ℝ) * (θ / M)) = (if m < 0 then -1 else 1) * (j * (θ / M)) + (if m < 0 then -1 else 1) * (θ / M) := by
    push_cast; ring
  rw [e] at h2
  exact h2

/-- At a corner that does not turn, the shifts on both sides are the same or opposite. -/
theorem normal_straight {a b c : Pt} (hab : a ≠ b) (hbc : b ≠ c) {m : ℝ} {v w : Offset.Vec} (hv : Offset.Normal a b m v) (hw : Offset.Normal b c m w)
    (h : turn a b c = 0) : w = v ∨ w = (-v.1, -v.2) := by
  have hd := dot_pos hab
  have he := dot_pos hbc
  have hc : (Offset.vec a b).1 * (Offset.vec b c).2 - (Offset.vec a b).2 * (Offset.vec b c).1 = 0 := by
    have : ((turn a b c : Int) : ℝ) = 0 := by rw [h]; simp
    unfold turn at this
    push_cast at this
    unfold Offset.vec
    dsimp only
    linarith
  have pv := hv.1
  have pw := hw.1
  have lv := hv.2.1
  have lw := hw.2.1
  unfold Offset.dot at hd he pv pw lv lw
  -- `w` is at a right angle to the first line, too
  have pw' : w.1 * (Offset.vec a b).1 + w.2 * (Offset.vec a b).2 = 0 := by
    have e1 : (w.1 * (Offset.vec a b).1 + w.2 * (Offset.vec a b).2) * (Offset.vec b c).1 = 0 := by linear_combination (Offset.vec a b).1 * pw - w.2 * hc
    have e2 : (w.1 * (Offset.vec a b).1 + w.2 * (Offset.vec a b).2) * (Offset.vec b c).2 = 0 := by linear_combination (Offset.vec a b).2 * pw + w.1 * hc
    by_contra c'
    have f1 := (mul_eq_zero.mp e1).resolve_left c'
    have f2 := (mul_eq_zero.mp e2).resolve_left c'
    rw [f1, f2] at he
    simp at he
  generalize (Offset.vec a b).1 = d1 at *
  generalize (Offset.vec a b).2 = d2 at *
  -- both are multiples of `(d2, -d1)`
  have cr : v.1 * w.2 - v.2 * w.1 = 0 := by
    have e1 : (v.1 * w.2 - v.2 * w.1) * d1 = 0 := by linear_combination w.2 * pv - v.2 * pw'
    have e2 : (v.1 * w.2 - v.2 * w.1) * d2 = 0 := by linear_combination v.1 * pw' - w.1 * pv
    by_contra c'
    have f1 := (mul_eq_zero.mp e1).resolve_left c'
    have f2 := (mul_eq_zero.mp e2).resolve_left c'
    rw [f1, f2] at hd
    simp at hd
  have dt : (v.1 * w.1 + v.2 * w.2) ^ 2 = (m * m) ^ 2 := by
    have : (v.1 * w.1 + v.2 * w.2) ^ 2 + (v.1 * w.2 - v.2 * w.1) ^ 2 = (v.1 * v.1 + v.2 * v.2) * (w.1 * w.1 + w.2 * w.2) := by ring
    rw [cr, lv, lw] at this
    linarith
  rcases sq_eq_sq_iff_eq_or_eq_neg.mp dt with dt | dt
  · left
    have : (w.1 - v.1) ^ 2 + (w.2 - v.2) ^ 2 = 0 := by linarith
    have h1 : w.1 - v.1 = 0 := by nlinarith [sq_nonneg (w.1 - v.1), sq_nonneg (w.2 - v.2)]
    have h2 : w.2 - v.2 = 0 := by nlinarith [sq_nonneg (w.1 - v.1), sq_nonneg (w.2 - v.2)]
    exact Prod.ext (by linarith) (by linarith)
  · right
    have : (w.1 + v.1) ^ 2 + (w.2 + v.2) ^ 2 = 0 := by linarith
    have h1 : w.1 + v.1 = 0 := by nlinarith [sq_nonneg (w.1 + v.1), sq_nonneg (w.2 + v.2)]
    have h2 : w.2 + v.2 = 0 := by nlinarith [sq_nonneg (w.1 + v.1), sq_nonneg (w.2 + v.2)]
    exact Prod.ext (by dsimp only; linarith) (by dsimp only; linarith)

theorem straight_turn {a b c s h : Pt} (hab : a ≠ b) (hbc : b ≠ c) {m : ℝ} {v w : Offset.Vec} (hv : Offset.Normal a b m v) (hw : Offset.Normal b c m w)
    (h0 : turn a b c = 0) (hs : Offset.Near s b v) (hh : Offset.Near h b w) : turn s h b = 0 := by
  have r1 := near_rounds hs
  have r2 := near_rounds hh
  rcases normal_straight hab hbc hv hw h0 with rfl | rfl
  · have e1 : s.x - b.x = h.x - b.x := nearest_unique r1.1 r2.1
    have e2 : s.y - b.y = h.y - b.y := nearest_unique r1.2 r2.2
    have f1 : s.x = h.x := by linarith
    have f2 : s.y = h.y := by linarith
    unfold turn
    rw [f1, f2]; ring
  · have e1 : -(s.x - b.x) = h.x - b.x := nearest_unique (nearest_neg r1.1) r2.1
    have e2 : -(s.y - b.y) = h.y - b.y := nearest_unique (nearest_neg r1.2) r2.2
    have f1 : h.x = 2 * b.x - s.x := by linarith
    have f2 : h.y = 2 * b.y - s.y := by linarith
    unfold turn
    rw [f1, f2]; ring

/-- What a corner that turns away from the offset adds winds in the direction of the offset. -/
theorem gap_sign {m : ℝ} {arc : Int} (ha : 0 < arc) (hm : 4 * (arc : ℝ) ≤ 3 * |m|) {t : (Pt × Int) × (Pt × Int) × Pt} {g : Gap} (h : g.Of m arc t)
    (hab : t.1.1 ≠ t.2.1.1) (hbc : t.2.1.1 ≠ t.2.2) (ht : 0 ≤ sgn m * turn t.1.1 t.2.1.1 t.2.2) (x y : Rat) :
    0 ≤ sgn m * g.strip x y ∧ 0 ≤ sgn m * g.fan x y := by
  obtain ⟨h1, h2, ⟨v, n1, n2, n3, o1, o2⟩, w, n4, n5⟩ := h
  rw [← h1, ← h2] at hab ht
  rw [← h2] at hbc
  refine ⟨strip_wind hab n1 n2 n3 x y, ?_⟩
  have hm0 : m ≠ 0 := by
    rintro rfl
    have : (0 : ℝ) < arc := by exact_mod_cast ha
    simp at hm
    linarith
  unfold Gap.fan
  have e0 : g.pts ++ [g.h, g.b] = (g.pts ++ [g.h]) ++ [g.b] := by simp
  rw [e0]
  refine fan_chain x y _ _ ?_ (by simp)
  by_cases ho : Offset.Opens m g.a g.b t.2.2
  · exact arc_chain ha hm hbc (o1 ho) n3 n4 n5
  · rw [o2 ho]
    have hz : turn g.a g.b t.2.2 = 0 := by
      by_contra c
      apply ho
      left
      have e : Offset.cross (Offset.vec g.a g.b) (Offset.vec g.b t.2.2) = ((turn g.a g.b t.2.2 : Int) : ℝ) := by
        unfold Offset.cross Offset.vec turn; push_cast; ring
      rw [e]
      rcases sgn_cases m with ⟨s1, s2⟩ | ⟨s1, s2⟩
      · rw [s2] at ht
        have : turn g.a g.b t.2.2 < 0 := by omega
        have : ((turn g.a g.b t.2.2 : Int) : ℝ) < 0 := by exact_mod_cast this
        exact mul_pos_of_neg_of_neg s1 this
      · rw [s2] at ht
        have : 0 < turn g.a g.b t.2.2 := by omega
        have : (0 : ℝ) < ((turn g.a g.b t.2.2 : Int) : ℝ) := by exact_mod_cast this
        exact mul_pos (lt_of_le_of_ne s1 hm0.symm) this
    have := straight_turn hab hbc n1 n4 hz n3 n5
    exact List.isChain_cons_cons.mpr ⟨by rw [this]; simp, by simp⟩

end PolyOps.Exec
