import Verif.Lemmas.Region3

/-! Sums of the changes of a potential over the lines at a vertex. -/
namespace PolyOps

variable {L : List Line}

theorem col_lines (x0 : Int) {y : Rat} (hf : Free L x0 y) :
    ∃ e0 : Rat, 0 < e0 ∧ ∀ e, 0 < e → e < e0 → ∀ s ∈ L,
      (if s.covers (x0 + 1 * e) ∧ s.yAt (x0 + 1 * e) < y then s.dir else 0) -
        (if s.covers (x0 + -1 * e) ∧ s.yAt (x0 + -1 * e) < y then s.dir else 0) =
      (if s.p.x ≠ s.q.x then colAbove x0 y s.p - colAbove x0 y s.q else 0) := by
  apply eventually_list
  intro s hs
  by_cases c : s.p.x = s.q.x
  · refine ⟨1, one_pos, fun e _ _ => ?_⟩
    rw [if_neg (fun h => Line.covers_nv h.1 c), if_neg (fun h => Line.covers_nv h.1 c), if_neg (not_not.mpr c)]; rfl
  · obtain ⟨e0, a, b⟩ := col_line s c x0 y ((hf s hs).1 c)
    refine ⟨e0, a, fun e h0 h1 => ?_⟩
    rw [b e h0 h1, if_pos c]

theorem down_mul (L : List Line) (φ : Wn → Int) (out : Line → Wn) (x y : Rat) :
    (L.map fun l => if l.covers x ∧ l.yAt x < y then l.dir * (φ (l.inner (out l)) - φ (out l)) else 0).sum =
      (L.map fun l => (if l.covers x ∧ l.yAt x < y then l.dir else 0) * jump φ out l).sum :=
  map_sum_congr fun l _ => by unfold jump; split <;> simp

theorem crossAbove_mul (L : List Line) (k : BSet) (x y : Rat) :
    crossAbove L k x y = (L.map fun l => if l.set = k then (if l.covers x ∧ l.yAt x < y then l.dir else 0) else 0).sum := by
  unfold crossAbove
  refine map_sum_congr fun l _ => ?_
  by_cases c : l.set = k <;> simp [c]

/-- Beside a column, at a height: the winding numbers to the right and to the left, and how they are linked to the lines. -/
theorem Arr.col (h : Arr L) {out : Line → Wn} (ho : Outer L out) (x0 : Int) {y : Rat} (hf : Free L x0 y) :
    ∃ R W : Wn,
      (∀ φ : Wn → Int, (L.map fun l => (if l.p.x ≠ l.q.x then colAbove x0 y l.p - colAbove x0 y l.q else 0) * jump φ out l).sum = φ R - φ W) ∧
      (∀ l ∈ vdown L x0 y, ∀ k, (out l).get k = R.get k + ((vdown L x0 y).map fun s => if s.set = k ∧ s.idx > l.idx then (1 : Int) else 0).sum) ∧
      (∀ l ∈ vup L x0 y, ∀ k, (out l).get k = W.get k + ((vup L x0 y).map fun s => if s.set = k ∧ s.idx > l.idx then (1 : Int) else 0).sum) ∧
      R.plus (cnt (vdown L x0 y)) = W.plus (cnt (vup L x0 y)) ∧
      ∀ l ∈ L, colAbove x0 y l.p - colAbove x0 y l.q =
      (if l.p.x ≠ l.q.x then colAbove x0 y l.p - colAbove x0 y l.q else 0) +
      ((if l.p.x = l.q.x ∧ l.p.x = x0 ∧ (l.p.y : Rat) < y ∧ y < l.q.y then 1 else 0) -
        (if l.p.x = l.q.x ∧ l.p.x = x0 ∧ (l.q.y : Rat) < y ∧ y < l.p.y then 1 else 0)) := by
  -- a distance that is small enough for all lines
  have ev : ∃ e1 : Rat, 0 < e1 ∧ ∀ e, 0 < e → e < e1 → ∀ l ∈ L,
      (l ∈ vdown L x0 y → ∀ k, (out l).get k = crossAbove L k (x0 + 1 * e) y + vertStack L k l) ∧
      (l ∈ vup L x0 y → ∀ k, (out l).get k = crossAbove L k (x0 + -1 * e) y + vertStack L k l) := by
    apply eventually_list
    intro l hl
    apply eventually_and
    · by_cases c : l ∈ vdown L x0 y
      · have hc := (List.mem_filter.mp c).2
        simp only [decide_eq_true_eq] at hc
        obtain ⟨e0, a, b⟩ := h.vt_at ho hl hc.1 (y := y) (Or.inl hc.2.2)
        have hlt : l.p.y < l.q.y := by exact_mod_cast hc.2.2.1.trans hc.2.2.2
        have : sgn (l.q.y - l.p.y) = 1 := by unfold sgn; rw [if_neg (by omega)]
        rw [this, hc.2.1] at b
        exact ⟨e0, a, fun e p q _ => b e p q⟩
      · exact ⟨1, one_pos, fun e _ _ x => absurd x c⟩
    · by_cases c : l ∈ vup L x0 y
      · have hc := (List.mem_filter.mp c).2
        simp only [decide_eq_true_eq] at hc
        obtain ⟨e0, a, b⟩ := h.vt_at ho hl hc.1 (y := y) (Or.inr hc.2.2)
        have hlt : l.q.y < l.p.y := by exact_mod_cast hc.2.2.1.trans hc.2.2.2
        have : sgn (l.q.y - l.p.y) = -1 := by unfold sgn; rw [if_pos (by omega)]
        rw [this, hc.2.1] at b
        exact ⟨e0, a, fun e p q _ => b e p q⟩
      · exact ⟨1, one_pos, fun e _ _ x => absurd x c⟩
  obtain ⟨e0, he0, hh⟩ := eventually_and ev (col_lines x0 hf)
  set e := min e0 1 / 2 with he
  have m0 : 0 < min e0 1 := lt_min he0 one_pos
  have e1 : e < 1 := by have := min_le_right e0 1; linarith
  have e2 : e < e0 := by have := min_le_left e0 1; linarith
  have e3 : 0 < e := by linarith
  obtain ⟨hv, hc⟩ := hh e e3 e2
  have gR : Generic L (x0 + 1 * e) := generic_near L x0 1 (Or.inl rfl) e3 e1
  have gL : Generic L (x0 + -1 * e) := generic_near L x0 (-1) (Or.inr rfl) e3 e1
  set R := windAt L (x0 + 1 * e) y with hR
  set W := windAt L (x0 + -1 * e) y with hW
  -- the lines that are not vertical
  have s1 : ∀ φ : Wn → Int, (L.map fun l => (if l.p.x ≠ l.q.x then colAbove x0 y l.p - colAbove x0 y l.q else 0) * jump φ out l).sum = φ R - φ W := by
    intro φ
    have a1 := h.down ho φ gR y
    have a2 := h.down ho φ gL y
    rw [down_mul] at a1 a2
    have : φ R - φ W = (φ R - φ ⟨0, 0⟩) - (φ W - φ ⟨0, 0⟩) := by ring
    rw [this, hR, hW]
    unfold windAt
    rw [← a1, ← a2, map_sum_sub]
    refine map_sum_congr fun l hl => ?_
    rw [← hc l hl]; ring
  have s2 : ∀ k, (L.map fun l => if l.set = k then (if l.p.x ≠ l.q.x then colAbove x0 y l.p - colAbove x0 y l.q else 0) else 0).sum =
      R.get k - W.get k := by
    intro k
    rw [hR, hW, windAt_get, windAt_get, crossAbove_mul, crossAbove_mul, map_sum_sub]
    refine map_sum_congr fun l hl => ?_
    by_cases c : l.set = k
    · rw [if_pos c, if_pos c, if_pos c, hc l hl]
    · simp [c]
  -- the vertical lines
  have split : ∀ l ∈ L, colAbove x0 y l.p - colAbove x0 y l.q =
      (if l.p.x ≠ l.q.x then colAbove x0 y l.p - colAbove x0 y l.q else 0) +
      ((if l.p.x = l.q.x ∧ l.p.x = x0 ∧ (l.p.y : Rat) < y ∧ y < l.q.y then 1 else 0) -
        (if l.p.x = l.q.x ∧ l.p.x = x0 ∧ (l.q.y : Rat) < y ∧ y < l.p.y then 1 else 0)) := by
    intro l hl
    by_cases c : l.p.x = l.q.x
    · rw [if_neg (not_not.mpr c), zero_add, colAbove_vert c (hf l hl).2.1 (hf l hl).2.2]
      simp only [c, true_and]
    · rw [if_pos c, if_neg (fun h => c h.1), if_neg (fun h => c h.1)]; omega
  refine ⟨R, W, s1, fun l hl k => ?_, fun l hl k => ?_, ?_, split⟩
  · rw [(hv l (List.mem_of_mem_filter hl)).1 hl k, vertStack_down h hl, hR, windAt_get]
  · rw [(hv l (List.mem_of_mem_filter hl)).2 hl k, vertStack_up h hl, hW, windAt_get]
  · apply Wn.ext_get
    intro k
    rw [Wn.plus_get, Wn.plus_get, cnt_get, cnt_get]
    have z := closed_sum h.closed k (colAbove x0 y)
    have s2 := s2 k
    have : (L.map fun l => if l.set = k then colAbove x0 y l.q - colAbove x0 y l.p else 0).sum =
        ((vup L x0 y).map fun l => if l.set = k then (1 : Int) else 0).sum -
          ((vdown L x0 y).map fun l => if l.set = k then (1 : Int) else 0).sum -
          (L.map fun l => if l.set = k then (if l.p.x ≠ l.q.x then colAbove x0 y l.p - colAbove x0 y l.q else 0) else 0).sum := by
      unfold vup vdown
      rw [← map_sum_filter L (fun s => s.p.x = s.q.x ∧ s.p.x = x0 ∧ (s.q.y : Rat) < y ∧ y < s.p.y),
        ← map_sum_filter L (fun s => s.p.x = s.q.x ∧ s.p.x = x0 ∧ (s.p.y : Rat) < y ∧ y < s.q.y), map_sum_sub, map_sum_sub]
      refine map_sum_congr fun l hl => ?_
      have := split l hl
      by_cases c : l.set = k
      · simp only [c, if_true]; omega
      · simp [c]
    omega

/-- The changes of a potential over the lines at the places of a column above a height sum up to zero. -/
theorem Arr.col_zero (h : Arr L) {out : Line → Wn} (ho : Outer L out) (φ : Wn → Int) (x0 : Int) {y : Rat} (hf : Free L x0 y) :
    (L.map fun l => (colAbove x0 y l.p - colAbove x0 y l.q) * jump φ out l).sum = 0 := by
  obtain ⟨R, W, s1, hd, hu, tot, split⟩ := h.col ho x0 hf
  have sd : ((vdown L x0 y).map (jump φ out)).sum = φ (R.plus (cnt (vdown L x0 y))) - φ R :=
    vert_tele φ out R _ (fun s hs t ht => h.idx s (List.mem_of_mem_filter hs) t (List.mem_of_mem_filter ht)) (h.nodup.filter _) hd
  have su : ((vup L x0 y).map (jump φ out)).sum = φ (W.plus (cnt (vup L x0 y))) - φ W :=
    vert_tele φ out W _ (fun s hs t ht => h.idx s (List.mem_of_mem_filter hs) t (List.mem_of_mem_filter ht)) (h.nodup.filter _) hu
  have fin : (L.map fun l => (colAbove x0 y l.p - colAbove x0 y l.q) * jump φ out l).sum =
      (L.map fun l => (if l.p.x ≠ l.q.x then colAbove x0 y l.p - colAbove x0 y l.q else 0) * jump φ out l).sum +
        (((vdown L x0 y).map (jump φ out)).sum - ((vup L x0 y).map (jump φ out)).sum) := by
    unfold vup vdown
    rw [← map_sum_filter L (fun s => s.p.x = s.q.x ∧ s.p.x = x0 ∧ (s.q.y : Rat) < y ∧ y < s.p.y),
      ← map_sum_filter L (fun s => s.p.x = s.q.x ∧ s.p.x = x0 ∧ (s.p.y : Rat) < y ∧ y < s.q.y), map_sum_sub, map_sum_add]
    refine map_sum_congr fun l hl => ?_
    conv_lhs => rw [split l hl]
    rw [add_mul, sub_mul]
    congr 1
    congr 1 <;> (split_ifs <;> simp)
  rw [fin, s1, sd, su, tot]; ring

theorem eq_single {α : Type} {l : List α} {a : α} (hn : l.Nodup) (ha : a ∈ l) (h : ∀ s ∈ l, s = a) : l = [a] := by
  cases l with
  | nil => cases ha
  | cons b l =>
    have hb := h b (by simp)
    subst hb
    cases l with
    | nil => rfl
    | cons c l =>
      have hc := h c (by simp)
      subst hc
      simp at hn

/-- A line of a column and its reverse that coincide with no other line have the same winding numbers outside. -/
theorem Arr.spike (h : Arr L) {out : Line → Wn} (ho : Outer L out) {a b : Line} (ha : a ∈ L) (hb : b ∈ L) (hv : a.p.x = a.q.x)
    (h1 : b.p = a.q) (h2 : b.q = a.p) (hs : a.set = b.set) (hc : ∀ s ∈ L, Coincide s a → s = a ∨ s = b) : out a = out b := by
  wlog hy : a.p.y < a.q.y generalizing a b
  · refine (this hb ha (by rw [h1, h2, hv]) h2.symm h1.symm hs.symm (fun s hs c => ?_) ?_).symm
    · refine (hc s hs ?_).symm
      rcases c with ⟨c, d⟩ | ⟨c, d⟩
      · exact Or.inr ⟨c.trans h1, d.trans h2⟩
      · exact Or.inl ⟨c.trans h2, d.trans h1⟩
    · rw [h1, h2]
      have : a.p.y ≠ a.q.y := by
        intro e
        apply h.ne a ha
        cases hp : a.p; cases hq : a.q
        rw [hp, hq] at hv e
        simp only at hv e
        rw [hv, e]
      omega
  have hyr : (a.p.y : Rat) + 1 ≤ a.q.y := by exact_mod_cast hy
  set y : Rat := a.p.y + 1 / 2 with hyd
  have half : ∀ z : Int, (z : Rat) ≠ y := by
    intro z hz
    have l1 : (a.p.y : Rat) < z := by rw [hz, hyd]; linarith
    have l2 : (z : Rat) < (a.p.y : Rat) + 1 := by rw [hz, hyd]; linarith
    have l1 : a.p.y < z := by exact_mod_cast l1
    have l2 : z < a.p.y + 1 := by exact_mod_cast l2
    omega
  have ya : (a.p.y : Rat) < y ∧ y < a.q.y := ⟨by linarith, by linarith⟩
  have hf : Free L a.p.x y := fun l hl => ⟨fun nv sp => h.vert_free ha hl hv nv sp (Or.inl ya), half _, half _⟩
  obtain ⟨R, W, _, hd, hu, tot, _⟩ := h.col ho a.p.x hf
  have md : ∀ s, s ∈ vdown L a.p.x y ↔ s ∈ L ∧ s.p.x = s.q.x ∧ s.p.x = a.p.x ∧ (s.p.y : Rat) < y ∧ y < s.q.y := by
    intro s; unfold vdown; rw [List.mem_filter, decide_eq_true_eq]
  have mu : ∀ s, s ∈ vup L a.p.x y ↔ s ∈ L ∧ s.p.x = s.q.x ∧ s.p.x = a.p.x ∧ (s.q.y : Rat) < y ∧ y < s.p.y := by
    intro s; unfold vup; rw [List.mem_filter, decide_eq_true_eq]
  have hbu : b ∈ vup L a.p.x y := (mu b).mpr ⟨hb, by rw [h1, h2, hv], by rw [h1, hv], by rw [h2]; exact ya.1, by rw [h1]; exact ya.2⟩
  have had : a ∈ vdown L a.p.x y := (md a).mpr ⟨ha, hv, rfl, ya⟩
  have ed : vdown L a.p.x y = [a] := by
    refine eq_single (h.nodup.filter _) had fun s hs => ?_
    obtain ⟨s1, s2, s3, s4, s5⟩ := (md s).mp hs
    rcases hc s s1 (h.vert_same ha s1 hv s2 s3 (Or.inl ya) (Or.inl ⟨s4.le, s5.le⟩)) with e | e
    · exact e
    · rw [e, h1] at s4; exact absurd (s4.trans ya.2) (lt_irrefl _)
  have eu : vup L a.p.x y = [b] := by
    refine eq_single (h.nodup.filter _) hbu fun s hs => ?_
    obtain ⟨s1, s2, s3, s4, s5⟩ := (mu s).mp hs
    rcases hc s s1 (h.vert_same ha s1 hv s2 s3 (Or.inl ya) (Or.inr ⟨s4.le, s5.le⟩)) with e | e
    · rw [e] at s4; exact absurd (s4.trans ya.2) (lt_irrefl _)
    · exact e
  rw [ed, eu] at tot
  apply Wn.ext_get
  intro k
  have t := congrArg (fun w => Wn.get w k) tot
  simp only [Wn.plus_get, cnt_get, List.map_cons, List.map_nil, List.sum_cons, List.sum_nil, hs] at t
  have e1 := hd a had k
  have e2 := hu b hbu k
  rw [ed] at e1
  rw [eu] at e2
  simp only [List.map_cons, List.map_nil, List.sum_cons, List.sum_nil, gt_iff_lt, lt_self_iff_false, and_false, if_false] at e1 e2
  omega

/-- A line starts (`1`) or ends (`-1`) at the place. -/
def ends (c : Pt) (l : Line) : Int := (if l.p = c then 1 else 0) - (if l.q = c then 1 else 0)

theorem near_free (L : List Line) (c : Pt) (σ : Rat) (hσ : σ = 1 ∨ σ = -1) :
    ∃ d0 : Rat, 0 < d0 ∧ ∀ d, 0 < d → d < d0 → Free L c.x (c.y + σ * d) := by
  unfold Free
  apply eventually_list L (P := fun (l : Line) (d : Rat) => (l.p.x ≠ l.q.x → l.spans c.x → l.yAt c.x ≠ c.y + σ * d) ∧
    (l.p.y : Rat) ≠ c.y + σ * d ∧ (l.q.y : Rat) ≠ c.y + σ * d)
  intro l _
  have key : ∀ z : Rat, ∃ d0 : Rat, 0 < d0 ∧ ∀ d, 0 < d → d < d0 → z ≠ c.y + σ * d := by
    intro z
    by_cases e : z = c.y
    · refine ⟨1, one_pos, fun d h0 _ h => ?_⟩
      rcases hσ with rfl | rfl <;> linarith
    · refine ⟨|z - c.y|, abs_pos.mpr (sub_ne_zero.mpr e), fun d h0 h1 h => ?_⟩
      rw [h] at h1
      have : |(c.y : Rat) + σ * d - c.y| = d := by
        rcases hσ with rfl | rfl
        · rw [show (c.y : Rat) + 1 * d - c.y = d by ring, abs_of_pos h0]
        · rw [show (c.y : Rat) + -1 * d - c.y = -d by ring, abs_neg, abs_of_pos h0]
      linarith
  refine eventually_and ?_ (eventually_and (key _) (key _))
  obtain ⟨d0, a, b⟩ := key (l.yAt c.x)
  exact ⟨d0, a, fun d h0 h1 _ _ => b d h0 h1⟩

theorem colAbove_diff (c v : Pt) {d : Rat} (h0 : 0 < d) (h1 : d < 1) :
    colAbove c.x (c.y + 1 * d) v - colAbove c.x (c.y + -1 * d) v = if v = c then 1 else 0 := by
  unfold colAbove
  by_cases hx : v.x = c.x
  · simp only [hx, true_and]
    have e : v = c ↔ v.y = c.y := by
      constructor
      · intro h; rw [h]
      · intro h; cases v; cases c; simp only at hx h; rw [hx, h]
    rw [if_congr e rfl rfl]
    rcases lt_trichotomy v.y c.y with a | a | a
    · have : (v.y : Rat) + 1 ≤ c.y := by exact_mod_cast a
      rw [if_pos (by linarith), if_pos (by linarith), if_neg (by omega)]; rfl
    · rw [if_pos (by rw [a]; linarith), if_neg (by rw [a]; linarith), if_pos a]; rfl
    · have : (c.y : Rat) + 1 ≤ v.y := by exact_mod_cast a
      rw [if_neg (by linarith), if_neg (by linarith), if_neg (by omega)]; rfl
  · have : ¬ v = c := fun h => hx (by rw [h])
    simp [hx, this]

/-- At every place the changes of a potential over the lines starting there sum up to those over the lines ending there. -/
theorem Arr.vertex_zero (h : Arr L) {out : Line → Wn} (ho : Outer L out) (φ : Wn → Int) (c : Pt) :
    (L.map fun l => ends c l * jump φ out l).sum = 0 := by
  obtain ⟨d0, a, b⟩ := eventually_and (near_free L c 1 (Or.inl rfl)) (near_free L c (-1) (Or.inr rfl))
  have m0 : 0 < min d0 1 := lt_min a one_pos
  have e1 : min d0 1 / 2 < 1 := by have := min_le_right d0 1; linarith
  have e2 : min d0 1 / 2 < d0 := by have := min_le_left d0 1; linarith
  obtain ⟨f1, f2⟩ := b (min d0 1 / 2) (by linarith) e2
  have s1 := h.col_zero ho φ c.x f1
  have s2 := h.col_zero ho φ c.x f2
  have : (L.map fun l => ends c l * jump φ out l).sum =
      (L.map fun l => (colAbove c.x (c.y + 1 * (min d0 1 / 2)) l.p - colAbove c.x (c.y + 1 * (min d0 1 / 2)) l.q) * jump φ out l).sum -
      (L.map fun l => (colAbove c.x (c.y + -1 * (min d0 1 / 2)) l.p - colAbove c.x (c.y + -1 * (min d0 1 / 2)) l.q) * jump φ out l).sum := by
    rw [map_sum_sub]
    refine map_sum_congr fun l _ => ?_
    unfold ends
    rw [← colAbove_diff c l.p (by linarith) e1, ← colAbove_diff c l.q (by linarith) e1]; ring
  rw [this, s1, s2, sub_zero]

/-! ### One side of a vertex -/

/-- Direction of a line with an end at the place and the other end to its left. -/
def endsL (c : Pt) (l : Line) : Int := (if l.q = c ∧ l.p.x < c.x then 1 else 0) - (if l.p = c ∧ l.q.x < c.x then 1 else 0)

/-- Direction of a line with an end at the place and the other end to its right. -/
def endsR (c : Pt) (l : Line) : Int := (if l.p = c ∧ c.x < l.q.x then 1 else 0) - (if l.q = c ∧ c.x < l.p.x then 1 else 0)

theorem side_lines (L : List Line) (c : Pt) (σ : Rat) (hσ : σ = 1 ∨ σ = -1) :
    ∃ d0 : Rat, 0 < d0 ∧ ∀ d, 0 < d → d < d0 → ∃ e0 : Rat, 0 < e0 ∧ ∀ e, 0 < e → e < e0 → ∀ s ∈ L,
      (if s.covers (c.x + σ * e) ∧ s.yAt (c.x + σ * e) < c.y + 1 * d then s.dir else 0) -
        (if s.covers (c.x + σ * e) ∧ s.yAt (c.x + σ * e) < c.y + -1 * d then s.dir else 0) =
      (if s.covers (c.x + σ * e) ∧ s.yAt c.x = c.y then s.dir else 0) := by
  have : ∃ d0 : Rat, 0 < d0 ∧ ∀ d, 0 < d → d < d0 → ∀ s ∈ L, ∃ e0 : Rat, 0 < e0 ∧ ∀ e, 0 < e → e < e0 →
      (if s.covers (c.x + σ * e) ∧ s.yAt (c.x + σ * e) < c.y + 1 * d then s.dir else 0) -
        (if s.covers (c.x + σ * e) ∧ s.yAt (c.x + σ * e) < c.y + -1 * d then s.dir else 0) =
      (if s.covers (c.x + σ * e) ∧ s.yAt c.x = c.y then s.dir else 0) := by
    apply eventually_list
    intro s _
    have near : ∃ d0 : Rat, 0 < d0 ∧ ∀ d, 0 < d → d < d0 → s.yAt c.x ≠ c.y + 1 * d ∧ s.yAt c.x ≠ c.y + -1 * d ∧
        (((s.yAt c.x < c.y + 1 * d) ∧ ¬ (s.yAt c.x < c.y + -1 * d)) ↔ s.yAt c.x = c.y) := by
      generalize s.yAt c.x = z
      by_cases e : z = c.y
      · refine ⟨1, one_pos, fun d h0 _ => ?_⟩
        subst e
        refine ⟨by linarith, by linarith, iff_of_true ⟨by linarith, by linarith⟩ rfl⟩
      · refine ⟨|z - c.y|, abs_pos.mpr (sub_ne_zero.mpr e), fun d h0 h1 => ?_⟩
        rcases lt_or_gt_of_ne e with h | h
        · rw [abs_of_neg (by linarith)] at h1
          exact ⟨by linarith, by linarith, iff_of_false (fun q => q.2 (by linarith)) e⟩
        · rw [abs_of_pos (by linarith)] at h1
          exact ⟨by linarith, by linarith, iff_of_false (fun q => by linarith [q.1]) e⟩
    obtain ⟨d0, h0, hd⟩ := near
    refine ⟨d0, h0, fun d a b => ?_⟩
    obtain ⟨n1, n2, n3⟩ := hd d a b
    obtain ⟨e0, q0, q⟩ := eventually_and (near_height s c.x σ _ hσ n1) (near_height s c.x σ _ hσ n2)
    refine ⟨e0, q0, fun e a' b' => ?_⟩
    obtain ⟨m1, m2⟩ := q e a' b'
    rw [if_congr (and_congr Iff.rfl m1) rfl rfl, if_congr (and_congr Iff.rfl m2) rfl rfl]
    by_cases hc : s.covers (c.x + σ * e)
    · simp only [hc, true_and]
      have mono : s.yAt c.x < c.y + -1 * d → s.yAt c.x < c.y + 1 * d := fun h => by linarith
      by_cases p1 : s.yAt c.x < c.y + 1 * d <;> by_cases p2 : s.yAt c.x < c.y + -1 * d
      · rw [if_pos p1, if_pos p2, if_neg (fun e => (n3.mpr e).2 p2), sub_self]
      · rw [if_pos p1, if_neg p2, if_pos (n3.mp ⟨p1, p2⟩), sub_zero]
      · exact absurd (mono p2) p1
      · rw [if_neg p1, if_neg p2, if_neg (fun e => p1 (n3.mpr e).1), sub_self]
    · simp [hc]
  obtain ⟨d0, h0, h1⟩ := this
  exact ⟨d0, h0, fun d a b => eventually_list L (h1 d a b)⟩

theorem pt_eq {v c : Pt} (h1 : (c.x : Rat) = v.x) (h2 : (c.y : Rat) = v.y) : v = c := by
  have a : c.x = v.x := by exact_mod_cast h1
  have b : c.y = v.y := by exact_mod_cast h2
  cases v; cases c; simp only at a b; rw [a, b]

/-- A line that passes a vertex ends there. -/
theorem Arr.end_at (h : Arr L) {s l : Line} (hs : s ∈ L) (hl : l ∈ L) {c : Pt} (hc : l.p = c ∨ l.q = c) (hv : s.p.x ≠ s.q.x)
    (hsp : s.spans c.x) (hy : s.yAt c.x = c.y) : s.p = c ∨ s.q = c := by
  rcases h.planar s hs l hl with q | q
  · rcases q with ⟨a, b⟩ | ⟨a, b⟩ <;> rcases hc with e | e
    · exact Or.inl (a.trans e)
    · exact Or.inr (b.trans e)
    · exact Or.inr (b.trans e)
    · exact Or.inl (a.trans e)
  · have on2 : l.on c.x c.y := by
      rcases hc with e | e
      · exact ⟨0, le_refl _, by norm_num, by rw [e]; ring, by rw [e]; ring⟩
      · exact ⟨1, by norm_num, le_refl _, by rw [e]; ring, by rw [e]; ring⟩
    rcases (q c.x c.y (by rw [← hy]; exact Line.on_of_spans hv hsp) on2).1 with ⟨a, b⟩ | ⟨a, b⟩
    · exact Or.inl (pt_eq a b)
    · exact Or.inr (pt_eq a b)

theorem Arr.right_line (h : Arr L) {s l : Line} (hs : s ∈ L) (hl : l ∈ L) {c : Pt} (hc : l.p = c ∨ l.q = c) {e : Rat} (h0 : 0 < e) (h1 : e < 1) :
    (if s.covers (c.x + 1 * e) ∧ s.yAt c.x = c.y then s.dir else 0) = endsR c s := by
  rw [if_congr (and_congr (covers_right s c.x h0 h1) Iff.rfl) rfl rfl]
  unfold endsR
  by_cases hv : s.p.x = s.q.x
  · rw [if_neg (by omega), if_neg, if_neg]; · rfl
    · rintro ⟨a, b⟩; rw [← a] at b; omega
    · rintro ⟨a, b⟩; rw [← a] at b; omega
  · by_cases q : ((s.p.x ≤ c.x ∧ c.x < s.q.x) ∨ (s.q.x ≤ c.x ∧ c.x < s.p.x)) ∧ s.yAt c.x = c.y
    · rw [if_pos q]
      have hsp : s.spans c.x := by rw [spans_int]; omega
      unfold Line.dir
      rcases h.end_at hs hl hc hv hsp q.2 with a | a
      · have a' : s.p.x = c.x := by rw [a]
        rw [if_pos (by omega), if_pos ⟨a, by omega⟩, if_neg (fun z => by rw [← z.1] at z; omega)]; rfl
      · have a' : s.q.x = c.x := by rw [a]
        rw [if_neg (by omega), if_pos (by omega), if_neg (fun z => by rw [← z.1] at z; omega), if_pos ⟨a, by omega⟩]; rfl
    · rw [if_neg q, if_neg, if_neg]; · rfl
      · rintro ⟨a, b⟩
        refine q ⟨by rw [← a] at b ⊢; omega, ?_⟩
        rw [← a, s.yAt_q hv]
      · rintro ⟨a, b⟩
        refine q ⟨by rw [← a] at b ⊢; omega, ?_⟩
        rw [← a, s.yAt_p]

theorem Arr.left_line (h : Arr L) {s l : Line} (hs : s ∈ L) (hl : l ∈ L) {c : Pt} (hc : l.p = c ∨ l.q = c) {e : Rat} (h0 : 0 < e) (h1 : e < 1) :
    (if s.covers (c.x + -1 * e) ∧ s.yAt c.x = c.y then s.dir else 0) = endsL c s := by
  rw [if_congr (and_congr (covers_left s c.x h0 h1) Iff.rfl) rfl rfl]
  unfold endsL
  by_cases hv : s.p.x = s.q.x
  · rw [if_neg (by omega), if_neg, if_neg]; · rfl
    · rintro ⟨a, b⟩; rw [← a] at b; omega
    · rintro ⟨a, b⟩; rw [← a] at b; omega
  · by_cases q : ((s.p.x < c.x ∧ c.x ≤ s.q.x) ∨ (s.q.x < c.x ∧ c.x ≤ s.p.x)) ∧ s.yAt c.x = c.y
    · rw [if_pos q]
      have hsp : s.spans c.x := by rw [spans_int]; omega
      unfold Line.dir
      rcases h.end_at hs hl hc hv hsp q.2 with a | a
      · have a' : s.p.x = c.x := by rw [a]
        rw [if_neg (by omega), if_pos (by omega), if_neg (fun z => by rw [← z.1] at z; omega), if_pos ⟨a, by omega⟩]; rfl
      · have a' : s.q.x = c.x := by rw [a]
        rw [if_pos (by omega), if_pos ⟨a, by omega⟩, if_neg (fun z => by rw [← z.1] at z; omega)]; rfl
    · rw [if_neg q, if_neg, if_neg]; · rfl
      · rintro ⟨a, b⟩
        refine q ⟨by rw [← a] at b ⊢; omega, ?_⟩
        rw [← a, s.yAt_p]
      · rintro ⟨a, b⟩
        refine q ⟨by rw [← a] at b ⊢; omega, ?_⟩
        rw [← a, s.yAt_q hv]

/-- On one side of a vertex the changes of a potential sum up to the difference of its values below and above; the winding numbers
there differ by the directions of the lines. -/
theorem Arr.side (h : Arr L) {out : Line → Wn} (ho : Outer L out) (c : Pt) (σ : Rat) (hσ : σ = 1 ∨ σ = -1) (E : Line → Int)
    (hE : ∀ e : Rat, 0 < e → e < 1 → ∀ s ∈ L, (if s.covers (c.x + σ * e) ∧ s.yAt c.x = c.y then s.dir else 0) = E s) :
    ∃ w1 w2 : Wn, (∀ φ, (L.map fun l => E l * jump φ out l).sum = φ w2 - φ w1) ∧
      ∀ k, w2.get k - w1.get k = (L.map fun l => if l.set = k then E l else 0).sum := by
  obtain ⟨d0, hd0, hd⟩ := side_lines L c σ hσ
  obtain ⟨e0, he0, he⟩ := hd (d0 / 2) (by linarith) (by linarith)
  have m0 : 0 < min e0 1 := lt_min he0 one_pos
  have e1 : min e0 1 / 2 < 1 := by have := min_le_right e0 1; linarith
  have e2 : min e0 1 / 2 < e0 := by have := min_le_left e0 1; linarith
  have e3 : 0 < min e0 1 / 2 := by linarith
  generalize min e0 1 / 2 = e at *
  have he := he e e3 e2
  have g := generic_near L c.x σ hσ e3 e1
  refine ⟨windAt L (c.x + σ * e) (c.y + -1 * (d0 / 2)), windAt L (c.x + σ * e) (c.y + 1 * (d0 / 2)), fun φ => ?_, fun k => ?_⟩
  · have a1 := h.down ho φ g (c.y + 1 * (d0 / 2))
    have a2 := h.down ho φ g (c.y + -1 * (d0 / 2))
    rw [down_mul] at a1 a2
    have : ∀ a b z : Int, a - b = (a - z) - (b - z) := by intros; ring
    rw [this _ _ (φ ⟨0, 0⟩)]
    unfold windAt
    rw [← a1, ← a2, map_sum_sub]
    refine map_sum_congr fun l hl => ?_
    rw [← sub_mul, he l hl, hE e e3 e1 l hl]
  · rw [windAt_get, windAt_get, crossAbove_mul, crossAbove_mul, map_sum_sub]
    refine map_sum_congr fun l hl => ?_
    by_cases q : l.set = k
    · simp only [q, if_true]; rw [he l hl, hE e e3 e1 l hl]
    · simp [q]

/-- Changes of every potential determine the winding numbers. -/
theorem out_eq_of_jump {a b : Line} {out : Line → Wn} (hs : a.set = b.set) (h : ∀ φ, jump φ out a = jump φ out b) : out a = out b := by
  unfold jump at h
  unfold Line.inner at h
  rw [← hs] at h
  generalize out a = wa at *
  generalize out b = wb at *
  obtain ⟨as, ac⟩ := wa
  obtain ⟨bs, bc⟩ := wb
  cases hk : a.set with
  | subject =>
    have := h (fun w => if w.s > as ∧ w.c = ac then 1 else 0)
    simp only [innerS, innerC, hk, if_true, reduceCtorEq, if_false] at this
    have c1 : as + 1 > as ∧ True := ⟨by omega, trivial⟩
    have c2 : ¬ (as > as ∧ True) := by omega
    rw [if_pos c1, if_neg c2] at this
    split_ifs at this with p q
    · omega
    · have e1 : bs = as := by omega
      rw [e1, p.2]
    · omega
    · omega
  | clip =>
    have := h (fun w => if w.c > ac ∧ w.s = as then 1 else 0)
    simp only [innerS, innerC, hk, if_true, reduceCtorEq, if_false] at this
    have c1 : ac + 1 > ac ∧ True := ⟨by omega, trivial⟩
    have c2 : ¬ (ac > ac ∧ True) := by omega
    rw [if_pos c1, if_neg c2] at this
    split_ifs at this with p q
    · omega
    · have e1 : bc = ac := by omega
      rw [e1, p.2]
    · omega
    · omega

end PolyOps
