import Verif.Lemmas.Region2

/-! Winding numbers on both sides of a column of vertices. -/
namespace PolyOps

variable {L : List Line}

/-- `y` is not the height of a line at the column `x0`, nor of an end of a line. -/
def Free (L : List Line) (x0 : Int) (y : Rat) : Prop :=
  ∀ l ∈ L, (l.p.x ≠ l.q.x → l.spans x0 → l.yAt x0 ≠ y) ∧ (l.p.y : Rat) ≠ y ∧ (l.q.y : Rat) ≠ y

/-- A place in the column above height `y`. -/
def colAbove (x0 : Int) (y : Rat) (v : Pt) : Int := if v.x = x0 ∧ (v.y : Rat) < y then 1 else 0

/-- Change of a potential over a line. -/
def jump (φ : Wn → Int) (out : Line → Wn) (l : Line) : Int := φ (l.inner (out l)) - φ (out l)

theorem near_height (s : Line) (x0 σ y : Rat) (hσ : σ = 1 ∨ σ = -1) (h : s.yAt x0 ≠ y) :
    ∃ e0 : Rat, 0 < e0 ∧ ∀ e, 0 < e → e < e0 → (s.yAt (x0 + σ * e) < y ↔ s.yAt x0 < y) := by
  have hd : 0 < |y - s.yAt x0| := abs_pos.mpr (fun c => h (by linarith))
  have hs : 0 < |s.slope| + 1 := by positivity
  refine ⟨|y - s.yAt x0| / (|s.slope| + 1), div_pos hd hs, fun e h0 h1 => ?_⟩
  rw [lt_div_iff₀ hs] at h1
  rw [s.yAt_affine (x0 + σ * e) x0]
  have hb : |σ * e * s.slope| < |y - s.yAt x0| := by
    rw [abs_mul, abs_mul, abs_of_pos h0]
    have : |σ| = 1 := by rcases hσ with rfl | rfl <;> simp
    rw [this]; nlinarith [abs_nonneg s.slope]
  have e1 : x0 + σ * e - x0 = σ * e := by ring
  rw [e1]
  obtain ⟨b1, b2⟩ := abs_lt.mp hb
  constructor
  · intro c
    by_contra d
    rw [abs_of_nonpos (by linarith)] at b1 b2
    linarith
  · intro c
    rw [abs_of_pos (by linarith)] at b1 b2
    linarith

theorem covers_right (s : Line) (x0 : Int) {e : Rat} (h0 : 0 < e) (h1 : e < 1) :
    s.covers (x0 + 1 * e) ↔ (s.p.x ≤ x0 ∧ x0 < s.q.x) ∨ (s.q.x ≤ x0 ∧ x0 < s.p.x) := by
  unfold Line.covers
  rw [cover_near _ _ _ 1 (Or.inl rfl) e h0 h1, cover_near _ _ _ 1 (Or.inl rfl) e h0 h1]
  have : ((1 : Rat) = -1) ↔ False := by norm_num
  simp only [this, and_false, or_false, and_true]
  omega

theorem covers_left (s : Line) (x0 : Int) {e : Rat} (h0 : 0 < e) (h1 : e < 1) :
    s.covers (x0 + -1 * e) ↔ (s.p.x < x0 ∧ x0 ≤ s.q.x) ∨ (s.q.x < x0 ∧ x0 ≤ s.p.x) := by
  unfold Line.covers
  rw [cover_near _ _ _ (-1) (Or.inr rfl) e h0 h1, cover_near _ _ _ (-1) (Or.inr rfl) e h0 h1]
  have : ((-1 : Rat) = 1) ↔ False := by norm_num
  simp only [this, and_false, or_false, and_true]
  omega

theorem spans_int (s : Line) (x0 : Int) : s.spans x0 ↔ (s.p.x ≤ x0 ∧ x0 ≤ s.q.x) ∨ (s.q.x ≤ x0 ∧ x0 ≤ s.p.x) := by
  unfold Line.spans; norm_cast

/-- A line that is not vertical, to the right and to the left of the column. -/
theorem col_line (s : Line) (hv : s.p.x ≠ s.q.x) (x0 : Int) (y : Rat) (hy : s.spans x0 → s.yAt x0 ≠ y) :
    ∃ e0 : Rat, 0 < e0 ∧ ∀ e, 0 < e → e < e0 →
      (if s.covers (x0 + 1 * e) ∧ s.yAt (x0 + 1 * e) < y then s.dir else 0) -
        (if s.covers (x0 + -1 * e) ∧ s.yAt (x0 + -1 * e) < y then s.dir else 0) = colAbove x0 y s.p - colAbove x0 y s.q := by
  by_cases hs : s.spans x0
  · obtain ⟨e0, a, b⟩ := eventually_and (near_height s x0 1 y (Or.inl rfl) (hy hs)) (near_height s x0 (-1) y (Or.inr rfl) (hy hs))
    refine ⟨min e0 1, lt_min a one_pos, fun e h0 h1 => ?_⟩
    have h2 : e < 1 := lt_of_lt_of_le h1 (min_le_right _ _)
    obtain ⟨b1, b2⟩ := b e h0 (lt_of_lt_of_le h1 (min_le_left _ _))
    rw [if_congr (and_congr (covers_right s x0 h0 h2) b1) rfl rfl, if_congr (and_congr (covers_left s x0 h0 h2) b2) rfl rfl]
    have hp : s.p.x = x0 → ((s.p.y : Rat) < y ↔ s.yAt x0 < y) := by intro e; rw [← e, s.yAt_p]
    have hq : s.q.x = x0 → ((s.q.y : Rat) < y ↔ s.yAt x0 < y) := by intro e; rw [← e, s.yAt_q hv]
    unfold colAbove Line.dir
    rw [spans_int] at hs
    by_cases c : s.yAt x0 < y
    · simp only [c, iff_true] at hp hq
      simp only [c, and_true]
      have e1 : (s.p.x = x0 ∧ (s.p.y : Rat) < y) ↔ s.p.x = x0 := and_iff_left_of_imp hp
      have e2 : (s.q.x = x0 ∧ (s.q.y : Rat) < y) ↔ s.q.x = x0 := and_iff_left_of_imp hq
      simp only [e1, e2]
      clear hp hq e1 e2 b b1 b2 hy
      split_ifs <;> omega
    · simp only [c, iff_false] at hp hq
      have e1 : ¬ (s.p.x = x0 ∧ (s.p.y : Rat) < y) := fun h => hp h.1 h.2
      have e2 : ¬ (s.q.x = x0 ∧ (s.q.y : Rat) < y) := fun h => hq h.1 h.2
      simp [c, e1, e2]
  · refine ⟨1, one_pos, fun e h0 h1 => ?_⟩
    rw [spans_int] at hs
    have c1 : ¬ s.covers (x0 + 1 * e) := by rw [covers_right s x0 h0 h1]; omega
    have c2 : ¬ s.covers (x0 + -1 * e) := by rw [covers_left s x0 h0 h1]; omega
    rw [if_neg (fun h => c1 h.1), if_neg (fun h => c2 h.1)]
    unfold colAbove
    rw [if_neg (by omega), if_neg (by omega)]

/-- The winding numbers at a place. -/
def windAt (L : List Line) (x y : Rat) : Wn := ⟨crossAbove L .subject x y, crossAbove L .clip x y⟩

theorem windAt_get (L : List Line) (x y : Rat) (k : BSet) : (windAt L x y).get k = crossAbove L k x y := by cases k <;> rfl

theorem colAbove_vert {s : Line} {x0 : Int} {y : Rat} (h : s.p.x = s.q.x) (hp : (s.p.y : Rat) ≠ y) (hq : (s.q.y : Rat) ≠ y) :
    colAbove x0 y s.p - colAbove x0 y s.q =
      (if s.p.x = x0 ∧ (s.p.y : Rat) < y ∧ y < s.q.y then 1 else 0) - (if s.p.x = x0 ∧ (s.q.y : Rat) < y ∧ y < s.p.y then 1 else 0) := by
  unfold colAbove
  rw [← h]
  by_cases c : s.p.x = x0
  · simp only [c, true_and]
    rcases lt_or_gt_of_ne hp with a | a <;> rcases lt_or_gt_of_ne hq with b | b <;>
      simp [a, b, not_lt_of_gt a, not_lt_of_gt b]
  · simp [c]

/-- Vertical lines through a place: those going down and those going up. -/
def vdown (L : List Line) (x0 : Int) (y : Rat) : List Line :=
  L.filter fun s => decide (s.p.x = s.q.x ∧ s.p.x = x0 ∧ (s.p.y : Rat) < y ∧ y < s.q.y)
def vup (L : List Line) (x0 : Int) (y : Rat) : List Line :=
  L.filter fun s => decide (s.p.x = s.q.x ∧ s.p.x = x0 ∧ (s.q.y : Rat) < y ∧ y < s.p.y)

/-- Numbers of lines of each set. -/
def cnt (M : List Line) : Wn :=
  ⟨(M.map fun l => if l.set = .subject then (1 : Int) else 0).sum, (M.map fun l => if l.set = .clip then (1 : Int) else 0).sum⟩

theorem cnt_get (M : List Line) (k : BSet) : (cnt M).get k = (M.map fun l => if l.set = k then (1 : Int) else 0).sum := by
  cases k <;> rfl

def Wn.plus (a b : Wn) : Wn := ⟨a.s + b.s, a.c + b.c⟩

theorem Wn.plus_get (a b : Wn) (k : BSet) : (a.plus b).get k = a.get k + b.get k := by cases k <;> rfl

theorem cnt_append (M N : List Line) : cnt (M ++ N) = (cnt M).plus (cnt N) := by simp [cnt, Wn.plus]

theorem Wn.plus_assoc (a b c : Wn) : (a.plus b).plus c = a.plus (b.plus c) := by
  simp [Wn.plus, Int.add_assoc]

theorem inner_eq (l : Line) (w : Wn) : l.inner w = w.plus (cnt [l]) := by
  unfold Line.inner Wn.plus cnt innerS innerC
  cases h : l.set <;> simp [h]

theorem vstack_tele (φ : Wn → Int) (out : Line → Wn) (w : Wn) (M : List Line)
    (ho : ∀ pre l suf, M = pre ++ l :: suf → out l = w.plus (cnt pre)) :
    ∀ pre suf, M = pre ++ suf → (suf.map (jump φ out)).sum = φ (w.plus (cnt M)) - φ (w.plus (cnt pre))
  | pre, [], e => by rw [List.append_nil] at e; rw [e]; simp
  | pre, l :: suf, e => by
    rw [List.map_cons, List.sum_cons, vstack_tele φ out w M ho (pre ++ [l]) suf (by rw [e]; simp)]
    unfold jump
    rw [inner_eq, ho pre l suf e, cnt_append, Wn.plus_assoc]
    ring

theorem exists_sorted_idx (M : List Line) (hi : IdxInj M) (hn : M.Nodup) :
    ∃ N : List Line, N.Perm M ∧ N.Pairwise (fun a b => a.idx > b.idx) := by
  haveI : Std.Total (fun a b : Line => a.idx ≥ b.idx) := ⟨fun a b => by rcases le_total a.idx b.idx with h | h <;> tauto⟩
  haveI : IsTrans Line (fun a b : Line => a.idx ≥ b.idx) := ⟨fun a b c h h' => le_trans h' h⟩
  have hp := List.perm_insertionSort (fun a b : Line => a.idx ≥ b.idx) M
  refine ⟨M.insertionSort (fun a b : Line => a.idx ≥ b.idx), hp, ?_⟩
  have h1 := List.pairwise_insertionSort (fun a b : Line => a.idx ≥ b.idx) M
  have h2 : (M.insertionSort (fun a b : Line => a.idx ≥ b.idx)).Pairwise (· ≠ ·) := hp.nodup_iff.mpr hn
  refine List.Pairwise.imp_of_mem ?_ (h1.and h2)
  intro a b ha hb hab
  refine lt_of_le_of_ne hab.1 fun e => hab.2 ?_
  exact (hi b (hp.subset hb) a (hp.subset ha) e).symm

/-- A stack of coincident vertical lines. -/
theorem vert_tele (φ : Wn → Int) (out : Line → Wn) (w : Wn) (M : List Line) (hi : IdxInj M) (hn : M.Nodup)
    (ho : ∀ l ∈ M, ∀ k, (out l).get k = w.get k + (M.map fun s => if s.set = k ∧ s.idx > l.idx then (1 : Int) else 0).sum) :
    (M.map (jump φ out)).sum = φ (w.plus (cnt M)) - φ w := by
  obtain ⟨N, hp, hs⟩ := exists_sorted_idx M hi hn
  have hc : cnt N = cnt M := by
    apply Wn.ext_get; intro k; rw [cnt_get, cnt_get, (hp.map _).sum_eq]
  have := vstack_tele φ out w N ?_ [] N rfl
  · rw [← (hp.map _).sum_eq, this, hc]; simp [cnt, Wn.plus]
  · intro pre l suf e
    apply Wn.ext_get
    intro k
    rw [ho l (hp.subset (by rw [e]; simp)) k, Wn.plus_get, cnt_get, ← (hp.map _).sum_eq, e]
    rw [e] at hs
    obtain ⟨_, hs2, hs3⟩ := List.pairwise_append.mp hs
    obtain ⟨hs4, _⟩ := List.pairwise_cons.mp hs2
    rw [List.map_append, List.sum_append, List.map_cons, List.sum_cons]
    have z2 : (suf.map fun s => if s.set = k ∧ s.idx > l.idx then (1 : Int) else 0).sum = 0 := by
      apply List.sum_eq_zero
      intro v hv
      obtain ⟨s, hs, rfl⟩ := List.mem_map.mp hv
      rw [if_neg]
      have := hs4 s hs
      omega
    rw [z2, if_neg (by omega), add_zero, add_zero]
    congr 1
    refine map_sum_congr fun s hs => ?_
    have : s.idx > l.idx := hs3 s hs l (by simp)
    simp [this]

/-! ### Vertical lines -/

/-- No line but a coincident one has an inner place of a vertical line. -/
theorem Arr.vert_free (h : Arr L) {l s : Line} (hl : l ∈ L) (hs : s ∈ L) (hv : l.p.x = l.q.x) (hsv : s.p.x ≠ s.q.x)
    (hsp : s.spans l.p.x) {y : Rat} (hy : ((l.p.y : Rat) < y ∧ y < l.q.y) ∨ ((l.q.y : Rat) < y ∧ y < l.p.y)) :
    s.yAt l.p.x ≠ y := by
  intro e
  rcases h.planar s hs l hl with c | c
  · exact absurd hv (c.nv.mp hsv)
  · have := (c l.p.x y (by rw [← e]; exact Line.on_of_spans hsv hsp)
      (Line.on_vert hv (by rcases hy with ⟨a, b⟩ | ⟨a, b⟩; exact Or.inl ⟨a.le, b.le⟩; exact Or.inr ⟨a.le, b.le⟩))).2
    rcases this with ⟨_, d⟩ | ⟨_, d⟩ <;> rcases hy with ⟨a, b⟩ | ⟨a, b⟩ <;> rw [d] at a b <;>
      first | exact lt_irrefl _ a | exact lt_irrefl _ b

/-- The outer winding numbers of a vertical line are those beside every part of it. -/
theorem Arr.vt_at (h : Arr L) {out : Line → Wn} (ho : Outer L out) {l : Line} (hl : l ∈ L) (hv : l.p.x = l.q.x)
    {y : Rat} (hy : ((l.p.y : Rat) < y ∧ y < l.q.y) ∨ ((l.q.y : Rat) < y ∧ y < l.p.y)) :
    ∃ e0 : Rat, 0 < e0 ∧ ∀ e, 0 < e → e < e0 → ∀ k,
      (out l).get k = crossAbove L k (l.p.x + sgn (l.q.y - l.p.y) * e) y + vertStack L k l := by
  obtain ⟨d0, hd0, hd⟩ := ho.vt l hl hv
  set σ := sgn (l.q.y - l.p.y) with hσ
  have hso := sgn_or (l.q.y - l.p.y)
  rw [← hσ] at hso
  set d := min d0 1 / 2 with hdd
  have m0 : 0 < min d0 1 := lt_min hd0 one_pos
  have d1 : d < 1 := by have := min_le_right d0 1; linarith
  obtain ⟨e0, he0, he⟩ := hd d (by linarith) (by have := min_le_left d0 1; linarith)
  set y' : Rat := l.p.y + σ * d with hy'
  have hyy : ((l.p.y : Rat) < y' ∧ y' < l.q.y) ∨ ((l.q.y : Rat) < y' ∧ y' < l.p.y) := by
    rcases hy with ⟨a, b⟩ | ⟨a, b⟩
    · have c : l.p.y < l.q.y := by exact_mod_cast a.trans b
      have : σ = 1 := by rw [hσ]; unfold sgn; rw [if_neg (by omega)]
      have c : (l.p.y : Rat) + 1 ≤ l.q.y := by exact_mod_cast c
      left; rw [hy', this]; constructor <;> linarith
    · have c : l.q.y < l.p.y := by exact_mod_cast a.trans b
      have : σ = -1 := by rw [hσ]; unfold sgn; rw [if_pos (by omega)]
      have c : (l.q.y : Rat) + 1 ≤ l.p.y := by exact_mod_cast c
      right; rw [hy', this]; constructor <;> linarith
  have ev : ∃ e1 : Rat, 0 < e1 ∧ ∀ e, 0 < e → e < e1 → ∀ s ∈ L,
      ((s.covers (l.p.x + σ * e) ∧ s.yAt (l.p.x + σ * e) < y') ↔ (s.covers (l.p.x + σ * e) ∧ s.yAt (l.p.x + σ * e) < y)) := by
    apply eventually_list
    intro s hs
    by_cases hsv : s.p.x = s.q.x
    · exact ⟨1, one_pos, fun e _ _ => by
        constructor <;> (rintro ⟨c, _⟩; exact absurd hsv (Line.covers_nv c))⟩
    by_cases hsp : s.spans l.p.x
    · have f1 := h.vert_free hl hs hv hsv hsp hy
      have f2 := h.vert_free hl hs hv hsv hsp hyy
      obtain ⟨e1, he1, hh⟩ := eventually_and (near_height s l.p.x σ y hso f1) (near_height s l.p.x σ y' hso f2)
      refine ⟨e1, he1, fun e a b => ?_⟩
      obtain ⟨q1, q2⟩ := hh e a b
      rw [q1, q2]
      have : s.yAt l.p.x < y' ↔ s.yAt l.p.x < y := by
        have out : ∀ z : Rat, s.yAt l.p.x = z → ¬ (((l.p.y : Rat) < z ∧ z < l.q.y) ∨ ((l.q.y : Rat) < z ∧ z < l.p.y)) :=
          fun z hz hc => h.vert_free hl hs hv hsv hsp hc hz
        have := out _ rfl
        generalize s.yAt l.p.x = z at *
        rcases hy with ⟨a, b⟩ | ⟨a, b⟩ <;> rcases hyy with ⟨a', b'⟩ | ⟨a', b'⟩
        · constructor <;> (intro c; by_contra d; exact this (Or.inl ⟨by linarith [not_lt.mp d], by linarith [not_lt.mp d]⟩))
        · linarith
        · linarith
        · constructor <;> (intro c; by_contra d; exact this (Or.inr ⟨by linarith [not_lt.mp d], by linarith [not_lt.mp d]⟩))
      rw [this]
    · refine ⟨1, one_pos, fun e a b => ?_⟩
      have : ¬ s.covers (l.p.x + σ * e) := by
        rw [spans_int] at hsp
        rcases hso with q | q <;> rw [q]
        · rw [covers_right s _ a b]; omega
        · rw [covers_left s _ a b]; omega
      simp [this]
  obtain ⟨e1, he1, hh⟩ := ev
  refine ⟨min e0 e1, lt_min he0 he1, fun e a b k => ?_⟩
  rw [he e a (lt_of_lt_of_le b (min_le_left _ _)) k]
  congr 1
  unfold crossAbove
  refine map_sum_congr fun s hs => ?_
  have := hh e a (lt_of_lt_of_le b (min_le_right _ _)) s hs
  rw [if_congr (and_congr Iff.rfl this) rfl rfl]

/-- Vertical lines with a common inner place coincide. -/
theorem Arr.vert_same (h : Arr L) {l s : Line} (hl : l ∈ L) (hs : s ∈ L) (hv : l.p.x = l.q.x) (hsv : s.p.x = s.q.x)
    (hx : s.p.x = l.p.x) {y : Rat} (hy : ((l.p.y : Rat) < y ∧ y < l.q.y) ∨ ((l.q.y : Rat) < y ∧ y < l.p.y))
    (hy' : ((s.p.y : Rat) ≤ y ∧ y ≤ s.q.y) ∨ ((s.q.y : Rat) ≤ y ∧ y ≤ s.p.y)) : Coincide s l := by
  rcases h.planar s hs l hl with c | c
  · exact c
  · exfalso
    have := (c l.p.x y (by rw [← hx]; exact Line.on_vert hsv hy')
      (Line.on_vert hv (by rcases hy with ⟨a, b⟩ | ⟨a, b⟩; exact Or.inl ⟨a.le, b.le⟩; exact Or.inr ⟨a.le, b.le⟩))).2
    rcases this with ⟨_, d⟩ | ⟨_, d⟩ <;> rcases hy with ⟨a, b⟩ | ⟨a, b⟩ <;> rw [d] at a b <;>
      first | exact lt_irrefl _ a | exact lt_irrefl _ b

theorem vertStack_down (h : Arr L) {x0 : Int} {y : Rat} {l : Line} (hl : l ∈ vdown L x0 y) (k : BSet) :
    vertStack L k l = ((vdown L x0 y).map fun s => if s.set = k ∧ s.idx > l.idx then (1 : Int) else 0).sum := by
  obtain ⟨hl, hc⟩ := List.mem_filter.mp hl
  simp only [decide_eq_true_eq] at hc
  unfold vdown
  rw [← map_sum_filter L (fun s => s.p.x = s.q.x ∧ s.p.x = x0 ∧ (s.p.y : Rat) < y ∧ y < s.q.y)]
  unfold vertStack
  refine map_sum_congr fun s hs => ?_
  rw [← ite_and]
  refine if_congr ?_ rfl rfl
  have hlt : l.p.y < l.q.y := by exact_mod_cast hc.2.2.1.trans hc.2.2.2
  constructor
  · rintro ⟨a, b, c, d, e⟩
    have d' : s.p.y < s.q.y := d.mpr hlt
    have hco : Coincide s l := by
      refine h.vert_same hl hs hc.1 c.symm (by rw [b]) (y := l.p.y + 1 / 2) (Or.inl ⟨by linarith, ?_⟩) (Or.inl ⟨?_, ?_⟩)
      · have : (l.p.y : Rat) + 1 ≤ l.q.y := by exact_mod_cast hlt
        linarith
      · rw [b]; linarith
      · have : (s.p.y : Rat) + 1 ≤ s.q.y := by exact_mod_cast d'
        rw [b] at this; linarith
    rcases hco with ⟨f, g⟩ | ⟨f, g⟩
    · exact ⟨⟨c.symm, by rw [b]; exact hc.2.1, by rw [b]; exact hc.2.2.1, by rw [g]; exact hc.2.2.2⟩, a, e⟩
    · exfalso; rw [f, g] at d'; omega
  · rintro ⟨⟨a, b, c, d⟩, e, f⟩
    have d' : s.p.y < s.q.y := by exact_mod_cast c.trans d
    rcases h.vert_same hl hs hc.1 a (by rw [b, hc.2.1]) (Or.inl hc.2.2) (Or.inl ⟨c.le, d.le⟩) with ⟨p, q⟩ | ⟨p, q⟩
    · exact ⟨e, p, a.symm, by constructor <;> (intro; assumption), f⟩
    · exfalso; rw [p, q] at d'; omega

theorem vertStack_up (h : Arr L) {x0 : Int} {y : Rat} {l : Line} (hl : l ∈ vup L x0 y) (k : BSet) :
    vertStack L k l = ((vup L x0 y).map fun s => if s.set = k ∧ s.idx > l.idx then (1 : Int) else 0).sum := by
  obtain ⟨hl, hc⟩ := List.mem_filter.mp hl
  simp only [decide_eq_true_eq] at hc
  unfold vup
  rw [← map_sum_filter L (fun s => s.p.x = s.q.x ∧ s.p.x = x0 ∧ (s.q.y : Rat) < y ∧ y < s.p.y)]
  unfold vertStack
  refine map_sum_congr fun s hs => ?_
  rw [← ite_and]
  refine if_congr ?_ rfl rfl
  have hlt : l.q.y < l.p.y := by exact_mod_cast hc.2.2.1.trans hc.2.2.2
  have hlt' : ¬ l.q.y > l.p.y := by omega
  constructor
  · rintro ⟨a, b, c, d, e⟩
    have d' : s.q.y < s.p.y := by
      have d1 : ¬ s.q.y > s.p.y := fun x => hlt' (d.mp x)
      have d2 : s.q.y ≠ s.p.y := by
        intro x
        apply h.ne s hs
        cases hp : s.p; cases hq : s.q
        rw [hp, hq] at c x
        simp only at c x
        rw [c, x]
      omega
    have hco : Coincide s l := by
      refine h.vert_same hl hs hc.1 c.symm (by rw [b]) (y := l.p.y - 1 / 2) (Or.inr ⟨?_, by linarith⟩) (Or.inr ⟨?_, ?_⟩)
      · have : (l.q.y : Rat) + 1 ≤ l.p.y := by exact_mod_cast hlt
        linarith
      · have : (s.q.y : Rat) + 1 ≤ s.p.y := by exact_mod_cast d'
        rw [b] at this; linarith
      · rw [b]; linarith
    rcases hco with ⟨f, g⟩ | ⟨f, g⟩
    · exact ⟨⟨c.symm, by rw [b]; exact hc.2.1, by rw [g]; exact hc.2.2.1, by rw [b]; exact hc.2.2.2⟩, a, e⟩
    · exfalso; rw [f, g] at d'; omega
  · rintro ⟨⟨a, b, c, d⟩, e, f⟩
    have d' : s.q.y < s.p.y := by exact_mod_cast c.trans d
    rcases h.vert_same hl hs hc.1 a (by rw [b, hc.2.1]) (Or.inr hc.2.2) (Or.inr ⟨c.le, d.le⟩) with ⟨p, q⟩ | ⟨p, q⟩
    · exact ⟨e, p, a.symm, by constructor <;> (intro; omega), f⟩
    · exfalso; rw [p, q] at d'; omega

end PolyOps
