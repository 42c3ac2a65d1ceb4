import Verif.Props.Balance
import Verif.Props.GeomParallel
import Verif.Props.LoopsVertex
import Mathlib.Algebra.BigOperators.Group.List.Basic
import Mathlib.Algebra.Order.Field.Rat
import Mathlib.Tactic.FieldSimp
import Mathlib.Tactic.Tauto

/-! Arrangements of lines that meet only at their ends: winding numbers along lines and around vertices. -/
namespace PolyOps

/-! ### Specification -/

/-- The place `(X, Y)` is on the line, ends included. -/
def Line.on (l : Line) (X Y : Rat) : Prop := OnSegQ X Y l.p l.q

/-- The place is an end of the line. -/
def Line.endAt (l : Line) (X Y : Rat) : Prop := (X = l.p.x ∧ Y = l.p.y) ∨ (X = l.q.x ∧ Y = l.q.y)

/-- Two lines with the same ends. -/
def Coincide (s l : Line) : Prop := (s.p = l.p ∧ s.q = l.q) ∨ (s.p = l.q ∧ s.q = l.p)

/-- Any two lines have the same ends or meet only at places that are ends of both. -/
def Planar (L : List Line) : Prop :=
  ∀ s ∈ L, ∀ l ∈ L, Coincide s l ∨ ∀ X Y, s.on X Y → l.on X Y → s.endAt X Y ∧ l.endAt X Y

/-- In each set as many lines start at each place as end there. -/
def ClosedSets (L : List Line) : Prop :=
  ∀ (k : BSet) (v : Pt), L.countP (fun l => decide (l.set = k ∧ l.p = v)) = L.countP (fun l => decide (l.set = k ∧ l.q = v))

/-- `x` is not the x-coordinate of an end of a line. -/
def Generic (L : List Line) (x : Rat) : Prop := ∀ l ∈ L, (l.p.x : Rat) ≠ x ∧ (l.q.x : Rat) ≠ x

/-! ### Single lines -/

/-- Range of x-coordinates, ends included. -/
def Line.spans (l : Line) (x : Rat) : Prop := ((l.p.x : Rat) ≤ x ∧ x ≤ l.q.x) ∨ ((l.q.x : Rat) ≤ x ∧ x ≤ l.p.x)

def Line.slope (l : Line) : Rat := ((l.q.y : Rat) - l.p.y) / ((l.q.x : Rat) - l.p.x)

theorem Line.yAt_affine (l : Line) (x x0 : Rat) : l.yAt x = l.yAt x0 + (x - x0) * l.slope := by
  unfold Line.yAt Line.slope; ring

theorem Line.yAt_p (l : Line) : l.yAt l.p.x = l.p.y := by unfold Line.yAt; simp

theorem Line.yAt_q (l : Line) (h : l.p.x ≠ l.q.x) : l.yAt l.q.x = l.q.y := by
  unfold Line.yAt
  have : ((l.q.x : Rat) - l.p.x) ≠ 0 := by
    intro e; apply h; have : (l.q.x : Rat) = l.p.x := by linarith
    exact_mod_cast this.symm
  rw [mul_div_assoc, mul_div_cancel₀ _ this]; ring

theorem Line.covers_spans {l : Line} {x : Rat} (h : l.covers x) : l.spans x := by
  rcases h with ⟨a, b⟩ | ⟨a, b⟩
  · exact Or.inl ⟨a.le, b.le⟩
  · exact Or.inr ⟨a.le, b.le⟩

theorem Line.on_of_spans {l : Line} (hx : l.p.x ≠ l.q.x) {x : Rat} (h : l.spans x) : l.on x (l.yAt x) := by
  have hne : ((l.q.x : Rat) - l.p.x) ≠ 0 := by
    intro e; apply hx; have : (l.q.x : Rat) = l.p.x := by linarith
    exact_mod_cast this.symm
  refine ⟨(x - l.p.x) / ((l.q.x : Rat) - l.p.x), ?_, ?_, ?_, ?_⟩
  · rcases h with ⟨a, b⟩ | ⟨a, b⟩
    · exact div_nonneg (by linarith) (by linarith)
    · exact div_nonneg_of_nonpos (by linarith) (by linarith)
  · rcases h with ⟨a, b⟩ | ⟨a, b⟩
    · have : (0 : Rat) < (l.q.x : Rat) - l.p.x := lt_of_le_of_ne (by linarith) (Ne.symm hne)
      rw [div_le_one this]; linarith
    · have : ((l.q.x : Rat) - l.p.x) < 0 := lt_of_le_of_ne (by linarith) hne
      rw [div_le_one_of_neg this]; linarith
  · field_simp; ring
  · unfold Line.yAt; field_simp

theorem Line.on_vert {l : Line} (hx : l.p.x = l.q.x) {Y : Rat}
    (h : ((l.p.y : Rat) ≤ Y ∧ Y ≤ l.q.y) ∨ ((l.q.y : Rat) ≤ Y ∧ Y ≤ l.p.y)) : l.on l.p.x Y := by
  by_cases e : (l.q.y : Rat) - l.p.y = 0
  · refine ⟨0, le_refl _, by norm_num, by simp, ?_⟩
    have : Y = l.p.y := by rcases h with ⟨a, b⟩ | ⟨a, b⟩ <;> linarith
    simp [this]
  · refine ⟨(Y - l.p.y) / ((l.q.y : Rat) - l.p.y), ?_, ?_, ?_, ?_⟩
    · rcases h with ⟨a, b⟩ | ⟨a, b⟩
      · exact div_nonneg (by linarith) (by linarith)
      · exact div_nonneg_of_nonpos (by linarith) (by linarith)
    · rcases h with ⟨a, b⟩ | ⟨a, b⟩
      · have : (0 : Rat) < (l.q.y : Rat) - l.p.y := lt_of_le_of_ne (by linarith) (Ne.symm e)
        rw [div_le_one this]; linarith
      · have : ((l.q.y : Rat) - l.p.y) < 0 := lt_of_le_of_ne (by linarith) e
        rw [div_le_one_of_neg this]; linarith
    · rw [hx]; ring
    · field_simp; ring

theorem Line.covers_not_end {l : Line} {x y : Rat} (h : l.covers x) : ¬ l.endAt x y := by
  rintro (⟨a, _⟩ | ⟨a, _⟩) <;> rcases h with ⟨b, c⟩ | ⟨b, c⟩ <;> rw [a] at b c <;>
    first | exact lt_irrefl _ b | exact lt_irrefl _ c

theorem Line.covers_nv {l : Line} {x : Rat} (h : l.covers x) : l.p.x ≠ l.q.x := by
  intro e
  rcases h with ⟨b, c⟩ | ⟨b, c⟩ <;> rw [e] at * <;> linarith

theorem Line.spans_conv {l : Line} {x x' t : Rat} (h : l.spans x) (h' : l.spans x') (t0 : 0 ≤ t) (t1 : t ≤ 1) :
    l.spans (x + (x' - x) * t) := by
  have key : ∀ a b : Rat, a ≤ x → x ≤ b → a ≤ x' → x' ≤ b → a ≤ x + (x' - x) * t ∧ x + (x' - x) * t ≤ b := by
    intro a b h1 h2 h3 h4
    constructor
    · nlinarith [mul_nonneg t0 (sub_nonneg.mpr h3), mul_nonneg (sub_nonneg.mpr t1) (sub_nonneg.mpr h1)]
    · nlinarith [mul_nonneg t0 (sub_nonneg.mpr h4), mul_nonneg (sub_nonneg.mpr t1) (sub_nonneg.mpr h2)]
  rcases h with ⟨a, b⟩ | ⟨a, b⟩ <;> rcases h' with ⟨a', b'⟩ | ⟨a', b'⟩
  · exact Or.inl (key _ _ a b a' b')
  · exact Or.inl (key _ _ a b (by linarith) (by linarith))
  · exact Or.inr (key _ _ a b (by linarith) (by linarith))
  · exact Or.inr (key _ _ a b a' b')

theorem Line.covers_conv {l : Line} {x x' t : Rat} (h : l.covers x) (h' : l.covers x') (t0 : 0 ≤ t) (t1 : t ≤ 1) :
    l.covers (x + (x' - x) * t) := by
  have key : ∀ a b : Rat, a < x → x < b → a < x' → x' < b → a < x + (x' - x) * t ∧ x + (x' - x) * t < b := by
    intro a b h1 h2 h3 h4
    rcases lt_or_eq_of_le t1 with t1 | rfl
    · constructor
      · nlinarith [mul_nonneg t0 (sub_nonneg.mpr h3.le), mul_pos (sub_pos.mpr t1) (sub_pos.mpr h1)]
      · nlinarith [mul_nonneg t0 (sub_nonneg.mpr h4.le), mul_pos (sub_pos.mpr t1) (sub_pos.mpr h2)]
    · constructor <;> linarith
  rcases h with ⟨a, b⟩ | ⟨a, b⟩ <;> rcases h' with ⟨a', b'⟩ | ⟨a', b'⟩
  · exact Or.inl (key _ _ a b a' b')
  · exact Or.inl (key _ _ a b (by linarith) (by linarith))
  · exact Or.inr (key _ _ a b (by linarith) (by linarith))
  · exact Or.inr (key _ _ a b a' b')

/-! ### Two lines -/

/-- The two lines meet only at places that are ends of both. -/
def EndMeet (s l : Line) : Prop := ∀ X Y, s.on X Y → l.on X Y → s.endAt X Y ∧ l.endAt X Y

theorem EndMeet.ne {s l : Line} (h : EndMeet s l) (hs : s.p.x ≠ s.q.x) {x : Rat} (h1 : s.spans x) (h2 : l.covers x) :
    s.yAt x ≠ l.yAt x := by
  intro e
  have := h x (s.yAt x) (Line.on_of_spans hs h1) (by rw [e]; exact Line.on_of_spans (Line.covers_nv h2) (Line.covers_spans h2))
  exact Line.covers_not_end h2 this.2

/-- Zero of an affine function between two places. -/
theorem root_between {a b : Rat} (ha : a < 0) (hb : 0 ≤ b) : ∃ t : Rat, 0 ≤ t ∧ t ≤ 1 ∧ a + (b - a) * t = 0 := by
  have : 0 < b - a := by linarith
  refine ⟨-a / (b - a), div_nonneg (by linarith) this.le, ?_, ?_⟩
  · rw [div_le_one this]; linarith
  · rw [mul_div_cancel₀ _ this.ne']; ring

theorem EndMeet.sep {s l : Line} (h : EndMeet s l) (hs : s.p.x ≠ s.q.x) {x x' : Rat} (h1 : s.spans x) (h2 : l.covers x)
    (h1' : s.spans x') (h2' : l.covers x') (hlt : s.yAt x < l.yAt x) : s.yAt x' < l.yAt x' := by
  by_contra hc
  push Not at hc
  obtain ⟨t, t0, t1, e⟩ := root_between (a := s.yAt x - l.yAt x) (b := s.yAt x' - l.yAt x') (by linarith) (by linarith)
  refine h.ne hs (Line.spans_conv h1 h1' t0 t1) (Line.covers_conv h2 h2' t0 t1) ?_
  rw [s.yAt_affine (x + (x' - x) * t) x, l.yAt_affine (x + (x' - x) * t) x]
  rw [s.yAt_affine x' x, l.yAt_affine x' x] at e
  linear_combination e

theorem Coincide.nv {s l : Line} (h : Coincide s l) : s.p.x ≠ s.q.x ↔ l.p.x ≠ l.q.x := by
  rcases h with ⟨a, b⟩ | ⟨a, b⟩ <;> rw [a, b]
  exact ne_comm

theorem Coincide.yAt {s l : Line} (h : Coincide s l) (hl : l.p.x ≠ l.q.x) (x : Rat) : s.yAt x = l.yAt x := by
  rcases h with ⟨a, b⟩ | ⟨a, b⟩
  · unfold Line.yAt; rw [a, b]
  · unfold Line.yAt; rw [a, b]
    have hne : ((l.q.x : Rat) - l.p.x) ≠ 0 := by
      intro e; apply hl; have : (l.q.x : Rat) = l.p.x := by linarith
      exact_mod_cast this.symm
    have hne2 : ((l.p.x : Rat) - l.q.x) ≠ 0 := by intro e; apply hne; linarith
    field_simp; ring

theorem Coincide.covers {s l : Line} (h : Coincide s l) (x : Rat) : s.covers x ↔ l.covers x := by
  rcases h with ⟨a, b⟩ | ⟨a, b⟩
  · unfold Line.covers; rw [a, b]
  · unfold Line.covers; rw [a, b]; tauto

theorem Coincide.symm {s l : Line} (h : Coincide s l) : Coincide l s := by
  rcases h with ⟨a, b⟩ | ⟨a, b⟩
  · exact Or.inl ⟨a.symm, b.symm⟩
  · exact Or.inr ⟨b.symm, a.symm⟩

/-! ### The stacked winding number along a line -/

/-- `s` is above `l` at `x`; of lines at the same height the one with the larger index is above. -/
def Line.over (s l : Line) (x : Rat) : Prop := s.yAt x < l.yAt x ∨ (s.yAt x = l.yAt x ∧ s.idx > l.idx)

instance (s l : Line) (x : Rat) : Decidable (s.over l x) := by unfold Line.over; infer_instance

/-- A place strictly between two verticals and above the line. -/
def stripAbove (l : Line) (x1 x2 : Rat) (v : Pt) : Int := if x1 < v.x ∧ (v.x : Rat) < x2 ∧ (v.y : Rat) < l.yAt v.x then 1 else 0

theorem covers_between {l : Line} {x1 x2 x : Rat} (h1 : l.covers x1) (h2 : l.covers x2) (a : x1 < x) (b : x < x2) : l.covers x := by
  rcases h1 with ⟨c, d⟩ | ⟨c, d⟩ <;> rcases h2 with ⟨c', d'⟩ | ⟨c', d'⟩
  · exact Or.inl ⟨by linarith, by linarith⟩
  · exact absurd (c.trans d) (by linarith)
  · exact absurd (c.trans d) (by linarith)
  · exact Or.inr ⟨by linarith, by linarith⟩

theorem strip_line {s l : Line} (h : Coincide s l ∨ EndMeet s l) {x1 x2 : Rat} (hx : x1 < x2)
    (hl1 : l.covers x1) (hl2 : l.covers x2) (g1 : (s.p.x : Rat) ≠ x1 ∧ (s.q.x : Rat) ≠ x1) (g2 : (s.p.x : Rat) ≠ x2 ∧ (s.q.x : Rat) ≠ x2) :
    (if s.covers x1 ∧ s.over l x1 then s.dir else 0) - (if s.covers x2 ∧ s.over l x2 then s.dir else 0) =
      stripAbove l x1 x2 s.q - stripAbove l x1 x2 s.p := by
  by_cases hv : s.p.x = s.q.x
  · have c1 : ∀ x, ¬ s.covers x := fun x hc => Line.covers_nv hc hv
    rw [if_neg (fun h => c1 _ h.1), if_neg (fun h => c1 _ h.1)]
    rcases h with h | h
    · exact absurd hv (h.nv.mpr (Line.covers_nv hl1))
    · unfold stripAbove
      rw [← hv]
      by_cases c : x1 < s.p.x ∧ (s.p.x : Rat) < x2
      · have hc := covers_between hl1 hl2 c.1 c.2
        have key : ∀ Y : Rat, (((s.p.y : Rat) ≤ Y ∧ Y ≤ s.q.y) ∨ ((s.q.y : Rat) ≤ Y ∧ Y ≤ s.p.y)) → Y ≠ l.yAt s.p.x := by
          intro Y hY e
          have := (h s.p.x Y (Line.on_vert hv hY) (by rw [e]; exact Line.on_of_spans (Line.covers_nv hc) (Line.covers_spans hc))).2
          exact Line.covers_not_end hc this
        have iff : (s.p.y : Rat) < l.yAt s.p.x ↔ (s.q.y : Rat) < l.yAt s.p.x := by
          constructor
          · intro a
            by_contra b
            exact key _ (Or.inl ⟨a.le, not_lt.mp b⟩) rfl
          · intro a
            by_contra b
            exact key _ (Or.inr ⟨a.le, not_lt.mp b⟩) rfl
        simp only [iff]; simp
      · rw [if_neg (fun h => c ⟨h.1, h.2.1⟩), if_neg (fun h => c ⟨h.1, h.2.1⟩)]
  · rcases h with h | h
    · have nv := h.nv.mp hv
      have e1 := h.yAt nv x1
      have e2 := h.yAt nv x2
      have ie : ∀ v, (v = l.p ∨ v = l.q) → stripAbove l x1 x2 v = 0 := by
        intro v hv
        unfold stripAbove
        rw [if_neg]
        rintro ⟨a, b, _⟩
        have := covers_between hl1 hl2 a b
        rcases hv with rfl | rfl <;> rcases this with ⟨c, d⟩ | ⟨c, d⟩ <;> linarith
      have z : stripAbove l x1 x2 s.q - stripAbove l x1 x2 s.p = 0 := by
        rcases h with ⟨a, b⟩ | ⟨a, b⟩ <;> rw [ie s.q (by tauto), ie s.p (by tauto)] <;> rfl
      rw [z]
      have o1 : s.over l x1 ↔ s.idx > l.idx := by unfold Line.over; rw [e1]; simp
      have o2 : s.over l x2 ↔ s.idx > l.idx := by unfold Line.over; rw [e2]; simp
      simp only [h.covers, hl1, hl2, o1, o2, true_and]; simp
    · classical
      set b : Prop := ∃ x, s.spans x ∧ l.covers x ∧ s.yAt x < l.yAt x with hb
      have hbi : ∀ x, s.spans x → l.covers x → (s.yAt x < l.yAt x ↔ b) := by
        intro x a c
        refine ⟨fun d => ⟨x, a, c, d⟩, ?_⟩
        rintro ⟨x', a', c', d'⟩
        exact h.sep hv a' c' a c d'
      have o : ∀ x, l.covers x → (s.covers x ∧ s.over l x ↔ s.covers x ∧ b) := by
        intro x hl
        constructor
        · rintro ⟨a, c⟩
          refine ⟨a, ?_⟩
          rcases c with c | c
          · exact (hbi x (Line.covers_spans a) hl).mp c
          · exact absurd c.1 (h.ne hv (Line.covers_spans a) hl)
        · rintro ⟨a, c⟩
          exact ⟨a, Or.inl ((hbi x (Line.covers_spans a) hl).mpr c)⟩
      have sp : s.spans s.p.x := by
        rcases le_total (s.p.x : Rat) s.q.x with h | h
        · exact Or.inl ⟨le_refl _, h⟩
        · exact Or.inr ⟨h, le_refl _⟩
      have sq : s.spans s.q.x := by
        rcases le_total (s.p.x : Rat) s.q.x with h | h
        · exact Or.inl ⟨h, le_refl _⟩
        · exact Or.inr ⟨le_refl _, h⟩
      have hp : (x1 < s.p.x ∧ (s.p.x : Rat) < x2 ∧ (s.p.y : Rat) < l.yAt s.p.x) ↔ x1 < s.p.x ∧ (s.p.x : Rat) < x2 ∧ b := by
        constructor
        · rintro ⟨a, c, d⟩
          exact ⟨a, c, (hbi _ sp (covers_between hl1 hl2 a c)).mp (by rw [s.yAt_p]; exact d)⟩
        · rintro ⟨a, c, d⟩
          exact ⟨a, c, by have := (hbi _ sp (covers_between hl1 hl2 a c)).mpr d; rwa [s.yAt_p] at this⟩
      have hq : (x1 < s.q.x ∧ (s.q.x : Rat) < x2 ∧ (s.q.y : Rat) < l.yAt s.q.x) ↔ x1 < s.q.x ∧ (s.q.x : Rat) < x2 ∧ b := by
        constructor
        · rintro ⟨a, c, d⟩
          exact ⟨a, c, (hbi _ sq (covers_between hl1 hl2 a c)).mp (by rw [s.yAt_q hv]; exact d)⟩
        · rintro ⟨a, c, d⟩
          exact ⟨a, c, by have := (hbi _ sq (covers_between hl1 hl2 a c)).mpr d; rwa [s.yAt_q hv] at this⟩
      unfold stripAbove
      rw [if_congr hq rfl rfl, if_congr hp rfl rfl, if_congr (o x1 hl1) rfl rfl, if_congr (o x2 hl2) rfl rfl]
      clear hp hq o sp sq hbi
      by_cases hb : b
      · simp only [hb, and_true]
        have hvq : (s.p.x : Rat) ≠ s.q.x := by exact_mod_cast hv
        unfold Line.covers Line.dir
        have dc : (s.p.x < s.q.x ↔ (s.p.x : Rat) < s.q.x) := by exact_mod_cast Iff.rfl
        have dc2 : (s.q.x < s.p.x ↔ (s.q.x : Rat) < s.p.x) := by exact_mod_cast Iff.rfl
        rw [if_congr dc rfl rfl, if_congr dc2 rfl rfl]
        rcases lt_or_gt_of_ne g1.1 with a1 | a1 <;> rcases lt_or_gt_of_ne g1.2 with a2 | a2 <;>
          rcases lt_or_gt_of_ne g2.1 with a3 | a3 <;> rcases lt_or_gt_of_ne g2.2 with a4 | a4 <;>
          rcases lt_or_gt_of_ne hvq with a5 | a5 <;>
          first
          | (exfalso; linarith)
          | simp [a1, a2, a3, a4, a5, not_lt_of_gt a1, not_lt_of_gt a2, not_lt_of_gt a3, not_lt_of_gt a4, not_lt_of_gt a5]
      · simp only [hb, and_false, if_false]

end PolyOps
