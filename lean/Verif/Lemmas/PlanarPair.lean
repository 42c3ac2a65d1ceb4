import Verif.Props.SweepCmp
import Verif.Lemmas.Clean
import Mathlib.Data.List.Chain

/-! Geometry of pairs of segments for the planarity of the split lines. -/
namespace PolyOps.Planarity
open PolyOps PolyOps.SweepCmp

/-- The rational place lies on the segment. -/
def On (s : CSeg) (X Y : Rat) : Prop := OnSegQ X Y s.pa s.pb

/-- The rational place is an end of the segment. -/
def EndQ (s : CSeg) (X Y : Rat) : Prop := IsEnd X Y s.pa s.pb

/-- Not vertical, from left to right. -/
def Nv (s : CSeg) : Prop := s.pa.x < s.pb.x

/-- Ends in sweep order. -/
structure SOk (s : CSeg) : Prop where
  ne : s.pa ≠ s.pb
  le : s.pa.x ≤ s.pb.x

theorem Nv.sok {s : CSeg} (h : Nv s) : SOk s := ⟨fun e => by unfold Nv at h; rw [e] at h; omega, le_of_lt h⟩
theorem Nv.ne {s : CSeg} (h : Nv s) : s.pa.x ≠ s.pb.x := ne_of_lt h
theorem SOk.nv {s : CSeg} (h : SOk s) (hx : s.pa.x ≠ s.pb.x) : Nv s := lt_of_le_of_ne h.le hx
theorem SOk.vy {s : CSeg} (h : SOk s) (hx : s.pa.x = s.pb.x) : s.pa.y ≠ s.pb.y := fun e => h.ne (Pt.ext hx e)

theorem Nv.cast {s : CSeg} (h : Nv s) : (s.pa.x : Rat) < s.pb.x := by exact_mod_cast h

theorem on_nv {s : CSeg} (h : Nv s) (X Y : Rat) : On s X Y ↔ (s.pa.x : Rat) ≤ X ∧ X ≤ s.pb.x ∧ Y = hAt s X := by
  have hc := h.cast
  have hd : ((s.pb.x : Rat) - s.pa.x) ≠ 0 := by intro h; linarith
  unfold On OnSegQ At hAt slope
  constructor
  · rintro ⟨t, t0, t1, hx, hy⟩
    refine ⟨by rw [hx]; nlinarith, by rw [hx]; nlinarith, ?_⟩
    rw [hx, hy]; field_simp; ring
  · rintro ⟨h1, h2, h3⟩
    refine ⟨(X - s.pa.x) / (s.pb.x - s.pa.x), div_nonneg (by linarith) (by linarith), ?_, ?_, ?_⟩
    · rw [div_le_one (by linarith)]; linarith
    · field_simp; ring
    · rw [h3]; field_simp

theorem on_v {s : CSeg} (h : s.pa.x = s.pb.x) (hy : s.pa.y ≠ s.pb.y) (X Y : Rat) :
    On s X Y ↔ X = s.pa.x ∧ (((s.pa.y : Rat) ≤ Y ∧ Y ≤ s.pb.y) ∨ ((s.pb.y : Rat) ≤ Y ∧ Y ≤ s.pa.y)) := by
  have hx : (s.pa.x : Rat) = s.pb.x := by exact_mod_cast h
  have hyq : ((s.pb.y : Rat) - s.pa.y) ≠ 0 := by
    intro e
    apply hy
    have : (s.pa.y : Rat) = s.pb.y := by linarith
    exact_mod_cast this
  unfold On OnSegQ At
  constructor
  · rintro ⟨t, t0, t1, h1, h2⟩
    refine ⟨by rw [h1, hx]; ring, ?_⟩
    rcases le_total (s.pa.y : Rat) s.pb.y with c | c
    · left; rw [h2]; constructor <;> nlinarith
    · right; rw [h2]; constructor <;> nlinarith
  · rintro ⟨h1, h2⟩
    refine ⟨(Y - s.pa.y) / (s.pb.y - s.pa.y), ?_, ?_, ?_, ?_⟩
    · rcases h2 with ⟨a, b⟩ | ⟨a, b⟩
      · exact div_nonneg (by linarith) (by linarith)
      · exact div_nonneg_of_nonpos (by linarith) (by linarith)
    · rcases h2 with ⟨a, b⟩ | ⟨a, b⟩
      · rw [div_le_one (lt_of_le_of_ne (by linarith) (Ne.symm hyq))]; linarith
      · rw [div_le_one_of_neg (lt_of_le_of_ne (by linarith) hyq)]; linarith
    · rw [h1, hx]; ring
    · field_simp; ring

theorem hAt_v {s : CSeg} (h : s.pa.x = s.pb.x) (X : Rat) : hAt s X = s.pa.y := by
  have : (s.pb.x : Rat) - s.pa.x = 0 := by rw [h]; ring
  unfold hAt slope; rw [this]; simp

/-- A place on a segment, in terms of heights. -/
theorem on_height {s : CSeg} (h : SOk s) {X : Rat} (h1 : (s.pa.x : Rat) ≤ X) (h2 : X ≤ s.pb.x) : On s X (hAt s X) := by
  by_cases c : s.pa.x = s.pb.x
  · rw [on_v c (h.vy c), hAt_v c]
    have : (s.pa.x : Rat) = s.pb.x := by exact_mod_cast c
    refine ⟨by linarith, ?_⟩
    rcases le_total (s.pa.y : Rat) s.pb.y with d | d
    · exact Or.inl ⟨le_rfl, d⟩
    · exact Or.inr ⟨d, le_rfl⟩
  · exact (on_nv (h.nv c) _ _).mpr ⟨h1, h2, rfl⟩

theorem on_x {s : CSeg} (h : SOk s) {X Y : Rat} (ho : On s X Y) : (s.pa.x : Rat) ≤ X ∧ X ≤ s.pb.x := by
  by_cases c : s.pa.x = s.pb.x
  · rw [on_v c (h.vy c)] at ho
    have : (s.pa.x : Rat) = s.pb.x := by exact_mod_cast c
    exact ⟨by rw [ho.1], by rw [ho.1, this]⟩
  · rw [on_nv (h.nv c)] at ho; exact ⟨ho.1, ho.2.1⟩

theorem on_nv_y {s : CSeg} (h : Nv s) {X Y : Rat} (ho : On s X Y) : Y = hAt s X := ((on_nv h X Y).mp ho).2.2

theorem end_on {s : CSeg} {X Y : Rat} (h : EndQ s X Y) : On s X Y := by
  rcases h with ⟨h1, h2⟩ | ⟨h1, h2⟩
  · exact ⟨0, le_rfl, by norm_num, by rw [h1, h2]; exact at_zero' _ _⟩
  · exact ⟨1, by norm_num, le_rfl, by rw [h1, h2]; exact at_one' _ _⟩

theorem endq_a (s : CSeg) : EndQ s s.pa.x s.pa.y := Or.inl ⟨rfl, rfl⟩
theorem endq_b (s : CSeg) : EndQ s s.pb.x s.pb.y := Or.inr ⟨rfl, rfl⟩
theorem on_a (s : CSeg) : On s s.pa.x s.pa.y := end_on (endq_a s)
theorem on_b (s : CSeg) : On s s.pb.x s.pb.y := end_on (endq_b s)

/-- A place strictly between the ends in x is no end. -/
theorem not_end {s : CSeg} {X Y : Rat} (h1 : (s.pa.x : Rat) < X) (h2 : X < s.pb.x) : ¬ EndQ s X Y := by
  rintro (⟨h, _⟩ | ⟨h, _⟩)
  · rw [h] at h1; exact lt_irrefl _ h1
  · rw [h] at h2; exact lt_irrefl _ h2

/-- Same ends. -/
def Coin (s t : CSeg) : Prop := (s.pa = t.pa ∧ s.pb = t.pb) ∨ (s.pa = t.pb ∧ s.pb = t.pa)

/-- On one line from one start, not vertical. -/
structure Over (s t : CSeg) : Prop where
  ns : Nv s
  nt : Nv t
  pa : s.pa = t.pa
  sl : slope s = slope t

/-- A common place is fine: an end of both, or in both lines that run on together. -/
def LC (s t : CSeg) (X Y : Rat) : Prop :=
  (EndQ s X Y ∧ EndQ t X Y) ∨ (¬ EndQ s X Y ∧ ¬ EndQ t X Y ∧ Over s t) ∨ Coin s t

/-- Common places up to `x` are fine. -/
def ALC (x : Rat) (s t : CSeg) : Prop := ∀ X Y, X ≤ x → On s X Y → On t X Y → LC s t X Y

/-- Common places up to `x` are ends of both. -/
def Sep (x : Rat) (s t : CSeg) : Prop := ∀ X Y, X ≤ x → On s X Y → On t X Y → EndQ s X Y ∧ EndQ t X Y

/-- `Clean` for segments. -/
def Cl (s t : CSeg) : Prop := Clean s.pa s.pb t.pa t.pb

theorem Coin.symm {s t : CSeg} (h : Coin s t) : Coin t s := by
  rcases h with ⟨a, b⟩ | ⟨a, b⟩
  · exact Or.inl ⟨a.symm, b.symm⟩
  · exact Or.inr ⟨b.symm, a.symm⟩

theorem Coin.nv {s t : CSeg} (h : Coin s t) (hs : Nv s) (ht : SOk t) : s.pa = t.pa ∧ s.pb = t.pb := by
  rcases h with h | ⟨a, b⟩
  · exact h
  · exfalso; have := ht.le; unfold Nv at hs; rw [a, b] at hs; omega

theorem Coin.endq {s t : CSeg} (h : Coin s t) (X Y : Rat) : EndQ s X Y ↔ EndQ t X Y := by
  unfold EndQ IsEnd
  rcases h with ⟨a, b⟩ | ⟨a, b⟩
  · rw [a, b]
  · rw [a, b]; exact or_comm

theorem Coin.on {s t : CSeg} (h : Coin s t) {X Y : Rat} (ho : On s X Y) : On t X Y := by
  rcases h with ⟨a, b⟩ | ⟨a, b⟩
  · unfold On at *; rw [← a, ← b]; exact ho
  · unfold On at *; rw [← a, ← b]
    obtain ⟨t, t0, t1, h1, h2⟩ := ho
    exact ⟨1 - t, by linarith, by linarith, by rw [h1]; ring, by rw [h2]; ring⟩

theorem slope_congr {s t : CSeg} (h1 : s.pa = t.pa) (h2 : s.pb = t.pb) : slope s = slope t := by
  unfold slope; rw [h1, h2]

theorem hAt_congr {s t : CSeg} (h1 : s.pa = t.pa) (h2 : slope s = slope t) (X : Rat) : hAt s X = hAt t X := by
  unfold hAt; rw [h1, h2]

theorem Over.symm {s t : CSeg} (h : Over s t) : Over t s := ⟨h.nt, h.ns, h.pa.symm, h.sl.symm⟩

theorem Over.hAt {s t : CSeg} (h : Over s t) (X : Rat) : hAt s X = hAt t X := hAt_congr h.pa h.sl X

theorem LC.symm {s t : CSeg} {X Y : Rat} (h : LC s t X Y) : LC t s X Y := by
  rcases h with ⟨a, b⟩ | ⟨a, b, c⟩ | h
  · exact Or.inl ⟨b, a⟩
  · exact Or.inr (Or.inl ⟨b, a, c.symm⟩)
  · exact Or.inr (Or.inr h.symm)

theorem ALC.symm {x : Rat} {s t : CSeg} (h : ALC x s t) : ALC x t s := fun X Y hx h1 h2 => (h X Y hx h2 h1).symm

theorem Sep.symm {x : Rat} {s t : CSeg} (h : Sep x s t) : Sep x t s := fun X Y hx h1 h2 => (h X Y hx h2 h1).symm

theorem Sep.alc {x : Rat} {s t : CSeg} (h : Sep x s t) : ALC x s t := fun X Y hx h1 h2 => Or.inl (h X Y hx h1 h2)

theorem Sep.mono {x y : Rat} {s t : CSeg} (h : Sep x s t) (hy : y ≤ x) : Sep y s t := fun X Y hx h1 h2 => h X Y (hx.trans hy) h1 h2

theorem ALC.mono {x y : Rat} {s t : CSeg} (h : ALC x s t) (hy : y ≤ x) : ALC y s t := fun X Y hx h1 h2 => h X Y (hx.trans hy) h1 h2

theorem Cl.alc {s t : CSeg} (h : Cl s t) (x : Rat) : ALC x s t := by
  intro X Y _ h1 h2
  rcases h with h | h | h
  · exact Or.inr (Or.inr (Or.inl h))
  · exact Or.inr (Or.inr (Or.inr h))
  · exact Or.inl (h X Y h1 h2)

theorem Cl.symm {s t : CSeg} (h : Cl s t) : Cl t s := by
  rcases h with ⟨a, b⟩ | ⟨a, b⟩ | h
  · exact Or.inl ⟨a.symm, b.symm⟩
  · exact Or.inr (Or.inl ⟨b.symm, a.symm⟩)
  · exact Or.inr (Or.inr fun X Y h1 h2 => (h X Y h2 h1).symm)

theorem Cl.of_coin {s t : CSeg} (h : Coin s t) : Cl s t := by
  rcases h with h | h
  · exact Or.inl h
  · exact Or.inr (Or.inl h)

/-- `Cl` is coincidence or separation everywhere. -/
theorem Cl.cases {s t : CSeg} (h : Cl s t) : Coin s t ∨ ∀ x, Sep x s t := by
  rcases h with h | h | h
  · exact Or.inl (Or.inl h)
  · exact Or.inl (Or.inr h)
  · exact Or.inr fun x X Y _ => h X Y

theorem Cl.of_sep {s t : CSeg} {x : Rat} (hs : SOk s) (h : Sep x s t) (hx : (s.pb.x : Rat) ≤ x) : Cl s t :=
  Or.inr (Or.inr fun X Y h1 h2 => h X Y ((on_x hs h1).2.trans hx) h1 h2)

theorem LC.end_iff {s t : CSeg} {X Y : Rat} (h : LC s t X Y) : EndQ s X Y ↔ EndQ t X Y := by
  rcases h with ⟨a, b⟩ | ⟨a, b, _⟩ | h
  · exact iff_of_true a b
  · exact iff_of_false a b
  · exact h.endq X Y

theorem LC.trans {s t u : CSeg} {X Y : Rat} (hs : SOk s) (ht : SOk t) (hu : SOk u) (h1 : LC s t X Y) (h2 : LC t u X Y) : LC s u X Y := by
  by_cases e : EndQ t X Y
  · exact Or.inl ⟨h1.end_iff.mpr e, h2.end_iff.mp e⟩
  · have es := mt h1.end_iff.mp e
    have eu := mt h2.end_iff.mpr e
    rcases h1 with ⟨_, b⟩ | ⟨_, _, h1⟩ | h1
    · exact absurd b e
    · rcases h2 with ⟨a, _⟩ | ⟨_, _, h2⟩ | h2
      · exact absurd a e
      · exact Or.inr (Or.inl ⟨es, eu, ⟨h1.ns, h2.nt, h1.pa.trans h2.pa, h1.sl.trans h2.sl⟩⟩)
      · obtain ⟨c1, c2⟩ := h2.nv h1.nt hu
        refine Or.inr (Or.inl ⟨es, eu, ⟨h1.ns, ?_, h1.pa.trans c1, h1.sl.trans (slope_congr c1 c2)⟩⟩)
        have := h1.nt; unfold Nv at *; rw [← c1, ← c2]; exact this
    · rcases h2 with ⟨a, _⟩ | ⟨_, _, h2⟩ | h2
      · exact absurd a e
      · obtain ⟨c1, c2⟩ := h1.symm.nv h2.ns hs
        refine Or.inr (Or.inl ⟨es, eu, ⟨?_, h2.nt, c1.symm.trans h2.pa, (slope_congr c1 c2).symm.trans h2.sl⟩⟩)
        have := h2.ns; unfold Nv at *; rw [← c1, ← c2]; exact this
      · refine Or.inr (Or.inr ?_)
        rcases h1 with ⟨a, b⟩ | ⟨a, b⟩ <;> rcases h2 with ⟨c, d⟩ | ⟨c, d⟩
        · exact Or.inl ⟨a.trans c, b.trans d⟩
        · exact Or.inr ⟨a.trans c, b.trans d⟩
        · exact Or.inr ⟨a.trans d, b.trans c⟩
        · exact Or.inl ⟨a.trans d, b.trans c⟩

/-! ### Order and height -/

theorem meets_of {s : CSeg} (h : SOk s) {x : Rat} (h1 : (s.pa.x : Rat) ≤ x) (h2 : s.pa.x = s.pb.x → (s.pa.x : Rat) = x) : Meets x s :=
  ⟨h.ne, h.le, h1, h2⟩

/-- Apart as far as the later of two starts. -/
theorem apart_of {s t : CSeg} {x : Rat} (hx : x ≤ max (s.pa.x : Rat) t.pa.x)
    (hl : Nv s → Nv t → slope s = slope t → hAt s x = hAt t x → s.pa = t.pa) (hs : SOk s) (ht : SOk t) : Apart x s t := by
  refine ⟨fun _ _ z h1 h2 h3 _ => ?_, fun h1 h2 h3 h4 => Or.inl (hl (hs.nv h1) (ht.nv h2) h3 h4)⟩
  exfalso
  rcases max_choice (s.pa.x : Rat) t.pa.x with e | e <;> rw [e] at hx <;> linarith

/-- What the order says about position. -/
theorem cmp_pos {s t : CSeg} {x : Rat} (hs : Meets x s) (ht : Meets x t) (ha : Apart x s t) (h : sweepCmp s t = true) :
    hAt t x < hAt s x ∨ hAt t x = hAt s x ∧
      (vdir t < vdir s ∨ vdir t = vdir s ∧ (slope t < slope s ∨ slope t = slope s ∧ t.pb.y ≤ s.pb.y)) := by
  have h := (C22_order hs ht ha).mp h
  unfold key at h
  rw [Prod.Lex.toLex_lt_toLex] at h
  rcases h with h | ⟨h, _⟩
  · rw [pos_lt_iff] at h
    rcases h with h | ⟨h0, h | ⟨h1, h | ⟨h2, h3⟩⟩⟩
    · exact Or.inl h
    · exact Or.inr ⟨h0, Or.inl h⟩
    · exact Or.inr ⟨h0, Or.inr ⟨h1, Or.inl h⟩⟩
    · exact Or.inr ⟨h0, Or.inr ⟨h1, Or.inr ⟨h2, h3.le⟩⟩⟩
  · unfold pos at h
    have e1 := congrArg (fun k => (ofLex k).1) h
    have e2 := congrArg (fun k => (ofLex (ofLex k).2).1) h
    have e3 := congrArg (fun k => (ofLex (ofLex (ofLex k).2).2).1) h
    have e4 := congrArg (fun k => (ofLex (ofLex (ofLex k).2).2).2) h
    simp only [ofLex_toLex] at e1 e2 e3 e4
    exact Or.inr ⟨e1, Or.inr ⟨e2, Or.inr ⟨e3, e4.le⟩⟩⟩

theorem vdir_nv {s : CSeg} (h : Nv s) : vdir s = 0 := by unfold vdir; rw [if_neg h.ne]

/-- Two lines on one line that both pass the later start share their start. -/
theorem start_eq {s t : CSeg} {x : Rat} (hs : Nv s) (ht : Nv t) (h : ALC x s t) (hx : max (s.pa.x : Rat) t.pa.x ≤ x)
    (h1 : s.pa.x < t.pb.x) (h2 : t.pa.x < s.pb.x) (he : hAt s (max (s.pa.x : Rat) t.pa.x) = hAt t (max (s.pa.x : Rat) t.pa.x))
    : s.pa = t.pa := by
  have key : ∀ {s t : CSeg}, Nv s → Nv t → ALC x s t → (s.pa.x : Rat) ≤ t.pa.x → (t.pa.x : Rat) ≤ x → t.pa.x < s.pb.x →
      hAt s t.pa.x = hAt t t.pa.x → s.pa = t.pa := by
    intro s t hs ht h hle hx h2 he
    have h2' : (t.pa.x : Rat) < s.pb.x := by exact_mod_cast h2
    have o1 : On s t.pa.x t.pa.y := (on_nv hs _ _).mpr ⟨hle, h2'.le, by rw [he, hAt_start]⟩
    have hl := h _ _ hx o1 (on_a t)
    have : EndQ s t.pa.x t.pa.y := hl.end_iff.mpr (endq_a t)
    rcases this with ⟨a, b⟩ | ⟨a, _⟩
    · exact Pt.ext (by exact_mod_cast a.symm) (by exact_mod_cast b.symm)
    · exfalso; linarith
  rcases le_total (s.pa.x : Rat) t.pa.x with c | c
  · rw [max_eq_right c] at he hx
    exact key hs ht h c hx h2 he
  · rw [max_eq_left c] at he hx
    exact (key ht hs h.symm c hx h1 he.symm).symm

/-- The order of two lines at the later start. -/
theorem order_start {s t : CSeg} {x : Rat} (hs : Nv s) (ht : Nv t) (h : ALC x s t) (hx : max (s.pa.x : Rat) t.pa.x ≤ x)
    (h1 : s.pa.x < t.pb.x) (h2 : t.pa.x < s.pb.x) (hc : sweepCmp s t = true) :
    hAt t (max (s.pa.x : Rat) t.pa.x) < hAt s (max (s.pa.x : Rat) t.pa.x) ∨
      hAt t (max (s.pa.x : Rat) t.pa.x) = hAt s (max (s.pa.x : Rat) t.pa.x) ∧ slope t ≤ slope s := by
  have ha : Apart (max (s.pa.x : Rat) t.pa.x) s t :=
    apart_of le_rfl (fun _ _ _ he => start_eq hs ht h hx h1 h2 he) hs.sok ht.sok
  have := cmp_pos (meets_of hs.sok (le_max_left _ _) (fun e => absurd e hs.ne)) (meets_of ht.sok (le_max_right _ _) (fun e => absurd e ht.ne))
    ha hc
  rcases this with h | ⟨h, h' | ⟨_, h' | ⟨h', _⟩⟩⟩
  · exact Or.inl h
  · rw [vdir_nv hs, vdir_nv ht] at h'; exact absurd h' (lt_irrefl _)
  · exact Or.inr ⟨h, h'.le⟩
  · exact Or.inr ⟨h, h'.le⟩

/-- Two lines whose common places are fine keep the order of their heights. -/
theorem height_nv {s t : CSeg} {x : Rat} (hs : Nv s) (ht : Nv t) (h : ALC x s t) (hsx : (s.pa.x : Rat) ≤ x) (htx : (t.pa.x : Rat) ≤ x)
    (hsx' : x ≤ s.pb.x) (htx' : x ≤ t.pb.x) (h1 : s.pa.x < t.pb.x) (h2 : t.pa.x < s.pb.x) (hc : sweepCmp s t = true) :
    hAt t x ≤ hAt s x := by
  have hm : max (s.pa.x : Rat) t.pa.x ≤ x := max_le hsx htx
  have ho := order_start hs ht h hm h1 h2 hc
  have m1 := le_max_left (s.pa.x : Rat) t.pa.x
  have m2 := le_max_right (s.pa.x : Rat) t.pa.x
  generalize max (s.pa.x : Rat) t.pa.x = m at *
  rcases ho with ho | ⟨ho, hsl⟩
  · by_contra hn
    push Not at hn
    have hk : ¬ ∀ z, m < z → z ≤ x → hAt s z = hAt t z → slope s = slope t := fun hc =>
      absurd (keep_sign hm hc ho) (by linarith)
    push Not at hk
    obtain ⟨z, z1, z2, z3, z4⟩ := hk
    have z2' : z < x := by
      rcases z2.lt_or_eq with c | c
      · exact c
      · rw [c] at z3; linarith
    have l := h z (hAt s z) z2 ((on_nv hs _ _).mpr ⟨by linarith, by linarith, rfl⟩) ((on_nv ht _ _).mpr ⟨by linarith, by linarith, z3⟩)
    have ne : ¬ EndQ s z (hAt s z) := not_end (by linarith) (by linarith)
    rcases l with ⟨l, _⟩ | ⟨_, _, l⟩ | l
    · exact ne l
    · exact z4 l.sl
    · obtain ⟨a, b⟩ := l.nv hs ht.sok
      exact z4 (slope_congr a b)
  · have e := hAt_diff s t m x
    have : 0 ≤ (slope s - slope t) * (x - m) := mul_nonneg (by linarith) (by linarith)
    linarith

/-- The vertical at `x` meets the segment. -/
structure Mid (x : Rat) (s : CSeg) : Prop where
  ok : SOk s
  lo : (s.pa.x : Rat) ≤ x
  hi : x ≤ s.pb.x

theorem Mid.meets {x : Rat} {s : CSeg} (h : Mid x s) : Meets x s :=
  meets_of h.ok h.lo (fun e => by
    have : (s.pa.x : Rat) = s.pb.x := by exact_mod_cast e
    have := h.lo; have := h.hi; linarith)

theorem Mid.vx {x : Rat} {s : CSeg} (h : Mid x s) (e : s.pa.x = s.pb.x) : (s.pa.x : Rat) = x := h.meets.stop e

theorem Mid.on {x : Rat} {s : CSeg} (h : Mid x s) : On s x (hAt s x) := on_height h.ok h.lo h.hi

/-- One does not end where the other starts. -/
def Compat (s t : CSeg) : Prop := Nv s → Nv t → s.pa.x < t.pb.x ∧ t.pa.x < s.pb.x

theorem height {s t : CSeg} {x : Rat} (hs : Mid x s) (ht : Mid x t) (hk : Compat s t) (h : ALC x s t) (hc : sweepCmp s t = true) :
    hAt t x ≤ hAt s x := by
  by_cases c1 : s.pa.x = s.pb.x
  · have ha : Apart x s t := apart_of (by rw [← hs.vx c1]; exact le_max_left _ _) (fun n => absurd c1 n.ne) hs.ok ht.ok
    rcases cmp_pos hs.meets ht.meets ha hc with h | ⟨h, _⟩
    · exact h.le
    · exact h.le
  · by_cases c2 : t.pa.x = t.pb.x
    · have ha : Apart x s t := apart_of (by rw [← ht.vx c2]; exact le_max_right _ _) (fun _ n => absurd c2 n.ne) hs.ok ht.ok
      rcases cmp_pos hs.meets ht.meets ha hc with h | ⟨h, _⟩
      · exact h.le
      · exact h.le
    · have n1 := hs.ok.nv c1
      have n2 := ht.ok.nv c2
      obtain ⟨k1, k2⟩ := hk n1 n2
      exact height_nv n1 n2 h hs.lo ht.lo hs.hi ht.hi k1 k2 hc

/-! ### Points at one place -/

/-- One point, or both are marked. -/
def Eqm (mk : Nat → Prop) (i j : Nat) : Prop := i = j ∨ (mk i ∧ mk j)

theorem Eqm.symm {mk : Nat → Prop} {i j : Nat} (h : Eqm mk i j) : Eqm mk j i := by
  rcases h with h | h
  · exact Or.inl h.symm
  · exact Or.inr ⟨h.2, h.1⟩

theorem Eqm.trans {mk : Nat → Prop} {i j k : Nat} (h : Eqm mk i j) (h' : Eqm mk j k) : Eqm mk i k := by
  rcases h with rfl | h
  · exact h'
  · rcases h' with rfl | h'
    · exact Or.inr h
    · exact Or.inr ⟨h.1, h'.2⟩

theorem Eqm.mk {mk : Nat → Prop} {i j : Nat} (h : Eqm mk i j) (hi : mk i) : mk j := by
  rcases h with rfl | h
  · exact hi
  · exact h.2

/-- The test marks points of two lines at one place, except where lines on one straight line touch end to end. -/
structure Te (mk : Nat → Prop) (s t : CSeg) : Prop where
  aa : s.pa = t.pa → (Nv s ∨ Nv t ∨ Coin s t) → Eqm mk s.a t.a
  bb : s.pb = t.pb → (Nv s ∨ Nv t ∨ Coin s t) → Eqm mk s.b t.b
  ab : s.pa = t.pb → (¬ (Nv s ↔ Nv t) ∨ Coin s t) → Eqm mk s.a t.b
  ba : s.pb = t.pa → (¬ (Nv s ↔ Nv t) ∨ Coin s t) → Eqm mk s.b t.a

theorem Te.symm {mk : Nat → Prop} {s t : CSeg} (h : Te mk s t) : Te mk t s where
  aa e c := (h.aa e.symm (by rcases c with c | c | c; exacts [Or.inr (Or.inl c), Or.inl c, Or.inr (Or.inr c.symm)])).symm
  bb e c := (h.bb e.symm (by rcases c with c | c | c; exacts [Or.inr (Or.inl c), Or.inl c, Or.inr (Or.inr c.symm)])).symm
  ab e c := (h.ba e.symm (c.imp (fun c d => c d.symm) Coin.symm)).symm
  ba e c := (h.ab e.symm (c.imp (fun c d => c d.symm) Coin.symm)).symm

/-- Tested lines. -/
def Ct (mk : Nat → Prop) (s t : CSeg) : Prop := Cl s t ∧ Te mk s t

theorem Ct.symm {mk : Nat → Prop} {s t : CSeg} (h : Ct mk s t) : Ct mk t s := ⟨h.1.symm, h.2.symm⟩

end PolyOps.Planarity
