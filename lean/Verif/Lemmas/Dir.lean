import Verif.Lemmas.Path
import Mathlib.Tactic.Push

/-! Directions in cyclic order. -/
namespace PolyOps.Exec
open PolyOps

/-- Cross product. -/
def cr (a b : V) : Rat := a.1 * b.2 - a.2 * b.1

/-- Dot product. -/
def dt (a b : V) : Rat := a.1 * b.1 + a.2 * b.2

/-- From the positive x-axis (included) to the negative one (excluded). -/
def Upper (d : V) : Prop := 0 < d.2 ∨ (d.2 = 0 ∧ 0 < d.1)

instance (d : V) : Decidable (Upper d) := by unfold Upper; infer_instance

/-- A number that grows with the angle of a direction, from 0 to 4. -/
def key (d : V) : Rat := if Upper d then 1 - d.1 / (|d.1| + |d.2|) else 3 + d.1 / (|d.1| + |d.2|)

/-- Turning from `c` in the direction of growing angles, `d` comes before `b`. -/
def Btw (c d b : V) : Prop := (key c < key d ∧ key d < key b) ∨ (key d < key b ∧ key b < key c) ∨ (key b < key c ∧ key c < key d)

theorem Upper.ne {d : V} (h : Upper d) : d ≠ 0 := by
  rintro rfl; rcases h with h | h <;> simp at h

theorem norm_pos {d : V} (h : d ≠ 0) : 0 < |d.1| + |d.2| := by
  by_contra c
  have h1 := abs_nonneg d.1
  have h2 := abs_nonneg d.2
  have e1 : |d.1| = 0 := by linarith
  have e2 : |d.2| = 0 := by linarith
  exact h (Prod.ext (abs_eq_zero.mp e1) (abs_eq_zero.mp e2))

theorem upper_neg {d : V} (h : d ≠ 0) : Upper (-d) ↔ ¬ Upper d := by
  unfold Upper
  simp only [Prod.fst_neg, Prod.snd_neg]
  constructor
  · rintro (a | ⟨a, b⟩) (c | ⟨c, e⟩) <;> linarith
  · intro c
    push Not at c
    rcases lt_trichotomy d.2 0 with e | e | e
    · exact Or.inl (by linarith)
    · refine Or.inr ⟨by linarith, ?_⟩
      have := c.2 e
      rcases this.lt_or_eq with g | g
      · linarith
      · exact (h (Prod.ext g e)).elim
    · linarith [c.1]

theorem key_upper {d : V} (h : Upper d) : 0 ≤ key d ∧ key d < 2 := by
  have hp := norm_pos h.ne
  unfold key
  rw [if_pos h]
  have h1 : d.1 / (|d.1| + |d.2|) ≤ 1 := (div_le_one hp).mpr (by linarith [le_abs_self d.1, abs_nonneg d.2])
  have h2 : -1 < d.1 / (|d.1| + |d.2|) := by
    rw [lt_div_iff₀ hp]
    rcases h with h | ⟨h, g⟩
    · rw [abs_of_pos h]; linarith [neg_abs_le d.1]
    · rw [h, abs_zero, abs_of_pos g]; linarith
  constructor <;> linarith

theorem key_neg {d : V} (h : Upper d) : key (-d) = key d + 2 := by
  unfold key
  rw [if_pos h, if_neg (fun c => (upper_neg h.ne).mp c h)]
  simp only [Prod.fst_neg, Prod.snd_neg, abs_neg]
  ring

theorem key_lt {c d : V} (hc : Upper c) (hd : Upper d) : key c < key d ↔ 0 < cr c d := by
  have h1 := norm_pos hc.ne
  have h2 := norm_pos hd.ne
  unfold key cr
  rw [if_pos hc, if_pos hd]
  have e : (1 - c.1 / (|c.1| + |c.2|) < 1 - d.1 / (|d.1| + |d.2|)) ↔ d.1 * (|c.1| + |c.2|) < c.1 * (|d.1| + |d.2|) := by
    rw [sub_lt_sub_iff_left, div_lt_div_iff₀ h2 h1]
  rw [e]
  have a1 : 0 ≤ c.2 := by rcases hc with h | h; exacts [h.le, h.1.ge]
  have a2 : 0 ≤ d.2 := by rcases hd with h | h; exacts [h.le, h.1.ge]
  rw [abs_of_nonneg a1, abs_of_nonneg a2]
  rcases le_total 0 c.1 with b1 | b1 <;> rcases le_total 0 d.1 with b2 | b2
  · rw [abs_of_nonneg b1, abs_of_nonneg b2]; constructor <;> intro h <;> nlinarith
  · rw [abs_of_nonneg b1, abs_of_nonpos b2]
    constructor
    · intro h
      by_contra g
      have g1 : c.1 * d.2 = 0 := by nlinarith [mul_nonneg b1 a2, mul_nonneg a1 (neg_nonneg.mpr b2)]
      have g2 : c.2 * d.1 = 0 := by nlinarith [mul_nonneg b1 a2, mul_nonneg a1 (neg_nonneg.mpr b2)]
      rcases mul_eq_zero.mp g1 with k | k
      · rw [k] at h; linarith
      · rcases hd with hd | hd
        · linarith
        · linarith [hd.2]
    · intro h; nlinarith [mul_nonneg b1 (neg_nonneg.mpr b2)]
  · rw [abs_of_nonpos b1, abs_of_nonneg b2]
    constructor
    · intro h; nlinarith [mul_nonneg (neg_nonneg.mpr b1) b2]
    · intro h; nlinarith [mul_nonneg (neg_nonneg.mpr b1) a2, mul_nonneg a1 b2]
  · rw [abs_of_nonpos b1, abs_of_nonpos b2]; constructor <;> intro h <;> nlinarith

theorem cr_swap (a b : V) : cr b a = - cr a b := by unfold cr; ring
theorem cr_negl (a b : V) : cr (-a) b = - cr a b := by unfold cr; simp only [Prod.fst_neg, Prod.snd_neg]; ring
theorem cr_negr (a b : V) : cr a (-b) = - cr a b := by unfold cr; simp only [Prod.fst_neg, Prod.snd_neg]; ring

theorem key_le {c d : V} (hc : Upper c) (hd : Upper d) : key c ≤ key d ↔ 0 ≤ cr c d := by
  rw [← not_lt, key_lt hd hc, cr_swap c d]; constructor <;> intro h <;> linarith

/-- A direction is in the upper half or opposite to one that is. -/
theorem upper_cases {d : V} (h : d ≠ 0) : Upper d ∨ ∃ e, Upper e ∧ d = -e := by
  by_cases c : Upper d
  · exact Or.inl c
  · exact Or.inr ⟨-d, (upper_neg h).mpr c, by simp⟩

theorem ne_of_cr {a b : V} (h : 0 < cr a b) : a ≠ 0 ∧ b ≠ 0 := by
  constructor <;> rintro rfl <;> simp [cr] at h

/-- Same direction. -/
def Same (a b : V) : Prop := key a = key b

theorem same_iff {a b : V} (ha : a ≠ 0) (hb : b ≠ 0) : Same a b ↔ cr a b = 0 ∧ 0 < dt a b := by
  have up : ∀ {a b : V}, Upper a → Upper b → cr a b = 0 → 0 < dt a b := by
    intro a b ha hb h0
    unfold cr at h0
    unfold dt
    rcases ha with ha | ⟨ha, ha'⟩ <;> rcases hb with hb | ⟨hb, hb'⟩
    · have : 0 < a.2 * b.2 := mul_pos ha hb
      nlinarith [sq_nonneg (a.1 * b.2), mul_pos ha ha, mul_pos hb hb, sq_nonneg a.1, sq_nonneg b.1, show a.1 * b.1 * (a.2 * b.2) = (a.1 * b.2) ^ 2 by
        have : a.1 * b.2 = a.2 * b.1 := by linarith
        calc a.1 * b.1 * (a.2 * b.2) = (a.1 * b.2) * (a.2 * b.1) := by ring
          _ = (a.1 * b.2) ^ 2 := by rw [← this]; ring]
    · rw [hb] at h0; nlinarith
    · rw [ha] at h0; nlinarith
    · rw [ha]; nlinarith [mul_pos ha' hb']
  have eqi : ∀ {a b : V}, Upper a → Upper b → (key a = key b ↔ cr a b = 0) := by
    intro a b ha hb
    rw [le_antisymm_iff, key_le ha hb, key_le hb ha, cr_swap a b]
    constructor
    · intro h; linarith [h.1, h.2]
    · intro h; constructor <;> linarith
  unfold Same
  rcases upper_cases ha with ua | ⟨a, ua, rfl⟩ <;> rcases upper_cases hb with ub | ⟨b, ub, rfl⟩
  · rw [eqi ua ub]; exact ⟨fun h => ⟨h, up ua ub h⟩, fun h => h.1⟩
  · rw [key_neg ub]
    constructor
    · intro h; linarith [(key_upper ua).2, (key_upper ub).1]
    · rintro ⟨h1, h2⟩
      rw [cr_negr] at h1
      have := up ua ub (by linarith)
      unfold dt at *; simp only [Prod.fst_neg, Prod.snd_neg] at h2; linarith
  · rw [key_neg ua]
    constructor
    · intro h; linarith [(key_upper ub).2, (key_upper ua).1]
    · rintro ⟨h1, h2⟩
      rw [cr_negl] at h1
      have := up ua ub (by linarith)
      unfold dt at *; simp only [Prod.fst_neg, Prod.snd_neg] at h2; linarith
  · rw [key_neg ua, key_neg ub, cr_negl, cr_negr, neg_neg, add_left_inj, eqi ua ub]
    have e : dt (-a) (-b) = dt a b := by unfold dt; simp only [Prod.fst_neg, Prod.snd_neg]; ring
    rw [e]
    exact ⟨fun h => ⟨h, up ua ub h⟩, fun h => h.1⟩

theorem Btw.cyc {c d b : V} (h : Btw c d b) : Btw d b c := by
  unfold Btw at *; rcases h with h | h | h
  · exact Or.inr (Or.inr ⟨h.1, h.2⟩)
  · exact Or.inl h
  · exact Or.inr (Or.inl h)

theorem Btw.asymm {c d b : V} (h : Btw c d b) : ¬ Btw d c b := by
  unfold Btw at *
  rintro g
  rcases h with h | h | h <;> rcases g with g | g | g <;> linarith [h.1, h.2, g.1, g.2]

theorem btw_total {c d b : V} (h1 : ¬ Same c d) (h2 : ¬ Same d b) (h3 : ¬ Same c b) : Btw c d b ∨ Btw d c b := by
  unfold Btw
  unfold Same at *
  rcases lt_or_gt_of_ne h1 with a | a <;> rcases lt_or_gt_of_ne h2 with e | e <;> rcases lt_or_gt_of_ne h3 with f | f <;>
    first
    | exact Or.inl (Or.inl ⟨by linarith, by linarith⟩)
    | exact Or.inl (Or.inr (Or.inl ⟨by linarith, by linarith⟩))
    | exact Or.inl (Or.inr (Or.inr ⟨by linarith, by linarith⟩))
    | exact Or.inr (Or.inl ⟨by linarith, by linarith⟩)
    | exact Or.inr (Or.inr (Or.inl ⟨by linarith, by linarith⟩))
    | exact Or.inr (Or.inr (Or.inr ⟨by linarith, by linarith⟩))

theorem Btw.trans {c d e b : V} (h1 : Btw c d b) (h2 : Btw d e b) : Btw c e b := by
  unfold Btw at *
  rcases h1 with h | h | h <;> rcases h2 with g | g | g <;>
    first
    | exact Or.inl ⟨by linarith [h.1, h.2, g.1, g.2], by linarith [h.1, h.2, g.1, g.2]⟩
    | exact Or.inr (Or.inl ⟨by linarith [h.1, h.2, g.1, g.2], by linarith [h.1, h.2, g.1, g.2]⟩)
    | exact Or.inr (Or.inr ⟨by linarith [h.1, h.2, g.1, g.2], by linarith [h.1, h.2, g.1, g.2]⟩)

theorem Btw.congr_mid {c d e b : V} (h : Same d e) (g : Btw c d b) : Btw c e b := by
  unfold Btw at *; unfold Same at h; rw [← h]; exact g

theorem btw_of_right {c d b : V} (hc : c ≠ 0) (h : 0 < cr d b) (h1 : 0 < cr c b → 0 < cr c d) (hs : ¬ Same c b) : Btw c d b := by
  obtain ⟨hd, hb⟩ := ne_of_cr h
  unfold Same at hs
  unfold Btw
  rcases upper_cases hd with ud | ⟨d, ud, rfl⟩ <;> rcases upper_cases hb with ub | ⟨b, ub, rfl⟩ <;> rcases upper_cases hc with uc | ⟨c, uc, rfl⟩ <;>
    (try simp only [cr_negl, cr_negr, neg_neg] at h h1) <;>
    (try simp only [key_neg ud, key_neg ub, key_neg uc] at hs ⊢)
  · rw [key_lt ud ub] at *
    rcases lt_or_gt_of_ne hs with k | k
    · exact Or.inl ⟨(key_lt uc ud).mpr (h1 ((key_lt uc ub).mp k)), h⟩
    · exact Or.inr (Or.inl ⟨h, k⟩)
  · have := (key_lt ud ub).mpr h
    exact Or.inr (Or.inl ⟨this, by linarith [(key_upper ub).2, (key_upper uc).1]⟩)
  · have k := (key_lt ub ud).mpr (by rw [cr_swap d b]; linarith)
    refine Or.inl ⟨?_, by linarith [(key_upper ud).2, (key_upper ub).1]⟩
    rcases lt_or_ge 0 (cr c b) with g | g
    · have := (key_lt uc ub).mpr g; linarith
    · rcases g.lt_or_eq with g | g
      · exact (key_lt uc ud).mpr (h1 (by linarith))
      · have := (key_le uc ub).mpr g.ge; linarith
  · have k := (key_lt ub ud).mpr (by rw [cr_swap d b]; linarith)
    refine Or.inr (Or.inl ⟨by linarith [(key_upper ud).2, (key_upper ub).1], ?_⟩)
    have hs : key c ≠ key b := fun e => hs (by rw [e])
    rcases lt_or_gt_of_ne hs with g | g
    · have := h1 ((key_lt uc ub).mp g)
      have := (key_lt ud uc).mpr (by rw [cr_swap c d]; linarith)
      linarith
    · linarith
  · have k := (key_lt ub ud).mpr (by rw [cr_swap d b]; linarith)
    refine Or.inr (Or.inr ⟨?_, by linarith [(key_upper uc).2, (key_upper ud).1]⟩)
    rcases lt_or_gt_of_ne hs with g | g
    · have := h1 ((key_lt uc ub).mp g)
      have := (key_lt ud uc).mpr (by rw [cr_swap c d]; linarith)
      linarith
    · linarith
  · have k := (key_lt ub ud).mpr (by rw [cr_swap d b]; linarith)
    refine Or.inr (Or.inr ⟨by linarith [(key_upper ub).2, (key_upper uc).1], ?_⟩)
    rcases lt_or_ge (cr c b) 0 with g | g
    · have := (key_lt uc ud).mpr (h1 (by linarith)); linarith
    · have := (key_le uc ub).mpr g; linarith
  · have k := (key_lt ud ub).mpr h
    exact Or.inl ⟨by linarith [(key_upper uc).2, (key_upper ud).1], by linarith⟩
  · have k := (key_lt ud ub).mpr h
    have hs : key c ≠ key b := fun e => hs (by rw [e])
    rcases lt_or_gt_of_ne hs with g | g
    · have := (key_lt uc ud).mpr (h1 ((key_lt uc ub).mp g))
      exact Or.inl ⟨by linarith, by linarith⟩
    · exact Or.inr (Or.inl ⟨by linarith, by linarith⟩)

/-- Mirror image. -/
def mir (d : V) : V := (d.1, -d.2)

theorem btw_of_left {c d b : V} (hb : b ≠ 0) (h : 0 < cr c d) (h1 : 0 < cr c b → 0 < cr d b) (hs : ¬ Same c b) : Btw c d b := by
  obtain ⟨hc, hd⟩ := ne_of_cr h
  unfold Same at hs
  unfold Btw
  rcases upper_cases hd with ud | ⟨d, ud, rfl⟩ <;> rcases upper_cases hb with ub | ⟨b, ub, rfl⟩ <;> rcases upper_cases hc with uc | ⟨c, uc, rfl⟩ <;>
    (try simp only [cr_negl, cr_negr, neg_neg] at h h1) <;>
    (try simp only [key_neg ud, key_neg ub, key_neg uc] at hs ⊢)
  · have k := (key_lt uc ud).mpr h
    rcases lt_or_gt_of_ne hs with g | g
    · exact Or.inl ⟨k, (key_lt ud ub).mpr (h1 ((key_lt uc ub).mp g))⟩
    · exact Or.inr (Or.inr ⟨g, k⟩)
  · have k := (key_lt ud uc).mpr (by rw [cr_swap c d]; linarith)
    refine Or.inr (Or.inl ⟨?_, by linarith [(key_upper ub).2, (key_upper uc).1]⟩)
    rcases lt_or_ge (cr c b) 0 with g | g
    · exact (key_lt ud ub).mpr (h1 (by linarith))
    · have := (key_le uc ub).mpr g; linarith
  · have k := (key_lt uc ud).mpr h
    exact Or.inl ⟨k, by linarith [(key_upper ud).2, (key_upper ub).1]⟩
  · have k := (key_lt ud uc).mpr (by rw [cr_swap c d]; linarith)
    have hs : key c ≠ key b := fun e => hs (by rw [e])
    refine Or.inr (Or.inl ⟨by linarith [(key_upper ud).2, (key_upper ub).1], ?_⟩)
    rcases lt_or_gt_of_ne hs with g | g
    · have := h1 ((key_lt uc ub).mp g)
      have := (key_lt ub ud).mpr (by rw [cr_swap d b]; linarith)
      linarith
    · linarith
  · have k := (key_lt ud uc).mpr (by rw [cr_swap c d]; linarith)
    refine Or.inr (Or.inr ⟨?_, by linarith [(key_upper uc).2, (key_upper ud).1]⟩)
    rcases lt_or_gt_of_ne hs with g | g
    · have := h1 ((key_lt uc ub).mp g)
      have := (key_lt ub ud).mpr (by rw [cr_swap d b]; linarith)
      linarith
    · linarith
  · have k := (key_lt uc ud).mpr h
    exact Or.inr (Or.inr ⟨by linarith [(key_upper ub).2, (key_upper uc).1], by linarith⟩)
  · have k := (key_lt ud uc).mpr (by rw [cr_swap c d]; linarith)
    refine Or.inl ⟨by linarith [(key_upper uc).2, (key_upper ud).1], ?_⟩
    rcases lt_or_ge (cr c b) 0 with g | g
    · have := (key_lt ud ub).mpr (h1 (by linarith)); linarith
    · have := (key_le uc ub).mpr g; linarith
  · have k := (key_lt uc ud).mpr h
    have hs : key c ≠ key b := fun e => hs (by rw [e])
    rcases lt_or_gt_of_ne hs with g | g
    · have := (key_lt ud ub).mpr (h1 ((key_lt uc ub).mp g))
      exact Or.inl ⟨by linarith, by linarith⟩
    · exact Or.inr (Or.inr ⟨by linarith, by linarith⟩)

end PolyOps.Exec
