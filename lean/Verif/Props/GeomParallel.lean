import Verif.Props.GeomCross

/-! Property C17: parallel segments. -/
namespace PolyOps

/-- The rational point `(x, y)` lies on the closed segment. -/
def OnSegQ (x y : Rat) (a b : Pt) : Prop := ∃ t : Rat, 0 ≤ t ∧ t ≤ 1 ∧ At a b t x y

/-- The closed segments have two distinct common points. -/
def Overlap (a b c d : Pt) : Prop :=
  ∃ x y x' y' : Rat, (x ≠ x' ∨ y ≠ y') ∧ OnSegQ x y a b ∧ OnSegQ x y c d ∧ OnSegQ x' y' a b ∧ OnSegQ x' y' c d

/-- Same end points, identified by index: the two segments are one line of the polygon. -/
def SameLine (s1 s2 : CSeg) : Prop :=
  (s1.pa = s2.pa ∧ s1.pb = s2.pb ∧ s1.a = s2.a ∧ s1.b = s2.b) ∨
  (s1.pa = s2.pb ∧ s1.pb = s2.pa ∧ s1.a = s2.b ∧ s1.b = s2.a)

/-- Position along `a b`, scaled by its squared length. -/
def par (a b : Pt) (x y : Rat) : Rat := (x - a.x) * ((b.x:Rat) - a.x) + (y - a.y) * ((b.y:Rat) - a.y)
/-- Distance from the line through `a b`, scaled by its length. -/
def off (a b : Pt) (x y : Rat) : Rat := ((b.x:Rat) - a.x) * (y - a.y) - (x - a.x) * ((b.y:Rat) - a.y)

theorem sq_pos {a b : Pt} (h : a ≠ b) : (0:Rat) < ((b.x:Rat) - a.x) ^ 2 + ((b.y:Rat) - a.y) ^ 2 := by
  by_contra hc
  have h1 : ((b.x:Rat) - a.x) ^ 2 = 0 := by nlinarith [sq_nonneg ((b.x:Rat) - a.x), sq_nonneg ((b.y:Rat) - a.y)]
  have h2 : ((b.y:Rat) - a.y) ^ 2 = 0 := by nlinarith [sq_nonneg ((b.x:Rat) - a.x), sq_nonneg ((b.y:Rat) - a.y)]
  rw [sq_eq_zero_iff, sub_eq_zero] at h1 h2
  apply h
  exact Pt.ext (by exact_mod_cast h1.symm) (by exact_mod_cast h2.symm)

/-- Position and distance determine the point. -/
theorem par_off_inj {a b : Pt} (h : a ≠ b) {x y x' y' : Rat} (h1 : par a b x y = par a b x' y')
    (h2 : off a b x y = off a b x' y') : x = x' ∧ y = y' := by
  have hp := sq_pos h
  unfold par off at *
  constructor
  · apply mul_left_cancel₀ hp.ne'
    linear_combination ((b.x:Rat) - a.x) * h1 - ((b.y:Rat) - a.y) * h2
  · apply mul_left_cancel₀ hp.ne'
    linear_combination ((b.y:Rat) - a.y) * h1 + ((b.x:Rat) - a.x) * h2

/-- A segment on the line through `a b`, in terms of positions along it. -/
theorem onSegQ_iff {a b : Pt} (h : a ≠ b) {c d : Pt} (hc : off a b c.x c.y = 0) (hd : off a b d.x d.y = 0)
    (hcd : c ≠ d) (x y : Rat) :
    OnSegQ x y c d ↔ off a b x y = 0 ∧ min (par a b c.x c.y) (par a b d.x d.y) ≤ par a b x y ∧
      par a b x y ≤ max (par a b c.x c.y) (par a b d.x d.y) := by
  have hne : par a b c.x c.y ≠ par a b d.x d.y := by
    intro he
    have := par_off_inj h he (hc.trans hd.symm)
    exact hcd (Pt.ext (by exact_mod_cast this.1) (by exact_mod_cast this.2))
  have hpar : ∀ t : Rat, par a b (c.x + t * ((d.x:Rat) - c.x)) (c.y + t * ((d.y:Rat) - c.y)) =
      par a b c.x c.y + t * (par a b d.x d.y - par a b c.x c.y) := by
    intro t; unfold par; ring
  have hoff : ∀ t : Rat, off a b (c.x + t * ((d.x:Rat) - c.x)) (c.y + t * ((d.y:Rat) - c.y)) = 0 := by
    intro t
    have : off a b (c.x + t * ((d.x:Rat) - c.x)) (c.y + t * ((d.y:Rat) - c.y)) =
      off a b c.x c.y + t * (off a b d.x d.y - off a b c.x c.y) := by unfold off; ring
    rw [this, hc, hd]; ring
  constructor
  · rintro ⟨t, t0, t1, e1, e2⟩
    rw [e1, e2, hpar, hoff]
    refine ⟨rfl, ?_⟩
    generalize par a b c.x c.y = m at *
    generalize par a b d.x d.y = n at *
    rcases le_total m n with hmn | hmn
    · rw [min_eq_left hmn, max_eq_right hmn]; constructor <;> nlinarith
    · rw [min_eq_right hmn, max_eq_left hmn]; constructor <;> nlinarith
  · rintro ⟨h1, h2, h3⟩
    have hn0 : par a b d.x d.y - par a b c.x c.y ≠ 0 := sub_ne_zero.mpr hne.symm
    let t := (par a b x y - par a b c.x c.y) / (par a b d.x d.y - par a b c.x c.y)
    have ht : t * (par a b d.x d.y - par a b c.x c.y) = par a b x y - par a b c.x c.y := div_mul_cancel₀ _ hn0
    have hu : 0 ≤ t ∧ t ≤ 1 := by
      generalize t = t at *
      generalize par a b c.x c.y = m at *
      generalize par a b d.x d.y = n at *
      rcases lt_or_gt_of_ne hne with hmn | hmn
      · rw [min_eq_left hmn.le] at h2; rw [max_eq_right hmn.le] at h3
        constructor <;> nlinarith
      · rw [min_eq_right hmn.le] at h2; rw [max_eq_left hmn.le] at h3
        constructor <;> nlinarith
    have := par_off_inj h (x := x) (y := y) (x' := c.x + t * ((d.x:Rat) - c.x)) (y' := c.y + t * ((d.y:Rat) - c.y))
      (by rw [hpar, ht]; ring) (by rw [hoff, h1])
    exact ⟨t, hu.1, hu.2, this.1, this.2⟩

/-- Overlap in terms of the positions along the first segment. -/
theorem overlap_iff {a b : Pt} (h : a ≠ b) {c d : Pt} (hc : off a b c.x c.y = 0) (hd : off a b d.x d.y = 0)
    (hcd : c ≠ d) :
    Overlap a b c d ↔ max 0 (min (par a b c.x c.y) (par a b d.x d.y)) <
      min (par a b b.x b.y) (max (par a b c.x c.y) (par a b d.x d.y)) := by
  have haa : par a b a.x a.y = 0 := by unfold par; ring
  have hoa : off a b a.x a.y = 0 := by unfold off; ring
  have hob : off a b b.x b.y = 0 := by unfold off; ring
  have hbb : 0 < par a b b.x b.y := by
    have := sq_pos h; unfold par; nlinarith
  have hne : par a b c.x c.y ≠ par a b d.x d.y := by
    intro he
    have := par_off_inj h he (hc.trans hd.symm)
    exact hcd (Pt.ext (by exact_mod_cast this.1) (by exact_mod_cast this.2))
  have S1 := onSegQ_iff h hoa hob h
  have S2 := onSegQ_iff h hc hd hcd
  rw [haa, min_eq_left hbb.le, max_eq_right hbb.le] at S1
  constructor
  · rintro ⟨x, y, x', y', hn, h1, h2, h3, h4⟩
    rw [S1] at h1 h3
    rw [S2] at h2 h4
    have hpn : par a b x y ≠ par a b x' y' := by
      intro he
      have := par_off_inj h he (h1.1.trans h3.1.symm)
      tauto
    have l1 := max_le h1.2.1 h2.2.1
    have u1 := le_min h1.2.2 h2.2.2
    have l2 := max_le h3.2.1 h4.2.1
    have u2 := le_min h3.2.2 h4.2.2
    rcases lt_or_gt_of_ne hpn with hl | hl
    · exact lt_of_le_of_lt l1 (lt_of_lt_of_le hl u2)
    · exact lt_of_le_of_lt l2 (lt_of_lt_of_le hl u1)
  · intro hl
    -- points at the two ends of the common range
    have ex : ∀ m : Rat, ∃ x y : Rat, off a b x y = 0 ∧ par a b x y = m := by
      intro m
      have hp := sq_pos h
      refine ⟨a.x + m / (((b.x:Rat) - a.x) ^ 2 + ((b.y:Rat) - a.y) ^ 2) * ((b.x:Rat) - a.x),
        a.y + m / (((b.x:Rat) - a.x) ^ 2 + ((b.y:Rat) - a.y) ^ 2) * ((b.y:Rat) - a.y), ?_, ?_⟩
      · unfold off; ring
      · unfold par
        have : m = m / (((b.x:Rat) - a.x) ^ 2 + ((b.y:Rat) - a.y) ^ 2) * (((b.x:Rat) - a.x) ^ 2 + ((b.y:Rat) - a.y) ^ 2) :=
          (div_mul_cancel₀ _ hp.ne').symm
        conv_rhs => rw [this]
        ring
    obtain ⟨x, y, o1, p1⟩ := ex (max 0 (min (par a b c.x c.y) (par a b d.x d.y)))
    obtain ⟨x', y', o2, p2⟩ := ex (min (par a b b.x b.y) (max (par a b c.x c.y) (par a b d.x d.y)))
    refine ⟨x, y, x', y', ?_, ?_, ?_, ?_, ?_⟩
    · by_contra hcc
      push Not at hcc
      rw [hcc.1, hcc.2, p2] at p1
      exact absurd p1 hl.ne'
    · rw [S1, p1]; exact ⟨o1, le_max_left _ _, hl.le.trans (min_le_left _ _)⟩
    · rw [S2, p1]; exact ⟨o1, le_max_right _ _, hl.le.trans (min_le_right _ _)⟩
    · rw [S1, p2]; exact ⟨o2, (le_max_left _ _).trans hl.le, min_le_left _ _⟩
    · rw [S2, p2]; exact ⟨o2, (le_max_right _ _).trans hl.le, min_le_right _ _⟩

theorem off_int (a b c : Pt) : off a b c.x c.y = (triangleWinding a b c : Int) := by
  unfold off triangleWinding; push_cast; ring

theorem par_int (a b c : Pt) : par a b c.x c.y = (intDot (c - a) (b - a) : Int) := by
  unfold par intDot; simp only [Pt.sub_x, Pt.sub_y]; push_cast; ring

theorem off_pb (s1 s2 : CSeg) (hd : isD s1 s2 = 0) :
    triangleWinding s1.pa s1.pb s2.pb = triangleWinding s1.pa s1.pb s2.pa := by
  unfold isD at hd; unfold triangleWinding; linear_combination hd

/-- The one-dimensional decision. -/
theorem decide_1d (n p q : Int) (hn : 0 < n) (hpq : p ≠ q) :
    (between 0 (min p q) (max p q) = true ∨ between n (min p q) (max p q) = true ∨
      between p (min 0 n) (max 0 n) = true ∨ between q (min 0 n) (max 0 n) = true ∨
      (min 0 n = min p q ∧ max 0 n = max p q)) ↔ max 0 (min p q) < min n (max p q) := by
  simp only [between, Bool.and_eq_true, decide_eq_true_eq]
  omega

theorem dist_ne {a b : Pt} (h : a ≠ b) {c d : Pt} (hc : triangleWinding a b c = 0) (hd : triangleWinding a b d = 0) :
    intDot (c - a) (b - a) = intDot (d - a) (b - a) → c = d := by
  intro he
  have e1 : par a b c.x c.y = par a b d.x d.y := by rw [par_int, par_int, he]
  have e2 : off a b c.x c.y = off a b d.x d.y := by rw [off_int, off_int, hc, hd]
  have := par_off_inj h e1 e2
  exact Pt.ext (by exact_mod_cast this.1) (by exact_mod_cast this.2)

theorem dot_self_pos {a b : Pt} (h : a ≠ b) : 0 < intDot (b - a) (b - a) := by
  have := sq_pos h
  have e : ((intDot (b - a) (b - a) : Int) : Rat) = ((b.x:Rat) - a.x) ^ 2 + ((b.y:Rat) - a.y) ^ 2 := by
    unfold intDot; simp only [Pt.sub_x, Pt.sub_y]; push_cast; ring
  rw [← e] at this
  exact_mod_cast this

/-- The decision of `intersects_parallel` after projection to one dimension. -/
def parallelCore (n p q : Int) (a1 b1 a2 b2 : Nat) (pa1 pb1 pa2 pb2 : Pt) : Option Isect :=
  if between 0 (min p q) (max p q) then some ⟨some pa1, .start, .no⟩
  else if between n (min p q) (max p q) then some ⟨some pb1, .end, .no⟩
  else if between p (min 0 n) (max 0 n) then some ⟨some pa2, .no, .start⟩
  else if between q (min 0 n) (max 0 n) then some ⟨some pb2, .no, .end⟩
  else if min 0 n = min p q ∧ max 0 n = max p q then
    if 0 = p then
      if a1 ≠ a2 then
        if b1 ≠ b2 then some ⟨none, .both, .both⟩
        else some ⟨some pa1, .start, .start⟩
      else if b1 ≠ b2 then some ⟨some pb1, .end, .end⟩
      else none
    else
      if a1 ≠ b2 then
        if b1 ≠ a2 then some ⟨none, .both, .both⟩
        else some ⟨some pa1, .start, .end⟩
      else if b1 ≠ a2 then some ⟨some pb1, .end, .start⟩
      else none
  else none

theorem intersectsParallel_core (s1 s2 : CSeg) : intersectsParallel s1 s2 =
    if triangleWinding s1.pa s1.pb s2.pa ≠ 0 then none else
      parallelCore (intDot (s1.pb - s1.pa) (s1.pb - s1.pa)) (intDot (s2.pa - s1.pa) (s1.pb - s1.pa))
        (intDot (s2.pb - s1.pa) (s1.pb - s1.pa)) s1.a s1.b s2.a s2.b s1.pa s1.pb s2.pa s2.pb := rfl

theorem parallelCore_isSome (n p q : Int) (a1 b1 a2 b2 : Nat) (pa1 pb1 pa2 pb2 : Pt) (hn : 0 < n) (hpq : p ≠ q) :
    (parallelCore n p q a1 b1 a2 b2 pa1 pb1 pa2 pb2).isSome = true ↔
      max 0 (min p q) < min n (max p q) ∧
        ¬ (p = 0 ∧ q = n ∧ a1 = a2 ∧ b1 = b2 ∨ q = 0 ∧ p = n ∧ a1 = b2 ∧ b1 = a2) := by
  rw [← decide_1d n p q hn hpq]
  unfold parallelCore
  by_cases c1 : between 0 (min p q) (max p q) = true
  · rw [if_pos c1]; simp only [c1, between, Bool.and_eq_true, decide_eq_true_eq, Option.isSome_some, true_iff, true_or, true_and] at *; omega
  by_cases c2 : between n (min p q) (max p q) = true
  · rw [if_neg c1, if_pos c2]; simp only [c2, between, Bool.and_eq_true, decide_eq_true_eq, Option.isSome_some, true_iff, true_or, or_true, true_and] at *; omega
  by_cases c3 : between p (min 0 n) (max 0 n) = true
  · rw [if_neg c1, if_neg c2, if_pos c3]; simp only [c3, between, Bool.and_eq_true, decide_eq_true_eq, Option.isSome_some, true_iff, true_or, or_true, true_and] at *; omega
  by_cases c4 : between q (min 0 n) (max 0 n) = true
  · rw [if_neg c1, if_neg c2, if_neg c3, if_pos c4]; simp only [c4, between, Bool.and_eq_true, decide_eq_true_eq, Option.isSome_some, true_iff, true_or, or_true, true_and] at *; omega
  rw [if_neg c1, if_neg c2, if_neg c3, if_neg c4]
  by_cases c5 : min 0 n = min p q ∧ max 0 n = max p q
  · rw [if_pos c5]
    simp only [c1, c2, c3, c4, c5, and_self, or_true, true_and]
    have c6 : (p = 0 ∧ q = n) ∨ (q = 0 ∧ p = n) := by omega
    rcases c6 with ⟨rfl, rfl⟩ | ⟨rfl, rfl⟩
    · rw [if_pos rfl]
      by_cases d1 : a1 = a2 <;> by_cases d2 : b1 = b2 <;> simp [d1, d2, hn.ne']
    · rw [if_neg (by omega)]
      by_cases d1 : a1 = b2 <;> by_cases d2 : b1 = a2 <;> simp [d1, d2, hn.ne']
  · rw [if_neg c5]; simp [c1, c2, c3, c4, c5]

/-- The ten outcomes. -/
theorem parallelCore_cases {n p q : Int} {a1 b1 a2 b2 : Nat} {pa1 pb1 pa2 pb2 : Pt} (hn : 0 < n) (hpq : p ≠ q) {r : Isect}
    (h : parallelCore n p q a1 b1 a2 b2 pa1 pb1 pa2 pb2 = some r) :
    (min p q < 0 ∧ 0 < max p q ∧ r = ⟨some pa1, .start, .no⟩) ∨
    (min p q < n ∧ n < max p q ∧ r = ⟨some pb1, .end, .no⟩) ∨
    (0 < p ∧ p < n ∧ r = ⟨some pa2, .no, .start⟩) ∨
    (0 < q ∧ q < n ∧ r = ⟨some pb2, .no, .end⟩) ∨
    (p = 0 ∧ q = n ∧ (r = ⟨none, .both, .both⟩ ∨ r = ⟨some pa1, .start, .start⟩ ∨ r = ⟨some pb1, .end, .end⟩)) ∨
    (q = 0 ∧ p = n ∧ (r = ⟨none, .both, .both⟩ ∨ r = ⟨some pa1, .start, .end⟩ ∨ r = ⟨some pb1, .end, .start⟩)) := by
  unfold parallelCore at h
  by_cases c1 : between 0 (min p q) (max p q) = true
  · rw [if_pos c1] at h
    simp only [between, Bool.and_eq_true, decide_eq_true_eq] at c1
    exact Or.inl ⟨by omega, by omega, by simpa using h.symm⟩
  by_cases c2 : between n (min p q) (max p q) = true
  · rw [if_neg c1, if_pos c2] at h
    simp only [between, Bool.and_eq_true, decide_eq_true_eq] at c2
    exact Or.inr (Or.inl ⟨by omega, by omega, by simpa using h.symm⟩)
  by_cases c3 : between p (min 0 n) (max 0 n) = true
  · rw [if_neg c1, if_neg c2, if_pos c3] at h
    simp only [between, Bool.and_eq_true, decide_eq_true_eq] at c3
    exact Or.inr (Or.inr (Or.inl ⟨by omega, by omega, by simpa using h.symm⟩))
  by_cases c4 : between q (min 0 n) (max 0 n) = true
  · rw [if_neg c1, if_neg c2, if_neg c3, if_pos c4] at h
    simp only [between, Bool.and_eq_true, decide_eq_true_eq] at c4
    exact Or.inr (Or.inr (Or.inr (Or.inl ⟨by omega, by omega, by simpa using h.symm⟩)))
  rw [if_neg c1, if_neg c2, if_neg c3, if_neg c4] at h
  by_cases c5 : min 0 n = min p q ∧ max 0 n = max p q
  · rw [if_pos c5] at h
    have c6 : (p = 0 ∧ q = n) ∨ (q = 0 ∧ p = n) := by omega
    rcases c6 with ⟨rfl, rfl⟩ | ⟨rfl, rfl⟩
    · rw [if_pos rfl] at h
      refine Or.inr (Or.inr (Or.inr (Or.inr (Or.inl ⟨rfl, rfl, ?_⟩))))
      by_cases d1 : a1 = a2 <;> by_cases d2 : b1 = b2 <;> simp [d1, d2] at h <;> simp [← h]
    · rw [if_neg (by omega)] at h
      refine Or.inr (Or.inr (Or.inr (Or.inr (Or.inr ⟨rfl, rfl, ?_⟩))))
      by_cases d1 : a1 = b2 <;> by_cases d2 : b1 = a2 <;> simp [d1, d2] at h <;> simp [← h]
  · rw [if_neg c5] at h; cases h

/-- C17: for parallel segments of nonzero length the test is true exactly when the segments have two
distinct common points and are not one line of the polygon (same end indices). -/
theorem C17_overlap_iff (s1 s2 : CSeg) (hd : isD s1 s2 = 0) (h1 : s1.pa ≠ s1.pb) (h2 : s2.pa ≠ s2.pb) :
    (intersectsParallel s1 s2).isSome = true ↔ Overlap s1.pa s1.pb s2.pa s2.pb ∧ ¬ SameLine s1 s2 := by
  rw [intersectsParallel_core]
  by_cases hw : triangleWinding s1.pa s1.pb s2.pa ≠ 0
  · rw [if_pos hw]
    simp only [Option.isSome_none, Bool.false_eq_true, false_iff, not_and_or]
    left
    rintro ⟨x, y, x', y', _, ⟨t, _, _, e1, e2⟩, ⟨u, _, _, e3, e4⟩, _⟩
    apply hw
    have hd' := hd
    unfold isD at hd'
    have hdq : ((s1.pa.x:Rat) - s1.pb.x) * (s2.pa.y - s2.pb.y) - (s1.pa.y - s1.pb.y) * (s2.pa.x - s2.pb.x) = 0 := by
      exact_mod_cast hd'
    have : (triangleWinding s1.pa s1.pb s2.pa : Rat) = 0 := by
      unfold triangleWinding; push_cast
      have ex := e1.symm.trans e3
      have ey := e2.symm.trans e4
      linear_combination ((s1.pb.y:Rat) - s1.pa.y) * ex - ((s1.pb.x:Rat) - s1.pa.x) * ey - u * hdq
    exact_mod_cast this
  · push Not at hw
    rw [if_neg (not_not.mpr hw)]
    have hwb := (off_pb s1 s2 hd).trans hw
    rw [overlap_iff h1 (by rw [off_int, hw]; rfl) (by rw [off_int, hwb]; rfl) h2]
    simp only [par_int]
    have hn := dot_self_pos h1
    have hpq : intDot (s2.pa - s1.pa) (s1.pb - s1.pa) ≠ intDot (s2.pb - s1.pa) (s1.pb - s1.pa) :=
      fun he => h2 (dist_ne h1 hw hwb he)
    have z0 : intDot (s1.pa - s1.pa) (s1.pb - s1.pa) = 0 := by simp [intDot]
    have ta : triangleWinding s1.pa s1.pb s1.pa = 0 := by unfold triangleWinding; ring
    have tb : triangleWinding s1.pa s1.pb s1.pb = 0 := by unfold triangleWinding; ring
    have k1 : s1.pa = s2.pa ↔ intDot (s2.pa - s1.pa) (s1.pb - s1.pa) = 0 := by
      constructor
      · intro h; rw [← h, z0]
      · intro h; exact dist_ne h1 ta hw (by rw [z0, h])
    have k2 : s1.pa = s2.pb ↔ intDot (s2.pb - s1.pa) (s1.pb - s1.pa) = 0 := by
      constructor
      · intro h; rw [← h, z0]
      · intro h; exact dist_ne h1 ta hwb (by rw [z0, h])
    have k3 : s1.pb = s2.pa ↔ intDot (s2.pa - s1.pa) (s1.pb - s1.pa) = intDot (s1.pb - s1.pa) (s1.pb - s1.pa) := by
      constructor
      · intro h; rw [← h]
      · intro h; exact dist_ne h1 tb hw h.symm
    have k4 : s1.pb = s2.pb ↔ intDot (s2.pb - s1.pa) (s1.pb - s1.pa) = intDot (s1.pb - s1.pa) (s1.pb - s1.pa) := by
      constructor
      · intro h; rw [← h]
      · intro h; exact dist_ne h1 tb hwb h.symm
    unfold SameLine
    rw [k1, k2, k3, k4]
    generalize intDot (s1.pb - s1.pa) (s1.pb - s1.pa) = n at *
    generalize intDot (s2.pa - s1.pa) (s1.pb - s1.pa) = p at *
    generalize intDot (s2.pb - s1.pa) (s1.pb - s1.pa) = q at *
    clear k1 k2 k3 k4
    have ecast : (max 0 (min (p:Rat) q) < min (n:Rat) (max (p:Rat) q)) ↔ max 0 (min p q) < min n (max p q) := by
      constructor
      · intro h; exact_mod_cast h
      · intro h; exact_mod_cast h
    rw [ecast]
    rw [parallelCore_isSome _ _ _ _ _ _ _ _ _ _ _ hn hpq]

/-- C17: what is reported. A reported point is an end point named by the flags and lies on both
segments; if no point is reported both segments have the same two end points. -/
theorem C17_report (s1 s2 : CSeg) (hd : isD s1 s2 = 0) (h1 : s1.pa ≠ s1.pb) (h2 : s2.pa ≠ s2.pb)
    (r : Isect) (hr : intersectsParallel s1 s2 = some r) :
    (r.p = none ↔ r.e0 = .both ∧ r.e1 = .both) ∧
    (r.p = none → (s1.pa = s2.pa ∧ s1.pb = s2.pb) ∨ (s1.pa = s2.pb ∧ s1.pb = s2.pa)) ∧
    ∀ p, r.p = some p →
      OnSegQ p.x p.y s1.pa s1.pb ∧ OnSegQ p.x p.y s2.pa s2.pb ∧
      (r.e0 = .start ↔ p = s1.pa) ∧ (r.e0 = .end ↔ p = s1.pb) ∧
      (r.e1 = .start ↔ p = s2.pa) ∧ (r.e1 = .end ↔ p = s2.pb) := by
  rw [intersectsParallel_core] at hr
  by_cases hw : triangleWinding s1.pa s1.pb s2.pa ≠ 0
  · rw [if_pos hw] at hr; cases hr
  · push Not at hw
    rw [if_neg (not_not.mpr hw)] at hr
    have hwb := (off_pb s1 s2 hd).trans hw
    have hn := dot_self_pos h1
    have hpq : intDot (s2.pa - s1.pa) (s1.pb - s1.pa) ≠ intDot (s2.pb - s1.pa) (s1.pb - s1.pa) :=
      fun he => h2 (dist_ne h1 hw hwb he)
    have z0 : intDot (s1.pa - s1.pa) (s1.pb - s1.pa) = 0 := by simp [intDot]
    have ta : triangleWinding s1.pa s1.pb s1.pa = 0 := by unfold triangleWinding; ring
    have tb : triangleWinding s1.pa s1.pb s1.pb = 0 := by unfold triangleWinding; ring
    have oa : OnSegQ s1.pa.x s1.pa.y s1.pa s1.pb := ⟨0, le_rfl, zero_le_one, at_zero _ _⟩
    have ob : OnSegQ s1.pb.x s1.pb.y s1.pa s1.pb := ⟨1, zero_le_one, le_rfl, at_one _ _⟩
    have oc : OnSegQ s2.pa.x s2.pa.y s2.pa s2.pb := ⟨0, le_rfl, zero_le_one, at_zero _ _⟩
    have od : OnSegQ s2.pb.x s2.pb.y s2.pa s2.pb := ⟨1, zero_le_one, le_rfl, at_one _ _⟩
    -- membership of a point of the line in terms of positions
    have m1 : ∀ p : Pt, triangleWinding s1.pa s1.pb p = 0 →
        0 ≤ intDot (p - s1.pa) (s1.pb - s1.pa) → intDot (p - s1.pa) (s1.pb - s1.pa) ≤ intDot (s1.pb - s1.pa) (s1.pb - s1.pa) →
        OnSegQ p.x p.y s1.pa s1.pb := by
      intro p hp l u
      rw [onSegQ_iff h1 (by rw [off_int, ta]; rfl) (by rw [off_int, tb]; rfl) h1]
      simp only [par_int, off_int, hp, z0]
      refine ⟨rfl, ?_, ?_⟩
      · apply (min_le_left _ _).trans; exact_mod_cast l
      · apply le_trans _ (le_max_right _ _); exact_mod_cast u
    have m2 : ∀ p : Pt, triangleWinding s1.pa s1.pb p = 0 →
        min (intDot (s2.pa - s1.pa) (s1.pb - s1.pa)) (intDot (s2.pb - s1.pa) (s1.pb - s1.pa)) ≤ intDot (p - s1.pa) (s1.pb - s1.pa) →
        intDot (p - s1.pa) (s1.pb - s1.pa) ≤ max (intDot (s2.pa - s1.pa) (s1.pb - s1.pa)) (intDot (s2.pb - s1.pa) (s1.pb - s1.pa)) →
        OnSegQ p.x p.y s2.pa s2.pb := by
      intro p hp l u
      rw [onSegQ_iff h1 (by rw [off_int, hw]; rfl) (by rw [off_int, hwb]; rfl) h2]
      simp only [par_int, off_int, hp]
      refine ⟨rfl, ?_, ?_⟩
      · exact_mod_cast l
      · exact_mod_cast u
    have k1 : s1.pa = s2.pa ↔ intDot (s2.pa - s1.pa) (s1.pb - s1.pa) = 0 := by
      constructor
      · intro h; rw [← h, z0]
      · intro h; exact dist_ne h1 ta hw (by rw [z0, h])
    have k2 : s1.pa = s2.pb ↔ intDot (s2.pb - s1.pa) (s1.pb - s1.pa) = 0 := by
      constructor
      · intro h; rw [← h, z0]
      · intro h; exact dist_ne h1 ta hwb (by rw [z0, h])
    have k3 : s1.pb = s2.pa ↔ intDot (s2.pa - s1.pa) (s1.pb - s1.pa) = intDot (s1.pb - s1.pa) (s1.pb - s1.pa) := by
      constructor
      · intro h; rw [← h]
      · intro h; exact dist_ne h1 tb hw h.symm
    have k4 : s1.pb = s2.pb ↔ intDot (s2.pb - s1.pa) (s1.pb - s1.pa) = intDot (s1.pb - s1.pa) (s1.pb - s1.pa) := by
      constructor
      · intro h; rw [← h]
      · intro h; exact dist_ne h1 tb hwb h.symm
    have k1' : s2.pa = s1.pa ↔ intDot (s2.pa - s1.pa) (s1.pb - s1.pa) = 0 := eq_comm.trans k1
    have k2' : s2.pb = s1.pa ↔ intDot (s2.pb - s1.pa) (s1.pb - s1.pa) = 0 := eq_comm.trans k2
    have k3' : s2.pa = s1.pb ↔ intDot (s2.pa - s1.pa) (s1.pb - s1.pa) = intDot (s1.pb - s1.pa) (s1.pb - s1.pa) := eq_comm.trans k3
    have k4' : s2.pb = s1.pb ↔ intDot (s2.pb - s1.pa) (s1.pb - s1.pa) = intDot (s1.pb - s1.pa) (s1.pb - s1.pa) := eq_comm.trans k4
    have h1' : ¬ s1.pb = s1.pa := fun h => h1 h.symm
    have h2' : ¬ s2.pb = s2.pa := fun h => h2 h.symm
    have M1a := m1 _ hw
    have M1b := m1 _ hwb
    have M2a := m2 _ ta
    have M2b := m2 _ tb
    rw [z0] at M2a
    clear m1 m2
    generalize intDot (s1.pb - s1.pa) (s1.pb - s1.pa) = n at *
    generalize intDot (s2.pa - s1.pa) (s1.pb - s1.pa) = p at *
    generalize intDot (s2.pb - s1.pa) (s1.pb - s1.pa) = q at *
    have H := parallelCore_cases hn hpq hr
    clear hr
    rcases H with ⟨c, c', rfl⟩ | ⟨c, c', rfl⟩ | ⟨c, c', rfl⟩ | ⟨c, c', rfl⟩ |
      ⟨c, c', rfl | rfl | rfl⟩ | ⟨c, c', rfl | rfl | rfl⟩
    all_goals refine ⟨by simp, ?_, ?_⟩
    all_goals first
      | (intro h; cases h; done)
      | (intro _; rw [k1, k2, k3, k4]; omega)
      | (intro p' h; cases h; done)
      | skip
    all_goals (intro p' h; cases h)
    all_goals simp only [reduceCtorEq, false_iff, true_iff, h1, h1', h2, h2', not_false_eq_true, true_and, and_true,
      k1, k2, k3, k4, k1', k2', k3', k4']
    · refine ⟨oa, M2a (by omega) (by omega), ?_, ?_⟩ <;> omega
    · refine ⟨ob, M2b (by omega) (by omega), ?_, ?_⟩ <;> omega
    · refine ⟨M1a (by omega) (by omega), oc, ?_, ?_⟩ <;> omega
    · refine ⟨M1b (by omega) (by omega), od, ?_, ?_⟩ <;> omega
    · refine ⟨oa, M2a (by omega) (by omega), ?_, ?_⟩ <;> omega
    · refine ⟨ob, M2b (by omega) (by omega), ?_, ?_⟩ <;> omega
    · refine ⟨oa, M2a (by omega) (by omega), ?_, ?_⟩ <;> omega
    · refine ⟨ob, M2b (by omega) (by omega), ?_, ?_⟩ <;> omega

/-- Two collinear segments that only touch at end points with equal coordinates and different indices
are not reported. -/
theorem C17_touching_not_reported :
    intersectsParallel ⟨0, 1, ⟨0,0⟩, ⟨2,0⟩⟩ ⟨2, 3, ⟨2,0⟩, ⟨5,0⟩⟩ = none := by decide

/-- Non-vacuity: an overlap. -/
example : isD ⟨0, 1, ⟨0,0⟩, ⟨3,0⟩⟩ ⟨2, 3, ⟨2,0⟩, ⟨5,0⟩⟩ = 0 ∧
    intersectsParallel ⟨0, 1, ⟨0,0⟩, ⟨3,0⟩⟩ ⟨2, 3, ⟨2,0⟩, ⟨5,0⟩⟩ = some ⟨some ⟨3,0⟩, .end, .no⟩ := by decide

end PolyOps
