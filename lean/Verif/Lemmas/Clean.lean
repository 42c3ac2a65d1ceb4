import Verif.Props.GeomParallel

/-! What the intersection test says about a pair of segments it does not split. -/
namespace PolyOps

/-- The place `(X, Y)` is one of the two points. -/
def IsEnd (X Y : Rat) (a b : Pt) : Prop := (X = a.x ∧ Y = a.y) ∨ (X = b.x ∧ Y = b.y)

/-- Two segments have the same ends or meet only at places that are ends of both. -/
def Clean (a b c d : Pt) : Prop :=
  (a = c ∧ b = d) ∨ (a = d ∧ b = c) ∨ ∀ X Y, OnSegQ X Y a b → OnSegQ X Y c d → IsEnd X Y a b ∧ IsEnd X Y c d

/-- The report of an intersection test splits neither segment. -/
def NoSplit (o : Option Isect) : Prop := ∀ r, o = some r → r.e0 ≠ .no ∧ r.e1 ≠ .no

instance (o : Option Isect) : Decidable (NoSplit o) :=
  match o with
  | none => isTrue (by intro r h; cases h)
  | some r => if h : r.e0 ≠ .no ∧ r.e1 ≠ .no then isTrue (by intro r' e; cases e; exact h) else isFalse (fun f => h (f r rfl))

/-- Equal indices mean equal places. -/
structure Consistent (s1 s2 : CSeg) : Prop where
  aa : s1.a = s2.a → s1.pa = s2.pa
  ab : s1.a = s2.b → s1.pa = s2.pb
  ba : s1.b = s2.a → s1.pb = s2.pa
  bb : s1.b = s2.b → s1.pb = s2.pb

theorem at_zero' (a b : Pt) : At a b 0 a.x a.y := by unfold At; constructor <;> ring
theorem at_one' (a b : Pt) : At a b 1 b.x b.y := by unfold At; constructor <;> ring

theorem isEnd_of_zero {a b : Pt} {X Y t : Rat} (h : At a b t X Y) (e : t = 0 ∨ t = 1) : IsEnd X Y a b := by
  rcases e with rfl | rfl
  · left; obtain ⟨h1, h2⟩ := h; constructor <;> linarith
  · right; obtain ⟨h1, h2⟩ := h; constructor <;> linarith

theorem clean_cross (rnd : Rat → Rat) (bx by' : Bool) (s1 s2 : CSeg) (hc : Consistent s1 s2) (hd : isD s1 s2 ≠ 0)
    (h : NoSplit (intersects rnd bx by' s1 s2)) : Clean s1.pa s1.pb s2.pa s2.pb := by
  refine Or.inr (Or.inr ?_)
  rintro X Y ⟨t, t0, t1, ht⟩ ⟨u, u0, u1, hu⟩
  obtain ⟨et, eu⟩ := (cramer s1 s2 hd t u).mp ⟨X, Y, ht, hu⟩
  have hd' : (isD s1 s2 : Rat) ≠ 0 := by exact_mod_cast hd
  suffices hs : (t = 0 ∨ t = 1) ∧ (u = 0 ∨ u = 1) from ⟨isEnd_of_zero ht hs.1, isEnd_of_zero hu hs.2⟩
  -- a common end decides the parameters
  have same : ∀ t' u' : Rat, (∃ x y, At s1.pa s1.pb t' x y ∧ At s2.pa s2.pb u' x y) → t = t' ∧ u = u' := by
    intro t' u' hx
    obtain ⟨e1, e2⟩ := (cramer s1 s2 hd t' u').mp hx
    exact ⟨mul_right_cancel₀ hd' (et.trans e1.symm), mul_right_cancel₀ hd' (eu.trans e2.symm)⟩
  have haa : s1.pa = s2.pa → t = 0 ∧ u = 0 := fun e => same 0 0 ⟨_, _, at_zero' _ _, by rw [e]; exact at_zero' _ _⟩
  have hab : s1.pa = s2.pb → t = 0 ∧ u = 1 := fun e => same 0 1 ⟨_, _, at_zero' _ _, by rw [e]; exact at_one' _ _⟩
  have hba : s1.pb = s2.pa → t = 1 ∧ u = 0 := fun e => same 1 0 ⟨_, _, at_one' _ _, by rw [e]; exact at_zero' _ _⟩
  have hbb : s1.pb = s2.pb → t = 1 ∧ u = 1 := fun e => same 1 1 ⟨_, _, at_one' _ _, by rw [e]; exact at_one' _ _⟩
  by_cases hi : SharesIndex s1 s2
  · rcases hi with e | e | e | e
    · obtain ⟨a, b⟩ := haa (hc.aa e); exact ⟨Or.inl a, Or.inl b⟩
    · obtain ⟨a, b⟩ := hab (hc.ab e); exact ⟨Or.inl a, Or.inr b⟩
    · obtain ⟨a, b⟩ := hba (hc.ba e); exact ⟨Or.inr a, Or.inl b⟩
    · obtain ⟨a, b⟩ := hbb (hc.bb e); exact ⟨Or.inr a, Or.inr b⟩
  have hb := (meet_iff_inBoth s1 s2 hd).mp ⟨X, Y, t, u, t0, t1, u0, u1, ht, hu⟩
  rw [(intersects_eq rnd bx by' s1 s2 hd hi).1 hb] at h
  have z0 : ∀ {v : Rat} {n : Int}, v * isD s1 s2 = n → n = 0 → v = 0 := by
    intro v n e e'; rw [e'] at e; simpa [hd'] using e
  have z1 : ∀ {v : Rat} {n : Int}, v * isD s1 s2 = n → n = isD s1 s2 → v = 1 := by
    intro v n e e'; rw [e'] at e; exact mul_right_cancel₀ hd' (by rw [e, one_mul])
  have hU : isEdge (isU s1 s2) (isD s1 s2) ≠ .no → u = 0 ∨ u = 1 := by
    unfold isEdge
    intro hh
    by_cases a : isU s1 s2 = 0
    · exact Or.inl (z0 eu a)
    · by_cases b : isU s1 s2 = isD s1 s2
      · exact Or.inr (z1 eu b)
      · rw [if_neg a, if_neg b] at hh; exact absurd rfl hh
  by_cases c1 : isT s1 s2 = 0
  · rw [if_pos c1] at h
    exact ⟨Or.inl (z0 et c1), hU (h _ rfl).2⟩
  rw [if_neg c1] at h
  by_cases c2 : isT s1 s2 = isD s1 s2
  · rw [if_pos c2] at h
    exact ⟨Or.inr (z1 et c2), hU (h _ rfl).2⟩
  rw [if_neg c2] at h
  by_cases c3 : isU s1 s2 = 0
  · rw [if_pos c3] at h; exact absurd rfl (h _ rfl).1
  rw [if_neg c3] at h
  by_cases c4 : isU s1 s2 = isD s1 s2
  · rw [if_pos c4] at h; exact absurd rfl (h _ rfl).1
  rw [if_neg c4] at h
  have hh := h _ rfl
  unfold crossing at hh
  simp only at hh
  generalize (⟨_, _⟩ : Pt) = p at hh
  by_cases d1 : p = s1.pa
  · by_cases d2 : p = s2.pa
    · obtain ⟨a, b⟩ := haa (d1.symm.trans d2); exact ⟨Or.inl a, Or.inl b⟩
    · by_cases d3 : p = s2.pb
      · obtain ⟨a, b⟩ := hab (d1.symm.trans d3); exact ⟨Or.inl a, Or.inr b⟩
      · rw [if_neg d2, if_neg d3] at hh; exact absurd rfl hh.2
  · by_cases d1' : p = s1.pb
    · by_cases d2 : p = s2.pa
      · obtain ⟨a, b⟩ := hba (d1'.symm.trans d2); exact ⟨Or.inr a, Or.inl b⟩
      · by_cases d3 : p = s2.pb
        · obtain ⟨a, b⟩ := hbb (d1'.symm.trans d3); exact ⟨Or.inr a, Or.inr b⟩
        · rw [if_neg d2, if_neg d3] at hh; exact absurd rfl hh.2
    · rw [if_neg d1, if_neg d1'] at hh; exact absurd rfl hh.1

theorem clean_parallel (s1 s2 : CSeg) (hd : isD s1 s2 = 0) (h1 : s1.pa ≠ s1.pb) (h2 : s2.pa ≠ s2.pb)
    (h : NoSplit (intersectsParallel s1 s2)) : Clean s1.pa s1.pb s2.pa s2.pb := by
  by_cases hw : triangleWinding s1.pa s1.pb s2.pa ≠ 0
  · refine Or.inr (Or.inr ?_)
    rintro x y ⟨t, _, _, e1, e2⟩ ⟨u, _, _, e3, e4⟩
    exfalso
    apply hw
    unfold isD at hd
    have hdq : ((s1.pa.x:Rat) - s1.pb.x) * (s2.pa.y - s2.pb.y) - (s1.pa.y - s1.pb.y) * (s2.pa.x - s2.pb.x) = 0 := by
      exact_mod_cast hd
    have : (triangleWinding s1.pa s1.pb s2.pa : Rat) = 0 := by
      unfold triangleWinding; push_cast
      have ex := e1.symm.trans e3
      have ey := e2.symm.trans e4
      linear_combination ((s1.pb.y:Rat) - s1.pa.y) * ex - ((s1.pb.x:Rat) - s1.pa.x) * ey - u * hdq
    exact_mod_cast this
  push Not at hw
  have hwb := (off_pb s1 s2 hd).trans hw
  have ta : triangleWinding s1.pa s1.pb s1.pa = 0 := by unfold triangleWinding; ring
  have tb : triangleWinding s1.pa s1.pb s1.pb = 0 := by unfold triangleWinding; ring
  have z0 : intDot (s1.pa - s1.pa) (s1.pb - s1.pa) = 0 := by simp [intDot]
  have hn := dot_self_pos h1
  have hpq : intDot (s2.pa - s1.pa) (s1.pb - s1.pa) ≠ intDot (s2.pb - s1.pa) (s1.pb - s1.pa) :=
    fun he => h2 (dist_ne h1 hw hwb he)
  by_cases ho : max 0 (min (intDot (s2.pa - s1.pa) (s1.pb - s1.pa)) (intDot (s2.pb - s1.pa) (s1.pb - s1.pa))) <
      min (intDot (s1.pb - s1.pa) (s1.pb - s1.pa)) (max (intDot (s2.pa - s1.pa) (s1.pb - s1.pa)) (intDot (s2.pb - s1.pa) (s1.pb - s1.pa)))
  · -- they overlap: the same ends
    rw [intersectsParallel_core, if_neg (not_not.mpr hw)] at h
    have key : (intDot (s2.pa - s1.pa) (s1.pb - s1.pa) = 0 ∧ intDot (s2.pb - s1.pa) (s1.pb - s1.pa) = intDot (s1.pb - s1.pa) (s1.pb - s1.pa)) ∨
        (intDot (s2.pb - s1.pa) (s1.pb - s1.pa) = 0 ∧ intDot (s2.pa - s1.pa) (s1.pb - s1.pa) = intDot (s1.pb - s1.pa) (s1.pb - s1.pa)) := by
      cases hr : parallelCore (intDot (s1.pb - s1.pa) (s1.pb - s1.pa)) (intDot (s2.pa - s1.pa) (s1.pb - s1.pa))
        (intDot (s2.pb - s1.pa) (s1.pb - s1.pa)) s1.a s1.b s2.a s2.b s1.pa s1.pb s2.pa s2.pb with
      | none =>
        have := (parallelCore_isSome (intDot (s1.pb - s1.pa) (s1.pb - s1.pa)) (intDot (s2.pa - s1.pa) (s1.pb - s1.pa))
          (intDot (s2.pb - s1.pa) (s1.pb - s1.pa)) s1.a s1.b s2.a s2.b s1.pa s1.pb s2.pa s2.pb hn hpq)
        rw [hr] at this
        simp only [Option.isSome_none, Bool.false_eq_true, false_iff, not_and, not_not] at this
        rcases this ho with ⟨a, b, _⟩ | ⟨a, b, _⟩
        · exact Or.inl ⟨a, b⟩
        · exact Or.inr ⟨a, b⟩
      | some r =>
        have hn2 := h r hr
        rcases parallelCore_cases hn hpq hr with ⟨_, _, e⟩ | ⟨_, _, e⟩ | ⟨_, _, e⟩ | ⟨_, _, e⟩ | ⟨a, b, _⟩ | ⟨a, b, _⟩
        · rw [e] at hn2; exact absurd rfl hn2.2
        · rw [e] at hn2; exact absurd rfl hn2.2
        · rw [e] at hn2; exact absurd rfl hn2.1
        · rw [e] at hn2; exact absurd rfl hn2.1
        · exact Or.inl ⟨a, b⟩
        · exact Or.inr ⟨a, b⟩
    rcases key with ⟨a, b⟩ | ⟨a, b⟩
    · exact Or.inl ⟨dist_ne h1 ta hw (by rw [z0, a]), dist_ne h1 tb hwb b.symm⟩
    · exact Or.inr (Or.inl ⟨dist_ne h1 ta hwb (by rw [z0, a]), dist_ne h1 tb hw b.symm⟩)
  · refine Or.inr (Or.inr ?_)
    intro x y g1 g2
    have oa : off s1.pa s1.pb s1.pa.x s1.pa.y = 0 := by rw [off_int, ta]; rfl
    have ob : off s1.pa s1.pb s1.pb.x s1.pb.y = 0 := by rw [off_int, tb]; rfl
    have oc : off s1.pa s1.pb s2.pa.x s2.pa.y = 0 := by rw [off_int, hw]; rfl
    have od : off s1.pa s1.pb s2.pb.x s2.pb.y = 0 := by rw [off_int, hwb]; rfl
    have inj : ∀ p : Pt, off s1.pa s1.pb p.x p.y = 0 → off s1.pa s1.pb x y = 0 → par s1.pa s1.pb x y = par s1.pa s1.pb p.x p.y →
        x = p.x ∧ y = p.y := fun p e1 e2 e3 => par_off_inj h1 e3 (e2.trans e1.symm)
    obtain ⟨f1, f2, f3⟩ := (onSegQ_iff h1 oa ob h1 x y).mp g1
    obtain ⟨_, f4, f5⟩ := (onSegQ_iff h1 oc od h2 x y).mp g2
    have ia := inj _ oa f1
    have ib := inj _ ob f1
    have ic := inj _ oc f1
    have id' := inj _ od f1
    simp only [par_int, z0] at ia ib ic id' f2 f3 f4 f5
    generalize par s1.pa s1.pb x y = v at *
    generalize intDot (s1.pb - s1.pa) (s1.pb - s1.pa) = n at *
    generalize intDot (s2.pa - s1.pa) (s1.pb - s1.pa) = p at *
    generalize intDot (s2.pb - s1.pa) (s1.pb - s1.pa) = q at *
    have cs : (max p q ≤ 0 ∨ n ≤ min p q) := by omega
    have hn' : (0 : Rat) < n := by exact_mod_cast hn
    rw [Int.cast_zero, min_eq_left hn'.le] at f2
    rw [Int.cast_zero, max_eq_right hn'.le] at f3
    rcases cs with cs | cs
    · have hv : v = 0 := le_antisymm (f5.trans (by exact_mod_cast cs)) f2
      refine ⟨Or.inl (ia (by rw [hv]; simp)), ?_⟩
      rw [hv] at f5
      have f5' : (0 : Int) ≤ max p q := by exact_mod_cast f5
      rcases le_total p q with hle | hle
      · exact Or.inr (id' (by rw [hv]; rw [max_eq_right hle] at cs f5'; have : q = 0 := by omega
                              rw [this]; simp))
      · exact Or.inl (ic (by rw [hv]; rw [max_eq_left hle] at cs f5'; have : p = 0 := by omega
                             rw [this]; simp))
    · have hv : v = n := le_antisymm f3 (le_trans (by exact_mod_cast cs) f4)
      refine ⟨Or.inr (ib hv), ?_⟩
      rw [hv] at f4
      have f4' : min p q ≤ n := by exact_mod_cast f4
      rcases le_total p q with hle | hle
      · exact Or.inl (ic (by rw [hv]; rw [min_eq_left hle] at cs f4'; have : p = n := by omega
                             rw [this]))
      · exact Or.inr (id' (by rw [hv]; rw [min_eq_right hle] at cs f4'; have : q = n := by omega
                              rw [this]))

/-- Segments the test does not split have the same ends or meet only at places that are ends of both. -/
theorem clean_of_noSplit (rnd : Rat → Rat) (bx by' : Bool) (s1 s2 : CSeg) (hc : Consistent s1 s2) (h1 : s1.pa ≠ s1.pb) (h2 : s2.pa ≠ s2.pb)
    (h : NoSplit (intersects rnd bx by' s1 s2)) : Clean s1.pa s1.pb s2.pa s2.pb := by
  by_cases hd : isD s1 s2 = 0
  · refine clean_parallel s1 s2 hd h1 h2 ?_
    unfold intersects at h
    simp only [if_pos hd] at h
    exact h
  · exact clean_cross rnd bx by' s1 s2 hc hd h

end PolyOps
