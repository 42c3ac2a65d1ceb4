import Verif.Lemmas.PlanarRun
import Verif.Lemmas.Clean

/-! What the intersection test marks (clip.hpp:342, 450): points of lines that meet at ends. -/

namespace PolyOps.Planarity
open PolyOps PolyOps.SweepCmp PolyOps.Events PolyOps.Sweep

/-- What a report marks. -/
def Marked (mk : Nat → Prop) (r : Isect) (s t : CSeg) : Prop :=
  (r.e0 = .both → mk s.a ∧ mk s.b ∧ mk t.a ∧ mk t.b) ∧ (r.e0 = .start → mk s.a) ∧ (r.e0 = .end → mk s.b) ∧
    (r.e1 = .start → mk t.a) ∧ (r.e1 = .end → mk t.b)

theorem parallel_coin {s t : CSeg} (hs : s.pa ≠ s.pb) (ha : s.pa = t.pa) (hb : s.pb = t.pb) :
    intersectsParallel s t = if s.a ≠ t.a then if s.b ≠ t.b then some ⟨none, .both, .both⟩ else some ⟨some s.pa, .start, .start⟩
      else if s.b ≠ t.b then some ⟨some s.pb, .end, .end⟩ else none := by
  have hw : triangleWinding s.pa s.pb t.pa = 0 := by rw [← ha]; unfold triangleWinding; ring
  have h0 : intDot (t.pa - s.pa) (s.pb - s.pa) = 0 := by rw [← ha]; unfold intDot; simp [Pt.sub_x, Pt.sub_y]
  have hn := dot_self_pos hs
  unfold intersectsParallel
  simp only [hw, ne_eq, not_true, if_false, h0, ← hb]
  generalize intDot (s.pb - s.pa) (s.pb - s.pa) = n at *
  rw [show between 0 (min 0 n) (max 0 n) = false by unfold between; simp; omega, show between n (min 0 n) (max 0 n) = false by unfold between; simp; omega]
  simp

theorem parallel_coin' {s t : CSeg} (hs : s.pa ≠ s.pb) (ha : s.pa = t.pb) (hb : s.pb = t.pa) :
    intersectsParallel s t = if s.a ≠ t.b then if s.b ≠ t.a then some ⟨none, .both, .both⟩ else some ⟨some s.pa, .start, .end⟩
      else if s.b ≠ t.a then some ⟨some s.pb, .end, .start⟩ else none := by
  have hw : triangleWinding s.pa s.pb s.pb = 0 := by unfold triangleWinding; ring
  have h0 : intDot (t.pb - s.pa) (s.pb - s.pa) = 0 := by rw [← ha]; unfold intDot; simp [Pt.sub_x, Pt.sub_y]
  have hn := dot_self_pos hs
  unfold intersectsParallel
  simp only [← hb, hw, ne_eq, not_true, if_false, h0]
  generalize intDot (s.pb - s.pa) (s.pb - s.pa) = n at *
  rw [show between 0 (min n 0) (max n 0) = false by unfold between; simp; omega, show between n (min n 0) (max n 0) = false by unfold between; simp; omega,
    show between n (min 0 n) (max 0 n) = false by unfold between; simp; omega, show between 0 (min 0 n) (max 0 n) = false by unfold between; simp; omega,
    min_comm n 0, max_comm n 0, if_neg hn.ne]
  simp

theorem coin_isD {s t : CSeg} (h : Coin s t) : isD s t = 0 := by
  unfold isD
  rcases h with ⟨a, b⟩ | ⟨a, b⟩ <;> rw [a, b] <;> ring

theorem eqm_of {mk : Nat → Prop} {i j : Nat} (h : i ≠ j → mk i ∧ mk j) : Eqm mk i j := by
  by_cases e : i = j
  · exact Or.inl e
  · exact Or.inr (h e)

/-- Coincident lines. -/
theorem te_coin {mk : Nat → Prop} {s t : CSeg} (hs : SOk s) (ht : SOk t) (hc : Coin s t)
    (hm : ∀ r, intersectsParallel s t = some r → Marked mk r s t) : Te mk s t := by
  rcases hc with ⟨a, b⟩ | ⟨a, b⟩
  · rw [parallel_coin hs.ne a b] at hm
    have n1 : s.pa ≠ t.pb := fun e => hs.ne (e.trans b.symm)
    have n2 : s.pb ≠ t.pa := fun e => hs.ne (a.trans e.symm)
    refine ⟨fun _ _ => eqm_of fun e => ?_, fun _ _ => eqm_of fun e => ?_, fun e => absurd e n1, fun e => absurd e n2⟩
    · rw [if_pos e] at hm
      split at hm
      · obtain ⟨h, -⟩ := hm _ rfl; exact ⟨(h rfl).1, (h rfl).2.2.1⟩
      · obtain ⟨-, h1, -, h2, -⟩ := hm _ rfl; exact ⟨h1 rfl, h2 rfl⟩
    · rw [if_pos e] at hm
      split at hm
      · obtain ⟨h, -⟩ := hm _ rfl; exact ⟨(h rfl).2.1, (h rfl).2.2.2⟩
      · obtain ⟨-, -, h1, -, h2⟩ := hm _ rfl; exact ⟨h1 rfl, h2 rfl⟩
  · rw [parallel_coin' hs.ne a b] at hm
    have n1 : s.pa ≠ t.pa := fun e => hs.ne (e.trans b.symm)
    have n2 : s.pb ≠ t.pb := fun e => hs.ne (a.trans e.symm)
    refine ⟨fun e => absurd e n1, fun e => absurd e n2, fun _ _ => eqm_of fun e => ?_, fun _ _ => eqm_of fun e => ?_⟩
    · rw [if_pos e] at hm
      split at hm
      · obtain ⟨h, -⟩ := hm _ rfl; exact ⟨(h rfl).1, (h rfl).2.2.2⟩
      · obtain ⟨-, h1, -, -, h2⟩ := hm _ rfl; exact ⟨h1 rfl, h2 rfl⟩
    · rw [if_pos e] at hm
      split at hm
      · obtain ⟨h, -⟩ := hm _ rfl; exact ⟨(h rfl).2.1, (h rfl).2.2.1⟩
      · obtain ⟨-, -, h1, h2, -⟩ := hm _ rfl; exact ⟨h1 rfl, h2 rfl⟩

/-- Parallel lines that are not vertical, with a common start, which the test does not split. -/
theorem par_nv {s t : CSeg} (hs : SOk s) (ht : SOk t) (hd : isD s t = 0) (hn : Nv s) : Nv t := by
  by_contra hv
  have hx : t.pa.x = t.pb.x := by unfold Nv at hv; have := ht.le; omega
  unfold isD at hd
  rw [hx] at hd
  have : (s.pa.x - s.pb.x) * (t.pa.y - t.pb.y) = 0 := by linarith
  rcases mul_eq_zero.mp this with h | h
  · unfold Nv at hn; omega
  · apply ht.ne
    generalize t.pa = p at *
    generalize t.pb = q at *
    cases p; cases q; simp_all; omega

theorem isD_symm {s t : CSeg} (h : isD s t = 0) : isD t s = 0 := by unfold isD at *; linarith

theorem par_slope {s t : CSeg} (ns : Nv s) (nt : Nv t) (hd : isD s t = 0) : slope s = slope t := by
  unfold slope
  unfold Nv at ns nt
  have n1 : (s.pb.x : Rat) - s.pa.x ≠ 0 := by
    have : (s.pa.x : Rat) < s.pb.x := by exact_mod_cast ns
    linarith
  have n2 : (t.pb.x : Rat) - t.pa.x ≠ 0 := by
    have : (t.pa.x : Rat) < t.pb.x := by exact_mod_cast nt
    linarith
  rw [div_eq_div_iff n1 n2]
  unfold isD at hd
  have : (((s.pa.x - s.pb.x) * (t.pa.y - t.pb.y) - (s.pa.y - s.pb.y) * (t.pa.x - t.pb.x) : Int) : Rat) = 0 := by rw [hd]; rfl
  push_cast at this
  linarith

theorem te_par {mk : Nat → Prop} {s t : CSeg} (hs : SOk s) (ht : SOk t) (hd : isD s t = 0) (hcl : Cl s t)
    (hm : ∀ r, intersectsParallel s t = some r → Marked mk r s t) : Te mk s t := by
  by_cases hc : Coin s t
  · exact te_coin hs ht hc hm
  have nv : Nv s ↔ Nv t := ⟨par_nv hs ht hd, par_nv ht hs (isD_symm hd)⟩
  have k : ∀ {P : Prop}, (¬ (Nv s ↔ Nv t) ∨ Coin s t) → P := fun c => absurd c (by rintro (c | c); exacts [c nv, hc c])
  have sp : (Nv s ∨ Nv t ∨ Coin s t) → Sep (max s.pb.x t.pb.x) s t ∧ Nv s ∧ Nv t := by
    intro c
    have n1 : Nv s := by rcases c with c | c | c; exacts [c, nv.mpr c, absurd c hc]
    exact ⟨(hcl.cases.resolve_left hc) _, n1, nv.mp n1⟩
  refine ⟨fun e c => ?_, fun e c => ?_, fun _ c => k c, fun _ c => k c⟩
  · obtain ⟨_, n1, n2⟩ := sp c
    have ov : Over s t := ⟨n1, n2, e, par_slope n1 n2 hd⟩
    exact absurd (Or.inl ⟨e, over_cl ov hcl⟩) hc
  · obtain ⟨h, n1, n2⟩ := sp c
    exfalso
    have sl := par_slope n1 n2 hd
    have c1 := n1.cast
    have c2 := n2.cast
    have hpx : (s.pb.x : Rat) = t.pb.x := by rw [e]
    have hpy : (s.pb.y : Rat) = t.pb.y := by rw [e]
    have hh : ∀ X, hAt s X = hAt t X := by
      intro X
      have q1 := on_nv_y n1 (on_b s)
      have q2 := on_nv_y n2 (on_b t)
      unfold hAt at *
      rw [sl] at *
      rw [hpx] at q1
      linarith
    obtain ⟨z, z1, z2⟩ : ∃ z : Rat, max (s.pa.x : Rat) t.pa.x < z ∧ z < s.pb.x := exists_between (max_lt c1 (by rw [hpx]; exact c2))
    have z3 := lt_of_le_of_lt (le_max_left _ _) z1
    have z4 := lt_of_le_of_lt (le_max_right _ _) z1
    have := h z (hAt s z) (z2.le.trans (le_max_left _ _)) ((on_nv n1 _ _).mpr ⟨z3.le, z2.le, rfl⟩) ((on_nv n2 _ _).mpr ⟨z4.le, by rw [← hpx]; exact z2.le, hh z⟩)
    exact not_end z3 z2 this.1

/-- Lines that are not parallel. -/
theorem te_cross {mk : Nat → Prop} (rnd : Rat → Rat) (bx by' : Bool) {s t : CSeg} (hs : SOk s) (ht : SOk t) (hcons : Consistent s t) (hd : isD s t ≠ 0)
    (hm : ∀ r, intersects rnd bx by' s t = some r → Marked mk r s t) : Te mk s t := by
  have hc : ¬ Coin s t := fun c => hd (coin_isD c)
  by_cases hi : s.a = t.a ∨ s.a = t.b ∨ s.b = t.a ∨ s.b = t.b
  · have q1 : s.a = t.a → s.pa = t.pa := hcons.aa
    have q2 : s.a = t.b → s.pa = t.pb := hcons.ab
    have q3 : s.b = t.a → s.pb = t.pa := hcons.ba
    have q4 : s.b = t.b → s.pb = t.pb := hcons.bb
    have s1 := hs.ne
    have t1 := ht.ne
    unfold Coin at hc
    refine ⟨fun e _ => ?_, fun e _ => ?_, fun e _ => ?_, fun e _ => ?_⟩
    · left
      rcases hi with h | h | h | h
      · exact h
      · exact absurd (e.symm.trans (q2 h)) t1
      · exact absurd (e.trans (q3 h).symm) s1
      · exact absurd (Or.inl ⟨e, q4 h⟩) hc
    · left
      rcases hi with h | h | h | h
      · exact absurd (Or.inl ⟨q1 h, e⟩) hc
      · exact absurd ((q2 h).trans e.symm) s1
      · exact absurd ((q3 h).symm.trans e) t1
      · exact h
    · left
      rcases hi with h | h | h | h
      · exact absurd ((q1 h).symm.trans e) t1
      · exact h
      · exact absurd (Or.inr ⟨e, q3 h⟩) hc
      · exact absurd (e.trans (q4 h).symm) s1
    · left
      rcases hi with h | h | h | h
      · exact absurd ((q1 h).trans e.symm) s1
      · exact absurd (Or.inr ⟨q2 h, e⟩) hc
      · exact h
      · exact absurd (e.symm.trans (q4 h)) t1
  · unfold intersects at hm
    simp only at hm
    rw [if_neg hd, if_neg hi] at hm
    refine ⟨fun e _ => ?_, fun e _ => ?_, fun e _ => ?_, fun e _ => ?_⟩
    · have eT : isT s t = 0 := by unfold isT; rw [e]; ring
      have eU : isU s t = 0 := by unfold isU; rw [e]; ring
      rw [eT, eU, if_neg (by omega), if_neg (by omega), if_pos rfl] at hm
      obtain ⟨-, h1, -, h2, -⟩ := hm _ rfl
      exact Or.inr ⟨h1 rfl, h2 (by simp [isEdge])⟩
    · have eT : isT s t = isD s t := by unfold isT isD; rw [e]; ring
      have eU : isU s t = isD s t := by unfold isU isD; rw [e]; ring
      rw [eT, eU, if_neg (by omega), if_neg (by omega), if_neg hd, if_pos rfl] at hm
      obtain ⟨-, -, h1, -, h2⟩ := hm _ rfl
      exact Or.inr ⟨h1 rfl, h2 (by simp [isEdge, hd])⟩
    · have eT : isT s t = 0 := by unfold isT; rw [e]; ring
      have eU : isU s t = isD s t := by unfold isU isD; rw [e]; ring
      rw [eT, eU, if_neg (by omega), if_neg (by omega), if_pos rfl] at hm
      obtain ⟨-, h1, -, -, h2⟩ := hm _ rfl
      exact Or.inr ⟨h1 rfl, h2 (by simp [isEdge, hd])⟩
    · have eT : isT s t = isD s t := by unfold isT isD; rw [← e]
      have eU : isU s t = 0 := by unfold isU; rw [← e]; ring
      rw [eT, eU, if_neg (by omega), if_neg (by omega), if_neg hd, if_pos rfl] at hm
      obtain ⟨-, -, h1, h2, -⟩ := hm _ rfl
      exact Or.inr ⟨h1 rfl, h2 (by simp [isEdge])⟩

theorem te_test {mk : Nat → Prop} (rnd : Rat → Rat) (bx by' : Bool) {s t : CSeg} (hs : SOk s) (ht : SOk t) (hcons : Consistent s t)
    (hcl : Cl s t) (hm : ∀ r, intersects rnd bx by' s t = some r → Marked mk r s t) : Te mk s t := by
  by_cases hd : isD s t = 0
  · unfold intersects at hm
    simp only [if_pos hd] at hm
    exact te_par hs ht hd hcl hm
  · exact te_cross rnd bx by' hs ht hcons hd hm

end PolyOps.Planarity
