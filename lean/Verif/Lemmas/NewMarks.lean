import Verif.Lemmas.SweepMarks

/-! Points added by the first sweep are marked. -/
namespace PolyOps.Sweep

structure NewOk (s t : Clip) : Prop where
  st : StOk s t
  new : ∀ i, s.np ≤ i → i < t.np → (t.lp i).state = .check

theorem NewOk.refl (s : Clip) : NewOk s s := ⟨.refl s, fun i h1 h2 => by omega⟩

theorem NewOk.trans {s t u : Clip} (h1 : NewOk s t) (h2 : NewOk t u) : NewOk s u := by
  refine ⟨h1.st.trans h2.st, fun i a b => ?_⟩
  by_cases c : i < t.np
  · exact h2.st.keep i c (h1.new i a c)
  · exact h2.new i (by omega) b

theorem NewOk.of_lp {s t : Clip} (h1 : t.lp = s.lp) (h2 : t.np = s.np) : NewOk s t := ⟨.of_lp h1 h2, fun i a b => by omega⟩

theorem NewOk.mark {s t : Clip} (h : NewOk s t) (i : Nat) : NewOk s (t.mark i) := by
  refine ⟨h.st.mark i, fun k a b => ?_⟩
  rw [mark_state]; split
  · rfl
  · exact h.new k a b

theorem insertMid_new {s t : Clip} {sa sb i : Nat} {c : Pt} (h : s.insertMid sa sb c = some (i, t)) : ∀ k, s.np ≤ k → k < t.np → k = i := by
  unfold Clip.insertMid at h
  split at h
  · cases h
  split at h
  · cases h
  rw [Option.bind_eq_some_iff] at h
  obtain ⟨u, hu, h⟩ := h
  rw [Option.map_eq_some_iff] at h
  obtain ⟨v, hv, h⟩ := h
  cases h
  have e1 : u.np = s.np + 1 := by split at hu <;> exact (addFb_lp hu).2
  have e2 : t.np = u.np := by split at hv <;> exact (addFb_lp hv).2
  intro k a b
  omega

theorem split_new {s t : Clip} {n i : Nat} {c : Option Pt} {e : AtEdge} (h : s.split n c e = some (i, t)) : ∀ k, s.np ≤ k → k < t.np → k = i := by
  unfold Clip.split at h
  cases e with
  | both => cases h
  | start => cases h; intro k a b; omega
  | «end» => cases h; intro k a b; omega
  | no =>
    cases c with
    | none => cases h
    | some c =>
      dsimp only at h
      rw [Option.bind_eq_some_iff] at h
      obtain ⟨u, hu, h⟩ := h
      obtain ⟨_, e2⟩ := unlink_lp hu
      rw [← e2]
      split at h
      · exact insertMid_new h
      · exact insertMid_new h

theorem checkIsect_new {env : Env} {s t : Clip} {n1 n2 : Nat} {b : Bool} (h : s.checkIsect env n1 n2 = some (b, t)) : NewOk s t := by
  refine ⟨checkIsect_st h, ?_⟩
  unfold Clip.checkIsect at h
  dsimp only at h
  have z : ∀ u : Clip, u.np = s.np → ∀ i, s.np ≤ i → i < u.np → (u.lp i).state = .check := fun u e i a b => by omega
  cases hr : env.isect s.clock (s.cseg n1) (s.cseg n2) with
  | none => rw [hr] at h; simp only [Option.some.injEq, Prod.mk.injEq] at h; rw [← h.2]; exact z _ rfl
  | some r =>
    rw [hr] at h
    dsimp only at h
    split at h
    · cases h
    split at h
    · rw [Option.bind_eq_some_iff] at h
      obtain ⟨⟨i1, v⟩, hv, h⟩ := h
      rw [Option.map_eq_some_iff] at h
      obtain ⟨⟨i2, w⟩, hw, h⟩ := h
      simp only [Prod.mk.injEq] at h
      rw [← h.2]
      intro k a b
      rw [mark_state, mark_state]
      split
      · rfl
      split
      · rfl
      · rename_i c1 c2
        exfalso
        by_cases c : k < v.np
        · exact c2 (split_new hv k a c)
        · exact c1 (split_new hw k (Nat.le_of_not_lt c) b)
    · split at h
      · simp only [Option.some.injEq, Prod.mk.injEq] at h
        rw [← h.2]; exact z _ rfl
      · simp only [Option.some.injEq, Prod.mk.injEq] at h
        rw [← h.2]; exact z _ rfl

theorem checkOpt_new {env : Env} {s t : Clip} {n : Nat} {o : Option Nat} {b : Bool} (h : s.checkOpt env n o = some (b, t)) : NewOk s t := by
  cases o with
  | none => simp only [Clip.checkOpt, Option.some.injEq, Prod.mk.injEq] at h; rw [← h.2]; exact .refl _
  | some m => exact checkIsect_new h

theorem step_new {env : Env} {s t : Clip} (h : s.step env = some t) : NewOk s t := by
  unfold Clip.step at h
  rw [Option.bind_eq_some_iff] at h
  obtain ⟨⟨e, fwd, q⟩, _, h⟩ := h
  dsimp only at h
  have h0 : NewOk s { s with q := q } := .of_lp rfl rfl
  generalize ({ s with q := q } : Clip) = u at *
  split at h
  · cases h; exact h0
  cases hf : e.ty.isFwd <;> cases fwd <;> rw [hf] at h <;> dsimp only at h
  · obtain ⟨a, b⟩ := insert_st h
    exact h0.trans (.of_lp a b)
  · unfold Clip.onBackward at h
    split at h
    · have h1 : NewOk u { u with sweep := u.sweep.erase e.node } := .of_lp rfl rfl
      dsimp only at h
      generalize prevOf u.sweep e.node = p at h
      generalize nextOf u.sweep e.node = n at h
      cases p with
      | none => cases h; exact h0.trans (.of_lp rfl rfl)
      | some p =>
        cases n with
        | none => cases h; exact h0.trans (.of_lp rfl rfl)
        | some n =>
          dsimp only at h
          rw [Option.map_eq_some_iff] at h
          obtain ⟨⟨b, v⟩, hv, h⟩ := h
          dsimp only at h
          rw [← h]
          exact (h0.trans h1).trans (checkIsect_new hv)
    · cases h; exact h0.trans (.of_lp rfl rfl)
  · unfold Clip.erase at h
    split at h
    · cases h; exact h0.trans (.of_lp rfl rfl)
    · cases h
  · unfold Clip.onForward at h
    rw [Option.bind_eq_some_iff] at h
    obtain ⟨v, hv, h⟩ := h
    rw [Option.bind_eq_some_iff] at h
    obtain ⟨⟨b, w⟩, hw, h⟩ := h
    obtain ⟨a1, a2⟩ := insert_st hv
    have h2 := (h0.trans (.of_lp a1 a2)).trans (checkOpt_new hw)
    dsimp only at h
    split at h
    · cases h; exact h2
    · rw [Option.map_eq_some_iff] at h
      obtain ⟨⟨b', x⟩, hx, h⟩ := h
      dsimp only at h
      rw [← h]
      exact h2.trans (checkOpt_new hx)

/-- Points added by the first sweep are marked. -/
theorem reach_new {env : Env} (he : EnvOk env) {lp : Nat → LP} {np : Nat} (hl : Loops lp np) {s : Clip} (h : Clip.Reach env lp np s) :
    ∀ i, np ≤ i → i < s.np → (s.lp i).state = .check := by
  induction h with
  | init h =>
    obtain ⟨t, h1, h2, h3, h4, h5⟩ := start_inv hl
    rw [h1, Option.some.injEq] at h
    subst h
    intro i a b
    rw [h4] at b
    exact absurd b (by change ¬i < np; omega)
  | @step s t hr _ hs ih =>
    have := step_new hs
    intro i a b
    by_cases c : i < s.np
    · exact this.st.keep i c (ih i a c)
    · exact this.new i (by omega) b

end PolyOps.Sweep
