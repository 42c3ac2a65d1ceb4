import Verif.Props.Sweep
import Mathlib.Data.Fintype.Pigeonhole

/-! Marks set during the first sweep stay, and no other states appear. -/
namespace PolyOps.Sweep

/-- A state that occurs before the second sweep. -/
def Unset (b : Base) : Prop := b = .undef ∨ b = .check

structure StOk (s t : Clip) : Prop where
  le : s.np ≤ t.np
  keep : ∀ i < s.np, (s.lp i).state = .check → (t.lp i).state = .check
  ok : (∀ i < s.np, Unset (s.lp i).state) → ∀ i < t.np, Unset (t.lp i).state

theorem StOk.refl (s : Clip) : StOk s s := ⟨le_rfl, fun _ _ h => h, fun h => h⟩

theorem StOk.trans {s t u : Clip} (h1 : StOk s t) (h2 : StOk t u) : StOk s u :=
  ⟨h1.le.trans h2.le, fun i hi h => h2.keep i (lt_of_lt_of_le hi h1.le) (h1.keep i hi h), fun h => h2.ok (h1.ok h)⟩

theorem StOk.of_lp {s t : Clip} (h1 : t.lp = s.lp) (h2 : t.np = s.np) : StOk s t :=
  ⟨h2.ge, fun i _ h => by rw [h1]; exact h, fun h i hi => by rw [h1]; exact h i (h2 ▸ hi)⟩

theorem mark_state (s : Clip) (i k : Nat) : ((s.mark i).lp k).state = if k = i then .check else (s.lp k).state := by
  unfold Clip.mark setFn
  dsimp only
  split <;> simp_all

theorem StOk.mark {s t : Clip} (h : StOk s t) (i : Nat) : StOk s (t.mark i) := by
  refine h.trans ⟨le_rfl, fun k _ hc => ?_, fun ho k hk => ?_⟩
  · rw [mark_state]; split
    · rfl
    · exact hc
  · rw [mark_state]; split
    · exact Or.inr rfl
    · exact ho k hk

theorem addFb_lp {s t : Clip} {a b : Nat} (h : s.addFb a b = some t) : t.lp = s.lp ∧ t.np = s.np := by
  unfold Clip.addFb at h
  split at h
  · cases h
  · cases h; exact ⟨rfl, rfl⟩

theorem insertMid_st {s t : Clip} {sa sb i : Nat} {c : Pt} (h : s.insertMid sa sb c = some (i, t)) : StOk s t := by
  unfold Clip.insertMid at h
  split at h
  · cases h
  split at h
  · cases h
  rw [Option.bind_eq_some_iff] at h
  obtain ⟨u, hu, h⟩ := h
  rw [Option.map_eq_some_iff] at h
  obtain ⟨v, hv, h⟩ := h
  cases h
  have e1 : u.lp = setFn (setFn s.lp sa { s.lp sa with next := s.np }) s.np ⟨c, sb, ((setFn s.lp sa { s.lp sa with next := s.np }) sa).set, .undef⟩ ∧ u.np = s.np + 1 := by
    split at hu <;> exact addFb_lp hu
  have e2 : t.lp = u.lp ∧ t.np = u.np := by split at hv <;> exact addFb_lp hv
  have key : ∀ k, (t.lp k).state = if k = s.np then .undef else (s.lp k).state := by
    intro k
    rw [e2.1, e1.1]
    unfold setFn
    by_cases c1 : k = s.np
    · rw [if_pos c1, if_pos c1]
    · rw [if_neg c1, if_neg c1]
      by_cases c2 : k = sa
      · rw [if_pos c2, c2]
      · rw [if_neg c2]
  refine ⟨by rw [e2.2, e1.2]; omega, fun k hk hc => ?_, fun ho k hk => ?_⟩
  · rw [key, if_neg (by omega)]; exact hc
  · rw [key]; split
    · exact Or.inl rfl
    · rename_i hne; rw [e2.2, e1.2] at hk; exact ho k (by omega)

theorem unlink_lp {s t : Clip} {n : Nat} (h : s.unlink n = some t) : t.lp = s.lp ∧ t.np = s.np := by
  unfold Clip.unlink at h
  by_cases c : n ∈ s.sweep
  · rw [if_pos c] at h
    dsimp only at h
    generalize (if s.x (s.seg n).1 = s.x (s.seg n).2 then Events.EvTy.vforward else .forward) = ty at h
    split at h
    · split at h
      · rw [Option.some.injEq] at h; rw [← h]; exact ⟨rfl, rfl⟩
      · cases h
    · cases h
  · rw [if_neg c] at h; cases h

theorem split_st {s t : Clip} {n i : Nat} {c : Option Pt} {e : AtEdge} (h : s.split n c e = some (i, t)) : StOk s t := by
  unfold Clip.split at h
  cases e with
  | both => cases h
  | start => cases h; exact .refl _
  | «end» => cases h; exact .refl _
  | no =>
    cases c with
    | none => cases h
    | some c =>
      dsimp only at h
      rw [Option.bind_eq_some_iff] at h
      obtain ⟨u, hu, h⟩ := h
      obtain ⟨e1, e2⟩ := unlink_lp hu
      have hs : StOk s u := .of_lp e1 e2
      split at h
      · exact hs.trans (insertMid_st h)
      · exact hs.trans (insertMid_st h)

theorem insert_st {env : Env} {s t : Clip} {n : Nat} (h : s.insert env n = some t) : t.lp = s.lp ∧ t.np = s.np := by
  unfold Clip.insert at h
  split at h
  · cases h
  · cases h; exact ⟨rfl, rfl⟩

theorem checkIsect_st {env : Env} {s t : Clip} {n1 n2 : Nat} {b : Bool} (h : s.checkIsect env n1 n2 = some (b, t)) : StOk s t := by
  unfold Clip.checkIsect at h
  dsimp only at h
  have h0 : StOk s { s with clock := s.clock + 1 } := .of_lp rfl rfl
  cases hr : env.isect s.clock (s.cseg n1) (s.cseg n2) with
  | none => rw [hr] at h; simp only [Option.some.injEq, Prod.mk.injEq] at h; rw [← h.2]; exact h0
  | some r =>
    rw [hr] at h
    dsimp only at h
    split at h
    · cases h
    split at h
    · rw [Option.bind_eq_some_iff] at h
      obtain ⟨⟨i1, v⟩, hv, h⟩ := h
      rw [Option.map_eq_some_iff] at h
      obtain ⟨⟨i2, w⟩, hw, h⟩ := h
      simp only [Prod.mk.injEq] at h
      rw [← h.2]
      exact (((h0.trans (split_st hv)).trans (split_st hw)).mark _).mark _
    · split at h
      · simp only [Option.some.injEq, Prod.mk.injEq] at h
        rw [← h.2]; exact (((h0.mark _).mark _).mark _).mark _
      · simp only [Option.some.injEq, Prod.mk.injEq] at h
        rw [← h.2]; exact (h0.mark _).mark _

theorem checkOpt_st {env : Env} {s t : Clip} {n : Nat} {o : Option Nat} {b : Bool} (h : s.checkOpt env n o = some (b, t)) : StOk s t := by
  cases o with
  | none => simp only [Clip.checkOpt, Option.some.injEq, Prod.mk.injEq] at h; rw [← h.2]; exact .refl _
  | some m => exact checkIsect_st h

theorem step_st {env : Env} {s t : Clip} (h : s.step env = some t) : StOk s t := by
  unfold Clip.step at h
  rw [Option.bind_eq_some_iff] at h
  obtain ⟨⟨e, fwd, q⟩, _, h⟩ := h
  dsimp only at h
  have h0 : StOk s { s with q := q } := .of_lp rfl rfl
  generalize ({ s with q := q } : Clip) = u at *
  split at h
  · cases h; exact h0
  cases hf : e.ty.isFwd <;> cases fwd <;> rw [hf] at h <;> dsimp only at h
  · obtain ⟨a, b⟩ := insert_st h
    exact h0.trans (.of_lp a b)
  · unfold Clip.onBackward at h
    split at h
    · have h1 : StOk u { u with sweep := u.sweep.erase e.node } := .of_lp rfl rfl
      dsimp only at h
      generalize prevOf u.sweep e.node = p at h
      generalize nextOf u.sweep e.node = n at h
      cases p with
      | none => cases h; exact h0.trans (.of_lp rfl rfl)
      | some p =>
        cases n with
        | none => cases h; exact h0.trans (.of_lp rfl rfl)
        | some n =>
          dsimp only at h
          rw [Option.map_eq_some_iff] at h
          obtain ⟨⟨b, v⟩, hv, h⟩ := h
          dsimp only at h
          rw [← h]
          exact (h0.trans h1).trans (checkIsect_st hv)
    · cases h; exact h0.trans (.of_lp rfl rfl)
  · unfold Clip.erase at h
    split at h
    · cases h; exact h0.trans (.of_lp rfl rfl)
    · cases h
  · unfold Clip.onForward at h
    rw [Option.bind_eq_some_iff] at h
    obtain ⟨v, hv, h⟩ := h
    rw [Option.bind_eq_some_iff] at h
    obtain ⟨⟨b, w⟩, hw, h⟩ := h
    obtain ⟨a1, a2⟩ := insert_st hv
    have h2 := (h0.trans (.of_lp a1 a2)).trans (checkOpt_st hw)
    dsimp only at h
    split at h
    · cases h; exact h2
    · rw [Option.map_eq_some_iff] at h
      obtain ⟨⟨b', x⟩, hx, h⟩ := h
      dsimp only at h
      rw [← h]
      exact h2.trans (checkOpt_st hx)

/-- Along the first sweep marks stay. -/
theorem reach_st {env : Env} (he : EnvOk env) {lp : Nat → LP} {np : Nat} (hl : Loops lp np) {s : Clip} (h : Clip.Reach env lp np s) :
    (∀ i < np, (lp i).state = .check → (s.lp i).state = .check) ∧
    ((∀ i < np, Unset (lp i).state) → ∀ i < s.np, Unset (s.lp i).state) := by
  induction h with
  | init h =>
    obtain ⟨t, h1, h2, h3, h4, h5⟩ := start_inv hl
    rw [h1, Option.some.injEq] at h
    subst h
    rw [h3, h4]
    exact ⟨fun _ _ h => h, fun h => h⟩
  | step hr _ hs ih =>
    have := step_st hs
    have hle := (reach_spec he hl hr).2.1.le
    exact ⟨fun i hi hc => this.keep i (lt_of_lt_of_le hi hle) (ih.1 i hi hc), fun h => this.ok (ih.2 h)⟩

/-- Going on along the points leads back to the start. -/
theorem cycle_back {f : Nat → Nat} {n : Nat} (hlt : ∀ i < n, f i < n) (hinj : ∀ i < n, ∀ j < n, f i = f j → i = j) {i : Nat} (hi : i < n) :
    ∃ p, 0 < p ∧ f^[p] i = i := by
  have it : ∀ m, f^[m] i < n := by
    intro m
    induction m with
    | zero => exact hi
    | succ m ih => rw [Function.iterate_succ_apply']; exact hlt _ ih
  have : ∃ a b : Fin (n + 1), a < b ∧ f^[a.1] i = f^[b.1] i := by
    obtain ⟨a, b, hne, he⟩ := Fintype.exists_ne_map_eq_of_card_lt (fun m : Fin (n + 1) => (⟨f^[m.1] i, it m.1⟩ : Fin n)) (by simp)
    have he : f^[a.1] i = f^[b.1] i := congrArg Fin.val he
    rcases lt_or_gt_of_ne hne with h | h
    · exact ⟨a, b, h, he⟩
    · exact ⟨b, a, h, he.symm⟩
  obtain ⟨⟨a, ha⟩, ⟨b, hb⟩, hab, he⟩ := this
  have hab : a < b := hab
  dsimp only at he
  have key : ∀ a d, f^[a] i = f^[a + d] i → f^[d] i = i := by
    intro a
    induction a with
    | zero => intro d h; rw [Nat.zero_add] at h; exact h.symm
    | succ a ih =>
      intro d h
      apply ih
      rw [show a + 1 + d = (a + d) + 1 by omega, Function.iterate_succ_apply', Function.iterate_succ_apply'] at h
      exact hinj _ (it _) _ (it _) h
  exact ⟨b - a, by omega, key a (b - a) (by rw [he]; congr 1; omega)⟩

theorem path_iterate {lp : Nat → LP} : ∀ {l : List Nat} {i j : Nat}, Path lp i l j → ∃ m, (fun k => (lp k).next)^[m] i = j
  | [], i, j, h => ⟨1, h⟩
  | a :: l, i, j, h => by
    obtain ⟨m, hm⟩ := path_iterate h.2
    exact ⟨m + 1, by rw [Function.iterate_succ_apply, h.1]; exact hm⟩

/-- If every loop has a marked point before the sweep, so it has after it. -/
theorem reach_marked {env : Env} (he : EnvOk env) {lp : Nat → LP} {np : Nat} (hl : Loops lp np)
    (h0 : ∀ i < np, ∃ m, (lp ((fun k => (lp k).next)^[m] i)).state = .check) {s : Clip} (h : Clip.Reach env lp np s) :
    ∀ i < s.np, ∃ m, (s.lp ((fun k => (s.lp k).next)^[m] i)).state = .check := by
  obtain ⟨hlo, href, hvia⟩ := C27_loops he hl h
  have st := (reach_st he hl h).1
  have old : ∀ m i, i < np → ∃ m', (fun k => (s.lp k).next)^[m'] i = (fun k => (lp k).next)^[m] i := by
    intro m
    induction m with
    | zero => intro i _; exact ⟨0, rfl⟩
    | succ m ih =>
      intro i hi
      obtain ⟨l, hp, _⟩ := href.path i hi
      obtain ⟨a, ha⟩ := path_iterate hp
      obtain ⟨b, hb⟩ := ih (lp i).next (hl.next_lt i hi)
      refine ⟨b + a, ?_⟩
      rw [Function.iterate_add_apply, ha, hb, Function.iterate_succ_apply]
  have oldlt : ∀ m i, i < np → (fun k => (lp k).next)^[m] i < np := by
    intro m
    induction m with
    | zero => intro i hi; exact hi
    | succ m ih => intro i hi; rw [Function.iterate_succ_apply]; exact ih _ (hl.next_lt i hi)
  intro c hc
  obtain ⟨i, hi, hv⟩ := hvia c hc
  have via : ∃ a, (fun k => (s.lp k).next)^[a] i = c := by
    clear hc
    induction hv with
    | refl => exact ⟨0, rfl⟩
    | step _ _ ih =>
      obtain ⟨a, ha⟩ := ih
      exact ⟨a + 1, by rw [Function.iterate_succ_apply', ha]; rfl⟩
  obtain ⟨a, ha⟩ := via
  obtain ⟨p, hp, he⟩ := cycle_back hlo.next_lt hlo.next_inj (lt_of_lt_of_le hi href.le)
  have back : ∃ b, (fun k => (s.lp k).next)^[b] c = i := by
    refine ⟨p * a - a, ?_⟩
    rw [← ha, ← Function.iterate_add_apply, Nat.sub_add_cancel (Nat.le_mul_of_pos_left a hp)]
    have : ∀ q, (fun k => (s.lp k).next)^[p * q] i = i := by
      intro q
      induction q with
      | zero => rfl
      | succ q ih => rw [Nat.mul_succ, Function.iterate_add_apply, he, ih]
    exact this a
  obtain ⟨b, hb⟩ := back
  obtain ⟨m, hm⟩ := h0 i hi
  obtain ⟨m', hm'⟩ := old m i hi
  refine ⟨m' + b, ?_⟩
  rw [Function.iterate_add_apply, hb, hm']
  exact st _ (oldlt m i hi) hm

end PolyOps.Sweep
