import Verif.Lemmas.RasterStep
/-! The order of the lines in the tree of the rasteriser: whole rows. -/
namespace PolyOps.Raster
open PolyOps.Events

/-- The lines are in order from some height at or above row `y`, and all insertions to come are fair. -/
def OrdLe (E : Env) (y : ℚ) (st : St) : Prop := (∃ c ≤ y, Ord E c st) ∧ ∀ n, Fair E (st.orc n)

theorem OrdLe.mono {E : Env} {y z : ℚ} {st : St} (h : OrdLe E y st) (hyz : y ≤ z) : OrdLe E z st :=
  ⟨h.1.imp fun _ hc => ⟨hc.1.trans hyz, hc.2⟩, h.2⟩

theorem swapPhase_ord {E : Env} (hE : WFEnv E) (hX : WFX E) (hS : Simple E) {y : Int} : ∀ (f : Nat) (st st' : St), Inv E st → OrdLe E y st →
    swapPhase E y f st = .ok st' → OrdLe E y st' := by
  intro f
  induction f with
  | zero => intro st st' _ _ h; cases h
  | succ f ih =>
    intro st st' hi ho hok
    unfold swapPhase at hok
    split at hok
    · rename_i s1 s2 iy hc
      split at hok
      · rename_i hle
        obtain ⟨st1, h1, h2⟩ := bind_ok' hok
        obtain ⟨⟨c, _, ho1⟩, ho2⟩ := ho
        obtain ⟨m1, m2⟩ := hi.swap_mem hE hc
        have hsat := swapAndCheck_sat E hE (.swap s1 s2 iy) st.gen iy rfl f s1 s2 st (fun _ => rfl) m1 m2 hi.sweep_lt
        rw [h1] at hsat
        obtain ⟨hx, hp⟩ := hsat
        obtain ⟨j1, _⟩ := step_inv hi hc hx (sweepOk_append_swap ⟨hp.nodup_iff.mpr hi.sweep.1, fun k => by
          rw [hp.mem_iff]; exact hi.sweep.2 k⟩)
        obtain ⟨k1, k2⟩ := ord_swap hE hX hS hi hc ho1 f h1
        have htd := rest_of_current hi hc
        have hgood : iy.Good := ho1.good (.swap s1 s2 iy) (by rw [htd]; simp)
        refine ih _ _ j1 ⟨⟨_, ?_, k1⟩, ?_⟩ h2
        · by_contra hgt
          push Not at hgt
          have := (C42_height_strict iy iy hgood hgood y).2.2.2 hgt
          have hle' : (iy.cmpInt y != .gt) = true := hle
          rw [this] at hle'
          simp at hle'
        · show ∀ n, Fair E (st1.orc n)
          rw [k2]; exact ho2
      · cases hok; exact ho
    · cases hok; exact ho

theorem AllGe.step {E : Env} {y : Int} {st st1 : St} {e : REv} (ha : AllGe E y st) (hi : Inv E st) (hc : st.q.current = some e)
    (h : ∀ f ∈ (step E st1).todo, Le E.py e f ∧ (f.isEdge = true → f ∈ st.todo)) : AllGe E y (step E st1) := by
  intro g hg
  exact (ha e (by rw [rest_of_current hi hc]; simp)).trans (yk_le_of_rKey (h g hg).1)

theorem backwardPhase_ord {E : Env} (hE : WFEnv E) (hX : WFX E) (hS : Simple E) {y : Int} : ∀ (f : Nat) (st st' : St), Inv E st →
    AllGe E y st → OrdLe E y st → backwardPhase E y f st = .ok st' → OrdLe E y st' := by
  intro f
  induction f with
  | zero => intro st st' _ _ _ h; cases h
  | succ f ih =>
    intro st st' hi ha ho hok
    unfold backwardPhase at hok
    split at hok
    · rename_i a b k hc
      split at hok
      · rename_i hle
        obtain ⟨st1, h1, h2⟩ := bind_ok' hok
        obtain ⟨⟨c, hcy, ho1⟩, ho2⟩ := ho
        have hsat := doBackward_sat E hE st hi a b k hc
        rw [h1] at hsat
        obtain ⟨hx, hs⟩ := hsat
        obtain ⟨j1, _, j3, _⟩ := step_inv hi hc hx hs
        have hya : E.py a = y := by
          have e1 := rowKey_le.mp (ha (.edge false a b k) (by rw [rest_of_current hi hc]; simp))
          have e2 : E.py a ≤ y := by simpa [leY] using hle
          omega
        obtain ⟨k1, k2⟩ := ord_backward hE hX hS hi hc ho1 (by rw [hya]; exact hcy) h1
        rw [hya] at k1
        refine ih _ _ j1 (ha.step hi hc j3) ⟨⟨_, le_rfl, k1⟩, ?_⟩ h2
        show ∀ n, Fair E (st1.orc n)
        rw [k2]; exact ho2
      · cases hok; exact ho
    · cases hok; exact ho

theorem forwardPhase_ord {E : Env} (hE : WFEnv E) (hX : WFX E) {y : Int} : ∀ (f : Nat) (st st' : St), Inv E st →
    AllGe E y st → OrdLe E y st → forwardPhase E y f st = .ok st' → OrdLe E y st' ∧ AllGe E y st' := by
  intro f
  induction f with
  | zero => intro st st' _ _ _ h; cases h
  | succ f ih =>
    intro st st' hi ha ho hok
    unfold forwardPhase at hok
    split at hok
    · rename_i a b k hc
      split at hok
      · rename_i hle
        obtain ⟨st1, h1, h2⟩ := bind_ok' hok
        obtain ⟨⟨c, hcy, ho1⟩, ho2⟩ := ho
        have hsat := doForward_sat E hE y st hi a b k hc
        rw [h1] at hsat
        obtain ⟨hx, hs⟩ := hsat
        obtain ⟨j1, _, j3, _⟩ := step_inv hi hc hx hs
        have hya : E.py a = y := by
          have e1 := rowKey_le.mp (ha (.edge true a b k) (by rw [rest_of_current hi hc]; simp))
          have e2 : E.py a ≤ y := by simpa [leY] using hle
          omega
        obtain ⟨k1, k2⟩ := ord_forward hE hX hi hc hya ho1 hcy (ho2 0) h1
        refine ih _ _ j1 (ha.step hi hc j3) ⟨⟨_, le_rfl, k1⟩, ?_⟩ h2
        show ∀ n, Fair E (st1.orc n)
        rw [k2]; exact fun n => ho2 (n + 1)
      · cases hok; exact ⟨ho, ha⟩
    · cases hok; exact ⟨ho, ha⟩

theorem doRow_ord {E : Env} (hE : WFEnv E) (hX : WFX E) (hS : Simple E) {y : Int} {f : Nat} {st st' : St} (hi : Inv E st)
    (hd : DoneLe E y st) (ht : TodoGe E y st) (ho : OrdLe E y st) (hok : doRow E y f st = .ok st') : OrdLe E y st' ∧ AllGe E y st' := by
  unfold doRow at hok
  obtain ⟨st1, h1, hok⟩ := bind_ok' hok
  obtain ⟨st2, h2, h3⟩ := bind_ok' hok
  have s1 := swapPhase_sat E hE y f st hi hd ht
  rw [h1] at s1
  obtain ⟨a1, a2, a3⟩ := s1
  have s2 := backwardPhase_sat E hE y f st1 a1 a2 a3
  rw [h2] at s2
  obtain ⟨b1, b2, b3, b4⟩ := s2
  exact forwardPhase_ord hE hX f st2 st' b1 b3 (backwardPhase_ord hE hX hS f st1 st2 a1 a3 (swapPhase_ord hE hX hS f st st1 hi ho h1) h2) h3

/-- The lines of a row go from right to left. -/
def RowOrd (E : Env) (y : Int) (l : List Nat) : Prop := l.Pairwise fun j k => lx (E.seg k) y ≤ lx (E.seg j) y

theorem OrdLe.row {E : Env} (hE : WFEnv E) (hX : WFX E) {y : Int} {st : St} (hi : Inv E st) (ho : OrdLe E y st) (ha : AllGe E y st)
    (hd : DoneLe E y st) (ht : TodoGe E (y + 1) st) : RowOrd E y st.sweep := by
  obtain ⟨⟨c, hcy, ho⟩, _⟩ := ho
  have hpw : st.sweep.IsChain fun j k => lx (E.seg k) y ≤ lx (E.seg j) y := by
    have hch := ho.chain
    rw [List.isChain_iff_forall_rel_of_append_cons_cons] at hch ⊢
    intro j k L R he
    have hj : Active E y j := (hi.active hE hd ht j).mp (by rw [he]; simp)
    have hk : Active E y k := (hi.active hE hd ht k).mp (by rw [he]; simp)
    rcases hch he with h | ⟨iy, h⟩
    · exact h y hcy (by exact_mod_cast hj.2.2.le) (by exact_mod_cast hk.2.2.le)
    · obtain ⟨⟨_, _, hs, hsl⟩, _⟩ := ho.turns _ _ _ h
      have := hv_le (E := E) (e := .edge true (E.seg j).a 0 0) (f := .swap j k iy) trivial (ho.good _ h)
      have hy : (y : ℚ) ≤ iy.val := by
        by_contra hlt
        push Not at hlt
        have h1 := ha _ h
        have h2 := (key_lt_of_val (ho.good _ h)).1 hlt
        exact absurd h1 (not_le.mpr h2)
      exact before_cross (isect_some (hX j hj.1).1 (hX k hk.1).1 hs).2.1 hsl hy
  unfold RowOrd
  have : IsTrans Nat fun j k => lx (E.seg k) y ≤ lx (E.seg j) y := ⟨fun _ _ _ h1 h2 => h2.trans h1⟩
  exact List.isChain_iff_pairwise.mp hpw

theorem rows_ord {E : Env} (hE : WFEnv E) (hX : WFX E) (hS : Simple E) (h : Int) : ∀ (f : Nat) (y : Int) (st : St)
    (r : List (Int × List Nat)), Inv E st → DoneLe E (y - 1) st → TodoGe E y st → OrdLe E y st → rows E h f y st = .ok r →
    ∀ row ∈ r, RowOrd E row.1 row.2 := by
  intro f
  induction f with
  | zero => intro _ _ _ _ _ _ _ h; cases h
  | succ f ih =>
    intro y st r hi hd ht ho hok
    unfold rows at hok
    split at hok
    · obtain ⟨st1, h1, hok⟩ := bind_ok' hok
      obtain ⟨r', h2, h3⟩ := bind_ok' hok
      cases h3
      have hdy : DoneLe E y st := fun g hg he => by have := hd g hg he; omega
      have s1 := doRow_sat E hE y f st hi hdy ht
      rw [h1] at s1
      obtain ⟨a1, a2, a3⟩ := s1
      obtain ⟨o1, o2⟩ := doRow_ord hE hX hS hi hdy ht ho h1
      intro row hr
      rcases List.mem_cons.mp hr with rfl | hr
      · exact o1.row hE hX a1 o2 a2 a3
      · exact ih (y + 1) st1 r' a1 (by rw [show y + 1 - 1 = y by omega]; exact a2) a3 (o1.mono (by push_cast; linarith)) h2 row hr
    · cases hok; simp

theorem init_ge (E : Env) (orc : Nat → Place) : TodoGe E (firstRow E (initSt E orc)) (initSt E orc) := by
  obtain ⟨hi, hd⟩ := initSt_inv E orc
  have htodo : (initSt E orc).todo = (initSt E orc).q.events := by
    have := events_split (initSt E orc)
    rw [hd, List.nil_append] at this
    exact this.symm
  intro g hg he
  unfold firstRow
  cases hc : (initSt E orc).q.current with
  | none => rw [todo_nil hi.pos hc] at hg; simp at hg
  | some e =>
    simp only
    have hle := yk_le_of_rKey (hi.todo_ge hc g hg)
    have hee : e.isEdge = true := by
      obtain ⟨ht, _, _⟩ := todo_of_current hi.pos hc
      have hm : e ∈ (initSt E orc).q.events := by rw [← htodo, ht]; simp
      have h1 := (next_first E.py (initEvents E.nodes)).1
      obtain ⟨k, _, rfl | rfl⟩ := (mem_initEvents E e).mp (h1.mem_iff.mp hm) <;> rfl
    rw [yk_of_edge he, yk_of_edge hee, rowKey_le] at hle
    exact hle

theorem init_ord (E : Env) (orc : Nat → Place) (hf : ∀ n, Fair E (orc n)) (y : ℚ) : OrdLe E y (initSt E orc) := by
  refine ⟨⟨y, le_rfl, ?_, List.isChain_nil⟩, hf⟩
  intro s1 s2 iy hm
  exfalso
  have hm' : REv.swap s1 s2 iy ∈ (initSt E orc).q.events := List.mem_of_mem_drop hm
  have h1 := (next_first E.py (initEvents E.nodes)).1
  obtain ⟨k, _, h | h⟩ := (mem_initEvents E _).mp (h1.mem_iff.mp hm') <;> cases h

end PolyOps.Raster
