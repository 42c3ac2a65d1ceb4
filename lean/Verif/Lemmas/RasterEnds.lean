import Verif.Lemmas.RasterRow
/-! The rasteriser ends: every swap lowers the number of pairs of lines that still have to be swapped. -/
namespace PolyOps.Raster
open PolyOps.Events

/-- The fuel was enough, and a value satisfies `P`. -/
def Res.Ends {α : Type} (r : Res α) (P : α → Prop) : Prop :=
  match r with
  | .ok a => P a
  | .ub => True
  | .fuel => False

theorem Res.Ends.bind {α β : Type} {r : Res α} {P : α → Prop} {k : α → Res β} {Q : β → Prop} (h : r.Ends P)
    (hk : ∀ a, r = .ok a → P a → (k a).Ends Q) : (r.bind k).Ends Q := by
  cases r with
  | ok a => exact hk a rfl h
  | ub => trivial
  | fuel => exact h

theorem Res.Ends.mono {α : Type} {r : Res α} {P Q : α → Prop} (h : r.Ends P) (hk : ∀ a, P a → Q a) : r.Ends Q := by
  cases r with
  | ok a => exact hk a h
  | ub => trivial
  | fuel => exact h

/-- Pairs of lines of which the first turns to the left of the second. -/
def inv (E : Env) : List Nat → Nat
  | [] => 0
  | a :: l => l.countP (fun b => decide (sl (E.seg a) < sl (E.seg b))) + inv E l

theorem inv_exchange (E : Env) (L R : List Nat) {a b : Nat} (h : sl (E.seg a) < sl (E.seg b)) :
    inv E (L ++ a :: b :: R) = inv E (L ++ b :: a :: R) + 1 := by
  induction L with
  | nil =>
    simp only [List.nil_append, inv, List.countP_cons, decide_eq_true_eq, if_pos h, if_neg h.le.not_gt]
    omega
  | cons c L ih =>
    simp only [List.cons_append, inv, ih]
    rw [(exchange_perm L R a b).countP_eq]
    omega

theorem inv_insert (E : Env) (L R : List Nat) (k : Nat) :
    inv E (L ++ R) ≤ inv E (L ++ k :: R) ∧ inv E (L ++ k :: R) ≤ inv E (L ++ R) + (L ++ R).length := by
  induction L with
  | nil =>
    have : R.countP (fun b => decide (sl (E.seg k) < sl (E.seg b))) ≤ R.length := List.countP_le_length
    simp only [List.nil_append, inv]
    omega
  | cons c L ih =>
    simp only [List.cons_append, inv, List.countP_append, List.countP_cons, List.length_cons]
    split <;> omega

/-- What a state still may cost. -/
def cost (E : Env) (st : St) : Nat := 3 * inv E st.sweep + st.rest.length

theorem addSwap_rest {E : Env} {j k : Nat} {iy : IntrY} {st : St} (hpos : st.q.pos ≤ st.q.events.length) :
    (addSwap E j k iy st).rest = st.rest ++ [.swap j k iy] := by
  unfold St.rest addSwap
  simp only
  rw [List.drop_append_of_le_length hpos]

theorem check_cost {E : Env} {j k : Nat} {y : Int} {st : St} (hpos : st.q.pos ≤ st.q.events.length) :
    (check E j k y st).sweep = st.sweep ∧ (check E j k y st).rest.length ≤ st.rest.length + 1 ∧
      (check E j k y st).q.pos ≤ (check E j k y st).q.events.length := by
  unfold check
  split
  · exact ⟨rfl, by omega, hpos⟩
  · split
    · refine ⟨rfl, by rw [addSwap_rest hpos]; simp, ?_⟩
      show st.q.pos ≤ (st.q.events ++ _).length
      rw [List.length_append]; omega
    · exact ⟨rfl, by omega, hpos⟩

theorem checkAfter_ends {E : Env} {g : Nat} {y : IntrY} {again : Nat → Nat → St → Res St} {j k : Nat} {st : St}
    (hpos : st.q.pos ≤ st.q.events.length) :
    (∃ st', checkAfter E g y again j k st = .ok st' ∧ st'.sweep = st.sweep ∧ st'.rest.length ≤ st.rest.length + 1) ∨
    checkAfter E g y again j k st = .ub ∨
    (checkAfter E g y again j k st = again j k st ∧ ∃ iy, isect (E.seg j) (E.seg k) = some iy ∧ iy.eq y = true) := by
  unfold checkAfter
  cases hi : isect (E.seg j) (E.seg k) with
  | none => exact Or.inl ⟨st, rfl, rfl, by omega⟩
  | some iy =>
    simp only
    split
    · exact Or.inr (Or.inl rfl)
    · split
      · split
        · rename_i h
          exact Or.inr (Or.inr ⟨rfl, iy, rfl, h⟩)
        · exact Or.inl ⟨_, rfl, rfl, by rw [addSwap_rest hpos]; simp⟩
      · exact Or.inl ⟨st, rfl, rfl, by omega⟩

theorem swapAndCheck_eq {E : Env} {g : Nat} {y : IntrY} {f s1 s2 : Nat} {st : St} {L R : List Nat}
    (hl : st.sweep = L ++ s1 :: s2 :: R) (hn : st.sweep.Nodup) : swapAndCheck E g y (f + 1) s1 s2 st =
      (match L.getLast? with
        | none => Res.ok { st with sweep := L ++ s2 :: s1 :: R }
        | some p => checkAfter E g y (swapAndCheck E g y f) p s2 { st with sweep := L ++ s2 :: s1 :: R }).bind fun st1 =>
      match nextOf st1.sweep s1 with
        | none => Res.ok st1
        | some n => checkAfter E g y (swapAndCheck E g y f) s1 n st1 := by
  have hn' := hn
  rw [hl] at hn'
  have hn2 := List.nodup_append.mp hn'
  have h1 : s1 ∉ L := fun hm => hn2.2.2 s1 hm s1 (by simp) rfl
  have h2 : s2 ∉ L := fun hm => hn2.2.2 s2 hm s2 (by simp) rfl
  conv_lhs => unfold swapAndCheck
  rw [if_pos (by rw [hl]; simp), if_neg (by rw [hl, nextOf_mid h1]; simp), hl, Raster.exchange hn']
  simp only [prevOf_mid h2]
  rfl

/-- Lower than before. -/
def Drop (E : Env) (st st' : St) : Prop := cost E st' < cost E st ∧ inv E st'.sweep < inv E st.sweep

theorem swap_first_ends {E : Env} (hE : WFX E) (hS : Simple E) (g : Nat) (y : IntrY) (f s1 s2 : Nat) (L R : List Nat)
    (st : St) (hl : st.sweep = L ++ s1 :: s2 :: R) (hw : Work E y.val st) (hsw : Swapping E y s1 s2)
    (hrec : ∀ L0 p, L = L0 ++ [p] → Swapping E y p s2 → sl (E.seg s1) = sl (E.seg p) → lx (E.seg s1) y.val = lx (E.seg p) y.val →
      (swapAndCheck E g y f p s2 { st with sweep := L ++ s2 :: s1 :: R }).Ends (Drop E { st with sweep := L ++ s2 :: s1 :: R })) :
    (match L.getLast? with
        | none => Res.ok { st with sweep := L ++ s2 :: s1 :: R }
        | some p => checkAfter E g y (swapAndCheck E g y f) p s2 { st with sweep := L ++ s2 :: s1 :: R }).Ends fun st1 =>
      cost E st1 + 2 ≤ cost E st ∧ inv E st1.sweep < inv E st.sweep := by
  obtain ⟨hm, i1, i2⟩ := hsw.meet hE
  have hinv : inv E st.sweep = inv E (L ++ s2 :: s1 :: R) + 1 := by rw [hl]; exact inv_exchange E L R hsw.slope
  have hrest : ({ st with sweep := L ++ s2 :: s1 :: R } : St).rest = st.rest := rfl
  rcases List.eq_nil_or_concat L with rfl | ⟨L0, p, rfl⟩
  · simp only [List.getLast?_nil]
    refine ⟨?_, by simp only; omega⟩
    unfold cost
    rw [hrest]
    simp only
    omega
  · rw [List.concat_eq_append] at *
    simp only [List.getLast?_append, List.getLast?_singleton, Option.some_or]
    have hpa := hw.at_ p (by rw [hl]; simp)
    rcases checkAfter_ends (E := E) (g := g) (y := y) (again := swapAndCheck E g y f) (j := p) (k := s2)
      (st := { st with sweep := L0 ++ [p] ++ s2 :: s1 :: R }) hw.pos with ⟨st', h1, h2, h3⟩ | h | ⟨h1, iy, h2, h3⟩
    · rw [h1]
      show _ ∧ _
      unfold cost
      rw [h2]
      rw [hrest] at h3
      simp only
      omega
    · rw [h]; trivial
    · rw [h1]
      have hs := isect_some (hE p hpa.1).1 (hE s2 hsw.in2).1 h2
      rw [val_of_eq h3] at hs
      rcases hsw.left hE hS hpa hs.2.1.symm with h | ⟨h, hd⟩
      · exact absurd h hs.1
      · refine (hrec L0 p rfl h hd (by rw [hm, hs.2.1])).mono ?_
        rintro a ⟨d1, d2⟩
        unfold cost at d1 ⊢
        rw [hrest] at d1
        simp only at d1 d2
        omega

theorem swap_left_ends {E : Env} (hE : WFX E) (hS : Simple E) (g : Nat) (y : IntrY) (hyg : y.Good) : ∀ (f s1 s2 r : Nat) (L R : List Nat)
    (st : St), st.sweep = L ++ s1 :: s2 :: r :: R → Work E y.val st → Swapping E y s1 s2 → sl (E.seg r) = sl (E.seg s1) →
    lx (E.seg r) y.val = lx (E.seg s1) y.val → (L ++ [s1]).IsChain (Ahead E y.val st.rest) → inv E st.sweep ≤ f →
    (swapAndCheck E g y f s1 s2 st).Ends (Drop E st) := by
  intro f
  induction f with
  | zero =>
    intro s1 s2 r L R st hl hw hsw _ _ _ hf
    rw [hl, inv_exchange E L _ hsw.slope] at hf
    omega
  | succ f ih =>
    intro s1 s2 r L R st hl hw hsw hrs hrx hch hf
    have hinv : inv E st.sweep = inv E (L ++ s2 :: s1 :: r :: R) + 1 := by rw [hl]; exact inv_exchange E L _ hsw.slope
    rw [swapAndCheck_eq hl hw.nodup]
    refine (swap_first_ends hE hS g y f s1 s2 L (r :: R) st hl hw hsw ?_).bind ?_
    · rintro L0 p rfl h hd hx
      rw [List.append_assoc, List.cons_append, List.nil_append, List.isChain_append_cons_cons] at hch
      exact ih p s2 s1 L0 (r :: R) _ (by simp) (hw.exchange hl) h hd hx hch.1 (by simp only; omega)
    · intro st1 ho1 hc
      obtain ⟨k1, M, hM, hMc⟩ := swap_first hE hS g y hyg f s1 s2 L (r :: R) st st1 hl hw hsw hch ho1
      have hnext : nextOf st1.sweep s1 = some r := by
        rw [hM]
        apply nextOf_mid
        intro hmem
        have := k1.1.nodup
        rw [hM] at this
        exact (List.nodup_append.mp this).2.2 s1 hmem s1 (by simp) rfl
      have hnone : isect (E.seg s1) (E.seg r) = none := by
        cases hi : isect (E.seg s1) (E.seg r) with
        | none => rfl
        | some iy =>
          have hr : r < E.nodes.length := (hw.at_ r (by rw [hl]; simp)).1
          exact absurd hrs.symm (isect_some (hE s1 hsw.in1).1 (hE r hr).1 hi).1
      rw [hnext]
      simp only
      unfold checkAfter
      rw [hnone]
      exact ⟨by omega, hc.2⟩

theorem swap_chain_ends {E : Env} (hE : WFX E) (hS : Simple E) (g : Nat) (y : IntrY) (hyg : y.Good) : ∀ (f s1 s2 : Nat) (L R : List Nat)
    (st : St), st.sweep = L ++ s1 :: s2 :: R → Work E y.val st → Swapping E y s1 s2 →
    (L ++ [s1]).IsChain (Ahead E y.val st.rest) → (s2 :: R).IsChain (Ahead E y.val st.rest) → inv E st.sweep ≤ f →
    (swapAndCheck E g y f s1 s2 st).Ends (Drop E st) := by
  intro f
  induction f with
  | zero =>
    intro s1 s2 L R st hl hw hsw _ _ hf
    rw [hl, inv_exchange E L _ hsw.slope] at hf
    omega
  | succ f ih =>
    intro s1 s2 L R st hl hw hsw hch hch2 hf
    have hinv : inv E st.sweep = inv E (L ++ s2 :: s1 :: R) + 1 := by rw [hl]; exact inv_exchange E L _ hsw.slope
    rw [swapAndCheck_eq hl hw.nodup]
    refine (swap_first_ends hE hS g y f s1 s2 L R st hl hw hsw ?_).bind ?_
    · rintro L0 p rfl h hd hx
      rw [List.append_assoc, List.cons_append, List.nil_append, List.isChain_append_cons_cons] at hch
      exact swap_left_ends hE hS g y hyg f p s2 s1 L0 R _ (by simp) (hw.exchange hl) h hd hx hch.1 (by simp only; omega)
    · intro st1 ho1 hc
      obtain ⟨k1, M, hM, hMc⟩ := swap_first hE hS g y hyg f s1 s2 L R st st1 hl hw hsw hch ho1
      have hs1 : s1 ∉ M := by
        intro hmem
        have := k1.1.nodup
        rw [hM] at this
        exact (List.nodup_append.mp this).2.2 s1 hmem s1 (by simp) rfl
      cases R with
      | nil =>
        rw [hM, nextOf_last hs1]
        exact ⟨by omega, hc.2⟩
      | cons n R =>
        rw [hM, nextOf_mid hs1]
        simp only
        rw [List.isChain_cons_cons] at hch2
        have hna : At E y.val n := hw.at_ n (by rw [hl]; simp)
        rcases checkAfter_ends (E := E) (g := g) (y := y) (again := swapAndCheck E g y f) (j := s1) (k := n) (st := st1) k1.1.pos
          with ⟨st', h1, h2, h3⟩ | h | ⟨h1, iy, h2, h3⟩
        · rw [h1]
          show _ ∧ _
          unfold cost at hc ⊢
          rw [h2]
          omega
        · rw [h]; trivial
        · rw [h1]
          have hs := isect_some (hE s1 hsw.in1).1 (hE n hna.1).1 h2
          rw [val_of_eq h3] at hs
          rcases hsw.right hE hS hna hs.2.1.symm with h | h
          · exact absurd h hs.1
          · refine (ih s1 n M R st1 hM k1.1 h hMc (chain_mono hch2.2 le_rfl k1.2.1) (by omega)).mono ?_
            rintro a ⟨d1, d2⟩
            exact ⟨by omega, by omega⟩

/-! ### Whole scans -/

/-- What an event still may cost. -/
def wt (E : Env) : REv → Nat
  | .swap _ _ _ => 1
  | .edge true _ _ _ => 3 * E.nodes.length + 3
  | .edge false _ _ _ => 2

/-- What a state still may cost between two events. -/
def debt (E : Env) (st : St) : Nat := 3 * inv E st.sweep + (st.todo.map (wt E)).sum

theorem rest_of_ext {E : Env} {st st1 : St} {e : REv} (hx : Ext E e st st1) (hpos : st.q.pos ≤ st.q.events.length) :
    ((st1.rest).map (wt E)).sum + st.rest.length = ((st.rest).map (wt E)).sum + st1.rest.length := by
  obtain ⟨⟨news, hev, hnw⟩, hp, _, _⟩ := hx
  have hr : st1.rest = st.rest ++ news := by
    unfold St.rest
    rw [hev, hp, List.drop_append_of_le_length hpos]
  have hn : (news.map (wt E)).sum = news.length := by
    have : news.map (wt E) = news.map fun _ => 1 := by
      apply List.map_congr_left
      intro x hx
      obtain ⟨_, _, _, _, rfl, _⟩ := hnw x hx
      rfl
    rw [this]; simp
  rw [hr, List.map_append, List.sum_append, hn, List.length_append]
  omega

theorem debt_step {E : Env} {st st1 : St} {e : REv} (hi : Inv E st) (hc : st.q.current = some e) (hx : Ext E e st st1) :
    debt E (step E st1) + wt E e + cost E st = debt E st + cost E st1 := by
  have h1 := rest_of_ext hx (todo_of_current hi.pos hc).2.1
  have h2 := ((step_todo hi hc hx).map (wt E)).sum_eq
  unfold debt cost
  rw [h2, rest_of_current hi hc, List.map_cons, List.sum_cons]
  show 3 * inv E st1.sweep + _ + _ + _ = _
  omega

theorem swap_step_ends {E : Env} (hE : WFEnv E) (hX : WFX E) (hS : Simple E) {st : St} (hi : Inv E st) {s1 s2 : Nat} {iy : IntrY}
    (hc : st.q.current = some (.swap s1 s2 iy)) {c : ℚ} (ho : Ord E c st) {f : Nat} (hf : debt E st ≤ f) :
    (swapAndCheck E st.gen iy f s1 s2 st).Ends fun st1 => cost E st1 ≤ cost E st := by
  have htd := rest_of_current hi hc
  have hm0 : REv.swap s1 s2 iy ∈ st.todo := by rw [htd]; simp
  have ho' := ho.raise hi hc (ho.turns _ _ _ hm0).2
  have hat := hi.at_ hE hc (ho.good _ hm0)
  obtain ⟨⟨l1, l2, hisect, hsl⟩, _⟩ := ho.turns _ _ _ hm0
  obtain ⟨m1, m2⟩ := hi.swap_mem hE hc
  have hturn : Turns E iy.val st.rest := fun a b i hm => ho'.turns a b i (by rw [htd]; simp [hm])
  have hw : Work E iy.val st := ⟨hi.sweep.1, hat, (todo_of_current hi.pos hc).2.1, hturn⟩
  have hd : 3 * inv E st.sweep + 1 ≤ debt E st := by
    unfold debt
    rw [htd, List.map_cons, List.sum_cons]
    show _ ≤ _ + (1 + _)
    omega
  by_cases hadj : nextOf st.sweep s1 = some s2
  · obtain ⟨L, R, hl⟩ := nextOf_split hadj
    have hch := ho'.chain
    have hnd := hi.sweep.1
    rw [hl] at hch hnd
    rw [List.isChain_append_cons_cons] at hch
    have hnd' := List.nodup_append.mp hnd
    refine (swap_chain_ends hX hS st.gen iy (ho.good _ hm0) f s1 s2 L R st hl hw
      ⟨l1, l2, ⟨iy, hisect, rfl, by unfold IntrY.eq; simp⟩, hsl⟩ ?_ ?_ (by omega)).mono fun a h => h.1.le
    · refine hi.drop_swap hc hch.1 ?_
      intro L' R' he
      have : s2 ∈ L ++ [s1] := by rw [he]; simp
      rcases List.mem_append.mp this with h | h
      · exact hnd'.2.2 s2 h s2 (by simp) rfl
      · rw [List.mem_singleton] at h
        subst h
        exact (List.nodup_cons.mp hnd'.2.1).1 (by simp)
    · refine hi.drop_swap hc hch.2.2 ?_
      intro L' R' he
      have : s1 ∈ s2 :: R := by rw [he]; simp
      exact (List.nodup_cons.mp hnd'.2.1).1 this
  · cases f with
    | zero => omega
    | succ f =>
      unfold swapAndCheck
      rw [if_pos ⟨m1, m2⟩, if_pos hadj]
      exact le_refl _

theorem swapPhase_ends {E : Env} (hE : WFEnv E) (hX : WFX E) (hS : Simple E) {y : Int} : ∀ (f : Nat) (st : St), Inv E st → OrdLe E y st →
    debt E st < f → (swapPhase E y f st).Ends fun st' => debt E st' ≤ debt E st := by
  intro f
  induction f with
  | zero => intro st _ _ h; omega
  | succ f ih =>
    intro st hi ho hf
    unfold swapPhase
    split
    · rename_i s1 s2 iy hc
      split
      · rename_i hle
        obtain ⟨⟨c, _, ho1⟩, ho2⟩ := ho
        refine (swap_step_ends hE hX hS hi hc ho1 (by omega)).bind ?_
        intro st1 h1 hcost
        obtain ⟨m1, m2⟩ := hi.swap_mem hE hc
        have hsat := swapAndCheck_sat E hE (.swap s1 s2 iy) st.gen iy rfl f s1 s2 st (fun _ => rfl) m1 m2 hi.sweep_lt
        rw [h1] at hsat
        obtain ⟨hx, hp⟩ := hsat
        obtain ⟨j1, _⟩ := step_inv hi hc hx (sweepOk_append_swap ⟨hp.nodup_iff.mpr hi.sweep.1, fun k => by
          rw [hp.mem_iff]; exact hi.sweep.2 k⟩)
        obtain ⟨k1, k2⟩ := ord_swap hE hX hS hi hc ho1 f h1
        have hgood : iy.Good := ho1.good (.swap s1 s2 iy) (by rw [rest_of_current hi hc]; simp)
        have hdb := debt_step hi hc hx
        have hwt : wt E (.swap s1 s2 iy) = 1 := rfl
        refine (ih _ j1 ⟨⟨_, ?_, k1⟩, ?_⟩ (by omega)).mono fun a h => by omega
        · by_contra hgt
          push Not at hgt
          have := (C42_height_strict iy iy hgood hgood y).2.2.2 hgt
          have hle' : (iy.cmpInt y != .gt) = true := hle
          rw [this] at hle'
          simp at hle'
        · show ∀ n, Fair E (st1.orc n)
          rw [k2]; exact ho2
      · exact le_refl _
    · exact le_refl _

theorem backward_cost {E : Env} {k : Nat} {y : Int} {st st1 : St} (hn : st.sweep.Nodup) (hpos : st.q.pos ≤ st.q.events.length)
    (hok : doBackward E k y st = .ok st1) : cost E st1 ≤ cost E st + 1 := by
  unfold doBackward at hok
  split at hok
  · rename_i hmem
    obtain ⟨L, R, hl, hL, hR⟩ := mem_split_nodup hmem hn
    have her : st.sweep.erase k = L ++ R := by rw [hl, List.erase_append_right _ hL, List.erase_cons_head]
    simp only [her] at hok
    have hin := (inv_insert E L R k).1
    rw [← hl] at hin
    have h0 : cost E { st with sweep := L ++ R } ≤ cost E st := by
      show 3 * inv E (L ++ R) + st.rest.length ≤ 3 * inv E st.sweep + st.rest.length
      omega
    split at hok
    · cases hok; omega
    · rename_i n _
      split at hok
      · cases hok; omega
      · rename_i p _
        cases hok
        obtain ⟨c1, c2, _⟩ := check_cost (E := E) (j := p) (k := n) (y := y) (st := { st with sweep := L ++ R }) hpos
        unfold cost at h0 ⊢
        rw [c1]
        omega
  · cases hok

theorem forward_cost {E : Env} {row : Int} {k : Nat} {y : Int} {st st1 : St} (hpos : st.q.pos ≤ st.q.events.length)
    (hn : st.sweep.length ≤ E.nodes.length) (hok : doForward E row k y st = .ok st1) :
    cost E st1 ≤ cost E st + 3 * E.nodes.length + 2 := by
  unfold doForward at hok
  split at hok
  · cases hok
  · simp only at hok
    generalize st.orc 0 row st.sweep k = i at hok
    have hsplit := List.take_append_drop i st.sweep
    generalize st.sweep.take i = L at *
    generalize st.sweep.drop i = R at *
    have hin := (inv_insert E L R k).2
    rw [hsplit] at hin
    have h0 : cost E { st with sweep := L ++ k :: R, orc := fun n => st.orc (n + 1) } ≤ cost E st + 3 * E.nodes.length := by
      show 3 * inv E (L ++ k :: R) + st.rest.length ≤ 3 * inv E st.sweep + st.rest.length + _
      omega
    have h1 : ∃ st2, (match prevOf (L ++ k :: R) k with
        | none => ({ st with sweep := L ++ k :: R, orc := fun n => st.orc (n + 1) } : St)
        | some p => check E p k y { st with sweep := L ++ k :: R, orc := fun n => st.orc (n + 1) }) = st2 ∧
        cost E st2 ≤ cost E st + 3 * E.nodes.length + 1 ∧ st2.q.pos ≤ st2.q.events.length := by
      split
      · exact ⟨_, rfl, by omega, hpos⟩
      · refine ⟨_, rfl, ?_⟩
        obtain ⟨c1, c2, c3⟩ := check_cost (E := E) (j := ‹Nat›) (k := k) (y := y)
          (st := { st with sweep := L ++ k :: R, orc := fun n => st.orc (n + 1) }) hpos
        refine ⟨?_, c3⟩
        unfold cost at h0 ⊢
        rw [c1]
        omega
    obtain ⟨st2, e1, e2, e3⟩ := h1
    have hok' : (match nextOf st2.sweep k with
        | none => Res.ok st2
        | some n => if st.gen ≠ st2.gen then Res.ub else Res.ok (check E k n y st2)) = .ok st1 := by
      rw [← e1]; exact hok
    split at hok'
    · cases hok'; omega
    · rename_i n _
      split at hok'
      · cases hok'
      · cases hok'
        obtain ⟨c1, c2, _⟩ := check_cost (E := E) (j := k) (k := n) (y := y) (st := st2) e3
        unfold cost at e2 ⊢
        rw [c1]
        omega

theorem doBackward_ends {E : Env} {k : Nat} {y : Int} {st : St} : (doBackward E k y st).Ends fun _ => True := by
  unfold doBackward
  split
  · simp only
    split
    · trivial
    · split <;> trivial
  · trivial

theorem doForward_ends {E : Env} {row : Int} {k : Nat} {y : Int} {st : St} : (doForward E row k y st).Ends fun _ => True := by
  have gen : ∀ st2 : St, (match nextOf st2.sweep k with
      | none => Res.ok st2
      | some n => if st.gen ≠ st2.gen then Res.ub else Res.ok (check E k n y st2)).Ends fun _ => True := by
    intro st2
    split
    · trivial
    · split <;> trivial
  unfold doForward
  split
  · trivial
  · exact gen _

theorem backwardPhase_ends {E : Env} (hE : WFEnv E) {y : Int} : ∀ (f : Nat) (st : St), Inv E st → debt E st < f →
    (backwardPhase E y f st).Ends fun st' => debt E st' ≤ debt E st := by
  intro f
  induction f with
  | zero => intro st _ h; omega
  | succ f ih =>
    intro st hi hf
    unfold backwardPhase
    split
    · rename_i a b k hc
      split
      · refine doBackward_ends.bind ?_
        intro st1 h1 _
        have hsat := doBackward_sat E hE st hi a b k hc
        rw [h1] at hsat
        obtain ⟨hx, hs⟩ := hsat
        obtain ⟨j1, _⟩ := step_inv hi hc hx hs
        have hdb := debt_step hi hc hx
        have hco := backward_cost hi.sweep.1 (todo_of_current hi.pos hc).2.1 h1
        have hwt : wt E (.edge false a b k) = 2 := rfl
        exact (ih _ j1 (by omega)).mono fun a h => by omega
      · exact le_refl _
    · exact le_refl _

theorem forwardPhase_ends {E : Env} (hE : WFEnv E) {y : Int} : ∀ (f : Nat) (st : St), Inv E st → debt E st < f →
    (forwardPhase E y f st).Ends fun st' => debt E st' ≤ debt E st := by
  intro f
  induction f with
  | zero => intro st _ h; omega
  | succ f ih =>
    intro st hi hf
    unfold forwardPhase
    split
    · rename_i a b k hc
      split
      · refine doForward_ends.bind ?_
        intro st1 h1 _
        have hsat := doForward_sat E hE y st hi a b k hc
        rw [h1] at hsat
        obtain ⟨hx, hs⟩ := hsat
        obtain ⟨j1, _⟩ := step_inv hi hc hx hs
        have hdb := debt_step hi hc hx
        have hlen : st.sweep.length ≤ E.nodes.length := by
          have := (List.subperm_of_subset (l₂ := List.range E.nodes.length) hi.sweep.1 fun k hk => List.mem_range.mpr (hi.sweep_lt k hk)).length_le
          simpa using this
        have hco := forward_cost (todo_of_current hi.pos hc).2.1 hlen h1
        have hwt : wt E (.edge true a b k) = 3 * E.nodes.length + 3 := rfl
        exact (ih _ j1 (by omega)).mono fun a h => by omega
      · exact le_refl _
    · exact le_refl _

theorem doRow_ends {E : Env} (hE : WFEnv E) (hX : WFX E) (hS : Simple E) {y : Int} {f : Nat} {st : St} (hi : Inv E st)
    (hd : DoneLe E y st) (ht : TodoGe E y st) (ho : OrdLe E y st) (hf : debt E st < f) :
    (doRow E y f st).Ends fun st' => debt E st' ≤ debt E st := by
  unfold doRow
  refine (swapPhase_ends hE hX hS f st hi ho hf).bind ?_
  intro st1 h1 d1
  have s1 := swapPhase_sat E hE y f st hi hd ht
  rw [h1] at s1
  obtain ⟨a1, a2, a3⟩ := s1
  refine (backwardPhase_ends hE f st1 a1 (by omega)).bind ?_
  intro st2 h2 d2
  have s2 := backwardPhase_sat E hE y f st1 a1 a2 a3
  rw [h2] at s2
  obtain ⟨b1, b2, b3, b4⟩ := s2
  exact (forwardPhase_ends hE f st2 b1 (by omega)).mono fun a h => by omega

theorem rows_ends {E : Env} (hE : WFEnv E) (hX : WFX E) (hS : Simple E) (h : Int) : ∀ (f : Nat) (y : Int) (st : St), Inv E st →
    DoneLe E (y - 1) st → TodoGe E y st → OrdLe E y st → debt E st + (h - y).toNat + 1 < f → (rows E h f y st).Ends fun _ => True := by
  intro f
  induction f with
  | zero => intro _ _ _ _ _ _ h; omega
  | succ f ih =>
    intro y st hi hd ht ho hf
    unfold rows
    split
    · rename_i hc
      have hdy : DoneLe E y st := fun g hg he => by have := hd g hg he; omega
      refine (doRow_ends hE hX hS hi hdy ht ho (by omega)).bind ?_
      intro st1 h1 d1
      have s1 := doRow_sat E hE y f st hi hdy ht
      rw [h1] at s1
      obtain ⟨a1, a2, a3⟩ := s1
      obtain ⟨o1, o2⟩ := doRow_ord hE hX hS hi hdy ht ho h1
      refine (ih (y + 1) st1 a1 (by rw [show y + 1 - 1 = y by omega]; exact a2) a3 (o1.mono (by push_cast; linarith)) (by omega)).bind ?_
      intro r _ _
      trivial
    · trivial

end PolyOps.Raster
