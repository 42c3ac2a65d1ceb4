import Verif.Lemmas.RasterGeo
import Mathlib.Data.List.Chain
/-! The order of the lines in the tree of the rasteriser: what `swap_and_check` does to it. -/
namespace PolyOps.Raster
open PolyOps.Events

/-- The lines have their upper end first and ends with the same index are the same point. -/
def WFX (E : Env) : Prop := ∀ i < E.nodes.length, Down (E.seg i) ∧ ∀ j < E.nodes.length, Fits (E.seg i) (E.seg j)

/-- Where two lines with different directions cross strictly between their ends, no line ends, and every further line there
has the direction of one of the two. -/
def Simple (E : Env) : Prop := ∀ i < E.nodes.length, ∀ j < E.nodes.length, ∀ k < E.nodes.length, ∀ v : ℚ,
  sl (E.seg i) ≠ sl (E.seg j) → lx (E.seg i) v = lx (E.seg j) v →
  ((E.seg i).pa.y : ℚ) < v → v < (E.seg i).pb.y → ((E.seg j).pa.y : ℚ) < v → v < (E.seg j).pb.y →
  ((E.seg k).pa.y : ℚ) ≤ v → v ≤ (E.seg k).pb.y → lx (E.seg k) v = lx (E.seg i) v →
  (((E.seg k).pa.y : ℚ) < v ∧ v < (E.seg k).pb.y) ∧ (sl (E.seg k) = sl (E.seg i) ∨ sl (E.seg k) = sl (E.seg j))

/-- Line `j` is to the right of line `k` from height `c` on while both last, or their swap is to come. -/
def Ahead (E : Env) (c : ℚ) (T : List REv) (j k : Nat) : Prop :=
  (∀ t, c ≤ t → t ≤ (E.seg j).pb.y → t ≤ (E.seg k).pb.y → lx (E.seg k) t ≤ lx (E.seg j) t) ∨ ∃ iy, REv.swap j k iy ∈ T

/-- A swap event is a crossing of two lines, the one to the right above first. -/
def Turn (E : Env) (j k : Nat) (iy : IntrY) : Prop :=
  j < E.nodes.length ∧ k < E.nodes.length ∧ isect (E.seg j) (E.seg k) = some iy ∧ sl (E.seg j) < sl (E.seg k)

/-- The line exists and lasts at height `c`. -/
def At (E : Env) (c : ℚ) (k : Nat) : Prop := k < E.nodes.length ∧ ((E.seg k).pa.y : ℚ) ≤ c ∧ c ≤ (E.seg k).pb.y

theorem Ahead.mono {E : Env} {c d : ℚ} {T U : List REv} {j k : Nat} (h : Ahead E c T j k) (hcd : c ≤ d) (hT : T ⊆ U) : Ahead E d U j k := by
  rcases h with h | ⟨iy, h⟩
  · exact Or.inl fun t h1 => h t (hcd.trans h1)
  · exact Or.inr ⟨iy, hT h⟩

/-- The events after the current one. -/
def St.rest (st : St) : List REv := st.q.events.drop st.q.pos

/-- All swaps to come are crossings at or below height `c`. -/
def Turns (E : Env) (c : ℚ) (T : List REv) : Prop := ∀ s1 s2 iy, REv.swap s1 s2 iy ∈ T → Turn E s1 s2 iy ∧ c ≤ iy.val

theorem Ahead.now {E : Env} (hE : WFX E) {c : ℚ} {T : List REv} (hT : Turns E c T) {j k : Nat} (h : Ahead E c T j k) (hj : At E c j)
    (hk : At E c k) : lx (E.seg k) c ≤ lx (E.seg j) c := by
  rcases h with h | ⟨iy, h⟩
  · exact h c le_rfl hj.2.2 hk.2.2
  · obtain ⟨⟨_, _, hi, hs⟩, hc⟩ := hT _ _ _ h
    exact before_cross (isect_some (hE j hj.1).1 (hE k hk.1).1 hi).2.1 hs hc

/-! ### Neighbours -/

theorem nextOf_mid {L R : List Nat} {a b : Nat} (h : a ∉ L) : nextOf (L ++ a :: b :: R) a = some b := by
  unfold nextOf
  rw [List.dropWhile_append_of_pos]
  · simp
  · intro x hx
    simp only [decide_not, Bool.not_eq_true', decide_eq_false_iff_not]
    rintro rfl
    exact h hx

theorem nextOf_last {L : List Nat} {a : Nat} (h : a ∉ L) : nextOf (L ++ [a]) a = none := by
  unfold nextOf
  rw [List.dropWhile_append_of_pos]
  · simp
  · intro x hx
    simp only [decide_not, Bool.not_eq_true', decide_eq_false_iff_not]
    rintro rfl
    exact h hx

theorem takeWhile_mid {L R : List Nat} {a : Nat} (h : a ∉ L) : (L ++ a :: R).takeWhile (· ≠ a) = L := by
  rw [List.takeWhile_append_of_pos]
  · simp
  · intro x hx
    simp only [decide_not, Bool.not_eq_true', decide_eq_false_iff_not]
    rintro rfl
    exact h hx

theorem dropWhile_mid {L R : List Nat} {a : Nat} (h : a ∉ L) : (L ++ a :: R).dropWhile (· ≠ a) = a :: R := by
  rw [List.dropWhile_append_of_pos]
  · simp
  · intro x hx
    simp only [decide_not, Bool.not_eq_true', decide_eq_false_iff_not]
    rintro rfl
    exact h hx

theorem prevOf_mid {L R : List Nat} {a : Nat} (h : a ∉ L) : prevOf (L ++ a :: R) a = L.getLast? := by
  unfold prevOf
  rw [takeWhile_mid h]

theorem nextOf_split {l : List Nat} {a b : Nat} (h : nextOf l a = some b) : ∃ L R, l = L ++ a :: b :: R := by
  unfold nextOf at h
  have hs := List.takeWhile_append_dropWhile (p := fun x : Nat => decide (x ≠ a)) (l := l)
  cases hd : l.dropWhile (fun x => decide (x ≠ a)) with
  | nil => rw [hd] at h; simp at h
  | cons x R =>
    have hx : x = a := by
      have := List.head?_dropWhile_not (fun x : Nat => decide (x ≠ a)) l
      rw [hd] at this
      simpa using this
    subst hx
    rw [hd] at h hs
    cases R with
    | nil => simp at h
    | cons y R =>
      simp only [List.getElem?_cons_succ, List.getElem?_cons_zero, Option.some.injEq] at h
      subst h
      exact ⟨_, _, hs.symm⟩

/-- The list after the exchange of two neighbours. -/
theorem exchange {L R : List Nat} {a b : Nat} (h : (L ++ a :: b :: R).Nodup) :
    insertBefore ((L ++ a :: b :: R).erase b) a b = L ++ b :: a :: R := by
  have hn := List.nodup_append.mp h
  have ha : a ∉ L := fun hm => hn.2.2 a hm a (by simp) rfl
  have hb : b ∉ L := fun hm => hn.2.2 b hm b (by simp) rfl
  have hab : a ≠ b := by
    have := List.nodup_cons.mp hn.2.1
    intro e; exact this.1 (by simp [e])
  rw [List.erase_append_right _ hb, List.erase_cons_tail (by simpa using hab), List.erase_cons_head]
  unfold insertBefore
  rw [takeWhile_mid ha, dropWhile_mid ha]

theorem exchange_perm (L R : List Nat) (a b : Nat) : (L ++ b :: a :: R).Perm (L ++ a :: b :: R) :=
  List.Perm.append_left _ (List.Perm.swap _ _ _)

/-! ### Checks after a swap -/

/-- Both lines last at `c`, the first not to the left; if they meet there, the first swap at `c` tells how. -/
theorem checkAfter_cases {E : Env} (hE : WFX E) {c : ℚ} {j k : Nat} (hj : At E c j) (hk : At E c k)
    (hle : lx (E.seg k) c ≤ lx (E.seg j) c) (g : Nat) (y : IntrY) (hyg : y.Good) (hyc : y.val = c)
    (hmeet : lx (E.seg k) c = lx (E.seg j) c → (sl (E.seg j) = sl (E.seg k)) ∨
      (∃ iy, isect (E.seg j) (E.seg k) = some iy ∧ iy.key = y.key ∧ iy.eq y = true))
    (again : Nat → Nat → St → Res St) (st st' : St) (hok : checkAfter E g y again j k st = .ok st') (hpos : st.q.pos ≤ st.q.events.length) :
    (st'.sweep = st.sweep ∧ st'.orc = st.orc ∧ st'.q.pos ≤ st'.q.events.length ∧ st.rest ⊆ st'.rest ∧ Ahead E c st'.rest j k ∧
      (Turns E c st.rest → Turns E c st'.rest)) ∨
    (again j k st = .ok st' ∧ lx (E.seg k) c = lx (E.seg j) c ∧ sl (E.seg j) ≠ sl (E.seg k) ∧
      ∃ iy, isect (E.seg j) (E.seg k) = some iy ∧ iy.val = c) := by
  obtain ⟨dj, fj⟩ := hE j hj.1
  obtain ⟨dk, fk⟩ := hE k hk.1
  unfold checkAfter at hok
  cases hi : isect (E.seg j) (E.seg k) with
  | none =>
    rw [hi] at hok
    cases hok
    refine Or.inl ⟨rfl, rfl, hpos, fun _ h => h, Or.inl ?_, id⟩
    intro t ht e e'
    rcases hle.lt_or_eq with hlt | heq
    · exact stays_none dj dk (fj k hk.1) hi hj.2.1 hk.2.1 hlt ht e e'
    · rcases hmeet heq with h | ⟨iy, h, _⟩
      · have := lx_diff (E.seg j) (E.seg k) c t
        rw [heq, h, sub_self, sub_self, mul_zero, zero_add] at this
        linarith
      · rw [hi] at h; cases h
  | some iy =>
    rw [hi] at hok
    simp only at hok
    obtain ⟨hne, hx, hin1, hin2⟩ := isect_some dj dk hi
    split at hok
    · cases hok
    · rcases hle.lt_or_eq with hlt | heq
      · have hvc : iy.val ≠ c := by
          intro e; rw [e] at hx; linarith
        have hneq : iy.eq y = false := by
          rw [Bool.eq_false_iff]
          intro e
          exact hvc ((val_of_eq e).trans hyc)
        have hgood := C42_good _ _ _ hi
        obtain ⟨st1, st2, _, _⟩ := C42_height_strict iy y hgood hyg 0
        rw [hyc] at st1 st2
        rcases lt_or_gt_of_ne hvc with hv | hv
        · rw [st1 hv] at hok
          simp only [bne_self_eq_false, Bool.false_eq_true, if_false] at hok
          cases hok
          refine Or.inl ⟨rfl, rfl, hpos, fun _ h => h, Or.inl ?_, id⟩
          intro t ht _ _
          exact after_cross hx.symm (slope_of_earlier hlt hx hv) (hv.le.trans ht)
        · rw [st2 hv, hneq] at hok
          simp only [Bool.false_eq_true, if_false, show ((Ordering.gt != Ordering.lt) = true) from rfl, if_true] at hok
          cases hok
          have hr : (addSwap E j k iy st).rest = st.rest ++ [.swap j k iy] := by
            unfold St.rest addSwap
            simp only
            rw [List.drop_append_of_le_length hpos]
          refine Or.inl ⟨rfl, rfl, ?_, ?_, Or.inr ⟨iy, ?_⟩, ?_⟩
          · show st.q.pos ≤ (st.q.events ++ _).length
            rw [List.length_append]; omega
          · rw [hr]; exact List.subset_append_left _ _
          · rw [hr]; simp
          · intro hT a b i hm
            rw [hr] at hm
            rcases List.mem_append.mp hm with hm | hm
            · exact hT a b i hm
            · rw [List.mem_singleton] at hm
              cases hm
              exact ⟨⟨hj.1, hk.1, hi, slope_of_later hlt hx hv⟩, hv.le⟩
      · rcases hmeet heq with h | ⟨iy', h, hkey, heq'⟩
        · exact absurd h hne
        · rw [hi] at h
          cases h
          have hcmp : (iy.cmp y != .lt) = true := by
            rw [cmp_lex]
            have : (toLex (iy.whole, iy.frac.val) : ℤ ×ₗ ℚ) = toLex (y.whole, y.frac.val) := hkey
            rw [this]
            simp
          rw [hcmp, heq'] at hok
          simp only [if_true] at hok
          exact Or.inr ⟨hok, heq, hne, iy, rfl, (val_of_eq heq').trans hyc⟩

/-- What is known of the two lines that are swapped. -/
structure Swapping (E : Env) (y : IntrY) (s1 s2 : Nat) : Prop where
  in1 : s1 < E.nodes.length
  in2 : s2 < E.nodes.length
  isect : ∃ iy, isect (E.seg s1) (E.seg s2) = some iy ∧ iy.key = y.key ∧ iy.eq y = true
  slope : sl (E.seg s1) < sl (E.seg s2)

theorem Swapping.meet {E : Env} (hE : WFX E) {y : IntrY} {s1 s2 : Nat} (h : Swapping E y s1 s2) :
    lx (E.seg s1) y.val = lx (E.seg s2) y.val ∧ (((E.seg s1).pa.y : ℚ) < y.val ∧ y.val < (E.seg s1).pb.y) ∧
      (((E.seg s2).pa.y : ℚ) < y.val ∧ y.val < (E.seg s2).pb.y) := by
  obtain ⟨iy, hi, _, he⟩ := h.isect
  have := isect_some (hE s1 h.in1).1 (hE s2 h.in2).1 hi
  rw [val_of_eq he] at this
  exact ⟨this.2.1, this.2.2.1, this.2.2.2⟩

/-- A third line through the place of a swap that is not parallel to `s2` crosses it in the same way as `s1`. -/
theorem Swapping.other {E : Env} (hE : WFX E) (hS : Simple E) {y : IntrY} {s1 s2 p q : Nat} (h : Swapping E y s1 s2)
    (hp : At E y.val p) (hq : At E y.val q) (hpx : lx (E.seg p) y.val = lx (E.seg s1) y.val) (hqx : lx (E.seg q) y.val = lx (E.seg s1) y.val)
    (hs : (sl (E.seg p) = sl (E.seg s1) ∧ sl (E.seg q) = sl (E.seg s2))) :
    Swapping E y p q := by
  obtain ⟨hm, i1, i2⟩ := h.meet hE
  have hlt : sl (E.seg p) < sl (E.seg q) := by rw [hs.1, hs.2]; exact h.slope
  obtain ⟨ip, _⟩ := hS s1 h.in1 s2 h.in2 p hp.1 _ h.slope.ne hm i1.1 i1.2 i2.1 i2.2 hp.2.1 hp.2.2 hpx
  obtain ⟨iq, _⟩ := hS s1 h.in1 s2 h.in2 q hq.1 _ h.slope.ne hm i1.1 i1.2 i2.1 i2.2 hq.2.1 hq.2.2 hqx
  obtain ⟨iy, hi, hv⟩ := isect_exists (hE p hp.1).1 (hE q hq.1).1 ((hE p hp.1).2 q hq.1) hlt.ne (by rw [hpx, hqx]) ip.1 ip.2 iq.1 iq.2
  obtain ⟨iy0, hi0, hk0, he0⟩ := h.isect
  have hv0 := val_of_eq he0
  obtain ⟨k1, k2⟩ := height_same (hE p hp.1).1 (hE q hq.1).1 (hE s1 h.in1).1 (hE s2 h.in2).1 hi hi0 (hv.trans hv0.symm) hlt h.slope
  refine ⟨hp.1, hq.1, ⟨iy, hi, k1.trans hk0, ?_⟩, hlt⟩
  unfold IntrY.eq at k2 he0 ⊢
  rw [decide_eq_true_eq] at k2 he0 ⊢
  refine ⟨k2.1.trans he0.1, ?_⟩
  have hf : iy.frac.val = y.frac.val := by
    have a1 : iy.key = y.key := k1.trans hk0
    unfold IntrY.key at a1
    exact (Prod.ext_iff.mp (toLex.injective a1)).2
  unfold Frac.val at hf
  rw [div_eq_div_iff iy.frac.den_pos.ne' y.frac.den_pos.ne'] at hf
  exact_mod_cast hf

/-- What the check of the line before the swapped ones needs. -/
theorem Swapping.left {E : Env} (hE : WFX E) (hS : Simple E) {y : IntrY} {s1 s2 p : Nat} (h : Swapping E y s1 s2) (hp : At E y.val p)
    (hx : lx (E.seg s2) y.val = lx (E.seg p) y.val) :
    sl (E.seg p) = sl (E.seg s2) ∨ Swapping E y p s2 ∧ sl (E.seg s1) = sl (E.seg p) := by
  obtain ⟨hm, i1, i2⟩ := h.meet hE
  obtain ⟨ip, hd⟩ := hS s1 h.in1 s2 h.in2 p hp.1 _ h.slope.ne hm i1.1 i1.2 i2.1 i2.2 hp.2.1 hp.2.2 (by rw [← hx, hm])
  rcases hd with hd | hd
  · exact Or.inr ⟨h.other hE hS hp ⟨h.in2, i2.1.le, i2.2.le⟩ (by rw [← hx, hm]) hm.symm ⟨hd, rfl⟩, hd.symm⟩
  · exact Or.inl hd

/-- What the check of the line after the swapped ones needs. -/
theorem Swapping.right {E : Env} (hE : WFX E) (hS : Simple E) {y : IntrY} {s1 s2 n : Nat} (h : Swapping E y s1 s2) (hn : At E y.val n)
    (hx : lx (E.seg n) y.val = lx (E.seg s1) y.val) :
    sl (E.seg s1) = sl (E.seg n) ∨ Swapping E y s1 n := by
  obtain ⟨hm, i1, i2⟩ := h.meet hE
  obtain ⟨ip, hd⟩ := hS s1 h.in1 s2 h.in2 n hn.1 _ h.slope.ne hm i1.1 i1.2 i2.1 i2.2 hn.2.1 hn.2.2 hx
  rcases hd with hd | hd
  · exact Or.inl hd.symm
  · exact Or.inr (h.other hE hS ⟨h.in1, i1.1.le, i1.2.le⟩ hn rfl hx ⟨rfl, hd⟩)

/-! ### `swap_and_check` -/

/-- What holds of a state while a swap at height `c` is done. -/
structure Work (E : Env) (c : ℚ) (st : St) : Prop where
  nodup : st.sweep.Nodup
  at_ : ∀ k ∈ st.sweep, At E c k
  pos : st.q.pos ≤ st.q.events.length
  turns : Turns E c st.rest

/-- What is kept from one state to the next. -/
def Keep (E : Env) (c : ℚ) (st st' : St) : Prop := Work E c st' ∧ st.rest ⊆ st'.rest ∧ st'.orc = st.orc

theorem Keep.trans {E : Env} {c : ℚ} {a b d : St} (h : Keep E c a b) (h' : Keep E c b d) : Keep E c a d :=
  ⟨h'.1, fun _ hx => h'.2.1 (h.2.1 hx), h'.2.2.trans h.2.2⟩

theorem Work.exchange {E : Env} {c : ℚ} {st : St} (h : Work E c st) {L R : List Nat} {a b : Nat} (hl : st.sweep = L ++ a :: b :: R) :
    Work E c { st with sweep := L ++ b :: a :: R } := by
  refine ⟨(exchange_perm L R a b).nodup_iff.mpr (hl ▸ h.nodup), ?_, h.pos, h.turns⟩
  intro k hk
  exact h.at_ k (hl ▸ (exchange_perm L R a b).mem_iff.mp hk)

theorem chain_mono {E : Env} {c d : ℚ} {T U : List REv} {l : List Nat} (h : l.IsChain (Ahead E c T)) (hc : c ≤ d) (hT : T ⊆ U) :
    l.IsChain (Ahead E d U) := h.imp fun _ _ h => h.mono hc hT

theorem bind_ok' {α β : Type} {r : Res α} {k : α → Res β} {b : β} (h : r.bind k = .ok b) : ∃ a, r = .ok a ∧ k a = .ok b := by
  cases r with
  | ok a => exact ⟨a, rfl, h⟩
  | ub => cases h
  | fuel => cases h

/-- The first part of `swap_and_check`: two neighbours are exchanged. -/
theorem swapAndCheck_unfold {E : Env} {g : Nat} {y : IntrY} {f s1 s2 : Nat} {st st' : St} {L R : List Nat}
    (hl : st.sweep = L ++ s1 :: s2 :: R) (hn : st.sweep.Nodup) (hok : swapAndCheck E g y (f + 1) s1 s2 st = .ok st') :
    ∃ st1, (match L.getLast? with
        | none => Res.ok { st with sweep := L ++ s2 :: s1 :: R }
        | some p => checkAfter E g y (swapAndCheck E g y f) p s2 { st with sweep := L ++ s2 :: s1 :: R }) = .ok st1 ∧
      (match nextOf st1.sweep s1 with
        | none => Res.ok st1
        | some n => checkAfter E g y (swapAndCheck E g y f) s1 n st1) = .ok st' := by
  have hn' := hn
  rw [hl] at hn'
  have hn2 := List.nodup_append.mp hn'
  have h1 : s1 ∉ L := fun hm => hn2.2.2 s1 hm s1 (by simp) rfl
  have h2 : s2 ∉ L := fun hm => hn2.2.2 s2 hm s2 (by simp) rfl
  unfold swapAndCheck at hok
  rw [if_pos (by rw [hl]; simp), if_neg (by rw [hl, nextOf_mid h1]; simp), hl, Raster.exchange hn'] at hok
  simp only [prevOf_mid h2] at hok
  exact bind_ok' hok

/-- Bubbling a line up through the lines that have the direction of `s1`; what follows is not touched. -/
theorem swap_left {E : Env} (hE : WFX E) (hS : Simple E) (g : Nat) (y : IntrY) (hyg : y.Good) : ∀ (f s1 s2 r : Nat) (L R : List Nat)
    (st st' : St), st.sweep = L ++ s1 :: s2 :: r :: R → Work E y.val st → Swapping E y s1 s2 → sl (E.seg r) = sl (E.seg s1) →
    lx (E.seg r) y.val = lx (E.seg s1) y.val → (L ++ [s1]).IsChain (Ahead E y.val st.rest) →
    swapAndCheck E g y f s1 s2 st = .ok st' →
    Keep E y.val st st' ∧ ∃ M, st'.sweep = M ++ r :: R ∧ (M ++ [r]).IsChain (Ahead E y.val st'.rest) := by
  intro f
  induction f with
  | zero => intro _ _ _ _ _ _ _ _ _ _ _ _ _ h; cases h
  | succ f ih =>
    intro s1 s2 r L R st st' hl hw hsw hrs hrx hch hok
    obtain ⟨hm, i1, i2⟩ := hsw.meet hE
    obtain ⟨st1, ho1, ho2⟩ := swapAndCheck_unfold hl hw.nodup hok
    have hw0 := hw.exchange hl
    have key : Keep E y.val st st1 ∧ ∃ M, st1.sweep = M ++ s1 :: r :: R ∧ (M ++ [s1]).IsChain (Ahead E y.val st1.rest) := by
      have h21 : ∀ T, Ahead E y.val T s2 s1 := fun T => Or.inl fun t ht _ _ => after_cross hm hsw.slope ht
      rcases List.eq_nil_or_concat L with rfl | ⟨L0, p, rfl⟩
      · simp only [List.getLast?_nil] at ho1
        cases ho1
        refine ⟨⟨hw0, fun _ h => h, rfl⟩, [s2], rfl, ?_⟩
        simp only [List.cons_append, List.nil_append, List.isChain_cons_cons, List.isChain_singleton, and_true]
        exact h21 _
      · rw [List.concat_eq_append] at *
        simp only [List.getLast?_append, List.getLast?_singleton, Option.some_or] at ho1
        rw [List.append_assoc, List.cons_append, List.nil_append, List.isChain_append_cons_cons] at hch
        have hpm : p ∈ st.sweep := by rw [hl]; simp
        have hpa := hw.at_ p hpm
        have h1a : At E y.val s1 := hw.at_ s1 (by rw [hl]; simp)
        have h2a : At E y.val s2 := hw.at_ s2 (by rw [hl]; simp)
        have hpx := hch.2.1.now hE hw.turns hpa h1a
        rcases checkAfter_cases hE hpa h2a (by rw [← hm]; exact hpx) g y hyg rfl (fun hx => by
            rcases hsw.left hE hS hpa hx with h | ⟨h, _⟩
            · exact Or.inl h
            · exact Or.inr h.isect) _ _ _ ho1 hw0.pos with ⟨c1, c2, c3, c4, c5, c6⟩ | ⟨c1, c2, c3, iy, c4, c5⟩
        · refine ⟨⟨⟨by rw [c1]; exact hw0.nodup, by rw [c1]; exact hw0.at_, c3, c6 hw0.turns⟩, c4, c2⟩, L0 ++ [p, s2], by rw [c1]; simp, ?_⟩
          rw [List.append_assoc, List.cons_append, List.cons_append, List.nil_append, List.isChain_append_cons_cons]
          refine ⟨chain_mono hch.1 le_rfl c4, c5, ?_⟩
          simp only [List.isChain_cons_cons, List.isChain_singleton, and_true]
          exact h21 _
        · rcases hsw.left hE hS hpa c2 with h | ⟨h, hd⟩
          · exact absurd h c3
          · have := ih p s2 s1 L0 (r :: R) _ st1 (by simp) hw0 h hd (by rw [hm, c2]) hch.1 c1
            exact this
    obtain ⟨k1, M, hM, hMc⟩ := key
    have hnext : nextOf st1.sweep s1 = some r := by
      rw [hM]
      apply nextOf_mid
      intro hmem
      have := k1.1.nodup
      rw [hM] at this
      exact (List.nodup_append.mp this).2.2 s1 hmem s1 (by simp) rfl
    rw [hnext] at ho2
    simp only at ho2
    have hnone : isect (E.seg s1) (E.seg r) = none := by
      cases hi : isect (E.seg s1) (E.seg r) with
      | none => rfl
      | some iy =>
        have hr : r < E.nodes.length := (hw.at_ r (by rw [hl]; simp)).1
        exact absurd hrs.symm (isect_some (hE s1 hsw.in1).1 (hE r hr).1 hi).1
    unfold checkAfter at ho2
    rw [hnone] at ho2
    cases ho2
    refine ⟨k1, M ++ [s1], by rw [hM]; simp, ?_⟩
    rw [List.append_assoc, List.cons_append, List.nil_append, List.isChain_append_cons_cons]
    refine ⟨hMc, Or.inl ?_, by simp⟩
    intro t _ _ _
    have := lx_diff (E.seg r) (E.seg s1) y.val t
    rw [hrs, hrx, sub_self, sub_self, mul_zero, zero_add] at this
    linarith

/-- The exchange and the check of the line before. -/
theorem swap_first {E : Env} (hE : WFX E) (hS : Simple E) (g : Nat) (y : IntrY) (hyg : y.Good) (f s1 s2 : Nat) (L R : List Nat)
    (st st1 : St) (hl : st.sweep = L ++ s1 :: s2 :: R) (hw : Work E y.val st) (hsw : Swapping E y s1 s2)
    (hch : (L ++ [s1]).IsChain (Ahead E y.val st.rest))
    (ho1 : (match L.getLast? with
        | none => Res.ok { st with sweep := L ++ s2 :: s1 :: R }
        | some p => checkAfter E g y (swapAndCheck E g y f) p s2 { st with sweep := L ++ s2 :: s1 :: R }) = .ok st1) :
    Keep E y.val st st1 ∧ ∃ M, st1.sweep = M ++ s1 :: R ∧ (M ++ [s1]).IsChain (Ahead E y.val st1.rest) := by
  obtain ⟨hm, i1, i2⟩ := hsw.meet hE
  have hw0 := hw.exchange hl
  have h21 : ∀ T, Ahead E y.val T s2 s1 := fun T => Or.inl fun t ht _ _ => after_cross hm hsw.slope ht
  rcases List.eq_nil_or_concat L with rfl | ⟨L0, p, rfl⟩
  · simp only [List.getLast?_nil] at ho1
    cases ho1
    refine ⟨⟨hw0, fun _ h => h, rfl⟩, [s2], rfl, ?_⟩
    simp only [List.cons_append, List.nil_append, List.isChain_cons_cons, List.isChain_singleton, and_true]
    exact h21 _
  · rw [List.concat_eq_append] at *
    simp only [List.getLast?_append, List.getLast?_singleton, Option.some_or] at ho1
    rw [List.append_assoc, List.cons_append, List.nil_append, List.isChain_append_cons_cons] at hch
    have hpm : p ∈ st.sweep := by rw [hl]; simp
    have hpa := hw.at_ p hpm
    have h1a : At E y.val s1 := hw.at_ s1 (by rw [hl]; simp)
    have h2a : At E y.val s2 := hw.at_ s2 (by rw [hl]; simp)
    have hpx := hch.2.1.now hE hw.turns hpa h1a
    rcases checkAfter_cases hE hpa h2a (by rw [← hm]; exact hpx) g y hyg rfl (fun hx => by
        rcases hsw.left hE hS hpa hx with h | ⟨h, _⟩
        · exact Or.inl h
        · exact Or.inr h.isect) _ _ _ ho1 hw0.pos with ⟨c1, c2, c3, c4, c5, c6⟩ | ⟨c1, c2, c3, iy, c4, c5⟩
    · refine ⟨⟨⟨by rw [c1]; exact hw0.nodup, by rw [c1]; exact hw0.at_, c3, c6 hw0.turns⟩, c4, c2⟩, L0 ++ [p, s2], by rw [c1]; simp, ?_⟩
      rw [List.append_assoc, List.cons_append, List.cons_append, List.nil_append, List.isChain_append_cons_cons]
      refine ⟨chain_mono hch.1 le_rfl c4, c5, ?_⟩
      simp only [List.isChain_cons_cons, List.isChain_singleton, and_true]
      exact h21 _
    · rcases hsw.left hE hS hpa c2 with h | ⟨h, hd⟩
      · exact absurd h c3
      · have := swap_left hE hS g y hyg f p s2 s1 L0 R _ st1 (by simp) hw0 h hd (by rw [hm, c2]) hch.1 c1
        exact this

/-- `swap_and_check` on two neighbours that cross restores the order. -/
theorem swap_chain {E : Env} (hE : WFX E) (hS : Simple E) (g : Nat) (y : IntrY) (hyg : y.Good) : ∀ (f s1 s2 : Nat) (L R : List Nat)
    (st st' : St), st.sweep = L ++ s1 :: s2 :: R → Work E y.val st → Swapping E y s1 s2 →
    (L ++ [s1]).IsChain (Ahead E y.val st.rest) → (s2 :: R).IsChain (Ahead E y.val st.rest) →
    swapAndCheck E g y f s1 s2 st = .ok st' →
    Keep E y.val st st' ∧ st'.sweep.IsChain (Ahead E y.val st'.rest) := by
  intro f
  induction f with
  | zero => intro _ _ _ _ _ _ _ _ _ _ _ h; cases h
  | succ f ih =>
    intro s1 s2 L R st st' hl hw hsw hch hch2 hok
    obtain ⟨hm, i1, i2⟩ := hsw.meet hE
    obtain ⟨st1, ho1, ho2⟩ := swapAndCheck_unfold hl hw.nodup hok
    have hw0 := hw.exchange hl
    obtain ⟨k1, M, hM, hMc⟩ := swap_first hE hS g y hyg f s1 s2 L R st st1 hl hw hsw hch ho1
    have hs1 : s1 ∉ M := by
      intro hmem
      have := k1.1.nodup
      rw [hM] at this
      exact (List.nodup_append.mp this).2.2 s1 hmem s1 (by simp) rfl
    cases R with
    | nil =>
      rw [hM, nextOf_last hs1] at ho2
      cases ho2
      exact ⟨k1, by rw [hM]; exact hMc⟩
    | cons n R =>
      rw [hM, nextOf_mid hs1] at ho2
      simp only at ho2
      rw [List.isChain_cons_cons] at hch2
      have h1a : At E y.val s1 := hw.at_ s1 (by rw [hl]; simp)
      have h2a : At E y.val s2 := hw.at_ s2 (by rw [hl]; simp)
      have hna : At E y.val n := hw.at_ n (by rw [hl]; simp)
      have hnx := hch2.1.now hE hw.turns h2a hna
      rcases checkAfter_cases hE h1a hna (by rw [hm]; exact hnx) g y hyg rfl (fun hx => by
            rcases hsw.right hE hS hna hx with h | h
            · exact Or.inl h
            · exact Or.inr h.isect) _ _ _ ho2 k1.1.pos with ⟨c1, c2, c3, c4, c5, c6⟩ | ⟨c1, c2, c3, iy, c4, c5⟩
      · refine ⟨k1.trans ⟨⟨by rw [c1]; exact k1.1.nodup, by rw [c1]; exact k1.1.at_, c3, c6 k1.1.turns⟩, c4, c2⟩, ?_⟩
        rw [c1, hM, List.isChain_append_cons_cons]
        exact ⟨chain_mono hMc le_rfl c4, c5, chain_mono hch2.2 le_rfl (fun _ hx => c4 (k1.2.1 hx))⟩
      · rcases hsw.right hE hS hna c2 with h | h
        · exact absurd h c3
        · obtain ⟨j1, j2⟩ := ih s1 n M R st1 st' hM k1.1 h hMc (chain_mono hch2.2 le_rfl k1.2.1) c1
          exact ⟨k1.trans j1, j2⟩

end PolyOps.Raster
