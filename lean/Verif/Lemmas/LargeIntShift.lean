import Verif.Model.LargeIntShift
import Verif.Props.LargeIntMul

/-! Helper lemmas for the shift loops. -/
namespace PolyOps.LargeInt

theorem B_two_pow {k : Nat} (h : k ≤ 64) : B = 2 ^ k * 2 ^ (64 - k) := by
  rw [← pow_add, show k + (64 - k) = 64 by omega]; decide

theorem extShiftRight_eq {a f k : Nat} (ha : a < B) (hk : k < 64) :
    extShiftRight a f k = ((a + B * f) / 2 ^ k) % B := by
  unfold extShiftRight
  split
  · rename_i h; subst h
    simp [Nat.add_mul_mod_self_left, Nat.mod_eq_of_lt ha]
  · have hB := B_two_pow hk.le
    have hp : 0 < 2 ^ k := by positivity
    have hc : a / 2 ^ k < 2 ^ (64 - k) := Nat.div_lt_of_lt_mul (by rw [← hB]; exact ha)
    rw [Nat.shiftRight_eq_div_pow, Nat.shiftLeft_eq]
    have e1 : f * 2 ^ (64 - k) % B = 2 ^ (64 - k) * (f % 2 ^ k) := by
      rw [hB, Nat.mul_comm f, Nat.mul_comm (2^k), Nat.mul_mod_mul_left]
    rw [e1, Nat.or_comm, ← Nat.two_pow_add_eq_or_of_lt hc]
    have e2 : (a + B * f) / 2 ^ k = a / 2 ^ k + 2 ^ (64-k) * f := by
      rw [hB, Nat.mul_assoc, Nat.add_mul_div_left _ _ hp]
    rw [e2]
    have e3 : f = f % 2^k + 2^k * (f / 2^k) := (Nat.mod_add_div f (2^k)).symm
    have e4 : a / 2 ^ k + 2 ^ (64-k) * f = (2 ^ (64-k) * (f % 2^k) + a / 2^k) + B * (f / 2^k) := by
      conv_lhs => rw [e3]
      rw [hB]; ring
    have h5 : f % 2^k + 1 ≤ 2^k := Nat.mod_lt _ hp
    have h6 : 2 ^ (64-k) * (f % 2^k) + a / 2^k < B := by
      calc 2 ^ (64-k) * (f % 2^k) + a / 2^k < 2 ^ (64-k) * (f % 2^k) + 2 ^ (64-k) := by omega
        _ = 2 ^ (64-k) * (f % 2^k + 1) := by ring
        _ ≤ 2 ^ (64-k) * 2^k := Nat.mul_le_mul_left _ h5
        _ = B := by rw [hB]; ring
    rw [e4, Nat.add_mul_mod_self_left, Nat.mod_eq_of_lt h6]

theorem extShiftLeft_eq {a f k : Nat} (hf : f < B) (hk : k < 64) :
    extShiftLeft a f k = (a * 2 ^ k) % B + f * 2 ^ k / B ∨ (k = 0 ∧ extShiftLeft a f k = a) := by
  unfold extShiftLeft
  split
  · rename_i h; exact Or.inr ⟨h, rfl⟩
  · left
    have hB := B_two_pow hk.le
    have hp : 0 < 2 ^ k := by positivity
    rw [Nat.shiftRight_eq_div_pow, Nat.shiftLeft_eq]
    have e1 : a * 2 ^ k % B = 2 ^ k * (a % 2 ^ (64-k)) := by
      rw [hB, Nat.mul_comm a, Nat.mul_mod_mul_left]
    have e2 : f * 2 ^ k / B = f / 2 ^ (64-k) := by
      rw [hB, Nat.mul_comm f, Nat.mul_div_mul_left _ _ hp]
    have hc : f / 2 ^ (64-k) < 2 ^ k := Nat.div_lt_of_lt_mul (by rw [Nat.mul_comm, ← hB]; exact hf)
    rw [e1, e2, ← Nat.two_pow_add_eq_or_of_lt hc]

theorem shiftWord_eq {s : Bool} {a k : Nat} (ha : a < B) (hk : k < 64) :
    shiftWord s a k = ((a + B * extendedWord s a) / 2 ^ k) % B := by
  have hB := B_two_pow hk.le
  have hp : 0 < 2 ^ k := by positivity
  unfold shiftWord extendedWord
  by_cases h : (s && decide (H ≤ a)) = true
  · rw [if_pos h, if_pos h, Nat.shiftRight_eq_div_pow]
    -- with c = B / 2^k : (B*B - (B - a)) / 2^k = B*c - ceil((B-a)/2^k)
    have hc : 0 < 2 ^ (64 - k) := by positivity
    generalize hP : 2 ^ k = P at *
    generalize 2 ^ (64 - k) = c at *
    have h1 : P * ((B - 1 - a) / P) ≤ B - 1 - a := Nat.mul_div_le _ _
    have h2 : B - 1 - a < P * ((B - 1 - a) / P) + P := by
      have := Nat.lt_mul_div_succ (B - 1 - a) hp
      rw [Nat.mul_add, Nat.mul_one] at this; exact this
    generalize (B - 1 - a) / P = d at *
    have h3 : (a + B * (B - 1)) / P = B * (c - 1) + (B - 1 - d) := by
      apply Nat.div_eq_of_lt_le
      · have hd : d ≤ B - 1 := by
          have : d ≤ P * d := Nat.le_mul_of_pos_left d hp
          omega
        zify [hd, show 1 ≤ c from hc, show 1 ≤ B from B_pos]
        have h1' : (P:Int) * d ≤ B - 1 - a := by
          have := h1; zify [show a ≤ B - 1 by omega, show 1 ≤ B from B_pos] at this; exact this
        have hBz : (B:Int) = P * c := by exact_mod_cast hB
        have h2' : (B:Int) - 1 - a < P * d + P := by
          have := h2; zify [show a ≤ B - 1 by omega, show 1 ≤ B from B_pos] at this; exact this
        nlinarith
      · have hd : d ≤ B - 1 := by
          have : d ≤ P * d := Nat.le_mul_of_pos_left d hp
          omega
        zify [hd, show 1 ≤ c from hc, show 1 ≤ B from B_pos]
        have h1' : (P:Int) * d ≤ B - 1 - a := by
          have := h1; zify [show a ≤ B - 1 by omega, show 1 ≤ B from B_pos] at this; exact this
        have hBz : (B:Int) = P * c := by exact_mod_cast hB
        nlinarith
    rw [h3, Nat.mul_add_mod, Nat.mod_eq_of_lt]
    have := B_pos; omega
  · rw [if_neg h, if_neg h, Nat.shiftRight_eq_div_pow]
    simp only [Nat.mul_zero, Nat.add_zero]
    rw [Nat.mod_eq_of_lt]
    exact lt_of_le_of_lt (Nat.div_le_self _ _) ha

theorem extWord_shift {s : Bool} {a k : Nat} (hk : k < 64) :
    ((extendedWord s a + B * extendedWord s a) / 2 ^ k) % B = extendedWord s a := by
  have hB := B_two_pow hk.le
  have hp : 0 < 2 ^ k := by positivity
  have hc : 0 < 2 ^ (64 - k) := by positivity
  unfold extendedWord
  split
  · generalize 2 ^ k = P at *
    generalize 2 ^ (64 - k) = c at *
    have h3 : (B - 1 + B * (B - 1)) / P = B * (c - 1) + (B - 1) := by
      have hBz : (B:Int) = P * c := by exact_mod_cast hB
      apply Nat.div_eq_of_lt_le
      · zify [show 1 ≤ c from hc, show 1 ≤ B from B_pos]
        nlinarith
      · zify [show 1 ≤ c from hc, show 1 ≤ B from B_pos]
        nlinarith
    rw [h3, Nat.mul_add_mod, Nat.mod_eq_of_lt]
    have := B_pos; omega
  · simp

/-! ### array bookkeeping -/

theorem rd_set (l : List Nat) (i j v : Nat) :
    rd (l.set i v) j = if i = j ∧ j < l.length then v else rd l j := by
  unfold rd
  rw [List.getD_eq_getElem?_getD, List.getElem?_set, List.getD_eq_getElem?_getD]
  by_cases h : i = j
  · subst h
    by_cases h2 : i < l.length
    · simp [h2]
    · simp [h2]
  · simp [h]

/-- The loops have a consistent state: `r` has its size, and the array read from is either the
untouched source or `r` itself, still original from index `i` on. -/
structure UpOk (ip : Bool) (a : List Nat) (i : Nat) (st : List Nat × List Nat) : Prop where
  len : st.1.length = a.length
  src : st.2 = if ip then st.1 else a
  orig : ∀ j, i ≤ j → rd st.2 j = rd a j

theorem UpOk.wr {ip : Bool} {a : List Nat} {i : Nat} {st : List Nat × List Nat} (h : UpOk ip a i st)
    (v : Nat) : UpOk ip a (i+1) (wr ip st i v) := by
  refine ⟨by simp [LargeInt.wr, h.len], ?_, ?_⟩
  · have := h.src
    cases ip <;> simp_all [LargeInt.wr]
  · intro j hj
    have := h.src
    have ho := h.orig j (by omega)
    cases ip
    · simp [LargeInt.wr]; exact ho
    · simp only [LargeInt.wr, if_true] at *
      rw [rd_set, if_neg (by omega), ← this]; exact ho

theorem wr_fst (ip : Bool) (st : List Nat × List Nat) (i v : Nat) : (wr ip st i v).1 = st.1.set i v := rfl

theorem srLoop1_spec (ip : Bool) (a : List Nat) (w k : Nat) : ∀ (c i : Nat) (st : List Nat × List Nat),
    UpOk ip a i st → i + c ≤ a.length →
    UpOk ip a (i+c) (srLoop1 ip w k c i st) ∧
    (∀ j, j < i → rd (srLoop1 ip w k c i st).1 j = rd st.1 j) ∧
    (∀ j, i ≤ j → j < i + c → rd (srLoop1 ip w k c i st).1 j = extShiftRight (rd a (j+w)) (rd a (j+1+w)) k) := by
  intro c
  induction c with
  | zero => intro i st h hl; exact ⟨h, fun _ _ => rfl, fun j h1 h2 => by omega⟩
  | succ c ih =>
    intro i st h hl
    have hw := h.wr (extShiftRight (rd st.2 (i+w)) (rd st.2 (i+1+w)) k)
    obtain ⟨h1, h2, h3⟩ := ih (i+1) _ hw (by omega)
    simp only [srLoop1]
    refine ⟨by rw [show i + (c+1) = i+1+c by omega]; exact h1, ?_, ?_⟩
    · intro j hj
      rw [h2 j (by omega), wr_fst, rd_set, if_neg (by omega)]
    · intro j hj1 hj2
      by_cases hj : j = i
      · subst hj
        rw [h2 j (by omega), wr_fst, rd_set, if_pos ⟨rfl, by rw [h.len]; omega⟩,
          h.orig _ (by omega), h.orig _ (by omega)]
      · exact h3 j (by omega) (by omega)

theorem srLoop2_spec (s ip : Bool) (a : List Nat) : ∀ (c i : Nat) (st : List Nat × List Nat),
    UpOk ip a i st → i + c ≤ a.length →
    UpOk ip a (i+c) (srLoop2 s ip a.length c i st) ∧
    (∀ j, j < i → rd (srLoop2 s ip a.length c i st).1 j = rd st.1 j) ∧
    (∀ j, i ≤ j → j < i + c → rd (srLoop2 s ip a.length c i st).1 j = extendedWord s (rd a (a.length-1))) := by
  intro c
  induction c with
  | zero => intro i st h hl; exact ⟨h, fun _ _ => rfl, fun j h1 h2 => by omega⟩
  | succ c ih =>
    intro i st h hl
    have hw := h.wr (extendedWord s (rd st.2 (a.length-1)))
    obtain ⟨h1, h2, h3⟩ := ih (i+1) _ hw (by omega)
    simp only [srLoop2]
    refine ⟨by rw [show i + (c+1) = i+1+c by omega]; exact h1, ?_, ?_⟩
    · intro j hj
      rw [h2 j (by omega), wr_fst, rd_set, if_neg (by omega)]
    · intro j hj1 hj2
      by_cases hj : j = i
      · subst hj
        rw [h2 j (by omega), wr_fst, rd_set, if_pos ⟨rfl, by rw [h.len]; omega⟩,
          h.orig _ (by omega)]
      · exact h3 j (by omega) (by omega)

theorem eq_map_range {l : List Nat} {n : Nat} (hl : l.length = n) (f : Nat → Nat)
    (h : ∀ j, j < n → rd l j = f j) : l = (List.range n).map f := by
  apply List.ext_getElem
  · simp [hl]
  · intro j h1 h2
    have := h j (by omega)
    simp only [rd, List.getD_eq_getElem?_getD, List.getElem?_eq_getElem h1, Option.getD_some] at this
    simp [this]

/-- The word at index `i` of the infinitely extended array. -/
def ew (s : Bool) (a : List Nat) (i : Nat) : Nat := a.getD i (extendedWord s (rd a (a.length - 1)))

theorem ew_lt_len {s : Bool} {a : List Nat} {i : Nat} (h : i < a.length) : ew s a i = rd a i := by
  unfold ew rd; simp [List.getD_eq_getElem?_getD, List.getElem?_eq_getElem h]
theorem ew_ge_len {s : Bool} {a : List Nat} {i : Nat} (h : a.length ≤ i) :
    ew s a i = extendedWord s (rd a (a.length - 1)) := by
  unfold ew; simp [List.getD_eq_getElem?_getD, List.getElem?_eq_none h]

theorem rd_lt {a : List Nat} (ha : Words a) (i : Nat) : rd a i < B := getD_lt ha i

/-- Closed form of the right shift loops, copying or in place. -/
theorem shiftRightArr_eq (s ip : Bool) (r0 a : List Nat) (amount : Nat) (ha : Words a)
    (h0 : ip = false → r0.length = a.length) (hamt : amount / 64 < a.length) :
    shiftRightArr s ip r0 a amount = some ((List.range a.length).map fun j =>
      ((ew s a (j + amount/64) + B * ew s a (j + amount/64 + 1)) / 2 ^ (amount % 64)) % B) := by
  have hk : amount % 64 < 64 := Nat.mod_lt _ (by decide)
  unfold shiftRightArr
  rw [if_neg (by omega)]
  simp only [Option.some.injEq]
  generalize amount / 64 = w at *
  generalize amount % 64 = k at *
  have st0 : UpOk ip a 0 (if ip then a else r0, a) := by
    refine ⟨?_, ?_, fun j _ => rfl⟩
    · cases ip <;> simp_all
    · cases ip <;> simp
  obtain ⟨o1, o2, o3⟩ := srLoop1_spec ip a w k (a.length - 1 - w) 0 _ st0 (by omega)
  rw [Nat.zero_add] at o1
  generalize srLoop1 ip w k (a.length - 1 - w) 0 (if ip then a else r0, a) = st1 at *
  have o4 := o1.wr (shiftWord s (rd st1.2 (a.length - 1 - w + w)) k)
  obtain ⟨q1, q2, q3⟩ := srLoop2_spec s ip a (a.length - (a.length - 1 - w + 1)) (a.length - 1 - w + 1) _ o4 (by omega)
  refine eq_map_range q1.len _ ?_
  intro j hj
  rcases Nat.lt_trichotomy j (a.length - 1 - w) with h | h | h
  · rw [q2 j (by omega), wr_fst, rd_set, if_neg (by omega), o3 j (by omega) (by omega)]
    rw [extShiftRight_eq (rd_lt ha _) hk, ew_lt_len (by omega), ew_lt_len (by omega)]
    rw [show j + 1 + w = j + w + 1 by omega]
  · rw [q2 j (by omega), wr_fst, rd_set, if_pos ⟨h.symm, by rw [o1.len]; exact hj⟩, o1.orig _ (by omega)]
    rw [shiftWord_eq (rd_lt ha _) hk, ew_lt_len (by omega), ew_ge_len (by omega)]
    rw [show a.length - 1 - w + w = a.length - 1 by omega, show j + w = a.length - 1 by omega]
  · rw [q3 j (by omega) (by omega), ew_ge_len (by omega), ew_ge_len (by omega), extWord_shift hk]

/-- State of the downward loops: original below index `i`. -/
structure DownOk (ip : Bool) (a : List Nat) (i : Nat) (st : List Nat × List Nat) : Prop where
  len : st.1.length = a.length
  src : st.2 = if ip then st.1 else a
  orig : ∀ j, j < i → rd st.2 j = rd a j

theorem DownOk.wr {ip : Bool} {a : List Nat} {i : Nat} {st : List Nat × List Nat} (h : DownOk ip a (i+1) st)
    (v : Nat) : DownOk ip a i (wr ip st i v) := by
  refine ⟨by simp [LargeInt.wr, h.len], ?_, ?_⟩
  · have := h.src
    cases ip <;> simp_all [LargeInt.wr]
  · intro j hj
    have := h.src
    have ho := h.orig j (by omega)
    cases ip
    · simp [LargeInt.wr]; exact ho
    · simp only [LargeInt.wr, if_true] at *
      rw [rd_set, if_neg (by omega), ← this]; exact ho

theorem slLoop1_spec (ip : Bool) (a : List Nat) (w k : Nat) : ∀ (c i : Nat) (st : List Nat × List Nat),
    DownOk ip a i st → c + w < i → i ≤ a.length →
    DownOk ip a (i-c) (slLoop1 ip w k c i st) ∧
    (∀ j, i ≤ j → rd (slLoop1 ip w k c i st).1 j = rd st.1 j) ∧
    (∀ j, i - c ≤ j → j < i → rd (slLoop1 ip w k c i st).1 j = extShiftLeft (rd a (j-w)) (rd a (j-1-w)) k) := by
  intro c
  induction c with
  | zero => intro i st h h1 hl; exact ⟨h, fun _ _ => rfl, fun j h1 h2 => by omega⟩
  | succ c ih =>
    intro i st h hci hl
    obtain ⟨i, rfl⟩ : ∃ i', i = i' + 1 := ⟨i - 1, by omega⟩
    have hw := h.wr (extShiftLeft (rd st.2 (i-w)) (rd st.2 (i-1-w)) k)
    obtain ⟨h1, h2, h3⟩ := ih i _ hw (by omega) (by omega)
    simp only [slLoop1, Nat.add_sub_cancel]
    refine ⟨by rw [show i + 1 - (c+1) = i - c by omega]; exact h1, ?_, ?_⟩
    · intro j hj
      rw [h2 j (by omega), wr_fst, rd_set, if_neg (by omega)]
    · intro j hj1 hj2
      by_cases hj : j = i
      · subst hj
        rw [h2 j (by omega), wr_fst, rd_set, if_pos ⟨rfl, by rw [h.len]; omega⟩,
          h.orig _ (by omega), h.orig _ (by omega)]
      · exact h3 j (by omega) (by omega)

theorem slLoop2_spec (ip : Bool) : ∀ (i : Nat) (st : List Nat × List Nat), i ≤ st.1.length →
    (slLoop2 ip i st).1.length = st.1.length ∧
    (∀ j, i ≤ j → rd (slLoop2 ip i st).1 j = rd st.1 j) ∧
    (∀ j, j < i → rd (slLoop2 ip i st).1 j = 0) := by
  intro i
  induction i with
  | zero => intro st _; exact ⟨rfl, fun _ _ => rfl, fun j h => by omega⟩
  | succ i ih =>
    intro st hl
    obtain ⟨h0, h1, h2⟩ := ih (wr ip st i 0) (by rw [wr_fst]; simp; omega)
    simp only [slLoop2]
    refine ⟨by rw [h0, wr_fst]; simp, ?_, ?_⟩
    · intro j hj
      rw [h1 j (by omega), wr_fst, rd_set, if_neg (by omega)]
    · intro j hj
      by_cases h : j = i
      · subst h; rw [h1 j le_rfl, wr_fst, rd_set, if_pos ⟨rfl, by omega⟩]
      · exact h2 j (by omega)

/-- The word below index `j` of the array, zero below the start. -/
def pw (a : List Nat) (w j : Nat) : Nat := if j ≤ w then 0 else rd a (j-1-w)

theorem shiftLeftArr_eq (ip : Bool) (r0 a : List Nat) (amount : Nat) (ha : Words a)
    (h0 : ip = false → r0.length = a.length) :
    shiftLeftArr ip r0 a amount = (List.range a.length).map fun j =>
      if j < amount / 64 then 0 else
      (rd a (j - amount/64) * 2 ^ (amount % 64)) % B + pw a (amount/64) j * 2 ^ (amount % 64) / B := by
  have hk : amount % 64 < 64 := Nat.mod_lt _ (by decide)
  unfold shiftLeftArr
  simp only
  generalize amount / 64 = w at *
  generalize amount % 64 = k at *
  have st0 : DownOk ip a a.length (if ip then a else r0, a) := by
    refine ⟨?_, ?_, fun j _ => rfl⟩
    · cases ip <;> simp_all
    · cases ip <;> simp
  by_cases hw : w < a.length
  · obtain ⟨o1, o2, o3⟩ := slLoop1_spec ip a w k (a.length - (w+1)) a.length _ st0 (by omega) le_rfl
    generalize slLoop1 ip w k (a.length - (w+1)) a.length (if ip then a else r0, a) = st1 at *
    have hi : a.length - (a.length - (w+1)) = w + 1 := by omega
    rw [hi] at o1 o3 ⊢
    rw [if_pos (by omega), if_pos (by omega)]
    simp only [Nat.add_sub_cancel, Nat.sub_self]
    have o4 := o1.wr ((rd st1.2 0 <<< k) % B)
    obtain ⟨q1, q2, q3⟩ := slLoop2_spec ip w _ (show w ≤ (wr ip st1 w ((rd st1.2 0 <<< k) % B)).1.length by rw [o4.len]; omega)
    refine eq_map_range (by rw [q1, o4.len]) _ ?_
    intro j hj
    rcases Nat.lt_trichotomy j w with h | h | h
    · rw [q3 j h, if_pos h]
    · subst h
      rw [q2 j le_rfl, wr_fst, rd_set, if_pos ⟨rfl, by rw [o1.len]; exact hj⟩, if_neg (by omega), o1.orig _ (by omega)]
      simp [pw, Nat.shiftLeft_eq]
    · rw [q2 j (by omega), wr_fst, rd_set, if_neg (by omega), o3 j (by omega) (by omega), if_neg (by omega)]
      unfold pw
      rw [if_neg (by omega)]
      rcases extShiftLeft_eq (a := rd a (j-w)) (rd_lt ha (j-1-w)) hk with h5 | ⟨h5, h6⟩
      · exact h5
      · rw [h6, h5]
        have e1 := rd_lt ha (j-w)
        have e2 := rd_lt ha (j-1-w)
        simp [Nat.mod_eq_of_lt e1, Nat.div_eq_of_lt e2]
  · have e : a.length - (w+1) = 0 := by omega
    rw [e]
    simp only [slLoop1, Nat.sub_zero]
    rw [if_neg (by omega), if_neg (by omega)]
    obtain ⟨q1, q2, q3⟩ := slLoop2_spec ip a.length (if ip then a else r0, a) (by rw [st0.len])
    refine eq_map_range (by rw [q1, st0.len]) _ ?_
    intro j hj
    rw [q3 j hj, if_pos (by omega)]

/-! ### values -/

theorem readVal_cons (s : Bool) (a : Nat) {as : List Nat} (h : as ≠ []) (hw : Words as) (ha : a < B) :
    readVal s (a :: as) = a + B * readVal s as := by
  cases s
  · simp [readVal]
  · simp only [readVal, if_true]
    have e : as = as.dropLast ++ [as.getLast h] := (List.dropLast_concat_getLast h).symm
    have w1 : Words (as.dropLast) := by rw [e] at hw; exact hw.left
    have w2 : as.getLast h < B := hw _ (List.getLast_mem h)
    rw [e, ← List.cons_append, sval_append_hi _ _ (Words.cons ha w1) w2, sval_append_hi _ _ w1 w2]
    simp only [val_cons, List.length_cons, pow_succ]
    push_cast; ring

theorem readVal_single_false (a : Nat) : readVal false [a] = a := by simp [readVal]
theorem readVal_single_true {a : Nat} (ha : a < B) : readVal true [a] = sword a := by
  have := sval_append_hi [] a Words.nil ha
  simpa [readVal] using this

theorem readVal_drop (s : Bool) : ∀ (w : Nat) (ws : List Nat), Words ws → w < ws.length →
    readVal s (ws.drop w) = readVal s ws / (B:Int)^w := by
  intro w
  induction w with
  | zero => intro ws _ _; simp
  | succ w ih =>
    intro ws hw hl
    cases ws with
    | nil => simp at hl
    | cons a as =>
      have hne : as ≠ [] := by intro h; subst h; simp at hl
      rw [readVal_cons s a hne hw.tail hw.head, List.drop_succ_cons, ih as hw.tail (by simpa using hl)]
      have hB : (0:Int) < B := by decide
      have h1 : ((a:Int) + B * readVal s as) / B = readVal s as := by
        rw [Int.add_mul_ediv_left _ _ (ne_of_gt hB), Int.ediv_eq_zero_of_lt (Int.natCast_nonneg _) (by exact_mod_cast hw.head)]
        simp
      rw [pow_succ', ← Int.ediv_ediv_of_nonneg hB.le, h1]

/-- Bit shift of a word list with an extension word on top. -/
def shrL (k e : Nat) : List Nat → List Nat
  | [] => []
  | a :: as => ((a + B * as.headD e) / 2 ^ k) % B :: shrL k e as

theorem shrL_length (k e : Nat) (ws : List Nat) : (shrL k e ws).length = ws.length := by
  induction ws with
  | nil => rfl
  | cons a as ih => simp [shrL, ih]

theorem shrL_words (k e : Nat) (ws : List Nat) : Words (shrL k e ws) := by
  induction ws with
  | nil => exact Words.nil
  | cons a as ih => exact Words.cons (Nat.mod_lt _ B_pos) ih

theorem shr_step {P c : Nat} (hB : B = P * c) (hP : 0 < P) {a : Nat} (ha : a < B) (b T : Int)
    (hT : T ≡ b [ZMOD (B:Int)]) :
    ((a:Int) + B * T) / P = ((a:Int) + B * b) / P % B + B * (T / P) := by
  have hBz : (B:Int) = P * c := by exact_mod_cast hB
  have hPz : (0:Int) < P := by exact_mod_cast hP
  obtain ⟨t, ht⟩ := Int.modEq_iff_dvd.mp hT
  have hT' : T = b - B * t := by linarith
  have hBpos : (0:Int) < B := by decide
  -- T mod P = b mod P
  have e1 : T % P = b % P := by
    rw [hT', hBz]
    rw [show b - (P:Int) * c * t = b + P * (-(c*t)) by ring, Int.add_mul_emod_self_left]
  have m0 := Int.emod_nonneg b (ne_of_gt hPz)
  have m1 := Int.emod_lt_of_pos b hPz
  have dT : T = P * (T / P) + b % P := by rw [← e1]; exact (Int.mul_ediv_add_emod T P).symm
  have db : b = P * (b / P) + b % P := (Int.mul_ediv_add_emod b P).symm
  have q : ∀ z : Int, ((a:Int) + B * (P * z + b % P)) / P = (a + B * (b % P)) / P + B * z := by
    intro z
    rw [show (a:Int) + B * (P * z + b % P) = (a + B * (b % P)) + P * (B * z) by ring,
      Int.add_mul_ediv_left _ _ (ne_of_gt hPz)]
  have hlt : ((a:Int) + B * (b % P)) / P < B := by
    apply Int.ediv_lt_of_lt_mul hPz
    have : (a:Int) < B := by exact_mod_cast ha
    nlinarith
  have hge : 0 ≤ ((a:Int) + B * (b % P)) / P := by
    apply Int.ediv_nonneg _ hPz.le
    have : (0:Int) ≤ a := Int.natCast_nonneg _
    positivity
  have e2 : ((a:Int) + B * b) / P % B = (a + B * (b % P)) / P := by
    conv_lhs => rw [db]
    rw [q, Int.add_mul_emod_self_left, Int.emod_eq_of_lt hge hlt]
  rw [e2]
  conv_lhs => rw [dT]
  rw [q]

theorem readVal_shrL (s : Bool) {k : Nat} (hk : k < 64) : ∀ (ws : List Nat) (h : ws ≠ []), Words ws →
    readVal s (shrL k (extendedWord s (ws.getLast h)) ws) = readVal s ws / (2:Int)^k := by
  have hB := B_two_pow hk.le
  have hP : 0 < 2 ^ k := by positivity
  intro ws
  induction ws with
  | nil => intro h; exact absurd rfl h
  | cons a as ih =>
    intro h hw
    have hPz : ((2 ^ k : Nat) : Int) = (2:Int)^k := by push_cast; rfl
    by_cases hne : as = []
    · subst hne
      simp only [shrL, List.getLast_singleton, List.headD_nil]
      have ha := hw.head
      have hlt : (a + B * extendedWord s a) / 2 ^ k % B < B := Nat.mod_lt _ B_pos
      cases s
      · rw [readVal_single_false, readVal_single_false]
        simp only [extendedWord, Bool.false_and, Bool.false_eq_true, if_false, Nat.mul_zero, Nat.add_zero]
        rw [Nat.mod_eq_of_lt (lt_of_le_of_lt (Nat.div_le_self _ _) ha)]
        push_cast; rfl
      · rw [readVal_single_true hlt, readVal_single_true ha]
        -- both are congruent modulo B and in range
        have hr1 := sword_range hlt
        have hr2 := sword_range ha
        have hm := sword_modEq_nat ((a + B * extendedWord true a) / 2 ^ k % B)
        have hH : (B:Int) = 2 * (H:Int) := by decide
        have key : (((a + B * extendedWord true a) / 2 ^ k % B : Nat) : Int) ≡ sword a / (2:Int)^k [ZMOD B] := by
          push_cast
          refine (Int.mod_modEq _ _).trans ?_
          -- a + B*e = sword a + B*t with B*t divisible by P*B
          have : ∃ t : Int, (a:Int) + B * (extendedWord true a : Nat) = sword a + B * B * t := by
            unfold extendedWord sword
            by_cases hh : H ≤ a
            · refine ⟨1, ?_⟩
              rw [if_pos (by simp [hh]), if_neg (by omega), Nat.cast_sub B_pos]; push_cast; ring
            · refine ⟨0, ?_⟩
              rw [if_neg (by simp; omega), if_pos (by omega)]; simp
          obtain ⟨t, ht⟩ := this
          rw [ht]
          have hBz : (B:Int) = (2:Int)^k * (2:Int)^(64-k) := by exact_mod_cast hB
          have hp0 : (2:Int)^k ≠ 0 := by positivity
          rw [show sword a + (B:Int) * B * t = sword a + (2:Int)^k * (B * ((2:Int)^(64-k) * t)) by
            conv_lhs => rw [hBz]
            conv_rhs => rw [hBz]
            ring, Int.add_mul_ediv_left _ _ hp0]
          exact Int.modEq_iff_dvd.mpr ⟨-((2:Int)^(64-k) * t), by ring⟩
        have hp1 : (1:Int) ≤ (2:Int)^k := one_le_pow₀ (by norm_num)
        have hq1 : -(H:Int) ≤ sword a / (2:Int)^k := by
          rw [Int.le_ediv_iff_mul_le (by positivity)]
          nlinarith [show (0:Int) < H by decide]
        have hq2 : sword a / (2:Int)^k < H := by
          rw [Int.ediv_lt_iff_lt_mul (by positivity)]
          nlinarith [show (0:Int) < H by decide]
        have R : InRange true 1 (sword ((a + B * extendedWord true a) / 2 ^ k % B)) := by
          simp only [InRange, if_true, pow_one]; omega
        have R2 : InRange true 1 (sword a / (2:Int)^k) := by
          simp only [InRange, if_true, pow_one]; omega
        exact inRange_unique R R2 (by rw [pow_one]; exact hm.trans key)
    · have hl : (a :: as).getLast h = as.getLast hne := List.getLast_cons hne
      rw [hl]
      simp only [shrL]
      have hne' : shrL k (extendedWord s (as.getLast hne)) as ≠ [] := by
        intro h2
        have := congrArg List.length h2
        rw [shrL_length] at this
        exact hne (List.length_eq_zero_iff.mp this)
      rw [readVal_cons s _ hne' (shrL_words _ _ _) (Nat.mod_lt _ B_pos), ih hne hw.tail,
        readVal_cons s a hne hw.tail hw.head]
      obtain ⟨b, bs, rfl⟩ := List.exists_cons_of_ne_nil hne
      simp only [List.headD_cons]
      have hT : readVal s (b :: bs) ≡ b [ZMOD (B:Int)] := by
        have h1 := readVal_modEq s (b :: bs)
        have h2 := h1.of_dvd (show (B:Int) ∣ (B:Int) ^ (b :: bs).length from ⟨(B:Int)^bs.length, by simp [pow_succ']⟩)
        refine h2.trans ?_
        simp only [val_cons]; push_cast
        exact Int.modEq_iff_dvd.mpr ⟨-(val bs), by ring⟩
      have := shr_step hB hP hw.head (b:Int) _ hT
      rw [hPz] at this
      rw [this]
      push_cast
      rfl

theorem shrL_eq_map (k e : Nat) (ws : List Nat) : shrL k e ws =
    (List.range ws.length).map fun j => ((ws.getD j e + B * ws.getD (j+1) e) / 2 ^ k) % B := by
  induction ws with
  | nil => rfl
  | cons a as ih =>
    rw [List.length_cons, List.range_succ_eq_map, List.map_cons, List.map_map, shrL, ih]
    congr 1
    cases as <;> simp

/-- Bit shift left with a word shifted in from below. -/
def shlL (k : Nat) : Nat → List Nat → List Nat
  | _, [] => []
  | prev, a :: as => ((a * 2 ^ k) % B + prev * 2 ^ k / B) :: shlL k a as

theorem shlL_length (k : Nat) : ∀ (ws : List Nat) (p : Nat), (shlL k p ws).length = ws.length := by
  intro ws
  induction ws with
  | nil => intro p; rfl
  | cons a as ih => intro p; simp [shlL, ih]

theorem shlL_val (k : Nat) : ∀ (ws : List Nat) (p : Nat),
    (val (shlL k p ws) : Int) ≡ val ws * 2 ^ k + (p * 2 ^ k / B : Nat) [ZMOD (B:Int)^ws.length] := by
  intro ws
  induction ws with
  | nil => intro p; simp [shlL]; exact Int.modEq_one
  | cons a as ih =>
    intro p
    simp only [shlL, val_cons, List.length_cons, pow_succ']
    have e : ((a * 2^k % B : Nat) : Int) + B * ((a * 2^k / B : Nat) : Int) = a * 2^k := by
      exact_mod_cast Nat.mod_add_div (a * 2^k) B
    have := (ih a).mul_left' (c := (B:Int))
    push_cast at this e ⊢
    have h2 := Int.ModEq.add_left ((a:Int) * 2^k % B + p * 2^k / B) this
    refine h2.trans ?_
    rw [show ((a:Int) * 2^k % B + p * 2^k / B) + B * (val as * 2^k + a * 2^k / B) =
      ((a:Int) * 2^k % B + B * (a * 2^k / B)) + p * 2^k / B + B * (val as) * 2^k by ring, e]
    rw [show (a:Int) * 2 ^ k + p * 2 ^ k / B + B * (val as) * 2 ^ k = (a + B * val as) * 2^k + p * 2^k / B by ring]

theorem shlL_words {k : Nat} (hk : k < 64) : ∀ (ws : List Nat) (p : Nat), Words ws → p < B →
    Words (shlL k p ws) := by
  have hB := B_two_pow hk.le
  intro ws
  induction ws with
  | nil => intro p _ _; exact Words.nil
  | cons a as ih =>
    intro p hw hp
    refine Words.cons ?_ (ih a hw.tail hw.head)
    have hP : 0 < 2 ^ k := by positivity
    have e1 : a * 2 ^ k % B = 2 ^ k * (a % 2 ^ (64-k)) := by
      rw [hB, Nat.mul_comm a, Nat.mul_mod_mul_left]
    have e2 : p * 2 ^ k / B = p / 2 ^ (64-k) := by
      rw [hB, Nat.mul_comm p, Nat.mul_div_mul_left _ _ hP]
    have hc : p / 2 ^ (64-k) < 2 ^ k := Nat.div_lt_of_lt_mul (by rw [Nat.mul_comm, ← hB]; exact hp)
    have h5 : a % 2^(64-k) + 1 ≤ 2^(64-k) := Nat.mod_lt _ (by positivity)
    rw [e1, e2]
    calc 2 ^ k * (a % 2 ^ (64-k)) + p / 2 ^ (64-k) < 2 ^ k * (a % 2 ^ (64-k)) + 2 ^ k := by omega
      _ = 2 ^ k * (a % 2 ^ (64-k) + 1) := by ring
      _ ≤ 2 ^ k * 2 ^ (64-k) := Nat.mul_le_mul_left _ h5
      _ = B := hB.symm

theorem shlL_getD (k : Nat) : ∀ (ws : List Nat) (p j : Nat), j < ws.length →
    (shlL k p ws).getD j 0 = (ws.getD j 0 * 2 ^ k) % B + (if j = 0 then p else ws.getD (j-1) 0) * 2 ^ k / B := by
  intro ws
  induction ws with
  | nil => intro p j h; simp at h
  | cons a as ih =>
    intro p j h
    cases j with
    | zero => simp [shlL]
    | succ j =>
      simp only [shlL, List.getD_cons_succ]
      rw [ih a j (by simpa using h)]
      cases j <;> simp

end PolyOps.LargeInt
