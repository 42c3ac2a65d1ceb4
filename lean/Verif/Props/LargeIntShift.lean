import Verif.Lemmas.LargeIntShift

/-! Property C06 of large_ints.hpp: shifts. -/
namespace PolyOps.LargeInt

theorem hi_eq_rd (x : Opd) : x.hi = rd x.words (x.words.length - 1) := by
  unfold Opd.hi rd
  rw [List.getLastD_eq_getLast?, List.getD_eq_getElem?_getD, List.getLast?_eq_getElem?]

theorem word_eq_ew (x : Opd) (i : Nat) : word x i = ew x.signed x.words i := by
  unfold word ew; rw [hi_eq_rd]

theorem extendedWord_idem (s : Bool) (w : Nat) : extendedWord s (extendedWord s w) = extendedWord s w := by
  unfold extendedWord
  cases s
  · simp
  · by_cases h : H ≤ w
    · simp [h]; decide
    · simp [h, show ¬ (H ≤ 0) by decide]

theorem shiftRight_words {x : Opd} (hx : x.WF) (amount : Nat) :
    ((List.range x.words.length).map fun j =>
      ((ew x.signed x.words (j + amount/64) + B * ew x.signed x.words (j + amount/64 + 1)) / 2 ^ (amount % 64)) % B) =
    shrL (amount % 64) (extendedWord x.signed x.hi) ((toWords x (x.words.length + amount/64)).drop (amount/64)) := by
  rw [shrL_eq_map]
  simp only [List.length_drop, toWords_length, Nat.add_sub_cancel]
  have key : ∀ j, ((toWords x (x.words.length + amount/64)).drop (amount/64)).getD j (extendedWord x.signed x.hi)
      = ew x.signed x.words (j + amount/64) := by
    intro j
    rw [List.getD_eq_getElem?_getD, List.getElem?_drop, ← word_eq_ew]
    unfold toWords
    by_cases h : amount/64 + j < x.words.length + amount/64
    · rw [List.getElem?_map, List.getElem?_range h, Nat.add_comm]; rfl
    · rw [List.getElem?_eq_none (by simp; omega)]
      unfold word
      rw [List.getD_eq_getElem?_getD, List.getElem?_eq_none (by omega)]
  apply List.map_congr_left
  intro j _
  rw [key j, key (j+1)]
  simp only [Nat.add_right_comm]

/-- C06: a right shift below the width is floor division by the power of two (arithmetic for signed
types), the in-place and the copying form agree, and the result does not depend on the old content
of the destination. -/
theorem C06_shiftRight (x : Opd) (hx : x.WF) (hsp : x.spare = false) (r0 : List Nat)
    (h0 : r0.length = x.words.length) (amount : Nat) (ha : amount < 64 * x.words.length) :
    ∃ r, shiftRight x r0 amount = some r ∧ shiftRightAssign x amount = some r ∧
      r.signed = x.signed ∧ r.words.length = x.words.length ∧ Words r.words ∧
      r.value = x.value / (2:Int)^amount := by
  have hw : amount / 64 < x.words.length := Nat.div_lt_of_lt_mul ha
  have e1 := shiftRightArr_eq x.signed false r0 x.words amount hx.words (fun _ => h0) hw
  have e2 := shiftRightArr_eq x.signed true [] x.words amount hx.words (fun h => by cases h) hw
  rw [shiftRight_words hx] at e1 e2
  have hk : amount % 64 < 64 := Nat.mod_lt _ (by decide)
  refine ⟨⟨x.signed, false, shrL (amount % 64) (extendedWord x.signed x.hi)
    ((toWords x (x.words.length + amount/64)).drop (amount/64))⟩, ?_, ?_, rfl, ?_, shrL_words _ _ _, ?_⟩
  · rw [shiftRight, e1]; rfl
  · rw [shiftRightAssign, e2]; simp [hsp]
  · rw [shrL_length]; simp
  · show readVal x.signed (shrL _ _ _) = _
    have hW := toWords_words hx (x.words.length + amount/64)
    have hpos : 0 < x.words.length := List.length_pos_iff.mpr hx.nonempty
    have hlen : ((toWords x (x.words.length + amount/64)).drop (amount/64)).length = x.words.length := by simp
    have hne : (toWords x (x.words.length + amount/64)).drop (amount/64) ≠ [] := by
      intro h; rw [h] at hlen; simp at hlen; omega
    have hlast : extendedWord x.signed (((toWords x (x.words.length + amount/64)).drop (amount/64)).getLast hne)
        = extendedWord x.signed x.hi := by
      have e : ((toWords x (x.words.length + amount/64)).drop (amount/64)).getLast hne
          = word x (x.words.length + amount/64 - 1) := by
        rw [List.getLast_drop, List.getLast_eq_getElem]
        simp [toWords]
      rw [e, word_eq_ew]
      by_cases hz : amount / 64 = 0
      · rw [hz, ew_lt_len (by omega), hi_eq_rd]; rfl
      · rw [ew_ge_len (by omega), ← hi_eq_rd, extendedWord_idem]
    have h3 := readVal_shrL x.signed hk _ hne (hW.drop _)
    rw [hlast] at h3
    rw [h3, readVal_drop x.signed _ _ hW (by simp; omega),
      readVal_toWords hx (fun h => h) (by unfold intCount; cases x.signed <;> simp)]
    have e5 : (2:Int)^amount = (B:Int)^(amount/64) * 2^(amount % 64) := by
      have : (B:Int) = 2^64 := by decide
      rw [this, ← pow_mul, ← pow_add, Nat.div_add_mod]
    rw [e5, Int.ediv_ediv_of_nonneg (by positivity)]

/-- C06: a right shift by the width or more has undefined behaviour (the model's `none`). -/
theorem C06_shiftRight_undefined (x : Opd) (r0 : List Nat) (amount : Nat) (hx : x.words.length * 64 ≤ amount) :
    shiftRight x r0 amount = none := by
  have : x.words.length ≤ amount / 64 := (Nat.le_div_iff_mul_le (by decide)).mpr hx
  simp [shiftRight, shiftRightArr, this]

/-- C06: a left shift is multiplication modulo `2^(64N)`, for every amount; exact when the product
fits; the in-place form agrees. -/
theorem C06_shiftLeft (x : Opd) (hx : x.WF) (hsp : x.spare = false) (r0 : List Nat)
    (h0 : r0.length = x.words.length) (amount : Nat) :
    shiftLeft x r0 amount = shiftLeftAssign x amount ∧
    (shiftLeft x r0 amount).words.length = x.words.length ∧ Words (shiftLeft x r0 amount).words ∧
    (shiftLeft x r0 amount).value ≡ x.value * (2:Int)^amount [ZMOD (B:Int)^x.words.length] ∧
    (InRange x.signed x.words.length (x.value * (2:Int)^amount) →
      (shiftLeft x r0 amount).value = x.value * (2:Int)^amount) := by
  have e1 := shiftLeftArr_eq false r0 x.words amount hx.words (fun _ => h0)
  have e2 := shiftLeftArr_eq true [] x.words amount hx.words (fun h => by cases h)
  have hk : amount % 64 < 64 := Nat.mod_lt _ (by decide)
  have hform : shiftLeftArr false r0 x.words amount =
      (List.replicate (amount/64) 0 ++ shlL (amount%64) 0 x.words).take x.words.length := by
    rw [e1]
    symm
    refine eq_map_range (by simp [shlL_length]) _ ?_
    intro j hj
    unfold rd
    rw [List.getD_eq_getElem?_getD, List.getElem?_take, if_pos hj]
    by_cases h : j < amount/64
    · rw [if_pos h, List.getElem?_append_left (by simpa using h)]
      simp [h]
    · rw [if_neg h, List.getElem?_append_right (by simp; omega)]
      simp only [List.length_replicate]
      rw [← List.getD_eq_getElem?_getD, shlL_getD _ _ _ _ (by omega)]
      unfold pw rd
      by_cases h2 : j = amount/64
      · simp [h2]
      · rw [if_neg (by omega), if_neg (by omega), show j - amount/64 - 1 = j - 1 - amount/64 by omega]
  have hwords : Words (shiftLeft x r0 amount).words := by
    show Words (shiftLeftArr false r0 x.words amount)
    rw [hform]
    exact Words.take (Words.append (by intro w hw; rw [List.eq_of_mem_replicate hw]; exact B_pos)
      (shlL_words hk _ _ hx.words B_pos)) _
  have hlen : (shiftLeft x r0 amount).words.length = x.words.length := by
    show (shiftLeftArr false r0 x.words amount).length = _
    rw [e1]; simp
  have hmod : (shiftLeft x r0 amount).value ≡ x.value * (2:Int)^amount [ZMOD (B:Int)^x.words.length] := by
    have m1 := readVal_modEq x.signed (shiftLeft x r0 amount).words
    rw [hlen] at m1
    refine m1.trans ?_
    have m2 : (val (shiftLeft x r0 amount).words : Int) ≡
        val (List.replicate (amount/64) 0 ++ shlL (amount%64) 0 x.words) [ZMOD (B:Int)^x.words.length] := by
      show (val (shiftLeftArr false r0 x.words amount) : Int) ≡ _ [ZMOD _]
      rw [hform]; exact val_mod_take _ _
    refine m2.trans ?_
    rw [val_append, val_replicate_zero]
    simp only [Nat.zero_add, List.length_replicate]
    have m3 := shlL_val (amount%64) x.words 0
    simp only [Nat.zero_mul, Nat.zero_div, Nat.cast_zero, add_zero] at m3
    push_cast
    refine (m3.mul_left _).trans ?_
    have e5 : (2:Int)^amount = (B:Int)^(amount/64) * 2^(amount % 64) := by
      have : (B:Int) = 2^64 := by decide
      rw [this, ← pow_mul, ← pow_add, Nat.div_add_mod]
    rw [e5, show (B:Int)^(amount/64) * ((val x.words:Int) * 2^(amount%64)) = val x.words * ((B:Int)^(amount/64) * 2^(amount%64)) by ring]
    exact (readVal_modEq x.signed x.words).symm.mul_right _
  refine ⟨?_, hlen, hwords, hmod, ?_⟩
  · show (⟨x.signed, false, shiftLeftArr false r0 x.words amount⟩ : Opd) = { x with words := shiftLeftArr true [] x.words amount }
    rw [e1, e2]; simp [hsp]
  · intro hr
    refine inRange_unique ?_ hr hmod
    have := readVal_range x.signed hwords
    rwa [hlen] at this

/-- Non-vacuity: an arithmetic shift across a word boundary. -/
example : (shiftRight ⟨true, false, [5, 12, B-4]⟩ [7,7,7] 66).map Opd.words = some [3, B-1, B-1] := by
  decide

end PolyOps.LargeInt
