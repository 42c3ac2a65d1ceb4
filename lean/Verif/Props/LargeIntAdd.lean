import Verif.Lemmas.LargeIntBasic

/-! Properties C01, C02, C05, C10 (widening), C11 of large_ints.hpp. -/
namespace PolyOps.LargeInt

/-! ### C05: carry primitives -/

/-- C05: the Intel/Clang back end is exact. -/
theorem C05_intrinsic_exact_partial : intrinsicImpl.Exact := by
  constructor <;> intro a b c ha hb hc <;>
    simp only [intrinsicImpl] <;> (try split) <;> simp only [B] at * <;> omega

/-- C05: the GCC back end is exact. -/
theorem C05_gcc_exact_partial : gccImpl.Exact := by
  constructor <;> intro a b c ha hb hc <;> simp only [gccImpl]
  all_goals
    split <;> split <;> simp only [Nat.zero_or, Nat.or_zero, Nat.or_self] <;> simp only [B] at * <;> omega

/-- C05, the plain C++ back end: the carry is right except on one diagonal. `_addcarry(a,b,_,1)` is
wrong exactly when `a+b+1` wraps although `a+b` does not and the wrapped result is not below `a`,
i.e. `a = 0` and `b = 2^64-1`. -/
theorem C05_plain_add_iff (a b c : Nat) (ha : a < B) (hb : b < B) (hc : c ≤ 1) :
    ((plainImpl.add a b c).1 + B * (plainImpl.add a b c).2 = a + b + c) ↔
      ¬ (a = 0 ∧ b = B - 1 ∧ c = 1) := by
  simp only [plainImpl]
  split <;> split <;> simp only [Nat.zero_or, Nat.or_zero, Nat.or_self] <;> simp only [B] at * <;> omega

theorem C05_plain_addTo_iff (a b c : Nat) (ha : a < B) (hb : b < B) (hc : c ≤ 1) :
    ((plainImpl.addTo a b c).1 + B * (plainImpl.addTo a b c).2 = a + b + c) ↔
      ¬ (a = B - 1 ∧ b = 0 ∧ c = 1) := by
  simp only [plainImpl]
  split <;> split <;> simp only [Nat.zero_or, Nat.or_zero, Nat.or_self] <;> simp only [B] at * <;> omega

theorem C05_plain_sub_iff (a b c : Nat) (ha : a < B) (hb : b < B) (hc : c ≤ 1) :
    ((plainImpl.sub a b c).1 + b + c = a + B * (plainImpl.sub a b c).2) ↔
      ¬ (a = B - 1 ∧ b = B - 1 ∧ c = 1) := by
  simp only [plainImpl]
  split <;> split <;> simp only [Nat.zero_or, Nat.or_zero, Nat.or_self] <;> simp only [B] at * <;> omega

theorem C05_plain_subTo_iff (a b c : Nat) (ha : a < B) (hb : b < B) (hc : c ≤ 1) :
    ((plainImpl.subTo a b c).1 + b + c = a + B * (plainImpl.subTo a b c).2) ↔
      ¬ (a = B - 1 ∧ b = B - 1 ∧ c = 1) := by
  simp only [plainImpl]
  split <;> split <;> simp only [Nat.zero_or, Nat.or_zero, Nat.or_self] <;> simp only [B] at * <;> omega

/-- C05 fails for the plain C++ back end: `0 + (2^64-1) + 1` loses its carry. -/
theorem C05_plain_not_exact : ¬ plainImpl.Exact := by
  intro h
  have := (C05_plain_add_iff 0 (B-1) 1 (by decide) (by decide) (by decide)).mp
    (h.add 0 (B-1) 1 (by decide) (by decide) (by decide)).2.2
  exact this ⟨rfl, rfl, rfl⟩

/-- The lost carry reaches the API: with the plain C++ back end the two-word sum of
`2^64-1 + 2^64*(2^64-1)`-like operands is wrong.  Here `(0,1)+(2^64-1, ...)`: low words produce a
carry, the next words are `0` and `2^64-1`, whose carry into the third word is lost. -/
theorem C05_plain_add_wrong :
    (add plainImpl ⟨false, false, [1, 0, 0]⟩ ⟨false, false, [B-1, B-1, 0]⟩).value ≠
      (⟨false, false, [1, 0, 0]⟩ : Opd).value + (⟨false, false, [B-1, B-1, 0]⟩ : Opd).value := by
  decide

/-! ### C01: addition and subtraction -/

private theorem wf_of_words {s : Bool} {ws : List Nat} (h : Words ws) (hl : 0 < ws.length) :
    (⟨s, false, ws⟩ : Opd).WF :=
  ⟨by simpa [List.length_pos_iff] using hl, h, by simp⟩

/-- C01: `a + b`.  The result has the signedness and the word count of the wider operand, equals the
sum modulo `2^(64N)` and equals the sum whenever the sum is representable. -/
theorem C01_add (p : CarryImpl) (hp : p.Exact) (a b : Opd) (ha : a.WF) (hb : b.WF) :
    (add p a b).WF ∧ (add p a b).signed = (a.signed || b.signed) ∧
    (add p a b).words.length = resCount a b ∧
    (add p a b).value ≡ a.value + b.value [ZMOD (B:Int) ^ resCount a b] ∧
    (InRange (a.signed || b.signed) (resCount a b) (a.value + b.value) →
      (add p a b).value = a.value + b.value) := by
  obtain ⟨h1, h2, h3, h4⟩ := addcarry_spec p hp (toWords a (resCount a b)) (toWords b (resCount a b)) 0
    (by simp) (toWords_words ha _) (toWords_words hb _) (by simp)
  rw [toWords_length] at h1 h4
  have hlen : (add p a b).words.length = resCount a b := h1
  have hmod : (add p a b).value ≡ a.value + b.value [ZMOD (B:Int) ^ resCount a b] := by
    have e1 := readVal_modEq (add p a b).signed (add p a b).words
    rw [hlen] at e1
    refine e1.trans ?_
    have e2 : (val (add p a b).words : Int) ≡
        (val (toWords a (resCount a b)) : Int) + val (toWords b (resCount a b)) [ZMOD (B:Int) ^ resCount a b] := by
      have h5 : ((val (addcarry p (toWords a (resCount a b)) (toWords b (resCount a b)) 0).1 : Nat) : Int)
        + (B:Int) ^ resCount a b * ((addcarry p (toWords a (resCount a b)) (toWords b (resCount a b)) 0).2 : Nat)
        = (val (toWords a (resCount a b)) : Int) + val (toWords b (resCount a b)) := by exact_mod_cast h4
      rw [← h5]
      exact Int.modEq_iff_dvd.mpr ⟨_, add_sub_cancel_left _ _⟩
    exact e2.trans ((val_toWords_modEq ha _).add (val_toWords_modEq hb _))
  refine ⟨wf_of_words h2 (by rw [h1]; exact resCount_pos ha), rfl, hlen, hmod, ?_⟩
  intro hr
  refine inRange_unique ?_ hr hmod
  have := readVal_range (add p a b).signed (ws := (add p a b).words) h2
  rwa [hlen] at this

/-- C01: `a - b`. -/
theorem C01_sub (p : CarryImpl) (hp : p.Exact) (a b : Opd) (ha : a.WF) (hb : b.WF) :
    (sub p a b).WF ∧ (sub p a b).signed = (a.signed || b.signed) ∧
    (sub p a b).words.length = resCount a b ∧
    (sub p a b).value ≡ a.value - b.value [ZMOD (B:Int) ^ resCount a b] ∧
    (InRange (a.signed || b.signed) (resCount a b) (a.value - b.value) →
      (sub p a b).value = a.value - b.value) := by
  obtain ⟨h1, h2, h3, h4⟩ := subborrow_spec p hp (toWords a (resCount a b)) (toWords b (resCount a b)) 0
    (by simp) (toWords_words ha _) (toWords_words hb _) (by simp)
  rw [toWords_length] at h1 h4
  have hlen : (sub p a b).words.length = resCount a b := h1
  have hmod : (sub p a b).value ≡ a.value - b.value [ZMOD (B:Int) ^ resCount a b] := by
    have e1 := readVal_modEq (sub p a b).signed (sub p a b).words
    rw [hlen] at e1
    refine e1.trans ?_
    have e2 : (val (sub p a b).words : Int) ≡
        (val (toWords a (resCount a b)) : Int) - val (toWords b (resCount a b)) [ZMOD (B:Int) ^ resCount a b] := by
      have h5 : ((val (subborrow p (toWords a (resCount a b)) (toWords b (resCount a b)) 0).1 : Nat) : Int)
        = (val (toWords a (resCount a b)) : Int) - val (toWords b (resCount a b))
        + (B:Int) ^ resCount a b * ((subborrow p (toWords a (resCount a b)) (toWords b (resCount a b)) 0).2 : Nat) := by
        have : ((val (subborrow p (toWords a (resCount a b)) (toWords b (resCount a b)) 0).1 : Nat) : Int)
          + (val (toWords b (resCount a b)) : Int) + 0
          = (val (toWords a (resCount a b)) : Int)
          + (B:Int) ^ resCount a b * ((subborrow p (toWords a (resCount a b)) (toWords b (resCount a b)) 0).2 : Nat) := by
            exact_mod_cast h4
        linarith
      show ((val (subborrow p (toWords a (resCount a b)) (toWords b (resCount a b)) 0).1 : Nat) : Int) ≡ _ [ZMOD _]
      rw [h5]
      refine Int.modEq_iff_dvd.mpr
        ⟨-((subborrow p (toWords a (resCount a b)) (toWords b (resCount a b)) 0).2 : Int), by ring⟩
    exact e2.trans ((val_toWords_modEq ha _).sub (val_toWords_modEq hb _))
  refine ⟨wf_of_words h2 (by rw [h1]; exact resCount_pos ha), rfl, hlen, hmod, ?_⟩
  intro hr
  refine inRange_unique ?_ hr hmod
  have := readVal_range (sub p a b).signed (ws := (sub p a b).words) h2
  rwa [hlen] at this

/-- C01: `a += b` for any `b` (the C++ concept `safe_comp_or_single_i` only restricts which `b` are
accepted; the modular law needs no restriction). -/
theorem C01_addAssign (p : CarryImpl) (hp : p.Exact) (a b : Opd) (ha : a.WF) (hsp : a.spare = false)
    (hb : b.WF) :
    (addAssign p a b).WF ∧ (addAssign p a b).signed = a.signed ∧
    (addAssign p a b).words.length = a.words.length ∧
    (addAssign p a b).value ≡ a.value + b.value [ZMOD (B:Int) ^ a.words.length] ∧
    (InRange a.signed a.words.length (a.value + b.value) →
      (addAssign p a b).value = a.value + b.value) := by
  obtain ⟨h1, h2, h3, h4⟩ := addcarryTo_spec p hp a.words (toWords b a.words.length) 0
    (by simp) ha.words (toWords_words hb _) (by simp)
  have hlen : (addAssign p a b).words.length = a.words.length := h1
  have hmod : (addAssign p a b).value ≡ a.value + b.value [ZMOD (B:Int) ^ a.words.length] := by
    have e1 := readVal_modEq (addAssign p a b).signed (addAssign p a b).words
    rw [hlen] at e1
    refine e1.trans ?_
    have h5 : ((val (addcarryTo p a.words (toWords b a.words.length) 0).1 : Nat) : Int)
        + (B:Int) ^ a.words.length * ((addcarryTo p a.words (toWords b a.words.length) 0).2 : Nat)
        = (val a.words : Int) + val (toWords b a.words.length) := by exact_mod_cast h4
    have e2 : (val (addAssign p a b).words : Int) ≡ (val a.words : Int) + val (toWords b a.words.length)
        [ZMOD (B:Int) ^ a.words.length] := by
      rw [← h5]
      exact Int.modEq_iff_dvd.mpr ⟨_, add_sub_cancel_left _ _⟩
    exact e2.trans (((readVal_modEq a.signed a.words).symm).add (val_toWords_modEq hb _))
  refine ⟨⟨?_, h2, by simp [addAssign, hsp]⟩, rfl, hlen, hmod, ?_⟩
  · have : 0 < a.words.length := List.length_pos_iff.mpr ha.nonempty
    exact List.length_pos_iff.mp (by rw [hlen]; exact this)
  intro hr
  refine inRange_unique ?_ hr hmod
  have := readVal_range (addAssign p a b).signed (ws := (addAssign p a b).words) h2
  rwa [hlen] at this

/-- C01: `a -= b`. -/
theorem C01_subAssign (p : CarryImpl) (hp : p.Exact) (a b : Opd) (ha : a.WF) (hsp : a.spare = false)
    (hb : b.WF) :
    (subAssign p a b).WF ∧ (subAssign p a b).signed = a.signed ∧
    (subAssign p a b).words.length = a.words.length ∧
    (subAssign p a b).value ≡ a.value - b.value [ZMOD (B:Int) ^ a.words.length] ∧
    (InRange a.signed a.words.length (a.value - b.value) →
      (subAssign p a b).value = a.value - b.value) := by
  obtain ⟨h1, h2, h3, h4⟩ := subborrowTo_spec p hp a.words (toWords b a.words.length) 0
    (by simp) ha.words (toWords_words hb _) (by simp)
  have hlen : (subAssign p a b).words.length = a.words.length := h1
  have hmod : (subAssign p a b).value ≡ a.value - b.value [ZMOD (B:Int) ^ a.words.length] := by
    have e1 := readVal_modEq (subAssign p a b).signed (subAssign p a b).words
    rw [hlen] at e1
    refine e1.trans ?_
    have h5 : ((val (subborrowTo p a.words (toWords b a.words.length) 0).1 : Nat) : Int)
        + (val (toWords b a.words.length) : Int) + 0
        = (val a.words : Int) + (B:Int) ^ a.words.length * ((subborrowTo p a.words (toWords b a.words.length) 0).2 : Nat) := by
      exact_mod_cast h4
    have e2 : (val (subAssign p a b).words : Int) ≡ (val a.words : Int) - val (toWords b a.words.length)
        [ZMOD (B:Int) ^ a.words.length] := by
      refine Int.modEq_iff_dvd.mpr ⟨-((subborrowTo p a.words (toWords b a.words.length) 0).2 : Int), ?_⟩
      show _ - ((val (subborrowTo p a.words (toWords b a.words.length) 0).1 : Nat) : Int) = _
      linarith
    exact e2.trans (((readVal_modEq a.signed a.words).symm).sub (val_toWords_modEq hb _))
  refine ⟨⟨?_, h2, by simp [subAssign, hsp]⟩, rfl, hlen, hmod, ?_⟩
  · have : 0 < a.words.length := List.length_pos_iff.mpr ha.nonempty
    exact List.length_pos_iff.mp (by rw [hlen]; exact this)
  intro hr
  refine inRange_unique ?_ hr hmod
  have := readVal_range (subAssign p a b).signed (ws := (subAssign p a b).words) h2
  rwa [hlen] at this

/-- C01: the raw array loops `ar_add`/`ar_sub`, any length. -/
theorem C01_ar (p : CarryImpl) (hp : p.Exact) (a b : List Nat) (hl : a.length = b.length)
    (ha : Words a) (hb : Words b) :
    val (arAdd p a b) = (val a + val b) % B ^ a.length ∧
    val (arSub p a b) = (val a + (B ^ a.length - val b)) % B ^ a.length := by
  obtain ⟨h1, h2, h3, h4⟩ := addcarry_spec p hp a b 0 hl ha hb (by simp)
  obtain ⟨k1, k2, k3, k4⟩ := subborrow_spec p hp a b 0 hl ha hb (by simp)
  have hv := val_lt h2; rw [h1] at hv
  have kv := val_lt k2; rw [k1] at kv
  have hbv := val_lt hb; rw [← hl] at hbv
  constructor
  · show val (addcarry p a b 0).1 = _
    rw [show val a + val b = val (addcarry p a b 0).1 + B ^ a.length * (addcarry p a b 0).2 by omega]
    rw [Nat.add_mul_mod_self_left, Nat.mod_eq_of_lt hv]
  · show val (subborrow p a b 0).1 = _
    have hc : (subborrow p a b 0).2 = 0 ∨ (subborrow p a b 0).2 = 1 := by omega
    rcases hc with hc | hc <;> rw [hc] at k4
    · rw [show val a + (B ^ a.length - val b) = val (subborrow p a b 0).1 + B ^ a.length * 1 by omega,
        Nat.add_mul_mod_self_left, Nat.mod_eq_of_lt kv]
    · rw [show val a + (B ^ a.length - val b) = val (subborrow p a b 0).1 by omega,
        Nat.mod_eq_of_lt kv]

/-- Hypotheses of C01 are met by a three-word signed and a one-word unsigned operand, and a carry
ripples through. -/
example : (⟨true, false, [B-1, B-1, 5]⟩ : Opd).WF ∧ (⟨false, false, [1]⟩ : Opd).WF ∧
    (add gccImpl ⟨true, false, [B-1, B-1, 5]⟩ ⟨false, false, [1]⟩).words = [0, 0, 6] := by
  refine ⟨⟨by simp, by intro w hw; simp at hw; rcases hw with rfl | rfl | rfl <;> decide, by simp⟩,
    ⟨by simp, by intro w hw; simp at hw; subst hw; decide, by simp⟩, by decide⟩

/-! ### C02: comparison -/

theorem eq_iff_toWords (a b : Opd) :
    eq a b = true ↔ toWords a (resCount a b) = toWords b (resCount a b) := by
  simp only [eq, List.all_eq_true, List.mem_range, beq_iff_eq, toWords]
  constructor
  · intro h
    exact List.map_congr_left (fun i hi => h i (List.mem_range.mp hi))
  · intro h i hi
    have := List.map_inj_left.mp h i (List.mem_range.mpr hi)
    exact this

/-- C02: `a == b` is equality of the represented integers. -/
theorem C02_eq (a b : Opd) (ha : a.WF) (hb : b.WF) : eq a b = true ↔ a.value = b.value := by
  rw [eq_iff_toWords]
  constructor
  · intro h
    rw [← readVal_toWords ha resSigned_left (intCount_le_left a b),
      ← readVal_toWords hb resSigned_right (intCount_le_right a b), h]
  · intro h
    apply val_inj (by simp) (toWords_words ha _) (toWords_words hb _)
    have e1 := val_toWords_modEq ha (resCount a b)
    have e2 := val_toWords_modEq hb (resCount a b)
    rw [h] at e1
    have e3 := e1.trans e2.symm
    have r1 : InRange false (resCount a b) (val (toWords a (resCount a b))) := by
      have := readVal_range false (toWords_words ha (resCount a b))
      rw [toWords_length] at this; exact this
    have r2 : InRange false (resCount a b) (val (toWords b (resCount a b))) := by
      have := readVal_range false (toWords_words hb (resCount a b))
      rw [toWords_length] at this; exact this
    exact_mod_cast inRange_unique r1 r2 e3

/-- Comparison of two words arrays by the borrow and the or-ed difference. -/
theorem subborrowOr_cmp (p : CarryImpl) (hp : p.Exact) (as bs : List Nat) (hl : as.length = bs.length)
    (ha : Words as) (hb : Words bs) :
    ((subborrowOr p as bs 0 0).2 ≠ 0 ↔ val as < val bs) ∧
    ((subborrowOr p as bs 0 0).1 ≠ 0 ↔ val as ≠ val bs) := by
  obtain ⟨s1, s2⟩ := subborrowOr_spec p as bs 0 0
  obtain ⟨k1, k2, k3, k4⟩ := subborrow_spec p hp as bs 0 hl ha hb (by simp)
  have hv := val_lt k2; rw [k1] at hv
  have hbv := val_lt hb; rw [← hl] at hbv
  have hav := val_lt ha
  have hc : (subborrow p as bs 0).2 = 0 ∨ (subborrow p as bs 0).2 = 1 := by omega
  rw [s1]
  rw [← val_eq_zero_iff] at s2
  rw [Ne, Ne, s2]
  rcases hc with hc | hc <;> rw [hc] at k4 ⊢ <;> constructor <;> constructor <;> intro h <;> omega

theorem toWords_succ (x : Opd) (n : Nat) : toWords x (n+1) = toWords x n ++ [word x n] := by
  simp [toWords, List.range_succ]

theorem sval_append_hi (lo : List Nat) (w : Nat) (hlo : Words lo) (hw : w < B) :
    sval (lo ++ [w]) = val lo + (B:Int) ^ lo.length * sword w := by
  have hl := val_lt hlo
  have hW : Words (lo ++ [w]) := hlo.append (Words.cons hw Words.nil)
  have tb := top_bit (x := ⟨true, false, lo ++ [w]⟩) ⟨by simp, hW, by simp⟩
  have hhi : (⟨true, false, lo ++ [w]⟩ : Opd).hi = w := by simp [Opd.hi]
  rw [hhi] at tb
  simp only at tb
  unfold sval sword
  rw [val_append]
  simp only [val_cons, val_nil, Nat.mul_zero, Nat.add_zero, List.length_append, List.length_singleton]
  simp only [List.length_append, List.length_singleton, val_append, val_cons, val_nil, Nat.mul_zero, Nat.add_zero] at tb
  by_cases h : w < H
  · rw [if_pos (tb.mpr h), if_pos h]; push_cast; ring
  · rw [if_neg (fun h2 => h (tb.mp h2)), if_neg h]; push_cast; ring

theorem sword_range {w : Nat} (h : w < B) : -(H:Int) ≤ sword w ∧ sword w < H := by
  unfold sword; split <;> simp only [B, H] at * <;> omega

theorem sword_inj {v w : Nat} (hv : v < B) (hw : w < B) (h : sword v = sword w) : v = w := by
  unfold sword at h; split at h <;> split at h <;> simp only [B, H] at * <;> omega

theorem cmpInt_eq {a b : Int} : cmpInt a b = compare a b := by
  unfold cmpInt
  rcases lt_trichotomy a b with h | h | h
  · rw [if_pos h]; exact (compare_lt_iff_lt.mpr h).symm
  · subst h; simp
  · rw [if_neg (not_lt.mpr h.le), if_neg (ne_of_gt h)]; exact (compare_gt_iff_gt.mpr h).symm

/-- C02: the three-way comparison is the comparison of the represented integers. -/
theorem C02_cmp (p : CarryImpl) (hp : p.Exact) (a b : Opd) (ha : a.WF) (hb : b.WF) :
    cmp p a b = compare a.value b.value := by
  have hn := resCount_pos (b := b) ha
  have ra := readVal_toWords ha resSigned_left (intCount_le_left a b)
  have rb := readVal_toWords hb resSigned_right (intCount_le_right a b)
  rw [← ra, ← rb]
  unfold cmp
  generalize hs : resSigned a b = s
  obtain ⟨m, hm⟩ : ∃ m, resCount a b = m + 1 := ⟨resCount a b - 1, by omega⟩
  rw [hm]
  simp only [Nat.add_sub_cancel]
  have wa := word_lt ha m
  have wb := word_lt hb m
  have la := toWords_words ha m
  have lb := toWords_words hb m
  by_cases h1 : m + 1 > 1
  · rw [if_pos h1]
    cases s
    · simp only [Bool.false_eq_true, if_false, readVal]
      obtain ⟨c1, c2⟩ := subborrowOr_cmp p hp (toWords a (m+1)) (toWords b (m+1)) (by simp)
        (toWords_words ha _) (toWords_words hb _)
      split
      · rename_i h; exact (compare_lt_iff_lt.mpr (by exact_mod_cast c1.mp h)).symm
      · rename_i h
        have h' := fun h3 => h (c1.mpr h3)
        split
        · rename_i h2
          have := c2.mp h2
          refine (compare_gt_iff_gt.mpr ?_).symm
          have : val (toWords b (m+1)) < val (toWords a (m+1)) := by omega
          exact_mod_cast this
        · rename_i h2
          have : val (toWords a (m+1)) = val (toWords b (m+1)) := by
            by_contra h3; exact h2 (c2.mpr h3)
          rw [this]; simp
    · simp only [if_true, readVal]
      rw [toWords_succ, toWords_succ, sval_append_hi _ _ la wa, sval_append_hi _ _ lb wb]
      simp only [toWords_length]
      have va := val_lt la; have vb := val_lt lb
      rw [toWords_length] at va vb
      have va' : (val (toWords a m) : Int) < (B:Int)^m := by exact_mod_cast va
      have vb' : (val (toWords b m) : Int) < (B:Int)^m := by exact_mod_cast vb
      have va0 : (0:Int) ≤ val (toWords a m) := Int.natCast_nonneg _
      have vb0 : (0:Int) ≤ val (toWords b m) := Int.natCast_nonneg _
      obtain ⟨c1, c2⟩ := subborrowOr_cmp p hp (toWords a m) (toWords b m) (by simp) la lb
      split
      · rename_i h
        rw [cmpInt_eq]
        have hB : (0:Int) < (B:Int)^m := by
          have := Nat.pow_pos (n := m) B_pos
          exact_mod_cast this
        rcases lt_or_gt_of_ne h with h | h
        · rw [compare_lt_iff_lt.mpr h]
          refine (compare_lt_iff_lt.mpr ?_).symm
          nlinarith
        · rw [compare_gt_iff_gt.mpr h]
          refine (compare_gt_iff_gt.mpr ?_).symm
          have : sword (word b m) + 1 ≤ sword (word a m) := h
          show _ < _
          nlinarith
      · rename_i h
        have h' : sword (word a m) = sword (word b m) := by
          by_contra h3; exact h h3
        rw [h']
        split
        · rename_i h2
          have h2' := c2.mp h2
          split
          · rename_i h3
            refine (compare_lt_iff_lt.mpr ?_).symm
            have h4 : (val (toWords a m) : Int) < val (toWords b m) := by exact_mod_cast c1.mp h3
            linarith
          · rename_i h3
            refine (compare_gt_iff_gt.mpr ?_).symm
            have h4 : ¬ (val (toWords a m) < val (toWords b m)) := fun h5 => h3 (c1.mpr h5)
            have h5 : val (toWords b m) < val (toWords a m) := by omega
            have h6 : (val (toWords b m) : Int) < val (toWords a m) := by exact_mod_cast h5
            show _ < _
            linarith
        · rename_i h2
          have : val (toWords a m) = val (toWords b m) := by
            by_contra h3; exact h2 (c2.mpr h3)
          rw [this]; simp
  · have : m = 0 := by omega
    subst this
    rw [if_neg h1]
    rw [toWords_succ, toWords_succ]
    have e0 : ∀ x : Opd, toWords x 0 = [] := by intro x; simp [toWords]
    rw [e0, e0]
    cases s
    · simp only [Bool.false_eq_true, if_false, readVal, List.nil_append, val_cons, val_nil, Nat.mul_zero, Nat.add_zero]
      exact cmpInt_eq
    · simp only [if_true, readVal]
      rw [sval_append_hi _ _ Words.nil wa, sval_append_hi _ _ Words.nil wb, cmpInt_eq]
      simp

/-- Hypotheses of C02 are met with mixed signedness: `-1 < 2^64-1`. -/
example : cmp gccImpl ⟨true, false, [B-1, B-1]⟩ ⟨false, false, [B-1]⟩ = .lt := by decide

/-! ### C10 (widening) and C11 -/

/-- C10: converting to a type that satisfies the C++ concept `safe_comp_or_single_i` keeps the
value. -/
theorem C10_widen (x : Opd) (hx : x.WF) (n : Nat) (s : Bool) (h : SafeConv n s x) :
    (convert n s x).value = x.value := by
  have hs : x.signed = true → s = true := by
    intro h1
    rcases h.2 with h2 | h2
    · exact h2
    · rw [h1] at h2; cases h2
  exact readVal_toWords hx hs h.1

/-- C10: any conversion keeps the value modulo `2^(64N)`. -/
theorem C10_convert_mod (x : Opd) (hx : x.WF) (n : Nat) (s : Bool) :
    (convert n s x).value ≡ x.value [ZMOD (B:Int)^n] := by
  have := readVal_modEq s (toWords x n)
  rw [toWords_length] at this
  exact this.trans (val_toWords_modEq hx n)

example : SafeConv 3 true ⟨true, false, [7, B-2]⟩ ∧
    (convert 3 true ⟨true, false, [7, B-2]⟩).words = [7, B-2, B-1] := by
  refine ⟨⟨by decide, Or.inl rfl⟩, by decide⟩

theorem neg_mod (p : CarryImpl) (hp : p.Exact) (x : Opd) (hx : x.WF) (hs : x.signed = true)
    (hsp : x.spare = false) :
    (neg p x).WF ∧ (neg p x).signed = true ∧ (neg p x).words.length = x.words.length ∧
    (neg p x).value ≡ -x.value [ZMOD (B:Int) ^ x.words.length] := by
  unfold neg
  split
  · rename_i w hw
    have hwB : w < B := hx.words w (by rw [hw]; simp)
    have hlt : (B - w) % B < B := Nat.mod_lt _ B_pos
    refine ⟨⟨by simp, Words.cons hlt Words.nil, by simp [hsp]⟩, hs, by simp [hw], ?_⟩
    have e1 := readVal_modEq x.signed [(B - w) % B]
    have e2 := readVal_modEq x.signed x.words
    rw [hw] at e2 ⊢
    simp only [List.length_singleton, pow_one, val_cons, val_nil, Nat.mul_zero, Nat.add_zero] at e1 e2 ⊢
    have e3 : ((((B - w) % B : Nat)) : Int) ≡ -(w:Int) [ZMOD B] := by
      push_cast [Nat.cast_sub hwB.le]
      have : ((B:Int) - w) ≡ -(w:Int) [ZMOD B] := Int.modEq_iff_dvd.mpr ⟨-1, by ring⟩
      exact (Int.mod_modEq _ _).trans this
    have e4 : x.value = readVal x.signed [w] := by rw [opd_value_eq_readVal, hw]
    rw [e4]
    exact (e1.trans e3).trans e2.symm.neg
  · rename_i hne
    have hlen : 2 ≤ x.words.length := by
      have h0 := hx.nonempty
      match h : x.words with
      | [] => exact absurd h h0
      | [w] => exact absurd h (hne w)
      | _ :: _ :: _ => simp
    have h0 : (u64 0).WF := ⟨by simp [u64], by intro w hw; simp [u64] at hw; subst hw; decide, by simp [u64]⟩
    obtain ⟨h1, h2, h3, h4, _⟩ := C01_sub p hp (u64 0) x h0 hx
    have hc : resCount (u64 0) x = x.words.length := by
      simp [resCount, intCount, resSigned, u64, hs]; omega
    rw [hc] at h3 h4
    refine ⟨h1, by simp [h2, hs], h3, ?_⟩
    have : (u64 0).value = 0 := by simp [u64, Opd.value]
    rw [this] at h4
    simpa using h4

/-- The most negative value of the type of `x`. -/
def IsMin (x : Opd) : Prop := 2 * x.value = -(B:Int) ^ x.words.length

/-- C11: negation is exact except at the minimum, which is its own negation. -/
theorem C11_neg (p : CarryImpl) (hp : p.Exact) (x : Opd) (hx : x.WF) (hs : x.signed = true)
    (hsp : x.spare = false) :
    (¬ IsMin x → (neg p x).value = -x.value) ∧ (IsMin x → (neg p x).value = x.value) := by
  obtain ⟨h1, h2, h3, h4⟩ := neg_mod p hp x hx hs hsp
  have r1 := readVal_range (neg p x).signed h1.words
  have r2 := readVal_range x.signed hx.words
  rw [h3, h2] at r1
  rw [hs] at r2
  have e1 : readVal true (neg p x).words = (neg p x).value := by rw [opd_value_eq_readVal, h2]
  have e2 : readVal true x.words = x.value := by rw [opd_value_eq_readVal, hs]
  rw [e1] at r1
  rw [e2] at r2
  unfold IsMin
  constructor
  · intro hm
    refine inRange_unique r1 ?_ h4
    simp only [InRange, if_true] at r2 ⊢
    omega
  · intro hm
    refine inRange_unique r1 r2 (h4.trans ?_)
    exact Int.modEq_iff_dvd.mpr ⟨-1, by linarith⟩

/-- C11: `abs` is exact except at the minimum, which is left unchanged. -/
theorem C11_abs (p : CarryImpl) (hp : p.Exact) (x : Opd) (hx : x.WF) (hsp : x.spare = false) :
    ((x.signed = true → ¬ IsMin x) → (abs p x).value = |x.value|) ∧
    (x.signed = true → IsMin x → (abs p x).value = x.value) := by
  unfold abs
  by_cases hs : x.signed = true
  · rw [if_pos hs]
    have hv : x.value = sval x.words := by simp [Opd.value, hs]
    have h0 : (0:Int) < (B:Int) ^ x.words.length := by
      have := Nat.pow_pos (n := x.words.length) B_pos; exact_mod_cast this
    by_cases hh : H ≤ x.hi
    · rw [if_pos hh]
      have hneg : x.value < 0 := by
        rw [hv, sval, if_neg (by rw [top_bit hx]; omega)]
        have h1 := val_lt hx.words
        have : (val x.words : Int) < (B:Int) ^ x.words.length := by exact_mod_cast h1
        linarith
      obtain ⟨c1, c2⟩ := C11_neg p hp x hx hs hsp
      exact ⟨fun h => by rw [c1 (h hs), abs_of_neg hneg], fun _ h => c2 h⟩
    · rw [if_neg hh]
      have hpos : 0 ≤ x.value := by
        rw [hv, sval, if_pos ((top_bit hx).mpr (by omega))]
        exact Int.natCast_nonneg _
      refine ⟨fun _ => (abs_of_nonneg hpos).symm, fun _ _ => rfl⟩
  · rw [if_neg hs]
    have hv : 0 ≤ x.value := by simp [Opd.value, hs]
    exact ⟨fun _ => (abs_of_nonneg hv).symm, fun h => absurd h hs⟩

example : IsMin ⟨true, false, [0, H]⟩ ∧ ¬ IsMin ⟨true, false, [1, H]⟩ := by
  unfold IsMin; decide

end PolyOps.LargeInt
