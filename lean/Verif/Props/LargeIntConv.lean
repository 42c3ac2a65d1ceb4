import Verif.Model.LargeIntConv
import Verif.Props.LargeIntDiv
import Mathlib.Tactic.IntervalCases

/-! Properties C09 and C10 of large_ints.hpp: literals and conversions to built-in types. -/
namespace PolyOps.LargeInt

/-- The number written by hexadecimal digits, least significant first. -/
def digitsVal : List Nat → Nat
  | [] => 0
  | d :: ds => d + 16 * digitsVal ds

theorem hex_or {cur d nyb : Nat} (hc : cur < 16 ^ nyb) (hd : d < 16) (hn : nyb < 16) :
    cur ||| ((d <<< (nyb * 4)) % B) = cur + 16 ^ nyb * d ∧ cur + 16 ^ nyb * d < 16 ^ (nyb + 1) := by
  have e16 : (16:Nat) ^ nyb = 2 ^ (nyb * 4) := by
    rw [show (16:Nat) = 2 ^ 4 from rfl, ← pow_mul, Nat.mul_comm]
  have h2 : cur + 16 ^ nyb * d < 16 ^ (nyb + 1) := by
    rw [pow_succ]
    generalize 16 ^ nyb = P at *
    nlinarith
  have h3 : (16:Nat) ^ (nyb + 1) ≤ B := by
    rw [show B = 16 ^ 16 by decide]
    exact Nat.pow_le_pow_right (by decide) (by omega)
  refine ⟨?_, h2⟩
  rw [Nat.shiftLeft_eq, Nat.mod_eq_of_lt (by rw [← e16]; rw [Nat.mul_comm]; omega)]
  rw [e16] at hc ⊢
  rw [Nat.or_comm, Nat.mul_comm d, ← Nat.two_pow_add_eq_or_of_lt hc, Nat.add_comm]

theorem hexValue_spec : ∀ (ds : List Nat) (nyb cur : Nat) (vals : List Nat), (∀ d ∈ ds, d < 16) →
    nyb ≤ 16 → cur < 16 ^ nyb → Words vals →
    (ds = [] → nyb = 16 → cur < H) → (ds = [] → 0 < nyb) →
    ∃ r, (hexValue ds nyb cur vals).reverse = r ∧
    Words r ∧ val r = val vals.reverse + B ^ vals.length * (cur + 16 ^ nyb * digitsVal ds) ∧
      2 * val r < B ^ r.length ∧ 16 * vals.length + nyb + ds.length ≤ 16 * r.length ∧
      ∀ m, m < r.length → 16 * m < 16 * vals.length + nyb + ds.length ∨ B ^ m ≤ 2 * val r := by
  intro ds
  induction ds with
  | nil =>
    intro nyb cur vals _ hn hc hv hH h0
    have hcB : cur < H := by
      rcases Nat.lt_or_ge nyb 16 with h | h
      · have : (16:Nat) ^ nyb ≤ 16 ^ 15 := Nat.pow_le_pow_right (by decide) (by omega)
        have h2 : (16:Nat)^15 ≤ H := by decide
        omega
      · exact hH rfl (by omega)
    have h0' := h0 rfl
    have hvl := val_lt (ws := vals.reverse) (fun w hw => hv w (by simpa using hw))
    rw [List.length_reverse] at hvl
    refine ⟨_, rfl, ?_, ?_, ?_, ?_, ?_⟩
    · intro w hw
      simp only [hexValue, List.mem_reverse, List.mem_cons] at hw
      rcases hw with rfl | hw
      · simp only [B, H] at *; omega
      · exact hv w hw
    · simp only [hexValue, List.reverse_cons, val_append, List.length_reverse, val_cons, val_nil, digitsVal]
      ring
    · simp only [hexValue, List.reverse_cons, val_append, List.length_reverse, val_cons, val_nil, List.length_append,
        List.length_singleton, pow_succ]
      rw [Nat.mul_zero, Nat.add_zero]
      have hBH := B_eq
      have h1 : B ^ vals.length * (cur + 1) ≤ B ^ vals.length * H := Nat.mul_le_mul_left _ hcB
      rw [hBH] at hvl h1 ⊢
      generalize (2 * H) ^ vals.length = P at *
      nlinarith
    · simp [hexValue]; omega
    · intro m hm
      left
      simp [hexValue] at hm
      simp
      omega
  | cons d ds ih =>
    intro nyb cur vals hd hn hc hv hH h0
    have hd0 : d < 16 := hd d (by simp)
    have hds : ∀ x ∈ ds, x < 16 := fun x hx => hd x (by simp [hx])
    by_cases h16 : nyb ≥ 16
    · have : nyb = 16 := by omega
      subst this
      have hcB : cur < B := by
        rw [show B = 16 ^ 16 by decide]; exact hc
      obtain ⟨r, e, e1, e2, e3, e4, e5⟩ := ih 1 d (cur :: vals) hds (by omega) (by omega) (Words.cons hcB hv)
        (fun _ h => by omega) (fun _ => by omega)
      refine ⟨r, by simpa [hexValue] using e, e1, ?_, e3, by simp at e4 ⊢; omega, ?_⟩
      · rw [e2]
        simp only [List.reverse_cons, val_append, List.length_reverse, val_cons, val_nil, digitsVal, List.length_cons, pow_succ,
          pow_zero]
        rw [show (16:Nat)^16 = B by decide] at hc
        have hb : (1 * 16 * 16 * 16 * 16 * 16 * 16 * 16 * 16 * 16 * 16 * 16 * 16 * 16 * 16 * 16 * 16 : Nat) = B := by decide
        rw [hb]
        ring
      · intro m hm
        rcases e5 m hm with h | h
        · left; simp at h ⊢; omega
        · right; exact h
    · obtain ⟨o1, o2⟩ := hex_or hc hd0 (by omega)
      have hne : ¬ nyb ≥ 16 := h16
      by_cases hlast : (ds.isEmpty && decide (nyb + 1 = 16) && decide (d ≥ 8)) = true
      · simp only [Bool.and_eq_true, List.isEmpty_iff, decide_eq_true_eq] at hlast
        obtain ⟨⟨rfl, hn15⟩, hd8⟩ := hlast
        have : nyb = 15 := by omega
        subst this
        have hB16 : (16:Nat)^(15+1) = B := by decide
        have hvr : Words vals.reverse := fun w hw => hv w (by simpa using hw)
        have hvl := val_lt hvr
        rw [List.length_reverse] at hvl
        rw [hB16] at o2
        have hform : (hexValue [d] 15 cur vals).reverse = vals.reverse ++ [cur + 16^15 * d, 0] := by
          rw [← o1]
          conv_lhs => unfold hexValue
          rw [if_neg (by decide), if_pos (by simp; exact hd8)]
          simp
        have hval : val (vals.reverse ++ [cur + 16^15 * d, 0]) = val vals.reverse + B ^ vals.length * (cur + 16 ^ 15 * d) := by
          rw [val_append]
          simp only [val_cons, val_nil, List.length_reverse]
          ring
        refine ⟨_, hform, hvr.append (Words.cons o2 (Words.cons B_pos Words.nil)), ?_, ?_, ?_, ?_⟩
        · rw [hval]; simp only [digitsVal]; ring
        · rw [hval]
          simp only [List.length_append, List.length_reverse, List.length_cons, List.length_nil, Nat.zero_add, pow_add]
          have h1 : B ^ vals.length * (cur + 16^15 * d + 1) ≤ B ^ vals.length * B := Nat.mul_le_mul_left _ o2
          have hB4 : 4 ≤ B := by decide
          rw [pow_one]
          generalize cur + 16^15*d = T at *
          generalize hP : B ^ vals.length = P at *
          have : P * B * 4 ≤ P * B * B := Nat.mul_le_mul_left _ hB4
          nlinarith
        · simp; omega
        · intro m hm
          simp at hm
          rcases Nat.lt_or_ge m (vals.length + 1) with h | h
          · left; simp; omega
          · right
            have : m = vals.length + 1 := by omega
            subst this
            rw [hval, pow_succ]
            have hH : B = 2 * (16^15 * 8) := by decide
            have h1 : 16^15 * 8 ≤ cur + 16^15 * d := by
              have : 16^15 * 8 ≤ 16^15 * d := Nat.mul_le_mul_left _ hd8
              omega
            have h2 := Nat.mul_le_mul_left (B ^ vals.length) h1
            generalize cur + 16^15*d = T at *
            generalize hP : B ^ vals.length = P at *
            rw [hH]
            nlinarith
      · obtain ⟨r, e, e1, e2, e3, e4, e5⟩ := ih (nyb+1) (cur + 16 ^ nyb * d) vals hds (by omega) o2 hv
          (by
            intro hds0 hny
            have h15 : nyb = 15 := by omega
            subst h15
            simp only [hds0, List.isEmpty_nil, decide_true, Bool.and_self, Bool.true_and, decide_eq_true_eq, not_le, ge_iff_le] at hlast
            have : H = 16^15 * 8 := by decide
            rw [this]
            generalize (16:Nat)^15 = P at *
            nlinarith)
          (fun _ => by omega)
        refine ⟨r, ?_, e1, ?_, e3, by simp at e4 ⊢; omega, ?_⟩
        · rw [← e, ← o1]
          conv_lhs => unfold hexValue
          rw [if_neg hne, if_neg hlast]
        · rw [e2, digitsVal, pow_succ]; ring
        · intro m hm
          rcases e5 m hm with h | h
          · left; simp at h ⊢; omega
          · right; exact h

/-- Value of a digit character, written independently: position in the digit alphabet. -/
def digitSpec (c : Char) (d : Nat) : Prop :=
  "0123456789abcdef".toList[d]? = some c ∨ "0123456789ABCDEF".toList[d]? = some c

theorem digitValue_lt {c : Char} {d : Nat} (h : digitValue c = some d) : d < 16 := by
  unfold digitValue at h
  have e0 : '0'.toNat = 48 := rfl
  have e9 : '9'.toNat = 57 := rfl
  have ea : 'a'.toNat = 97 := rfl
  have ef : 'f'.toNat = 102 := rfl
  have eA : 'A'.toNat = 65 := rfl
  have eF : 'F'.toNat = 70 := rfl
  have tn : ∀ x y : Char, x ≤ y → x.toNat ≤ y.toNat := fun x y h => h
  split at h
  · rename_i hc; have h1 := tn _ _ hc.1; have h2 := tn _ _ hc.2
    cases h; omega
  · split at h
    · rename_i hc; have h1 := tn _ _ hc.1; have h2 := tn _ _ hc.2
      cases h; omega
    · split at h
      · rename_i hc; have h1 := tn _ _ hc.1; have h2 := tn _ _ hc.2
        cases h; omega
      · cases h

theorem digitValue_correct (d : Nat) (c : Char) : digitSpec c d → digitValue c = some d := by
  intro h
  have hd : d < 16 := by
    rcases h with h | h <;>
    · obtain ⟨hl, _⟩ := List.getElem?_eq_some_iff.mp h
      exact hl
  unfold digitSpec at h
  rcases h with h | h <;> interval_cases d <;>
    · simp at h; subst h; decide

theorem mapM_length : ∀ (cs : List Char) (ds : List Nat), cs.mapM digitValue = some ds →
    ds.length = cs.length ∧ ∀ d ∈ ds, d < 16 := by
  intro cs
  induction cs with
  | nil => intro ds h; simp at h; subst h; simp
  | cons c cs ih =>
    intro ds h
    rw [List.mapM_cons] at h
    cases hc : digitValue c with
    | none => simp [hc] at h
    | some d =>
      cases hm : cs.mapM digitValue with
      | none => simp [hc, hm] at h
      | some ds' =>
        simp [hc, hm] at h
        subst h
        obtain ⟨h1, h2⟩ := ih ds' hm
        refine ⟨by simp [h1], ?_⟩
        intro x hx
        rcases List.mem_cons.mp hx with rfl | hx
        · exact digitValue_lt hc
        · exact h2 x hx

/-- Positional value, most significant digit first. -/
def bigEndian (ds : List Nat) : Nat := ds.foldl (fun acc d => 16 * acc + d) 0

theorem digitsVal_append (a b : List Nat) : digitsVal (a ++ b) = digitsVal a + 16 ^ a.length * digitsVal b := by
  induction a with
  | nil => simp [digitsVal]
  | cons x xs ih => simp only [List.cons_append, digitsVal, ih, List.length_cons, pow_succ]; ring

theorem digitsVal_reverse (ds : List Nat) : digitsVal ds.reverse = bigEndian ds := by
  have : ∀ (ds : List Nat) (acc : Nat), ds.foldl (fun acc d => 16 * acc + d) acc = digitsVal ds.reverse + 16 ^ ds.length * acc := by
    intro ds
    induction ds with
    | nil => intro acc; simp [digitsVal]
    | cons d ds ih =>
      intro acc
      rw [List.foldl_cons, ih, List.reverse_cons, digitsVal_append]
      simp only [digitsVal, List.length_reverse, List.length_cons, pow_succ]
      ring
  have h := this ds 0
  unfold bigEndian
  rw [h]; simp

/-- C09: a literal `0x...` with at least one digit is accepted, is signed, its value is the written
number, and it has the smallest word count that holds all digits and a sign bit. -/
theorem C09_hexLiteral (x : Char) (hx : x = 'x' ∨ x = 'X') (cs : List Char) (hcs : cs ≠ []) (ds : List Nat)
    (hds : List.Forall₂ digitSpec cs ds) :
    ∃ r, hexLiteral ('0' :: x :: cs) = some r ∧ r.signed = true ∧ r.WF ∧ r.value = bigEndian ds ∧
      4 * ds.length ≤ 64 * r.words.length ∧
      ∀ m, m < r.words.length → 64 * m < 4 * ds.length ∨ (2:Nat) ^ (64 * m) ≤ 2 * bigEndian ds := by
  have hm : cs.mapM digitValue = some ds := by
    clear hcs
    induction hds with
    | nil => rfl
    | cons h _ ih => rw [List.mapM_cons, digitValue_correct _ _ h, ih]; rfl
  obtain ⟨hl, hlt⟩ := mapM_length cs ds hm
  have hne : ds ≠ [] := by intro h; subst h; exact hcs (List.length_eq_zero_iff.mp hl.symm)
  obtain ⟨r, e, e1, e2, e3, e4, e5⟩ := hexValue_spec ds.reverse 0 0 [] (by simpa using hlt) (by omega) (by simp)
    Words.nil (fun _ h => by omega) (fun h => by simp at h; exact absurd h hne)
  simp only [List.reverse_nil, val_nil, List.length_nil, pow_zero, Nat.one_mul, Nat.zero_add, List.length_reverse,
    Nat.mul_zero] at e2 e4 e5
  rw [digitsVal_reverse] at e2
  obtain ⟨c, cs', rfl⟩ := List.exists_cons_of_ne_nil hcs
  have hr0 : r ≠ [] := by
    intro h; subst h
    have := List.length_pos_iff.mpr hne
    rw [List.length_nil] at e4; omega
  refine ⟨⟨true, false, r⟩, ?_, rfl, ⟨hr0, e1, by simp⟩, ?_, by simp only; omega, ?_⟩
  · unfold hexLiteral
    simp only [if_pos hx, hm, Option.map_some, e]
  · show sval r = _
    unfold sval; rw [if_pos e3, e2]
  · intro m hm
    rcases e5 m hm with h | h
    · left; omega
    · right; rw [← B_pow_two, ← e2]; exact h

/-- Non-vacuity at the 16-digit boundary: 16 digits with the top bit set take a second word. -/
example : hexLiteral "0x8000000000000001".toList = some ⟨true, false, [H + 1, 0]⟩ ∧
    hexLiteral "0x7000000000000001".toList = some ⟨true, false, [0x7000000000000001]⟩ := by
  constructor <;> decide

/-! ### C10 -/

/-- C10: conversion to `bool` tests for a nonzero value. -/
theorem C10_toBool (x : Opd) (hx : x.WF) : toBool x = true ↔ x.value ≠ 0 := by
  have h1 : toBool x = true ↔ val x.words ≠ 0 := by
    unfold toBool
    rw [Ne, val_eq_zero_iff]
    simp
  rw [h1]
  unfold Opd.value
  split
  · unfold sval
    have hv := val_lt hx.words
    have hv' : (val x.words : Int) < (B:Int)^x.words.length := by exact_mod_cast hv
    split
    · simp
    · rename_i h
      constructor
      · intro _; omega
      · intro _ h0; apply h; rw [h0]; simpa using Nat.pow_pos B_pos
  · simp

/-- C10: conversion to a built-in integer of at most one word keeps the value modulo `2^bits`
(`tw = 1`; every word count of the source). -/
theorem C10_castInt_partial (bits : Nat) (x : List Nat) (hb : bits ≤ 64) : ∀ n, n ≤ x.length → 0 < n →
    castInt bits 1 x n = val (x.take n) % 2 ^ bits := by
  intro n
  induction n with
  | zero => intro _ h; omega
  | succ n ih =>
    intro hn _
    cases n with
    | zero =>
      cases x with
      | nil => simp at hn
      | cons w ws => simp [castInt, castInt.rd0]
    | succ n =>
      have hv := val_rd (ws := x.take (n+1+1)) (n := n+1) (by simp; omega)
      rw [List.take_take, Nat.min_eq_left (by omega)] at hv
      simp only [castInt, show ¬ (1 ≥ n + 2) by omega, if_false]
      rw [ih (by omega) (by omega), hv]
      have hd : 2 ^ bits ∣ B ^ (n+1) * rd (x.take (n+1+1)) (n+1) := by
        rw [B_pow_two]
        exact Dvd.dvd.mul_right (pow_dvd_pow 2 (by omega)) _
      obtain ⟨k, hk⟩ := hd
      rw [hk, Nat.add_mul_mod_self_left]

/-- C10 is false for a built-in target of two words (`__int128`): the high word is shifted by 8 bits
instead of 64, so the two-word value `2^64` converts to `256`. -/
theorem C10_castInt_wide_wrong : castInt 128 2 [0, 1] 2 = 256 ∧ val [0, 1] % 2 ^ 128 = 2 ^ 64 := by
  decide

/-- C10: the floating-point conversion uses the true weights for up to two words. -/
theorem C10_toFloat_partial (p : CarryImpl) (hp : p.Exact) (x : Opd) (hx : x.WF) (hsp : x.spare = false)
    (h2 : x.words.length ≤ 2) : toFloat p x = x.value := by
  have key : ∀ ws : List Nat, ws.length = 2 → unsignedToFloat ws 2 = val ws := by
    intro ws h
    match ws, h with
    | [a, b], _ =>
      have : B = 2 ^ (32 * (0 + 2)) := by decide
      simp only [unsignedToFloat, val_cons, val_nil]
      rw [← this]; simp; ring
  unfold toFloat
  have h0 : 0 < x.words.length := List.length_pos_iff.mpr hx.nonempty
  by_cases h1 : x.words.length > 1
  · have hl : x.words.length = 2 := by omega
    rw [if_pos h1, hl]
    cases hs : x.signed
    · simp only [Bool.false_eq_true, if_false]; rw [key _ hl]; simp [Opd.value, hs]
    · simp only [if_true]
      obtain ⟨m1, m2, m3⟩ := negIf_mag p hp hx hs hsp
      have hn := negative_iff hx hs
      unfold negIf at m1 m2 m3
      split
      · rename_i h
        rw [if_pos h] at m1 m3
        rw [key _ (by omega), m3]
        have := hn.mp h; omega
      · rename_i h
        rw [if_neg h] at m3
        rw [key _ hl, m3]
        have : ¬ x.value < 0 := fun h' => h (hn.mpr h')
        omega
  · rw [if_neg h1]
    obtain ⟨w, hw⟩ := List.length_eq_one_iff.mp (show x.words.length = 1 by omega)
    have hwB : w < B := hx.words w (by rw [hw]; simp)
    have hv : x.value = readVal x.signed x.words := opd_value_eq_readVal x
    rw [hv, hw]
    cases hs : x.signed
    · simp [readVal]
    · rw [readVal_single_true hwB]; simp

/-- C10 is false for three words or more: `2^128` converts to `2^96`. -/
theorem C10_toFloat_three_wrong : toFloat gccImpl ⟨false, false, [0, 0, 1]⟩ = 2 ^ 96 ∧
    (⟨false, false, [0, 0, 1]⟩ : Opd).value = 2 ^ 128 := by
  decide

end PolyOps.LargeInt
