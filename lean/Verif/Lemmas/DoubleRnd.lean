import Verif.Model.Double
import Verif.Lemmas.NearRange
import Mathlib.Tactic.Positivity
import Mathlib.Tactic.FieldSimp
import Mathlib.Algebra.Order.Field.Power

/-! Rounding to 53 bits keeps order and integers and has a small relative error. -/
namespace PolyOps.Double
open PolyOps PolyOps.Planarity

theorem pow2_eq (e : Int) : pow2 e = (2 : Rat) ^ e := by
  unfold pow2
  split
  · rename_i h
    conv_rhs => rw [← Int.toNat_of_nonneg h]
    rw [zpow_natCast]
  · rename_i h
    have : e = -((-e).toNat : Int) := by omega
    conv_rhs => rw [this]
    rw [zpow_neg, zpow_natCast, one_div]

theorem pow2_pos (e : Int) : 0 < pow2 e := by rw [pow2_eq]; positivity

theorem pow2_add (e f : Int) : pow2 (e + f) = pow2 e * pow2 f := by
  rw [pow2_eq, pow2_eq, pow2_eq, zpow_add₀ (by norm_num)]

theorem pow2_mono {e f : Int} (h : e ≤ f) : pow2 e ≤ pow2 f := by
  rw [pow2_eq, pow2_eq]; exact zpow_le_zpow_right₀ (by norm_num) h

theorem pow2_lt {e f : Int} (h : pow2 e < pow2 f) : e < f := by
  by_contra hc; exact absurd (pow2_mono (not_lt.mp hc)) (not_le.mpr h)

theorem nearest_int (n : Int) : nearest n = n := by
  unfold nearest; simp

theorem nearest_err (q : Rat) : |(nearest q : Rat) - q| ≤ 1 / 2 := by
  have h1 := Int.floor_le q
  have h2 := Int.lt_floor_add_one q
  unfold nearest
  simp only
  rw [abs_le]
  split_ifs <;> push_cast <;> constructor <;> linarith

theorem nearest_mono {p q : Rat} (h : p ≤ q) : nearest p ≤ nearest q := by
  have hf := Int.floor_mono h
  have h1 := Int.floor_le p
  have h2 := Int.lt_floor_add_one p
  have h3 := Int.floor_le q
  have h4 := Int.lt_floor_add_one q
  rcases hf.lt_or_eq with c | c
  · have a : nearest p ≤ ⌊p⌋ + 1 := by unfold nearest; simp only; split_ifs <;> omega
    have b : ⌊q⌋ ≤ nearest q := by unfold nearest; simp only; split_ifs <;> omega
    omega
  · unfold nearest
    simp only
    rw [c] at h1 ⊢
    split_ifs <;> first | omega | (exfalso; linarith)

theorem expo_spec {q : Rat} (h : 0 < q) : pow2 (expo q) ≤ q ∧ q < pow2 (expo q + 1) := by
  have hn : 0 < q.num := Rat.num_pos.mpr h
  have hd := q.den_pos
  have n1 : 2 ^ Nat.log2 q.num.natAbs ≤ q.num.natAbs := Nat.log2_self_le (by omega)
  have n2 : q.num.natAbs < 2 ^ (Nat.log2 q.num.natAbs + 1) := Nat.lt_log2_self
  have d1 : 2 ^ Nat.log2 q.den ≤ q.den := Nat.log2_self_le (by omega)
  have d2 : q.den < 2 ^ (Nat.log2 q.den + 1) := Nat.lt_log2_self
  have hq : q = (q.num.natAbs : Rat) / q.den := by
    conv_lhs => rw [← Rat.num_div_den q]
    congr 1
    rw [Nat.cast_natAbs, abs_of_pos hn]
  unfold expo
  simp only
  generalize q.num.natAbs = N at *
  generalize q.den = D at *
  have hD : (0 : Rat) < D := by exact_mod_cast hd
  have n1' : (2 : Rat) ^ (Nat.log2 N) ≤ N := by exact_mod_cast n1
  have n2' : (N : Rat) < 2 ^ (Nat.log2 N + 1) := by exact_mod_cast n2
  have d1' : (2 : Rat) ^ (Nat.log2 D) ≤ D := by exact_mod_cast d1
  have d2' : (D : Rat) < 2 ^ (Nat.log2 D + 1) := by exact_mod_cast d2
  have key : ∀ a b : Nat, pow2 ((a : Int) - b) = 2 ^ a / 2 ^ b := by
    intro a b; rw [pow2_eq, zpow_sub₀ (by norm_num), zpow_natCast, zpow_natCast]
  have lo : pow2 ((Nat.log2 N : Int) - Nat.log2 D - 1) ≤ q := by
    have : (Nat.log2 N : Int) - Nat.log2 D - 1 = (Nat.log2 N : Int) - ((Nat.log2 D + 1 : Nat) : Int) := by push_cast; ring
    rw [this, key, hq, div_le_div_iff₀ (by positivity) hD]
    exact mul_le_mul n1' d2'.le hD.le (by positivity)
  have hi : q < pow2 ((Nat.log2 N : Int) - Nat.log2 D + 1) := by
    have : (Nat.log2 N : Int) - Nat.log2 D + 1 = ((Nat.log2 N + 1 : Nat) : Int) - (Nat.log2 D : Int) := by push_cast; ring
    rw [this, key, hq, div_lt_div_iff₀ hD (by positivity)]
    exact mul_lt_mul n2' d1' (by positivity) (by positivity)
  split
  · rename_i c
    refine ⟨lo, ?_⟩
    rw [sub_add_cancel]; exact c
  · rename_i c
    exact ⟨not_lt.mp c, hi⟩

theorem pow2_52 : pow2 52 = ((2 ^ 52 : Int) : Rat) := by rw [pow2_eq]; norm_num
theorem pow2_53 : pow2 53 = ((2 ^ 53 : Int) : Rat) := by rw [pow2_eq]; norm_num

/-- The rounded number is between the powers of two around the number. -/
theorem dblPos_between {q : Rat} (h : 0 < q) : pow2 (expo q) ≤ dblPos q ∧ dblPos q ≤ pow2 (expo q + 1) := by
  obtain ⟨h1, h2⟩ := expo_spec h
  have hp := pow2_pos (expo q - 52)
  have e1 : pow2 (expo q) = pow2 52 * pow2 (expo q - 52) := by rw [← pow2_add]; congr 1; ring
  have e2 : pow2 (expo q + 1) = pow2 53 * pow2 (expo q - 52) := by rw [← pow2_add]; congr 1; ring
  have n1 : nearest (pow2 52) ≤ nearest (q / pow2 (expo q - 52)) := nearest_mono (by rw [le_div_iff₀ hp, ← e1]; exact h1)
  have n2 : nearest (q / pow2 (expo q - 52)) ≤ nearest (pow2 53) := nearest_mono (by rw [div_le_iff₀ hp, ← e2]; exact h2.le)
  rw [pow2_52, nearest_int] at n1
  rw [pow2_53, nearest_int] at n2
  unfold dblPos
  simp only
  rw [e1, e2, pow2_52, pow2_53]
  exact ⟨mul_le_mul_of_nonneg_right (by exact_mod_cast n1) hp.le, mul_le_mul_of_nonneg_right (by exact_mod_cast n2) hp.le⟩

theorem dblPos_mono {p q : Rat} (h : 0 < p) (hpq : p ≤ q) : dblPos p ≤ dblPos q := by
  have hq := h.trans_le hpq
  have a := expo_spec h
  have b := expo_spec hq
  rcases lt_trichotomy (expo p) (expo q) with c | c | c
  · exact (dblPos_between h).2.trans ((pow2_mono (by omega)).trans (dblPos_between hq).1)
  · unfold dblPos
    simp only
    rw [c]
    have hp := pow2_pos (expo q - 52)
    refine mul_le_mul_of_nonneg_right ?_ hp.le
    exact_mod_cast nearest_mono (div_le_div_of_nonneg_right hpq hp.le)
  · exfalso
    have : pow2 (expo p) < pow2 (expo q + 1) := a.1.trans_lt (hpq.trans_lt b.2)
    have := pow2_lt this
    omega

theorem dblPos_err {q : Rat} (h : 0 < q) : |dblPos q - q| ≤ 1 / 2 ^ 53 * q := by
  have a := (expo_spec h).1
  have hp := pow2_pos (expo q - 52)
  have e1 : pow2 (expo q) = pow2 52 * pow2 (expo q - 52) := by rw [← pow2_add]; congr 1; ring
  have hn := nearest_err (q / pow2 (expo q - 52))
  unfold dblPos
  simp only
  have : (nearest (q / pow2 (expo q - 52)) : Rat) * pow2 (expo q - 52) - q =
      (nearest (q / pow2 (expo q - 52)) - q / pow2 (expo q - 52)) * pow2 (expo q - 52) := by field_simp
  rw [this, abs_mul, abs_of_pos hp]
  have h1 := mul_le_mul_of_nonneg_right hn hp.le
  rw [e1, pow2_52] at a
  push_cast at a
  linarith

theorem dblPos_int {n : Int} (h : 0 < n) (hn : n < 2 ^ 53) : dblPos n = n := by
  have hq : (0 : Rat) < n := by exact_mod_cast h
  have a := (expo_spec hq).1
  have hp := pow2_pos (expo (n : Rat) - 52)
  have : pow2 (expo (n : Rat)) < pow2 53 := a.trans_lt (by rw [pow2_53]; exact_mod_cast hn)
  have := pow2_lt this
  obtain ⟨k, hk⟩ : ∃ k : Nat, expo (n : Rat) - 52 = -(k : Int) := ⟨(52 - expo (n : Rat)).toNat, by omega⟩
  unfold dblPos
  simp only
  rw [hk]
  have e : (n : Rat) / pow2 (-(k : Int)) = ((n * 2 ^ k : Int) : Rat) := by
    rw [pow2_eq, zpow_neg, zpow_natCast]; push_cast; field_simp
  rw [e, nearest_int, pow2_eq, zpow_neg, zpow_natCast]
  push_cast
  field_simp

theorem dbl_pos {q : Rat} (h : 0 < q) : dbl q = dblPos q := by unfold dbl; rw [if_neg h.ne', if_neg h.le.not_gt]
theorem dbl_neg {q : Rat} (h : q < 0) : dbl q = - dblPos (-q) := by unfold dbl; rw [if_neg h.ne, if_pos h]
theorem dbl_zero : dbl 0 = 0 := by unfold dbl; rw [if_pos rfl]

theorem dblPos_pos {q : Rat} (h : 0 < q) : 0 < dblPos q := (pow2_pos _).trans_le (dblPos_between h).1

theorem dbl_mono {p q : Rat} (h : p ≤ q) : dbl p ≤ dbl q := by
  rcases lt_trichotomy p 0 with a | rfl | a
  · rw [dbl_neg a]
    rcases lt_trichotomy q 0 with b | rfl | b
    · rw [dbl_neg b]
      have := dblPos_mono (p := -q) (q := -p) (by linarith) (by linarith)
      linarith
    · rw [dbl_zero]; have := dblPos_pos (q := -p) (by linarith); linarith
    · rw [dbl_pos b]
      have := dblPos_pos (q := -p) (by linarith); have := dblPos_pos b; linarith
  · rw [dbl_zero]
    rcases h.lt_or_eq with b | b
    · rw [dbl_pos b]; exact (dblPos_pos b).le
    · rw [← b, dbl_zero]
  · rw [dbl_pos a, dbl_pos (a.trans_le h)]; exact dblPos_mono a h

theorem dbl_err : RelErr dbl (1 / 2 ^ 53) := by
  intro q
  rcases lt_trichotomy q 0 with a | rfl | a
  · rw [dbl_neg a, abs_of_neg a]
    have := dblPos_err (q := -q) (by linarith)
    rw [show - dblPos (-q) - q = -(dblPos (-q) - -q) by ring, abs_neg]; exact this
  · rw [dbl_zero]; simp
  · rw [dbl_pos a, abs_of_pos a]; exact dblPos_err a

theorem dbl_int {n : Int} (h : |n| < 2 ^ 53) : dbl n = n := by
  rw [abs_lt] at h
  rcases lt_trichotomy n 0 with a | rfl | a
  · have a' : (n : Rat) < 0 := by exact_mod_cast a
    rw [dbl_neg a']
    have := dblPos_int (n := -n) (by omega) (by omega)
    push_cast at this
    rw [this]; ring
  · simpa using dbl_zero
  · rw [dbl_pos (by exact_mod_cast a)]; exact dblPos_int a h.2

/-- Doubles are good enough for coordinates that differ by at most 90000. -/
theorem dbl_arith : Arith dbl (1 / 2 ^ 53) 90000 where
  mono := ⟨fun _ _ => dbl_mono, dbl_zero, by simpa using dbl_int (n := 1) (by norm_num), by simpa using dbl_int (n := -1) (by norm_num)⟩
  nonneg := by norm_num
  le := by norm_num
  err := dbl_err
  exact n hn := dbl_int (by omega)
  small := by norm_num

end PolyOps.Double
