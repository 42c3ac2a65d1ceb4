import Verif.Model.LargeIntMul
import Verif.Props.LargeIntAdd
import Mathlib.Tactic.LinearCombination

/-! Properties C03 and C04 of large_ints.hpp. -/
namespace PolyOps.LargeInt

/-- What a correct `mul1x1` returns. -/
structure MulImpl.Exact (m : MulImpl) : Prop where
  u : ∀ a b, a < B → b < B → (m.u a b).length = 2 ∧ Words (m.u a b) ∧ val (m.u a b) = a * b
  s : ∀ a b, a < B → b < B → (m.s a b).length = 2 ∧ Words (m.s a b) ∧
    sval (m.s a b) = sword a * sword b

/-! ### C04 -/

private theorem B_M : B = M * M := by decide

/-- C04: the standard C++ unsigned double-word product is exact. -/
theorem C04_plainMul_unsigned (a b : Nat) (ha : a < B) (hb : b < B) :
    (plainMulWords a b).1 < B ∧ (plainMulWords a b).2 < B ∧
    (plainMulWords a b).1 + B * (plainMulWords a b).2 = a * b := by
  have ea : a = a % M + M * (a / M) := (Nat.mod_add_div a M).symm
  have eb : b = b % M + M * (b / M) := (Nat.mod_add_div b M).symm
  have hM : 0 < M := by decide
  have a0 : a % M < M := Nat.mod_lt _ hM
  have b0 : b % M < M := Nat.mod_lt _ hM
  have a1 : a / M < M := Nat.div_lt_of_lt_mul (by rw [← B_M]; exact ha)
  have b1 : b / M < M := Nat.div_lt_of_lt_mul (by rw [← B_M]; exact hb)
  unfold plainMulWords
  generalize a % M = x0 at *
  generalize a / M = x1 at *
  generalize b % M = y0 at *
  generalize b / M = y1 at *
  have bound : ∀ x y, x < M → y < M → x * y ≤ (M-1) * (M-1) := fun x y hx hy =>
    Nat.mul_le_mul (by omega) (by omega)
  have p00 := bound x0 y0 a0 b0
  have p10 := bound x1 y0 a1 b0
  have p01 := bound x0 y1 a0 b1
  have p11 := bound x1 y1 a1 b1
  have eab : a * b = x0 * y0 + M * (x1 * y0) + M * (x0 * y1) + M * M * (x1 * y1) := by
    rw [ea, eb]; ring
  rw [eab]
  generalize x0 * y0 = q00 at *
  generalize x1 * y0 = q10 at *
  generalize x0 * y1 = q01 at *
  generalize x1 * y1 = q11 at *
  simp only
  have hor : ∀ c q : Nat, (c * M % B) ||| (q % M) = c * M % B + q % M := by
    intro c q
    have h1 : c * M % B = 2 ^ 32 * (c % M) := by
      rw [B_M, Nat.mul_mod_mul_right]; show _ = M * _; exact Nat.mul_comm _ _
    rw [h1]
    exact (Nat.two_pow_add_eq_or_of_lt (i := 32) (Nat.mod_lt _ hM) _).symm
  rw [hor]
  simp only [B, M] at *
  omega

private theorem plain_u (a b : Nat) (ha : a < B) (hb : b < B) :
    (plainMul.u a b).length = 2 ∧ Words (plainMul.u a b) ∧ val (plainMul.u a b) = a * b := by
  obtain ⟨h1, h2, h3⟩ := C04_plainMul_unsigned a b ha hb
  refine ⟨rfl, Words.cons h1 (Words.cons h2 Words.nil), ?_⟩
  simp only [plainMul, val_cons, val_nil, Nat.mul_zero, Nat.add_zero]
  exact h3

private theorem sword_prod_range {a b : Nat} (ha : a < B) (hb : b < B) :
    -((B:Int)^2) ≤ 2 * (sword a * sword b) ∧ 2 * (sword a * sword b) < (B:Int)^2 := by
  have h1 := sword_range ha
  have h2 := sword_range hb
  have hBH : (B:Int) = 2 * (H:Int) := by decide
  have hH : (0:Int) < H := by decide
  rw [hBH]
  generalize sword a = u at *
  generalize sword b = v at *
  generalize (H:Int) = h at *
  obtain ⟨h1a, h1b⟩ := h1
  obtain ⟨h2a, h2b⟩ := h2
  have e1 : u * v ≤ h * h := by nlinarith
  have e2 : -(h * h) ≤ u * v := by nlinarith
  constructor <;> nlinarith

private theorem sval_two_of_modEq {ws : List Nat} (hl : ws.length = 2) (hw : Words ws) {a b : Nat}
    (ha : a < B) (hb : b < B) (h : (val ws : Int) ≡ sword a * sword b [ZMOD (B:Int)^2]) :
    sval ws = sword a * sword b := by
  have r := sval_range hw
  have m := sval_modEq ws
  rw [hl] at r m
  have : InRange true 2 (sval ws) := by simpa [InRange] using r
  exact inRange_unique this (by simpa [InRange] using sword_prod_range ha hb) (m.trans h)

/-- C04: with the sign correction of lines 1032-1034 the signed product is exact. -/
theorem C04_plainMul_signed (a b : Nat) (ha : a < B) (hb : b < B) :
    (plainMul.s a b).length = 2 ∧ Words (plainMul.s a b) ∧
    sval (plainMul.s a b) = sword a * sword b := by
  obtain ⟨h1, h2, h3⟩ := C04_plainMul_unsigned a b ha hb
  have hw : Words (plainMul.s a b) :=
    Words.cons h1 (Words.cons (Nat.mod_lt _ B_pos) Words.nil)
  refine ⟨rfl, hw, sval_two_of_modEq rfl hw ha hb ?_⟩
  simp only [plainMul, val_cons, val_nil, Nat.mul_zero, Nat.add_zero]
  generalize hr : plainMulWords a b = r at *
  obtain ⟨rl, rh⟩ := r
  simp only at *
  -- the correction word modulo B
  have ext : ∀ x : Nat, x < B → ∃ e : Int, (extendedWord true x : Int) = -e + B * e ∧
      sword x = (x:Int) - B * e := by
    intro x hx
    unfold extendedWord sword
    by_cases hh : H ≤ x
    · refine ⟨1, ?_, ?_⟩
      · rw [if_pos (by simp [hh]), Nat.cast_sub B_pos]; push_cast; ring
      · rw [if_neg (by omega)]; ring
    · refine ⟨0, ?_, ?_⟩
      · rw [if_neg (by simp; omega)]; simp
      · rw [if_pos (by omega)]; ring
  obtain ⟨ea, ea1, ea2⟩ := ext a ha
  obtain ⟨eb, eb1, eb2⟩ := ext b hb
  have h3' : (rl:Int) + B * rh = a * b := by exact_mod_cast h3
  have key : (((rh + (b * extendedWord true a % B + a * extendedWord true b % B)) % B : Nat) : Int)
      ≡ rh + (b * (-ea) + a * (-eb)) [ZMOD B] := by
    push_cast
    refine (Int.mod_modEq _ _).trans (Int.ModEq.add_left _ (Int.ModEq.add ?_ ?_))
    · refine (Int.mod_modEq _ _).trans ?_
      rw [ea1]; exact Int.modEq_iff_dvd.mpr ⟨-(b*ea), by ring⟩
    · refine (Int.mod_modEq _ _).trans ?_
      rw [eb1]; exact Int.modEq_iff_dvd.mpr ⟨-(a*eb), by ring⟩
  obtain ⟨k, hk⟩ := Int.modEq_iff_dvd.mp key
  apply Int.modEq_iff_dvd.mpr
  refine ⟨k + ea * eb, ?_⟩
  rw [ea2, eb2]
  push_cast at hk ⊢
  linear_combination (B:Int) * hk - h3'

theorem C04_plainMul_exact : plainMul.Exact := ⟨plain_u, C04_plainMul_signed⟩

/-- The 128-bit back ends are exact. -/
theorem C04_wideMul_exact : wideMul.Exact := by
  constructor
  · intro a b ha hb
    have h : a * b < B * B := Nat.mul_lt_mul'' ha hb
    refine ⟨rfl, Words.cons (Nat.mod_lt _ B_pos) (Words.cons (Nat.div_lt_of_lt_mul h) Words.nil), ?_⟩
    simp only [wideMul, val_cons, val_nil, Nat.mul_zero, Nat.add_zero]
    exact Nat.mod_add_div _ _
  · intro a b ha hb
    have hB : (0:Int) < B := by decide
    have hBB : (0:Int) < (B:Int) * B := by positivity
    have v0 := Int.emod_nonneg (sword a * sword b) (ne_of_gt hBB)
    have v1 := Int.emod_lt_of_pos (sword a * sword b) hBB
    have m0 := Int.emod_nonneg ((sword a * sword b) % ((B:Int)*B)) (ne_of_gt hB)
    have m1 := Int.emod_lt_of_pos ((sword a * sword b) % ((B:Int)*B)) hB
    have d0 : 0 ≤ (sword a * sword b) % ((B:Int)*B) / B := Int.ediv_nonneg v0 hB.le
    have d1 : (sword a * sword b) % ((B:Int)*B) / B < B := Int.ediv_lt_of_lt_mul hB v1
    have hw : Words (wideMul.s a b) := by
      refine Words.cons ?_ (Words.cons ?_ Words.nil)
      · omega
      · omega
    refine ⟨rfl, hw, sval_two_of_modEq rfl hw ha hb ?_⟩
    simp only [wideMul, val_cons, val_nil, Nat.mul_zero, Nat.add_zero]
    push_cast
    rw [Int.toNat_of_nonneg m0, Int.toNat_of_nonneg d0, Int.emod_add_mul_ediv]
    rw [sq]; exact Int.mod_modEq _ _

/-! ### C03 -/

theorem uopd_wf {ws : List Nat} (h : Words ws) (hl : 0 < ws.length) : (uopd ws).WF :=
  ⟨List.length_pos_iff.mp hl, h, by simp [uopd]⟩

theorem padded_wf {k : Nat} {ws : List Nat} (h : Words ws) (hl : 0 < ws.length) : (padded k ws).WF := by
  refine ⟨?_, ?_, by simp [padded]⟩
  · apply List.length_pos_iff.mp; simp [padded]; omega
  · exact Words.append (by intro w hw; rw [List.eq_of_mem_replicate hw]; exact B_pos) h

@[simp] theorem uopd_value (ws : List Nat) : (uopd ws).value = val ws := by simp [uopd, Opd.value]
@[simp] theorem padded_value (k : Nat) (ws : List Nat) :
    (padded k ws).value = (B:Int)^k * val ws := by
  simp [padded, Opd.value, val_append, val_replicate_zero]

theorem add_unsigned (p : CarryImpl) (hp : p.Exact) {x y : Opd} (hx : x.WF) (hy : y.WF)
    (sx : x.signed = false) (sy : y.signed = false) :
    Words (add p x y).words ∧ (add p x y).words.length = max x.words.length y.words.length ∧
    (val (add p x y).words : Int) ≡ x.value + y.value [ZMOD (B:Int)^(max x.words.length y.words.length)] ∧
    (x.value + y.value < (B:Int)^(max x.words.length y.words.length) →
      (val (add p x y).words : Int) = x.value + y.value) := by
  obtain ⟨h1, h2, h3, h4, h5⟩ := C01_add p hp x y hx hy
  have hc : resCount x y = max x.words.length y.words.length := by
    simp [resCount, intCount, resSigned, sx, sy]
  have hv : (add p x y).value = val (add p x y).words := by simp [Opd.value, h2, sx, sy]
  rw [hc] at h3 h4 h5
  rw [hv] at h4 h5
  refine ⟨h1.words, h3, h4, fun h => h5 ?_⟩
  simp only [sx, sy, Bool.or_self, InRange, Bool.false_eq_true, if_false]
  have e1 : 0 ≤ x.value := by simp [Opd.value, sx]
  have e2 : 0 ≤ y.value := by simp [Opd.value, sy]
  exact ⟨by linarith, h⟩

theorem getD_lt {a : List Nat} (ha : Words a) (i : Nat) : a.getD i 0 < B := by
  rw [List.getD_eq_getElem?_getD]
  rcases h : a[i]? with _ | w
  · exact B_pos
  · exact ha w (List.mem_of_getElem? h)

theorem val_take_succ (a : List Nat) (n : Nat) :
    val (a.take (n+1)) = val (a.take n) + B ^ n * a.getD n 0 := by
  rw [List.getD_eq_getElem?_getD]
  by_cases h : n < a.length
  · rw [List.take_succ_eq_append_getElem h, val_append]
    simp [h, Nat.le_of_lt h]
  · have h' : a.length ≤ n := Nat.le_of_not_lt h
    rw [List.take_of_length_le h', List.take_of_length_le (by omega)]
    simp [List.getElem?_eq_none h']

theorem Words.take {a : List Nat} (ha : Words a) (n : Nat) : Words (a.take n) :=
  fun x hx => ha x (List.mem_of_mem_take hx)
theorem Words.drop {a : List Nat} (ha : Words a) (n : Nat) : Words (a.drop n) :=
  fun x hx => ha x (List.mem_of_mem_drop hx)

theorem umulnx1_spec (p : CarryImpl) (hp : p.Exact) (m : MulImpl) (hm : m.Exact) (a : List Nat)
    (b : Nat) (ha : Words a) (hb : b < B) : ∀ n,
    (umulnx1 p m a b (n+1)).length = n + 2 ∧ Words (umulnx1 p m a b (n+1)) ∧
    val (umulnx1 p m a b (n+1)) = val (a.take (n+1)) * b := by
  intro n
  induction n with
  | zero =>
    obtain ⟨h1, h2, h3⟩ := hm.u (a.getD 0 0) b (getD_lt ha 0) hb
    refine ⟨h1, h2, ?_⟩
    rw [val_take_succ]
    simp only [umulnx1, List.take_zero, val_nil, pow_zero, Nat.one_mul, Nat.zero_add]
    exact h3
  | succ n ih =>
    obtain ⟨i1, i2, i3⟩ := ih
    obtain ⟨h1, h2, h3⟩ := hm.u (a.getD (n+1) 0) b (getD_lt ha _) hb
    have := add_unsigned p hp (uopd_wf i2 (by rw [i1]; omega)) (padded_wf (k := n+1) h2 (by rw [h1]; omega))
      rfl rfl
    have hl : max (uopd (umulnx1 p m a b (n+1))).words.length (padded (n+1) (m.u (a.getD (n+1) 0) b)).words.length = n+1+2 := by
      simp only [uopd, padded, List.length_append, List.length_replicate, List.length_cons, List.length_nil, i1, h1]; omega
    rw [hl] at this
    obtain ⟨k1, k2, k3, k4⟩ := this
    refine ⟨k2, k1, ?_⟩
    simp only [uopd_value, padded_value, i3, h3] at k4
    have e : val (a.take (n+2)) * b = val (a.take (n+1)) * b + B^(n+1) * (a.getD (n+1) 0 * b) := by
      rw [val_take_succ]; ring
    have hlt : val (a.take (n+2)) * b < B ^ (n+3) := by
      have h5 := val_lt (ha.take (n+2))
      have h6 : (a.take (n+2)).length ≤ n+2 := by simp
      have h7 : B ^ (a.take (n+2)).length ≤ B ^ (n+2) := Nat.pow_le_pow_right B_pos h6
      have h8 : val (a.take (n+2)) * b < B^(n+2) * B := by
        apply Nat.mul_lt_mul'' _ hb; omega
      rwa [← pow_succ] at h8
    have k5 := k4 (by
      have : ((val (a.take (n+2)) * b : Nat) : Int) < (B:Int)^(n+3) := by exact_mod_cast hlt
      rw [e] at this
      push_cast at this ⊢
      exact this)
    rw [e]
    exact_mod_cast k5

theorem val_mod_take (x : List Nat) (k : Nat) :
    (val (x.take k) : Int) ≡ val x [ZMOD (B:Int)^k] := by
  rcases Nat.le_total k x.length with h | h
  · conv_rhs => rw [← List.take_append_drop k x]
    rw [val_append]
    simp only [List.length_take, Nat.min_eq_left h]
    push_cast
    exact Int.modEq_iff_dvd.mpr ⟨val (x.drop k), by ring⟩
  · rw [List.take_of_length_le h]

theorem offsetAdd_spec (p : CarryImpl) (hp : p.Exact) (x : List Nat) (hx : Words x) (hx0 : 0 < x.length) :
    ∀ (k s : Nat) (r : List Nat), Words r → r.length = s + k → 0 < r.length →
    (offsetAdd p k s r x).length = s + k ∧ Words (offsetAdd p k s r x) ∧
    ∃ g : Int, (val (offsetAdd p k s r x) : Int) ≡ val r + val x * g [ZMOD (B:Int)^(s+k)] ∧
      g * ((B:Int) - 1) = (B:Int)^(s+k) - (B:Int)^s := by
  intro k
  induction k with
  | zero => intro s r hr hl h0; exact ⟨hl, hr, 0, by simp [offsetAdd], by simp⟩
  | succ k ih =>
    intro s r hr hl h0
    have hpw : (padded s (x.take (k+1))).WF := by
      refine padded_wf (hx.take _) ?_
      rw [List.length_take]; omega
    obtain ⟨a1, a2, a3, a4, _⟩ := C01_addAssign p hp (uopd r) (padded s (x.take (k+1))) (uopd_wf hr h0) rfl hpw
    have ev : (addAssign p (uopd r) (padded s (x.take (k+1)))).value =
        val (addAssign p (uopd r) (padded s (x.take (k+1)))).words := by
      rw [Opd.value, a2]; rfl
    rw [ev] at a4
    simp only [uopd_value, padded_value] at a4
    have a3' : (addAssign p (uopd r) (padded s (x.take (k+1)))).words.length = r.length := a3
    have a4' : (val (addAssign p (uopd r) (padded s (x.take (k+1)))).words : Int) ≡
      val r + (B:Int)^s * val (x.take (k+1)) [ZMOD (B:Int)^(s+(k+1))] := by
      have : (uopd r).words.length = s + (k+1) := hl
      rwa [this] at a4
    obtain ⟨i1, i2, g, i3, i4⟩ := ih (s+1) (addAssign p (uopd r) (padded s (x.take (k+1)))).words
      a1.words (by rw [a3', hl]; omega) (by rw [a3']; exact h0)
    have es : s + 1 + k = s + (k+1) := by omega
    rw [es] at i1 i3 i4
    refine ⟨i1, i2, g + (B:Int)^s, ?_, ?_⟩
    · refine i3.trans ?_
      have e5 : (B:Int)^s * val (x.take (k+1)) ≡ (B:Int)^s * val x [ZMOD (B:Int)^(s+(k+1))] := by
        rw [pow_add]; exact (val_mod_take x (k+1)).mul_left'
      have := (a4'.trans (Int.ModEq.add_left _ e5)).add_right (val x * g)
      refine this.trans ?_
      rw [show (val r : Int) + (B:Int)^s * val x + val x * g = val r + val x * (g + (B:Int)^s) by ring]
    · rw [add_mul, i4]; ring

theorem val_drop_one (b : List Nat) : val b = b.getD 0 0 + B * val (b.drop 1) := by
  cases b with
  | nil => simp
  | cons b bs => simp

theorem offsetMulAdd_spec (p : CarryImpl) (hp : p.Exact) (m : MulImpl) (hm : m.Exact) :
    ∀ (n : Nat) (a b : List Nat), Words a → Words b →
    (offsetMulAdd p m (n+1) a b).length = n + 1 ∧ Words (offsetMulAdd p m (n+1) a b) ∧
    (val (offsetMulAdd p m (n+1) a b) : Int) ≡ val a * val b [ZMOD (B:Int)^(n+1)] := by
  intro n
  induction n with
  | zero =>
    intro a b ha hb
    refine ⟨rfl, Words.cons (Nat.mod_lt _ B_pos) Words.nil, ?_⟩
    simp only [offsetMulAdd, val_cons, val_nil, Nat.mul_zero, Nat.add_zero, Nat.zero_add, pow_one]
    rw [val_drop_one a, val_drop_one b]
    push_cast
    refine (Int.mod_modEq _ _).trans ?_
    exact Int.modEq_iff_dvd.mpr ⟨(a.getD 0 0 : Int) * val (b.drop 1) + val (a.drop 1) * (b.getD 0 0 + B * val (b.drop 1)), by ring⟩
  | succ n ih =>
    intro a b ha hb
    obtain ⟨i1, i2, i3⟩ := ih a (b.drop 1) ha (hb.drop 1)
    have b0 := getD_lt hb 0
    obtain ⟨u1, u2, u3⟩ := umulnx1_spec p hp m hm a (b.getD 0 0) ha b0 n
    have hhi : Words [a.getD (n+1) 0 * b.getD 0 0 % B] := Words.cons (Nat.mod_lt _ B_pos) Words.nil
    have A1 := add_unsigned p hp (uopd_wf u2 (by rw [u1]; omega)) (padded_wf (k := n+1) hhi (by simp)) rfl rfl
    have l1 : max (uopd (umulnx1 p m a (b.getD 0 0) (n+1))).words.length
        (padded (n+1) [a.getD (n+1) 0 * b.getD 0 0 % B]).words.length = n + 2 := by
      simp only [uopd, padded, List.length_append, List.length_replicate, List.length_cons, List.length_nil, u1]; omega
    rw [l1] at A1
    obtain ⟨p1, p2, p3, _⟩ := A1
    have hA : (add p (uopd (umulnx1 p m a (b.getD 0 0) (n+1))) (padded (n+1) [a.getD (n+1) 0 * b.getD 0 0 % B])).signed = false := rfl
    have wA : (add p (uopd (umulnx1 p m a (b.getD 0 0) (n+1))) (padded (n+1) [a.getD (n+1) 0 * b.getD 0 0 % B])).WF :=
      (C01_add p hp _ _ (uopd_wf u2 (by rw [u1]; omega)) (padded_wf hhi (by simp))).1
    have A2 := add_unsigned p hp wA (padded_wf (k := 1) i2 (by rw [i1]; omega)) hA rfl
    have l2 : max (add p (uopd (umulnx1 p m a (b.getD 0 0) (n+1))) (padded (n+1) [a.getD (n+1) 0 * b.getD 0 0 % B])).words.length
        (padded 1 (offsetMulAdd p m (n+1) a (b.drop 1))).words.length = n + 2 := by
      rw [p2]; simp only [padded, List.length_append, List.length_replicate, i1]; omega
    rw [l2] at A2
    obtain ⟨q1, q2, q3, _⟩ := A2
    refine ⟨q2, q1, ?_⟩
    show (val (add p (add p (uopd (umulnx1 p m a (b.getD 0 0) (n+1))) (padded (n+1) [a.getD (n+1) 0 * b.getD 0 0 % B])) (padded 1 (offsetMulAdd p m (n+1) a (b.drop 1)))).words : Int) ≡ _ [ZMOD _]
    refine q3.trans ?_
    have vA : (add p (uopd (umulnx1 p m a (b.getD 0 0) (n+1))) (padded (n+1) [a.getD (n+1) 0 * b.getD 0 0 % B])).value
      = val (add p (uopd (umulnx1 p m a (b.getD 0 0) (n+1))) (padded (n+1) [a.getD (n+1) 0 * b.getD 0 0 % B])).words := by
      rw [Opd.value, hA]; rfl
    rw [vA]
    refine (Int.ModEq.add_right _ p3).trans ?_
    simp only [uopd_value, padded_value, u3, val_cons, val_nil, Nat.mul_zero, Nat.add_zero, pow_one]
    have e1 : (B:Int)^(n+1) * ((a.getD (n+1) 0 * b.getD 0 0 % B : Nat) : Int) ≡ (B:Int)^(n+1) * (a.getD (n+1) 0 * b.getD 0 0) [ZMOD (B:Int)^(n+2)] := by
      rw [pow_succ (B:Int) (n+1)]
      push_cast
      exact (Int.mod_modEq _ _).mul_left'
    have e2 : (B:Int) * val (offsetMulAdd p m (n+1) a (b.drop 1)) ≡ B * (val a * val (b.drop 1)) [ZMOD (B:Int)^(n+2)] := by
      rw [pow_succ' (B:Int) (n+1)]; exact i3.mul_left'
    have e3 : (val (a.take (n+2)) : Int) ≡ val a [ZMOD (B:Int)^(n+2)] := val_mod_take a (n+2)
    refine (Int.ModEq.add (Int.ModEq.add_left _ e1) e2).trans ?_
    have e4 : (val (a.take (n+2)) : Int) = val (a.take (n+1)) + (B:Int)^(n+1) * a.getD (n+1) 0 := by
      exact_mod_cast val_take_succ a (n+1)
    have e5 : (val b : Int) = b.getD 0 0 + B * val (b.drop 1) := by exact_mod_cast val_drop_one b
    rw [e5]
    have : ((val (a.take (n+1)) * b.getD 0 0 : Nat) : Int) + (B:Int)^(n+1) * (a.getD (n+1) 0 * b.getD 0 0) + B * (val a * val (b.drop 1))
        = val (a.take (n+2)) * b.getD 0 0 + B * (val a * val (b.drop 1)) := by rw [e4]; push_cast; ring
    rw [this]
    refine ((e3.mul_right _).add_right _).trans ?_
    rw [show (val a:Int) * b.getD 0 0 + B * (val a * val (b.drop 1)) = val a * (b.getD 0 0 + B * val (b.drop 1)) by ring]

theorem inRange_mul {s : Bool} {n k : Nat} (hn : 0 < n) (hk : 0 < k) {u v : Int} (hu : InRange s n u)
    (hv : InRange s k v) : InRange s (n + k) (u * v) := by
  unfold InRange at *
  have hBn : (0:Int) < (B:Int)^n := by have := Nat.pow_pos (n := n) B_pos; exact_mod_cast this
  have hBk : (0:Int) < (B:Int)^k := by have := Nat.pow_pos (n := k) B_pos; exact_mod_cast this
  rw [pow_add]
  generalize (B:Int)^n = x at *
  generalize (B:Int)^k = y at *
  cases s
  · simp only [Bool.false_eq_true, if_false] at *
    exact ⟨mul_nonneg hu.1 hv.1, mul_lt_mul'' hu.2 hv.2 hu.1 hv.1⟩
  · simp only [if_true] at *
    obtain ⟨a1, a2⟩ := hu
    obtain ⟨b1, b2⟩ := hv
    have e1 : (2*u) * (2*v) ≤ x * y := by nlinarith
    have e2 : -(x * y) ≤ (2*u) * (2*v) := by nlinarith
    constructor <;> nlinarith

theorem sword_modEq_nat (w : Nat) : sword w ≡ w [ZMOD (B:Int)] := by
  unfold sword; split
  · rfl
  · exact Int.modEq_iff_dvd.mpr ⟨1, by ring⟩

/-- The value of an operand through its low words and its top word. -/
theorem value_split {x : Opd} (hx : x.WF) {s : Bool} {n : Nat} (hs : x.signed = true → s = true)
    (hn : intCount s x ≤ n + 1) :
    x.value = val (toWords x n) + (B:Int)^n * (if s then sword (word x n) else (word x n : Int)) := by
  rw [← readVal_toWords hx hs hn, toWords_succ]
  unfold readVal
  cases s
  · simp [val_append]
  · simp only [if_true]
    rw [sval_append_hi _ _ (toWords_words hx n) (word_lt hx n)]
    simp

theorem word_ext {x : Opd} (hx : x.WF) {s : Bool} (hs : x.signed = true → s = true)
    (hn : intCount s x = 1) : word x 1 = extendedWord s (word x 0) := by
  have hlen : x.words.length = 1 := by
    have : 0 < x.words.length := List.length_pos_iff.mpr hx.nonempty
    unfold intCount at hn; omega
  obtain ⟨w, hw⟩ := List.length_eq_one_iff.mp hlen
  have hhi : x.hi = w := by simp [Opd.hi, hw]
  simp only [word, hw, List.getD_cons_succ, List.getD_nil, List.getD_cons_zero, hhi]
  cases hxs : x.signed
  · cases s
    · rfl
    · have hsp : x.spare = true := by
        unfold intCount at hn
        by_contra h
        simp [hxs, h, hlen] at hn
      have := (hx.spare hsp).2
      rw [hhi] at this
      simp [extendedWord]; intro h; omega
  · rw [hs hxs]

/-- C03 for operands in the order used after the swap. -/
theorem mulOrdered_spec (p : CarryImpl) (hp : p.Exact) (m : MulImpl) (hm : m.Exact) (s : Bool)
    (a b : Opd) (ha : a.WF) (hb : b.WF) (has : a.signed = true → s = true)
    (hbs : b.signed = true → s = true) (hle : intCount s b ≤ intCount s a) (r : Opd)
    (hr : mulOrdered p m s a b = some r) :
    r.signed = s ∧ r.words.length = intCount s a + intCount s b ∧ Words r.words ∧
    r.value = a.value * b.value := by
  have hapos : 0 < intCount s a := by
    have : 0 < a.words.length := List.length_pos_iff.mpr ha.nonempty
    unfold intCount; omega
  have hbpos : 0 < intCount s b := by
    have : 0 < b.words.length := List.length_pos_iff.mpr hb.nonempty
    unfold intCount; omega
  have rng := inRange_mul hapos hbpos (value_inRange ha has le_rfl) (value_inRange hb hbs le_rfl)
  unfold mulOrdered at hr
  simp only at hr
  split at hr
  · -- 1 x 1
    rename_i h1
    have h2 : intCount s b = 1 := by omega
    injection hr with hr
    subst hr
    have va := value_split ha has (n := 0) (by omega)
    have vb := value_split hb hbs (n := 0) (by omega)
    simp only [toWords, List.range_zero, List.map_nil, val_nil, pow_zero, one_mul, Nat.cast_zero, zero_add] at va vb
    rw [h1, h2, va, vb]
    cases s
    · obtain ⟨k1, k2, k3⟩ := hm.u (word a 0) (word b 0) (word_lt ha 0) (word_lt hb 0)
      refine ⟨rfl, k1, k2, ?_⟩
      simp only [Opd.value, Bool.false_eq_true, if_false]
      rw [k3]; push_cast; rfl
    · obtain ⟨k1, k2, k3⟩ := hm.s (word a 0) (word b 0) (word_lt ha 0) (word_lt hb 0)
      refine ⟨rfl, k1, k2, ?_⟩
      simp only [Opd.value, if_true]
      exact k3
  · rename_i h1
    split at hr
    · rename_i h2
      cases s
      · simp at hr
      · simp only [if_true] at hr
        injection hr with hr
        subst hr
        obtain ⟨n, hn⟩ : ∃ n, intCount true a = n + 2 := ⟨intCount true a - 2, by omega⟩
        rw [hn] at rng hle ⊢
        simp only [show n + 2 - 1 = n + 1 by omega]
        have wlo := toWords_words ha (n+1)
        have wb0 := word_lt hb 0
        have wb1 := word_lt hb 1
        obtain ⟨u1, u2, u3⟩ := umulnx1_spec p hp m hm (toWords a (n+1)) (word b 0) wlo wb0 n
        obtain ⟨v1, v2, v3⟩ := umulnx1_spec p hp m hm (toWords a (n+1)) (word b 1) wlo wb1 n
        obtain ⟨k1, k2, k3⟩ := hm.s (word a (n+1)) (word b 0) (word_lt ha _) wb0
        have A1 := add_unsigned p hp (uopd_wf u2 (by rw [u1]; omega)) (padded_wf (k := n+1) k2 (by rw [k1]; omega)) rfl rfl
        have l1 : max (uopd (umulnx1 p m (toWords a (n+1)) (word b 0) (n+1))).words.length
            (padded (n+1) (m.s (word a (n+1)) (word b 0))).words.length = n + 3 := by
          simp only [uopd, padded, List.length_append, List.length_replicate, u1, k1]; omega
        rw [l1] at A1
        obtain ⟨p1, p2, p3, _⟩ := A1
        obtain ⟨o1, o2, g, o3, o4⟩ := offsetAdd_spec p hp (umulnx1 p m (toWords a (n+1)) (word b 1) (n+1)) v2
          (by rw [v1]; omega) (n+2) 1 _ p1 (by rw [p2]; omega) (by rw [p2]; omega)
        have e12 : 1 + (n+2) = n + 3 := by omega
        rw [e12] at o1 o3 o4
        refine ⟨trivial, by rw [h2]; exact o1, o2, ?_⟩
        have hmod : (val (offsetAdd p (n+2) 1 (add p (uopd (umulnx1 p m (toWords a (n+1)) (word b 0) (n+1)))
            (padded (n+1) (m.s (word a (n+1)) (word b 0)))).words (umulnx1 p m (toWords a (n+1)) (word b 1) (n+1))) : Int)
            ≡ a.value * b.value [ZMOD (B:Int)^(n+3)] := by
          refine o3.trans ((Int.ModEq.add_right _ p3).trans ?_)
          simp only [uopd_value, padded_value, u3, v3]
          have tk : (toWords a (n+1)).take (n+1) = toWords a (n+1) := List.take_of_length_le (by simp)
          rw [tk]
          have va := value_split ha has (n := n+1) (by omega)
          have vb := value_split hb hbs (n := 0) (by omega)
          simp only [toWords, List.range_zero, List.map_nil, val_nil, pow_zero, one_mul, Nat.cast_zero, zero_add, if_true] at vb
          simp only [if_true] at va
          rw [va, vb]
          -- signed double word
          have e6 : (B:Int)^(n+1) * (val (m.s (word a (n+1)) (word b 0)) : Int) ≡
              (B:Int)^(n+1) * (sword (word a (n+1)) * sword (word b 0)) [ZMOD (B:Int)^(n+3)] := by
            rw [← k3, show n + 3 = n + 1 + 2 by omega, pow_add]
            have := (sval_modEq (m.s (word a (n+1)) (word b 0))).symm
            rw [k1] at this
            exact this.mul_left'
          refine (Int.ModEq.add_right _ (Int.ModEq.add_left _ e6)).trans ?_
          rw [word_ext hb hbs h2]
          generalize word b 0 = w at *
          generalize val (toWords a (n+1)) = lo at *
          have hgoal : ∀ t : Int, ((lo * w : Nat) : Int) + (B:Int)^(n+1) * (sword (word a (n+1)) * sword w) + t
              ≡ (lo + (B:Int)^(n+1) * sword (word a (n+1))) * sword w [ZMOD (B:Int)^(n+3)] ↔
              t ≡ lo * (sword w - w) [ZMOD (B:Int)^(n+3)] := by
            intro t
            rw [Int.modEq_iff_dvd, Int.modEq_iff_dvd]
            have : (lo + (B:Int)^(n+1) * sword (word a (n+1))) * sword w -
              (((lo * w : Nat) : Int) + (B:Int)^(n+1) * (sword (word a (n+1)) * sword w) + t)
              = lo * (sword w - w) - t := by push_cast; ring
            rw [this]
          rw [hgoal]
          unfold extendedWord sword
          by_cases hh : H ≤ w
          · rw [if_pos (by simp [hh]), if_neg (by omega)]
            push_cast [Nat.cast_sub B_pos]
            rw [show (lo:Int) * ((B:Int) - 1) * g = lo * (g * ((B:Int) - 1)) by ring, o4]
            exact Int.modEq_iff_dvd.mpr ⟨-lo, by ring⟩
          · rw [if_neg (by simp; omega), if_pos (by omega)]
            simp
        have rr := readVal_range true o2
        have rm := readVal_modEq true (offsetAdd p (n+2) 1 (add p (uopd (umulnx1 p m (toWords a (n+1)) (word b 0) (n+1)))
            (padded (n+1) (m.s (word a (n+1)) (word b 0)))).words (umulnx1 p m (toWords a (n+1)) (word b 1) (n+1)))
        rw [o1] at rr rm
        rw [h2] at rng
        exact inRange_unique rr rng (rm.trans hmod)
    · rename_i h2
      injection hr with hr
      subst hr
      obtain ⟨n, hn⟩ : ∃ n, intCount s a + intCount s b = n + 1 := ⟨intCount s a + intCount s b - 1, by omega⟩
      rw [hn] at rng ⊢
      obtain ⟨q1, q2, q3⟩ := offsetMulAdd_spec p hp m hm n (toWords a (n+1)) (toWords b (n+1))
        (toWords_words ha _) (toWords_words hb _)
      refine ⟨rfl, q1, q2, ?_⟩
      have rr := readVal_range s q2
      have rm := readVal_modEq s (offsetMulAdd p m (n+1) (toWords a (n+1)) (toWords b (n+1)))
      rw [q1] at rr rm
      refine inRange_unique rr rng (rm.trans (q3.trans ?_))
      exact (val_toWords_modEq ha _).mul (val_toWords_modEq hb _)

/-- C03: whenever `mul` yields a value, it is the exact product, for every word count and
signedness. -/
theorem C03_mul_partial (p : CarryImpl) (hp : p.Exact) (m : MulImpl) (hm : m.Exact) (a b : Opd) (ha : a.WF)
    (hb : b.WF) (r : Opd) (hr : mul p m a b = some r) :
    r.signed = (a.signed || b.signed) ∧ Words r.words ∧ r.value = a.value * b.value := by
  unfold mul at hr
  simp only at hr
  split at hr
  · rename_i h
    obtain ⟨h1, _, h2, h3⟩ := mulOrdered_spec p hp m hm _ b a hb ha resSigned_right resSigned_left
      (Nat.le_of_lt h) r hr
    exact ⟨h1, h2, by rw [h3, mul_comm]⟩
  · rename_i h
    obtain ⟨h1, _, h2, h3⟩ := mulOrdered_spec p hp m hm _ a b ha hb resSigned_left resSigned_right
      (by omega) r hr
    exact ⟨h1, h2, h3⟩

/-- C03: `mul` yields a value in every case but one: both operands unsigned, one of them a single
word and the other longer (large_ints.hpp:1098, where the unsigned branch has no return). -/
theorem C03_mul_defined_iff (p : CarryImpl) (m : MulImpl) (a b : Opd) (ha : a.WF) (hb : b.WF) :
    mul p m a b = none ↔ a.signed = false ∧ b.signed = false ∧
      min a.words.length b.words.length = 1 ∧ 1 < max a.words.length b.words.length := by
  have la : 0 < a.words.length := List.length_pos_iff.mpr ha.nonempty
  have lb : 0 < b.words.length := List.length_pos_iff.mpr hb.nonempty
  unfold mul mulOrdered
  simp only
  cases has : a.signed <;> cases hbs : b.signed <;>
    simp only [resSigned, has, hbs, intCount, Bool.or_false, Bool.or_true, Bool.or_self, Bool.false_and,
      Bool.true_and, Bool.not_true, Bool.false_eq_true, Bool.true_eq_false, if_false, if_true, Nat.add_zero,
      false_and, and_false, true_and, iff_false] <;>
    (repeat' split) <;> simp only [reduceCtorEq, not_false_eq_true, true_iff, false_iff] <;> omega

/-- The built-in branch is exact for signed operands of at most 4 bytes each. -/
theorem C03_mulSmall_signed (sa sb : Nat) (ha : sa = 1 ∨ sa = 2 ∨ sa = 4) (hb : sb = 1 ∨ sb = 2 ∨ sb = 4)
    (a b : Int) (hra : fitsBits true (8*sa) a) (hrb : fitsBits true (8*sb) b) :
    mulSmall sa sb a b = some (a * b) := by
  have key : fitsBits true (if sa + sb ≤ 4 then 32 else 64) (a * b) := by
    unfold fitsBits at *
    simp only [if_true] at *
    rcases ha with rfl | rfl | rfl <;> rcases hb with rfl | rfl | rfl <;> norm_num at * <;>
      constructor <;> nlinarith
  simp [mulSmall, key]

/-- C03 fails for two 32-bit unsigned operands: the product is formed in a signed 64-bit type and
overflows (undefined behaviour). -/
theorem C03_mulSmall_unsigned_overflow :
    fitsBits false 32 4294967295 ∧ mulSmall 4 4 4294967295 4294967295 = none := by
  refine ⟨by decide, by decide⟩

/-- Non-vacuity: a mixed-size signed product. -/
example : (mul gccImpl plainMul ⟨true, false, [B-1, B-1, B-1]⟩ ⟨true, false, [5]⟩).map Opd.value = some (-5) := by
  decide

end PolyOps.LargeInt
