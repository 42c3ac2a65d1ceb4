import Verif.Model.LargeIntDiv
import Verif.Props.LargeIntShift
import Verif.Props.LargeIntMul

/-! Helper lemmas about the unsigned division algorithms. -/
namespace PolyOps.LargeInt

theorem uwf {ws : List Nat} (h : Words ws) (hl : 0 < ws.length) : (⟨false, false, ws⟩ : Opd).WF :=
  ⟨by simpa [List.length_pos_iff] using hl, h, by simp⟩

theorem shiftRightArr_one {b : List Nat} (hb : Words b) (hl : 0 < b.length) :
    ∃ r, shiftRightArr false true [] b 1 = some r ∧ r.length = b.length ∧ Words r ∧ val r = val b / 2 := by
  obtain ⟨r, h1, h2, h3, h4, h5, h6⟩ := C06_shiftRight ⟨false, false, b⟩ (uwf hb hl) rfl b rfl 1
    (by show 1 < 64 * b.length; omega)
  rw [shiftRightAssign, Option.map_eq_some_iff] at h2
  obtain ⟨ws, e1, e2⟩ := h2
  subst e2
  refine ⟨ws, e1, h4, h5, ?_⟩
  simp [Opd.value] at h6
  omega

theorem shiftLeftArr_val {b : List Nat} (hb : Words b) (hl : 0 < b.length) (k : Nat)
    (hk : val b * 2 ^ k < B ^ b.length) :
    (shiftLeftArr true [] b k).length = b.length ∧ Words (shiftLeftArr true [] b k) ∧
      val (shiftLeftArr true [] b k) = val b * 2 ^ k := by
  obtain ⟨h1, h2, h3, h4, h5⟩ := C06_shiftLeft ⟨false, false, b⟩ (uwf hb hl) rfl b rfl k
  rw [h1] at h2 h3 h5
  refine ⟨h2, h3, ?_⟩
  have := h5 (by
    simp only [InRange, Opd.value, Bool.false_eq_true, if_false]
    exact ⟨by positivity, by exact_mod_cast hk⟩)
  simp only [shiftLeftAssign, Opd.value, Bool.false_eq_true, if_false] at this
  exact_mod_cast this

theorem rd_last {ws : List Nat} {n : Nat} (h : ws.length = n + 1) : ws = ws.take n ++ [rd ws n] := by
  conv_lhs => rw [← List.take_append_drop n ws]
  congr 1
  have : n < ws.length := by omega
  rw [List.drop_eq_getElem_cons this, List.drop_eq_nil_of_le (by omega)]
  unfold rd; simp [List.getD_eq_getElem?_getD, this]

theorem val_rd {ws : List Nat} {n : Nat} (h : ws.length = n + 1) :
    val ws = val (ws.take n) + B ^ n * rd ws n := by
  conv_lhs => rw [rd_last h]
  rw [val_append]; simp [h]

theorem B_eq_two64 : B = 2 ^ 64 := by decide

theorem clzWord_spec {w : Nat} (hw : w < B) : clzWord w ≤ 64 ∧ w < 2 ^ (64 - clzWord w) ∧
    (w ≠ 0 → clzWord w < 64 ∧ 2 ^ (63 - clzWord w) ≤ w) := by
  unfold clzWord
  split
  · rename_i h; subst h; simp
  · rename_i h
    have h1 : Nat.log2 w < 64 := by
      rw [Nat.log2_lt h, ← B_eq_two64]; exact hw
    have h2 := Nat.log2_self_le h
    have h3 := Nat.lt_log2_self (n := w)
    refine ⟨by omega, ?_, fun _ => ⟨by omega, ?_⟩⟩
    · rw [show 64 - (63 - w.log2) = w.log2 + 1 by omega]; exact h3
    · rw [show 63 - (63 - w.log2) = w.log2 by omega]; exact h2

theorem B_pow_two (n : Nat) : B ^ n = 2 ^ (64 * n) := by
  rw [B_eq_two64, ← pow_mul]

theorem countlZero_take (x : List Nat) : ∀ n, ∀ m, n ≤ m → countlZero (x.take m) n = countlZero x n := by
  intro n
  induction n with
  | zero => intro m _; rfl
  | succ n ih =>
    intro m hm
    have hr : rd (x.take m) n = rd x n := by
      unfold rd; simp [List.getD_eq_getElem?_getD, List.getElem?_take, show n < m by omega]
    cases n with
    | zero => simp only [countlZero, hr]
    | succ n => simp only [countlZero, hr, ih m (by omega)]

theorem clz_shift (n C V : Nat) (h : C ≤ 64 * (n+1) ∧ V < 2 ^ (64 * (n+1) - C) ∧
    (V ≠ 0 → C < 64 * (n+1) ∧ 2 ^ (64 * (n+1) - C - 1) ≤ V)) :
    C + 64 ≤ 64 * (n+1+1) ∧ V < 2 ^ (64 * (n+1+1) - (C + 64)) ∧
    (V ≠ 0 → C + 64 < 64 * (n+1+1) ∧ 2 ^ (64 * (n+1+1) - (C + 64) - 1) ≤ V) := by
  obtain ⟨h1, h2, h3⟩ := h
  have e : 64 * (n + 1 + 1) - (C + 64) = 64 * (n+1) - C := by clear h2 h3; omega
  rw [e]
  refine ⟨by clear h2 h3; omega, h2, fun h => ⟨?_, (h3 h).2⟩⟩
  have := (h3 h).1
  clear h2 h3; omega

/-- `countl_zero` brackets the value between consecutive powers of two. -/
theorem countlZero_spec : ∀ (n : Nat) (x : List Nat), x.length = n + 1 → Words x →
    countlZero x (n+1) ≤ 64 * (n+1) ∧ val x < 2 ^ (64 * (n+1) - countlZero x (n+1)) ∧
    (val x ≠ 0 → countlZero x (n+1) < 64 * (n+1) ∧ 2 ^ (64 * (n+1) - countlZero x (n+1) - 1) ≤ val x) := by
  intro n
  induction n with
  | zero =>
    intro x hl hx
    obtain ⟨w, rfl⟩ := List.length_eq_one_iff.mp hl
    have := clzWord_spec hx.head
    rw [show 63 - clzWord w = 64 - clzWord w - 1 by omega] at this
    have e : rd [w] 0 = w := rfl
    have e2 : val [w] = w := by simp
    rw [e2]
    simp only [countlZero, e]
    exact this
  | succ n ih =>
    intro x hl hx
    have hv := val_rd hl
    have hlt := rd_lt hx (n+1)
    simp only [countlZero]
    split
    · rename_i h0
      rw [h0, Nat.mul_zero, Nat.add_zero] at hv
      have hx2 : (x.take (n+1)).length = n + 1 := by simp; omega
      have key := ih (x.take (n+1)) hx2 (Words.take hx _)
      rw [countlZero_take x _ _ le_rfl] at key
      rw [hv]
      generalize val (x.take (n+1)) = V at *
      generalize countlZero x (n+1) = C at *
      exact clz_shift n C V key
    · rename_i h0
      obtain ⟨c1, c2, c3⟩ := clzWord_spec hlt
      obtain ⟨c4, c5⟩ := c3 h0
      have htk := val_lt (Words.take hx (n+1))
      rw [show (x.take (n+1)).length = n+1 by simp; omega] at htk
      generalize clzWord (rd x (n+1)) = c at *
      have e1 : 64 * (n + 1 + 1) - c = 64 * (n+1) + (64 - c) := by omega
      have e2 : 64 * (n + 1 + 1) - c - 1 = 64 * (n+1) + (63 - c) := by omega
      refine ⟨by omega, ?_, fun _ => ⟨by omega, ?_⟩⟩
      · rw [e1, pow_add, ← B_pow_two, hv]
        generalize B^(n+1) = P at *
        generalize 2 ^ (64 - c) = T at *
        nlinarith
      · rw [e2, pow_add, ← B_pow_two, hv]
        generalize B^(n+1) = P at *
        generalize 2 ^ (63 - c) = T at *
        nlinarith

/-! ### word-by-word division -/

theorem divEachWord_spec {b : Nat} (hb : 0 < b) : ∀ (n : Nat) (a : List Nat) (hi : Nat), n ≤ a.length →
    Words a → hi < b →
    ∃ q r, divEachWord a b n hi = some (q, r) ∧ q.length = n ∧ Words q ∧ r < b ∧
      hi * B ^ n + val (a.take n) = val q * b + r := by
  intro n
  induction n with
  | zero => intro a hi _ _ h; exact ⟨[], hi, rfl, rfl, Words.nil, h, by simp⟩
  | succ n ih =>
    intro a hi hl ha h
    have hr : (hi * B + rd a n) % b < b := Nat.mod_lt _ hb
    obtain ⟨q, r, e1, e2, e3, e4, e5⟩ := ih a ((hi * B + rd a n) % b) (by omega) ha hr
    have hq : (hi * B + rd a n) / b < B := by
      rw [Nat.div_lt_iff_lt_mul hb]
      have := rd_lt ha n
      calc hi * B + rd a n < (hi + 1) * B := by nlinarith
        _ ≤ b * B := Nat.mul_le_mul_right _ h
        _ = B * b := Nat.mul_comm _ _
    refine ⟨q ++ [(hi * B + rd a n) / b], r, ?_, by simp [e2], e3.append (Words.cons hq Words.nil), e4, ?_⟩
    · simp only [divEachWord, divInstr, if_pos h, e1]
    · have hv := val_rd (ws := a.take (n+1)) (n := n) (by simp; omega)
      have hrd : rd (a.take (n+1)) n = rd a n := by
        unfold rd; simp [List.getD_eq_getElem?_getD, List.getElem?_take]
      rw [hrd, List.take_take, Nat.min_eq_left (by omega)] at hv
      rw [hv, val_append, e2]
      simp only [val_cons, val_nil, Nat.mul_zero, Nat.add_zero]
      have hd := Nat.div_add_mod (hi * B + rd a n) b
      generalize (hi * B + rd a n) / b = Q at *
      generalize (hi * B + rd a n) % b = R at *
      calc hi * B ^ (n+1) + (val (a.take n) + B^n * rd a n)
          = (hi * B + rd a n) * B^n + val (a.take n) := by ring
        _ = (b * Q + R) * B^n + val (a.take n) := by rw [hd]
        _ = b * Q * B^n + (R * B^n + val (a.take n)) := by ring
        _ = _ := by rw [e5]; ring

theorem quot_unique {a b q r : Nat} (h : a = q * b + r) (hr : r < b) : q = a / b ∧ r = a % b := by
  subst h
  have hb : 0 < b := by omega
  rw [Nat.mul_comm q b, Nat.mul_add_div hb, Nat.div_eq_of_lt hr, Nat.mul_add_mod, Nat.mod_eq_of_lt hr]
  simp

theorem words_replicate_zero (n : Nat) : Words (List.replicate n 0) := by
  intro w hw; rw [List.eq_of_mem_replicate hw]; exact B_pos

theorem udivmodLong_spec {a : List Nat} {b : Nat} (ha : Words a) (hl : 0 < a.length) (hb : 0 < b) (hbB : b < B) :
    ∃ q r, udivmodLong a b = some (q, r) ∧ q.length = a.length ∧ r.length = a.length ∧ Words q ∧ Words r ∧
      val q = val a / b ∧ val r = val a % b := by
  unfold udivmodLong
  by_cases h : a.length > 1
  · obtain ⟨q, r, e1, e2, e3, e4, e5⟩ := divEachWord_spec hb a.length a 0 le_rfl ha hb
    simp only [if_pos h, e1, Option.map_some]
    rw [List.take_length, Nat.zero_mul, Nat.zero_add] at e5
    obtain ⟨u1, u2⟩ := quot_unique e5 e4
    refine ⟨q, _, rfl, e2, by simp; omega, e3, Words.cons (by omega) (words_replicate_zero _), u1, ?_⟩
    rw [val_cons, val_replicate_zero]; simpa using u2
  · obtain ⟨w, rfl⟩ := List.length_eq_one_iff.mp (show a.length = 1 by omega)
    have hw := ha.head
    simp only [List.length_singleton, gt_iff_lt, Nat.lt_irrefl, if_false, Nat.ne_of_gt hb]
    refine ⟨_, _, rfl, rfl, rfl, Words.cons ?_ Words.nil, Words.cons ?_ Words.nil, by simp [rd], by simp [rd]⟩
    · exact lt_of_le_of_lt (Nat.div_le_self _ _) (by simpa [rd] using hw)
    · exact lt_of_le_of_lt (Nat.mod_le _ _) (by simpa [rd] using hw)

/-! ### shift and subtract -/

theorem ssStep_spec (p : CarryImpl) (hp : p.Exact) {N : Nat} (hN : 0 < N) (st : SS)
    (hal : st.a.length = N) (hbl : st.b.length = N) (ha : Words st.a) (hb : Words st.b) :
    ∃ st', ssStep p st = some st' ∧ st'.a.length = N ∧ st'.b.length = N ∧ Words st'.a ∧ Words st'.b ∧
      val st'.b = val st.b / 2 ∧
      (if val st.b ≤ val st.a then val st'.a + val st.b = val st.a ∧ st'.q = (st.q * 2) % B + 1
       else val st'.a = val st.a ∧ st'.q = (st.q * 2) % B) := by
  obtain ⟨r, r1, r2, r3, r4⟩ := shiftRightArr_one hb (by omega)
  obtain ⟨s1, s2, s3, s4⟩ := subborrowTo_spec p hp st.a st.b 0 (by omega) ha hb (by omega)
  have hlt := val_lt s2
  rw [s1] at hlt
  have hltb := val_lt hb
  have hlta := val_lt ha
  rw [hbl] at hltb
  rw [hal] at hlta hlt s4
  unfold ssStep
  simp only [r1, Option.map_some]
  have hsl : st.q <<< 1 = st.q * 2 := by simp [Nat.shiftLeft_eq]
  have hor : ((st.q * 2) % B) ||| 1 = (st.q * 2) % B + 1 := by
    have he : (st.q * 2) % B = 2 * ((st.q * 2) % B / 2) := by simp only [B]; omega
    rw [he]
    generalize (st.q * 2) % B / 2 = k
    have := Nat.two_pow_add_eq_or_of_lt (i := 1) (b := 1) (by decide) k
    simpa using this.symm
  have hc : (subborrowTo p st.a st.b 0).2 = 0 ∨ (subborrowTo p st.a st.b 0).2 = 1 := by omega
  rcases hc with h | h
  · rw [h] at s4
    simp only [if_pos h]
    refine ⟨_, rfl, by simpa [s1] using hal, by simpa [r2] using hbl, s2, r3, r4, ?_⟩
    rw [if_pos (by omega), hsl, hor]
    exact ⟨by simp only; omega, rfl⟩
  · rw [h] at s4
    simp only [if_neg (show ¬ (subborrowTo p st.a st.b 0).2 = 0 by omega)]
    refine ⟨_, rfl, hal, by simpa [r2] using hbl, ha, r3, r4, ?_⟩
    rw [if_neg (by omega), hsl]
    exact ⟨rfl, rfl⟩

theorem ssIter_spec (p : CarryImpl) (hp : p.Exact) {N : Nat} (hN : 0 < N) (D : Nat) : ∀ (k m : Nat) (st : SS),
    k ≤ m → st.a.length = N → st.b.length = N → Words st.a → Words st.b →
    val st.a < D * 2 ^ m → (0 < m → val st.b * 2 = D * 2 ^ m) → st.q * 2 ^ k + 2 ^ k ≤ B →
    ∃ st' Q, ssIter p k st = some st' ∧ st'.a.length = N ∧ st'.b.length = N ∧ Words st'.a ∧ Words st'.b ∧
      val st'.a < D * 2 ^ (m - k) ∧ (0 < m - k → val st'.b * 2 = D * 2 ^ (m - k)) ∧
      Q < 2 ^ k ∧ st'.q = st.q * 2 ^ k + Q ∧ val st.a = val st'.a + D * 2 ^ (m - k) * Q := by
  intro k
  induction k with
  | zero =>
    intro m st _ hal hbl ha hb h1 h2 h3
    exact ⟨st, 0, rfl, hal, hbl, ha, hb, h1, h2, by simp, by simp, by simp⟩
  | succ k ih =>
    intro m st hm hal hbl ha hb h1 h2 h3
    obtain ⟨m, rfl⟩ : ∃ m', m = m' + 1 := ⟨m - 1, by omega⟩
    obtain ⟨st1, e1, a1, b1, wa, wb, v1, v2⟩ := ssStep_spec p hp hN st hal hbl ha hb
    have hb2 : val st.b = D * 2 ^ m := by
      have := h2 (by omega); rw [pow_succ] at this
      have e : D * (2 ^ m * 2) = (D * 2 ^ m) * 2 := by ring
      omega
    have hq2 : (st.q * 2) % B = st.q * 2 := by
      apply Nat.mod_eq_of_lt
      rw [pow_succ] at h3
      have : 0 < 2 ^ k := by positivity
      nlinarith
    have hpow : 2 ^ (k+1) = 2 * 2 ^ k := by ring
    have hpm : 2 ^ (m+1) = 2 * 2 ^ m := by ring
    obtain ⟨bit, hbit, q1, va⟩ : ∃ bit, bit ≤ 1 ∧ st1.q = st.q * 2 + bit ∧
        val st.a = val st1.a + D * 2 ^ m * bit ∧ val st1.a < D * 2 ^ m := by
      split at v2
      · refine ⟨1, le_rfl, by omega, by rw [Nat.mul_one]; omega, ?_⟩
        rw [hpm] at h1
        have e : D * (2 * 2 ^ m) = D * 2 ^ m + D * 2 ^ m := by ring
        omega
      · exact ⟨0, by omega, by omega, by rw [Nat.mul_zero]; omega, by omega⟩
    obtain ⟨st', Q, f1, f2, f3, f4, f5, f6, f7, f8, f9, f10⟩ := ih m st1 (by omega) a1 b1 wa wb va.2
      (by
        intro h0
        rw [v1, hb2]
        obtain ⟨m, rfl⟩ : ∃ m', m = m' + 1 := ⟨m - 1, by omega⟩
        rw [pow_succ, ← Nat.mul_assoc, Nat.mul_div_cancel _ (by decide)])
      (by
        rw [q1]
        rw [hpow] at h3
        have : (st.q * 2 + bit) * 2 ^ k + 2 ^ k ≤ (st.q * 2 + 1) * 2 ^ k + 2 ^ k := by
          apply Nat.add_le_add_right; apply Nat.mul_le_mul_right; omega
        have e : (st.q * 2 + 1) * 2 ^ k + 2 ^ k = st.q * (2 * 2 ^ k) + 2 * 2 ^ k := by ring
        omega)
    have hmk : m + 1 - (k + 1) = m - k := by omega
    rw [hmk]
    refine ⟨st', bit * 2 ^ k + Q, ?_, f2, f3, f4, f5, f6, f7, ?_, ?_, ?_⟩
    · simp only [ssIter, e1, f1]
    · rw [hpow]
      have : bit * 2 ^ k ≤ 1 * 2 ^ k := Nat.mul_le_mul_right _ hbit
      omega
    · rw [f9, q1, hpow]; ring
    · rw [va.1, f10]
      have : 2 ^ m = 2 ^ (m - k) * 2 ^ k := by rw [← pow_add]; congr 1; omega
      rw [this]; ring

theorem ssWords_spec (p : CarryImpl) (hp : p.Exact) {N : Nat} (hN : 0 < N) (D : Nat) : ∀ (n m : Nat) (a b : List Nat),
    m ≤ 64 * n → a.length = N → b.length = N → Words a → Words b →
    val a < D * 2 ^ m → (0 < m → val b * 2 = D * 2 ^ m) →
    ∃ q r, ssWords p n m a b = some (q, r) ∧ q.length = n ∧ r.length = N ∧ Words q ∧ Words r ∧
      val r < D ∧ val a = val q * D + val r := by
  intro n
  induction n with
  | zero =>
    intro m a b hm hal hbl ha hb h1 h2
    have : m = 0 := by omega
    subst this
    exact ⟨[], a, rfl, rfl, hal, Words.nil, ha, by simpa using h1, by simp⟩
  | succ n ih =>
    intro m a b hm hal hbl ha hb h1 h2
    obtain ⟨st, Q, f1, f2, f3, f4, f5, f6, f7, f8, f9, f10⟩ := ssIter_spec p hp hN D (m - 64*n) m ⟨a, b, 0⟩
      (by omega) hal hbl ha hb h1 h2
      (by
        rw [Nat.zero_mul, Nat.zero_add, B_eq_two64]
        exact Nat.pow_le_pow_right (by decide) (show m - 64 * n ≤ 64 by omega))
    have hmin : m - (m - 64 * n) = min m (64 * n) := by omega
    rw [hmin] at f6 f7 f10
    obtain ⟨q, r, g1, g2, g3, g4, g5, g6, g7⟩ := ih (min m (64*n)) st.a st.b (by omega) f2 f3 f4 f5 f6 f7
    have hQ : st.q < B := by
      rw [f9, Nat.zero_mul, Nat.zero_add, B_eq_two64]
      exact lt_of_lt_of_le f8 (Nat.pow_le_pow_right (by decide) (show m - 64 * n ≤ 64 by omega))
    refine ⟨q ++ [st.q], r, ?_, by simp [g2], g3, g4.append (Words.cons hQ Words.nil), g5, g6, ?_⟩
    · simp only [ssWords, f1, g1]
    · simp only at f10
      rw [f10, g7, val_append, g2]
      simp only [val_cons, val_nil, Nat.mul_zero, Nat.add_zero]
      simp only [Nat.zero_mul, Nat.zero_add] at f9
      rw [f9]
      by_cases hmn : m ≤ 64 * n
      · have : Q = 0 := by
          rw [show m - 64 * n = 0 by omega] at f8; simpa using f8
        subst this; ring
      · rw [Nat.min_eq_right (by omega), ← B_pow_two]; ring

theorem udivmodShiftSub_spec (p : CarryImpl) (hp : p.Exact) : ∀ (n : Nat) (a b : List Nat),
    a.length = n + 1 → b.length = n + 1 → Words a → Words b → val b ≠ 0 →
    ∃ q r, udivmodShiftSub p (n+1) a b = some (q, r) ∧ q.length = n+1 ∧ r.length = n+1 ∧ Words q ∧ Words r ∧
      val q = val a / val b ∧ val r = val a % val b := by
  intro n
  induction n with
  | zero =>
    intro a b hal hbl ha hb h0
    obtain ⟨x, rfl⟩ := List.length_eq_one_iff.mp hal
    obtain ⟨y, rfl⟩ := List.length_eq_one_iff.mp hbl
    have hx := ha.head
    simp only [val_cons, val_nil, Nat.mul_zero, Nat.add_zero] at h0
    have hy : rd [y] 0 = y := rfl
    have hx' : rd [x] 0 = x := rfl
    simp only [udivmodShiftSub, hy, hx', if_neg h0]
    refine ⟨_, _, rfl, rfl, rfl, Words.cons ?_ Words.nil, Words.cons ?_ Words.nil, by simp, by simp⟩
    · exact lt_of_le_of_lt (Nat.div_le_self _ _) hx
    · exact lt_of_le_of_lt (Nat.mod_le _ _) hx
  | succ n ih =>
    intro a b hal hbl ha hb h0
    have va := val_rd hal
    have vb := val_rd hbl
    by_cases htop : rd a (n+1) = 0 ∧ rd b (n+1) = 0
    · rw [htop.1, Nat.mul_zero, Nat.add_zero] at va
      rw [htop.2, Nat.mul_zero, Nat.add_zero] at vb
      obtain ⟨q, r, g1, g2, g3, g4, g5, g6, g7⟩ := ih (a.take (n+1)) (b.take (n+1)) (by simp; omega) (by simp; omega)
        (Words.take ha _) (Words.take hb _) (by rwa [← vb])
      refine ⟨q ++ [0], r ++ [0], ?_, by simp [g2], by simp [g3], g4.append (Words.cons B_pos Words.nil),
        g5.append (Words.cons B_pos Words.nil), ?_, ?_⟩
      · simp only [udivmodShiftSub, if_pos htop, g1, Option.map_some]
      · rw [val_append, g6, ← va, ← vb]; simp
      · rw [val_append, g7, ← va, ← vb]; simp
    · simp only [udivmodShiftSub, if_neg htop]
      obtain ⟨ca1, ca2, ca3⟩ := countlZero_spec (n+1) a hal ha
      obtain ⟨cb1, cb2, cb3⟩ := countlZero_spec (n+1) b hbl hb
      obtain ⟨cb4, cb5⟩ := cb3 h0
      rw [show n + 1 + 1 = n + 2 by rfl] at *
      generalize countlZero a (n+2) = ca at *
      generalize countlZero b (n+2) = cb at *
      split
      · rename_i hlt
        have hab : val a < val b := by
          calc val a < 2 ^ (64 * (n+2) - ca) := ca2
            _ ≤ 2 ^ (64 * (n+2) - cb - 1) := Nat.pow_le_pow_right (by decide) (by omega)
            _ ≤ val b := cb5
        refine ⟨_, _, rfl, by simp, hal, words_replicate_zero _, ha, ?_, ?_⟩
        · rw [val_replicate_zero, Nat.div_eq_of_lt hab]
        · rw [Nat.mod_eq_of_lt hab]
      · rename_i hge
        have hfit : val b * 2 ^ (cb - ca) < B ^ b.length := by
          rw [hbl, B_pow_two]
          calc val b * 2 ^ (cb - ca) < 2 ^ (64 * (n+2) - cb) * 2 ^ (cb - ca) :=
                Nat.mul_lt_mul_of_pos_right cb2 (by positivity)
            _ = 2 ^ (64 * (n+2) - cb + (cb - ca)) := by rw [pow_add]
            _ ≤ 2 ^ (64 * (n+2)) := Nat.pow_le_pow_right (by decide) (by omega)
        obtain ⟨s1, s2, s3⟩ := shiftLeftArr_val hb (by omega) (cb - ca) hfit
        obtain ⟨q, r, g1, g2, g3, g4, g5, g6, g7⟩ := ssWords_spec p hp (N := n+2) (by omega) (val b) (n+2)
          (cb - ca + 1) a (shiftLeftArr true [] b (cb - ca)) (by omega) hal (by omega) ha s2
          (by
            calc val a < 2 ^ (64 * (n+2) - ca) := ca2
              _ = 2 ^ (64 * (n+2) - cb - 1) * 2 ^ (cb - ca + 1) := by rw [← pow_add]; congr 1; omega
              _ ≤ val b * 2 ^ (cb - ca + 1) := Nat.mul_le_mul_right _ cb5)
          (by intro _; rw [s3, pow_succ]; ring)
        obtain ⟨u1, u2⟩ := quot_unique g7 g6
        exact ⟨q, r, g1, g2, g3, g4, g5, u1, u2⟩

end PolyOps.LargeInt
