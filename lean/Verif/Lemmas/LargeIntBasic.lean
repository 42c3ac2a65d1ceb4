import Verif.Model.LargeInt
import Mathlib.Tactic.Ring
import Mathlib.Tactic.Linarith
import Mathlib.Data.Int.ModEq

/-! Helper lemmas about word lists and carry chains. -/
namespace PolyOps.LargeInt

theorem B_pos : 0 < B := by decide
theorem B_eq : B = 2 * H := by decide

/-- What a correct back end computes. -/
structure CarryImpl.Exact (p : CarryImpl) : Prop where
  add : ∀ a b c, a < B → b < B → c ≤ 1 →
    (p.add a b c).1 < B ∧ (p.add a b c).2 ≤ 1 ∧ (p.add a b c).1 + B * (p.add a b c).2 = a + b + c
  addTo : ∀ a b c, a < B → b < B → c ≤ 1 →
    (p.addTo a b c).1 < B ∧ (p.addTo a b c).2 ≤ 1 ∧ (p.addTo a b c).1 + B * (p.addTo a b c).2 = a + b + c
  sub : ∀ a b c, a < B → b < B → c ≤ 1 →
    (p.sub a b c).1 < B ∧ (p.sub a b c).2 ≤ 1 ∧ (p.sub a b c).1 + b + c = a + B * (p.sub a b c).2
  subTo : ∀ a b c, a < B → b < B → c ≤ 1 →
    (p.subTo a b c).1 < B ∧ (p.subTo a b c).2 ≤ 1 ∧ (p.subTo a b c).1 + b + c = a + B * (p.subTo a b c).2

@[simp] theorem val_nil : val [] = 0 := rfl
@[simp] theorem val_cons (w : Nat) (ws : List Nat) : val (w :: ws) = w + B * val ws := rfl

theorem Words.tail {w : Nat} {ws : List Nat} (h : Words (w :: ws)) : Words ws :=
  fun x hx => h x (List.mem_cons_of_mem _ hx)
theorem Words.head {w : Nat} {ws : List Nat} (h : Words (w :: ws)) : w < B :=
  h w List.mem_cons_self
theorem Words.cons {w : Nat} {ws : List Nat} (h : w < B) (hs : Words ws) : Words (w :: ws) := by
  intro x hx
  rcases List.mem_cons.mp hx with rfl | hx
  · exact h
  · exact hs x hx
theorem Words.nil : Words [] := by intro x hx; simp at hx

theorem Words.append {as bs : List Nat} (ha : Words as) (hb : Words bs) : Words (as ++ bs) := by
  intro x hx
  rcases List.mem_append.mp hx with hx | hx
  · exact ha x hx
  · exact hb x hx
theorem Words.left {as bs : List Nat} (h : Words (as ++ bs)) : Words as :=
  fun x hx => h x (List.mem_append_left _ hx)
theorem Words.right {as bs : List Nat} (h : Words (as ++ bs)) : Words bs :=
  fun x hx => h x (List.mem_append_right _ hx)

theorem val_lt {ws : List Nat} (h : Words ws) : val ws < B ^ ws.length := by
  induction ws with
  | nil => simp
  | cons w ws ih =>
    have h1 := h.head
    have h2 := ih h.tail
    simp only [val_cons, List.length_cons, pow_succ]
    have : B * (val ws + 1) ≤ B * B ^ ws.length := Nat.mul_le_mul_left B h2
    have e : B ^ ws.length * B = B * B ^ ws.length := Nat.mul_comm _ _
    rw [e]
    have e2 : B * (val ws + 1) = B * val ws + B := by ring
    omega

theorem val_append (as bs : List Nat) : val (as ++ bs) = val as + B ^ as.length * val bs := by
  induction as with
  | nil => simp
  | cons a as ih => simp [ih, pow_succ]; ring

theorem val_replicate_zero (n : Nat) : val (List.replicate n 0) = 0 := by
  induction n with
  | zero => rfl
  | succ n ih => simp [List.replicate_succ, ih]

theorem val_replicate_max (n : Nat) : val (List.replicate n (B - 1)) + 1 = B ^ n := by
  induction n with
  | zero => rfl
  | succ n ih =>
    have hB := B_pos
    simp only [List.replicate_succ, val_cons, pow_succ]
    rw [← ih]
    have : (val (List.replicate n (B - 1)) + 1) * B = B * val (List.replicate n (B-1)) + B := by ring
    rw [this]; omega

/-- Words of equal-length arrays are determined by the value. -/
theorem val_inj : ∀ {as bs : List Nat}, as.length = bs.length → Words as → Words bs →
    val as = val bs → as = bs := by
  intro as
  induction as with
  | nil => intro bs hl _ _ _; cases bs with
    | nil => rfl
    | cons => simp at hl
  | cons a as ih =>
    intro bs hl ha hb h
    cases bs with
    | nil => simp at hl
    | cons b bs =>
      simp only [val_cons] at h
      have h1 := ha.head; have h2 := hb.head
      have e1 : a = b := by
        have := congrArg (· % B) h
        simp only [Nat.add_mul_mod_self_left] at this
        rwa [Nat.mod_eq_of_lt h1, Nat.mod_eq_of_lt h2] at this
      subst e1
      have e2 : val as = val bs := by
        have : B * val as = B * val bs := by omega
        exact Nat.eq_of_mul_eq_mul_left B_pos this
      rw [ih (by simpa using hl) ha.tail hb.tail e2]

theorem addcarry_spec (p : CarryImpl) (hp : p.Exact) : ∀ (as bs : List Nat) (c : Nat),
    as.length = bs.length → Words as → Words bs → c ≤ 1 →
    (addcarry p as bs c).1.length = as.length ∧ Words (addcarry p as bs c).1 ∧
    (addcarry p as bs c).2 ≤ 1 ∧
    val (addcarry p as bs c).1 + B ^ as.length * (addcarry p as bs c).2 = val as + val bs + c := by
  intro as
  induction as with
  | nil => intro bs c hl _ _ hc; cases bs <;> simp_all [addcarry, Words.nil]
  | cons a as ih =>
    intro bs c hl ha hb hc
    cases bs with
    | nil => simp at hl
    | cons b bs =>
      obtain ⟨h1, h2, h3⟩ := hp.add a b c ha.head hb.head hc
      obtain ⟨i1, i2, i3, i4⟩ := ih bs (p.add a b c).2 (by simpa using hl) ha.tail hb.tail h2
      simp only [addcarry]
      refine ⟨by simp [i1], Words.cons h1 i2, i3, ?_⟩
      simp only [val_cons, List.length_cons, pow_succ]
      calc _ = (p.add a b c).1 + B * (val (addcarry p as bs (p.add a b c).2).1 + B ^ as.length * (addcarry p as bs (p.add a b c).2).2) := by ring
        _ = (p.add a b c).1 + B * (p.add a b c).2 + B * val as + B * val bs := by rw [i4]; ring
        _ = _ := by rw [h3]; ring

theorem addcarryTo_spec (p : CarryImpl) (hp : p.Exact) : ∀ (as bs : List Nat) (c : Nat),
    as.length = bs.length → Words as → Words bs → c ≤ 1 →
    (addcarryTo p as bs c).1.length = as.length ∧ Words (addcarryTo p as bs c).1 ∧
    (addcarryTo p as bs c).2 ≤ 1 ∧
    val (addcarryTo p as bs c).1 + B ^ as.length * (addcarryTo p as bs c).2 = val as + val bs + c := by
  intro as
  induction as with
  | nil => intro bs c hl _ _ hc; cases bs <;> simp_all [addcarryTo, Words.nil]
  | cons a as ih =>
    intro bs c hl ha hb hc
    cases bs with
    | nil => simp at hl
    | cons b bs =>
      obtain ⟨h1, h2, h3⟩ := hp.addTo a b c ha.head hb.head hc
      obtain ⟨i1, i2, i3, i4⟩ := ih bs (p.addTo a b c).2 (by simpa using hl) ha.tail hb.tail h2
      simp only [addcarryTo]
      refine ⟨by simp [i1], Words.cons h1 i2, i3, ?_⟩
      simp only [val_cons, List.length_cons, pow_succ]
      calc _ = (p.addTo a b c).1 + B * (val (addcarryTo p as bs (p.addTo a b c).2).1 + B ^ as.length * (addcarryTo p as bs (p.addTo a b c).2).2) := by ring
        _ = (p.addTo a b c).1 + B * (p.addTo a b c).2 + B * val as + B * val bs := by rw [i4]; ring
        _ = _ := by rw [h3]; ring

theorem subborrow_spec (p : CarryImpl) (hp : p.Exact) : ∀ (as bs : List Nat) (c : Nat),
    as.length = bs.length → Words as → Words bs → c ≤ 1 →
    (subborrow p as bs c).1.length = as.length ∧ Words (subborrow p as bs c).1 ∧
    (subborrow p as bs c).2 ≤ 1 ∧
    val (subborrow p as bs c).1 + val bs + c = val as + B ^ as.length * (subborrow p as bs c).2 := by
  intro as
  induction as with
  | nil => intro bs c hl _ _ hc; cases bs <;> simp_all [subborrow, Words.nil]
  | cons a as ih =>
    intro bs c hl ha hb hc
    cases bs with
    | nil => simp at hl
    | cons b bs =>
      obtain ⟨h1, h2, h3⟩ := hp.sub a b c ha.head hb.head hc
      obtain ⟨i1, i2, i3, i4⟩ := ih bs (p.sub a b c).2 (by simpa using hl) ha.tail hb.tail h2
      simp only [subborrow]
      refine ⟨by simp [i1], Words.cons h1 i2, i3, ?_⟩
      simp only [val_cons, List.length_cons, pow_succ]
      have e : B * (val (subborrow p as bs (p.sub a b c).2).1 + val bs + (p.sub a b c).2)
          = B * (val as + B ^ as.length * (subborrow p as bs (p.sub a b c).2).2) := by rw [i4]
      have e1 : B * (val (subborrow p as bs (p.sub a b c).2).1 + val bs + (p.sub a b c).2)
          = B * val (subborrow p as bs (p.sub a b c).2).1 + B * val bs + B * (p.sub a b c).2 := by ring
      have e2 : B * (val as + B ^ as.length * (subborrow p as bs (p.sub a b c).2).2)
          = B * val as + B ^ as.length * B * (subborrow p as bs (p.sub a b c).2).2 := by ring
      omega

theorem subborrowTo_spec (p : CarryImpl) (hp : p.Exact) : ∀ (as bs : List Nat) (c : Nat),
    as.length = bs.length → Words as → Words bs → c ≤ 1 →
    (subborrowTo p as bs c).1.length = as.length ∧ Words (subborrowTo p as bs c).1 ∧
    (subborrowTo p as bs c).2 ≤ 1 ∧
    val (subborrowTo p as bs c).1 + val bs + c = val as + B ^ as.length * (subborrowTo p as bs c).2 := by
  intro as
  induction as with
  | nil => intro bs c hl _ _ hc; cases bs <;> simp_all [subborrowTo, Words.nil]
  | cons a as ih =>
    intro bs c hl ha hb hc
    cases bs with
    | nil => simp at hl
    | cons b bs =>
      obtain ⟨h1, h2, h3⟩ := hp.subTo a b c ha.head hb.head hc
      obtain ⟨i1, i2, i3, i4⟩ := ih bs (p.subTo a b c).2 (by simpa using hl) ha.tail hb.tail h2
      simp only [subborrowTo]
      refine ⟨by simp [i1], Words.cons h1 i2, i3, ?_⟩
      simp only [val_cons, List.length_cons, pow_succ]
      have e : B * (val (subborrowTo p as bs (p.subTo a b c).2).1 + val bs + (p.subTo a b c).2)
          = B * (val as + B ^ as.length * (subborrowTo p as bs (p.subTo a b c).2).2) := by rw [i4]
      have e1 : B * (val (subborrowTo p as bs (p.subTo a b c).2).1 + val bs + (p.subTo a b c).2)
          = B * val (subborrowTo p as bs (p.subTo a b c).2).1 + B * val bs + B * (p.subTo a b c).2 := by ring
      have e2 : B * (val as + B ^ as.length * (subborrowTo p as bs (p.subTo a b c).2).2)
          = B * val as + B ^ as.length * B * (subborrowTo p as bs (p.subTo a b c).2).2 := by ring
      omega

/-- The borrow of `subborrow_or` is that of `subborrow`; its or-ed word is zero iff the incoming one
and all difference words are. -/
theorem subborrowOr_spec (p : CarryImpl) : ∀ (as bs : List Nat) (out c : Nat),
    (subborrowOr p as bs out c).2 = (subborrow p as bs c).2 ∧
    ((subborrowOr p as bs out c).1 = 0 ↔ out = 0 ∧ ∀ w ∈ (subborrow p as bs c).1, w = 0) := by
  intro as
  induction as with
  | nil => intro bs out c; simp [subborrowOr, subborrow]
  | cons a as ih =>
    intro bs out c
    cases bs with
    | nil => simp [subborrowOr, subborrow]
    | cons b bs =>
      simp only [subborrowOr, subborrow]
      obtain ⟨h1, h2⟩ := ih bs (out ||| (p.sub a b c).1) (p.sub a b c).2
      refine ⟨h1, ?_⟩
      rw [h2, Nat.or_eq_zero_iff]
      simp only [List.mem_cons, forall_eq_or_imp]
      tauto

theorem val_eq_zero_iff {ws : List Nat} : val ws = 0 ↔ ∀ w ∈ ws, w = 0 := by
  induction ws with
  | nil => simp
  | cons w ws ih =>
    have hB : B ≠ 0 := Nat.pos_iff_ne_zero.mp B_pos
    simp only [val_cons, List.mem_cons, forall_eq_or_imp, ← ih]
    constructor
    · intro h
      have h1 : w = 0 := by omega
      have h2 : B * val ws = 0 := by omega
      exact ⟨h1, by simpa [hB] using h2⟩
    · rintro ⟨rfl, h⟩; simp [h]

/-! ### reading words of an operand -/

theorem Opd.hi_lt {x : Opd} (hx : x.WF) : x.hi < B := by
  have := List.getLastD_mem_cons (l := x.words) (a := 0)
  unfold Opd.hi
  rcases List.mem_cons.mp this with h | h
  · rw [h]; exact B_pos
  · exact hx.words _ h

theorem extendedWord_lt (s : Bool) (w : Nat) : extendedWord s w < B := by
  unfold extendedWord
  split
  · exact Nat.sub_lt B_pos (by decide)
  · exact B_pos

theorem word_lt {x : Opd} (hx : x.WF) (i : Nat) : word x i < B := by
  unfold word
  rw [List.getD_eq_getElem?_getD]
  rcases h : x.words[i]? with _ | w
  · simpa using extendedWord_lt _ _
  · simpa using hx.words w (List.mem_of_getElem? h)

@[simp] theorem toWords_length (x : Opd) (n : Nat) : (toWords x n).length = n := by simp [toWords]

theorem toWords_words {x : Opd} (hx : x.WF) (n : Nat) : Words (toWords x n) := by
  intro w hw
  simp only [toWords, List.mem_map] at hw
  obtain ⟨i, _, rfl⟩ := hw
  exact word_lt hx i

/-- Enough words: the words followed by the extension word. -/
theorem toWords_of_le {x : Opd} {n : Nat} (h : x.words.length ≤ n) :
    toWords x n = x.words ++ List.replicate (n - x.words.length) (extendedWord x.signed x.hi) := by
  apply List.ext_getElem
  · simp; omega
  · intro i h1 h2
    simp only [toWords, List.getElem_map, List.getElem_range, word, List.getD_eq_getElem?_getD]
    rw [List.getElem_append]
    split
    · rename_i h3; simp [List.getElem?_eq_getElem h3]
    · rename_i h3; simp [List.getElem?_eq_none (Nat.le_of_not_lt h3)]

theorem toWords_of_ge {x : Opd} {n : Nat} (h : n ≤ x.words.length) :
    toWords x n = x.words.take n := by
  apply List.ext_getElem
  · simp; omega
  · intro i h1 h2
    simp only [toWords, List.getElem_map, List.getElem_range, word, List.getD_eq_getElem?_getD]
    have : i < x.words.length := by simp at h2; omega
    simp [List.getElem?_eq_getElem this]

theorem words_split {x : Opd} (hx : x.WF) : ∃ lo, x.words = lo ++ [x.hi] := by
  refine ⟨x.words.dropLast, ?_⟩
  unfold Opd.hi
  rw [List.getLastD_eq_getLast?, List.getLast?_eq_some_getLast hx.nonempty]
  simp [List.dropLast_concat_getLast]

/-- Sign bit and magnitude of a two's-complement array. -/
theorem top_bit {x : Opd} (hx : x.WF) : 2 * val x.words < B ^ x.words.length ↔ x.hi < H := by
  obtain ⟨lo, h⟩ := words_split hx
  have hw := hx.words
  rw [h] at hw
  have hl := val_lt hw.left
  rw [h, val_append]
  simp only [List.length_append, List.length_singleton, pow_succ, val_cons, val_nil]
  have hB : B = 2 * H := B_eq
  have hpos : 0 < B ^ lo.length := Nat.pow_pos B_pos
  generalize B ^ lo.length = m at *
  rw [hB]
  constructor
  · intro h2
    by_contra h3
    have : m * H ≤ m * x.hi := Nat.mul_le_mul_left m (Nat.le_of_not_lt h3)
    nlinarith
  · intro h2
    have : m * (x.hi + 1) ≤ m * H := Nat.mul_le_mul_left m h2
    nlinarith

theorem sval_range {ws : List Nat} (h : Words ws) :
    -(B : Int) ^ ws.length ≤ 2 * sval ws ∧ 2 * sval ws < (B : Int) ^ ws.length := by
  have hv := val_lt h
  have hv' : (val ws : Int) < (B : Int) ^ ws.length := by exact_mod_cast hv
  have h0 : (0 : Int) ≤ val ws := Int.natCast_nonneg _
  unfold sval
  split
  · rename_i h1
    have h1' : 2 * (val ws : Int) < (B : Int) ^ ws.length := by exact_mod_cast h1
    omega
  · rename_i h1
    have h1' : (B : Int) ^ ws.length ≤ 2 * (val ws : Int) := by exact_mod_cast Nat.le_of_not_lt h1
    omega

theorem sval_modEq (ws : List Nat) : sval ws ≡ (val ws : Int) [ZMOD (B : Int) ^ ws.length] := by
  unfold sval
  split
  · rfl
  · exact Int.modEq_iff_dvd.mpr ⟨1, by ring⟩

/-- Extension preserves the value: reading `n` words of an operand, interpreted with the result
signedness `s`, gives the operand's value provided the words suffice. -/
theorem val_toWords_modEq {x : Opd} (hx : x.WF) (n : Nat) :
    (val (toWords x n) : Int) ≡ x.value [ZMOD (B : Int) ^ n] := by
  rcases Nat.le_total x.words.length n with h | h
  · rw [toWords_of_le h, val_append]
    obtain ⟨k, rfl⟩ := Nat.exists_eq_add_of_le h
    simp only [Nat.add_sub_cancel_left]
    by_cases hs : x.signed = true ∧ H ≤ x.hi
    · have e1 : extendedWord x.signed x.hi = B - 1 := by simp [extendedWord, hs]
      have hm := val_replicate_max k
      have hneg : ¬ (2 * val x.words < B ^ x.words.length) := by
        rw [top_bit hx]; omega
      have e2 : x.value = (val x.words : Int) - (B:Int) ^ x.words.length := by
        simp [Opd.value, hs.1, sval, hneg]
      rw [e1, e2]
      have hm' : (val (List.replicate k (B-1)) : Int) = (B:Int)^k - 1 := by
        have : ((val (List.replicate k (B-1)) + 1 : Nat) : Int) = ((B^k : Nat) : Int) := by rw [hm]
        push_cast at this; omega
      push_cast
      rw [hm']
      apply Int.modEq_iff_dvd.mpr
      refine ⟨-1, ?_⟩
      rw [pow_add]; ring
    · have e1 : extendedWord x.signed x.hi = 0 := by
        unfold extendedWord; simp only [Bool.and_eq_true, decide_eq_true_eq]; rw [if_neg hs]
      rw [e1, val_replicate_zero]
      have e2 : x.value = val x.words := by
        unfold Opd.value sval
        by_cases hs2 : x.signed = true
        · have : x.hi < H := by
            by_contra h3; exact hs ⟨hs2, Nat.le_of_not_lt h3⟩
          rw [if_pos hs2, if_pos ((top_bit hx).mpr this)]
        · rw [if_neg hs2]
      rw [e2]; simp
  · rw [toWords_of_ge h]
    have e : val x.words = val (x.words.take n) + B ^ n * val (x.words.drop n) := by
      conv_lhs => rw [← List.take_append_drop n x.words]
      rw [val_append]; simp [h]
    have h1 : (val x.words : Int) ≡ x.value [ZMOD (B : Int) ^ x.words.length] := by
      unfold Opd.value
      split
      · exact (sval_modEq _).symm
      · rfl
    obtain ⟨k, hk⟩ := Nat.exists_eq_add_of_le h
    have h2 : (val x.words : Int) ≡ x.value [ZMOD (B : Int) ^ n] :=
      h1.of_dvd ⟨(B:Int)^k, by rw [hk, pow_add]⟩
    refine Int.ModEq.trans ?_ h2
    rw [e]; push_cast
    exact Int.modEq_iff_dvd.mpr ⟨val (x.words.drop n), by ring⟩

/-- The value read with enough words for result signedness `s`. -/
def readVal (s : Bool) (ws : List Nat) : Int := if s then sval ws else (val ws : Int)

theorem readVal_modEq (s : Bool) (ws : List Nat) :
    readVal s ws ≡ (val ws : Int) [ZMOD (B : Int) ^ ws.length] := by
  unfold readVal
  split
  · exact sval_modEq ws
  · rfl

/-- Range of the `n`-word integers of a signedness. -/
def InRange (s : Bool) (n : Nat) (v : Int) : Prop :=
  if s then -(B:Int)^n ≤ 2 * v ∧ 2 * v < (B:Int)^n else 0 ≤ v ∧ v < (B:Int)^n

theorem readVal_range (s : Bool) {ws : List Nat} (h : Words ws) :
    InRange s ws.length (readVal s ws) := by
  unfold InRange readVal
  cases s
  · simp only [Bool.false_eq_true, if_false]
    exact ⟨Int.natCast_nonneg _, by exact_mod_cast val_lt h⟩
  · simp only [if_true]
    exact sval_range h

theorem inRange_unique {s : Bool} {n : Nat} {u v : Int} (hu : InRange s n u) (hv : InRange s n v)
    (h : u ≡ v [ZMOD (B:Int)^n]) : u = v := by
  have hB : (0:Int) < (B:Int)^n := by
    have := Nat.pow_pos (n := n) B_pos
    exact_mod_cast this
  obtain ⟨k, hk⟩ := Int.modEq_iff_dvd.mp h
  unfold InRange at hu hv
  generalize (B:Int)^n = m at *
  have : k = 0 := by
    cases s <;> simp at hu hv
    · have h1 : k < 1 := by by_contra h; nlinarith
      have h2 : -1 < k := by by_contra h; nlinarith
      omega
    · have h1 : k < 1 := by by_contra h; nlinarith
      have h2 : -1 < k := by by_contra h; nlinarith
      omega
  subst this; omega

theorem opd_value_eq_readVal (x : Opd) : x.value = readVal x.signed x.words := rfl

/-- The operand's value is representable with `n ≥ int_count<s>` words of signedness `s`
(`s` at least as signed as the operand). -/
theorem value_inRange {x : Opd} (hx : x.WF) {s : Bool} {n : Nat} (hs : x.signed = true → s = true)
    (hn : intCount s x ≤ n) : InRange s n x.value := by
  have hpos : 0 < B ^ x.words.length := Nat.pow_pos B_pos
  have hlen : x.words.length ≤ n := by unfold intCount at hn; omega
  have hmono : B ^ x.words.length ≤ B ^ n := Nat.pow_le_pow_right B_pos hlen
  have hmono' : (B:Int) ^ x.words.length ≤ (B:Int) ^ n := by exact_mod_cast hmono
  have hv := val_lt hx.words
  have hv' : (val x.words : Int) < (B:Int)^x.words.length := by exact_mod_cast hv
  have hv0 : (0:Int) ≤ val x.words := Int.natCast_nonneg _
  unfold InRange
  cases hxs : x.signed
  · have e : x.value = val x.words := by simp [Opd.value, hxs]
    rw [e]
    cases s
    · simp only [Bool.false_eq_true, if_false]; omega
    · simp only [if_true]
      cases hsp : x.spare
      · have : x.words.length + 1 ≤ n := by simpa [intCount, hxs, hsp] using hn
        have h2 : B ^ (x.words.length + 1) ≤ B ^ n := Nat.pow_le_pow_right B_pos this
        have h3 : (B:Int) ^ x.words.length * B ≤ (B:Int) ^ n := by
          rw [← pow_succ]; exact_mod_cast h2
        have hb : (2:Int) ≤ B := by decide
        constructor
        · linarith
        · nlinarith
      · have h4 := (hx.spare hsp).2
        have := (top_bit hx).mpr h4
        have h5 : 2 * (val x.words : Int) < (B:Int)^x.words.length := by exact_mod_cast this
        constructor <;> linarith
  · have := hs hxs
    subst this
    simp only [if_true]
    have e : x.value = sval x.words := by simp [Opd.value, hxs]
    rw [e]
    have := sval_range hx.words
    constructor <;> linarith [this.1, this.2]

theorem intCount_le_left (a b : Opd) : intCount (resSigned a b) a ≤ resCount a b := Nat.le_max_left _ _
theorem intCount_le_right (a b : Opd) : intCount (resSigned a b) b ≤ resCount a b := Nat.le_max_right _ _
theorem resSigned_left {a b : Opd} : a.signed = true → resSigned a b = true := by
  intro h; simp [resSigned, h]
theorem resSigned_right {a b : Opd} : b.signed = true → resSigned a b = true := by
  intro h; simp [resSigned, h]

/-- Reading an operand with enough words gives back its value. -/
theorem readVal_toWords {x : Opd} (hx : x.WF) {s : Bool} {n : Nat} (hs : x.signed = true → s = true)
    (hn : intCount s x ≤ n) : readVal s (toWords x n) = x.value := by
  have h1 := readVal_range s (toWords_words hx n)
  rw [toWords_length] at h1
  refine inRange_unique h1 (value_inRange hx hs hn) ?_
  have := readVal_modEq s (toWords x n)
  rw [toWords_length] at this
  exact this.trans (val_toWords_modEq hx n)

theorem resCount_pos {a b : Opd} (ha : a.WF) : 0 < resCount a b := by
  have h : 0 < a.words.length := List.length_pos_iff.mpr ha.nonempty
  have := intCount_le_left a b
  unfold intCount at this
  omega

end PolyOps.LargeInt
