import Verif.Lemmas.LargeIntDiv
import Verif.Props.LargeIntAdd

/-! Properties C07 and C08 of large_ints.hpp: division. -/
namespace PolyOps.LargeInt

theorem negative_iff {x : Opd} (hx : x.WF) (hs : x.signed = true) :
    negative x = true ↔ x.value < 0 := by
  have tb := top_bit hx
  have hv := val_lt hx.words
  have hv' : (val x.words : Int) < (B:Int)^x.words.length := by exact_mod_cast hv
  simp only [negative, hs, Bool.true_and, decide_eq_true_eq, Opd.value, if_true, sval]
  split
  · rename_i h
    have := tb.mp h
    constructor
    · intro h2; omega
    · intro h2; have := Int.natCast_nonneg (val x.words); omega
  · rename_i h
    have h3 : ¬ x.hi < H := fun h4 => h (tb.mpr h4)
    constructor
    · intro; linarith
    · intro; omega

/-- The words after the conditional negation hold the magnitude, also for the minimum. -/
theorem negIf_mag (p : CarryImpl) (hp : p.Exact) {x : Opd} (hx : x.WF) (hs : x.signed = true)
    (hsp : x.spare = false) :
    (negIf p (negative x) x).words.length = x.words.length ∧ Words (negIf p (negative x) x).words ∧
    val (negIf p (negative x) x).words = x.value.natAbs := by
  have hr := readVal_range true hx.words
  have hxv : readVal true x.words = x.value := by rw [opd_value_eq_readVal, hs]
  rw [hxv] at hr
  simp only [InRange, if_true] at hr
  have hpos : (0:Int) < (B:Int)^x.words.length := by
    have := Nat.pow_pos (n := x.words.length) B_pos; exact_mod_cast this
  unfold negIf
  by_cases hn : negative x = true
  · rw [if_pos hn]
    obtain ⟨h1, h2, h3, h4⟩ := neg_mod p hp x hx hs hsp
    refine ⟨h3, h1.words, ?_⟩
    have hneg := (negative_iff hx hs).mp hn
    have m := readVal_modEq true (neg p x).words
    have e : readVal true (neg p x).words = (neg p x).value := by rw [opd_value_eq_readVal, h2]
    rw [e, h3] at m
    have hlt := val_lt h1.words
    rw [h3] at hlt
    have hlt' : (val (neg p x).words : Int) < (B:Int)^x.words.length := by exact_mod_cast hlt
    have : (val (neg p x).words : Int) = -x.value := by
      refine inRange_unique (s := false) (n := x.words.length) ?_ ?_ (m.symm.trans h4)
      · simp only [InRange, Bool.false_eq_true, if_false]; exact ⟨by positivity, hlt'⟩
      · simp only [InRange, Bool.false_eq_true, if_false]; constructor <;> linarith
    omega
  · rw [if_neg hn]
    have hnn : ¬ x.value < 0 := fun h => hn ((negative_iff hx hs).mpr h)
    refine ⟨rfl, hx.words, ?_⟩
    have hv : x.value = val x.words := by
      have : x.value = sval x.words := by simp [Opd.value, hs]
      rw [this] at hnn ⊢
      unfold sval at *
      split
      · rfl
      · rename_i h
        rw [if_neg h] at hnn
        have hv := val_lt hx.words
        have hv' : (val x.words : Int) < (B:Int)^x.words.length := by exact_mod_cast hv
        exfalso; linarith
    omega

theorem convert_wf {x : Opd} (hx : x.WF) {n : Nat} (hn : 0 < n) (s : Bool) : (convert n s x).WF := by
  refine ⟨?_, toWords_words hx n, by simp [convert]⟩
  intro h
  have : (toWords x n).length = 0 := by
    have h' : toWords x n = [] := h
    rw [h']; rfl
  rw [toWords_length] at this
  omega

theorem convert_len (x : Opd) (n : Nat) (s : Bool) : (convert n s x).words.length = n := toWords_length x n

theorem convert_value {x : Opd} (hx : x.WF) {n : Nat} {s : Bool} (hs : x.signed = true → s = true)
    (hn : intCount s x ≤ n) : (convert n s x).value = x.value := readVal_toWords hx hs hn

/-- The quotient and remainder words of both unsigned algorithms, as `divmod` selects them. -/
theorem udiv_spec (p : CarryImpl) (hp : p.Exact) (c : Bool) (aw bw : List Nat) (ha : Words aw) (hb : Words bw)
    (hal : 0 < aw.length) (hbl : bw.length = if c then 1 else aw.length) (hb0 : val bw ≠ 0) :
    ∃ q r, (if c then udivmodLong aw (rd bw 0) else udivmodShiftSub p aw.length aw bw) = some (q, r) ∧
      q.length = aw.length ∧ r.length = aw.length ∧ Words q ∧ Words r ∧
      val q = val aw / val bw ∧ val r = val aw % val bw := by
  cases c
  · simp only [Bool.false_eq_true, if_false] at hbl ⊢
    obtain ⟨n, hn⟩ : ∃ n, aw.length = n + 1 := ⟨aw.length - 1, by omega⟩
    have := udivmodShiftSub_spec p hp n aw bw hn (by omega) ha hb hb0
    rw [hn]; exact this
  · simp only [if_true] at hbl ⊢
    obtain ⟨w, rfl⟩ := List.length_eq_one_iff.mp hbl
    have e : rd [w] 0 = w := rfl
    have e2 : val [w] = w := by simp
    rw [e2] at hb0 ⊢
    rw [e]
    exact udivmodLong_spec ha hal (by omega) hb.head

/-- The remainder's magnitude must fit in a signed integer with the word count of the divisor's
type (line 1335). It always does unless a signed dividend meets an unsigned divisor type of full
width. -/
def RemFits (a b : Opd) : Prop :=
  resSigned a b = true → 2 * (a.value.natAbs % b.value.natAbs) < B ^ b.words.length

theorem remFits_of_signed {a b : Opd} (hb : b.WF) (h0 : b.value ≠ 0)
    (h : b.signed = true ∨ a.signed = false ∨ b.spare = true) : RemFits a b := by
  intro hs
  have hlt : a.value.natAbs % b.value.natAbs < b.value.natAbs := Nat.mod_lt _ (by omega)
  have hr := value_inRange hb (s := true) (n := b.words.length) (fun _ => rfl)
  have hic : intCount true b ≤ b.words.length := by
    unfold intCount
    rcases h with h | h | h
    · simp [h]
    · have : b.signed = true := by simpa [resSigned, h] using hs
      simp [this]
    · simp [h]
  have := hr hic
  simp only [InRange, if_true] at this
  have hB : ((B ^ b.words.length : Nat) : Int) = (B:Int)^b.words.length := by push_cast; rfl
  rw [← hB] at this
  omega

theorem signed_word {x : Opd} (hx : x.WF) (hs : x.signed = true → True) (h1 : intCount true x ≤ 1) :
    sword (word x 0) = x.value := by
  have h := readVal_toWords hx (s := true) (n := 1) (fun _ => rfl) h1
  have e : toWords x 1 = [word x 0] := by simp [toWords]
  rw [e, readVal_single_true (word_lt hx 0)] at h
  exact h

theorem unsigned_word {x : Opd} (hx : x.WF) (hs : x.signed = false) (h1 : x.words.length ≤ 1) :
    (word x 0 : Int) = x.value := by
  have h := readVal_toWords hx (s := false) (n := 1) (by simp [hs]) (by simpa [intCount] using h1)
  have e : toWords x 1 = [word x 0] := by simp [toWords]
  rw [e, readVal_single_false] at h
  exact h

theorem wrapWord_lt (v : Int) : wrapWord v < B := by
  unfold wrapWord; simp only [B]; omega

theorem wrapWord_signed {v : Int} (h : -(H:Int) ≤ v ∧ v < H) (sp : Bool) : (⟨true, sp, [wrapWord v]⟩ : Opd).value = v := by
  have hlt : wrapWord v < B := by
    unfold wrapWord; simp only [B]; omega
  show sval [wrapWord v] = v
  have := readVal_single_true hlt
  rw [show readVal true [wrapWord v] = sval [wrapWord v] from rfl] at this
  rw [this]
  unfold sword wrapWord
  split <;> simp only [B, H] at * <;> omega

theorem wrapWord_unsigned {v : Int} (h : 0 ≤ v ∧ v < B) (sp : Bool) : (⟨false, sp, [wrapWord v]⟩ : Opd).value = v := by
  have : (⟨false, sp, [wrapWord v]⟩ : Opd).value = (wrapWord v : Int) := by simp [Opd.value]
  rw [this]
  unfold wrapWord
  simp only [B] at *
  omega

theorem tdiv_natAbs (a b : Int) (h : (decide (a < 0) != decide (b < 0)) = false) :
    Int.tdiv a b = ((a.natAbs / b.natAbs : Nat) : Int) := by
  have := Int.natAbs_tdiv a b
  have h2 : 0 ≤ Int.tdiv a b := by
    rcases lt_or_ge a 0 with ha | ha <;> rcases lt_or_ge b 0 with hb | hb
    · exact Int.tdiv_nonneg_of_nonpos_of_nonpos ha.le hb.le
    · simp [ha, not_lt.mpr hb] at h
    · simp [not_lt.mpr ha, hb] at h
    · exact Int.tdiv_nonneg ha hb
  have e : a.natAbs.div b.natAbs = a.natAbs / b.natAbs := rfl
  omega

theorem tdiv_natAbs' (a b : Int) (h : (decide (a < 0) != decide (b < 0)) = true) :
    Int.tdiv a b = -((a.natAbs / b.natAbs : Nat) : Int) := by
  rcases lt_or_ge a 0 with ha | ha <;> rcases lt_or_ge b 0 with hb | hb
  · simp [ha, hb] at h
  · have := tdiv_natAbs (-a) b (by simp [not_lt.mpr hb]; omega)
    rw [Int.neg_tdiv, Int.natAbs_neg] at this
    omega
  · have := tdiv_natAbs a (-b) (by simp [not_lt.mpr ha]; omega)
    rw [Int.tdiv_neg, Int.natAbs_neg] at this
    omega
  · simp [not_lt.mpr ha, not_lt.mpr hb] at h

theorem tmod_natAbs (a b : Int) : Int.tmod a b =
    if a < 0 then -((a.natAbs % b.natAbs : Nat) : Int) else ((a.natAbs % b.natAbs : Nat) : Int) := by
  have h1 := Int.mul_tdiv_add_tmod a b
  have h2 := Int.natAbs_tmod a b
  split
  · rename_i h
    have : Int.tmod a b ≤ 0 := by
      have := Int.tmod_nonneg b (show (0:Int) ≤ -a by omega)
      rw [Int.neg_tmod] at this; omega
    omega
  · rename_i h
    have := Int.tmod_nonneg b (show (0:Int) ≤ a by omega)
    omega

/-- The pair that the Euclidean branch computes (large_ints.hpp:1310-1316, 1340-1345). -/
def euclidPair (a b : Int) : Int × Int :=
  if (decide (a < 0) != decide (b < 0)) then
    (-1 - ((a.natAbs / b.natAbs : Nat) : Int), (b.natAbs : Int) - ((a.natAbs % b.natAbs : Nat) : Int))
  else (((a.natAbs / b.natAbs : Nat) : Int), ((a.natAbs % b.natAbs : Nat) : Int))

theorem negIf_value (p : CarryImpl) (hp : p.Exact) (c : Bool) {x : Opd} (hx : x.WF) (hs : x.signed = true)
    (hsp : x.spare = false) {v : Int} (hv : x.value ≡ v [ZMOD (B:Int)^x.words.length])
    (hr : InRange true x.words.length (if c then -v else v)) :
    (negIf p c x).value = (if c then -v else v) ∧ (negIf p c x).words.length = x.words.length := by
  cases c
  · simp only [negIf, Bool.false_eq_true, if_false] at *
    refine ⟨inRange_unique ?_ hr hv, trivial⟩
    have := readVal_range true hx.words
    rwa [show readVal true x.words = x.value by rw [opd_value_eq_readVal, hs]] at this
  · simp only [negIf, if_true] at *
    obtain ⟨h1, h2, h3, h4⟩ := neg_mod p hp x hx hs hsp
    refine ⟨inRange_unique ?_ hr (h4.trans hv.neg), h3⟩
    have := readVal_range true h1.words
    rwa [show readVal true (neg p x).words = (neg p x).value by rw [opd_value_eq_readVal, h2], h3] at this


/-- What the signed branch for more than one word has after the unsigned division. -/
theorem signed_core (p : CarryImpl) (hp : p.Exact) (hw : Bool) (a b : Opd) (ha : a.WF) (hb : b.WF)
    (hs : resSigned a b = true) (h0 : b.value ≠ 0) :
    let n := resCount a b
    let nu := intCount true b
    let nb := if hw && nu == 1 then 1 else n
    let at0 := convert n true a
    let bt0 := convert nb true b
    (negative at0 = decide (a.value < 0)) ∧ (negative bt0 = decide (b.value < 0)) ∧
    ∃ q r, (if hw && nu == 1 then udivmodLong (negIf p (negative at0) at0).words (rd (negIf p (negative bt0) bt0).words 0)
           else udivmodShiftSub p n (negIf p (negative at0) at0).words (negIf p (negative bt0) bt0).words) = some (q, r) ∧
      q.length = n ∧ r.length = n ∧ Words q ∧ Words r ∧
      val q = a.value.natAbs / b.value.natAbs ∧ val r = a.value.natAbs % b.value.natAbs := by
  intro n nu nb at0 bt0
  have hn : 0 < n := resCount_pos ha
  have hnu : nu ≤ n := by
    have := intCount_le_right a b; rw [hs] at this; exact this
  have hnb : nu ≤ nb := by
    show nu ≤ if hw && nu == 1 then 1 else n
    split
    · rename_i h; simp at h; omega
    · exact hnu
  have hnu0 : 0 < nu := by
    have := List.length_pos_iff.mpr hb.nonempty
    show 0 < intCount true b
    unfold intCount; omega
  have hna : intCount true a ≤ n := by
    have := intCount_le_left a b; rw [hs] at this; exact this
  have wa : at0.WF := convert_wf ha hn true
  have wb : bt0.WF := convert_wf hb (by omega) true
  have va : at0.value = a.value := convert_value ha (fun _ => rfl) hna
  have vb : bt0.value = b.value := convert_value hb (fun _ => rfl) hnb
  obtain ⟨a1, a2, a3⟩ := negIf_mag p hp wa rfl rfl
  obtain ⟨b1, b2, b3⟩ := negIf_mag p hp wb rfl rfl
  have hla : at0.words.length = n := convert_len _ _ _
  have hlb : bt0.words.length = nb := convert_len _ _ _
  have ia := negative_iff wa rfl
  have ib := negative_iff wb rfl
  rw [va] at ia a3
  rw [vb] at ib b3
  refine ⟨?_, ?_, ?_⟩
  · rw [Bool.eq_iff_iff, decide_eq_true_eq]; exact ia
  · rw [Bool.eq_iff_iff, decide_eq_true_eq]; exact ib
  · have key := udiv_spec p hp (hw && nu == 1) (negIf p (negative at0) at0).words (negIf p (negative bt0) bt0).words
      a2 b2 (by omega) (by rw [b1, hlb, a1, hla]) (by rw [b3]; omega)
    rw [a3, b3, a1, hla] at key
    exact key

/-- The remainder as stored by line 1335. -/
theorem rem_value {b : Opd} {r : List Nat} {n : Nat} (hn : r.length = n) (hn0 : 0 < n) (hr : Words r) (hb : b.WF)
    (hfit : 2 * val r < B ^ b.words.length) (hlen : b.words.length ≤ n) :
    (convert (intCount true b) true (convert b.words.length true ⟨true, false, r⟩)).value = val r ∧
    (convert (intCount true b) true (convert b.words.length true ⟨true, false, r⟩)).WF := by
  have w0 : (⟨true, false, r⟩ : Opd).WF := ⟨by rw [← List.length_pos_iff]; simpa [hn] using hn0, hr, by simp⟩
  have hbl : 0 < b.words.length := List.length_pos_iff.mpr hb.nonempty
  have w1 := convert_wf w0 hbl true
  have hle : b.words.length ≤ intCount true b := by unfold intCount; omega
  have w2 := convert_wf w1 (show 0 < intCount true b by omega) true
  refine ⟨?_, w2⟩
  rw [convert_value w1 (fun _ => rfl) (by
    show intCount true (convert b.words.length true ⟨true, false, r⟩) ≤ _
    have : intCount true (convert b.words.length true ⟨true, false, r⟩) = b.words.length := by
      unfold intCount; rw [convert_len]; simp [convert]
    omega)]
  have m := C10_convert_mod ⟨true, false, r⟩ w0 b.words.length true
  have hmono : B ^ b.words.length ≤ B ^ n := Nat.pow_le_pow_right B_pos hlen
  have hv : (⟨true, false, r⟩ : Opd).value = val r := by
    show sval r = _
    unfold sval
    rw [if_pos (by rw [hn]; omega)]
  rw [hv] at m
  have hr1 := readVal_range true w1.words
  rw [convert_len] at hr1
  refine inRange_unique hr1 ?_ m
  simp only [InRange, if_true]
  have hf : 2 * (val r : Int) < (B:Int) ^ b.words.length := by exact_mod_cast hfit
  exact ⟨by linarith [Int.natCast_nonneg (val r), show (0:Int) ≤ (B:Int)^b.words.length by positivity], hf⟩

/-- The quotient of a truncating division is representable except for `MIN / -1`. -/
theorem quot_inRange (a b : Opd) (ha : a.WF) (h0 : b.value ≠ 0)
    (hmin : ¬ (resSigned a b = true ∧ b.value = -1 ∧ 2 * a.value = -(B:Int)^resCount a b)) (hu : resSigned a b = false → 0 ≤ b.value) :
    InRange (resSigned a b) (resCount a b) (Int.tdiv a.value b.value) := by
  have hr := value_inRange ha (fun h => resSigned_left h) (intCount_le_left a b)
  have h1 := Int.natAbs_tdiv a.value b.value
  have h2 : a.value.natAbs.div b.value.natAbs ≤ a.value.natAbs := Nat.div_le_self _ _
  revert hmin hu hr
  generalize hS : (B:Int)^resCount a b = S
  unfold InRange
  rw [hS]
  cases resSigned a b
  · simp only [Bool.false_eq_true, if_false]
    intro hmin hu hr
    have := Int.tdiv_nonneg hr.1 (hu trivial)
    omega
  · simp only [if_true]
    intro hmin hu hr
    rcases lt_trichotomy (2 * a.value) (-S) with h | h | h
    · omega
    · by_cases hb1 : b.value.natAbs = 1
      · have : b.value = 1 := by
          have : b.value ≠ -1 := fun hh => hmin ⟨trivial, hh, h⟩
          omega
        rw [this, Int.tdiv_one]; exact hr
      · have h3 : a.value.natAbs.div b.value.natAbs ≤ a.value.natAbs / 2 :=
          Nat.div_le_div_left (by omega) (by decide)
        by_cases ha0 : a.value = 0
        · rw [ha0, Int.zero_tdiv]; rw [ha0] at hr; exact hr
        · omega
    · omega

/-- C07: truncating `divmod` (also `/` and `%`): for a nonzero divisor and a representable quotient
the result is defined, quotient and remainder are those of division rounding toward zero. -/
theorem C07_divmod_partial (p : CarryImpl) (hp : p.Exact) (hw : Bool) (a b : Opd) (ha : a.WF) (hb : b.WF)
    (h0 : b.value ≠ 0) (hfit : RemFits a b)
    (hq : InRange (resSigned a b) (resCount a b) (Int.tdiv a.value b.value)) :
    ∃ q r, divmod p hw .truncate a b = some (q, r) ∧
      Words q.words ∧ q.signed = resSigned a b ∧ q.words.length = resCount a b ∧
      q.value = Int.tdiv a.value b.value ∧ r.value = Int.tmod a.value b.value := by
  have hn : 0 < resCount a b := resCount_pos ha
  have ia := intCount_le_left a b
  have ib := intCount_le_right a b
  have hbl : b.words.length ≤ resCount a b := by unfold intCount at ib; omega
  have hal : a.words.length ≤ resCount a b := by unfold intCount at ia; omega
  by_cases h1 : resCount a b = 1
  · -- one word
    rw [h1] at ia ib hq hal hbl
    unfold divmod
    simp only [h1, if_true]
    cases hs : resSigned a b
    · have hsa : a.signed = false := by cases h : a.signed <;> simp_all [resSigned]
      have hsb : b.signed = false := by cases h : b.signed <;> simp_all [resSigned]
      simp only [Bool.false_eq_true, if_false, Bool.false_and, unsigned_word ha hsa hal, unsigned_word hb hsb hbl, h0]
      have ra := value_inRange ha (s := false) (n := 1) (by simp [hsa]) (by simpa [intCount] using hal)
      have rb := value_inRange hb (s := false) (n := 1) (by simp [hsb]) (by simpa [intCount] using hbl)
      rw [hs] at hq
      simp only [InRange, Bool.false_eq_true, if_false, pow_one] at ra rb hq
      have t1 := Int.tmod_nonneg b.value ra.1
      have t2 := Int.natAbs_tmod a.value b.value
      have t3 : a.value.natAbs % b.value.natAbs ≤ a.value.natAbs := Nat.mod_le _ _
      exact ⟨_, _, rfl, Words.cons (wrapWord_lt _) Words.nil, rfl, rfl, wrapWord_unsigned hq _, wrapWord_unsigned ⟨t1, by omega⟩ _⟩
    · rw [hs] at ia ib hq
      simp only [if_true, signed_word ha (fun _ => trivial) ia, signed_word hb (fun _ => trivial) ib, h0, if_false]
      have ra := value_inRange ha (s := true) (n := 1) (fun _ => rfl) ia
      have rb := value_inRange hb (s := true) (n := 1) (fun _ => rfl) ib
      simp only [InRange, if_true, pow_one] at ra rb hq
      have hBH : (B:Int) = 2 * H := by exact_mod_cast B_eq
      have hmin : ¬ (a.value = -(H:Int) ∧ b.value = -1) := by
        rintro ⟨e1, e2⟩
        rw [e1, e2, Int.tdiv_neg, Int.tdiv_one] at hq
        have := hq.2; omega
      have hc : (true && decide (a.value = -(H:Int)) && decide (b.value = -1)) = false := by
        simp only [Bool.true_and, Bool.and_eq_false_iff, decide_eq_false_iff_not]
        tauto
      simp only [hc, Bool.false_eq_true, if_false, decide_false, Bool.and_false, show ((Mod.truncate = Mod.euclid) = False) by simp]
      have t2 := tmod_natAbs a.value b.value
      have t3 : a.value.natAbs % b.value.natAbs < b.value.natAbs := Nat.mod_lt _ (by omega)
      have hrr : -(H:Int) ≤ Int.tmod a.value b.value ∧ Int.tmod a.value b.value < H := by
        have t4 : a.value.natAbs % b.value.natAbs ≤ a.value.natAbs := Nat.mod_le _ _
        split at t2 <;> omega
      exact ⟨_, _, rfl, Words.cons (wrapWord_lt _) Words.nil, rfl, rfl, wrapWord_signed ⟨by omega, by omega⟩ _, wrapWord_signed hrr _⟩
  · unfold divmod
    simp only [h1, if_false]
    cases hs : resSigned a b
    · have hsa : a.signed = false := by cases h : a.signed <;> simp_all [resSigned]
      have hsb : b.signed = false := by cases h : b.signed <;> simp_all [resSigned]
      rw [hs] at hq ia ib
      simp only [Bool.false_eq_true, if_false]
      have va : a.value = val a.words := by simp [Opd.value, hsa]
      have vb : b.value = val b.words := by simp [Opd.value, hsb]
      have hnu : intCount false b = b.words.length := by simp [intCount]
      rw [hnu]
      set nb := (if (hw && b.words.length == 1) = true then 1 else resCount a b) with hnb
      have hnb1 : b.words.length ≤ nb := by
        rw [hnb]; split
        · rename_i h; simp at h; omega
        · exact hbl
      have hb1 : 0 < b.words.length := List.length_pos_iff.mpr hb.nonempty
      have vat : (convert (resCount a b) false a).value = a.value := convert_value ha (by simp [hsa]) ia
      have vbt : (convert nb false b).value = b.value := convert_value hb (by simp [hsb]) (by simpa [intCount] using hnb1)
      have hva : val (toWords a (resCount a b)) = a.value.natAbs := by
        have : (convert (resCount a b) false a).value = val (toWords a (resCount a b)) := by simp [convert, Opd.value]
        omega
      have hvb : val (toWords b nb) = b.value.natAbs := by
        have : (convert nb false b).value = val (toWords b nb) := by simp [convert, Opd.value]
        omega
      obtain ⟨q, r, e1, e2, e3, e4, e5, e6, e7⟩ := udiv_spec p hp (hw && b.words.length == 1)
        (toWords a (resCount a b)) (toWords b nb) (toWords_words ha _) (toWords_words hb _)
        (by rw [toWords_length]; exact hn) (by rw [toWords_length, toWords_length]) (by rw [hvb]; omega)
      rw [toWords_length] at e1 e2 e3
      rw [hva, hvb] at e6 e7
      have e1' : (if (hw && b.words.length == 1) = true then
          udivmodLong (convert (resCount a b) false a).words (rd (convert nb false b).words 0)
          else udivmodShiftSub p (resCount a b) (convert (resCount a b) false a).words (convert nb false b).words) = some (q, r) := e1
      rw [e1']
      refine ⟨_, _, rfl, e4, rfl, e2, ?_, ?_⟩
      · have : (⟨false, false, q⟩ : Opd).value = val q := by simp [Opd.value]
        rw [this, e6, tdiv_natAbs a.value b.value (by
          rw [decide_eq_false (show ¬ a.value < 0 by omega), decide_eq_false (show ¬ b.value < 0 by omega)]; rfl)]
      · have w0 : (⟨false, false, r⟩ : Opd).WF := uwf e5 (by omega)
        have w1 := convert_wf w0 hb1 false
        rw [convert_value w1 (by simp [convert]) (by unfold intCount; rw [convert_len]; simp)]
        have m := C10_convert_mod ⟨false, false, r⟩ w0 b.words.length false
        have hv : (⟨false, false, r⟩ : Opd).value = val r := by simp [Opd.value]
        rw [hv] at m
        have hr1 := readVal_range false w1.words
        rw [convert_len] at hr1
        have hlt : val r < B ^ b.words.length := by
          have h2 := val_lt hb.words
          have h3 : a.value.natAbs % b.value.natAbs < b.value.natAbs := Nat.mod_lt _ (by omega)
          omega
        have : (convert b.words.length false ⟨false, false, r⟩).value = val r := by
          refine inRange_unique hr1 ?_ m
          simp only [InRange, Bool.false_eq_true, if_false]
          exact ⟨by positivity, by exact_mod_cast hlt⟩
        rw [this, e7, tmod_natAbs, if_neg (by omega)]
    · rw [hs] at hq
      obtain ⟨s1, s2, q, r, e1, e2, e3, e4, e5, e6, e7⟩ := signed_core p hp hw a b ha hb hs h0
      simp only [if_true]
      rw [e1]
      simp only [s1, s2]
      obtain ⟨v1, w1⟩ := rem_value e3 hn e5 hb (by rw [e7]; exact hfit hs) hbl
      have wq : (⟨true, false, q⟩ : Opd).WF := ⟨by rw [← List.length_pos_iff]; simp only; omega, e4, by simp⟩
      have mq : (⟨true, false, q⟩ : Opd).value ≡ ((a.value.natAbs / b.value.natAbs : Nat) : Int) [ZMOD (B:Int)^q.length] := by
        have := readVal_modEq true q
        rw [e6] at this
        exact this
      have tq : Int.tdiv a.value b.value = if (decide (a.value < 0) != decide (b.value < 0)) then
          -((a.value.natAbs / b.value.natAbs : Nat) : Int) else ((a.value.natAbs / b.value.natAbs : Nat) : Int) := by
        split
        · rename_i h; exact tdiv_natAbs' _ _ h
        · rename_i h; exact tdiv_natAbs _ _ (by simpa using h)
      obtain ⟨n1, n2⟩ := negIf_value p hp (decide (a.value < 0) != decide (b.value < 0)) wq rfl rfl mq
        (by simp only; rw [e2, ← tq]; exact hq)
      refine ⟨_, _, rfl, ?_, ?_, by rw [n2]; exact e2, by rw [n1, ← tq], ?_⟩
      · unfold negIf; split
        · exact (neg_mod p hp _ wq rfl rfl).1.words
        · exact e4
      · unfold negIf; split
        · exact (neg_mod p hp _ wq rfl rfl).2.1
        · rfl
      · have hbR := value_inRange hb (s := true) (n := intCount true b) (fun _ => rfl) le_rfl
        have hlt : a.value.natAbs % b.value.natAbs < b.value.natAbs := Nat.mod_lt _ (by omega)
        obtain ⟨m1, m2⟩ := negIf_value p hp (decide (a.value < 0)) (v := ((a.value.natAbs % b.value.natAbs : Nat) : Int)) w1 rfl rfl
          (by rw [v1, e7])
          (by
            rw [convert_len]
            simp only [InRange, if_true] at hbR ⊢
            generalize (B:Int)^intCount true b = S at *
            split <;> omega)
        rw [m1, tmod_natAbs]
        by_cases hneg : a.value < 0 <;> simp [hneg]


/-- C07 with the plain preconditions: the divisor is not zero, it is not `MIN / -1`, and it is not a
signed dividend with a full-width unsigned divisor type. -/
theorem C07_divmod_plain (p : CarryImpl) (hp : p.Exact) (hw : Bool) (a b : Opd) (ha : a.WF) (hb : b.WF)
    (h0 : b.value ≠ 0) (hmix : b.signed = true ∨ a.signed = false ∨ b.spare = true)
    (hmin : ¬ (resSigned a b = true ∧ b.value = -1 ∧ 2 * a.value = -(B:Int)^resCount a b)) :
    ∃ q r, divmod p hw .truncate a b = some (q, r) ∧
      q.value = Int.tdiv a.value b.value ∧ r.value = Int.tmod a.value b.value := by
  obtain ⟨q, r, h1, _, _, _, h2, h3⟩ := C07_divmod_partial p hp hw a b ha hb h0 (remFits_of_signed hb h0 hmix)
    (quot_inRange a b ha h0 hmin (by
      intro h
      have hsb : b.signed = false := by cases hh : b.signed <;> simp_all [resSigned]
      simp [Opd.value, hsb]))
  exact ⟨q, r, h1, h2, h3⟩

/-- Non-vacuity: a three-word dividend of either sign and a two-word divisor that needs the
shift-and-subtract loop. -/
example : (⟨true, false, [7, 1, B-3]⟩ : Opd).WF ∧ (⟨true, false, [5, 9]⟩ : Opd).WF ∧
    (⟨true, false, [5, 9]⟩ : Opd).value ≠ 0 := by
  refine ⟨⟨by simp, ?_, by simp⟩, ⟨by simp, ?_, by simp⟩, by decide⟩
  · exact Words.cons (by decide) (Words.cons (by decide) (Words.cons (by decide) Words.nil))
  · exact Words.cons (by decide) (Words.cons (by decide) Words.nil)

/-- C07 is false for a signed dividend and a full-width unsigned divisor type: dividing the 128-bit
`2^64-2` by the unsigned 64-bit `2^64-1` yields the remainder `-2`. -/
theorem C07_mixed_wrong (hw : Bool) : ∃ q r, divmod gccImpl hw .truncate ⟨true, false, [B-2, 0]⟩ (u64 (B-1)) = some (q, r) ∧
    q.value = 0 ∧ r.value = -2 ∧ Int.tmod ((⟨true, false, [B-2, 0]⟩ : Opd).value) (u64 (B-1)).value = (B:Int) - 2 := by
  cases hw
  · exact ⟨⟨true, false, [0, 0]⟩, ⟨true, false, [B-2, B-1]⟩, by decide, by decide, by decide, by decide⟩
  · exact ⟨⟨true, false, [0, 0]⟩, ⟨true, false, [B-2, B-1]⟩, by decide, by decide, by decide, by decide⟩

/-- Division by zero is never defined on the built-in and word-by-word paths. -/
theorem C07_zero_one_word (p : CarryImpl) (hw : Bool) (m : Mod) (a : Opd) (h1 : resCount a (u64 0) = 1) :
    divmod p hw m a (u64 0) = none := by
  unfold divmod
  have e1 : word (u64 0) 0 = 0 := rfl
  have e2 : sword 0 = 0 := by decide
  simp [h1, e1, e2]

/-! ### C08: Euclidean division -/

theorem abs_wf (p : CarryImpl) (hp : p.Exact) {b : Opd} (hb : b.WF) :
    (abs p b).WF ∧ (abs p b).signed = b.signed ∧ intCount true (abs p b) = intCount true b ∧
    ((b.signed = true → ¬ IsMin b) → (abs p b).value = |b.value|) := by
  by_cases hs : b.signed = true
  · have hsp : b.spare = false := by
      cases h : b.spare
      · rfl
      · have := (hb.spare h).1; rw [hs] at this; cases this
    have hv := (C11_abs p hp b hb hsp).1
    obtain ⟨n1, n2, n3, n4⟩ := neg_mod p hp b hb hs hsp
    refine ⟨?_, ?_, ?_, hv⟩
    · unfold abs; rw [if_pos hs]; split
      · exact n1
      · exact hb
    · unfold abs; rw [if_pos hs]; split
      · rw [n2, hs]
      · rfl
    · unfold abs; rw [if_pos hs]; split
      · unfold intCount; rw [n3, n2, hs]; simp
      · rfl
  · have hs' : b.signed = false := by simpa using hs
    have e : abs p b = b := by unfold abs; simp [hs']
    rw [e]
    refine ⟨hb, rfl, rfl, fun _ => ?_⟩
    rw [abs_of_nonneg]
    simp [Opd.value, hs']

/-- What the Euclidean mode computes: for signed operands it is `euclidPair`. -/
theorem wrapWord_words (v : Int) : Words [wrapWord v] := Words.cons (wrapWord_lt v) Words.nil

theorem euclid_value' (p : CarryImpl) (hp : p.Exact) (hw : Bool) (a b : Opd) (ha : a.WF) (hb : b.WF)
    (hs : resSigned a b = true) (h0 : b.value ≠ 0) (hfit : RemFits a b)
    (hbmin : 2 * b.value ≠ -(B:Int)^intCount true b)
    (hq : InRange true (resCount a b) (euclidPair a.value b.value).1)
    (hq' : InRange true (resCount a b) (Int.tdiv a.value b.value)) :
    ∃ q r, divmod p hw .euclid a b = some (q, r) ∧
      q.value = (euclidPair a.value b.value).1 ∧ r.value = (euclidPair a.value b.value).2 ∧
      Words q.words ∧ q.signed = true ∧ q.words.length = resCount a b := by
  have hn : 0 < resCount a b := resCount_pos ha
  have ia := intCount_le_left a b
  have ib := intCount_le_right a b
  have hbl : b.words.length ≤ resCount a b := by unfold intCount at ib; omega
  rw [hs] at ia ib
  have hlt : a.value.natAbs % b.value.natAbs < b.value.natAbs := Nat.mod_lt _ (by omega)
  have hbR := value_inRange hb (s := true) (n := intCount true b) (fun _ => rfl) le_rfl
  by_cases h1 : resCount a b = 1
  · rw [h1] at ia ib hq hq'
    unfold divmod
    simp only [h1, if_true, hs, signed_word ha (fun _ => trivial) ia, signed_word hb (fun _ => trivial) ib, h0, if_false]
    have hic : intCount true b = 1 := by
      have := List.length_pos_iff.mpr hb.nonempty
      unfold intCount at ib ⊢; omega
    rw [hic] at hbmin hbR
    have ra := value_inRange ha (s := true) (n := 1) (fun _ => rfl) ia
    simp only [InRange, if_true, pow_one] at ra hbR hq hq' hbmin
    have hBH : (B:Int) = 2 * H := by exact_mod_cast B_eq
    have hmin : ¬ (a.value = -(H:Int) ∧ b.value = -1) := by
      rintro ⟨e1, e2⟩
      rw [e1, e2, Int.tdiv_neg, Int.tdiv_one] at hq'
      have := hq'.2; omega
    have hc : (true && decide (a.value = -(H:Int)) && decide (b.value = -1)) = false := by
      simp only [Bool.true_and, Bool.and_eq_false_iff, decide_eq_false_iff_not]
      tauto
    simp only [hc, Bool.false_eq_true, if_false, decide_true, Bool.and_true, if_true]
    have t2 := tmod_natAbs a.value b.value
    have t3 : ((Int.tmod a.value b.value).natAbs : Int) = ((a.value.natAbs % b.value.natAbs : Nat) : Int) := by
      split at t2 <;> omega
    by_cases hsg : (decide (a.value < 0) != decide (b.value < 0)) = true
    · have tq := tdiv_natAbs' _ _ hsg
      simp only [euclidPair, hsg, if_true] at hq ⊢
      rw [if_neg (show ¬ b.value = -(H:Int) by omega)]
      refine ⟨_, _, rfl, ?_, ?_, wrapWord_words _, rfl, rfl⟩
      · rw [tq, wrapWord_signed]
        · omega
        · omega
      · rw [t3, wrapWord_signed]
        omega
    · have hsg' : (decide (a.value < 0) != decide (b.value < 0)) = false := by simpa using hsg
      have tq := tdiv_natAbs _ _ hsg'
      simp only [euclidPair, hsg', Bool.false_eq_true, if_false] at hq ⊢
      refine ⟨_, _, rfl, ?_, ?_, wrapWord_words _, rfl, rfl⟩
      · rw [tq, wrapWord_signed]
        omega
      · rw [t3, wrapWord_signed]
        omega
  · unfold divmod
    simp only [h1, if_false, hs, if_true]
    obtain ⟨s1, s2, q, r, e1, e2, e3, e4, e5, e6, e7⟩ := signed_core p hp hw a b ha hb hs h0
    rw [e1]
    simp only [s1, s2]
    obtain ⟨v1, w1⟩ := rem_value e3 hn e5 hb (by rw [e7]; exact hfit hs) hbl
    have wq : (⟨true, false, q⟩ : Opd).WF := ⟨by rw [← List.length_pos_iff]; simp only; omega, e4, by simp⟩
    have mq : (⟨true, false, q⟩ : Opd).value ≡ ((a.value.natAbs / b.value.natAbs : Nat) : Int) [ZMOD (B:Int)^q.length] := by
      have := readVal_modEq true q
      rw [e6] at this
      exact this
    by_cases hsg : (decide (a.value < 0) != decide (b.value < 0)) = true
    · simp only [euclidPair, hsg, if_true] at hq ⊢
      have wm : (⟨true, false, [B-1]⟩ : Opd).WF := ⟨by simp, Words.cons (by decide) Words.nil, by simp⟩
      obtain ⟨d1, d2, d3, _, _⟩ := C01_sub p hp ⟨true, false, [B-1]⟩ ⟨true, false, q⟩ wm wq
      refine ⟨_, _, rfl, ?_, ?_, d1.words, d2, by
        rw [d3, ← e2]; simp [resCount, intCount, resSigned]; omega⟩
      · have wm : (⟨true, false, [B-1]⟩ : Opd).WF := ⟨by simp, Words.cons (by decide) Words.nil, by simp⟩
        obtain ⟨c1, c2, c3, c4, c5⟩ := C01_sub p hp ⟨true, false, [B-1]⟩ ⟨true, false, q⟩ wm wq
        have hm1 : (⟨true, false, [B-1]⟩ : Opd).value = -1 := by decide
        have hrc : resCount (⟨true, false, [B-1]⟩ : Opd) ⟨true, false, q⟩ = q.length := by
          simp [resCount, intCount, resSigned]; omega
        rw [hrc, hm1] at c4
        rw [hrc] at c3
        have hr := readVal_range true c1.words
        rw [c3, show readVal true (sub p ⟨true, false, [B-1]⟩ ⟨true, false, q⟩).words =
          (sub p ⟨true, false, [B-1]⟩ ⟨true, false, q⟩).value by rw [opd_value_eq_readVal, c2]; rfl, e2] at hr
        rw [e2] at c4 mq
        exact inRange_unique hr hq (c4.trans (Int.ModEq.sub_left _ mq))
      · obtain ⟨a1, a2, a3, a4⟩ := abs_wf p hp hb
        have hnm : b.signed = true → ¬ IsMin b := by
          intro hbs hm
          apply hbmin
          have hic : intCount true b = b.words.length := by simp [intCount, hbs]
          rw [hic]; exact hm
        have va := a4 hnm
        generalize hrem : convert (intCount true b) true (convert b.words.length true ⟨true, false, r⟩) = rm at *
        have rms : rm.signed = true := by rw [← hrem]; rfl
        have rml : rm.words.length = intCount true b := by rw [← hrem]; exact convert_len _ _ _
        obtain ⟨c1, c2, c3, c4, c5⟩ := C01_sub p hp (abs p b) rm a1 w1
        have hrs : resSigned (abs p b) rm = true := by simp [resSigned, rms]
        have hrc : resCount (abs p b) rm = intCount true b := by
          unfold resCount; rw [hrs, a3]
          have : intCount true rm = intCount true b := by
            conv_lhs => unfold intCount
            rw [rml, rms]; simp
          rw [this]; exact Nat.max_self _
        rw [hrc] at c3 c5
        rw [show ((abs p b).signed || rm.signed) = true by simp [rms]] at c2 c5
        rw [va, v1, e7] at c5
        have hval : |b.value| - ((a.value.natAbs % b.value.natAbs : Nat) : Int) =
            (b.value.natAbs : Int) - ((a.value.natAbs % b.value.natAbs : Nat) : Int) := by
          rw [Int.abs_eq_natAbs]
        rw [hval] at c5
        have hin : InRange true (intCount true b) ((b.value.natAbs : Int) - ((a.value.natAbs % b.value.natAbs : Nat) : Int)) := by
          simp only [InRange, if_true] at hbR ⊢
          generalize (B:Int)^intCount true b = S at *
          omega
        rw [convert_value c1 (fun _ => rfl) (by unfold intCount at c3 ⊢; rw [c3, c2]; simp)]
        exact c5 hin
    · have hsg' : (decide (a.value < 0) != decide (b.value < 0)) = false := by simpa using hsg
      simp only [euclidPair, hsg', Bool.false_eq_true, if_false] at hq ⊢
      refine ⟨_, _, rfl, ?_, by rw [v1, e7], e4, rfl, e2⟩
      have hr := readVal_range true e4
      rw [e2] at hr mq
      exact inRange_unique hr hq mq

theorem euclid_value (p : CarryImpl) (hp : p.Exact) (hw : Bool) (a b : Opd) (ha : a.WF) (hb : b.WF)
    (hs : resSigned a b = true) (h0 : b.value ≠ 0) (hfit : RemFits a b)
    (hbmin : 2 * b.value ≠ -(B:Int)^intCount true b)
    (hq : InRange true (resCount a b) (euclidPair a.value b.value).1)
    (hq' : InRange true (resCount a b) (Int.tdiv a.value b.value)) :
    ∃ q r, divmod p hw .euclid a b = some (q, r) ∧
      q.value = (euclidPair a.value b.value).1 ∧ r.value = (euclidPair a.value b.value).2 := by
  obtain ⟨q, r, h1, h2, h3, _⟩ := euclid_value' p hp hw a b ha hb hs h0 hfit hbmin hq hq'
  exact ⟨q, r, h1, h2, h3⟩

/-- The pair computed in Euclidean mode is the Euclidean quotient and remainder exactly when the
divisor is positive and (the dividend is not negative or the division is not exact), or both are
negative and the division is exact. -/
theorem C08_euclid_iff (a b : Int) (hb : b ≠ 0) :
    euclidPair a b = (a / b, a % b) ↔
      (0 < b ∧ (0 ≤ a ∨ ¬ b ∣ a)) ∨ (b < 0 ∧ a < 0 ∧ b ∣ a) := by
  have key : ∀ q r : Int, (q, r) = (a / b, a % b) ↔ (a = q * b + r ∧ 0 ≤ r ∧ r < b.natAbs) := by
    intro q r
    constructor
    · intro h
      rw [Prod.mk.injEq] at h
      obtain ⟨rfl, rfl⟩ := h
      have := Int.mul_ediv_add_emod a b
      have h2 := Int.emod_lt_abs a hb
      rw [Int.abs_eq_natAbs] at h2
      exact ⟨by rw [mul_comm]; exact this.symm, Int.emod_nonneg a hb, h2⟩
    · rintro ⟨h1, h2, h3⟩
      have h4 : a = r + q * b := by rw [h1]; ring
      have h5 : r < |b| := by rw [Int.abs_eq_natAbs]; exact h3
      rw [h4, Int.add_mul_ediv_right _ _ hb, Int.add_mul_emod_self_right, Int.ediv_eq_zero_of_lt_abs h2 h5,
        ← Int.emod_abs, Int.emod_eq_of_lt h2 h5, Int.zero_add]
  have hd : b ∣ a ↔ a.natAbs % b.natAbs = 0 := by
    rw [← Int.natAbs_dvd_natAbs, Nat.dvd_iff_mod_eq_zero]
  have hdm := Nat.div_add_mod a.natAbs b.natAbs
  have hlt : a.natAbs % b.natAbs < b.natAbs := Nat.mod_lt _ (by omega)
  have hdm' : (b.natAbs : Int) * ((a.natAbs / b.natAbs : Nat) : Int) + ((a.natAbs % b.natAbs : Nat) : Int) = (a.natAbs : Int) := by
    exact_mod_cast hdm
  unfold euclidPair
  rw [hd]
  generalize a.natAbs / b.natAbs = Q at *
  generalize a.natAbs % b.natAbs = R at *
  rcases lt_or_ge a 0 with ha | ha <;> rcases lt_or_ge b 0 with hb' | hb'
  · simp only [ha, hb', decide_true, bne_self_eq_false, Bool.false_eq_true, if_false]
    rw [key]
    have e1 : (a.natAbs : Int) = -a := by omega
    have e2 : (b.natAbs : Int) = -b := by omega
    rw [e1, e2] at hdm'
    rw [e2]
    constructor
    · rintro ⟨h1, h2, h3⟩
      right
      refine ⟨trivial, trivial, ?_⟩
      have : (R:Int) = -R := by linarith [mul_comm (Q:Int) b]
      omega
    · rintro (⟨h, _⟩ | ⟨_, _, h⟩)
      · omega
      · subst h
        exact ⟨by push_cast at *; linarith [mul_comm (Q:Int) b], by simp, by omega⟩
  · have hb2 : ¬ b < 0 := not_lt.mpr hb'
    simp only [ha, hb2, decide_true, decide_false, show (true != false) = true from rfl, if_true]
    rw [key]
    have e1 : (a.natAbs : Int) = -a := by omega
    have e2 : (b.natAbs : Int) = b := by omega
    rw [e1, e2] at hdm'
    rw [e2]
    constructor
    · rintro ⟨h1, h2, h3⟩
      left
      exact ⟨by omega, Or.inr (by omega)⟩
    · rintro (⟨_, h | h⟩ | ⟨h, _⟩)
      · omega
      · exact ⟨by linarith [mul_comm (Q:Int) b, sub_mul (-1) (Q:Int) b], by omega, by omega⟩
      · exact absurd h (by simp)
  · have ha2 : ¬ a < 0 := not_lt.mpr ha
    simp only [ha2, hb', decide_true, decide_false, show (false != true) = true from rfl, if_true]
    rw [key]
    have e1 : (a.natAbs : Int) = a := by omega
    have e2 : (b.natAbs : Int) = -b := by omega
    rw [e1, e2] at hdm'
    rw [e2]
    constructor
    · rintro ⟨h1, h2, h3⟩
      exfalso
      have h4 : (-1 - (Q:Int)) * b = -b - Q * b := by ring
      have h5 : -b * (Q:Int) = -(Q * b) := by ring
      rw [h4] at h1
      rw [h5] at hdm'
      omega
    · rintro (⟨h, _⟩ | ⟨_, h, _⟩)
      · exact absurd h (by omega)
      · exact absurd h (by simp)
  · have ha2 : ¬ a < 0 := not_lt.mpr ha
    have hb2 : ¬ b < 0 := not_lt.mpr hb'
    simp only [ha2, hb2, decide_false, bne_self_eq_false, Bool.false_eq_true, if_false]
    rw [key]
    have e1 : (a.natAbs : Int) = a := by omega
    have e2 : (b.natAbs : Int) = b := by omega
    rw [e1, e2] at hdm'
    rw [e2]
    constructor
    · intro _; left; exact ⟨by omega, Or.inl ha⟩
    · intro _; exact ⟨by linarith [mul_comm (Q:Int) b], by omega, by omega⟩

/-- C08, the part that holds: for a positive divisor, when the dividend is not negative or the
division leaves a remainder, Euclidean `divmod` returns the Euclidean quotient and remainder
(`0 <= r < b`, `a = q*b + r`). Missing: negative divisors and exact division of a negative
dividend, where the code is wrong (`C08_exact_negative_wrong`, `C08_negative_divisor_wrong`). -/
theorem C08_divmod_partial (p : CarryImpl) (hp : p.Exact) (hw : Bool) (a b : Opd) (ha : a.WF) (hb : b.WF)
    (hs : resSigned a b = true) (h0 : 0 < b.value) (hfit : RemFits a b)
    (hcase : 0 ≤ a.value ∨ ¬ b.value ∣ a.value) :
    ∃ q r, divmod p hw .euclid a b = some (q, r) ∧
      q.value = a.value / b.value ∧ r.value = a.value % b.value := by
  have hpair := (C08_euclid_iff a.value b.value (by omega)).mpr (Or.inl ⟨h0, hcase⟩)
  have hra := value_inRange ha (s := true) (n := resCount a b) (fun _ => rfl) (by
    have := intCount_le_left a b; rwa [hs] at this)
  have hbp : (0:Int) < (B:Int)^intCount true b := by
    have := Nat.pow_pos (n := intCount true b) B_pos; exact_mod_cast this
  have hq2 := quot_inRange a b ha (by omega) (by rintro ⟨_, h, _⟩; omega) (fun _ => by omega)
  rw [hs] at hq2
  obtain ⟨q, r, h1, h2, h3⟩ := euclid_value p hp hw a b ha hb hs (by omega) hfit (by omega)
    (by
      rw [hpair]
      simp only [InRange, if_true] at hra ⊢
      have hdm := Int.mul_ediv_add_emod a.value b.value
      have hnn := Int.emod_nonneg a.value (show b.value ≠ 0 by omega)
      have hlt := Int.emod_lt_of_pos a.value h0
      have hB : (0:Int) < (B:Int)^resCount a b := by
        have := Nat.pow_pos (n := resCount a b) B_pos; exact_mod_cast this
      generalize (B:Int)^resCount a b = S at *
      rcases lt_or_ge a.value 0 with h | h
      · have h5 : a.value / b.value ≤ 0 := by
          have := Int.ediv_neg_of_neg_of_pos h h0; omega
        have h6 : a.value ≤ a.value / b.value := by nlinarith
        constructor <;> linarith [hra.1, hra.2]
      · have h5 : 0 ≤ a.value / b.value := Int.ediv_nonneg h h0.le
        have h6 : a.value / b.value ≤ a.value := Int.ediv_le_self _ h
        constructor <;> linarith [hra.1, hra.2])
    hq2
  rw [hpair] at h2 h3
  exact ⟨q, r, h1, h2, h3⟩

/-- C08 is false: `-6` divided by `3` in Euclidean mode gives quotient `-3` and remainder `3`. -/
theorem C08_exact_negative_wrong (hw : Bool) :
    divmod gccImpl hw .euclid ⟨true, false, [B-6, B-1]⟩ ⟨true, false, [3]⟩ =
      some (⟨true, false, [B-3, B-1]⟩, ⟨true, false, [3]⟩) := by
  cases hw <;> decide

/-- C08 is false for every negative divisor and nonnegative dividend: the computed pair is not the
Euclidean one (and `a = q*b + r` fails). -/
theorem C08_negative_divisor_wrong (p : CarryImpl) (hp : p.Exact) (hw : Bool) (a b : Opd) (ha : a.WF) (hb : b.WF)
    (hs : resSigned a b = true) (h0 : b.value < 0) (ha0 : 0 ≤ a.value) (hfit : RemFits a b)
    (hbmin : 2 * b.value ≠ -(B:Int)^intCount true b) :
    ∃ q r, divmod p hw .euclid a b = some (q, r) ∧ a.value ≠ q.value * b.value + r.value := by
  have hra := value_inRange ha (s := true) (n := resCount a b) (fun _ => rfl) (by
    have := intCount_le_left a b; rwa [hs] at this)
  have hle : a.value.natAbs / b.value.natAbs ≤ a.value.natAbs := Nat.div_le_self _ _
  have hsg : (decide (a.value < 0) != decide (b.value < 0)) = true := by
    rw [decide_eq_true h0, decide_eq_false (not_lt.mpr ha0)]; rfl
  have hB : (0:Int) < (B:Int)^resCount a b := by
    have := Nat.pow_pos (n := resCount a b) B_pos; exact_mod_cast this
  have hq2 := quot_inRange a b ha (by omega) (by rintro ⟨_, _, h⟩; omega) (fun h => by rw [hs] at h; cases h)
  rw [hs] at hq2
  obtain ⟨q, r, h1, h2, h3⟩ := euclid_value p hp hw a b ha hb hs (by omega) hfit hbmin
    (by
      simp only [euclidPair, hsg, if_true]
      simp only [InRange, if_true] at hra ⊢
      have hev : (2:Int) ∣ (B:Int)^resCount a b :=
        Dvd.dvd.trans (by decide) (dvd_pow_self (B:Int) (by have := resCount_pos (b := b) ha; omega))
      generalize (B:Int)^resCount a b = S at *
      constructor
      · have : ((a.value.natAbs / b.value.natAbs : Nat):Int) ≤ a.value := by omega
        omega
      · have : (0:Int) ≤ ((a.value.natAbs / b.value.natAbs : Nat):Int) := Int.natCast_nonneg _
        omega)
    hq2
  refine ⟨q, r, h1, ?_⟩
  rw [h2, h3]
  simp only [euclidPair, hsg, if_true]
  intro heq
  have hdm := Nat.div_add_mod a.value.natAbs b.value.natAbs
  have hlt : a.value.natAbs % b.value.natAbs < b.value.natAbs := Nat.mod_lt _ (by omega)
  have hdm' : (b.value.natAbs : Int) * ((a.value.natAbs / b.value.natAbs : Nat) : Int) + ((a.value.natAbs % b.value.natAbs : Nat) : Int) = (a.value.natAbs : Int) := by
    exact_mod_cast hdm
  generalize a.value.natAbs / b.value.natAbs = Q at *
  generalize a.value.natAbs % b.value.natAbs = R at *
  have e1 : (a.value.natAbs : Int) = a.value := by omega
  have e2 : (b.value.natAbs : Int) = -b.value := by omega
  rw [e1, e2] at hdm'
  rw [e2] at heq
  have h4 : (-1 - (Q:Int)) * b.value = -b.value - Q * b.value := by ring
  have h5 : -b.value * (Q:Int) = -(Q * b.value) := by ring
  rw [h4] at heq
  rw [h5] at hdm'
  omega

/-- Non-vacuity of `C08_divmod_partial`: `-7` by `2`, in two words, gives `-4` and `1`. -/
example : divmod gccImpl true .euclid ⟨true, false, [B-7, B-1]⟩ ⟨true, false, [2]⟩ =
    some (⟨true, false, [B-4, B-1]⟩, ⟨true, false, [1]⟩) := by decide

/-! ### unmul -/

/-- C07: `unmul` (division whose quotient is known to fit) is truncating division, on the single
instruction path and on the general path. -/
theorem C07_unmul (p : CarryImpl) (hp : p.Exact) (hw : Bool) (nr : Nat) (a b : Opd)
    (ha : a.WF) (hb : b.WF) (h0 : b.value ≠ 0) (hfit : RemFits a b) (hnr0 : 0 < nr) (hnr : nr ≤ resCount a b)
    (hq : InRange (resSigned a b) nr (Int.tdiv a.value b.value)) :
    ∃ q r, unmul p hw .truncate nr a b = some (q, r) ∧
      q.words.length = nr ∧ q.value = Int.tdiv a.value b.value ∧ r.value = Int.tmod a.value b.value := by
  unfold unmul
  simp only
  split
  · rename_i hc
    simp only [Bool.and_eq_true, decide_eq_true_eq] at hc
    obtain ⟨⟨⟨_, hc1⟩, hc2⟩, hc3⟩ := hc
    subst hc1
    have ea : unmul.readVal' (resSigned a b) (toWords a 2) = a.value :=
      readVal_toWords ha (fun h => resSigned_left h) (by omega)
    have eb : unmul.readVal' (resSigned a b) (toWords b 1) = b.value :=
      readVal_toWords hb (fun h => resSigned_right h) (by omega)
    rw [ea, eb, if_neg h0]
    have hbr := value_inRange hb (s := resSigned a b) (n := 1) (fun h => resSigned_right h) (by omega)
    have har := value_inRange ha (s := resSigned a b) (n := 2) (fun h => resSigned_left h) (by omega)
    have hlt : a.value.natAbs % b.value.natAbs < b.value.natAbs := Nat.mod_lt _ (by omega)
    have t2 := tmod_natAbs a.value b.value
    have hBH : (B:Int) = 2 * H := by exact_mod_cast B_eq
    cases hs : resSigned a b
    · rw [hs] at hq hbr har
      simp only [InRange, Bool.false_eq_true, if_false, pow_one] at hq hbr har
      rw [if_neg (not_lt.mpr har.1)] at t2
      simp only [Bool.false_eq_true, if_false, hq.2, decide_true, if_true, Bool.false_and]
      exact ⟨_, _, rfl, rfl, wrapWord_unsigned hq _, wrapWord_unsigned (by omega) _⟩
    · rw [hs] at hq hbr
      simp only [InRange, if_true, pow_one] at hq hbr
      have c1 : -(H:Int) ≤ Int.tdiv a.value b.value := by omega
      have c2 : Int.tdiv a.value b.value < H := by omega
      simp only [if_true, c1, c2, decide_true, Bool.and_self, Bool.true_and,
        show ((Mod.truncate = Mod.euclid) = False) by simp, decide_false, Bool.false_eq_true, if_false]
      refine ⟨_, _, rfl, rfl, wrapWord_signed ⟨c1, c2⟩ _, wrapWord_signed ?_ _⟩
      split at t2 <;> omega
  · have hmono : (B:Int)^nr ≤ (B:Int)^resCount a b := by
      have : B^nr ≤ B^resCount a b := Nat.pow_le_pow_right B_pos hnr
      exact_mod_cast this
    obtain ⟨q, r, h1, hqw, h2, h3, h4, h5⟩ := C07_divmod_partial p hp hw a b ha hb h0 hfit (by
      revert hq
      unfold InRange
      cases resSigned a b <;> intro hq
      · simp only [Bool.false_eq_true, if_false] at hq ⊢
        exact ⟨hq.1, by linarith [hq.2]⟩
      · simp only [if_true] at hq ⊢
        exact ⟨by linarith [hq.1], by linarith [hq.2]⟩)
    rw [h1]
    refine ⟨_, _, rfl, convert_len _ _ _, ?_, h5⟩
    have hlen : nr ≤ q.words.length := by omega
    -- reading the low words
    have hm1 : (val (toWords q nr) : Int) ≡ q.value [ZMOD (B:Int)^nr] := by
      rw [toWords_of_ge hlen]
      have m := readVal_modEq q.signed q.words
      have m2 := val_mod_take q.words nr
      refine m2.trans ?_
      refine (m.of_dvd ?_).symm
      exact pow_dvd_pow _ hlen
    have hW : Words (toWords q nr) := by
      rw [toWords_of_ge hlen]; exact Words.take hqw _
    have hr := readVal_range (resSigned a b) hW
    have hmm := readVal_modEq (resSigned a b) (toWords q nr)
    rw [toWords_length] at hr hmm
    exact inRange_unique hr hq (hmm.trans (by rw [← h4]; exact hm1))

/-- C08: `unmul` in Euclidean mode, with signed operands, gives the pair `euclidPair`: for operands whose signs agree
the quotient and remainder of the magnitudes, otherwise (one less than the negated quotient, divisor magnitude minus
remainder). -/
theorem C08_unmul_pair (p : CarryImpl) (hp : p.Exact) (hw : Bool) (nr : Nat) (a b : Opd)
    (ha : a.WF) (hb : b.WF) (hs : resSigned a b = true) (h0 : b.value ≠ 0) (hfit : RemFits a b) (hnr0 : 0 < nr)
    (hnr : nr ≤ resCount a b) (hbmin : 2 * b.value ≠ -(B:Int)^intCount true b)
    (hq : InRange true nr (euclidPair a.value b.value).1) (hq' : InRange true nr (Int.tdiv a.value b.value)) :
    ∃ q r, unmul p hw .euclid nr a b = some (q, r) ∧ q.words.length = nr ∧
      q.value = (euclidPair a.value b.value).1 ∧ r.value = (euclidPair a.value b.value).2 := by
  unfold unmul
  simp only
  split
  · rename_i hc
    simp only [Bool.and_eq_true, decide_eq_true_eq] at hc
    obtain ⟨⟨⟨_, hc1⟩, hc2⟩, hc3⟩ := hc
    subst hc1
    rw [hs] at hc2 hc3 ⊢
    have ea : unmul.readVal' true (toWords a 2) = a.value :=
      readVal_toWords ha (fun _ => rfl) (by omega)
    have eb : unmul.readVal' true (toWords b 1) = b.value :=
      readVal_toWords hb (fun _ => rfl) (by omega)
    rw [ea, eb, if_neg h0]
    have hbr := value_inRange hb (s := true) (n := 1) (fun _ => rfl) (by omega)
    have hlt : a.value.natAbs % b.value.natAbs < b.value.natAbs := Nat.mod_lt _ (by omega)
    have t2 := tmod_natAbs a.value b.value
    have t3 : ((Int.tmod a.value b.value).natAbs : Int) = ((a.value.natAbs % b.value.natAbs : Nat) : Int) := by
      split at t2 <;> omega
    have hBH : (B:Int) = 2 * H := by exact_mod_cast B_eq
    rw [hc3] at hbmin
    simp only [InRange, if_true, pow_one] at hq hq' hbr hbmin
    have c1 : -(H:Int) ≤ Int.tdiv a.value b.value := by omega
    have c2 : Int.tdiv a.value b.value < H := by omega
    simp only [if_true, c1, c2, decide_true, Bool.and_self]
    refine ⟨_, _, rfl, rfl, ?_, ?_⟩ <;> unfold unmulFix
    · by_cases hsg : (decide (a.value < 0) != decide (b.value < 0)) = true
      · have tq := tdiv_natAbs' _ _ hsg
        simp only [euclidPair, hsg, if_true] at hq ⊢
        rw [wrapWord_signed] <;> omega
      · have hsg' : (decide (a.value < 0) != decide (b.value < 0)) = false := by simpa using hsg
        have tq := tdiv_natAbs _ _ hsg'
        simp only [euclidPair, hsg', Bool.false_eq_true, if_false] at hq ⊢
        rw [wrapWord_signed] <;> omega
    · by_cases hsg : (decide (a.value < 0) != decide (b.value < 0)) = true
      · simp only [euclidPair, hsg, if_true]
        rw [t3, wrapWord_signed]; omega
      · have hsg' : (decide (a.value < 0) != decide (b.value < 0)) = false := by simpa using hsg
        simp only [euclidPair, hsg', Bool.false_eq_true, if_false]
        rw [t3, wrapWord_signed]; omega
  · have hmono : (B:Int)^nr ≤ (B:Int)^resCount a b := by
      have : B^nr ≤ B^resCount a b := Nat.pow_le_pow_right B_pos hnr
      exact_mod_cast this
    have up : ∀ v : Int, InRange true nr v → InRange true (resCount a b) v := by
      intro v hv
      simp only [InRange, if_true] at hv ⊢
      exact ⟨by linarith [hv.1], by linarith [hv.2]⟩
    obtain ⟨q, r, h1, h4, h5, hqw, h2, h3⟩ := euclid_value' p hp hw a b ha hb hs h0 hfit hbmin (up _ hq) (up _ hq')
    rw [h1]
    refine ⟨_, _, rfl, convert_len _ _ _, ?_, h5⟩
    have hlen : nr ≤ q.words.length := by omega
    have hm1 : (val (toWords q nr) : Int) ≡ q.value [ZMOD (B:Int)^nr] := by
      rw [toWords_of_ge hlen]
      have m := readVal_modEq q.signed q.words
      have m2 := val_mod_take q.words nr
      refine m2.trans ?_
      refine (m.of_dvd ?_).symm
      exact pow_dvd_pow _ hlen
    have hW : Words (toWords q nr) := by
      rw [toWords_of_ge hlen]; exact Words.take hqw _
    have hr := readVal_range true hW
    have hmm := readVal_modEq true (toWords q nr)
    rw [toWords_length] at hr hmm
    rw [hs]
    exact inRange_unique hr hq (hmm.trans (by rw [← h4]; exact hm1))

/-- Non-vacuity: `-7` (two words) over `2` on the single instruction path gives `-4` and `1`. -/
example : unmul gccImpl true .euclid 1 ⟨true, false, [B-7, B-1]⟩ ⟨true, false, [2]⟩ =
    some (⟨true, false, [B-4]⟩, ⟨true, false, [1]⟩) := by decide +kernel

end PolyOps.LargeInt
