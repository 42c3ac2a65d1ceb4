import Verif.Props.Geom

/-! Properties C15 (crossing branch), C16 and C17. -/
namespace PolyOps

/-! ### C15, proper crossings -/

/-- C15: when the segments meet but no end point lies on the other segment, a point is reported, and the
flags tell exactly whether the rounded point coincides with an end point (the start taking precedence). -/
theorem C15_crossing (rnd : Rat → Rat) (bx by' : Bool) (s1 s2 : CSeg) (hd : isD s1 s2 ≠ 0)
    (hi : ¬ SharesIndex s1 s2) (hm : Meet s1.pa s1.pb s2.pa s2.pb)
    (h1 : ¬ OnSeg s1.pa s2.pa s2.pb) (h2 : ¬ OnSeg s1.pb s2.pa s2.pb)
    (h3 : ¬ OnSeg s2.pa s1.pa s1.pb) (h4 : ¬ OnSeg s2.pb s1.pa s1.pb) :
    ∃ r p, intersects rnd bx by' s1 s2 = some r ∧ r.p = some p ∧
      r = crossing rnd bx by' s1 s2 ∧
      (r.e0 = .start ↔ p = s1.pa) ∧ (r.e0 = .end ↔ p = s1.pb ∧ p ≠ s1.pa) ∧
      (r.e1 = .start ↔ p = s2.pa) ∧ (r.e1 = .end ↔ p = s2.pb ∧ p ≠ s2.pa) := by
  have hb := (meet_iff_inBoth s1 s2 hd).mp hm
  rw [← onSeg_start1 s1 s2 hd hb] at h1
  rw [← onSeg_end1 s1 s2 hd hb] at h2
  rw [← onSeg_start2 s1 s2 hd hb] at h3
  rw [← onSeg_end2 s1 s2 hd hb] at h4
  refine ⟨crossing rnd bx by' s1 s2, _, ?_, rfl, rfl, ?_⟩
  · rw [(intersects_eq rnd bx by' s1 s2 hd hi).1 hb, if_neg h1, if_neg h2, if_neg h3, if_neg h4]
  · simp only [crossing]
    generalize (⟨_, _⟩ : Pt) = p
    refine ⟨?_, ?_, ?_, ?_⟩
    · by_cases c : p = s1.pa
      · simp [c]
      · rw [if_neg c]; simp only [c, iff_false]; split <;> simp
    · by_cases c : p = s1.pa
      · simp [c]
      · rw [if_neg c]; split <;> simp_all
    · by_cases c : p = s2.pa
      · simp [c]
      · rw [if_neg c]; simp only [c, iff_false]; split <;> simp
    · by_cases c : p = s2.pa
      · simp [c]
      · rw [if_neg c]; split <;> simp_all

/-! ### C16 -/

/-- What is assumed of floating-point rounding: monotone, and exact on -1, 0 and 1. -/
structure RndMono (rnd : Rat → Rat) : Prop where
  mono : ∀ x y, x ≤ y → rnd x ≤ rnd y
  zero : rnd 0 = 0
  one : rnd 1 = 1
  neg_one : rnd (-1) = -1

theorem rndMono_id : RndMono id := ⟨fun _ _ h => h, rfl, rfl, rfl⟩

/-- Rounding to integers towards minus infinity also qualifies (a rounding that is not the identity). -/
theorem rndMono_floor : RndMono (fun x => (⌊x⌋ : Rat)) :=
  ⟨fun x y h => by exact_mod_cast Int.floor_mono h, by simp, by simp, by
    have : ⌊(-1:Rat)⌋ = -1 := by rw [Int.floor_eq_iff]; norm_num
    show ((⌊(-1:Rat)⌋:Int):Rat) = -1
    rw [this]; simp⟩

theorem quot_unit {rnd : Rat → Rat} (hr : RndMono rnd) {t d : Int} (hd : d ≠ 0)
    (h : (0 < d → 0 ≤ t ∧ t ≤ d) ∧ (d < 0 → t ≤ 0 ∧ d ≤ t)) :
    0 ≤ rnd (rnd t / rnd d) ∧ rnd (rnd t / rnd d) ≤ 1 := by
  have key : 0 ≤ rnd t / rnd d ∧ rnd t / rnd d ≤ 1 := by
    rcases lt_or_gt_of_ne hd with h0 | h0
    · obtain ⟨h1, h2⟩ := h.2 h0
      have a1 : rnd d ≤ -1 := by
        rw [← hr.neg_one]; apply hr.mono
        have : d ≤ -1 := by omega
        exact_mod_cast this
      have a2 : rnd t ≤ 0 := by rw [← hr.zero]; apply hr.mono; exact_mod_cast h1
      have a3 : rnd d ≤ rnd t := by apply hr.mono; exact_mod_cast h2
      constructor
      · exact div_nonneg_of_nonpos a2 (by linarith)
      · rw [div_le_one_of_neg (by linarith)]; exact a3
    · obtain ⟨h1, h2⟩ := h.1 h0
      have a1 : 1 ≤ rnd d := by
        rw [← hr.one]; apply hr.mono
        have : 1 ≤ d := by omega
        exact_mod_cast this
      have a2 : 0 ≤ rnd t := by rw [← hr.zero]; apply hr.mono; exact_mod_cast h1
      have a3 : rnd t ≤ rnd d := by apply hr.mono; exact_mod_cast h2
      constructor
      · exact div_nonneg a2 (by linarith)
      · rw [div_le_one (by linarith)]; exact a3
  constructor
  · rw [← hr.zero]; exact hr.mono _ _ key.1
  · rw [← hr.one]; exact hr.mono _ _ key.2

theorem offset_between {rnd : Rat → Rat} (hr : RndMono rnd) {t d : Int} (hd : d ≠ 0)
    (h : (0 < d → 0 ≤ t ∧ t ≤ d) ∧ (d < 0 → t ≤ 0 ∧ d ≤ t)) (delta : Int) (he : rnd delta = delta) (down : Bool) :
    min 0 delta ≤ roundedOffset rnd t d delta down ∧ roundedOffset rnd t d delta down ≤ max 0 delta := by
  obtain ⟨q0, q1⟩ := quot_unit hr hd h
  unfold roundedOffset
  simp only [he]
  generalize rnd (rnd t / rnd d) = q at q0 q1
  have key : ((min 0 delta : Int) : Rat) ≤ rnd (q * delta) ∧ rnd (q * delta) ≤ ((max 0 delta : Int) : Rat) := by
    rcases le_total 0 delta with hn | hn
    · have hn' : (0:Rat) ≤ delta := by exact_mod_cast hn
      rw [min_eq_left hn, max_eq_right hn]
      constructor
      · have : rnd 0 ≤ rnd (q * delta) := hr.mono _ _ (by positivity)
        rw [hr.zero] at this; simpa using this
      · rw [← he]; exact hr.mono _ _ (by rw [he]; nlinarith)
    · have hn' : (delta:Rat) ≤ 0 := by exact_mod_cast hn
      rw [min_eq_right hn, max_eq_left hn]
      constructor
      · rw [← he]; exact hr.mono _ _ (by rw [he]; nlinarith)
      · have : rnd (q * delta) ≤ rnd 0 := hr.mono _ _ (by nlinarith)
        rw [hr.zero] at this; simpa using this
  split
  · exact ⟨Int.le_floor.mpr key.1, by
      have := (Int.floor_le (rnd (q * delta))).trans key.2
      exact_mod_cast this⟩
  · refine ⟨?_, Int.ceil_le.mpr key.2⟩
    have := key.1.trans (Int.le_ceil (rnd (q * delta)))
    exact_mod_cast this

/-- A point in the closed bounding box of a segment. -/
def InBox (p a b : Pt) : Prop :=
  min a.x b.x ≤ p.x ∧ p.x ≤ max a.x b.x ∧ min a.y b.y ≤ p.y ∧ p.y ≤ max a.y b.y

/-- C16: with any monotone rounding that is exact on the coordinate differences of the first segment,
every reported point lies in the bounding box of the first segment, whatever the random decisions. -/
theorem C16_inBox (rnd : Rat → Rat) (hr : RndMono rnd) (bx by' : Bool) (s1 s2 : CSeg)
    (hd : isD s1 s2 ≠ 0)
    (hx : rnd ((s1.pb.x - s1.pa.x : Int) : Rat) = (s1.pb.x - s1.pa.x : Int))
    (hy : rnd ((s1.pb.y - s1.pa.y : Int) : Rat) = (s1.pb.y - s1.pa.y : Int))
    (hm : Meet s1.pa s1.pb s2.pa s2.pb)
    (p : Pt) (hp : (crossing rnd bx by' s1 s2).p = some p) : InBox p s1.pa s1.pb := by
  have hb := (meet_iff_inBoth s1 s2 hd).mp hm
  unfold InBoth at hb
  have hb' : (0 < isD s1 s2 → 0 ≤ isT s1 s2 ∧ isT s1 s2 ≤ isD s1 s2) ∧
      (isD s1 s2 < 0 → isT s1 s2 ≤ 0 ∧ isD s1 s2 ≤ isT s1 s2) := by tauto
  have ox := offset_between hr hd hb' _ hx bx
  have oy := offset_between hr hd hb' _ hy by'
  simp only [crossing, Option.some.injEq] at hp
  subst hp
  unfold InBox
  dsimp only
  omega

/-- Relative rounding error at most `ε`. -/
def RelErr (rnd : Rat → Rat) (ε : Rat) : Prop := ∀ x, |rnd x - x| ≤ ε * |x|

theorem relErr_factor {rnd : Rat → Rat} {ε : Rat} (h : RelErr rnd ε) (h0 : 0 ≤ ε) (x : Rat) :
    ∃ a, |a| ≤ ε ∧ rnd x = x * (1 + a) := by
  by_cases hx : x = 0
  · refine ⟨0, by simpa using h0, ?_⟩
    have := h x
    rw [hx] at this ⊢
    simp at this
    simp [this]
  · refine ⟨(rnd x - x) / x, ?_, by field_simp; ring⟩
    rw [abs_div, div_le_iff₀ (abs_pos.mpr hx)]
    exact h x

theorem err_bound {a b c e g ε : Rat} (h0 : 0 ≤ ε) (h1 : ε ≤ 1 / 100)
    (ha : |a| ≤ ε) (hb : |b| ≤ ε) (hc : |c| ≤ ε) (he : |e| ≤ ε) (hg : |g| ≤ ε) :
    |(1 + a) / (1 + b) * (1 + c) * (1 + g) * (1 + e) - 1| ≤ 6 * ε := by
  rw [abs_le] at ha hb hc he hg
  have hb1 : 0 < 1 + b := by linarith
  have e1 : (1 + a) / (1 + b) * (1 + c) * (1 + g) * (1 + e) - 1 =
      ((1 + a) * (1 + c) * (1 + g) * (1 + e) - (1 + b)) / (1 + b) := by field_simp
  rw [e1, abs_div, div_le_iff₀ (abs_pos.mpr hb1.ne'), abs_of_pos hb1]
  -- bound each product of two small terms
  have q1 : ∀ x y : Rat, -ε ≤ x ∧ x ≤ ε → -ε ≤ y ∧ y ≤ ε →
      1 - 2 * ε ≤ (1 + x) * (1 + y) ∧ (1 + x) * (1 + y) ≤ 1 + 2 * ε + ε / 100 := by
    intro x y hx hy
    constructor
    · nlinarith [mul_nonneg (by linarith : 0 ≤ 1 + x) (by linarith : 0 ≤ y + ε),
        mul_nonneg (by linarith : (0:Rat) ≤ 1 - ε) (by linarith : 0 ≤ x + ε), mul_nonneg h0 h0]
    · have : (1 + x) * (1 + y) ≤ (1 + ε) * (1 + ε) := by
        apply mul_le_mul <;> linarith
      nlinarith
  obtain ⟨l1, u1⟩ := q1 a c ha hc
  obtain ⟨l2, u2⟩ := q1 g e hg he
  have e2 : (1 + a) * (1 + c) * (1 + g) * (1 + e) = ((1 + a) * (1 + c)) * ((1 + g) * (1 + e)) := by ring
  rw [e2]
  generalize (1 + a) * (1 + c) = m at *
  generalize (1 + g) * (1 + e) = n at *
  have lo : 1 - 4 * ε ≤ m * n := by
    have : (1 - 2 * ε) * (1 - 2 * ε) ≤ m * n := mul_le_mul l1 l2 (by linarith) (by linarith)
    nlinarith
  have hi : m * n ≤ 1 + 4.2 * ε := by
    have : m * n ≤ (1 + 2 * ε + ε / 100) * (1 + 2 * ε + ε / 100) := mul_le_mul u1 u2 (by linarith) (by linarith)
    nlinarith
  rw [abs_le]
  constructor <;> nlinarith

/-- C16: with relative rounding error at most `ε ≤ 1/100` in every operation, the reported point is
less than `1 + 6ε·|length of the coordinate difference|` away from the exact crossing point in each coordinate.
(For doubles `ε = 2^-53`; with 32-bit coordinates the second term is below `2^-17`.) -/
theorem C16_near (rnd : Rat → Rat) (ε : Rat) (h0 : 0 ≤ ε) (h1 : ε ≤ 1 / 100) (hr : RelErr rnd ε)
    (bx by' : Bool) (s1 s2 : CSeg) (hd : isD s1 s2 ≠ 0)
    (x y t u : Rat) (ht0 : 0 ≤ t) (ht1 : t ≤ 1)
    (hx1 : At s1.pa s1.pb t x y) (hx2 : At s2.pa s2.pb u x y)
    (p : Pt) (hp : (crossing rnd bx by' s1 s2).p = some p) :
    |(p.x : Rat) - x| < 1 + 6 * ε * |(s1.pb.x : Rat) - s1.pa.x| ∧
    |(p.y : Rat) - y| < 1 + 6 * ε * |(s1.pb.y : Rat) - s1.pa.y| := by
  have hd' : (isD s1 s2 : Rat) ≠ 0 := by exact_mod_cast hd
  obtain ⟨e1, _⟩ := (cramer s1 s2 hd t u).mp ⟨x, y, hx1, hx2⟩
  have ht : t = (isT s1 s2 : Rat) / isD s1 s2 := by rw [← e1]; field_simp
  have key : ∀ (delta : Int) (down : Bool),
      |(roundedOffset rnd (isT s1 s2) (isD s1 s2) delta down : Rat) - t * delta| < 1 + 6 * ε * |(delta : Rat)| := by
    intro delta down
    unfold roundedOffset
    obtain ⟨a, ha, ea⟩ := relErr_factor hr h0 (isT s1 s2 : Rat)
    obtain ⟨b, hb, eb⟩ := relErr_factor hr h0 (isD s1 s2 : Rat)
    obtain ⟨c, hc, ec⟩ := relErr_factor hr h0 (rnd (isT s1 s2 : Rat) / rnd (isD s1 s2 : Rat))
    obtain ⟨g, hg, eg⟩ := relErr_factor hr h0 (delta : Rat)
    obtain ⟨e, he, ee⟩ := relErr_factor hr h0
      (rnd (rnd (isT s1 s2 : Rat) / rnd (isD s1 s2 : Rat)) * rnd (delta : Rat))
    dsimp only
    have er : |rnd (rnd (rnd (isT s1 s2 : Rat) / rnd (isD s1 s2 : Rat)) * rnd (delta : Rat)) - t * delta| ≤
        6 * ε * |(delta : Rat)| := by
      rw [ee, ec, eg, ea, eb]
      have hb1 : 1 + b ≠ 0 := by rw [abs_le] at hb; intro h; linarith
      have : (isT s1 s2 : Rat) * (1 + a) / (isD s1 s2 * (1 + b)) * (1 + c) * (delta * (1 + g)) * (1 + e) - t * delta =
          t * delta * ((1 + a) / (1 + b) * (1 + c) * (1 + g) * (1 + e) - 1) := by
        rw [ht]; field_simp
      rw [this, abs_mul]
      have b1 := err_bound h0 h1 ha hb hc he hg
      have b2 : |t * delta| ≤ |(delta : Rat)| := by
        rw [abs_mul, abs_of_nonneg ht0]
        exact mul_le_of_le_one_left (abs_nonneg _) ht1
      calc |t * delta| * |(1 + a) / (1 + b) * (1 + c) * (1 + g) * (1 + e) - 1|
          ≤ |(delta : Rat)| * (6 * ε) := mul_le_mul b2 b1 (abs_nonneg _) (abs_nonneg _)
        _ = _ := by ring
    generalize rnd (rnd (rnd (isT s1 s2 : Rat) / rnd (isD s1 s2 : Rat)) * rnd (delta : Rat)) = r at *
    rw [abs_le] at er
    rw [abs_lt]
    split
    · have f1 := Int.floor_le r
      have f2 := Int.lt_floor_add_one r
      constructor <;> linarith
    · have f1 := Int.le_ceil r
      have f2 := Int.ceil_lt_add_one r
      constructor <;> linarith
  simp only [crossing, Option.some.injEq] at hp
  subst hp
  have kx := key (s1.pb.x - s1.pa.x) bx
  have ky := key (s1.pb.y - s1.pa.y) by'
  rw [hx1.1, hx1.2]
  push_cast at kx ky ⊢
  constructor
  · convert kx using 2; ring
  · convert ky using 2; ring

/-- C16: with exact real arithmetic the reported point is less than one unit away in each coordinate
and lies in both bounding boxes. -/
theorem C16_exact (bx by' : Bool) (s1 s2 : CSeg) (hd : isD s1 s2 ≠ 0)
    (x y t u : Rat) (ht0 : 0 ≤ t) (ht1 : t ≤ 1) (hu0 : 0 ≤ u) (hu1 : u ≤ 1)
    (hx1 : At s1.pa s1.pb t x y) (hx2 : At s2.pa s2.pb u x y)
    (p : Pt) (hp : (crossing id bx by' s1 s2).p = some p) :
    |(p.x : Rat) - x| < 1 ∧ |(p.y : Rat) - y| < 1 ∧ InBox p s1.pa s1.pb ∧ InBox p s2.pa s2.pb := by
  have hn := C16_near id 0 le_rfl (by norm_num) (by intro x; simp) bx by' s1 s2 hd x y t u ht0 ht1 hx1 hx2 p hp
  simp at hn
  refine ⟨hn.1, hn.2, ?_⟩
  have hbox : ∀ a b : Int, ∀ t z : Rat, 0 ≤ t → t ≤ 1 → z = a + t * ((b:Rat) - a) → ∀ n : Int, |(n:Rat) - z| < 1 →
      min a b ≤ n ∧ n ≤ max a b := by
    intro a b t z h0 h1 hz n hn
    rw [abs_lt] at hn
    have k1 : ((min a b : Int) : Rat) ≤ z := by
      rcases le_total a b with h | h
      · rw [min_eq_left h, hz]
        have : (a:Rat) ≤ b := by exact_mod_cast h
        nlinarith
      · rw [min_eq_right h, hz]
        have : (b:Rat) ≤ a := by exact_mod_cast h
        nlinarith
    have k2 : z ≤ ((max a b : Int) : Rat) := by
      rcases le_total a b with h | h
      · rw [max_eq_right h, hz]
        have : (a:Rat) ≤ b := by exact_mod_cast h
        nlinarith
      · rw [max_eq_left h, hz]
        have : (b:Rat) ≤ a := by exact_mod_cast h
        nlinarith
    constructor
    · have : ((min a b : Int) : Rat) < n + 1 := by linarith
      have : min a b < n + 1 := by exact_mod_cast this
      omega
    · have : (n : Rat) < (max a b : Int) + 1 := by linarith
      have : n < max a b + 1 := by exact_mod_cast this
      omega
  have a1 := hbox _ _ t x ht0 ht1 hx1.1 _ hn.1
  have a2 := hbox _ _ t y ht0 ht1 hx1.2 _ hn.2
  have a3 := hbox _ _ u x hu0 hu1 hx2.1 _ hn.1
  have a4 := hbox _ _ u y hu0 hu1 hx2.2 _ hn.2
  exact ⟨⟨a1.1, a1.2, a2.1, a2.2⟩, a3.1, a3.2, a4.1, a4.2⟩

/-- Non-vacuity: a proper crossing at (3/2, 3/2), rounded down in x and up in y. -/
example : (crossing id true false ⟨0, 1, ⟨0,0⟩, ⟨3,3⟩⟩ ⟨2, 3, ⟨0,3⟩, ⟨3,0⟩⟩).p = some ⟨1, 2⟩ ∧
    isD ⟨0, 1, ⟨0,0⟩, ⟨3,3⟩⟩ ⟨2, 3, ⟨0,3⟩, ⟨3,0⟩⟩ ≠ 0 := by
  constructor
  · simp only [crossing, roundedOffset, isT, isD, id]
    norm_num [Int.floor_eq_iff, Int.ceil_eq_iff]
  · decide

end PolyOps
