import Verif.Props.RasterWind
import Mathlib.Tactic.FieldSimp
/-! Lines of the rasteriser as functions of the height: where two lines are at a height, and what a crossing says about their order. -/
namespace PolyOps.Raster
open PolyOps.Events

/-- The upper end is first. -/
def Down (s : Seg) : Prop := s.pa.y < s.pb.y

/-- Change of x per unit of height. -/
def sl (s : Seg) : ℚ := ((s.pb.x : ℚ) - s.pa.x) / ((s.pb.y : ℚ) - s.pa.y)

/-- Where the line is at height `t`; also beyond its ends. -/
def lx (s : Seg) (t : ℚ) : ℚ := s.pa.x + (t - s.pa.y) * sl s

/-- Ends with the same index are the same point. -/
def Fits (s s' : Seg) : Prop :=
  (s.a = s'.a → s.pa = s'.pa) ∧ (s.a = s'.b → s.pa = s'.pb) ∧ (s.b = s'.a → s.pb = s'.pa) ∧ (s.b = s'.b → s.pb = s'.pb)

theorem lx_diff (s s' : Seg) (c t : ℚ) : lx s t - lx s' t = (lx s c - lx s' c) + (t - c) * (sl s - sl s') := by
  unfold lx; ring

theorem Down.pos {s : Seg} (h : Down s) : (0:ℚ) < (s.pb.y : ℚ) - s.pa.y := by
  have : (s.pa.y : ℚ) < s.pb.y := by exact_mod_cast h
  linarith

theorem lx_a (s : Seg) : lx s s.pa.y = s.pa.x := by unfold lx; ring

theorem lx_b {s : Seg} (h : Down s) : lx s s.pb.y = s.pb.x := by
  have := h.pos
  unfold lx sl
  field_simp
  ring

theorem par_iff {s s' : Seg} (h : Down s) (h' : Down s') :
    (s.pb.x - s.pa.x) * (s'.pb.y - s'.pa.y) = (s.pb.y - s.pa.y) * (s'.pb.x - s'.pa.x) ↔ sl s = sl s' := by
  have h1 := h.pos
  have h2 := h'.pos
  unfold sl
  rw [div_eq_div_iff h1.ne' h2.ne']
  constructor
  · intro e
    have : ((s.pb.x : ℚ) - s.pa.x) * (s'.pb.y - s'.pa.y) = (s.pb.y - s.pa.y) * (s'.pb.x - s'.pa.x) := by exact_mod_cast e
    linarith
  · intro e
    have : ((s.pb.x : ℚ) - s.pa.x) * (s'.pb.y - s'.pa.y) = (s.pb.y - s.pa.y) * (s'.pb.x - s'.pa.x) := by linarith
    exact_mod_cast this

theorem inside_iff {s : Seg} (h : Down s) (X Y : ℚ) : Inside s.pa s.pb X Y ↔ (s.pa.y : ℚ) < Y ∧ Y < s.pb.y ∧ X = lx s Y := by
  have h1 := h.pos
  constructor
  · intro hi
    obtain ⟨a, b⟩ := inside_between hi h
    obtain ⟨t, _, _, rfl, rfl⟩ := hi
    refine ⟨a, b, ?_⟩
    unfold lx sl
    field_simp
    ring
  · rintro ⟨a, b, rfl⟩
    refine ⟨(Y - s.pa.y) / (s.pb.y - s.pa.y), div_pos (by linarith) h1, ?_, ?_, ?_⟩
    · rw [div_lt_one h1]; linarith
    · unfold lx sl; field_simp
    · field_simp; ring

theorem onLine_lx (s : Seg) (h : Down s) (t : ℚ) : OnLine s.pa s.pb (lx s t) t := by
  have := h.pos
  unfold OnLine lx sl
  field_simp
  ring

/-- What a reported crossing is. -/
theorem isect_some {s s' : Seg} (h : Down s) (h' : Down s') {iy : IntrY} (hi : isect s s' = some iy) :
    sl s ≠ sl s' ∧ lx s iy.val = lx s' iy.val ∧ ((s.pa.y : ℚ) < iy.val ∧ iy.val < s.pb.y) ∧ ((s'.pa.y : ℚ) < iy.val ∧ iy.val < s'.pb.y) := by
  obtain ⟨_, hp, X, Y, i1, i2⟩ := (C42_crosses s s').mp (by rw [hi]; rfl)
  have hv := C42_height _ _ _ hi X Y (inside_onLine i1) (inside_onLine i2)
  rw [inside_iff h] at i1
  rw [inside_iff h'] at i2
  rw [hv]
  exact ⟨fun e => hp ((par_iff h h').mpr e), by rw [← i1.2.2, ← i2.2.2], ⟨i1.1, i1.2.1⟩, i2.1, i2.2.1⟩

/-- Lines with different directions meet at one height only. -/
theorem root_unique {s s' : Seg} (hne : sl s ≠ sl s') {v w : ℚ} (hv : lx s v = lx s' v) (hw : lx s w = lx s' w) : v = w := by
  have := lx_diff s s' v w
  rw [hv, hw, sub_self, sub_self, zero_add] at this
  rcases mul_eq_zero.mp this.symm with h | h
  · linarith
  · exact absurd (sub_eq_zero.mp h) hne

/-- When a crossing is reported. -/
theorem isect_exists {s s' : Seg} (h : Down s) (h' : Down s') (hf : Fits s s') {v : ℚ} (hne : sl s ≠ sl s') (hx : lx s v = lx s' v)
    (h1 : (s.pa.y : ℚ) < v) (h2 : v < s.pb.y) (h3 : (s'.pa.y : ℚ) < v) (h4 : v < s'.pb.y) : ∃ iy, isect s s' = some iy ∧ iy.val = v := by
  have hs : (isect s s').isSome := by
    rw [C42_crosses]
    refine ⟨⟨?_, ?_, ?_, ?_⟩, fun e => hne ((par_iff h h').mp e), lx s v, v, (inside_iff h _ _).mpr ⟨h1, h2, rfl⟩,
      (inside_iff h' _ _).mpr ⟨h3, h4, hx⟩⟩
    · intro e
      have hp := hf.1 e
      have : lx s s.pa.y = lx s' s.pa.y := by rw [lx_a]; rw [hp]; exact (lx_a s').symm
      exact h1.ne (root_unique hne this hx)
    · intro e
      have hp := hf.2.1 e
      have : lx s s.pa.y = lx s' s.pa.y := by rw [lx_a, hp]; exact (lx_b h').symm
      exact h1.ne (root_unique hne this hx)
    · intro e
      have hp := hf.2.2.1 e
      have : lx s s.pb.y = lx s' s.pb.y := by rw [lx_b h, hp]; exact (lx_a s').symm
      exact h2.ne (root_unique hne hx this)
    · intro e
      have hp := hf.2.2.2 e
      have : lx s s.pb.y = lx s' s.pb.y := by rw [lx_b h, hp]; exact (lx_b h').symm
      exact h2.ne (root_unique hne hx this)
  obtain ⟨iy, hi⟩ := Option.isSome_iff_exists.mp hs
  obtain ⟨a, b, _, _⟩ := isect_some h h' hi
  exact ⟨iy, hi, root_unique a b hx⟩

theorem dDet_neg {s s' : Seg} (h : Down s) (h' : Down s') : dDet s s' < 0 ↔ sl s < sl s' := by
  have h1 := h.pos
  have h2 := h'.pos
  unfold sl
  rw [div_lt_div_iff₀ h1 h2]
  unfold dDet
  constructor
  · intro e
    have : ((s.pa.x : ℚ) - s.pb.x) * (s'.pa.y - s'.pb.y) - (s.pa.y - s.pb.y) * (s'.pa.x - s'.pb.x) < 0 := by exact_mod_cast e
    linarith
  · intro e
    have : ((s.pa.x : ℚ) - s.pb.x) * (s'.pa.y - s'.pb.y) - (s.pa.y - s.pb.y) * (s'.pa.x - s'.pb.x) < 0 := by linarith
    exact_mod_cast this

/-- The whole part computed by the Euclidean division, from the value of the quotient. -/
theorem euclid_same {n d n' d' : Int} (hd : d < 0) (hd' : d' < 0) (h : (n : ℚ) / d = (n' : ℚ) / d') : (euclid n d).1 = (euclid n' d').1 := by
  have hq : (d : ℚ) < 0 := by exact_mod_cast hd
  have hq' : (d' : ℚ) < 0 := by exact_mod_cast hd'
  rw [div_eq_div_iff hq.ne hq'.ne] at h
  have hz : n * d' = n' * d := by exact_mod_cast h
  have hs : n < 0 ↔ n' < 0 := by
    constructor
    · intro hn
      by_contra hc
      have : 0 < n * d' := mul_pos_of_neg_of_neg hn hd'
      have : n' * d ≤ 0 := mul_nonpos_of_nonneg_of_nonpos (by omega) hd.le
      omega
    · intro hn
      by_contra hc
      have : 0 < n' * d := mul_pos_of_neg_of_neg hn hd
      have : n * d' ≤ 0 := mul_nonpos_of_nonneg_of_nonpos (by omega) hd'.le
      omega
  have hdiv : n.natAbs / d.natAbs = n'.natAbs / d'.natAbs := by
    have h1 : n.natAbs * d'.natAbs = n'.natAbs * d.natAbs := by rw [← Int.natAbs_mul, ← Int.natAbs_mul, hz]
    have p1 : 0 < d.natAbs := by omega
    have p2 : 0 < d'.natAbs := by omega
    rw [← Nat.mul_div_mul_right n.natAbs d.natAbs p2, h1, mul_comm d.natAbs, Nat.mul_div_mul_right _ _ p1]
  unfold euclid
  simp only [hd, hd', hs, decide_true]
  split
  · simp only [hdiv]
  · simp only [hdiv]

/-- Heights of the same value that come from lines crossing in the same sense are equal in both parts. -/
theorem height_same {s1 s2 s3 s4 : Seg} (h1 : Down s1) (h2 : Down s2) (h3 : Down s3) (h4 : Down s4) {i j : IntrY}
    (hi : isect s1 s2 = some i) (hj : isect s3 s4 = some j) (hv : i.val = j.val) (hs : sl s1 < sl s2) (hs' : sl s3 < sl s4) :
    i.key = j.key ∧ i.eq j = true := by
  obtain ⟨d1, rfl⟩ := isect_height hi
  obtain ⟨d2, rfl⟩ := isect_height hj
  have hw : (height s1 s2 d1).whole = (height s3 s4 d2).whole := by
    have e1 : (height s1 s2 d1).val = ((tDet s1 s2 * (s1.pb.y - s1.pa.y) + dDet s1 s2 * s1.pa.y : Int) : ℚ) / (dDet s1 s2 : Int) := by
      rw [← euclid_val _ _ d1]; rfl
    have e2 : (height s3 s4 d2).val = ((tDet s3 s4 * (s3.pb.y - s3.pa.y) + dDet s3 s4 * s3.pa.y : Int) : ℚ) / (dDet s3 s4 : Int) := by
      rw [← euclid_val _ _ d2]; rfl
    rw [e1, e2] at hv
    exact euclid_same ((dDet_neg h1 h2).mpr hs) ((dDet_neg h3 h4).mpr hs') hv
  generalize height s1 s2 d1 = i at hw hv
  generalize height s3 s4 d2 = j at hw hv
  have hf : i.frac.val = j.frac.val := by
    unfold IntrY.val at hv
    rw [hw] at hv
    linarith
  refine ⟨by unfold IntrY.key; rw [hw, hf], ?_⟩
  unfold IntrY.eq
  rw [decide_eq_true_eq]
  refine ⟨hw, ?_⟩
  unfold Frac.val at hf
  rw [div_eq_div_iff i.frac.den_pos.ne' j.frac.den_pos.ne'] at hf
  exact_mod_cast hf

theorem val_of_eq {i j : IntrY} (h : i.eq j = true) : i.val = j.val := by
  unfold IntrY.eq at h
  rw [decide_eq_true_eq] at h
  obtain ⟨h1, h2⟩ := h
  unfold IntrY.val Frac.val
  rw [h1]
  congr 1
  rw [div_eq_div_iff i.frac.den_pos.ne' j.frac.den_pos.ne']
  exact_mod_cast h2

/-- If a line is to the right at height `c` and no crossing is reported, it stays to the right. -/
theorem stays_none {s s' : Seg} (h : Down s) (h' : Down s') (hf : Fits s s') (hi : isect s s' = none) {c : ℚ}
    (a : (s.pa.y : ℚ) ≤ c) (a' : (s'.pa.y : ℚ) ≤ c) (hc : lx s' c < lx s c) {t : ℚ} (ht : c ≤ t) (e : t ≤ s.pb.y) (e' : t ≤ s'.pb.y) :
    lx s' t ≤ lx s t := by
  by_contra hlt
  push Not at hlt
  have hd := lx_diff s s' c t
  have hct : c < t := by
    rcases ht.lt_or_eq with h | h
    · exact h
    · subst h; linarith
  have hm : sl s - sl s' < 0 := by
    by_contra hm
    push Not at hm
    have := mul_nonneg (sub_nonneg.mpr ht) hm
    linarith
  set v := c + (lx s c - lx s' c) / (sl s' - sl s) with hv
  have hp : 0 < sl s' - sl s := by linarith
  have hvc : c < v := by
    rw [hv]
    have : 0 < (lx s c - lx s' c) / (sl s' - sl s) := div_pos (by linarith) hp
    linarith
  have hx : lx s v = lx s' v := by
    have := lx_diff s s' c v
    have e2 : (v - c) * (sl s - sl s') = -(lx s c - lx s' c) := by
      rw [hv]; field_simp; ring
    linarith
  have hvt : v < t := by
    have := lx_diff s s' v t
    rw [hx, sub_self, zero_add] at this
    by_contra hcon
    push Not at hcon
    have := mul_nonneg_of_nonpos_of_nonpos (sub_nonpos.mpr hcon) hm.le
    linarith
  obtain ⟨iy, hiy, _⟩ := isect_exists h h' hf (by intro e; rw [e] at hm; simp at hm) hx (by linarith) (by linarith) (by linarith) (by linarith)
  rw [hi] at hiy
  cases hiy

/-- Lines that crossed at `v` with the first to the right above keep the new order below. -/
theorem after_cross {s s' : Seg} {v t : ℚ} (hx : lx s v = lx s' v) (hs : sl s < sl s') (ht : v ≤ t) : lx s t ≤ lx s' t := by
  have := lx_diff s s' v t
  rw [hx, sub_self, zero_add] at this
  have := mul_nonpos_of_nonneg_of_nonpos (sub_nonneg.mpr ht) (sub_neg.mpr hs).le
  linarith

theorem before_cross {s s' : Seg} {v t : ℚ} (hx : lx s v = lx s' v) (hs : sl s < sl s') (ht : t ≤ v) : lx s' t ≤ lx s t := by
  have := lx_diff s s' v t
  rw [hx, sub_self, zero_add] at this
  have := mul_nonneg_of_nonpos_of_nonpos (sub_nonpos.mpr ht) (sub_neg.mpr hs).le
  linarith

/-- A line to the right at `c` that meets the other later has the smaller slope. -/
theorem slope_of_later {s s' : Seg} {c v : ℚ} (hc : lx s' c < lx s c) (hx : lx s v = lx s' v) (hv : c < v) : sl s < sl s' := by
  have := lx_diff s s' c v
  rw [hx, sub_self] at this
  by_contra hcon
  push Not at hcon
  have := mul_nonneg (sub_nonneg.mpr hv.le) (sub_nonneg.mpr hcon)
  linarith

theorem slope_of_earlier {s s' : Seg} {c v : ℚ} (hc : lx s' c < lx s c) (hx : lx s v = lx s' v) (hv : v < c) : sl s' < sl s := by
  have := lx_diff s s' v c
  rw [hx, sub_self, zero_add] at this
  by_contra hcon
  push Not at hcon
  have := mul_nonpos_of_nonneg_of_nonpos (sub_nonneg.mpr hv.le) (sub_nonpos.mpr hcon)
  linarith

end PolyOps.Raster
