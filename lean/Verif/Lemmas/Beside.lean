import Verif.Lemmas.Side

/-! Winding numbers beside lines, and around places. -/
namespace PolyOps.Exec
open PolyOps PolyOps.Sweep PolyOps.Region PolyOps.Planarity

/-- True for all small positive numbers. -/
def Small (P : Rat → Prop) : Prop := ∃ ε0 : Rat, 0 < ε0 ∧ ∀ ε, 0 < ε → ε ≤ ε0 → P ε

theorem Small.and {P Q : Rat → Prop} (h1 : Small P) (h2 : Small Q) : Small fun ε => P ε ∧ Q ε := by
  obtain ⟨e1, p1, h1⟩ := h1
  obtain ⟨e2, p2, h2⟩ := h2
  exact ⟨min e1 e2, lt_min p1 p2, fun ε p h => ⟨h1 ε p (h.trans (min_le_left _ _)), h2 ε p (h.trans (min_le_right _ _))⟩⟩

theorem Small.mono {P Q : Rat → Prop} (h : Small P) (hi : ∀ ε, 0 < ε → P ε → Q ε) : Small Q := by
  obtain ⟨e, p, h⟩ := h
  exact ⟨e, p, fun ε q r => hi ε q (h ε q r)⟩

theorem Small.get {P : Rat → Prop} (h : Small P) : ∃ ε, 0 < ε ∧ P ε := by
  obtain ⟨e, p, h⟩ := h
  exact ⟨e, p, h e p le_rfl⟩

theorem small_lt {a : Rat} (h : 0 < a) : Small fun ε => ε < a := ⟨a / 2, by linarith, fun ε _ h => by linarith⟩

/-- The winding number at a place. -/
def windAt (E : List (Pt × Pt)) (z : V) : Int := wind E z.1 z.2

/-- Near the middle of a line, in a direction, the winding number is `s`. -/
def Beside (E : List (Pt × Pt)) (e : Pt × Pt) (n : V) (s : Int) : Prop := Small fun ε => windAt E (sh (mid e.1 e.2) ε n) = s

theorem Beside.unique {E : List (Pt × Pt)} {e : Pt × Pt} {n : V} {s t : Int} (h1 : Beside E e n s) (h2 : Beside E e n t) : s = t := by
  obtain ⟨ε, _, a, b⟩ := (Small.and h1 h2).get
  rw [← a, ← b]

/-- The side of a line to which directions with growing angles turn: vertical unless the line is. -/
def nrm (e : Pt × Pt) : V :=
  if e.1.x < e.2.x then (0, 1) else if e.2.x < e.1.x then (0, -1) else if e.1.y < e.2.y then (-1, 0) else (1, 0)

theorem nrm_pos {e : Pt × Pt} (h : e.1 ≠ e.2) : 0 < cr (vec e.1 e.2) (nrm e) := by
  unfold nrm cr vec
  split
  · rename_i c; have : (e.1.x : Rat) < e.2.x := by exact_mod_cast c
    dsimp only; linarith
  · split
    · rename_i c; have : (e.2.x : Rat) < e.1.x := by exact_mod_cast c
      dsimp only; linarith
    · split
      · rename_i c; have : (e.1.y : Rat) < e.2.y := by exact_mod_cast c
        dsimp only; linarith
      · have : e.2.y < e.1.y := by
          by_contra g
          apply h
          have e1 : e.1.x = e.2.x := by omega
          have e2 : e.1.y = e.2.y := by omega
          rw [show e.1 = ⟨e.1.x, e.1.y⟩ from rfl, e1, e2]
        have : (e.2.y : Rat) < e.1.y := by exact_mod_cast this
        dsimp only; linarith

theorem mid_symm (a b : Pt) : mid a b = mid b a := by unfold mid; ext <;> dsimp only <;> ring

section
variable {K E : List (Pt × Pt)} (hA : Arr K) (hE : ∀ e ∈ E, e ∈ K)

theorem Seg.ne {K : List (Pt × Pt)} (hA : Arr K) {v u : Pt} (h : Seg K v u) : v ≠ u := by
  rcases h with h | h; exacts [hA.ne _ h, (hA.ne _ h).symm]

theorem sq_pos_of {d : V} (h : d ≠ 0) : 0 < dt d d := by
  have := norm_pos h
  have := pow_pos this 2
  unfold dt
  nlinarith [sq_abs d.1, sq_abs d.2, sq_nonneg (|d.1| - |d.2|)]

include hA in
/-- Two lines from a point have different directions. -/
theorem ray_ne {v c b : Pt} (hc : Seg K v c) (hb : Seg K v b) (hcb : c ≠ b) : ¬ Same (vec v c) (vec v b) := by
  have c0 := vec_ne (hc.ne hA)
  have b0 := vec_ne (hb.ne hA)
  rw [same_iff c0 b0]
  rintro ⟨h1, h2⟩
  have hB := sq_pos_of b0
  -- `c - v = ρ (b - v)`
  obtain ⟨ρ, hρ⟩ : ∃ ρ, ρ = dt (vec v c) (vec v b) / dt (vec v b) (vec v b) := ⟨_, rfl⟩
  have ρp : 0 < ρ := by rw [hρ]; exact div_pos h2 hB
  have k1 : (vec v c).1 = ρ * (vec v b).1 := by
    rw [hρ, div_mul_eq_mul_div, eq_div_iff hB.ne']
    unfold dt cr at *; linear_combination (vec v b).2 * h1
  have k2 : (vec v c).2 = ρ * (vec v b).2 := by
    rw [hρ, div_mul_eq_mul_div, eq_div_iff hB.ne']
    unfold dt cr at *; linear_combination -(vec v b).1 * h1
  obtain ⟨τ, hτ⟩ : ∃ τ, τ = 1 / (2 * (1 + ρ)) := ⟨_, rfl⟩
  have τp : 0 < τ := by rw [hτ]; positivity
  have τ1 : τ * (2 * (1 + ρ)) = 1 := by rw [hτ]; field_simp
  have τ2 : τ < 1 := by nlinarith
  have on1 : OnSegQ ((v.x : Rat) + τ * (vec v c).1) ((v.y : Rat) + τ * (vec v c).2) v c := ⟨τ, τp.le, τ2.le, rfl, rfl⟩
  have on2 : OnSegQ ((v.x : Rat) + τ * (vec v c).1) ((v.y : Rat) + τ * (vec v c).2) v b :=
    ⟨τ * ρ, by positivity, by nlinarith, by rw [k1]; show _ = (v.x : Rat) + τ * ρ * (vec v b).1; ring,
      by rw [k2]; show _ = (v.y : Rat) + τ * ρ * (vec v b).2; ring⟩
  have hends : IsEnd ((v.x : Rat) + τ * (vec v c).1) ((v.y : Rat) + τ * (vec v c).2) v c := by
    rcases hc with hc | hc <;> rcases hb with hb | hb
    · exact (hA.meet _ hc _ hb (fun e => hcb (congrArg Prod.snd e)) _ _ on1 on2).1
    · refine (hA.meet _ hc _ hb (fun e => ?_) _ _ on1 (onq_swap on2)).1
      have e1 : v = b := congrArg Prod.fst e
      exact b0 (by rw [e1]; unfold vec; simp)
    · refine (hA.meet _ hc _ hb (fun e => ?_) _ _ (onq_swap on1) on2).1.symm
      have e1 : c = v := congrArg Prod.fst e
      exact c0 (by rw [e1]; unfold vec; simp)
    · exact (hA.meet _ hc _ hb (fun e => hcb (congrArg Prod.fst e)) _ _ (onq_swap on1) (onq_swap on2)).1.symm
  rcases hends with h | h
  · have g1 : (v.x : Rat) + τ * (vec v c).1 = v.x := h.1
    have g2 : (v.y : Rat) + τ * (vec v c).2 = v.y := h.2
    apply c0
    exact Prod.ext ((mul_eq_zero.mp (show τ * (vec v c).1 = 0 by linarith)).resolve_left τp.ne') ((mul_eq_zero.mp (show τ * (vec v c).2 = 0 by linarith)).resolve_left τp.ne')
  · have g1 : (v.x : Rat) + τ * ((c.x : Rat) - v.x) = c.x := h.1
    have g2 : (v.y : Rat) + τ * ((c.y : Rat) - v.y) = c.y := h.2
    apply c0
    have n : (1 - τ) ≠ 0 := by linarith
    exact Prod.ext ((mul_eq_zero.mp (show (1 - τ) * (vec v c).1 = 0 by unfold vec; dsimp only; linarith)).resolve_left n)
      ((mul_eq_zero.mp (show (1 - τ) * (vec v c).2 = 0 by unfold vec; dsimp only; linarith)).resolve_left n)

theorem between_dir {c b : V} (hc : c ≠ 0) (hb : b ≠ 0) (hs : ¬ Same c b) : ∃ m, 0 < cr c m ∧ 0 < cr m b := by
  rcases lt_trichotomy (cr c b) 0 with h | h | h
  · refine ⟨(-(c.1 + b.1), -(c.2 + b.2)), ?_, ?_⟩ <;> (unfold cr at *; dsimp only; linarith)
  · have : ¬ 0 < dt c b := fun g => hs ((same_iff hc hb).mpr ⟨h, g⟩)
    have hd : dt c b ≠ 0 := by
      intro g
      have h1 := sq_pos_of hc
      have h2 := sq_pos_of hb
      unfold dt cr at *
      have : (c.1 * c.1 + c.2 * c.2) * (b.1 * b.1 + b.2 * b.2) = 0 := by
        have : (c.1 * c.1 + c.2 * c.2) * (b.1 * b.1 + b.2 * b.2) = (c.1 * b.2 - c.2 * b.1) ^ 2 + (c.1 * b.1 + c.2 * b.2) ^ 2 := by ring
        rw [this, h, g]; ring
      exact absurd this (mul_pos h1 h2).ne'
    refine ⟨(-c.2, c.1), ?_, ?_⟩
    · have := sq_pos_of hc; unfold cr dt at *; dsimp only; linarith
    · have : dt c b < 0 := lt_of_le_of_ne (not_lt.mp this) hd
      unfold cr dt at *; dsimp only; linarith
  · refine ⟨(c.1 + b.1, c.2 + b.2), ?_, ?_⟩ <;> (unfold cr at *; dsimp only; linarith)

include hA hE in
/-- The winding number is the same on the facing sides of two lines from a point with no line of `E` between them. -/
theorem wedge (hB : Bal E) {v c b : Pt} (hc : Seg K v c) (hb : Seg K v b) (hcb : c ≠ b)
    (free : ∀ r, Seg E v r → r ≠ c → r ≠ b → ¬ Btw (vec v c) (vec v r) (vec v b)) {nc nb : V} (h1 : 0 < cr (vec v c) nc) (h2 : 0 < cr nb (vec v b)) :
    Small fun ε => windAt E (sh (mid v c) ε nc) = windAt E (sh (mid v b) ε nb) := by
  have hs := ray_ne hA hc hb hcb
  have c0 := vec_ne (hc.ne hA)
  have b0 := vec_ne (hb.ne hA)
  obtain ⟨m, m1, m2⟩ := between_dir c0 b0 hs
  have key_ne : ∀ d, Btw (vec v c) d (vec v b) → ¬ Same d (vec v c) ∧ ¬ Same d (vec v b) := by
    intro d h
    unfold Btw at h
    unfold Same
    constructor <;> intro e <;> rw [e] at h <;> rcases h with h | h | h <;> linarith [h.1, h.2]
  -- a bound for the first part of the path when the angle is convex
  have bound : ∀ a x : Rat, 0 < a → Small fun ε => 0 < a / 2 + ε * x := by
    intro a x ha
    refine ⟨a / 4 / (|x| + 1), by positivity, fun ε p h => ?_⟩
    have hp : 0 < |x| + 1 := by positivity
    rw [le_div_iff₀ hp] at h
    have := mul_le_mul_of_nonneg_left (neg_abs_le x) p.le
    linarith
  have pb : Small fun ε => Clear E (sh (mid v b) ε nb) (sh (pv v) ε m) := by
    refine half hA hE hb ?_ ?_
    · rw [cr_swap nb, cr_swap m]; nlinarith [mul_pos h2 m2]
    · have hsm : Small fun ε => 0 < cr (vec v c) (vec v b) → 0 < cr (vec v c) (vec v b) / 2 + ε * cr (vec v c) nb := by
        by_cases k : 0 < cr (vec v c) (vec v b)
        · exact (bound _ _ k).mono fun _ _ h _ => h
        · exact ⟨1, one_pos, fun _ _ _ h => absurd h k⟩
      obtain ⟨ε0, p0, hε⟩ := hsm
      refine ⟨ε0, p0, fun ε p q t t0 t1 r hr hrb hsame => ?_⟩
      have d1 : 0 < cr (toward v b nb m ε t) (vec v b) := by
        have : cr (toward v b nb m ε t) (vec v b) = ε * ((1 - t) * cr nb (vec v b) + t * cr m (vec v b)) := by unfold cr toward; ring
        rw [this]
        apply mul_pos p
        rcases t0.lt_or_eq with k | k
        · nlinarith [mul_pos k m2, mul_nonneg (show 0 ≤ 1 - t by linarith) h2.le]
        · rw [← k]; linarith
      have bt : Btw (vec v c) (toward v b nb m ε t) (vec v b) := by
        refine btw_of_right c0 d1 (fun k => ?_) hs
        have k2 := hε ε p q k
        have : cr (vec v c) (toward v b nb m ε t) = (1 - t) * (cr (vec v c) (vec v b) / 2 + ε * cr (vec v c) nb) + t * (ε * cr (vec v c) m) := by unfold cr toward; ring
        rw [this]
        have g := mul_pos p m1
        rcases t0.lt_or_eq with j | j
        · nlinarith [mul_pos j g, mul_nonneg (show 0 ≤ 1 - t by linarith) k2.le]
        · rw [← j]; linarith
      by_cases hrc : r = c
      · rw [hrc] at hsame; exact (key_ne _ bt).1 hsame
      · exact free r hr hrc hrb (bt.congr_mid hsame)
  have pc : Small fun ε => Clear E (sh (mid v c) ε nc) (sh (pv v) ε m) := by
    refine half hA hE hc (mul_pos h1 m1) ?_
    have hsm : Small fun ε => 0 < cr (vec v c) (vec v b) → 0 < cr (vec v c) (vec v b) / 2 + ε * cr nc (vec v b) := by
      by_cases k : 0 < cr (vec v c) (vec v b)
      · exact (bound _ _ k).mono fun _ _ h _ => h
      · exact ⟨1, one_pos, fun _ _ _ h => absurd h k⟩
    obtain ⟨ε0, p0, hε⟩ := hsm
    refine ⟨ε0, p0, fun ε p q t t0 t1 r hr hrc hsame => ?_⟩
    have d1 : 0 < cr (vec v c) (toward v c nc m ε t) := by
      have : cr (vec v c) (toward v c nc m ε t) = ε * ((1 - t) * cr (vec v c) nc + t * cr (vec v c) m) := by unfold cr toward; ring
      rw [this]
      apply mul_pos p
      rcases t0.lt_or_eq with k | k
      · nlinarith [mul_pos k m1, mul_nonneg (show 0 ≤ 1 - t by linarith) h1.le]
      · rw [← k]; linarith
    have bt : Btw (vec v c) (toward v c nc m ε t) (vec v b) := by
      refine btw_of_left b0 d1 (fun k => ?_) hs
      have k2 := hε ε p q k
      have : cr (toward v c nc m ε t) (vec v b) = (1 - t) * (cr (vec v c) (vec v b) / 2 + ε * cr nc (vec v b)) + t * (ε * cr m (vec v b)) := by unfold cr toward; ring
      rw [this]
      have g := mul_pos p m2
      rcases t0.lt_or_eq with j | j
      · nlinarith [mul_pos j g, mul_nonneg (show 0 ≤ 1 - t by linarith) k2.le]
      · rw [← j]; linarith
    by_cases hrb : r = b
    · rw [hrb] at hsame; exact (key_ne _ bt).2 hsame
    · exact free r hr hrc hrb (bt.congr_mid hsame)
  exact (pb.and pc).mono fun ε _ h => (wind_clear hB h.2).trans (wind_clear hB h.1).symm

/-- The place is strictly inside the line. -/
def Within (e : Pt × Pt) (z : V) : Prop := OnSegQ z.1 z.2 e.1 e.2 ∧ ¬ IsEnd z.1 z.2 e.1 e.2

theorem mix_self (z : V) (t : Rat) : mix z z t = z := by unfold mix; ext <;> dsimp only <;> ring

theorem Small.list {α : Type} {P : α → Rat → Prop} {l : List α} (h : ∀ a ∈ l, Small (P a)) : Small fun ε => ∀ a ∈ l, P a ε := small_all h

theorem clear_all_small {E : List (Pt × Pt)} {z w n m : V} (h : ∀ e ∈ E, Small fun ε => Clear [e] (sh z ε n) (sh w ε m)) :
    Small fun ε => Clear E (sh z ε n) (sh w ε m) := (Small.list h).mono fun _ _ h => clear_all h

theorem mid_within {e : Pt × Pt} (h : e.1 ≠ e.2) : Within e (mid e.1 e.2) := by
  refine ⟨⟨1 / 2, by norm_num, by norm_num, by unfold mid; dsimp only; ring, by unfold mid; dsimp only; ring⟩, ?_⟩
  rintro (⟨h1, h2⟩ | ⟨h1, h2⟩) <;> apply vec_ne h <;> unfold mid at h1 h2 <;> dsimp only at h1 h2 <;> unfold vec <;>
    exact Prod.ext (by show _ = (0 : Rat); linarith) (by show _ = (0 : Rat); linarith)

/-- Places on the way between two inner places of a line are inner. -/
theorem within_mix {e : Pt × Pt} (h : e.1 ≠ e.2) {z w : V} (hz : Within e z) (hw : Within e w) {t : Rat} (t0 : 0 ≤ t) (t1 : t ≤ 1) : Within e (mix z w t) := by
  obtain ⟨⟨a, a0, a1, z1, z2⟩, hz⟩ := hz
  obtain ⟨⟨b, b0, b1, w1, w2⟩, hw⟩ := hw
  have ap : 0 < a ∧ a < 1 := by
    constructor
    · rcases a0.lt_or_eq with k | k
      · exact k
      · exact (hz (Or.inl ⟨by rw [z1, ← k]; ring, by rw [z2, ← k]; ring⟩)).elim
    · rcases a1.lt_or_eq with k | k
      · exact k
      · exact (hz (Or.inr ⟨by rw [z1, k]; ring, by rw [z2, k]; ring⟩)).elim
  have bp : 0 < b ∧ b < 1 := by
    constructor
    · rcases b0.lt_or_eq with k | k
      · exact k
      · exact (hw (Or.inl ⟨by rw [w1, ← k]; ring, by rw [w2, ← k]; ring⟩)).elim
    · rcases b1.lt_or_eq with k | k
      · exact k
      · exact (hw (Or.inr ⟨by rw [w1, k]; ring, by rw [w2, k]; ring⟩)).elim
  have c0 : 0 < (1 - t) * a + t * b := by
    rcases t0.lt_or_eq with k | k
    · nlinarith [mul_pos k bp.1, mul_nonneg (show 0 ≤ 1 - t by linarith) ap.1.le]
    · rw [← k]; linarith [ap.1]
  have c1 : (1 - t) * a + t * b < 1 := by
    rcases t0.lt_or_eq with k | k
    · nlinarith [mul_pos k (show 0 < 1 - b by linarith [bp.2]), mul_nonneg (show 0 ≤ 1 - t by linarith) (show 0 ≤ 1 - a by linarith [ap.2])]
    · rw [← k]; linarith [ap.2]
  have m1 : (mix z w t).1 = e.1.x + ((1 - t) * a + t * b) * ((e.2.x : Rat) - e.1.x) := by unfold mix; dsimp only; rw [z1, w1]; ring
  have m2 : (mix z w t).2 = e.1.y + ((1 - t) * a + t * b) * ((e.2.y : Rat) - e.1.y) := by unfold mix; dsimp only; rw [z2, w2]; ring
  refine ⟨⟨_, c0.le, c1.le, m1, m2⟩, ?_⟩
  rintro (⟨g1, g2⟩ | ⟨g1, g2⟩)
  · apply vec_ne h
    rw [m1] at g1; rw [m2] at g2
    exact Prod.ext ((mul_eq_zero.mp (show ((1 - t) * a + t * b) * ((e.2.x : Rat) - e.1.x) = 0 by linarith)).resolve_left c0.ne')
      ((mul_eq_zero.mp (show ((1 - t) * a + t * b) * ((e.2.y : Rat) - e.1.y) = 0 by linarith)).resolve_left c0.ne')
  · apply vec_ne h
    rw [m1] at g1; rw [m2] at g2
    have n : 1 - ((1 - t) * a + t * b) ≠ 0 := by linarith
    exact Prod.ext ((mul_eq_zero.mp (show (1 - ((1 - t) * a + t * b)) * ((e.2.x : Rat) - e.1.x) = 0 by linarith)).resolve_left n)
      ((mul_eq_zero.mp (show (1 - ((1 - t) * a + t * b)) * ((e.2.y : Rat) - e.1.y) = 0 by linarith)).resolve_left n)

include hA in
/-- Near inner places of a line the other lines are not met. -/
theorem others_clear {e : Pt × Pt} (he : e ∈ K) {F : List (Pt × Pt)} (hF : ∀ f ∈ F, f ∈ K ∧ f ≠ e) {z w : V} (hz : Within e z) (hw : Within e w) (n m : V) :
    Small fun ε => Clear F (sh z ε n) (sh w ε m) := by
  refine clear_all_small fun f hf => clear_small (hA.ne f (hF f hf).1) fun t t0 t1 hon => ?_
  have := within_mix (hA.ne e he) hz hw t0 t1
  exact this.2 (hA.meet e he f (hF f hf).1 (hF f hf).2.symm _ _ this.1 hon).1

/-- A path beside a line, from `z` to `w` on it, does not meet it. -/
theorem own_clear {e : Pt × Pt} {z w n m : V} (hz : Within e z) (hw : Within e w) (hn : 0 < cr (vec e.1 e.2) n * cr (vec e.1 e.2) m) {ε δ : Rat} (hε : 0 < ε) (hδ : 0 < δ) :
    Clear [e] (sh z ε n) (sh w δ m) := by
  intro t t0 t1 f hf hon
  rw [List.mem_singleton.mp hf] at hon
  obtain ⟨⟨a, _, _, z1, z2⟩, _⟩ := hz
  obtain ⟨⟨b, _, _, w1, w2⟩, _⟩ := hw
  obtain ⟨c, _, _, o1, o2⟩ := hon
  have : (1 - t) * ε * cr (vec e.1 e.2) n + t * δ * cr (vec e.1 e.2) m = 0 := by
    have o1' : z.1 + ε * n.1 + t * (w.1 + δ * m.1 - (z.1 + ε * n.1)) = (e.1.x : Rat) + c * ((e.2.x : Rat) - e.1.x) := o1
    have o2' : z.2 + ε * n.2 + t * (w.2 + δ * m.2 - (z.2 + ε * n.2)) = (e.1.y : Rat) + c * ((e.2.y : Rat) - e.1.y) := o2
    rw [z1, w1] at o1'
    rw [z2, w2] at o2'
    unfold cr vec
    dsimp only
    linear_combination ((e.2.x : Rat) - e.1.x) * o2' - ((e.2.y : Rat) - e.1.y) * o1'
  rcases lt_trichotomy (cr (vec e.1 e.2) n) 0 with k | k | k
  · have k2 : cr (vec e.1 e.2) m < 0 := by nlinarith
    rcases t0.lt_or_eq with j | j
    · nlinarith [mul_neg_of_pos_of_neg (mul_pos j hδ) k2, mul_nonpos_of_nonneg_of_nonpos (mul_nonneg (show 0 ≤ 1 - t by linarith) hε.le) k.le]
    · rw [← j] at this; nlinarith [mul_neg_of_pos_of_neg hε k]
  · rw [k] at hn; simp at hn
  · have k2 : 0 < cr (vec e.1 e.2) m := by nlinarith
    rcases t0.lt_or_eq with j | j
    · nlinarith [mul_pos (mul_pos j hδ) k2, mul_nonneg (mul_nonneg (show 0 ≤ 1 - t by linarith) hε.le) k.le]
    · rw [← j] at this; nlinarith [mul_pos hε k]

end
end PolyOps.Exec
