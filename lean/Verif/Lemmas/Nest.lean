import Verif.Lemmas.Beside

/-! Winding numbers of closed parts of an arrangement of lines: how they change across a line, and where they are found. -/
namespace PolyOps.Exec
open PolyOps PolyOps.Sweep PolyOps.Region PolyOps.Planarity

section
variable {K E : List (Pt × Pt)} (hA : Arr K) (hE : ∀ e ∈ E, e ∈ K)

include hA hE in
theorem near_clear {e : Pt × Pt} (he : e ∈ K) {z w n m : V} (hz : Within e z) (hw : Within e w) (hn : 0 < cr (vec e.1 e.2) n * cr (vec e.1 e.2) m) :
    Small fun ε => Clear E (sh z ε n) (sh w ε m) := by
  refine clear_all_small fun f hf => ?_
  by_cases h : f = e
  · rw [h]; exact ⟨1, one_pos, fun ε p _ => own_clear hz hw hn p p⟩
  · exact others_clear hA he (F := [f]) (fun g hg => by rw [List.mem_singleton.mp hg]; exact ⟨hE f hf, h⟩) hz hw n m

include hA hE in
theorem slide (hB : Bal E) {e : Pt × Pt} (he : e ∈ K) {z w n m : V} (hz : Within e z) (hw : Within e w) (hn : 0 < cr (vec e.1 e.2) n * cr (vec e.1 e.2) m) :
    Small fun ε => windAt E (sh z ε n) = windAt E (sh w ε m) := (near_clear hA hE he hz hw hn).mono fun _ _ h => wind_clear hB h

theorem mix_zero (z w : V) : mix z w 0 = z := by unfold mix; ext <;> dsimp only <;> ring

include hA hE in
theorem near_off {e : Pt × Pt} (he : e ∈ K) {z n : V} (hz : Within e z) (hn : cr (vec e.1 e.2) n ≠ 0) :
    Small fun ε => Off E (sh z ε n).1 (sh z ε n).2 := by
  refine (near_clear hA hE he hz hz (n := n) (m := n) (mul_self_pos.mpr hn)).mono fun ε _ h => ?_
  have := h 0 le_rfl zero_le_one
  rwa [mix_zero] at this

include hA hE in
theorem beside_exists (hB : Bal E) {e : Pt × Pt} (he : e ∈ K) {n : V} (hn : cr (vec e.1 e.2) n ≠ 0) : ∃ s, Beside E e n s := by
  obtain ⟨ε0, p0, h⟩ := near_off hA hE he (mid_within (hA.ne e he)) hn
  refine ⟨windAt E (sh (mid e.1 e.2) ε0 n), ε0, p0, fun ε p q => ?_⟩
  refine wind_clear hB fun t t0 t1 => ?_
  have hm : mix (sh (mid e.1 e.2) ε n) (sh (mid e.1 e.2) ε0 n) t = sh (mid e.1 e.2) (ε + t * (ε0 - ε)) n := by
    unfold mix sh; ext <;> dsimp only <;> ring
  rw [hm]
  refine h _ ?_ ?_
  · nlinarith [mul_nonneg t0 (show 0 ≤ ε0 - ε by linarith)]
  · nlinarith [mul_nonneg (show 0 ≤ 1 - t by linarith) (show 0 ≤ ε0 - ε by linarith)]

include hA hE in
/-- Beside a line means beside any of its inner places. -/
theorem beside_of (hB : Bal E) {e : Pt × Pt} (he : e ∈ K) {z n m : V} (hz : Within e z) (hn : 0 < cr (vec e.1 e.2) n * cr (vec e.1 e.2) m) {s : Int}
    (h : Small fun ε => windAt E (sh z ε n) = s) : Beside E e m s := by
  refine ((slide hA hE hB he hz (mid_within (hA.ne e he)) hn).and h).mono fun ε _ h => ?_
  rw [← h.1]; exact h.2

include hA hE in
theorem beside_dir (hB : Bal E) {e : Pt × Pt} (he : e ∈ K) {n m : V} (hn : 0 < cr (vec e.1 e.2) n * cr (vec e.1 e.2) m) {s : Int}
    (h : Beside E e n s) : Beside E e m s := beside_of hA hE hB he (mid_within (hA.ne e he)) hn h

theorem sum_split {l : List (Pt × Pt)} (hl : l.Nodup) (e : Pt × Pt) (f : Pt × Pt → Int) :
    (l.map f).sum = ((l.filter fun a => a ≠ e).map f).sum + if e ∈ l then f e else 0 := by
  induction l with
  | nil => simp
  | cons a l ih =>
    rw [List.nodup_cons] at hl
    have := ih hl.2
    by_cases h : a = e
    · subst h
      rw [if_neg hl.1] at this
      simp [this, add_comm]
    · have h' : ¬ e = a := fun c => h c.symm
      rw [List.map_cons, List.sum_cons, this, List.filter_cons_of_pos (by simpa using h), List.map_cons, List.sum_cons]
      have : (e ∈ a :: l) ↔ e ∈ l := by simp [h']
      simp only [this]
      ring

include hA hE in
/-- Across a line of the closed part the winding number changes by one; across another line it does not change. -/
theorem crossing (hB : Bal E) (hN : E.Nodup) {e : Pt × Pt} (he : e ∈ K) {s t : Int} (hs : Beside E e (nrm e) s) (ht : Beside E e (-nrm e) t) :
    s = t + if e ∈ E then 1 else 0 := by
  have hne := hA.ne e he
  have hsp : ∀ z : V, windAt E z = windAt (E.filter fun a => a ≠ e) z + if e ∈ E then count e z.1 z.2 else 0 := fun z => sum_split hN e _
  have hF : ∀ f ∈ E.filter fun a => a ≠ e, f ∈ K ∧ f ≠ e := by
    intro f hf
    rw [List.mem_filter] at hf
    exact ⟨hE f hf.1, by simpa using hf.2⟩
  have hw := mid_within hne
  obtain ⟨ε, p, ⟨h1, h2⟩, h3⟩ := ((hs.and ht).and (others_clear hA he hF hw hw (-nrm e) (nrm e))).get
  rw [hsp] at h1 h2
  rcases lt_trichotomy e.1.x e.2.x with c | c | c
  · have c' : (e.1.x : Rat) < e.2.x := by exact_mod_cast c
    have hn : nrm e = (0, 1) := if_pos c
    have hu : windAt (E.filter fun a => a ≠ e) (sh (mid e.1 e.2) ε (-nrm e)) = windAt (E.filter fun a => a ≠ e) (sh (mid e.1 e.2) ε (nrm e)) := by
      have q1 : sh (mid e.1 e.2) ε (-nrm e) = ((mid e.1 e.2).1, (mid e.1 e.2).2 - ε) := by rw [hn]; unfold sh; ext <;> simp <;> ring
      have q2 : sh (mid e.1 e.2) ε (nrm e) = ((mid e.1 e.2).1, (mid e.1 e.2).2 + ε) := by rw [hn]; unfold sh; ext <;> simp
      rw [q1, q2] at h3 ⊢
      exact wind_up h3
    have hm : height e (mid e.1 e.2).1 = (mid e.1 e.2).2 := by
      unfold height mid; dsimp only
      have : (e.2.x : Rat) - e.1.x ≠ 0 := by linarith
      field_simp; ring
    have a1 : (e.1.x : Rat) ≤ (mid e.1 e.2).1 := by unfold mid; dsimp only; linarith
    have a2 : (mid e.1 e.2).1 < (e.2.x : Rat) := by unfold mid; dsimp only; linarith
    have c1 : count e (sh (mid e.1 e.2) ε (nrm e)).1 (sh (mid e.1 e.2) ε (nrm e)).2 = 1 := by
      rw [hn]; unfold sh count; dsimp only
      rw [mul_zero, add_zero, hm, if_pos ⟨a1, a2, by linarith⟩]
    have c2 : count e (sh (mid e.1 e.2) ε (-nrm e)).1 (sh (mid e.1 e.2) ε (-nrm e)).2 = 0 := by
      rw [hn]; unfold sh count
      simp only [Prod.fst_neg, Prod.snd_neg, neg_zero, mul_zero, add_zero, hm]
      rw [if_neg (fun h => by linarith [h.2.2]), if_neg (fun h => by linarith [h.2.2])]
    rw [c1] at h1
    rw [c2, hu] at h2
    rw [← h1, ← h2]
    split <;> omega
  · have c' : (e.1.x : Rat) = e.2.x := by exact_mod_cast c
    have hm1 : (mid e.1 e.2).1 = e.1.x := by unfold mid; dsimp only; linarith
    have hm2 : (mid e.1 e.2).2 = ((e.1.y : Rat) + e.2.y) / 2 := rfl
    rw [count_vert c, ite_self, add_zero] at h1 h2
    have hbal := hB
    -- the change along the horizontal path from `z` to `w`
    have path : ∀ z w : V, z = ((mid e.1 e.2).1 - ε, (mid e.1 e.2).2) → w = ((mid e.1 e.2).1 + ε, (mid e.1 e.2).2) → Clear (E.filter fun a => a ≠ e) z w →
        windAt (E.filter fun a => a ≠ e) w - windAt (E.filter fun a => a ≠ e) z =
          - if e ∈ E then (if (e.1.y : Rat) < e.2.y then (1 : Int) else 0) - (if (e.2.y : Rat) < e.1.y then 1 else 0) else 0 := by
      intro z w hz hw' hc
      have hx : z.1 < w.1 := by rw [hz, hw']; dsimp only; linarith
      have e1 := wind_path hx hc
      have e2 := hB (under z w)
      rw [sum_split hN e] at e2
      unfold windAt
      rw [e1, eq_neg_of_add_eq_zero_left e2]
      have u : ∀ q : Pt, (q.x : Rat) = e.1.x → under z w q = if (q.y : Rat) < (mid e.1 e.2).2 then 1 else 0 := by
        intro q hq
        unfold under
        rw [hz, hw']; dsimp only
        rw [hq, hm1, sub_self, mul_zero, add_zero]
        simp only [show (e.1.x : Rat) - ε < e.1.x by linarith, show (e.1.x : Rat) ≤ e.1.x + ε by linarith, true_and]
      rw [u e.1 rfl, u e.2 c'.symm, hm2]
      have v1 : ((e.1.y : Rat) < ((e.1.y : Rat) + e.2.y) / 2) ↔ (e.1.y : Rat) < e.2.y := by constructor <;> intro h <;> linarith
      have v2 : ((e.2.y : Rat) < ((e.1.y : Rat) + e.2.y) / 2) ↔ (e.2.y : Rat) < e.1.y := by constructor <;> intro h <;> linarith
      simp only [v1, v2]
    by_cases cy : e.1.y < e.2.y
    · have cy' : (e.1.y : Rat) < e.2.y := by exact_mod_cast cy
      have hn : nrm e = (-1, 0) := by unfold nrm; rw [if_neg (by omega), if_neg (by omega), if_pos cy]
      have q1 : sh (mid e.1 e.2) ε (-nrm e) = ((mid e.1 e.2).1 + ε, (mid e.1 e.2).2) := by rw [hn]; unfold sh; ext <;> simp
      have q2 : sh (mid e.1 e.2) ε (nrm e) = ((mid e.1 e.2).1 - ε, (mid e.1 e.2).2) := by rw [hn]; unfold sh; ext <;> simp <;> ring
      have := path _ _ q2 q1 h3.symm
      rw [h1, h2] at this
      simp only [cy', not_lt.mpr cy'.le, if_true, if_false] at this
      split at this <;> rename_i g
      · rw [if_pos g]; omega
      · rw [if_neg g]; omega
    · have cy1 : e.2.y < e.1.y := by
        by_contra g
        apply hne
        have e2 : e.1.y = e.2.y := by omega
        rw [show e.1 = ⟨e.1.x, e.1.y⟩ from rfl, c, e2]
      have cy' : (e.2.y : Rat) < e.1.y := by exact_mod_cast cy1
      have hn : nrm e = (1, 0) := by unfold nrm; rw [if_neg (by omega), if_neg (by omega), if_neg cy]
      have q1 : sh (mid e.1 e.2) ε (-nrm e) = ((mid e.1 e.2).1 - ε, (mid e.1 e.2).2) := by rw [hn]; unfold sh; ext <;> simp <;> ring
      have q2 : sh (mid e.1 e.2) ε (nrm e) = ((mid e.1 e.2).1 + ε, (mid e.1 e.2).2) := by rw [hn]; unfold sh; ext <;> simp
      have := path _ _ q1 q2 h3
      rw [h1, h2] at this
      simp only [cy', not_lt.mpr cy'.le, if_true, if_false] at this
      split at this <;> rename_i g
      · rw [if_pos g]; omega
      · rw [if_neg g]; omega
  · have c' : (e.2.x : Rat) < e.1.x := by exact_mod_cast c
    have hn : nrm e = (0, -1) := by unfold nrm; rw [if_neg (by omega), if_pos c]
    have hu : windAt (E.filter fun a => a ≠ e) (sh (mid e.1 e.2) ε (-nrm e)) = windAt (E.filter fun a => a ≠ e) (sh (mid e.1 e.2) ε (nrm e)) := by
      have q1 : sh (mid e.1 e.2) ε (-nrm e) = ((mid e.1 e.2).1, (mid e.1 e.2).2 + ε) := by rw [hn]; unfold sh; ext <;> simp
      have q2 : sh (mid e.1 e.2) ε (nrm e) = ((mid e.1 e.2).1, (mid e.1 e.2).2 - ε) := by rw [hn]; unfold sh; ext <;> simp <;> ring
      rw [q1, q2] at h3 ⊢
      exact wind_up h3
    have hm : height e (mid e.1 e.2).1 = (mid e.1 e.2).2 := by
      unfold height mid; dsimp only
      have : (e.2.x : Rat) - e.1.x ≠ 0 := by linarith
      field_simp; ring
    have a1 : (e.2.x : Rat) ≤ (mid e.1 e.2).1 := by unfold mid; dsimp only; linarith
    have a2 : (mid e.1 e.2).1 < (e.1.x : Rat) := by unfold mid; dsimp only; linarith
    have c2 : count e (sh (mid e.1 e.2) ε (-nrm e)).1 (sh (mid e.1 e.2) ε (-nrm e)).2 = -1 := by
      rw [hn]; unfold sh count
      simp only [Prod.fst_neg, Prod.snd_neg, neg_zero, mul_zero, add_zero, neg_neg, mul_one, hm]
      rw [if_neg (fun h => by linarith [h.1]), if_pos ⟨a1, a2, by linarith⟩]
    have c1 : count e (sh (mid e.1 e.2) ε (nrm e)).1 (sh (mid e.1 e.2) ε (nrm e)).2 = 0 := by
      rw [hn]; unfold sh count
      simp only [mul_zero, add_zero, hm]
      rw [if_neg (fun h => by linarith [h.2.2]), if_neg (fun h => by linarith [h.2.2])]
    rw [c1] at h1
    rw [c2, hu] at h2
    rw [← h1, ← h2]
    split <;> omega

/-! ### The line before a place -/

/-- The column meets no end of a line. -/
def Generic (K : List (Pt × Pt)) (x : Rat) : Prop := ∀ e ∈ K, (e.1.x : Rat) ≠ x ∧ (e.2.x : Rat) ≠ x

theorem generic_small (K : List (Pt × Pt)) (x : Rat) : Small fun ε => Generic K (x + ε) := by
  have one : ∀ q : Rat, Small fun ε => q ≠ x + ε := by
    intro q
    rcases lt_or_ge x q with h | h
    · exact (small_lt (show 0 < q - x by linarith)).mono fun ε _ g e => by linarith
    · exact ⟨1, one_pos, fun ε p _ e => by linarith⟩
  exact Small.list fun e _ => (one e.1.x).and (one e.2.x)

/-- A line crosses the column. -/
def Over (e : Pt × Pt) (x : Rat) : Prop := ((e.1.x : Rat) < x ∧ x < e.2.x) ∨ ((e.2.x : Rat) < x ∧ x < e.1.x)

theorem over_within {e : Pt × Pt} {x : Rat} (h : Over e x) : Within e (x, height e x) := by
  constructor
  · rcases h with h | h
    · exact onseg_height (h.1.trans h.2) h.1.le h.2.le
    · have := onseg_height (e := (e.2, e.1)) (h.1.trans h.2) h.1.le h.2.le
      rw [height_swap (by have := h.1.trans h.2; intro c; rw [c] at this; exact lt_irrefl _ this)] at this
      exact onq_swap this
  · rintro (⟨h1, _⟩ | ⟨h1, _⟩) <;> dsimp only at h1 <;> rcases h with h | h <;> linarith [h.1, h.2]

/-- A line that meets the column where it has no end crosses it at its height. -/
theorem over_of_on {e : Pt × Pt} {x y : Rat} (hg : (e.1.x : Rat) ≠ x ∧ (e.2.x : Rat) ≠ x) (h : OnSegQ x y e.1 e.2) : Over e x ∧ y = height e x := by
  obtain ⟨t, t0, t1, h1, h2⟩ := h
  have hd : (e.2.x : Rat) - e.1.x ≠ 0 := by
    intro c
    rw [c, mul_zero, add_zero] at h1
    exact hg.1 h1.symm
  refine ⟨?_, ?_⟩
  · rcases lt_or_gt_of_ne hd with c | c
    · refine Or.inr ⟨lt_of_le_of_ne (by nlinarith) hg.2, lt_of_le_of_ne (by nlinarith) hg.1.symm⟩
    · refine Or.inl ⟨lt_of_le_of_ne (by nlinarith) hg.1, lt_of_le_of_ne (by nlinarith) hg.2.symm⟩
  · unfold height
    rw [h2, h1]
    field_simp
    ring

theorem count_zero {e : Pt × Pt} {x y : Rat} (hg : (e.1.x : Rat) ≠ x ∧ (e.2.x : Rat) ≠ x) (h : Over e x → ¬ height e x < y) : count e x y = 0 := by
  unfold count
  rw [if_neg, if_neg]
  · exact fun g => h (Or.inr ⟨lt_of_le_of_ne g.1 hg.2, g.2.1⟩) g.2.2
  · exact fun g => h (Or.inl ⟨lt_of_le_of_ne g.1 hg.1, g.2.1⟩) g.2.2

theorem over_nrm {e : Pt × Pt} {x : Rat} (h : Over e x) : nrm e = (0, 1) ∨ nrm e = (0, -1) := by
  rcases h with h | h
  · have : e.1.x < e.2.x := by exact_mod_cast h.1.trans h.2
    exact Or.inl (if_pos this)
  · have : e.2.x < e.1.x := by exact_mod_cast h.1.trans h.2
    refine Or.inr ?_
    unfold nrm; rw [if_neg (by omega), if_pos this]

theorem exists_max {α : Type} (f : α → Rat) : ∀ l : List α, l ≠ [] → ∃ a ∈ l, ∀ b ∈ l, f b ≤ f a := by
  intro l hl
  induction l with
  | nil => exact (hl rfl).elim
  | cons a l ih =>
    by_cases h : l = []
    · subst h; exact ⟨a, List.mem_cons_self, fun b hb => by rw [List.mem_singleton.mp hb]⟩
    · obtain ⟨c, hc, hm⟩ := ih h
      by_cases k : f a ≤ f c
      · refine ⟨c, List.mem_cons_of_mem _ hc, fun b hb => ?_⟩
        rcases List.mem_cons.mp hb with rfl | hb
        exacts [k, hm b hb]
      · refine ⟨a, List.mem_cons_self, fun b hb => ?_⟩
        rcases List.mem_cons.mp hb with rfl | hb
        exacts [le_rfl, (hm b hb).trans (not_le.mp k).le]

theorem beside_cases {e : Pt × Pt} {x : Rat} (h : Over e x) {d : Rat} (hd : d = 1 ∨ d = -1) : ((0, d) : V) = nrm e ∨ ((0, d) : V) = -nrm e := by
  rcases over_nrm h with k | k <;> rw [k] <;> rcases hd with rfl | rfl <;> simp

include hA in
/-- Every place off the lines is around nothing, or has the winding numbers found beside a line. -/
theorem find_line {x y : Rat} (h : Off K x y) :
    (∀ F, (∀ e ∈ F, e ∈ K) → Bal F → wind F x y = 0) ∨
      ∃ e ∈ K, ∃ n, (n = nrm e ∨ n = -nrm e) ∧ ∀ F, (∀ e ∈ F, e ∈ K) → Bal F → Beside F e n (wind F x y) := by
  classical
  -- a column without ends close to the place
  have hc : Small fun ε => Clear K (sh (x, y) ε (0, 0)) (sh (x, y) ε (1, 0)) := by
    refine clear_all_small fun f hf => clear_small (hA.ne f hf) fun t _ _ hon => ?_
    rw [mix_self] at hon
    exact h f hf hon
  obtain ⟨ε, p, hc, hg⟩ := (hc.and (generic_small K x)).get
  have e1 : sh (x, y) ε (0, 0) = ((x, y) : V) := by unfold sh; ext <;> simp
  have e2 : sh (x, y) ε (1, 0) = ((x + ε, y) : V) := by unfold sh; ext <;> simp
  rw [e1, e2] at hc
  have hoff : Off K (x + ε) y := by
    have := hc 1 zero_le_one le_rfl
    have e3 : mix ((x, y) : V) (x + ε, y) 1 = (x + ε, y) := by unfold mix; ext <;> simp
    rwa [e3] at this
  have hw : ∀ F, (∀ e ∈ F, e ∈ K) → Bal F → wind F x y = wind F (x + ε) y := fun F hF hb => wind_clear hb (hc.mono hF)
  generalize x + ε = x' at *
  by_cases hl : (K.filter fun e => decide (Over e x' ∧ height e x' < y)) = []
  · left
    intro F hF hb
    rw [hw F hF hb]
    unfold wind
    apply List.sum_eq_zero
    intro i hi
    obtain ⟨e, he, rfl⟩ := List.mem_map.mp hi
    refine count_zero (hg e (hF e he)) fun ho hh => ?_
    have : e ∈ K.filter fun e => decide (Over e x' ∧ height e x' < y) := List.mem_filter.mpr ⟨hF e he, decide_eq_true ⟨ho, hh⟩⟩
    rw [hl] at this
    exact List.not_mem_nil this
  · right
    obtain ⟨e, he, hm⟩ := exists_max (fun e => height e x') _ hl
    rw [List.mem_filter, decide_eq_true_eq] at he
    obtain ⟨heK, ho, hy⟩ := he
    have hn0 : cr (vec e.1 e.2) (0, 1) ≠ 0 := by
      unfold cr vec; dsimp only; rcases ho with k | k <;> (intro c; linarith [k.1.trans k.2])
    refine ⟨e, heK, (0, 1), beside_cases ho (Or.inl rfl), fun F hF hb => ?_⟩
    rw [hw F hF hb]
    refine beside_of hA hF hb heK (over_within ho) (n := (0, 1)) (mul_self_pos.mpr hn0) ?_
    refine (small_lt (show 0 < y - height e x' by linarith)).mono fun δ dp hd => ?_
    have e3 : sh (x', height e x') δ (0, 1) = ((x', height e x' + δ) : V) := by unfold sh; ext <;> simp
    rw [e3]
    refine wind_up fun t t0 t1 f hf hon => ?_
    have hfK := hF f hf
    have m1 : (mix ((x', height e x' + δ) : V) (x', y) t).1 = x' := by unfold mix; dsimp only; ring
    have m2 : height e x' < (mix ((x', height e x' + δ) : V) (x', y) t).2 := by
      unfold mix; dsimp only; nlinarith [mul_nonneg t0 (show 0 ≤ y - (height e x' + δ) by linarith)]
    have m3 : (mix ((x', height e x' + δ) : V) (x', y) t).2 ≤ y := by
      unfold mix; dsimp only; nlinarith [mul_nonneg (show 0 ≤ 1 - t by linarith) (show 0 ≤ y - (height e x' + δ) by linarith)]
    rw [m1] at hon
    obtain ⟨fo, fh⟩ := over_of_on (hg f hfK) hon
    rcases m3.lt_or_eq with k | k
    · have := hm f (List.mem_filter.mpr ⟨hfK, decide_eq_true ⟨fo, by rw [← fh]; exact k⟩⟩)
      rw [← fh] at this
      linarith
    · rw [k] at hon
      exact hoff f hfK hon

include hA in
/-- Beside some line, nothing is wound around. -/
theorem find_first (hv : ∃ e ∈ K, e.1.x ≠ e.2.x) :
    ∃ e ∈ K, ∃ n, (n = nrm e ∨ n = -nrm e) ∧ ∀ F, (∀ e ∈ F, e ∈ K) → Bal F → Beside F e n 0 := by
  classical
  obtain ⟨e0, h0, hv⟩ := hv
  obtain ⟨x', hg, ho0⟩ : ∃ x', Generic K x' ∧ Over e0 x' := by
    rcases lt_or_gt_of_ne hv with c | c
    · have c' : (e0.1.x : Rat) < e0.2.x := by exact_mod_cast c
      obtain ⟨ε, p, h1, h2⟩ := ((generic_small K e0.1.x).and (small_lt (show (0 : Rat) < (e0.2.x : Rat) - e0.1.x by linarith))).get
      exact ⟨_, h1, Or.inl ⟨by linarith, by linarith⟩⟩
    · have c' : (e0.2.x : Rat) < e0.1.x := by exact_mod_cast c
      obtain ⟨ε, p, h1, h2⟩ := ((generic_small K e0.2.x).and (small_lt (show (0 : Rat) < (e0.1.x : Rat) - e0.2.x by linarith))).get
      exact ⟨_, h1, Or.inr ⟨by linarith, by linarith⟩⟩
  have hl : (K.filter fun e => decide (Over e x')) ≠ [] := List.ne_nil_of_mem (List.mem_filter.mpr ⟨h0, decide_eq_true ho0⟩)
  obtain ⟨e, he, hm⟩ := exists_max (fun e => -height e x') _ hl
  rw [List.mem_filter, decide_eq_true_eq] at he
  obtain ⟨heK, ho⟩ := he
  have hn0 : cr (vec e.1 e.2) (0, -1) ≠ 0 := by
    unfold cr vec; dsimp only; rcases ho with k | k <;> (intro c; linarith [k.1.trans k.2])
  refine ⟨e, heK, (0, -1), beside_cases ho (Or.inr rfl), fun F hF hb => ?_⟩
  refine beside_of hA hF hb heK (over_within ho) (n := (0, -1)) (mul_self_pos.mpr hn0) ⟨1, one_pos, fun δ dp _ => ?_⟩
  have e3 : sh (x', height e x') δ (0, -1) = ((x', height e x' - δ) : V) := by unfold sh; ext <;> simp <;> ring
  show windAt F (sh (x', height e x') δ (0, -1)) = 0
  rw [e3]
  unfold windAt wind
  apply List.sum_eq_zero
  intro i hi
  obtain ⟨f, hf, rfl⟩ := List.mem_map.mp hi
  refine count_zero (hg f (hF f hf)) fun fo fh => ?_
  have := hm f (List.mem_filter.mpr ⟨hF f hf, decide_eq_true fo⟩)
  dsimp only at fh
  linarith

end
end PolyOps.Exec
