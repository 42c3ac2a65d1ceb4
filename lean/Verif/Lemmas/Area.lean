import Verif.Lemmas.Winding
import Verif.Props.Geom
import Mathlib.Algebra.BigOperators.Group.Finset.Basic
import Mathlib.Data.List.Sort

/-! Lemmas for C71: the winding numbers of closed polygons determine their area. -/
namespace PolyOps.Exec
open PolyOps

/-- Twice the signed area areaLeft an edge. -/
def trap (e : Pt × Pt) : Int := (e.1.x - e.2.x) * (e.1.y + e.2.y)

theorem pathSum_walk (f : Pt → Pt → Int) (l : List Pt) : ∀ a, pathSum f a l = ((walk a l).map fun e => f e.1 e.2).sum := by
  induction l with
  | nil => intro a; rfl
  | cons b l ih => intro a; show f a b + _ = _; rw [ih]; rfl

theorem windingDir_edges (l : List Pt) : windingDir l = ((edges l).map trap).sum := by
  cases l with
  | nil => rfl
  | cons p qs =>
    show (qs.foldl WindSink.put (WindSink.init p)).close = _
    rw [foldl_put]
    show 0 + pathSum _ p (qs ++ [p]) = _
    rw [zero_add, pathSum_walk]
    rfl

/-- The direction in which an edge crosses the vertical at `x`. -/
def crDir (e : Pt × Pt) (x : Rat) : Int := (if x < e.2.x then 1 else 0) - (if x < e.1.x then 1 else 0)

theorem count_cr (e : Pt × Pt) (x y : Rat) : count e x y = if height e x < y then crDir e x else 0 := by
  unfold count crDir
  by_cases h : height e x < y
  · simp only [h, and_true, if_true]
    by_cases h1 : x < e.1.x <;> by_cases h2 : x < e.2.x <;> simp [h1, h2, not_le.mpr, not_lt.mp, le_of_not_gt]
  · simp [h]

theorem walk_cr (x : Rat) (l : List Pt) : ∀ a z, ((walk a (l ++ [z])).map fun e => crDir e x).sum = (if x < z.x then 1 else 0) - (if x < a.x then 1 else 0) := by
  induction l with
  | nil => intro a z; show crDir (a, z) x + 0 = _; rw [add_zero]; rfl
  | cons b l ih =>
    intro a z
    show crDir (a, b) x + ((walk b (l ++ [z])).map fun e => crDir e x).sum = _
    rw [ih]
    unfold crDir
    simp only
    omega

theorem edges_cr (x : Rat) (l : List Pt) : ((edges l).map fun e => crDir e x).sum = 0 := by
  cases l with
  | nil => rfl
  | cons a l => show ((walk a (l ++ [a])).map _).sum = 0; rw [walk_cr]; omega

theorem polys_cr (x : Rat) (out : List (List Pt)) : ((out.flatMap edges).map fun e => crDir e x).sum = 0 := by
  induction out with
  | nil => rfl
  | cons l out ih => rw [List.flatMap_cons, List.map_append, List.sum_append, edges_cr, ih]; rfl

/-- The area areaLeft the part of a line that lies left of `n`. -/
def areaLeft (a b : Int) (c s : Rat) (n : Int) : Rat := ((max a (min b n) : Int) - a : Rat) * c + s * ((max a (min b n) : Int) - a : Rat) ^ 2 / 2

theorem areaLeft_step {a b : Int} (h : a < b) (c s : Rat) (n : Int) :
    areaLeft a b c s (n + 1) = areaLeft a b c s n + (if a ≤ n ∧ n < b then c + ((n : Rat) + 1 / 2 - a) * s else 0) := by
  unfold areaLeft
  rcases lt_trichotomy n a with h1 | h1 | h1
  · rw [if_neg (by omega), show max a (min b (n + 1)) = a by omega, show max a (min b n) = a by omega]; ring
  · subst h1
    rw [if_pos (by omega), show max n (min b (n + 1)) = n + 1 by omega, show max n (min b n) = n by omega]; push_cast; ring
  · by_cases h2 : n < b
    · rw [if_pos (by omega), show max a (min b (n + 1)) = n + 1 by omega, show max a (min b n) = n by omega]; push_cast; ring
    · rw [if_neg (by omega), show max a (min b (n + 1)) = b by omega, show max a (min b n) = b by omega]; ring

theorem half_lt (n a : Int) : ((n : Rat) + 1 / 2 < a) ↔ n < a := by
  constructor
  · intro h
    have : (n : Rat) < a := by linarith
    exact_mod_cast this
  · intro h
    have : (n : Rat) + 1 ≤ a := by exact_mod_cast h
    linarith

theorem crDir_half (e : Pt × Pt) (n : Int) : crDir e ((n : Rat) + 1 / 2) = (if n < e.2.x then 1 else 0) - (if n < e.1.x then 1 else 0) := by
  unfold crDir
  simp only [half_lt]

theorem trap_ahead {a b : Pt} (h : a.x < b.x) {lo : Int} {K : Nat} (h1 : lo ≤ a.x) (h2 : b.x ≤ lo + K) :
    (trap (a, b) : Rat) = - 2 * ((List.range K).map fun k : Nat => (crDir (a, b) (((lo + k : Int) : Rat) + 1 / 2) : Rat) * height (a, b) (((lo + k : Int) : Rat) + 1 / 2)).sum := by
  have hd : ((b.x : Rat) - a.x) ≠ 0 := by
    have : (a.x : Rat) < b.x := by exact_mod_cast h
    linarith
  have key : ∀ K : Nat, ((List.range K).map fun k : Nat => (crDir (a, b) (((lo + k : Int) : Rat) + 1 / 2) : Rat) * height (a, b) (((lo + k : Int) : Rat) + 1 / 2)).sum =
      areaLeft a.x b.x a.y (((b.y : Rat) - a.y) / ((b.x : Rat) - a.x)) (lo + K) - areaLeft a.x b.x a.y (((b.y : Rat) - a.y) / ((b.x : Rat) - a.x)) lo := by
    intro K
    induction K with
    | zero => simp
    | succ K ih =>
      rw [List.range_succ, List.map_append, List.sum_append, ih]
      have e : (lo + ((K + 1 : Nat) : Int)) = lo + K + 1 := by push_cast; ring
      rw [e, areaLeft_step h]
      simp only [List.map_cons, List.map_nil, List.sum_cons, List.sum_nil, add_zero]
      rw [crDir_half]
      by_cases c : a.x ≤ lo + K ∧ lo + K < b.x
      · rw [if_pos c, if_pos c.2, if_neg (by simp only; omega)]
        unfold height
        simp only
        push_cast
        ring
      · rw [if_neg c]
        have : ((if lo + (K : Int) < b.x then 1 else 0) - (if lo + (K : Int) < a.x then 1 else 0) : Int) = 0 := by
          split_ifs <;> omega
        simp only at this ⊢
        rw [this]
        push_cast
        ring
  rw [key K]
  unfold areaLeft trap
  rw [show max a.x (min b.x (lo + K)) = b.x by omega, show max a.x (min b.x lo) = a.x by omega]
  push_cast
  field_simp
  ring

theorem crDir_swap (a b : Pt) (x : Rat) : crDir (b, a) x = - crDir (a, b) x := by unfold crDir; simp only; omega

theorem sum_mulQ {α : Type} (l : List α) (k : Rat) (f : α → Rat) : (l.map fun a => k * f a).sum = k * (l.map f).sum := by
  induction l with
  | nil => simp
  | cons a l ih => simp only [List.map_cons, List.sum_cons, ih]; ring

theorem trap_sum (e : Pt × Pt) {lo : Int} {K : Nat} (h1 : lo ≤ e.1.x ∧ e.1.x ≤ lo + K) (h2 : lo ≤ e.2.x ∧ e.2.x ≤ lo + K) :
    (trap e : Rat) = - 2 * ((List.range K).map fun k : Nat => (crDir e (((lo + k : Int) : Rat) + 1 / 2) : Rat) * height e (((lo + k : Int) : Rat) + 1 / 2)).sum := by
  obtain ⟨a, b⟩ := e
  rcases lt_trichotomy a.x b.x with h | h | h
  · exact trap_ahead h h1.1 h2.2
  · have h0 : ∀ x, crDir (a, b) x = 0 := by intro x; unfold crDir; simp only [h]; omega
    have h3 : trap (a, b) = 0 := by unfold trap; simp [h]
    rw [h3]
    simp [h0]
  · have := trap_ahead h h2.1 h1.2
    have e : trap (a, b) = - trap (b, a) := by unfold trap; ring
    rw [e, Int.cast_neg, this]
    have : ∀ x, (crDir (b, a) x : Rat) * height (b, a) x = (-1) * ((crDir (a, b) x : Rat) * height (a, b) x) := by
      intro x
      rw [crDir_swap, height_swap (by omega)]
      push_cast
      ring
    simp only [this]
    rw [sum_mulQ]
    ring

/-- What heights areaLeft `y` count. -/
def lowSum (l : List (Int × Rat)) (y : Rat) : Int := (l.map fun p => if p.2 < y then p.1 else 0).sum

theorem sorted_area (M : Rat) : ∀ (l : List (Int × Rat)) (C : Int) (h0 : Rat), l.Pairwise (fun p q => p.2 ≤ q.2) → (∀ p ∈ l, h0 ≤ p.2 ∧ p.2 ≤ M) → h0 ≤ M →
    (∀ y, h0 < y → (∀ p ∈ l, p.2 ≠ y) → 0 ≤ C + lowSum l y) → 0 ≤ (C : Rat) * (M - h0) + (l.map fun p => (p.1 : Rat) * (M - p.2)).sum := by
  intro l
  induction l with
  | nil =>
    intro C h0 _ _ hM h
    have : 0 ≤ C := by simpa [lowSum] using h (h0 + 1) (by linarith) (by simp)
    have : (0 : Rat) ≤ C := by exact_mod_cast this
    simp only [List.map_nil, List.sum_nil, add_zero]
    exact mul_nonneg this (by linarith)
  | cons p l ih =>
    intro C h0 hs hb hM h
    obtain ⟨c, v⟩ := p
    rw [List.pairwise_cons] at hs
    have hv := hb (c, v) (by simp)
    simp only at hv
    have h1 : 0 ≤ (C : Rat) * (v - h0) := by
      rcases eq_or_lt_of_le hv.1 with e | e
      · rw [e]; simp
      · have := h ((h0 + v) / 2) (by linarith) (by
          intro p hp
          rcases List.mem_cons.mp hp with rfl | hp
          · simp only; linarith
          · have := hs.1 p hp; simp only at this; linarith)
        have hz : lowSum ((c, v) :: l) ((h0 + v) / 2) = 0 := by
          unfold lowSum
          rw [show (((c, v) :: l).map fun p : Int × Rat => if p.2 < (h0 + v) / 2 then p.1 else 0) = ((c, v) :: l).map fun _ => (0 : Int) from ?_]
          · simp
          · refine List.map_congr_left fun p hp => if_neg ?_
            rcases List.mem_cons.mp hp with rfl | hp
            · simp only; linarith
            · have := hs.1 p hp; simp only at this; linarith
        rw [hz, add_zero] at this
        have : (0 : Rat) ≤ C := by exact_mod_cast this
        exact mul_nonneg this (by linarith)
    have h2 := ih (C + c) v hs.2 (fun p hp => ⟨hs.1 p hp, (hb p (by simp [hp])).2⟩) hv.2 (by
      intro y hy hne
      have := h y (by linarith) (by
        intro p hp
        rcases List.mem_cons.mp hp with rfl | hp
        · simp only; linarith
        · exact hne p hp)
      have e : lowSum ((c, v) :: l) y = c + lowSum l y := by
        unfold lowSum
        rw [List.map_cons, List.sum_cons]
        simp only [if_pos hy]
      rw [e] at this
      omega)
    rw [List.map_cons, List.sum_cons]
    push_cast at h2
    simp only
    nlinarith

theorem slice_area (l : List (Int × Rat)) (h0 : (l.map Prod.fst).sum = 0) (h : ∀ y, (∀ p ∈ l, p.2 ≠ y) → 0 ≤ lowSum l y) :
    (l.map fun p => (p.1 : Rat) * p.2).sum ≤ 0 := by
  obtain ⟨lo, M, hlo⟩ : ∃ lo M : Rat, lo ≤ M ∧ ∀ p ∈ l, lo ≤ p.2 ∧ p.2 ≤ M := by
    clear h h0
    induction l with
    | nil => exact ⟨0, 0, le_rfl, by simp⟩
    | cons p l ih =>
      obtain ⟨lo, M, h1, h2⟩ := ih
      refine ⟨min lo p.2, max M p.2, (min_le_left _ _).trans (h1.trans (le_max_left _ _)), fun q hq => ?_⟩
      rcases List.mem_cons.mp hq with rfl | hq
      · exact ⟨min_le_right _ _, le_max_right _ _⟩
      · exact ⟨(min_le_left _ _).trans (h2 q hq).1, (h2 q hq).2.trans (le_max_left _ _)⟩
  let m := l.insertionSort fun p q => p.2 ≤ q.2
  have hp : m.Perm l := List.perm_insertionSort _ _
  have hs : m.Pairwise fun p q => p.2 ≤ q.2 := List.pairwise_insertionSort (r := fun p q : Int × Rat => p.2 ≤ q.2) l
  have := sorted_area M m 0 lo hs (fun p h => hlo.2 p (hp.mem_iff.mp h)) hlo.1 (by
    intro y _ hne
    rw [zero_add]
    have e : lowSum m y = lowSum l y := (hp.map _).sum_eq
    rw [e]
    exact h y fun p h => hne p (hp.mem_iff.mpr h))
  rw [(hp.map _).sum_eq] at this
  have e : (l.map fun p => (p.1 : Rat) * (M - p.2)).sum = M * ((l.map Prod.fst).sum : Int) - (l.map fun p => (p.1 : Rat) * p.2).sum := by
    clear this hs hp h h0 hlo
    induction l with
    | nil => simp
    | cons p l ih =>
      simp only [List.map_cons, List.sum_cons] at ih ⊢
      rw [ih]
      push_cast
      ring
  rw [e, h0] at this
  push_cast at this
  linarith

theorem off_half {E : List (Pt × Pt)} {n : Int} {y : Rat} (h : ∀ e ∈ E, crDir e ((n : Rat) + 1 / 2) ≠ 0 → height e ((n : Rat) + 1 / 2) ≠ y) : Off E ((n : Rat) + 1 / 2) y := by
  rintro ⟨a, b⟩ he ⟨t, t0, t1, hx, hy⟩
  simp only at hx hy
  have hx : (n : Rat) + 1 / 2 = a.x + t * (b.x - a.x) := by linarith
  have hne : (b.x : Rat) - a.x ≠ 0 := by
    intro e
    rw [e, mul_zero, add_zero] at hx
    have h1 := (half_lt n (n + 1)).mpr (by omega)
    rw [hx] at h1
    have h1 : a.x < n + 1 := by exact_mod_cast h1
    have h2 : (n : Rat) < a.x := by linarith
    have h2 : n < a.x := by exact_mod_cast h2
    omega
  have ht : t = ((n : Rat) + 1 / 2 - a.x) / (b.x - a.x) := by field_simp; linarith
  refine h _ he ?_ ?_
  · rw [crDir_half]
    simp only
    intro hz
    by_cases c : n < a.x
    · have c' : n < b.x := by by_contra c'; simp [c, c'] at hz
      have c : (n : Rat) + 1 / 2 < a.x := (half_lt _ _).mpr c
      have c' : (n : Rat) + 1 / 2 < b.x := (half_lt _ _).mpr c'
      have e : (1 - t) * ((a.x : Rat) - (n + 1 / 2)) + t * (b.x - (n + 1 / 2)) = 0 := by rw [hx]; ring
      have e1 : 0 ≤ (1 - t) * ((a.x : Rat) - (n + 1 / 2)) := mul_nonneg (by linarith) (by linarith)
      have e2 : 0 ≤ t * ((b.x : Rat) - (n + 1 / 2)) := mul_nonneg t0 (by linarith)
      rcases eq_or_lt_of_le t0 with e | e
      · rw [← e] at e1 e2 hx; linarith
      · have : 0 < t * ((b.x : Rat) - (n + 1 / 2)) := mul_pos e (by linarith)
        linarith
    · have c' : ¬ n < b.x := by intro c'; simp [c, c'] at hz
      have c : ¬ (n : Rat) + 1 / 2 < a.x := fun h => c ((half_lt _ _).mp h)
      have c' : ¬ (n : Rat) + 1 / 2 < b.x := fun h => c' ((half_lt _ _).mp h)
      have d : (a.x : Rat) ≠ n + 1 / 2 := by
        intro e
        have h1 := (half_lt n (n + 1)).mpr (by omega)
        rw [← e] at h1
        have h1 : a.x < n + 1 := by exact_mod_cast h1
        have h2 : (n : Rat) < a.x := by linarith
        have h2 : n < a.x := by exact_mod_cast h2
        omega
      have d' : (a.x : Rat) < n + 1 / 2 := lt_of_le_of_ne (not_lt.mp c) d
      push Not at c'
      rcases eq_or_lt_of_le t1 with e | e
      · have d : (b.x : Rat) = n + 1 / 2 := by rw [hx, e]; ring
        have h1 := (half_lt n (n + 1)).mpr (by omega)
        rw [← d] at h1
        have h1 : b.x < n + 1 := by exact_mod_cast h1
        have h2 : (n : Rat) < b.x := by linarith
        have h2 : n < b.x := by exact_mod_cast h2
        omega
      · nlinarith
  · unfold height
    simp only
    rw [ht] at hy
    rw [hy]
    ring

/-- The weighted heights of the edges that cross a vertical. -/
def cutAt (k : Int) (E : List (Pt × Pt)) (x : Rat) : List (Int × Rat) := (E.filter fun e => crDir e x ≠ 0).map fun e => (k * crDir e x, height e x)

theorem cut_fst (k : Int) (E : List (Pt × Pt)) (x : Rat) : ((cutAt k E x).map Prod.fst).sum = k * (E.map fun e => crDir e x).sum := by
  unfold cutAt
  induction E with
  | nil => simp
  | cons e E ih =>
    rw [List.filter_cons]
    by_cases c : crDir e x = 0
    · simp only [c, ne_eq, not_true, decide_false, Bool.false_eq_true, if_false, List.map_cons, List.sum_cons, zero_add]
      exact ih
    · simp only [c, ne_eq, not_false_iff, decide_true, if_true, List.map_cons, List.sum_cons]
      rw [ih]; ring

theorem cut_low (k : Int) (E : List (Pt × Pt)) (x y : Rat) : lowSum (cutAt k E x) y = k * wind E x y := by
  unfold cutAt lowSum wind
  induction E with
  | nil => simp
  | cons e E ih =>
    rw [List.filter_cons]
    by_cases c : crDir e x = 0
    · have : count e x y = 0 := by rw [count_cr, c]; split <;> rfl
      simp only [c, ne_eq, not_true, decide_false, Bool.false_eq_true, if_false, List.map_cons, List.sum_cons, this, zero_add]
      exact ih
    · simp only [c, ne_eq, not_false_iff, decide_true, if_true, List.map_cons, List.sum_cons]
      rw [ih, count_cr]
      split
      · ring
      · ring

theorem cut_sum (k : Int) (E : List (Pt × Pt)) (x : Rat) : ((cutAt k E x).map fun p => (p.1 : Rat) * p.2).sum = k * (E.map fun e => (crDir e x : Rat) * height e x).sum := by
  unfold cutAt
  induction E with
  | nil => simp
  | cons e E ih =>
    rw [List.filter_cons]
    by_cases c : crDir e x = 0
    · simp only [c, ne_eq, not_true, decide_false, Bool.false_eq_true, if_false, List.map_cons, List.sum_cons, Int.cast_zero, zero_mul, zero_add]
      exact ih
    · simp only [c, ne_eq, not_false_iff, decide_true, if_true, List.map_cons, List.sum_cons]
      rw [ih]; push_cast; ring

theorem sum_swapQ {α β : Type} (l : List α) (m : List β) (f : α → β → Rat) : (l.map fun a => (m.map fun b => f a b).sum).sum = (m.map fun b => (l.map fun a => f a b).sum).sum := by
  induction l with
  | nil => simp
  | cons a l ih => simp only [List.map_cons, List.sum_cons, ih, List.sum_map_add]

theorem trap_all (E : List (Pt × Pt)) {lo : Int} {K : Nat} (h : ∀ e ∈ E, (lo ≤ e.1.x ∧ e.1.x ≤ lo + K) ∧ lo ≤ e.2.x ∧ e.2.x ≤ lo + K) :
    ((E.map trap).sum : Rat) = - 2 * ((List.range K).map fun k : Nat =>
      (E.map fun e => (crDir e (((lo + k : Int) : Rat) + 1 / 2) : Rat) * height e (((lo + k : Int) : Rat) + 1 / 2)).sum).sum := by
  rw [sum_swapQ, ← sum_mulQ]
  have : (((E.map trap).sum : Int) : Rat) = (E.map fun e => (trap e : Rat)).sum := by
    clear h
    induction E with
    | nil => simp
    | cons e E ih => simp only [List.map_cons, List.sum_cons]; push_cast; rw [ih]
  rw [this]
  congr 1
  exact List.map_congr_left fun e he => trap_sum e (h e he).1 (h e he).2

theorem polys_trap (out : List (List Pt)) : (out.map windingDir).sum = ((out.flatMap edges).map trap).sum := by
  induction out with
  | nil => rfl
  | cons l out ih => rw [List.flatMap_cons, List.map_append, List.sum_append, List.map_cons, List.sum_cons, ih, windingDir_edges]

theorem exists_range (E : List (Pt × Pt)) : ∃ (lo : Int) (K : Nat), ∀ e ∈ E, (lo ≤ e.1.x ∧ e.1.x ≤ lo + K) ∧ lo ≤ e.2.x ∧ e.2.x ≤ lo + K := by
  induction E with
  | nil => exact ⟨0, 0, by simp⟩
  | cons e E ih =>
    obtain ⟨lo, K, h⟩ := ih
    refine ⟨min lo (min e.1.x e.2.x), (max (lo + K) (max e.1.x e.2.x) - min lo (min e.1.x e.2.x)).toNat, fun f hf => ?_⟩
    rcases List.mem_cons.mp hf with rfl | hf
    · omega
    · have := h f hf
      omega

/-- Closed polygons that wind less often around every place have less area. -/
theorem area_le {A B : List (List Pt)} (h : ∀ x y, Off (A.flatMap edges) x y → Off (B.flatMap edges) x y → wind (A.flatMap edges) x y ≤ wind (B.flatMap edges) x y) :
    (A.map windingDir).sum ≤ (B.map windingDir).sum := by
  rw [polys_trap, polys_trap]
  obtain ⟨lo, K, hr⟩ := exists_range (A.flatMap edges ++ B.flatMap edges)
  have hA := trap_all (A.flatMap edges) fun e he => hr e (List.mem_append_left _ he)
  have hB := trap_all (B.flatMap edges) fun e he => hr e (List.mem_append_right _ he)
  have key : ∀ n : Int, ((B.flatMap edges).map fun e => (crDir e ((n : Rat) + 1 / 2) : Rat) * height e ((n : Rat) + 1 / 2)).sum ≤
      ((A.flatMap edges).map fun e => (crDir e ((n : Rat) + 1 / 2) : Rat) * height e ((n : Rat) + 1 / 2)).sum := by
    intro n
    have hs := slice_area (cutAt 1 (B.flatMap edges) ((n : Rat) + 1 / 2) ++ cutAt (-1) (A.flatMap edges) ((n : Rat) + 1 / 2)) (by
      rw [List.map_append, List.sum_append, cut_fst, cut_fst, polys_cr, polys_cr]; rfl) (by
      intro y hy
      have e : lowSum (cutAt 1 (B.flatMap edges) ((n : Rat) + 1 / 2) ++ cutAt (-1) (A.flatMap edges) ((n : Rat) + 1 / 2)) y =
          wind (B.flatMap edges) ((n : Rat) + 1 / 2) y - wind (A.flatMap edges) ((n : Rat) + 1 / 2) y := by
        have : ∀ l m : List (Int × Rat), lowSum (l ++ m) y = lowSum l y + lowSum m y := by intro l m; unfold lowSum; rw [List.map_append, List.sum_append]
        rw [this, cut_low, cut_low]; ring
      rw [e]
      have := h ((n : Rat) + 1 / 2) y (off_half fun e he hc => hy (-1 * crDir e ((n : Rat) + 1 / 2), _) (List.mem_append_right _ (List.mem_map.mpr ⟨e, List.mem_filter.mpr ⟨he, by simpa using hc⟩, rfl⟩)))
        (off_half fun e he hc => hy (1 * crDir e ((n : Rat) + 1 / 2), _) (List.mem_append_left _ (List.mem_map.mpr ⟨e, List.mem_filter.mpr ⟨he, by simpa using hc⟩, rfl⟩)))
      omega)
    rw [List.map_append, List.sum_append, cut_sum, cut_sum] at hs
    push_cast at hs
    linarith
  have hsum : ∀ l : List Nat, (l.map fun k : Nat => ((B.flatMap edges).map fun e => (crDir e (((lo + k : Int) : Rat) + 1 / 2) : Rat) * height e (((lo + k : Int) : Rat) + 1 / 2)).sum).sum ≤
      (l.map fun k : Nat => ((A.flatMap edges).map fun e => (crDir e (((lo + k : Int) : Rat) + 1 / 2) : Rat) * height e (((lo + k : Int) : Rat) + 1 / 2)).sum).sum :=
    fun l => List.sum_le_sum fun k _ => key (lo + k)
  have := hsum (List.range K)
  have : (((A.flatMap edges).map trap).sum : Rat) ≤ (((B.flatMap edges).map trap).sum : Int) := by rw [hA, hB]; linarith
  exact_mod_cast this

/-- Closed polygons that wind equally often around every place have the same area. -/
theorem area_eq {A B : List (List Pt)} (h : ∀ x y, Off (A.flatMap edges) x y → Off (B.flatMap edges) x y → wind (A.flatMap edges) x y = wind (B.flatMap edges) x y) :
    (A.map windingDir).sum = (B.map windingDir).sum :=
  le_antisymm (area_le fun x y a b => (h x y a b).le) (area_le fun x y a b => (h x y b a).ge)

end PolyOps.Exec
