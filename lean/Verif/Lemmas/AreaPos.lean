import Verif.Lemmas.Area
import Verif.Lemmas.WindNear
import Mathlib.Algebra.Order.Archimedean.Basic
import Mathlib.Data.Rat.Floor

/-! Lemmas for C72: polygons that wind at least once around some place and nowhere backwards have a positive area. -/
namespace PolyOps.Exec
open PolyOps PolyOps.Region

/-! ### Polygons enlarged by a factor -/

def scaleP (M : Int) (p : Pt) : Pt := ⟨M * p.x, M * p.y⟩

def scaleE (M : Int) (e : Pt × Pt) : Pt × Pt := (scaleP M e.1, scaleP M e.2)

theorem walk_scale (M : Int) (l : List Pt) : ∀ a, walk (scaleP M a) (l.map (scaleP M)) = (walk a l).map (scaleE M) := by
  induction l with
  | nil => intro a; rfl
  | cons b l ih => intro a; show (scaleP M a, scaleP M b) :: _ = _; rw [ih]; rfl

theorem edges_scale (M : Int) (l : List Pt) : edges (l.map (scaleP M)) = (edges l).map (scaleE M) := by
  cases l with
  | nil => rfl
  | cons a l =>
    show walk (scaleP M a) (l.map (scaleP M) ++ [scaleP M a]) = (walk a (l ++ [a])).map (scaleE M)
    rw [← walk_scale, List.map_append]; rfl

theorem polys_scale (M : Int) (A : List (List Pt)) : (A.map (List.map (scaleP M))).flatMap edges = (A.flatMap edges).map (scaleE M) := by
  induction A with
  | nil => rfl
  | cons l A ih => rw [List.map_cons, List.flatMap_cons, List.flatMap_cons, List.map_append, ih, edges_scale]

theorem trap_scale (M : Int) (e : Pt × Pt) : trap (scaleE M e) = M ^ 2 * trap e := by unfold trap scaleE scaleP; ring

theorem area_scale (M : Int) (A : List (List Pt)) : ((A.map (List.map (scaleP M))).map windingDir).sum = M ^ 2 * (A.map windingDir).sum := by
  rw [polys_trap, polys_trap, polys_scale]
  generalize A.flatMap edges = E
  induction E with
  | nil => simp
  | cons e E ih => simp only [List.map_cons, List.sum_cons, ih, trap_scale]; ring

theorem height_scale {M : Int} (hM : 0 < M) (e : Pt × Pt) (x : ℚ) : height (scaleE M e) (M * x) = M * height e x := by
  have : (M : ℚ) ≠ 0 := by exact_mod_cast hM.ne'
  unfold height scaleE scaleP
  push_cast
  rw [← mul_sub, ← mul_sub, ← mul_sub, mul_add, mul_mul_mul_comm]
  by_cases c : (e.2.x : ℚ) - e.1.x = 0
  · rw [c]; simp
  · field_simp

theorem crDir_scale {M : Int} (hM : 0 < M) (e : Pt × Pt) (x : ℚ) : crDir (scaleE M e) (M * x) = crDir e x := by
  have : (0 : ℚ) < M := by exact_mod_cast hM
  unfold crDir scaleE scaleP
  push_cast
  simp only [mul_lt_mul_iff_right₀ this]

theorem wind_scale {M : Int} (hM : 0 < M) (E : List (Pt × Pt)) (x y : ℚ) : wind (E.map (scaleE M)) (M * x) (M * y) = wind E x y := by
  have : (0 : ℚ) < M := by exact_mod_cast hM
  unfold wind
  rw [List.map_map]
  congr 1
  refine List.map_congr_left fun e _ => ?_
  show count (scaleE M e) _ _ = _
  rw [count_cr, count_cr, height_scale hM, crDir_scale hM]
  simp only [mul_lt_mul_iff_right₀ this]

theorem off_scale {M : Int} (hM : 0 < M) {E : List (Pt × Pt)} {x y : ℚ} (h : Off (E.map (scaleE M)) (M * x) (M * y)) : Off E x y := by
  rintro e he ⟨t, t0, t1, hx, hy⟩
  refine h (scaleE M e) (List.mem_map.mpr ⟨e, he, rfl⟩) ⟨t, t0, t1, ?_, ?_⟩
  · rw [hx]; unfold scaleE scaleP; push_cast; ring
  · rw [hy]; unfold scaleE scaleP; push_cast; ring

/-! ### Strict comparison -/

theorem slice_pos (l : List (Int × Rat)) (h0 : (l.map Prod.fst).sum = 0) (h : ∀ y, (∀ p ∈ l, p.2 ≠ y) → 0 ≤ lowSum l y) {y0 : Rat} (hy0 : 0 < lowSum l y0) :
    (l.map fun p => (p.1 : Rat) * p.2).sum < 0 := by
  obtain ⟨w, hw, k⟩ := Compose.gap_left (l.map Prod.snd) y0
  have k : ∀ p ∈ l, p.2 < y0 ↔ p.2 < w := fun p hp => k _ (List.mem_map.mpr ⟨p, hp, rfl⟩)
  have happ : ∀ (l m : List (Int × Rat)) y, lowSum (l ++ m) y = lowSum l y + lowSum m y := by intro l m y; unfold lowSum; rw [List.map_append, List.sum_append]
  have hs := slice_area (l ++ [(-1, w), (1, y0)]) (by rw [List.map_append, List.sum_append, h0]; simp) (by
    intro y hy
    have hl := h y fun p hp => hy p (List.mem_append_left _ hp)
    rw [happ]
    have e : lowSum [((-1 : Int), w), (1, y0)] y = (if w < y then -1 else 0) + (if y0 < y then 1 else 0) := by unfold lowSum; simp
    rw [e]
    by_cases c1 : w < y
    · by_cases c2 : y0 < y
      · rw [if_pos c1, if_pos c2]; omega
      · have : lowSum l y = lowSum l y0 := by
          unfold lowSum
          congr 1
          refine List.map_congr_left fun p hp => ?_
          have : p.2 < y ↔ p.2 < y0 := ⟨fun h => lt_of_lt_of_le h (not_lt.mp c2), fun h => ((k p hp).mp h).trans c1⟩
          simp only [this]
        rw [this, if_pos c1, if_neg c2]; omega
    · rw [if_neg c1, if_neg (by intro h; exact c1 (hw.trans h))]; omega)
  rw [List.map_append, List.sum_append] at hs
  simp only [List.map_cons, List.map_nil, List.sum_cons, List.sum_nil] at hs
  push_cast at hs
  linarith

/-- The claim for a place whose first coordinate is half an odd number. -/
theorem area_pos_half {A : List (List Pt)} (h : ∀ x y, Off (A.flatMap edges) x y → 0 ≤ wind (A.flatMap edges) x y) {n : Int} {y0 : ℚ}
    (h0 : 0 < wind (A.flatMap edges) ((n : ℚ) + 1 / 2) y0) : 0 < (A.map windingDir).sum := by
  rw [polys_trap]
  obtain ⟨lo, K, hr⟩ := exists_range ((⟨n, 0⟩, ⟨n + 1, 0⟩) :: A.flatMap edges)
  have hA := trap_all (A.flatMap edges) fun e he => hr e (List.mem_cons_of_mem _ he)
  have hn := hr _ List.mem_cons_self
  simp only at hn
  have low : ∀ (n : Int) y, (∀ p ∈ cutAt 1 (A.flatMap edges) ((n : ℚ) + 1 / 2), p.2 ≠ y) → 0 ≤ lowSum (cutAt 1 (A.flatMap edges) ((n : ℚ) + 1 / 2)) y := by
    intro n y hy
    rw [cut_low, one_mul]
    exact h _ y (off_half fun e he hc => hy (1 * crDir e ((n : ℚ) + 1 / 2), _) (List.mem_map.mpr ⟨e, List.mem_filter.mpr ⟨he, by simpa using hc⟩, rfl⟩))
  have fst : ∀ n : Int, ((cutAt 1 (A.flatMap edges) ((n : ℚ) + 1 / 2)).map Prod.fst).sum = 0 := by intro n; rw [cut_fst, polys_cr]; rfl
  have key : ∀ n : Int, ((A.flatMap edges).map fun e => (crDir e ((n : ℚ) + 1 / 2) : ℚ) * height e ((n : ℚ) + 1 / 2)).sum ≤ 0 := by
    intro n
    have := slice_area _ (fst n) (low n)
    rw [cut_sum] at this
    push_cast at this
    linarith
  have key' : ((A.flatMap edges).map fun e => (crDir e ((n : ℚ) + 1 / 2) : ℚ) * height e ((n : ℚ) + 1 / 2)).sum < 0 := by
    have := slice_pos _ (fst n) (low n) (y0 := y0) (by rw [cut_low, one_mul]; exact h0)
    rw [cut_sum] at this
    push_cast at this
    linarith
  have hsum : ((List.range K).map fun k : Nat => ((A.flatMap edges).map fun e => (crDir e (((lo + k : Int) : ℚ) + 1 / 2) : ℚ) * height e (((lo + k : Int) : ℚ) + 1 / 2)).sum).sum <
      ((List.range K).map fun _ : Nat => (0 : ℚ)).sum := by
    refine List.sum_lt_sum _ _ (fun k _ => key (lo + k)) ⟨(n - lo).toNat, List.mem_range.mpr (by omega), ?_⟩
    rw [show lo + ((n - lo).toNat : Int) = n by omega]
    exact key'
  have : (0 : ℚ) < (((A.flatMap edges).map trap).sum : Int) := by
    rw [hA]
    simp only [List.map_const', List.sum_replicate, smul_zero] at hsum
    linarith
  exact_mod_cast this

/-- Closed polygons that wind nowhere backwards and at least once around some place have a positive area. -/
theorem area_pos {A : List (List Pt)} (h : ∀ x y, Off (A.flatMap edges) x y → 0 ≤ wind (A.flatMap edges) x y) {x y : ℚ} (ho : Off (A.flatMap edges) x y)
    (h0 : 0 < wind (A.flatMap edges) x y) : 0 < (A.map windingDir).sum := by
  obtain ⟨d, hd, k⟩ := Compose.counts_right _ ho
  obtain ⟨M, hM⟩ := exists_nat_gt (2 / d)
  have hMq : (0 : ℚ) < M := lt_trans (by positivity) hM
  have hM0 : (0 : Int) < (M : Int) := by exact_mod_cast hMq
  have hMd : 2 < M * d := by rw [div_lt_iff₀ hd] at hM; exact hM
  let n : Int := ⌊(M : ℚ) * x⌋ + 1
  have n1 : (M : ℚ) * x < n := by have := Int.lt_floor_add_one ((M : ℚ) * x); simpa [n] using this
  have n2 : (n : ℚ) ≤ M * x + 1 := by have := Int.floor_le ((M : ℚ) * x); simp only [n]; push_cast; linarith
  let z : ℚ := ((n : ℚ) + 1 / 2) / M
  have ez : ((M : Int) : ℚ) * z = (n : ℚ) + 1 / 2 := by simp only [z]; push_cast; field_simp
  have z1 : x < z := by rw [lt_div_iff₀ hMq]; linarith
  have z2 : z < x + d := by rw [div_lt_iff₀ hMq]; linarith
  have hw : wind (A.flatMap edges) z y = wind (A.flatMap edges) x y := by
    unfold wind
    congr 1
    refine List.map_congr_left fun e he => ?_
    obtain ⟨g1, g2, g3⟩ := k z z1 z2 e he
    rw [← g3]
    unfold count edgesAbove
    simp only [List.map_cons, List.map_nil, List.sum_cons, List.sum_nil, add_zero]
    rw [show ((e.1.y : ℚ) + (z - e.1.x) * ((e.2.y : ℚ) - e.1.y) / ((e.2.x : ℚ) - e.1.x)) = height e z from rfl]
    simp only [le_iff_lt_or_eq, g1, g2, or_false]
  have hM0' : ((M : Int) : ℚ) ≠ 0 := by exact_mod_cast hM0.ne'
  have := area_pos_half (A := A.map (List.map (scaleP M))) (n := n) (y0 := ((M : Int) : ℚ) * y) (by
    intro a b hab
    rw [polys_scale] at hab ⊢
    rw [show a = ((M : Int) : ℚ) * (a / (M : Int)) by field_simp, show b = ((M : Int) : ℚ) * (b / (M : Int)) by field_simp] at hab ⊢
    rw [wind_scale hM0]
    exact h _ _ (off_scale hM0 hab)) (by rw [polys_scale, ← ez, wind_scale hM0, hw]; exact h0)
  rw [area_scale] at this
  exact pos_of_mul_pos_right this (by positivity)

end PolyOps.Exec
