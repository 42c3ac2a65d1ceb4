import Verif.Lemmas.WindRays

/-! Winding numbers do not change on the way to some place nearby that is on none of finitely many lines. -/
namespace PolyOps.Compose
open PolyOps PolyOps.Exec PolyOps.Region

theorem gap_right (l : List ℚ) (x : ℚ) : ∃ d : ℚ, 0 < d ∧ ∀ z, x < z → z < x + d → ∀ h ∈ l, h ≠ z := by
  induction l with
  | nil => exact ⟨1, one_pos, fun _ _ _ _ h => by simp at h⟩
  | cons a l ih =>
    obtain ⟨d, p, k⟩ := ih
    rcases le_or_gt a x with h | h
    · refine ⟨d, p, fun z h1 h2 b hb => ?_⟩
      rcases List.mem_cons.mp hb with rfl | hb
      · intro e; subst e; linarith
      · exact k z h1 h2 b hb
    · refine ⟨min d (a - x), lt_min p (by linarith), fun z h1 h2 b hb => ?_⟩
      have m1 := min_le_left d (a - x)
      have m2 := min_le_right d (a - x)
      rcases List.mem_cons.mp hb with rfl | hb
      · intro e; subst e; linarith
      · exact k z h1 (by linarith) b hb

theorem gap_left (l : List ℚ) (y : ℚ) : ∃ w, w < y ∧ ∀ h ∈ l, h < y ↔ h < w := by
  induction l with
  | nil => exact ⟨y - 1, by linarith, fun _ h => by simp at h⟩
  | cons a l ih =>
    obtain ⟨w, p, k⟩ := ih
    rcases le_or_gt y a with h | h
    · refine ⟨w, p, fun b hb => ?_⟩
      rcases List.mem_cons.mp hb with rfl | hb
      · constructor <;> intro <;> linarith
      · exact k b hb
    · refine ⟨max w ((a + y) / 2), max_lt p (by linarith), fun b hb => ?_⟩
      have m1 := le_max_left w ((a + y) / 2)
      have m2 := le_max_right w ((a + y) / 2)
      have m3 : max w ((a + y) / 2) < y := max_lt p (by linarith)
      rcases List.mem_cons.mp hb with rfl | hb
      · constructor <;> intro <;> linarith
      · constructor
        · intro hb'; have := (k b hb).mp hb'; linarith
        · intro hb'; linarith

theorem counts_right (E : List (Pt × Pt)) {x y : ℚ} (h : Off E x y) :
    ∃ d : ℚ, 0 < d ∧ ∀ z, x < z → z < x + d → ∀ e ∈ E, (e.1.x : ℚ) ≠ z ∧ (e.2.x : ℚ) ≠ z ∧ edgesAbove [e] z y = count e x y := by
  induction E with
  | nil => exact ⟨1, one_pos, fun _ _ _ _ h => by simp at h⟩
  | cons e E ih =>
    obtain ⟨d1, p1, k1⟩ := ih fun e he => h e (List.mem_cons_of_mem _ he)
    obtain ⟨d2, p2, k2⟩ := count_right e (h e (by simp))
    refine ⟨min d1 d2, by positivity, fun z h1 h2 f hf => ?_⟩
    rcases List.mem_cons.mp hf with rfl | hf
    · exact k2 z h1 (h2.trans_le (by linarith [min_le_right d1 d2]))
    · exact k1 z h1 (h2.trans_le (by linarith [min_le_left d1 d2])) f hf

/-- Near a place on none of the edges `E` there is one on none of the edges `E` and `B` around which `E` and any list of its edges wind as often. -/
theorem wind_near (E B : List (Pt × Pt)) {x y : ℚ} (h : Off E x y) :
    ∃ z w, Off E z w ∧ Off B z w ∧ ∀ F, (∀ e ∈ F, e ∈ E) → wind F z w = wind F x y := by
  obtain ⟨d1, p1, k1⟩ := counts_right E h
  obtain ⟨d2, p2, k2⟩ := gap_right (B.flatMap fun e => [(e.1.x : ℚ), (e.2.x : ℚ)]) x
  obtain ⟨z, hz, z1, z2⟩ : ∃ z, x < z ∧ z < x + d1 ∧ z < x + d2 :=
    ⟨x + min d1 d2 / 2, by have := lt_min p1 p2; linarith, by have := lt_min p1 p2; linarith [min_le_left d1 d2],
      by have := lt_min p1 p2; linarith [min_le_right d1 d2]⟩
  have k1 := k1 z hz z1
  have k2 := k2 z hz z2
  obtain ⟨w, hw, k3⟩ := gap_left ((E ++ B).map fun e => height e z) y
  have k3 : ∀ e ∈ E ++ B, height e z < y ↔ height e z < w := fun e he => k3 _ (List.mem_map.mpr ⟨e, he, rfl⟩)
  have gen : ∀ e ∈ E ++ B, (e.1.x : ℚ) ≠ z ∧ (e.2.x : ℚ) ≠ z := by
    intro e he
    rcases List.mem_append.mp he with he | he
    · exact ⟨(k1 e he).1, (k1 e he).2.1⟩
    · exact ⟨k2 _ (List.mem_flatMap.mpr ⟨e, he, by simp⟩), k2 _ (List.mem_flatMap.mpr ⟨e, he, by simp⟩)⟩
  have off : ∀ e ∈ E ++ B, ¬ OnSegQ z w e.1 e.2 := by
    rintro e he ⟨t, t0, t1, hx, hy⟩
    obtain ⟨g1, g2⟩ := gen e he
    have hd : (e.2.x : ℚ) - e.1.x ≠ 0 := by
      intro hc
      rw [hc] at hx
      apply g1
      linarith
    have : height e z = w := by
      unfold height
      rw [hx, hy]
      field_simp
      ring
    have := k3 e he
    rw [‹height e z = w›] at this
    exact lt_irrefl w (this.mp hw)
  refine ⟨z, w, fun e he => off e (List.mem_append_left _ he), fun e he => off e (List.mem_append_right _ he), fun F hF => ?_⟩
  unfold wind
  congr 1
  refine List.map_congr_left fun e he => ?_
  have he := hF e he
  rw [← (k1 e he).2.2]
  obtain ⟨g1, g2⟩ := gen e (List.mem_append_left _ he)
  have k3 := k3 e (List.mem_append_left _ he)
  unfold count edgesAbove
  simp only [List.map_cons, List.map_nil, List.sum_cons, List.sum_nil, add_zero]
  rw [show ((e.1.y : ℚ) + (z - e.1.x) * ((e.2.y : ℚ) - e.1.y) / ((e.2.x : ℚ) - e.1.x)) = height e z from rfl]
  simp only [k3, le_iff_lt_or_eq, g1, g2, or_false]

end PolyOps.Compose
