import Verif.Props.Region
import Verif.Props.PointSink

/-! Winding numbers of closed polygons at any place that is not on an edge. -/
namespace PolyOps.Exec
open PolyOps PolyOps.Sweep PolyOps.Region

/-! ### Specification -/

/-- The directed edges of a walk from `a` through the points of a list. -/
def walk (a : Pt) : List Pt → List (Pt × Pt)
  | [] => []
  | b :: l => (a, b) :: walk b l

/-- The edges of a closed polygon: from each vertex to the next one and from the last to the first. -/
def edges : List Pt → List (Pt × Pt)
  | [] => []
  | a :: l => walk a (l ++ [a])

/-- The height of the line through an edge. -/
def height (e : Pt × Pt) (x : Rat) : Rat := (e.1.y : Rat) + (x - e.1.x) * ((e.2.y : Rat) - e.1.y) / ((e.2.x : Rat) - e.1.x)

/-- What an edge counts for the ray from a place towards smaller `y`: 1 if it crosses it in the direction of growing `x`, -1 if it
crosses it in the other direction. Of its ends, the one with the smaller `x` belongs to it. -/
def count (e : Pt × Pt) (x y : Rat) : Int :=
  if (e.1.x : Rat) ≤ x ∧ x < e.2.x ∧ height e x < y then 1
  else if (e.2.x : Rat) ≤ x ∧ x < e.1.x ∧ height e x < y then -1
  else 0

/-- The winding number of directed edges around a place. -/
def wind (E : List (Pt × Pt)) (x y : Rat) : Int := (E.map fun e => count e x y).sum

/-- The place is on no edge. -/
def Off (E : List (Pt × Pt)) (x y : Rat) : Prop := ∀ e ∈ E, ¬ OnSegQ x y e.1 e.2

/-! ### Sums -/

theorem wind_append (E F : List (Pt × Pt)) (x y : Rat) : wind (E ++ F) x y = wind E x y + wind F x y := by
  unfold wind; rw [List.map_append, List.sum_append]

theorem wind_perm {E F : List (Pt × Pt)} (h : E.Perm F) (x y : Rat) : wind E x y = wind F x y := (h.map _).sum_eq

theorem wind_flatMap {α : Type} (l : List α) (g : α → List (Pt × Pt)) (x y : Rat) :
    wind (l.flatMap g) x y = (l.map fun a => wind (g a) x y).sum := by
  unfold wind; rw [List.map_flatMap, sum_flatMap]

theorem count_self (a : Pt) (x y : Rat) : count (a, a) x y = 0 := by
  unfold count
  rw [if_neg (fun h => absurd (h.1.trans_lt h.2.1) (lt_irrefl _)), if_neg (fun h => absurd (h.1.trans_lt h.2.1) (lt_irrefl _))]

theorem height_swap {a b : Pt} (h : a.x ≠ b.x) (x : Rat) : height (b, a) x = height (a, b) x := by
  have : ((b.x : Rat) - a.x) ≠ 0 := by
    intro e; apply h; have : (b.x : Rat) = a.x := by linarith
    exact_mod_cast this.symm
  have h2 : ((a.x : Rat) - b.x) ≠ 0 := by intro e; apply this; linarith
  unfold height
  dsimp only
  field_simp
  ring

theorem count_swap (a b : Pt) (x y : Rat) : count (b, a) x y = - count (a, b) x y := by
  by_cases h : a.x = b.x
  · unfold count
    dsimp only
    rw [h]
    have : ¬ ((b.x : Rat) ≤ x ∧ x < b.x ∧ height (b, a) x < y) := fun h => absurd (h.1.trans_lt h.2.1) (lt_irrefl _)
    have h' : ¬ ((b.x : Rat) ≤ x ∧ x < b.x ∧ height (a, b) x < y) := fun h => absurd (h.1.trans_lt h.2.1) (lt_irrefl _)
    rw [if_neg this, if_neg this, if_neg h', if_neg h']; rfl
  · unfold count
    dsimp only
    rw [height_swap h]
    by_cases c1 : (b.x : Rat) ≤ x ∧ x < a.x ∧ height (a, b) x < y
    · rw [if_pos c1, if_neg, if_pos c1]; · rfl
      intro c2; linarith [c1.1, c1.2.1, c2.1, c2.2.1]
    · rw [if_neg c1, if_neg c1]
      by_cases c2 : (a.x : Rat) ≤ x ∧ x < b.x ∧ height (a, b) x < y
      · rw [if_pos c2, if_pos c2]
      · rw [if_neg c2, if_neg c2]; rfl

/-! ### To the right of a place -/

/-- What an edge counts at a place is what it counts, ends not included, at places a little to the right. -/
theorem count_right (e : Pt × Pt) {x y : Rat} (h : ¬ OnSegQ x y e.1 e.2) : ∃ d : Rat, 0 < d ∧ ∀ z, x < z → z < x + d →
    (e.1.x : Rat) ≠ z ∧ (e.2.x : Rat) ≠ z ∧ edgesAbove [e] z y = count e x y := by
  have away : ∀ c : Rat, ∃ d : Rat, 0 < d ∧ ∀ z, x < z → z < x + d → (c < z ↔ c ≤ x) ∧ (z < c ↔ x < c) ∧ c ≠ z := by
    intro c
    rcases lt_or_ge x c with hc | hc
    · refine ⟨c - x, by linarith, fun z h1 h2 => ⟨⟨fun h => by linarith, fun h => by linarith⟩, ⟨fun _ => hc, fun _ => by linarith⟩, by intro e; linarith⟩⟩
    · exact ⟨1, one_pos, fun z h1 _ => ⟨⟨fun _ => hc, fun h => by linarith⟩, ⟨fun h => by linarith, fun h => by linarith⟩, by intro e; linarith⟩⟩
  obtain ⟨d1, p1, k1⟩ := away e.1.x
  obtain ⟨d2, p2, k2⟩ := away e.2.x
  have near : ∃ d : Rat, 0 < d ∧ ∀ z, x < z → z < x + d → ((e.1.x : Rat) ≤ x ∧ x < e.2.x ∨ (e.2.x : Rat) ≤ x ∧ x < e.1.x) →
      (height e z < y ↔ height e x < y) := by
    by_cases hs : (e.1.x : Rat) ≤ x ∧ x < e.2.x ∨ (e.2.x : Rat) ≤ x ∧ x < e.1.x
    swap
    · exact ⟨1, one_pos, fun _ _ _ h => absurd h hs⟩
    have hne : ((e.2.x : Rat) - e.1.x) ≠ 0 := by
      intro e; rcases hs with h | h <;> linarith [h.1, h.2]
    have off : height e x ≠ y := by
      intro hy
      apply h
      refine ⟨(x - e.1.x) / ((e.2.x : Rat) - e.1.x), ?_, ?_, ?_, ?_⟩
      · rcases hs with h | h
        · exact div_nonneg (by linarith [h.1]) (by linarith [h.1, h.2])
        · exact div_nonneg_of_nonpos (by linarith [h.1, h.2]) (by linarith [h.1, h.2])
      · rcases hs with h | h
        · rw [div_le_one (by linarith [h.1, h.2])]; linarith [h.2]
        · rw [div_le_one_of_neg (by linarith [h.1, h.2])]; linarith [h.1]
      · field_simp; ring
      · rw [← hy]; unfold height; ring
    set m : Rat := ((e.2.y : Rat) - e.1.y) / ((e.2.x : Rat) - e.1.x) with hm
    have aff : ∀ z, height e z = height e x + (z - x) * m := by
      intro z; unfold height; rw [hm]; ring
    have pos : 0 < |m| + 1 := by positivity
    refine ⟨|y - height e x| / (|m| + 1), div_pos (abs_pos.mpr (by intro h; apply off; linarith)) pos, fun z h1 h2 _ => ?_⟩
    have h3 : z - x < |y - height e x| / (|m| + 1) := by linarith
    rw [lt_div_iff₀ pos] at h3
    rw [aff]
    have b1 := le_abs_self m
    have b2 := neg_abs_le m
    have hz : 0 < z - x := by linarith
    rcases lt_or_gt_of_ne off with c | c
    · rw [abs_of_pos (show 0 < y - height e x by linarith)] at h3
      exact ⟨fun _ => c, fun _ => by nlinarith⟩
    · rw [abs_of_neg (show y - height e x < 0 by linarith)] at h3
      exact ⟨fun _ => by nlinarith, fun _ => by linarith⟩
  obtain ⟨d3, p3, k3⟩ := near
  refine ⟨min d1 (min d2 d3), by positivity, fun z h1 h2 => ?_⟩
  have hz1 : z < x + d1 := h2.trans_le (by linarith [min_le_left d1 (min d2 d3)])
  have hz2 : z < x + d2 := h2.trans_le (by linarith [min_le_right d1 (min d2 d3), min_le_left d2 d3])
  have hz3 : z < x + d3 := h2.trans_le (by linarith [min_le_right d1 (min d2 d3), min_le_right d2 d3])
  have q1 := k1 z h1 hz1
  have q2 := k2 z h1 hz2
  have q3 := k3 z h1 hz3
  refine ⟨q1.2.2, q2.2.2, ?_⟩
  unfold edgesAbove count
  rw [List.map_singleton, List.sum_singleton]
  change (if (e.1.x : Rat) < z ∧ z < e.2.x ∧ height e z < y then (1 : Int) else if (e.2.x : Rat) < z ∧ z < e.1.x ∧ height e z < y then -1 else 0) = _
  simp only [q1.1, q1.2.1, q2.1, q2.2.1]
  by_cases c1 : (e.1.x : Rat) ≤ x ∧ x < e.2.x
  · simp only [q3 (Or.inl c1)]
  · have n1 : ∀ p : Prop, ¬ ((e.1.x : Rat) ≤ x ∧ x < e.2.x ∧ p) := fun p h => c1 ⟨h.1, h.2.1⟩
    rw [if_neg (n1 _), if_neg (n1 _)]
    by_cases c2 : (e.2.x : Rat) ≤ x ∧ x < e.1.x
    · simp only [q3 (Or.inr c2)]
    · have n2 : ∀ p : Prop, ¬ ((e.2.x : Rat) ≤ x ∧ x < e.1.x ∧ p) := fun p h => c2 ⟨h.1, h.2.1⟩
      rw [if_neg (n2 _), if_neg (n2 _)]

/-- Near a place that is on no edge there is a vertical without vertices on which the edges, and any list of them, have the same
winding number. -/
theorem wind_right (E : List (Pt × Pt)) {x y : Rat} (h : Off E x y) : ∃ z, (∀ e ∈ E, (e.1.x : Rat) ≠ z ∧ (e.2.x : Rat) ≠ z) ∧
    ∀ F, (∀ e ∈ F, e ∈ E) → edgesAbove F z y = wind F x y := by
  have key : ∃ d : Rat, 0 < d ∧ ∀ z, x < z → z < x + d → ∀ e ∈ E, (e.1.x : Rat) ≠ z ∧ (e.2.x : Rat) ≠ z ∧ edgesAbove [e] z y = count e x y := by
    induction E with
    | nil => exact ⟨1, one_pos, fun _ _ _ _ h => by simp at h⟩
    | cons e E ih =>
      obtain ⟨d1, p1, k1⟩ := ih fun e he => h e (List.mem_cons_of_mem _ he)
      obtain ⟨d2, p2, k2⟩ := count_right e (h e (by simp))
      refine ⟨min d1 d2, by positivity, fun z h1 h2 f hf => ?_⟩
      rcases List.mem_cons.mp hf with rfl | hf
      · exact k2 z h1 (h2.trans_le (by linarith [min_le_right d1 d2]))
      · exact k1 z h1 (h2.trans_le (by linarith [min_le_left d1 d2])) f hf
  obtain ⟨d, p, k⟩ := key
  have k := k (x + d / 2) (by linarith) (by linarith)
  refine ⟨x + d / 2, fun e he => ⟨(k e he).1, (k e he).2.1⟩, fun F hF => ?_⟩
  unfold wind
  rw [show edgesAbove F (x + d / 2) y = (F.map fun e => edgesAbove [e] (x + d / 2) y).sum by
    unfold edgesAbove; simp]
  exact map_sum_congr fun e he => (k e (hF e he)).2.2

/-! ### Without repeated points -/

theorem walk_append (a b : Pt) (l m : List Pt) : walk a (l ++ b :: m) = walk a (l ++ [b]) ++ walk b m := by
  induction l generalizing a with
  | nil => rfl
  | cons c l ih => change (a, c) :: walk c (l ++ b :: m) = (a, c) :: (walk c (l ++ [b]) ++ walk b m); rw [ih]

theorem Off.append {E F : List (Pt × Pt)} {x y : Rat} : Off (E ++ F) x y ↔ Off E x y ∧ Off F x y := by
  unfold Off
  constructor
  · exact fun h => ⟨fun e he => h e (List.mem_append_left _ he), fun e he => h e (List.mem_append_right _ he)⟩
  · rintro ⟨h1, h2⟩ e he
    rcases List.mem_append.mp he with he | he
    · exact h1 e he
    · exact h2 e he

theorem Off.mono {E F : List (Pt × Pt)} {x y : Rat} (h : Off F x y) (hs : ∀ e ∈ E, e ∈ F) : Off E x y := fun e he => h e (hs e he)

/-- The cyclic form without repeats: one of each run of equal points, and without the last run if it equals the first. -/
def clean (l : List Pt) : List Pt :=
  let d := l.destutter (· ≠ ·)
  if 2 ≤ d.length ∧ d.getLast? = d.head? then d.dropLast else d

theorem destutter_walk (l : List Pt) (a : Pt) : ∃ t, l.destutter' (· ≠ ·) a = a :: t ∧ ∀ z x y,
    wind (walk a (t ++ [z])) x y = wind (walk a (l ++ [z])) x y ∧ (walk a (t ++ [z])).Sublist (walk a (l ++ [z])) := by
  induction l generalizing a with
  | nil => exact ⟨[], rfl, fun z x y => ⟨rfl, List.Sublist.refl _⟩⟩
  | cons b l ih =>
    rw [List.destutter'_cons]
    by_cases c : a ≠ b
    · rw [if_pos c]
      obtain ⟨t, h1, h2⟩ := ih b
      refine ⟨b :: t, by rw [h1], fun z x y => ?_⟩
      obtain ⟨k1, k2⟩ := h2 z x y
      constructor
      · change count (a, b) x y + wind (walk b (t ++ [z])) x y = count (a, b) x y + wind (walk b (l ++ [z])) x y
        rw [k1]
      · exact k2.cons_cons _
    · rw [if_neg c]
      obtain rfl : a = b := not_not.mp c
      obtain ⟨t, h1, h2⟩ := ih a
      refine ⟨t, h1, fun z x y => ?_⟩
      obtain ⟨k1, k2⟩ := h2 z x y
      constructor
      · change _ = count (a, a) x y + wind (walk a (l ++ [z])) x y
        rw [k1, count_self, zero_add]
      · exact k2.cons _

/-- Leaving out repeats changes no winding number and makes no new edges. -/
theorem clean_wind (l : List Pt) (x y : Rat) : wind (edges (clean l)) x y = wind (edges l) x y ∧ (edges (clean l)).Sublist (edges l) := by
  cases l with
  | nil => exact ⟨rfl, List.Sublist.refl _⟩
  | cons a l =>
    obtain ⟨t, h1, h2⟩ := destutter_walk l a
    obtain ⟨k1, k2⟩ := h2 a x y
    unfold clean
    change wind (edges (if 2 ≤ (l.destutter' (· ≠ ·) a).length ∧ (l.destutter' (· ≠ ·) a).getLast? = (l.destutter' (· ≠ ·) a).head? then
      (l.destutter' (· ≠ ·) a).dropLast else (l.destutter' (· ≠ ·) a))) x y = _ ∧ (edges (if 2 ≤ (l.destutter' (· ≠ ·) a).length ∧
      (l.destutter' (· ≠ ·) a).getLast? = (l.destutter' (· ≠ ·) a).head? then (l.destutter' (· ≠ ·) a).dropLast else (l.destutter' (· ≠ ·) a))).Sublist _
    rw [h1]
    by_cases c : 2 ≤ (a :: t).length ∧ (a :: t).getLast? = (a :: t).head?
    · rw [if_pos c]
      rcases List.eq_nil_or_concat t with rfl | ⟨t', b, rfl⟩
      · simp at c
      · rw [List.concat_eq_append] at *
        have hb : b = a := by
          have := c.2
          rw [← List.cons_append, List.getLast?_concat] at this
          simpa using this
        subst hb
        rw [← List.cons_append, List.dropLast_concat]
        have e : walk b (t' ++ [b] ++ [b]) = walk b (t' ++ [b]) ++ [(b, b)] := by
          rw [List.append_assoc]; exact walk_append b b t' [b]
        rw [e] at k1 k2
        constructor
        · change wind (walk b (t' ++ [b])) x y = wind (walk b (l ++ [b])) x y
          rw [← k1, wind_append]
          change _ = _ + (count (b, b) x y + 0)
          rw [count_self]; ring
        · exact (List.sublist_append_left _ _).trans k2
    · rw [if_neg c]
      exact ⟨k1, k2⟩

/-- What is left of a polygon with less than three vertices counts nothing. -/
theorem small_wind {l : List Pt} (h : l.length < 3) (x y : Rat) : wind (edges l) x y = 0 := by
  match l, h with
  | [], _ => rfl
  | [a], _ =>
    change count (a, a) x y + 0 = 0
    rw [count_self]; rfl
  | [a, b], _ =>
    change count (a, b) x y + (count (b, a) x y + 0) = 0
    rw [count_swap]; ring
  | _ :: _ :: _ :: _, h => simp at h; omega

/-! ### Edges cut at points on them -/

theorem contrib_eq (a b : Pt) (x y : Rat) : edgesAbove [(a, b)] x y = Sweep.contrib x y a b := by
  unfold edgesAbove Sweep.contrib Line.covers Line.yAt Line.dir
  rw [List.map_singleton, List.sum_singleton]
  dsimp only
  generalize hh : (a.y : Rat) + (x - a.x) * ((b.y : Rat) - a.y) / ((b.x : Rat) - a.x) = h
  by_cases c1 : (a.x : Rat) < x ∧ x < b.x
  · have : a.x < b.x := by exact_mod_cast c1.1.trans c1.2
    by_cases c : h < y
    · rw [if_pos ⟨c1.1, c1.2, c⟩, if_pos ⟨Or.inl c1, c⟩, if_pos this]
    · rw [if_neg (fun h => c h.2.2), if_neg (fun h => c h.2.2), if_neg (fun h => c h.2)]
  · rw [if_neg (fun h => c1 ⟨h.1, h.2.1⟩)]
    by_cases c2 : (b.x : Rat) < x ∧ x < a.x
    · have : b.x < a.x := by exact_mod_cast c2.1.trans c2.2
      by_cases c : h < y
      · rw [if_pos ⟨c2.1, c2.2, c⟩, if_pos ⟨Or.inr c2, c⟩, if_neg (by omega), if_pos this]
      · rw [if_neg (fun h => c h.2.2), if_neg (fun h => c h.2)]
    · rw [if_neg (fun h => c2 ⟨h.1, h.2.1⟩), if_neg]
      rintro ⟨h | h, _⟩
      · exact c1 h
      · exact c2 h

theorem walk_eq (a : Pt) (l : List Pt) : walk a l = (List.range l.length).map fun i => ((a :: l).getD i a, (a :: l).getD (i + 1) a) := by
  induction l generalizing a with
  | nil => rfl
  | cons b l ih =>
    change (a, b) :: walk b l = _
    rw [ih, List.length_cons, List.range_succ_eq_map, List.map_cons, List.map_map]
    congr 1
    apply List.map_congr_left
    intro i hi
    rw [List.mem_range] at hi
    simp only [Function.comp, List.getD_cons_succ]
    rw [List.getD_eq_getElem _ _ (by simp; omega), List.getD_eq_getElem _ _ (by omega), List.getD_eq_getElem _ _ (by simp; omega),
      List.getD_eq_getElem _ _ (by omega)]

theorem walk_mem {a : Pt} {l : List Pt} {e : Pt × Pt} (h : e ∈ walk a l) : e.1 ∈ a :: l ∧ e.2 ∈ l := by
  induction l generalizing a with
  | nil => simp [walk] at h
  | cons b l ih =>
    rcases List.mem_cons.mp h with rfl | h
    · exact ⟨by simp, by simp⟩
    · exact ⟨List.mem_cons_of_mem _ (ih h).1, List.mem_cons_of_mem _ (ih h).2⟩

theorem onq_trans {a b c d : Pt} {x y : Rat} (h1 : OnSegQ a.x a.y c d) (h2 : OnSegQ b.x b.y c d) (h : OnSegQ x y a b) : OnSegQ x y c d := by
  obtain ⟨t, t0, t1, a1, a2⟩ := h1
  obtain ⟨u, u0, u1, b1, b2⟩ := h2
  obtain ⟨v, v0, v1, c1, c2⟩ := h
  refine ⟨t + v * (u - t), by nlinarith, by nlinarith, ?_, ?_⟩
  · rw [c1, a1, b1]; ring
  · rw [c2, a2, b2]; ring

theorem onq_left (a b : Pt) : OnSegQ a.x a.y a b := ⟨0, le_rfl, zero_le_one, by simp, by simp⟩
theorem onq_right (a b : Pt) : OnSegQ b.x b.y a b := ⟨1, zero_le_one, le_rfl, by simp, by simp⟩

/-- An edge cut at points on it counts as before. -/
theorem cut_wind {a b : Pt} {l : List Pt} (h : ∀ p ∈ l, OnSegQ p.x p.y a b) {x y : Rat} (ho : ¬ OnSegQ x y a b) :
    Off (walk a (l ++ [b])) x y ∧ wind (walk a (l ++ [b])) x y = count (a, b) x y := by
  have all : ∀ p ∈ a :: (l ++ [b]), OnSegQ p.x p.y a b := by
    intro p hp
    rcases List.mem_cons.mp hp with rfl | hp
    · exact onq_left _ _
    rcases List.mem_append.mp hp with hp | hp
    · exact h p hp
    · rw [List.mem_singleton.mp hp]; exact onq_right _ _
  have off : Off (walk a (l ++ [b])) x y := fun e he hc =>
    ho (onq_trans (all _ (walk_mem he).1) (all _ (List.mem_cons_of_mem _ (walk_mem he).2)) hc)
  refine ⟨off, ?_⟩
  obtain ⟨z, hz, k⟩ := wind_right ((a, b) :: walk a (l ++ [b])) (x := x) (y := y) (by
    intro e he
    rcases List.mem_cons.mp he with rfl | he
    · exact ho
    · exact off e he)
  rw [← k (walk a (l ++ [b])) (fun e he => List.mem_cons_of_mem _ he)]
  have := k [(a, b)] (by simp)
  unfold wind at this
  rw [List.map_singleton, List.sum_singleton] at this
  rw [← this, contrib_eq]
  have gen : ∀ i ≤ (l ++ [b]).length, (((a :: (l ++ [b])).getD i a).x : Rat) ≠ z := by
    intro i hi
    rcases Nat.lt_or_ge i (l ++ [b]).length with c | c
    · have := hz ((a :: (l ++ [b])).getD i a, (a :: (l ++ [b])).getD (i + 1) a) (by
        refine List.mem_cons_of_mem _ ?_
        rw [walk_eq]
        exact List.mem_map.mpr ⟨i, List.mem_range.mpr c, rfl⟩)
      exact this.1
    · have e : i = (l ++ [b]).length := by omega
      subst e
      rw [List.getD_eq_getElem _ _ (by simp)]
      simp only [List.length_append, List.length_singleton, List.getElem_cons_succ]
      rw [List.getElem_append_right (by simp)]
      simpa using (hz (a, b) (by simp)).2
  have on : ∀ i ≤ (l ++ [b]).length, OnSegQ ((a :: (l ++ [b])).getD i a).x ((a :: (l ++ [b])).getD i a).y a b := by
    intro i hi
    rw [List.getD_eq_getElem _ _ (by simp at hi ⊢; omega)]
    exact all _ (List.getElem_mem _)
  rw [← chain_contrib (p := a) (q := b) z y (l ++ [b]).length (fun i => (a :: (l ++ [b])).getD i a) rfl (by
    rw [List.getD_eq_getElem _ _ (by simp)]
    simp only [List.length_append, List.length_singleton, List.getElem_cons_succ]
    rw [List.getElem_append_right (by simp)]; simp) on gen]
  rw [walk_eq]
  unfold edgesAbove
  rw [List.map_map]
  refine map_sum_congr fun i _ => ?_
  rw [← contrib_eq]
  unfold edgesAbove
  rw [List.map_singleton, List.sum_singleton]; rfl

end PolyOps.Exec
