import Verif.Lemmas.OutParts

/-! The lines counted above a classified line. -/
namespace PolyOps.Exec
open PolyOps PolyOps.Sweep PolyOps.Region PolyOps.Planarity PolyOps.Clipper

theorem hit_iff {f : Clip} {i j : Nat} : j ∈ (f.balance i).hits ↔ j < f.np ∧ f.touches (f.x i) j ∧ j ≠ i ∧
    upRay (f.line j).sa (f.line j).sb (f.line i).p (hsignOf (f.line i).delta) (f.line i).delta (decide (j > i)) = true := by
  unfold Clip.balance lineBal
  rw [check_hits]
  have : (LineBal.init (f.line i)).hits = [] := rfl
  rw [this, List.nil_append]
  simp only [List.mem_map, List.mem_filter, Clip.touching, List.mem_range]
  constructor
  · rintro ⟨s, ⟨⟨k, ⟨h1, h2⟩, rfl⟩, h3⟩, rfl⟩
    simp only [Bool.and_eq_true, decide_eq_true_eq] at h2 h3
    exact ⟨h1, h2, h3.1, h3.2⟩
  · rintro ⟨h1, h2, h3, h4⟩
    refine ⟨f.line j, ⟨⟨j, ⟨h1, by simpa using h2⟩, rfl⟩, ?_⟩, rfl⟩
    simp only [Bool.and_eq_true, decide_eq_true_eq]
    exact ⟨h3, h4⟩

theorem hits_nodup (f : Clip) (i : Nat) : (f.balance i).hits.Nodup := by
  unfold Clip.balance lineBal
  rw [check_hits]
  have : (LineBal.init (f.line i)).hits = [] := rfl
  rw [this, List.nil_append]
  have h : (((f.touching (f.x i)).map f.line).filter fun s => decide (s.idx ≠ (f.line i).idx) &&
      upRay s.sa s.sb (f.line i).p (hsignOf (f.line i).delta) (f.line i).delta (decide (s.idx > (f.line i).idx))).Nodup :=
    (lines_nodup f (List.nodup_range.filter _)).filter _
  refine h.map_on ?_
  intro a ha b hb e
  obtain ⟨j, _, rfl⟩ := List.mem_map.mp (List.mem_filter.mp ha).1
  obtain ⟨k, _, rfl⟩ := List.mem_map.mp (List.mem_filter.mp hb).1
  have : j = k := e
  rw [this]

theorem covers_on {l : Line} {x : Rat} (h : l.covers x) : l.on x (l.yAt x) := by
  unfold Line.on Line.yAt
  rcases h with ⟨h1, h2⟩ | ⟨h1, h2⟩
  · have d : (0 : Rat) < l.q.x - l.p.x := by linarith
    refine ⟨(x - l.p.x) / (l.q.x - l.p.x), div_nonneg (by linarith) d.le, (div_le_one d).mpr (by linarith), ?_, ?_⟩
    · field_simp; ring
    · ring
  · have d : (0 : Rat) < l.p.x - l.q.x := by linarith
    have d' : (l.q.x : Rat) - l.p.x ≠ 0 := by intro e; linarith
    refine ⟨(l.p.x - x) / (l.p.x - l.q.x), div_nonneg (by linarith) d.le, (div_le_one d).mpr (by linarith), ?_, ?_⟩
    · field_simp; ring
    · have : (l.p.x - x) / ((l.p.x : Rat) - l.q.x) = (x - l.p.x) / (l.q.x - l.p.x) := by
        rw [div_eq_div_iff d.ne' d']; ring
      rw [this]; ring

theorem covers_not_end {l : Line} {x y : Rat} (h : l.covers x) : ¬ l.endAt x y := by
  rintro (⟨e, _⟩ | ⟨e, _⟩) <;> rcases h with ⟨h1, h2⟩ | ⟨h1, h2⟩ <;> linarith

/-- The lines meet only at ends of both. -/
def Free (s l : Line) : Prop := ∀ x y, s.on x y → l.on x y → s.endAt x y ∧ l.endAt x y

theorem not_int {n m : Int} {σ e : Rat} (hσ : σ = 1 ∨ σ = -1) (h0 : 0 < e) (h1 : e < 1) : (n : Rat) ≠ m + σ * e := by
  intro h
  rcases hσ with rfl | rfl
  · have a : (m : Rat) < n := by linarith
    have b : (n : Rat) < m + 1 := by linarith
    have a' : m < n := by exact_mod_cast a
    have b' : n < m + 1 := by exact_mod_cast b
    omega
  · have a : (n : Rat) < m := by linarith
    have b : (m : Rat) < n + 1 := by linarith
    have a' : n < m := by exact_mod_cast a
    have b' : m < n + 1 := by exact_mod_cast b
    omega

theorem sgn_or (v : Int) : sgn v = 1 ∨ sgn v = -1 := by
  unfold sgn; split
  · exact Or.inr rfl
  · exact Or.inl rfl

theorem edgesAbove_wind {E : List (Pt × Pt)} {x y : Rat} (h : ∀ e ∈ E, (e.1.x : Rat) ≠ x ∧ (e.2.x : Rat) ≠ x) : edgesAbove E x y = wind E x y := by
  unfold edgesAbove wind
  congr 1
  apply List.map_congr_left
  intro e he
  obtain ⟨a, b⟩ := h e he
  unfold count height
  have h1 : ((e.1.x : Rat) ≤ x ↔ (e.1.x : Rat) < x) := ⟨fun h => lt_of_le_of_ne h a, le_of_lt⟩
  have h2 : ((e.2.x : Rat) ≤ x ↔ (e.2.x : Rat) < x) := ⟨fun h => lt_of_le_of_ne h b, le_of_lt⟩
  simp only [h1, h2]

theorem hits_flat {f : Clip} {i : Nat} (hx : (f.line i).p.x ≠ (f.line i).q.x) :
    ∃ x, (f.line i).covers x ∧ (∀ n : Int, (n : Rat) ≠ x) ∧ ∀ j < f.np, j ≠ i → Free (f.line j) (f.line i) →
      (j ∈ (f.balance i).hits ↔ (f.line j).covers x ∧ (f.line j).yAt x < (f.line i).yAt x) := by
  obtain ⟨e0, p0, h0⟩ := eventually_list (List.range f.np) (fun j _ => upRay_iff (f.line j) (f.line i) hx (decide (j > i)))
  have hσ := sgn_or ((f.line i).q.x - (f.line i).p.x)
  have pe : 0 < min e0 1 / 2 := by positivity
  have e1 : min e0 1 / 2 < 1 := by linarith [min_le_right e0 1]
  have e2 : min e0 1 / 2 < e0 := by linarith [min_le_left e0 1]
  have h := h0 _ pe e2
  have hc := covers_self (f.line i) hx _ pe e1
  have hn : ∀ n : Int, (n : Rat) ≠ ((f.line i).p.x : Rat) + sgn ((f.line i).q.x - (f.line i).p.x) * (min e0 1 / 2) := fun n => not_int hσ pe e1
  refine ⟨_, hc, hn, fun j hj hji hf => ?_⟩
  rw [hit_iff, h j (List.mem_range.mpr hj)]
  constructor
  · rintro ⟨_, _, _, h1, h2 | h2⟩
    · exact ⟨h1, h2⟩
    · exfalso
      exact covers_not_end hc (hf _ _ (by rw [← h2.1]; exact covers_on h1) (covers_on hc)).2
  · rintro ⟨h1, h2⟩
    exact ⟨hj, touches_of_covers f j _ _ hσ _ pe e1 h1, hji, h1, Or.inl h2⟩

theorem on_vert {l : Line} (hx : l.p.x = l.q.x) {d : Rat} (hy : l.p.y ≠ l.q.y) (h0 : 0 < d) (h1 : d < 1) :
    l.on l.p.x (l.p.y + sgn (l.q.y - l.p.y) * d) ∧ ¬ l.endAt l.p.x (l.p.y + sgn (l.q.y - l.p.y) * d) := by
  have hσ := sgn_or (l.q.y - l.p.y)
  refine ⟨?_, ?_⟩
  · have hx' : (l.p.x : Rat) = l.q.x := by exact_mod_cast hx
    rcases lt_or_gt_of_ne hy with c | c
    · have : (l.p.y : Rat) + 1 ≤ l.q.y := by exact_mod_cast c
      have hd : (0 : Rat) < l.q.y - l.p.y := by linarith
      have hs : sgn (l.q.y - l.p.y) = 1 := by unfold sgn; rw [if_neg (by omega)]
      refine ⟨d / (l.q.y - l.p.y), by positivity, (div_le_one hd).mpr (by linarith), by rw [hx']; ring, ?_⟩
      rw [hs]; field_simp
    · have : (l.q.y : Rat) + 1 ≤ l.p.y := by exact_mod_cast c
      have hd : (0 : Rat) < l.p.y - l.q.y := by linarith
      have hs : sgn (l.q.y - l.p.y) = -1 := by unfold sgn; rw [if_pos (by omega)]
      refine ⟨d / (l.p.y - l.q.y), by positivity, (div_le_one hd).mpr (by linarith), by rw [hx']; ring, ?_⟩
      rw [hs]; field_simp; ring
  · rintro (⟨_, e⟩ | ⟨_, e⟩)
    · exact not_int (n := l.p.y) (m := l.p.y) hσ h0 h1 e.symm
    · exact not_int (n := l.q.y) (m := l.p.y) hσ h0 h1 e.symm

theorem hits_vert {f : Clip} {i : Nat} (hx : (f.line i).p.x = (f.line i).q.x) (hy : (f.line i).p.y ≠ (f.line i).q.y)
    (hne : ∀ j < f.np, (f.line j).p ≠ (f.line j).q) :
    ∃ y0, (f.line i).on (f.line i).p.x y0 ∧ ¬ (f.line i).endAt (f.line i).p.x y0 ∧ ∃ σ : Rat, (σ = 1 ∨ σ = -1) ∧ ∃ e0 : Rat, 0 < e0 ∧ ∀ e, 0 < e → e < e0 →
      (∀ n : Int, (n : Rat) ≠ (f.line i).p.x + σ * e) ∧ ∀ j < f.np, j ≠ i → Free (f.line j) (f.line i) →
        (j ∈ (f.balance i).hits ↔ (f.line j).covers ((f.line i).p.x + σ * e) ∧ (f.line j).yAt ((f.line i).p.x + σ * e) < y0) := by
  have hσ := sgn_or ((f.line i).q.y - (f.line i).p.y)
  obtain ⟨d0, p0, h0⟩ := eventually_list (List.range f.np) (P := fun j d => ∃ e0 : Rat, 0 < e0 ∧ ∀ e, 0 < e → e < e0 → ((f.line j).p.x ≠ (f.line j).q.x →
      (upRay (f.line j).sa (f.line j).sb (f.line i).p (hsignOf (f.line i).delta) (f.line i).delta (decide (j > i)) = true ↔
        (f.line j).covers ((f.line i).p.x + sgn ((f.line i).q.y - (f.line i).p.y) * e) ∧
        (f.line j).yAt ((f.line i).p.x + sgn ((f.line i).q.y - (f.line i).p.y) * e) < (f.line i).p.y + sgn ((f.line i).q.y - (f.line i).p.y) * d))) (by
    intro j hj
    by_cases c : (f.line j).p.x = (f.line j).q.x
    · exact ⟨1, one_pos, fun d _ _ => ⟨1, one_pos, fun e _ _ h => absurd c h⟩⟩
    · obtain ⟨d0, h0, h1⟩ := upRay_vert_iff (f.line j) (f.line i) hx hy c (decide (j > i))
      refine ⟨d0, h0, fun d a b => ?_⟩
      obtain ⟨e0, g0, g1⟩ := h1 d a b
      exact ⟨e0, g0, fun e a b _ => g1 e a b⟩)
  have pd : 0 < min d0 1 / 2 := by positivity
  have d1 : min d0 1 / 2 < 1 := by linarith [min_le_right d0 1]
  have d2 : min d0 1 / 2 < d0 := by linarith [min_le_left d0 1]
  obtain ⟨e0, pe, h1⟩ := eventually_list (List.range f.np) (h0 _ pd d2)
  obtain ⟨o1, o2⟩ := on_vert hx hy pd d1
  refine ⟨_, o1, o2, _, hσ, min e0 1, by positivity, fun e q0 q1 => ?_⟩
  have q2 : e < 1 := q1.trans_le (min_le_right _ _)
  refine ⟨fun n => not_int hσ q0 q2, fun j hj hji hf => ?_⟩
  rw [hit_iff]
  by_cases c : (f.line j).p.x = (f.line j).q.x
  · -- a vertical line does not run along the line
    constructor
    · rintro ⟨_, ht, _, hu⟩
      exfalso
      have hm : (f.line j).aIsMain = true := by unfold Line.aIsMain; simp [c]
      have g1 : (f.line j).sa = (f.line j).p := by unfold Line.sa; simp [hm]
      have g2 : (f.line j).sb = (f.line j).q := by unfold Line.sb; simp [hm]
      have hdx0 : (f.line i).delta.x = 0 := by show (f.line i).q.x - (f.line i).p.x = 0; omega
      have hdy : (f.line i).delta.y = (f.line i).q.y - (f.line i).p.y := rfl
      have : ((f.line j).q - (f.line j).p).x = 0 := by simp only [Pt.sub_x]; omega
      unfold upRay vertOverlap at hu
      rw [g1, g2] at hu
      simp only [this, if_true, hdx0, decide_true, Bool.and_true, Bool.and_eq_true, decide_eq_true_eq, beq_iff_eq, decide_eq_decide, hdy] at hu
      obtain ⟨⟨_, k2⟩, k3⟩ := hu
      have cy : (f.line j).p.y ≠ (f.line j).q.y := fun e => hne j hj (Pt.ext c e)
      have hs : sgn ((f.line j).q.y - (f.line j).p.y) = sgn ((f.line i).q.y - (f.line i).p.y) := by
        unfold sgn
        apply if_congr _ rfl rfl
        omega
      have hpx : (f.line j).p.x = (f.line i).p.x := by
        have a : f.x j = (f.line j).p.x := rfl
        have b : f.x (f.lp j).next = (f.line j).q.x := rfl
        have d : f.x i = (f.line i).p.x := rfl
        unfold Clip.touches at ht
        rw [a, b, d] at ht
        omega
      have o3 := (on_vert c cy pd d1).1
      rw [hs, hpx, ← k3] at o3
      exact o2 (hf _ _ o3 o1).2
    · rintro ⟨h, _⟩; exact absurd c (covers_ne h)
  · rw [h1 e q0 (q1.trans_le (min_le_left _ _)) j (List.mem_range.mpr hj) c]
    constructor
    · rintro ⟨_, _, _, h⟩; exact h
    · rintro h
      exact ⟨hj, touches_of_covers f j _ _ hσ _ q0 q2 h.1, hji, h⟩

theorem hits_place {f : Clip} {i : Nat} (hi : i < f.np) (hne : ∀ j < f.np, (f.line j).p ≠ (f.line j).q) {E : List (Pt × Pt)} (hB : Bal E)
    (hE : ∀ e ∈ E, e.1 ≠ e.2 ∧ ∀ x y, OnSegQ x y e.1 e.2 → (f.line i).on x y → (f.line i).endAt x y) :
    ∃ x y x0 y0, (∀ n : Int, (n : Rat) ≠ x) ∧ (f.line i).on x0 y0 ∧ ¬ (f.line i).endAt x0 y0 ∧ Off E x0 y0 ∧ edgesAbove E x y = wind E x0 y0 ∧
      ∀ j < f.np, j ≠ i → Free (f.line j) (f.line i) → (j ∈ (f.balance i).hits ↔ (f.line j).covers x ∧ (f.line j).yAt x < y) := by
  by_cases hx : (f.line i).p.x = (f.line i).q.x
  · have hy : (f.line i).p.y ≠ (f.line i).q.y := fun e => hne i hi (Pt.ext hx e)
    obtain ⟨y0, o1, o2, σ, hσ, e0, pe, h⟩ := hits_vert hx hy hne
    have hoff : Off E (f.line i).p.x y0 := fun e he ho => o2 ((hE e he).2 _ _ ho o1)
    have hcl : Small fun ε => ∀ e ∈ E, Clear [e] (sh ((f.line i).p.x, y0) ε 0) (sh ((f.line i).p.x, y0) ε (σ, 0)) := by
      refine Small.list (fun e he => clear_small (hE e he).1 ?_)
      intro t _ _
      rw [mix_self]; exact hoff e he
    obtain ⟨ε0, pε, hε⟩ := hcl
    have q0 : 0 < min e0 ε0 / 2 := by positivity
    have q1 : min e0 ε0 / 2 < e0 := by linarith [min_le_left e0 ε0]
    have q2 : min e0 ε0 / 2 ≤ ε0 := by linarith [min_le_right e0 ε0]
    obtain ⟨g1, g2⟩ := h _ q0 q1
    refine ⟨_, y0, _, y0, g1, o1, o2, hoff, ?_, g2⟩
    rw [edgesAbove_wind (fun e _ => ⟨g1 _, g1 _⟩)]
    have hc : Clear E (sh ((f.line i).p.x, y0) (min e0 ε0 / 2) 0) (sh ((f.line i).p.x, y0) (min e0 ε0 / 2) (σ, 0)) := by
      intro t t0 t1 e he
      exact hε _ q0 q2 e he t t0 t1 e (by simp)
    have := wind_clear hB hc
    unfold sh at this
    simp only [Prod.fst_zero, Prod.snd_zero, mul_zero, add_zero] at this
    rw [this, mul_comm σ]
  · obtain ⟨x, hc, hn, h⟩ := hits_flat hx
    exact ⟨x, (f.line i).yAt x, x, (f.line i).yAt x, hn, covers_on hc, covers_not_end hc,
      fun e he ho => covers_not_end hc ((hE e he).2 _ _ ho (covers_on hc)), edgesAbove_wind (fun e _ => ⟨hn _, hn _⟩), h⟩

/-- The line leads back: to the left, or, if vertical, to smaller `y`. -/
def Rear (e : Pt × Pt) : Prop := e.2.x < e.1.x ∨ (e.2.x = e.1.x ∧ e.2.y < e.1.y)
instance (e : Pt × Pt) : Decidable (Rear e) := by unfold Rear; infer_instance

theorem sum_sub {α : Type} [DecidableEq α] {A B : List α} (hA : A.Nodup) (hB : B.Nodup) (h : ∀ a ∈ A, a ∈ B) (g : α → Int) :
    (A.map g).sum = (B.map fun b => if b ∈ A then g b else 0).sum := by
  have hp : A.Perm (B.filter fun b => decide (b ∈ A)) :=
    (List.perm_ext_iff_of_nodup hA (hB.filter _)).mpr fun a => by
      simp only [List.mem_filter, decide_eq_true_eq]; exact ⟨fun k => ⟨h a k, k⟩, fun k => k.2⟩
  rw [(hp.map g).sum_eq]
  clear hp hB h hA
  induction B with
  | nil => rfl
  | cons b B ih =>
    rw [List.map_cons, List.sum_cons, ← ih]
    by_cases c : b ∈ A
    · rw [List.filter_cons_of_pos (by simpa using c), List.map_cons, List.sum_cons, if_pos c]
    · rw [List.filter_cons_of_neg (by simpa using c), if_neg c, zero_add]

theorem sum_filter_zero {α : Type} (B : List α) (p : α → Bool) (g : α → Int) (h : ∀ b ∈ B, p b = false → g b = 0) :
    (B.map g).sum = ((B.filter p).map g).sum := by
  induction B with
  | nil => rfl
  | cons b B ih =>
    rw [List.map_cons, List.sum_cons, ih fun c hc => h c (List.mem_cons_of_mem _ hc)]
    cases c : p b
    · rw [List.filter_cons_of_neg (by simp [c]), h b (by simp) c, zero_add]
    · rw [List.filter_cons_of_pos c, List.map_cons, List.sum_cons]

/-- What a line counts, told by whether it is above and whether it leads back. -/
theorem above_term {l : Line} {e : Pt × Pt} (he : e = (l.p, l.q) ∨ e = (l.q, l.p)) {x y : Rat} :
    (if l.covers x ∧ l.yAt x < y then (if Rear e then (1 : Int) else -1) else 0) = - edgesAbove [e] x y := by
  unfold edgesAbove
  simp only [List.map_cons, List.map_nil, List.sum_cons, List.sum_nil, add_zero]
  have hy : ∀ a b : Pt, (a.x : Rat) ≠ b.x → (a.y : Rat) + (x - a.x) * ((b.y : Rat) - a.y) / ((b.x : Rat) - a.x) =
      (b.y : Rat) + (x - b.x) * ((a.y : Rat) - b.y) / ((a.x : Rat) - b.x) := by
    intro a b h
    have h1 : (b.x : Rat) - a.x ≠ 0 := fun k => h (by linarith)
    have h2 : (a.x : Rat) - b.x ≠ 0 := fun k => h (by linarith)
    rw [show (a.x : Rat) - b.x = -(b.x - a.x) by ring, div_neg]
    field_simp; ring
  have hr : ∀ a b : Pt, (a.x : Rat) < x → x < b.x → ¬ Rear (a, b) ∧ Rear (b, a) := by
    intro a b h1 h2
    have : (a.x : Rat) < b.x := h1.trans h2
    have : a.x < b.x := by exact_mod_cast this
    unfold Rear
    dsimp only
    omega
  unfold Line.covers Line.yAt
  by_cases c1 : (l.p.x : Rat) < x ∧ x < l.q.x
  · obtain ⟨r1, r2⟩ := hr _ _ c1.1 c1.2
    have n1 : ¬ ((l.q.x : Rat) < x ∧ x < l.p.x) := fun h => by linarith [c1.1, h.2]
    rcases he with rfl | rfl
    · dsimp only
      rw [if_neg r1]
      by_cases g : (l.p.y : Rat) + (x - l.p.x) * ((l.q.y : Rat) - l.p.y) / ((l.q.x : Rat) - l.p.x) < y
      · rw [if_pos ⟨Or.inl c1, g⟩, if_pos ⟨c1.1, c1.2, g⟩]
      · rw [if_neg (fun h => g h.2), if_neg (fun h => g h.2.2), if_neg (fun h => g h.2.2)]; rfl
    · dsimp only
      rw [if_pos r2, hy l.p l.q (by intro h; linarith [c1.1, c1.2])]
      by_cases g : (l.q.y : Rat) + (x - l.q.x) * ((l.p.y : Rat) - l.q.y) / ((l.p.x : Rat) - l.q.x) < y
      · rw [if_pos ⟨Or.inl c1, g⟩, if_neg (fun h => n1 ⟨h.1, h.2.1⟩), if_pos ⟨c1.1, c1.2, g⟩]; rfl
      · rw [if_neg (fun h => g h.2), if_neg (fun h => g h.2.2), if_neg (fun h => g h.2.2)]; rfl
  · by_cases c2 : (l.q.x : Rat) < x ∧ x < l.p.x
    · obtain ⟨r1, r2⟩ := hr _ _ c2.1 c2.2
      rcases he with rfl | rfl
      · dsimp only
        rw [if_pos r2]
        by_cases g : (l.p.y : Rat) + (x - l.p.x) * ((l.q.y : Rat) - l.p.y) / ((l.q.x : Rat) - l.p.x) < y
        · rw [if_pos ⟨Or.inr c2, g⟩, if_neg (fun h => c1 ⟨h.1, h.2.1⟩), if_pos ⟨c2.1, c2.2, g⟩]; rfl
        · rw [if_neg (fun h => g h.2), if_neg (fun h => g h.2.2), if_neg (fun h => g h.2.2)]; rfl
      · dsimp only
        rw [if_neg r1, hy l.p l.q (by intro h; linarith [c2.1, c2.2])]
        by_cases g : (l.q.y : Rat) + (x - l.q.x) * ((l.p.y : Rat) - l.q.y) / ((l.p.x : Rat) - l.q.x) < y
        · rw [if_pos ⟨Or.inr c2, g⟩, if_pos ⟨c2.1, c2.2, g⟩]
        · rw [if_neg (fun h => g h.2), if_neg (fun h => g h.2.2), if_neg (fun h => g h.2.2)]; rfl
    · rw [if_neg (fun h => h.1.elim c1 c2)]
      rcases he with rfl | rfl
      · dsimp only
        rw [if_neg (fun h => c1 ⟨h.1, h.2.1⟩), if_neg (fun h => c2 ⟨h.1, h.2.1⟩)]; rfl
      · dsimp only
        rw [if_neg (fun h => c2 ⟨h.1, h.2.1⟩), if_neg (fun h => c1 ⟨h.1, h.2.1⟩)]; rfl

theorem sum_neg' {α : Type} (E : List α) (g : α → Int) : -(E.map g).sum = (E.map fun e => - g e).sum := by
  induction E with
  | nil => rfl
  | cons a E ih => rw [List.map_cons, List.sum_cons, List.map_cons, List.sum_cons, ← ih]; ring

/-- The lines of a closed part counted above a line outside the part tell how often the part winds around a place of the line. -/
theorem hits_wind {f : Clip} {op : BoolOp} {lp' : Nat → Loops.OP} (hd : ∀ i, (lp' i).data = (f.lp i).data) (hx : ∀ i, (lp' i).next = (f.lp i).next)
    (hne : ∀ j < f.np, (f.line j).p ≠ (f.line j).q) (hA : Arr (Loops.keptLines lp' f.np (cls f op))) {E : List (Pt × Pt)} (hB : Bal E) (hN : E.Nodup)
    (hE : ∀ e ∈ E, e ∈ Loops.keptLines lp' f.np (cls f op)) {i : Nat} (hi : i < f.np) (hk : (cls f op i).keep = true)
    (hiE : Loops.used lp' (cls f op) i ∉ E) {H : List Nat} (hH : H.Perm (f.balance i).hits) :
    ∃ x0 y0, OnSegQ x0 y0 (Loops.used lp' (cls f op) i).1 (Loops.used lp' (cls f op) i).2 ∧
      ¬ IsEnd x0 y0 (Loops.used lp' (cls f op) i).1 (Loops.used lp' (cls f op) i).2 ∧ Off E x0 y0 ∧
      (H.map fun j => if (cls f op j).keep = true ∧ Loops.used lp' (cls f op) j ∈ E then (if Rear (Loops.used lp' (cls f op) j) then (1 : Int) else -1) else 0).sum =
        - wind E x0 y0 := by
  classical
  have hu : ∀ j, Loops.used lp' (cls f op) j = ((f.line j).p, (f.line j).q) ∨ Loops.used lp' (cls f op) j = ((f.line j).q, (f.line j).p) := by
    intro j
    unfold Loops.used
    rw [hd, hx, hd]
    split
    · exact Or.inr rfl
    · exact Or.inl rfl
  have hmem : ∀ j < f.np, (cls f op j).keep = true → Loops.used lp' (cls f op) j ∈ Loops.keptLines lp' f.np (cls f op) :=
    fun j hj hk => List.mem_map.mpr ⟨j, List.mem_filter.mpr ⟨List.mem_range.mpr hj, hk⟩, rfl⟩
  have on_iff : ∀ j x y, OnSegQ x y (Loops.used lp' (cls f op) j).1 (Loops.used lp' (cls f op) j).2 ↔ (f.line j).on x y := by
    intro j x y
    unfold Line.on
    rcases hu j with e | e <;> rw [e]
    exact ⟨onq_swap, onq_swap⟩
  have end_iff : ∀ j x y, IsEnd x y (Loops.used lp' (cls f op) j).1 (Loops.used lp' (cls f op) j).2 ↔ (f.line j).endAt x y := by
    intro j x y
    unfold Line.endAt IsEnd
    rcases hu j with e | e <;> rw [e]
    exact Or.comm
  obtain ⟨x, y, x0, y0, gen, o1, o2, off, hw, hits⟩ := hits_place hi hne (E := E) hB (by
    intro e he
    refine ⟨hA.ne e (hE e he), fun x y h1 h2 => ?_⟩
    rw [← end_iff]
    exact (hA.meet e (hE e he) _ (hmem i hi hk) (fun c => hiE (c ▸ he)) x y h1 ((on_iff i x y).mpr h2)).2)
  refine ⟨x0, y0, (on_iff i _ _).mpr o1, fun h => o2 ((end_iff i _ _).mp h), off, ?_⟩
  rw [(hH.map _).sum_eq, ← hw]
  rw [sum_sub (hits_nodup f i) List.nodup_range (fun j hj => List.mem_range.mpr (hit_iff.mp hj).1)]
  rw [sum_filter_zero (List.range f.np) (fun j => (cls f op j).keep) _ (fun j _ h => by simp [h])]
  rw [show edgesAbove E x y = (E.map fun e => edgesAbove [e] x y).sum by unfold edgesAbove; simp]
  rw [show -(E.map fun e => edgesAbove [e] x y).sum = (E.map fun e => - edgesAbove [e] x y).sum from (sum_neg' E _)]
  rw [sum_sub hN hA.nodup hE]
  unfold Loops.keptLines
  rw [List.map_map]
  congr 1
  apply List.map_congr_left
  intro j hj
  have hj1 := List.mem_range.mp (List.mem_filter.mp hj).1
  have hj2 : (cls f op j).keep = true := (List.mem_filter.mp hj).2
  dsimp only [Function.comp]
  by_cases c : Loops.used lp' (cls f op) j ∈ E
  · rw [if_pos c, ← above_term (hu j)]
    have hji : j ≠ i := fun e => hiE (e ▸ c)
    have hf : Free (f.line j) (f.line i) := by
      intro x y h1 h2
      have := hA.meet _ (hmem j hj1 hj2) _ (hmem i hi hk) (fun e => hiE (e ▸ c)) x y ((on_iff j x y).mpr h1) ((on_iff i x y).mpr h2)
      exact ⟨(end_iff j _ _).mp this.1, (end_iff i _ _).mp this.2⟩
    refine if_congr (hits j hj1 hji hf) ?_ rfl
    rw [if_pos ⟨hj2, c⟩]
  · rw [if_neg c]
    split
    · rw [if_neg (fun h => c h.2)]
    · rfl

end PolyOps.Exec
