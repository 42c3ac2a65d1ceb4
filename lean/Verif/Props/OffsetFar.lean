import Verif.Lemmas.Shadow
import Verif.Props.Far
import Verif.Model.OffsetClip

/-! C61: places far from the sides of polygons that are offset. `Beyond` is in `Lemmas/Shadow.lean`. -/
namespace PolyOps.Exec
open PolyOps PolyOps.Sweep PolyOps.Region PolyOps.Planarity PolyOps.Loops PolyOps.PointSink PolyOps.Clipper PolyOps.Double

/-! ### Specification -/

/-- The points that offsetting adds for a polygon. That they do not depend on the index of the first point is `emitted_next`. -/
noncomputable def emitted (m : ℝ) (arc : Int) (closed : Bool) : List Pt → Option (List Pt)
  | [] => some []
  | p :: rest => (if closed then Offset.emitClosed m arc 0 p rest else Offset.emitOpen m arc 0 p rest).map fun r => r.1.map Prod.fst

/-- The polygons that offsetting adds. -/
def added (pt : Bool) (Z : List (List Pt)) : List Poly := Z.map fun z => ⟨.subject, pt, z⟩

/-- The sides of a closed polygon or those of an open path; a single point counts as one. -/
def sides (closed : Bool) : List Pt → List (Pt × Pt)
  | [] => []
  | p :: l => if closed then edges (p :: l) else (p, p) :: walk p l

/-! ### What is emitted -/

theorem Shadow.const {R : ℝ} (hR : 0 ≤ R) {E : List (Pt × Pt)} {o : Pt} (hE : ∃ d ∈ E, d.1 = o ∨ d.2 = o) {Z : List Pt} (h : ∀ z ∈ Z, Close R z o) :
    ∃ O, Shadow R E Z O ∧ ∀ x y, Exec.wind (edges O) x y = 0 := by
  cases Z with
  | nil => exact ⟨[], Or.inl ⟨rfl, rfl⟩, fun _ _ => rfl⟩
  | cons a l =>
    refine ⟨(a :: l).map fun _ => o, Or.inr ⟨(a, o), l.map fun z => (z, o), by simp [Function.comp_def], by simp [Function.comp_def], ?_⟩, fun x y => ?_⟩
    · obtain ⟨d, hd, ho⟩ := hE
      apply List.Pairwise.isChain
      have : ∀ p ∈ (a, o) :: (l.map (fun z => (z, o)) ++ [(a, o)]), Close R p.1 p.2 ∧ p.2 = o := by
        intro p hp
        simp only [List.mem_cons, List.mem_append, List.mem_map, List.not_mem_nil, or_false] at hp
        rcases hp with rfl | ⟨z, hz, rfl⟩ | rfl
        · exact ⟨h _ (by simp), rfl⟩
        · exact ⟨h _ (by simp [hz]), rfl⟩
        · exact ⟨h _ (by simp), rfl⟩
      refine List.pairwise_of_forall_mem_list fun p hp q hq => ⟨(this p hp).1, (this q hq).1, fun S x y hS => ?_⟩
      rw [(this p hp).2, (this q hq).2]
      exact beyond_self (hS d hd) ho
    · have : ∀ l : List Pt, Exec.wind (walk o (l.map (fun _ => o) ++ [o])) x y = 0 := by
        intro l
        induction l with
        | nil => simp [walk, Exec.wind, count_self]
        | cons b l ih => simpa [walk, Exec.wind, count_self] using ih
      exact this l

theorem turns_dot (s c : ℝ) (h : s ^ 2 + c ^ 2 = 1) : ∀ (n : Nat) (v : Offset.Vec), ∀ u ∈ Offset.turns s c v n, Offset.dot u u = Offset.dot v v
  | 0, v, u, hu => by simp [Offset.turns] at hu
  | n + 1, v, u, hu => by
    unfold Offset.turns at hu
    have e : Offset.dot (c * v.1 - s * v.2, s * v.1 + c * v.2) (c * v.1 - s * v.2, s * v.1 + c * v.2) = Offset.dot v v := by
      unfold Offset.dot; dsimp only; linear_combination (v.1 * v.1 + v.2 * v.2) * h
    rcases List.mem_cons.mp hu with rfl | hu
    · exact e
    · rw [turns_dot s c h n _ u hu, e]

theorem lone_close {m : ℝ} {arc next : Int} {p : Pt} {e : Offset.Emit} {i : Int} (h : Offset.offsetLonePoint m arc next p = some (e, i)) :
    ∀ z ∈ e.map Prod.fst, Close (|m| + 3 / 4) z p := by
  unfold Offset.offsetLonePoint at h
  split at h
  · simp only [Option.some.injEq, Prod.mk.injEq] at h
    rw [← h.1]; simp
  · dsimp only at h
    split at h
    · simp at h
    · simp only [Option.some.injEq, Prod.mk.injEq] at h
      intro z hz
      rw [← h.1, List.map_map] at hz
      obtain ⟨v, hv, rfl⟩ := List.mem_map.mp hz
      refine close_near (v := v) ?_ (Offset.near_addRound p v)
      rw [turns_dot _ _ (Real.sin_sq_add_cos_sq _) _ _ _ hv]
      unfold Offset.dot; simp

theorem dedup_walk : ∀ (l : List Pt) (p z : Pt) (x y : Rat), Exec.wind (walk p (Offset.dedup p l ++ [z])) x y = Exec.wind (walk p (l ++ [z])) x y ∧
    ∀ d ∈ walk p (Offset.dedup p l ++ [z]), d ∈ walk p (l ++ [z])
  | [], p, z, x, y => ⟨rfl, fun _ h => h⟩
  | q :: l, p, z, x, y => by
    by_cases c : q = p
    · subst c
      rw [Offset.dedup_eq rfl]
      obtain ⟨h1, h2⟩ := dedup_walk l q z x y
      constructor
      · rw [h1]; simp [walk, Exec.wind, count_self]
      · intro d hd; exact List.mem_cons_of_mem _ (h2 d hd)
    · rw [Offset.dedup_ne c]
      obtain ⟨h1, h2⟩ := dedup_walk l q z x y
      constructor
      · simpa [walk, Exec.wind] using h1
      · intro d hd
        rcases List.mem_cons.mp hd with rfl | hd
        · exact List.mem_cons_self
        · exact List.mem_cons_of_mem _ (h2 d hd)

theorem tag_fst (s : Int) : ∀ (l : List Pt) (i : Int), (Offset.tag i s l).map Prod.fst = l
  | [], _ => rfl
  | a :: l, i => by simp [Offset.tag, tag_fst s l]

theorem dedup_nil : ∀ (l : List Pt) (p : Pt), Offset.dedup p l = [] → ∀ x ∈ l, x = p
  | [], p, _, x, hx => by simp at hx
  | q :: l, p, h, x, hx => by
    by_cases c : q = p
    · rw [Offset.dedup_eq c] at h
      rcases List.mem_cons.mp hx with rfl | hx
      · exact c
      · exact dedup_nil l p h x hx
    · rw [Offset.dedup_ne c] at h; simp at h

theorem walk_prefix : ∀ (l : List Pt) (p z : Pt), ∀ d ∈ walk p l, d ∈ walk p (l ++ [z])
  | [], p, z, d, hd => by simp [walk] at hd
  | q :: l, p, z, d, hd => by
    rcases List.mem_cons.mp hd with rfl | hd
    · exact List.mem_cons_self
    · exact List.mem_cons_of_mem _ (walk_prefix l q z d hd)

/-- What is emitted for a closed polygon. -/
theorem closed_shadow {m : ℝ} {arc : Int} (ha : 0 < arc) {next : Int} {p : Pt} {l : List Pt} {e : Offset.Emit} {i : Int}
    (h : Offset.emitClosed m arc next p l = some (e, i)) :
    ∃ O, Shadow (|m| + 3 / 4) (edges (p :: l)) (e.map Prod.fst) O ∧ ∀ x y, Exec.wind (edges O) x y = Exec.wind (edges (p :: l)) x y := by
  by_cases hl : ∃ x ∈ l, x ≠ p
  · obtain ⟨e1, i1, e', i', h1, h2, h3, -⟩ := Offset.C38_closed_points (m := m) ha next p l hl
    rw [h1] at h
    simp only [Option.some.injEq, Prod.mk.injEq] at h
    obtain ⟨rfl, rfl⟩ := h
    rw [h3]
    have hst := Offset.dedup_steps l p
    have hw := fun x y => dedup_walk l p p x y
    cases hd : Offset.dedup p l with
    | nil =>
      exfalso
      obtain ⟨x, hx, hxp⟩ := hl
      exact hxp (dedup_nil l p hd x hx)
    | cons q k =>
      rw [hd] at h2 hst hw
      have hE : ∀ d ∈ walk p (q :: k ++ [p]), d ∈ edges (p :: l) := (hw 0 0).2
      by_cases hr : (p :: q :: k).getLast? = some p
      · obtain ⟨e2, g1, g2⟩ := Offset.C38_closed_repeat (m := m) ha next p q k hst hr
        rw [g1] at h2
        simp only [Option.some.injEq, Prod.mk.injEq] at h2
        obtain ⟨rfl, -⟩ := h2
        obtain ⟨O, o1, o2⟩ := path_shadow' g2 (p := p) (M := q :: k) (z := q) (by rw [List.map_append, tag_fst]; simp)
          (by rw [← hr, List.getLast?_cons_cons]) (E := edges (p :: l)) fun d hd' => hE d (by
            have := walk_prefix (q :: k) p p
            exact this d hd')
        exact ⟨O, o1, fun x y => by rw [o2, (hw x y).1]; rfl⟩
      · obtain ⟨e2, g1, g2⟩ := Offset.C38_closed_partial (m := m) ha next p q k hst hr
        rw [g1] at h2
        simp only [Option.some.injEq, Prod.mk.injEq] at h2
        obtain ⟨rfl, -⟩ := h2
        obtain ⟨O, o1, o2⟩ := path_shadow' g2 (p := p) (M := q :: k ++ [p]) (z := q) (by rw [List.map_append, tag_fst]; simp)
          (by simp [List.getLast?_cons]) (E := edges (p :: l)) hE
        refine ⟨O, o1, fun x y => ?_⟩
        have e0 : Exec.wind (walk p (q :: k ++ [p] ++ [p])) x y = Exec.wind (walk p (q :: k ++ [p])) x y := by
          rw [List.append_assoc, List.singleton_append, walk_append p p (q :: k) [p], wind_append]
          simp [walk, Exec.wind, count_self]
        rw [o2, e0, (hw x y).1]; rfl
  · push Not at hl
    have hl' : l.dropWhile (fun q => decide (q = p)) = [] := by
      rw [List.dropWhile_eq_nil_iff]; intro q hq; simpa using hl q hq
    unfold Offset.emitClosed at h
    rw [hl'] at h
    have hmem : ∃ d ∈ edges (p :: l), d.1 = p ∨ d.2 = p := by
      cases l with
      | nil => exact ⟨(p, p), by simp [edges, walk], Or.inl rfl⟩
      | cons q l => exact ⟨(p, q), by simp [edges, walk], Or.inl rfl⟩
    obtain ⟨O, o1, o2⟩ := Shadow.const (R := |m| + 3 / 4) (by positivity) hmem (lone_close h)
    refine ⟨O, o1, fun x y => ?_⟩
    rw [o2]
    have : ∀ l : List Pt, (∀ q ∈ l, q = p) → Exec.wind (walk p (l ++ [p])) x y = 0 := by
      intro l hl
      induction l with
      | nil => simp [walk, Exec.wind, count_self]
      | cons b l ih =>
        have hb := hl b (by simp)
        subst hb
        simpa [walk, Exec.wind, count_self] using ih fun q hq => hl q (by simp [hq])
    exact (this l hl).symm

theorem Shadow.mono {R : ℝ} {E F : List (Pt × Pt)} (h : ∀ S x y, (∀ d ∈ F, Beyond S d x y) → ∀ d ∈ E, Beyond S d x y) {Z O : List Pt}
    (hs : Shadow R E Z O) : Shadow R F Z O := by
  rcases hs with hs | ⟨a, L, h1, h2, h3⟩
  · exact Or.inl hs
  · exact Or.inr ⟨a, L, h1, h2, h3.imp fun p q hp => ⟨hp.1, hp.2.1, fun S x y hf => hp.2.2 S x y (h S x y hf)⟩⟩

theorem beyond_swap {S : ℝ} {d : Pt × Pt} {x y : Rat} (h : Beyond S d x y) : Beyond S d.swap x y := by
  intro t t0 t1
  have := h (1 - t) (by linarith) (by linarith)
  convert this using 3 <;> simp only [Prod.fst_swap, Prod.snd_swap] <;> ring

theorem walk_snoc : ∀ (l : List Pt) (p z u : Pt), (p :: l).getLast? = some u → walk p (l ++ [z]) = walk p l ++ [(u, z)]
  | [], p, z, u, h => by simp at h; simp [walk, h]
  | q :: l, p, z, u, h => by
    rw [List.getLast?_cons_cons] at h
    simp [walk, walk_snoc l q z u h]

theorem walk_join : ∀ (l T : List Pt) (p u : Pt), (p :: l).getLast? = some u → walk p (l ++ T) = walk p l ++ walk u T
  | [], T, p, u, h => by simp at h; simp [walk, h]
  | q :: l, T, p, u, h => by
    rw [List.getLast?_cons_cons] at h
    simp [walk, walk_join l T q u h]

/-- The way back. -/
theorem walk_back : ∀ (l : List Pt) (p : Pt), ∃ u T, (p :: l).reverse = u :: T ∧ (p :: l).getLast? = some u ∧ (u :: T).getLast? = some p ∧
    walk u T = ((walk p l).map Prod.swap).reverse
  | [], p => ⟨p, [], rfl, rfl, rfl, rfl⟩
  | q :: l, p => by
    obtain ⟨u, T, h1, h2, h3, h4⟩ := walk_back l q
    refine ⟨u, T ++ [p], by rw [List.reverse_cons, h1]; rfl, by rw [List.getLast?_cons_cons]; exact h2, by simp [List.getLast?_cons], ?_⟩
    rw [walk_snoc T u p q h3, h4]
    simp [walk]

theorem wind_back (E : List (Pt × Pt)) (x y : Rat) : Exec.wind (E.map Prod.swap).reverse x y = - Exec.wind E x y := by
  rw [wind_perm (List.reverse_perm _)]
  induction E with
  | nil => rfl
  | cons e E ih =>
    have := count_swap e.1 e.2 x y
    simp only [Exec.wind, List.map_cons, List.sum_cons] at ih ⊢
    rw [ih]
    have h : count e.swap x y = - count e x y := this
    rw [h]; ring

/-- What is emitted for an open path winds around nothing but places near the path. -/
theorem open_shadow {m : ℝ} {arc : Int} (ha : 0 < arc) {next : Int} {p : Pt} {l : List Pt} (hs : Offset.Steps (p :: l)) {e : Offset.Emit} {i : Int}
    (h : Offset.emitOpen m arc next p l = some (e, i)) :
    ∃ O, Shadow (|m| + 3 / 4) ((p, p) :: walk p l) (e.map Prod.fst) O ∧ ∀ x y, Exec.wind (edges O) x y = 0 := by
  cases l with
  | nil =>
    exact Shadow.const (by positivity) ⟨(p, p), by simp, Or.inl rfl⟩ (lone_close h)
  | cons q l =>
    obtain ⟨e2, g1, g2⟩ := Offset.C38_open_partial (m := m) ha next p q l hs
    rw [g1] at h
    simp only [Option.some.injEq, Prod.mk.injEq] at h
    obtain ⟨rfl, -⟩ := h
    obtain ⟨u, T, h1, h2, h3, h4⟩ := walk_back (q :: l) p
    have hT : (u :: T).tail = T := rfl
    have hw : walk p (q :: l ++ T) = walk p (q :: l) ++ ((walk p (q :: l)).map Prod.swap).reverse := by rw [walk_join _ T p u h2, h4]
    have hne : T ≠ [] := by
      rintro rfl
      have := congrArg List.length h1
      simp at this
    have hlast : (q :: l ++ T).getLast? = some p := by
      rw [List.getLast?_append_of_ne_nil _ hne]
      rw [List.getLast?_cons_of_ne_nil hne] at h3
      exact h3
    obtain ⟨O, o1, o2⟩ := path_shadow' g2 (p := p) (M := q :: l ++ T) (z := q)
      (by rw [List.map_append, List.map_append, List.map_tail, List.map_reverse, tag_fst, h1, hT]; simp) hlast (E := walk p (q :: l ++ T)) (fun _ h => h)
    refine ⟨O, o1.mono fun S x y hf d hd => ?_, fun x y => ?_⟩
    · rw [hw] at hd
      rcases List.mem_append.mp hd with hd | hd
      · exact hf d (List.mem_cons_of_mem _ hd)
      · obtain ⟨d', hd', rfl⟩ := List.mem_map.mp (List.mem_reverse.mp hd)
        exact beyond_swap (hf d' (List.mem_cons_of_mem _ hd'))
    · rw [o2, walk_snoc _ p p p (by rw [List.cons_append, List.getLast?_cons_cons]; exact hlast), hw, wind_append, wind_append, wind_back]
      simp [Exec.wind, count_self]

/-! ### Adding -/

theorem walk_next {m : ℝ} {arc : Int} : ∀ (l : List Pt) (s s' i j : Int) (p q : Pt),
    (Offset.walk m arc s l i p q).map (fun r => (r.1.map Prod.fst, r.2.2)) = (Offset.walk m arc s' l j p q).map fun r => (r.1.map Prod.fst, r.2.2)
  | [], s, s', i, j, p, q => by simp [Offset.walk]
  | r :: l, s, s', i, j, p, q => by
    unfold Offset.walk
    split
    · have h1 := Offset.add_index (m := m) (arc := arc) i (i + s) j (j + s') p q r
      have h2 := walk_next (m := m) (arc := arc) l s s' (i + s) (j + s') q r
      cases ha : Offset.addOffsetPoint m arc i (i + s) p q r <;> cases hb : Offset.addOffsetPoint m arc j (j + s') p q r <;> rw [ha, hb] at h1 <;>
        simp at h1 ⊢
      cases hc : Offset.walk m arc s l (i + s) q r <;> cases hd : Offset.walk m arc s' l (j + s') q r <;> rw [hc, hd] at h2 <;> simp at h2 ⊢
      rw [h1, h2.1, h2.2]; simp
    · exact walk_next l s s' (i + s) (j + s') p q

theorem lone_next {m : ℝ} {arc : Int} (i j : Int) (p : Pt) : (Offset.offsetLonePoint m arc i p).map (fun r => r.1.map Prod.fst) =
    (Offset.offsetLonePoint m arc j p).map fun r => r.1.map Prod.fst := by
  unfold Offset.offsetLonePoint
  dsimp only
  split
  · rfl
  · split <;> simp [Function.comp_def]

/-- The same points. -/
def SamePts (a b : Option Offset.Emit) : Prop := a.map (fun e => e.map Prod.fst) = b.map fun e => e.map Prod.fst

theorem samePts_cases {a b : Option Offset.Emit} (h : SamePts a b) : (a = none ∧ b = none) ∨ ∃ e f, a = some e ∧ b = some f ∧ e.map Prod.fst = f.map Prod.fst := by
  unfold SamePts at h
  cases a <;> cases b <;> simp at h ⊢
  exact h

theorem walk_cases {m : ℝ} {arc : Int} (l : List Pt) (s s' i j : Int) (p q : Pt) :
    (Offset.walk m arc s l i p q = none ∧ Offset.walk m arc s' l j p q = none) ∨ ∃ e f i' j' a b, Offset.walk m arc s l i p q = some (e, i', a, b) ∧
      Offset.walk m arc s' l j p q = some (f, j', a, b) ∧ e.map Prod.fst = f.map Prod.fst := by
  have h := walk_next (m := m) (arc := arc) l s s' i j p q
  cases hc : Offset.walk m arc s l i p q <;> cases hd : Offset.walk m arc s' l j p q <;> rw [hc, hd] at h <;> simp at h ⊢
  rename_i u v
  obtain ⟨e, i', a, b⟩ := u
  obtain ⟨f, j', a', b'⟩ := v
  simp only [Prod.mk.injEq] at h
  obtain ⟨h1, rfl, rfl⟩ := h
  exact ⟨e, f, i', j', a, b, rfl, rfl, h1⟩

theorem closed_next {m : ℝ} {arc : Int} (i j : Int) (p : Pt) (l : List Pt) : (Offset.emitClosed m arc i p l).map (fun r => r.1.map Prod.fst) =
    (Offset.emitClosed m arc j p l).map fun r => r.1.map Prod.fst := by
  unfold Offset.emitClosed
  split
  · exact lone_next i j p
  · rename_i q k _
    rcases walk_cases (m := m) (arc := arc) k 1 1 i j p q with ⟨h1, h2⟩ | ⟨e, f, i', j', a, b, h1, h2, h3⟩
    · rw [h1, h2]; rfl
    · rw [h1, h2, Option.bind_some, Option.bind_some]
      dsimp only
      have opt : ∀ (c : Prop) [Decidable c] (o1 o2 o3 o4 : Int) (u v w : Pt),
          SamePts (if c then Offset.addOffsetPoint m arc o1 o2 u v w else some []) (if c then Offset.addOffsetPoint m arc o3 o4 u v w else some []) := by
        intro c _ o1 o2 o3 o4 u v w
        unfold SamePts
        split
        · exact Offset.add_index _ _ _ _ _ _ _
        · rfl
      rcases samePts_cases (opt (a ≠ b) i' (i' + 1) j' (j' + 1) a b (if b = p then q else p)) with ⟨g1, g2⟩ | ⟨e1, f1, g1, g2, g3⟩
      · rw [g1, g2]; rfl
      · rw [g1, g2, Option.bind_some, Option.bind_some]
        rcases samePts_cases (opt (b ≠ p) (i' + 1) i (j' + 1) j b p q) with ⟨k1, k2⟩ | ⟨e2, f2, k1, k2, k3⟩
        · rw [k1, k2]; rfl
        · rw [k1, k2]; simp [h3, g3, k3]

theorem tail_cases {m : ℝ} {arc : Int} (l : List Pt) (s s' i j : Int) (p q : Pt) :
    (Offset.tailOpen m arc l i s p q = none ∧ Offset.tailOpen m arc l j s' p q = none) ∨ ∃ e f i' j' a b, Offset.tailOpen m arc l i s p q = some (e, i', a, b) ∧
      Offset.tailOpen m arc l j s' p q = some (f, j', a, b) ∧ e.map Prod.fst = f.map Prod.fst := by
  unfold Offset.tailOpen
  rcases walk_cases (m := m) (arc := arc) l s s' i j p q with ⟨h1, h2⟩ | ⟨e, f, i', j', a, b, h1, h2, h3⟩
  · rw [h1, h2]; exact Or.inl ⟨rfl, rfl⟩
  · rw [h1, h2, Option.bind_some, Option.bind_some]
    dsimp only
    rcases samePts_cases (Offset.add_index (m := m) (arc := arc) i' (i' + s) j' (j' + s') a b a) with ⟨g1, g2⟩ | ⟨e1, f1, g1, g2, g3⟩
    · rw [g1, g2]; exact Or.inl ⟨rfl, rfl⟩
    · rw [g1, g2]; exact Or.inr ⟨_, _, _, _, _, _, rfl, rfl, by simp [h3, g3]⟩

theorem open_next {m : ℝ} {arc : Int} (i j : Int) (p : Pt) (l : List Pt) : (Offset.emitOpen m arc i p l).map (fun r => r.1.map Prod.fst) =
    (Offset.emitOpen m arc j p l).map fun r => r.1.map Prod.fst := by
  unfold Offset.emitOpen
  split
  · exact lone_next i j p
  · rename_i q k _
    rcases tail_cases (m := m) (arc := arc) k 1 1 i j p q with ⟨h1, h2⟩ | ⟨e, f, i', j', a, b, h1, h2, h3⟩
    · rw [h1, h2]
    · rw [h1, h2, Option.bind_some, Option.bind_some]
      dsimp only
      rcases tail_cases (m := m) (arc := arc) ((p :: l).reverse.drop 2) (-1) (-1) i' j' a b with ⟨g1, g2⟩ | ⟨e1, f1, _, _, _, _, g1, g2, g3⟩
      · rw [g1, g2]; rfl
      · rw [g1, g2]; simp [h3, g3]

/-- The points emitted do not depend on the index of the first point. -/
theorem emitted_next {m : ℝ} {arc : Int} (closed : Bool) (next : Int) (p : Pt) (l : List Pt) :
    (if closed then Offset.emitClosed m arc next p l else Offset.emitOpen m arc next p l).map (fun r => r.1.map Prod.fst) = emitted m arc closed (p :: l) := by
  unfold emitted
  split
  · exact closed_next _ _ _ _
  · exact open_next _ _ _ _

/-- One polygon. -/
theorem add_one (pts : List LP) (tr : List Int) (n : Int) (set : BSet) (pt : Bool) (e : Offset.Emit)
    (h : e.map Prod.fst = [] ∨ (2 ≤ (e.map Prod.fst).length ∧ (e.map Prod.fst).head? ≠ backPt ⟨pts, [], 0⟩ ∧
      ¬ ((e.map Prod.fst).getLast? = (e.map Prod.fst).head? ∧ (e.map Prod.fst).dropLast.getLast? = (e.map Prod.fst).head?))) :
    ∃ tr' n', addLoop ⟨pts, tr, n⟩ set pt e =
      some ⟨if (⟨set, pt, e.map Prod.fst⟩ : Poly).big then pts ++ block pts.length set (clean (e.map Prod.fst)) else pts, tr', n'⟩ := by
  have hcy := cyc_clean e
  have hlen : (cyc e).length = (clean (e.map Prod.fst)).length := by rw [← hcy, List.length_map]
  rcases h with he | ⟨h1, h2, h3⟩
  · have : e = [] := by simpa using he
    subst this
    rw [C25_empty]
    refine ⟨tr, n, ?_⟩
    rw [if_neg]
    unfold Poly.big
    show ¬ 3 ≤ (clean []).length
    decide
  · have hC : PointSink.Clean (backPt ⟨pts, tr, n⟩) e := by
      unfold PointSink.Clean
      rw [← List.getLast?_map, ← List.head?_map, ← List.getLast?_map, List.map_dropLast]
      exact ⟨by rw [List.length_map] at h1; exact h1, h2, h3⟩
    rw [C25_partial _ _ _ _ hC]
    unfold addSpec
    rw [hlen, hcy]
    by_cases q : (⟨set, pt, e.map Prod.fst⟩ : Poly).big
    · rw [if_pos (show 3 ≤ (clean (e.map Prod.fst)).length from q), if_pos q]; exact ⟨_, _, rfl⟩
    · rw [if_neg (show ¬ 3 ≤ (clean (e.map Prod.fst)).length from q), if_neg q]; exact ⟨_, _, rfl⟩

theorem add_all {m : ℝ} {arc : Int} {closed pt : Bool} : ∀ (ls Z : List (List Pt)) (pts : List LP) (tr : List Int) (n : Int),
    List.Forall₂ (fun l z => emitted m arc closed l = some z) ls Z → Fine (backPt ⟨pts, [], 0⟩) (added pt Z) →
    ∃ tr' n', Offset.addOffsets .subject pt m arc closed ls ⟨pts, tr, n⟩ = some ⟨store pts (added pt Z), tr', n'⟩
  | _, _, pts, tr, n, .nil, _ => ⟨tr, n, rfl⟩
  | l :: ls, z :: Z, pts, tr, n, .cons h ht, hf => by
    obtain ⟨hf1, hf2⟩ := hf
    have one : ∃ tr' n', Offset.addOffset ⟨pts, tr, n⟩ .subject pt m arc closed l =
        some ⟨if (⟨.subject, pt, z⟩ : Poly).big then pts ++ block pts.length .subject (clean z) else pts, tr', n'⟩ := by
      cases l with
      | nil =>
        have : z = [] := by simpa [emitted] using h.symm
        subst this
        refine ⟨tr, n, ?_⟩
        rw [if_neg]
        · rfl
        · show ¬ 3 ≤ (clean []).length
          decide
      | cons p l =>
        rw [← emitted_next closed n] at h
        obtain ⟨r, hr, rfl⟩ := Option.map_eq_some_iff.mp h
        obtain ⟨tr', n', ha⟩ := add_one pts tr n .subject pt r.1 hf1
        refine ⟨tr', r.2, ?_⟩
        unfold Offset.addOffset
        dsimp only
        rw [hr, Option.bind_some, ha]
        rfl
    obtain ⟨tr', n', h1⟩ := one
    have hb : backPt ⟨if (⟨.subject, pt, z⟩ : Poly).big then pts ++ block pts.length .subject (clean z) else pts, [], 0⟩ =
        if (⟨.subject, pt, z⟩ : Poly).big then (clean z).getLast? else backPt ⟨pts, [], 0⟩ := by
      by_cases hbig : (⟨.subject, pt, z⟩ : Poly).big
      · rw [if_pos hbig, if_pos hbig]
        refine back_block _ _ ?_ _ _
        intro h
        unfold Poly.big at hbig
        dsimp only at hbig
        rw [h] at hbig; simp at hbig
      · rw [if_neg hbig, if_neg hbig]
    obtain ⟨tr'', n'', h2⟩ := add_all ls Z _ tr' n' ht (by rw [hb]; exact hf2)
    refine ⟨tr'', n'', ?_⟩
    unfold Offset.addOffsets
    rw [h1, Option.bind_some, h2]
    rfl

/-! ### C61 -/

theorem emitted_shadow {m : ℝ} {arc : Int} (ha : 0 < arc) {closed : Bool} {l z : List Pt} (h : emitted m arc closed l = some z)
    (hs : closed = true ∨ Offset.Steps l) : ∃ O, Shadow (|m| + 3 / 4) (sides closed l) z O ∧
      ∀ x y, Exec.wind (edges O) x y = if closed then Exec.wind (edges l) x y else 0 := by
  cases l with
  | nil =>
    have : z = [] := by simpa [emitted] using h.symm
    subst this
    exact ⟨[], Or.inl ⟨rfl, rfl⟩, fun x y => by simp [Exec.wind, edges]⟩
  | cons p l =>
    unfold emitted at h
    obtain ⟨⟨e, i⟩, hr, rfl⟩ := Option.map_eq_some_iff.mp h
    cases closed with
    | true =>
      obtain ⟨O, o1, o2⟩ := closed_shadow ha (show Offset.emitClosed m arc 0 p l = some (e, i) from hr)
      exact ⟨O, o1, fun x y => by rw [o2]; rfl⟩
    | false =>
      have hs : Offset.Steps (p :: l) := hs.resolve_left (by simp)
      obtain ⟨O, o1, o2⟩ := open_shadow ha hs (show Offset.emitOpen m arc 0 p l = some (e, i) from hr)
      exact ⟨O, o1, fun x y => by rw [o2]; rfl⟩

/-- **C61 (one polygon).** Around each place farther than `|m| + 3/4` from the sides of a closed polygon, the polygon that offsetting it by `m` adds
winds as often as the polygon; around each place that far from an open path (without repeated points) it does not wind. -/
theorem C61_emitted {m : ℝ} {arc : Int} (ha : 0 < arc) {closed : Bool} {l z : List Pt} (h : emitted m arc closed l = some z)
    (hs : closed = true ∨ Offset.Steps l) {x y : Rat} (hf : ∀ d ∈ sides closed l, Beyond (|m| + 3 / 4) d x y) :
    wind (edges z) x y = if closed then wind (edges l) x y else 0 := by
  obtain ⟨O, o1, o2⟩ := emitted_shadow ha h hs
  rw [o1.wind hf, o2]

theorem Beyond.mono {R S : ℝ} (h0 : 0 ≤ R) (h : R ≤ S) {d : Pt × Pt} {x y : Rat} (hb : Beyond S d x y) : Beyond R d x y :=
  fun t t0 t1 => lt_of_le_of_lt (pow_le_pow_left₀ h0 h 2) (hb t t0 t1)

theorem FarFrom.mono {c d : Rat} (h : c ≤ d) {e : Pt × Pt} {x y : Rat} (hf : FarFrom d e x y) : FarFrom c e x y :=
  fun u v hon => (hf u v hon).imp h.trans_lt h.trans_lt

theorem forall₂_right {α β : Type} {R : α → β → Prop} : ∀ {l : List α} {k : List β}, List.Forall₂ R l k → ∀ b ∈ k, ∃ a ∈ l, R a b
  | _, _, .nil, b, hb => by simp at hb
  | a :: l, c :: k, .cons h t, b, hb => by
    rcases List.mem_cons.mp hb with rfl | hb
    · exact ⟨a, by simp, h⟩
    · obtain ⟨a', h1, h2⟩ := forall₂_right t b hb
      exact ⟨a', by simp [h1], h2⟩

/-- The winding number of what is added, and how far its sides are. -/
theorem added_far {m : ℝ} {arc : Int} (ha : 0 < arc) {closed pt : Bool} {ls Z : List (List Pt)}
    (hZ : List.Forall₂ (fun l z => emitted m arc closed l = some z) ls Z) (hs : closed = true ∨ ∀ l ∈ ls, Offset.Steps l) {K : Rat} (hK : 0 ≤ K) {x y : Rat}
    (hf : ∀ l ∈ ls, ∀ d ∈ sides closed l, Beyond (|m| + 3 / 4 + 3 / 2 * (K : ℝ)) d x y) :
    Exec.wind (edgesOf (added pt Z) .subject) x y = (if closed then Exec.wind (ls.flatMap edges) x y else 0) ∧ Exec.wind (edgesOf (added pt Z) .clip) x y = 0 ∧
      ∀ e ∈ inEdges (added pt Z), FarFrom K e.2 x y := by
  have hK' : (0 : ℝ) ≤ K := by exact_mod_cast hK
  refine ⟨?_, ?_, fun e he => ?_⟩
  · have e0 : edgesOf (added pt Z) .subject = Z.flatMap edges := by
      unfold edgesOf added
      rw [List.filter_eq_self.mpr (by simp), List.flatMap_map]
    rw [e0]
    clear e0
    induction hZ with
    | nil => simp [Exec.wind]
    | @cons l z ls Z h ht ih =>
      have i1 := ih (hs.imp id fun h k hk => h k (by simp [hk])) fun k hk => hf k (by simp [hk])
      have i2 := C61_emitted ha h (hs.imp id fun h => h l (by simp)) fun d hd => (hf l (by simp) d hd).mono (by positivity) (by linarith)
      rw [List.flatMap_cons, List.flatMap_cons, wind_append, wind_append, i1, i2]
      split <;> rfl
  · have e0 : edgesOf (added pt Z) .clip = [] := by
      unfold edgesOf added
      rw [List.filter_eq_nil_iff.mpr (by simp)]; rfl
    rw [e0]; rfl
  · obtain ⟨q, hq, -, hd⟩ := inEdges_mem he
    obtain ⟨z, hz, rfl⟩ := List.mem_map.mp hq
    obtain ⟨l, hl, hlz⟩ := forall₂_right hZ z hz
    obtain ⟨O, o1, -⟩ := emitted_shadow ha hlz (hs.imp id fun h => h l hl)
    exact o1.side (by positivity) hd hK (hf l hl)

/-- **C61 (exact numbers).** Offsetting polygons by `m` (or open paths without repeated points) returns, if the polygons it adds are stored as intended.
If the sides of these are bent at no more than `K` points each, then around each place farther than `|m| + 3/4 + 3/2 K` from the sides of the polygons
given, the result winds once if these wind a positive number of times, and not at all otherwise; for open paths, it does not wind around it. -/
theorem C61_offset {G : Type} {P : Params G} {r : Nat → Bool × Bool} {pos : Clip → Nat → Nat} {g : G} (hP : P.env1 g = realEnv id r pos)
    (hpos : PosOk (realEnv id r pos)) {m : ℝ} {arc : Int} (ha : 0 < arc) {closed pt : Bool} {ls Z : List (List Pt)}
    (hZ : List.Forall₂ (fun l z => emitted m arc closed l = some z) ls Z) (hs : closed = true ∨ ∀ l ∈ ls, Offset.Steps l) (hf : Fine none (added pt Z)) :
    ∃ B N st out, B.map (fun b => (b.set, b.edge)) = inEdges (added pt Z) ∧
      (∀ fuel ≥ N, Offset.offset P fuel g pt m arc closed false ls = .ok (st, ⟨out, none⟩)) ∧ Result .union B out ∧
      ∀ K : Nat, (∀ b ∈ B, b.via.length ≤ K) → ∀ x y, (∀ l ∈ ls, ∀ d ∈ sides closed l, Beyond (|m| + 3 / 4 + 3 / 2 * K) d x y) →
        wind (out.flatMap edges) x y = if closed = true ∧ 0 < wind (ls.flatMap edges) x y then 1 else 0 := by
  obtain ⟨f, B, h1, h2, h3⟩ := box_pass r pos (added pt Z)
  obtain ⟨tr, n, hadd⟩ := add_all (pt := pt) ls Z [] [] 0 hZ hf
  obtain ⟨N, st, out, e1, e2⟩ := exec_core (P := P) (c := { Clipper.fresh g with pts := store [] (added pt Z), nextOrig := n }) hP hpos rfl rfl rfl rfl
    (good_store _ good_nil) h1 .union (tr.map .added)
  refine ⟨B, N, st, out, h2, fun fuel hN => ?_, e2, fun K hK x y hxy => ?_⟩
  · unfold Offset.offset
    rw [hadd]
    exact e1 fuel hN
  · obtain ⟨k1, k2, k3⟩ := added_far (pt := pt) ha hZ hs (K := K) (by positivity) (x := x) (y := y) (by push_cast; exact hxy)
    rw [e2.straight h2 fun b hb => ?_, k1, k2]
    · unfold region
      cases closed <;> simp
    · have hle : ((b.via.length : Nat) : Rat) ≤ K := by exact_mod_cast hK b hb
      refine bent_far (by positivity) (fun p hp => (h1.near b hb p hp).mono hle) (k3 (b.set, b.edge) ?_)
      rw [← h2]; exact List.mem_map.mpr ⟨b, hb, rfl⟩

/-- **C61 (doubles).** As above with the crossings computed with doubles, for polygons that stay in a square with side 90000. (The shifted points are those
of exact numbers.) -/
theorem C61_double (g : Nat → Bool × Bool) (o : Pt) {m : ℝ} {arc : Int} (ha : 0 < arc) {closed pt : Bool} {ls Z : List (List Pt)}
    (hZ : List.Forall₂ (fun l z => emitted m arc closed l = some z) ls Z) (hs : closed = true ∨ ∀ l ∈ ls, Offset.Steps l) (hf : Fine none (added pt Z))
    (hsq : ∀ z ∈ Z, ∀ v ∈ z, InSq o 90000 v) (fuel : Nat) :
    ∃ B : List Bent, B.map (fun b => (b.set, b.edge)) = inEdges (added pt Z) ∧ (Offset.offset libDouble fuel g pt m arc closed false ls = .fuel ∨
      ∃ st out, Offset.offset libDouble fuel g pt m arc closed false ls = .ok (st, ⟨out, none⟩) ∧ Shape .union B out ∧
      ∀ K : Nat, (∀ b ∈ B, b.via.length ≤ K) → ∀ x y, (∀ l ∈ ls, ∀ d ∈ sides closed l, Beyond (|m| + 3 / 4 + 9 / 4 * K) d x y) →
        wind (out.flatMap edges) x y = if closed = true ∧ 0 < wind (ls.flatMap edges) x y then 1 else 0) := by
  obtain ⟨B, b1, b2, b3⟩ := near_exec (P := libDouble) (c := Clipper.fresh g) dbl_arith rfl (takeWhile_posOk dbl g) (fresh_empty g) (o := o) (ps := added pt Z)
    (by intro p hp; obtain ⟨z, hz, rfl⟩ := List.mem_map.mp hp; exact hsq z hz)
  obtain ⟨tr, n, hadd⟩ := add_all (pt := pt) ls Z [] [] 0 hZ hf
  refine ⟨B, b1, ?_⟩
  have e : Offset.offset libDouble fuel g pt m arc closed false ls =
      Clipper.execute libDouble fuel .union false ({ Clipper.fresh g with pts := store [] (added pt Z), nextOrig := n }, tr.map .added) := by
    unfold Offset.offset
    rw [hadd]; rfl
  rw [e]
  rcases b3 .union n (tr.map .added) fuel with h | ⟨st, out, h, hsh⟩ <;> rw [h]
  · exact Or.inl rfl
  · refine Or.inr ⟨st, out, rfl, hsh, fun K hK x y hxy => ?_⟩
    obtain ⟨k1, k2, k3⟩ := added_far (pt := pt) ha hZ hs (K := K * (3 / 2)) (by positivity) (x := x) (y := y)
      (fun l hl d hd => by have := hxy l hl d hd; push_cast; convert this using 1; ring)
    rw [hsh.straight b1 fun b hb => ?_, k1, k2]
    · unfold region
      cases closed <;> simp
    · have hle : ((b.via.length : Nat) : Rat) * (3 / 2) ≤ K * (3 / 2) := by
        have : ((b.via.length : Nat) : Rat) ≤ K := by exact_mod_cast hK b hb
        linarith
      refine bent_far (by positivity) (fun p hp => (b2 b hb p hp).2.2.mono hle) (k3 (b.set, b.edge) ?_)
      rw [← b1]; exact List.mem_map.mpr ⟨b, hb, rfl⟩

/-! ### A case -/

theorem lround_whole (n : Int) : Offset.lround (n : ℝ) = n := by
  have := Offset.lround_near (n : ℝ)
  rw [abs_le] at this
  have h1 : ((Offset.lround (n : ℝ) : Int) : ℝ) < ((n + 1 : Int) : ℝ) := by push_cast; linarith
  have h2 : ((n - 1 : Int) : ℝ) < ((Offset.lround (n : ℝ) : Int) : ℝ) := by push_cast; linarith
  have h1 := Int.cast_lt.mp h1
  have h2 := Int.cast_lt.mp h2
  omega

/-- A corner that a negative offset does not open. -/
theorem inset_corner {D k : Int} (hD : 0 < D) (o1 o2 : Int) {p q r : Pt} {a b : Int} (ha : q.x - p.x = a * D) (hb : q.y - p.y = b * D) (hab : a * a + b * b = 1)
    (hk : 0 < k) (hw : 0 < triangleWinding p q r) {arc : Int} (hp : 0 < arc) :
    Offset.addOffsetPoint (-(k : ℝ)) arc o1 o2 p q r = some [(⟨p.x - b * k, p.y + a * k⟩, o1), (⟨q.x - b * k, q.y + a * k⟩, o2)] := by
  have hk' : (0 : ℝ) < k := by exact_mod_cast hk
  have hD' : (0 : ℝ) < D := by exact_mod_cast hD
  have n1 : p ≠ q := by rintro rfl; unfold triangleWinding at hw; simp at hw
  have n2 : q ≠ r := by rintro rfl; unfold triangleWinding at hw; ring_nf at hw; omega
  have hv : Offset.perpVector p q (-(k : ℝ)) = (((-(b * k) : Int) : ℝ), ((a * k : Int) : ℝ)) := by
    have e1 : (q.x : ℝ) - p.x = a * D := by exact_mod_cast ha
    have e2 : (q.y : ℝ) - p.y = b * D := by exact_mod_cast hb
    have hm : Offset.vmag (Offset.vec p q) = D := by
      unfold Offset.vmag Offset.vec
      dsimp only
      rw [e1, e2, show (a : ℝ) * D * (a * D) + b * D * (b * D) = (a * a + b * b : Int) * (D * D) by push_cast; ring, hab]
      rw [Int.cast_one, one_mul, Real.sqrt_mul_self hD'.le]
    rw [Offset.perpVector_eq, hm]
    unfold Offset.vec
    dsimp only
    rw [e1, e2]
    push_cast
    congr 1 <;> field_simp
  have harc : Offset.arcPts (-(k : ℝ)) arc p q r = [] := by
    refine (Offset.arc_spec hp n1 n2).2 ?_
    have h0 : (0 : ℝ) < Offset.cross (Offset.vec p q) (Offset.vec q r) := by rw [← Offset.winding_cross]; exact_mod_cast hw
    rintro (h | h)
    · nlinarith
    · exact h0.ne' h.1
  unfold Offset.addOffsetPoint
  rw [if_neg (by tauto)]
  dsimp only
  rw [hv, harc]
  unfold Offset.addRound
  dsimp only
  rw [lround_whole, lround_whole]
  simp [sub_eq_add_neg]

/-- A square. -/
def inSquare : List Pt := [⟨0, 0⟩, ⟨100, 0⟩, ⟨100, 100⟩, ⟨0, 100⟩]

/-- What an inset by 5 adds. -/
def inZ : List Pt := [⟨0, 5⟩, ⟨100, 5⟩, ⟨95, 0⟩, ⟨95, 100⟩, ⟨100, 95⟩, ⟨0, 95⟩, ⟨5, 100⟩, ⟨5, 0⟩]

theorem inSquare_emitted : emitted (-5) 10 true inSquare = some inZ := by
  have a1 := inset_corner (D := 100) (k := 5) (by norm_num) 0 1 (p := ⟨0, 0⟩) (q := ⟨100, 0⟩) (r := ⟨100, 100⟩) (a := 1) (b := 0) (by norm_num) (by norm_num) (by norm_num) (by norm_num) (by decide) (arc := 10) (by norm_num)
  have a2 := inset_corner (D := 100) (k := 5) (by norm_num) 1 2 (p := ⟨100, 0⟩) (q := ⟨100, 100⟩) (r := ⟨0, 100⟩) (a := 0) (b := 1) (by norm_num) (by norm_num) (by norm_num) (by norm_num) (by decide) (arc := 10) (by norm_num)
  have a3 := inset_corner (D := 100) (k := 5) (by norm_num) 2 3 (p := ⟨100, 100⟩) (q := ⟨0, 100⟩) (r := ⟨0, 0⟩) (a := -1) (b := 0) (by norm_num) (by norm_num) (by norm_num) (by norm_num) (by decide) (arc := 10) (by norm_num)
  have a4 := inset_corner (D := 100) (k := 5) (by norm_num) 3 0 (p := ⟨0, 100⟩) (q := ⟨0, 0⟩) (r := ⟨100, 0⟩) (a := 0) (b := -1) (by norm_num) (by norm_num) (by norm_num) (by norm_num) (by decide) (arc := 10) (by norm_num)
  norm_num at a1 a2 a3 a4
  unfold emitted inSquare Offset.emitClosed
  simp [Offset.walk, a1, a2, a3, a4, inZ]

/-- The middle of the square and a place outside are farther than 43 from its sides. -/
theorem inSquare_far {R : ℝ} (h0 : 0 ≤ R) (hR : R ≤ 44) : (∀ d ∈ sides true inSquare, Beyond R d 50 50) ∧ ∀ d ∈ sides true inSquare, Beyond R d (-100) 50 := by
  have hR2 : R ^ 2 ≤ 44 ^ 2 := pow_le_pow_left₀ h0 hR 2
  constructor <;> intro d hd t t0 t1 <;> simp only [sides, inSquare, edges, walk, List.cons_append, List.nil_append, List.mem_cons, List.not_mem_nil, or_false, if_true] at hd <;>
    rcases hd with rfl | rfl | rfl | rfl <;> push_cast <;> nlinarith [sq_nonneg (50 - t * 100), sq_nonneg (50 - (100 - t * 100)), mul_nonneg t0 (sub_nonneg.mpr t1)]

/-- Insetting the square by 5 keeps its middle, and adds nothing outside, unless a side is bent more than 25 times. -/
example (g : Nat → Bool × Bool) : ∃ (B : List Bent) (N : Nat) (st : Clipper (Nat → Bool × Bool) × List TCall) (out : List (List Pt)),
    (∀ fuel ≥ N, Offset.offset lib fuel g false (-5) 10 true false [inSquare] = .ok (st, ⟨out, none⟩)) ∧
    ((∀ b ∈ B, b.via.length ≤ 25) → wind (out.flatMap edges) 50 50 = 1 ∧ wind (out.flatMap edges) (-100) 50 = 0) := by
  obtain ⟨B, N, st, out, -, h2, -, h4⟩ := C61_offset (P := lib) (g := g) rfl (takeWhile_posOk id g) (m := -5) (arc := 10) (by norm_num) (closed := true) (pt := false)
    (ls := [inSquare]) (Z := [inZ]) (.cons inSquare_emitted .nil) (Or.inl rfl) (by decide +kernel)
  refine ⟨B, N, st, out, h2, fun hK => ⟨?_, ?_⟩⟩
  · rw [h4 25 hK 50 50]
    · decide +kernel
    · intro l hl; rw [List.mem_singleton.mp hl]; exact (inSquare_far (by positivity) (by norm_num)).1
  · rw [h4 25 hK (-100) 50]
    · decide +kernel
    · intro l hl; rw [List.mem_singleton.mp hl]; exact (inSquare_far (by positivity) (by norm_num)).2

end PolyOps.Exec
