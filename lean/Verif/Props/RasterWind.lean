import Verif.Props.Raster
import Mathlib.Data.List.Rotate
import Mathlib.Data.List.Induction
import Mathlib.Algebra.Order.BigOperators.Group.List
/-! C40, C41: the crossings of a row against the winding number of the loops that were added.

Specification: a directed line from `p` to `p'` crosses row `y` downwards when `p.y <= y < p'.y` and upwards when
`p'.y <= y < p.y`; `xAt` is where. The winding number of a loop around a place is the number of downward crossings beyond
it less the number of upward ones, over the consecutive pairs of points with the last and the first (`cycSum`). -/
namespace PolyOps.Raster
open PolyOps.Events

/-- Where the line through two points is at height `y`. -/
def xAt (p p' : Pt) (y : Int) : ℚ := p.x + (p'.x - p.x) * (y - p.y) / (p'.y - p.y)

/-- What a directed line contributes: downward crossings count +1, upward ones -1, those at a place not in `φ` count 0. -/
def crossSign (φ : ℚ → Bool) (y : Int) (p p' : Pt) : Int :=
  if p.y ≤ y ∧ y < p'.y then (if φ (xAt p p' y) then 1 else 0)
  else if p'.y ≤ y ∧ y < p.y then (if φ (xAt p' p y) then -1 else 0) else 0

/-- Sum over the sides of a closed loop. -/
def cycSum (F : Pt → Pt → Int) (loop : List Pt) : Int := (List.zipWith F loop (loop.rotate 1)).sum

/-- Winding number of loops around the place `q` of row `y`, counting crossings to the right. -/
def winding (loops : List (List Pt)) (y : Int) (q : ℚ) : Int :=
  (loops.map (cycSum (crossSign (fun x => decide (q < x)) y))).sum

/-! ### Loops as stored -/

/-- Sum over the sides of an open line. -/
def pathSum (F : Pt → Pt → Int) : List Pt → Int
  | [] => 0
  | [_] => 0
  | p :: q :: r => F p q + pathSum F (q :: r)

theorem pathSum_snoc (F : Pt → Pt → Int) (l : List Pt) (x p : Pt) : pathSum F (l ++ [x, p]) = pathSum F (l ++ [x]) + F x p := by
  induction l with
  | nil => simp [pathSum]
  | cons a l ih =>
    cases l with
    | nil => simp [pathSum]
    | cons b l =>
      simp only [List.cons_append, pathSum] at ih ⊢
      rw [ih]; omega

theorem pathSum_zip (F : Pt → Pt → Int) : ∀ (ps : List Pt) (p z : Pt),
    (List.zipWith F (p :: ps) (ps ++ [z])).sum = pathSum F (p :: ps) + F ((p :: ps).getLastD default) z := by
  intro ps
  induction ps with
  | nil => intro p z; simp [pathSum]
  | cons q r ih =>
    intro p z
    rw [List.cons_append, List.zipWith_cons_cons, List.sum_cons, ih q z]
    simp only [pathSum, List.getLastD_cons]
    omega

theorem cycSum_cons (F : Pt → Pt → Int) (p : Pt) (ps : List Pt) :
    cycSum F (p :: ps) = pathSum F (p :: ps) + F ((p :: ps).getLastD default) p := by
  unfold cycSum
  rw [List.rotate_cons_succ, List.rotate_zero]
  exact pathSum_zip F ps p p

/-- The points of an unfinished loop stored from index `b`. -/
def chain (b : Nat) : List Pt → LPts
  | [] => []
  | p :: ps => (p, b + 1) :: chain (b + 1) ps

theorem chain_snoc (b : Nat) (ps : List Pt) (p : Pt) : chain b (ps ++ [p]) = chain b ps ++ [(p, b + ps.length + 1)] := by
  induction ps generalizing b with
  | nil => simp [chain]
  | cons a ps ih => simp only [List.cons_append, chain, ih, List.length_cons]; rw [show b + 1 + ps.length + 1 = b + (ps.length + 1) + 1 by omega]

theorem chain_length (b : Nat) (ps : List Pt) : (chain b ps).length = ps.length := by
  induction ps generalizing b with
  | nil => rfl
  | cons a ps ih => simp [chain, ih]

theorem chain_map (b : Nat) (ps : List Pt) : (chain b ps).map Prod.fst = ps := by
  induction ps generalizing b with
  | nil => rfl
  | cons a ps ih => simp [chain, ih]

theorem chain_get (b : Nat) (ps : List Pt) (i : Nat) (h : i < ps.length) :
    (chain b ps)[i]? = some (ps[i], b + i + 1) := by
  induction ps generalizing b i with
  | nil => simp at h
  | cons a ps ih =>
    cases i with
    | zero => simp [chain]
    | succ i =>
      simp only [chain, List.getElem?_cons_succ, List.getElem_cons_succ]
      rw [ih (b + 1) i (by simpa using h)]
      rw [show b + 1 + i + 1 = b + (i + 1) + 1 by omega]

/-- A finished loop stored from index `b`. -/
def ring (b : Nat) (ps : List Pt) : LPts := (chain b ps).dropLast ++ [(ps.getLastD default, b)]

/-- The state of the sink after `p0 :: rest`. -/
def SinkInv (F : Pt → Pt → Int) (base : LPts) (p0 : Pt) (rest : List Pt) (s : LPts × Option (Pt × Nat)) : Prop :=
  ∃ (ds : List Pt) (last : Pt), s = (base ++ chain base.length (ds ++ [last]), some ((p0 :: rest).getLastD default, base.length)) ∧
    (ds ++ [last]).head? = some p0 ∧
    pathSum F (p0 :: rest) = pathSum F (ds ++ [last]) + F last ((p0 :: rest).getLastD default)

theorem base_last (base : LPts) (ds : List Pt) (last : Pt) :
    ((base ++ chain base.length (ds ++ [last])).getLastD default).1 = last := by
  rw [chain_snoc, ← List.append_assoc]
  simp [List.getLastD_eq_getLast?]

theorem base_first (base : LPts) (ds : List Pt) (p0 : Pt) (h : ds.head? = some p0) :
    ((base ++ chain base.length ds).getD base.length default).1 = p0 := by
  cases ds with
  | nil => simp at h
  | cons a ds =>
    simp only [List.head?_cons, Option.some.injEq] at h
    subst h
    simp [chain]

theorem sink_inv (F : Pt → Pt → Int) (hF : ∀ p, F p p = 0) (base : LPts) (p0 : Pt) (rest : List Pt) :
    SinkInv F base p0 rest ((p0 :: rest).foldl sinkStep (base, none)) := by
  induction rest using List.reverseRecOn with
  | nil => exact ⟨[], p0, by simp [sinkStep, chain], rfl, by simp [pathSum, hF]⟩
  | append_singleton rest p ih =>
    obtain ⟨ds, last, h1, h2, h3⟩ := ih
    have hf : (p0 :: (rest ++ [p])).foldl sinkStep (base, none) = sinkStep ((p0 :: rest).foldl sinkStep (base, none)) p := by
      rw [← List.cons_append, List.foldl_append]; rfl
    have hl : (p0 :: (rest ++ [p])).getLastD default = p := by
      rw [← List.cons_append, List.getLastD_eq_getLast?, List.getLast?_append]; simp
    obtain ⟨r, x, hrx⟩ : ∃ r x, p0 :: rest = r ++ [x] := ⟨(p0 :: rest).dropLast, (p0 :: rest).getLast (by simp), (List.dropLast_concat_getLast (by simp)).symm⟩
    have hx : (p0 :: rest).getLastD default = x := by rw [hrx, List.getLastD_eq_getLast?, List.getLast?_append]; simp
    have hp : pathSum F (p0 :: (rest ++ [p])) = pathSum F (p0 :: rest) + F x p := by
      rw [← List.cons_append, hrx, List.append_assoc]; exact pathSum_snoc F r x p
    unfold SinkInv
    rw [hf, h1, hl, hp, h3, hx]
    simp only [sinkStep, base_last]
    by_cases hc : x = last
    · rw [if_pos hc]
      refine ⟨ds, last, rfl, h2, ?_⟩
      rw [hc, hF]; omega
    · rw [if_neg hc]
      refine ⟨ds ++ [last], x, ?_, ?_, ?_⟩
      · rw [chain_snoc base.length (ds ++ [last]), ← List.append_assoc]
        simp only [List.length_append, chain_length, List.length_singleton]
      · rw [List.head?_append, h2]; rfl
      · rw [List.append_assoc, List.singleton_append, pathSum_snoc]

/-- Adding a loop appends nothing or a ring of at least three points with the same sides up to lines of length zero and
lines that go back over the one before. -/
theorem addLoop_shape (F : Pt → Pt → Int) (hF0 : ∀ p, F p p = 0) (base : LPts) (loop : List Pt) :
    (addLoop base loop = base ∧ ((∀ p q, F p q = - F q p) → cycSum F loop = 0)) ∨
    ∃ ps, 3 ≤ ps.length ∧ addLoop base loop = base ++ ring base.length ps ∧ cycSum F loop = cycSum F ps := by
  cases loop with
  | nil => exact Or.inl ⟨rfl, fun _ => rfl⟩
  | cons p0 rest =>
    obtain ⟨ds, last, h1, h2, h3⟩ := sink_inv F hF0 base p0 rest
    unfold addLoop
    rw [h1]
    simp only [sinkEnd, base_last, base_first base _ p0 h2]
    generalize hx : (p0 :: rest).getLastD default = x at h3
    have hcyc : cycSum F (p0 :: rest) = pathSum F (ds ++ [last]) + F last x + F x p0 := by
      rw [cycSum_cons, h3, hx]
    obtain ⟨es, hes⟩ : ∃ es, es = if x ≠ last ∧ x ≠ p0 then ds ++ [last] ++ [x] else ds ++ [last] := ⟨_, rfl⟩
    have hhead : es.head? = some p0 := by
      rw [hes]; split
      · rw [List.head?_append, h2]; rfl
      · exact h2
    have hst : (if x ≠ last ∧ x ≠ p0 then base ++ chain base.length (ds ++ [last]) ++ [(x, 0)]
        else base ++ chain base.length (ds ++ [last])).length = base.length + es.length := by
      rw [hes]; split <;> simp [chain_length]
    obtain ⟨es', z, hz⟩ : ∃ es' z, es = es' ++ [z] := by
      cases es with
      | nil => simp at hhead
      | cons a b => exact ⟨_, _, (List.dropLast_concat_getLast (by simp)).symm⟩
    have hdl : (if x ≠ last ∧ x ≠ p0 then base ++ chain base.length (ds ++ [last]) ++ [(x, 0)]
        else base ++ chain base.length (ds ++ [last])).dropLast = base ++ chain base.length es' := by
      by_cases hc : x ≠ last ∧ x ≠ p0
      · rw [if_pos hc] at hes ⊢
        rw [hes] at hz
        have := List.append_inj_left' hz rfl
        rw [List.dropLast_concat, this]
      · rw [if_neg hc] at hes ⊢
        rw [hes] at hz
        have := List.append_inj_left' hz rfl
        rw [chain_snoc, ← List.append_assoc, List.dropLast_concat, this]
    have hlast : ((if x ≠ last ∧ x ≠ p0 then base ++ chain base.length (ds ++ [last]) ++ [(x, 0)]
        else base ++ chain base.length (ds ++ [last])).getLastD default).1 = z := by
      by_cases hc : x ≠ last ∧ x ≠ p0
      · rw [if_pos hc] at hes ⊢
        rw [hes] at hz
        have := List.append_inj_right' hz rfl
        simp only [List.cons.injEq, and_true] at this
        rw [List.getLastD_eq_getLast?, List.getLast?_append]
        simp [this]
      · rw [if_neg hc] at hes ⊢
        rw [hes] at hz
        have := List.append_inj_right' hz rfl
        simp only [List.cons.injEq, and_true] at this
        rw [base_last, this]
    have htk : (if x ≠ last ∧ x ≠ p0 then base ++ chain base.length (ds ++ [last]) ++ [(x, 0)]
        else base ++ chain base.length (ds ++ [last])).take base.length = base := by
      split
      · rw [List.append_assoc]; simp
      · simp
    have hcs : cycSum F (p0 :: rest) = cycSum F es := by
      obtain ⟨tl, htl⟩ : ∃ tl, ds ++ [last] = p0 :: tl := by
        cases hh : ds ++ [last] with
        | nil => simp at hh
        | cons a tl => rw [hh] at h2; simp only [List.head?_cons, Option.some.injEq] at h2; exact ⟨tl, by rw [h2]⟩
      rw [hcyc]
      by_cases hc : x ≠ last ∧ x ≠ p0
      · rw [if_pos hc] at hes
        rw [hes, htl, List.cons_append, cycSum_cons, ← List.cons_append, ← htl, List.append_assoc, List.singleton_append,
          pathSum_snoc]
        rw [List.getLastD_eq_getLast?, show ds ++ [last, x] = (ds ++ [last]) ++ [x] by simp, List.getLast?_append]
        simp
      · rw [if_neg hc] at hes
        rw [hes, htl, cycSum_cons, ← htl]
        have : (ds ++ [last]).getLastD default = last := by rw [List.getLastD_eq_getLast?, List.getLast?_append]; simp
        rw [this]
        by_cases hxl : x = last
        · rw [hxl, hF0]; omega
        · have : x = p0 := by by_contra hn; exact hc ⟨hxl, hn⟩
          rw [this, hF0]; omega
    rw [hst]
    by_cases hlen : base.length + es.length - base.length < 3
    · rw [if_pos hlen, htk]
      refine Or.inl ⟨rfl, fun hF => ?_⟩
      rw [hcs]
      match es, hhead, (show es.length < 3 by omega) with
      | [a], _, _ => rw [cycSum_cons]; simp [pathSum, hF0]
      | [a, b], _, _ => rw [cycSum_cons]; simp only [pathSum, List.getLastD_cons, List.getLastD_nil]; have := hF a b; omega
    · rw [if_neg hlen, hdl, hlast]
      refine Or.inr ⟨es, by omega, ?_, hcs⟩
      unfold ring
      rw [hz, chain_snoc, List.dropLast_concat, List.append_assoc]
      congr 2
      rw [List.getLastD_eq_getLast?, List.getLast?_append]; simp

/-- The links of the stored points: every point is linked to another stored point, not straight back. -/
def StoreOk (l : LPts) : Prop :=
  ∀ i < l.length, (l.getD i default).2 < l.length ∧ (l.getD (l.getD i default).2 default).2 ≠ i

/-- Sum over the stored lines. -/
def storeSum (F : Pt → Pt → Int) (l : LPts) : Int := (l.map fun e => F e.1 (l.getD e.2 default).1).sum

theorem ring_length (b : Nat) (ps : List Pt) (h : 0 < ps.length) : (ring b ps).length = ps.length := by
  unfold ring; simp [chain_length]; omega

theorem ring_get (b : Nat) (ps : List Pt) (i : Nat) (h : i < ps.length) :
    (ring b ps)[i]? = some (ps[i], if i + 1 < ps.length then b + i + 1 else b) := by
  unfold ring
  by_cases hi : i + 1 < ps.length
  · rw [if_pos hi, List.getElem?_append_left (by simp [chain_length]; omega), List.getElem?_dropLast,
      if_pos (by rw [chain_length]; omega), chain_get b ps i h]
  · rw [if_neg hi, List.getElem?_append_right (by simp [chain_length]; omega)]
    have : i - (chain b ps).dropLast.length = 0 := by simp [chain_length]; omega
    rw [this]
    simp only [List.getElem?_cons_zero, Option.some.injEq, Prod.mk.injEq, and_true]
    rw [List.getLastD_eq_getLast?, List.getLast?_eq_getElem?, List.getElem?_eq_getElem (by omega), Option.getD_some]
    congr 1; omega

theorem append_getD (base r : LPts) (i : Nat) :
    (i < base.length → (base ++ r).getD i default = base.getD i default) ∧
    (∀ j, (base ++ r).getD (base.length + j) default = r.getD j default) := by
  constructor
  · intro h
    rw [List.getD_eq_getElem?_getD, List.getD_eq_getElem?_getD, List.getElem?_append_left h]
  · intro j
    rw [List.getD_eq_getElem?_getD, List.getD_eq_getElem?_getD, List.getElem?_append_right (by omega)]
    congr 2; omega

theorem storeOk_ring (base : LPts) (h : StoreOk base) (ps : List Pt) (h3 : 3 ≤ ps.length) : StoreOk (base ++ ring base.length ps) := by
  have hlen : (base ++ ring base.length ps).length = base.length + ps.length := by
    rw [List.length_append, ring_length _ _ (by omega)]
  have hget : ∀ j < ps.length, ((base ++ ring base.length ps).getD (base.length + j) default).2 =
      if j + 1 < ps.length then base.length + (j + 1) else base.length + 0 := by
    intro j hj
    rw [(append_getD base _ 0).2 j, List.getD_eq_getElem?_getD, ring_get _ _ _ hj, Option.getD_some]
    simp only
    split <;> omega
  intro i hi
  rw [hlen] at hi ⊢
  by_cases hb : i < base.length
  · rw [(append_getD base _ i).1 hb]
    obtain ⟨h1, h2⟩ := h i hb
    rw [(append_getD base _ _).1 h1]
    exact ⟨by omega, h2⟩
  · obtain ⟨j, rfl⟩ : ∃ j, i = base.length + j := ⟨i - base.length, by omega⟩
    rw [hget j (by omega)]
    split
    · rename_i hj
      rw [hget (j + 1) hj]
      refine ⟨by omega, ?_⟩
      split <;> omega
    · rename_i hj
      rw [hget 0 (by omega)]
      refine ⟨by omega, ?_⟩
      split <;> omega

theorem storeSum_ring (F : Pt → Pt → Int) (base : LPts) (h : StoreOk base) (ps : List Pt) (h3 : 3 ≤ ps.length) :
    storeSum F (base ++ ring base.length ps) = storeSum F base + cycSum F ps := by
  unfold storeSum
  rw [List.map_append, List.sum_append]
  congr 1
  · congr 1
    apply List.map_congr_left
    intro e he
    obtain ⟨i, hi, rfl⟩ := List.mem_iff_getElem.mp he
    have := (h i hi).1
    rw [List.getD_eq_getElem?_getD, List.getElem?_eq_getElem hi, Option.getD_some] at this
    rw [(append_getD base _ _).1 this]
  · unfold cycSum
    congr 1
    apply List.ext_getElem
    · simp [ring_length _ _ (show 0 < ps.length by omega)]
    · intro i h1 h2
      rw [List.length_map, ring_length _ _ (by omega)] at h1
      have hr := ring_get base.length ps i h1
      obtain ⟨hlt, hr⟩ := List.getElem?_eq_some_iff.mp hr
      rw [List.getElem_map, List.getElem_zipWith, hr, List.getElem_rotate]
      simp only
      congr 1
      by_cases hi : i + 1 < ps.length
      · rw [if_pos hi, show base.length + i + 1 = base.length + (i + 1) by omega, (append_getD base _ 0).2,
          List.getD_eq_getElem?_getD, ring_get _ _ _ hi, Option.getD_some]
        simp only [Nat.mod_eq_of_lt hi]
      · rw [if_neg hi]
        have := (append_getD base (ring base.length ps) 0).2 0
        rw [Nat.add_zero] at this
        rw [this, List.getD_eq_getElem?_getD, ring_get _ _ 0 (by omega), Option.getD_some]
        have : (i + 1) % ps.length = 0 := by rw [show i + 1 = ps.length by omega, Nat.mod_self]
        simp only [this]

/-- C40: what is stored of the loops: the links are sound and any quantity summed over directed lines that changes sign with
the direction is that of the loops. -/
theorem C40_store (F : Pt → Pt → Int) (hF : ∀ p q, F p q = - F q p) (loops : List (List Pt)) :
    StoreOk (addLoops loops) ∧ storeSum F (addLoops loops) = (loops.map (cycSum F)).sum := by
  unfold addLoops
  have gen : ∀ (loops : List (List Pt)) (base : LPts), StoreOk base → StoreOk (loops.foldl addLoop base) ∧
      storeSum F (loops.foldl addLoop base) = storeSum F base + (loops.map (cycSum F)).sum := by
    intro loops
    induction loops with
    | nil => intro base h; exact ⟨h, by simp⟩
    | cons p ps ih =>
      intro base h
      rw [List.foldl_cons]
      rcases addLoop_shape F (fun p => by have := hF p p; omega) base p with ⟨h1, h2⟩ | ⟨qs, h3, h1, h2⟩
      · rw [h1]
        obtain ⟨a, b⟩ := ih base h
        refine ⟨a, ?_⟩
        rw [b, List.map_cons, List.sum_cons, h2 hF]; omega
      · rw [h1]
        obtain ⟨a, b⟩ := ih _ (storeOk_ring base h qs h3)
        refine ⟨a, ?_⟩
        rw [b, storeSum_ring F base h qs h3, List.map_cons, List.sum_cons, h2]; omega
  obtain ⟨a, b⟩ := gen loops [] (by intro i hi; simp at hi)
  exact ⟨a, by rw [b]; simp [storeSum]⟩

/-- The directed sides of closed loops. -/
def loopSides (loops : List (List Pt)) : List (Pt × Pt) := loops.flatMap fun loop => loop.zip (loop.rotate 1)

/-- C40: every stored line between different points is a side of a loop given. -/
theorem C40_sides (loops : List (List Pt)) : ∀ e ∈ addLoops loops, e.1 ≠ ((addLoops loops).getD e.2 default).1 →
    (e.1, ((addLoops loops).getD e.2 default).1) ∈ loopSides loops := by
  intro e he hne
  generalize hv : ((addLoops loops).getD e.2 default).1 = v at hne ⊢
  let F : Pt → Pt → Int := fun p q => if p = e.1 ∧ q = v then 1 else 0
  have hF0 : ∀ p, F p p = 0 := by
    intro p
    show (if p = e.1 ∧ p = v then (1 : Int) else 0) = 0
    rw [if_neg]
    rintro ⟨rfl, h⟩
    exact hne h
  have hFn : ∀ p q, 0 ≤ F p q := by
    intro p q
    show 0 ≤ (if p = e.1 ∧ q = v then (1 : Int) else 0)
    split <;> omega
  have hcn : ∀ loop, 0 ≤ cycSum F loop := by
    intro loop
    unfold cycSum
    apply List.sum_nonneg
    intro x hx
    rw [← List.map_uncurry_zip_eq_zipWith] at hx
    obtain ⟨⟨a, b⟩, _, rfl⟩ := List.mem_map.mp hx
    exact hFn a b
  have gen : ∀ (loops : List (List Pt)) (base : LPts), StoreOk base → 
      storeSum F (loops.foldl addLoop base) ≤ storeSum F base + (loops.map (cycSum F)).sum := by
    intro loops
    induction loops with
    | nil => intro base h; simp
    | cons p ps ih =>
      intro base h
      rw [List.foldl_cons]
      rcases addLoop_shape F hF0 base p with ⟨h1, _⟩ | ⟨qs, h3, h1, h2⟩
      · rw [h1, List.map_cons, List.sum_cons]
        have := ih base h
        have := hcn p
        omega
      · rw [h1]
        have := ih _ (storeOk_ring base h qs h3)
        rw [storeSum_ring F base h qs h3] at this
        rw [List.map_cons, List.sum_cons, h2]; omega
  have h1 := gen loops [] (by intro i hi; simp at hi)
  have h2 : 1 ≤ storeSum F (addLoops loops) := by
    unfold storeSum
    refine le_trans ?_ (List.single_le_sum (l := (addLoops loops).map fun e => F e.1 ((addLoops loops).getD e.2 default).1) ?_ _
      (List.mem_map.mpr ⟨e, he, rfl⟩))
    · show (1 : Int) ≤ if _ then 1 else 0
      rw [if_pos ⟨rfl, hv⟩]
    · intro x hx
      obtain ⟨e', _, rfl⟩ := List.mem_map.mp hx
      exact hFn _ _
  have h3 : (loops.map (cycSum F)).sum ≠ 0 := by
    have h0 : storeSum F [] = 0 := rfl
    have h1' : storeSum F (addLoops loops) ≤ storeSum F [] + (loops.map (cycSum F)).sum := h1
    omega
  by_contra hno
  apply h3
  apply List.sum_eq_zero
  intro x hx
  obtain ⟨loop, hl, rfl⟩ := List.mem_map.mp hx
  unfold cycSum
  apply List.sum_eq_zero
  intro z hz
  rw [← List.map_uncurry_zip_eq_zipWith] at hz
  obtain ⟨⟨a, b⟩, hab, rfl⟩ := List.mem_map.mp hz
  show (if a = e.1 ∧ b = v then (1 : Int) else 0) = 0
  rw [if_neg]
  rintro ⟨rfl, rfl⟩
  exact hno (List.mem_flatMap.mpr ⟨loop, hl, hab⟩)

/-! ### The crossings of a row -/

theorem crossSign_anti (φ : ℚ → Bool) (y : Int) (p q : Pt) : crossSign φ y p q = - crossSign φ y q p := by
  unfold crossSign
  by_cases h1 : p.y ≤ y ∧ y < q.y
  · have h2 : ¬ (q.y ≤ y ∧ y < p.y) := by omega
    rw [if_pos h1, if_neg h2, if_pos h1]; split <;> simp
  · by_cases h2 : q.y ≤ y ∧ y < p.y
    · rw [if_neg h1, if_pos h2, if_pos h2]; split <;> simp
    · rw [if_neg h1, if_neg h2, if_neg h2, if_neg h1]; simp

theorem xIntercept_val (p p' : Pt) (y : Int) (h : p.y - p'.y ≠ 0) : (xIntercept p p' y h).val = xAt p p' y := by
  have hol := C42_x_on_line p p' y h
  have h' : ((p'.y : ℚ) - p.y) ≠ 0 := by
    intro hc
    apply h
    have : (p'.y : ℚ) = p.y := by linarith
    have : p'.y = p.y := by exact_mod_cast this
    omega
  unfold OnLine at hol
  unfold xAt
  rw [mul_div_assoc, ← sub_eq_iff_eq_add', eq_comm, mul_div_assoc', div_eq_iff h']
  linarith

/-- Crossings weighted by a predicate on their place. -/
def signSum (φ : ℚ → Bool) (cs : List Crossing) : Int := ((cs.filter fun c => φ c.x.val).map Crossing.sign).sum

theorem signSum_perm (φ : ℚ → Bool) {a b : List Crossing} (h : a.Perm b) : signSum φ a = signSum φ b :=
  ((h.filter _).map _).sum_eq

theorem sum_filterMap_zero {α : Type} (l : List α) (g : α → Option Seg) (w : Seg → Int) :
    ((l.filterMap g).map w).sum = (l.map fun a => match g a with | none => 0 | some s => w s).sum := by
  induction l with
  | nil => rfl
  | cons a l ih =>
    rw [List.filterMap_cons]
    cases h : g a with
    | none => simp only [List.map_cons, List.sum_cons, h]; rw [ih]; omega
    | some s => simp only [List.map_cons, List.sum_cons, h]; rw [ih]

/-- The weight of a line. -/
def segW (l : LPts) (φ : ℚ → Bool) (y : Int) (s : Seg) : Int :=
  if s.pa.y ≤ y ∧ y < s.pb.y then (if φ (xAt s.pa s.pb y) then (if aIsMain l s then 1 else -1) else 0) else 0

theorem sum_filter_ite {α : Type} (l : List α) (P : α → Prop) [DecidablePred P] (g : α → Int) :
    ((l.filter fun a => decide (P a)).map g).sum = (l.map fun a => if P a then g a else 0).sum := by
  induction l with
  | nil => rfl
  | cons a l ih =>
    rw [List.filter_cons, List.map_cons, List.sum_cons]
    by_cases h : P a
    · rw [if_pos (decide_eq_true h), if_pos h, List.map_cons, List.sum_cons, ih]
    · rw [if_neg (by simp [h]), if_neg h, ih]; omega

theorem signSum_crossings (l : LPts) (nodes : List Seg) (y : Int) (φ : ℚ → Bool) : ∀ ks : List Nat,
    (∀ k ∈ ks, (nodes.getD k default).pa.y ≤ y ∧ y < (nodes.getD k default).pb.y) →
    signSum φ (crossings l nodes y ks) = (ks.map fun k => segW l φ y (nodes.getD k default)).sum := by
  intro ks
  induction ks with
  | nil => intro _; rfl
  | cons k ks ih =>
    intro h
    have hk := h k (by simp)
    have hne : (nodes.getD k default).pa.y - (nodes.getD k default).pb.y ≠ 0 := by omega
    unfold crossings at ih ⊢
    rw [List.filterMap_cons]
    simp only [dif_pos hne]
    rw [List.map_cons, List.sum_cons, ← ih fun j hj => h j (by simp [hj])]
    unfold signSum
    rw [List.filter_cons]
    simp only [xIntercept_val]
    unfold segW
    rw [if_pos hk]
    split
    · rw [List.map_cons, List.sum_cons]
    · omega

theorem sum_edges (l : LPts) (hl : StoreOk l) (φ : ℚ → Bool) (y : Int) :
    ((edges l).map (segW l φ y)).sum = storeSum (crossSign φ y) l := by
  unfold edges
  rw [sum_filterMap_zero]
  unfold storeSum
  have : l.map (fun e => crossSign φ y e.1 (l.getD e.2 default).1) =
      (List.range l.length).map fun i => crossSign φ y (l.getD i default).1 (l.getD (l.getD i default).2 default).1 := by
    apply List.ext_getElem
    · simp
    · intro i h1 h2
      simp only [List.getElem_map, List.getElem_range]
      have h1' : i < l.length := by simpa using h1
      have : l.getD i default = l[i] := by rw [List.getD_eq_getElem?_getD, List.getElem?_eq_getElem h1', Option.getD_some]
      rw [this]
  rw [this]
  congr 1
  apply List.map_congr_left
  intro i hi
  rw [List.mem_range] at hi
  obtain ⟨_, hback⟩ := hl i hi
  simp only
  generalize hj : (l.getD i default).2 = j at hback
  have e1 : ptY l i = (l.getD i default).1.y := rfl
  have e2 : ptY l j = (l.getD j default).1.y := rfl
  by_cases hne : ptY l i ≠ ptY l j
  · rw [if_pos hne]
    simp only
    unfold segW crossSign
    by_cases hgt : ptY l i > ptY l j
    · simp only [if_pos hgt]
      have hm : aIsMain l ⟨j, i, (l.getD j default).1, (l.getD i default).1⟩ = false := by
        unfold aIsMain; simp only [decide_eq_false_iff_not]; exact hback
      rw [hm, if_neg (c := (l.getD i default).1.y ≤ y ∧ y < (l.getD j default).1.y) (by omega)]
      simp
    · simp only [if_neg hgt]
      have hm : aIsMain l ⟨i, j, (l.getD i default).1, (l.getD j default).1⟩ = true := by
        unfold aIsMain; simp only [decide_eq_true_eq]; exact hj
      rw [hm, if_neg (c := (l.getD j default).1.y ≤ y ∧ y < (l.getD i default).1.y) (by omega)]
      simp
  · rw [if_neg hne]
    rw [not_not] at hne
    unfold crossSign
    rw [if_neg (by omega), if_neg (by omega)]

theorem row_sum (l : LPts) (hl : StoreOk l) (realloc : Nat → Bool) (φ : ℚ → Bool) (y : Int) (ks : List Nat)
    (hn : ks.Nodup) (hk : ∀ k, k ∈ ks ↔ Active (envOf l realloc) y k) :
    signSum φ (crossings l (edges l) y ks) = storeSum (crossSign φ y) l := by
  rw [signSum_crossings l (edges l) y φ ks fun k h => ((hk k).mp h).2, ← sum_edges l hl]
  have hperm : ks.Perm ((List.range (edges l).length).filter fun k =>
      decide (((edges l).getD k default).pa.y ≤ y ∧ y < ((edges l).getD k default).pb.y)) := by
    rw [List.perm_ext_iff_of_nodup hn (List.nodup_range.filter _)]
    intro k
    rw [hk, List.mem_filter, List.mem_range, decide_eq_true_eq]
    rfl
  rw [(hperm.map _).sum_eq, sum_filter_ite]
  have : (edges l).map (segW l φ y) = (List.range (edges l).length).map fun k => segW l φ y ((edges l).getD k default) := by
    apply List.ext_getElem
    · simp
    · intro i h1 h2
      have h1' : i < (edges l).length := by simpa using h1
      simp only [List.getElem_map, List.getElem_range]
      rw [List.getD_eq_getElem?_getD, List.getElem?_eq_getElem h1', Option.getD_some]
  rw [this]
  congr 1
  apply List.map_congr_left
  intro k _
  unfold segW
  split <;> rfl

theorem cycSum_true (y : Int) (loop : List Pt) : cycSum (crossSign (fun _ => true) y) loop = 0 := by
  cases loop with
  | nil => rfl
  | cons p ps =>
    rw [cycSum_cons]
    have key : ∀ a b : Pt, crossSign (fun _ => true) y a b = (if a.y ≤ y then 1 else 0) - if b.y ≤ y then 1 else 0 := by
      intro a b
      unfold crossSign
      simp only [if_true]
      split_ifs <;> omega
    have tele : ∀ (ps : List Pt) (p : Pt), pathSum (crossSign (fun _ => true) y) (p :: ps) =
        (if p.y ≤ y then 1 else 0) - if ((p :: ps).getLastD default).y ≤ y then 1 else 0 := by
      intro ps
      induction ps with
      | nil => intro p; simp [pathSum]
      | cons q r ih =>
        intro p
        simp only [pathSum, key]
        rw [ih q]
        simp only [List.getLastD_cons]
        omega
    rw [tele, key]; omega

/-- C40: the signs of the lines of an emitted row add up to zero, so that every span is closed. -/
theorem C40_signs (loops : List (List Pt)) (realloc : Nat → Bool) (orc : Nat → Place) (h : Int) (f : Nat)
    (r : List (Int × List Nat)) (hr : scanRows (addLoops loops) realloc orc h f = .ok r) :
    ∀ row ∈ r, ((crossings (addLoops loops) (edges (addLoops loops)) row.1 row.2).map Crossing.sign).sum = 0 := by
  intro row hrow
  obtain ⟨hn, hk⟩ := (C40_rows _ _ _ _ _ _ hr).1 row hrow
  obtain ⟨s1, s2⟩ := C40_store (crossSign (fun _ => true) row.1) (crossSign_anti _ _) loops
  have := row_sum _ s1 realloc (fun _ => true) row.1 row.2 hn hk
  rw [s2] at this
  unfold signSum at this
  rw [List.filter_true] at this
  rw [this]
  apply List.sum_eq_zero
  intro x hx
  obtain ⟨loop, _, rfl⟩ := List.mem_map.mp hx
  exact cycSum_true row.1 loop

/-- C41: on an emitted row the signs to the right of a place add up to the winding number of the loops given. -/
theorem C41_winding (loops : List (List Pt)) (realloc : Nat → Bool) (orc : Nat → Place) (h : Int) (f : Nat)
    (r : List (Int × List Nat)) (hr : scanRows (addLoops loops) realloc orc h f = .ok r) :
    ∀ row ∈ r, ∀ q, windAt (crossings (addLoops loops) (edges (addLoops loops)) row.1 row.2) q = winding loops row.1 q := by
  intro row hrow q
  obtain ⟨hn, hk⟩ := (C40_rows _ _ _ _ _ _ hr).1 row hrow
  obtain ⟨s1, s2⟩ := C40_store (crossSign (fun x => decide (q < x)) row.1) (crossSign_anti _ _) loops
  have := row_sum _ s1 realloc (fun x => decide (q < x)) row.1 row.2 hn hk
  rw [s2] at this
  exact this

/-- C41: a row that is not emitted has no crossings: the winding number is zero all along it. -/
theorem C41_skipped (loops : List (List Pt)) (realloc : Nat → Bool) (orc : Nat → Place) (h : Int) (f : Nat)
    (r : List (Int × List Nat)) (hr : scanRows (addLoops loops) realloc orc h f = .ok r) (y : Int) (hy : y < h)
    (hnot : ∀ row ∈ r, row.1 ≠ y) (q : ℚ) : winding loops y q = 0 := by
  obtain ⟨s1, s2⟩ := C40_store (crossSign (fun x => decide (q < x)) y) (crossSign_anti _ _) loops
  have hall := (C40_rows _ _ _ _ _ _ hr).2.2.1 y hy
  have : ∀ k, k ∈ ([] : List Nat) ↔ Active (envOf (addLoops loops) realloc) y k := by
    intro k
    simp only [List.not_mem_nil, false_iff]
    intro ha
    obtain ⟨row, h1, h2⟩ := hall ⟨k, ha⟩
    exact hnot row h1 h2
  have := row_sum _ s1 realloc (fun x => decide (q < x)) y [] List.nodup_nil this
  rw [s2] at this
  exact this.symm

/-- C41: the calls of `draw`, for the rows whose lines are in the order of their crossings. Every place of such a row with a
non-zero winding number chosen by the fill rule is covered, and what is drawn is either chosen by the rule all along or a
single crossing.
Missing: that the lines of a row are in that order; `C55_order` proves it where it holds. -/
theorem C41_draw_partial (loops : List (List Pt)) (realloc : Nat → Bool) (orc : Nat → Place) (width h : Int) (hw : 0 < width) (f : Nat)
    (r : List (Int × List Nat)) (hr : scanRows (addLoops loops) realloc orc h f = .ok r) (rule : Rule)
    (row : Int × List Nat) (hrow : row ∈ r) (h0 : 0 ≤ row.1)
    (hs : RightToLeft (crossings (addLoops loops) (edges (addLoops loops)) row.1 row.2)) :
    (∀ q : ℚ, (∀ c ∈ crossings (addLoops loops) (edges (addLoops loops)) row.1 row.2, c.x.val ≠ q) →
      winding loops row.1 q ≠ 0 → shouldFill rule (winding loops row.1 q) = true → 0 ≤ q → q < width →
      ∃ x1 x2, (x1, x2, row.1) ∈ drawCalls (addLoops loops) (edges (addLoops loops)) width rule r ∧ x1 ≤ ⌊q⌋ ∧ ⌊q⌋ ≤ x2) ∧
    (∀ s ∈ rowSpans (addLoops loops) (edges (addLoops loops)) width 0 row, 0 ≤ s.x1 ∧ s.x1 ≤ s.x2 ∧ s.x2 < width ∧ s.y = row.1 ∧
      ∃ L R : ℚ, L ≤ R ∧ s.x1 = max 0 (min ⌊L⌋ (width - 1)) ∧ s.x2 = max 0 (min ⌊R⌋ (width - 1)) ∧
        ∀ q, L < q → q < R → winding loops row.1 q = s.winding) := by
  have hz := C40_signs loops realloc orc h f r hr row hrow
  have hwd := C41_winding loops realloc orc h f r hr row hrow
  constructor
  · intro q hq hne hfill hq0 hqw
    rw [← hwd q] at hne hfill
    obtain ⟨s, hs1, hs2, L, R, _, _, hL, hR, e1, e2⟩ := C41_covered width row.1 0 _ hs hz q hq hne
    have hsy : s.y = row.1 := ((C41_in_bounds width row.1 hw _ hs 0).1 s hs1).2.2.2
    refine ⟨s.x1, s.x2, ?_, ?_, ?_⟩
    · rw [C41_draw]
      exact ⟨row, hrow, h0, s, hs1, by rw [hs2]; exact hfill, rfl, rfl, hsy⟩
    · rw [e1, C41_column _ _ (by omega)]
      have a1 := Int.floor_le_floor hL.le
      have a2 : 0 ≤ ⌊q⌋ := Int.floor_nonneg.mpr hq0
      omega
    · rw [e2, C41_column _ _ (by omega)]
      have a1 := Int.floor_le_floor hR.le
      have a2 : ⌊q⌋ < width := Int.floor_lt.mpr hqw
      omega
  · intro s hs1
    unfold rowSpans at hs1
    rw [if_pos (show row.1 ≥ 0 from h0)] at hs1
    obtain ⟨b1, b2, b3, b4⟩ := (C41_in_bounds width row.1 hw _ hs 0).1 s hs1
    obtain ⟨L, R, _, _, hLR, e1, e2, _, hmid⟩ := C41_span_winding width row.1 0 _ hs s hs1
    refine ⟨b1, b2, b3, b4, L.x.val, R.x.val, hLR, ?_, ?_, ?_⟩
    · rw [e1, C41_column _ _ (by omega)]
    · rw [e2, C41_column _ _ (by omega)]
    · intro q h1 h2
      rw [← hwd q]
      exact (hmid q h1 h2).1

end PolyOps.Raster
