import Verif.Model.Events
import Mathlib.Data.Prod.Lex
import Mathlib.Data.List.Sort
import Mathlib.Data.List.TakeWhile
import Mathlib.Tactic.Linarith
import Mathlib.Tactic.Ring

/-! Properties C21, C23, C24 of the event queue. -/
namespace PolyOps.Events

/-! ### C21 -/

/-- What identifies an event. -/
def Ev.key (e : Ev) : EvTy × Nat × Nat := (e.ty, e.a, e.b)

/-- Sort key: x, type, indices, compared lexicographically. -/
def ordKey (x : Nat → Int) (e : Ev) : Int ×ₗ Nat ×ₗ Nat ×ₗ Nat := toLex (x e.a, toLex (e.ty.rank, toLex (e.a, e.b)))

theorem rank_inj {s t : EvTy} : s.rank = t.rank ↔ s = t := by cases s <;> cases t <;> simp [EvTy.rank]

theorem less_iff (x : Nat → Int) (e f : Ev) : less x e f = true ↔ ordKey x e < ordKey x f := by
  unfold less ordKey
  simp only [Prod.Lex.toLex_lt_toLex]
  by_cases h1 : x e.a = x f.a
  · by_cases h2 : e.ty = f.ty
    · by_cases h3 : e.a = f.a
      · simp [h1, h2, h3]
      · simp [h1, h2, h3]
    · have h2' : e.ty.rank ≠ f.ty.rank := fun h => h2 (rank_inj.mp h)
      simp [h1, h2, h2']
  · simp [h1]

theorem ordKey_inj (x : Nat → Int) (e f : Ev) : ordKey x e = ordKey x f ↔ e.key = f.key := by
  unfold ordKey Ev.key
  simp only [toLex_inj, Prod.mk.injEq, rank_inj]
  constructor
  · rintro ⟨_, h2, h3, h4⟩; exact ⟨h2, h3, h4⟩
  · rintro ⟨h2, h3, h4⟩; exact ⟨by rw [h3], h2, h3, h4⟩

/-- C21: never before itself. -/
theorem C21_irrefl (x : Nat → Int) (e : Ev) : less x e e = false := by
  rw [Bool.eq_false_iff, ne_eq, less_iff]; exact lt_irrefl _

/-- C21: transitive. -/
theorem C21_trans (x : Nat → Int) {e f g : Ev} (h1 : less x e f = true) (h2 : less x f g = true) : less x e g = true := by
  rw [less_iff] at *; exact h1.trans h2

/-- C21: asymmetric. -/
theorem C21_asymm (x : Nat → Int) {e f : Ev} (h1 : less x e f = true) : less x f e = false := by
  rw [Bool.eq_false_iff, ne_eq, less_iff]; rw [less_iff] at h1; exact h1.asymm

/-- C21: two events that are not ordered are the same event. -/
theorem C21_total (x : Nat → Int) (e f : Ev) (h : e.key ≠ f.key) : less x e f = true ∨ less x f e = true := by
  rw [less_iff, less_iff]
  exact lt_or_gt_of_ne (fun h' => h ((ordKey_inj x e f).mp h'))

/-- Events at smaller x come first; at the same x: starts of vertical lines, ends of other lines, starts of other
lines, ends of vertical lines. -/
theorem C21_order (x : Nat → Int) (e f : Ev) (h : less x e f = true) :
    x e.a < x f.a ∨ (x e.a = x f.a ∧ e.ty.rank ≤ f.ty.rank) := by
  rw [less_iff] at h
  unfold ordKey at h
  simp only [Prod.Lex.toLex_lt_toLex] at h
  rcases h with h | ⟨h, h' | h'⟩
  · exact Or.inl h
  · exact Or.inr ⟨h, h'.le⟩
  · exact Or.inr ⟨h, h'.1.le⟩

theorem insSorted_perm {α : Type} (lt : α → α → Bool) (a : α) (l : List α) : (insSorted lt a l).Perm (a :: l) := by
  induction l with
  | nil => exact List.Perm.refl _
  | cons b l ih =>
    unfold insSorted
    split
    · exact (ih.cons b).trans (List.Perm.swap a b l)
    · exact List.Perm.refl _

theorem sortBy_perm {α : Type} (lt : α → α → Bool) (l : List α) : (sortBy lt l).Perm l := by
  induction l with
  | nil => exact List.Perm.refl _
  | cons a l ih => exact (insSorted_perm lt a _).trans (ih.cons a)

theorem sortBy_pairwise {α β : Type} [LinearOrder β] (lt : α → α → Bool) (k : α → β) (h : ∀ a b, lt a b = true ↔ k a < k b)
    (l : List α) : (sortBy lt l).Pairwise fun a b => k a ≤ k b := by
  have ins : ∀ (a : α) (l : List α), (l.Pairwise fun a b => k a ≤ k b) → (insSorted lt a l).Pairwise fun a b => k a ≤ k b := by
    intro a l hl
    induction l with
    | nil => simp [insSorted]
    | cons b l ih =>
      rw [List.pairwise_cons] at hl
      unfold insSorted
      by_cases c : lt b a = true
      · rw [if_pos c, List.pairwise_cons]
        refine ⟨?_, ih hl.2⟩
        intro d hd
        rcases List.mem_cons.mp ((insSorted_perm lt a l).mem_iff.mp hd) with rfl | hd
        · exact ((h b d).mp c).le
        · exact hl.1 d hd
      · rw [if_neg c, List.pairwise_cons]
        have hab : k a ≤ k b := not_lt.mp (fun hc => c ((h b a).mpr hc))
        refine ⟨?_, List.pairwise_cons.mpr hl⟩
        intro d hd
        rcases List.mem_cons.mp hd with rfl | hd
        · exact hab
        · exact hab.trans (hl.1 d hd)
  induction l with
  | nil => simp [sortBy]
  | cons a l ih => exact ins a _ ih

theorem sortBy_length {α : Type} (lt : α → α → Bool) (l : List α) : (sortBy lt l).length = l.length := (sortBy_perm lt l).length_eq

def Sorted (x : Nat → Int) (l : List Ev) : Prop := l.Pairwise fun e f => less x e f = true

def KeysNodup (l : List Ev) : Prop := (l.map Ev.key).Nodup

theorem keysNodup_iff (l : List Ev) : KeysNodup l ↔ l.Pairwise fun e f => e.key ≠ f.key := by
  unfold KeysNodup List.Nodup; rw [List.pairwise_map]

theorem KeysNodup.perm {l m : List Ev} (h : KeysNodup l) (p : l.Perm m) : KeysNodup m :=
  (p.map Ev.key).nodup_iff.mp h

theorem Sorted.keysNodup {x : Nat → Int} {l : List Ev} (h : Sorted x l) : KeysNodup l := by
  rw [keysNodup_iff]
  refine h.imp ?_
  intro e f hl hk
  rw [less_iff, (ordKey_inj x e f).mpr hk] at hl
  exact lt_irrefl _ hl

theorem sorted_sort (x : Nat → Int) (l : List Ev) (h : KeysNodup l) :
    Sorted x (sortBy (less x) l) := by
  have n := (keysNodup_iff _).mp (h.perm (sortBy_perm (less x) l).symm)
  refine ((sortBy_pairwise (less x) (ordKey x) (less_iff x) l).and n).imp ?_
  rintro a b ⟨h1, h2⟩
  rw [less_iff]
  exact lt_of_le_of_ne h1 (fun h => h2 ((ordKey_inj x a b).mp h))

theorem Sorted.eq_of_perm {x : Nat → Int} {l m : List Ev} (hl : Sorted x l) (hm : Sorted x m) (p : l.Perm m) : l = m := by
  refine List.Perm.eq_of_pairwise ?_ hl hm p
  intro a b _ _ h1 h2
  rw [C21_asymm x h1] at h2
  exact absurd h2 (by decide)

/-- C21: the sorted order of a set of events does not depend on the order in which they were added. -/
theorem C21_insertion_order (x : Nat → Int) (l m : List Ev) (h : KeysNodup l) (p : l.Perm m) :
    sortBy (less x) l = sortBy (less x) m :=
  (sorted_sort x l h).eq_of_perm (sorted_sort x m (h.perm p))
    ((sortBy_perm _ _).trans (p.trans (sortBy_perm _ _).symm))

/-! ### The backward merge -/

theorem shiftLoop_eq {α : Type} (i lim : Nat) : ∀ (j : Nat) (f : Nat → α) (q : Nat),
    shiftLoop i lim j f q = if lim < q ∧ q ≤ j then f (q - i) else f q
  | 0, f, q => by rw [shiftLoop, if_neg]; omega
  | j + 1, f, q => by
    rw [shiftLoop]
    by_cases c : j + 1 > lim
    · rw [if_pos c, shiftLoop_eq i lim j]
      by_cases c2 : lim < q ∧ q ≤ j
      · rw [if_pos c2, if_pos ⟨c2.1, by omega⟩, upd, if_neg (by omega)]
      · rw [if_neg c2, upd]
        by_cases c3 : q = j + 1
        · rw [if_pos c3, if_pos (by omega), c3]
        · rw [if_neg c3, if_neg (by omega)]
    · rw [if_neg c, if_neg (by omega)]

/-- The result of the merge, position by position. -/
def placed {α : Type} : List (α × Nat) → (Nat → α) → Nat → α
  | [], f, q => f q
  | (e, p) :: rest, f, q => if q > p then f (q - (rest.length + 1)) else if q = p then e else placed rest f q

/-- Items to insert, last first, at final positions that leave room for the earlier ones. -/
def InsOk {α : Type} (n : Nat) : List (α × Nat) → Prop
  | [] => True
  | (_, p) :: rest => rest.length ≤ p ∧ p - rest.length ≤ n ∧ InsOk (p - rest.length) rest

theorem placed_congr {α : Type} (l : List (α × Nat)) (f g : Nat → α) (q : Nat) (h : ∀ k ≤ q, f k = g k) :
    placed l f q = placed l g q := by
  induction l with
  | nil => exact h q le_rfl
  | cons a rest ih =>
    obtain ⟨e, p⟩ := a
    unfold placed
    rw [ih, h _ (Nat.sub_le _ _)]

theorem incLoop_eq {α : Type} (l : List (α × Nat)) : ∀ (n j : Nat) (f : Nat → α), InsOk n l → (∀ a ∈ l.head?, a.2 ≤ j) → ∀ q,
    incLoop l j f q = if q ≤ j then placed l f q else f q := by
  induction l with
  | nil => intro n j f _ _ q; simp [incLoop, placed]
  | cons a rest ih =>
    obtain ⟨e, p⟩ := a
    intro n j f hi hj q
    obtain ⟨h1, h2, h3⟩ := hi
    have hp : p ≤ j := hj (e, p) (by simp)
    have hh : ∀ a ∈ rest.head?, a.2 ≤ p - 1 := by
      cases rest with
      | nil => simp
      | cons b r =>
        obtain ⟨e', p'⟩ := b
        obtain ⟨g1, g2, g3⟩ := h3
        simp only [List.head?_cons, Option.mem_def, Option.some.injEq, forall_eq']
        simp only [List.length_cons] at *
        omega
    simp only [incLoop]
    rw [min_eq_right hp, ih _ _ _ h3 hh, placed]
    by_cases c1 : q ≤ p - 1
    · rw [if_pos c1]
      by_cases c0 : q = p
      · -- only when p = 0
        have hp0 : p = 0 := by omega
        subst hp0
        have hr : rest = [] := by
          cases rest with
          | nil => rfl
          | cons b r => simp at h1
        subst hr
        simp only [placed, upd]
        rw [if_pos c0, if_pos (by omega), if_neg (by omega), if_pos c0]
      · rw [if_pos (show q ≤ j by omega), if_neg (by omega), if_neg c0]
        apply placed_congr
        intro k hk
        rw [upd, if_neg (by omega), shiftLoop_eq, if_neg (by omega)]
    · rw [if_neg c1, upd]
      by_cases c2 : q = p
      · rw [if_pos c2, if_pos (by omega), if_neg (by omega), if_pos c2]
      · rw [if_neg c2, shiftLoop_eq]
        by_cases c3 : q ≤ j
        · rw [if_pos ⟨by omega, c3⟩, if_pos c3, if_pos (by omega)]
        · rw [if_neg (by omega), if_neg c3]

/-- The merge on lists; items carry the number of old elements before them. -/
def mergeL {α : Type} (old : List α) : List (α × Nat) → List α
  | [] => old
  | (e, lb) :: rest => mergeL (old.take lb) rest ++ e :: old.drop lb

/-- Final positions, last item first. -/
def addIdxR {α : Type} : List (α × Nat) → List (α × Nat)
  | [] => []
  | (e, lb) :: rest => (e, lb + rest.length) :: addIdxR rest

theorem addIdxR_length {α : Type} (l : List (α × Nat)) : (addIdxR l).length = l.length := by
  induction l with
  | nil => rfl
  | cons a l ih => simp [addIdxR, ih]

theorem addIdx_append {α : Type} (l : List (α × Nat)) (a : α × Nat) : addIdx (l ++ [a]) = addIdx l ++ [(a.1, a.2 + l.length)] := by
  unfold addIdx
  rw [List.zipIdx_append]
  simp

theorem addIdx_reverse {α : Type} (l : List (α × Nat)) : (addIdx l.reverse).reverse = addIdxR l := by
  induction l with
  | nil => rfl
  | cons a l ih =>
    rw [List.reverse_cons, addIdx_append, List.reverse_append, ih]
    simp [addIdxR]

/-- Numbers of preceding old elements, last item first, decreasing and at most `n`. -/
def LbOk {α : Type} (n : Nat) : List (α × Nat) → Prop
  | [] => True
  | (_, lb) :: rest => lb ≤ n ∧ LbOk lb rest

theorem insOk_of_lbOk {α : Type} (l : List (α × Nat)) : ∀ n, LbOk n l → InsOk n (addIdxR l) := by
  induction l with
  | nil => intro n _; trivial
  | cons a l ih =>
    intro n h
    obtain ⟨e, lb⟩ := a
    refine ⟨?_, ?_, ?_⟩ <;> rw [addIdxR_length]
    · omega
    · rw [Nat.add_sub_cancel]; exact h.1
    · rw [Nat.add_sub_cancel]; exact ih _ h.2

theorem mergeL_length {α : Type} (l : List (α × Nat)) : ∀ old : List α, (mergeL old l).length = old.length + l.length := by
  induction l with
  | nil => intro old; rfl
  | cons a l ih =>
    intro old
    simp only [mergeL, List.length_append, ih, List.length_take, List.length_cons, List.length_drop]
    omega

theorem placed_eq {α : Type} (l : List (α × Nat)) : ∀ (old : List α) (f : Nat → α), LbOk old.length l →
    (∀ k (h : k < old.length), f k = old[k]) → ∀ q, q < old.length + l.length →
    (mergeL old l)[q]? = some (placed (addIdxR l) f q) := by
  induction l with
  | nil =>
    intro old f _ hf q hq
    simp only [mergeL, addIdxR, placed]
    rw [List.getElem?_eq_getElem (by simpa using hq), hf q (by simpa using hq)]
  | cons a l ih =>
    obtain ⟨e, lb⟩ := a
    intro old f hl hf q hq
    have hlb : lb ≤ old.length := hl.1
    have hlen : (mergeL (old.take lb) l).length = lb + l.length := by
      rw [mergeL_length, List.length_take, min_eq_left hlb]
    simp only [mergeL, addIdxR, placed, addIdxR_length]
    by_cases c1 : q > lb + l.length
    · rw [if_pos c1, List.getElem?_append_right (by omega), hlen,
        show q - (lb + l.length) = (q - (lb + l.length) - 1) + 1 by omega, List.getElem?_cons_succ, List.getElem?_drop]
      have hq' : lb + (q - (lb + l.length) - 1) < old.length := by simp only [List.length_cons] at hq; omega
      rw [List.getElem?_eq_getElem hq', ← hf _ hq']
      congr 2
      omega
    · rw [if_neg c1]
      by_cases c2 : q = lb + l.length
      · rw [if_pos c2, List.getElem?_append_right (by omega), hlen, c2]
        simp
      · rw [if_neg c2, List.getElem?_append_left (by omega)]
        apply ih
        · rw [List.length_take, min_eq_left hlb]; exact hl.2
        · intro k hk
          rw [List.length_take] at hk
          rw [hf k (by omega), List.getElem_take]
        · rw [List.length_take, min_eq_left hlb]; omega

theorem incorporate_eq (q : Queue) (l : List (Ev × Nat)) (hn : q.news = addIdx l.reverse) (hl : LbOk q.last l)
    (hlen : q.events.length = q.last + l.length) :
    q.incorporate.events = mergeL (q.events.take q.last) l := by
  have hr : q.news.reverse = addIdxR l := by rw [hn, addIdx_reverse]
  unfold Queue.incorporate
  simp only
  rw [hr]
  have ht : (q.events.take q.last).length = q.last := by rw [List.length_take]; omega
  apply List.ext_getElem?
  intro k
  by_cases hk : k < q.events.length
  · have hp := placed_eq l (q.events.take q.last) (fun k => q.events.getD k default) (by rw [ht]; exact hl) (by
      intro k h
      have : k < q.events.length := by rw [ht] at h; omega
      rw [List.getD_eq_getElem?_getD, List.getElem?_eq_getElem this, Option.getD_some, List.getElem_take]) k (by rw [ht]; omega)
    rw [hp, List.getElem?_map, List.getElem?_range hk, Option.map_some]
    congr 1
    rw [incLoop_eq _ q.last _ _ (insOk_of_lbOk l _ hl) ?_ k, if_pos (by omega)]
    cases l with
    | nil => simp [addIdxR]
    | cons a l =>
      obtain ⟨e, lb⟩ := a
      have := hl.1
      simp only [addIdxR, List.head?_cons, Option.mem_def, Option.some.injEq, forall_eq', List.length_cons] at *
      omega
  · rw [List.getElem?_eq_none (by simpa using hk), List.getElem?_eq_none (by rw [mergeL_length, ht]; omega)]

theorem mergeL_perm {α : Type} (l : List (α × Nat)) : ∀ old : List α, (mergeL old l).Perm (old ++ l.map Prod.fst) := by
  induction l with
  | nil => intro old; simp [mergeL]
  | cons a l ih =>
    intro old
    obtain ⟨e, lb⟩ := a
    have h1 := (ih (old.take lb)).append_right (e :: old.drop lb)
    refine h1.trans ?_
    rw [List.map_cons]
    have h2 : (old.take lb ++ l.map Prod.fst ++ e :: old.drop lb).Perm (old.take lb ++ (e :: old.drop lb ++ l.map Prod.fst)) := by
      rw [List.append_assoc]
      exact List.Perm.append_left _ List.perm_append_comm
    refine h2.trans ?_
    have h3 : (e :: old.drop lb ++ l.map Prod.fst).Perm (old.drop lb ++ e :: l.map Prod.fst) := by
      rw [List.cons_append]; exact List.perm_middle.symm
    refine (h3.append_left _).trans ?_
    rw [← List.append_assoc, List.take_append_drop]

/-- Conditions under which the merge keeps the order. -/
def Fits (x : Nat → Int) (old : List Ev) : List (Ev × Nat) → Prop
  | [] => True
  | (e, lb) :: rest => lb ≤ old.length ∧ (∀ f ∈ old.take lb, less x f e = true) ∧ (∀ f ∈ old.drop lb, less x e f = true) ∧
      (∀ a ∈ rest, less x a.1 e = true) ∧ Fits x (old.take lb) rest

theorem Fits.lbOk {x : Nat → Int} (l : List (Ev × Nat)) : ∀ old, Fits x old l → LbOk old.length l := by
  induction l with
  | nil => intro _ _; trivial
  | cons a l ih =>
    intro old h
    refine ⟨h.1, ?_⟩
    have := ih _ h.2.2.2.2
    rwa [List.length_take, min_eq_left h.1] at this

theorem mergeL_sorted (x : Nat → Int) (l : List (Ev × Nat)) : ∀ old : List Ev, Sorted x old → Fits x old l →
    Sorted x (mergeL old l) := by
  induction l with
  | nil => intro old h _; exact h
  | cons a l ih =>
    obtain ⟨e, lb⟩ := a
    rintro old h ⟨_, h1, h2, h3, h4⟩
    have hs := ih _ (h.sublist (List.take_sublist lb old)) h4
    have hlt : ∀ f ∈ mergeL (old.take lb) l, less x f e = true := by
      intro f hf
      rcases List.mem_append.mp ((mergeL_perm l _).mem_iff.mp hf) with hf | hf
      · exact h1 f hf
      · obtain ⟨a, ha, rfl⟩ := List.mem_map.mp hf
        exact h3 a ha
    unfold mergeL Sorted
    rw [List.pairwise_append]
    refine ⟨hs, ?_, ?_⟩
    · rw [List.pairwise_cons]
      exact ⟨h2, h.sublist (List.drop_sublist lb old)⟩
    · intro f hf g hg
      rcases List.mem_cons.mp hg with rfl | hg
      · exact hlt f hf
      · exact C21_trans x (hlt f hf) (h2 g hg)

/-! ### Placement of the new events -/

theorem takeWhile_take {α : Type} (p : α → Bool) (l : List α) : l.take (l.takeWhile p).length = l.takeWhile p := by
  have h := List.takeWhile_append_dropWhile (p := p) (l := l)
  generalize l.takeWhile p = a at h
  generalize l.dropWhile p = b at h
  subst h
  simp

theorem takeWhile_drop {α : Type} (p : α → Bool) (l : List α) : l.drop (l.takeWhile p).length = l.dropWhile p := by
  have h := List.takeWhile_append_dropWhile (p := p) (l := l)
  generalize l.takeWhile p = a at h
  generalize l.dropWhile p = b at h
  subst h
  simp

theorem lowerBound_take (x : Nat → Int) (l : List Ev) (e : Ev) : ∀ f ∈ l.take (lowerBound x l e), less x f e = true := by
  intro f hf
  unfold lowerBound at hf
  rw [takeWhile_take] at hf
  exact List.mem_takeWhile_imp (p := fun f => less x f e) hf

theorem lowerBound_drop (x : Nat → Int) (l : List Ev) (e : Ev) (h : Sorted x l) :
    ∀ f ∈ l.drop (lowerBound x l e), less x f e = false := by
  intro f hf
  unfold lowerBound at hf
  rw [takeWhile_drop] at hf
  have hs : Sorted x (l.dropWhile fun f => less x f e) := h.sublist (List.dropWhile_sublist _)
  cases hd : l.dropWhile fun f => less x f e with
  | nil => rw [hd] at hf; simp at hf
  | cons g t =>
    rw [hd] at hf hs
    have hg : less x g e = false := by
      have := List.head_dropWhile_not (p := fun f => less x f e) (l := l) (by rw [hd]; simp)
      simp only [hd, List.head_cons] at this
      exact this
    rcases List.mem_cons.mp hf with rfl | hf
    · exact hg
    · have h1 := (List.pairwise_cons.mp hs).1 f hf
      rw [Bool.eq_false_iff] at hg ⊢
      intro h2
      exact hg (C21_trans x h1 h2)

theorem lowerBound_le (x : Nat → Int) (l : List Ev) (e : Ev) : lowerBound x l e ≤ l.length :=
  (List.takeWhile_sublist _).length_le

theorem insLess_iff (x : Nat → Int) (a b : Ev × Nat) :
    insLess x a b = true ↔ (toLex (a.2, ordKey x a.1) : Nat ×ₗ _) < toLex (b.2, ordKey x b.1) := by
  unfold insLess
  rw [Prod.Lex.toLex_lt_toLex]
  by_cases h : a.2 = b.2
  · simp [h, less_iff]
  · simp [h]

/-- The items to insert in order of insertion, before the positions are adjusted. -/
def sortedNew (x : Nat → Int) (events : List Ev) (last : Nat) : List (Ev × Nat) :=
  sortBy (insLess x) ((events.drop last).map fun e => (e, lowerBound x (events.take last) e))

theorem sortedNew_perm (x : Nat → Int) (events : List Ev) (last : Nat) :
    (sortedNew x events last).Perm ((events.drop last).map fun e => (e, lowerBound x (events.take last) e)) :=
  sortBy_perm _ _

theorem sortedNew_mem {x : Nat → Int} {events : List Ev} {last : Nat} {a : Ev × Nat} (h : a ∈ sortedNew x events last) :
    a.1 ∈ events.drop last ∧ a.2 = lowerBound x (events.take last) a.1 := by
  obtain ⟨e, he, rfl⟩ := List.mem_map.mp ((sortedNew_perm x events last).mem_iff.mp h)
  exact ⟨he, rfl⟩

theorem lb_mono (x : Nat → Int) (old : List Ev) (h : Sorted x old) (e f : Ev)
    (hne : lowerBound x old e < lowerBound x old f) : less x e f = true ∨ ∃ g ∈ old, g.key = e.key := by
  have hlen : lowerBound x old e < old.length := hne.trans_le (lowerBound_le x old f)
  have h1 : old[lowerBound x old e] ∈ old.drop (lowerBound x old e) := by
    rw [List.mem_drop_iff_getElem]
    exact ⟨0, by simpa using hlen, by simp⟩
  have h2 : old[lowerBound x old e] ∈ old.take (lowerBound x old f) := by
    rw [List.mem_take_iff_getElem]
    exact ⟨lowerBound x old e, by omega, rfl⟩
  have h3 := lowerBound_drop x old e h _ h1
  have h4 := lowerBound_take x old f _ h2
  by_cases hk : (old[lowerBound x old e]).key = e.key
  · exact Or.inr ⟨_, List.getElem_mem _, hk⟩
  · rcases C21_total x _ _ hk with h5 | h5
    · rw [h3] at h5; exact absurd h5 (by decide)
    · exact Or.inl (C21_trans x h5 h4)

theorem sortedNew_pairwise (x : Nat → Int) (events : List Ev) (last : Nat) (hs : Sorted x (events.take last))
    (hk : KeysNodup events) :
    (sortedNew x events last).Pairwise fun a b => a.2 ≤ b.2 ∧ less x a.1 b.1 = true := by
  have hcross : ∀ e ∈ events.drop last, ∀ g ∈ events.take last, g.key ≠ e.key := by
    have h1 := (keysNodup_iff _).mp hk
    rw [← List.take_append_drop last events, List.pairwise_append] at h1
    intro e he g hg
    exact h1.2.2 g hg e he
  have s' : (sortedNew x events last).Pairwise fun a b =>
      (toLex (a.2, ordKey x a.1) : Nat ×ₗ _) ≤ toLex (b.2, ordKey x b.1) :=
    sortBy_pairwise (insLess x) (fun a => (toLex (a.2, ordKey x a.1) : Nat ×ₗ _)) (insLess_iff x) _
  have n : (sortedNew x events last).Pairwise fun a b => a.1.key ≠ b.1.key := by
    have h2 : KeysNodup (events.drop last) := by
      rw [keysNodup_iff] at hk ⊢
      exact hk.sublist (List.drop_sublist _ _)
    have h3 : (((events.drop last).map fun e => (e, lowerBound x (events.take last) e)).map fun a => a.1.key).Nodup := by
      rw [List.map_map]; exact h2
    have h4 := ((sortedNew_perm x events last).map fun a => a.1.key).nodup_iff.mpr h3
    unfold List.Nodup at h4
    rwa [List.pairwise_map] at h4
  refine List.Pairwise.imp_of_mem ?_ (s'.and n)
  rintro a b ha hb ⟨h1, h2⟩
  obtain ⟨ma, ea⟩ := sortedNew_mem ha
  obtain ⟨mb, eb⟩ := sortedNew_mem hb
  rw [Prod.Lex.toLex_le_toLex] at h1
  rcases h1 with h1 | ⟨h1, h3⟩
  · refine ⟨h1.le, ?_⟩
    rw [ea, eb] at h1
    rcases lb_mono x _ hs _ _ h1 with h | ⟨g, hg, hgk⟩
    · exact h
    · exact absurd hgk (hcross a.1 ma g hg)
  · refine ⟨h1.le, ?_⟩
    rw [less_iff]
    exact lt_of_le_of_ne h3 (fun h => h2 ((ordKey_inj x _ _).mp h))

theorem fits_aux (x : Nat → Int) (old : List Ev) (l : List (Ev × Nat))
    (hp : l.Pairwise fun a b => b.2 ≤ a.2 ∧ less x b.1 a.1 = true)
    (hl : ∀ a ∈ l, a.2 ≤ old.length ∧ (∀ f ∈ old.take a.2, less x f a.1 = true) ∧ ∀ f ∈ old.drop a.2, less x a.1 f = true) :
    ∀ n, (∀ a ∈ l, a.2 ≤ n) → Fits x (old.take n) l := by
  induction l with
  | nil => intro _ _; trivial
  | cons a l ih =>
    obtain ⟨e, lb⟩ := a
    intro n hn
    rw [List.pairwise_cons] at hp
    have h0 := hl (e, lb) (by simp)
    have hlbn : lb ≤ n := hn (e, lb) (by simp)
    have htt : (old.take n).take lb = old.take lb := by rw [List.take_take, min_eq_left hlbn]
    refine ⟨?_, ?_, ?_, ?_, ?_⟩
    · rw [List.length_take]; exact le_min hlbn h0.1
    · rw [htt]; exact h0.2.1
    · intro f hf
      apply h0.2.2
      rw [List.drop_take] at hf
      exact List.mem_of_mem_take hf
    · intro a ha; exact (hp.1 a ha).2
    · rw [htt]
      exact ih hp.2 (fun a ha => hl a (List.mem_cons_of_mem _ ha)) lb (fun a ha => (hp.1 a ha).1)

theorem sortedNew_fits (x : Nat → Int) (events : List Ev) (last : Nat) (hs : Sorted x (events.take last))
    (hk : KeysNodup events) : Fits x (events.take last) (sortedNew x events last).reverse := by
  have hcross : ∀ e ∈ events.drop last, ∀ g ∈ events.take last, g.key ≠ e.key := by
    have h1 := (keysNodup_iff _).mp hk
    rw [← List.take_append_drop last events, List.pairwise_append] at h1
    intro e he g hg
    exact h1.2.2 g hg e he
  have h := fits_aux x (events.take last) (sortedNew x events last).reverse
    (by rw [List.pairwise_reverse]; exact sortedNew_pairwise x events last hs hk) (by
    intro a ha
    rw [List.mem_reverse] at ha
    obtain ⟨ma, ea⟩ := sortedNew_mem ha
    rw [ea]
    refine ⟨lowerBound_le _ _ _, lowerBound_take x _ _, ?_⟩
    intro f hf
    have h1 := lowerBound_drop x _ _ hs f hf
    rcases C21_total x f a.1 (hcross _ ma f (List.mem_of_mem_drop hf)) with h | h
    · rw [h1] at h; exact absurd h (by decide)
    · exact h) (events.take last).length (by
    intro a ha
    rw [List.mem_reverse] at ha
    obtain ⟨ma, ea⟩ := sortedNew_mem ha
    rw [ea]; exact lowerBound_le _ _ _)
  rwa [List.take_length] at h

/-! ### C23, C24 -/

/-- Invariant of the queue. -/
structure WF (x : Nat → Int) (q : Queue) : Prop where
  last_le : q.last ≤ q.events.length
  sorted : Sorted x (q.events.take q.last)
  nodup : KeysNodup q.events
  cur_lo : -1 ≤ q.cur
  cur_hi : q.cur < q.last
  news : q.news = [] ∨ (q.news = placeNew x q.events q.last ∧ ∃ n ∈ q.news.head?, (n.2 : Int) ≤ q.cur)

/-- The events whose effect is in force: passed forward and not undone. While new events wait to be merged, the
event at the current position has just been undone. -/
def applied (q : Queue) : List Ev := if q.news = [] then q.events.take (q.cur + 1).toNat else q.events.take q.cur.toNat

theorem merged (x : Nat → Int) (q : Queue) (hl : q.last ≤ q.events.length) (hs : Sorted x (q.events.take q.last))
    (hk : KeysNodup q.events) (hn : q.news = placeNew x q.events q.last) :
    Sorted x q.incorporate.events ∧ q.incorporate.events.Perm q.events ∧ q.incorporate.news = [] ∧
      q.incorporate.last = q.incorporate.events.length ∧ q.incorporate.cur = q.cur ∧
      ∀ n ∈ q.news.head?, q.incorporate.events.take n.2 = q.events.take n.2 := by
  have hf := sortedNew_fits x q.events q.last hs hk
  have hlen : (sortedNew x q.events q.last).length = q.events.length - q.last := by
    rw [(sortedNew_perm x q.events q.last).length_eq]; simp
  have htl : (q.events.take q.last).length = q.last := by rw [List.length_take]; omega
  have hlb := hf.lbOk
  rw [htl] at hlb
  have he := incorporate_eq q (sortedNew x q.events q.last).reverse (by rw [List.reverse_reverse, hn]; rfl) hlb
    (by rw [List.length_reverse, hlen]; omega)
  refine ⟨?_, ?_, rfl, rfl, rfl, ?_⟩
  · rw [he]; exact mergeL_sorted x _ _ hs hf
  · rw [he]
    refine (mergeL_perm _ _).trans ?_
    have h1 : ((sortedNew x q.events q.last).reverse.map Prod.fst).Perm (q.events.drop q.last) := by
      rw [List.map_reverse]
      refine (List.reverse_perm _).trans ?_
      refine ((sortedNew_perm x q.events q.last).map Prod.fst).trans ?_
      rw [List.map_map]
      have : (Prod.fst ∘ fun e => (e, lowerBound x (q.events.take q.last) e)) = (id : Ev → Ev) := rfl
      rw [this, List.map_id]
    refine (h1.append_left _).trans ?_
    rw [List.take_append_drop]
  · intro n hnh
    rw [he]
    -- the first item keeps everything before it in place
    have key : ∀ (l : List (Ev × Nat)) (old : List Ev), LbOk old.length l → ∀ a ∈ l.getLast?, 
        (mergeL old l).take a.2 = old.take a.2 := by
      intro l
      induction l with
      | nil => intro old _ a ha; simp at ha
      | cons b l ih =>
        intro old hlb a ha
        obtain ⟨e, lb⟩ := b
        have hlb1 : lb ≤ old.length := hlb.1
        have hlen : (mergeL (old.take lb) l).length = lb + l.length := by
          rw [mergeL_length, List.length_take, min_eq_left hlb1]
        have hal : a.2 ≤ lb := by
          have : ∀ (m : List (Ev × Nat)) (n : Nat), LbOk n m → ∀ c ∈ m, c.2 ≤ n := by
            intro m
            induction m with
            | nil => intro _ _ c hc; simp at hc
            | cons d m ihm =>
              intro n hm c hc
              rcases List.mem_cons.mp hc with rfl | hc
              · exact hm.1
              · exact (ihm _ hm.2 c hc).trans hm.1
          have hmem := List.mem_of_getLast? ha
          rcases List.mem_cons.mp hmem with rfl | hmem
          · exact le_rfl
          · exact this l lb hlb.2 a hmem
        rw [mergeL, List.take_append_of_le_length (by omega)]
        cases l with
        | nil =>
          simp only [mergeL]
          rw [List.take_take, min_eq_left hal]
        | cons c l =>
          rw [ih (old.take lb) (by rw [List.length_take, min_eq_left hlb1]; exact hlb.2) a (by
            rw [List.getLast?_cons_cons] at ha; exact ha), List.take_take, min_eq_left hal]
    have hh : ∃ a ∈ (sortedNew x q.events q.last).head?, n.2 = a.2 := by
      rw [hn] at hnh
      change n ∈ (addIdx (sortedNew x q.events q.last)).head? at hnh
      cases hsn : sortedNew x q.events q.last with
      | nil => rw [hsn] at hnh; simp [addIdx] at hnh
      | cons a l =>
        rw [hsn] at hnh
        simp only [addIdx, List.zipIdx_cons, List.map_cons, List.head?_cons, Option.mem_def, Option.some.injEq] at hnh
        exact ⟨a, rfl, by rw [← hnh]; simp⟩
    obtain ⟨a, ha, hna⟩ := hh
    rw [hna, key _ _ (by rw [htl]; exact hlb) a (by rw [List.getLast?_reverse]; exact ha), List.take_take]
    have : a.2 ≤ q.last := by
      obtain ⟨_, ea⟩ := sortedNew_mem (List.mem_of_head? ha)
      rw [ea]; have := lowerBound_le x (q.events.take q.last) a.1; omega
    rw [min_eq_left this]

/-- What one call of `next` does. -/
structure NextSpec (x : Nat → Int) (q : Queue) (e : Ev) (fwd : Bool) (q' : Queue) : Prop where
  wf : WF x q'
  /-- no event is lost, duplicated or changed -/
  perm : q'.events.Perm q.events
  /-- forward: the queue is fully sorted, `e` joins the applied events and everything not applied comes after it -/
  fwd_spec : fwd = true → q'.news = [] ∧ q'.last = q'.events.length ∧ Sorted x q'.events ∧
    applied q' = applied q ++ [e] ∧ applied q' <+: q'.events ∧ q'.events[q'.cur.toNat]? = some e ∧ 0 ≤ q'.cur
  /-- backward: `e` is the event applied last and is undone because an added event comes before it -/
  bwd_spec : fwd = false → q'.events = q.events ∧ q'.last = q.last ∧ q'.news ≠ [] ∧ applied q = applied q' ++ [e] ∧
    ∃ n ∈ q.events.drop q.last, less x n e = true

theorem take_succ_of_getElem? {α : Type} {l : List α} {n : Nat} {a : α} (h : l[n]? = some a) : l.take (n + 1) = l.take n ++ [a] := by
  rw [List.take_add_one, h]; rfl

theorem advance_spec (x : Nat → Int) (q r : Queue) (hs : Sorted x r.events) (hp : r.events.Perm q.events) (hn : r.news = [])
    (hl : r.last = r.events.length) (hlo : -1 ≤ r.cur) (hhi : r.cur + 1 < r.events.length)
    (ha : r.events.take (r.cur + 1).toNat = applied q) :
    ∃ e q', r.advance = some (e, true, q') ∧ NextSpec x q e true q' := by
  have hlt : (r.cur + 1).toNat < r.events.length := by omega
  obtain ⟨e, he⟩ : ∃ e, r.events[(r.cur + 1).toNat]? = some e := ⟨_, List.getElem?_eq_getElem hlt⟩
  refine ⟨e, { r with cur := r.cur + 1 }, ?_, ?_⟩
  · unfold Queue.advance; rw [he]; rfl
  · have hap : applied { r with cur := r.cur + 1 } = r.events.take ((r.cur + 1).toNat + 1) := by
      unfold applied; simp only [hn, if_true]; congr 1; omega
    refine ⟨⟨?_, ?_, ?_, ?_, ?_, ?_⟩, hp, ?_, ?_⟩
    · simp only; omega
    · simp only [hl, List.take_length]; exact hs
    · exact hs.keysNodup
    · simp only; omega
    · simp only [hl]; omega
    · exact Or.inl hn
    · intro _
      refine ⟨hn, hl, hs, ?_, ?_, he, by simp only; omega⟩
      · rw [hap, take_succ_of_getElem? he, ha]
      · rw [hap]; exact List.take_prefix _ _
    · intro h; cases h

theorem placeNew_head (x : Nat → Int) (events : List Ev) (last : Nat) (n : Ev × Nat)
    (h : n ∈ (placeNew x events last).head?) :
    n.1 ∈ events.drop last ∧ n.2 = lowerBound x (events.take last) n.1 := by
  change n ∈ (addIdx (sortedNew x events last)).head? at h
  cases hsn : sortedNew x events last with
  | nil => rw [hsn] at h; simp [addIdx] at h
  | cons a l =>
    rw [hsn] at h
    simp only [addIdx, List.zipIdx_cons, List.map_cons, List.head?_cons, Option.mem_def, Option.some.injEq] at h
    have hm := sortedNew_mem (x := x) (events := events) (last := last) (a := a) (by rw [hsn]; simp)
    rw [← h]; simpa using hm

theorem placeNew_ne (x : Nat → Int) (events : List Ev) (last : Nat) (h : last < events.length) :
    placeNew x events last ≠ [] := by
  intro hc
  have h1 : (placeNew x events last).length = events.length - last := by
    unfold placeNew addIdx
    simp [sortBy_length]
  rw [hc] at h1
  simp at h1; omega

/-- Going back over an event behind which a new one belongs. -/
theorem back_less (x : Nat → Int) (events : List Ev) (last : Nat) (hs : Sorted x (events.take last)) (hk : KeysNodup events)
    (n : Ev × Nat) (hn : n ∈ (placeNew x events last).head?) (c : Nat) (hc : n.2 ≤ c) (hcl : c < last) (e : Ev)
    (he : events[c]? = some e) : ∃ n ∈ events.drop last, less x n e = true := by
  obtain ⟨h1, h2⟩ := placeNew_head x events last n hn
  refine ⟨n.1, h1, ?_⟩
  have hlen : c < events.length := by
    by_contra h
    rw [List.getElem?_eq_none (by omega)] at he; cases he
  have hee : events[c] = e := by rw [List.getElem?_eq_getElem hlen] at he; exact Option.some.inj he
  have hmt : e ∈ events.take last := by
    rw [List.mem_take_iff_getElem]; exact ⟨c, by omega, hee⟩
  have hmem : e ∈ (events.take last).drop (lowerBound x (events.take last) n.1) := by
    rw [List.mem_drop_iff_getElem]
    refine ⟨c - n.2, ?_, ?_⟩
    · rw [List.length_take]; omega
    · rw [List.getElem_take]; simp only [← h2]
      rw [← hee]; congr 1; omega
  have h3 := lowerBound_drop x _ _ hs e hmem
  have hcross : e.key ≠ n.1.key := by
    have h5 := (keysNodup_iff _).mp hk
    rw [← List.take_append_drop last events, List.pairwise_append] at h5
    exact h5.2.2 e hmt n.1 h1
  rcases C21_total x e n.1 hcross with h | h
  · rw [h3] at h; exact absurd h (by decide)
  · exact h

/-- C23 and C24: as long as `more()` says so, `next` is defined; it loses and duplicates nothing; going forward it returns
the least event not yet applied, in a fully sorted queue; going backward it undoes the event applied last, and only if
an added event comes before it. -/
theorem C24_next (x : Nat → Int) (q : Queue) (h : WF x q) (hm : q.more = true) :
    ∃ e fwd q', q.next x = some (e, fwd, q') ∧ NextSpec x q e fwd q' := by
  obtain ⟨h1, h2, h3, h4, h5, h6⟩ := h
  unfold Queue.next
  cases hnews : q.news with
  | cons n rest =>
    simp only
    rw [hnews] at h6
    obtain ⟨h6, m, hm1, hm2⟩ := h6.resolve_left (by simp)
    simp only [List.head?_cons, Option.mem_def, Option.some.injEq] at hm1
    subst hm1
    have happ : applied q = q.events.take q.cur.toNat := by unfold applied; rw [if_neg (by rw [hnews]; simp)]
    have hhead : n ∈ (placeNew x q.events q.last).head? := by rw [← h6]; simp
    by_cases c : q.cur - 1 ≥ (n.2 : Int)
    · rw [if_pos c]
      have hlt : (q.cur - 1).toNat < q.events.length := by omega
      obtain ⟨e, he⟩ : ∃ e, q.events[(q.cur - 1).toNat]? = some e := ⟨_, List.getElem?_eq_getElem hlt⟩
      refine ⟨e, false, { q with cur := q.cur - 1 }, ?_, ?_⟩
      · unfold Queue.back; simp only [he, Option.map_some]
        rw [hnews]
      · refine ⟨⟨h1, h2, h3, by simp only; omega, by simp only; omega, ?_⟩, List.Perm.refl _, fun h => (by cases h), ?_⟩
        · right
          simp only [hnews]
          exact ⟨h6, n, by simp, c⟩
        · intro _
          refine ⟨rfl, rfl, by simp only [hnews]; simp, ?_, ?_⟩
          · rw [happ]
            unfold applied
            rw [if_neg (by simp only [hnews]; simp)]
            simp only
            rw [show q.cur.toNat = (q.cur - 1).toNat + 1 by omega]
            exact take_succ_of_getElem? he
          · exact back_less x q.events q.last h2 h3 n hhead _ (by omega) (by omega) e he
    · rw [if_neg c]
      set r : Queue := { q with cur := q.cur - 1 } with hr
      have hrn : r.news = placeNew x r.events r.last := by rw [hr]; simp only; rw [hnews]; exact h6
      obtain ⟨m1, m2, m3, m4, m5, m6⟩ := merged x r h1 h2 h3 hrn
      have m6' := m6 n (by rw [hr]; simp only; rw [hnews]; simp)
      have hrc : r.cur = q.cur - 1 := rfl
      have hre : r.events = q.events := rfl
      have hlen : r.incorporate.events.length = q.events.length := m2.length_eq
      have hres := advance_spec x q r.incorporate m1 (by rw [← hre]; exact m2) m3 m4 (by rw [m5, hrc]; omega)
        (by rw [m5, hrc, hlen]; omega) (by
          rw [m5, hrc, happ, ← hre]
          rw [show (q.cur - 1 + 1).toNat = n.2 by omega, show q.cur.toNat = n.2 by omega]
          exact m6')
      obtain ⟨e, q', he, hs⟩ := hres
      exact ⟨e, true, q', by rw [← he, hr, hnews], hs⟩
  | nil =>
    simp only
    have happ : applied q = q.events.take (q.cur + 1).toNat := by unfold applied; rw [if_pos hnews]
    have hcm : q.cur + 1 < q.events.length := by
      unfold Queue.more at hm; rw [hnews] at hm; simpa using hm
    by_cases c1 : q.events.length > q.last
    · rw [if_pos c1]
      by_cases c2 : q.last = 0
      · rw [if_pos c2]
        have hp := sortBy_perm (less x) q.events
        have hcur : q.cur = -1 := by omega
        have hres := advance_spec x q
          { q with events := sortBy (less x) q.events, last := (sortBy (less x) q.events).length }
          (sorted_sort x _ h3) hp hnews rfl h4 (by simp only [sortBy_length]; exact hcm) (by
            rw [happ, hcur]; simp)
        obtain ⟨e, q', he, hs⟩ := hres
        exact ⟨e, true, q', by rw [← he, hnews], hs⟩
      · rw [if_neg c2]
        have hne := placeNew_ne x q.events q.last c1
        cases hpn : placeNew x q.events q.last with
        | nil => exact absurd hpn hne
        | cons n rest =>
          simp only
          have hhead : n ∈ (placeNew x q.events q.last).head? := by rw [hpn]; simp
          by_cases c3 : (n.2 : Int) ≤ q.cur
          · rw [if_pos c3]
            have hlt : q.cur.toNat < q.events.length := by omega
            obtain ⟨e, he⟩ : ∃ e, q.events[q.cur.toNat]? = some e := ⟨_, List.getElem?_eq_getElem hlt⟩
            refine ⟨e, false, { q with news := n :: rest }, ?_, ?_⟩
            · unfold Queue.back; simp only [he, Option.map_some]
            · refine ⟨⟨h1, h2, h3, h4, h5, ?_⟩, List.Perm.refl _, fun h => (by cases h), ?_⟩
              · right
                simp only [hpn]
                exact ⟨trivial, n, by simp, c3⟩
              · intro _
                refine ⟨rfl, rfl, by simp, ?_, ?_⟩
                · rw [happ]
                  unfold applied
                  rw [if_neg (by simp)]
                  simp only
                  rw [show (q.cur + 1).toNat = q.cur.toNat + 1 by omega]
                  exact take_succ_of_getElem? he
                · exact back_less x q.events q.last h2 h3 n hhead _ (by omega) (by omega) e he
          · rw [if_neg c3]
            set r : Queue := { q with news := n :: rest } with hr
            have hrn : r.news = placeNew x r.events r.last := by rw [hr]; simp only; rw [hpn]
            obtain ⟨m1, m2, m3, m4, m5, m6⟩ := merged x r h1 h2 h3 hrn
            have m6' := m6 n (by rw [hr]; simp)
            have hlen : r.incorporate.events.length = q.events.length := m2.length_eq
            have hrc : r.cur = q.cur := rfl
            have hre : r.events = q.events := rfl
            have hres := advance_spec x q r.incorporate m1 m2 m3 m4 (by rw [m5, hrc]; exact h4)
              (by rw [m5, hrc, hlen]; exact hcm) (by
                rw [m5, hrc, happ, ← hre]
                have := congrArg (List.take (q.cur + 1).toNat) m6'
                rw [List.take_take, List.take_take, min_eq_left (by omega)] at this
                exact this)
            obtain ⟨e, q', he, hs⟩ := hres
            exact ⟨e, true, q', by rw [← he, hr], hs⟩
    · rw [if_neg c1]
      have hl : q.last = q.events.length := by omega
      have hres := advance_spec x q q (by rw [hl, List.take_length] at h2; exact h2) (List.Perm.refl _) hnews hl h4 hcm
        happ.symm
      obtain ⟨e, q', he, hs⟩ := hres
      exact ⟨e, true, q', he, hs⟩


theorem wf_empty (x : Nat → Int) : WF x Queue.empty :=
  ⟨by simp [Queue.empty], by simp [Queue.empty, Sorted], by simp [Queue.empty, KeysNodup], by simp [Queue.empty],
    by simp [Queue.empty], Or.inl rfl⟩

/-- Adding a fresh event, outside of backtracking. -/
theorem wf_add (x : Nat → Int) (q : Queue) (h : WF x q) (hn : q.news = []) (a b node : Nat) (ty : EvTy)
    (hf : (ty, a, b) ∉ q.events.map Ev.key) : WF x (q.addEvent a b node ty) ∧ applied (q.addEvent a b node ty) = applied q := by
  obtain ⟨h1, h2, h3, h4, h5, h6⟩ := h
  refine ⟨⟨?_, ?_, ?_, h4, h5, Or.inl hn⟩, ?_⟩
  · simp only [Queue.addEvent, List.length_append]; omega
  · simp only [Queue.addEvent]
    rw [List.take_append_of_le_length h1]; exact h2
  · unfold KeysNodup Queue.addEvent
    rw [List.map_append, List.nodup_append]
    refine ⟨h3, by simp, ?_⟩
    intro k hk k' hk' he
    simp only [List.map_cons, List.map_nil, List.mem_singleton] at hk'
    subst hk'; subst he
    exact hf hk
  · unfold applied Queue.addEvent
    simp only [hn, if_true]
    rw [List.take_append_of_le_length]
    omega

/-- Histories: events are added while not backtracking, and `next` is called while `more()`. The trace lists what
`next` returned. -/
inductive Run (x : Nat → Int) : Queue → List (Ev × Bool) → Prop
  | init : Run x Queue.empty []
  | add {q t} (a b node : Nat) (ty : EvTy) : Run x q t → q.news = [] → (ty, a, b) ∉ q.events.map Ev.key →
      Run x (q.addEvent a b node ty) t
  | next {q t e fwd q'} : Run x q t → q.more = true → q.next x = some (e, fwd, q') → Run x q' (t ++ [(e, fwd)])

/-- Executing a trace as a stack machine: forward pushes, backward must pop the same event. -/
def replay : List (Ev × Bool) → List Ev → Option (List Ev)
  | [], s => some s
  | (e, true) :: t, s => replay t (e :: s)
  | (e, false) :: t, s => match s with
    | f :: s => if f = e then replay t s else none
    | [] => none

theorem replay_append (t u : List (Ev × Bool)) (s : List Ev) : replay (t ++ u) s = (replay t s).bind (replay u) := by
  induction t generalizing s with
  | nil => rfl
  | cons a t ih =>
    obtain ⟨e, b⟩ := a
    cases b
    · cases s with
      | nil => rfl
      | cons f s =>
        simp only [List.cons_append, replay]
        split
        · exact ih s
        · rfl
    · exact ih (e :: s)

/-- C23 and C24 for whole histories: the queue invariant holds; the trace is a well-formed sequence of pushes and pops
whose stack is the applied events; an event is on the stack at most once. -/
theorem C24_history (x : Nat → Int) (q : Queue) (t : List (Ev × Bool)) (h : Run x q t) :
    WF x q ∧ replay t [] = some (applied q).reverse ∧ (applied q).Nodup := by
  have hnd : ∀ q : Queue, WF x q → (applied q).Nodup := by
    intro q hq
    have : (q.events).Nodup := List.Nodup.of_map Ev.key hq.nodup
    unfold applied
    split <;> exact this.sublist (List.take_sublist _ _)
  suffices H : WF x q ∧ replay t [] = some (applied q).reverse from ⟨H.1, H.2, hnd q H.1⟩
  induction h with
  | init => exact ⟨wf_empty x, by simp [replay, applied, Queue.empty]⟩
  | add a b node ty _ hn hf ih =>
    obtain ⟨i1, i2⟩ := ih
    obtain ⟨w1, w2⟩ := wf_add x _ i1 hn a b node ty hf
    exact ⟨w1, by rw [i2, w2]⟩
  | @next q t e fwd q' _ hm he ih =>
    obtain ⟨i1, i2⟩ := ih
    obtain ⟨e', fwd', q'', h1, h2⟩ := C24_next x q i1 hm
    rw [he] at h1
    simp only [Option.some.injEq, Prod.mk.injEq] at h1
    obtain ⟨rfl, rfl, rfl⟩ := h1
    refine ⟨h2.wf, ?_⟩
    rw [replay_append, i2, Option.bind_some]
    cases fwd with
    | true =>
      rw [(h2.fwd_spec rfl).2.2.2.1, List.reverse_append]; rfl
    | false =>
      rw [(h2.bwd_spec rfl).2.2.2.1, List.reverse_append]
      simp [replay]

/-- C23: whenever an event is returned going forward, the array is sorted and holds every event ever added, once. -/
theorem C23_sorted (x : Nat → Int) (q : Queue) (t : List (Ev × Bool)) (h : Run x q t) (e : Ev) (q' : Queue)
    (hm : q.more = true) (he : q.next x = some (e, true, q')) :
    Sorted x q'.events ∧ q'.events.Perm q.events := by
  obtain ⟨e', fwd', q'', h1, h2⟩ := C24_next x q (C24_history x q t h).1 hm
  rw [he] at h1
  simp only [Option.some.injEq, Prod.mk.injEq] at h1
  obtain ⟨rfl, rfl, rfl⟩ := h1
  exact ⟨(h2.fwd_spec rfl).2.2.1, h2.perm⟩

/-- C23: when the queue is exhausted every event added has been applied. -/
theorem C23_complete (x : Nat → Int) (q : Queue) (t : List (Ev × Bool)) (h : Run x q t) (hm : q.more = false) :
    applied q = q.events ∧ Sorted x q.events := by
  obtain ⟨w, _, _⟩ := C24_history x q t h
  unfold Queue.more at hm
  simp only [Bool.or_eq_false_iff, decide_eq_false_iff_not, not_lt, Bool.not_eq_false', List.isEmpty_iff] at hm
  obtain ⟨m1, m2⟩ := hm
  have := w.cur_hi
  have := w.last_le
  have hl : q.last = q.events.length := by omega
  refine ⟨?_, ?_⟩
  · unfold applied; rw [if_pos m2, List.take_of_length_le]; omega
  · have h2 := w.sorted
    rwa [hl, List.take_length] at h2

/-! ### Instance: two lines, then a split that forces backtracking -/

def exX : Nat → Int := fun i => [0, 10, 2, 12, 5].getD i 0

/-- Lines 0-1 and 2-3 are added; both start events are passed; then line 4-1 is added (start at x=5, behind), and line 0-4. -/
def exQ0 : Queue := (Queue.empty.addFb exX 0 1 1).addFb exX 2 3 2

example : ((exQ0.next exX).map fun r => (r.1.a, r.2.1)) = some (0, true) := by decide +kernel

def exQ2 : Queue := (((exQ0.next exX).bind fun r => (r.2.2.next exX).map fun r => r.2.2).getD Queue.empty)

def exQ3 : Queue := (exQ2.addFb exX 0 4 3).addFb exX 4 1 4

/-- The start of line 2-3 and that of line 0-1 stay applied as long as the new events do not precede them: the new
line 0-4 starts after 0-1 (same x, same type, larger end index) and before 2-3, so one event is undone. -/
example : (exQ3.next exX).map (fun r => (r.1.a, r.1.b, r.2.1)) = some (2, 3, false) := by decide +kernel
example : ((exQ3.next exX).bind fun r => r.2.2.next exX).map (fun r => (r.1.a, r.1.b, r.2.1)) = some (0, 4, true) := by
  decide +kernel

end PolyOps.Events
