import Verif.Model.Hierarchy
import Mathlib.Data.List.Perm.Basic
import Mathlib.Data.List.Perm.Lattice
import Mathlib.Data.List.Nodup
import Mathlib.Data.List.Range
import Mathlib.Logic.Relation
import Mathlib.Data.Nat.Find
import Mathlib.Order.Basic
import Mathlib.Tactic.IntervalCases

/-! C33: nested output is the containment structure. -/
namespace PolyOps.Hierarchy
open PolyOps PolyOps.Sweep PolyOps.Loops

/-- `C a b`: loop `a` contains loop `b`. No two loops overlap in part: the loops that contain a given one contain one another. -/
structure Laminar (n : Nat) (C : Nat → Nat → Prop) : Prop where
  lt : ∀ a b, C a b → a < n ∧ b < n
  irrefl : ∀ a, ¬C a a
  trans : ∀ a b c, C a b → C b c → C a c
  chain : ∀ a b c, C a c → C b c → a = b ∨ C a b ∨ C b a

/-- The loops that contain `p`. -/
def outer (n : Nat) (C : Nat → Nat → Prop) [DecidableRel C] (p : Nat) : List Nat := (List.range n).filter (fun a => decide (C a p))

section
variable {n : Nat} {C : Nat → Nat → Prop} [DecidableRel C]

theorem mem_outer (h : Laminar n C) {a p : Nat} : a ∈ outer n C p ↔ C a p := by
  unfold outer
  rw [List.mem_filter, List.mem_range, decide_eq_true_eq]
  exact ⟨fun h => h.2, fun k => ⟨(h.lt a p k).1, k⟩⟩

theorem outer_nodup (p : Nat) : (outer n C p).Nodup := List.Nodup.filter _ List.nodup_range

theorem outer_lt (h : Laminar n C) {a p : Nat} (k : C a p) : (outer n C a).length < (outer n C p).length := by
  have : (a :: outer n C a).Nodup := List.nodup_cons.mpr ⟨fun c => h.irrefl a ((mem_outer h).mp c), outer_nodup a⟩
  have := (List.subperm_of_subset this (l₂ := outer n C p) (by
    intro x hx
    rcases List.mem_cons.mp hx with c | c
    · exact c ▸ (mem_outer h).mpr k
    · exact (mem_outer h).mpr (h.trans _ _ _ ((mem_outer h).mp c) k))).length_le
  rw [List.length_cons] at this
  omega

/-- `a` is the loop directly around `p`. -/
def Direct (C : Nat → Nat → Prop) (a p : Nat) : Prop := C a p ∧ ∀ b, C b p → b = a ∨ C b a

theorem direct_len (h : Laminar n C) {a p : Nat} (k : Direct C a p) : (outer n C a).length + 1 = (outer n C p).length := by
  have l := outer_lt h k.1
  have := (List.subperm_of_subset (outer_nodup (n := n) (C := C) p) (l₂ := a :: outer n C a) (by
    intro x hx
    rcases k.2 x ((mem_outer h).mp hx) with c | c
    · exact c ▸ List.mem_cons_self
    · exact List.mem_cons_of_mem _ ((mem_outer h).mpr c))).length_le
  rw [List.length_cons] at this
  omega

theorem direct_of_len (h : Laminar n C) {a p : Nat} (k : C a p) (e : (outer n C a).length + 1 = (outer n C p).length) : Direct C a p := by
  refine ⟨k, fun b hb => ?_⟩
  rcases h.chain b a p hb k with c | c | c
  · exact .inl c
  · exact .inr c
  · exfalso
    have := outer_lt h c
    have := outer_lt h hb
    omega

theorem exists_direct (h : Laminar n C) {a p : Nat} (k : C a p) : ∃ d, Direct C d p := by
  induction hm : (outer n C p).length - (outer n C a).length using Nat.strong_induction_on generalizing a with
  | _ m ih =>
    by_cases c : ∃ b, C b p ∧ b ≠ a ∧ ¬C b a
    · obtain ⟨b, hb, h1, h2⟩ := c
      have hab : C a b := by
        rcases h.chain b a p hb k with c | c | c
        · exact absurd c h1
        · exact absurd c h2
        · exact c
      have l1 := outer_lt h hab
      have l2 := outer_lt h hb
      exact ih _ (by omega) hb rfl
    · refine ⟨a, k, fun b hb => ?_⟩
      by_contra d
      exact c ⟨b, hb, fun e => d (.inl e), fun e => d (.inr e)⟩

omit [DecidableRel C] in
theorem direct_unique (h : Laminar n C) {a b p : Nat} (ha : Direct C a p) (hb : Direct C b p) : a = b := by
  rcases ha.2 b hb.1 with c | c
  · exact c.symm
  · rcases hb.2 a ha.1 with d | d
    · exact d
    · exact absurd (h.trans _ _ _ c d) (h.irrefl b)

def itemsOf (n : Nat) (C : Nat → Nat → Prop) [DecidableRel C] : List (Nat × List Nat) := (List.range n).map fun p => (p, outer n C p)

theorem parentOf_spec (h : Laminar n C) {p : Nat} (he : outer n C p ≠ []) :
    ∃ o, parentOf (itemsOf n C) (outer n C p) = some o ∧ Direct C o p := by
  obtain ⟨a, ha⟩ := List.exists_mem_of_ne_nil _ he
  obtain ⟨d, hd⟩ := exists_direct h ((mem_outer h).mp ha)
  have g : ∀ o, C o p → ((itemsOf n C).getD o (0, [])).2 = outer n C o := by
    intro o ho
    unfold itemsOf
    have := (h.lt o p ho).1
    rw [List.getD_eq_getElem?_getD, List.getElem?_map, List.getElem?_range this]
    rfl
  have hs : (parentOf (itemsOf n C) (outer n C p)).isSome := by
    unfold parentOf
    rw [List.find?_isSome]
    exact ⟨d, (mem_outer h).mpr hd.1, by rw [g d hd.1]; simpa using direct_len h hd⟩
  obtain ⟨o, ho⟩ := Option.isSome_iff_exists.mp hs
  refine ⟨o, ho, ?_⟩
  have m := List.mem_of_find?_eq_some ho
  have k := List.find?_some ho
  have co := (mem_outer h).mp m
  rw [g o co, decide_eq_true_eq] at k
  exact direct_of_len h co k

theorem arrange_spec {items : List (Nat × List Nat)} {par : Nat → Nat} : ∀ {l : List (Nat × List Nat)} {t : Tree},
    (∀ i ∈ l, i.2 ≠ [] → parentOf items i.2 = some (par i.1)) →
    arrange items l t = some ⟨t.top ++ (l.filter (fun i => i.2.isEmpty)).map Prod.fst,
      fun o => t.children o ++ (l.filter (fun i => !i.2.isEmpty && decide (par i.1 = o))).map Prod.fst⟩
  | [], t, _ => by simp [arrange]
  | (p, hits) :: l, t, h => by
    unfold arrange
    by_cases e : hits = []
    · rw [if_pos e, arrange_spec (fun i hi => h i (List.mem_cons_of_mem _ hi))]
      simp [e]
    · have := h (p, hits) List.mem_cons_self e
      dsimp only at this
      rw [if_neg e, this]
      dsimp only
      rw [arrange_spec (fun i hi => h i (List.mem_cons_of_mem _ hi))]
      have e1 : hits.isEmpty = false := by simpa using e
      congr 2
      · rw [List.filter_cons, if_neg (by simp [e1])]
      · funext o
        by_cases c : par p = o
        · rw [List.filter_cons, if_pos (by simp [e1, c])]
          simp [setFn, c]
        · rw [List.filter_cons, if_neg (by simp [c])]
          have : o ≠ par p := fun d => c d.symm
          simp [setFn, this]

/-- What nested output is to be: every loop once; at top level those contained in none; the children of a loop are those directly
inside it; so the loops above a loop are those that contain it, and its depth is their number. -/
structure Nested (n : Nat) (C : Nat → Nat → Prop) (t : Tree) : Prop where
  once : (t.top ++ (List.range n).flatMap t.children).Perm (List.range n)
  top : ∀ p, p ∈ t.top ↔ p < n ∧ ∀ a, ¬C a p
  child : ∀ a p, p ∈ t.children a ↔ Direct C a p
  above : ∀ a p, Relation.TransGen (fun a b => b ∈ t.children a) a p ↔ C a p

theorem arranged (h : Laminar n C) : ∃ t, arrangeLoops (itemsOf n C) n = some t ∧ Nested n C t := by
  let par : Nat → Nat := fun p => (parentOf (itemsOf n C) (outer n C p)).getD 0
  have hpar : ∀ p, outer n C p ≠ [] → parentOf (itemsOf n C) (outer n C p) = some (par p) ∧ Direct C (par p) p := by
    intro p he
    obtain ⟨o, h1, h2⟩ := parentOf_spec h he
    have : par p = o := by simp [par, h1]
    rw [this]; exact ⟨h1, h2⟩
  unfold arrangeLoops
  have e0 : (itemsOf n C).map Prod.fst = List.range n := by
    unfold itemsOf; rw [List.map_map]; exact List.map_id' _
  rw [if_pos e0]
  have sp := arrange_spec (items := itemsOf n C) (par := par) (l := itemsOf n C) (t := ⟨[], fun _ => []⟩) (by
    intro i hi he
    obtain ⟨p, _, rfl⟩ := List.mem_map.mp hi
    exact (hpar p he).1)
  refine ⟨_, sp, ?_⟩
  have mtop : ∀ p, p ∈ ((itemsOf n C).filter (fun i => i.2.isEmpty)).map Prod.fst ↔ p < n ∧ outer n C p = [] := by
    intro p
    simp only [itemsOf, List.mem_map, List.mem_filter, List.mem_range]
    constructor
    · rintro ⟨i, ⟨⟨q, hq, rfl⟩, he⟩, rfl⟩
      exact ⟨hq, by simpa using he⟩
    · rintro ⟨hp, he⟩
      exact ⟨(p, outer n C p), ⟨⟨p, hp, rfl⟩, by simpa using he⟩, rfl⟩
  have mch : ∀ a p, p ∈ ((itemsOf n C).filter (fun i => !i.2.isEmpty && decide (par i.1 = a))).map Prod.fst ↔
      p < n ∧ outer n C p ≠ [] ∧ par p = a := by
    intro a p
    simp only [itemsOf, List.mem_map, List.mem_filter, List.mem_range]
    constructor
    · rintro ⟨i, ⟨⟨q, hq, rfl⟩, he⟩, rfl⟩
      exact ⟨hq, by simpa using he⟩
    · rintro ⟨hp, he⟩
      exact ⟨(p, outer n C p), ⟨⟨p, hp, rfl⟩, by simpa using he⟩, rfl⟩
  have emp : ∀ p, outer n C p = [] ↔ ∀ a, ¬C a p := by
    intro p
    rw [List.eq_nil_iff_forall_not_mem]
    exact forall_congr' fun a => not_congr (mem_outer h)
  have hchild : ∀ a p, p ∈ ((itemsOf n C).filter (fun i => !i.2.isEmpty && decide (par i.1 = a))).map Prod.fst ↔ Direct C a p := by
    intro a p
    rw [mch]
    constructor
    · rintro ⟨_, h2, h3⟩; exact h3 ▸ (hpar p h2).2
    · intro hd
      have h2 : outer n C p ≠ [] := fun e => (emp p).mp e a hd.1
      exact ⟨(h.lt _ _ hd.1).2, h2, direct_unique h (hpar p h2).2 hd⟩
  have nd : ∀ q : Nat × List Nat → Bool, (((itemsOf n C).filter q).map Prod.fst).Nodup := by
    intro q
    refine List.Nodup.sublist (List.Sublist.map _ List.filter_sublist) ?_
    rw [e0]; exact List.nodup_range
  refine ⟨?_, ?_, ?_, ?_⟩
  · simp only [List.nil_append]
    rw [List.perm_ext_iff_of_nodup ?_ List.nodup_range]
    · intro p
      rw [List.mem_append, mtop, List.mem_flatMap, List.mem_range]
      constructor
      · rintro (a | ⟨a, _, c⟩)
        · exact a.1
        · exact ((mch a p).mp c).1
      · intro hp
        by_cases e : outer n C p = []
        · exact .inl ⟨hp, e⟩
        · exact .inr ⟨par p, List.mem_range.mpr (h.lt _ _ (hpar p e).2.1).1, (mch _ p).mpr ⟨hp, e, rfl⟩⟩
    · rw [List.nodup_append]
      refine ⟨nd _, ?_, ?_⟩
      · rw [List.nodup_flatMap]
        refine ⟨fun a _ => nd _, ?_⟩
        refine List.Pairwise.imp ?_ List.nodup_range
        intro a b hab p hp hp'
        exact hab (((mch a p).mp hp).2.2.symm.trans ((mch b p).mp hp').2.2)
      · intro p hp q hq e
        obtain ⟨a, _, hq⟩ := List.mem_flatMap.mp hq
        exact ((mch a q).mp hq).2.1 (e ▸ ((mtop p).mp hp).2)
  · intro p
    simp only [List.nil_append]
    rw [mtop, emp]
  · intro a p
    simp only [List.nil_append]
    exact hchild a p
  · intro a p
    simp only [List.nil_append]
    have hrel : (fun a b => b ∈ ((itemsOf n C).filter (fun i => !i.2.isEmpty && decide (par i.1 = a))).map Prod.fst) = Direct C := by
      funext a b; exact propext (hchild a b)
    rw [hrel]
    constructor
    · intro t
      induction t with
      | single k => exact k.1
      | tail _ k ih => exact h.trans _ _ _ ih k.1
    · intro k
      induction hm : (outer n C p).length using Nat.strong_induction_on generalizing p with
      | _ m ih =>
        obtain ⟨d, hd⟩ := exists_direct h k
        rcases hd.2 a k with c | c
        · exact c ▸ .single hd
        · exact .tail (ih (outer n C d).length (by have := outer_lt h hd.1; omega) d c rfl) hd

end

/-! ### From the samples -/

theorem insertBy_perm {α : Type} (key : α → Nat) (a : α) : ∀ l, (insertBy key a l).Perm (a :: l)
  | [] => List.Perm.refl _
  | b :: l => by
    unfold insertBy
    split
    · exact List.Perm.refl _
    · exact ((insertBy_perm key a l).cons b).trans (List.Perm.swap a b l)

theorem sortBy_perm {α : Type} (key : α → Nat) : ∀ l, (sortBy key l).Perm l
  | [] => List.Perm.refl _
  | a :: l => (insertBy_perm key a _).trans ((sortBy_perm key l).cons a)

theorem insertBy_sorted {α : Type} (key : α → Nat) (a : α) : ∀ l, l.Pairwise (fun x y => key x ≤ key y) →
    (insertBy key a l).Pairwise (fun x y => key x ≤ key y)
  | [], _ => by simp [insertBy]
  | b :: l, h => by
    have h' := List.pairwise_cons.mp h
    unfold insertBy
    split
    · rename_i k
      refine List.pairwise_cons.mpr ⟨fun x hx => ?_, h⟩
      rcases List.mem_cons.mp hx with c | c
      · exact c ▸ k
      · exact le_trans k (h'.1 x c)
    · rename_i k
      refine List.pairwise_cons.mpr ⟨fun x hx => ?_, insertBy_sorted key a l h'.2⟩
      rcases List.mem_cons.mp ((insertBy_perm key a l).subset hx) with c | c
      · rw [c]; omega
      · exact h'.1 x c

theorem sortBy_sorted {α : Type} (key : α → Nat) : ∀ l, (sortBy key l).Pairwise (fun x y => key x ≤ key y)
  | [] => by simp [sortBy]
  | a :: l => insertBy_sorted key a _ (sortBy_sorted key l)

theorem uniqBy_spec {α : Type} (key : α → Nat) : ∀ l : List α, l.Pairwise (fun x y => key x ≤ key y) →
    (uniqBy key l).Pairwise (fun x y => key x < key y) ∧ (∀ x ∈ uniqBy key l, x ∈ l) ∧ (∀ x ∈ l, ∃ y ∈ uniqBy key l, key y = key x)
  | [], _ => by simp [uniqBy]
  | [a], _ => by simp [uniqBy]
  | a :: b :: l, h => by
    have h' := List.pairwise_cons.mp h
    have h'' := List.pairwise_cons.mp h'.2
    unfold uniqBy
    by_cases c : key a = key b
    · rw [if_pos c]
      obtain ⟨i1, i2, i3⟩ := uniqBy_spec key (a :: l)
        (List.pairwise_cons.mpr ⟨fun x hx => h'.1 x (List.mem_cons_of_mem _ hx), h''.2⟩)
      refine ⟨i1, fun x hx => ?_, fun x hx => ?_⟩
      · rcases List.mem_cons.mp (i2 x hx) with d | d
        · exact d ▸ List.mem_cons_self
        · exact List.mem_cons_of_mem _ (List.mem_cons_of_mem _ d)
      · rcases List.mem_cons.mp hx with d | d
        · exact i3 x (d ▸ List.mem_cons_self)
        · rcases List.mem_cons.mp d with e | e
          · rw [e, ← c]; exact i3 a List.mem_cons_self
          · exact i3 x (List.mem_cons_of_mem _ e)
    · rw [if_neg c]
      obtain ⟨i1, i2, i3⟩ := uniqBy_spec key (b :: l) h'.2
      refine ⟨List.pairwise_cons.mpr ⟨fun x hx => ?_, i1⟩, fun x hx => ?_, fun x hx => ?_⟩
      · have hab := h'.1 b List.mem_cons_self
        rcases List.mem_cons.mp (i2 x hx) with d | d
        · rw [d]; omega
        · have := h''.1 x d; omega
      · rcases List.mem_cons.mp hx with d | d
        · exact d ▸ List.mem_cons_self
        · exact List.mem_cons_of_mem _ (i2 x d)
      · rcases List.mem_cons.mp hx with d | d
        · exact ⟨a, List.mem_cons_self, by rw [d]⟩
        · obtain ⟨y, hy, e⟩ := i3 x d
          exact ⟨y, List.mem_cons_of_mem _ hy, e⟩
termination_by l => l.length

theorem sorted_range {l : List Nat} {n : Nat} (h : l.Pairwise (· < ·)) (hm : ∀ k, k ∈ l ↔ k < n) : l = List.range n := by
  refine List.Perm.eq_of_pairwise (le := (· < ·)) ?_ h List.pairwise_lt_range ?_
  · intro a b _ _ h1 h2; omega
  · rw [List.perm_ext_iff_of_nodup (h.imp (fun h => Nat.ne_of_lt h)) List.nodup_range]
    intro a; rw [hm, List.mem_range]

/-- The line from point `i` leads to the left, or straight down in coordinates. -/
def Back (data : Nat → Pt) (next : Nat → Nat) (i : Nat) : Prop :=
  (data (next i)).x < (data i).x ∨ ((data (next i)).x = (data i).x ∧ (data (next i)).y < (data i).y)
instance (data : Nat → Pt) (next : Nat → Nat) (i : Nat) : Decidable (Back data next i) := by unfold Back; infer_instance

/-- The number of times that loop `l` goes around: of the lines `hits` (those above a point), the ones of `l` that lead back less
those that lead forth. -/
def windOf (data : Nat → Pt) (next : Nat → Nat) (idx : Nat → LIdx) (l : Nat) (hits : List Nat) : Int :=
  (hits.countP (fun i => decide (idx i = .loop l ∧ Back data next i)) : Int) - hits.countP (fun i => decide (idx i = .loop l ∧ ¬Back data next i))

theorem lineSign_eq (data : Nat → Pt) (next : Nat → Nat) (i : Nat) : lineSign data next i = if Back data next i then 1 else -1 := by
  unfold lineSign
  dsimp only
  have hB : Back data next i ↔ (data (next i)).x < (data i).x ∨ ((data (next i)).x = (data i).x ∧ (data (next i)).y < (data i).y) := Iff.rfl
  by_cases h : (data i).x - (data (next i)).x ≠ 0
  · rw [if_pos h]
    by_cases k : (data (next i)).x < (data i).x
    · rw [if_pos (by omega), if_pos (hB.mpr (by omega))]
    · rw [if_neg (by omega), if_neg (fun c => by have := hB.mp c; omega)]
  · rw [if_neg h]
    by_cases k : (data (next i)).y < (data i).y
    · rw [if_pos (by omega), if_pos (hB.mpr (by omega))]
    · rw [if_neg (by omega), if_neg (fun c => by have := hB.mp c; omega)]

theorem windOf_cons (data : Nat → Pt) (next : Nat → Nat) (idx : Nat → LIdx) (l i : Nat) (hits : List Nat) :
    windOf data next idx l (i :: hits) = (if idx i = .loop l then lineSign data next i else 0) + windOf data next idx l hits := by
  unfold windOf
  rw [List.countP_cons, List.countP_cons, lineSign_eq]
  by_cases a : idx i = .loop l <;> by_cases b : Back data next i <;> simp [a, b] <;> omega

theorem countHit_fold (data : Nat → Pt) (next : Nat → Nat) (idx : Nat → LIdx) (own l : Nat) (hl : l ≠ own) : ∀ (hits : List Nat) (g : Nat → Int),
    (hits.foldl (countHit data next idx own) g) l = g l + windOf data next idx l hits
  | [], g => by simp [windOf]
  | i :: hits, g => by
    rw [List.foldl_cons, countHit_fold data next idx own l hl hits]
    rw [windOf_cons]
    unfold countHit
    cases hi : idx i with
    | unset => simp
    | discarded => simp
    | anchor => simp
    | loop k =>
      by_cases e : k = l
      · subst e
        dsimp only
        rw [if_neg hl, if_pos rfl]
        simp only [setFn, if_true]
        omega
      · rw [if_neg (show ¬(LIdx.loop k = LIdx.loop l) by simpa using e)]
        by_cases e2 : k = own
        · simp [e2]
        · have e3 : l ≠ k := fun d => e d.symm
          simp [e2, setFn, e3]

theorem countHit_own (data : Nat → Pt) (next : Nat → Nat) (idx : Nat → LIdx) (own : Nat) : ∀ (hits : List Nat) (g : Nat → Int),
    (hits.foldl (countHit data next idx own) g) own = g own
  | [], _ => rfl
  | i :: hits, g => by
    rw [List.foldl_cons, countHit_own data next idx own hits]
    unfold countHit
    cases hi : idx i with
    | unset => rfl
    | discarded => rfl
    | anchor => rfl
    | loop k =>
      by_cases e : k = own
      · simp [e]
      · have e3 : own ≠ k := fun d => e d.symm
        simp [e, setFn, e3]

/-- C33: if every loop has a sample, and for every sample the lines above it wind around it exactly for the loops that contain its
loop, then no assertion fails and nested output is the containment structure. -/
theorem C33_nested {n : Nat} {C : Nat → Nat → Prop} (h : Laminar n C) (data : Nat → Pt) (next : Nat → Nat) (idx : Nat → LIdx)
    (samples : List (Nat × List Nat)) (hall : ∀ k < n, ∃ s ∈ samples, idx s.1 = .loop k)
    (hlt : ∀ s ∈ samples, ∀ k, idx s.1 = .loop k → k < n)
    (hw : ∀ s ∈ samples, ∀ k, idx s.1 = .loop k → ∀ l < n, l ≠ k → (windOf data next idx l s.2 ≠ 0 ↔ C l k)) :
    ∃ t, loopHierarchy data next idx n samples = some t ∧ Nested n C t := by
  classical
  obtain ⟨t, ht, hn⟩ := arranged h
  refine ⟨t, ?_, hn⟩
  unfold loopHierarchy
  rw [← ht]
  congr 1
  set S := samples.filterMap fun s => (loopOf (idx s.1)).map fun k => (k, s.2) with hS
  obtain ⟨u1, u2, u3⟩ := uniqBy_spec Prod.fst (sortBy Prod.fst S) (sortBy_sorted _ _)
  have mS : ∀ x, x ∈ S ↔ ∃ s ∈ samples, idx s.1 = .loop x.1 ∧ s.2 = x.2 := by
    intro x
    rw [hS, List.mem_filterMap]
    constructor
    · rintro ⟨s, hs, e⟩
      obtain ⟨k, hk, rfl⟩ := Option.map_eq_some_iff.mp e
      refine ⟨s, hs, ?_, rfl⟩
      unfold loopOf at hk
      split at hk
      · rename_i e; cases hk; exact e
      · cases hk
    · rintro ⟨s, hs, e1, e2⟩
      exact ⟨s, hs, by rw [e1]; simp [loopOf, e2]⟩
  have hu : uniqueSorted idx samples = uniqBy Prod.fst (sortBy Prod.fst S) := rfl
  rw [hu]
  set U := uniqBy Prod.fst (sortBy Prod.fst S) with hU
  have mU : ∀ x ∈ U, x ∈ S := fun x hx => (sortBy_perm Prod.fst S).subset (u2 x hx)
  have fU : U.map Prod.fst = List.range n := by
    apply sorted_range
    · exact List.Pairwise.map _ (fun _ _ h => h) u1
    · intro k
      constructor
      · intro hk
        obtain ⟨x, hx, rfl⟩ := List.mem_map.mp hk
        obtain ⟨s, hs, e, _⟩ := (mS x).mp (mU x hx)
        exact hlt s hs _ e
      · intro hk
        obtain ⟨s, hs, e⟩ := hall k hk
        obtain ⟨y, hy, e2⟩ := u3 (k, s.2) ((sortBy_perm Prod.fst S).symm.subset ((mS _).mpr ⟨s, hs, e, rfl⟩))
        exact List.mem_map.mpr ⟨y, hy, e2⟩
  have e1 : U.map (replaceHits data next idx n) = U.map (fun x => (x.1, outer n C x.1)) := by
    apply List.map_congr_left
    intro x hx
    obtain ⟨s, hs, e, e2⟩ := (mS x).mp (mU x hx)
    unfold replaceHits outer
    dsimp only
    congr 1
    apply List.filter_congr
    intro l hl
    have hl := List.mem_range.mp hl
    by_cases c : l = x.1
    · rw [c, countHit_own]
      have := h.irrefl x.1
      simp [this]
    · rw [countHit_fold data next idx x.1 l c]
      have := hw s hs x.1 e l hl c
      rw [e2] at this
      simp only [zero_add]
      exact decide_eq_decide.mpr this
  rw [e1]
  unfold itemsOf
  rw [← fU, List.map_map]
  rfl

/-! ### A case: loop 1 in loop 0, loop 2 in loop 1, loop 3 apart. -/

def exC (a b : Nat) : Prop := (a = 0 ∧ (b = 1 ∨ b = 2)) ∨ (a = 1 ∧ b = 2)
instance : DecidableRel exC := fun a b => by unfold exC; infer_instance

theorem exC_laminar : Laminar 4 exC := by
  constructor <;> intros <;> unfold exC at * <;> omega

example : (arrangeLoops (itemsOf 4 exC) 4).map (fun t => (t.top, (List.range 4).map t.children)) = some ([0, 3], [[1], [2], [], []]) := by decide

/-- Two nested squares as loops 0 (points 0 to 3) and 1 (points 4 to 7); the sample of loop 1 has the lines of both loops above it. -/
def exData (i : Nat) : Pt := match i with
  | 0 => ⟨0, 0⟩ | 1 => ⟨9, 0⟩ | 2 => ⟨9, 9⟩ | 3 => ⟨0, 9⟩ | 4 => ⟨3, 3⟩ | 5 => ⟨6, 3⟩ | 6 => ⟨6, 6⟩ | _ => ⟨3, 6⟩
def exNext (i : Nat) : Nat := if i % 4 = 3 then i - 3 else i + 1
def exIdx (i : Nat) : LIdx := if i < 8 then .loop (i / 4) else .discarded

theorem exNest : Laminar 2 (fun a b => a = 0 ∧ b = 1) := by constructor <;> intros <;> omega

example : ∃ t, loopHierarchy exData exNext exIdx 2 [(6, [4, 0]), (3, [9]), (5, [0])] = some t ∧ Nested 2 (fun a b => a = 0 ∧ b = 1) t :=
  C33_nested exNest exData exNext exIdx _ (by decide) (by
    intro s hs k hk
    simp only [List.mem_cons, List.not_mem_nil, or_false] at hs
    rcases hs with rfl | rfl | rfl <;> (simp [exIdx] at hk; omega)) (by
    intro s hs k hk l hl hlk
    simp only [List.mem_cons, List.not_mem_nil, or_false] at hs
    rcases hs with rfl | rfl | rfl <;> (simp only [exIdx] at hk; simp at hk; subst hk; interval_cases l <;> first | (exfalso; exact hlk rfl) | decide))

end PolyOps.Hierarchy
