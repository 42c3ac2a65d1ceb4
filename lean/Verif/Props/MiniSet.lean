import Verif.Model.MiniSet
import Mathlib.Data.List.Basic
import Mathlib.Data.Set.Basic
import Mathlib.Data.Set.Insert
import Mathlib.Data.List.TakeWhile

/-! C36: origin sets. -/
namespace PolyOps.MiniSet

/-- The storage is in order. -/
def WF (s : MSet) : Prop :=
  s.size = 0 ∨ (s.size = 1 ∧ ∃ v, s.u = .item v) ∨
    (1 < s.size ∧ ∃ cap l, s.u = .data cap l ∧ l.length = s.size ∧ l.Pairwise (· < ·) ∧ s.size ≤ cap)

/-- What a set holds: its elements can be read, in increasing order without repetition, and are those of `S`. -/
def Holds (s : MSet) (S : Set Nat) : Prop := ∃ l, s.elems = some l ∧ l.Pairwise (· < ·) ∧ ∀ x, x ∈ l ↔ x ∈ S

theorem WF.elems {s : MSet} (h : WF s) : ∃ l, s.elems = some l ∧ l.Pairwise (· < ·) ∧ l.length = s.size := by
  rcases h with h | ⟨h, v, hv⟩ | ⟨h, cap, l, hu, hl, hs, _⟩
  · exact ⟨[], by simp [MSet.elems, h], by simp, by simp [h]⟩
  · exact ⟨[v], by simp [MSet.elems, h, hv], by simp, by simp [h]⟩
  · refine ⟨l, ?_, hs, hl⟩
    unfold MSet.elems
    rw [if_pos h, hu]
    dsimp only
    rw [← hl, if_pos le_rfl, List.take_length]

theorem elems_big {s : MSet} {cap : Nat} {l e : List Nat} (h : 1 < s.size) (hu : s.u = .data cap l) (hl : l.length = s.size)
    (he : s.elems = some e) : e = l := by
  unfold MSet.elems at he
  rw [if_pos h, hu] at he
  dsimp only at he
  rw [← hl, if_pos le_rfl, List.take_length] at he
  exact (Option.some.inj he).symm

theorem elems_zero {s : MSet} {e : List Nat} (h : s.size = 0) (he : s.elems = some e) : e = [] := by
  simp only [MSet.elems, h] at he
  simpa using he.symm

theorem mem_ins (v x : Nat) : ∀ l, x ∈ ins v l ↔ x = v ∨ x ∈ l
  | [] => by simp [ins]
  | a :: l => by
    unfold ins
    split
    · simp
    · simp only [List.mem_cons, mem_ins v x l]; tauto

theorem ins_length (v : Nat) : ∀ l, (ins v l).length = l.length + 1
  | [] => rfl
  | a :: l => by
    unfold ins
    split
    · simp
    · simp [ins_length v l]

theorem ins_sorted (v : Nat) : ∀ l, l.Pairwise (· ≤ ·) → (ins v l).Pairwise (· ≤ ·)
  | [], _ => by simp [ins]
  | a :: l, h => by
    have h' := List.pairwise_cons.mp h
    unfold ins
    split
    · rename_i k
      refine List.pairwise_cons.mpr ⟨fun x hx => ?_, h⟩
      rcases List.mem_cons.mp hx with c | c
      · exact c ▸ k
      · exact le_trans k (h'.1 x c)
    · rename_i k
      refine List.pairwise_cons.mpr ⟨fun x hx => ?_, ins_sorted v l h'.2⟩
      rcases (mem_ins v x l).mp hx with c | c
      · rw [c]; omega
      · exact h'.1 x c

theorem mem_sort (x : Nat) : ∀ l, x ∈ sort l ↔ x ∈ l
  | [] => by simp [sort]
  | a :: l => by rw [sort, mem_ins, mem_sort x l, List.mem_cons]

theorem sort_sorted : ∀ l, (sort l).Pairwise (· ≤ ·)
  | [] => by simp [sort]
  | a :: l => ins_sorted a _ (sort_sorted l)

theorem sort_length : ∀ l, (sort l).length = l.length
  | [] => rfl
  | a :: l => by rw [sort, ins_length, sort_length l, List.length_cons]

theorem mem_merge2 (x : Nat) (m : List Nat) : ∀ l, x ∈ merge2 l m ↔ x ∈ l ∨ x ∈ m
  | [] => by simp [merge2]
  | a :: l => by rw [merge2, mem_ins, mem_merge2 x m l, List.mem_cons]; tauto

theorem merge2_sorted (m : List Nat) (hm : m.Pairwise (· ≤ ·)) : ∀ l, (merge2 l m).Pairwise (· ≤ ·)
  | [] => hm
  | a :: l => ins_sorted a _ (merge2_sorted m hm l)

theorem merge2_length (m : List Nat) : ∀ l : List Nat, (merge2 l m).length = l.length + m.length
  | [] => by simp [merge2]
  | a :: l => by rw [merge2, ins_length, merge2_length m l, List.length_cons]; omega

theorem uniq_spec : ∀ l : List Nat, l.Pairwise (· ≤ ·) → (uniq l).Pairwise (· < ·) ∧ (∀ x, x ∈ uniq l ↔ x ∈ l) ∧ (uniq l).length ≤ l.length
  | [], _ => by simp [uniq]
  | [a], _ => by simp [uniq]
  | a :: b :: l, h => by
    have h' := List.pairwise_cons.mp h
    have h'' := List.pairwise_cons.mp h'.2
    unfold uniq
    by_cases c : a = b
    · rw [if_pos c]
      obtain ⟨i1, i2, i3⟩ := uniq_spec (a :: l) (List.pairwise_cons.mpr ⟨fun x hx => h'.1 x (List.mem_cons_of_mem _ hx), h''.2⟩)
      refine ⟨i1, fun x => ?_, by simp at i3 ⊢; omega⟩
      rw [i2, c]; simp
    · rw [if_neg c]
      obtain ⟨i1, i2, i3⟩ := uniq_spec (b :: l) h'.2
      refine ⟨List.pairwise_cons.mpr ⟨fun x hx => ?_, i1⟩, fun x => ?_, by simp at i3 ⊢; omega⟩
      · have hab := h'.1 b List.mem_cons_self
        rcases List.mem_cons.mp ((i2 x).mp hx) with d | d
        · rw [d]; omega
        · have := h''.1 x d; omega
      · rw [List.mem_cons, i2, List.mem_cons (a := x) (b := a)]
termination_by l => l.length

/-- Two different elements: the size is at least two. -/
theorem two_le {l : List Nat} {a b : Nat} (ha : a ∈ l) (hb : b ∈ l) (h : a ≠ b) : 1 < l.length := by
  match l, ha, hb with
  | [c], ha, hb => exact absurd ((List.mem_singleton.mp ha).trans (List.mem_singleton.mp hb).symm) h
  | _ :: _ :: _, _, _ => simp

theorem insertMore_spec {s : MSet} {S : Set Nat} (h : WF s) (h0 : s.size ≠ 0) (hS : Holds s S) (l : List Nat) :
    ∃ s', s.insertMore l = some s' ∧ WF s' ∧ Holds s' (S ∪ {x | x ∈ l}) := by
  obtain ⟨e, he, hs, hm⟩ := hS
  have big : ∀ (r : List Nat) (cap : Nat), 1 < r.length → r.Pairwise (· < ·) → r.length ≤ cap → ∀ T : Set Nat, (∀ x, x ∈ r ↔ x ∈ T) →
      WF ⟨r.length, .data cap r⟩ ∧ Holds ⟨r.length, .data cap r⟩ T := by
    intro r cap h1 h2 h3 T h4
    exact ⟨.inr (.inr ⟨h1, cap, r, rfl, rfl, h2, h3⟩), r, by simp [MSet.elems, h1], h2, h4⟩
  unfold MSet.insertMore
  rcases h with h | ⟨h, v, hv⟩ | ⟨h, cap, items, hu, hl, hp, hc⟩
  · exact absurd h h0
  · rw [if_pos h, hv]
    dsimp only
    have ee : e = [v] := by simp [MSet.elems, h, hv] at he; exact he.symm
    subst ee
    cases hd : l.dropWhile (fun x => decide (x = v)) with
    | nil =>
      refine ⟨s, rfl, .inr (.inl ⟨h, v, hv⟩), [v], he, hs, fun x => ?_⟩
      have := List.dropWhile_eq_nil_iff.mp hd
      rw [hm]
      constructor
      · exact .inl
      · rintro (k | k)
        · exact k
        · exact (hm x).mp (by simpa using this x k)
    | cons a l' =>
      dsimp only
      have av : a ≠ v := by
        have := List.head_dropWhile_not (fun x => decide (x = v)) (l := l) (by rw [hd]; simp)
        simpa [hd] using this
      obtain ⟨u1, u2, u3⟩ := uniq_spec (sort (v :: a :: l')) (sort_sorted _)
      refine ⟨_, rfl, big _ _ (two_le (a := a) (b := v) ?_ ?_ av) u1 ?_ _ fun x => ?_⟩
      · rw [u2, mem_sort]; simp
      · rw [u2, mem_sort]; simp
      · rw [sort_length] at u3; simpa using u3
      · rw [u2, mem_sort]
        have hl : l = l.takeWhile (fun x => decide (x = v)) ++ (a :: l') := by
          rw [← hd]; exact List.takeWhile_append_dropWhile.symm
        have tw : ∀ y ∈ l.takeWhile (fun x => decide (x = v)), y = v := by
          intro y hy; simpa using List.mem_takeWhile_imp hy
        have mS : x ∈ S ↔ x = v := by rw [← hm]; simp
        have ml : x ∈ l ↔ x ∈ l.takeWhile (fun x => decide (x = v)) ∨ x ∈ a :: l' := by
          conv_lhs => rw [hl]
          exact List.mem_append
        rw [Set.mem_union, mS, Set.mem_ofPred_eq, ml, List.mem_cons]
        constructor
        · rintro (k | k)
          · exact .inl k
          · exact .inr (.inr k)
        · rintro (k | k | k)
          · exact .inl k
          · exact .inl (tw x k)
          · exact .inr k
  · rw [if_neg (by omega)]
    have ee : e = items := elems_big h hu hl he
    subst ee
    cases l with
    | nil => exact ⟨s, rfl, .inr (.inr ⟨h, cap, e, hu, hl, hp, hc⟩), e, he, hs, fun x => by rw [hm]; simp⟩
    | cons a l =>
      dsimp only
      rw [hu]
      dsimp only
      rw [← hl, List.take_length]
      obtain ⟨u1, u2, u3⟩ := uniq_spec (merge2 e (sort (a :: l))) (merge2_sorted _ (sort_sorted _) e)
      refine ⟨_, rfl, big _ _ ?_ u1 ?_ _ fun x => ?_⟩
      · match e, hs with
        | [], _ => simp at hl; omega
        | [_], _ => simp at hl; omega
        | x :: y :: e', hs =>
          refine two_le (a := x) (b := y) ?_ ?_ ?_
          · rw [u2, mem_merge2]; simp
          · rw [u2, mem_merge2]; simp
          · have := (List.pairwise_cons.mp hs).1 y List.mem_cons_self; omega
      · rw [merge2_length, sort_length] at u3
        split <;> omega
      · rw [u2, mem_merge2, mem_sort, hm]
        simp

/-- C36: inserting a range gives the union, sorted without repetition. -/
theorem C36_insert_range {s : MSet} {S : Set Nat} (h : WF s) (hS : Holds s S) (l : List Nat) :
    ∃ s', s.insertRange l = some s' ∧ WF s' ∧ Holds s' (S ∪ {x | x ∈ l}) := by
  unfold MSet.insertRange
  by_cases h0 : s.size = 0
  · rw [if_pos h0]
    have hS0 : ∀ x, x ∉ S := by
      obtain ⟨e, he, _, hm⟩ := hS
      intro x hx
      have : e = [] := elems_zero h0 he
      rw [this] at hm
      simpa using (hm x).mpr hx
    cases l with
    | nil => exact ⟨s, rfl, h, by simpa using hS⟩
    | cons a l =>
      have h1 : WF ⟨1, .item a⟩ := .inr (.inl ⟨rfl, a, rfl⟩)
      obtain ⟨s', e, w, hh⟩ := insertMore_spec h1 (by simp) (S := ({a} : Set Nat)) ⟨[a], by simp [MSet.elems], by simp, fun x => by rw [List.mem_singleton, Set.mem_singleton_iff]⟩ l
      refine ⟨s', e, w, ?_⟩
      convert hh using 1
      ext x
      simp [hS0 x]
  · rw [if_neg h0]
    exact insertMore_spec h h0 hS l

/-- C36: inserting one value, except a second value into a set with one. -/
theorem C36_insert {s : MSet} {S : Set Nat} (h : WF s) (hS : Holds s S) (v : Nat) (h1 : s.size = 1 → v ∈ S) :
    ∃ s', s.insert v = some s' ∧ WF s' ∧ Holds s' (insert v S) := by
  obtain ⟨e, he, hs, hm⟩ := hS
  unfold MSet.insert
  rcases h with h | ⟨h, t, hv⟩ | ⟨h, cap, items, hu, hl, hp, hc⟩
  · rw [if_pos h]
    have : e = [] := elems_zero h he
    subst this
    refine ⟨_, rfl, .inr (.inl ⟨rfl, v, rfl⟩), [v], by simp [MSet.elems], by simp, fun x => ?_⟩
    have := hm x
    simp at this
    simp [this]
  · rw [if_neg (by omega), if_pos h, hv]
    have ee : e = [t] := by simp [MSet.elems, h, hv] at he; exact he.symm
    subst ee
    have vt : v = t := by have := (hm v).mpr (h1 h); simpa using this
    dsimp only
    rw [if_pos vt]
    refine ⟨s, rfl, .inr (.inl ⟨h, t, hv⟩), [t], he, hs, fun x => ?_⟩
    rw [hm, Set.mem_insert_iff]
    constructor
    · exact .inr
    · rintro (k | k)
      · rw [k]; exact h1 h
      · exact k
  · rw [if_neg (by omega), if_neg (by omega), hu]
    have ee : e = items := elems_big h hu hl he
    subst ee
    dsimp only
    rw [← hl, List.take_length]
    set pos := e.takeWhile (fun x => decide (x ≤ v)) with hpos
    have hsplit : e = pos ++ e.dropWhile (fun x => decide (x ≤ v)) := List.takeWhile_append_dropWhile.symm
    have hdrop : e.drop pos.length = e.dropWhile (fun x => decide (x ≤ v)) := by
      conv_lhs => rw [hsplit]
      exact List.drop_left
    have hpv : ∀ x ∈ pos, x ≤ v := fun x hx => by simpa using List.mem_takeWhile_imp hx
    have hdv : ∀ x ∈ e.dropWhile (fun x => decide (x ≤ v)), v < x := by
      intro x hx
      have hp2 : (e.dropWhile (fun x => decide (x ≤ v))).Pairwise (· < ·) := hs.sublist (List.dropWhile_sublist _)
      cases hd : e.dropWhile (fun x => decide (x ≤ v)) with
      | nil => rw [hd] at hx; simp at hx
      | cons a l =>
        have ha : v < a := by
          have := List.head_dropWhile_not (fun x => decide (x ≤ v)) (l := e) (by rw [hd]; simp)
          simpa [hd] using this
        rw [hd] at hx hp2
        rcases List.mem_cons.mp hx with k | k
        · exact k ▸ ha
        · exact lt_trans ha ((List.pairwise_cons.mp hp2).1 x k)
    by_cases c : pos.getLast? = some v
    · rw [if_pos c]
      have vm : v ∈ e := by
        rw [hsplit]; exact List.mem_append_left _ (List.mem_of_getLast? c)
      refine ⟨s, rfl, .inr (.inr ⟨h, cap, e, hu, hl, hp, hc⟩), e, he, hs, fun x => ?_⟩
      rw [hm, Set.mem_insert_iff]
      constructor
      · exact .inr
      · rintro (k | k)
        · rw [k]; exact (hm v).mp vm
        · exact k
    · rw [if_neg c, hdrop]
      have hlt : ∀ x ∈ pos, x < v := by
        intro x hx
        rcases lt_or_eq_of_le (hpv x hx) with k | k
        · exact k
        · exfalso
          apply c
          obtain ⟨l1, l2, el⟩ := List.append_of_mem (k ▸ hx)
          cases l2 with
          | nil => rw [el]; simp
          | cons y l2 =>
            have hp3 : pos.Pairwise (· < ·) := hs.sublist (List.takeWhile_sublist _)
            rw [el] at hp3
            have := (List.pairwise_cons.mp (List.pairwise_append.mp hp3).2.1).1 y List.mem_cons_self
            have := hpv y (by rw [el]; simp)
            omega
      have hsort : (pos ++ v :: e.dropWhile (fun x => decide (x ≤ v))).Pairwise (· < ·) := by
        rw [List.pairwise_append]
        refine ⟨hs.sublist (List.takeWhile_sublist _), List.pairwise_cons.mpr ⟨hdv, hs.sublist (List.dropWhile_sublist _)⟩, ?_⟩
        intro x hx y hy
        rcases List.mem_cons.mp hy with k | k
        · rw [k]; exact hlt x hx
        · exact lt_trans (hlt x hx) (hdv y k)
      have hlen : (pos ++ v :: e.dropWhile (fun x => decide (x ≤ v))).length = e.length + 1 := by
        have := congrArg List.length hsplit
        rw [List.length_append] at this ⊢
        rw [List.length_cons]; omega
      refine ⟨_, rfl, .inr (.inr ⟨by dsimp only; omega, _, _, rfl, hlen, hsort, ?_⟩), pos ++ v :: e.dropWhile (fun x => decide (x ≤ v)), ?_, hsort, fun x => ?_⟩
      · dsimp only; split <;> omega
      · unfold MSet.elems
        dsimp only
        rw [if_pos (by omega), if_pos (by omega), ← hlen, List.take_length]
      · rw [Set.mem_insert_iff, ← hm x]
        conv_rhs => rw [hsplit]
        simp only [List.mem_append, List.mem_cons]
        tauto

/-- Finding: inserting a second, different value into a set with one element leaves the size at 1 while the element is gone: the
next read is of a union member that was not written. -/
theorem C36_insert_second (t v : Nat) (h : v ≠ t) :
    ∃ s', MSet.insert ⟨1, .item t⟩ v = some s' ∧ s'.size = 1 ∧ s'.elems = none := by
  refine ⟨_, by simp only [MSet.insert]; rfl, ?_, ?_⟩ <;> simp [h, MSet.elems]

/-- Finding: `empty` is true exactly for sets that are not empty. -/
theorem C36_empty (s : MSet) (h : WF s) : s.empty = true ↔ s.elems ≠ some [] := by
  obtain ⟨l, h1, _, h2⟩ := h.elems
  rw [h1]
  unfold MSet.empty
  rw [decide_eq_true_eq, ← h2]
  simp

/-- C36: merging: the target holds the union. The source keeps its elements or, if its block is large enough for both, is left with
those the target had. -/
theorem C36_merge {a b : MSet} {A B : Set Nat} (wa : WF a) (wb : WF b) (ha : Holds a A) (hb : Holds b B) :
    ∃ a' b', a.merge b = some (a', b') ∧ WF a' ∧ WF b' ∧ Holds a' (A ∪ B) ∧ (Holds b' B ∨ Holds b' A) := by
  unfold MSet.merge
  have hf : ∃ sw, MSet.fits a b = some sw := by
    unfold MSet.fits
    rcases wb with h | ⟨h, v, hv⟩ | ⟨h, cap, l, hu, _⟩
    · rw [if_neg (by omega)]; exact ⟨_, rfl⟩
    · rw [if_neg (by omega)]; exact ⟨_, rfl⟩
    · rw [if_pos h, hu]; exact ⟨_, rfl⟩
  obtain ⟨sw, hsw⟩ := hf
  rw [hsw, Option.bind_some]
  dsimp only
  cases sw
  · simp only [Bool.false_eq_true, if_false]
    obtain ⟨l, e, _, hm⟩ := id hb
    obtain ⟨a', e', w', h'⟩ := C36_insert_range wa ha l
    refine ⟨a', b, by rw [e, Option.bind_some, e', Option.map_some], w', wb, ?_, .inl hb⟩
    convert h' using 1
    ext x; simp [hm]
  · simp only [if_true]
    obtain ⟨l, e, _, hm⟩ := id ha
    obtain ⟨a', e', w', h'⟩ := C36_insert_range wb hb l
    refine ⟨a', a, by rw [e, Option.bind_some, e', Option.map_some], w', wa, ?_, .inr ha⟩
    convert h' using 1
    ext x; simp [hm, or_comm]

/-! ### Histories -/

/-- What the callbacks mean: the sets of origins, one for each point so far. -/
structure Spec where
  n : Nat
  sets : Nat → Set Nat
  /-- Points that were the source of a merge. -/
  used : Nat → Prop

def Spec.step (s : Spec) : Call → Spec
  | .added i => ⟨s.n + 1, fun k => if k = s.n then {i} else s.sets k, s.used⟩
  | .between _ _ => ⟨s.n + 1, fun k => if k = s.n then ∅ else s.sets k, s.used⟩
  | .merge f d => ⟨s.n, fun k => if k = d then s.sets d ∪ s.sets f else s.sets k, fun k => k = f ∨ s.used k⟩

/-- A call is allowed: merges are of two different existing points, and the source was not a source before. -/
def Spec.ok (s : Spec) : Call → Prop
  | .merge f d => f < s.n ∧ d < s.n ∧ f ≠ d ∧ ¬s.used f
  | _ => True

def Spec.okAll (s : Spec) : List Call → Prop
  | [] => True
  | c :: l => s.ok c ∧ (s.step c).okAll l

def Spec.init : Spec := ⟨0, fun _ => ∅, fun _ => False⟩

structure Agree (s : Spec) (t : List MSet) : Prop where
  len : t.length = s.n
  wf : ∀ (k : Nat) (m : MSet), t[k]? = some m → WF m
  holds : ∀ (k : Nat) (m : MSet), t[k]? = some m → ¬s.used k → Holds m (s.sets k)
  used : ∀ k, s.used k → k < s.n

theorem Agree.push {s : Spec} {t : List MSet} (h : Agree s t) {m : MSet} {S : Set Nat} (w : WF m) (hm : Holds m S) :
    Agree ⟨s.n + 1, fun k => if k = s.n then S else s.sets k, s.used⟩ (t ++ [m]) := by
  refine ⟨by simp [h.len], ?_, ?_, fun k hk => Nat.lt_succ_of_lt (h.used k hk)⟩
  · intro k m' e
    rw [List.getElem?_append] at e
    split at e
    · exact h.wf k m' e
    · rw [List.getElem?_singleton] at e
      split at e
      · cases e; exact w
      · cases e
  · intro k m' e hu
    dsimp only
    rw [List.getElem?_append] at e
    split at e
    · rename_i c
      rw [if_neg (by rw [← h.len]; omega)]
      exact h.holds k m' e hu
    · rename_i c
      rw [List.getElem?_singleton] at e
      split at e
      · cases e
        rw [if_pos (by rw [← h.len]; omega)]
        exact hm
      · cases e

theorem Agree.step {s : Spec} {t : List MSet} (h : Agree s t) (c : Call) (hc : s.ok c) :
    ∃ t', track t c = some t' ∧ Agree (s.step c) t' := by
  have w0 : WF MSet.mk0 := .inl rfl
  have h0 : Holds MSet.mk0 ∅ := ⟨[], by simp [MSet.elems, MSet.mk0], by simp, by simp⟩
  cases c with
  | added i =>
    obtain ⟨m, e, w, hm⟩ := C36_insert w0 h0 i (by simp [MSet.mk0])
    refine ⟨t ++ [m], by simp only [track]; rw [e]; rfl, ?_⟩
    have : insert i (∅ : Set Nat) = {i} := by simp
    exact h.push w (this ▸ hm)
  | between a b => exact ⟨t ++ [.mk0], rfl, h.push w0 h0⟩
  | merge f d =>
    obtain ⟨hf, hd, hne, hnu⟩ := hc
    have ld : d < t.length := h.len ▸ hd
    have lf : f < t.length := h.len ▸ hf
    have ed := List.getElem?_eq_getElem ld
    have ef := List.getElem?_eq_getElem lf
    obtain ⟨la, ea, sa, _⟩ := (h.wf d _ ed).elems
    obtain ⟨a', b', em, wa, wb, ha, _⟩ := C36_merge (h.wf d _ ed) (h.wf f _ ef) (A := {x | x ∈ la}) ⟨la, ea, sa, fun _ => Iff.rfl⟩ (h.holds f _ ef hnu)
    refine ⟨(t.set f b').set d a', by unfold track; dsimp only; rw [ed, ef]; dsimp only; rw [em]; rfl, ?_⟩
    refine ⟨by simp [Spec.step, h.len], ?_, ?_, ?_⟩
    · intro k m e
      rw [List.getElem?_set, List.length_set] at e
      split at e
      · simp [ld] at e; exact e ▸ wa
      · rw [List.getElem?_set] at e
        split at e
        · simp [lf] at e; exact e ▸ wb
        · exact h.wf k m e
    · intro k m e hu
      have hu' : k ≠ f ∧ ¬s.used k := by
        constructor
        · intro c; exact hu (.inl c)
        · intro c; exact hu (.inr c)
      rw [List.getElem?_set, List.length_set] at e
      split at e
      · rename_i c
        simp [ld] at e
        subst e
        subst c
        have hA := h.holds d _ ed hu'.2
        have : {x | x ∈ la} = s.sets d := by
          obtain ⟨l, e1, _, e2⟩ := hA
          rw [ea] at e1
          cases e1
          ext x; exact e2 x
        simp only [Spec.step, if_true]
        rw [← this]; exact ha
      · rename_i c
        rw [List.getElem?_set, if_neg (fun x => hu'.1 x.symm)] at e
        simp only [Spec.step]
        rw [if_neg (fun x => c x.symm)]
        exact h.holds k m e hu'.2
    · rintro k (hk | hk)
      · exact hk ▸ hf
      · exact h.used k hk

theorem Agree.all {s : Spec} {t : List MSet} (h : Agree s t) : ∀ (l : List Call), s.okAll l →
    ∃ t', trackAll t l = some t' ∧ Agree (l.foldl Spec.step s) t' := by
  intro l
  induction l generalizing s t with
  | nil => intro _; exact ⟨t, rfl, h⟩
  | cons c l ih =>
    rintro ⟨h1, h2⟩
    obtain ⟨t', e, h'⟩ := h.step c h1
    obtain ⟨t'', e2, h''⟩ := ih h' h2
    exact ⟨t'', by rw [trackAll, e, Option.bind_some, e2], h''⟩

/-- C36, for histories in which no point is twice the source of a merge: for a point that was not a source, the origins reported are,
sorted and without repetition, exactly those merged into it. Missing from the full statement: points that were a source
(`C36_source_lost`). -/
theorem C36_history_partial (l : List Call) (h : Spec.init.okAll l) :
    ∃ t, trackAll [] l = some t ∧ ∀ k < (l.foldl Spec.step Spec.init).n, ¬(l.foldl Spec.step Spec.init).used k →
      ∃ o, origins t k = some o ∧ o.Pairwise (· < ·) ∧ ∀ x, x ∈ o ↔ x ∈ (l.foldl Spec.step Spec.init).sets k := by
  have a0 : Agree Spec.init [] := ⟨rfl, by simp, by simp, fun _ h => h.elim⟩
  obtain ⟨t, e, ha⟩ := a0.all l h
  refine ⟨t, e, fun k hk hu => ?_⟩
  have lk : k < t.length := ha.len ▸ hk
  obtain ⟨o, h1, h2, h3⟩ := ha.holds k _ (List.getElem?_eq_getElem lk) hu
  exact ⟨o, by unfold origins; rw [List.getElem?_eq_getElem lk]; exact h1, h2, h3⟩

/-- Finding: a point with two origins that is merged into one without origins loses its own. -/
theorem C36_source_lost : (trackAll [] [.added 5, .added 7, .between 0 1, .merge 0 1, .merge 1 2]).bind (origins · 1) = some [] := by
  decide +kernel

/-- A history that meets the condition, with a chain of merges. -/
example : Spec.init.okAll [.added 5, .added 7, .between 0 1, .merge 0 1, .merge 1 2] := by simp [Spec.okAll, Spec.ok, Spec.step, Spec.init]
example : (trackAll [] [.added 5, .added 7, .between 0 1, .merge 0 1, .merge 1 2]).bind (origins · 2) = some [5, 7] := by decide +kernel

end PolyOps.MiniSet
