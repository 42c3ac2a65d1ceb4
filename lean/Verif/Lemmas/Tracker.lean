import Verif.Props.MiniSet
import Mathlib.Data.List.Perm.Basic
import Mathlib.Data.List.Nodup
import Mathlib.Data.Set.Disjoint

/-! The origin tracker when the numbers of the points are different: blocks are never larger than needed, so sets are exchanged
only with empty ones. -/
namespace PolyOps.MiniSet

/-- The block is full. -/
def Tight (s : MSet) : Prop := 1 < s.size → ∃ l, s.u = .data s.size l

theorem length_eq {r l : List Nat} (hr : r.Nodup) (hl : l.Nodup) (h : ∀ x, x ∈ r ↔ x ∈ l) : r.length = l.length :=
  ((List.perm_ext_iff_of_nodup hr hl).mpr h).length_eq

theorem nodup_lt {l : List Nat} (h : l.Pairwise (· < ·)) : l.Nodup := h.imp fun h => Nat.ne_of_lt h

theorem insertMore_tight {s s' : MSet} {S : Set Nat} (h : WF s) (hS : Holds s S) (ht : Tight s) {l : List Nat} (hl : l.Nodup)
    (hd : ∀ x ∈ l, x ∉ S) (h0 : s.size ≠ 0) (e : s.insertMore l = some s') : Tight s' := by
  obtain ⟨el, he, hs, hm⟩ := hS
  unfold MSet.insertMore at e
  rcases h with h | ⟨h, v, hv⟩ | ⟨h, cap, items, hu, hlen, hp, hc⟩
  · exact absurd h h0
  · rw [if_pos h, hv] at e
    dsimp only at e
    have ee : el = [v] := by simp [MSet.elems, h, hv] at he; exact he.symm
    subst ee
    have hv' : v ∉ l := fun c => hd v c ((hm v).mp (by simp))
    cases hdw : l.dropWhile (fun x => decide (x = v)) with
    | nil => rw [hdw] at e; cases e; exact ht
    | cons a l' =>
      rw [hdw] at e
      dsimp only at e
      cases e
      obtain ⟨u1, u2, -⟩ := uniq_spec (sort (v :: a :: l')) (sort_sorted _)
      have hsub : (a :: l').Sublist l := hdw ▸ List.dropWhile_sublist _
      have : (uniq (sort (v :: a :: l'))).length = (v :: a :: l').length := by
        refine length_eq (nodup_lt u1) (List.nodup_cons.mpr ⟨fun c => hv' (hsub.subset c), hl.sublist hsub⟩) fun x => ?_
        rw [u2, mem_sort]
      intro _
      dsimp only
      rw [this]
      exact ⟨_, rfl⟩
  · rw [if_neg (by omega)] at e
    have ee : el = items := elems_big h hu hlen he
    subst ee
    cases l with
    | nil => cases e; exact ht
    | cons a l =>
      rw [hu] at e
      dsimp only at e
      rw [← hlen, List.take_length] at e
      cases e
      obtain ⟨u1, u2, -⟩ := uniq_spec (merge2 el (sort (a :: l))) (merge2_sorted _ (sort_sorted _) el)
      have hcap : cap = s.size := by
        obtain ⟨l2, hl2⟩ := ht h
        rw [hu] at hl2
        cases hl2; rfl
      have : (uniq (merge2 el (sort (a :: l)))).length = (el ++ (a :: l)).length := by
        refine length_eq (nodup_lt u1) (List.nodup_append.mpr ⟨nodup_lt hp, hl, fun x hx y hy c => ?_⟩) fun x => ?_
        · exact hd y hy ((hm y).mp (c ▸ hx))
        · rw [u2, mem_merge2, mem_sort, List.mem_append]
      intro _
      dsimp only
      rw [this, List.length_append, if_pos (by rw [hcap, ← hlen, List.length_cons]; omega)]
      exact ⟨_, rfl⟩

theorem insertRange_tight {s s' : MSet} {S : Set Nat} (h : WF s) (hS : Holds s S) (ht : Tight s) {l : List Nat} (hl : l.Nodup)
    (hd : ∀ x ∈ l, x ∉ S) (e : s.insertRange l = some s') : Tight s' := by
  unfold MSet.insertRange at e
  by_cases h0 : s.size = 0
  · rw [if_pos h0] at e
    cases l with
    | nil => cases e; exact ht
    | cons a l =>
      have hl := List.nodup_cons.mp hl
      refine insertMore_tight (S := ({a} : Set Nat)) (.inr (.inl ⟨rfl, a, rfl⟩))
        ⟨[a], by simp [MSet.elems], by simp, fun x => by rw [List.mem_singleton, Set.mem_singleton_iff]⟩ (fun c => absurd c (by simp)) hl.2 ?_ (by simp) e
      intro x hx c
      rw [Set.mem_singleton_iff] at c
      exact hl.1 (c ▸ hx)
  · rw [if_neg h0] at e
    exact insertMore_tight h hS ht hl hd h0 e

/-- Merging from a set whose block is full: the source keeps its elements unless the target is empty. -/
theorem merge_tight {a b : MSet} {A B : Set Nat} (wa : WF a) (wb : WF b) (ha : Holds a A) (hb : Holds b B) (tb : Tight b) :
    ∃ a' b', a.merge b = some (a', b') ∧ WF a' ∧ WF b' ∧ Holds a' (A ∪ B) ∧ (A.Nonempty → b' = b) ∧ (Tight a → Disjoint A B → Tight a') := by
  obtain ⟨a', b', em, w1, w2, h1, -⟩ := C36_merge wa wb ha hb
  refine ⟨a', b', em, w1, w2, h1, ?_⟩
  unfold MSet.merge at em
  obtain ⟨la, ea, sa, hma⟩ := id ha
  obtain ⟨lb, eb, sb, hmb⟩ := id hb
  have lena : la.length = a.size := by
    obtain ⟨l, e1, _, e2⟩ := wa.elems
    rw [ea] at e1; cases e1; exact e2
  by_cases big : 1 < b.size
  · obtain ⟨l, hl⟩ := tb big
    have hf : MSet.fits a b = some (decide (a.size + b.size ≤ b.size)) := by
      unfold MSet.fits
      rw [if_pos big, hl]
    rw [hf, Option.bind_some] at em
    by_cases z : a.size = 0
    · have hA : la = [] := List.length_eq_zero_iff.mp (lena.trans z)
      subst hA
      rw [if_pos (by simp [z])] at em
      dsimp only at em
      rw [ea, Option.bind_some] at em
      have : b.insertRange [] = some b := by
        unfold MSet.insertRange MSet.insertMore
        rw [if_neg (by omega), if_neg (by omega)]
      rw [this, Option.map_some] at em
      cases em
      refine ⟨fun ⟨x, hx⟩ => ?_, fun _ _ => tb⟩
      have := (hma x).mpr hx
      simp at this
    · rw [if_neg (by simp; omega)] at em
      dsimp only at em
      rw [eb, Option.bind_some] at em
      obtain ⟨c, ec, em⟩ := Option.map_eq_some_iff.mp em
      cases em
      refine ⟨fun _ => rfl, fun ta hd => insertRange_tight wa ha ta (nodup_lt sb) (fun x hx c => ?_) ec⟩
      exact Set.disjoint_left.mp hd c ((hmb x).mp hx)
  · have hf : MSet.fits a b = some false := by
      unfold MSet.fits
      rw [if_neg big]
    rw [hf, Option.bind_some, if_neg (by simp)] at em
    dsimp only at em
    rw [eb, Option.bind_some] at em
    obtain ⟨c, ec, em⟩ := Option.map_eq_some_iff.mp em
    cases em
    refine ⟨fun _ => rfl, fun ta hd => insertRange_tight wa ha ta (nodup_lt sb) (fun x hx c => ?_) ec⟩
    exact Set.disjoint_left.mp hd c ((hmb x).mp hx)

/-! ### Histories -/

/-- A call is allowed, as in `Spec.ok`; moreover what is merged is new to a target that was not a source. -/
def Spec.ok2 (s : Spec) : Call → Prop
  | .merge f d => s.ok (.merge f d) ∧ (¬s.used d → Disjoint (s.sets d) (s.sets f))
  | _ => True

def Spec.okAll2 (s : Spec) : List Call → Prop
  | [] => True
  | c :: l => s.ok2 c ∧ (s.step c).okAll2 l

/-- The points that may have lost their sets: sources of merges into empty sets and into points that were sources. -/
def Spec.lost (s : Spec) (L : Nat → Prop) : Call → Nat → Prop
  | .merge f d => fun k => L k ∨ (k = f ∧ (s.sets d = ∅ ∨ s.used d))
  | _ => L

def Spec.lostAll (s : Spec) (L : Nat → Prop) : List Call → Nat → Prop
  | [] => L
  | c :: l => (s.step c).lostAll (s.lost L c) l

structure Agree2 (s : Spec) (L : Nat → Prop) (t : List MSet) : Prop where
  len : t.length = s.n
  wf : ∀ (k : Nat) (m : MSet), t[k]? = some m → WF m
  holds : ∀ (k : Nat) (m : MSet), t[k]? = some m → ¬L k → Holds m (s.sets k)
  tight : ∀ (k : Nat) (m : MSet), t[k]? = some m → ¬s.used k → Tight m
  used : ∀ k, s.used k → k < s.n
  lost : ∀ k, L k → s.used k

theorem Agree2.push {s : Spec} {L : Nat → Prop} {t : List MSet} (h : Agree2 s L t) {m : MSet} {S : Set Nat} (w : WF m) (hm : Holds m S) (tm : Tight m) :
    Agree2 ⟨s.n + 1, fun k => if k = s.n then S else s.sets k, s.used⟩ L (t ++ [m]) := by
  have key : ∀ (k : Nat) (m' : MSet), (t ++ [m])[k]? = some m' → (t[k]? = some m' ∧ k ≠ s.n) ∨ (m' = m ∧ k = s.n) := by
    intro k m' e
    rw [List.getElem?_append] at e
    split at e
    · rename_i c
      exact .inl ⟨e, by rw [← h.len]; omega⟩
    · rename_i c
      rw [List.getElem?_singleton] at e
      split at e
      · cases e; exact .inr ⟨rfl, by rw [← h.len]; omega⟩
      · cases e
  refine ⟨by simp [h.len], ?_, ?_, ?_, fun k hk => Nat.lt_succ_of_lt (h.used k hk), h.lost⟩
  · intro k m' e
    rcases key k m' e with ⟨e, -⟩ | ⟨rfl, -⟩
    · exact h.wf k m' e
    · exact w
  · intro k m' e hu
    dsimp only
    rcases key k m' e with ⟨e, c⟩ | ⟨rfl, c⟩
    · rw [if_neg c]; exact h.holds k m' e hu
    · rw [if_pos c]; exact hm
  · intro k m' e hu
    rcases key k m' e with ⟨e, -⟩ | ⟨rfl, -⟩
    · exact h.tight k m' e hu
    · exact tm

theorem Agree2.step {s : Spec} {L : Nat → Prop} {t : List MSet} (h : Agree2 s L t) (c : Call) (hc : s.ok2 c) :
    ∃ t', track t c = some t' ∧ Agree2 (s.step c) (s.lost L c) t' := by
  have w0 : WF MSet.mk0 := .inl rfl
  have h0 : Holds MSet.mk0 ∅ := ⟨[], by simp [MSet.elems, MSet.mk0], by simp, by simp⟩
  have t0 : Tight MSet.mk0 := fun c => absurd c (by simp [MSet.mk0])
  cases c with
  | added i =>
    obtain ⟨m, e, w, hm⟩ := C36_insert w0 h0 i (by simp [MSet.mk0])
    refine ⟨t ++ [m], by simp only [track]; rw [e]; rfl, ?_⟩
    have : insert i (∅ : Set Nat) = {i} := by simp
    refine h.push w (this ▸ hm) ?_
    simp only [MSet.insert, MSet.mk0, if_true, Option.some.injEq] at e
    subst e
    exact fun c => absurd c (by simp)
  | between a b => exact ⟨t ++ [.mk0], rfl, h.push w0 h0 t0⟩
  | merge f d =>
    obtain ⟨⟨hf, hd, hne, hnu⟩, hdis⟩ := hc
    have ld : d < t.length := h.len ▸ hd
    have lf : f < t.length := h.len ▸ hf
    have ed := List.getElem?_eq_getElem ld
    have ef := List.getElem?_eq_getElem lf
    have hB := h.holds f _ ef (fun c => hnu (h.lost f c))
    have hex : ∃ A, Holds t[d] A ∧ (¬L d → A = s.sets d) := by
      by_cases c : L d
      · obtain ⟨la, ea, sa, _⟩ := (h.wf d _ ed).elems
        exact ⟨{x | x ∈ la}, ⟨la, ea, sa, fun _ => Iff.rfl⟩, fun k => absurd c k⟩
      · exact ⟨_, h.holds d _ ed c, fun _ => rfl⟩
    obtain ⟨A, hA, eA⟩ := hex
    obtain ⟨a', b', em, wa, wb, ha, hb', ht'⟩ := merge_tight (h.wf d _ ed) (h.wf f _ ef) hA hB (h.tight f _ ef hnu)
    refine ⟨(t.set f b').set d a', by unfold track; dsimp only; rw [ed, ef]; dsimp only; rw [em]; rfl, ?_⟩
    have key : ∀ (k : Nat) (m : MSet), ((t.set f b').set d a')[k]? = some m → (k = d ∧ m = a') ∨ (k = f ∧ k ≠ d ∧ m = b') ∨ (k ≠ d ∧ k ≠ f ∧ t[k]? = some m) := by
      intro k m e
      rw [List.getElem?_set, List.length_set] at e
      split at e
      · rename_i c; simp [ld] at e; exact .inl ⟨c.symm, e.symm⟩
      · rename_i c
        rw [List.getElem?_set] at e
        split at e
        · rename_i c'; simp [lf] at e; exact .inr (.inl ⟨c'.symm, fun x => c x.symm, e.symm⟩)
        · rename_i c'; exact .inr (.inr ⟨fun x => c x.symm, fun x => c' x.symm, e⟩)
    refine ⟨by simp [Spec.step, h.len], ?_, ?_, ?_, ?_, ?_⟩
    · intro k m e
      rcases key k m e with ⟨-, rfl⟩ | ⟨-, -, rfl⟩ | ⟨-, -, e⟩
      · exact wa
      · exact wb
      · exact h.wf k m e
    · intro k m e hu
      have hu1 : ¬L k := fun c => hu (.inl c)
      rcases key k m e with ⟨rfl, rfl⟩ | ⟨rfl, c, rfl⟩ | ⟨c, c', e⟩
      · simp only [Spec.step, if_true]
        rw [← eA hu1]; exact ha
      · simp only [Spec.step]
        rw [if_neg c]
        have hu2 : ¬(s.sets d = ∅ ∨ s.used d) := fun x => hu (.inr ⟨rfl, x⟩)
        rw [not_or] at hu2
        have hAd := eA (fun x => hu2.2 (h.lost d x))
        rw [hb' (by rw [hAd]; exact Set.nonempty_iff_ne_empty.mpr hu2.1)]
        exact hB
      · simp only [Spec.step]
        rw [if_neg c]
        exact h.holds k m e hu1
    · intro k m e hu
      have hu1 : k ≠ f ∧ ¬s.used k := ⟨fun c => hu (.inl c), fun c => hu (.inr c)⟩
      rcases key k m e with ⟨rfl, rfl⟩ | ⟨rfl, c, rfl⟩ | ⟨c, c', e⟩
      · refine ht' (h.tight k _ ed hu1.2) ?_
        rw [eA (fun x => hu1.2 (h.lost k x))]
        exact hdis hu1.2
      · exact absurd rfl hu1.1
      · exact h.tight k m e hu1.2
    · rintro k (hk | hk)
      · exact hk ▸ hf
      · exact h.used k hk
    · rintro k (hk | hk)
      · exact .inr (h.lost k hk)
      · exact .inl hk.1

theorem Agree2.all : ∀ (l : List Call) {s : Spec} {L : Nat → Prop} {t : List MSet}, Agree2 s L t → s.okAll2 l →
    ∃ t', trackAll t l = some t' ∧ Agree2 (l.foldl Spec.step s) (s.lostAll L l) t'
  | [], _, _, t, h, _ => ⟨t, rfl, h⟩
  | c :: l, _, _, _, h, ⟨h1, h2⟩ => by
    obtain ⟨t', e, h'⟩ := h.step c h1
    obtain ⟨t'', e2, h''⟩ := Agree2.all l h' h2
    exact ⟨t'', by rw [trackAll, e, Option.bind_some, e2], h''⟩

/-- Histories whose merges are of disjoint sets: the origins reported are exactly those merged, except for points that may have
lost them. -/
theorem history_tight (l : List Call) (h : Spec.init.okAll2 l) :
    ∃ t, trackAll [] l = some t ∧ ∀ k < (l.foldl Spec.step Spec.init).n, ¬Spec.init.lostAll (fun _ => False) l k →
      ∃ o, origins t k = some o ∧ o.Pairwise (· < ·) ∧ ∀ x, x ∈ o ↔ x ∈ (l.foldl Spec.step Spec.init).sets k := by
  have a0 : Agree2 Spec.init (fun _ => False) [] := ⟨rfl, by simp, by simp, by simp, fun _ h => h.elim, fun _ h => h.elim⟩
  obtain ⟨t, e, ha⟩ := Agree2.all l a0 h
  refine ⟨t, e, fun k hk hu => ?_⟩
  have lk : k < t.length := ha.len ▸ hk
  obtain ⟨o, h1, h2, h3⟩ := ha.holds k _ (List.getElem?_eq_getElem lk) hu
  exact ⟨o, by unfold origins; rw [List.getElem?_eq_getElem lk]; exact h1, h2, h3⟩

/-! ### Points added, points between, merges along links -/

/-- The state after points with the numbers `nums` were added and other points were put between them, and some merges along `nxt`. -/
structure Fl (nums : List Nat) (nxt : Nat → Nat) (n : Nat) (s : Spec) : Prop where
  size : s.n = n
  own : ∀ k x : Nat, nums[k]? = some x → x ∈ s.sets k
  mem : ∀ k x : Nat, x ∈ s.sets k → nums[k]? = some x ∨ ((∃ i : Nat, nums[i]? = some x ∧ s.used i) ∧ ∃ a, s.used a ∧ nxt a = k)
  used : ∀ a, s.used a → a < n

theorem foldl_added : ∀ (nums : List Nat) (s : Spec), s.used = (fun _ => False) → (∀ k ≥ s.n, s.sets k = ∅) →
    ((nums.map Call.added).foldl Spec.step s).n = s.n + nums.length ∧ ((nums.map Call.added).foldl Spec.step s).used = (fun _ => False) ∧
    ∀ k, ((nums.map Call.added).foldl Spec.step s).sets k = if k < s.n then s.sets k else {x | nums[k - s.n]? = some x}
  | [], s, h1, h2 => by
    refine ⟨rfl, h1, fun k => ?_⟩
    split
    · rfl
    · rename_i c
      rw [List.map_nil, List.foldl_nil, h2 k (by omega)]
      simp
  | x :: nums, s, h1, h2 => by
    obtain ⟨q1, q2, q3⟩ := foldl_added nums (s.step (.added x)) h1 (fun k hk => by
      simp only [Spec.step] at hk ⊢
      rw [if_neg (by omega)]
      exact h2 k (by omega))
    refine ⟨?_, q2, fun k => ?_⟩
    · rw [List.map_cons, List.foldl_cons, q1]
      simp only [Spec.step, List.length_cons]
      omega
    · rw [List.map_cons, List.foldl_cons, q3]
      change (if k < s.n + 1 then (if k = s.n then {x} else s.sets k) else {y | nums[k - (s.n + 1)]? = some y}) = _
      rcases Nat.lt_trichotomy k s.n with c | c | c
      · rw [if_pos (by omega), if_neg (by omega), if_pos c]
      · subst c
        rw [if_pos (by omega), if_pos rfl, if_neg (by omega)]
        ext y
        simp [eq_comm]
      · rw [if_neg (by omega), if_neg (by omega)]
        have : k - s.n = (k - (s.n + 1)) + 1 := by omega
        rw [this, List.getElem?_cons_succ]

theorem foldl_between : ∀ (bs : List (Nat × Nat)) (s : Spec), (∀ k ≥ s.n, s.sets k = ∅) →
    ((bs.map fun b => Call.between b.1 b.2).foldl Spec.step s).n = s.n + bs.length ∧
    ((bs.map fun b => Call.between b.1 b.2).foldl Spec.step s).used = s.used ∧
    ((bs.map fun b => Call.between b.1 b.2).foldl Spec.step s).sets = s.sets
  | [], _, _ => ⟨rfl, rfl, rfl⟩
  | b :: bs, s, h => by
    have e : (s.step (.between b.1 b.2)).sets = s.sets := by
      funext k
      simp only [Spec.step]
      split
      · rename_i c; exact (h k (by omega)).symm
      · rfl
    obtain ⟨q1, q2, q3⟩ := foldl_between bs (s.step (.between b.1 b.2)) (fun k hk => by
      rw [e]; simp only [Spec.step] at hk; exact h k (by omega))
    refine ⟨?_, ?_, ?_⟩
    · rw [List.map_cons, List.foldl_cons, q1]
      simp only [Spec.step, List.length_cons]
      omega
    · rw [List.map_cons, List.foldl_cons, q2]; rfl
    · rw [List.map_cons, List.foldl_cons, q3, e]

/-- The calls before the merges. -/
def pushes (nums : List Nat) (bs : List (Nat × Nat)) : List Call := nums.map Call.added ++ bs.map fun b => Call.between b.1 b.2

theorem foldl_pushes (nums : List Nat) (bs : List (Nat × Nat)) :
    ((pushes nums bs).foldl Spec.step Spec.init).n = nums.length + bs.length ∧ (∀ k, ¬((pushes nums bs).foldl Spec.step Spec.init).used k) ∧
    ∀ k, ((pushes nums bs).foldl Spec.step Spec.init).sets k = {x | nums[k]? = some x} := by
  unfold pushes
  rw [List.foldl_append]
  obtain ⟨q1, q2, q3⟩ := foldl_added nums Spec.init rfl (fun _ _ => rfl)
  have e : Spec.init.n = 0 := rfl
  rw [e, Nat.zero_add] at q1
  simp only [e, Nat.not_lt_zero, if_false, Nat.sub_zero] at q3
  obtain ⟨r1, r2, r3⟩ := foldl_between bs _ (fun k hk => by
    rw [q3, List.getElem?_eq_none (by omega)]
    simp)
  refine ⟨by rw [r1, q1], fun k => ?_, fun k => by rw [r3, q3]⟩
  rw [r2, q2]; exact id

theorem pushes_ok2 : ∀ (l : List Call) (m : List Call) (s : Spec), (∀ c ∈ l, ∀ f d, c ≠ .merge f d) →
    ((l.foldl Spec.step s).okAll2 m → s.okAll2 (l ++ m)) ∧ ((l.foldl Spec.step s).okAll m → s.okAll (l ++ m)) ∧
      ∀ L, s.lostAll L (l ++ m) = (l.foldl Spec.step s).lostAll L m
  | [], _, _, _ => ⟨id, id, fun _ => rfl⟩
  | c :: l, m, s, h => by
    obtain ⟨q1, q2, q3⟩ := pushes_ok2 l m (s.step c) (fun x hx => h x (List.mem_cons_of_mem _ hx))
    have hc := h c List.mem_cons_self
    have k1 : s.ok2 c := by cases c with | merge f d => exact absurd rfl (hc f d) | _ => trivial
    have k2 : s.ok c := by cases c with | merge f d => exact absurd rfl (hc f d) | _ => trivial
    have k3 : ∀ L, s.lost L c = L := by intro L; cases c with | merge f d => exact absurd rfl (hc f d) | _ => rfl
    refine ⟨fun hm => ⟨k1, q1 hm⟩, fun hm => ⟨k2, q2 hm⟩, fun L => ?_⟩
    rw [List.cons_append, Spec.lostAll, k3, q3]
    rfl

theorem pushes_ne (nums : List Nat) (bs : List (Nat × Nat)) : ∀ c ∈ pushes nums bs, ∀ f d, c ≠ .merge f d := by
  intro c hc f d e
  subst e
  unfold pushes at hc
  rcases List.mem_append.mp hc with h | h <;> simp at h

theorem Fl.start (nums : List Nat) (bs : List (Nat × Nat)) (nxt : Nat → Nat) :
    Fl nums nxt (nums.length + bs.length) ((pushes nums bs).foldl Spec.step Spec.init) := by
  obtain ⟨q1, q2, q3⟩ := foldl_pushes nums bs
  exact ⟨q1, fun k x hx => by rw [q3]; exact hx, fun k x hx => by rw [q3] at hx; exact .inl hx, fun a ha => absurd ha (q2 a)⟩

theorem Fl.step {nums : List Nat} {nxt : Nat → Nat} {n : Nat} {s : Spec} (h : Fl nums nxt n s) {f d : Nat} (hf : f < n) (hd : d = nxt f) :
    Fl nums nxt n (s.step (.merge f d)) := by
  refine ⟨h.size, fun k x hx => ?_, fun k x hx => ?_, ?_⟩
  · simp only [Spec.step]
    split
    · rename_i c; exact .inl (c ▸ h.own k x hx)
    · exact h.own k x hx
  · simp only [Spec.step] at hx ⊢
    have old : ∀ k, x ∈ s.sets k → nums[k]? = some x ∨ ((∃ i : Nat, nums[i]? = some x ∧ (i = f ∨ s.used i)) ∧ ∃ a, (a = f ∨ s.used a) ∧ nxt a = k) := by
      intro k hx
      rcases h.mem k x hx with c | ⟨⟨i, c1, c2⟩, a, c3, c4⟩
      · exact .inl c
      · exact .inr ⟨⟨i, c1, .inr c2⟩, a, .inr c3, c4⟩
    split at hx
    · rename_i c
      rcases hx with hx | hx
      · exact c ▸ old d hx
      · right
        refine ⟨?_, f, .inl rfl, by rw [c, hd]⟩
        rcases h.mem f x hx with e | ⟨⟨i, c1, c2⟩, -⟩
        · exact ⟨f, e, .inl rfl⟩
        · exact ⟨i, c1, .inr c2⟩
    · exact old k hx
  · rintro a (ha | ha)
    · exact ha ▸ hf
    · exact h.used a ha

/-- What is known about merges: along links, from different points. -/
structure Along (nxt : Nat → Nat) (n : Nat) (M : List (Nat × Nat)) : Prop where
  lt : ∀ m ∈ M, m.1 < n ∧ m.2 < n
  next : ∀ m ∈ M, m.2 = nxt m.1
  ne : ∀ m ∈ M, m.1 ≠ m.2
  nodup : (M.map Prod.fst).Nodup

def mergeCalls (M : List (Nat × Nat)) : List Call := M.map fun m => Call.merge m.1 m.2

theorem Fl.merges {nums : List Nat} {nxt : Nat → Nat} {n : Nat} : ∀ {M : List (Nat × Nat)} {s : Spec}, Fl nums nxt n s → Along nxt n M →
    (∀ m ∈ M, ¬s.used m.1) → s.okAll (mergeCalls M) ∧ Fl nums nxt n ((mergeCalls M).foldl Spec.step s) ∧
      (∀ k, ((mergeCalls M).foldl Spec.step s).used k ↔ k ∈ M.map Prod.fst ∨ s.used k) ∧
      ((∀ i < n, ∀ j < n, nxt i = nxt j → i = j) → nums.Nodup → s.okAll2 (mergeCalls M))
  | [], s, h, _, _ => ⟨trivial, h, fun k => by simp [mergeCalls], fun _ _ => trivial⟩
  | (f, d) :: M, s, h, ha, hu => by
    have hm : (f, d) ∈ (f, d) :: M := List.mem_cons_self
    have hn := List.nodup_cons.mp ha.nodup
    have ha' : Along nxt n M := ⟨fun m hm => ha.lt m (List.mem_cons_of_mem _ hm), fun m hm => ha.next m (List.mem_cons_of_mem _ hm),
      fun m hm => ha.ne m (List.mem_cons_of_mem _ hm), hn.2⟩
    have hlt := ha.lt _ hm
    have hne := ha.ne _ hm
    have hnx := ha.next _ hm
    have hnu := hu _ hm
    dsimp only at hlt hne hnx hnu
    obtain ⟨q1, q2, q3, q4⟩ := Fl.merges (h.step hlt.1 hnx) ha' (by
      rintro m hm (c | c)
      · exact hn.1 (List.mem_map.mpr ⟨m, hm, c⟩)
      · exact hu m (List.mem_cons_of_mem _ hm) c)
    have ok : s.ok (.merge f d) := ⟨h.size ▸ hlt.1, h.size ▸ hlt.2, hne, hnu⟩
    refine ⟨⟨ok, q1⟩, q2, fun k => ?_, fun hinj hnd => ⟨⟨ok, fun hd => ?_⟩, q4 hinj hnd⟩⟩
    · unfold mergeCalls at q3 ⊢
      rw [List.map_cons, List.foldl_cons, q3, List.map_cons, List.mem_cons]
      simp only [Spec.step]
      tauto
    · rw [Set.disjoint_left]
      intro x hx1 hx2
      have inj : ∀ {i j : Nat}, nums[i]? = some x → nums[j]? = some x → i = j := by
        intro i j hi hj
        obtain ⟨li, ei⟩ := List.getElem?_eq_some_iff.mp hi
        obtain ⟨lj, ej⟩ := List.getElem?_eq_some_iff.mp hj
        exact (List.Nodup.getElem_inj_iff hnd).mp (ei.trans ej.symm)
      rcases h.mem d x hx1 with c | ⟨-, a, c3, c4⟩
      · rcases h.mem f x hx2 with e | ⟨⟨i, c1, c2⟩, -⟩
        · exact hne (inj e c)
        · exact hd (inj c1 c ▸ c2)
      · have := hinj a (h.used a c3) f hlt.1 (c4.trans hnx)
        exact hnu (this ▸ c3)

/-- When a point may have lost its set. -/
theorem lostAll_cases : ∀ (M : List (Nat × Nat)) (s : Spec) (L : Nat → Prop) (k : Nat), s.lostAll L (mergeCalls M) k → L k ∨
    ∃ M1 d M2, M = M1 ++ (k, d) :: M2 ∧ (((mergeCalls M1).foldl Spec.step s).sets d = ∅ ∨ ((mergeCalls M1).foldl Spec.step s).used d)
  | [], _, _, _, h => .inl h
  | (f, d) :: M, s, L, k, h => by
    rcases lostAll_cases M _ _ k h with (c | ⟨rfl, c⟩) | ⟨M1, d', M2, e, c⟩
    · exact .inl c
    · exact .inr ⟨[], d, M, rfl, c⟩
    · exact .inr ⟨(f, d) :: M1, d', M2, by rw [e]; rfl, c⟩

/-- The origins after points were added, others put between them, and merges along links. Numbers that are not different: for points
that were not merged. Different numbers: also for points merged before their target, if that has a number. -/
theorem flow {nums : List Nat} {bs : List (Nat × Nat)} {nxt : Nat → Nat} {M : List (Nat × Nat)} (ha : Along nxt (nums.length + bs.length) M)
    (hinj : ∀ i < nums.length + bs.length, ∀ j < nums.length + bs.length, nxt i = nxt j → i = j) {K : Nat → Prop}
    (hK : ∀ k, K k → k < nums.length + bs.length ∧ (k ∈ M.map Prod.fst → nums.Nodup ∧ ∀ M1 d M2, M = M1 ++ (k, d) :: M2 → d < nums.length ∧ d ∉ M1.map Prod.fst)) :
    ∃ t, trackAll [] (pushes nums bs ++ mergeCalls M) = some t ∧ ∀ k, K k →
      ∃ o, origins t k = some o ∧ o.Pairwise (· < ·) ∧
        (∀ x, x ∈ o ↔ x ∈ ((pushes nums bs ++ mergeCalls M).foldl Spec.step Spec.init).sets k) ∧
        (∀ x, nums[k]? = some x → x ∈ o) ∧ ∀ x ∈ o, x ∈ nums := by
  obtain ⟨p1, p2, p3⟩ := pushes_ok2 (pushes nums bs) (mergeCalls M) Spec.init (pushes_ne nums bs)
  obtain ⟨-, u0, -⟩ := foldl_pushes nums bs
  obtain ⟨q1, q2, q3, q4⟩ := (Fl.start nums bs nxt).merges ha (fun m _ => u0 m.1)
  rw [← List.foldl_append] at q2 q3
  have fin : ∀ (k : Nat) (o : List Nat), (∀ x, x ∈ o ↔ x ∈ ((pushes nums bs ++ mergeCalls M).foldl Spec.step Spec.init).sets k) →
      (∀ x, nums[k]? = some x → x ∈ o) ∧ ∀ x ∈ o, x ∈ nums := by
    intro k o h
    refine ⟨fun x hx => (h x).mpr (q2.own k x hx), fun x hx => ?_⟩
    rcases q2.mem k x ((h x).mp hx) with c | ⟨⟨i, c, -⟩, -⟩
    · exact List.mem_of_getElem? c
    · exact List.mem_of_getElem? c
  by_cases hnd : nums.Nodup
  · obtain ⟨t, e, h⟩ := history_tight _ (p1 (q4 hinj hnd))
    refine ⟨t, e, fun k hk => ?_⟩
    obtain ⟨hk1, hk2⟩ := hK k hk
    obtain ⟨o, h1, h2, h3⟩ := h k (by rw [q2.size]; exact hk1) (by
      intro c
      rw [p3] at c
      rcases lostAll_cases M _ _ k c with c | ⟨M1, d, M2, e, c⟩
      · exact c
      · obtain ⟨-, hs⟩ := hk2 (by rw [e]; simp)
        obtain ⟨s1, s2⟩ := hs M1 d M2 e
        have a1 : Along nxt (nums.length + bs.length) M1 := by
          have sub : M1.Sublist M := e ▸ List.sublist_append_left _ _
          exact ⟨fun m hm => ha.lt m (sub.subset hm), fun m hm => ha.next m (sub.subset hm), fun m hm => ha.ne m (sub.subset hm),
            ha.nodup.sublist (sub.map _)⟩
        obtain ⟨-, r2, r3, -⟩ := (Fl.start nums bs nxt).merges a1 (fun m _ => u0 m.1)
        rcases c with c | c
        · have := r2.own d _ (List.getElem?_eq_getElem s1)
          rw [c] at this
          exact this
        · rcases (r3 d).mp c with c | c
          · exact s2 c
          · exact u0 d c)
    exact ⟨o, h1, h2, h3, fin k o h3⟩
  · obtain ⟨t, e, h⟩ := C36_history_partial _ (p2 q1)
    refine ⟨t, e, fun k hk => ?_⟩
    obtain ⟨hk1, hk2⟩ := hK k hk
    obtain ⟨o, h1, h2, h3⟩ := h k (by rw [q2.size]; exact hk1) (by
      intro c
      rcases (q3 k).mp c with c | c
      · exact hnd (hk2 c).1
      · exact u0 k c)
    exact ⟨o, h1, h2, h3, fin k o h3⟩

end PolyOps.MiniSet
