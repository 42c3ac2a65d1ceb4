import Verif.Props.RasterFrac
import Verif.Props.Events
/-! The event queue of the rasteriser: order of events and what `next` does. -/
namespace PolyOps.Raster
open PolyOps.Events

/-- Height of an event, as stored. -/
def yk (py : Nat → Int) : REv → ℤ ×ₗ ℚ
  | .edge _ a _ _ => toLex (py a, 0)
  | .swap _ _ iy => toLex (iy.whole, iy.frac.val)

theorem then_lex (a b : Int) (x y : ℚ) :
    (compare a b).then (compare x y) = compare (toLex (a, x) : ℤ ×ₗ ℚ) (toLex (b, y)) := by
  rcases lt_trichotomy a b with h | h | h
  · have hl : (toLex (a, x) : ℤ ×ₗ ℚ) < toLex (b, y) := by rw [Prod.Lex.toLex_lt_toLex]; exact Or.inl h
    rw [compare_lt_iff_lt.mpr h, compare_lt_iff_lt.mpr hl]; rfl
  · subst h
    have e0 : compare a a = .eq := by simp
    rw [e0]
    rcases lt_trichotomy x y with h | h | h
    · have hl : (toLex (a, x) : ℤ ×ₗ ℚ) < toLex (a, y) := by rw [Prod.Lex.toLex_lt_toLex]; exact Or.inr ⟨rfl, h⟩
      rw [compare_lt_iff_lt.mpr h, compare_lt_iff_lt.mpr hl]; rfl
    · subst h; simp
    · have hl : (toLex (a, y) : ℤ ×ₗ ℚ) < toLex (a, x) := by rw [Prod.Lex.toLex_lt_toLex]; exact Or.inr ⟨rfl, h⟩
      rw [compare_gt_iff_gt.mpr h, compare_gt_iff_gt.mpr hl]; rfl
  · have hl : (toLex (b, y) : ℤ ×ₗ ℚ) < toLex (a, x) := by rw [Prod.Lex.toLex_lt_toLex]; exact Or.inl h
    rw [compare_gt_iff_gt.mpr h, compare_gt_iff_gt.mpr hl]; rfl

theorem cmp_lex (i j : IntrY) : i.cmp j = compare (toLex (i.whole, i.frac.val) : ℤ ×ₗ ℚ) (toLex (j.whole, j.frac.val)) := by
  unfold IntrY.cmp; rw [C42_cmp, then_lex]

theorem cmpInt_lex (i : IntrY) (b : Int) : i.cmpInt b = compare (toLex (i.whole, i.frac.val) : ℤ ×ₗ ℚ) (toLex (b, 0)) := by
  unfold IntrY.cmpInt; rw [C42_cmp_int, ← then_lex]; norm_num

theorem ordY_eq (py : Nat → Int) (e f : REv) : ordY py e f = compare (yk py e) (yk py f) := by
  cases e <;> cases f <;> simp only [ordY, yk]
  · rename_i a _ _ _ b _ _
    rcases lt_trichotomy (py a) (py b) with h | h | h
    · rw [compare_lt_iff_lt.mpr h, compare_lt_iff_lt.mpr (by rw [Prod.Lex.toLex_lt_toLex]; exact Or.inl h)]
    · rw [h]; simp
    · rw [compare_gt_iff_gt.mpr h, compare_gt_iff_gt.mpr (by rw [Prod.Lex.toLex_lt_toLex]; exact Or.inl h)]
  · rw [cmpInt_lex]
    generalize (toLex _ : ℤ ×ₗ ℚ) = u
    generalize (toLex _ : ℤ ×ₗ ℚ) = v
    rcases lt_trichotomy u v with h | h | h
    · rw [compare_lt_iff_lt.mpr h, compare_gt_iff_gt.mpr h]; rfl
    · subst h; simp
    · rw [compare_gt_iff_gt.mpr h, compare_lt_iff_lt.mpr h]; rfl
  · rw [cmpInt_lex]
  · rw [cmp_lex]

/-- Sort key of an event: height, type, indices. -/
def rKey (py : Nat → Int) (e : REv) : (ℤ ×ₗ ℚ) ×ₗ (ℕ ×ₗ (ℕ ×ₗ ℕ)) := toLex (yk py e, toLex (e.rank, toLex (e.a, e.b)))

theorem rless_iff (py : Nat → Int) (e f : REv) : rless py e f = true ↔ rKey py e < rKey py f := by
  unfold rless rKey
  rw [ordY_eq]
  simp only [Prod.Lex.toLex_lt_toLex]
  rcases lt_trichotomy (yk py e) (yk py f) with h | h | h
  · rw [compare_lt_iff_lt.mpr h]; simp [h]
  · rw [h]
    have e0 : compare (yk py f) (yk py f) = .eq := by simp
    rw [e0]
    simp only [lt_irrefl, false_or, true_and]
    split
    · rename_i hr; simp [hr]
    · rename_i hr
      rw [not_not] at hr
      simp only [hr, lt_irrefl, false_or, true_and]
      split
      · rename_i ha; simp [ha]
      · rename_i ha
        rw [not_not] at ha
        simp [ha]
  · rw [compare_gt_iff_gt.mpr h]
    simp [h.le, h.ne']

/-- Order of two events. -/
def Le (py : Nat → Int) (e f : REv) : Prop := rKey py e ≤ rKey py f

/-- In the order of the queue. -/
def RSorted (py : Nat → Int) (l : List REv) : Prop := l.Pairwise (Le py)

theorem sorted_sortBy (py : Nat → Int) (l : List REv) : RSorted py (sortBy (rless py) l) :=
  sortBy_pairwise (rless py) (rKey py) (rless_iff py) l

/-! ### The merge -/

/-- Conditions under which the merge keeps the order. -/
def RFits (py : Nat → Int) (old : List REv) : List (REv × Nat) → Prop
  | [] => True
  | (e, lb) :: rest => lb ≤ old.length ∧ (∀ f ∈ old.take lb, Le py f e) ∧ (∀ f ∈ old.drop lb, Le py e f) ∧
      (∀ a ∈ rest, Le py a.1 e) ∧ RFits py (old.take lb) rest

theorem RFits.lbOk {py : Nat → Int} (l : List (REv × Nat)) : ∀ old, RFits py old l → LbOk old.length l := by
  induction l with
  | nil => intro _ _; trivial
  | cons a l ih =>
    intro old h
    refine ⟨h.1, ?_⟩
    have := ih _ h.2.2.2.2
    rwa [List.length_take, min_eq_left h.1] at this

theorem mergeL_rsorted (py : Nat → Int) (l : List (REv × Nat)) : ∀ old : List REv, RSorted py old → RFits py old l →
    RSorted py (mergeL old l) := by
  induction l with
  | nil => intro old h _; exact h
  | cons a l ih =>
    obtain ⟨e, lb⟩ := a
    rintro old h ⟨_, h1, h2, h3, h4⟩
    have hs := ih _ (h.sublist (List.take_sublist lb old)) h4
    have hlt : ∀ f ∈ mergeL (old.take lb) l, Le py f e := by
      intro f hf
      rcases List.mem_append.mp ((mergeL_perm l _).mem_iff.mp hf) with hf | hf
      · exact h1 f hf
      · obtain ⟨a, ha, rfl⟩ := List.mem_map.mp hf
        exact h3 a ha
    unfold mergeL RSorted
    rw [List.pairwise_append]
    refine ⟨hs, ?_, ?_⟩
    · rw [List.pairwise_cons]
      exact ⟨h2, h.sublist (List.drop_sublist lb old)⟩
    · intro f hf g hg
      rcases List.mem_cons.mp hg with rfl | hg
      · exact hlt f hf
      · exact le_trans (hlt f hf) (h2 g hg)

theorem mergeL_take {α : Type} (l : List (α × Nat)) : ∀ (old : List α) (k : Nat), k ≤ old.length → LbOk old.length l →
    (∀ a ∈ l, k ≤ a.2) → (mergeL old l).take k = old.take k := by
  induction l with
  | nil => intro old k _ _ _; rfl
  | cons a l ih =>
    obtain ⟨e, lb⟩ := a
    intro old k hk hl hb
    have hlb : lb ≤ old.length := hl.1
    have hkl : k ≤ lb := hb (e, lb) (by simp)
    have hlen : (old.take lb).length = lb := by rw [List.length_take, min_eq_left hlb]
    have := ih (old.take lb) k (by rw [hlen]; exact hkl) (by rw [hlen]; exact hl.2) (fun a ha => hb a (by simp [ha]))
    unfold mergeL
    rw [List.take_append_of_le_length (by rw [mergeL_length, hlen]; omega), this, List.take_take, min_eq_left hkl]

theorem lb_le (py : Nat → Int) (l : List REv) (e : REv) : rLowerBound py l e ≤ l.length := by
  unfold rLowerBound
  exact (List.takeWhile_sublist _).length_le

theorem lb_take (py : Nat → Int) (l : List REv) (e : REv) : l.take (rLowerBound py l e) = l.takeWhile fun f => rless py f e := by
  have h := List.takeWhile_append_dropWhile (p := fun f => rless py f e) (l := l)
  unfold rLowerBound
  generalize l.takeWhile (fun f => rless py f e) = a at *
  generalize l.dropWhile (fun f => rless py f e) = b at *
  subst h
  simp

theorem lb_drop (py : Nat → Int) (l : List REv) (e : REv) : l.drop (rLowerBound py l e) = l.dropWhile fun f => rless py f e := by
  have h := List.takeWhile_append_dropWhile (p := fun f => rless py f e) (l := l)
  unfold rLowerBound
  generalize l.takeWhile (fun f => rless py f e) = a at *
  generalize l.dropWhile (fun f => rless py f e) = b at *
  subst h
  simp

theorem lb_before (py : Nat → Int) (l : List REv) (e f : REv) (h : f ∈ l.take (rLowerBound py l e)) : rKey py f < rKey py e := by
  rw [lb_take] at h
  exact (rless_iff py f e).mp (List.mem_takeWhile_imp (p := fun f => rless py f e) h)

theorem lb_after (py : Nat → Int) (l : List REv) (hs : RSorted py l) (e f : REv) (h : f ∈ l.drop (rLowerBound py l e)) :
    rKey py e ≤ rKey py f := by
  rw [lb_drop] at h
  have hs' : RSorted py (l.dropWhile fun f => rless py f e) := hs.sublist (List.dropWhile_sublist _)
  cases hd : l.dropWhile (fun f => rless py f e) with
  | nil => rw [hd] at h; simp at h
  | cons g r =>
    rw [hd] at h hs'
    have hg : ¬ rless py g e = true := by
      have := List.head?_dropWhile_not (fun f => rless py f e) l
      rw [hd] at this
      simpa using this
    have hge : rKey py e ≤ rKey py g := not_lt.mp (fun hc => hg ((rless_iff py g e).mpr hc))
    rcases List.mem_cons.mp h with rfl | h
    · exact hge
    · exact hge.trans ((List.pairwise_cons.mp hs').1 f h)

theorem lb_of_all (py : Nat → Int) (l : List REv) (e : REv) (k : Nat) (hk : k ≤ l.length)
    (h : ∀ f ∈ l.take k, rKey py f < rKey py e) : k ≤ rLowerBound py l e := by
  unfold rLowerBound
  have : l.take k <+: l.takeWhile fun f => rless py f e := by
    conv_rhs => rw [← List.take_append_drop k l]
    rw [List.takeWhile_append_of_pos]
    · exact List.prefix_append _ _
    · intro f hf; exact (rless_iff py f e).mpr (h f hf)
  have := this.length_le
  rwa [List.length_take, min_eq_left hk] at this

theorem lb_mono (py : Nat → Int) (l : List REv) (hs : RSorted py l) (e f : REv) (h : rLowerBound py l e < rLowerBound py l f) :
    rKey py e < rKey py f := by
  have h1 := lb_le py l f
  have hm : l[rLowerBound py l e]'(by omega) ∈ l.take (rLowerBound py l f) := by
    rw [List.mem_take_iff_getElem]
    exact ⟨rLowerBound py l e, by rw [lt_min_iff]; omega, rfl⟩
  have hm2 : l[rLowerBound py l e]'(by omega) ∈ l.drop (rLowerBound py l e) := by
    rw [List.mem_drop_iff_getElem]
    exact ⟨0, by omega, by simp⟩
  exact lt_of_le_of_lt (lb_after py l hs e _ hm2) (lb_before py l f _ hm)

/-- Key of the items to insert. -/
def insKey (py : Nat → Int) (a : REv × Nat) : ℕ ×ₗ ((ℤ ×ₗ ℚ) ×ₗ (ℕ ×ₗ (ℕ ×ₗ ℕ))) := toLex (a.2, rKey py a.1)

theorem rInsLess_iff (py : Nat → Int) (a b : REv × Nat) : rInsLess py a b = true ↔ insKey py a < insKey py b := by
  unfold rInsLess insKey
  rw [Prod.Lex.toLex_lt_toLex]
  split
  · rename_i h; simp [h]
  · rename_i h
    rw [not_not] at h
    simp [h, rless_iff]

theorem rfits_of (py : Nat → Int) (old : List REv) (hs : RSorted py old) : ∀ (l : List (REv × Nat)) (n : Nat),
    n ≤ old.length → (∀ a ∈ l, a.2 = rLowerBound py old a.1 ∧ a.2 ≤ n) → (l.Pairwise fun a b => insKey py b ≤ insKey py a) →
    RFits py (old.take n) l := by
  intro l
  induction l with
  | nil => intro _ _ _ _; trivial
  | cons a l ih =>
    obtain ⟨e, lb⟩ := a
    intro n hn hl hp
    obtain ⟨h1, h2⟩ := hl (e, lb) (by simp)
    simp only at h1 h2
    rw [List.pairwise_cons] at hp
    have hle : ∀ a ∈ l, a.2 ≤ lb ∧ Le py a.1 e := by
      intro a ha
      have := hp.1 a ha
      unfold insKey at this
      rw [Prod.Lex.toLex_le_toLex] at this
      rcases this with h | ⟨h, h'⟩
      · refine ⟨h.le, ?_⟩
        have := (hl a (by simp [ha])).1
        simp only at h
        rw [this, h1] at h
        exact (lb_mono py old hs _ _ h).le
      · exact ⟨h.le, h'⟩
    have htt : (old.take n).take lb = old.take lb := by rw [List.take_take, min_eq_left h2]
    refine ⟨by rw [List.length_take]; omega, ?_, ?_, fun a ha => (hle a ha).2, ?_⟩
    · intro f hf
      rw [htt, h1] at hf
      exact (lb_before py old e f hf).le
    · intro f hf
      apply lb_after py old hs e f
      rw [h1] at hf
      rw [List.drop_take] at hf
      exact List.mem_of_mem_take hf
    · rw [htt]
      exact ih lb (by omega) (fun a ha => ⟨(hl a (by simp [ha])).1, (hle a ha).1⟩) hp.2

theorem rIncorporate_eq (events : List REv) (last : Nat) (l : List (REv × Nat)) (hl : LbOk last l)
    (hlen : events.length = last + l.length) : rIncorporate (addIdx l.reverse) events = mergeL (events.take last) l := by
  have hr : (addIdx l.reverse).reverse = addIdxR l := addIdx_reverse l
  unfold rIncorporate
  rw [hr]
  have ht : (events.take last).length = last := by rw [List.length_take]; omega
  apply List.ext_getElem?
  intro k
  by_cases hk : k < events.length
  · have hp := placed_eq l (events.take last) (fun k => events.getD k default) (by rw [ht]; exact hl) (by
      intro k h
      have : k < events.length := by rw [ht] at h; omega
      rw [List.getD_eq_getElem?_getD, List.getElem?_eq_getElem this, Option.getD_some, List.getElem_take]) k (by rw [ht]; omega)
    rw [hp, List.getElem?_map, List.getElem?_range hk, Option.map_some]
    congr 1
    rw [incLoop_eq _ last _ _ (insOk_of_lbOk l _ hl) ?_ k, if_pos (by omega)]
    cases l with
    | nil => simp [addIdxR]
    | cons a l =>
      obtain ⟨e, lb⟩ := a
      have := hl.1
      simp only [addIdxR, List.head?_cons, Option.mem_def, Option.some.injEq, forall_eq', List.length_cons] at *
      omega
  · rw [List.getElem?_eq_none (by simpa using hk), List.getElem?_eq_none (by rw [mergeL_length, ht]; omega)]

/-- What `next` does: the events are the same, in order, and those already passed do not move. -/
theorem next_spec (py : Nat → Int) (q : RQueue) (hl : q.last ≤ q.events.length) (hs : RSorted py (q.events.take q.last))
    (hp : q.pos ≤ q.last) (h0 : 0 < q.last)
    (hnew : ∀ e ∈ q.events.drop q.last, ∀ f ∈ q.events.take q.pos, rKey py f < rKey py e) :
    (q.next py).events.Perm q.events ∧ RSorted py (q.next py).events ∧ (q.next py).events.take q.pos = q.events.take q.pos ∧
      (q.next py).last = (q.next py).events.length ∧ (q.next py).pos = q.pos + 1 := by
  unfold RQueue.next
  by_cases c : q.events.length > q.last
  · rw [if_pos c, if_neg (by omega)]
    simp only
    set old := q.events.take q.last with hold
    have hol : old.length = q.last := by rw [hold, List.length_take]; omega
    set items := (q.events.drop q.last).map fun e => (e, rLowerBound py old e) with hitems
    set l := (sortBy (rInsLess py) items).reverse with hlr
    have hlperm : l.Perm items := (List.reverse_perm _).trans (sortBy_perm _ _)
    have hpl : rPlaceNew py q.events q.last = addIdx l.reverse := by
      rw [hlr, List.reverse_reverse]; rfl
    have hprop : ∀ a ∈ l, a.2 = rLowerBound py old a.1 ∧ a.1 ∈ q.events.drop q.last := by
      intro a ha
      have := hlperm.mem_iff.mp ha
      rw [hitems, List.mem_map] at this
      obtain ⟨e, he, rfl⟩ := this
      exact ⟨rfl, he⟩
    have hpw : l.Pairwise fun a b => insKey py b ≤ insKey py a := by
      rw [hlr, List.pairwise_reverse]
      exact sortBy_pairwise (rInsLess py) (insKey py) (rInsLess_iff py) items
    have hfit : RFits py old l := by
      have := rfits_of py old hs l old.length le_rfl (fun a ha => ⟨(hprop a ha).1, by
        rw [(hprop a ha).1]; exact lb_le py old a.1⟩) hpw
      rwa [List.take_length] at this
    have hlb := RFits.lbOk l old hfit
    have hlen : q.events.length = q.last + l.length := by
      rw [hlperm.length_eq, hitems, List.length_map, List.length_drop]; omega
    rw [hpl, rIncorporate_eq q.events q.last l (by rw [← hol]; exact hlb) hlen, ← hold]
    refine ⟨?_, mergeL_rsorted py l old hs hfit, ?_, ?_, trivial⟩
    · refine (mergeL_perm l old).trans ?_
      conv_rhs => rw [← List.take_append_drop q.last q.events]
      refine List.Perm.append_left _ ((hlperm.map _).trans ?_)
      rw [hitems, List.map_map]
      simp [Function.comp_def]
    · rw [mergeL_take l old q.pos (by omega) hlb, hold, List.take_take, min_eq_left hp]
      intro a ha
      rw [(hprop a ha).1]
      apply lb_of_all py old a.1 q.pos (by omega)
      intro f hf
      rw [hold, List.take_take, min_eq_left hp] at hf
      exact hnew a.1 (hprop a ha).2 f hf
    · rw [mergeL_length, hol, hlen]
  · rw [if_neg c]
    have : q.last = q.events.length := by omega
    rw [this, List.take_length] at hs
    exact ⟨List.Perm.refl _, hs, rfl, this, rfl⟩

/-- The first call of `next`. -/
theorem next_first (py : Nat → Int) (l : List REv) :
    ((⟨l, 0, 0⟩ : RQueue).next py).events.Perm l ∧ RSorted py ((⟨l, 0, 0⟩ : RQueue).next py).events ∧
      ((⟨l, 0, 0⟩ : RQueue).next py).last = ((⟨l, 0, 0⟩ : RQueue).next py).events.length ∧
      ((⟨l, 0, 0⟩ : RQueue).next py).pos = 1 := by
  unfold RQueue.next
  by_cases c : l.length > 0
  · simp only [c, if_true]
    exact ⟨sortBy_perm _ _, sorted_sortBy py l, (sortBy_length _ _).symm, trivial⟩
  · have : l = [] := by cases l <;> simp_all
    subst this
    simp [RSorted]

end PolyOps.Raster
