import Verif.Props.Events
import Verif.Model.Sweep

/-! Queue operations seen by the sweep: which events exist, which are applied, which are deleted. -/
namespace PolyOps.Events

/-- Node and direction of an event. -/
def Ev.nt (e : Ev) : Nat × Bool := (e.node, e.ty.isFwd)

def nt (l : List Ev) : List (Nat × Bool) := l.map Ev.nt

/-- The event of node `n` in direction `b` is marked deleted. -/
def Dead (l : List Ev) (n : Nat) (b : Bool) : Prop := ∃ e ∈ l, e.nt = (n, b) ∧ e.del = true

theorem nt_append (l m : List Ev) : nt (l ++ m) = nt l ++ nt m := List.map_append
theorem nt_take (l : List Ev) (k : Nat) : nt (l.take k) = (nt l).take k := List.map_take
theorem mem_nt {l : List Ev} {a : Nat × Bool} : a ∈ nt l ↔ ∃ e ∈ l, e.nt = a := List.mem_map

/-- `e` marked deleted. -/
def Ev.kill (e : Ev) : Ev := { e with del := true }

@[simp] theorem kill_nt (e : Ev) : e.kill.nt = e.nt := rfl
@[simp] theorem kill_key (e : Ev) : e.kill.key = e.key := rfl

theorem map_modify_kill {β : Type} (g : Ev → β) (hg : ∀ e, g e.kill = g e) (l : List Ev) (k : Nat) :
    (l.modify k Ev.kill).map g = l.map g := by
  apply List.ext_getElem?
  intro i
  rw [List.getElem?_map, List.getElem?_map, List.getElem?_modify]
  cases l[i]? with
  | none => rfl
  | some e =>
    simp only [Option.map_some]
    split <;> simp [hg]

theorem delAt_events (q : Queue) (k : Nat) : (q.delAt k).events = q.events.modify k Ev.kill := rfl

theorem delAt_nt (q : Queue) (k : Nat) : nt (q.delAt k).events = nt q.events :=
  map_modify_kill Ev.nt kill_nt q.events k

theorem delAt_keys (q : Queue) (k : Nat) : (q.delAt k).events.map Ev.key = q.events.map Ev.key :=
  map_modify_kill Ev.key kill_key q.events k

theorem sorted_of_keys (x : Nat → Int) {l m : List Ev} (h : l.map Ev.key = m.map Ev.key) (hs : Sorted x l) : Sorted x m := by
  have conv : ∀ l : List Ev, Sorted x l ↔ (l.map Ev.key).Pairwise fun a b =>
      less x ⟨a.2.1, a.2.2, 0, a.1, false⟩ ⟨b.2.1, b.2.2, 0, b.1, false⟩ = true := by
    intro l
    rw [List.pairwise_map]
    rfl
  rw [conv] at hs ⊢
  rwa [← h]

theorem wf_delAt (x : Nat → Int) (q : Queue) (k : Nat) (h : WF x q) (hn : q.news = []) : WF x (q.delAt k) := by
  obtain ⟨h1, h2, h3, h4, h5, h6⟩ := h
  refine ⟨?_, ?_, ?_, h4, h5, Or.inl hn⟩
  · rw [delAt_events, List.length_modify]; exact h1
  · refine sorted_of_keys x ?_ h2
    rw [List.map_take, List.map_take, delAt_keys]; rfl
  · unfold KeysNodup; rw [delAt_keys]; exact h3

theorem applied_delAt (q : Queue) (k : Nat) : nt (applied (q.delAt k)) = nt (applied q) := by
  have : ∀ m, nt ((q.delAt k).events.take m) = nt (q.events.take m) := by
    intro m; rw [nt_take, nt_take, delAt_nt]
  unfold applied
  show nt (if q.news = [] then _ else _) = _
  split <;> exact this _

theorem dead_delAt (q : Queue) (k : Nat) (f : Ev) (hf : q.events[k]? = some f) (n : Nat) (b : Bool) :
    Dead (q.delAt k).events n b ↔ Dead q.events n b ∨ (n, b) = f.nt := by
  unfold Dead
  rw [delAt_events]
  constructor
  · rintro ⟨e, he, h1, h2⟩
    obtain ⟨i, hi⟩ := List.mem_iff_getElem?.mp he
    rw [List.getElem?_modify] at hi
    cases hq : q.events[i]? with
    | none => rw [hq] at hi; simp at hi
    | some g =>
      rw [hq] at hi
      change some (if k = i then g.kill else g) = some e at hi
      rw [Option.some.injEq] at hi
      by_cases c : k = i
      · subst c
        rw [hf] at hq
        cases hq
        right
        rw [← h1, ← hi]; simp
      · rw [if_neg c] at hi
        subst hi
        exact Or.inl ⟨_, List.mem_iff_getElem?.mpr ⟨i, hq⟩, h1, h2⟩
  · rintro (⟨e, he, h1, h2⟩ | h)
    · obtain ⟨i, hi⟩ := List.mem_iff_getElem?.mp he
      refine ⟨if k = i then e.kill else e, List.mem_iff_getElem?.mpr ⟨i, ?_⟩, ?_, ?_⟩
      · rw [List.getElem?_modify, hi]; rfl
      · split <;> exact h1
      · split
        · rfl
        · exact h2
    · refine ⟨f.kill, List.mem_iff_getElem?.mpr ⟨k, ?_⟩, h.symm, rfl⟩
      rw [List.getElem?_modify, hf]; simp

/-- The order only looks at the x coordinates of the start points of events. -/
theorem less_congr {x y : Nat → Int} {e f : Ev} (h1 : x e.a = y e.a) (h2 : x f.a = y f.a) : less x e f = less y e f := by
  unfold less; rw [h1, h2]

theorem wf_congr {x y : Nat → Int} (q : Queue) (h : WF x q) (hn : q.news = []) (hx : ∀ e ∈ q.events, x e.a = y e.a) : WF y q := by
  obtain ⟨h1, h2, h3, h4, h5, h6⟩ := h
  refine ⟨h1, ?_, h3, h4, h5, Or.inl hn⟩
  refine List.Pairwise.imp_of_mem ?_ h2
  intro e f he hf hl
  rw [← less_congr (hx e (List.mem_of_mem_take he)) (hx f (List.mem_of_mem_take hf))]
  exact hl

/-- `lower_bound` finds an event that is there. -/
theorem lowerBound_found (x : Nat → Int) (l : List Ev) (h : Sorted x l) (e f : Ev) (hf : f ∈ l) (hk : f.key = e.key) :
    l[lowerBound x l e]? = some f := by
  have nl : less x f e = false := by
    rw [Bool.eq_false_iff, ne_eq, less_iff, (ordKey_inj x f e).mpr hk]; exact lt_irrefl _
  have hd : f ∈ l.drop (lowerBound x l e) := by
    have := hf
    rw [← List.take_append_drop (lowerBound x l e) l] at this
    rcases List.mem_append.mp this with h1 | h1
    · rw [lowerBound_take x l e f h1] at nl; exact absurd nl (by decide)
    · exact h1
  cases hdr : l.drop (lowerBound x l e) with
  | nil => rw [hdr] at hd; simp at hd
  | cons g t =>
    have hg : l[lowerBound x l e]? = some g := by
      have := congrArg (fun m : List Ev => m[0]?) hdr
      simp only [List.getElem?_drop, List.getElem?_cons_zero] at this
      exact this
    have hs : Sorted x (g :: t) := by rw [← hdr]; exact h.sublist (List.drop_sublist _ _)
    rw [hdr] at hd
    rcases List.mem_cons.mp hd with rfl | hd
    · exact hg
    · have h1 := (List.pairwise_cons.mp hs).1 f hd
      have h2 : less x g e = true := by
        rw [less_iff] at h1 ⊢
        rwa [(ordKey_inj x f e).mpr hk] at h1
      rw [lowerBound_drop x l e h g (by rw [hdr]; simp)] at h2
      exact absurd h2 (by decide)

/-- Types of the two events of a line. -/
def fTy (x : Nat → Int) (a b : Nat) : EvTy := if x a = x b then .vforward else .forward
def bTy (x : Nat → Int) (a b : Nat) : EvTy := if x a = x b then .vbackward else .backward

/-- The key of the event of a line. -/
def evKey (x : Nat → Int) (ab : Nat × Nat) (b : Bool) : EvTy × Nat × Nat :=
  if b then (fTy x ab.1 ab.2, ab.1, ab.2) else (bTy x ab.1 ab.2, ab.2, ab.1)

theorem addFb_events (x : Nat → Int) (q : Queue) (sa sb n : Nat) :
    (q.addFb x sa sb n).events = q.events ++ [⟨sa, sb, n, fTy x sa sb, false⟩, ⟨sb, sa, n, bTy x sa sb, false⟩] := by
  unfold Queue.addFb fTy bTy
  split <;> simp [Queue.addEvent]

theorem addFb_rest (x : Nat → Int) (q : Queue) (sa sb n : Nat) :
    (q.addFb x sa sb n).news = q.news ∧ (q.addFb x sa sb n).cur = q.cur ∧ (q.addFb x sa sb n).last = q.last := by
  unfold Queue.addFb
  split <;> exact ⟨rfl, rfl, rfl⟩

theorem fTy_isFwd (x : Nat → Int) (a b : Nat) : (fTy x a b).isFwd = true := by unfold fTy; split <;> rfl
theorem bTy_isFwd (x : Nat → Int) (a b : Nat) : (bTy x a b).isFwd = false := by unfold bTy; split <;> rfl

theorem wf_addFb (x : Nat → Int) (q : Queue) (sa sb n : Nat) (h : WF x q) (hn : q.news = [])
    (h1 : evKey x (sa, sb) true ∉ q.events.map Ev.key) (h2 : evKey x (sa, sb) false ∉ q.events.map Ev.key) :
    WF x (q.addFb x sa sb n) ∧ applied (q.addFb x sa sb n) = applied q := by
  have e : q.addFb x sa sb n = (q.addEvent sa sb n (fTy x sa sb)).addEvent sb sa n (bTy x sa sb) := by
    unfold Queue.addFb fTy bTy; split <;> rfl
  rw [e]
  obtain ⟨w1, a1⟩ := wf_add x q h hn sa sb n (fTy x sa sb) h1
  obtain ⟨w2, a2⟩ := wf_add x _ w1 hn sb sa n (bTy x sa sb) (by
    simp only [Queue.addEvent, List.map_append, List.map_cons, List.map_nil, List.mem_append, List.mem_singleton, not_or]
    refine ⟨h2, ?_⟩
    intro hc
    have := congrArg (fun t => t.1.isFwd) hc
    simp only [Ev.key, fTy_isFwd, bTy_isFwd] at this
    exact absurd this (by decide))
  exact ⟨w2, a2.trans a1⟩

/-- The applied events lie in the sorted part. -/
theorem applied_sorted {x : Nat → Int} {q : Queue} (h : WF x q) : Sorted x (applied q) ∧ applied q <+: q.events.take q.last := by
  have : ∃ m, m ≤ q.last ∧ applied q = q.events.take m := by
    unfold applied
    split
    · exact ⟨_, by have := h.cur_hi; omega, rfl⟩
    · exact ⟨_, by have := h.cur_hi; omega, rfl⟩
  obtain ⟨m, hm, he⟩ := this
  have hp : applied q <+: q.events.take q.last := by
    rw [he]
    have : q.events.take m = (q.events.take q.last).take m := by rw [List.take_take, min_eq_left hm]
    rw [this]; exact List.take_prefix _ _
  exact ⟨h.sorted.sublist hp.sublist, hp⟩

end PolyOps.Events
