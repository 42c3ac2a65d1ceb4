import Verif.Model.Loops
import Mathlib.Data.List.Nodup
import Mathlib.Data.List.Induction
import Mathlib.Data.List.Perm.Basic
import Mathlib.Data.List.Count

/-! Lemmas about following, adopting and joining (Verif.Model.Loops). -/
namespace PolyOps.Loops
open PolyOps PolyOps.Sweep

theorem setFn_same {α : Type} (f : Nat → α) (i : Nat) (a : α) : setFn f i a i = a := if_pos rfl
theorem setFn_ne {α : Type} (f : Nat → α) {i k : Nat} (a : α) (h : k ≠ i) : setFn f i a k = f k := if_neg h
theorem setPt_same {α : Type} (f : Pt → α) (i : Pt) (a : α) : setPt f i a i = a := if_pos rfl
theorem setPt_ne {α : Type} (f : Pt → α) {i k : Pt} (a : α) (h : k ≠ i) : setPt f i a k = f k := if_neg h

/-- `x` is the first of `ps ++ [e]` and each of them is linked to the next one. -/
def Sq (nx : Nat → Nat) : Nat → List Nat → Nat → Prop
  | x, [], e => x = e
  | x, p :: ps, e => x = p ∧ Sq nx (nx p) ps e

theorem Sq.congr {nx ny : Nat → Nat} {e : Nat} : ∀ {ps : List Nat} {x : Nat}, Sq nx x ps e → (∀ p ∈ ps, ny p = nx p) → Sq ny x ps e
  | [], _, h, _ => h
  | p :: ps, x, h, hp => by
    refine ⟨h.1, ?_⟩
    rw [hp p List.mem_cons_self]
    exact Sq.congr h.2 (fun q hq => hp q (List.mem_cons_of_mem _ hq))

theorem Sq.append {nx : Nat → Nat} {e : Nat} {qs : List Nat} : ∀ {ps : List Nat} {x : Nat},
    Sq nx x (ps ++ qs) e ↔ ∃ y, Sq nx x ps y ∧ Sq nx y qs e
  | [], x => by
    constructor
    · intro h; exact ⟨x, rfl, h⟩
    · rintro ⟨y, rfl, h⟩; exact h
  | p :: ps, x => by
    constructor
    · intro h
      obtain ⟨y, h1, h2⟩ := Sq.append.mp h.2
      exact ⟨y, ⟨h.1, h1⟩, h2⟩
    · rintro ⟨y, h1, h2⟩
      exact ⟨h1.1, Sq.append.mpr ⟨y, h1.2, h2⟩⟩

theorem Sq.last {nx : Nat → Nat} {e : Nat} {ps : List Nat} {x p : Nat} (h : Sq nx x (ps ++ [p]) e) : nx p = e := by
  obtain ⟨y, _, h2⟩ := Sq.append.mp h
  exact h2.2

/-! ### Following -/

/-- How `walk` changes a point. -/
def upd (st : LState) (lp : Nat → OP) (prev p : Nat) : OP :=
  let n1 := { lp p with st := .res st }
  if st.keep = false then n1
  else if st.rev then { n1 with data := if n1.anchor then (lp (lp p).next).data else n1.data, next := prev }
  else n1

def updAll (st : LState) : (Nat → OP) → Nat → List Nat → Nat → OP
  | lp, _, [] => lp
  | lp, prev, p :: ps => updAll st (setFn lp p (upd st lp prev p)) p ps

theorem updAll_other (st : LState) : ∀ (ps : List Nat) (lp : Nat → OP) (prev k : Nat), k ∉ ps → updAll st lp prev ps k = lp k
  | [], _, _, _, _ => rfl
  | p :: ps, lp, prev, k, h => by
    change updAll st (setFn lp p (upd st lp prev p)) p ps k = _
    rw [updAll_other st ps _ _ _ (fun c => h (List.mem_cons_of_mem _ c)), setFn_ne]
    exact fun c => h (c ▸ List.mem_cons_self)

theorem upd_congr (st : LState) (lp lp' : Nat → OP) (prev p : Nat) (h : lp' p = lp p) (h2 : lp' (lp p).next = lp (lp p).next) :
    upd st lp' prev p = upd st lp prev p := by
  unfold upd
  rw [h, h2]

/-- A point of the walk: its neighbours in `prev :: ps ++ [e]` decide. -/
theorem updAll_mem (st : LState) (e : Nat) : ∀ (l1 : List Nat) (lp : Nat → OP) (prev p x : Nat) (l2 : List Nat),
    (l1 ++ p :: l2).Nodup → e ∉ l1 ++ p :: l2 → Sq (fun i => (lp i).next) x (l1 ++ p :: l2) e →
    updAll st lp prev (l1 ++ p :: l2) p = upd st lp ((prev :: l1).getLast (by simp)) p := by
  intro l1
  induction l1 with
  | nil =>
    intro lp prev p x l2 hn _ _
    change updAll st (setFn lp p (upd st lp prev p)) p l2 p = _
    rw [updAll_other _ _ _ _ _ (List.nodup_cons.mp hn).1, setFn_same]
    rfl
  | cons a l1 ih =>
    intro lp prev p x l2 hn he hs
    change updAll st (setFn lp a (upd st lp prev a)) a (l1 ++ p :: l2) p = _
    rw [List.cons_append] at hn he hs
    have hn' := List.nodup_cons.mp hn
    have ap : a ≠ p := fun c => hn'.1 (c ▸ by simp)
    have s2 : Sq (fun i => (setFn lp a (upd st lp prev a) i).next) (lp a).next (l1 ++ p :: l2) e := by
      refine Sq.congr hs.2 (fun q hq => ?_)
      rw [setFn_ne]
      exact fun c => hn'.1 (c ▸ hq)
    rw [ih (setFn lp a (upd st lp prev a)) a p _ l2 hn'.2 (fun c => he (List.mem_cons_of_mem _ c)) s2]
    rw [List.getLast_cons (by simp : a :: l1 ≠ [])]
    apply upd_congr
    · rw [setFn_ne]; exact fun c => ap c.symm
    · rw [setFn_ne]
      -- the successor of `p` is in `l2 ++ [e]`
      have hp := hs.2
      obtain ⟨y, _, h3⟩ := Sq.append.mp hp
      have h4 : Sq (fun i => (lp i).next) (lp p).next l2 e := h3.2
      intro c
      rw [c] at h4
      cases l2 with
      | nil => exact he (by rw [← (show a = e from h4)]; exact List.mem_cons_self)
      | cons b l2 =>
        have : a = b := h4.1
        exact hn'.1 (this ▸ by simp)

theorem walk_spec (st : LState) : ∀ (ps : List Nat) (w : Work) (prev x e fuel : Nat), ps.length < fuel →
    Sq (fun i => (w.lp i).next) x ps e → ps.Nodup → e ∉ ps → (∀ p ∈ ps, (w.lp p).st = .undef) → (w.lp e).st ≠ .undef →
    Work.walk st fuel w prev x = some ({ w with
      lp := updAll st w.lp prev ps
      merges := w.merges ++ if st.keep then [] else (prev :: ps).zip ps }, (prev :: ps).getLast (by simp), e) := by
  intro ps
  induction ps with
  | nil =>
    intro w prev x e fuel hf hs _ _ _ he
    obtain ⟨fuel, rfl⟩ : ∃ k, fuel = k + 1 := ⟨fuel - 1, by simp at hf; omega⟩
    have hx : x = e := hs
    unfold Work.walk
    have hb : (w.lp x).hasBal = true := by rw [hx]; unfold OP.hasBal; simpa using he
    simp only [hb, if_true]
    rw [hx]
    simp [updAll]
  | cons p ps ih =>
    intro w prev x e fuel hf hs hn hne hu he
    obtain ⟨fuel, rfl⟩ : ∃ k, fuel = k + 1 := ⟨fuel - 1, by simp at hf; omega⟩
    have hx : x = p := hs.1
    subst hx
    unfold Work.walk
    have hb : (w.lp x).hasBal = false := by unfold OP.hasBal; rw [hu x List.mem_cons_self]; rfl
    simp only [hb, Bool.false_eq_true, if_false]
    have hn' := List.nodup_cons.mp hn
    -- the updated state
    have key : ∀ w1 : Work, w1.lp = setFn w.lp x (upd st w.lp prev x) → w1.np = w.np → w1.starts = w.starts → w1.ends = w.ends →
        w1.virts = w.virts → w1.orphans = w.orphans → w1.merges = w.merges ++ (if st.keep then [] else [(prev, x)]) →
        Work.walk st fuel w1 x (w.lp x).next = some ({ w with
          lp := updAll st w.lp prev (x :: ps)
          merges := w.merges ++ if st.keep then [] else (prev :: x :: ps).zip (x :: ps) }, (prev :: x :: ps).getLast (by simp), e) := by
      intro w1 e1 e2 e3 e4 e5 e6 e7
      have o : ∀ q ∈ ps, w1.lp q = w.lp q := by
        intro q hq
        rw [e1, setFn_ne]
        exact fun c => hn'.1 (c ▸ hq)
      rw [ih w1 x (w.lp x).next e fuel (by simp only [List.length_cons] at hf; omega) ?_ hn'.2 (fun c => hne (List.mem_cons_of_mem _ c)) ?_ ?_]
      · cases w1
        simp only at e1 e2 e3 e4 e5 e6 e7
        subst e2 e3 e4 e5 e6
        rw [e1, e7]
        congr 2
        · congr 1
          cases st.keep <;> simp
      · refine Sq.congr hs.2 (fun q hq => ?_)
        change (w1.lp q).next = (w.lp q).next
        rw [o q hq]
      · intro q hq; rw [o q hq]; exact hu q (List.mem_cons_of_mem _ hq)
      · rw [e1, setFn_ne]
        · exact he
        · exact fun c => hne (c ▸ List.mem_cons_self)
    apply key <;> by_cases k : st.keep = false <;> by_cases r : st.rev = true <;> simp [upd, k, r, Work.endPoint]


theorem upd_st (st : LState) (lp : Nat → OP) (prev p : Nat) : (upd st lp prev p).st = .res st := by
  unfold upd; dsimp only; split <;> [rfl; (split <;> rfl)]

theorem upd_anchor (st : LState) (lp : Nat → OP) (prev p : Nat) : (upd st lp prev p).anchor = (lp p).anchor := by
  unfold upd; dsimp only; split <;> [rfl; (split <;> rfl)]

theorem upd_data (st : LState) (lp : Nat → OP) (prev p : Nat) (h : (lp p).anchor = false) : (upd st lp prev p).data = (lp p).data := by
  unfold upd; dsimp only; rw [h]; split <;> [rfl; (split <;> rfl)]

theorem upd_next (st : LState) (lp : Nat → OP) (prev p : Nat) (h : ¬(st.keep = true ∧ st.rev = true)) :
    (upd st lp prev p).next = (lp p).next := by
  unfold upd; dsimp only
  by_cases k : st.keep = false
  · rw [if_pos k]
  · rw [if_neg k]
    have k' : st.keep = true := by simpa using k
    rw [if_neg (fun c => h ⟨k', c⟩)]

theorem upd_next_rev (st : LState) (lp : Nat → OP) (prev p : Nat) (k : st.keep = true) (r : st.rev = true) :
    (upd st lp prev p).next = prev := by
  unfold upd; dsimp only; rw [if_neg (by simp [k]), if_pos r]

theorem Sq.reverse {nx : Nat → Nat} (h : Nat) : ∀ mid : List Nat,
    (∀ l1 p l2, mid = l1 ++ p :: l2 → nx p = (h :: l1).getLast (by simp)) →
    Sq nx ((h :: mid).getLast (by simp)) mid.reverse h := by
  intro mid
  induction mid using List.reverseRecOn with
  | nil => intro _; rfl
  | append_singleton m p ih =>
    intro hp
    have e : (h :: (m ++ [p])).getLast (by simp) = p := by simp
    rw [List.reverse_append, e]
    refine ⟨rfl, ?_⟩
    change Sq nx (nx p) m.reverse h
    rw [hp m p [] rfl]
    exact ih (fun l1 q l2 e => hp l1 q (l2 ++ [p]) (by rw [e]; simp))

/-! ### Arcs -/

/-- The lines from a classified point up to the next classified point. -/
structure Arc where
  head : Nat
  mid : List Nat
  stop : Nat

def Arc.nodes (a : Arc) : List Nat := a.head :: a.mid
def Arc.last (a : Arc) : Nat := (a.head :: a.mid).getLast (by simp)

/-- The state of a classified point. -/
def OP.ls (p : OP) : LState := match p.st with | .res s => s | _ => .discard

structure IsArc (lp : Nat → OP) (a : Arc) : Prop where
  sq : Sq (fun i => (lp i).next) (lp a.head).next a.mid a.stop
  mid : ∀ p ∈ a.mid, (lp p).st = .undef
  head : ∃ s, (lp a.head).st = .res s
  anchor : (lp a.head).anchor = false
  stop : (lp a.stop).st ≠ .undef
  nodup : a.nodes.Nodup

theorem IsArc.head_st {lp : Nat → OP} {a : Arc} (h : IsArc lp a) : (lp a.head).st = .res (lp a.head).ls := by
  obtain ⟨s, hs⟩ := h.head
  unfold OP.ls
  rw [hs]

theorem IsArc.stop_notMem {lp : Nat → OP} {a : Arc} (h : IsArc lp a) : a.stop ∉ a.mid := fun c => h.stop (h.mid _ c)

/-- What `follow` returns. -/
def Work.followed (w : Work) (a : Arc) : Work :=
  let st := (w.lp a.head).ls
  let w1 : Work := { w with
    lp := updAll st w.lp a.head a.mid
    merges := w.merges ++ if st.keep then [] else (a.head :: a.mid).zip a.mid }
  if st.rev = false then
    if st.keep = false then { w1 with merges := w1.merges ++ [(a.last, a.stop)] }
    else { w1 with
      starts := setPt w.starts (w.lp a.head).data (w.starts (w.lp a.head).data ++ [a.head])
      ends := w.ends ++ [a.last] }
  else { w1 with
      orphans := w.orphans ++ [a.head]
      ends := if st.keep = true ∧ a.mid ≠ [] then w.ends ++ [a.mid.headD 0] else w.ends
      virts := setPt w.virts (w.lp a.stop).data (w.virts (w.lp a.stop).data ++ [⟨a.last, st.keep, decide (st.keep = true ∧ a.mid = [])⟩]) }

theorem Arc.last_eq_head {a : Arc} (h : a.nodes.Nodup) : a.last = a.head ↔ a.mid = [] := by
  unfold Arc.last
  unfold Arc.nodes at h
  constructor
  · intro e
    by_contra c
    rw [List.getLast_cons c] at e
    exact (List.nodup_cons.mp h).1 (e ▸ List.getLast_mem c)
  · intro e; simp [e]

theorem follow_spec (w : Work) (a : Arc) (h : IsArc w.lp a) (hl : a.mid.length ≤ w.np) : w.follow a.head = some (w.followed a) := by
  have hh := h.head_st
  have hnd := List.nodup_cons.mp h.nodup
  unfold Work.follow
  rw [hh, h.anchor]
  dsimp only
  rw [walk_spec (w.lp a.head).ls a.mid w a.head (w.lp a.head).next a.stop (w.np + 1) (by omega) h.sq hnd.2 h.stop_notMem h.mid h.stop]
  rw [Option.map_some]
  congr 1
  dsimp only
  have e1 : updAll (w.lp a.head).ls w.lp a.head a.mid a.head = w.lp a.head := updAll_other _ _ _ _ _ hnd.1
  have e2 : updAll (w.lp a.head).ls w.lp a.head a.mid a.stop = w.lp a.stop := updAll_other _ _ _ _ _ h.stop_notMem
  rw [e1, e2]
  have e3 : (a.last ≠ a.head) ↔ a.mid ≠ [] := not_congr (Arc.last_eq_head h.nodup)
  unfold Work.followed
  dsimp only
  by_cases r : (w.lp a.head).ls.rev = false
  · rw [if_pos r, if_pos r]
    rfl
  · rw [if_neg r, if_neg r]
    have e4 : a.mid ≠ [] → a.mid.headD 0 = (w.lp a.head).next := by
      intro hm
      have := h.sq
      cases hmid : a.mid with
      | nil => exact absurd hmid hm
      | cons p ps => rw [hmid] at this; exact this.1.symm
    congr 1
    · by_cases k : (w.lp a.head).ls.keep = true ∧ a.mid ≠ []
      · rw [if_pos k, if_pos ⟨k.1, e3.mpr k.2⟩, e4 k.2]
      · rw [if_neg k, if_neg (fun c => k ⟨c.1, e3.mp c.2⟩)]
    · congr 3
      have e5 : (a.last = a.head) ↔ a.mid = [] := Arc.last_eq_head h.nodup
      unfold Arc.last at e5
      simp only [e5]
      rfl

end PolyOps.Loops
