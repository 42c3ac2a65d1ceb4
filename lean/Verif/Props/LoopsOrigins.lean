import Verif.Lemmas.LoopsLines
import Mathlib.Data.Set.Basic

/-! C37: where the origins of discarded points go. -/
namespace PolyOps.Loops
open PolyOps PolyOps.Sweep

/-- The origin sets after calls `point_merge(from, to)`: the set of `to` takes in that of `from` (offset.hpp:375). -/
def merged {α : Type} (s : Nat → Set α) : List (Nat × Nat) → Nat → Set α
  | [] => s
  | m :: l => merged (setFn s m.2 (s m.2 ∪ s m.1)) l

theorem merged_append {α : Type} : ∀ (l m : List (Nat × Nat)) (s : Nat → Set α), merged s (l ++ m) = merged (merged s l) m
  | [], _, _ => rfl
  | _ :: l, m, s => by rw [List.cons_append]; exact merged_append l m _

theorem merged_chain {α : Type} (o : α) : ∀ (l : List Nat) (x : Nat) (s : Nat → Set α), l.Nodup → (hl : l ≠ []) →
    (o ∈ merged s ((x :: l).zip l) (l.getLast hl) ↔ ∃ k ∈ x :: l, o ∈ s k)
  | [], _, _, _, hl => absurd rfl hl
  | [y], x, s, _, _ => by
    simp [merged, setFn, or_comm]
  | y :: z :: l, x, s, hn, _ => by
    have hn := List.nodup_cons.mp hn
    rw [List.getLast_cons (by simp)]
    have ih := merged_chain o (z :: l) y (setFn s y (s y ∪ s x)) hn.2 (by simp)
    have e : merged s ((x :: y :: z :: l).zip (y :: z :: l)) = merged (setFn s y (s y ∪ s x)) ((y :: z :: l).zip (z :: l)) := rfl
    rw [e, ih]
    have e1 : setFn s y (s y ∪ s x) y = s y ∪ s x := by simp [setFn]
    have e2 : ∀ k ∈ z :: l, setFn s y (s y ∪ s x) k = s k := by
      intro k hk
      have : k ≠ y := fun c => hn.1 (c ▸ hk)
      simp [setFn, this]
    constructor
    · rintro ⟨k, hk, ho⟩
      rcases List.mem_cons.mp hk with c | c
      · rw [c, e1] at ho
        rcases ho with ho | ho
        · exact ⟨y, by simp, ho⟩
        · exact ⟨x, by simp, ho⟩
      · rw [e2 k c] at ho
        exact ⟨k, List.mem_cons_of_mem _ (List.mem_cons_of_mem _ c), ho⟩
    · rintro ⟨k, hk, ho⟩
      rcases List.mem_cons.mp hk with c | c
      · exact ⟨y, by simp, by rw [e1]; exact .inr (c ▸ ho)⟩
      · rcases List.mem_cons.mp c with d | d
        · exact ⟨y, by simp, by rw [e1]; exact .inl (d ▸ ho)⟩
        · exact ⟨k, List.mem_cons_of_mem _ d, by rw [e2 k d]; exact ho⟩

theorem merged_other {α : Type} : ∀ (l : List (Nat × Nat)) (s : Nat → Set α) (k : Nat), (∀ m ∈ l, m.2 ≠ k) → merged s l k = s k
  | [], _, _, _ => rfl
  | m :: l, s, k, h => by
    rw [merged, merged_other l _ k (fun x hx => h x (List.mem_cons_of_mem _ hx))]
    simp [setFn, (h m List.mem_cons_self).symm]

/-- C37: a chain of points that is discarded: the next classified point then has, beside its own origins, exactly those of the
chain; points outside of the chain keep their origins. -/
theorem C37_discard (w : Work) (a : Arc) (h : IsArc w.lp a) (hl : a.mid.length ≤ w.np) (hd : (w.lp a.head).st = .res .discard) :
    ∃ w' ms, w.follow a.head = some w' ∧ w'.merges = w.merges ++ ms ∧ ∀ (α : Type) (s : Nat → Set α),
      (∀ o, o ∈ merged s ms a.stop ↔ o ∈ s a.stop ∨ ∃ k ∈ a.nodes, o ∈ s k) ∧
      (∀ k, k ∉ a.mid → k ≠ a.stop → merged s ms k = s k) := by
  have hs : (w.lp a.head).ls = .discard := by unfold OP.ls; rw [hd]
  have hn := (List.nodup_cons.mp h.nodup).2
  refine ⟨_, (a.head :: (a.mid ++ [a.stop])).zip (a.mid ++ [a.stop]), follow_spec w a h hl, ?_, fun α s => ⟨fun o => ?_, fun k h1 h2 => ?_⟩⟩
  · unfold Work.followed
    rw [hs]
    dsimp only [LState.discard]
    rw [if_pos rfl, if_pos rfl]
    change w.merges ++ (a.head :: a.mid).zip a.mid ++ [(a.last, a.stop)] = _
    rw [List.append_assoc]
    congr 1
    have e : ∀ (l : List Nat) (x z : Nat), (x :: (l ++ [z])).zip (l ++ [z]) = (x :: l).zip l ++ [((x :: l).getLast (by simp), z)] := by
      intro l
      induction l with
      | nil => intro x z; rfl
      | cons y l ih => intro x z; simp only [List.cons_append, List.zip_cons_cons]; rw [ih y z]; simp
    rw [e]; rfl
  · have := merged_chain o (a.mid ++ [a.stop]) a.head s (by
      rw [List.nodup_append]
      refine ⟨hn, by simp, ?_⟩
      intro p hp q hq e
      rw [List.mem_singleton.mp hq] at e
      exact h.stop_notMem (e ▸ hp)) (by simp)
    rw [List.getLast_append_singleton] at this
    rw [this]
    unfold Arc.nodes
    constructor
    · rintro ⟨k, hk, ho⟩
      simp only [List.mem_cons, List.mem_append, List.not_mem_nil, or_false] at hk
      rcases hk with c | c | c
      · exact .inr ⟨k, by simp [c], ho⟩
      · exact .inr ⟨k, by simp [c], ho⟩
      · exact .inl (c ▸ ho)
    · rintro (ho | ⟨k, hk, ho⟩)
      · exact ⟨a.stop, by simp, ho⟩
      · refine ⟨k, ?_, ho⟩
        rcases List.mem_cons.mp hk with c | c <;> simp [c]
  · refine merged_other _ s k fun m hm e => ?_
    have := (List.of_mem_zip hm).2
    rw [List.mem_append, e] at this
    rcases this with c | c
    · exact h1 c
    · exact h2 (List.mem_singleton.mp c)

/-- C37: a chain discarded with the direction reversed: the origins are gathered at its last point. The next classified point does
not get them. -/
theorem C37_discard_rev (w : Work) (a : Arc) (h : IsArc w.lp a) (hl : a.mid.length ≤ w.np) (hd : (w.lp a.head).st = .res .discardRev) :
    ∃ w' ms, w.follow a.head = some w' ∧ w'.merges = w.merges ++ ms ∧ ∀ (α : Type) (s : Nat → Set α),
      (∀ o, o ∈ merged s ms a.last ↔ ∃ k ∈ a.nodes, o ∈ s k) ∧
      (∀ k, k ∉ a.mid → merged s ms k = s k) := by
  have hs : (w.lp a.head).ls = .discardRev := by unfold OP.ls; rw [hd]
  have hn := (List.nodup_cons.mp h.nodup).2
  refine ⟨_, (a.head :: a.mid).zip a.mid, follow_spec w a h hl, ?_, fun α s => ⟨fun o => ?_, fun k h1 => ?_⟩⟩
  · unfold Work.followed
    rw [hs]
    rfl
  · cases hm : a.mid with
    | nil => simp [merged, Arc.last, Arc.nodes, hm]
    | cons y l =>
      rw [hm] at hn
      have := merged_chain o (y :: l) a.head s hn (by simp)
      have e : a.last = (y :: l).getLast (by simp) := by
        have : a.last = (a.head :: a.mid).getLast (by simp) := rfl
        rw [this]
        simp only [hm, List.getLast_cons_cons]
      rw [e, this, Arc.nodes, hm]
  · refine merged_other _ s k fun m hm e => ?_
    exact h1 (e ▸ (List.of_mem_zip hm).2)

/-- C37: following a chain that is kept merges nothing. -/
theorem C37_kept (w : Work) (a : Arc) (h : IsArc w.lp a) (hl : a.mid.length ≤ w.np) (hd : (w.lp a.head).keep = true) :
    ∃ w', w.follow a.head = some w' ∧ w'.merges = w.merges := by
  have hk : (w.lp a.head).ls.keep = true := by
    unfold OP.keep at hd
    unfold OP.ls
    split at hd <;> simp_all
  refine ⟨_, follow_spec w a h hl, ?_⟩
  unfold Work.followed
  dsimp only
  rw [hk]
  split
  · rw [if_neg (by simp)]; simp
  · simp

/-! ### Anchors and the tracker

With nested output each followed line first gets an anchor, a point the tracker is not told about; its record does not exist. -/

/-- Finding: with nested output, following a discarded line calls `point_merge` with an index the tracker has no record of: the
anchor's index is at least the number of points before. -/
theorem C37_tree_anchor (w : Work) (i : Nat) (hi : i < w.np) (hn : (w.lp i).next < w.np) (ha : ∀ k < w.np, (w.lp k).anchor = false)
    (hd : (w.lp i).st = .res .discard) (w' : Work) (h : (w.insertAnchor i).1.follow i = some w') :
    (i, w.np) ∈ w'.merges := by
  have e1 : (w.insertAnchor i).1 = { w with lp := setFn (setFn w.lp w.np { w.lp i with st := .undef, anchor := true }) i { w.lp i with next := w.np }, np := w.np + 1 } := by
    unfold Work.insertAnchor
    rw [if_neg (by rw [ha _ hn]; simp)]
    dsimp only
    have : setFn w.lp w.np { w.lp i with st := .undef, anchor := true } i = w.lp i := by simp [setFn, hi.ne]
    rw [this]
  rw [e1] at h
  set w1 : Work := { w with lp := setFn (setFn w.lp w.np { w.lp i with st := .undef, anchor := true }) i { w.lp i with next := w.np }, np := w.np + 1 } with ew
  have l1 : w1.lp i = { w.lp i with next := w.np } := by simp [ew, setFn]
  have l2 : w1.lp w.np = { w.lp i with st := .undef, anchor := true } := by simp [ew, setFn, hi.ne']
  unfold Work.follow at h
  rw [l1] at h
  dsimp only at h
  rw [hd, ha i hi] at h
  dsimp only at h
  obtain ⟨⟨w2, p2, n2⟩, hw, h3⟩ := Option.map_eq_some_iff.mp h
  have mono : ∀ (fuel : Nat) (u v : Work) (p n p' n' : Nat), Work.walk .discard fuel u p n = some (v, p', n') → ∀ m ∈ u.merges, m ∈ v.merges := by
    intro fuel
    induction fuel with
    | zero => intro u v p n p' n' h; cases h
    | succ f ih =>
      intro u v p n p' n' h m hm
      unfold Work.walk at h
      dsimp only at h
      split at h
      · cases h; exact hm
      · refine ih _ _ _ _ _ _ h m ?_
        rw [if_pos (by rfl)]
        exact List.mem_append_left _ hm
  have hw : Work.walk .discard (w1.np + 1) w1 i w.np = some (w2, p2, n2) := hw
  unfold Work.walk at hw
  rw [l2] at hw
  dsimp only at hw
  rw [if_neg (by simp [OP.hasBal]), if_pos (by rfl)] at hw
  have := mono _ _ _ _ _ _ _ hw (i, w.np) (List.mem_append_right _ (List.mem_singleton.mpr rfl))
  rw [← h3]
  dsimp only
  rw [if_pos (by rfl), if_pos (by rfl)]
  exact List.mem_append_left _ this

/-- A loop of three points, the whole of it discarded. -/
def exTri (i : Nat) : OP := match i with
  | 0 => ⟨⟨0, 0⟩, 1, .res .discard, false⟩
  | 1 => ⟨⟨4, 0⟩, 2, .undef, false⟩
  | _ => ⟨⟨4, 4⟩, 0, .undef, false⟩

/-- With nested output the tracker, with records 0, 1 and 2, is asked to merge into record 3. -/
example : (doOpTree exTri 3 [(0, [])]).map (fun r => r.1.merges) = some [(0, 3), (3, 1), (1, 2), (2, 0)] := by decide

example : IsArc exTri ⟨0, [1, 2], 0⟩ := ⟨by simp [Sq, exTri], by decide, ⟨_, rfl⟩, rfl, by decide, by decide⟩

end PolyOps.Loops
