import Verif.Lemmas.LoopsBest
import Verif.Lemmas.LoopsLines

/-! The loops that are found are closed parts that keep the same side of each other. -/
namespace PolyOps.Loops
open PolyOps PolyOps.Sweep PolyOps.Exec

/-- Three corners that follow each other on one of the lists. -/
def Tri (C : List (List Pt)) (u v u' : Pt) : Prop := ∃ c ∈ C, ((u, v), (v, u')) ∈ pairs (pairs c)

theorem pairs_cons {α : Type} (a b : α) (l : List α) : pairs (a :: b :: l) = (a, b) :: pairs (b :: l) := rfl

theorem pairs_link {α : Type} : ∀ {c : List α} {e e' : α × α}, (e, e') ∈ pairs (pairs c) → e.2 = e'.1
  | [], _, _, h => by simp [pairs] at h
  | [a], _, _, h => by simp [pairs] at h
  | [a, b], _, _, h => by simp [pairs] at h
  | a :: b :: d :: l, e, e', h => by
    rw [pairs_cons, pairs_cons, pairs_cons] at h
    rcases List.mem_cons.mp h with h | h
    · obtain ⟨rfl, rfl⟩ := Prod.mk.inj h; rfl
    · exact pairs_link (c := b :: d :: l) (by rw [pairs_cons]; exact h)

theorem pairs_left {α : Type} {l : List α} {a b : α} (h : (a, b) ∈ pairs l) : a ∈ l.dropLast := by
  rw [← pairs_fst]; exact List.mem_map.mpr ⟨_, h, rfl⟩
theorem pairs_right {α : Type} {l : List α} {a b : α} (h : (a, b) ∈ pairs l) : b ∈ l.tail := by
  rw [← pairs_snd]; exact List.mem_map.mpr ⟨_, h, rfl⟩
theorem pairs_of_tail {α : Type} {l : List α} {b : α} (h : b ∈ l.tail) : ∃ a, (a, b) ∈ pairs l := by
  rw [← pairs_snd] at h
  obtain ⟨⟨a, b'⟩, h1, rfl⟩ := List.mem_map.mp h
  exact ⟨a, h1⟩

theorem pairs_succ {α : Type} : ∀ {l : List α} {a x y : α}, l.Nodup → (a, x) ∈ pairs l → (a, y) ∈ pairs l → x = y
  | [], _, _, _, _, h, _ => by simp [pairs] at h
  | [b], _, _, _, _, h, _ => by simp [pairs] at h
  | b :: c :: l, a, x, y, hn, h1, h2 => by
    rw [pairs_cons] at h1 h2
    have hn' := List.nodup_cons.mp hn
    have out : ∀ {z}, (b, z) ∉ pairs (c :: l) := fun h => hn'.1 (List.mem_of_mem_dropLast (pairs_left h))
    rcases List.mem_cons.mp h1 with h1 | h1 <;> rcases List.mem_cons.mp h2 with h2 | h2
    · rw [(Prod.mk.inj h1).2, (Prod.mk.inj h2).2]
    · rw [(Prod.mk.inj h1).1] at h2; exact absurd h2 out
    · rw [(Prod.mk.inj h2).1] at h1; exact absurd h1 out
    · exact pairs_succ hn'.2 h1 h2

theorem Piece.pairs_head {lp : Nat → OP} {p : Piece} (h : (lp p.first).anchor = false) : ∃ m, pairs (p.corners lp) = (p.start lp, p.far lp) :: m := by
  unfold Piece.corners Piece.nodes Piece.start Piece.far
  rw [crd_cons _ h, List.cons_append]
  cases e : crd lp p.rest ++ [p.target] with
  | nil => simp at e
  | cons a m => exact ⟨_, by rw [pairs_cons]; rfl⟩

theorem Piece.pairs_last {lp : Nat → OP} {p : Piece} (h : (lp p.first).anchor = false) : ∃ m, pairs (p.corners lp) = m ++ [(p.back lp, p.target)] := by
  unfold Piece.corners Piece.back
  rcases List.eq_nil_or_concat (crd lp p.nodes) with e | ⟨m, b, e⟩
  · unfold Piece.nodes at e; rw [crd_cons _ h] at e; cases e
  · rw [List.concat_eq_append] at e
    rw [e, List.append_assoc, List.singleton_append, pairs_concat]
    refine ⟨pairs (m ++ [b]), ?_⟩
    rw [List.getLastD_eq_getLast?, List.getLast?_append]; simp

section
variable {C : List (List Pt)} (hA : Exec.Arr (C.flatMap pairs)) (hB : Bal (C.flatMap pairs)) (hU : Exec.Unit (C.flatMap pairs))
  (hT : ∀ u v u', Tri C u v u' → Tip (C.flatMap pairs) u v u')
  {lp : Nat → OP} {P : List Piece} (hC : (P.map (Piece.corners lp)).Perm C) (hf : ∀ p ∈ P, (lp p.first).anchor = false)

include hC in
theorem pieces_perm : (P.flatMap (fun p => pairs (p.corners lp))).Perm (C.flatMap pairs) := by
  have : P.flatMap (fun p => pairs (p.corners lp)) = (P.map (Piece.corners lp)).flatMap pairs := by rw [List.flatMap_map]
  rw [this]
  exact hC.flatMap_right _

include hC in
theorem piece_mem {p : Piece} (hp : p ∈ P) {e : Pt × Pt} (h : e ∈ pairs (p.corners lp)) : e ∈ C.flatMap pairs :=
  (pieces_perm hC).subset (List.mem_flatMap.mpr ⟨p, hp, h⟩)

include hA hC in
theorem piece_eq {p q : Piece} (hp : p ∈ P) (hq : q ∈ P) {e : Pt × Pt} (h : e ∈ pairs (p.corners lp)) (h' : e ∈ pairs (q.corners lp)) : p = q := by
  have hn := (pieces_perm hC).nodup_iff.mpr hA.nodup
  have h2 := (List.nodup_flatMap.mp hn).2
  by_contra hne
  haveI : Std.Symm (Function.onFun List.Disjoint fun p => pairs (Piece.corners lp p)) := ⟨fun _ _ h => List.Disjoint.symm h⟩
  exact List.Pairwise.forall h2 hp hq hne h h'

include hA hC in
theorem piece_nodup {p : Piece} (hp : p ∈ P) : (pairs (p.corners lp)).Nodup :=
  (List.nodup_flatMap.mp ((pieces_perm hC).nodup_iff.mpr hA.nodup)).1 p hp

include hC in
theorem tri_piece {u v u' : Pt} : Tri C u v u' ↔ ∃ p ∈ P, ((u, v), (v, u')) ∈ pairs (pairs (p.corners lp)) := by
  constructor
  · rintro ⟨c, hc, h⟩
    obtain ⟨p, hp, rfl⟩ := List.mem_map.mp (hC.symm.subset hc)
    exact ⟨p, hp, h⟩
  · rintro ⟨p, hp, h⟩
    exact ⟨_, hC.subset (List.mem_map.mpr ⟨p, hp, rfl⟩), h⟩

include hf in
theorem head_mem {p : Piece} (hp : p ∈ P) : (p.start lp, p.far lp) ∈ pairs (p.corners lp) := by
  obtain ⟨m, e⟩ := Piece.pairs_head (hf p hp); rw [e]; exact List.mem_cons_self

include hf in
theorem last_mem {p : Piece} (hp : p ∈ P) : (p.back lp, p.target) ∈ pairs (p.corners lp) := by
  obtain ⟨m, e⟩ := Piece.pairs_last (hf p hp); rw [e]; simp

include hC hf in
/-- A line that is not the first of a piece follows another one. -/
theorem tri_or_first {v d : Pt} (h : (v, d) ∈ C.flatMap pairs) : (∃ u, Tri C u v d) ∨ ∃ q ∈ P, q.start lp = v ∧ q.far lp = d := by
  obtain ⟨q, hq, hm⟩ := List.mem_flatMap.mp ((pieces_perm hC).symm.subset h)
  obtain ⟨m, e⟩ := Piece.pairs_head (hf q hq)
  rw [e] at hm
  rcases List.mem_cons.mp hm with h | h
  · obtain ⟨h1, h2⟩ := Prod.mk.inj h
    exact Or.inr ⟨q, hq, h1.symm, h2.symm⟩
  · obtain ⟨a, ha⟩ := pairs_of_tail (l := pairs (q.corners lp)) (b := (v, d)) (by rw [e]; exact h)
    have := pairs_link ha
    obtain ⟨u, v'⟩ := a
    change v' = v at this
    subst this
    exact Or.inl ⟨u, (tri_piece hC).mpr ⟨q, hq, ha⟩⟩

include hA hC hf in
/-- No line follows the last one of a piece on the same piece. -/
theorem no_tri_last {p : Piece} (hp : p ∈ P) (d : Pt) : ¬ Tri C (p.back lp) p.target d := by
  intro h
  obtain ⟨q, hq, hm⟩ := (tri_piece hC).mp h
  have h1 := pairs_left hm
  have : q = p := piece_eq hA hC hq hp (List.mem_of_mem_dropLast h1) (last_mem hf hp)
  subst this
  obtain ⟨m, e⟩ := Piece.pairs_last (hf q hq)
  have hn := piece_nodup hA hC hq
  rw [e] at h1 hn
  rw [List.dropLast_concat] at h1
  rw [List.nodup_append] at hn
  exact hn.2.2 _ h1 _ (by simp) rfl

include hA hC in
theorem tri_unique {u v d d' : Pt} (h : Tri C u v d) (h' : Tri C u v d') : d = d' := by
  obtain ⟨p, hp, hm⟩ := (tri_piece hC).mp h
  obtain ⟨q, hq, hm'⟩ := (tri_piece hC).mp h'
  have : p = q := piece_eq hA hC hp hq (List.mem_of_mem_dropLast (pairs_left hm)) (List.mem_of_mem_dropLast (pairs_left hm'))
  subst this
  exact (Prod.mk.inj (pairs_succ (piece_nodup hA hC hp) hm hm')).2

include hA hB hU hT hC hf in
theorem sharp_of : Sharp lp P := by
  have mh : ∀ p ∈ P, (p.start lp, p.far lp) ∈ C.flatMap pairs := fun p hp => piece_mem hC hp (head_mem hf hp)
  have ml : ∀ p ∈ P, (p.back lp, p.target) ∈ C.flatMap pairs := fun p hp => piece_mem hC hp (last_mem hf hp)
  refine ⟨fun p hp => hA.ne _ (ml p hp), fun q hq => (hA.ne _ (mh q hq)).symm, ?_, ?_, ?_⟩
  · intro p hp q hq hs
    have h1 := mh q hq
    rw [hs] at h1
    refine ray_ne hA (Or.inl h1) (Or.inr (ml p hp)) ?_
    intro e
    rw [e] at h1
    exact hA.one _ (ml p hp) h1
  · intro q hq q' hq' hs hne
    have h2 := mh q' hq'
    refine ray_ne hA (Or.inl (mh q hq)) (Or.inl (by rw [hs]; exact h2)) ?_
    intro e
    refine hne (congrArg Piece.first (piece_eq hA hC hq hq' (head_mem hf hq) ?_))
    rw [hs, e]; exact head_mem hf hq'
  · intro p hp p' hp' q hq ht hs b1 b2
    by_contra hne
    have hbb : p.back lp ≠ p'.back lp := by
      intro e
      refine hne (piece_eq hA hC hp hp' (last_mem hf hp) ?_)
      rw [e, ht]; exact last_mem hf hp'
    have m1 := ml p hp
    have m2 := ml p' hp'
    have n1 := no_tri_last hA hC hf hp
    have n2 := no_tri_last hA hC hf hp'
    have mq := mh q hq
    rw [hs] at mq
    have key : ∀ r ∈ P, r.target = p.target → Best lp P r q → ∀ d, (p.target, d) ∈ C.flatMap pairs → Bt p.target (q.far lp) d (r.back lp) →
        ∃ u, Tri C u p.target d := by
      intro r _ hrt hb d hd hbt
      rcases tri_or_first hC hf hd with h | ⟨q', hq', h1, h2⟩
      · exact h
      · subst h2
        refine absurd ?_ (hb q' hq' (by rw [h1, hrt]))
        rw [hrt]; exact hbt
    rw [← ht] at m2 n2
    exact partner_inj hA hB hU (Tri C) hT (fun _ _ _ _ => tri_unique hA hC) mq m1 m2 hbb (key p hp rfl b1) (key p' hp' ht.symm b2) n1 n2

end
end PolyOps.Loops
