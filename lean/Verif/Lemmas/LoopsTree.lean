import Verif.Lemmas.LoopsAnchor

/-! The points with anchors, their arcs, and the loops with tree output. -/
namespace PolyOps.Loops
open PolyOps PolyOps.Sweep

/-- `W` is `w` with anchors put in after some points. -/
structure Anch (w W : Work) : Prop where
  le : w.np ≤ W.np
  orig : ∀ k < w.np, W.lp k = w.lp k ∨ ∃ a, w.np ≤ a ∧ a < W.np ∧ W.lp k = { w.lp k with next := a } ∧ W.lp a = { w.lp k with st := .undef, anchor := true }
  all : ∀ a, w.np ≤ a → a < W.np → ∃ k < w.np, (W.lp k).next = a
  same : W = { w with lp := W.lp, np := W.np }

/-- No anchors yet. -/
structure Bare (w : Work) : Prop where
  next : ∀ i < w.np, (w.lp i).next < w.np
  anchor : ∀ i < w.np, (w.lp i).anchor = false

theorem Anch.refl (w : Work) : Anch w w := ⟨le_refl _, fun _ _ => Or.inl rfl, fun _ h1 h2 => by omega, rfl⟩

section
variable {w W : Work} (hb : Bare w) (h : Anch w W)
include hb h

/-- Whether there is an anchor. -/
theorem Anch.cases {k : Nat} (hk : k < w.np) : (W.lp k = w.lp k ∧ (W.lp k).next < w.np) ∨
    (w.np ≤ (W.lp k).next ∧ (W.lp k).next < W.np ∧ W.lp k = { w.lp k with next := (W.lp k).next } ∧
      W.lp (W.lp k).next = { w.lp k with st := .undef, anchor := true }) := by
  rcases h.orig k hk with e | ⟨a, h1, h2, h3, h4⟩
  · exact Or.inl ⟨e, by rw [e]; exact hb.next k hk⟩
  · have : (W.lp k).next = a := by rw [h3]
    exact Or.inr ⟨by rw [this]; exact h1, by rw [this]; exact h2, by rw [this]; exact h3, by rw [this]; exact h4⟩

theorem Anch.flag {k : Nat} (hk : k < w.np) : (W.lp k).anchor = false ∧ (W.lp k).data = (w.lp k).data ∧ (W.lp k).st = (w.lp k).st := by
  rcases h.cases hb hk with ⟨e, _⟩ | ⟨_, _, e, _⟩
  · rw [e]; exact ⟨hb.anchor k hk, rfl, rfl⟩
  · rw [e]; exact ⟨hb.anchor k hk, rfl, rfl⟩

theorem Anch.insert {i : Nat} (hi : i < w.np) : Anch w (W.insertAnchor i).1 ∧ (W.insertAnchor i).2 = ((W.insertAnchor i).1.lp i).next ∧
    w.np ≤ ((W.insertAnchor i).1.lp i).next ∧ ∀ j < w.np, w.np ≤ (W.lp j).next → ((W.insertAnchor i).1.lp j).next = (W.lp j).next := by
  have hiW : i < W.np := hi.trans_le h.le
  rcases h.cases hb hi with ⟨e, e1⟩ | ⟨e1, e2, e3, e4⟩
  · have ha : (W.lp (W.lp i).next).anchor = false := (h.flag hb e1).1
    rw [insertAnchor_new hiW ha]
    refine ⟨⟨h.le.trans (Nat.le_succ _), ?_, ?_, ?_⟩, ?_, ?_, ?_⟩
    · intro k hk
      have hkn : k ≠ W.np := by have := h.le; omega
      by_cases c : k = i
      · subst c
        refine Or.inr ⟨W.np, h.le, Nat.lt_succ_self _, ?_, ?_⟩
        · dsimp only; rw [putAnchor_at, e]
        · dsimp only; rw [putAnchor_new hkn, e]
      · dsimp only
        rw [putAnchor_other c hkn]
        rcases h.orig k hk with g | ⟨a, h1, h2, h3, h4⟩
        · exact Or.inl g
        · refine Or.inr ⟨a, h1, Nat.lt_succ_of_lt h2, h3, ?_⟩
          rw [putAnchor_other (by omega) (by omega)]; exact h4
    · intro a h1 h2
      dsimp only at h2 ⊢
      by_cases c : a = W.np
      · subst c; exact ⟨i, hi, by rw [putAnchor_at]⟩
      · obtain ⟨k, hk, g⟩ := h.all a h1 (by omega)
        refine ⟨k, hk, ?_⟩
        have hki : k ≠ i := fun x => by subst x; omega
        rw [putAnchor_other hki (by have := h.le; omega)]; exact g
    · conv_lhs => rw [h.same]
    · dsimp only; rw [putAnchor_at]
    · dsimp only; rw [putAnchor_at]; exact h.le
    · intro j hj g
      dsimp only
      have hji : j ≠ i := fun x => by subst x; omega
      rw [putAnchor_other hji (by have := h.le; omega)]
  · have ha : (W.lp (W.lp i).next).anchor = true := by rw [e4]
    rw [insertAnchor_old ha]
    exact ⟨h, rfl, e1, fun _ _ _ => rfl⟩

end

/-- The anchor after a point. -/
def Work.anc (W : Work) (k : Nat) : Nat := (W.lp k).next

theorem anch_hits {w : Work} (hb : Bare w) : ∀ (l : List Nat) {W : Work}, Anch w W → (∀ k ∈ l, k < w.np) →
    Anch w (W.anchorHits l).1 ∧ (W.anchorHits l).2 = l.map (W.anchorHits l).1.anc ∧ (∀ k ∈ l, w.np ≤ (W.anchorHits l).1.anc k) ∧
    ∀ j < w.np, w.np ≤ W.anc j → (W.anchorHits l).1.anc j = W.anc j
  | [], W, h, _ => ⟨h, rfl, by simp, fun _ _ _ => rfl⟩
  | i :: l, W, h, hl => by
    have hi := hl i List.mem_cons_self
    obtain ⟨h1, h2, h3, h4⟩ := h.insert hb hi
    obtain ⟨g1, g2, g3, g4⟩ := anch_hits hb l h1 (fun k hk => hl k (List.mem_cons_of_mem _ hk))
    have e := g4 i hi h3
    refine ⟨g1, ?_, ?_, ?_⟩
    · change (W.insertAnchor i).2 :: ((W.insertAnchor i).1.anchorHits l).2 = ((W.insertAnchor i).1.anchorHits l).1.anc i :: l.map ((W.insertAnchor i).1.anchorHits l).1.anc
      rw [e, g2, h2]; rfl
    · intro k hk
      rcases List.mem_cons.mp hk with rfl | hk
      · exact h3.trans_eq e.symm
      · exact g3 k hk
    · intro j hj hn
      have := h4 j hj hn
      exact (g4 j hj (by unfold Work.anc at *; rw [this]; exact hn)).trans this

theorem anch_all {w : Work} (hb : Bare w) : ∀ (S : List (Nat × List Nat)) {W : Work}, Anch w W → (∀ s ∈ S, ∀ k ∈ s.2, k < w.np) →
    Anch w (W.anchorAll S).1 ∧ (W.anchorAll S).2 = S.map (fun s => (s.1, s.2.map (W.anchorAll S).1.anc)) ∧
    (∀ s ∈ S, ∀ k ∈ s.2, w.np ≤ (W.anchorAll S).1.anc k) ∧ ∀ j < w.np, w.np ≤ W.anc j → (W.anchorAll S).1.anc j = W.anc j
  | [], W, h, _ => ⟨h, rfl, by simp, fun _ _ _ => rfl⟩
  | (p, hs) :: S, W, h, hl => by
    obtain ⟨h1, h2, h3, h4⟩ := anch_hits hb hs h (hl (p, hs) List.mem_cons_self)
    obtain ⟨g1, g2, g3, g4⟩ := anch_all hb S h1 (fun s hs => hl s (List.mem_cons_of_mem _ hs))
    have e : hs.map ((W.anchorHits hs).1.anchorAll S).1.anc = hs.map (W.anchorHits hs).1.anc :=
      List.map_congr_left fun k hk => g4 k (hl (p, hs) List.mem_cons_self k hk) (h3 k hk)
    refine ⟨g1, ?_, ?_, ?_⟩
    · change (p, (W.anchorHits hs).2) :: ((W.anchorHits hs).1.anchorAll S).2 = (p, hs.map ((W.anchorHits hs).1.anchorAll S).1.anc) ::
        S.map (fun s => (s.1, s.2.map ((W.anchorHits hs).1.anchorAll S).1.anc))
      rw [e, g2, h2]
    · intro s hsm k hk
      rcases List.mem_cons.mp hsm with rfl | hsm
      · exact (h3 k hk).trans_eq (g4 k (hl _ List.mem_cons_self k hk) (h3 k hk)).symm
      · exact g3 s hsm k hk
    · intro j hj hn
      have := h4 j hj hn
      exact (g4 j hj (hn.trans_eq this.symm)).trans this

/-- All anchors. -/
def Work.withAnchors (w : Work) (S : List (Nat × List Nat)) : Work := ((w.anchorAll S).1.anchorHits (S.map Prod.fst)).1

/-- The samples with anchors for points. -/
def renamed (W : Work) (S : List (Nat × List Nat)) : List (Nat × List Nat) := S.map fun s => (W.anc s.1, s.2.map W.anc)

theorem anch_with {w : Work} (hb : Bare w) {S : List (Nat × List Nat)} (hS : ∀ s ∈ S, s.1 < w.np ∧ ∀ k ∈ s.2, k < w.np) :
    Anch w (w.withAnchors S) ∧ ((w.anchorAll S).1.anchorHits (S.map Prod.fst)).2.zip ((w.anchorAll S).2.map Prod.snd) = renamed (w.withAnchors S) S ∧
    ∀ s ∈ S, w.np ≤ (w.withAnchors S).anc s.1 ∧ ∀ k ∈ s.2, w.np ≤ (w.withAnchors S).anc k := by
  obtain ⟨h1, h2, h3, -⟩ := anch_all hb S (Anch.refl w) (fun s hs => (hS s hs).2)
  obtain ⟨g1, g2, g3, g4⟩ := anch_hits hb (S.map Prod.fst) h1 (fun k hk => by
    obtain ⟨s, hs, rfl⟩ := List.mem_map.mp hk
    exact (hS s hs).1)
  refine ⟨g1, ?_, ?_⟩
  · rw [g2, h2, List.map_map, List.map_map, List.zip_map', renamed]
    apply List.map_congr_left
    intro s hs
    refine Prod.ext rfl ?_
    exact List.map_congr_left fun k hk => (g4 k ((hS s hs).2 k hk) (h3 s hs k hk)).symm
  · intro s hs
    refine ⟨g3 _ (List.mem_map.mpr ⟨s, hs, rfl⟩), fun k hk => ?_⟩
    exact (h3 s hs k hk).trans_eq (g4 k ((hS s hs).2 k hk) (h3 s hs k hk)).symm

/-! ### Arcs with anchors -/

/-- A point and its anchor, if there is one. -/
def Work.ext (W : Work) (n k : Nat) : List Nat := if n ≤ (W.lp k).next then [(W.lp k).next] else []

def Arc.ext (W : Work) (n : Nat) (a : Arc) : Arc := ⟨a.head, W.ext n a.head ++ a.mid.flatMap (fun k => k :: W.ext n k), a.stop⟩

theorem Arc.ext_nodes (W : Work) (n : Nat) (a : Arc) : (a.ext W n).nodes = a.nodes.flatMap (fun k => k :: W.ext n k) := rfl

section
variable {w W : Work} (hb : Bare w) (h : Anch w W)
include hb h

theorem Anch.ext_cases {k : Nat} (hk : k < w.np) : (W.ext w.np k = [] ∧ W.lp k = w.lp k) ∨
    ∃ a, W.ext w.np k = [a] ∧ w.np ≤ a ∧ a < W.np ∧ W.lp k = { w.lp k with next := a } ∧ W.lp a = { w.lp k with st := .undef, anchor := true } := by
  unfold Work.ext
  rcases h.cases hb hk with ⟨e, e1⟩ | ⟨e1, e2, e3, e4⟩
  · exact Or.inl ⟨if_neg (by omega), e⟩
  · exact Or.inr ⟨_, if_pos e1, e1, e2, e3, e4⟩

theorem Anch.ext_sq {k : Nat} (hk : k < w.np) : Sq (fun i => (W.lp i).next) (W.lp k).next (W.ext w.np k) (w.lp k).next := by
  rcases h.ext_cases hb hk with ⟨e, e1⟩ | ⟨a, e, _, _, e3, e4⟩
  · rw [e, e1]; exact rfl
  · rw [e, e3]; exact ⟨rfl, by dsimp only; rw [e4]; rfl⟩

theorem Anch.sq : ∀ {ps : List Nat} {x e : Nat}, (∀ k ∈ ps, k < w.np) → Sq (fun i => (w.lp i).next) x ps e →
    Sq (fun i => (W.lp i).next) x (ps.flatMap (fun k => k :: W.ext w.np k)) e
  | [], _, _, _, hs => hs
  | p :: ps, x, e, hl, hs => by
    rw [List.flatMap_cons, List.cons_append]
    exact ⟨hs.1, Sq.append.mpr ⟨_, h.ext_sq hb (hl p List.mem_cons_self), Anch.sq (fun k hk => hl k (List.mem_cons_of_mem _ hk)) hs.2⟩⟩

variable (hinj : ∀ i < w.np, ∀ j < w.np, (w.lp i).next = (w.lp j).next → i = j)
include hinj

theorem Anch.anc_inj {i j : Nat} (hi : i < w.np) (hj : j < w.np) (e : W.anc i = W.anc j) (hn : w.np ≤ W.anc i) : i = j := by
  unfold Work.anc at e hn
  rcases h.cases hb hi with ⟨_, e1⟩ | ⟨_, _, _, e4⟩
  · omega
  · rcases h.cases hb hj with ⟨_, f1⟩ | ⟨_, _, _, f4⟩
    · omega
    · rw [e, f4] at e4
      exact hinj i hi j hj (congrArg OP.next e4).symm

theorem Anch.perm {l : List Nat} (hl : l.Perm (List.range w.np)) : (l.flatMap (fun k => k :: W.ext w.np k)).Perm (List.range W.np) := by
  have hlt : ∀ k ∈ l, k < w.np := fun k hk => List.mem_range.mp (hl.subset hk)
  have hex : ∀ k < w.np, ∀ a, a ∈ W.ext w.np k ↔ a = W.anc k ∧ w.np ≤ W.anc k := by
    intro k hk a
    unfold Work.ext Work.anc
    split <;> simp [*]
  apply perm_of_nodup_iff
  · rw [List.nodup_flatMap]
    refine ⟨fun k hk => ?_, ?_⟩
    · rw [List.nodup_cons, hex k (hlt k hk)]
      refine ⟨fun c => by have := hlt k hk; omega, ?_⟩
      unfold Work.ext; split <;> simp
    · refine (hl.nodup_iff.mpr List.nodup_range).imp_of_mem fun {a b} ha hb' hne x hx hy => ?_
      have hla := hlt a ha
      have hlb := hlt b hb'
      rw [List.mem_cons, hex a hla] at hx
      rw [List.mem_cons, hex b hlb] at hy
      rcases hx with rfl | ⟨rfl, hx⟩
      · rcases hy with hy | ⟨hy, hy2⟩
        · exact hne hy
        · omega
      · rcases hy with hy | ⟨hy, hy2⟩
        · omega
        · exact hne (h.anc_inj hb hinj hla hlb hy hx)
  · exact List.nodup_range
  · intro k
    rw [List.mem_range, List.mem_flatMap]
    constructor
    · rintro ⟨i, hi, hk⟩
      have hil := hlt i hi
      rcases List.mem_cons.mp hk with rfl | hk
      · exact hil.trans_le h.le
      · rcases h.ext_cases hb hil with ⟨e, _⟩ | ⟨a, e, _, e2, _, _⟩
        · rw [e] at hk; simp at hk
        · rw [e, List.mem_singleton] at hk; rw [hk]; exact e2
    · intro hk
      by_cases c : k < w.np
      · exact ⟨k, hl.symm.subset (List.mem_range.mpr c), List.mem_cons_self⟩
      · obtain ⟨i, hi, e⟩ := h.all k (by omega) hk
        exact ⟨i, hl.symm.subset (List.mem_range.mpr hi), List.mem_cons_of_mem _ ((hex i hi k).mpr ⟨e.symm, by unfold Work.anc; omega⟩)⟩

end

section
variable {w W : Work} (hb : Bare w) (h : Anch w W)
include hb h

theorem Anch.crd : ∀ {l : List Nat}, (∀ k ∈ l, k < w.np) → crd W.lp (l.flatMap (fun k => k :: W.ext w.np k)) = crd w.lp l
  | [], _ => rfl
  | k :: l, hl => by
    have ih := Anch.crd (fun i hi => hl i (List.mem_cons_of_mem _ hi))
    have hk := hl k List.mem_cons_self
    have hf := h.flag hb hk
    rw [List.flatMap_cons, List.cons_append, crd_cons _ hf.1, crd_cons _ (hb.anchor k hk), hf.2.1]
    congr 1
    rcases h.ext_cases hb hk with ⟨e, _⟩ | ⟨a, e, _, _, _, e4⟩
    · rw [e]; exact ih
    · rw [e, List.singleton_append]
      unfold Loops.crd at ih ⊢
      rw [List.filter_cons, if_neg (by rw [e4]; simp)]
      exact ih

theorem Anch.lines {a : Arc} (hl : ∀ k ∈ a.nodes, k < w.np) (hs : a.stop < w.np) : (a.ext W w.np).lines W.lp = a.lines w.lp := by
  have hh := h.flag hb (hl a.head List.mem_cons_self)
  unfold Arc.lines
  rw [Arc.ext_nodes, h.crd hb hl]
  have e1 : (W.lp (a.ext W w.np).head).ls = (w.lp a.head).ls := by
    change (W.lp a.head).ls = _
    unfold OP.ls; rw [hh.2.2]
  have e2 : (W.lp (a.ext W w.np).stop).data = (w.lp a.stop).data := (h.flag hb hs).2.1
  rw [e1, e2]

theorem Anch.isArc {a : Arc} (ha : IsArc w.lp a) (hl : ∀ k ∈ a.nodes, k < w.np) (hs : a.stop < w.np) (hn : (a.ext W w.np).nodes.Nodup) : IsArc W.lp (a.ext W w.np) := by
  have hh := h.flag hb (hl a.head List.mem_cons_self)
  have hm : ∀ k ∈ a.mid, k < w.np := fun k hk => hl k (List.mem_cons_of_mem _ hk)
  refine ⟨?_, ?_, ?_, hh.1, ?_, hn⟩
  · exact Sq.append.mpr ⟨_, h.ext_sq hb (hl a.head List.mem_cons_self), h.sq hb hm ha.sq⟩
  · have key : ∀ k < w.np, ∀ p ∈ W.ext w.np k, (W.lp p).st = .undef := by
      intro k hk p hp
      rcases h.ext_cases hb hk with ⟨e, _⟩ | ⟨a, e, _, _, _, e4⟩
      · rw [e] at hp; simp at hp
      · rw [e, List.mem_singleton] at hp; rw [hp, e4]
    intro p hp
    rcases List.mem_append.mp hp with hp | hp
    · exact key _ (hl a.head List.mem_cons_self) p hp
    · obtain ⟨k, hk, hp⟩ := List.mem_flatMap.mp hp
      rcases List.mem_cons.mp hp with rfl | hp
      · rw [(h.flag hb (hm _ hk)).2.2]; exact ha.mid _ hk
      · exact key k (hm k hk) p hp
  · obtain ⟨s, e⟩ := ha.head
    exact ⟨s, hh.2.2.trans e⟩
  · change (W.lp a.stop).st ≠ _
    rw [(h.flag hb hs).2.2]; exact ha.stop

end

end PolyOps.Loops
