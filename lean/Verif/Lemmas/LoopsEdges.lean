import Verif.Lemmas.LoopsFind

/-! The edges of the loops found. -/
namespace PolyOps.Loops
open PolyOps PolyOps.Sweep

/-- `y` is the first point after `k` that is not skipped. -/
def NextU (nx : Nat → Nat) (idx : Nat → LIdx) (k y : Nat) : Prop := ∃ as, (∀ a ∈ as, idx a ≠ .unset) ∧ Sq nx (nx k) as y

theorem Sq.det {nx : Nat → Nat} {idx : Nat → LIdx} {y z : Nat} (hy : idx y = .unset) (hz : idx z = .unset) :
    ∀ {as bs : List Nat} {x : Nat}, (∀ a ∈ as, idx a ≠ .unset) → (∀ b ∈ bs, idx b ≠ .unset) → Sq nx x as y → Sq nx x bs z → y = z
  | [], [], x, _, _, h1, h2 => by
    have a : x = y := h1
    have b : x = z := h2
    rw [← a, b]
  | [], b :: bs, x, _, hb, h1, h2 => by
    have a : x = y := h1
    exact absurd hy (by rw [← a, h2.1]; exact hb b List.mem_cons_self)
  | a :: as, [], x, ha, _, h1, h2 => by
    have b : x = z := h2
    exact absurd hz (by rw [← b, h1.1]; exact ha a List.mem_cons_self)
  | a :: as, b :: bs, x, ha, hb, h1, h2 => by
    have e : a = b := by rw [← h1.1, h2.1]
    refine Sq.det hy hz (fun c hc => ha c (List.mem_cons_of_mem _ hc)) (fun c hc => hb c (List.mem_cons_of_mem _ hc)) h1.2 ?_
    rw [e]; exact h2.2

/-- Links that skip give the links between the points left. -/
theorem sq_to_next {nx fn : Nat → Nat} {idx : Nat → LIdx} {e : Nat} : ∀ (cs as : List Nat) (x y : Nat), (∀ a ∈ as, idx a ≠ .unset) →
    Sq nx (nx x) as y → Sq nx y cs e → Sq fn (fn x) (unsets idx cs) e → ∀ k ∈ x :: unsets idx cs, NextU nx idx k (fn k)
  | [], as, x, y, ha, h1, h2, h3, k, hk => by
    have hk : k = x := by simpa [unsets] using hk
    have h2 : y = e := h2
    have h3 : fn x = e := h3
    exact ⟨as, ha, by rw [hk, h3, ← h2]; exact h1⟩
  | c :: cs, as, x, y, ha, h1, h2, h3, k, hk => by
    have hyc : y = c := h2.1
    by_cases hc : idx c = .unset
    · have e1 : unsets idx (c :: cs) = c :: unsets idx cs := by unfold unsets; rw [List.filter_cons, if_pos (by simp [hc])]
      rw [e1] at h3 hk
      rcases List.mem_cons.mp hk with d | d
      · refine ⟨as, ha, ?_⟩
        rw [d, h3.1, ← hyc]; exact h1
      · exact sq_to_next cs [] c (nx c) (by simp) rfl h2.2 h3.2 k d
    · have e1 : unsets idx (c :: cs) = unsets idx cs := by unfold unsets; rw [List.filter_cons, if_neg (by simp [hc])]
      rw [e1] at h3 hk
      refine sq_to_next cs (as ++ [c]) x (nx c) ?_ ?_ h2.2 h3 k hk
      · intro a haa
        rcases List.mem_append.mp haa with d | d
        · exact ha a d
        · have : a = c := by simpa using d
          rw [this]; exact hc
      · exact Sq.append.mpr ⟨c, hyc ▸ h1, rfl, rfl⟩

theorem next_to_sq {nx fn : Nat → Nat} {idx : Nat → LIdx} {e : Nat} (he : idx e = .unset) : ∀ (cs as : List Nat) (x y : Nat),
    (∀ a ∈ as, idx a ≠ .unset) → Sq nx (nx x) as y → Sq nx y cs e →
    (∀ k ∈ x :: unsets idx cs, NextU nx idx k (fn k) ∧ idx (fn k) = .unset) → Sq fn (fn x) (unsets idx cs) e
  | [], as, x, y, ha, h1, h2, h => by
    obtain ⟨⟨bs, hb, h3⟩, h4⟩ := h x List.mem_cons_self
    have h2 : y = e := h2
    exact Sq.det h4 he hb ha h3 (h2 ▸ h1)
  | c :: cs, as, x, y, ha, h1, h2, h => by
    have hyc : y = c := h2.1
    by_cases hc : idx c = .unset
    · have e1 : unsets idx (c :: cs) = c :: unsets idx cs := by unfold unsets; rw [List.filter_cons, if_pos (by simp [hc])]
      rw [e1] at h ⊢
      refine ⟨?_, next_to_sq he cs [] c (nx c) (by simp) rfl h2.2 (fun k hk => h k (List.mem_cons_of_mem _ hk))⟩
      obtain ⟨⟨bs, hb, h3⟩, h4⟩ := h x List.mem_cons_self
      exact Sq.det h4 hc hb ha h3 (hyc ▸ h1)
    · have e1 : unsets idx (c :: cs) = unsets idx cs := by unfold unsets; rw [List.filter_cons, if_neg (by simp [hc])]
      rw [e1] at h ⊢
      refine next_to_sq he cs (as ++ [c]) x (nx c) ?_ ?_ h2.2 h
      · intro a haa
        rcases List.mem_append.mp haa with d | d
        · exact ha a d
        · have : a = c := by simpa using d
          rw [this]; exact hc
      · exact Sq.append.mpr ⟨c, hyc ▸ h1, rfl, rfl⟩

/-- The points reported for a loop: `n` points from `s` on. -/
def Found.ring (f : Found) (l : Nat × Nat) : List Nat := (List.range l.2).map (fun m => f.next^[m] l.1)

theorem ring_eq {fn : Nat → Nat} {e : Nat} : ∀ {t : List Nat} {x : Nat}, Sq fn (fn x) t e →
    (List.range (t.length + 1)).map (fun m => fn^[m] x) = x :: t
  | [], x, _ => by simp
  | a :: t, x, h => by
    have h1 : fn x = a := h.1
    have ih := ring_eq h.2
    rw [List.length_cons, List.range_succ_eq_map, List.map_cons, List.map_map]
    rw [← ih]
    congr 1
    apply List.map_congr_left
    intro m _
    simp [Function.iterate_succ_apply, h1]

/-- Consecutive pairs. -/
def pairs {α : Type} (l : List α) : List (α × α) := l.zip l.tail

theorem pairs_of_sq {α : Type} (d : Nat → α) {fn : Nat → Nat} {e : Nat} : ∀ {t : List Nat} {x : Nat}, Sq fn (fn x) t e →
    (x :: t).map (fun i => (d i, d (fn i))) = pairs ((x :: t).map d ++ [d e])
  | [], x, h => by
    have h : fn x = e := h
    simp [pairs, h]
  | a :: t, x, h => by
    have h1 : fn x = a := h.1
    have ih := pairs_of_sq d h.2
    rw [List.map_cons, ih, h1]
    simp [pairs]

theorem perm_of_nodup_iff {l m : List Nat} (h1 : l.Nodup) (h2 : m.Nodup) (h : ∀ k, k ∈ l ↔ k ∈ m) : l.Perm m :=
  (List.perm_ext_iff_of_nodup h1 h2).mpr h

theorem flatMap_perm_congr {α β : Type} {f g : α → List β} : ∀ {l : List α}, (∀ a ∈ l, (f a).Perm (g a)) → (l.flatMap f).Perm (l.flatMap g)
  | [], _ => List.Perm.refl _
  | a :: l, h => by
    rw [List.flatMap_cons, List.flatMap_cons]
    exact (h a List.mem_cons_self).append (flatMap_perm_congr (fun b hb => h b (List.mem_cons_of_mem _ hb)))

theorem mark_unset (p : OP) : p.mark = .unset ↔ p.keep = true ∧ p.anchor = false := by
  unfold OP.mark
  by_cases k : p.keep = true
  · rw [if_pos k]
    by_cases a : p.anchor = true
    · rw [if_pos a]; simp [a]
    · rw [if_neg a]; simp [k, a]
  · rw [if_neg k]; simp [k]

/-- What `find_loops` returns for joined pieces. -/
structure Extracted (w : Work) (P : List Piece) (f : Found) : Prop where
  ring : ∀ l ∈ f.loops, 0 < l.2 ∧ f.next^[l.2] l.1 = l.1
  part : (f.loops.flatMap f.ring).Perm ((List.range w.np).filter (fun i => (w.lp i).keep && !(w.lp i).anchor))
  idx : ∀ m, m < f.loops.length → ∀ i ∈ f.ring (f.loops.getD m (0, 0)), f.idx i = .loop m
  piece : ∀ p ∈ P, ∀ k ∈ p.nodes, f.idx k = f.idx p.first
  drop : ∀ k, k < w.np → (w.lp k).keep = false → f.idx k = .discarded
  edges : ((f.loops.flatMap f.ring).map (fun i => ((w.lp i).data, (w.lp (f.next i)).data))).Perm (P.flatMap (fun p => pairs (p.corners w.lp)))
  walk : ∀ p ∈ P, ∃ t, p.nodes.filter (fun i => !(w.lp i).anchor) = p.first :: t ∧ Sq f.next (f.next p.first) t (w.lp p.last).next

theorem Joined.find {w : Work} {P : List Piece} (h : Joined w P) : ∃ f, w.findLoops = some f ∧ Extracted w P f := by
  have hK : ∀ k ∈ P.flatMap Piece.nodes, (w.lp k).mark = .unset ∨ (w.lp k).mark = .anchor := by
    intro k hk
    have := (h.keep k (h.lt k hk)).mpr hk
    unfold OP.mark
    rw [if_pos this]
    by_cases a : (w.lp k).anchor = true
    · rw [if_pos a]; right; rfl
    · rw [if_neg a]; left; rfl
  have hmu : ∀ k, (w.lp k).mark = .unset ↔ (w.lp k).keep = true ∧ (w.lp k).anchor = false := fun k => mark_unset _
  obtain ⟨f, G, ef, hf⟩ := find_spec (nx := fun i => (w.lp i).next) (idx := fun i => (w.lp i).mark) (K := P.flatMap Piece.nodes)
    (fun k hk => h.next_mem hk) (fun k hk k' hk' e => h.next_inj hk hk' e) hK w.np h.lt w.np
    (fun k hk hu => (h.keep k hk).mp ((hmu k).mp hu).1)
  refine ⟨f, ef, ?_⟩
  -- the reported points of a cycle
  have hring : ∀ g ∈ G, f.ring (g.headD 0, (unsets (fun i => (w.lp i).mark) g).length) = unsets (fun i => (w.lp i).mark) g := by
    intro g hg
    obtain ⟨i, t, q1, q2, q3⟩ := hf.out g hg
    have e0 : g.headD 0 = i := by rw [List.headD_eq_head?_getD, q2]; rfl
    unfold Found.ring
    rw [q1, e0]
    exact ring_eq q3
  have hflat : f.loops.flatMap f.ring = unsets (fun i => (w.lp i).mark) G.flatten := by
    rw [hf.loops, List.flatMap_map]
    have : G.flatMap (fun g => f.ring (g.headD 0, (unsets (fun i => (w.lp i).mark) g).length)) = G.flatMap (unsets (fun i => (w.lp i).mark)) :=
      List.flatMap_congr hring
    rw [this]
    unfold unsets
    rw [List.filter_flatten, List.flatMap_def]
  have hfirst : ∀ p ∈ P, p.first ∈ G.flatten := by
    intro p hp
    have hm : p.first ∈ P.flatMap Piece.nodes := List.mem_flatMap.mpr ⟨p, hp, List.mem_cons_self⟩
    have hl := h.lt _ hm
    exact hf.done p.first hl ((hmu _).mpr ⟨(h.keep _ hl).mpr hm, h.first p hp⟩)
  -- points of a piece lie on the cycle of its first point
  have hpiece : ∀ p ∈ P, ∀ g ∈ G, p.first ∈ g → ∀ k ∈ p.nodes, k ∈ g := by
    intro p hp g hg hpg
    obtain ⟨i, cs, e, hs, _⟩ := hf.cyc g hg
    have hcl : ∀ k ∈ g, (w.lp k).next ∈ g := by
      intro k hk
      rw [e] at hk ⊢
      obtain ⟨l1, l2, e2⟩ := List.append_of_mem hk
      have hc := Sq.chain (nx := fun i => (w.lp i).next) hs
      cases l2 with
      | nil =>
        have : (i :: cs).getLast (by simp) = k := by simp only [e2]; simp
        rw [this] at hc
        rw [hc.2]; exact List.mem_cons_self
      | cons j l2 =>
        rw [isChain_iff_split.mp hc.1 l1 k j l2 e2, e2]; simp
    have key : ∀ (l : List Nat) (x : Nat), (x :: l).IsChain (fun i j => (w.lp i).next = j) → x ∈ g → ∀ k ∈ x :: l, k ∈ g := by
      intro l
      induction l with
      | nil => intro x _ hx k hk; have : k = x := by simpa using hk
               exact this ▸ hx
      | cons b l ih =>
        intro x hch hx k hk
        rw [List.isChain_cons_cons] at hch
        rcases List.mem_cons.mp hk with d | d
        · exact d ▸ hx
        · exact ih b hch.2 (hch.1 ▸ hcl x hx) k d
    exact key p.rest p.first (h.chain p hp) hpg
  have hcover : ∀ k, k ∈ G.flatten ↔ k ∈ P.flatMap Piece.nodes := by
    intro k
    constructor
    · exact hf.sub k
    · intro hk
      obtain ⟨p, hp, hkp⟩ := List.mem_flatMap.mp hk
      obtain ⟨g, hg, hpg⟩ := List.mem_flatten.mp (hfirst p hp)
      exact List.mem_flatten.mpr ⟨g, hg, hpiece p hp g hg hpg k hkp⟩
  have hidx : ∀ g ∈ G, ∀ k ∈ g, ∀ k' ∈ g, f.idx k = f.idx k' := by
    intro g hg k hk k' hk'
    obtain ⟨m, hm, hgm⟩ := List.getElem_of_mem hg
    have e : G.getD m [] = g := by rw [List.getD_eq_getElem?_getD, List.getElem?_eq_getElem hm]; simpa using hgm
    rw [hf.seen m k (by rw [e]; exact hk), hf.seen m k' (by rw [e]; exact hk')]
  -- next unskipped
  have hnext : ∀ k ∈ G.flatten, (w.lp k).mark = .unset → NextU (fun i => (w.lp i).next) (fun i => (w.lp i).mark) k (f.next k) ∧
      (w.lp (f.next k)).mark = .unset := by
    intro k hk hu
    obtain ⟨g, hg, hkg⟩ := List.mem_flatten.mp hk
    obtain ⟨i, cs, e, hs, hi⟩ := hf.cyc g hg
    obtain ⟨i', t, q1, q2, q3⟩ := hf.out g hg
    have ei : i' = i := by rw [e] at q2; simpa using q2.symm
    subst ei
    have hi : (w.lp i').mark = .unset := hi
    have e2 : unsets (fun i => (w.lp i).mark) g = i' :: unsets (fun i => (w.lp i).mark) cs := by
      rw [e]; unfold unsets; rw [List.filter_cons, if_pos (by simp [hi])]
    rw [q1] at e2
    have et : t = unsets (fun i => (w.lp i).mark) cs := (List.cons.inj e2).2
    have hkm : k ∈ unsets (fun i => (w.lp i).mark) g := List.mem_filter.mpr ⟨hkg, by simpa using hu⟩
    rw [q1] at hkm
    rw [et] at hkm q3
    refine ⟨sq_to_next cs [] i' _ (by simp) rfl hs q3 k hkm, ?_⟩
    -- the link leads to an unskipped point
    obtain ⟨l1, l2, e3⟩ := List.append_of_mem hkm
    have hc := Sq.chain q3
    have hall : ∀ x ∈ i' :: unsets (fun i => (w.lp i).mark) cs, (w.lp x).mark = .unset := by
      intro x hx
      rcases List.mem_cons.mp hx with d | d
      · rw [d]; exact hi
      · simpa using (List.mem_filter.mp d).2
    cases l2 with
    | nil =>
      have : (i' :: unsets (fun i => (w.lp i).mark) cs).getLast (by simp) = k := by simp only [e3]; simp
      rw [this] at hc
      rw [hc.2]; exact hi
    | cons j l2 =>
      rw [isChain_iff_split.mp hc.1 l1 k j l2 e3]
      exact hall j (by rw [e3]; simp)
  have hpartK : (f.loops.flatMap f.ring).Perm ((P.flatMap Piece.nodes).filter (fun i => !(w.lp i).anchor)) := by
    rw [hflat]
    apply perm_of_nodup_iff (hf.nodup.filter _) (h.nodup.filter _)
    intro k
    rw [List.mem_filter, List.mem_filter, hcover k]
    constructor
    · rintro ⟨a, b⟩
      have := (hmu k).mp (by simpa using b)
      exact ⟨a, by simp [this.2]⟩
    · rintro ⟨a, b⟩
      have := (hmu k).mpr ⟨(h.keep k (h.lt k a)).mpr a, by simpa using b⟩
      exact ⟨a, by simpa using this⟩
  have hwalk : ∀ p ∈ P, ∃ t, p.nodes.filter (fun i => !(w.lp i).anchor) = p.first :: t ∧ Sq f.next (f.next p.first) t (w.lp p.last).next := by
    intro p hp
    obtain ⟨q, hq, l1, l2⟩ := h.link p hp
    have hfu : ∀ p ∈ P, (w.lp p.first).mark = .unset := by
      intro p hp
      have hm : p.first ∈ P.flatMap Piece.nodes := List.mem_flatMap.mpr ⟨p, hp, List.mem_cons_self⟩
      exact (hmu _).mpr ⟨(h.keep _ (h.lt _ hm)).mpr hm, h.first p hp⟩
    have efil : p.nodes.filter (fun i => !(w.lp i).anchor) = p.first :: unsets (fun i => (w.lp i).mark) p.rest := by
      unfold Piece.nodes unsets
      rw [List.filter_cons, if_pos (by simp [h.first p hp])]
      congr 1
      apply List.filter_congr
      intro k hk
      have hm : k ∈ P.flatMap Piece.nodes := List.mem_flatMap.mpr ⟨p, hp, List.mem_cons_of_mem _ hk⟩
      have hkk := (h.keep k (h.lt k hm)).mpr hm
      have := hmu k
      cases ha : (w.lp k).anchor
      · rw [ha] at this; simp [this.mpr ⟨hkk, rfl⟩]
      · have : ¬(w.lp k).mark = .unset := fun c => by have := (this.mp c).2; rw [ha] at this; simp at this
        simp [this]
    have hsq : Sq (fun i => (w.lp i).next) (w.lp p.first).next p.rest q.first := by
      have key : ∀ (l : List Nat) (x : Nat), (x :: l).IsChain (fun i j => (w.lp i).next = j) →
          Sq (fun i => (w.lp i).next) (w.lp x).next l (w.lp ((x :: l).getLast (by simp))).next := by
        intro l
        induction l with
        | nil => intro x _; rfl
        | cons b l ih =>
          intro x hch
          rw [List.isChain_cons_cons] at hch
          refine ⟨hch.1, ?_⟩
          have := ih b hch.2
          rw [List.getLast_cons (by simp)]
          exact this
      have := key p.rest p.first (h.chain p hp)
      have e5 : (w.lp ((p.first :: p.rest).getLast (by simp))).next = q.first := l1
      rw [e5] at this
      exact this
    have hSq : Sq f.next (f.next p.first) (unsets (fun i => (w.lp i).mark) p.rest) q.first := by
      refine next_to_sq (nx := fun i => (w.lp i).next) (hfu q hq) p.rest [] p.first _ (by simp) rfl hsq ?_
      intro k hk
      have hkn : k ∈ p.nodes.filter (fun i => !(w.lp i).anchor) := by rw [efil]; exact hk
      have hkn' := List.mem_filter.mp hkn
      have hm : k ∈ P.flatMap Piece.nodes := List.mem_flatMap.mpr ⟨p, hp, hkn'.1⟩
      exact hnext k ((hcover k).mpr hm) ((hmu k).mpr ⟨(h.keep k (h.lt k hm)).mpr hm, by simpa using hkn'.2⟩)
    exact ⟨_, efil, by rw [l1]; exact hSq⟩
  constructor
  · intro l hl
    rw [hf.loops] at hl
    obtain ⟨g, hg, rfl⟩ := List.mem_map.mp hl
    obtain ⟨i, t, q1, q2, q3⟩ := hf.out g hg
    have e0 : g.headD 0 = i := by rw [List.headD_eq_head?_getD, q2]; rfl
    dsimp only
    rw [q1, e0]
    refine ⟨by simp, ?_⟩
    have hr := ring_eq q3
    have hc := (Sq.chain q3).2
    have e1 : f.next^[t.length] i = (i :: t).getLast (by simp) := by
      have : ((List.range (t.length + 1)).map (fun m => f.next^[m] i))[t.length]? = (i :: t)[t.length]? := by rw [hr]
      rw [List.getElem?_map, List.getElem?_range (by omega)] at this
      rw [List.getLast_eq_getElem]
      have e3 : (i :: t)[t.length]? = some ((i :: t)[t.length]) := List.getElem?_eq_getElem (by simp)
      rw [e3] at this
      simpa using this
    rw [List.length_cons, Function.iterate_succ_apply', e1]
    exact hc
  · refine hpartK.trans ?_
    apply perm_of_nodup_iff (h.nodup.filter _) (List.nodup_range.filter _)
    intro k
    rw [List.mem_filter, List.mem_filter, List.mem_range]
    constructor
    · rintro ⟨a, b⟩
      exact ⟨h.lt k a, by simp [(h.keep k (h.lt k a)).mpr a]; simpa using b⟩
    · rintro ⟨a, b⟩
      rw [Bool.and_eq_true] at b
      exact ⟨(h.keep k a).mp b.1, b.2⟩
  · intro m hm i hi
    have hmG : m < G.length := by rw [hf.loops] at hm; simpa using hm
    have e1 : f.loops.getD m (0, 0) = ((G[m]).headD 0, (unsets (fun i => (w.lp i).mark) G[m]).length) := by
      rw [hf.loops, List.getD_eq_getElem?_getD, List.getElem?_map, List.getElem?_eq_getElem hmG]; rfl
    rw [e1, hring _ (List.getElem_mem hmG)] at hi
    refine hf.seen m i ?_
    rw [List.getD_eq_getElem?_getD, List.getElem?_eq_getElem hmG]
    exact (List.mem_filter.mp hi).1
  · intro p hp k hk
    obtain ⟨g, hg, hpg⟩ := List.mem_flatten.mp (hfirst p hp)
    exact hidx g hg k (hpiece p hp g hg hpg k hk) p.first hpg
  · intro k hk hkk
    have : k ∉ G.flatten := by
      intro c
      have := (h.keep k hk).mpr ((hcover k).mp c)
      rw [this] at hkk
      exact absurd hkk (by simp)
    rw [(hf.free k this).1]
    unfold OP.mark
    rw [if_neg (by simp [hkk])]
  · refine (hpartK.map _).trans ?_
    rw [List.filter_flatMap, List.map_flatMap]
    apply List.Perm.of_eq
    apply List.flatMap_congr
    intro p hp
    obtain ⟨q, hq, l1, l2⟩ := h.link p hp
    obtain ⟨t, efil, hSq⟩ := hwalk p hp
    rw [l1] at hSq
    unfold Piece.corners crd
    rw [efil, pairs_of_sq (fun i => (w.lp i).data) hSq, l2]
  · exact hwalk

end PolyOps.Loops
