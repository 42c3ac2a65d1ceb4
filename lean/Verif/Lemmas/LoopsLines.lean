import Verif.Lemmas.LoopsCore

/-! From classified lines to arcs. -/
namespace PolyOps.Loops
open PolyOps PolyOps.Sweep

/-- The points after the balance sweep. `cls i` is the state of the line from point `i`: that of the last classified point at or
before `i` on its loop. -/
structure Input (lp : Nat → OP) (np : Nat) (cls : Nat → LState) : Prop where
  next_lt : ∀ i < np, (lp i).next < np
  next_inj : ∀ i < np, ∀ j < np, (lp i).next = (lp j).next → i = j
  st : ∀ i < np, (lp i).st = .undef ∨ (lp i).st = .res (cls i)
  anchor : ∀ i < np, (lp i).anchor = false
  reach : ∀ i < np, ∃ m, (lp ((fun k => (lp k).next)^[m] i)).st ≠ .undef
  cls : ∀ i < np, (lp (lp i).next).st = .undef → cls (lp i).next = cls i

/-- The line from point `i` in the direction of use. -/
def used (lp : Nat → OP) (cls : Nat → LState) (i : Nat) : Pt × Pt :=
  if (cls i).rev then ((lp (lp i).next).data, (lp i).data) else ((lp i).data, (lp (lp i).next).data)

/-- The lines to be kept. -/
def keptLines (lp : Nat → OP) (np : Nat) (cls : Nat → LState) : List (Pt × Pt) :=
  ((List.range np).filter (fun i => (cls i).keep)).map (used lp cls)

def revLines (np : Nat) (cls : Nat → LState) : List Nat := (List.range np).filter (fun i => (cls i).rev)

/-- As many lines begin at each place as end there. -/
def Balanced (L : List (Pt × Pt)) : Prop := ∀ c : Pt, L.countP (fun l => decide (l.1 = c)) = L.countP (fun l => decide (l.2 = c))

theorem Balanced.perm {L : List (Pt × Pt)} (h : Balanced L) : (L.map Prod.fst).Perm (L.map Prod.snd) := by
  rw [List.perm_iff_count]
  intro c
  have := h c
  simp only [List.count, List.countP_map]
  convert this using 2 <;> (funext x; simp [Function.comp, beq_eq_decide])

section
variable {lp : Nat → OP} {np : Nat} {cls : Nat → LState}

theorem Sq.det2 {nx : Nat → Nat} {u : Nat → Prop} {y z : Nat} (hy : ¬u y) (hz : ¬u z) :
    ∀ {as bs : List Nat} {x : Nat}, (∀ a ∈ as, u a) → (∀ b ∈ bs, u b) → Sq nx x as y → Sq nx x bs z → as = bs
  | [], [], x, _, _, h1, h2 => rfl
  | [], b :: bs, x, _, hb, h1, h2 => by
    have a : x = y := h1
    exact absurd (hb b List.mem_cons_self) (by rw [← h2.1, a]; exact hy)
  | a :: as, [], x, ha, _, h1, h2 => by
    have b : x = z := h2
    exact absurd (ha a List.mem_cons_self) (by rw [← h1.1, b]; exact hz)
  | a :: as, b :: bs, x, ha, hb, h1, h2 => by
    have e : a = b := by rw [← h1.1, h2.1]
    rw [e]
    congr 1
    refine Sq.det2 hy hz (fun c hc => ha c (List.mem_cons_of_mem _ hc)) (fun c hc => hb c (List.mem_cons_of_mem _ hc)) h1.2 ?_
    rw [e]; exact h2.2

theorem Sq.nodup {nx : Nat → Nat} {u : Nat → Prop} {e : Nat} (he : ¬u e) : ∀ {ps : List Nat} {x : Nat}, (∀ a ∈ ps, u a) → Sq nx x ps e → ps.Nodup
  | [], _, _, _ => by simp
  | p :: ps, x, hu, h => by
    have ih := Sq.nodup he (fun a ha => hu a (List.mem_cons_of_mem _ ha)) h.2
    rw [List.nodup_cons]
    refine ⟨fun c => ?_, ih⟩
    obtain ⟨l1, l2, e1⟩ := List.append_of_mem c
    have h2 := h.2
    rw [e1] at h2
    obtain ⟨y, _, h3⟩ := Sq.append.mp h2
    have := Sq.det2 he he (fun a ha => hu a (by rw [e1]; exact List.mem_cons_of_mem _ ha)) (fun b hb => hu b (by rw [e1]; simp [hb])) h2 h3.2
    have := congrArg List.length this
    simp at this
    omega

theorem Sq.lt {nx : Nat → Nat} {n e : Nat} (hn : ∀ i < n, nx i < n) : ∀ {ps : List Nat} {x : Nat}, x < n → Sq nx x ps e → (∀ p ∈ ps, p < n) ∧ e < n
  | [], x, hx, h => ⟨by simp, by have h : x = e := h; exact h ▸ hx⟩
  | p :: ps, x, hx, h => by
    have hp : p < n := h.1 ▸ hx
    obtain ⟨a, b⟩ := Sq.lt hn (hn p hp) h.2
    refine ⟨fun q hq => ?_, b⟩
    rcases List.mem_cons.mp hq with c | c
    · exact c ▸ hp
    · exact a q c

theorem path_exists {nx : Nat → Nat} {u : Nat → Prop} : ∀ (m x : Nat), ¬u (nx^[m] x) → ∃ ps e, Sq nx x ps e ∧ (∀ p ∈ ps, u p) ∧ ¬u e
  | 0, x, h => ⟨[], x, rfl, by simp, h⟩
  | m + 1, x, h => by
    by_cases hx : u x
    · obtain ⟨ps, e, h1, h2, h3⟩ := path_exists m (nx x) h
      refine ⟨x :: ps, e, ⟨rfl, h1⟩, ?_, h3⟩
      intro p hp
      rcases List.mem_cons.mp hp with c | c
      · exact c ▸ hx
      · exact h2 p c
    · exact ⟨[], x, rfl, by simp, hx⟩

theorem Input.arc (h : Input lp np cls) {i : Nat} (hi : i < np) (hc : (lp i).st ≠ .undef) : ∃ a : Arc, a.head = i ∧ IsArc lp a := by
  obtain ⟨m, hm⟩ := h.reach _ (h.next_lt i hi)
  obtain ⟨ps, e, h1, h2, h3⟩ := path_exists (nx := fun k => (lp k).next) (u := fun k => (lp k).st = .undef) m (lp i).next hm
  refine ⟨⟨i, ps, e⟩, rfl, h1, h2, ?_, h.anchor i hi, h3, ?_⟩
  · rcases h.st i hi with c | c
    · exact absurd c hc
    · exact ⟨_, c⟩
  · exact List.nodup_cons.mpr ⟨fun c => hc (h2 i c), Sq.nodup (u := fun k => (lp k).st = .undef) h3 h2 h1⟩

theorem Input.arcs (h : Input lp np cls) : ∀ (samples : List Nat), (∀ s ∈ samples, s < np ∧ (lp s).st ≠ .undef) →
    ∃ A : List Arc, A.map Arc.head = samples ∧ ∀ a ∈ A, IsArc lp a
  | [], _ => ⟨[], rfl, by simp⟩
  | s :: l, hs => by
    obtain ⟨A, e, hA⟩ := Input.arcs h l (fun x hx => hs x (List.mem_cons_of_mem _ hx))
    obtain ⟨a, ea, ha⟩ := h.arc (hs s List.mem_cons_self).1 (hs s List.mem_cons_self).2
    refine ⟨a :: A, by rw [List.map_cons, ea, e], ?_⟩
    intro b hb
    rcases List.mem_cons.mp hb with c | c
    · exact c ▸ ha
    · exact hA b c

theorem Input.nodes_lt (h : Input lp np cls) {a : Arc} (ha : IsArc lp a) (hh : a.head < np) : (∀ k ∈ a.nodes, k < np) ∧ a.stop < np := by
  obtain ⟨h1, h2⟩ := Sq.lt (nx := fun k => (lp k).next) h.next_lt (h.next_lt _ hh) ha.sq
  refine ⟨fun k hk => ?_, h2⟩
  rcases List.mem_cons.mp hk with c | c
  · exact c ▸ hh
  · exact h1 k c

theorem Input.back (h : Input lp np cls) {x y : Nat} (hx : x < np) (hy : y < np) (hxc : (lp x).st ≠ .undef) (hyc : (lp y).st ≠ .undef) :
    ∀ (l1 : List Nat) (k : Nat) (l2 : List Nat), (∀ p ∈ l1, (lp p).st = .undef) → (∀ p ∈ l2, (lp p).st = .undef) →
    Sq (fun k => (lp k).next) (lp x).next l1 k → Sq (fun k => (lp k).next) (lp y).next l2 k → x = y := by
  intro l1
  induction l1 using List.reverseRecOn with
  | nil =>
    intro k l2 _ h2 s1 s2
    have e1 : (lp x).next = k := s1
    obtain ⟨b1, _⟩ := Sq.lt (nx := fun k => (lp k).next) h.next_lt (h.next_lt y hy) s2
    have e2 := (Sq.chain (nx := fun k => (lp k).next) s2).2
    have hm := List.getLast_mem (l := y :: l2) (by simp)
    have hl : (y :: l2).getLast (by simp) < np := by
      rcases List.mem_cons.mp hm with c | c
      · rw [c]; exact hy
      · exact b1 _ c
    have := h.next_inj x hx _ hl (e1.trans e2.symm)
    rcases List.mem_cons.mp hm with c | c
    · rw [this, c]
    · exact absurd (h2 _ c) (this ▸ hxc)
  | append_singleton m p ih =>
    intro k l2 h1 h2 s1 s2
    obtain ⟨a1, _⟩ := Sq.lt (nx := fun k => (lp k).next) h.next_lt (h.next_lt x hx) s1
    obtain ⟨b1, _⟩ := Sq.lt (nx := fun k => (lp k).next) h.next_lt (h.next_lt y hy) s2
    have e1 : (lp p).next = k := Sq.last s1
    have hp := a1 p (by simp)
    have hpu := h1 p (by simp)
    obtain ⟨z, s3, s4⟩ := Sq.append.mp s1
    have ez : z = p := s4.1
    rw [ez] at s3
    rcases List.eq_nil_or_concat l2 with c | ⟨m2, q, c⟩
    · subst c
      have e2 : (lp y).next = k := s2
      have := h.next_inj p hp y hy (e1.trans e2.symm)
      exact absurd hpu (this ▸ hyc)
    · rw [List.concat_eq_append] at c
      subst c
      have e2 : (lp q).next = k := Sq.last s2
      have e3 := h.next_inj p hp q (b1 q (by simp)) (e1.trans e2.symm)
      subst e3
      obtain ⟨z', s5, s6⟩ := Sq.append.mp s2
      have ez' : z' = p := s6.1
      rw [ez'] at s5
      exact ih p m2 (fun x hx => h1 x (by simp [hx])) (fun x hx => h2 x (by simp [hx])) s3 s5

theorem Input.disjoint (h : Input lp np cls) {a b : Arc} (ha : IsArc lp a) (hb : IsArc lp b) (hah : a.head < np) (hbh : b.head < np) {k : Nat}
    (hk : k ∈ a.nodes) (hk2 : k ∈ b.nodes) : a.head = b.head := by
  have hac : (lp a.head).st ≠ .undef := by rw [ha.head_st]; simp
  have hbc : (lp b.head).st ≠ .undef := by rw [hb.head_st]; simp
  rcases List.mem_cons.mp hk with c | c <;> rcases List.mem_cons.mp hk2 with d | d
  · rw [← c, ← d]
  · exact absurd (hb.mid k d) (by rw [show k = a.head from c]; exact hac)
  · exact absurd (ha.mid k c) (by rw [show k = b.head from d]; exact hbc)
  · obtain ⟨l1, l2, e1⟩ := List.append_of_mem c
    obtain ⟨m1, m2, e2⟩ := List.append_of_mem d
    have s1 := ha.sq
    have s2 := hb.sq
    rw [e1] at s1
    rw [e2] at s2
    obtain ⟨z, s3, s4⟩ := Sq.append.mp s1
    obtain ⟨z', s5, s6⟩ := Sq.append.mp s2
    rw [show z = k from s4.1] at s3
    rw [show z' = k from s6.1] at s5
    exact h.back hah hbh hac hbc l1 k m1 (fun p hp => ha.mid p (by rw [e1]; simp [hp])) (fun p hp => hb.mid p (by rw [e2]; simp [hp])) s3 s5

theorem Sq.prefix_mem {nx : Nat → Nat} {u : Nat → Prop} {e k : Nat} (he : ¬u e) (hk : u k) : ∀ {ps qs : List Nat} {x : Nat}, (∀ q ∈ qs, u q) →
    Sq nx x ps e → Sq nx x qs k → k ∈ ps
  | [], [], x, _, h1, h2 => by
    have a : x = e := h1
    have b : x = k := h2
    exact absurd hk (by rw [← b, a]; exact he)
  | [], q :: qs, x, hq, h1, h2 => by
    have a : x = e := h1
    exact absurd (hq q List.mem_cons_self) (by rw [← h2.1, a]; exact he)
  | p :: ps, [], x, _, h1, h2 => by
    have b : x = k := h2
    rw [← b, h1.1]; exact List.mem_cons_self
  | p :: ps, q :: qs, x, hq, h1, h2 => by
    have e1 : p = q := by rw [← h1.1, h2.1]
    refine List.mem_cons_of_mem _ (Sq.prefix_mem he hk (fun a ha => hq a (List.mem_cons_of_mem _ ha)) h1.2 ?_)
    rw [e1]; exact h2.2

theorem Input.cover (h : Input lp np cls) {A : List Arc} (hA : ∀ a ∈ A, IsArc lp a)
    (hs : ∀ k < np, (lp k).st ≠ .undef → k ∈ A.map Arc.head) {k : Nat} (hk : k < np) : k ∈ A.flatMap Arc.nodes := by
  by_cases hc : (lp k).st = .undef
  · obtain ⟨cs, c1, c2, c3⟩ := orbit (nx := fun k => (lp k).next) (K := List.range np)
      (fun i hi => List.mem_range.mpr (h.next_lt i (List.mem_range.mp hi)))
      (fun i hi j hj => h.next_inj i (List.mem_range.mp hi) j (List.mem_range.mp hj)) (List.mem_range.mpr hk)
    -- the cycle is closed
    have hcl : ∀ x ∈ k :: cs, (lp x).next ∈ k :: cs := by
      intro x hx
      obtain ⟨l1, l2, e2⟩ := List.append_of_mem hx
      have hcn := Sq.chain (nx := fun i => (lp i).next) c1
      cases l2 with
      | nil =>
        have : (k :: cs).getLast (by simp) = x := by simp only [e2]; simp
        rw [this] at hcn
        rw [hcn.2]; exact List.mem_cons_self
      | cons j l2 =>
        rw [isChain_iff_split.mp hcn.1 l1 x j l2 e2, e2]; simp
    have hit : ∀ m, (fun k => (lp k).next)^[m] k ∈ k :: cs := by
      intro m
      induction m with
      | zero => exact List.mem_cons_self
      | succ m ih => rw [Function.iterate_succ_apply']; exact hcl _ ih
    obtain ⟨m, hm⟩ := h.reach k hk
    have hmem : (fun k => (lp k).next)^[m] k ∈ cs := by
      rcases List.mem_cons.mp (hit m) with d | d
      · rw [d] at hm; exact absurd hc hm
      · exact d
    obtain ⟨l1, c, l2, e, hcc, hl2⟩ := exists_last (fun i => decide ((lp i).st ≠ .undef)) cs ⟨_, hmem, by simpa using hm⟩
    have hcc : (lp c).st ≠ .undef := by simpa using hcc
    have hl2 : ∀ x ∈ l2, (lp x).st = .undef := fun x hx => by simpa using hl2 x hx
    have hcm : c ∈ k :: cs := by rw [e]; simp
    obtain ⟨a, haA, hac⟩ := List.mem_map.mp (hs c (List.mem_range.mp (c3 c hcm)) hcc)
    have ha := hA a haA
    refine List.mem_flatMap.mpr ⟨a, haA, List.mem_cons_of_mem _ ?_⟩
    rw [e] at c1
    obtain ⟨z, _, s4⟩ := Sq.append.mp c1
    have s5 := ha.sq
    rw [hac] at s5
    exact Sq.prefix_mem (nx := fun i => (lp i).next) (u := fun k => (lp k).st = .undef) ha.stop hc hl2 s5 s4.2
  · obtain ⟨a, haA, hac⟩ := List.mem_map.mp (hs k hk hc)
    exact List.mem_flatMap.mpr ⟨a, haA, by rw [← hac]; exact List.mem_cons_self⟩

/-- The arcs cover every point exactly once. -/
theorem Input.perm (h : Input lp np cls) {A : List Arc} (hA : ∀ a ∈ A, IsArc lp a)
    (hs : (A.map Arc.head).Perm ((List.range np).filter (fun i => decide ((lp i).st ≠ .undef)))) :
    (A.flatMap Arc.nodes).Perm (List.range np) := by
  have hlt : ∀ a ∈ A, a.head < np := by
    intro a ha
    have := hs.subset (List.mem_map.mpr ⟨a, ha, rfl⟩)
    exact List.mem_range.mp (List.mem_filter.mp this).1
  apply perm_of_nodup_iff
  · rw [List.nodup_flatMap]
    refine ⟨fun a ha => (hA a ha).nodup, ?_⟩
    have hn : (A.map Arc.head).Nodup := hs.nodup_iff.mpr (List.nodup_range.filter _)
    rw [List.Nodup, List.pairwise_map] at hn
    refine List.Pairwise.imp_of_mem ?_ hn
    intro a b ha hb hab k hk hk2
    exact hab (h.disjoint (hA a ha) (hA b hb) (hlt a ha) (hlt b hb) hk hk2)
  · exact List.nodup_range
  · intro k
    constructor
    · intro hk
      obtain ⟨a, ha, hka⟩ := List.mem_flatMap.mp hk
      exact List.mem_range.mpr ((h.nodes_lt (hA a ha) (hlt a ha)).1 k hka)
    · intro hk
      have hk := List.mem_range.mp hk
      exact h.cover hA (fun k hk hc => hs.symm.subset (List.mem_filter.mpr ⟨List.mem_range.mpr hk, by simpa using hc⟩)) hk

/-- All lines of an arc have the state of its first point. -/
theorem Input.arc_cls (h : Input lp np cls) {a : Arc} (ha : IsArc lp a) (hh : a.head < np) : ∀ k ∈ a.nodes, cls k = (lp a.head).ls := by
  have hhd : cls a.head = (lp a.head).ls := by
    have h1 := ha.head_st
    rcases h.st _ hh with c | c
    · rw [c] at h1; exact absurd h1 (by simp)
    · rw [c] at h1; exact Base.res.inj h1
  have key : ∀ (ps : List Nat) (x : Nat), x < np → Sq (fun i => (lp i).next) (lp x).next ps a.stop → (∀ p ∈ ps, (lp p).st = .undef) →
      ∀ k ∈ x :: ps, cls k = cls x := by
    intro ps
    induction ps with
    | nil => intro x _ _ _ k hk; have : k = x := by simpa using hk
             rw [this]
    | cons p ps ih =>
      intro x hx hsq hu k hk
      rcases List.mem_cons.mp hk with c | c
      · rw [c]
      · have e : (lp x).next = p := hsq.1
        have hp : p < np := e ▸ h.next_lt x hx
        have e2 : cls p = cls x := by
          have := h.cls x hx (by rw [e]; exact hu p List.mem_cons_self)
          rw [e] at this; exact this
        rw [ih p hp hsq.2 (fun q hq => hu q (List.mem_cons_of_mem _ hq)) k c, e2]
  intro k hk
  rw [key a.mid a.head hh ha.sq ha.mid k hk, hhd]

theorem pairs_fst {α : Type} : ∀ l : List α, (pairs l).map Prod.fst = l.dropLast
  | [] => rfl
  | [a] => rfl
  | a :: b :: l => by
    have ih := pairs_fst (b :: l)
    change a :: (pairs (b :: l)).map Prod.fst = _
    rw [ih]; rfl

theorem pairs_snd {α : Type} : ∀ l : List α, (pairs l).map Prod.snd = l.tail
  | [] => rfl
  | [a] => rfl
  | a :: b :: l => by
    have ih := pairs_snd (b :: l)
    change b :: (pairs (b :: l)).map Prod.snd = _
    rw [ih]; rfl

theorem pairs_concat {α : Type} (x y : α) : ∀ l : List α, pairs (l ++ [x, y]) = pairs (l ++ [x]) ++ [(x, y)]
  | [] => rfl
  | [a] => rfl
  | a :: b :: l => by
    have ih := pairs_concat x y (b :: l)
    change (a, b) :: pairs (b :: l ++ [x, y]) = (a, b) :: pairs (b :: l ++ [x]) ++ [(x, y)]
    rw [ih]; rfl

theorem pairs_reverse {α : Type} : ∀ l : List α, (pairs l.reverse).Perm ((pairs l).map Prod.swap)
  | [] => List.Perm.refl _
  | [a] => List.Perm.refl _
  | a :: b :: l => by
    have ih := pairs_reverse (b :: l)
    have e : (a :: b :: l).reverse = l.reverse ++ [b, a] := by simp
    rw [e, pairs_concat]
    have e2 : l.reverse ++ [b] = (b :: l).reverse := by simp
    rw [e2]
    change List.Perm _ ((b, a) :: (pairs (b :: l)).map Prod.swap)
    exact (List.perm_append_singleton _ _).trans (ih.cons _)

theorem Input.nodes_crd (h : Input lp np cls) {a : Arc} (ha : IsArc lp a) (hh : a.head < np) :
    crd lp a.nodes = a.nodes.map (fun i => (lp i).data) := by
  unfold crd
  rw [List.filter_eq_self.mpr]
  intro k hk
  rw [h.anchor k ((h.nodes_lt ha hh).1 k hk)]
  rfl

/-- The lines of an arc. -/
theorem Input.arc_lines (h : Input lp np cls) {a : Arc} (ha : IsArc lp a) (hh : a.head < np) :
    ((a.lines lp).flatMap pairs).Perm ((a.nodes.filter (fun i => (cls i).keep)).map (used lp cls)) := by
  have hc := h.arc_cls ha hh
  have hp : a.nodes.map (fun i => ((lp i).data, (lp (lp i).next).data)) = pairs (a.nodes.map (fun i => (lp i).data) ++ [(lp a.stop).data]) :=
    pairs_of_sq (fun i => (lp i).data) (fn := fun i => (lp i).next) ha.sq
  unfold Arc.lines
  by_cases k : (lp a.head).ls.keep = true
  · rw [if_pos k, List.filter_eq_self.mpr (fun i hi => by rw [hc i hi]; exact k), h.nodes_crd ha hh]
    simp only [List.flatMap_cons, List.flatMap_nil, List.append_nil]
    by_cases r : (lp a.head).ls.rev = true
    · rw [if_pos r]
      refine (pairs_reverse _).trans ?_
      rw [← hp, List.map_map]
      apply List.Perm.of_eq
      apply List.map_congr_left
      intro i hi
      unfold used
      rw [hc i hi, if_pos r]
      rfl
    · rw [if_neg r, ← hp]
      apply List.Perm.of_eq
      apply List.map_congr_left
      intro i hi
      unfold used
      rw [hc i hi, if_neg r]
  · rw [if_neg k]
    have : a.nodes.filter (fun i => (cls i).keep) = [] := List.filter_eq_nil_iff.mpr (fun i hi => by rw [hc i hi]; exact k)
    rw [this]
    exact List.Perm.refl _

theorem Input.all_lines (h : Input lp np cls) {A : List Arc} (hA : ∀ a ∈ A, IsArc lp a)
    (hs : (A.map Arc.head).Perm ((List.range np).filter (fun i => decide ((lp i).st ≠ .undef)))) :
    ((A.flatMap (Arc.lines lp)).flatMap pairs).Perm (keptLines lp np cls) := by
  have hlt : ∀ a ∈ A, a.head < np := by
    intro a ha
    have := hs.subset (List.mem_map.mpr ⟨a, ha, rfl⟩)
    exact List.mem_range.mp (List.mem_filter.mp this).1
  rw [List.flatMap_assoc]
  refine (flatMap_perm_congr (fun a ha => h.arc_lines (hA a ha) (hlt a ha))).trans ?_
  unfold keptLines
  refine List.Perm.trans ?_ (((h.perm hA hs).filter _).map _)
  rw [List.filter_flatMap, List.map_flatMap]

theorem count_flatMap_heads (c : Pt) : ∀ C : List (List Pt), (∀ l ∈ C, l ≠ []) →
    (heads C).count c + ((C.flatMap pairs).map Prod.snd).count c = (lasts C).count c + ((C.flatMap pairs).map Prod.fst).count c
  | [], _ => rfl
  | l :: C, h => by
    have ih := count_flatMap_heads c C (fun x hx => h x (List.mem_cons_of_mem _ hx))
    have hl := h l List.mem_cons_self
    unfold heads lasts at ih ⊢
    rw [List.map_cons, List.map_cons, List.flatMap_cons, List.map_append, List.map_append, pairs_fst, pairs_snd, List.count_append, List.count_append,
      List.count_cons, List.count_cons]
    have e1 : l.count c = l.tail.count c + if l.headD default == c then 1 else 0 := by
      obtain ⟨x, t, e⟩ := List.exists_cons_of_ne_nil hl
      rw [e, List.count_cons]; rfl
    have e2 : l.count c = l.dropLast.count c + if l.getLastD default == c then 1 else 0 := by
      have e3 : l.getLastD default = l.getLast hl := by
        rw [List.getLastD_eq_getLast?, List.getLast?_eq_some_getLast hl]; rfl
      conv_lhs => rw [← List.dropLast_append_getLast hl]
      rw [List.count_append, e3, List.count_singleton]
    omega

theorem Input.keepBal (h : Input lp np cls) {A : List Arc} (hA : ∀ a ∈ A, IsArc lp a)
    (hs : (A.map Arc.head).Perm ((List.range np).filter (fun i => decide ((lp i).st ≠ .undef))))
    (hb : Balanced (keptLines lp np cls)) : (heads (A.flatMap (Arc.lines lp))).Perm (lasts (A.flatMap (Arc.lines lp))) := by
  have h1 := h.all_lines hA hs
  have h2 := ((h1.map Prod.fst).trans hb.perm).trans (h1.map Prod.snd).symm
  rw [List.perm_iff_count] at h2 ⊢
  intro c
  have h3 := count_flatMap_heads c (A.flatMap (Arc.lines lp)) (by
    intro l hl
    obtain ⟨a, _, hla⟩ := List.mem_flatMap.mp hl
    unfold Arc.lines at hla
    split at hla
    · have hla := List.mem_singleton.mp hla
      rw [hla]; split <;> simp
    · simp at hla)
  have h4 := h2 c
  omega

theorem Input.revBal (h : Input lp np cls) {A : List Arc} (hA : ∀ a ∈ A, IsArc lp a)
    (hs : (A.map Arc.head).Perm ((List.range np).filter (fun i => decide ((lp i).st ≠ .undef))))
    (hb : Balanced ((revLines np cls).map (fun i => ((lp i).data, (lp (lp i).next).data)))) :
    ((A.filter (fun a => (lp a.head).ls.rev)).map (fun a => (lp a.head).data)).Perm
      ((A.filter (fun a => (lp a.head).ls.rev)).map (fun a => (lp a.stop).data)) := by
  have hlt : ∀ a ∈ A, a.head < np := by
    intro a ha
    have := hs.subset (List.mem_map.mpr ⟨a, ha, rfl⟩)
    exact List.mem_range.mp (List.mem_filter.mp this).1
  let B := A.filter (fun a => (lp a.head).ls.rev)
  have hB : (B.flatMap Arc.nodes).Perm (revLines np cls) := by
    unfold revLines
    refine List.Perm.trans ?_ ((h.perm hA hs).filter _)
    apply List.Perm.of_eq
    rw [List.filter_flatMap]
    have e : ∀ C : List Arc, (∀ a ∈ C, a ∈ A) → (C.filter (fun a => (lp a.head).ls.rev)).flatMap Arc.nodes =
        C.flatMap (fun a => a.nodes.filter (fun i => (cls i).rev)) := by
      intro C
      induction C with
      | nil => intro _; rfl
      | cons a C ih =>
        intro hC
        have haA := hC a List.mem_cons_self
        have hc := h.arc_cls (hA a haA) (hlt a haA)
        rw [List.filter_cons, List.flatMap_cons, ← ih (fun x hx => hC x (List.mem_cons_of_mem _ hx))]
        by_cases r : (lp a.head).ls.rev = true
        · rw [if_pos r, List.flatMap_cons, (List.filter_eq_self (l := a.nodes)).mpr (fun i hi => by rw [hc i hi]; exact r)]
        · rw [if_neg r, (List.filter_eq_nil_iff (l := a.nodes)).mpr (fun i hi => by rw [hc i hi]; exact r), List.nil_append]
    exact e A (fun a ha => ha)
  have hp := hb.perm
  rw [List.map_map, List.map_map] at hp
  have h5 : ((B.flatMap Arc.nodes).map (fun i => (lp i).data)).Perm ((B.flatMap Arc.nodes).map (fun i => (lp (lp i).next).data)) :=
    ((hB.map _).trans hp).trans (hB.map _).symm
  rw [List.perm_iff_count] at h5 ⊢
  intro c
  have h6 := h5 c
  have key : ∀ C : List Arc, (∀ a ∈ C, a ∈ A) → (C.map (fun a => (lp a.head).data)).count c + ((C.flatMap Arc.nodes).map (fun i => (lp (lp i).next).data)).count c =
      (C.map (fun a => (lp a.stop).data)).count c + ((C.flatMap Arc.nodes).map (fun i => (lp i).data)).count c := by
    intro C
    induction C with
    | nil => intro _; rfl
    | cons a C ih =>
      intro hC
      have ih := ih (fun x hx => hC x (List.mem_cons_of_mem _ hx))
      have ha := hA a (hC a List.mem_cons_self)
      have hq : a.nodes.map (fun i => ((lp i).data, (lp (lp i).next).data)) = pairs (a.nodes.map (fun i => (lp i).data) ++ [(lp a.stop).data]) :=
        pairs_of_sq (fun i => (lp i).data) (fn := fun i => (lp i).next) ha.sq
      have hq2 := congrArg (List.map Prod.snd) hq
      rw [pairs_snd, List.map_map] at hq2
      have e1 : a.nodes.map (fun i => (lp (lp i).next).data) = a.mid.map (fun i => (lp i).data) ++ [(lp a.stop).data] := hq2
      have e2 : a.nodes.map (fun i => (lp i).data) = (lp a.head).data :: a.mid.map (fun i => (lp i).data) := rfl
      simp only [List.map_cons, List.flatMap_cons, List.map_append, List.count_append, List.count_cons, e1, e2, List.count_nil] at ih ⊢
      omega
  have h7 := key B (fun a ha => (List.mem_filter.mp ha).1)
  change (B.map _).count c = (B.map _).count c
  omega

/-- The result for classified lines. -/
theorem Input.result (h : Input lp np cls) {samples : List Nat}
    (hs : samples.Perm ((List.range np).filter (fun i => decide ((lp i).st ≠ .undef))))
    (hk : Balanced (keptLines lp np cls)) (hr : Balanced ((revLines np cls).map (fun i => ((lp i).data, (lp (lp i).next).data)))) :
    ∃ w P f, doOp lp np samples = some (w, f) ∧ w.np = np ∧ (∀ k, k < np → (w.lp k).data = (lp k).data ∧ (w.lp k).anchor = false) ∧
      Joined w P ∧ Extracted w P f ∧
      ((f.loops.flatMap f.ring).map (fun i => ((w.lp i).data, (w.lp (f.next i)).data))).Perm (keptLines lp np cls) := by
  obtain ⟨A, eA, hA⟩ := h.arcs samples (fun s hsm => by
    have := List.mem_filter.mp (hs.subset hsm)
    exact ⟨List.mem_range.mp this.1, by simpa using this.2⟩)
  subst eA
  have hp := h.perm hA hs
  have st : Start (Work.init lp np) A := by
    refine ⟨hA, hp.nodup_iff.mpr List.nodup_range, fun k hk => List.mem_range.mp (hp.subset hk),
      fun k hk _ => hp.symm.subset (List.mem_range.mpr hk), fun _ => rfl, rfl, fun _ => rfl, rfl⟩
  obtain ⟨w1, w, P, f, e1, e2, e3, hj, hf, hc, hsame⟩ := st.core (h.revBal hA hs hr) (h.keepBal hA hs hk)
  refine ⟨w, P, f, ?_, hsame.1, ?_, hj, hf, ?_⟩
  · unfold doOp
    rw [e1, Option.bind_some, e2, Option.bind_some, e3, Option.map_some]
  · intro k hk
    have := hsame.2 k
    have ha : ((Work.init lp np).lp k).anchor = false := h.anchor k hk
    exact ⟨this.2 ha, this.1.trans ha⟩
  · exact (hf.lines (w := Work.init lp np) hc).trans (h.all_lines hA hs)

end
end PolyOps.Loops
