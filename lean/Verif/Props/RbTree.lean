import Verif.Lemmas.RbUnlink
import Mathlib.Data.Nat.Log

/-! The red-black tree of the sweep sets (C34). `Ok m L`: the memory holds a red-black tree with the elements `L` in this order. The
theorems say what the operations of the set do to `L`, and that each loop in them ends within `bound L` steps. -/
namespace PolyOps.RbTree

/-- Steps of a loop that are enough. -/
def bound (L : List Nat) : Nat := 2 * Nat.log2 (L.length + 1) + 2

theorem ok_height {m : Mem} {L : List Nat} (h : Ok m L) : ∃ t n, Foc m (m.parent 0) t [] ∧ t.nodes = L ∧ Bal t n ∧ t.isRed = false ∧
    t.height ≤ 2 * Nat.log2 (L.length + 1) := by
  obtain ⟨t, n, h1, h2, h3, h4⟩ := h.tree
  refine ⟨t, n, h1, h2, h3, h4, ?_⟩
  rw [← h2]
  exact bal_log h3 h4

/-- The tree at an element. -/
theorem ok_place {m : Mem} {a b : List Nat} {i : Nat} (h : Ok m (a ++ i :: b)) : ∃ r x y c o, Foc m o (.node r x i y) c ∧ before c ++ x.nodes = a ∧
    y.nodes ++ after c = b ∧ (plug (.node r x i y) c).nodes = a ++ i :: b ∧ (plug (.node r x i y) c).height ≤ 2 * Nat.log2 ((a ++ i :: b).length + 1) ∧
    (∃ n, Bal (plug (.node r x i y) c) n) ∧ (plug (.node r x i y) c).isRed = false := by
  obtain ⟨t, n, h1, h2, h3, h4, h5⟩ := ok_height h
  obtain ⟨r, x, y, c, e⟩ := exists_place t [] i (by rw [h2]; simp)
  have e : plug (.node r x i y) c = t := e
  rw [← e] at h1 h2 h3 h4 h5
  obtain ⟨o, ho⟩ := foc_of_root c h1
  have hn : (before c ++ x.nodes) ++ i :: (y.nodes ++ after c) = a ++ i :: b := by
    rw [← h2, plug_nodes]; simp [T.nodes]
  have hnd := ho.nd
  rw [h2] at hnd
  have key : before c ++ x.nodes = a := by
    have i1 : i ∉ before c ++ x.nodes := by
      rw [← hn, List.nodup_middle, List.nodup_cons] at hnd
      exact fun hh => hnd.1 (List.mem_append.mpr (Or.inl hh))
    have i2 : i ∉ a := by
      have hnd' := ho.nd
      rw [h2, List.nodup_middle, List.nodup_cons] at hnd'
      exact fun hh => hnd'.1 (List.mem_append.mpr (Or.inl hh))
    have t1 : ((before c ++ x.nodes) ++ i :: (y.nodes ++ after c)).takeWhile (· ≠ i) = before c ++ x.nodes := by
      rw [List.takeWhile_append_of_pos (by intro z hz; simp only [ne_eq, decide_not, Bool.not_eq_eq_eq_not, Bool.not_true, decide_eq_false_iff_not]; rintro rfl; exact i1 hz)]
      simp
    have t2 : (a ++ i :: b).takeWhile (· ≠ i) = a := by
      rw [List.takeWhile_append_of_pos (by intro z hz; simp only [ne_eq, decide_not, Bool.not_eq_eq_eq_not, Bool.not_true, decide_eq_false_iff_not]; rintro rfl; exact i2 hz)]
      simp
    rw [← t1, hn, t2]
  have key2 : y.nodes ++ after c = b := by
    rw [key] at hn
    have := List.append_cancel_left hn
    exact (List.cons.inj this).2
  exact ⟨r, x, y, c, o, ho, key, key2, h2, h5, ⟨n, h3⟩, h4⟩

theorem ok_nodup {m : Mem} {L : List Nat} (h : Ok m L) : L.Nodup ∧ 0 ∉ L := by
  obtain ⟨t, n, h1, h2, -⟩ := h.tree
  rw [← h2]
  exact ⟨h1.nd, h1.nz⟩

/-- **C34** (start): clearing gives the empty set. -/
theorem C34_init (m : Mem) : Ok m.initHeader [] := by
  refine ⟨⟨.leaf, 0, ⟨rfl, rfl, by simp [plug, T.nodes], by simp [plug, T.nodes]⟩, rfl, rfl, rfl⟩, rfl, rfl, ?_⟩
  exact upd_eq (f := m.red) (i := 0) (a := true)

/-- **C34** (first element): `begin` is the first element, or `end` (the header) if there is none; `empty` tells. -/
theorem C34_begin {m : Mem} {L : List Nat} (h : Ok m L) : m.left 0 = some (L.head?.getD 0) ∧ ((m.parent 0).isNone = true ↔ L = []) := by
  refine ⟨h.ends.first, ?_⟩
  obtain ⟨t, n, h1, h2, -⟩ := h.tree
  rw [Option.isNone_iff_eq_none, h1.leaf, ← h2]
  cases t with
  | leaf => simp [T.nodes]
  | node => simp [T.nodes]

/-- **C34** (next): the iterator after an element points to the element after it, after the last one to the end. -/
theorem C34_next {m : Mem} {a b : List Nat} {i k : Nat} (h : Ok m (a ++ i :: b)) (hk : bound (a ++ i :: b) ≤ k) : m.next k i = some (b.head?.getD 0) := by
  obtain ⟨r, x, y, c, o, h1, -, h3, h4, h5, -⟩ := ok_place h
  have := h1.next (k := k) (by rw [h4]; exact h.ends) (by unfold bound at hk; omega)
  rw [this, h3]

/-- **C34** (previous): the iterator before an element that is not the first points to the one before it, before the end to the last. -/
theorem C34_prev {m : Mem} {a b : List Nat} {i k : Nat} (h : Ok m (a ++ i :: b)) (ha : a ≠ []) (hk : bound (a ++ i :: b) ≤ k) : m.prev k i = a.getLast? := by
  obtain ⟨r, x, y, c, o, h1, h2, -, h4, h5, -⟩ := ok_place h
  have := h1.prev (k := k) (by unfold bound at hk; omega) (by rw [h2]; exact ha)
  rw [this, h2]

theorem C34_prev_end {m : Mem} {L : List Nat} (h : Ok m L) (k : Nat) : m.prev k 0 = some (L.getLast?.getD 0) := prev_header h k

/-- What a range-based loop over the set visits: `j` bounds the number of elements, `k` the steps within one `++`. -/
def Mem.walk (m : Mem) (k : Nat) : Nat → Option Nat → Option (List Nat)
  | _, none => none
  | _, some 0 => some []
  | 0, some (_ + 1) => none
  | j + 1, some (i + 1) => (m.walk k j (m.next k (i + 1))).map fun l => (i + 1) :: l

/-- **C34** (iteration): a loop from `begin` to `end` visits exactly the elements, in order. -/
theorem C34_iterate {m : Mem} {L : List Nat} {k j : Nat} (h : Ok m L) (hk : bound L ≤ k) (hj : L.length ≤ j) : m.walk k j (m.left 0) = some L := by
  have gen : ∀ (b a : List Nat), a ++ b = L → ∀ j, b.length ≤ j → m.walk k j (some (b.head?.getD 0)) = some b := by
    intro b
    induction b with
    | nil => intro a _ j _; cases j <;> rfl
    | cons i b ih =>
      intro a e j hj
      obtain ⟨j, rfl⟩ : ∃ l, j = l + 1 := ⟨j - 1, by simp only [List.length_cons] at hj; omega⟩
      have hi : i ≠ 0 := by rintro rfl; exact (ok_nodup h).2 (by rw [← e]; simp)
      obtain ⟨i, rfl⟩ : ∃ l, i = l + 1 := ⟨i - 1, by omega⟩
      rw [List.head?_cons, Option.getD_some, Mem.walk]
      have hn := C34_next (k := k) (by rw [e]; exact h) (by rw [e]; exact hk)
      rw [hn, ih (a ++ [i + 1]) (by rw [← e]; simp) j (by simp only [List.length_cons] at hj; omega)]
      rfl
  rw [h.ends.first]
  exact gen L [] rfl j hj

theorem mono_of {cmp : Nat → Nat → Bool} {n : Nat} {a b : List Nat} (ha : ∀ x ∈ a, cmp n x = false) (hb : ∀ x ∈ b, cmp n x = true) :
    (a ++ b).Pairwise (fun x y => cmp n x = true → cmp n y = true) := by
  rw [List.pairwise_append]
  refine ⟨?_, ?_, fun x _ y hy _ => hb y hy⟩
  · exact List.Pairwise.imp_of_mem (R := fun _ _ => True) (fun hx _ _ he => by rw [ha _ hx] at he; cases he) (by simp [List.pairwise_iff_forall_sublist])
  · exact List.Pairwise.imp_of_mem (R := fun _ _ => True) (fun _ hy _ _ => hb _ hy) (by simp [List.pairwise_iff_forall_sublist])

theorem split_unique {p : Nat → Bool} {a b a' b' : List Nat} (e : a ++ b = a' ++ b') (h1 : ∀ x ∈ a, p x = false) (h2 : ∀ x ∈ b, p x = true)
    (h3 : ∀ x ∈ a', p x = false) (h4 : ∀ x ∈ b', p x = true) : a = a' ∧ b = b' := by
  have key : ∀ (a b : List Nat), (∀ x ∈ a, p x = false) → (∀ x ∈ b, p x = true) → (a ++ b).filter (fun x => !p x) = a ∧ (a ++ b).filter p = b := by
    intro a b h1 h2
    rw [List.filter_append, List.filter_append, List.filter_eq_self.mpr (fun x hx => by simp [h1 x hx]), List.filter_eq_nil_iff.mpr (fun x hx => by simp [h2 x hx]),
      List.filter_eq_nil_iff.mpr (fun x hx => by simp [h1 x hx]), List.filter_eq_self.mpr (fun x hx => by simp [h2 x hx])]
    simp
  have k1 := key a b h1 h2
  have k2 := key a' b' h3 h4
  rw [e] at k1
  exact ⟨k1.1.symm.trans k2.1, k1.2.symm.trans k2.2⟩

/-- **C34** (insert): the elements before which the new one does not come are `a`, the others `b`. If the last one of `a` does not come before the
new one either, it is returned and nothing changes. Otherwise the new element is put between `a` and `b`. -/
theorem C34_insert {m : Mem} {cmp : Nat → Nat → Bool} {a b : List Nat} {n k : Nat} (h : Ok m (a ++ b)) (hn : n ∉ a ++ b) (h0 : n ≠ 0)
    (ha : ∀ x ∈ a, cmp n x = false) (hb : ∀ x ∈ b, cmp n x = true) (hk : bound (a ++ b) ≤ k) :
    (∀ v, a.getLast? = some v → cmp v n = false → m.insert cmp k n = some (m, v, false)) ∧
    ((∀ v, a.getLast? = some v → cmp v n = true) → ∃ m', m.insert cmp k n = some (m', n, true) ∧ Ok m' (a ++ n :: b)) := by
  obtain ⟨t, j, h1, h2, h3, h4, h5⟩ := ok_height h
  unfold bound at hk
  obtain ⟨c', q1, q2, q3, q4, q5⟩ := search_spec (cmp := cmp) (key := n) t (k := k) (by omega) h1 (by
    show t.nodes.Pairwise _
    rw [h2]; exact mono_of ha hb) (by intro x hx; simp [before] at hx) (by intro x hx; simp [after] at hx)
  have q1 : m.search cmp n k (m.parent 0) 0 true none = some (par c', lastD c', (before c').getLast?) := q1
  have hpl : (plug .leaf c').nodes = a ++ b := by rw [q3]; exact h2
  have hsp : before c' = a ∧ after c' = b := by
    refine split_unique (p := cmp n) ?_ q4 q5 ha hb
    rw [← hpl, plug_nodes]; simp [T.nodes]
  have hlen : c'.length < k := by
    have := height_plug c' .leaf
    rw [q3] at this
    have : (plug t []).height = t.height := rfl
    omega
  have hlink : ∃ m', (m.commit n (par c') (lastD c')).rebalanceIns k n = some m' ∧ Ok m' (a ++ n :: b) := by
    obtain ⟨m', w1, w2⟩ := link_spec q2 (by rw [hpl]; exact h.ends) ⟨j, by rw [q3]; exact h3⟩ (by rw [hpl]; exact hn) h0 (lastD c') (fun _ => rfl) hlen
    rw [hsp.1, hsp.2] at w2
    exact ⟨m', w1, w2⟩
  unfold Mem.insert
  rw [q1, Option.bind_some, hsp.1]
  constructor
  · intro v hv hc
    simp only [hv]
    rw [hc, if_neg (by simp)]
  · intro hv
    obtain ⟨m', w1, w2⟩ := hlink
    refine ⟨m', ?_, w2⟩
    cases hl : a.getLast? with
    | none =>
      simp only
      rw [w1]; rfl
    | some v =>
      simp only
      rw [hv v hl, if_pos rfl, w1]; rfl

/-- **C34** (insert with any comparison): even if the comparison is no order on the elements, the new element gets a place between two
elements it was compared with, or is found equivalent to the one before that place. -/
theorem C34_insert_any {m : Mem} {L : List Nat} {n k : Nat} (cmp : Nat → Nat → Bool) (h : Ok m L) (hn : n ∉ L) (h0 : n ≠ 0) (hk : bound L ≤ k) :
    ∃ a b, L = a ++ b ∧ (∀ v, a.getLast? = some v → cmp n v = false) ∧ (∀ v, b.head? = some v → cmp n v = true) ∧
    (∀ v, a.getLast? = some v → cmp v n = false → m.insert cmp k n = some (m, v, false)) ∧
    ((∀ v, a.getLast? = some v → cmp v n = true) → ∃ m', m.insert cmp k n = some (m', n, true) ∧ Ok m' (a ++ n :: b)) := by
  obtain ⟨t, j, h1, h2, h3, h4, h5⟩ := ok_height h
  unfold bound at hk
  obtain ⟨c', q1, q2, q3, q4, q5⟩ := search_any (cmp := cmp) (key := n) t (k := k) (by omega) h1 (by intro x hx; simp [before] at hx)
    (by intro x hx; simp [after] at hx)
  have q1 : m.search cmp n k (m.parent 0) 0 true none = some (par c', lastD c', (before c').getLast?) := q1
  have hpl : (plug .leaf c').nodes = L := by rw [q3]; exact h2
  have hlen : c'.length < k := by
    have := height_plug c' .leaf
    rw [q3] at this
    have : (plug t []).height = t.height := rfl
    omega
  have hlink : ∃ m', (m.commit n (par c') (lastD c')).rebalanceIns k n = some m' ∧ Ok m' (before c' ++ n :: after c') :=
    link_spec q2 (by rw [hpl]; exact h.ends) ⟨j, by rw [q3]; exact h3⟩ (by rw [hpl]; exact hn) h0 (lastD c') (fun _ => rfl) hlen
  refine ⟨before c', after c', by rw [← hpl, plug_nodes]; simp [T.nodes], q4, q5, ?_⟩
  unfold Mem.insert
  rw [q1, Option.bind_some]
  constructor
  · intro v hv hc
    simp only [hv]
    rw [hc, if_neg (by simp)]
  · intro hv
    obtain ⟨m', w1, w2⟩ := hlink
    refine ⟨m', ?_, w2⟩
    cases hl : (before c').getLast? with
    | none =>
      simp only
      rw [w1]; rfl
    | some v =>
      simp only
      rw [hv v hl, if_pos rfl, w1]; rfl

def allRight (c : Ctx) : Prop := ∀ f ∈ c, f.d = false

theorem after_allRight {c : Ctx} (h : allRight c) : after c = [] := by
  induction c with
  | nil => rfl
  | cons f c ih =>
    rw [after, ih (fun g hg => h g (List.mem_cons_of_mem _ hg)), h f (by simp)]; rfl

theorem exists_max (t : T) : t ≠ .leaf → ∃ r y X c, t = plug (.node r X y .leaf) c ∧ allRight c := by
  induction t with
  | leaf => intro h; exact absurd rfl h
  | node r a i b iha ihb =>
    intro _
    by_cases ha : b = .leaf
    · subst ha
      exact ⟨r, i, a, [], rfl, fun f hf => by simp at hf⟩
    · obtain ⟨r', y, X, c, e, hc⟩ := ihb ha
      refine ⟨r', y, X, c ++ [⟨false, r, i, a⟩], ?_, ?_⟩
      · rw [plug_append, ← e]; rfl
      · intro f hf
        rcases List.mem_append.mp hf with hf | hf
        · exact hc f hf
        · simp only [List.mem_singleton] at hf; rw [hf]

/-- The free place after the last element of a subtree. -/
theorem free_after {m : Mem} {o : Option Nat} {t : T} {c : Ctx} (h : Foc m o t c) (ht : t ≠ .leaf) : ∃ c' y, Foc m none .leaf c' ∧ plug .leaf c' = plug t c ∧
    par c' = y ∧ t.nodes.getLast? = some y ∧ lastD c' = false ∧ c' ≠ [] ∧ before c' = before c ++ t.nodes ∧ after c' = after c := by
  obtain ⟨r, y, X, c1, e, hc⟩ := exists_max t ht
  rw [e] at h
  obtain ⟨o', h1⟩ := Foc.plug_down c1 h
  have h1' : Foc m o' (T.mk true r X y .leaf) (c1 ++ c) := h1
  have h2 := h1'.down'
  have h3 : (m.child (!true) y) = none := h2.rep
  rw [h3] at h2
  have bc : ∀ (c1 c : Ctx), before (c1 ++ c) = before c ++ before c1 := by
    intro c1 c
    induction c1 with
    | nil => simp [before]
    | cons f c1 ih => simp [before, ih]
  have ac : ∀ (c1 c : Ctx), after (c1 ++ c) = after c1 ++ after c := by
    intro c1 c
    induction c1 with
    | nil => simp [after]
    | cons f c1 ih => simp [after, ih]
  have hn : t.nodes = before c1 ++ (X.nodes ++ [y]) := by
    rw [e, plug_nodes, after_allRight hc]; simp [T.nodes]
  refine ⟨_, y, h2, ?_, rfl, ?_, rfl, by simp, ?_, ?_⟩
  · show plug (T.node r X y .leaf) (c1 ++ c) = _
    rw [plug_append, ← e]
  · rw [hn, ← List.append_assoc]; simp
  · rw [hn]; simp [before, bc]
  · simp [after, ac, after_allRight hc]

/-- **C34** (insert before): the new element is put directly before the given one, or at the end. -/
theorem C34_insert_before {m : Mem} {a b : List Nat} {pos n k : Nat} (h : Ok m (a ++ pos :: b)) (hn : n ∉ a ++ pos :: b) (h0 : n ≠ 0) (hk : bound (a ++ pos :: b) ≤ k) :
    ∃ m', m.insertBefore k pos n = some m' ∧ Ok m' (a ++ n :: pos :: b) := by
  obtain ⟨r, x, y, c, o, h1, h2, h3, h4, h5, h6, -⟩ := ok_place h
  have hroot : (m.parent 0).isNone = false := by
    have := (C34_begin h).2
    cases hh : (m.parent 0).isNone with
    | false => rfl
    | true => have := this.mp hh; simp at this
  unfold Mem.insertBefore bound at *
  have hprev : ∃ p, (if some pos ≠ m.left 0 then m.prev k pos else some pos) = some p ∧ (a ≠ [] → a.getLast? = some p) := by
    by_cases ha : a = []
    · subst ha
      rw [if_neg (by rw [h.ends.first]; simp)]
      exact ⟨pos, rfl, fun h => absurd rfl h⟩
    · rw [if_pos]
      · rw [C34_prev h ha (by unfold bound; omega)]
        obtain ⟨p, hp⟩ : ∃ p, a.getLast? = some p := ⟨_, List.getLast?_eq_some_getLast ha⟩
        exact ⟨p, hp, fun _ => hp⟩
      · rw [h.ends.first]
        obtain ⟨u, l, rfl⟩ := List.exists_cons_of_ne_nil ha
        intro e
        have : pos = u := by simpa using e
        have := (ok_nodup h).1
        rw [List.nodup_middle, List.nodup_cons] at this
        exact this.1 (by simp [‹pos = u›])
  obtain ⟨p, hp, hpl⟩ := hprev
  rw [hp, Option.bind_some]
  simp only [hroot, Bool.false_or]
  have hfh := height_plug c (.node r x pos y)
  cases x with
  | leaf =>
    have hl : m.left pos = none := h1.rep.2.2.2.1
    rw [hl]
    simp only [Option.isNone_none, if_true]
    have h1' : Foc m o (T.mk true r .leaf pos y) c := h1
    have h7 := h1'.down
    rw [show m.child true pos = none from hl] at h7
    obtain ⟨m', w1, w2⟩ := link_spec (n := n) (k := k) h7 (by show Ends m (plug (T.mk true r .leaf pos y) c).nodes; exact h4 ▸ h.ends) h6 (by show n ∉ (plug (T.node r .leaf pos y) c).nodes; rw [h4]; exact hn) h0 true (fun _ => rfl) (by
      simp only [List.length_cons, T.height] at hfh ⊢; omega)
    refine ⟨m', w1, ?_⟩
    have e1 : before (⟨true, r, pos, y⟩ :: c) = a := by
      rw [← h2]; simp [before, T.nodes]
    have e2 : after (⟨true, r, pos, y⟩ :: c) = pos :: b := by
      rw [← h3]; simp [after]
    rw [e1, e2] at w2
    exact w2
  | node rx xa xi xb =>
    have h1' : Foc m o (T.mk true r (.node rx xa xi xb) pos y) c := h1
    have h7 := h1'.down
    have hl : m.left pos = some xi := h7.rep.1
    rw [hl]
    simp only [Option.isNone_some, Bool.false_eq_true, if_false]
    obtain ⟨c', y', w1, w2, w3, w4, w5, w6, w7, w8⟩ := free_after h7 (by simp)
    have hy' : p = y' := by
      have := hpl (by rw [← h2]; simp [T.nodes])
      rw [← h2, List.getLast?_append, w4] at this
      simpa using this.symm
    have w2' : plug .leaf c' = plug (T.node r (.node rx xa xi xb) pos y) c := w2
    obtain ⟨m', v1, v2⟩ := link_spec (n := n) (k := k) w1 (by rw [w2', h4]; exact h.ends) (by rw [w2']; exact h6) (by rw [w2', h4]; exact hn) h0 false (fun _ => w5.symm) (by
      have := height_plug c' .leaf
      rw [w2'] at this
      omega)
    rw [w3, ← hy'] at v1
    refine ⟨m', v1, ?_⟩
    have e1 : before c' = a := by
      rw [← h2, w7]; simp [before]
    have e2 : after c' = pos :: b := by
      rw [← h3, w8]; simp [after]
    rw [e1, e2] at v2
    exact v2

theorem C34_insert_end {m : Mem} {L : List Nat} {n k : Nat} (h : Ok m L) (hn : n ∉ L) (h0 : n ≠ 0) (hk : bound L ≤ k) :
    ∃ m', m.insertBefore k 0 n = some m' ∧ Ok m' (L ++ [n]) := by
  obtain ⟨t, j, h1, h2, h3, h4, h5⟩ := ok_height h
  unfold bound at hk
  unfold Mem.insertBefore
  cases t with
  | leaf =>
    have hL : L = [] := h2.symm
    subst hL
    have hp : m.parent 0 = none := h1.rep
    have hl : m.left 0 = some 0 := h.ends.first
    rw [hl, hp]
    simp only [ne_eq, not_true_eq_false, if_false, Option.bind_some, Option.isNone_none, Bool.true_or, if_true]
    rw [hp] at h1
    obtain ⟨m', w1, w2⟩ := link_spec (n := n) (k := k) h1 h.ends ⟨j, h3⟩ hn h0 true (fun h => absurd rfl h) (by simp; omega)
    exact ⟨m', w1, w2⟩
  | node r a i b =>
    have hne : L ≠ [] := by rw [← h2]; simp [T.nodes]
    have hp : m.parent 0 = some i := h1.rep.1
    obtain ⟨u, l, hul⟩ := List.exists_cons_of_ne_nil hne
    have hl : m.left 0 = some u := by rw [h.ends.first, hul]; rfl
    have hu : u ≠ 0 := by rintro rfl; exact (ok_nodup h).2 (by rw [hul]; simp)
    obtain ⟨c', y', w1, w2, w3, w4, w5, w6, w7, w8⟩ := free_after h1 (by simp)
    rw [h2] at w4
    rw [hl, if_pos (by simp; exact fun e => hu e.symm), C34_prev_end h, Option.bind_some, w4, hp]
    simp only [Option.isNone_some, Bool.or_self, Bool.false_eq_true, if_false, Option.getD_some]
    have w2' : (plug .leaf c').nodes = L := by rw [w2]; exact h2
    obtain ⟨m', v1, v2⟩ := link_spec (n := n) (k := k) w1 (by rw [w2']; exact h.ends) ⟨j, by rw [w2]; exact h3⟩ (by rw [w2']; exact hn) h0 false (fun _ => w5.symm) (by
      have := height_plug c' .leaf
      rw [w2] at this
      have : (plug (T.node r a i b) []).height = (T.node r a i b).height := rfl
      omega)
    rw [w3] at v1
    refine ⟨m', v1, ?_⟩
    rw [w7, w8] at v2
    simp only [before, after, List.nil_append] at v2
    rw [h2] at v2
    exact v2

theorem fin_ok {m m' : Mem} {L : List Nat} (h : Fin m m' L) (he : Ends m L) : Ok m' L := by
  obtain ⟨t, j, h1, h2, h3, h4, h5⟩ := h
  exact ⟨⟨t, j, h1, h4, h2, h3⟩, by rw [h5.1]; exact he.first, by rw [h5.2.1]; exact he.last, by rw [h5.2.2]; exact he.red⟩

/-- **C34** (erase): the element is taken out, all others stay in order, and the element after it is returned. -/
theorem C34_erase {m : Mem} {a b : List Nat} {z k : Nat} (h : Ok m (a ++ z :: b)) (hk : bound (a ++ z :: b) ≤ k) :
    ∃ m', m.erase k z = some (m', b.head?.getD 0) ∧ Ok m' (a ++ b) := by
  obtain ⟨r, x, y, c, o, h1, h2, h3, h4, h5, ⟨j, h6⟩, h7⟩ := ok_place h
  unfold Mem.erase
  rw [C34_next h hk, Option.bind_some]
  unfold bound at hk
  have ho := h1.rep.1
  subst ho
  have hE : Ends m (plug (.node r x z y) c).nodes := by rw [h4]; exact h.ends
  have hh := height_plug c (.node r x z y)
  obtain ⟨n, b1, b2, b3⟩ := balC_of_bal c _ j h6
  obtain ⟨rb1, rb2⟩ := rootB_of_black c h7
  have hxy : Bal x (if r then n else n - 1) ∧ Bal y (if r then n else n - 1) ∧ (r = false → 1 ≤ n) ∧ (r = true → x.isRed = false ∧ y.isRed = false) := by
    cases r
    · obtain ⟨i, rfl, d1, d2⟩ := (bal_black true ..).mp b1
      exact ⟨d1, d2, fun _ => by omega, by simp⟩
    · obtain ⟨d1, d2, d3, d4⟩ := (bal_red true ..).mp b1
      exact ⟨d1, d2, by simp, fun _ => ⟨d3, d4⟩⟩
  have hz : m.parent z = some (par c) := h1.rep.2.1
  -- what is left to do after unlinking an element with at most one child
  have one : ∀ (X : T) (x' : Option Nat), ((x = .leaf ∧ X = y) ∨ (y = .leaf ∧ X = x)) → Rep m x' X z →
      ∃ m', (m.eraseOne k z (m.left z) (m.right z) x' (par c) (decide (m.left (par c) = some z))) = some m' ∧
        ∃ m'', m'.rebalanceErase k z x' z (par c) = some m'' ∧ Ok m'' (a ++ b) := by
    intro X x' hX hx'
    have hXh : X.height ≤ k := by
      simp only [T.height] at hh
      rcases hX with ⟨-, rfl⟩ | ⟨-, rfl⟩ <;> omega
    obtain ⟨m', q1, q2, q3, q4⟩ := eraseOne_spec h1 hE hX x' hx' hXh
    refine ⟨m', q1, ?_⟩
    have hL : (plug X c).nodes = a ++ b := by
      rw [plug_nodes, ← h2, ← h3]
      rcases hX with ⟨rfl, rfl⟩ | ⟨rfl, rfl⟩ <;> simp [T.nodes]
    unfold Mem.rebalanceErase
    rw [if_neg (by simp), q4, h1.rep.2.2.1]
    have hXb : Bal X (if r then n else n - 1) ∧ (r = true → X.isRed = false) := by
      rcases hX with ⟨-, rfl⟩ | ⟨-, rfl⟩
      · exact ⟨hxy.2.1, fun hr => (hxy.2.2.2 hr).2⟩
      · exact ⟨hxy.1, fun hr => (hxy.2.2.2 hr).1⟩
    cases r with
    | true =>
      rw [if_pos rfl]
      refine ⟨m', rfl, ?_⟩
      rw [← hL]
      refine fin_ok (m := m') (fin_of q2 hXb.1 b2 (by rw [hXb.2 rfl]; simp) rb1 (fun _ => hXb.2 rfl) (HeadSame.refl _)) q3
    | false =>
      rw [if_neg (by simp)]
      have hn := hxy.2.2.1 rfl
      obtain ⟨m'', w1, w2⟩ := eraseFix_spec k (n := n - 1) (Or.inl (by omega)) q2 (pre_of_bal hXb.1) (by rw [Nat.sub_add_cancel hn]; exact b2) rb1
      refine ⟨m'', w1, ?_⟩
      rw [← hL]
      exact fin_ok w2 q3
  unfold Mem.unlink
  rw [hz, Option.bind_some]
  simp only
  cases hl : m.left z with
  | none =>
    have hxl : x = .leaf := by
      have := h1.rep.2.2.2.1
      rw [hl] at this
      cases x with
      | leaf => rfl
      | node => cases this.1
    obtain ⟨m', q1, m'', q2, q3⟩ := one y (m.right z) (Or.inl ⟨hxl, rfl⟩) h1.rep.2.2.2.2
    rw [hl] at q1
    simp only
    rw [q1, Option.map_some, Option.bind_some]
    simp only
    rw [q2]
    exact ⟨m'', rfl, q3⟩
  | some zl =>
    cases hr : m.right z with
    | none =>
      have hyl : y = .leaf := by
        have := h1.rep.2.2.2.2
        rw [hr] at this
        cases y with
        | leaf => rfl
        | node => cases this.1
      obtain ⟨m', q1, m'', q2, q3⟩ := one x (m.left z) (Or.inr ⟨hyl, rfl⟩) h1.rep.2.2.2.1
      rw [hl, hr] at q1
      rw [hl] at q2
      simp only
      rw [q1, Option.map_some, Option.bind_some]
      simp only
      rw [q2]
      exact ⟨m'', rfl, q3⟩
    | some zr =>
      simp only
      have hyl : y ≠ .leaf := by
        rintro rfl
        have : m.right z = none := h1.rep.2.2.2.2
        rw [this] at hr; cases hr
      have hxl : x ≠ .leaf := by
        rintro rfl
        have : m.left z = none := h1.rep.2.2.2.1
        rw [this] at hl; cases hl
      obtain ⟨ry, w, X, cy, hye, hcy⟩ := exists_min y hyl
      have hrep := h1.rep.2.2.2.2
      rw [hr] at hrep
      obtain ⟨v, v1, v2⟩ := minimum_spec (k := k) y hrep (by simp only [T.height] at hh; omega)
      have hvw : v = w := by
        rw [hye, plug_nodes, before_allLeft hcy] at v2
        simpa [T.nodes] using v2.symm
      subst hvw
      rw [v1, Option.bind_some]
      subst hye
      obtain ⟨m', q1, q2, q3, q4, q5⟩ := eraseTwo_spec h1 hcy hl hr
      rw [q1, Option.map_some, Option.bind_some]
      simp only
      -- the element moved is not `z`
      have hvz : v ≠ z := by
        rintro rfl
        have := (nd_mk (d := true) (nd_plug h1.nd).1).2.1
        exact this (mem_plug.mpr (Or.inl (by simp [T.nodes])))
      have hpl : plug X (cy ++ ⟨false, r, v, x⟩ :: c) = plug (.node r x v (plug X cy)) c := by rw [plug_append]; rfl
      have hL : (plug X (cy ++ ⟨false, r, v, x⟩ :: c)).nodes = a ++ b := by
        rw [hpl, plug_nodes, ← h2, ← h3]
        have e1 : (plug X cy).nodes = X.nodes ++ after cy := by rw [plug_nodes, before_allLeft hcy]; simp
        have e2 : (plug (.node ry .leaf v X) cy).nodes = v :: (X.nodes ++ after cy) := by rw [plug_nodes, before_allLeft hcy]; simp [T.nodes]
        simp only [T.nodes, e1, e2]
        simp
      have hE' : Ends (m'.setRed v r) (a ++ b) := by
        obtain ⟨u, l, hu⟩ : ∃ u l, x.nodes = u :: l := by
          cases x with
          | leaf => exact absurd rfl hxl
          | node rx xa xi xb => exact List.exists_cons_of_ne_nil (by simp [T.nodes])
        obtain ⟨l', u', hu'⟩ : ∃ l' u', b = l' ++ [u'] := by
          rcases List.eq_nil_or_concat b with hb | ⟨l', u', hb⟩
          · exfalso
            rw [← h3] at hb
            have := (List.append_eq_nil_iff.mp hb).1
            rw [plug_nodes] at this
            simp [T.nodes] at this
          · exact ⟨l', u', by rw [hb, List.concat_eq_append]⟩
        have v0 : v ≠ 0 := by
          rintro rfl
          exact h1.nz (mem_plug.mpr (Or.inl (by simp only [T.nodes, List.mem_append, List.mem_cons]; right; right; exact mem_plug.mpr (Or.inl (by simp [T.nodes])))))
        refine ⟨?_, ?_, ?_⟩
        · show m'.left 0 = _
          rw [q4, h.ends.first, ← h2, hu]
          cases before c <;> rfl
        · show m'.right 0 = _
          rw [q5, h.ends.last, hu', ← List.append_assoc]
          rw [show a ++ z :: (l' ++ [u']) = (a ++ z :: l') ++ [u'] by simp, List.getLast?_concat, List.getLast?_concat]
        · show upd m'.red v r 0 = true
          rw [upd_ne (Ne.symm v0), q3, h.ends.red]
      unfold Mem.rebalanceErase
      rw [if_pos hvz, q3, h1.rep.2.2.1]
      -- colours
      have h6' : plug (.node r x z (plug (.node ry .leaf v X) cy)) c = plug (.node ry .leaf v X) (cy ++ ⟨false, r, z, x⟩ :: c) := by rw [plug_append]; rfl
      rw [h6'] at h6 h7
      obtain ⟨N, d1, d2, d3⟩ := balC_of_bal _ _ j h6
      obtain ⟨e1, -⟩ := rootB_of_black _ h7
      have d2' := balC_rename cy ⟨false, r, z, x⟩ v c N d2
      have e1' := rootB_rename cy ⟨false, r, z, x⟩ v c e1
      simp only at d2' e1'
      have hvr : m.red v = ry := by
        have h8 : Foc m (m.right z) (plug (.node ry .leaf v X) cy) (⟨false, r, z, x⟩ :: c) := Foc.down' (d := true) h1
        obtain ⟨o', h9⟩ := Foc.plug_down cy h8
        exact h9.rep.2.2.1
      rw [hvr]
      have hlen : (cy ++ ⟨false, r, v, x⟩ :: c).length < k := by
        have := height_plug cy (.node ry .leaf v X)
        simp only [T.height] at this hh
        simp only [List.length_append, List.length_cons]
        omega
      cases ry with
      | true =>
        rw [if_pos rfl]
        obtain ⟨g1, g2, g3, g4⟩ := (bal_red true ..).mp d1
        refine ⟨_, rfl, ?_⟩
        rw [← hL]
        refine fin_ok (m := m'.setRed v r) (fin_of q2 g2 d2' (by rw [g4]; simp) e1' (fun _ => g4) (HeadSame.refl _)) ?_
        rw [hL]; exact hE'
      | false =>
        rw [if_neg (by simp)]
        obtain ⟨i, rfl, g1, g2⟩ := (bal_black true ..).mp d1
        obtain ⟨m'', w1, w2⟩ := eraseFix_spec k (n := i) (Or.inl hlen) q2 (pre_of_bal g2) d2' e1'
        rw [w1]
        refine ⟨m'', rfl, ?_⟩
        rw [← hL]
        refine fin_ok w2 ?_
        rw [hL]; exact hE'

/-- Steps down the tree from `o` to `i`: `none` if `i` is not reached within the given number of links. -/
def Mem.depth (m : Mem) : Nat → Option Nat → Nat → Option Nat
  | _, none, _ => none
  | 0, some _, _ => none
  | j + 1, some o, i => if o = i then some 1 else
    match m.depth j (m.left o) i with
    | some d => some (d + 1)
    | none => (m.depth j (m.right o) i).map (· + 1)

theorem depth_of {m : Mem} {i : Nat} : ∀ (t : T) {o : Option Nat} {p j : Nat}, Rep m o t p → t.height ≤ j →
    (i ∈ t.nodes → ∃ d, m.depth j o i = some d ∧ d ≤ t.height) ∧ (i ∉ t.nodes → m.depth j o i = none)
  | .leaf, o, p, j, h, _ => by
    have : o = none := h
    subst this
    exact ⟨fun hi => by simp [T.nodes] at hi, fun _ => by cases j <;> rfl⟩
  | .node r a x b, o, p, j, h, hj => by
    have hox : o = some x := h.1
    subst hox
    simp only [T.height] at hj
    obtain ⟨j, rfl⟩ : ∃ l, j = l + 1 := ⟨j - 1, by omega⟩
    obtain ⟨a1, a2⟩ := depth_of (i := i) a h.2.2.2.1 (j := j) (by omega)
    obtain ⟨b1, b2⟩ := depth_of (i := i) b h.2.2.2.2 (j := j) (by omega)
    simp only [T.nodes, List.mem_append, List.mem_cons, T.height]
    rw [Mem.depth]
    constructor
    · intro hi
      by_cases hx : x = i
      · rw [if_pos hx]; exact ⟨1, rfl, by omega⟩
      · rw [if_neg hx]
        by_cases ha : i ∈ a.nodes
        · obtain ⟨d, e, hd⟩ := a1 ha
          rw [e]; exact ⟨d + 1, rfl, by omega⟩
        · rw [a2 ha]
          obtain ⟨d, e, hd⟩ := b1 (by rcases hi with hi | hi | hi; exacts [absurd hi ha, absurd hi.symm hx, hi])
          rw [e]; exact ⟨d + 1, rfl, by omega⟩
    · intro hi
      rw [if_neg (fun e => hi (Or.inr (Or.inl e.symm))), a2 (fun e => hi (Or.inl e)), b2 (fun e => hi (Or.inr (Or.inr e)))]
      rfl

/-- **C34** (height): with `n` elements, the links from the root lead to each of them, and to nothing else, in at most `2 * log2 (n + 1)` steps. -/
theorem C34_height {m : Mem} {L : List Nat} (h : Ok m L) (i : Nat) :
    (i ∈ L ↔ ∃ d, m.depth (2 * Nat.log2 (L.length + 1)) (m.parent 0) i = some d) := by
  obtain ⟨t, n, h1, h2, -, -, h5⟩ := ok_height h
  obtain ⟨d1, d2⟩ := depth_of (i := i) t h1.rep h5
  rw [h2] at d1 d2
  constructor
  · intro hi
    obtain ⟨d, e, -⟩ := d1 hi
    exact ⟨d, e⟩
  · rintro ⟨d, e⟩
    by_contra hi
    rw [d2 hi] at e; cases e

/-- **C34** (search): finding the place of an element takes at most `2 * log2 (n + 1)` comparisons. -/
theorem C34_search {m : Mem} {cmp : Nat → Nat → Bool} {a b : List Nat} {n : Nat} (h : Ok m (a ++ b)) (ha : ∀ x ∈ a, cmp n x = false) (hb : ∀ x ∈ b, cmp n x = true) :
    ∃ p l, m.search cmp n (2 * Nat.log2 ((a ++ b).length + 1)) (m.parent 0) 0 true none = some (p, l, a.getLast?) := by
  obtain ⟨t, j, h1, h2, h3, h4, h5⟩ := ok_height h
  obtain ⟨c', q1, q2, q3, q4, q5⟩ := search_spec (cmp := cmp) (key := n) t h5 h1 (by
    show t.nodes.Pairwise _
    rw [h2]; exact mono_of ha hb) (by intro x hx; simp [before] at hx) (by intro x hx; simp [after] at hx)
  have hpl : (plug .leaf c').nodes = a ++ b := by rw [q3]; exact h2
  have hsp : before c' = a ∧ after c' = b := by
    refine split_unique (p := cmp n) ?_ q4 q5 ha hb
    rw [← hpl, plug_nodes]; simp [T.nodes]
  rw [hsp.1] at q1
  exact ⟨_, _, q1⟩

/-- **C34** (membership): an element in the set is not `unique` (sweep_set.hpp, `unique`: no parent link). -/
theorem C34_unique {m : Mem} {L : List Nat} (h : Ok m L) {i : Nat} (hi : i ∈ L) : (m.parent i).isNone = false := by
  obtain ⟨a, b, rfl⟩ := List.append_of_mem hi
  obtain ⟨r, x, y, c, o, h1, -⟩ := ok_place h
  rw [h1.rep.2.1]; rfl

/-- An operation on the set. -/
inductive Op
  | insert (n : Nat)
  | before (pos n : Nat)
  | erase (z : Nat)

/-- The operation on the memory; the result is the element of the returned iterator, and for `insert` whether something was inserted. -/
def Mem.exec (cmp : Nat → Nat → Bool) (k : Nat) (m : Mem) : Op → Option (Mem × Nat × Bool)
  | .insert n => m.insert cmp k n
  | .before pos n => (m.insertBefore k pos n).map fun m' => (m', n, true)
  | .erase z => (m.erase k z).map fun r => (r.1, r.2, false)

/-- The operation as a step between lists of elements. -/
inductive Spec (cmp : Nat → Nat → Bool) : List Nat → Op → List Nat → Nat → Bool → Prop
  | new (a b : List Nat) (n : Nat) : n ≠ 0 → n ∉ a ++ b → (∀ x ∈ a, cmp n x = false) → (∀ x ∈ b, cmp n x = true) → (∀ v, a.getLast? = some v → cmp v n = true) →
      Spec cmp (a ++ b) (.insert n) (a ++ n :: b) n true
  | old (a b : List Nat) (v n : Nat) : n ≠ 0 → n ∉ a ++ v :: b → (∀ x ∈ a, cmp n x = false) → cmp n v = false → (∀ x ∈ b, cmp n x = true) → cmp v n = false →
      Spec cmp (a ++ v :: b) (.insert n) (a ++ v :: b) v false
  | before (a b : List Nat) (pos n : Nat) : n ≠ 0 → n ∉ a ++ pos :: b → Spec cmp (a ++ pos :: b) (.before pos n) (a ++ n :: pos :: b) n true
  | last (a : List Nat) (n : Nat) : n ≠ 0 → n ∉ a → Spec cmp a (.before 0 n) (a ++ [n]) n true
  | erase (a b : List Nat) (z : Nat) : Spec cmp (a ++ z :: b) (.erase z) (a ++ b) (b.head?.getD 0) false

theorem C34_step {cmp : Nat → Nat → Bool} {m : Mem} {L L' : List Nat} {o : Op} {i k : Nat} {f : Bool} (h : Ok m L) (hs : Spec cmp L o L' i f) (hk : bound L ≤ k) :
    ∃ m', m.exec cmp k o = some (m', i, f) ∧ Ok m' L' := by
  cases hs with
  | new a b n h0 hn ha hb hl => exact (C34_insert h hn h0 ha hb hk).2 hl
  | old a b _ n h0 hn ha hv hb hl =>
    have e : a ++ i :: b = (a ++ [i]) ++ b := by simp
    rw [e] at h hn hk
    have := (C34_insert (cmp := cmp) h hn h0 (by
      intro x hx
      rcases List.mem_append.mp hx with hx | hx
      · exact ha x hx
      · simp only [List.mem_singleton] at hx; rw [hx]; exact hv) hb hk).1 i (by simp) hl
    exact ⟨m, this, by rw [e]; exact h⟩
  | before a b pos n h0 hn =>
    obtain ⟨m', e, w⟩ := C34_insert_before h hn h0 hk
    exact ⟨m', by simp only [Mem.exec, e, Option.map_some], w⟩
  | last a n h0 hn =>
    obtain ⟨m', e, w⟩ := C34_insert_end h hn h0 hk
    exact ⟨m', by simp only [Mem.exec, e, Option.map_some], w⟩
  | erase a b z =>
    obtain ⟨m', e, w⟩ := C34_erase h hk
    exact ⟨m', by simp only [Mem.exec, e, Option.map_some], w⟩

/-- A history of the set with what each operation returned. -/
inductive Specs (cmp : Nat → Nat → Bool) : List Nat → List (Op × Nat × Bool) → List Nat → Prop
  | nil (L : List Nat) : Specs cmp L [] L
  | cons {L L' L'' : List Nat} {o : Op} {i : Nat} {f : Bool} {os : List (Op × Nat × Bool)} : Spec cmp L o L' i f → Specs cmp L' os L'' → Specs cmp L ((o, i, f) :: os) L''

/-- The history run on the memory. -/
def Mem.run (cmp : Nat → Nat → Bool) (k : Nat) : Mem → List Op → Option (Mem × List (Op × Nat × Bool))
  | m, [] => some (m, [])
  | m, o :: os => (m.exec cmp k o).bind fun r => (r.1.run cmp k os).map fun q => (q.1, (o, r.2.1, r.2.2) :: q.2)

theorem bound_mono {L L' : List Nat} (h : L.length ≤ L'.length) : bound L ≤ bound L' := by
  unfold bound
  have : Nat.log2 (L.length + 1) ≤ Nat.log2 (L'.length + 1) := by
    rw [Nat.log2_eq_log_two, Nat.log2_eq_log_two]
    exact Nat.log_mono_right (by omega)
  omega

theorem spec_length {cmp : Nat → Nat → Bool} {L L' : List Nat} {o : Op} {i : Nat} {f : Bool} (h : Spec cmp L o L' i f) : L'.length ≤ L.length + 1 := by
  cases h <;> simp <;> omega

/-- **C34** (histories): after any sequence of insertions and erasures that the list of elements allows, the operations have returned what they return
on the list, the tree holds exactly the list, a loop over it visits the list, and no loop inside an operation took more than
`2 * log2 (n + 1) + 2` steps, for any bound `n` on the number of elements. -/
theorem C34_history {cmp : Nat → Nat → Bool} {os : List (Op × Nat × Bool)} {L : List Nat} (h : Specs cmp [] os L) {k n : Nat} (hn : os.length ≤ n)
    (hk : 2 * Nat.log2 (n + 1) + 2 ≤ k) (m : Mem) :
    ∃ m', (m.initHeader).run cmp k (os.map (·.1)) = some (m', os) ∧ Ok m' L ∧ m'.walk k n (m'.left 0) = some L := by
  have gen : ∀ {L0 os L}, Specs cmp L0 os L → ∀ m, Ok m L0 → L0.length + os.length ≤ n → ∃ m', m.run cmp k (os.map (·.1)) = some (m', os) ∧ Ok m' L ∧ L.length ≤ n := by
    intro L0 os L hs
    induction hs with
    | nil L => intro m ho hl; exact ⟨m, rfl, ho, by simpa using hl⟩
    | cons h1 _ ih =>
      intro m ho hl
      rename_i L1 L2 L3 o i f os _
      have hb : bound L1 ≤ k := by
        have := bound_mono (L := L1) (L' := List.replicate n 0) (by simp at hl ⊢; omega)
        unfold bound at this ⊢
        simp only [List.length_replicate] at this
        omega
      obtain ⟨m1, e1, o1⟩ := C34_step ho h1 hb
      have := spec_length h1
      obtain ⟨m2, e2, o2, l2⟩ := ih m1 o1 (by simp only [List.length_cons] at hl; omega)
      exact ⟨m2, by simp only [List.map_cons, Mem.run, e1, Option.bind_some, e2, Option.map_some], o2, l2⟩
  obtain ⟨m', e1, e2, e3⟩ := gen h m.initHeader (C34_init m) (by simpa using hn)
  refine ⟨m', e1, e2, C34_iterate e2 ?_ e3⟩
  have := bound_mono (L := L) (L' := List.replicate n 0) (by simpa using e3)
  unfold bound at this ⊢
  simp only [List.length_replicate] at this
  omega

/-- What is added and taken out, whatever the comparator. -/
def contents : List (Op × Nat × Bool) → Nat → Bool → Bool
  | [], _, x => x
  | (.insert n, _, f) :: os, i, x => contents os i (x || (f && n == i))
  | (.before _ n, _, _) :: os, i, x => contents os i (x || n == i)
  | (.erase z, _, _) :: os, i, x => contents os i (x && z != i)

/-- **C34** (contents): the set holds exactly the elements inserted and not erased since, each once. -/
theorem C34_contents {cmp : Nat → Nat → Bool} {os : List (Op × Nat × Bool)} {L : List Nat} (h : Specs cmp [] os L) :
    L.Nodup ∧ ∀ i, i ∈ L ↔ contents os i false = true := by
  have gen : ∀ {L0 os L}, Specs cmp L0 os L → L0.Nodup → L.Nodup ∧ ∀ i, (i ∈ L ↔ contents os i (decide (i ∈ L0)) = true) := by
    intro L0 os L hs
    induction hs with
    | nil L => intro h; exact ⟨h, fun i => by simp [contents]⟩
    | cons h1 _ ih =>
      intro hnd
      rename_i L1 L2 L3 o i f os _
      have key : L2.Nodup ∧ ∀ j, contents ((o, i, f) :: os) j (decide (j ∈ L1)) = contents os j (decide (j ∈ L2)) := by
        cases h1 with
        | new a b _ h0 hn _ _ _ =>
          refine ⟨by rw [List.nodup_middle]; exact List.nodup_cons.mpr ⟨hn, hnd⟩, fun j => ?_⟩
          rw [contents]; congr 1
          rw [Bool.eq_iff_iff]
          simp only [Bool.true_and, List.mem_append, List.mem_cons, Bool.or_eq_true, decide_eq_true_eq, beq_iff_eq]
          constructor
          · rintro ((h | h) | h)
            exacts [Or.inl h, Or.inr (Or.inr h), Or.inr (Or.inl h.symm)]
          · rintro (h | h | h)
            exacts [Or.inl (Or.inl h), Or.inr h.symm, Or.inl (Or.inr h)]
        | old a b v n => exact ⟨hnd, fun j => by rw [contents]; simp⟩
        | before a b pos _ h0 hn =>
          refine ⟨by rw [List.nodup_middle]; exact List.nodup_cons.mpr ⟨hn, hnd⟩, fun j => ?_⟩
          rw [contents]; congr 1
          rw [Bool.eq_iff_iff]
          simp only [List.mem_append, List.mem_cons, Bool.or_eq_true, decide_eq_true_eq, beq_iff_eq]
          constructor
          · rintro ((h | h) | h)
            exacts [Or.inl h, Or.inr (Or.inr h), Or.inr (Or.inl h.symm)]
          · rintro (h | h | h)
            exacts [Or.inl (Or.inl h), Or.inr h.symm, Or.inl (Or.inr h)]
        | last _ _ h0 hn =>
          refine ⟨by rw [List.nodup_append]; exact ⟨hnd, by simp, by intro x hx y hy e; simp only [List.mem_singleton] at hy; subst e; subst hy; exact hn hx⟩, fun j => ?_⟩
          rw [contents]; congr 1
          rw [Bool.eq_iff_iff]
          simp only [List.mem_append, List.mem_singleton, Bool.or_eq_true, decide_eq_true_eq, beq_iff_eq]
          constructor
          · rintro (h | h)
            exacts [Or.inl h, Or.inr h.symm]
          · rintro (h | h)
            exacts [Or.inl h, Or.inr h.symm]
        | erase a b z =>
          rw [List.nodup_middle, List.nodup_cons] at hnd
          refine ⟨hnd.2, fun j => ?_⟩
          rw [contents]; congr 1
          rw [Bool.eq_iff_iff]
          simp only [List.mem_append, List.mem_cons, Bool.and_eq_true, decide_eq_true_eq, bne_iff_ne, ne_eq]
          constructor
          · rintro ⟨h | h | h, hz⟩
            exacts [Or.inl h, absurd h.symm hz, Or.inr h]
          · intro h
            refine ⟨by rcases h with h | h; exacts [Or.inl h, Or.inr (Or.inr h)], ?_⟩
            rintro rfl
            exact hnd.1 (List.mem_append.mpr h)
      obtain ⟨r1, r2⟩ := ih key.1
      exact ⟨r1, fun j => by rw [key.2]; exact r2 j⟩
  obtain ⟨h1, h2⟩ := gen h List.nodup_nil
  exact ⟨h1, fun i => by rw [h2]; simp⟩

/-- The operations that leave the order to the comparator. -/
def Op.ordered : Op → Prop
  | .before _ _ => False
  | _ => True

/-- **C34** (comparator order): with a transitive comparator, inserting and erasing keep the elements in its order; inserting is refused exactly when some
element is neither before nor after the new one; and each insertion of an element not in the set and each erasure of one that is can be done. -/
theorem C34_sorted {cmp : Nat → Nat → Bool} (ht : ∀ a b c, cmp a b = true → cmp b c = true → cmp a c = true) {L : List Nat} (h : L.Pairwise fun a b => cmp a b = true) :
    (∀ {o L' i f}, Spec cmp L o L' i f → o.ordered → L'.Pairwise fun a b => cmp a b = true) ∧
    (∀ n, n ≠ 0 → n ∉ L → ∃ L' i f, Spec cmp L (.insert n) L' i f ∧ (f = false ↔ ∃ v ∈ L, cmp v n = false ∧ cmp n v = false) ∧
      (f = false → L' = L ∧ i ∈ L ∧ cmp i n = false ∧ cmp n i = false)) ∧
    (∀ z ∈ L, ∃ L' i, Spec cmp L (.erase z) L' i false) := by
  refine ⟨?_, ?_, ?_⟩
  · intro o L' i f hs ho
    cases hs with
    | new a b n h0 hn ha hb hl =>
      rw [List.pairwise_append] at h ⊢
      obtain ⟨p1, p2, p3⟩ := h
      refine ⟨p1, List.pairwise_cons.mpr ⟨fun x hx => hb x hx, p2⟩, ?_⟩
      intro x hx y hy
      have hxn : cmp x i = true := by
        rcases List.eq_nil_or_concat a with rfl | ⟨l, v, rfl⟩
        · simp at hx
        · rw [List.concat_eq_append] at *
          have hv := hl v (by simp)
          rcases List.mem_append.mp hx with hx | hx
          · exact ht _ _ _ ((List.pairwise_append.mp p1).2.2 x hx v (by simp)) hv
          · simp only [List.mem_singleton] at hx; rw [hx]; exact hv
      rcases List.mem_cons.mp hy with rfl | hy
      · exact hxn
      · exact p3 x hx y hy
    | old a b v n => exact h
    | before => exact ho.elim
    | last => exact ho.elim
    | erase a b z =>
      refine h.sublist ?_
      exact List.Sublist.append (List.Sublist.refl a) (List.sublist_cons_self z b)
  · intro n h0 hn
    obtain ⟨a, b, e, ha, hb⟩ : ∃ a b, L = a ++ b ∧ (∀ x ∈ a, cmp n x = false) ∧ ∀ x ∈ b, cmp n x = true := by
      clear hn
      induction L with
      | nil => exact ⟨[], [], rfl, by simp, by simp⟩
      | cons x L ih =>
        rw [List.pairwise_cons] at h
        by_cases hx : cmp n x = true
        · refine ⟨[], x :: L, rfl, by simp, ?_⟩
          intro y hy
          rcases List.mem_cons.mp hy with rfl | hy
          · exact hx
          · exact ht _ _ _ hx (h.1 y hy)
        · obtain ⟨a, b, rfl, ha, hb⟩ := ih h.2
          refine ⟨x :: a, b, rfl, ?_, hb⟩
          intro y hy
          rcases List.mem_cons.mp hy with rfl | hy
          · simpa using hx
          · exact ha y hy
    subst e
    by_cases hv : ∀ v, a.getLast? = some v → cmp v n = true
    · refine ⟨_, n, true, .new a b n h0 hn ha hb hv, ?_, by simp⟩
      simp only [Bool.true_eq_false, false_iff]
      rintro ⟨u, hu, q1, q2⟩
      rcases List.mem_append.mp hu with hu | hu
      · rcases List.eq_nil_or_concat a with rfl | ⟨l, v, rfl⟩
        · simp at hu
        · rw [List.concat_eq_append] at *
          have hv := hv v (by simp)
          have : cmp u n = true := by
            rcases List.mem_append.mp hu with hu | hu
            · exact ht _ _ _ ((List.pairwise_append.mp (List.pairwise_append.mp h).1).2.2 u hu v (by simp)) hv
            · simp only [List.mem_singleton] at hu; rw [hu]; exact hv
          rw [this] at q1; cases q1
      · rw [hb u hu] at q2; cases q2
    · rw [not_forall] at hv
      obtain ⟨v, hv⟩ := hv
      rw [Classical.not_imp] at hv
      obtain ⟨hl, hc⟩ := hv
      have hc : cmp v n = false := by simpa using hc
      obtain ⟨l, rfl⟩ : ∃ l, a = l ++ [v] := List.getLast?_eq_some_iff.mp hl
      rw [show l ++ [v] ++ b = l ++ v :: b by simp] at *
      have hvn := ha v (by simp)
      exact ⟨_, v, false, .old l b v n h0 hn (fun x hx => ha x (by simp [hx])) hvn hb hc,
        ⟨fun _ => ⟨v, by simp, hc, hvn⟩, fun _ => rfl⟩, fun _ => ⟨rfl, by simp, hc, hvn⟩⟩
  · intro z hz
    obtain ⟨a, b, rfl⟩ := List.append_of_mem hz
    exact ⟨_, _, .erase a b z⟩

/-- **C34** (insertion and erasure only): with a transitive comparator every history of insertions and erasures leaves the elements in the order of the comparator. -/
theorem C34_sorted_history {cmp : Nat → Nat → Bool} (ht : ∀ a b c, cmp a b = true → cmp b c = true → cmp a c = true) {os : List (Op × Nat × Bool)} {L : List Nat}
    (h : Specs cmp [] os L) (ho : ∀ o ∈ os, o.1.ordered) : L.Pairwise fun a b => cmp a b = true := by
  have gen : ∀ {L0 os L}, Specs cmp L0 os L → (∀ o ∈ os, o.1.ordered) → L0.Pairwise (fun a b => cmp a b = true) → L.Pairwise fun a b => cmp a b = true := by
    intro L0 os L hs
    induction hs with
    | nil L => intro _ h; exact h
    | cons h1 _ ih =>
      intro ho hp
      exact ih (fun o hm => ho o (List.mem_cons_of_mem _ hm)) ((C34_sorted ht hp).1 h1 (ho _ (List.mem_cons_self ..)))
  exact gen h ho List.Pairwise.nil

/-! A concrete history: nine elements inserted out of order, some erased (with zero, one and two children, with recolouring and rotations), one
inserted before another, one refused. -/
def exMem : Mem := ⟨fun _ => none, fun _ => none, fun _ => none, fun _ => false⟩

def exOps : List Op := [.insert 14, .insert 4, .insert 8, .insert 20, .insert 2, .insert 16, .insert 12, .insert 6, .insert 18, .insert 5, .erase 8, .before 16 3, .before 0 1,
  .erase 14, .erase 2, .erase 4, .erase 3]

/-- Elements are compared by half their number. -/
def exCmp (a b : Nat) : Bool := a / 2 < b / 2

example : ((exMem.initHeader).run exCmp 10 exOps).map (fun r => (r.2.map (·.2), r.1.walk 10 10 (r.1.left 0))) =
    some ([(14, true), (4, true), (8, true), (20, true), (2, true), (16, true), (12, true), (6, true), (18, true), (4, false), (12, false), (3, true), (1, true),
      (3, false), (4, false), (6, false), (16, false)], some [6, 12, 16, 18, 20, 1]) := by decide +kernel

/-- The hypotheses of the theorems are met by this history up to the first erasure. -/
example : ∃ L os, Specs exCmp [] os L ∧ os.map (·.1) = [.insert 14, .insert 4, .insert 5, .erase 4, .before 14 3] ∧ L = [3, 14] := by
  refine ⟨_, _, .cons (.new [] [] 14 (by decide) (by decide) (by simp) (by simp) (by simp)) (.cons (.new [] [14] 4 (by decide) (by decide) (by simp) (by decide) (by simp))
    (.cons (.old [] [14] 4 5 (by decide) (by decide) (by simp) (by decide) (by decide) (by decide)) (.cons (.erase [] [14] 4)
    (.cons (.before [] [] 14 3 (by decide) (by decide)) (.nil _))))), rfl, rfl⟩

end PolyOps.RbTree
