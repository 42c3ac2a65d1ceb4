import Verif.Lemmas.RbIns

/-! Search, linking of a new element and iteration in the red-black tree. -/
namespace PolyOps.RbTree

def T.height : T → Nat
  | .leaf => 0
  | .node _ l _ r => max l.height r.height + 1

theorem height_mk (d r : Bool) (a : T) (i : Nat) (b : T) : (T.mk d r a i b).height = max a.height b.height + 1 := by
  cases d
  · simp [T.mk, T.height, Nat.max_comm]
  · rfl

theorem height_plug (c : Ctx) : ∀ t, c.length + t.height ≤ (plug t c).height := by
  induction c with
  | nil => intro t; simp [plug]
  | cons f c ih =>
    intro t
    have := ih (T.mk f.d f.red t f.i f.sib)
    rw [height_mk] at this
    rw [plug, List.length_cons]
    have := Nat.le_max_left t.height f.sib.height
    omega

theorem bal_height : ∀ (t : T) (n : Nat), Bal t n → t.height ≤ 2 * n + (if t.isRed then 1 else 0) := by
  intro t
  induction t with
  | leaf => intro n h; simp [T.height]
  | node r a i b iha ihb =>
    intro n h
    cases r
    · obtain ⟨k, rfl, h1, h2⟩ := (bal_black true a b i n).mp h
      have e1 := iha k h1
      have e2 := ihb k h2
      have : ∀ c : Bool, (if c = true then 1 else 0) ≤ 1 := by decide
      have := this a.isRed
      have := ‹∀ c : Bool, (if c = true then 1 else 0) ≤ 1› b.isRed
      simp only [T.height, T.isRed, Bool.false_eq_true, if_false]
      omega
    · obtain ⟨h1, h2, h3, h4⟩ := (bal_red true a b i n).mp h
      have e1 := iha n h1
      have e2 := ihb n h2
      rw [h3] at e1; rw [h4] at e2
      simp only [Bool.false_eq_true, if_false] at e1 e2
      simp only [T.height, T.isRed, if_true]
      omega

theorem bal_size : ∀ (t : T) (n : Nat), Bal t n → 2 ^ n ≤ t.nodes.length + 1 := by
  intro t
  induction t with
  | leaf => intro n h; rw [show n = 0 from h]; simp [T.nodes]
  | node r a i b iha ihb =>
    intro n h
    cases r
    · obtain ⟨k, rfl, h1, h2⟩ := (bal_black true a b i n).mp h
      have e1 := iha k h1
      have e2 := ihb k h2
      simp only [T.nodes, List.length_append, List.length_cons]
      rw [Nat.pow_succ]; omega
    · obtain ⟨h1, h2, h3, h4⟩ := (bal_red true a b i n).mp h
      have e1 := iha n h1
      simp only [T.nodes, List.length_append, List.length_cons]
      omega

theorem bal_log {t : T} {n : Nat} (h : Bal t n) (hr : t.isRed = false) : t.height ≤ 2 * Nat.log2 (t.nodes.length + 1) := by
  have h1 := bal_height t n h
  rw [hr] at h1
  have h2 := bal_size t n h
  have h3 : n ≤ Nat.log2 (t.nodes.length + 1) := (Nat.le_log2 (by omega)).mpr h2
  simp only [Bool.false_eq_true, if_false] at h1
  omega

/-- The side from which the path comes. -/
def lastD : Ctx → Bool
  | [] => true
  | f :: _ => f.d

/-- The search with any comparison: it ends at a free place, whose neighbours were compared. -/
theorem search_any {m : Mem} {cmp : Nat → Nat → Bool} {key : Nat} (t : T) : ∀ {k : Nat} {o : Option Nat} {c : Ctx}, t.height ≤ k → Foc m o t c →
    (∀ x, (before c).getLast? = some x → cmp key x = false) → (∀ x, (after c).head? = some x → cmp key x = true) →
    ∃ c', m.search cmp key k o (par c) (lastD c) (before c).getLast? = some (par c', lastD c', (before c').getLast?) ∧ Foc m none .leaf c' ∧
      plug .leaf c' = plug t c ∧ (∀ x, (before c').getLast? = some x → cmp key x = false) ∧ (∀ x, (after c').head? = some x → cmp key x = true) := by
  induction t with
  | leaf =>
    intro k o c hk h hb ha
    have e : o = none := h.rep
    subst e
    refine ⟨c, ?_, h, rfl, hb, ha⟩
    cases k <;> rfl
  | node r a i b iha ihb =>
    intro k o c hk h hb ha
    obtain ⟨k, rfl⟩ : ∃ j, k = j + 1 := ⟨k - 1, by simp only [T.height] at hk; omega⟩
    have hk' : a.height ≤ k ∧ b.height ≤ k := by simp only [T.height] at hk; omega
    have ho : o = some i := h.rep.1
    subst ho
    rw [Mem.search]
    have hfd : Foc m (m.left i) a (⟨true, r, i, b⟩ :: c) := Foc.down (d := true) h
    have hfr : Foc m (m.right i) b (⟨false, r, i, a⟩ :: c) := Foc.down' (d := true) h
    cases hc : cmp key i with
    | true =>
      rw [if_pos rfl]
      have e1 : before (⟨true, r, i, b⟩ :: c) = before c := by simp [before]
      have e2 : after (⟨true, r, i, b⟩ :: c) = i :: b.nodes ++ after c := by simp [after]
      obtain ⟨c', q1, q2, q3, q4, q5⟩ := iha hk'.1 hfd (by rw [e1]; exact hb) (by
        rw [e2]
        intro x hx
        simp only [List.cons_append, List.head?_cons, Option.some.injEq] at hx
        rw [← hx]; exact hc)
      rw [e1] at q1
      exact ⟨c', q1, q2, q3, q4, q5⟩
    | false =>
      rw [if_neg (by simp)]
      have e1 : before (⟨false, r, i, a⟩ :: c) = before c ++ (a.nodes ++ [i]) := by simp [before]
      have e2 : after (⟨false, r, i, a⟩ :: c) = after c := by simp [after]
      have e3 : (before (⟨false, r, i, a⟩ :: c)).getLast? = some i := by rw [e1, ← List.append_assoc]; simp
      obtain ⟨c', q1, q2, q3, q4, q5⟩ := ihb hk'.2 hfr (by
        rw [e3]
        intro x hx
        rw [← Option.some.inj hx]; exact hc) (by rw [e2]; exact ha)
      rw [e3] at q1
      exact ⟨c', q1, q2, q3, q4, q5⟩

theorem search_spec {m : Mem} {cmp : Nat → Nat → Bool} {key : Nat} (t : T) : ∀ {k : Nat} {o : Option Nat} {c : Ctx}, t.height ≤ k → Foc m o t c →
    (plug t c).nodes.Pairwise (fun x y => cmp key x = true → cmp key y = true) →
    (∀ x ∈ before c, cmp key x = false) → (∀ x ∈ after c, cmp key x = true) →
    ∃ c', m.search cmp key k o (par c) (lastD c) (before c).getLast? = some (par c', lastD c', (before c').getLast?) ∧ Foc m none .leaf c' ∧
      plug .leaf c' = plug t c ∧ (∀ x ∈ before c', cmp key x = false) ∧ (∀ x ∈ after c', cmp key x = true) := by
  induction t with
  | leaf =>
    intro k o c hk h hm hb ha
    have e : o = none := h.rep
    subst e
    refine ⟨c, ?_, h, rfl, hb, ha⟩
    cases k <;> rfl
  | node r a i b iha ihb =>
    intro k o c hk h hm hb ha
    obtain ⟨k, rfl⟩ : ∃ j, k = j + 1 := ⟨k - 1, by simp only [T.height] at hk; omega⟩
    have hk' : a.height ≤ k ∧ b.height ≤ k := by simp only [T.height] at hk; omega
    have ho : o = some i := h.rep.1
    subst ho
    rw [Mem.search]
    have hm' := hm
    rw [plug_nodes] at hm'
    simp only [T.nodes] at hm'
    have hfd : Foc m (m.left i) a (⟨true, r, i, b⟩ :: c) := Foc.down (d := true) h
    have hfr : Foc m (m.right i) b (⟨false, r, i, a⟩ :: c) := Foc.down' (d := true) h
    cases hc : cmp key i with
    | true =>
      rw [if_pos rfl]
      have e1 : before (⟨true, r, i, b⟩ :: c) = before c := by simp [before]
      have e2 : after (⟨true, r, i, b⟩ :: c) = i :: b.nodes ++ after c := by simp [after]
      obtain ⟨c', q1, q2, q3, q4, q5⟩ := iha hk'.1 hfd hm (by rw [e1]; exact hb) (by
        rw [e2]
        intro x hx
        rcases List.mem_append.mp hx with hx | hx
        · rcases List.mem_cons.mp hx with rfl | hx
          · exact hc
          · have := (List.pairwise_append.mp (List.pairwise_append.mp hm').1).2.1
            have := (List.pairwise_append.mp this).2.1
            exact (List.pairwise_cons.mp this).1 x hx hc
        · exact ha x hx)
      rw [e1] at q1
      exact ⟨c', q1, q2, q3, q4, q5⟩
    | false =>
      rw [if_neg (by simp)]
      have e1 : before (⟨false, r, i, a⟩ :: c) = before c ++ (a.nodes ++ [i]) := by simp [before]
      have e2 : after (⟨false, r, i, a⟩ :: c) = after c := by simp [after]
      obtain ⟨c', q1, q2, q3, q4, q5⟩ := ihb hk'.2 hfr hm (by
        rw [e1]
        intro x hx
        rcases List.mem_append.mp hx with hx | hx
        · exact hb x hx
        · rcases List.mem_append.mp hx with hx | hx
          · have := (List.pairwise_append.mp (List.pairwise_append.mp hm').1).2.1
            have := (List.pairwise_append.mp this).2.2 x hx i (by simp)
            cases hx : cmp key x with
            | false => rfl
            | true => rw [this hx] at hc; cases hc
          · simp only [List.mem_singleton] at hx; rw [hx]; exact hc) (by rw [e2]; exact ha)
      rw [e1] at q1
      rw [show (before c ++ (a.nodes ++ [i])).getLast? = some i by simp] at q1
      exact ⟨c', q1, q2, q3, q4, q5⟩

/-- The header knows the first and the last element. -/
structure Ends (m : Mem) (L : List Nat) : Prop where
  first : m.left 0 = some (L.head?.getD 0)
  last : m.right 0 = some (L.getLast?.getD 0)
  red : m.red 0 = true

/-- The memory holds a red-black tree with the elements `L` in this order. -/
structure Ok (m : Mem) (L : List Nat) : Prop where
  tree : ∃ t n, Foc m (m.parent 0) t [] ∧ t.nodes = L ∧ Bal t n ∧ t.isRed = false
  ends : Ends m L

theorem commit_ne (m : Mem) (n p : Nat) (ll : Bool) (hp : p ≠ 0) : m.commit n p ll =
    ((((if ll = true then (if m.left 0 = some p then (m.setLeft p (some n)).setLeft 0 (some n) else m.setLeft p (some n))
      else (if m.right 0 = some p then (m.setRight p (some n)).setRight 0 (some n) else m.setRight p (some n))).setParent n (some p)).setRight n none).setLeft n none) := by
  unfold Mem.commit
  simp only
  rw [if_neg hp]
  have e1 : (m.setLeft p (some n)).left 0 = m.left 0 := by simp [Mem.setLeft, upd, hp.symm]
  have e2 : (m.setRight p (some n)).right 0 = m.right 0 := by simp [Mem.setRight, upd, hp.symm]
  rw [e1, e2]

theorem commit_spec {m : Mem} {c : Ctx} {n : Nat} (h : Foc m none .leaf c) (he : Ends m (plug .leaf c).nodes)
    (hn : n ∉ (plug .leaf c).nodes) (h0 : n ≠ 0) (ll : Bool) (hl : c ≠ [] → ll = lastD c) :
    Foc ((m.commit n (par c) ll).setRed n true) (some n) (.node true .leaf n .leaf) c ∧
    Ends ((m.commit n (par c) ll).setRed n true) (plug (.node true .leaf n .leaf) c).nodes := by
  obtain ⟨n1, n2, n3⟩ := nd_plug h.nd
  have hnc : n ∉ cnodes c := fun h => hn (mem_plug.mpr (Or.inr h))
  have zc : 0 ∉ cnodes c := fun hh => h.nz (mem_plug.mpr (Or.inr hh))
  have ndn : (plug (T.node true .leaf n .leaf) c).nodes.Nodup := by
    rw [plug_nodes]
    have := h.nd
    rw [plug_nodes] at this
    simp only [T.nodes, List.append_nil, List.nil_append, List.append_assoc, List.singleton_append] at this ⊢
    rw [List.nodup_middle, List.nodup_cons]
    exact ⟨hnc, this⟩
  have nzn : 0 ∉ (plug (T.node true .leaf n .leaf) c).nodes := by
    rw [mem_plug]
    rintro (hh | hh)
    · simp only [T.nodes, List.nil_append, List.mem_singleton] at hh; exact h0 hh.symm
    · exact zc hh
  -- the fields after the change
  set m' := (m.commit n (par c) ll).setRed n true with hm'
  have hp0 : c ≠ [] → par c ≠ 0 := by
    intro hc
    cases c with
    | nil => exact absurd rfl hc
    | cons f c => exact fun e => zc (mem_cnodes_cons.mpr (Or.inl e.symm))
  have hpar : ∀ k, m'.parent k = if k = n then some (par c) else if c = [] ∧ k = 0 then some n else m.parent k := by
    intro k
    by_cases hc : c = []
    · subst hc
      simp [hm', Mem.commit, par, Mem.setRed, Mem.setLeft, Mem.setRight, Mem.setParent, upd]
    · have hp := hp0 hc
      rw [hm', commit_ne _ _ _ _ hp]
      simp only [hc, false_and, if_false]
      split <;> split <;> simp only [Mem.setRed, Mem.setLeft, Mem.setRight, Mem.setParent, upd]
  have hred : ∀ k, m'.red k = if k = n then true else m.red k := by
    intro k
    rw [hm']
    unfold Mem.commit
    simp only
    split
    · rfl
    · split
      · split <;> rfl
      · split <;> rfl
  have hch : ∀ d k, k ≠ 0 → m'.child d k = if k = n then none else if c ≠ [] ∧ d = ll ∧ k = par c then some n else m.child d k := by
    intro d k hk
    by_cases hc : c = []
    · subst hc
      cases d <;> simp [hm', Mem.commit, par, Mem.child, Mem.setRed, Mem.setLeft, Mem.setRight, Mem.setParent, upd, hk]
    · have hp := hp0 hc
      rw [hm', commit_ne _ _ _ _ hp]
      cases ll <;> simp only [Bool.false_eq_true, if_false, if_true] <;> split <;> cases d <;>
        simp [Mem.child, Mem.setRed, Mem.setLeft, Mem.setRight, Mem.setParent, upd, hk, hc]
  have hl0 : m'.left 0 = if c = [] then some n else if ll = true ∧ m.left 0 = some (par c) then some n else m.left 0 := by
    by_cases hc : c = []
    · subst hc
      simp [hm', Mem.commit, par, Mem.setRed, Mem.setLeft, Mem.setRight, Mem.setParent, upd, h0.symm]
    · have hp := hp0 hc
      rw [hm', commit_ne _ _ _ _ hp, if_neg hc]
      cases ll <;> simp only [Bool.false_eq_true, if_false, if_true, false_and, true_and] <;> split <;>
        simp [Mem.setRed, Mem.setLeft, Mem.setRight, Mem.setParent, upd, h0.symm, hp.symm]
  have hr0 : m'.right 0 = if c = [] then some n else if ll = false ∧ m.right 0 = some (par c) then some n else m.right 0 := by
    by_cases hc : c = []
    · subst hc
      simp [hm', Mem.commit, par, Mem.setRed, Mem.setLeft, Mem.setRight, Mem.setParent, upd, h0.symm]
    · have hp := hp0 hc
      rw [hm', commit_ne _ _ _ _ hp, if_neg hc]
      cases ll <;> simp only [Bool.false_eq_true, if_false, if_true, false_and, true_and, reduceCtorEq] <;> split <;>
        simp [Mem.setRed, Mem.setLeft, Mem.setRight, Mem.setParent, upd, h0.symm, hp.symm]
  clear_value m'
  have hl' : ∀ k, k ≠ 0 → k = n → m'.left k = none ∧ m'.right k = none := by
    intro k hk hkn
    have a := hch true k hk
    have b := hch false k hk
    rw [if_pos hkn] at a b
    exact ⟨a, b⟩
  refine ⟨⟨⟨rfl, ?_, ?_, ?_, ?_⟩, ?_, ndn, nzn⟩, ?_, ?_, ?_⟩
  · rw [hpar, if_pos rfl]
  · rw [hred, if_pos rfl]
  · exact (hl' n h0 rfl).1
  · exact (hl' n h0 rfl).2
  · have same : ∀ k ∈ cnodes c, k ≠ par c → Same m m' k := by
      intro k hk hp
      have k0 : k ≠ 0 := fun e => zc (e ▸ hk)
      have kn : k ≠ n := fun e => hnc (e ▸ hk)
      refine ⟨(agree_iff ..).mpr ⟨fun d => ?_, ?_⟩, ?_⟩
      · rw [hch d k k0, if_neg kn, if_neg (by tauto)]
      · rw [hred, if_neg kn]
      · rw [hpar, if_neg kn, if_neg (by tauto)]
    refine h.repc.hole n2 ?_ ?_
    · rintro rfl
      rw [hpar, if_neg h0.symm, if_pos ⟨rfl, rfl⟩]
    · rintro f c' rfl
      obtain ⟨m1, m2, m3, m4, m5⟩ := nd_cons n2
      have f0 : f.i ≠ 0 := fun e => zc (mem_cnodes_cons.mpr (Or.inl e.symm))
      have fn : f.i ≠ n := fun e => hnc (mem_cnodes_cons.mpr (Or.inl e.symm))
      have hll : ll = f.d := hl (by simp)
      refine ⟨?_, ?_, ?_, ?_, ?_, ?_, ?_⟩
      · rw [hch f.d f.i f0, if_neg fn, if_pos ⟨by simp, hll.symm, rfl⟩]
      · rw [hch _ f.i f0, if_neg fn, if_neg]
        rw [hll]; cases f.d <;> simp
      · rw [hred, if_neg fn]
      · rw [hpar, if_neg fn, if_neg (by simp)]
      · rw [hpar, if_neg h0.symm, if_neg (by simp)]
      · intro k hk
        exact same k (mem_cnodes_cons.mpr (by tauto)) (fun e => m1 (by rw [show par (f :: c') = f.i from rfl] at e; exact e ▸ hk))
      · intro k hk
        exact same k (mem_cnodes_cons.mpr (by tauto)) (fun e => m2 (by rw [show par (f :: c') = f.i from rfl] at e; exact e ▸ hk))
  · -- first
    rw [hl0, plug_nodes]
    cases c with
    | nil => simp [before, after, T.nodes]
    | cons f c =>
      have hll : ll = f.d := hl (by simp)
      have hf := he.first
      rw [plug_nodes] at hf
      simp only [T.nodes, List.append_nil, List.nil_append] at hf ⊢
      rw [if_neg (by simp), hll]
      cases hd : f.d with
      | false =>
        rw [if_neg (by simp), hf]
        have : before (f :: c) ≠ [] := by rw [before, hd]; simp
        obtain ⟨x, l, e⟩ := List.exists_cons_of_ne_nil this
        rw [e]; rfl
      | true =>
        have e1 : after (f :: c) = f.i :: (f.sib.nodes ++ after c) := by rw [after, hd]; simp
        cases hb : before (f :: c) with
        | nil =>
          rw [hb, e1] at hf
          rw [if_pos ⟨rfl, by rw [hf]; rfl⟩]; rfl
        | cons x l =>
          rw [hb] at hf
          rw [if_neg, hf]
          · rfl
          · rintro ⟨-, e⟩
            rw [hf] at e
            have e2 : x = f.i := by simpa [par] using e
            have := h.nd
            rw [plug_nodes, hb, e1, e2] at this
            simp [T.nodes] at this
  · -- last
    rw [hr0, plug_nodes]
    cases c with
    | nil => simp [before, after, T.nodes]
    | cons f c =>
      have hll : ll = f.d := hl (by simp)
      have hf := he.last
      rw [plug_nodes] at hf
      simp only [T.nodes, List.append_nil, List.nil_append, List.append_assoc, List.singleton_append] at hf ⊢
      rw [if_neg (by simp), hll]
      cases hd : f.d with
      | true =>
        rw [if_neg (by simp), hf]
        have : after (f :: c) ≠ [] := by rw [after, hd]; simp
        obtain ⟨x, l, e⟩ := List.exists_cons_of_ne_nil this
        rw [e]
        simp [List.getLast?_append]
      | false =>
        have e1 : before (f :: c) = (before c ++ f.sib.nodes) ++ [f.i] := by rw [before, hd]; simp
        rcases List.eq_nil_or_concat (after (f :: c)) with hb | ⟨l, x, hb⟩
        · rw [hb, e1] at hf
          rw [hb, if_pos ⟨rfl, by rw [hf]; simp [par]⟩]; simp
        · rw [List.concat_eq_append] at hb
          rw [hb] at hf
          rw [hb, if_neg, hf]
          · have e3 : before (f :: c) ++ n :: (l ++ [x]) = (before (f :: c) ++ n :: l) ++ [x] := by simp
            rw [e3, ← List.append_assoc, List.getLast?_concat, List.getLast?_concat]
          · rintro ⟨-, e⟩
            rw [hf] at e
            have e2 : x = f.i := by simpa [par, List.getLast?_append] using e
            have := h.nd
            rw [plug_nodes, hb, e1, e2] at this
            exact (List.nodup_append.mp this).2.2 f.i (by simp) f.i (by simp) rfl
  · rw [hred, if_neg h0.symm, he.red]

theorem balC_of_bal (c : Ctx) : ∀ (t : T) (n : Nat), Bal (plug t c) n → ∃ k, Bal t k ∧ BalC c k ∧ (t.isRed = true → headRed c = false) := by
  induction c with
  | nil => intro t n h; exact ⟨n, h, trivial, fun _ => rfl⟩
  | cons f c ih =>
    intro t n h
    obtain ⟨k, h1, h2, h3⟩ := ih _ n h
    obtain ⟨d, r, i, s⟩ := f
    cases r with
    | true =>
      obtain ⟨b1, b2, b3, b4⟩ := (bal_red ..).mp h1
      refine ⟨k, b1, ⟨b2, fun _ => ⟨b4, h3 (isRed_mk ..)⟩, h2⟩, ?_⟩
      rw [b3]; simp
    | false =>
      obtain ⟨j, rfl, b1, b2⟩ := (bal_black ..).mp h1
      exact ⟨j, b1, ⟨b2, by simp, h2⟩, fun _ => rfl⟩

/-- Linking a new element at a free place and rebalancing. -/
theorem link_spec {m : Mem} {c : Ctx} {n k : Nat} (h : Foc m none .leaf c) (he : Ends m (plug .leaf c).nodes)
    (hb : ∃ j, Bal (plug .leaf c) j) (hn : n ∉ (plug .leaf c).nodes) (h0 : n ≠ 0) (ll : Bool) (hl : c ≠ [] → ll = lastD c) (hk : c.length < k) :
    ∃ m', (m.commit n (par c) ll).rebalanceIns k n = some m' ∧ Ok m' (before c ++ n :: after c) := by
  obtain ⟨h1, h2⟩ := commit_spec h he hn h0 ll hl
  obtain ⟨j, hj⟩ := hb
  obtain ⟨i, b1, b2, -⟩ := balC_of_bal c _ j hj
  rw [show i = 0 from b1] at b2
  unfold Mem.rebalanceIns
  obtain ⟨m', t, q1, q2, q3, q4, q5, q6⟩ := insFix_spec k hk h1 (show Bal .leaf 0 from rfl) (show Bal .leaf 0 from rfl) rfl rfl b2
  rw [q1, Option.bind_some]
  obtain ⟨r, x, a, y, e⟩ := t.exists_mk true q4
  have ho := q2
  rw [e] at ho
  rw [ho.link_mk, Option.map_some]
  obtain ⟨s1, s2⟩ := ho.setRed false
  have hn' : t.nodes = before c ++ n :: after c := by rw [q5, plug_nodes]; simp [T.nodes]
  refine ⟨_, rfl, ⟨T.mk true false x a y, ?_⟩, ?_⟩
  · have hb : ∃ n, Bal (T.mk true false x a y) n := by
      rcases q3 with q3 | ⟨r', x', a', y', n', q3, q7, q8⟩
      · exact absurd q3 q4
      · rw [e] at q3
        have : T.node r x a y = .node r' x' a' y' := q3
        cases this
        exact ⟨n' + 1, (bal_black ..).mpr ⟨n', rfl, q7, q8⟩⟩
    obtain ⟨n', hb⟩ := hb
    refine ⟨n', ?_, ?_, hb, isRed_mk ..⟩
    · have := s1.repc
      rw [show (m'.setRed a false).parent 0 = some a from this]
      exact s1
    · rw [← hn', e]; exact mk_nodes_red ..
  · have hs := q6.trans s2
    refine ⟨?_, ?_, ?_⟩
    · rw [hs.1, h2.first, ← q5, hn']
    · rw [hs.2.1, h2.last, ← q5, hn']
    · rw [hs.2.2, h2.red]

/-! ### Iteration -/

theorem minimum_spec {m : Mem} (t : T) : ∀ {k j : Nat} {p : Nat}, Rep m (some j) t p → t.height ≤ k → ∃ x, m.minimum k j = some x ∧ t.nodes.head? = some x := by
  induction t with
  | leaf => intro k j p h _; cases h
  | node r a i b iha ihb =>
    intro k j p h hk
    obtain ⟨h1, h2, h3, h4, h5⟩ := h
    cases h1
    obtain ⟨k, rfl⟩ : ∃ l, k = l + 1 := ⟨k - 1, by simp only [T.height] at hk; omega⟩
    rw [Mem.minimum]
    cases a with
    | leaf =>
      rw [show m.left i = none from h4]
      exact ⟨i, rfl, rfl⟩
    | node ra aa ai ab =>
      have e := h4.1
      rw [e] at h4 ⊢
      obtain ⟨x, q1, q2⟩ := iha (k := k) h4 (by simp only [T.height] at hk ⊢; omega)
      refine ⟨x, q1, ?_⟩
      rw [T.nodes, List.head?_append, q2]; rfl

theorem maximum_spec {m : Mem} (t : T) : ∀ {k j : Nat} {p : Nat}, Rep m (some j) t p → t.height ≤ k → ∃ x, m.maximum k j = some x ∧ t.nodes.getLast? = some x := by
  induction t with
  | leaf => intro k j p h _; cases h
  | node r a i b iha ihb =>
    intro k j p h hk
    obtain ⟨h1, h2, h3, h4, h5⟩ := h
    cases h1
    obtain ⟨k, rfl⟩ : ∃ l, k = l + 1 := ⟨k - 1, by simp only [T.height] at hk; omega⟩
    rw [Mem.maximum]
    cases b with
    | leaf =>
      rw [show m.right i = none from h5]
      exact ⟨i, rfl, by simp [T.nodes]⟩
    | node ra aa ai ab =>
      have e := h5.1
      rw [e] at h5 ⊢
      obtain ⟨x, q1, q2⟩ := ihb (k := k) h5 (by simp only [T.height] at hk ⊢; omega)
      refine ⟨x, q1, ?_⟩
      rw [T.nodes]
      rw [show a.nodes ++ i :: (T.node ra aa ai ab).nodes = (a.nodes ++ [i]) ++ (T.node ra aa ai ab).nodes by simp, List.getLast?_append, q2]; rfl

/-- The link down on the other side does not lead to this subtree. -/
theorem Foc.other {m : Mem} {n : Nat} {t : T} {f : Fr} {c : Ctx} (h : Foc m (some n) t (f :: c)) : m.child (!f.d) f.i ≠ some n := by
  obtain ⟨n1, n2, n3⟩ := nd_plug h.nd
  intro e
  have := (h.repc.2.2.2.1.link e).1
  exact n3 n (h.rep.link rfl).1 (mem_cnodes_cons.mpr (Or.inr (Or.inl this)))

/-- The element of the path is not below this subtree. -/
theorem Foc.notBelow {m : Mem} {o : Option Nat} {r : Bool} {a b : T} {n : Nat} {c : Ctx} (h : Foc m o (.node r a n b) c) (d : Bool) :
    m.child d n ≠ some (par c) := by
  obtain ⟨n1, n2, n3⟩ := nd_plug h.nd
  intro e
  have hm : par c ∈ (T.node r a n b).nodes := by
    have h' : Foc m o (T.mk true r a n b) c := h
    cases d
    · have := (h'.down'.rep.link e).1
      simp [T.nodes, this]
    · have := (h'.down.rep.link e).1
      simp [T.nodes, this]
  cases c with
  | nil => exact h.nz (mem_plug.mpr (Or.inl hm))
  | cons f c => exact n3 _ hm (mem_cnodes_cons.mpr (Or.inl rfl))

theorem climbR_spec {m : Mem} (c : Ctx) : ∀ {k n : Nat} {r : Bool} {a b : T}, Foc m (some n) (.node r a n b) c → c.length < k →
    (∃ n' p', m.climbR k n (par c) = some (n', p') ∧ (if m.right n' ≠ some p' then p' else n') = (after c).head?.getD 0) ∨
    (after c = [] ∧ ∃ root, m.parent 0 = some root ∧ m.right root ≠ some 0 ∧ (c = [] → root = n) ∧ (c ≠ [] → root ∈ cnodes c) ∧ m.climbR k n (par c) = m.climbR (k - c.length) root 0) := by
  induction c with
  | nil =>
    intro k n r a b h hk
    exact Or.inr ⟨rfl, n, h.repc, h.notBelow false, fun _ => rfl, fun h => absurd rfl h, rfl⟩
  | cons f c ih =>
    intro k n r a b h hk
    obtain ⟨k, rfl⟩ : ∃ l, k = l + 1 := ⟨k - 1, by simp only [List.length_cons] at hk; omega⟩
    obtain ⟨d, fr, i, s⟩ := f
    cases d with
    | true =>
      left
      have hne : m.right i ≠ some n := h.other
      refine ⟨n, i, ?_, ?_⟩
      · rw [show par (⟨true, fr, i, s⟩ :: c) = i from rfl, Mem.climbR, if_neg hne]
      · rw [if_pos (show m.right n ≠ some i from h.notBelow false)]; simp [after]
    | false =>
      have he : m.right i = some n := h.repc.1
      have hup := h.up
      have hup' : Foc m (some i) (.node fr s i (.node r a n b)) c := hup
      rw [show par (⟨false, fr, i, s⟩ :: c) = i from rfl, Mem.climbR, if_pos he, hup.parent, Option.bind_some]
      have e2 : after (⟨false, fr, i, s⟩ :: c) = after c := by simp [after]
      rw [e2]
      rcases ih (k := k) hup' (by simp only [List.length_cons] at hk; omega) with h1 | ⟨h1, root, h2, h3, h4, h5, h6⟩
      · exact Or.inl h1
      · right
        refine ⟨h1, root, h2, h3, by simp, ?_, ?_⟩
        · intro _
          rw [mem_cnodes_cons]
          by_cases hc : c = []
          · exact Or.inl (h4 hc)
          · exact Or.inr (Or.inr (h5 hc))
        · rw [h6]; congr 1; simp

theorem Foc.next {m : Mem} {o : Option Nat} {r : Bool} {a b : T} {i : Nat} {c : Ctx} {k : Nat} (h : Foc m o (.node r a i b) c)
    (he : Ends m (plug (.node r a i b) c).nodes) (hk : (plug (.node r a i b) c).height < k) :
    m.next k i = some ((b.nodes ++ after c).head?.getD 0) := by
  have ho := h.rep.1
  subst ho
  have hh := height_plug c (.node r a i b)
  have hb : b.height < (T.node r a i b).height := by simp only [T.height]; omega
  unfold Mem.next
  cases b with
  | node rb ba bi bb =>
    have h5 := h.rep.2.2.2.2
    have e := h5.1
    rw [e] at h5 ⊢
    obtain ⟨x, q1, q2⟩ := minimum_spec (k := k) _ h5 (by omega)
    simp only
    rw [q1, List.head?_append, q2]; rfl
  | leaf =>
    rw [show m.right i = none from h.rep.2.2.2.2]
    simp only
    rw [h.rep.2.1, Option.bind_some]
    rcases climbR_spec c (k := k) h (by simp only [T.height] at hh; omega) with ⟨n', p', q1, q2⟩ | ⟨q1, root, q2, q3, q4, q5, q6⟩
    · rw [q1, Option.map_some]
      simp only
      rw [q2]; rfl
    · rw [q6, q1]
      have hl := he.last
      have el : (plug (T.node r a i .leaf) c).nodes.getLast?.getD 0 = i := by
        rw [plug_nodes, q1]; simp [T.nodes]
      rw [el] at hl
      obtain ⟨j, ej⟩ : ∃ j, k - c.length = j + 2 := ⟨k - c.length - 2, by simp only [T.height] at hh; omega⟩
      rw [ej, Mem.climbR]
      by_cases hc : c = []
      · have := q4 hc
        subst this
        rw [if_pos hl, q2, Option.bind_some, Mem.climbR, if_neg q3]
        simp [hl, T.nodes]
      · have hne : root ≠ i := by
          rintro rfl
          exact (nd_plug h.nd).2.2 root (by simp [T.nodes]) (q5 hc)
        rw [if_neg]
        · rw [Option.map_some]
          simp only
          rw [if_pos q3]; rfl
        · rw [hl]; intro e; cases e; exact hne rfl

theorem isHeader_node {m : Mem} {o : Option Nat} {r : Bool} {a b : T} {i : Nat} {c : Ctx} (h : Foc m o (.node r a i b) c) : m.isHeader i = false := by
  obtain ⟨h1, h2, h3, h4, h5⟩ := h.rep
  obtain ⟨n1, n2, n3⟩ := nd_plug h.nd
  obtain ⟨k1, k2, k3, k4, k5⟩ := nd_mk (d := true) n1
  unfold Mem.isHeader
  rw [h2]
  cases hl : m.left i with
  | none => rfl
  | some l =>
    cases hr : m.right i with
    | none => rfl
    | some x =>
      rw [hl] at h4; rw [hr] at h5
      obtain ⟨l1, l2⟩ := h4.link rfl
      obtain ⟨r1, r2⟩ := h5.link rfl
      have hne : l ≠ x := by rintro rfl; exact k5 l l1 r1
      simp [hne, l2, r2]

theorem climbL_spec {m : Mem} (c : Ctx) : ∀ {k n : Nat} {r : Bool} {a b : T}, Foc m (some n) (.node r a n b) c → c.length < k → before c ≠ [] →
    m.climbL k n (par c) = (before c).getLast? := by
  induction c with
  | nil => intro k n r a b h hk hb; exact absurd rfl hb
  | cons f c ih =>
    intro k n r a b h hk hb
    obtain ⟨k, rfl⟩ : ∃ l, k = l + 1 := ⟨k - 1, by simp only [List.length_cons] at hk; omega⟩
    obtain ⟨d, fr, i, s⟩ := f
    cases d with
    | false =>
      have hne : m.left i ≠ some n := h.other
      rw [show par (⟨false, fr, i, s⟩ :: c) = i from rfl, Mem.climbL, if_neg hne]
      simp [before]
    | true =>
      have he : m.left i = some n := h.repc.1
      have hup := h.up
      have hup' : Foc m (some i) (.node fr (.node r a n b) i s) c := hup
      rw [show par (⟨true, fr, i, s⟩ :: c) = i from rfl, Mem.climbL, if_pos he, hup.parent, Option.bind_some]
      have e2 : before (⟨true, fr, i, s⟩ :: c) = before c := by simp [before]
      rw [e2] at hb ⊢
      exact ih hup' (by simp only [List.length_cons] at hk; omega) hb

theorem Foc.prev {m : Mem} {o : Option Nat} {r : Bool} {a b : T} {i : Nat} {c : Ctx} {k : Nat} (h : Foc m o (.node r a i b) c)
    (hk : (plug (.node r a i b) c).height < k) (hf : before c ++ a.nodes ≠ []) :
    m.prev k i = (before c ++ a.nodes).getLast? := by
  have ho := h.rep.1
  subst ho
  have hh := height_plug c (.node r a i b)
  have hb : a.height < (T.node r a i b).height := by simp only [T.height]; omega
  unfold Mem.prev
  rw [isHeader_node h, if_neg (by simp)]
  cases a with
  | node rb ba bi bb =>
    have h5 := h.rep.2.2.2.1
    have e := h5.1
    rw [e] at h5 ⊢
    obtain ⟨x, q1, q2⟩ := maximum_spec (k := k) _ h5 (by omega)
    simp only
    rw [q1, List.getLast?_append, q2]; rfl
  | leaf =>
    rw [show m.left i = none from h.rep.2.2.2.1]
    simp only
    rw [h.rep.2.1, Option.bind_some]
    have e : before c ++ T.leaf.nodes = before c := by simp [T.nodes]
    rw [e] at hf ⊢
    exact climbL_spec c h (by omega) hf

/-- Only the root is below the header. -/
theorem Foc.only_root {m : Mem} {t : T} : ∀ {o : Option Nat} {p : Nat}, Rep m o t p → p ∉ t.nodes → ∀ i ∈ t.nodes, t.nodes.Nodup → m.parent i = some p → o = some i := by
  induction t with
  | leaf => intro o p _ _ i hi; cases hi
  | node r a j b iha ihb =>
    intro o p h hp i hi hn hpar
    obtain ⟨h1, h2, h3, h4, h5⟩ := h
    obtain ⟨k1, k2, k3, k4, k5⟩ := nd_mk (d := true) hn
    have pin : ∀ {u : T} {o' : Option Nat} {q : Nat}, Rep m o' u q → ∀ x ∈ u.nodes, ∃ y, m.parent x = some y ∧ (y = q ∨ y ∈ u.nodes) := by
      intro u
      induction u with
      | leaf => intro o' q _ x hx; cases hx
      | node r' a' j' b' iha' ihb' =>
        intro o' q hu x hx
        obtain ⟨u1, u2, u3, u4, u5⟩ := hu
        simp only [T.nodes, List.mem_append, List.mem_cons] at hx
        rcases hx with hx | rfl | hx
        · obtain ⟨y, y1, y2⟩ := iha' u4 x hx
          refine ⟨y, y1, Or.inr ?_⟩
          simp only [T.nodes, List.mem_append, List.mem_cons]; tauto
        · exact ⟨q, u2, Or.inl rfl⟩
        · obtain ⟨y, y1, y2⟩ := ihb' u5 x hx
          refine ⟨y, y1, Or.inr ?_⟩
          simp only [T.nodes, List.mem_append, List.mem_cons]; tauto
    simp only [T.nodes, List.mem_append, List.mem_cons] at hi hp
    rcases hi with hi | rfl | hi
    · obtain ⟨y, y1, y2⟩ := pin h4 i hi
      rw [hpar] at y1; cases y1; tauto
    · exact h1
    · obtain ⟨y, y1, y2⟩ := pin h5 i hi
      rw [hpar] at y1; cases y1; tauto

theorem prev_header {m : Mem} {L : List Nat} (h : Ok m L) (k : Nat) : m.prev k 0 = some (L.getLast?.getD 0) := by
  obtain ⟨⟨t, n, h1, h2, h3, h4⟩, h5, h6, -⟩ := h
  unfold Mem.prev
  have : m.isHeader 0 = true := by
    unfold Mem.isHeader
    cases L with
    | nil => rw [h5, h6]; simp
    | cons x l =>
      obtain ⟨y, hy⟩ : ∃ y, (x :: l).getLast? = some y := ⟨_, List.getLast?_eq_some_getLast (by simp)⟩
      have ym : y ∈ t.nodes := by rw [h2]; exact List.mem_of_getLast? hy
      have xm : x ∈ t.nodes := by rw [h2]; simp
      rw [h5, h6, hy]
      simp only [List.head?_cons, Option.getD_some]
      by_cases hxy : x = y
      · simp [hxy]
      · have : m.parent x ≠ some 0 ∨ m.parent y ≠ some 0 := by
          by_contra hc
          rw [not_or, not_not, not_not] at hc
          have e1 := Foc.only_root h1.rep h1.nz x xm h1.nd hc.1
          have e2 := Foc.only_root h1.rep h1.nz y ym h1.nd hc.2
          rw [e1] at e2; cases e2; exact hxy rfl
        rcases this with h | h <;> simp [h]
  rw [this, if_pos rfl, h6]

/-- Every element is somewhere in the tree. -/
theorem exists_place (t : T) : ∀ (c : Ctx) (i : Nat), i ∈ t.nodes → ∃ r a b c', plug (.node r a i b) c' = plug t c := by
  induction t with
  | leaf => intro c i h; cases h
  | node r a j b iha ihb =>
    intro c i h
    simp only [T.nodes, List.mem_append, List.mem_cons] at h
    rcases h with h | rfl | h
    · exact iha (⟨true, r, j, b⟩ :: c) i h
    · exact ⟨r, a, b, c, rfl⟩
    · exact ihb (⟨false, r, j, a⟩ :: c) i h

theorem foc_of_root {m : Mem} (c : Ctx) : ∀ {t : T}, Foc m (m.parent 0) (plug t c) [] → ∃ o, Foc m o t c := by
  induction c with
  | nil => intro t h; exact ⟨_, h⟩
  | cons f c ih =>
    intro t h
    obtain ⟨o, ho⟩ := ih h
    exact ⟨_, ho.down⟩

end PolyOps.RbTree
