import Verif.Lemmas.RasterOrder
/-! The order of the lines in the tree of the rasteriser: the three kinds of events. -/
namespace PolyOps.Raster
open PolyOps.Events

/-- Height of an event. -/
def hv (E : Env) : REv → ℚ
  | .swap _ _ iy => iy.val
  | .edge _ a _ _ => E.py a

/-- The stored height is in the form computed for crossings. -/
def GoodEv : REv → Prop
  | .swap _ _ iy => iy.Good
  | .edge _ _ _ _ => True

theorem hv_le {E : Env} {e f : REv} (he : GoodEv e) (hf : GoodEv f) (h : yk E.py e ≤ yk E.py f) : hv E e ≤ hv E f := by
  by_contra hlt
  push Not at hlt
  apply absurd h
  rw [not_le]
  cases e with
  | edge fe ae be ke =>
    cases f with
    | edge ff af bf kf =>
      rw [yk_edge, yk_edge, rowKey_lt]
      have hlt' : (E.py af : ℚ) < E.py ae := hlt
      exact_mod_cast hlt'
    | swap s1 s2 iy => exact (key_lt_of_val hf).1 hlt
  | swap t1 t2 jy =>
    cases f with
    | edge ff af bf kf => exact (key_lt_of_val he).2 hlt
    | swap s1 s2 iy =>
      have := (C42_height_strict iy jy hf he 0).1 hlt
      rw [cmp_lex, compare_lt_iff_lt] at this
      exact this

/-- The order between the steps: from height `c` on the lines go from right to left, but for the swaps to come, which are all at or
below `c`. -/
structure Ord (E : Env) (c : ℚ) (st : St) : Prop where
  turns : Turns E c st.todo
  chain : st.sweep.IsChain (Ahead E c st.todo)

theorem Turn.good {E : Env} {s1 s2 : Nat} {iy : IntrY} (h : Turn E s1 s2 iy) : iy.Good := C42_good _ _ _ h.2.2.1

theorem Ord.good {E : Env} {c : ℚ} {st : St} (h : Ord E c st) : ∀ f ∈ st.todo, GoodEv f := by
  intro f hf
  cases f with
  | edge => trivial
  | swap s1 s2 iy => exact (h.turns _ _ _ hf).1.good

/-- The level can be raised to the height of the current event. -/
theorem Ord.raise {E : Env} {c : ℚ} {st : St} (h : Ord E c st) (hi : Inv E st) {e : REv} (hc : st.q.current = some e) (hce : c ≤ hv E e) :
    Ord E (hv E e) st := by
  obtain ⟨ht, _, _⟩ := todo_of_current hi.pos hc
  have hem : e ∈ st.todo := by rw [ht]; simp
  refine ⟨?_, chain_mono h.chain hce fun _ h => h⟩
  intro s1 s2 iy hm
  refine ⟨(h.turns _ _ _ hm).1, ?_⟩
  exact hv_le (E := E) (f := .swap s1 s2 iy) (h.good e hem) (h.good _ hm) (yk_le_of_rKey (hi.todo_ge hc _ hm))

/-- The lines of the tree last at the height of the current event. -/
theorem Inv.at_ {E : Env} (hE : WFEnv E) {st : St} (hi : Inv E st) {e : REv} (hc : st.q.current = some e) (hg : GoodEv e) :
    ∀ k ∈ st.sweep, At E (hv E e) k := by
  intro k hk
  obtain ⟨hl, hf, hb⟩ := (hi.sweep.2 k).mp hk
  obtain ⟨w1, w2, _⟩ := hE k hl
  obtain ⟨ht, _, hd⟩ := todo_of_current hi.pos hc
  refine ⟨hl, ?_, ?_⟩
  · have h1 := yk_le_of_rKey (hi.done_le hc (fwd E k) (by rw [hd]; simp [hf]))
    have h2 := hv_le (E := E) (e := fwd E k) (f := e) trivial hg h1
    have : hv E (fwd E k) = ((E.seg k).pa.y : ℚ) := by rw [← w1]; rfl
    rw [← this]; exact h2
  · have hm := (hi.mem_edge (e := bwd E k) rfl).mpr ⟨k, hl, Or.inr rfl⟩
    rw [events_split st] at hm
    rcases List.mem_append.mp hm with hm | hm
    · exact absurd hm hb
    · have h2 := hv_le (E := E) (e := e) (f := bwd E k) hg trivial (yk_le_of_rKey (hi.todo_ge hc _ hm))
      have : hv E (bwd E k) = ((E.seg k).pb.y : ℚ) := by rw [← w2]; rfl
      rw [← this]; exact h2

/-- The events to come after a step. -/
theorem step_todo {E : Env} {st st1 : St} {e : REv} (h : Inv E st) (hc : st.q.current = some e) (hx : Ext E e st st1) :
    (step E st1).todo.Perm st1.rest := by
  obtain ⟨⟨news, hev, hnw⟩, hpos, hlast, _⟩ := hx
  obtain ⟨ht, hle, hd⟩ := todo_of_current h.pos hc
  have hll : st1.q.last = st.q.events.length := by rw [hlast, h.last]
  have htk : st1.q.events.take st1.q.last = st.q.events := by rw [hll, hev]; simp
  have hdr : st1.q.events.drop st1.q.last = news := by rw [hll, hev]; simp
  have htp : st1.q.events.take st1.q.pos = st.q.events.take st.q.pos := by
    rw [hev, hpos, List.take_append_of_le_length hle]
  have hp1 := h.pos
  obtain ⟨n1, n2, n3, n4, n5⟩ := next_spec E.py st1.q (by rw [hll, hev]; simp) (by rw [htk]; exact h.sorted)
    (by rw [hpos, hll]; exact hle) (by rw [hll]; omega) (by
      rw [hdr, htp]
      intro x hx f hf
      exact lt_of_le_of_lt (h.done_le hc f hf) (hnw x hx).1)
  have htodo : (step E st1).todo = (st1.q.next E.py).events.drop st1.q.pos := by
    show ((st1.q.next E.py).events).drop ((st1.q.next E.py).pos - 1) = _
    rw [n5, Nat.add_sub_cancel]
  have hp : (st1.q.events.take st1.q.pos ++ (step E st1).todo).Perm (st1.q.events.take st1.q.pos ++ st1.rest) := by
    rw [htodo, ← n3, List.take_append_drop, n3]
    unfold St.rest
    rw [List.take_append_drop]
    exact n1
  exact (List.perm_append_left_iff _).mp hp

theorem Ord.of_rest {E : Env} {c : ℚ} {st st1 : St} {e : REv} (h : Inv E st) (hc : st.q.current = some e) (hx : Ext E e st st1)
    (ht : Turns E c st1.rest) (hch : st1.sweep.IsChain (Ahead E c st1.rest)) : Ord E c (step E st1) := by
  have hp := step_todo h hc hx
  exact ⟨fun s1 s2 iy hm => ht _ _ _ (hp.mem_iff.mp hm), chain_mono hch le_rfl fun _ hm => hp.mem_iff.mpr hm⟩

theorem rest_of_current {E : Env} {st : St} (h : Inv E st) {e : REv} (hc : st.q.current = some e) : st.todo = e :: st.rest :=
  (todo_of_current h.pos hc).1

/-- Without the current swap, for lists in which its lines are not neighbours. -/
theorem Inv.drop_swap {E : Env} {st : St} (hi : Inv E st) {s1 s2 : Nat} {iy : IntrY} (hc : st.q.current = some (.swap s1 s2 iy)) {c : ℚ}
    {l : List Nat} (hl : l.IsChain (Ahead E c st.todo)) (hno : ∀ L R, l ≠ L ++ s1 :: s2 :: R) : l.IsChain (Ahead E c st.rest) := by
  rw [List.isChain_iff_forall_rel_of_append_cons_cons] at hl ⊢
  intro a b L R he
  rcases hl he with h | ⟨jy, h⟩
  · exact Or.inl h
  · rw [rest_of_current hi hc] at h
    rcases List.mem_cons.mp h with h | h
    · cases h
      exact absurd he (hno L R)
    · exact Or.inr ⟨jy, h⟩

/-- A swap event. -/
theorem ord_swap {E : Env} (hE : WFEnv E) (hX : WFX E) (hS : Simple E) {st st1 : St} (hi : Inv E st) {s1 s2 : Nat} {iy : IntrY}
    (hc : st.q.current = some (.swap s1 s2 iy)) {c : ℚ} (ho : Ord E c st) (f : Nat)
    (hok : swapAndCheck E st.gen iy f s1 s2 st = .ok st1) : Ord E iy.val (step E st1) ∧ st1.orc = st.orc := by
  have htd := rest_of_current hi hc
  have hm0 : REv.swap s1 s2 iy ∈ st.todo := by rw [htd]; simp
  have ho' := ho.raise hi hc (ho.turns _ _ _ hm0).2
  have hat := hi.at_ hE hc (ho.good _ hm0)
  obtain ⟨⟨l1, l2, hisect, hsl⟩, _⟩ := ho.turns _ _ _ hm0
  obtain ⟨m1, m2⟩ := hi.swap_mem hE hc
  have hext := swapAndCheck_sat E hE (.swap s1 s2 iy) st.gen iy rfl f s1 s2 st (fun _ => rfl) m1 m2 hi.sweep_lt
  rw [hok] at hext
  obtain ⟨hx, _⟩ := hext
  have hturn : Turns E iy.val st.rest := fun a b i hm => ho'.turns a b i (by rw [htd]; simp [hm])
  have hw : Work E iy.val st := ⟨hi.sweep.1, hat, (todo_of_current hi.pos hc).2.1, hturn⟩
  have drop := fun (l : List Nat) (hl : l.IsChain (Ahead E iy.val st.todo)) hno => hi.drop_swap hc hl hno
  by_cases hadj : nextOf st.sweep s1 = some s2
  · obtain ⟨L, R, hl⟩ := nextOf_split hadj
    have hch := ho'.chain
    have hnd := hi.sweep.1
    rw [hl] at hch hnd
    rw [List.isChain_append_cons_cons] at hch
    have hnd' := List.nodup_append.mp hnd
    obtain ⟨k1, k2⟩ := swap_chain hX hS st.gen iy (ho.good _ hm0) f s1 s2 L R st st1 hl hw
      ⟨l1, l2, ⟨iy, hisect, rfl, by unfold IntrY.eq; simp⟩, hsl⟩
      (drop _ hch.1 (by
        intro L' R' he
        have : s2 ∈ L ++ [s1] := by rw [he]; simp
        rcases List.mem_append.mp this with h | h
        · exact hnd'.2.2 s2 h s2 (by simp) rfl
        · rw [List.mem_singleton] at h
          subst h
          exact (List.nodup_cons.mp hnd'.2.1).1 (by simp)))
      (drop _ hch.2.2 (by
        intro L' R' he
        have : s1 ∈ s2 :: R := by rw [he]; simp
        exact (List.nodup_cons.mp hnd'.2.1).1 this)) hok
    exact ⟨Ord.of_rest hi hc hx k1.1.turns k2, k1.2.2⟩
  · cases f with
    | zero => cases hok
    | succ f =>
      unfold swapAndCheck at hok
      rw [if_pos ⟨m1, m2⟩, if_pos hadj] at hok
      cases hok
      refine ⟨Ord.of_rest hi hc hx hturn (drop _ ho'.chain ?_), rfl⟩
      intro L R he
      apply hadj
      have hnd := hi.sweep.1
      rw [he] at hnd ⊢
      exact nextOf_mid fun hm => (List.nodup_append.mp hnd).2.2 s1 hm s1 (by simp) rfl

/-- `check_intersection` at the height of an edge event. -/
theorem check_cases {E : Env} (hE : WFX E) {y : Int} {j k : Nat} (hj : At E y j) (hk : At E y k)
    (hle : lx (E.seg k) y ≤ lx (E.seg j) y)
    (hmeet : lx (E.seg k) y = lx (E.seg j) y → isect (E.seg j) (E.seg k) = none ∧
      ∀ t, (y:ℚ) ≤ t → t ≤ (E.seg j).pb.y → t ≤ (E.seg k).pb.y → lx (E.seg k) t ≤ lx (E.seg j) t)
    (st : St) (hpos : st.q.pos ≤ st.q.events.length) :
    (check E j k y st).sweep = st.sweep ∧ (check E j k y st).orc = st.orc ∧
      (check E j k y st).q.pos ≤ (check E j k y st).q.events.length ∧ st.rest ⊆ (check E j k y st).rest ∧
      Ahead E y (check E j k y st).rest j k ∧ (Turns E y st.rest → Turns E y (check E j k y st).rest) := by
  obtain ⟨dj, fj⟩ := hE j hj.1
  obtain ⟨dk, fk⟩ := hE k hk.1
  unfold check
  cases hi : isect (E.seg j) (E.seg k) with
  | none =>
    refine ⟨rfl, rfl, hpos, fun _ h => h, Or.inl ?_, id⟩
    intro t ht e e'
    rcases hle.lt_or_eq with hlt | heq
    · exact stays_none dj dk (fj k hk.1) hi hj.2.1 hk.2.1 hlt ht e e'
    · exact (hmeet heq).2 t ht e e'
  | some iy =>
    simp only
    obtain ⟨hne, hx, hin1, hin2⟩ := isect_some dj dk hi
    rcases hle.lt_or_eq with hlt | heq
    · have hvc : iy.val ≠ y := by
        intro e; rw [e] at hx; linarith
      obtain ⟨_, _, st1, st2⟩ := C42_height_strict iy iy (C42_good _ _ _ hi) (C42_good _ _ _ hi) y
      rcases lt_or_gt_of_ne hvc with hv | hv
      · rw [st1 hv]
        simp only [bne_self_eq_false, Bool.false_eq_true, if_false]
        refine ⟨trivial, trivial, hpos, fun _ h => h, Or.inl ?_, id⟩
        intro t ht _ _
        exact after_cross hx.symm (slope_of_earlier hlt hx hv) (hv.le.trans ht)
      · rw [st2 hv]
        simp only [show ((Ordering.gt != Ordering.lt) = true) from rfl, if_true]
        have hr : (addSwap E j k iy st).rest = st.rest ++ [.swap j k iy] := by
          unfold St.rest addSwap
          simp only
          rw [List.drop_append_of_le_length hpos]
        refine ⟨rfl, rfl, ?_, ?_, Or.inr ⟨iy, ?_⟩, ?_⟩
        · show st.q.pos ≤ (st.q.events ++ _).length
          rw [List.length_append]; omega
        · rw [hr]; exact List.subset_append_left _ _
        · rw [hr]; simp
        · intro hT a b i hm
          rw [hr] at hm
          rcases List.mem_append.mp hm with hm | hm
          · exact hT a b i hm
          · rw [List.mem_singleton] at hm
            cases hm
            exact ⟨⟨hj.1, hk.1, hi, slope_of_later hlt hx hv⟩, hv.le⟩
    · rw [(hmeet heq).1] at hi; cases hi

theorem Ahead.edge {E : Env} {c : ℚ} {T : List REv} {f : Bool} {a b k : Nat} {i j : Nat} (h : Ahead E c (.edge f a b k :: T) i j) :
    Ahead E c T i j := by
  rcases h with h | ⟨iy, h⟩
  · exact Or.inl h
  · rcases List.mem_cons.mp h with h | h
    · cases h
    · exact Or.inr ⟨iy, h⟩

theorem current_edge {E : Env} {st : St} (hi : Inv E st) {f : Bool} {a b k : Nat} (hc : st.q.current = some (.edge f a b k)) :
    k < E.nodes.length ∧ REv.edge f a b k = if f then fwd E k else bwd E k := by
  have hm : REv.edge f a b k ∈ st.q.events := by rw [events_split st, rest_of_current hi hc]; simp
  obtain ⟨k', hk', he⟩ := (hi.mem_edge rfl).mp hm
  rcases he with he | he <;> unfold fwd bwd at * <;> rw [REv.edge.injEq] at he <;> obtain ⟨rfl, rfl, rfl, rfl⟩ := he <;> exact ⟨hk', rfl⟩

theorem mem_split_nodup {l : List Nat} {k : Nat} (h : k ∈ l) (hn : l.Nodup) : ∃ L R, l = L ++ k :: R ∧ k ∉ L ∧ k ∉ R := by
  obtain ⟨L, R, rfl⟩ := List.append_of_mem h
  have := List.nodup_append.mp hn
  exact ⟨L, R, rfl, fun hm => this.2.2 k hm k (by simp) rfl, (List.nodup_cons.mp this.2.1).1⟩

/-- The end of a line. -/
theorem ord_backward {E : Env} (hE : WFEnv E) (hX : WFX E) (hS : Simple E) {st st1 : St} (hi : Inv E st) {a b k : Nat}
    (hc : st.q.current = some (.edge false a b k)) {c : ℚ} (ho : Ord E c st) (hcy : c ≤ E.py a)
    (hok : doBackward E k (E.py a) st = .ok st1) : Ord E (E.py a) (step E st1) ∧ st1.orc = st.orc := by
  have htd := rest_of_current hi hc
  have ho' : Ord E (E.py a) st := ho.raise hi hc hcy
  have hat : ∀ k ∈ st.sweep, At E (E.py a) k := hi.at_ hE hc trivial
  have hext := doBackward_sat E hE st hi a b k hc
  rw [hok] at hext
  obtain ⟨hx, _⟩ := hext
  obtain ⟨hk, hev⟩ := current_edge hi hc
  simp only [Bool.false_eq_true, if_false] at hev
  have hend : ((E.seg k).pb.y : ℚ) = E.py a := by
    unfold bwd at hev
    rw [REv.edge.injEq] at hev
    rw [hev.2.1, (hE k hk).2.1]
  have hstart : ∀ j ∈ st.sweep, ((E.seg j).pa.y : ℚ) < E.py a := by
    intro j hj
    refine lt_of_le_of_ne (hat j hj).2.1 ?_
    intro he
    obtain ⟨hl, hf, _⟩ := (hi.sweep.2 j).mp hj
    obtain ⟨_, _, hd⟩ := todo_of_current hi.pos hc
    have h1 := hi.done_le hc (fwd E j) (by rw [hd]; simp [hf])
    have he' : (E.seg j).pa.y = E.py a := by exact_mod_cast he
    have := rank_le_of_rKey h1 (by unfold fwd; rw [yk_edge, yk_edge, (hE j hl).1, he'])
    simp [fwd, REv.rank] at this
  have hturn : Turns E (E.py a) st.rest := fun a b i hm => ho'.turns a b i (by rw [htd]; simp [hm])
  have hchain : st.sweep.IsChain (Ahead E (E.py a) st.rest) := by
    have := ho'.chain
    rw [htd] at this
    exact this.imp fun _ _ h => h.edge
  have hpos := (todo_of_current hi.pos hc).2.1
  unfold doBackward at hok
  split at hok
  · rename_i hmem
    obtain ⟨L, R, hl, hL, hR⟩ := mem_split_nodup hmem hi.sweep.1
    have her : st.sweep.erase k = L ++ R := by rw [hl, List.erase_append_right _ hL, List.erase_cons_head]
    simp only [her] at hok
    rw [hl] at hchain
    cases R with
    | nil =>
      rw [hl, nextOf_last hL] at hok
      cases hok
      refine ⟨Ord.of_rest hi hc hx hturn ?_, rfl⟩
      show (L ++ []).IsChain _
      rw [List.append_nil]
      exact (List.isChain_append.mp hchain).1
    | cons n R =>
      rw [hl, nextOf_mid hL] at hok
      simp only at hok
      have hnL : n ∉ L := by
        have := hi.sweep.1
        rw [hl] at this
        exact fun hm => (List.nodup_append.mp this).2.2 n hm n (by simp) rfl
      rw [prevOf_mid hnL] at hok
      rcases List.eq_nil_or_concat L with rfl | ⟨L0, p, rfl⟩
      · simp only [List.getLast?_nil] at hok
        cases hok
        refine ⟨Ord.of_rest hi hc hx hturn ?_, rfl⟩
        show (n :: R).IsChain _
        exact (List.isChain_cons_cons.mp hchain).2
      · rw [List.concat_eq_append] at *
        simp only [List.getLast?_append, List.getLast?_singleton, Option.some_or] at hok
        rw [List.append_assoc, List.cons_append, List.nil_append, List.isChain_append_cons_cons, List.isChain_cons_cons] at hchain
        obtain ⟨q1, q2, q3, q4⟩ := hchain
        have pm : p ∈ st.sweep := by rw [hl]; simp
        have nm : n ∈ st.sweep := by rw [hl]; simp
        have pa := hat p pm
        have na := hat n nm
        have ka := hat k hmem
        have x1 := q2.now hX hturn pa ka
        have x2 := q3.now hX hturn ka na
        have dp := (hX p pa.1).1
        have dn := (hX n na.1).1
        have hnone : lx (E.seg n) (E.py a) = lx (E.seg p) (E.py a) → isect (E.seg p) (E.seg n) = none := by
          intro heq
          cases hs : isect (E.seg p) (E.seg n) with
          | none => rfl
          | some iy =>
            exfalso
            obtain ⟨hne, hxx, hi1, hi2⟩ := isect_some dp dn hs
            have hv := root_unique hne hxx heq.symm
            rw [hv] at hxx hi1 hi2
            have := (hS p pa.1 n na.1 k hk _ hne hxx hi1.1 hi1.2 hi2.1 hi2.2 ka.2.1 ka.2.2 (le_antisymm x1 (by rw [← heq]; exact x2))).1.2
            rw [hend] at this
            exact lt_irrefl _ this
        obtain ⟨c1, c2, c3, c4, c5, c6⟩ := check_cases hX pa na (x2.trans x1) (fun heq => ⟨hnone heq, by
          intro t ht e1 e2
          rcases ht.lt_or_eq with hlt | rfl
          · by_cases hsl : sl (E.seg p) = sl (E.seg n)
            · have := lx_diff (E.seg p) (E.seg n) (E.py a) t
              rw [heq, hsl, sub_self, sub_self, mul_zero, zero_add] at this
              linarith
            · obtain ⟨iy, h, _⟩ := isect_exists dp dn ((hX p pa.1).2 n na.1) hsl heq.symm (hstart p pm) (by linarith) (hstart n nm) (by linarith)
              rw [hnone heq] at h
              cases h
          · exact heq.le⟩) { st with sweep := L0 ++ [p] ++ n :: R } hpos
        cases hok
        refine ⟨Ord.of_rest hi hc hx (c6 hturn) ?_, c2⟩
        rw [c1]
        generalize (check E p n (E.py a) { st with sweep := L0 ++ [p] ++ n :: R }).rest = T at *
        show (L0 ++ [p] ++ n :: R).IsChain _
        rw [List.append_assoc, List.cons_append, List.nil_append, List.isChain_append_cons_cons]
        exact ⟨chain_mono q1 le_rfl c4, c5, chain_mono q4 le_rfl c4⟩
  · cases hok

/-- What every search tree grants about the place of a new line: the new line does not compare less than the line before that place
and compares less than the line after it (`insert_unique_check` goes down to the left at a node exactly when the new line compares
less than it; rbtree_algorithms.hpp). -/
def Fair (E : Env) (pl : Place) : Prop := ∀ (y : Int) (l : List Nat) (k : Nat), pl y l k ≤ l.length ∧
  (∀ j ∈ (l.take (pl y l k)).getLast?, sweepCmp y (E.seg k) (E.seg j) = false) ∧
  (∀ j ∈ (l.drop (pl y l k)).head?, sweepCmp y (E.seg k) (E.seg j) = true)

theorem sweepCmp_spec {s s' : Seg} (h : Down s) (h' : Down s') (y : Int) :
    (sweepCmp y s s' = true → lx s' y < lx s y ∨ (lx s y = lx s' y ∧ sl s' ≤ sl s)) ∧
    (sweepCmp y s s' = false → lx s y < lx s' y ∨ (lx s y = lx s' y ∧ sl s ≤ sl s')) := by
  have hc := C42_sweep_order y s s' h.ne h'.ne (lx s y) (lx s' y) (lx s (y + 1 : Int)) (lx s' (y + 1 : Int)) (onLine_lx s h _)
    (onLine_lx s' h' _) (onLine_lx s h _) (onLine_lx s' h' _)
  have hd : lx s (y + 1 : Int) - lx s' (y + 1 : Int) = (lx s y - lx s' y) + (sl s - sl s') := by
    rw [lx_diff s s' y]; push_cast; ring
  constructor
  · intro hs
    rcases hc.mp hs with h1 | ⟨h1, h2 | ⟨h2, _⟩⟩
    · exact Or.inl h1
    · exact Or.inr ⟨h1, by linarith⟩
    · exact Or.inr ⟨h1, by linarith⟩
  · intro hs
    have hn : ¬ _ := fun hh => by
      rw [hc.mpr hh] at hs; cases hs
    rcases lt_trichotomy (lx s y) (lx s' y) with h1 | h1 | h1
    · exact Or.inl h1
    · refine Or.inr ⟨h1, ?_⟩
      by_contra hgt
      push Not at hgt
      exact hn (Or.inr ⟨h1, Or.inl (by linarith)⟩)
    · exact absurd (Or.inl h1) hn

/-- The start of a line. -/
theorem ord_forward {E : Env} (hE : WFEnv E) (hX : WFX E) {st st1 : St} (hi : Inv E st) {a b k : Nat} {y : Int}
    (hc : st.q.current = some (.edge true a b k)) (hy : E.py a = y) {c : ℚ} (ho : Ord E c st) (hcy : c ≤ y)
    (hf : Fair E (st.orc 0)) (hok : doForward E y k (E.py a) st = .ok st1) :
    Ord E y (step E st1) ∧ st1.orc = fun n => st.orc (n + 1) := by
  have htd := rest_of_current hi hc
  have ho' : Ord E (E.py a) st := ho.raise hi hc (by rw [show hv E (.edge true a b k) = E.py a from rfl, hy]; exact hcy)
  have hat : ∀ k ∈ st.sweep, At E (E.py a) k := hi.at_ hE hc trivial
  have hext := doForward_sat E hE y st hi a b k hc
  rw [hok] at hext
  obtain ⟨hx, _⟩ := hext
  obtain ⟨hk, hev⟩ := current_edge hi hc
  simp only [if_true] at hev
  rw [hy] at ho' hat hok
  have hstart : ((E.seg k).pa.y : ℚ) = y := by
    unfold fwd at hev
    rw [REv.edge.injEq] at hev
    rw [← hy, hev.2.1, (hE k hk).1]
  have dk := (hX k hk).1
  have hka : At E y k := ⟨hk, hstart.le, by rw [← hstart]; exact_mod_cast dk.le⟩
  have hturn : Turns E y st.rest := fun a b i hm => ho'.turns a b i (by rw [htd]; simp [hm])
  have hchain : st.sweep.IsChain (Ahead E y st.rest) := by
    have := ho'.chain
    rw [htd] at this
    exact this.imp fun _ _ h => h.edge
  have hpos := (todo_of_current hi.pos hc).2.1
  obtain ⟨f1, f2, f3⟩ := hf y st.sweep k
  unfold doForward at hok
  split at hok
  · cases hok
  · rename_i hnm
    simp only at hok
    generalize st.orc 0 y st.sweep k = i at f1 f2 f3 hok
    have hsplit := List.take_append_drop i st.sweep
    generalize hL : st.sweep.take i = L at *
    generalize hR : st.sweep.drop i = R at *
    have hkL : k ∉ L := fun hm => hnm (by rw [← hsplit]; simp [hm])
    rw [prevOf_mid hkL] at hok
    rw [← hsplit] at hchain
    obtain ⟨ch1, ch2, _⟩ := List.isChain_append.mp hchain
    -- the line before
    obtain ⟨st2, hst2, e1, e2, e3, e4, e5, e6⟩ : ∃ st2, (match L.getLast? with
        | none => ({ st with sweep := L ++ k :: R, orc := fun n => st.orc (n + 1) } : St)
        | some p => check E p k y { st with sweep := L ++ k :: R, orc := fun n => st.orc (n + 1) }) = st2 ∧ st2.sweep = L ++ k :: R ∧
        (st2.orc = fun n => st.orc (n + 1)) ∧ st2.q.pos ≤ st2.q.events.length ∧ st.rest ⊆ st2.rest ∧
        (∀ p ∈ L.getLast?, Ahead E y st2.rest p k) ∧ Turns E y st2.rest := by
      cases hp : L.getLast? with
      | none => exact ⟨_, rfl, rfl, rfl, hpos, fun _ h => h, by simp, hturn⟩
      | some p =>
        simp only
        have pm : p ∈ st.sweep := by rw [← hsplit]; simp [List.mem_of_mem_getLast? hp]
        have pa := hat p pm
        have dp := (hX p pa.1).1
        have hcmp := (sweepCmp_spec dk dp y).2 (f2 p hp)
        obtain ⟨c1, c2, c3, c4, c5, c6⟩ := check_cases hX pa hka (by rcases hcmp with h | h; exacts [h.le, h.1.le]) (fun heq => by
          have hsl : sl (E.seg k) ≤ sl (E.seg p) := by
            rcases hcmp with h | h
            · rw [heq] at h; exact absurd h (lt_irrefl _)
            · exact h.2
          constructor
          · cases hs : isect (E.seg p) (E.seg k) with
            | none => rfl
            | some iy =>
              exfalso
              obtain ⟨hne, hxx, hi1, hi2⟩ := isect_some dp dk hs
              have hv := root_unique hne hxx heq.symm
              rw [hv, hstart] at hi2
              exact lt_irrefl _ hi2.1
          · intro t ht _ _
            have := lx_diff (E.seg p) (E.seg k) y t
            rw [heq, sub_self, zero_add] at this
            have := mul_nonneg (sub_nonneg.mpr ht) (sub_nonneg.mpr hsl)
            linarith) { st with sweep := L ++ k :: R, orc := fun n => st.orc (n + 1) } hpos
        refine ⟨_, rfl, c1, c2, c3, c4, ?_, c6 hturn⟩
        intro p' hp'
        cases hp'
        exact c5
    have hok' : (match nextOf st2.sweep k with
        | none => Res.ok st2
        | some n => if st.gen ≠ st2.gen then Res.ub else Res.ok (check E k n y st2)) = .ok st1 := by
      rw [← hst2]; exact hok
    have hpre : (L ++ [k]).IsChain (Ahead E y st2.rest) := by
      rw [List.isChain_append]
      refine ⟨chain_mono ch1 le_rfl e4, by simp, ?_⟩
      intro p hp k' hk'
      simp only [List.head?_cons, Option.mem_def, Option.some.injEq] at hk'
      subst hk'
      exact e5 p hp
    cases R with
    | nil =>
      rw [e1, nextOf_last hkL] at hok'
      cases hok'
      exact ⟨Ord.of_rest hi hc hx e6 (by rw [e1]; exact hpre), e2⟩
    | cons n R =>
      rw [e1, nextOf_mid hkL] at hok'
      simp only at hok'
      split at hok'
      · cases hok'
      · have nm : n ∈ st.sweep := by rw [← hsplit]; simp
        have na := hat n nm
        have dn := (hX n na.1).1
        have hcmp := (sweepCmp_spec dk dn y).1 (f3 n (by simp))
        obtain ⟨c1, c2, c3, c4, c5, c6⟩ := check_cases hX hka na (by rcases hcmp with h | h; exacts [h.le, h.1.ge]) (fun heq => by
          have hsl : sl (E.seg n) ≤ sl (E.seg k) := by
            rcases hcmp with h | h
            · rw [heq] at h; exact absurd h (lt_irrefl _)
            · exact h.2
          constructor
          · cases hs : isect (E.seg k) (E.seg n) with
            | none => rfl
            | some iy =>
              exfalso
              obtain ⟨hne, hxx, hi1, hi2⟩ := isect_some dk dn hs
              have hv := root_unique hne hxx heq.symm
              rw [hv, hstart] at hi1
              exact lt_irrefl _ hi1.1
          · intro t ht _ _
            have := lx_diff (E.seg k) (E.seg n) y t
            rw [heq, sub_self, zero_add] at this
            have := mul_nonneg (sub_nonneg.mpr ht) (sub_nonneg.mpr hsl)
            linarith) st2 e3
        cases hok'
        refine ⟨Ord.of_rest hi hc hx (c6 e6) ?_, c2.trans e2⟩
        rw [c1, e1, List.isChain_append_cons_cons]
        exact ⟨chain_mono hpre le_rfl c4, c5, chain_mono ch2 le_rfl fun _ h => c4 (e4 h)⟩

end PolyOps.Raster
