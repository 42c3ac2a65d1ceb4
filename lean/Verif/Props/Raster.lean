import Verif.Props.RasterQueue
import Verif.Props.RasterSpans
/-! C40: which lines are in the tree when a row is emitted.

Specification (`Active`): the line of node `k` is active in row `y` when its upper end is at or above the row and its lower
end is below it: `upper.y <= y < lower.y`. -/
namespace PolyOps.Raster
open PolyOps.Events

/-- An event of an end of a line. -/
def REv.isEdge : REv → Bool
  | .edge _ _ _ _ => true
  | .swap _ _ _ => false

/-- The lines are not horizontal, have their upper end first, and carry the coordinates of their ends. -/
def WFEnv (E : Env) : Prop := ∀ k < E.nodes.length,
  E.py (E.seg k).a = (E.seg k).pa.y ∧ E.py (E.seg k).b = (E.seg k).pb.y ∧ (E.seg k).pa.y < (E.seg k).pb.y

/-- The line of node `k` crosses row `y`. -/
def Active (E : Env) (y : Int) (k : Nat) : Prop := k < E.nodes.length ∧ (E.seg k).pa.y ≤ y ∧ y < (E.seg k).pb.y

/-- The two events of a line. -/
def fwd (E : Env) (k : Nat) : REv := .edge true (E.seg k).a (E.seg k).b k
def bwd (E : Env) (k : Nat) : REv := .edge false (E.seg k).b (E.seg k).a k

theorem mem_initEvents (E : Env) (e : REv) : e ∈ initEvents E.nodes ↔ ∃ k < E.nodes.length, e = fwd E k ∨ e = bwd E k := by
  unfold initEvents
  simp only [List.mem_flatMap, fbEvents, List.mem_cons, List.not_mem_nil, or_false]
  constructor
  · rintro ⟨⟨s, k⟩, hm, he⟩
    rw [List.mem_zipIdx_iff_getElem?] at hm
    simp only at hm he
    have hk : k < E.nodes.length := by
      by_contra h
      rw [List.getElem?_eq_none (by omega)] at hm
      cases hm
    have hs : E.seg k = s := by
      unfold Env.seg
      rw [List.getD_eq_getElem?_getD, hm]; rfl
    refine ⟨k, hk, ?_⟩
    unfold fwd bwd
    rw [hs]; exact he
  · rintro ⟨k, hk, he⟩
    refine ⟨(E.seg k, k), ?_, he⟩
    rw [List.mem_zipIdx_iff_getElem?]
    simp only [Env.seg, List.getD_eq_getElem?_getD, List.getElem?_eq_getElem hk, Option.getD_some]

theorem initEvents_nodup (E : Env) : (initEvents E.nodes).Nodup := by
  unfold initEvents
  rw [List.nodup_flatMap]
  constructor
  · rintro ⟨s, k⟩ _
    simp [fbEvents]
  · have h : (E.nodes.zipIdx.map Prod.snd).Nodup := by
      rw [List.zipIdx_map_snd]; exact List.nodup_range' ..
    unfold List.Nodup at h
    rw [List.pairwise_map] at h
    refine h.imp ?_
    rintro ⟨s, k⟩ ⟨s', k'⟩ hne
    simp only at hne
    simp only [Function.onFun, fbEvents, List.disjoint_cons_left, List.mem_cons, List.not_mem_nil, or_false,
      REv.edge.injEq, not_or]
    refine ⟨⟨?_, ?_⟩, ⟨?_, ?_⟩, ?_⟩
    · rintro ⟨_, _, _, h⟩; exact hne h
    · rintro ⟨h, _⟩; cases h
    · rintro ⟨h, _⟩; cases h
    · rintro ⟨_, _, _, h⟩; exact hne h
    · exact List.disjoint_nil_left _

/-! ### Crossings lie strictly between the ends -/

/-- Height as a key. -/
def IntrY.key (i : IntrY) : ℤ ×ₗ ℚ := toLex (i.whole, i.frac.val)

/-- Row as a key. -/
def rowKey (y : Int) : ℤ ×ₗ ℚ := toLex (y, 0)

theorem rowKey_lt {a b : Int} : rowKey a < rowKey b ↔ a < b := by
  unfold rowKey; rw [Prod.Lex.toLex_lt_toLex]; simp

theorem rowKey_le {a b : Int} : rowKey a ≤ rowKey b ↔ a ≤ b := by
  rw [← not_lt, rowKey_lt, not_lt]

theorem yk_edge (py : Nat → Int) (f : Bool) (a b k : Nat) : yk py (.edge f a b k) = rowKey (py a) := rfl
theorem yk_swap (py : Nat → Int) (a b : Nat) (i : IntrY) : yk py (.swap a b i) = i.key := rfl

/-- The nodes of a swap exist and the height is strictly between their ends. -/
def SwapOk (E : Env) (s1 s2 : Nat) (iy : IntrY) : Prop :=
  ∀ k, (k = s1 ∨ k = s2) → k < E.nodes.length ∧ rowKey (E.seg k).pa.y < iy.key ∧ iy.key < rowKey (E.seg k).pb.y

theorem inside_onLine {s e : Pt} {X Y : ℚ} (h : Inside s e X Y) : OnLine s e X Y := by
  obtain ⟨t, _, _, rfl, rfl⟩ := h
  unfold OnLine; ring

theorem inside_between {s e : Pt} {X Y : ℚ} (h : Inside s e X Y) (hy : s.y < e.y) : (s.y : ℚ) < Y ∧ Y < e.y := by
  obtain ⟨t, t0, t1, rfl, rfl⟩ := h
  have : (0:ℚ) < (e.y : ℚ) - s.y := by
    have : (s.y : ℚ) < e.y := by exact_mod_cast hy
    linarith
  constructor <;> nlinarith

theorem key_lt_of_val {i : IntrY} (hg : i.Good) {r : Int} : (i.val < r → i.key < rowKey r) ∧ ((r:ℚ) < i.val → rowKey r < i.key) := by
  obtain ⟨_, _, h3, h4⟩ := C42_height_strict i i hg hg r
  rw [cmpInt_lex, compare_lt_iff_lt] at h3
  rw [cmpInt_lex, compare_gt_iff_gt] at h4
  exact ⟨h3, h4⟩

theorem swapOk_of_isect (E : Env) (hE : WFEnv E) (s1 s2 : Nat) (h1 : s1 < E.nodes.length) (h2 : s2 < E.nodes.length)
    (iy : IntrY) (h : isect (E.seg s1) (E.seg s2) = some iy) : SwapOk E s1 s2 iy := by
  obtain ⟨_, _, X, Y, i1, i2⟩ := (C42_crosses (E.seg s1) (E.seg s2)).mp (by rw [h]; rfl)
  have hv := C42_height _ _ _ h X Y (inside_onLine i1) (inside_onLine i2)
  have hg := C42_good _ _ _ h
  intro k hk
  rcases hk with rfl | rfl
  · have := inside_between i1 (hE k h1).2.2
    rw [← hv] at this
    exact ⟨h1, (key_lt_of_val hg).2 this.1, (key_lt_of_val hg).1 this.2⟩
  · have := inside_between i2 (hE k h2).2.2
    rw [← hv] at this
    exact ⟨h2, (key_lt_of_val hg).2 this.1, (key_lt_of_val hg).1 this.2⟩

/-! ### Outcomes -/

/-- The outcome is not undefined behaviour (when `safe`), and a value satisfies `P`. -/
def Res.Sat {α : Type} (r : Res α) (safe : Prop) (P : α → Prop) : Prop :=
  match r with
  | .ok a => P a
  | .ub => ¬ safe
  | .fuel => True

theorem Res.Sat.bind {α β : Type} {r : Res α} {safe : Prop} {P : α → Prop} {f : α → Res β} {Q : β → Prop}
    (h : r.Sat safe P) (hf : ∀ a, P a → (f a).Sat safe Q) : (r.bind f).Sat safe Q := by
  cases r with
  | ok a => exact hf a h
  | ub => exact h
  | fuel => trivial

theorem Res.Sat.mono {α : Type} {r : Res α} {safe : Prop} {P Q : α → Prop} (h : r.Sat safe P) (hf : ∀ a, P a → Q a) :
    r.Sat safe Q := by
  cases r with
  | ok a => exact hf a h
  | ub => exact h
  | fuel => trivial

/-- No reallocation happens. -/
def Env.Safe (E : Env) : Prop := ∀ n, E.realloc n = false

/-- The state grew by swap events after `e`; nothing else of the queue changed. -/
def Ext (E : Env) (e : REv) (st st' : St) : Prop :=
  (∃ news, st'.q.events = st.q.events ++ news ∧
    ∀ n ∈ news, rKey E.py e < rKey E.py n ∧ ∃ s1 s2 i, n = .swap s1 s2 i ∧ SwapOk E s1 s2 i) ∧
  st'.q.pos = st.q.pos ∧ st'.q.last = st.q.last ∧ (E.Safe → st'.gen = st.gen)

theorem Ext.refl (E : Env) (e : REv) (st : St) : Ext E e st st := ⟨⟨[], by simp, by simp⟩, rfl, rfl, fun _ => rfl⟩

theorem Ext.trans {E : Env} {e : REv} {a b c : St} (h1 : Ext E e a b) (h2 : Ext E e b c) : Ext E e a c := by
  obtain ⟨⟨n1, e1, p1⟩, q1, l1, g1⟩ := h1
  obtain ⟨⟨n2, e2, p2⟩, q2, l2, g2⟩ := h2
  refine ⟨⟨n1 ++ n2, by rw [e2, e1, List.append_assoc], ?_⟩, by rw [q2, q1], by rw [l2, l1], fun s => by rw [g2 s, g1 s]⟩
  intro n hn
  rcases List.mem_append.mp hn with h | h
  · exact p1 n h
  · exact p2 n h

theorem Ext.of_eq {E : Env} {e : REv} {a b : St} (hq : b.q = a.q) (hg : b.gen = a.gen) : Ext E e a b :=
  ⟨⟨[], by simp [hq], by simp⟩, by rw [hq], by rw [hq], fun _ => hg⟩

theorem addSwap_ext (E : Env) (e : REv) (s1 s2 : Nat) (iy : IntrY) (st : St) (h : SwapOk E s1 s2 iy)
    (hk : rKey E.py e < rKey E.py (.swap s1 s2 iy)) : Ext E e st (addSwap E s1 s2 iy st) := by
  refine ⟨⟨[.swap s1 s2 iy], rfl, ?_⟩, rfl, rfl, ?_⟩
  · intro n hn
    rw [List.mem_singleton] at hn
    subst hn
    exact ⟨hk, s1, s2, iy, rfl, h⟩
  · intro hs
    unfold addSwap
    simp only
    rw [hs]; simp

theorem rKey_lt_of_yk {py : Nat → Int} {e f : REv} (h : yk py e < yk py f) : rKey py e < rKey py f := by
  unfold rKey; rw [Prod.Lex.toLex_lt_toLex]; exact Or.inl h

theorem yk_le_of_rKey {py : Nat → Int} {e f : REv} (h : rKey py e ≤ rKey py f) : yk py e ≤ yk py f := by
  by_contra hc
  exact absurd (rKey_lt_of_yk (not_le.mp hc)) (not_lt.mpr h)

theorem rank_le_of_rKey {py : Nat → Int} {e f : REv} (h : rKey py e ≤ rKey py f) (hy : yk py e = yk py f) : e.rank ≤ f.rank := by
  unfold rKey at h
  rw [Prod.Lex.toLex_le_toLex, hy] at h
  simp only [lt_irrefl, false_or, true_and, Prod.Lex.toLex_le_toLex] at h
  rcases h with h | ⟨h, _⟩
  · exact h.le
  · exact h.le

theorem check_ext (E : Env) (hE : WFEnv E) (f : Bool) (a b k s1 s2 : Nat) (h1 : s1 < E.nodes.length) (h2 : s2 < E.nodes.length)
    (st : St) : Ext E (.edge f a b k) st (check E s1 s2 (E.py a) st) ∧ (check E s1 s2 (E.py a) st).sweep = st.sweep := by
  unfold check
  cases h : isect (E.seg s1) (E.seg s2) with
  | none => exact ⟨Ext.refl _ _ _, rfl⟩
  | some iy =>
    simp only
    split
    · rename_i hc
      refine ⟨addSwap_ext _ _ _ _ _ _ (swapOk_of_isect E hE s1 s2 h1 h2 iy h) ?_, rfl⟩
      have hle : rowKey (E.py a) ≤ iy.key := by
        rw [cmpInt_lex] at hc
        rw [← not_lt]
        intro hlt
        unfold IntrY.key rowKey at hlt
        rw [compare_lt_iff_lt.mpr hlt] at hc
        exact absurd hc (by decide)
      rcases hle.lt_or_eq with hlt | heq
      · exact rKey_lt_of_yk hlt
      · unfold rKey
        rw [Prod.Lex.toLex_lt_toLex]
        refine Or.inr ⟨heq, ?_⟩
        rw [Prod.Lex.toLex_lt_toLex]
        refine Or.inl ?_
        cases f <;> simp [REv.rank]
    · exact ⟨Ext.refl _ _ _, rfl⟩

theorem nextOf_mem {l : List Nat} {k n : Nat} (h : nextOf l k = some n) : n ∈ l :=
  (List.dropWhile_sublist _).subset (List.mem_of_getElem? h)

theorem prevOf_mem {l : List Nat} {k n : Nat} (h : prevOf l k = some n) : n ∈ l :=
  (List.takeWhile_sublist _).subset (List.mem_of_getLast? h)

theorem insertBefore_perm (l : List Nat) (s1 s2 : Nat) : (insertBefore l s1 s2).Perm (s2 :: l) := by
  unfold insertBefore
  refine List.perm_middle.trans ?_
  rw [List.takeWhile_append_dropWhile]

/-- `swap_and_check` only permutes the lines and adds later swap events. -/
theorem swapAndCheck_sat (E : Env) (hE : WFEnv E) (e : REv) (g : Nat) (y : IntrY) (hy : yk E.py e = y.key) :
    ∀ (f s1 s2 : Nat) (st : St), (E.Safe → st.gen = g) → s1 ∈ st.sweep → s2 ∈ st.sweep → (∀ k ∈ st.sweep, k < E.nodes.length) →
    (swapAndCheck E g y f s1 s2 st).Sat E.Safe fun st' => Ext E e st st' ∧ st'.sweep.Perm st.sweep := by
  intro f
  induction f with
  | zero => intro _ _ _ _ _ _ _; trivial
  | succ f ih =>
    have after : ∀ (s1 s2 : Nat) (st : St), (E.Safe → st.gen = g) → s1 ∈ st.sweep → s2 ∈ st.sweep →
        (∀ k ∈ st.sweep, k < E.nodes.length) →
        (checkAfter E g y (swapAndCheck E g y f) s1 s2 st).Sat E.Safe fun st' => Ext E e st st' ∧ st'.sweep.Perm st.sweep := by
      intro s1 s2 st hg h1 h2 hn
      unfold checkAfter
      cases h : isect (E.seg s1) (E.seg s2) with
      | none => exact ⟨Ext.refl _ _ _, List.Perm.refl _⟩
      | some iy =>
        simp only
        split
        · rename_i hgg
          intro hs
          exact hgg (hg hs).symm
        · split
          · rename_i hc
            split
            · exact ih s1 s2 st hg h1 h2 hn
            · rename_i hne
              refine ⟨addSwap_ext _ _ _ _ _ _ (swapOk_of_isect E hE s1 s2 (hn _ h1) (hn _ h2) iy h) ?_, List.Perm.refl _⟩
              apply rKey_lt_of_yk
              rw [hy, yk_swap]
              rw [cmp_lex] at hc
              refine lt_of_le_of_ne ?_ ?_
              · rw [← not_lt]
                intro hlt
                unfold IntrY.key at hlt
                rw [compare_lt_iff_lt.mpr hlt] at hc
                exact absurd hc (by decide)
              · intro heq
                apply hne
                unfold IntrY.key at heq
                rw [toLex_inj, Prod.mk.injEq] at heq
                unfold IntrY.eq
                rw [decide_eq_true_eq]
                refine ⟨heq.1.symm, ?_⟩
                have := heq.2
                unfold Frac.val at this
                rw [div_eq_div_iff y.frac.den_pos.ne' iy.frac.den_pos.ne'] at this
                have := this.symm
                exact_mod_cast this
          · exact ⟨Ext.refl _ _ _, List.Perm.refl _⟩
    intro s1 s2 st hg h1 h2 hn
    unfold swapAndCheck
    rw [if_pos ⟨h1, h2⟩]
    split
    · exact ⟨Ext.refl _ _ _, List.Perm.refl _⟩
    · simp only
      set st0 : St := { st with sweep := insertBefore (st.sweep.erase s2) s1 s2 } with hst0
      have hp0 : st0.sweep.Perm st.sweep := (insertBefore_perm _ _ _).trans (List.perm_cons_erase h2).symm
      have hx0 : Ext E e st st0 := Ext.of_eq rfl rfl
      have step1 : (match prevOf st0.sweep s2 with
          | none => Res.ok st0
          | some p => checkAfter E g y (swapAndCheck E g y f) p s2 st0).Sat E.Safe
            fun st' => Ext E e st st' ∧ st'.sweep.Perm st.sweep := by
        cases hpr : prevOf st0.sweep s2 with
        | none => exact ⟨hx0, hp0⟩
        | some p =>
          refine (after p s2 st0 (fun s => hg s) (prevOf_mem hpr) (hp0.mem_iff.mpr h2)
            (fun k hk => hn k (hp0.mem_iff.mp hk))).mono ?_
          rintro st' ⟨a, b⟩
          exact ⟨hx0.trans a, b.trans hp0⟩
      refine step1.bind ?_
      rintro st1 ⟨x1, p1⟩
      cases hnx : nextOf st1.sweep s1 with
      | none => exact ⟨x1, p1⟩
      | some n =>
        refine (after s1 n st1 (fun s => by rw [x1.2.2.2 s]; exact hg s) (p1.mem_iff.mpr h1) (nextOf_mem hnx)
          (fun k hk => hn k (p1.mem_iff.mp hk))).mono ?_
        rintro st' ⟨a, b⟩
        exact ⟨x1.trans a, b.trans p1⟩

/-! ### The invariant -/

/-- Events passed. -/
def St.done (st : St) : List REv := st.q.events.take (st.q.pos - 1)
/-- Events to come, the current one first. -/
def St.todo (st : St) : List REv := st.q.events.drop (st.q.pos - 1)

/-- The tree holds exactly the lines whose start was passed and whose end was not. -/
def SweepOk (E : Env) (sweep : List Nat) (done : List REv) : Prop :=
  sweep.Nodup ∧ ∀ k, k ∈ sweep ↔ k < E.nodes.length ∧ fwd E k ∈ done ∧ bwd E k ∉ done

/-- What holds between the steps. -/
structure Inv (E : Env) (st : St) : Prop where
  sorted : RSorted E.py st.q.events
  last : st.q.last = st.q.events.length
  pos : 1 ≤ st.q.pos
  perm : (st.q.events.filter REv.isEdge).Perm (initEvents E.nodes)
  swaps : ∀ s1 s2 i, REv.swap s1 s2 i ∈ st.q.events → SwapOk E s1 s2 i
  sweep : SweepOk E st.sweep st.done

theorem Inv.mem_edge {E : Env} {st : St} (h : Inv E st) {e : REv} (he : e.isEdge = true) :
    e ∈ st.q.events ↔ ∃ k < E.nodes.length, e = fwd E k ∨ e = bwd E k := by
  rw [← mem_initEvents, ← h.perm.mem_iff, List.mem_filter, he]; simp

theorem current_eq {st : St} (hp : 1 ≤ st.q.pos) : st.q.current = st.q.events[st.q.pos - 1]? := by
  unfold RQueue.current; rw [if_neg (by omega)]

theorem todo_of_current {st : St} (hp : 1 ≤ st.q.pos) {e : REv} (h : st.q.current = some e) :
    st.todo = e :: st.q.events.drop st.q.pos ∧ st.q.pos ≤ st.q.events.length ∧
    st.q.events.take st.q.pos = st.done ++ [e] := by
  rw [current_eq hp] at h
  obtain ⟨hlt, he⟩ := List.getElem?_eq_some_iff.mp h
  refine ⟨?_, by omega, ?_⟩
  · unfold St.todo
    rw [List.drop_eq_getElem_cons hlt, he, show st.q.pos - 1 + 1 = st.q.pos by omega]
  · unfold St.done
    conv_lhs => rw [show st.q.pos = st.q.pos - 1 + 1 by omega, List.take_succ_eq_append_getElem hlt, he]

theorem todo_nil {st : St} (hp : 1 ≤ st.q.pos) (h : st.q.current = none) : st.todo = [] := by
  rw [current_eq hp, List.getElem?_eq_none_iff] at h
  unfold St.todo
  exact List.drop_eq_nil_iff.mpr h

theorem events_split (st : St) : st.q.events = st.done ++ st.todo := (List.take_append_drop _ _).symm

theorem Inv.todo_ge {E : Env} {st : St} (h : Inv E st) {e : REv} (hc : st.q.current = some e) : ∀ f ∈ st.todo, Le E.py e f := by
  obtain ⟨ht, _, _⟩ := todo_of_current h.pos hc
  have hs : RSorted E.py st.todo := h.sorted.sublist (List.drop_sublist _ _)
  rw [ht] at hs ⊢
  intro f hf
  rcases List.mem_cons.mp hf with rfl | hf
  · exact le_rfl
  · exact (List.pairwise_cons.mp hs).1 f hf

theorem Inv.done_le {E : Env} {st : St} (h : Inv E st) {e : REv} (hc : st.q.current = some e) :
    ∀ f ∈ st.q.events.take st.q.pos, Le E.py f e := by
  obtain ⟨ht, _, hd⟩ := todo_of_current h.pos hc
  have hs := h.sorted
  rw [events_split st, ht] at hs
  unfold RSorted at hs
  rw [List.pairwise_append] at hs
  rw [hd]
  intro f hf
  rcases List.mem_append.mp hf with hf | hf
  · exact hs.2.2 f hf e (by simp)
  · rw [List.mem_singleton] at hf; subst hf; exact le_rfl

/-- An event that compares less than the current one was passed, one that compares greater was not. -/
theorem Inv.mem_done {E : Env} {st : St} (h : Inv E st) {e : REv} (hc : st.q.current = some e) {f : REv} (hf : f ∈ st.q.events) :
    (rKey E.py f < rKey E.py e → f ∈ st.done) ∧ (rKey E.py e < rKey E.py f → f ∉ st.done) := by
  constructor
  · intro hlt
    rw [events_split st] at hf
    rcases List.mem_append.mp hf with hf | hf
    · exact hf
    · exact absurd (h.todo_ge hc f hf) (not_le.mpr hlt)
  · intro hlt hm
    obtain ⟨_, _, hd⟩ := todo_of_current h.pos hc
    have := h.done_le hc f (by rw [hd]; simp [hm])
    exact absurd this (not_le.mpr hlt)

/-- The current event of a line end was not passed before. -/
theorem Inv.current_fresh {E : Env} {st : St} (h : Inv E st) {e : REv} (hc : st.q.current = some e) (he : e.isEdge = true) :
    e ∉ st.done := by
  obtain ⟨ht, _, _⟩ := todo_of_current h.pos hc
  have hn := (h.perm.nodup_iff).mpr (initEvents_nodup E)
  rw [events_split st, ht, List.filter_append, List.filter_cons, if_pos he] at hn
  intro hm
  have := (List.nodup_append.mp hn).2.2 e (by rw [List.mem_filter]; exact ⟨hm, he⟩) e (by simp)
  exact this rfl

/-- One step: the current event is passed and later swap events are added. -/
theorem step_inv {E : Env} {st st1 : St} {e : REv} (h : Inv E st) (hc : st.q.current = some e) (hx : Ext E e st st1)
    (hs : SweepOk E st1.sweep (st.done ++ [e])) :
    Inv E (step E st1) ∧ (step E st1).done = st.done ++ [e] ∧
    (∀ f ∈ (step E st1).todo, Le E.py e f ∧ (f.isEdge = true → f ∈ st.todo)) ∧ (step E st1).gen = st1.gen := by
  obtain ⟨⟨news, hev, hnw⟩, hpos, hlast, hgen⟩ := hx
  obtain ⟨ht, hle, hd⟩ := todo_of_current h.pos hc
  have hll : st1.q.last = st.q.events.length := by rw [hlast, h.last]
  have htk : st1.q.events.take st1.q.last = st.q.events := by rw [hll, hev]; simp
  have hdr : st1.q.events.drop st1.q.last = news := by rw [hll, hev]; simp
  have htp : st1.q.events.take st1.q.pos = st.q.events.take st.q.pos := by
    rw [hev, hpos, List.take_append_of_le_length hle]
  have hp1 := h.pos
  obtain ⟨n1, n2, n3, n4, n5⟩ := next_spec E.py st1.q (by rw [hll, hev]; simp) (by rw [htk]; exact h.sorted)
    (by rw [hpos, hll]; exact hle) (by rw [hll]; omega) (by
      rw [hdr, htp]
      intro x hx f hf
      exact lt_of_le_of_lt (h.done_le hc f hf) (hnw x hx).1)
  have hdone : (step E st1).done = st.done ++ [e] := by
    show ((st1.q.next E.py).events).take ((st1.q.next E.py).pos - 1) = _
    rw [n5, show st1.q.pos + 1 - 1 = st1.q.pos by omega, n3, htp, hd]
  have hinv : Inv E (step E st1) := by
    refine ⟨n2, n4, ?_, ?_, ?_, ?_⟩
    · show 1 ≤ (st1.q.next E.py).pos
      rw [n5]; omega
    · refine (n1.filter _).trans ?_
      rw [hev, List.filter_append, (List.filter_eq_nil_iff (l := news)).mpr, List.append_nil]
      · exact h.perm
      · intro x hx
        obtain ⟨_, s1, s2, i, rfl, _⟩ := hnw x hx
        simp [REv.isEdge]
    · intro s1 s2 i hm
      have := n1.mem_iff.mp hm
      rw [hev] at this
      rcases List.mem_append.mp this with hm | hm
      · exact h.swaps s1 s2 i hm
      · obtain ⟨_, t1, t2, j, he, hok⟩ := hnw _ hm
        cases he
        exact hok
    · rw [hdone]; exact hs
  refine ⟨hinv, hdone, ?_, rfl⟩
  have hperm : ((st.done ++ [e]) ++ (step E st1).todo).Perm ((st.done ++ [e]) ++ (st.q.events.drop st.q.pos ++ news)) := by
    rw [← hdone, ← events_split]
    refine n1.trans ?_
    rw [hdone, ← hd, ← List.append_assoc, List.take_append_drop, hev]
  rw [List.perm_append_left_iff] at hperm
  intro f hf
  rcases List.mem_append.mp (hperm.mem_iff.mp hf) with hf | hf
  · have hm : f ∈ st.todo := by rw [ht]; simp [hf]
    exact ⟨h.todo_ge hc f hm, fun _ => hm⟩
  · obtain ⟨hk, s1, s2, i, rfl, _⟩ := hnw f hf
    exact ⟨hk.le, fun he => by simp [REv.isEdge] at he⟩

theorem sweepOk_append_swap {E : Env} {l : List Nat} {d : List REv} {s1 s2 : Nat} {i : IntrY} (h : SweepOk E l d) :
    SweepOk E l (d ++ [.swap s1 s2 i]) := by
  refine ⟨h.1, fun k => ?_⟩
  rw [h.2 k]
  simp [fwd, bwd]

theorem fwd_inj {E : Env} {k k' : Nat} : fwd E k = fwd E k' ↔ k = k' := by
  constructor
  · intro h; unfold fwd at h; rw [REv.edge.injEq] at h; exact h.2.2.2
  · rintro rfl; rfl

theorem bwd_inj {E : Env} {k k' : Nat} : bwd E k = bwd E k' ↔ k = k' := by
  constructor
  · intro h; unfold bwd at h; rw [REv.edge.injEq] at h; exact h.2.2.2
  · rintro rfl; rfl

theorem fwd_ne_bwd {E : Env} {k k' : Nat} : fwd E k ≠ bwd E k' := by unfold fwd bwd; simp

theorem fwd_lt_bwd {E : Env} (hE : WFEnv E) {k : Nat} (hk : k < E.nodes.length) : rKey E.py (fwd E k) < rKey E.py (bwd E k) := by
  apply rKey_lt_of_yk
  unfold fwd bwd
  rw [yk_edge, yk_edge, rowKey_lt, (hE k hk).1, (hE k hk).2.1]
  exact (hE k hk).2.2

/-- The nodes of the current swap event are in the tree. -/
theorem Inv.swap_mem {E : Env} (hE : WFEnv E) {st : St} (h : Inv E st) {s1 s2 : Nat} {i : IntrY}
    (hc : st.q.current = some (.swap s1 s2 i)) : s1 ∈ st.sweep ∧ s2 ∈ st.sweep := by
  obtain ⟨ht, _, _⟩ := todo_of_current h.pos hc
  have hm : REv.swap s1 s2 i ∈ st.q.events := by rw [events_split st, ht]; simp
  have hok := h.swaps _ _ _ hm
  have key : ∀ k, (k = s1 ∨ k = s2) → k ∈ st.sweep := by
    intro k hk
    obtain ⟨a, b, c⟩ := hok k hk
    rw [h.sweep.2 k]
    refine ⟨a, (h.mem_done hc ((h.mem_edge rfl).mpr ⟨k, a, Or.inl rfl⟩)).1 ?_,
      (h.mem_done hc ((h.mem_edge rfl).mpr ⟨k, a, Or.inr rfl⟩)).2 ?_⟩
    · apply rKey_lt_of_yk; unfold fwd; rw [yk_edge, yk_swap, (hE k a).1]; exact b
    · apply rKey_lt_of_yk; unfold bwd; rw [yk_edge, yk_swap, (hE k a).2.1]; exact c
  exact ⟨key s1 (Or.inl rfl), key s2 (Or.inr rfl)⟩

theorem Inv.sweep_lt {E : Env} {st : St} (h : Inv E st) : ∀ k ∈ st.sweep, k < E.nodes.length :=
  fun k hk => ((h.sweep.2 k).mp hk).1

theorem doBackward_sat (E : Env) (hE : WFEnv E) (st : St) (h : Inv E st) (a b k : Nat)
    (hc : st.q.current = some (.edge false a b k)) :
    (doBackward E k (E.py a) st).Sat E.Safe fun st' => Ext E (.edge false a b k) st st' ∧
      SweepOk E st'.sweep (st.done ++ [.edge false a b k]) := by
  obtain ⟨ht, _, _⟩ := todo_of_current h.pos hc
  have hm : REv.edge false a b k ∈ st.q.events := by rw [events_split st, ht]; simp
  obtain ⟨k', hk', he⟩ := (h.mem_edge rfl).mp hm
  have hkk : k = k' := by
    rcases he with he | he
    · unfold fwd at he; rw [REv.edge.injEq] at he; exact he.2.2.2
    · unfold bwd at he; rw [REv.edge.injEq] at he; exact he.2.2.2
  subst hkk
  have hb : REv.edge false a b k = bwd E k := by
    rcases he with he | he
    · unfold fwd at he; rw [REv.edge.injEq] at he; cases he.1
    · exact he
  have hin : k ∈ st.sweep := by
    rw [h.sweep.2 k]
    refine ⟨hk', (h.mem_done hc ((h.mem_edge rfl).mpr ⟨k, hk', Or.inl rfl⟩)).1 ?_, ?_⟩
    · rw [hb]; exact fwd_lt_bwd hE hk'
    · rw [← hb]; exact h.current_fresh hc rfl
  have hsw : SweepOk E (st.sweep.erase k) (st.done ++ [.edge false a b k]) := by
    refine ⟨h.sweep.1.erase k, fun j => ?_⟩
    rw [h.sweep.1.mem_erase_iff, h.sweep.2 j, hb]
    simp only [List.mem_append, List.mem_singleton, fwd_ne_bwd, or_false, bwd_inj, not_or]
    tauto
  unfold doBackward
  rw [if_pos hin]
  simp only
  cases hn : nextOf st.sweep k with
  | none => exact ⟨Ext.of_eq rfl rfl, hsw⟩
  | some n =>
    simp only
    cases hp : prevOf (st.sweep.erase k) n with
    | none => exact ⟨Ext.of_eq rfl rfl, hsw⟩
    | some p =>
      simp only
      obtain ⟨c1, c2⟩ := check_ext E hE false a b k p n (h.sweep_lt p (List.mem_of_mem_erase (prevOf_mem hp)))
        (h.sweep_lt n (nextOf_mem hn)) { st with sweep := st.sweep.erase k }
      refine ⟨Ext.trans (Ext.of_eq rfl rfl) c1, ?_⟩
      rw [c2]; exact hsw

theorem doForward_sat (E : Env) (hE : WFEnv E) (row : Int) (st : St) (h : Inv E st) (a b k : Nat)
    (hc : st.q.current = some (.edge true a b k)) :
    (doForward E row k (E.py a) st).Sat E.Safe fun st' => Ext E (.edge true a b k) st st' ∧
      SweepOk E st'.sweep (st.done ++ [.edge true a b k]) := by
  obtain ⟨ht, _, _⟩ := todo_of_current h.pos hc
  have hm : REv.edge true a b k ∈ st.q.events := by rw [events_split st, ht]; simp
  obtain ⟨k', hk', he⟩ := (h.mem_edge rfl).mp hm
  have hkk : k = k' := by
    rcases he with he | he
    · unfold fwd at he; rw [REv.edge.injEq] at he; exact he.2.2.2
    · unfold bwd at he; rw [REv.edge.injEq] at he; exact he.2.2.2
  subst hkk
  have hb : REv.edge true a b k = fwd E k := by
    rcases he with he | he
    · exact he
    · unfold bwd at he; rw [REv.edge.injEq] at he; cases he.1
  have hfresh : fwd E k ∉ st.done := by rw [← hb]; exact h.current_fresh hc rfl
  have hout : k ∉ st.sweep := by
    rw [h.sweep.2 k]
    rintro ⟨_, h2, _⟩
    exact hfresh h2
  have hbout : bwd E k ∉ st.done := (h.mem_done hc ((h.mem_edge rfl).mpr ⟨k, hk', Or.inr rfl⟩)).2 (by
    rw [hb]; exact fwd_lt_bwd hE hk')
  have hperm : ∀ i, (st.sweep.take i ++ k :: st.sweep.drop i).Perm (k :: st.sweep) := by
    intro i
    refine List.perm_middle.trans ?_
    rw [List.take_append_drop]
  have hsw : ∀ i, SweepOk E (st.sweep.take i ++ k :: st.sweep.drop i) (st.done ++ [.edge true a b k]) := by
    intro i
    refine ⟨(hperm i).nodup_iff.mpr (List.nodup_cons.mpr ⟨hout, h.sweep.1⟩), fun j => ?_⟩
    rw [(hperm i).mem_iff, List.mem_cons, h.sweep.2 j, hb]
    simp only [List.mem_append, List.mem_singleton, fwd_inj, fwd_ne_bwd.symm, or_false]
    constructor
    · rintro (rfl | ⟨a, b, c⟩)
      · exact ⟨hk', Or.inr rfl, hbout⟩
      · exact ⟨a, Or.inl b, c⟩
    · rintro ⟨a, b | b, c⟩
      · exact Or.inr ⟨a, b, c⟩
      · exact Or.inl b
  have hlt : ∀ i, ∀ j ∈ st.sweep.take i ++ k :: st.sweep.drop i, j < E.nodes.length := by
    intro i j hj
    rcases List.mem_cons.mp ((hperm i).mem_iff.mp hj) with rfl | hj
    · exact hk'
    · exact h.sweep_lt j hj
  unfold doForward
  rw [if_neg hout]
  simp only
  generalize hst0 : ({ st with sweep := st.sweep.take (st.orc 0 row st.sweep k) ++ k :: st.sweep.drop (st.orc 0 row st.sweep k), orc := fun n => st.orc (n + 1) } : St) = st0
  have hs0 : st0.sweep = st.sweep.take (st.orc 0 row st.sweep k) ++ k :: st.sweep.drop (st.orc 0 row st.sweep k) := by rw [← hst0]
  have hx0 : Ext E (.edge true a b k) st st0 := Ext.of_eq (by rw [← hst0]) (by rw [← hst0])
  rw [← hs0]
  have cont : ∀ st1, Ext E (.edge true a b k) st st1 → st1.sweep = st0.sweep → (match nextOf st1.sweep k with
      | none => Res.ok st1
      | some n => if st.gen ≠ st1.gen then Res.ub else Res.ok (check E k n (E.py a) st1)).Sat E.Safe
        fun st' => Ext E (.edge true a b k) st st' ∧ SweepOk E st'.sweep (st.done ++ [REv.edge true a b k]) := by
    intro st1 x1 w1
    cases hn : nextOf st1.sweep k with
    | none => exact ⟨x1, by rw [w1, hs0]; exact hsw _⟩
    | some n =>
      simp only
      split
      · rename_i hg
        intro hs
        exact hg (x1.2.2.2 hs).symm
      · obtain ⟨c1, c2⟩ := check_ext E hE true a b k k n hk' (hlt _ n (by rw [← hs0, ← w1]; exact nextOf_mem hn)) st1
        exact ⟨x1.trans c1, by rw [c2, w1, hs0]; exact hsw _⟩
  cases hp : prevOf st0.sweep k with
  | none => exact cont st0 hx0 rfl
  | some p =>
    obtain ⟨c1, c2⟩ := check_ext E hE true a b k p k (hlt _ p (by rw [← hs0]; exact prevOf_mem hp)) hk' st0
    exact cont _ (hx0.trans c1) c2

/-! ### Phases -/

/-- Ends of lines passed are at or above row `y`. -/
def DoneLe (E : Env) (y : Int) (st : St) : Prop := ∀ f ∈ st.done, f.isEdge = true → E.py f.a ≤ y
/-- Ends of lines to come are at or below row `y`. -/
def TodoGe (E : Env) (y : Int) (st : St) : Prop := ∀ f ∈ st.todo, f.isEdge = true → y ≤ E.py f.a
/-- All events to come are at or below row `y`. -/
def AllGe (E : Env) (y : Int) (st : St) : Prop := ∀ f ∈ st.todo, rowKey y ≤ yk E.py f
/-- Lower ends to come are below row `y`. -/
def BackGt (E : Env) (y : Int) (st : St) : Prop := ∀ f ∈ st.todo, f.rank = 0 → y < E.py f.a

theorem yk_of_edge {py : Nat → Int} {f : REv} (h : f.isEdge = true) : yk py f = rowKey (py f.a) := by
  cases f with
  | edge => rfl
  | swap => simp [REv.isEdge] at h

theorem swapPhase_sat (E : Env) (hE : WFEnv E) (y : Int) : ∀ (f : Nat) (st : St), Inv E st → DoneLe E y st → TodoGe E y st →
    (swapPhase E y f st).Sat E.Safe fun st' => Inv E st' ∧ DoneLe E y st' ∧ AllGe E y st' := by
  intro f
  induction f with
  | zero => intro _ _ _ _; trivial
  | succ f ih =>
    intro st hi hd ht
    unfold swapPhase
    have fin : (∀ e, st.q.current = some e → rowKey y ≤ yk E.py e) → AllGe E y st := by
      intro hh
      cases hc : st.q.current with
      | none =>
        intro g hg
        rw [todo_nil hi.pos hc] at hg
        simp at hg
      | some e =>
        intro g hg
        exact (hh e hc).trans (yk_le_of_rKey (hi.todo_ge hc g hg))
    split
    · rename_i s1 s2 iy hc
      split
      · obtain ⟨m1, m2⟩ := hi.swap_mem hE hc
        refine (swapAndCheck_sat E hE (.swap s1 s2 iy) st.gen iy rfl f s1 s2 st (fun _ => rfl) m1 m2 hi.sweep_lt).bind ?_
        rintro st1 ⟨hx, hp⟩
        obtain ⟨j1, j2, j3, _⟩ := step_inv hi hc hx (sweepOk_append_swap ⟨hp.nodup_iff.mpr hi.sweep.1, fun k => by
          rw [hp.mem_iff]; exact hi.sweep.2 k⟩)
        apply ih _ j1
        · intro g hg he
          rw [j2] at hg
          rcases List.mem_append.mp hg with hg | hg
          · exact hd g hg he
          · rw [List.mem_singleton] at hg; subst hg; simp [REv.isEdge] at he
        · intro g hg he
          exact ht g ((j3 g hg).2 he) he
      · rename_i hgt
        refine ⟨hi, hd, fin ?_⟩
        intro e he
        rw [hc] at he
        cases he
        rw [yk_swap]
        unfold leY at hgt
        simp only at hgt
        rw [cmpInt_lex] at hgt
        rw [bne_iff_ne, not_not, compare_gt_iff_gt] at hgt
        exact le_of_lt hgt
    · rename_i hne
      refine ⟨hi, hd, fin ?_⟩
      intro e he
      cases e with
      | edge fw a b k =>
        rw [yk_edge, rowKey_le]
        obtain ⟨htt, _, _⟩ := todo_of_current hi.pos he
        exact ht (.edge fw a b k) (by rw [htt]; simp) rfl
      | swap s1 s2 iy => exact absurd he (hne s1 s2 iy)

theorem backwardPhase_sat (E : Env) (hE : WFEnv E) (y : Int) : ∀ (f : Nat) (st : St), Inv E st → DoneLe E y st → AllGe E y st →
    (backwardPhase E y f st).Sat E.Safe fun st' => Inv E st' ∧ DoneLe E y st' ∧ AllGe E y st' ∧ BackGt E y st' := by
  intro f
  induction f with
  | zero => intro _ _ _ _; trivial
  | succ f ih =>
    intro st hi hd ha
    unfold backwardPhase
    have fin : (∀ e, st.q.current = some e → e.rank ≠ 0 ∨ y < E.py e.a) → BackGt E y st := by
      intro hh g hg hr
      cases hc : st.q.current with
      | none =>
        rw [todo_nil hi.pos hc] at hg
        simp at hg
      | some e =>
        have hge : g.isEdge = true := by cases g with
          | edge => rfl
          | swap => simp [REv.rank] at hr
        have hle := hi.todo_ge hc g hg
        have hyk := yk_le_of_rKey hle
        rw [yk_of_edge hge] at hyk
        obtain ⟨htt, _, _⟩ := todo_of_current hi.pos hc
        have hey := ha e (by rw [htt]; simp)
        rcases (hey.trans hyk).lt_or_eq with hlt | heq
        · exact rowKey_lt.mp hlt
        · exfalso
          have h1 : yk E.py e = yk E.py g := by rw [yk_of_edge hge]; exact le_antisymm hyk (by rw [← heq]; exact hey)
          have h2 := rank_le_of_rKey hle h1
          rw [hr] at h2
          rcases hh e hc with h3 | h3
          · omega
          · have : e.isEdge = true := by cases e with
              | edge => rfl
              | swap => simp [REv.rank] at h2
            rw [yk_of_edge this, ← yk_of_edge this, h1, yk_of_edge hge, ← heq] at hey
            rw [yk_of_edge this, yk_of_edge hge, ← heq] at h1
            have := rowKey_le.mp h1.le
            omega
    split
    · rename_i a b k hc
      split
      · rename_i hle
        refine (doBackward_sat E hE st hi a b k hc).bind ?_
        rintro st1 ⟨hx, hs⟩
        obtain ⟨j1, j2, j3, _⟩ := step_inv hi hc hx hs
        apply ih _ j1
        · intro g hg he
          rw [j2] at hg
          rcases List.mem_append.mp hg with hg | hg
          · exact hd g hg he
          · rw [List.mem_singleton] at hg; subst hg
            simpa [leY, REv.a] using hle
        · intro g hg
          obtain ⟨htt, _, _⟩ := todo_of_current hi.pos hc
          exact (ha (.edge false a b k) (by rw [htt]; simp)).trans (yk_le_of_rKey (j3 g hg).1)
      · rename_i hgt
        refine ⟨hi, hd, ha, fin ?_⟩
        intro e he
        rw [hc] at he
        cases he
        right
        simpa [leY, REv.a] using hgt
    · rename_i hne
      refine ⟨hi, hd, ha, fin ?_⟩
      intro e he
      left
      cases e with
      | edge fw a b k =>
        cases fw
        · exact absurd he (hne a b k)
        · simp [REv.rank]
      | swap s1 s2 iy => simp [REv.rank]

theorem forwardPhase_sat (E : Env) (hE : WFEnv E) (y : Int) : ∀ (f : Nat) (st : St), Inv E st → DoneLe E y st → AllGe E y st →
    BackGt E y st → (forwardPhase E y f st).Sat E.Safe fun st' => Inv E st' ∧ DoneLe E y st' ∧ TodoGe E (y + 1) st' := by
  intro f
  induction f with
  | zero => intro _ _ _ _ _; trivial
  | succ f ih =>
    intro st hi hd ha hb
    unfold forwardPhase
    have fin : (∀ e, st.q.current = some e → e.rank = 1 → y < E.py e.a) → TodoGe E (y + 1) st := by
      intro hh g hg hge
      cases hc : st.q.current with
      | none =>
        rw [todo_nil hi.pos hc] at hg
        simp at hg
      | some e =>
        have hle := hi.todo_ge hc g hg
        have hyk := yk_le_of_rKey hle
        rw [yk_of_edge hge] at hyk
        obtain ⟨htt, _, _⟩ := todo_of_current hi.pos hc
        have hme : e ∈ st.todo := by rw [htt]; simp
        have hey := ha e hme
        rcases (hey.trans hyk).lt_or_eq with hlt | heq
        · have := rowKey_lt.mp hlt; omega
        · exfalso
          have h1 : yk E.py e = yk E.py g := by rw [yk_of_edge hge]; exact le_antisymm hyk (by rw [← heq]; exact hey)
          have h2 := rank_le_of_rKey hle h1
          have hgr : g.rank ≤ 1 := by
            cases g with
            | edge fw a b k => cases fw <;> simp [REv.rank]
            | swap => simp [REv.isEdge] at hge
          have hee : e.isEdge = true := by cases e with
              | edge => rfl
              | swap =>
                have : (2 : Nat) ≤ g.rank := h2
                omega
          rw [yk_of_edge hee, yk_of_edge hge, ← heq] at h1
          have hya := rowKey_le.mp h1.le
          have : e.rank = 0 ∨ e.rank = 1 := by omega
          rcases this with h3 | h3
          · have := hb e hme h3; omega
          · have := hh e hc h3; omega
    split
    · rename_i a b k hc
      split
      · rename_i hle
        refine (doForward_sat E hE y st hi a b k hc).bind ?_
        rintro st1 ⟨hx, hs⟩
        obtain ⟨j1, j2, j3, _⟩ := step_inv hi hc hx hs
        apply ih _ j1
        · intro g hg he
          rw [j2] at hg
          rcases List.mem_append.mp hg with hg | hg
          · exact hd g hg he
          · rw [List.mem_singleton] at hg; subst hg
            simpa [leY, REv.a] using hle
        · intro g hg
          obtain ⟨htt, _, _⟩ := todo_of_current hi.pos hc
          exact (ha (.edge true a b k) (by rw [htt]; simp)).trans (yk_le_of_rKey (j3 g hg).1)
        · intro g hg hr
          have hge : g.isEdge = true := by cases g with
            | edge => rfl
            | swap => simp [REv.rank] at hr
          exact hb g ((j3 g hg).2 hge) hr
      · rename_i hgt
        refine ⟨hi, hd, fin ?_⟩
        intro e he _
        rw [hc] at he
        cases he
        simpa [leY, REv.a] using hgt
    · rename_i hne
      refine ⟨hi, hd, fin ?_⟩
      intro e he hr
      cases e with
      | edge fw a b k =>
        cases fw
        · simp [REv.rank] at hr
        · exact absurd he (hne a b k)
      | swap s1 s2 iy => simp [REv.rank] at hr

theorem doRow_sat (E : Env) (hE : WFEnv E) (y : Int) (f : Nat) (st : St) (hi : Inv E st) (hd : DoneLe E y st) (ht : TodoGe E y st) :
    (doRow E y f st).Sat E.Safe fun st' => Inv E st' ∧ DoneLe E y st' ∧ TodoGe E (y + 1) st' := by
  unfold doRow
  refine (swapPhase_sat E hE y f st hi hd ht).bind ?_
  rintro st1 ⟨a1, a2, a3⟩
  refine (backwardPhase_sat E hE y f st1 a1 a2 a3).bind ?_
  rintro st2 ⟨b1, b2, b3, b4⟩
  exact forwardPhase_sat E hE y f st2 b1 b2 b3 b4

theorem Inv.active {E : Env} (hE : WFEnv E) {st : St} (hi : Inv E st) {y : Int} (hd : DoneLe E y st) (ht : TodoGe E (y + 1) st) (k : Nat) :
    k ∈ st.sweep ↔ Active E y k := by
  rw [hi.sweep.2 k]
  unfold Active
  refine and_congr_right ?_
  intro hk
  have mem : ∀ e : REv, e.isEdge = true → (e = fwd E k ∨ e = bwd E k) → (e ∈ st.done ↔ E.py e.a ≤ y) := by
    intro e he hfb
    have hm := (hi.mem_edge he).mpr ⟨k, hk, hfb⟩
    rw [events_split st] at hm
    constructor
    · intro h; exact hd e h he
    · intro h
      rcases List.mem_append.mp hm with hm | hm
      · exact hm
      · have := ht e hm he; omega
  rw [mem (fwd E k) rfl (Or.inl rfl), mem (bwd E k) rfl (Or.inr rfl)]
  have e1 : E.py (fwd E k).a = (E.seg k).pa.y := (hE k hk).1
  have e2 : E.py (bwd E k).a = (E.seg k).pb.y := (hE k hk).2.1
  rw [e1, e2, not_le]

/-- What a scan emits, row by row. -/
theorem rows_sat (E : Env) (hE : WFEnv E) (h : Int) : ∀ (f : Nat) (y : Int) (st : St), Inv E st → DoneLe E (y - 1) st →
    TodoGe E y st → (rows E h f y st).Sat E.Safe fun r =>
      (∀ row ∈ r, row.2.Nodup ∧ ∀ k, k ∈ row.2 ↔ Active E row.1 k) ∧
      r.map Prod.fst = (List.range r.length).map (fun i : Nat => y + (i : Int)) ∧
      (∀ Y, y ≤ Y → Y < h → (∃ k, Active E Y k) → ∃ row ∈ r, row.1 = Y) ∧ (∀ row ∈ r, row.1 < h) := by
  intro f
  induction f with
  | zero => intro _ _ _ _ _; trivial
  | succ f ih =>
    intro y st hi hd ht
    unfold rows
    split
    · rename_i hc
      have hdy : DoneLe E y st := fun g hg he => by have := hd g hg he; omega
      refine (doRow_sat E hE y f st hi hdy ht).bind ?_
      rintro st1 ⟨a1, a2, a3⟩
      refine (ih (y + 1) st1 a1 (by rw [show y + 1 - 1 = y by omega]; exact a2) a3).bind ?_
      rintro r ⟨r1, r2, r3, r4⟩
      refine ⟨?_, ?_, ?_, ?_⟩
      · intro row hr
        rcases List.mem_cons.mp hr with rfl | hr
        · exact ⟨a1.sweep.1, fun k => a1.active hE a2 a3 k⟩
        · exact r1 row hr
      · rw [List.map_cons, r2, List.length_cons, List.range_succ_eq_map, List.map_cons, List.map_map]
        simp only [Nat.cast_zero, add_zero]
        congr 1
        apply List.map_congr_left
        intro i _
        simp only [Function.comp, Nat.succ_eq_add_one]
        push_cast
        omega
      · intro Y h1 h2 h3
        rcases h1.lt_or_eq with h1 | rfl
        · obtain ⟨row, hr, rfl⟩ := r3 Y (by omega) h2 h3
          exact ⟨row, by simp [hr], rfl⟩
        · exact ⟨_, List.mem_cons_self, rfl⟩
      · intro row hr
        rcases List.mem_cons.mp hr with rfl | hr
        · exact hc.2
        · exact r4 row hr
    · rename_i hc
      refine ⟨by simp, by simp, ?_, by simp⟩
      rintro Y h1 h2 ⟨k, hk, h3, h4⟩
      exfalso
      apply hc
      refine ⟨?_, by omega⟩
      by_contra hn
      rw [Option.not_isSome_iff_eq_none] at hn
      have htd := todo_nil hi.pos hn
      have hm := (hi.mem_edge (e := bwd E k) rfl).mpr ⟨k, hk, Or.inr rfl⟩
      rw [events_split st, htd, List.append_nil] at hm
      have := hd _ hm rfl
      have e2 : E.py (bwd E k).a = (E.seg k).pb.y := (hE k hk).2.1
      omega

/-! ### The start of a scan -/

theorem wf_envOf (l : LPts) (realloc : Nat → Bool) : WFEnv (envOf l realloc) := by
  intro k hk
  have hm : (envOf l realloc).seg k ∈ edges l := by
    unfold Env.seg
    rw [List.getD_eq_getElem?_getD, List.getElem?_eq_getElem hk, Option.getD_some]
    exact List.getElem_mem hk
  unfold edges at hm
  rw [List.mem_filterMap] at hm
  obtain ⟨i, _, he⟩ := hm
  simp only at he
  have hpy : (envOf l realloc).py = ptY l := rfl
  rw [hpy]
  split at he
  · rename_i hne
    rw [Option.some.injEq] at he
    rw [← he]
    simp only
    refine ⟨rfl, rfl, ?_⟩
    show ptY l _ < ptY l _
    split
    · rename_i h; exact h
    · rename_i h; simp only; omega
  · cases he

theorem initSt_inv (E : Env) (orc : Nat → Place) : Inv E (initSt E orc) ∧ (initSt E orc).done = [] := by
  obtain ⟨h1, h2, h3, h4⟩ := next_first E.py (initEvents E.nodes)
  have hd : (initSt E orc).done = [] := by
    have h4' : (initSt E orc).q.pos = 1 := h4
    unfold St.done
    rw [h4']; rfl
  have hall : ∀ e ∈ initEvents E.nodes, e.isEdge = true := by
    intro e he
    obtain ⟨k, _, rfl | rfl⟩ := (mem_initEvents E e).mp he <;> rfl
  refine ⟨⟨h2, h3, (show (initSt E orc).q.pos = 1 from h4).ge, ?_, ?_, ?_⟩, hd⟩
  · refine (h1.filter _).trans ?_
    rw [List.filter_eq_self.mpr hall]
  · intro s1 s2 i hm
    have := hall _ (h1.mem_iff.mp hm)
    simp [REv.isEdge] at this
  · rw [hd]
    exact ⟨List.nodup_nil, by simp [initSt]⟩

/-- C40: in every scan that ends, the tree of an emitted row holds, once each, exactly the lines that are not horizontal with
upper y <= row < lower y; the rows are consecutive, and every row below `h` (the height of the image) that is crossed
by a line is emitted. `orc` (where the tree puts new lines) and `realloc` are arbitrary. -/
theorem C40_rows (l : LPts) (realloc : Nat → Bool) (orc : Nat → Place) (h : Int) (f : Nat) (r : List (Int × List Nat))
    (hr : scanRows l realloc orc h f = .ok r) :
    (∀ row ∈ r, row.2.Nodup ∧ ∀ k, k ∈ row.2 ↔ Active (envOf l realloc) row.1 k) ∧
    (∃ y0 : Int, r.map Prod.fst = (List.range r.length).map (fun i : Nat => y0 + (i : Int))) ∧
    (∀ Y, Y < h → (∃ k, Active (envOf l realloc) Y k) → ∃ row ∈ r, row.1 = Y) ∧ (∀ row ∈ r, row.1 < h) ∧
    (∀ row ∈ r, ∃ s ∈ edges l, s.pa.y ≤ row.1) := by
  set E := envOf l realloc with hE
  obtain ⟨hi, hd⟩ := initSt_inv E orc
  have hwf : WFEnv E := wf_envOf l realloc
  have htodo : (initSt E orc).todo = (initSt E orc).q.events := by
    have := events_split (initSt E orc)
    rw [hd, List.nil_append] at this
    exact this.symm
  have hge : TodoGe E (firstRow E (initSt E orc)) (initSt E orc) := by
    intro g hg he
    unfold firstRow
    cases hc : (initSt E orc).q.current with
    | none => rw [todo_nil hi.pos hc] at hg; simp at hg
    | some e =>
      simp only
      have hle := yk_le_of_rKey (hi.todo_ge hc g hg)
      have hee : e.isEdge = true := by
        obtain ⟨ht, _, _⟩ := todo_of_current hi.pos hc
        have hm : e ∈ (initSt E orc).q.events := by rw [← htodo, ht]; simp
        have h1 := (next_first E.py (initEvents E.nodes)).1
        obtain ⟨k, _, rfl | rfl⟩ := (mem_initEvents E e).mp (h1.mem_iff.mp hm) <;> rfl
      rw [yk_of_edge he, yk_of_edge hee, rowKey_le] at hle
      exact hle
  have hsat := rows_sat E hwf h f (firstRow E (initSt E orc)) (initSt E orc) hi (by intro g hg; rw [hd] at hg; simp at hg) hge
  have hr' : rows E h f (firstRow E (initSt E orc)) (initSt E orc) = .ok r := hr
  rw [hr'] at hsat
  obtain ⟨s1, s2, s3, s4⟩ := hsat
  refine ⟨s1, ⟨_, s2⟩, ?_, s4, ?_⟩
  · rintro Y h2 ⟨k, hk⟩
    refine s3 Y ?_ h2 ⟨k, hk⟩
    have hm := (hi.mem_edge (e := fwd E k) rfl).mpr ⟨k, hk.1, Or.inl rfl⟩
    rw [← htodo] at hm
    have := hge _ hm rfl
    have e1 : E.py (fwd E k).a = (E.seg k).pa.y := (hwf k hk.1).1
    have := hk.2.1
    omega
  · intro row hrow
    have hm : row.1 ∈ r.map Prod.fst := List.mem_map_of_mem hrow
    rw [s2, List.mem_map] at hm
    obtain ⟨i, _, hi'⟩ := hm
    cases hc : (initSt E orc).q.current with
    | none =>
      exfalso
      cases f with
      | zero => cases hr'
      | succ f =>
        unfold rows at hr'
        rw [hc] at hr'
        simp only [Option.isSome_none, Bool.false_eq_true, false_and, if_false, Res.ok.injEq] at hr'
        rw [← hr'] at hrow
        simp at hrow
    | some e =>
      obtain ⟨ht, _, _⟩ := todo_of_current hi.pos hc
      have hme : e ∈ (initSt E orc).q.events := by rw [← htodo, ht]; simp
      have h1 := (next_first E.py (initEvents E.nodes)).1
      obtain ⟨k, hk, he⟩ := (mem_initEvents E e).mp (h1.mem_iff.mp hme)
      have hy : (E.seg k).pa.y ≤ firstRow E (initSt E orc) := by
        unfold firstRow
        rw [hc]
        simp only
        obtain ⟨w1, w2, w3⟩ := hwf k hk
        rcases he with rfl | rfl
        · show _ ≤ E.py (E.seg k).a
          omega
        · show _ ≤ E.py (E.seg k).b
          omega
      refine ⟨E.seg k, ?_, by omega⟩
      unfold Env.seg
      rw [List.getD_eq_getElem?_getD, List.getElem?_eq_getElem hk, Option.getD_some]
      exact List.getElem_mem hk

/-- C40: a scan during which the events are not reallocated never reads the tree links of a line that is not in the tree.
Missing: with a reallocation the code reads freed storage (`C40_dangling`). -/
theorem C40_defined_partial (l : LPts) (realloc : Nat → Bool) (orc : Nat → Place) (h : Int) (f : Nat) (hs : ∀ n, realloc n = false) :
    scanRows l realloc orc h f ≠ .ub := by
  set E := envOf l realloc with hE
  obtain ⟨hi, hd⟩ := initSt_inv E orc
  have hwf : WFEnv E := wf_envOf l realloc
  have htodo : (initSt E orc).todo = (initSt E orc).q.events := by
    have := events_split (initSt E orc)
    rw [hd, List.nil_append] at this
    exact this.symm
  have hge : TodoGe E (firstRow E (initSt E orc)) (initSt E orc) := by
    intro g hg he
    unfold firstRow
    cases hc : (initSt E orc).q.current with
    | none => rw [todo_nil hi.pos hc] at hg; simp at hg
    | some e =>
      simp only
      have hle := yk_le_of_rKey (hi.todo_ge hc g hg)
      have hee : e.isEdge = true := by
        obtain ⟨ht, _, _⟩ := todo_of_current hi.pos hc
        have hm : e ∈ (initSt E orc).q.events := by rw [← htodo, ht]; simp
        have h1 := (next_first E.py (initEvents E.nodes)).1
        obtain ⟨k, _, rfl | rfl⟩ := (mem_initEvents E e).mp (h1.mem_iff.mp hm) <;> rfl
      rw [yk_of_edge he, yk_of_edge hee, rowKey_le] at hle
      exact hle
  have hsat := rows_sat E hwf h f (firstRow E (initSt E orc)) (initSt E orc) hi (by intro g hg; rw [hd] at hg; simp at hg) hge
  intro hub
  have hub' : rows E h f (firstRow E (initSt E orc)) (initSt E orc) = .ub := hub
  rw [hub'] at hsat
  exact hsat hs

end PolyOps.Raster
