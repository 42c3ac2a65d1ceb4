import Verif.Lemmas.SweepQueue

/-! Properties C26 (splits), C27, C28: the intersection sweep keeps its bookkeeping consistent, for every
intersection test, every rounding and every tree shape. -/
namespace PolyOps.Sweep
open PolyOps PolyOps.Events

/-! ### Specification -/

/-- The ends of the line that starts at point `i`, left end first; a vertical line keeps its loop order. -/
def Clip.lineSeg (s : Clip) (i : Nat) : Nat × Nat :=
  if s.x i > s.x (s.lp i).next then ((s.lp i).next, i) else (i, (s.lp i).next)

/-- A node stands for an existing line: its start event is not deleted. -/
def Clip.Live (s : Clip) (n : Nat) : Prop := 1 ≤ n ∧ n < s.nn ∧ ¬ Dead s.q.events n true

/-- Nodes and events fit together. -/
structure Core (s : Clip) : Prop where
  wf : WF s.x s.q
  nn1 : 1 ≤ s.nn
  ev_ok : ∀ e ∈ s.q.events, 1 ≤ e.node ∧ e.node < s.nn ∧ e.key = evKey s.x (s.seg e.node) e.ty.isFwd
  ev_ex : ∀ n b, 1 ≤ n → n < s.nn → (n, b) ∈ nt s.q.events
  seg_lt : ∀ n, 1 ≤ n → n < s.nn → (s.seg n).1 < s.np ∧ (s.seg n).2 < s.np ∧ s.x (s.seg n).1 ≤ s.x (s.seg n).2
  seg_inj : ∀ m n, 1 ≤ m → m < s.nn → 1 ≤ n → n < s.nn → s.seg m = s.seg n → m = n

/-- The points form closed loops, none of one or two points, each in one set and without lines of length zero. -/
structure Loops (lp : Nat → LP) (np : Nat) : Prop where
  next_lt : ∀ i < np, (lp i).next < np
  next_ne : ∀ i < np, (lp i).next ≠ i
  next2 : ∀ i < np, (lp (lp i).next).next ≠ i
  next_inj : ∀ i < np, ∀ j < np, (lp i).next = (lp j).next → i = j
  set_eq : ∀ i < np, (lp (lp i).next).set = (lp i).set
  pt_ne : ∀ i < np, (lp (lp i).next).data ≠ (lp i).data

/-- Points, nodes and events fit together. -/
structure Inv0 (s : Clip) : Prop extends Core s, Loops s.lp s.np where
  own : ∀ n, s.Live n → ∃ i < s.np, s.seg n = s.lineSeg i
  has : ∀ i < s.np, ∃ n, s.Live n ∧ s.seg n = s.lineSeg i

/-- The sweep set against the applied events `A`. -/
structure Dyn (s : Clip) (A : List (Nat × Bool)) : Prop where
  nodup : s.sweep.Nodup
  mem : ∀ n, n ∈ s.sweep ↔ s.Live n ∧ (n, true) ∈ A ∧ (n, false) ∉ A
  del_b : ∀ n, Dead s.q.events n false → Dead s.q.events n true
  app_b : ∀ n, Dead s.q.events n true → (n, false) ∈ A → Dead s.q.events n false
  fwd_first : ∀ n, (n, false) ∈ A → (n, true) ∈ A

/-- Invariant at the head of the loop. -/
def Inv (s : Clip) : Prop := Inv0 s ∧ Dyn s (nt (applied s.q))

/-- A walk along `next` from `i` through the points of `l` to `j`. -/
def Path (lp : Nat → LP) (i : Nat) : List Nat → Nat → Prop
  | [], j => (lp i).next = j
  | a :: l, j => (lp i).next = a ∧ Path lp a l j

/-- `lp'` refines `lp`: old points keep position and set, and each old line became a chain of lines through new points. -/
structure Refine (lp : Nat → LP) (np : Nat) (lp' : Nat → LP) (np' : Nat) : Prop where
  le : np ≤ np'
  data : ∀ i < np, (lp' i).data = (lp i).data
  set : ∀ i < np, (lp' i).set = (lp i).set
  path : ∀ i < np, ∃ l, Path lp' i l (lp i).next ∧ ∀ a ∈ l, np ≤ a ∧ a < np'

theorem Refine.refl (lp : Nat → LP) (np : Nat) : Refine lp np lp np :=
  ⟨le_rfl, fun _ _ => rfl, fun _ _ => rfl, fun _ _ => ⟨[], rfl, by simp⟩⟩

theorem Path.append {lp : Nat → LP} {l m : List Nat} : ∀ {i j k : Nat}, Path lp i l j → Path lp j m k → Path lp i (l ++ j :: m) k := by
  induction l with
  | nil => intro i j k h1 h2; exact ⟨h1, h2⟩
  | cons a l ih => intro i j k h1 h2; exact ⟨h1.1, ih h1.2 h2⟩

theorem Refine.trans {f g h : Nat → LP} {a b c : Nat} (r1 : Refine f a g b) (r2 : Refine g b h c) : Refine f a h c := by
  refine ⟨r1.le.trans r2.le, fun i hi => (r2.data i (hi.trans_le r1.le)).trans (r1.data i hi),
    fun i hi => (r2.set i (hi.trans_le r1.le)).trans (r1.set i hi), ?_⟩
  intro i hi
  obtain ⟨l, hl, hb⟩ := r1.path i hi
  have key : ∀ (l : List Nat) (i j : Nat), i < b → Path g i l j → (∀ k ∈ l, a ≤ k ∧ k < b) →
      ∃ m, Path h i m j ∧ ∀ k ∈ m, a ≤ k ∧ k < c := by
    intro l
    induction l with
    | nil =>
      intro i j hi hp _
      obtain ⟨m, hm, hmb⟩ := r2.path i hi
      refine ⟨m, by rw [← show (g i).next = j from hp]; exact hm, fun k hk => ⟨r1.le.trans (hmb k hk).1, (hmb k hk).2⟩⟩
    | cons d l ih =>
      intro i j hi hp hb
      obtain ⟨m, hm, hmb⟩ := r2.path i hi
      rw [hp.1] at hm
      have hd := hb d (by simp)
      obtain ⟨m', hm', hmb'⟩ := ih d j hd.2 hp.2 (fun k hk => hb k (List.mem_cons_of_mem _ hk))
      refine ⟨m ++ d :: m', hm.append hm', ?_⟩
      intro k hk
      rcases List.mem_append.mp hk with hk | hk
      · exact ⟨r1.le.trans (hmb k hk).1, (hmb k hk).2⟩
      · rcases List.mem_cons.mp hk with rfl | hk
        · exact ⟨hd.1, hd.2.trans_le r2.le⟩
        · exact hmb' k hk
  exact key l i _ (hi.trans_le r1.le) hl hb

/-- `Splits f n l g m`: from the links `f` of `n` points, putting a new point between `a` and its successor `b` for each
`(a, b)` of `l` in turn gives the links `g` of `m` points. -/
inductive Splits (f : Nat → Nat) (n : Nat) : List (Nat × Nat) → (Nat → Nat) → Nat → Prop
  | nil : Splits f n [] f n
  | snoc {l g m a b} : Splits f n l g m → a < m → g a = b → Splits f n (l ++ [(a, b)]) (setFn (setFn g a m) m b) (m + 1)

theorem Splits.trans {f g h : Nat → Nat} {a b c : Nat} {l l' : List (Nat × Nat)} (h1 : Splits f a l g b) (h2 : Splits g b l' h c) :
    Splits f a (l ++ l') h c := by
  induction h2 with
  | nil => rw [List.append_nil]; exact h1
  | snoc _ ha hb ih => rw [← List.append_assoc]; exact ih.snoc ha hb

theorem Splits.length {f g : Nat → Nat} {a b : Nat} {l : List (Nat × Nat)} (h : Splits f a l g b) : b = a + l.length := by
  induction h with
  | nil => rfl
  | snoc _ _ _ ih => rw [List.length_append, ih]; rfl

/-- `Via g n i c`: following the links from `i` one gets to `c` and meets only points from `n` on. -/
inductive Via (g : Nat → Nat) (n : Nat) (i : Nat) : Nat → Prop
  | refl : Via g n i i
  | step {c} : Via g n i c → n ≤ g c → Via g n i (g c)

/-- Each point of the split loops is an old one or lies on the chain of an old one. -/
theorem Splits.via {f g : Nat → Nat} {n m : Nat} {l : List (Nat × Nat)} (h : Splits f n l g m) (hf : ∀ i < n, f i < n) :
    (∀ c < m, g c < m) ∧ ∀ c < m, ∃ i < n, Via g n i c := by
  induction h with
  | nil => exact ⟨hf, fun c hc => ⟨c, hc, .refl⟩⟩
  | @snoc l g m a b hs ha hb ih =>
    obtain ⟨i1, i2⟩ := ih
    have hnm : n ≤ m := by rw [hs.length]; omega
    set g' := setFn (setFn g a m) m b with hg
    have gm : g' m = b := by rw [hg]; unfold setFn; rw [if_pos rfl]
    have ga : g' a = m := by rw [hg]; unfold setFn; rw [if_neg (by omega), if_pos rfl]
    have go : ∀ c, c ≠ a → c ≠ m → g' c = g c := by
      intro c h1 h2; rw [hg]; unfold setFn; rw [if_neg h2, if_neg h1]
    have up : ∀ i < m, ∀ c, Via g n i c → c < m ∧ Via g' n i c := by
      intro i hi c hc
      induction hc with
      | refl => exact ⟨hi, .refl⟩
      | @step c h1 h2 ih =>
        obtain ⟨c1, c2⟩ := ih
        refine ⟨i1 c c1, ?_⟩
        by_cases ca : c = a
        · subst ca
          have v1 : Via g' n i m := by
            have := c2.step (by rw [ga]; exact hnm); rw [ga] at this; exact this
          have := v1.step (by rw [gm, ← hb]; exact h2)
          rw [gm, ← hb] at this; exact this
        · have := c2.step (by rw [go c ca (by omega)]; exact h2)
          rw [go c ca (by omega)] at this; exact this
    constructor
    · intro c hc
      by_cases c1 : c = m
      · rw [c1, gm, ← hb]; exact (i1 a ha).trans (by omega)
      · by_cases c2 : c = a
        · rw [c2, ga]; omega
        · rw [go c c2 c1]; exact (i1 c (by omega)).trans (by omega)
    · intro c hc
      by_cases c1 : c = m
      · obtain ⟨i, hi, hv⟩ := i2 a ha
        have := ((up i (by omega) a hv).2).step (by rw [ga]; exact hnm)
        rw [ga] at this
        exact ⟨i, hi, c1 ▸ this⟩
      · obtain ⟨i, hi, hv⟩ := i2 c (by omega)
        exact ⟨i, hi, (up i (by omega) c hv).2⟩

/-- The links of the points. -/
def Clip.nexts (s : Clip) (i : Nat) : Nat := (s.lp i).next

/-- How a part of the sweep may change the clipper. -/
structure Ext (s t : Clip) : Prop where
  ref : Refine s.lp s.np t.lp t.np
  nn : s.nn ≤ t.nn
  seg : ∀ n < s.nn, t.seg n = s.seg n
  log : ∃ l, t.log = s.log ++ l ∧ Splits s.nexts s.np l t.nexts t.np

theorem Ext.refl (s : Clip) : Ext s s := ⟨Refine.refl _ _, le_rfl, fun _ _ => rfl, [], by simp, .nil⟩

theorem Ext.trans {s t u : Clip} (h1 : Ext s t) (h2 : Ext t u) : Ext s u := by
  refine ⟨h1.ref.trans h2.ref, h1.nn.trans h2.nn, fun n hn => (h2.seg n (hn.trans_le h1.nn)).trans (h1.seg n hn), ?_⟩
  obtain ⟨l1, e1, c1⟩ := h1.log
  obtain ⟨l2, e2, c2⟩ := h2.log
  exact ⟨l1 ++ l2, by rw [e2, e1, List.append_assoc], c1.trans c2⟩

/-! ### Consequences of the invariant -/

section
variable {s : Clip} (h0 : Inv0 s)
include h0

theorem Inv0.key_nt {e f : Ev} (he : e ∈ s.q.events) (hf : f ∈ s.q.events) (h : e.nt = f.nt) : e = f := by
  have k1 := (h0.ev_ok e he).2.2
  have k2 := (h0.ev_ok f hf).2.2
  have h1 : e.node = f.node := congrArg Prod.fst h
  have h2 : e.ty.isFwd = f.ty.isFwd := congrArg Prod.snd h
  have hk : e.key = f.key := by rw [k1, k2, h1, h2]
  have hn := h0.wf.nodup
  exact List.inj_on_of_nodup_map hn he hf hk

theorem Inv0.nt_nodup : (nt s.q.events).Nodup := by
  have hn : s.q.events.Nodup := List.Nodup.of_map Ev.key h0.wf.nodup
  unfold nt
  exact List.Nodup.map_on (fun e he f hf h => h0.key_nt he hf h) hn

/-- The start event of a line precedes its end event. -/
theorem Inv0.fwd_lt {e f : Ev} {n : Nat} (he : e ∈ s.q.events) (hf : f ∈ s.q.events) (h1 : e.nt = (n, true)) (h2 : f.nt = (n, false)) :
    less s.x e f = true := by
  obtain ⟨a1, a2, k1⟩ := h0.ev_ok e he
  obtain ⟨_, _, k2⟩ := h0.ev_ok f hf
  have n1 : e.node = n := congrArg Prod.fst h1
  have n2 : f.node = n := congrArg Prod.fst h2
  have t1 : e.ty.isFwd = true := congrArg Prod.snd h1
  have t2 : f.ty.isFwd = false := congrArg Prod.snd h2
  rw [n1, t1] at k1
  rw [n2, t2] at k2
  rw [n1] at a1 a2
  obtain ⟨_, _, hle⟩ := h0.seg_lt n a1 a2
  simp only [evKey, Ev.key, if_true, Bool.false_eq_true, if_false, Prod.mk.injEq] at k1 k2
  obtain ⟨e1, e2, e3⟩ := k1
  obtain ⟨f1, f2, f3⟩ := k2
  unfold less
  rw [e2, f2, e1, f1]
  unfold fTy bTy
  by_cases c : s.x (s.seg n).1 = s.x (s.seg n).2
  · simp [c, EvTy.rank]
  · simp only [ne_eq, c, not_false_eq_true, if_true, decide_eq_true_eq]; omega

theorem Inv0.lineSeg_inj {i j : Nat} (hi : i < s.np) (hj : j < s.np) (h : s.lineSeg i = s.lineSeg j) : i = j := by
  have n2 := h0.next2 j hj
  unfold Clip.lineSeg at h
  split at h <;> split at h <;> simp only [Prod.mk.injEq] at h
  · exact h.2
  · exfalso; apply n2; rw [← h.2]; exact h.1
  · exfalso; apply n2; rw [← h.1]; exact h.2
  · exact h.1

end

/-- Same events up to order, same points: the static part is kept. -/
theorem Inv0.of_perm {s : Clip} (h0 : Inv0 s) (q : Queue) (hw : WF s.x q) (hp : q.events.Perm s.q.events) :
    Inv0 { s with q := q } := by
  have hd : ∀ n b, Dead q.events n b ↔ Dead s.q.events n b := by
    intro n b; unfold Dead; simp only [hp.mem_iff]
  have hl : ∀ n, ({ s with q := q } : Clip).Live n ↔ s.Live n := by
    intro n; unfold Clip.Live; simp only [hd]
  refine ⟨⟨hw, h0.nn1, ?_, ?_, h0.seg_lt, h0.seg_inj⟩, h0.toLoops, ?_, ?_⟩
  · intro e he; exact h0.ev_ok e (hp.mem_iff.mp he)
  · intro n b h1 h2
    have := h0.ev_ex n b h1 h2
    exact ((hp.map Ev.nt).mem_iff).mpr this
  · intro n hn; exact h0.own n ((hl n).mp hn)
  · intro i hi
    obtain ⟨n, hn, e⟩ := h0.has i hi
    exact ⟨n, (hl n).mpr hn, e⟩

/-! ### Marking points -/

theorem mark_fields (s : Clip) (i k : Nat) : ((s.mark i).lp k).data = (s.lp k).data ∧ ((s.mark i).lp k).next = (s.lp k).next ∧
    ((s.mark i).lp k).set = (s.lp k).set := by
  unfold Clip.mark setFn
  simp only
  split
  · rename_i h; rw [h]; exact ⟨rfl, rfl, rfl⟩
  · exact ⟨rfl, rfl, rfl⟩

theorem mark_x (s : Clip) (i : Nat) : (s.mark i).x = s.x := by
  funext k; unfold Clip.x; rw [(mark_fields s i k).1]

theorem mark_lineSeg (s : Clip) (i k : Nat) : (s.mark i).lineSeg k = s.lineSeg k := by
  unfold Clip.lineSeg; rw [mark_x, (mark_fields s i k).2.1]

theorem mark_inv {s : Clip} (h : Inv s) (i : Nat) : Inv (s.mark i) := by
  obtain ⟨h0, hd⟩ := h
  have nx := fun k => (mark_fields s i k).2.1
  have st := fun k => (mark_fields s i k).2.2
  refine ⟨⟨⟨?_, h0.nn1, ?_, h0.ev_ex, ?_, h0.seg_inj⟩, ⟨?_, ?_, ?_, ?_, ?_, ?_⟩, ?_, ?_⟩,
    ⟨hd.nodup, hd.mem, hd.del_b, hd.app_b, hd.fwd_first⟩⟩
  · rw [mark_x]; exact h0.wf
  · rw [mark_x]; exact h0.ev_ok
  · rw [mark_x]; exact h0.seg_lt
  · intro k hk; rw [nx]; exact h0.next_lt k hk
  · intro k hk; rw [nx]; exact h0.next_ne k hk
  · intro k hk; rw [nx, nx]; exact h0.next2 k hk
  · intro k hk j hj; rw [nx, nx]; exact h0.next_inj k hk j hj
  · intro k hk; rw [nx, st, st]; exact h0.set_eq k hk
  · intro k hk; rw [nx, (mark_fields s i _).1, (mark_fields s i _).1]; exact h0.pt_ne k hk
  · intro n hn
    obtain ⟨k, hk, e⟩ := h0.own n hn
    exact ⟨k, hk, by rw [mark_lineSeg]; exact e⟩
  · intro k hk
    rw [mark_lineSeg]; exact h0.has k hk

theorem mark_ext (s : Clip) (i : Nat) : Ext s (s.mark i) := by
  refine ⟨⟨le_rfl, fun k _ => (mark_fields s i k).1, fun k _ => (mark_fields s i k).2.2,
    fun k _ => ⟨[], (mark_fields s i k).2.1, by simp⟩⟩, le_rfl, fun _ _ => rfl, [], by simp [Clip.mark], ?_⟩
  have : (s.mark i).nexts = s.nexts := by funext k; exact (mark_fields s i k).2.1
  rw [this]; exact .nil

/-! ### Adding the events of a line -/

/-- `add_fb_events` for a line that is not there yet. -/
theorem addFb_core {s : Clip} (h : Core s) (hn : s.q.news = []) (a b : Nat) (ha : a < s.np) (hb : b < s.np) (hx : s.x a ≤ s.x b)
    (hf : ∀ m, 1 ≤ m → m < s.nn → s.seg m ≠ (a, b)) (hv : s.x a = s.x b → (s.lp a).next = b) :
    ∃ t, s.addFb a b = some t ∧ Core t ∧ t.lp = s.lp ∧ t.np = s.np ∧ t.seg = setFn s.seg s.nn (a, b) ∧ t.nn = s.nn + 1 ∧
      t.sweep = s.sweep ∧ t.log = s.log ∧ t.clock = s.clock ∧ t.q.news = [] ∧ applied t.q = applied s.q ∧
      (∀ m d, Dead t.q.events m d ↔ Dead s.q.events m d) := by
  refine ⟨{ s with q := s.q.addFb s.x a b s.nn, seg := setFn s.seg s.nn (a, b), nn := s.nn + 1 }, ?_, ?_, rfl, rfl, rfl, rfl, rfl, rfl,
    rfl, ?_, ?_, ?_⟩
  · unfold Clip.addFb
    rw [if_neg]
    rintro ⟨h1, h2⟩; exact h2 (hv h1)
  · have fresh : ∀ d, evKey s.x (a, b) d ∉ s.q.events.map Ev.key := by
      intro d hm
      obtain ⟨e, he, hk⟩ := List.mem_map.mp hm
      obtain ⟨k1, k2, k3⟩ := h.ev_ok e he
      rw [k3] at hk
      apply hf e.node k1 k2
      have hty := congrArg (fun t => t.1.isFwd) hk
      unfold evKey at hk hty
      cases hd : e.ty.isFwd <;> cases d <;>
        simp only [hd, if_true, Bool.false_eq_true, if_false, Prod.mk.injEq, fTy_isFwd, bTy_isFwd, Bool.true_eq_false] at hk hty
      · exact Prod.ext hk.2.2 hk.2.1
      · exact Prod.ext hk.2.1 hk.2.2
    have hseg : ∀ m < s.nn, setFn s.seg s.nn (a, b) m = s.seg m := by
      intro m hm; unfold setFn; rw [if_neg (by omega)]
    have hsegn : setFn s.seg s.nn (a, b) s.nn = (a, b) := by unfold setFn; rw [if_pos rfl]
    refine ⟨(wf_addFb s.x s.q a b s.nn h.wf hn (fresh true) (fresh false)).1, by simp, ?_, ?_, ?_, ?_⟩
    · intro e he
      simp only [addFb_events, List.mem_append, List.mem_cons, List.not_mem_nil, or_false] at he
      have hn1 := h.nn1
      show _ ∧ _ < s.nn + 1 ∧ e.key = evKey s.x (setFn s.seg s.nn (a, b) e.node) _
      rcases he with he | rfl | rfl
      · obtain ⟨k1, k2, k3⟩ := h.ev_ok e he
        exact ⟨k1, by omega, by rw [hseg _ k2]; exact k3⟩
      · refine ⟨hn1, by simp, ?_⟩
        simp only [hsegn, fTy_isFwd]; rfl
      · refine ⟨hn1, by simp, ?_⟩
        simp only [hsegn, bTy_isFwd]; rfl
    · intro m d h1 h2
      simp only [addFb_events, nt_append, List.mem_append]
      by_cases c : m = s.nn
      · subst c
        right
        cases d <;> simp [nt, Ev.nt, fTy_isFwd, bTy_isFwd]
      · exact Or.inl (h.ev_ex m d h1 (by simp only at h2; omega))
    · intro m h1 h2
      show (setFn s.seg s.nn (a, b) m).1 < s.np ∧ (setFn s.seg s.nn (a, b) m).2 < s.np ∧
        s.x (setFn s.seg s.nn (a, b) m).1 ≤ s.x (setFn s.seg s.nn (a, b) m).2
      by_cases c : m = s.nn
      · rw [c, hsegn]; exact ⟨ha, hb, hx⟩
      · have : m < s.nn := by simp only at h2; omega
        rw [hseg m this]; exact h.seg_lt m h1 this
    · intro m m' h1 h2 h3 h4 he
      simp only at h2 h4 he
      by_cases c : m = s.nn <;> by_cases c' : m' = s.nn
      · omega
      · rw [c, hsegn, hseg m' (by omega)] at he
        exact absurd he.symm (hf m' h3 (by omega))
      · rw [c', hsegn, hseg m (by omega)] at he
        exact absurd he (hf m h1 (by omega))
      · rw [hseg m (by omega), hseg m' (by omega)] at he
        exact h.seg_inj m m' h1 (by omega) h3 (by omega) he
  · exact (addFb_rest s.x s.q a b s.nn).1.trans hn
  · have r := addFb_rest s.x s.q a b s.nn
    unfold applied
    simp only [r.1, r.2.1, hn, if_true, addFb_events]
    rw [List.take_append_of_le_length]
    have := h.wf.cur_hi
    have := h.wf.last_le
    omega
  · intro m d
    unfold Dead
    simp only [addFb_events, List.mem_append, List.mem_cons, List.not_mem_nil, or_false]
    constructor
    · rintro ⟨e, he | rfl | rfl, h1, h2⟩
      · exact ⟨e, he, h1, h2⟩
      · cases h2
      · cases h2
    · rintro ⟨e, he, h1, h2⟩; exact ⟨e, Or.inl he, h1, h2⟩

/-- Points may be appended and their links changed. -/
theorem Core.points {s : Clip} (h : Core s) (hn : s.q.news = []) (lp : Nat → LP) (np : Nat) (hle : s.np ≤ np)
    (hd : ∀ k < s.np, (lp k).data = (s.lp k).data) (log : List (Nat × Nat)) : Core { s with lp := lp, np := np, log := log } := by
  have hx : ∀ k < s.np, ({ s with lp := lp, np := np, log := log } : Clip).x k = s.x k := by
    intro k hk; unfold Clip.x; rw [hd k hk]
  have evlt : ∀ e ∈ s.q.events, e.a < s.np := by
    intro e he
    obtain ⟨k1, k2, k3⟩ := h.ev_ok e he
    obtain ⟨l1, l2, _⟩ := h.seg_lt _ k1 k2
    have : e.a = (evKey s.x (s.seg e.node) e.ty.isFwd).2.1 := by rw [← k3]; rfl
    rw [this]
    unfold evKey
    split <;> assumption
  refine ⟨wf_congr s.q h.wf hn (fun e he => (hx _ (evlt e he)).symm), h.nn1, ?_, h.ev_ex, ?_, h.seg_inj⟩
  · intro e he
    obtain ⟨k1, k2, k3⟩ := h.ev_ok e he
    refine ⟨k1, k2, ?_⟩
    rw [k3]
    obtain ⟨l1, l2, _⟩ := h.seg_lt _ k1 k2
    unfold evKey fTy bTy
    rw [hx _ l1, hx _ l2]
  · intro n h1 h2
    obtain ⟨l1, l2, l3⟩ := h.seg_lt n h1 h2
    refine ⟨l1.trans_le hle, l2.trans_le hle, ?_⟩
    rw [hx _ l1, hx _ l2]; exact l3

/-- Marking an event deleted. -/
theorem Core.delAt {s : Clip} (h : Core s) (hn : s.q.news = []) (k : Nat) (sw : List Nat) :
    Core { s with q := s.q.delAt k, sweep := sw } := by
  refine ⟨wf_delAt s.x s.q k h.wf hn, h.nn1, ?_, ?_, h.seg_lt, h.seg_inj⟩
  · intro e he
    have hm : ∃ f ∈ s.q.events, f.node = e.node ∧ f.key = e.key ∧ f.ty = e.ty := by
      obtain ⟨i, hi⟩ := List.mem_iff_getElem?.mp he
      simp only [delAt_events, List.getElem?_modify] at hi
      cases hq : s.q.events[i]? with
      | none => rw [hq] at hi; simp at hi
      | some g =>
        rw [hq] at hi
        change some (if k = i then g.kill else g) = some e at hi
        rw [Option.some.injEq] at hi
        refine ⟨g, List.mem_iff_getElem?.mpr ⟨i, hq⟩, ?_⟩
        rw [← hi]
        split <;> exact ⟨rfl, rfl, rfl⟩
    obtain ⟨f, hf, e1, e2, e3⟩ := hm
    have := h.ev_ok f hf
    rw [e1, e2, e3] at this
    exact this
  · intro n b h1 h2
    show _ ∈ nt (s.q.delAt k).events
    rw [delAt_nt]; exact h.ev_ex n b h1 h2

/-! ### Splitting a line -/

/-- The effect of splitting the node `n`, whose line starts at point `i`, at the place `c`. -/
structure SplitAt (s u : Clip) (n : Nat) (c : Pt) (i : Nat) : Prop where
  hi : i < s.np
  seg : s.seg n = s.lineSeg i
  live : ∀ m, u.Live m ↔ (s.Live m ∧ m ≠ n) ∨ m = s.nn ∨ m = s.nn + 1
  np : u.np = s.np + 1
  nn : u.nn = s.nn + 2
  sw : u.sweep = s.sweep.erase n
  segl : u.seg s.nn = u.lineSeg i
  segr : u.seg (s.nn + 1) = u.lineSeg s.np
  nexti : (u.lp i).next = s.np
  nextc : (u.lp s.np).next = (s.lp i).next
  data : (u.lp s.np).data = c
  log : u.log = s.log ++ [(i, (s.lp i).next)]

/-- `split_segment` puts the point `c` into the line of point `i`. -/
theorem split_aux {s : Clip} (h : Inv s) (hn : s.q.news = []) {n : Nat} (hs : n ∈ s.sweep) (c : Pt) (i : Nat) (hi : i < s.np)
    (hseg : s.seg n = s.lineSeg i) (hc1 : (s.lp i).data ≠ c) (hc2 : (s.lp (s.lp i).next).data ≠ c) :
    ∃ t u, s.unlink n = some t ∧ t.insertMid i (s.lp i).next c = some (s.np, u) ∧ t.lp = s.lp ∧ t.seg = s.seg ∧
      Inv u ∧ u.q.news = [] ∧ u.sweep = s.sweep.erase n ∧ Ext s u ∧ nt (applied u.q) = nt (applied s.q) ∧ u.clock = s.clock ∧
      u.np = s.np + 1 ∧ u.log = s.log ++ [(i, (s.lp i).next)] ∧ (u.lp s.np).data = c ∧ SplitAt s u n c i := by
  obtain ⟨h0, hd⟩ := h
  obtain ⟨live, inA, notA⟩ := (hd.mem n).mp hs
  obtain ⟨e, heA, hent⟩ := mem_nt.mp inA
  obtain ⟨hsA, hpA⟩ := applied_sorted h0.wf
  have het : e ∈ s.q.events.take s.q.last := hpA.subset heA
  have hee : e ∈ s.q.events := List.mem_of_mem_take het
  have henode : e.node = n := congrArg Prod.fst hent
  have hefwd : e.ty.isFwd = true := congrArg Prod.snd hent
  have hekey := (h0.ev_ok e hee).2.2
  rw [henode, hefwd] at hekey
  simp only [evKey, if_true, Ev.key, Prod.mk.injEq] at hekey
  obtain ⟨ke1, ke2, ke3⟩ := hekey
  -- unlink
  set k := s.q.findIdx s.x (s.seg n).1 (s.seg n).2 (if s.x (s.seg n).1 = s.x (s.seg n).2 then EvTy.vforward else .forward) with hk
  have hfound : (s.q.events.take s.q.last)[k]? = some e := by
    rw [hk]; unfold Queue.findIdx
    apply lowerBound_found s.x _ h0.wf.sorted _ e het
    unfold Ev.key; rw [ke1, ke2, ke3]; rfl
  have hfound' : s.q.events[k]? = some e := by
    rw [List.getElem?_take] at hfound
    split at hfound
    · exact hfound
    · cases hfound
  have hunlink : s.unlink n = some { s with sweep := s.sweep.erase n, q := s.q.delAt k } := by
    unfold Clip.unlink
    rw [if_pos hs]
    simp only
    rw [← hk, hfound]
    simp only
    rw [if_pos]
    exact ⟨ke2, ke3, ke1⟩
  set t : Clip := { s with sweep := s.sweep.erase n, q := s.q.delAt k } with ht
  have hct : Core t := h0.toCore.delAt hn k _
  have hdt : ∀ m d, Dead t.q.events m d ↔ Dead s.q.events m d ∨ (m, d) = (n, true) := by
    intro m d; rw [← hent]; exact dead_delAt s.q k e hfound' m d
  -- the new point
  set j := (s.lp i).next with hj
  have hjlt : j < s.np := h0.next_lt i hi
  have hij : j ≠ i := h0.next_ne i hi
  set lp2 : Nat → LP := setFn (setFn s.lp i { s.lp i with next := s.np }) s.np
    ⟨c, j, (setFn s.lp i { s.lp i with next := s.np } i).set, .undef⟩ with hlp2
  have l2np : lp2 s.np = ⟨c, j, (s.lp i).set, .undef⟩ := by rw [hlp2]; unfold setFn; simp
  have l2i : lp2 i = { s.lp i with next := s.np } := by
    rw [hlp2]; unfold setFn; simp only; rw [if_neg (by omega), if_pos trivial]
  have l2o : ∀ m, m ≠ i → m ≠ s.np → lp2 m = s.lp m := by
    intro m h1 h2; rw [hlp2]; unfold setFn; simp only; rw [if_neg h2, if_neg h1]
  have l2d : ∀ m < s.np, (lp2 m).data = (s.lp m).data := by
    intro m hm
    by_cases cm : m = i
    · rw [cm, l2i]
    · rw [l2o m cm (by omega)]
  set t1 : Clip := { t with lp := lp2, np := s.np + 1, log := s.log ++ [(i, j)] } with ht1
  have hc1' : Core t1 := hct.points hn lp2 (s.np + 1) (Nat.le_succ _) l2d _
  have t1next_i : (t1.lp i).next = s.np := by show (lp2 i).next = _; rw [l2i]
  have t1next_m : (t1.lp s.np).next = j := by show (lp2 s.np).next = _; rw [l2np]
  have segfresh : ∀ m, 1 ≤ m → m < s.nn → (s.seg m).1 ≠ s.np ∧ (s.seg m).2 ≠ s.np := by
    intro m h1 h2
    obtain ⟨a1, a2, _⟩ := h0.seg_lt m h1 h2
    omega
  -- first line
  have g1 : ∃ t2, (if t1.x i ≤ t1.x s.np then t1.addFb i s.np else t1.addFb s.np i) = some t2 ∧ Core t2 ∧ t2.lp = lp2 ∧
      t2.np = s.np + 1 ∧ t2.seg = setFn s.seg s.nn (t1.lineSeg i) ∧ t2.nn = s.nn + 1 ∧ t2.sweep = s.sweep.erase n ∧
      t2.log = s.log ++ [(i, j)] ∧ t2.clock = s.clock ∧ t2.q.news = [] ∧ applied t2.q = applied t.q ∧
      (∀ m d, Dead t2.q.events m d ↔ Dead t.q.events m d) := by
    unfold Clip.lineSeg
    rw [t1next_i]
    by_cases cx : t1.x i ≤ t1.x s.np
    · rw [if_pos cx, if_neg (by omega)]
      exact addFb_core hc1' hn i s.np (by show i < s.np + 1; omega) (by show s.np < s.np + 1; omega) cx
        (fun m h1 h2 he => (segfresh m h1 h2).2 (by rw [show s.seg m = (i, s.np) from he])) (fun _ => t1next_i)
    · rw [if_neg cx, if_pos (by omega)]
      exact addFb_core hc1' hn s.np i (by show s.np < s.np + 1; omega) (by show i < s.np + 1; omega) (by omega)
        (fun m h1 h2 he => (segfresh m h1 h2).1 (by rw [show s.seg m = (s.np, i) from he])) (fun h => by omega)
  obtain ⟨t2, e2, c2, lpe2, np2, seg2, nn2, sw2, log2, ck2, nw2, ap2, dd2⟩ := g1
  have t2x : t2.x = t1.x := by funext m; unfold Clip.x; rw [lpe2]
  have t2ls : ∀ m, t2.lineSeg m = t1.lineSeg m := by intro m; unfold Clip.lineSeg; rw [t2x, lpe2]
  have seg1fresh : ∀ m, 1 ≤ m → m < t2.nn → t2.seg m ≠ (s.np, j) ∧ t2.seg m ≠ (j, s.np) := by
    intro m h1 h2
    rw [seg2]
    by_cases cm : m = s.nn
    · unfold setFn; rw [if_pos cm]
      unfold Clip.lineSeg; rw [t1next_i]
      constructor <;> split <;> intro he <;> simp only [Prod.mk.injEq] at he <;> omega
    · unfold setFn; rw [if_neg cm]
      have := segfresh m h1 (by omega)
      constructor <;> intro he <;> rw [he] at this <;> simp at this
  -- second line
  have g2 : ∃ u, (if t2.x s.np ≤ t2.x j then t2.addFb s.np j else t2.addFb j s.np) = some u ∧ Core u ∧ u.lp = lp2 ∧
      u.np = s.np + 1 ∧ u.seg = setFn t2.seg t2.nn (t1.lineSeg s.np) ∧ u.nn = t2.nn + 1 ∧ u.sweep = s.sweep.erase n ∧
      u.log = s.log ++ [(i, j)] ∧ u.clock = s.clock ∧ u.q.news = [] ∧ applied u.q = applied t.q ∧
      (∀ m d, Dead u.q.events m d ↔ Dead t.q.events m d) := by
    rw [← t2ls]
    have nm : (t2.lp s.np).next = j := by rw [lpe2]; exact t1next_m
    unfold Clip.lineSeg
    rw [nm]
    by_cases cx : t2.x s.np ≤ t2.x j
    · rw [if_pos cx, if_neg (by omega)]
      obtain ⟨u, b1, b2, b3, b4, b5, b6, b7, b8, b9, b10, b11, b12⟩ := addFb_core c2 nw2 s.np j (by rw [np2]; omega) (by rw [np2]; omega) cx
        (fun m h1 h2 => (seg1fresh m h1 h2).1) (fun _ => nm)
      exact ⟨u, b1, b2, b3.trans lpe2, b4.trans np2, b5, b6, b7.trans sw2, b8.trans log2, b9.trans ck2, b10, b11.trans ap2,
        fun m d => (b12 m d).trans (dd2 m d)⟩
    · rw [if_neg cx, if_pos (by omega)]
      obtain ⟨u, b1, b2, b3, b4, b5, b6, b7, b8, b9, b10, b11, b12⟩ := addFb_core c2 nw2 j s.np (by rw [np2]; omega) (by rw [np2]; omega) (by omega)
        (fun m h1 h2 => (seg1fresh m h1 h2).2) (fun h => by omega)
      exact ⟨u, b1, b2, b3.trans lpe2, b4.trans np2, b5, b6, b7.trans sw2, b8.trans log2, b9.trans ck2, b10, b11.trans ap2,
        fun m d => (b12 m d).trans (dd2 m d)⟩
  obtain ⟨u, e3, c3, lpe3, np3, seg3, nn3, sw3, log3, ck3, nw3, ap3, dd3⟩ := g2
  have hins : t.insertMid i j c = some (s.np, u) := by
    unfold Clip.insertMid
    rw [if_neg (by rintro (h | h); exacts [hc1 h, hc2 h]), if_neg (by
      intro hne; exact hne (h0.set_eq i hi).symm)]
    have e2' : (if ({ t with lp := lp2, np := t.np + 1, log := t.log ++ [(i, j)] } : Clip).x i ≤
        ({ t with lp := lp2, np := t.np + 1, log := t.log ++ [(i, j)] } : Clip).x t.np then
        ({ t with lp := lp2, np := t.np + 1, log := t.log ++ [(i, j)] } : Clip).addFb i t.np else
        ({ t with lp := lp2, np := t.np + 1, log := t.log ++ [(i, j)] } : Clip).addFb t.np i) = some t2 := e2
    show Option.bind (if ({ t with lp := lp2, np := t.np + 1, log := t.log ++ [(i, j)] } : Clip).x i ≤
        ({ t with lp := lp2, np := t.np + 1, log := t.log ++ [(i, j)] } : Clip).x t.np then
        ({ t with lp := lp2, np := t.np + 1, log := t.log ++ [(i, j)] } : Clip).addFb i t.np else
        ({ t with lp := lp2, np := t.np + 1, log := t.log ++ [(i, j)] } : Clip).addFb t.np i) _ = _
    rw [e2', Option.bind_some]
    show Option.map _ (if t2.x s.np ≤ t2.x j then t2.addFb s.np j else t2.addFb j s.np) = _
    rw [e3]; rfl
  have ux : u.x = t1.x := by funext m; unfold Clip.x; rw [lpe3]
  have uls : ∀ m, u.lineSeg m = t1.lineSeg m := by intro m; unfold Clip.lineSeg; rw [ux, lpe3]
  have xold : ∀ m < s.np, t1.x m = s.x m := by intro m hm; show (lp2 m).data.x = _; rw [l2d m hm]; rfl
  have lsold : ∀ m < s.np, m ≠ i → t1.lineSeg m = s.lineSeg m := by
    intro m hm hmi
    have e1 : (t1.lp m).next = (s.lp m).next := by show (lp2 m).next = _; rw [l2o m hmi (by omega)]
    unfold Clip.lineSeg
    rw [e1, xold m hm, xold _ (h0.next_lt m hm)]
  have useg : ∀ m, u.seg m = if m = s.nn + 1 then t1.lineSeg s.np else if m = s.nn then t1.lineSeg i else s.seg m := by
    intro m; rw [seg3, nn2, seg2]; rfl
  have unn : u.nn = s.nn + 2 := by omega
  have ulive : ∀ m, u.Live m ↔ 1 ≤ m ∧ m < s.nn + 2 ∧ ¬ Dead s.q.events m true ∧ m ≠ n := by
    intro m
    unfold Clip.Live
    rw [unn, dd3, hdt]
    simp only [Prod.mk.injEq, and_true, not_or]
  have deadlt : ∀ m d, Dead s.q.events m d → m < s.nn := by
    rintro m d ⟨f, hf, h1, _⟩
    have := (h0.ev_ok f hf).2.1
    rw [show f.node = m from congrArg Prod.fst h1] at this
    exact this
  have hap : nt (applied u.q) = nt (applied s.q) := by rw [ap3]; exact applied_delAt s.q k
  have Alt : ∀ m d, (m, d) ∈ nt (applied s.q) → m < s.nn := by
    intro m d hm
    obtain ⟨f, hf, h1⟩ := mem_nt.mp hm
    have := (h0.ev_ok f (List.mem_of_mem_take (hpA.subset hf))).2.1
    rw [show f.node = m from congrArg Prod.fst h1] at this
    exact this
  refine ⟨t, u, hunlink, hins, rfl, rfl, ⟨⟨c3, ?_, ?_, ?_⟩, ?_⟩, nw3, sw3, ?_, hap, ck3, np3, log3, ?_, ?_⟩
  · -- loops
    rw [lpe3, np3]
    refine ⟨?_, ?_, ?_, ?_, ?_, ?_⟩
    · intro m hm
      by_cases c1 : m = s.np
      · rw [c1, l2np]; show j < _; omega
      · by_cases c2 : m = i
        · rw [c2, l2i]; show s.np < _; omega
        · rw [l2o m c2 c1]; have := h0.next_lt m (by omega); omega
    · intro m hm
      by_cases c1 : m = s.np
      · rw [c1, l2np]; show j ≠ _; omega
      · by_cases c2 : m = i
        · rw [c2, l2i]; show s.np ≠ _; omega
        · rw [l2o m c2 c1]; exact h0.next_ne m (by omega)
    · intro m hm
      by_cases c1 : m = s.np
      · rw [c1, l2np]
        show (lp2 j).next ≠ _
        rw [l2o j hij (by omega)]
        have := h0.next_lt j hjlt; omega
      · by_cases c2 : m = i
        · rw [c2, l2i]
          show (lp2 s.np).next ≠ _
          rw [l2np]; exact hij
        · rw [l2o m c2 c1]
          by_cases c3 : (s.lp m).next = i
          · rw [c3, l2i]; show s.np ≠ _; omega
          · have := h0.next_lt m (by omega)
            rw [l2o _ c3 (by omega)]
            exact h0.next2 m (by omega)
    · intro a ha b hb he
      have nx : ∀ m < s.np, m ≠ i → (lp2 m).next = (s.lp m).next ∧ (s.lp m).next < s.np ∧ (s.lp m).next ≠ j := by
        intro m hm hmi
        refine ⟨by rw [l2o m hmi (by omega)], h0.next_lt m hm, ?_⟩
        intro he
        exact hmi (h0.next_inj m hm i hi he)
      have vi : (lp2 i).next = s.np := by rw [l2i]
      have vn : (lp2 s.np).next = j := by rw [l2np]
      by_cases a1 : a = s.np <;> by_cases a2 : a = i <;> by_cases b1 : b = s.np <;> by_cases b2 : b = i <;>
        first
        | omega
        | (have n1 := nx a (by omega) a2; have n2 := nx b (by omega) b2
           exact h0.next_inj a (by omega) b (by omega) (by rw [← n1.1, ← n2.1]; exact he))
        | (have n1 := nx a (by omega) a2; rw [n1.1] at he; subst b1; rw [vn] at he; omega)
        | (have n1 := nx a (by omega) a2; rw [n1.1] at he; subst b2; rw [vi] at he; omega)
        | (have n1 := nx b (by omega) b2; rw [n1.1] at he; subst a1; rw [vn] at he; omega)
        | (have n1 := nx b (by omega) b2; rw [n1.1] at he; subst a2; rw [vi] at he; omega)
        | (subst a1; subst b2; rw [vn, vi] at he; omega)
        | (subst a2; subst b1; rw [vn, vi] at he; omega)
    · intro m hm
      have st : ∀ m < s.np, (lp2 m).set = (s.lp m).set := by
        intro m hm
        by_cases c2 : m = i
        · rw [c2, l2i]
        · rw [l2o m c2 (by omega)]
      by_cases c1 : m = s.np
      · rw [c1, l2np]; show (lp2 j).set = (s.lp i).set
        rw [st j hjlt]; exact h0.set_eq i hi
      · by_cases c2 : m = i
        · rw [c2, l2i]; show (lp2 s.np).set = (s.lp i).set; rw [l2np]
        · have := h0.next_lt m (by omega)
          rw [l2o m c2 c1, st _ this]; exact h0.set_eq m (by omega)
    · intro m hm
      by_cases c1 : m = s.np
      · rw [c1, l2np]; show (lp2 j).data ≠ c
        rw [l2d j hjlt]; exact hc2
      · by_cases c2 : m = i
        · rw [c2, l2i]; show (lp2 s.np).data ≠ (s.lp i).data; rw [l2np]; exact Ne.symm hc1
        · have := h0.next_lt m (by omega)
          rw [l2o m c2 c1, l2d _ this]; exact h0.pt_ne m (by omega)
  · intro m hm
    rw [ulive] at hm
    obtain ⟨m1, m2, m3, m4⟩ := hm
    rw [np3, useg]
    by_cases c1 : m = s.nn + 1
    · rw [if_pos c1]; exact ⟨s.np, by omega, (uls _).symm⟩
    · rw [if_neg c1]
      by_cases c2 : m = s.nn
      · rw [if_pos c2]; exact ⟨i, by omega, (uls _).symm⟩
      · rw [if_neg c2]
        obtain ⟨a, ha, hae⟩ := h0.own m ⟨m1, by omega, m3⟩
        have hai : a ≠ i := by
          rintro rfl
          exact m4 (h0.seg_inj m n m1 (by omega) live.1 live.2.1 (hae.trans hseg.symm))
        exact ⟨a, by omega, by rw [uls, lsold a ha hai]; exact hae⟩
  · intro a ha
    rw [np3] at ha
    have hn1 := h0.nn1
    by_cases c1 : a = s.np
    · refine ⟨s.nn + 1, (ulive _).mpr ⟨by omega, by omega, ?_, ?_⟩, ?_⟩
      · intro hd'; have := deadlt _ _ hd'; omega
      · have := live.2.1; omega
      · rw [useg, if_pos rfl, uls, c1]
    · by_cases c2 : a = i
      · refine ⟨s.nn, (ulive _).mpr ⟨by omega, by omega, ?_, ?_⟩, ?_⟩
        · intro hd'; have := deadlt _ _ hd'; omega
        · have := live.2.1; omega
        · rw [useg, if_neg (by omega), if_pos rfl, uls, c2]
      · obtain ⟨m, hm, hme⟩ := h0.has a (by omega)
        refine ⟨m, (ulive _).mpr ⟨hm.1, by have := hm.2.1; omega, hm.2.2, ?_⟩, ?_⟩
        · rintro rfl
          exact c2 (h0.lineSeg_inj (by omega) hi (hme.symm.trans hseg))
        · have := hm.2.1
          rw [useg, if_neg (by omega), if_neg (by omega), uls, lsold a (by omega) c2]; exact hme
  · -- dynamic part
    rw [hap]
    refine ⟨?_, ?_, ?_, ?_, hd.fwd_first⟩
    · rw [sw3]; exact hd.nodup.erase n
    · intro m
      rw [sw3, hd.nodup.mem_erase_iff, hd.mem, ulive]
      unfold Clip.Live
      constructor
      · rintro ⟨h1, ⟨h2, h3, h4⟩, h5, h6⟩; exact ⟨⟨h2, by omega, h4, h1⟩, h5, h6⟩
      · rintro ⟨⟨h2, h3, h4, h1⟩, h5, h6⟩; exact ⟨h1, ⟨h2, Alt m true h5, h4⟩, h5, h6⟩
    · intro m hm
      rw [dd3, hdt] at hm ⊢
      rcases hm with hm | hm
      · exact Or.inl (hd.del_b m hm)
      · simp at hm
    · intro m hm hmA
      rw [dd3, hdt] at hm ⊢
      left
      rcases hm with hm | hm
      · exact hd.app_b m hm hmA
      · simp only [Prod.mk.injEq, and_true] at hm
        rw [hm] at hmA
        exact absurd hmA notA
  · -- extension
    refine ⟨⟨by omega, ?_, ?_, ?_⟩, by omega, ?_, ⟨[(i, j)], log3, ?_⟩⟩
    · intro m hm; rw [lpe3]; exact l2d m hm
    · intro m hm
      rw [lpe3]
      by_cases c2 : m = i
      · rw [c2, l2i]
      · rw [l2o m c2 (by omega)]
    · intro m hm
      rw [lpe3, np3]
      by_cases c2 : m = i
      · refine ⟨[s.np], ⟨by rw [c2, l2i], ?_⟩, by simp⟩
        show (lp2 s.np).next = _
        rw [l2np, c2]
      · exact ⟨[], by show (lp2 m).next = _; rw [l2o m c2 (by omega)], by simp⟩
    · intro m hm; rw [useg, if_neg (by omega), if_neg (by omega)]
    · have hnx : u.nexts = setFn (setFn s.nexts i s.np) s.np j := by
        funext k
        unfold Clip.nexts
        rw [lpe3]
        unfold setFn
        by_cases c1 : k = s.np
        · rw [if_pos c1, c1, l2np]
        · rw [if_neg c1]
          by_cases c2 : k = i
          · rw [if_pos c2, c2, l2i]
          · rw [if_neg c2, l2o k c2 c1]
      rw [hnx, np3]
      exact Splits.snoc (l := []) .nil hi rfl
  · rw [lpe3, l2np]
  · have hnn := h0.nn1
    have hlt := live.2.1
    refine ⟨hi, hseg, fun m => ?_, np3, unn, sw3, ?_, ?_, by rw [lpe3, l2i], by rw [lpe3, l2np], by rw [lpe3, l2np], log3⟩
    · rw [ulive]
      constructor
      · rintro ⟨m1, m2, m3, m4⟩
        by_cases c1 : m < s.nn
        · exact Or.inl ⟨⟨m1, c1, m3⟩, m4⟩
        · omega
      · rintro (⟨⟨m1, m2, m3⟩, m4⟩ | rfl | rfl)
        · exact ⟨m1, by omega, m3, m4⟩
        · exact ⟨by omega, by omega, fun hd' => by have := deadlt _ _ hd'; omega, by omega⟩
        · exact ⟨by omega, by omega, fun hd' => by have := deadlt _ _ hd'; omega, by omega⟩
    · rw [useg, if_neg (by omega), if_pos rfl, uls]
    · rw [useg, if_pos rfl, uls]


/-- What the intersection test must guarantee: a line is only to be split at a point that was computed and differs from
its ends, and the flags agree on complete coincidence. -/
def EnvOk (env : Env) : Prop := ∀ k s1 s2 r, s1.pa ≠ s1.pb → s2.pa ≠ s2.pb → env.isect k s1 s2 = some r →
  (r.e0 = .both ↔ r.e1 = .both) ∧
  (r.e0 = .no → ∃ c, r.p = some c ∧ s1.pa ≠ c ∧ s1.pb ≠ c) ∧ (r.e1 = .no → ∃ c, r.p = some c ∧ s2.pa ≠ c ∧ s2.pb ≠ c)

/-- Points reported for segments with ends in `P` are in `P`. -/
def EnvIn (P : Pt → Prop) (env : Env) : Prop := ∀ k s1 s2 r c, s1.pa ≠ s1.pb → s2.pa ≠ s2.pb → P s1.pa → P s1.pb → P s2.pa → P s2.pb →
  env.isect k s1 s2 = some r → r.p = some c → P c

/-- All points are in `P`. -/
def Clip.AllIn (P : Pt → Prop) (s : Clip) : Prop := ∀ i < s.np, P (s.lp i).data

/-- Nodes of the sweep have no length zero. -/
theorem Inv.cseg_ne {s : Clip} (h : Inv s) {n : Nat} (hs : n ∈ s.sweep) : (s.cseg n).pa ≠ (s.cseg n).pb := by
  obtain ⟨i, hi, hseg⟩ := h.1.own n ((h.2.mem n).mp hs).1
  have := h.1.pt_ne i hi
  unfold Clip.cseg
  rw [hseg]
  unfold Clip.lineSeg
  split
  · exact this
  · exact this.symm

theorem Inv.cseg_in {P : Pt → Prop} {s : Clip} (h : Inv s) (hp : s.AllIn P) {n : Nat} (hs : n ∈ s.sweep) :
    P (s.cseg n).pa ∧ P (s.cseg n).pb := by
  have hlt := ((h.2.mem n).mp hs).1
  have := h.1.seg_lt n hlt.1 hlt.2.1
  exact ⟨hp _ this.1, hp _ this.2.1⟩

/-- The state between two parts of an iteration: nothing is waiting to be merged. -/
structure Mid (s t : Clip) : Prop where
  inv : Inv t
  news : t.q.news = []
  ext : Ext s t
  app : nt (applied t.q) = nt (applied s.q)

/-- `split_segment` on a node of the sweep. -/
theorem split_spec {s : Clip} (h : Inv s) (hn : s.q.news = []) {n : Nat} (hs : n ∈ s.sweep) (p : Option Pt) (edge : AtEdge)
    (hb : edge ≠ .both) (hc : edge = .no → ∃ c, p = some c ∧ (s.cseg n).pa ≠ c ∧ (s.cseg n).pb ≠ c) :
    ∃ m t, s.split n p edge = some (m, t) ∧ Mid s t ∧ (∀ k ∈ s.sweep, k ≠ n → k ∈ t.sweep) ∧
      (∀ P : Pt → Prop, s.AllIn P → (∀ c, p = some c → P c) → t.AllIn P) ∧
      (edge ≠ .no → t = s) ∧ (edge = .no → ∀ c, p = some c → ∃ i, SplitAt s t n c i) := by
  have refl : Mid s s := ⟨h, hn, Ext.refl s, rfl⟩
  unfold Clip.split
  cases edge with
  | both => exact absurd rfl hb
  | start => exact ⟨_, s, rfl, refl, fun k hk _ => hk, fun P h _ => h, fun _ => rfl, nofun⟩
  | «end» => exact ⟨_, s, rfl, refl, fun k hk _ => hk, fun P h _ => h, fun _ => rfl, nofun⟩
  | no =>
    obtain ⟨c, rfl, h1, h2⟩ := hc rfl
    obtain ⟨i, hi, hseg⟩ := h.1.own n ((h.2.mem n).mp hs).1
    simp only
    have main : (s.lp i).data ≠ c ∧ (s.lp (s.lp i).next).data ≠ c := by
      unfold Clip.cseg at h1 h2
      rw [hseg] at h1 h2
      unfold Clip.lineSeg at h1 h2
      split at h1
      · rename_i cx
        rw [if_pos cx] at h2
        exact ⟨h2, h1⟩
      · rename_i cx
        rw [if_neg cx] at h2
        exact ⟨h1, h2⟩
    obtain ⟨t, u, e1, e2, e3, e4, e5, e6, e7, e8, e9, e10, e11, e12, e13, e14⟩ := split_aux h hn hs c i hi hseg main.1 main.2
    refine ⟨s.np, u, ?_, ⟨e5, e6, e8, e9⟩, ?_, ?_, fun h => absurd rfl h, fun _ c' hc' => ?_⟩
    · rw [e1, Option.bind_some, e3, hseg]
      unfold Clip.lineSeg
      by_cases cx : s.x i > s.x (s.lp i).next
      · rw [if_pos cx]
        simp only
        rw [if_neg (h.1.next2 i hi)]; exact e2
      · rw [if_neg cx]
        simp only
        rw [if_pos trivial]; exact e2
    · intro k hk hkn
      rw [e7]
      exact (List.mem_erase_of_ne hkn).mpr hk
    · intro P hP hpc k hk
      rw [e11] at hk
      by_cases c1 : k = s.np
      · rw [c1, e13]; exact hpc c rfl
      · rw [e8.ref.data k (by omega)]; exact hP k (by omega)
    · cases hc'; exact ⟨i, e14⟩

theorem Mid.trans {s t u : Clip} (h1 : Mid s t) (h2 : Mid t u) : Mid s u :=
  ⟨h2.inv, h2.news, h1.ext.trans h2.ext, h2.app.trans h1.app⟩

theorem mark_in {P : Pt → Prop} {s : Clip} (h : s.AllIn P) (i : Nat) : (s.mark i).AllIn P := by
  intro k hk; rw [(mark_fields s i k).1]; exact h k hk

theorem Mid.mark {s t : Clip} (h : Mid s t) (i : Nat) : Mid s (t.mark i) :=
  ⟨mark_inv h.inv i, h.news, h.ext.trans (mark_ext t i), h.app⟩

/-- The counter does not matter. -/
theorem clock_inv {s : Clip} (h : Inv s) (k : Nat) : Inv { s with clock := k } := by
  obtain ⟨h0, hd⟩ := h
  exact ⟨⟨⟨h0.wf, h0.nn1, h0.ev_ok, h0.ev_ex, h0.seg_lt, h0.seg_inj⟩, h0.toLoops, h0.own, h0.has⟩,
    ⟨hd.nodup, hd.mem, hd.del_b, hd.app_b, hd.fwd_first⟩⟩

theorem clock_ext (s : Clip) (k : Nat) : Ext s { s with clock := k } :=
  ⟨Refine.refl _ _, le_rfl, fun _ _ => rfl, [], by simp, .nil⟩

/-- `check_intersection` on two different nodes of the sweep never fails and keeps everything consistent; unless it
split a line the sweep is unchanged. -/
theorem checkIsect_spec {env : Env} (he : EnvOk env) {s : Clip} (h : Inv s) (hn : s.q.news = []) {n1 n2 : Nat}
    (h1 : n1 ∈ s.sweep) (h2 : n2 ∈ s.sweep) (hne : n1 ≠ n2) :
    ∃ b t, s.checkIsect env n1 n2 = some (b, t) ∧ Mid s t ∧ (b = false → t.sweep = s.sweep) ∧
      ∀ P, EnvIn P env → s.AllIn P → t.AllIn P := by
  have base : Mid s { s with clock := s.clock + 1 } := ⟨clock_inv h _, hn, clock_ext s _, rfl⟩
  unfold Clip.checkIsect
  simp only
  cases hr : env.isect s.clock (s.cseg n1) (s.cseg n2) with
  | none => exact ⟨false, _, rfl, base, fun _ => rfl, fun _ _ h => h⟩
  | some r =>
    have z1 := h.cseg_ne h1
    have z2 := h.cseg_ne h2
    obtain ⟨hb, hc1, hc2⟩ := he _ _ _ r z1 z2 hr
    simp only
    rw [if_neg (not_not.mpr hb)]
    by_cases cno : r.e0 = .no ∨ r.e1 = .no
    · rw [if_pos cno]
      have nb : r.e0 ≠ .both ∧ r.e1 ≠ .both := by
        rcases cno with c | c
        · refine ⟨by rw [c]; simp, fun hh => ?_⟩
          rw [hb.mpr hh] at c; cases c
        · refine ⟨fun hh => ?_, by rw [c]; simp⟩
          rw [hb.mp hh] at c; cases c
      obtain ⟨m1, t1, s1, s2, s3, pp1, _⟩ := split_spec base.inv base.news (n := n1) h1 r.p r.e0 nb.1 hc1
      have hn2 : n2 ∈ t1.sweep := s3 n2 h2 (Ne.symm hne)
      have hcs : t1.cseg n2 = s.cseg n2 := by
        have hlt := ((h.2.mem n2).mp h2).1
        have sl := h.1.seg_lt n2 hlt.1 hlt.2.1
        unfold Clip.cseg
        rw [s2.ext.seg n2 hlt.2.1]
        show CSeg.mk (s.seg n2).1 (s.seg n2).2 (t1.lp (s.seg n2).1).data (t1.lp (s.seg n2).2).data = _
        rw [s2.ext.ref.data _ sl.1, s2.ext.ref.data _ sl.2.1]
      obtain ⟨m2, t2, s4, s5, s6, pp2, _⟩ := split_spec s2.inv s2.news (n := n2) hn2 r.p r.e1 nb.2 (by rw [hcs]; exact hc2)
      refine ⟨true, (t2.mark m1).mark m2, ?_, (((base.trans s2).trans s5).mark m1).mark m2, by simp, ?_⟩
      · rw [s1]
        simp only [Option.bind_some]
        rw [s4]; rfl
      · intro P hP hs
        obtain ⟨q1, q2⟩ := h.cseg_in hs h1
        obtain ⟨q3, q4⟩ := h.cseg_in hs h2
        have hc : ∀ c, r.p = some c → P c := fun c hc => hP _ _ _ r c z1 z2 q1 q2 q3 q4 hr hc
        exact mark_in (mark_in (pp2 P (pp1 P hs hc) hc) _) _
    · rw [if_neg cno]
      by_cases cb : r.e0 = .both
      · rw [if_pos cb]
        exact ⟨false, _, rfl, (((base.mark _).mark _).mark _).mark _, fun _ => rfl, fun _ _ h => mark_in (mark_in (mark_in (mark_in h _) _) _) _⟩
      · rw [if_neg cb]
        exact ⟨false, _, rfl, (base.mark _).mark _, fun _ => rfl, fun _ _ h => mark_in (mark_in h _) _⟩

/-! ### One iteration -/

theorem insert_nodup {l : List Nat} (h : l.Nodup) {n : Nat} (hn : n ∉ l) (k : Nat) (hk : k ≤ l.length) :
    (l.insertIdx k n).Nodup ∧ ∀ m, m ∈ l.insertIdx k n ↔ m = n ∨ m ∈ l := by
  have p := List.perm_insertIdx n l hk
  refine ⟨p.nodup_iff.mpr (List.nodup_cons.mpr ⟨hn, h⟩), fun m => ?_⟩
  rw [p.mem_iff, List.mem_cons]

/-- Inv0 only looks at points, nodes and events. -/
theorem Inv0.sweep {s : Clip} (h : Inv0 s) (sw : List Nat) (k : Nat) : Inv0 { s with sweep := sw, clock := k } :=
  ⟨⟨h.wf, h.nn1, h.ev_ok, h.ev_ex, h.seg_lt, h.seg_inj⟩, h.toLoops, h.own, h.has⟩

theorem prevOf_spec {l : List Nat} (h : l.Nodup) {n m : Nat} (hn : n ∈ l) (hp : prevOf l n = some m) : m ∈ l ∧ m ≠ n := by
  unfold prevOf at hp
  have hlt := List.idxOf_lt_length_iff.mpr hn
  cases hk : l.idxOf n with
  | zero => rw [hk] at hp; simp at hp
  | succ k =>
    rw [hk] at hp hlt
    simp only at hp
    have hkl : k < l.length := by omega
    rw [List.getElem?_eq_getElem hkl, Option.some.injEq] at hp
    refine ⟨hp ▸ List.getElem_mem hkl, ?_⟩
    rintro rfl
    have := h.idxOf_getElem k hkl
    rw [hp, hk] at this
    omega

theorem nextOf_spec {l : List Nat} (h : l.Nodup) {n m : Nat} (hp : nextOf l n = some m) : m ∈ l ∧ m ≠ n := by
  unfold nextOf at hp
  obtain ⟨hlt, he⟩ := List.getElem?_eq_some_iff.mp hp
  refine ⟨he ▸ List.getElem_mem hlt, ?_⟩
  rintro rfl
  have := h.idxOf_getElem _ hlt
  rw [he] at this
  omega

theorem prev_ne_next {l : List Nat} (h : l.Nodup) {n p m : Nat} (h1 : prevOf l n = some p) (h2 : nextOf l n = some m) : p ≠ m := by
  unfold prevOf at h1
  unfold nextOf at h2
  obtain ⟨hlt, he⟩ := List.getElem?_eq_some_iff.mp h2
  cases hk : l.idxOf n with
  | zero => rw [hk] at h1; simp at h1
  | succ k =>
    rw [hk] at h1 hlt
    simp only at h1
    have hkl : k < l.length := by omega
    rw [List.getElem?_eq_getElem hkl, Option.some.injEq] at h1
    rintro rfl
    have i1 := h.idxOf_getElem k hkl
    have i2 := h.idxOf_getElem _ (show l.idxOf n + 1 < l.length by rw [hk]; exact hlt)
    rw [h1] at i1
    rw [he, i1] at i2
    omega

/-- The event `e` of a live line is taken, going forward. -/
structure Fwd (s : Clip) (q : Queue) (e : Ev) : Prop where
  wf : WF s.x q
  perm : q.events.Perm s.q.events
  mem : e ∈ q.events
  news : q.news = []
  app : applied q = applied s.q ++ [e]
  before : ∀ f ∈ q.events, less s.x f e = true → f ∈ applied s.q
  after : ∀ f ∈ applied s.q, less s.x f e = true
  live : s.Live e.node

/-- The event `e` of a live line is taken back. -/
structure Bwd (s : Clip) (q : Queue) (e : Ev) : Prop where
  wf : WF s.x q
  perm : q.events.Perm s.q.events
  mem : e ∈ q.events
  app : applied s.q = applied q ++ [e]
  before : ∀ f ∈ applied q, less s.x f e = true
  live : s.Live e.node

/-- What a step of the sweep does. -/
inductive StepCase (env : Env) (s t : Clip) : Prop
  | same (q : Queue) : t = { s with q := q } → (∀ n, t.Live n ↔ s.Live n) →
      (∀ n b, s.Live n → ((n, b) ∈ nt (applied q) ↔ (n, b) ∈ nt (applied s.q))) → StepCase env s t
  | fs (q : Queue) (e : Ev) (t0 u : Clip) (b : Bool) : Fwd s q e → e.ty.isFwd = true → e.node ∉ s.sweep →
      t0 = { s with q := q, sweep := s.sweep.insertIdx (min (env.pos { s with q := q } e.node) s.sweep.length) e.node, clock := s.clock + 1 } →
      Inv t0 → t0.checkOpt env e.node (prevOf t0.sweep e.node) = some (b, u) →
      ((b = true ∧ t = u) ∨ (b = false ∧ ∃ c, u.checkOpt env e.node (nextOf u.sweep e.node) = some (c, t))) → StepCase env s t
  | fe (q : Queue) (e : Ev) (t0 : Clip) : Fwd s q e → e.ty.isFwd = false → e.node ∈ s.sweep →
      t0 = { s with q := q, sweep := s.sweep.erase e.node } →
      Inv t0 → ((t = t0 ∧ (prevOf s.sweep e.node = none ∨ nextOf s.sweep e.node = none)) ∨
        ∃ p m b, prevOf s.sweep e.node = some p ∧ nextOf s.sweep e.node = some m ∧ t0.checkIsect env p m = some (b, t)) → StepCase env s t
  | bs (q : Queue) (e : Ev) : Bwd s q e → e.ty.isFwd = true → e.node ∈ s.sweep → t = { s with q := q, sweep := s.sweep.erase e.node } → StepCase env s t
  | be (q : Queue) (e : Ev) : Bwd s q e → e.ty.isFwd = false → e.node ∉ s.sweep →
      t = { s with q := q, sweep := s.sweep.insertIdx (min (env.pos { s with q := q } e.node) s.sweep.length) e.node, clock := s.clock + 1 } → StepCase env s t


/-- One iteration never fails and keeps the invariant. -/
theorem step_spec {env : Env} (he : EnvOk env) {s : Clip} (h : Inv s) (hm : s.q.more = true) :
    ∃ t, s.step env = some t ∧ Inv t ∧ Ext s t ∧ (∀ P, EnvIn P env → s.AllIn P → t.AllIn P) ∧ StepCase env s t := by
  obtain ⟨h0, hd⟩ := h
  obtain ⟨e, fwd, q, hq, sp⟩ := C24_next s.x s.q h0.wf hm
  have h0' : Inv0 { s with q := q } := h0.of_perm q sp.wf sp.perm
  have hdead : ∀ n b, Dead q.events n b ↔ Dead s.q.events n b := by
    intro n b; unfold Dead; simp only [sp.perm.mem_iff]
  have hlive : ∀ n, ({ s with q := q } : Clip).Live n ↔ s.Live n := by
    intro n; unfold Clip.Live; simp only [hdead]
  have ext0 : Ext s { s with q := q } := ⟨Refine.refl _ _, le_rfl, fun _ _ => rfl, [], by simp, .nil⟩
  have hsw : ∀ (sw : List Nat) (k : Nat), Ext s { s with q := q, sweep := sw, clock := k } := fun _ _ =>
    ⟨Refine.refl _ _, le_rfl, fun _ _ => rfl, [], by simp, .nil⟩
  obtain ⟨sA, pA⟩ := applied_sorted h0.wf
  obtain ⟨sA', pA'⟩ := applied_sorted sp.wf
  have memq : ∀ f ∈ applied q, f ∈ q.events := fun f hf => List.mem_of_mem_take (pA'.subset hf)
  have mems : ∀ f ∈ applied s.q, f ∈ s.q.events := fun f hf => List.mem_of_mem_take (pA.subset hf)
  unfold Clip.step
  rw [hq]
  simp only [Option.bind_some]
  -- the event is one of the queue
  have hee : e ∈ q.events := by
    cases fwd with
    | true => exact memq e (by rw [(sp.fwd_spec rfl).2.2.2.1]; simp)
    | false =>
      have := mems e (by rw [(sp.bwd_spec rfl).2.2.2.1]; simp)
      exact sp.perm.mem_iff.mpr this
  obtain ⟨en1, en2, ek⟩ := h0'.ev_ok e hee
  have dead_iff : ∀ n b, e.nt = (n, b) → (Dead q.events n b ↔ e.del = true) := by
    intro n b hnb
    constructor
    · rintro ⟨f, hf, h1, h2⟩
      rw [h0'.key_nt hf hee (h1.trans hnb.symm)] at h2; exact h2
    · intro h; exact ⟨e, hee, hnb, h⟩
  -- effect on the applied set
  cases fwd with
  | true =>
    obtain ⟨f1, f2, f3, f4, f5, f6, f7⟩ := sp.fwd_spec rfl
    have hA' : nt (applied q) = nt (applied s.q) ++ [e.nt] := by rw [f4, nt_append]; rfl
    have ndA : (nt (applied q)).Nodup := by
      have := h0'.nt_nodup
      exact this.sublist (f5.sublist.map Ev.nt)
    have notin : e.nt ∉ nt (applied s.q) := by
      rw [hA'] at ndA
      have := (List.nodup_append.mp ndA).2.2
      intro hc
      exact this _ hc _ (by simp) rfl
    -- everything before e is applied
    have before : ∀ f ∈ q.events, less s.x f e = true → f ∈ applied s.q := by
      intro f hf hlt
      obtain ⟨r, hr⟩ := f5
      rw [← hr] at hf f3
      rcases List.mem_append.mp hf with hf | hf
      · rw [f4] at hf
        rcases List.mem_append.mp hf with hf | hf
        · exact hf
        · simp only [List.mem_singleton] at hf
          subst hf
          rw [C21_irrefl] at hlt; cases hlt
      · have hlt2 : less s.x e f = true := by
          unfold Sorted at f3
          rw [List.pairwise_append] at f3
          exact f3.2.2 e (by rw [f4]; simp) f hf
        rw [C21_asymm s.x hlt] at hlt2; cases hlt2
    have after : ∀ f ∈ applied s.q, less s.x f e = true := by
      intro f hf
      rw [f4] at sA'
      unfold Sorted at sA'
      rw [List.pairwise_append] at sA'
      exact sA'.2.2 f hf e (by simp)
    -- an end event has its start event applied before it
    have ff : ∀ n, (n, false) ∈ nt (applied q) → (n, true) ∈ nt (applied q) := by
      intro n hn
      rw [hA', List.mem_append] at hn ⊢
      rcases hn with hn | hn
      · exact Or.inl (hd.fwd_first n hn)
      · left
        simp only [List.mem_singleton] at hn
        have n1 : e.node = n := (congrArg Prod.fst hn).symm
        obtain ⟨f, hf, hfn⟩ := mem_nt.mp (h0'.ev_ex n true (n1 ▸ en1) (n1 ▸ en2))
        exact mem_nt.mpr ⟨f, before f hf (h0'.fwd_lt hf hee hfn hn.symm), hfn⟩
    by_cases cdel : e.del = true
    · -- a deleted event
      rw [if_pos cdel]
      refine ⟨_, rfl, ⟨h0', ⟨hd.nodup, ?_, ?_, ?_, ff⟩⟩, ext0, fun _ _ h => h, .same q rfl hlive fun n b hl => ?_⟩
      · intro n
        show n ∈ s.sweep ↔ _
        rw [hd.mem, hlive, hA']
        simp only [List.mem_append, List.mem_singleton, not_or]
        have hdt : ∀ b, (n, b) = e.nt → Dead s.q.events n true := by
          intro b hb
          have := (hdead n b).mp ((dead_iff n b hb.symm).mpr cdel)
          cases b
          · exact hd.del_b n this
          · exact this
        constructor
        · rintro ⟨h1, h2, h3⟩
          exact ⟨h1, Or.inl h2, h3, fun hc => h1.2.2 (hdt _ hc)⟩
        · rintro ⟨h1, h2 | h2, h3, _⟩
          · exact ⟨h1, h2, h3⟩
          · exact absurd (hdt _ h2) h1.2.2
      · intro n; rw [hdead, hdead]; exact hd.del_b n
      · intro n h1 h2
        show Dead q.events n false
        rw [hA', List.mem_append] at h2
        rcases h2 with h2 | h2
        · rw [hdead]; exact hd.app_b n ((hdead _ _).mp h1) h2
        · simp only [List.mem_singleton] at h2
          exact (dead_iff n false h2.symm).mpr cdel
      · rw [hA', List.mem_append, List.mem_singleton]
        refine or_iff_left fun hb => ?_
        have := (hdead n b).mp ((dead_iff n b hb.symm).mpr cdel)
        cases b
        · exact hl.2.2 (hd.del_b n this)
        · exact hl.2.2 this
    · rw [if_neg cdel]
      cases hty : e.ty.isFwd with
      | true =>
        have hnt : e.nt = (e.node, true) := by unfold Ev.nt; rw [hty]
        have live : s.Live e.node := ⟨en1, en2, fun hc => cdel ((dead_iff _ _ hnt).mp ((hdead _ _).mpr hc))⟩
        have nB : (e.node, false) ∉ nt (applied q) := by
          intro hc
          obtain ⟨f, hf, hfn⟩ := mem_nt.mp hc
          have h1 := h0'.fwd_lt hee (memq f hf) hnt hfn
          rw [f4] at hf
          rcases List.mem_append.mp hf with hf | hf
          · have h2 := after f hf
            have h1' : less s.x e f = true := h1
            rw [C21_asymm s.x h1'] at h2; cases h2
          · simp only [List.mem_singleton] at hf
            subst hf; rw [hnt] at hfn; simp at hfn
        have nin : e.node ∉ s.sweep := by
          intro hc
          exact notin (hnt ▸ ((hd.mem _).mp hc).2.1)
        simp only
        unfold Clip.onForward Clip.insert
        simp only
        rw [if_neg nin]
        simp only [Option.bind_some]
        set k := min (env.pos ({ s with q := q } : Clip) e.node) s.sweep.length with hk
        obtain ⟨nd, mm⟩ := insert_nodup hd.nodup nin k (min_le_right _ _)
        set t : Clip := { s with q := q, sweep := s.sweep.insertIdx k e.node, clock := s.clock + 1 } with ht
        have tinv : Inv t := by
          refine ⟨h0'.sweep _ _, ⟨nd, ?_, ?_, ?_, ff⟩⟩
          · intro n
            show n ∈ s.sweep.insertIdx k e.node ↔ ({ s with q := q } : Clip).Live n ∧ _
            rw [mm, hlive]
            show _ ↔ _ ∧ _ ∈ nt (applied q) ∧ _ ∉ nt (applied q)
            by_cases c : n = e.node
            · subst c
              simp only [true_or, true_iff]
              exact ⟨live, by rw [hA', hnt]; simp, nB⟩
            · rw [hd.mem, hA', hnt]
              simp [c]
          · intro n; show Dead q.events n false → Dead q.events n true
            rw [hdead, hdead]; exact hd.del_b n
          · intro n h1 h2
            show Dead q.events n false
            rw [hdead]
            refine hd.app_b n ((hdead _ _).mp h1) ?_
            change (n, false) ∈ nt (applied q) at h2
            rw [hA', hnt, List.mem_append] at h2
            rcases h2 with h2 | h2
            · exact h2
            · simp at h2
        have tmem : e.node ∈ t.sweep := (mm _).mpr (Or.inl rfl)
        have text : Ext s t := hsw _ _
        have first : ∃ b u, t.checkOpt env e.node (prevOf t.sweep e.node) = some (b, u) ∧ Mid t u ∧ (b = false → u.sweep = t.sweep) ∧
            ∀ P, EnvIn P env → t.AllIn P → u.AllIn P := by
          cases hp : prevOf t.sweep e.node with
          | none => exact ⟨false, t, rfl, ⟨tinv, f1, Ext.refl t, rfl⟩, fun _ => rfl, fun _ _ h => h⟩
          | some m =>
            obtain ⟨p1, p2⟩ := prevOf_spec nd tmem hp
            exact checkIsect_spec he tinv f1 tmem p1 p2.symm
        obtain ⟨b, u, u1, u2, u3, u4⟩ := first
        have hF : Fwd s q e := ⟨sp.wf, sp.perm, hee, f1, f4, before, after, live⟩
        have hcase : ∀ v, ((b = true ∧ v = u) ∨ (b = false ∧ ∃ c, u.checkOpt env e.node (nextOf u.sweep e.node) = some (c, v))) →
            StepCase env s v := fun v hv => .fs q e t u b hF hty nin rfl tinv u1 hv
        rw [u1]
        simp only [Option.bind_some]
        cases b with
        | true => exact ⟨u, rfl, u2.inv, text.trans u2.ext, fun P h1 h2 => u4 P h1 h2, hcase u (Or.inl ⟨rfl, rfl⟩)⟩
        | false =>
          simp only [Bool.false_eq_true, if_false]
          have usw := u3 rfl
          have second : ∃ b v, u.checkOpt env e.node (nextOf u.sweep e.node) = some (b, v) ∧ Mid u v ∧
              ∀ P, EnvIn P env → u.AllIn P → v.AllIn P := by
            cases hp : nextOf u.sweep e.node with
            | none => exact ⟨false, u, rfl, ⟨u2.inv, u2.news, Ext.refl u, rfl⟩, fun _ _ h => h⟩
            | some m =>
              obtain ⟨p1, p2⟩ := nextOf_spec u2.inv.2.nodup hp
              obtain ⟨b, v, v1, v2, _, v3⟩ := checkIsect_spec he u2.inv u2.news (by rw [usw]; exact tmem) p1 p2.symm
              exact ⟨b, v, v1, v2, v3⟩
          obtain ⟨b, v, v1, v2, v3⟩ := second
          rw [v1]
          exact ⟨v, rfl, v2.inv, (text.trans u2.ext).trans v2.ext, fun P h1 h2 => v3 P h1 (u4 P h1 h2), hcase v (Or.inr ⟨rfl, b, v1⟩)⟩
      | false =>
        have hnt : e.nt = (e.node, false) := by unfold Ev.nt; rw [hty]
        have inA : (e.node, true) ∈ nt (applied s.q) := by
          have := ff e.node (by rw [hA', hnt]; simp)
          rw [hA', hnt, List.mem_append] at this
          rcases this with h | h
          · exact h
          · simp at h
        simp only
        unfold Clip.onBackward
        by_cases cin : e.node ∈ s.sweep
        · simp only
          rw [if_pos cin]
          set t : Clip := { s with q := q, sweep := s.sweep.erase e.node } with ht
          have tinv : Inv t := by
            refine ⟨h0'.sweep _ _, ⟨hd.nodup.erase _, ?_, ?_, ?_, ff⟩⟩
            · intro n
              show n ∈ s.sweep.erase e.node ↔ ({ s with q := q } : Clip).Live n ∧ _ ∈ nt (applied q) ∧ _ ∉ nt (applied q)
              rw [hd.nodup.mem_erase_iff, hd.mem, hlive, hA', hnt]
              simp only [List.mem_append, List.mem_singleton, Prod.mk.injEq, not_or, Bool.true_eq_false, and_false, or_false, and_true]
              tauto
            · intro n; show Dead q.events n false → Dead q.events n true
              rw [hdead, hdead]; exact hd.del_b n
            · intro n h1 h2
              show Dead q.events n false
              rw [hdead]
              change (n, false) ∈ nt (applied q) at h2
              rw [hA', hnt, List.mem_append] at h2
              rcases h2 with h2 | h2
              · exact hd.app_b n ((hdead _ _).mp h1) h2
              · simp only [List.mem_singleton, Prod.mk.injEq, and_true] at h2
                have hl := ((hd.mem _).mp cin).1
                rw [← h2] at hl
                exact absurd ((hdead _ _).mp h1) hl.2.2
          have text : Ext s t := hsw _ _
          have hF : Fwd s q e := ⟨sp.wf, sp.perm, hee, f1, f4, before, after, ((hd.mem _).mp cin).1⟩
          cases hp : prevOf s.sweep e.node with
          | none => exact ⟨t, by simp, tinv, text, fun _ _ h => h, .fe q e t hF hty cin rfl tinv (Or.inl ⟨rfl, Or.inl hp⟩)⟩
          | some p =>
            cases hn : nextOf s.sweep e.node with
            | none => exact ⟨t, by simp, tinv, text, fun _ _ h => h, .fe q e t hF hty cin rfl tinv (Or.inl ⟨rfl, Or.inr hn⟩)⟩
            | some m =>
              obtain ⟨p1, p2⟩ := prevOf_spec hd.nodup cin hp
              obtain ⟨m1, m2⟩ := nextOf_spec hd.nodup hn
              have pm : p ≠ m := prev_ne_next hd.nodup hp hn
              obtain ⟨b, v, v1, v2, _, v3⟩ := checkIsect_spec he tinv f1 (n1 := p) (n2 := m) ((List.mem_erase_of_ne p2).mpr p1)
                ((List.mem_erase_of_ne m2).mpr m1) pm
              simp only
              rw [v1]
              exact ⟨v, rfl, v2.inv, text.trans v2.ext, fun P h1 h2 => v3 P h1 h2,
                .fe q e t hF hty cin rfl tinv (Or.inr ⟨p, m, b, hp, hn, v1⟩)⟩
        · simp only
          rw [if_neg cin]
          have nB : (e.node, false) ∉ nt (applied s.q) := by rw [← hnt]; exact notin
          have dead : Dead s.q.events e.node true := by
            by_contra hc
            exact cin ((hd.mem _).mpr ⟨⟨en1, en2, hc⟩, inA, nB⟩)
          refine ⟨_, rfl, ?_, ?_, fun _ _ h => h, ?_⟩
          · have hdd : ∀ n b, Dead (q.delAt q.cur.toNat).events n b ↔ Dead s.q.events n b ∨ (n, b) = (e.node, false) := by
              intro n b
              rw [dead_delAt q _ e f6, hdead, hnt]
            have hll : ∀ n, ({ s with q := q.delAt q.cur.toNat } : Clip).Live n ↔ s.Live n := by
              intro n
              show (_ ∧ _ ∧ ¬ Dead (q.delAt q.cur.toNat).events n true) ↔ _
              rw [hdd]; simp [Clip.Live]
            refine ⟨⟨h0'.toCore.delAt f1 _ s.sweep, h0'.toLoops, ?_, ?_⟩, ⟨hd.nodup, ?_, ?_, ?_, ?_⟩⟩
            · intro n hn; exact h0.own n ((hll n).mp hn)
            · intro i hi
              obtain ⟨n, hn, hne⟩ := h0.has i hi
              exact ⟨n, (hll n).mpr hn, hne⟩
            · intro n
              show n ∈ s.sweep ↔ _ ∧ _ ∈ nt (applied (q.delAt q.cur.toNat)) ∧ _ ∉ nt (applied (q.delAt q.cur.toNat))
              rw [applied_delAt, hll, hd.mem, hA', hnt]
              simp only [List.mem_append, List.mem_singleton, Prod.mk.injEq, not_or, Bool.true_eq_false, and_false, or_false, and_true]
              constructor
              · rintro ⟨h1, h2, h3⟩
                refine ⟨h1, h2, h3, ?_⟩
                rintro rfl; exact h1.2.2 dead
              · rintro ⟨h1, h2, h3, _⟩; exact ⟨h1, h2, h3⟩
            · intro n
              show Dead (q.delAt q.cur.toNat).events n false → Dead (q.delAt q.cur.toNat).events n true
              rw [hdd, hdd]
              rintro (h1 | h1)
              · exact Or.inl (hd.del_b n h1)
              · simp only [Prod.mk.injEq, and_true] at h1
                rw [h1]; exact Or.inl dead
            · intro n h1 h2
              change (n, false) ∈ nt (applied (q.delAt q.cur.toNat)) at h2
              rw [applied_delAt, hA', hnt, List.mem_append] at h2
              show Dead (q.delAt q.cur.toNat).events n false
              rw [hdd]
              rcases h2 with h2 | h2
              · left
                refine hd.app_b n ?_ h2
                have := (hdd n true).mp h1
                simpa using this
              · right; simpa using h2
            · show ∀ n, (n, false) ∈ nt (applied (q.delAt q.cur.toNat)) → (n, true) ∈ nt (applied (q.delAt q.cur.toNat))
              rw [applied_delAt]; exact ff
          · exact ⟨Refine.refl _ _, le_rfl, fun _ _ => rfl, [], by simp, .nil⟩
          · refine .same _ rfl (fun n => ?_) fun n b hl => ?_
            · show (_ ∧ _ ∧ ¬ Dead (q.delAt q.cur.toNat).events n true) ↔ _
              rw [dead_delAt q _ e f6, hdead, hnt]; simp [Clip.Live]
            · rw [applied_delAt, hA', List.mem_append, List.mem_singleton, hnt]
              refine or_iff_left fun hb => hl.2.2 ?_
              rw [show n = e.node from congrArg Prod.fst hb]; exact dead
  | false =>
    obtain ⟨g1, g2, g3, g4, g5⟩ := sp.bwd_spec rfl
    have hA : nt (applied s.q) = nt (applied q) ++ [e.nt] := by rw [g4, nt_append]; rfl
    have ndA : (nt (applied s.q)).Nodup := h0.nt_nodup.sublist (((pA.trans (List.take_prefix _ _)).sublist).map Ev.nt)
    have notin : e.nt ∉ nt (applied q) := by
      rw [hA] at ndA
      have := (List.nodup_append.mp ndA).2.2
      intro hc
      exact this _ hc _ (by simp) rfl
    have before : ∀ f ∈ applied q, less s.x f e = true := by
      intro f hf
      rw [g4] at sA
      unfold Sorted at sA
      rw [List.pairwise_append] at sA
      exact sA.2.2 f hf e (by simp)
    have ff : ∀ n, (n, false) ∈ nt (applied q) → (n, true) ∈ nt (applied q) := by
      intro n hn
      have h1 := hd.fwd_first n (by rw [hA]; exact List.mem_append_left _ hn)
      rw [hA, List.mem_append] at h1
      rcases h1 with h1 | h1
      · exact h1
      · simp only [List.mem_singleton] at h1
        obtain ⟨f, hf, hfn⟩ := mem_nt.mp hn
        have l1 := before f hf
        have l2 := h0'.fwd_lt hee (memq f hf) h1.symm hfn
        have l2' : less s.x e f = true := l2
        rw [C21_asymm s.x l1] at l2'; cases l2'
    by_cases cdel : e.del = true
    · rw [if_pos cdel]
      refine ⟨_, rfl, ⟨h0', ⟨hd.nodup, ?_, ?_, ?_, ff⟩⟩, ext0, fun _ _ h => h, .same q rfl hlive fun n b hl => ?_⟩
      · intro n
        show n ∈ s.sweep ↔ _
        rw [hd.mem, hlive, hA]
        simp only [List.mem_append, List.mem_singleton, not_or]
        have hdt : ∀ b, (n, b) = e.nt → Dead s.q.events n true := by
          intro b hb
          have := (hdead n b).mp ((dead_iff n b hb.symm).mpr cdel)
          cases b
          · exact hd.del_b n this
          · exact this
        constructor
        · rintro ⟨h1, h2 | h2, h3, _⟩
          · exact ⟨h1, h2, h3⟩
          · exact absurd (hdt _ h2) h1.2.2
        · rintro ⟨h1, h2, h3⟩
          exact ⟨h1, Or.inl h2, h3, fun hc => h1.2.2 (hdt _ hc)⟩
      · intro n; rw [hdead, hdead]; exact hd.del_b n
      · intro n h1 h2
        show Dead q.events n false
        rw [hdead]
        exact hd.app_b n ((hdead _ _).mp h1) (by rw [hA]; exact List.mem_append_left _ h2)
      · rw [hA, List.mem_append, List.mem_singleton]
        refine (or_iff_left fun hb => ?_).symm
        have := (hdead n b).mp ((dead_iff n b hb.symm).mpr cdel)
        cases b
        · exact hl.2.2 (hd.del_b n this)
        · exact hl.2.2 this
    · rw [if_neg cdel]
      cases hty : e.ty.isFwd with
      | true =>
        have hnt : e.nt = (e.node, true) := by unfold Ev.nt; rw [hty]
        have live : s.Live e.node := ⟨en1, en2, fun hc => cdel ((dead_iff _ _ hnt).mp ((hdead _ _).mpr hc))⟩
        have nB : (e.node, false) ∉ nt (applied s.q) := by
          rw [hA, hnt, List.mem_append]
          rintro (h1 | h1)
          · exact notin (hnt ▸ ff _ h1)
          · simp at h1
        have cin : e.node ∈ s.sweep := (hd.mem _).mpr ⟨live, by rw [hA, hnt]; simp, nB⟩
        simp only
        unfold Clip.erase
        simp only
        rw [if_pos cin]
        refine ⟨_, rfl, ⟨h0'.sweep _ _, ⟨hd.nodup.erase _, ?_, ?_, ?_, ff⟩⟩, hsw _ _, fun _ _ h => h,
          .bs q e ⟨sp.wf, sp.perm, hee, g4, before, live⟩ hty cin rfl⟩
        · intro n
          show n ∈ s.sweep.erase e.node ↔ ({ s with q := q } : Clip).Live n ∧ _ ∈ nt (applied q) ∧ _ ∉ nt (applied q)
          rw [hd.nodup.mem_erase_iff, hd.mem, hlive, hA, hnt]
          simp only [List.mem_append, List.mem_singleton, Prod.mk.injEq, Bool.false_eq_true, and_false, or_false, and_true]
          constructor
          · rintro ⟨h1, h2, h3 | h3, h4⟩
            · exact ⟨h2, h3, h4⟩
            · exact absurd h3 h1
          · rintro ⟨h2, h3, h4⟩
            refine ⟨?_, h2, Or.inl h3, ?_⟩
            · rintro rfl; exact notin (hnt ▸ h3)
            · exact h4
        · intro n; show Dead q.events n false → Dead q.events n true
          rw [hdead, hdead]; exact hd.del_b n
        · intro n h1 h2
          show Dead q.events n false
          rw [hdead]
          exact hd.app_b n ((hdead _ _).mp h1) (by rw [hA]; exact List.mem_append_left _ h2)
      | false =>
        have hnt : e.nt = (e.node, false) := by unfold Ev.nt; rw [hty]
        have live : s.Live e.node := by
          refine ⟨en1, en2, fun hc => ?_⟩
          have := hd.app_b _ hc (by rw [hA, hnt]; simp)
          exact cdel ((dead_iff _ _ hnt).mp ((hdead _ _).mpr this))
        have inA : (e.node, true) ∈ nt (applied q) := by
          have := hd.fwd_first e.node (by rw [hA, hnt]; simp)
          rw [hA, hnt, List.mem_append] at this
          rcases this with h | h
          · exact h
          · simp at h
        have nin : e.node ∉ s.sweep := by
          intro hc
          exact ((hd.mem _).mp hc).2.2 (by rw [hA, hnt]; simp)
        simp only
        unfold Clip.insert
        simp only
        rw [if_neg nin]
        set k := min (env.pos ({ s with q := q } : Clip) e.node) s.sweep.length with hk
        obtain ⟨nd, mm⟩ := insert_nodup hd.nodup nin k (min_le_right _ _)
        refine ⟨_, rfl, ⟨h0'.sweep _ _, ⟨nd, ?_, ?_, ?_, ff⟩⟩, hsw _ _, fun _ _ h => h,
          .be q e ⟨sp.wf, sp.perm, hee, g4, before, live⟩ hty nin rfl⟩
        · intro n
          show n ∈ s.sweep.insertIdx k e.node ↔ ({ s with q := q } : Clip).Live n ∧ _ ∈ nt (applied q) ∧ _ ∉ nt (applied q)
          rw [mm, hlive]
          by_cases c : n = e.node
          · subst c
            simp only [true_or, true_iff]
            exact ⟨live, inA, hnt ▸ notin⟩
          · rw [hd.mem, hA, hnt]
            simp [c]
        · intro n; show Dead q.events n false → Dead q.events n true
          rw [hdead, hdead]; exact hd.del_b n
        · intro n h1 h2
          show Dead q.events n false
          rw [hdead]
          exact hd.app_b n ((hdead _ _).mp h1) (by rw [hA]; exact List.mem_append_left _ h2)


/-! ### The start -/

theorem addLines_spec {lp : Nat → LP} {np : Nat} (hl : Loops lp np) : ∀ k ≤ np, ∃ s, (Clip.start lp np).addLines k = some s ∧
    Core s ∧ s.lp = lp ∧ s.np = np ∧ s.sweep = [] ∧ s.log = [] ∧ s.q.news = [] ∧ applied s.q = [] ∧ (∀ n b, ¬ Dead s.q.events n b) ∧
    s.nn = k + 1 ∧ ∀ i < k, s.seg (i + 1) = s.lineSeg i := by
  intro k
  induction k with
  | zero =>
    intro _
    refine ⟨_, rfl, ⟨wf_empty _, le_rfl, ?_, ?_, ?_, ?_⟩, rfl, rfl, rfl, rfl, rfl, rfl, ?_, rfl, by simp⟩
    · intro e he; simp [Clip.start, Queue.empty] at he
    · intro n b h1 h2; simp only [Clip.start] at h2; omega
    · intro n h1 h2; simp only [Clip.start] at h2; omega
    · intro m n h1 h2; simp only [Clip.start] at h2; omega
    · rintro n b ⟨e, he, _⟩; simp [Clip.start, Queue.empty] at he
  | succ k ih =>
    intro hk
    obtain ⟨s, h1, h2, h3, h4, h5, h6, h7, h8, h9, h10, h11⟩ := ih (by omega)
    have hk' : k < s.np := by omega
    have hls : Loops s.lp s.np := by rw [h3, h4]; exact hl
    have inj : ∀ i < s.np, ∀ j < s.np, s.lineSeg i = s.lineSeg j → i = j := by
      intro i hi j hj e
      unfold Clip.lineSeg at e
      have n2i := hls.next2 i hi
      have n2j := hls.next2 j hj
      split at e <;> split at e <;> simp only [Prod.mk.injEq] at e
      · exact e.2
      · exfalso; rw [e.1] at n2i; exact n2i e.2.symm
      · exfalso; rw [e.2] at n2i; exact n2i e.1.symm
      · exact e.1
    have fresh : ∀ m, 1 ≤ m → m < s.nn → s.seg m ≠ s.lineSeg k := by
      intro m m1 m2 hc
      obtain ⟨i, rfl⟩ : ∃ i, m = i + 1 := ⟨m - 1, by omega⟩
      rw [h11 i (by omega)] at hc
      have := inj i (by omega) k hk' hc
      omega
    have hstep : ∃ t, (if s.x k > s.x (s.lp k).next then s.addFb (s.lp k).next k else s.addFb k (s.lp k).next) = some t ∧
        Core t ∧ t.lp = s.lp ∧ t.np = s.np ∧ t.seg = setFn s.seg s.nn (s.lineSeg k) ∧ t.nn = s.nn + 1 ∧
        t.sweep = s.sweep ∧ t.log = s.log ∧ t.clock = s.clock ∧ t.q.news = [] ∧ applied t.q = applied s.q ∧
        (∀ m d, Dead t.q.events m d ↔ Dead s.q.events m d) := by
      unfold Clip.lineSeg at fresh ⊢
      by_cases cx : s.x k > s.x (s.lp k).next
      · rw [if_pos cx] at fresh ⊢
        rw [if_pos cx]
        exact addFb_core h2 h7 _ _ (hls.next_lt k hk') hk' (le_of_lt cx) fresh (fun h => by omega)
      · rw [if_neg cx] at fresh ⊢
        rw [if_neg cx]
        exact addFb_core h2 h7 _ _ hk' (hls.next_lt k hk') (not_lt.mp cx) fresh (fun _ => rfl)
    obtain ⟨t, t1, t2, t3, t4, t5, t6, t7, t8, t9, t10, t11, t12⟩ := hstep
    refine ⟨t, ?_, t2, t3.trans h3, t4.trans h4, t7.trans h5, t8.trans h6, t10, t11.trans h8, ?_, by omega, ?_⟩
    · show ((Clip.start lp np).addLines k).bind _ = _
      rw [h1]; exact t1
    · intro n b; rw [t12]; exact h9 n b
    · intro i hi
      have hls : t.lineSeg i = s.lineSeg i := by unfold Clip.lineSeg Clip.x; rw [t3]
      rw [t5, hls]
      unfold setFn
      by_cases c : i = k
      · rw [if_pos (by omega), c]
      · rw [if_neg (by omega)]; exact h11 i (by omega)

/-- The events of the input lines fit the loops. -/
theorem start_inv {lp : Nat → LP} {np : Nat} (hl : Loops lp np) : ∃ s, (Clip.start lp np).addLines np = some s ∧ Inv s ∧
    s.lp = lp ∧ s.np = np ∧ s.log = [] := by
  obtain ⟨s, h1, h2, h3, h4, h5, h6, h7, h8, h9, h10, h11⟩ := addLines_spec hl np le_rfl
  refine ⟨s, h1, ⟨⟨h2, by rw [h3, h4]; exact hl, ?_, ?_⟩, ⟨?_, ?_, ?_, ?_, ?_⟩⟩, h3, h4, h6⟩
  · rintro n ⟨n1, n2, _⟩
    obtain ⟨i, rfl⟩ : ∃ i, n = i + 1 := ⟨n - 1, by omega⟩
    exact ⟨i, by omega, h11 i (by omega)⟩
  · intro i hi
    exact ⟨i + 1, ⟨by omega, by omega, h9 _ _⟩, h11 i (by omega)⟩
  · rw [h5]; exact List.nodup_nil
  · intro n; rw [h5, h8]; simp [nt]
  · intro n h; exact absurd h (h9 _ _)
  · intro n h; exact absurd h (h9 _ _)
  · intro n h; rw [h8] at h; simp [nt] at h

theorem reach_spec {env : Env} (he : EnvOk env) {lp : Nat → LP} {np : Nat} (hl : Loops lp np) {s : Clip}
    (h : Clip.Reach env lp np s) : Inv s ∧ Refine lp np s.lp s.np ∧ Splits (fun i => (lp i).next) np s.log s.nexts s.np := by
  induction h with
  | init h =>
    obtain ⟨t, h1, h2, h3, h4, h5⟩ := start_inv hl
    rw [h1, Option.some.injEq] at h
    subst h
    refine ⟨h2, ?_, ?_⟩
    · rw [h3, h4]; exact Refine.refl _ _
    · rw [h5, h4]
      have : t.nexts = fun i => (lp i).next := by funext i; unfold Clip.nexts; rw [h3]
      rw [this]; exact .nil
  | step _ hm hs ih =>
    obtain ⟨i1, i2, i3⟩ := ih
    obtain ⟨t, t1, t2, t3, _⟩ := step_spec he i1 hm
    rw [t1, Option.some.injEq] at hs
    subst hs
    obtain ⟨l, l1, l2⟩ := t3.log
    exact ⟨t2, i2.trans t3.ref, by rw [l1]; exact i3.trans l2⟩

theorem reach_in {env : Env} (he : EnvOk env) {lp : Nat → LP} {np : Nat} (hl : Loops lp np) {P : Pt → Prop} (hP : EnvIn P env)
    (h0 : ∀ i < np, P (lp i).data) {s : Clip} (h : Clip.Reach env lp np s) : s.AllIn P := by
  induction h with
  | init h =>
    obtain ⟨t, h1, h2, h3, h4, h5⟩ := start_inv hl
    rw [h1, Option.some.injEq] at h
    subst h
    intro i hi
    rw [h3]; exact h0 i (h4 ▸ hi)
  | step hr hm hs ih =>
    obtain ⟨t, t1, _, _, t4, _⟩ := step_spec he (reach_spec he hl hr).1 hm
    rw [t1, Option.some.injEq] at hs
    subst hs
    exact t4 P hP ih

end PolyOps.Sweep
