import Verif.Props.Sweep
import Verif.Props.Balance

/-! Invariant of the second sweep (clip.hpp:2272-2314). -/
namespace PolyOps.Sweep
open PolyOps PolyOps.Events

/-! ### Specification -/

/-- The vertical at `x` meets the closed x-range of the line of point `i`. -/
def Clip.touches (f : Clip) (x : Int) (i : Nat) : Prop :=
  (f.x i ≤ x ∧ x ≤ f.x (f.lp i).next) ∨ (f.x (f.lp i).next ≤ x ∧ x ≤ f.x i)

instance (f : Clip) (x : Int) (i : Nat) : Decidable (f.touches x i) := by unfold Clip.touches; infer_instance

/-- The points whose line meets the vertical at `x`. -/
def Clip.touching (f : Clip) (x : Int) : List Nat := (List.range f.np).filter fun i => decide (f.touches x i)

/-- The second sweep: states at the head of the loop with the samples so far. It starts with a new, empty sweep. -/
inductive Clip.Reach2 (env : Env) (op : BoolOp) (f : Clip) : Clip → List (Nat × List Nat) → Prop
  | init : Reach2 env op f { f with q := f.q.rewind, sweep := [] } []
  | step {s t r r'} : Reach2 env op f s r → s.q.more = true → s.step2 env op = some (t, r') → Reach2 env op f t (r ++ r')

/-! ### Lists -/

theorem takeWhile_eq_filter {α : Type} (p : α → Bool) : ∀ (l : List α), l.Pairwise (fun a b => p b = true → p a = true) →
    l.takeWhile p = l.filter p := by
  intro l
  induction l with
  | nil => intro _; rfl
  | cons a l ih =>
    intro h
    rw [List.pairwise_cons] at h
    cases hp : p a with
    | true => rw [List.takeWhile_cons_of_pos hp, List.filter_cons_of_pos hp, ih h.2]
    | false =>
      rw [List.takeWhile_cons_of_neg (by simp [hp]), List.filter_cons_of_neg (by simp [hp])]
      symm
      rw [List.filter_eq_nil_iff]
      intro b hb hpb
      rw [h.1 b hb hpb] at hp
      cases hp

/-! ### Invariant -/

/-- What is known at the end of the first sweep. -/
structure Fin (f : Clip) : Prop extends Inv0 f where
  news : f.q.news = []
  last : f.q.last = f.q.events.length
  srt : Sorted f.x f.q.events
  dead_iff : ∀ e ∈ f.q.events, e.del = false ↔ f.Live e.node

theorem fin_of_reach {env : Env} (he : EnvOk env) {lp : Nat → LP} {np : Nat} (hl : Loops lp np) {s : Clip}
    (hr : Clip.Reach env lp np s) (hm : s.q.more = false) : Fin s := by
  obtain ⟨q1, q2, q3, q4⟩ := final_queue he hl hr hm
  obtain ⟨h0, hd⟩ := (reach_spec he hl hr).1
  refine ⟨h0, q1, q3, q4, ?_⟩
  intro e e1
  obtain ⟨k1, k2, k3⟩ := h0.ev_ok e e1
  have dd : ∀ b, e.nt = (e.node, b) → (Dead s.q.events e.node b ↔ e.del = true) := by
    intro b hb
    constructor
    · rintro ⟨g, g1, g2, g3⟩
      rw [h0.key_nt g1 e1 (g2.trans hb.symm)] at g3; exact g3
    · intro h; exact ⟨e, e1, hb, h⟩
  constructor
  · intro hdel
    refine ⟨k1, k2, fun hdead => ?_⟩
    cases e3 : e.ty.isFwd with
    | true =>
      rw [dd true (by unfold Ev.nt; rw [e3]), hdel] at hdead; cases hdead
    | false =>
      have hnt : e.nt = (e.node, false) := by unfold Ev.nt; rw [e3]
      have := hd.app_b e.node hdead (by rw [q2, ← hnt]; exact mem_nt.mpr ⟨e, e1, rfl⟩)
      rw [dd false hnt, hdel] at this; cases this
  · intro hlive
    cases hdel : e.del with
    | false => rfl
    | true =>
      exfalso
      cases e3 : e.ty.isFwd with
      | true => exact hlive.2.2 ⟨e, e1, by unfold Ev.nt; rw [e3], hdel⟩
      | false => exact hlive.2.2 (hd.del_b _ ⟨e, e1, by unfold Ev.nt; rw [e3], hdel⟩)

/-- The parts of the clipper that the second sweep does not change. -/
structure Same (f s : Clip) : Prop where
  data : ∀ i, (s.lp i).data = (f.lp i).data
  next : ∀ i, (s.lp i).next = (f.lp i).next
  set : ∀ i, (s.lp i).set = (f.lp i).set
  np : s.np = f.np
  seg : s.seg = f.seg
  nn : s.nn = f.nn
  events : s.q.events = f.q.events
  news : s.q.news = []
  last : s.q.last = f.q.events.length

theorem Same.x {f s : Clip} (h : Same f s) : s.x = f.x := by funext i; unfold Clip.x; rw [h.data]

theorem Same.line {f s : Clip} (h : Same f s) : s.line = f.line := by
  funext i; unfold Clip.line; rw [h.data, h.next, h.data, h.set]

theorem Same.mainOf {f s : Clip} (h : Same f s) : s.mainOf = f.mainOf := by
  funext ab; unfold Clip.mainOf; rw [h.next]

/-- The sweep while events `E1` and the current event are passed and no end event of `E1 ++ [e]` but that of the current
event. -/
def Mids (f : Clip) (E1 : List Ev) (e : Ev) (sw : List Nat) : Prop :=
  sw.Nodup ∧ ∀ n, n ∈ sw ↔ f.Live n ∧ (n, true) ∈ nt (E1 ++ [e]) ∧ (n, false) ∉ nt E1

section
variable {f : Clip} (hf : Fin f)
include hf

theorem Fin.main {n i : Nat} (hi : i < f.np) (hs : f.seg n = f.lineSeg i) : f.mainOf (f.seg n) = i := by
  rw [hs]
  unfold Clip.mainOf Clip.lineSeg
  split
  · rw [if_neg]; exact hf.next2 i hi
  · rw [if_pos rfl]

theorem Fin.ends {e : Ev} (he : e ∈ f.q.events) : (e.ty.isFwd = true → e.a = (f.seg e.node).1 ∧ e.b = (f.seg e.node).2) ∧
    (e.ty.isFwd = false → e.a = (f.seg e.node).2 ∧ e.b = (f.seg e.node).1) := by
  have hk := (hf.ev_ok e he).2.2
  constructor
  · intro h
    rw [h] at hk
    simp only [evKey, Ev.key, if_true, Prod.mk.injEq] at hk
    exact hk.2
  · intro h
    rw [h] at hk
    simp only [evKey, Ev.key, Bool.false_eq_true, if_false, Prod.mk.injEq] at hk
    exact hk.2

/-- The lines tested while the current event is `e`. -/
theorem scanned_perm {s : Clip} (hs : Same f s) {E1 E2 : List Ev} {e : Ev} (hev : f.q.events = E1 ++ e :: E2)
    (hcur : s.q.cur = E1.length) (hm : Mids f E1 e s.sweep) : s.scanned.Perm (f.touching (f.x e.a)) := by
  have hcn : s.q.cur.toNat = E1.length := by rw [hcur]; rfl
  have htake : s.q.events.take s.q.cur.toNat = E1 := by rw [hs.events, hev, hcn, List.take_left]
  have hdrop : s.q.events.drop (s.q.cur.toNat + 1) = E2 := by
    rw [hs.events, hev, hcn]
    rw [show E1 ++ e :: E2 = (E1 ++ [e]) ++ E2 by simp]
    exact List.drop_left' (by simp)
  have hget : s.q.events.getD s.q.cur.toNat default = e := by
    rw [hs.events, hev, hcn]; simp
  set cx := f.x e.a with hcx
  have hsorted := hf.srt
  rw [hev] at hsorted
  have xle : ∀ a b : Ev, less f.x a b = true → f.x a.a ≤ f.x b.a := by
    intro a b h
    unfold less at h
    split at h
    · have := of_decide_eq_true h; omega
    · omega
  unfold Sorted at hsorted
  rw [List.pairwise_append, List.pairwise_cons] at hsorted
  obtain ⟨so1, ⟨so2, so3⟩, so4⟩ := hsorted
  have x1 : ∀ a ∈ E1, f.x a.a ≤ cx := fun a ha => xle a e (so4 a ha e (by simp))
  have x2 : ∀ a ∈ E2, cx ≤ f.x a.a := fun a ha => xle e a (so2 a ha)
  -- removed lines
  set rn : List Ev := E1.reverse.filter (fun a => (!a.ty.isFwd && !a.del) && decide (cx = f.x a.a)) with hrn
  have hrem : s.q.touchingRemoved s.x = rn.map fun a => (a.b, a.a) := by
    unfold Queue.touchingRemoved
    simp only
    rw [htake, hget, hs.x]
    congr 1
    rw [takeWhile_eq_filter, List.filter_filter, hrn]
    · congr 1; funext a; rw [Bool.and_comm]
    · apply List.Pairwise.filter
      rw [List.pairwise_reverse]
      apply List.Pairwise.imp_of_mem _ so1
      intro a b ha hb hlt hp
      simp only [decide_eq_true_eq] at hp ⊢
      have := xle a b hlt
      have := x1 b hb
      show cx = _
      change cx = _ at hp
      omega
  set pn : List Ev := E2.filter (fun a => (a.ty.isFwd && !a.del) && decide (cx = f.x a.a)) with hpn
  have hpen : s.q.touchingPending s.x = pn.map fun a => (a.a, a.b) := by
    unfold Queue.touchingPending
    simp only
    rw [hdrop, hget, hs.x]
    congr 1
    rw [takeWhile_eq_filter, List.filter_filter, hpn]
    · congr 1; funext a; rw [Bool.and_comm]
    · apply List.Pairwise.filter
      apply List.Pairwise.imp_of_mem _ so3
      intro a b ha hb hlt hp
      simp only [decide_eq_true_eq] at hp ⊢
      have := xle a b hlt
      have := x2 a ha
      show cx = _
      change cx = _ at hp
      omega
  have inE1 : ∀ a ∈ E1, a ∈ f.q.events := fun a ha => by rw [hev]; exact List.mem_append_left _ ha
  have inE2 : ∀ a ∈ E2, a ∈ f.q.events := fun a ha => by rw [hev]; exact List.mem_append_right _ (List.mem_cons_of_mem _ ha)
  have ine : e ∈ f.q.events := by rw [hev]; simp
  have mrn : ∀ a, a ∈ rn ↔ a ∈ E1 ∧ a.ty.isFwd = false ∧ a.del = false ∧ cx = f.x a.a := by
    intro a; rw [hrn]; simp [and_assoc]
  have mpn : ∀ a, a ∈ pn ↔ a ∈ E2 ∧ a.ty.isFwd = true ∧ a.del = false ∧ cx = f.x a.a := by
    intro a; rw [hpn]; simp [and_assoc]
  set R : List Nat := s.sweep ++ rn.map Ev.node ++ pn.map Ev.node with hR
  have hscan : s.scanned = R.map fun n => f.mainOf (f.seg n) := by
    unfold Clip.scanned
    rw [hrem, hpen, hs.mainOf, hs.seg, hR, List.map_append, List.map_append, List.map_map, List.map_map, List.map_map, List.map_map]
    congr 1
    · congr 1
      apply List.map_congr_left
      intro a ha
      obtain ⟨a1, a2, _⟩ := (mrn a).mp ha
      obtain ⟨b1, b2⟩ := (hf.ends (inE1 a a1)).2 a2
      simp only [Function.comp]
      rw [b1, b2]
    · apply List.map_congr_left
      intro a ha
      obtain ⟨a1, a2, _⟩ := (mpn a).mp ha
      obtain ⟨b1, b2⟩ := (hf.ends (inE2 a a1)).1 a2
      simp only [Function.comp]
      rw [b1, b2]
  -- nodes
  have ntnd : (nt f.q.events).Nodup := hf.nt_nodup
  rw [hev, nt_append] at ntnd
  have ntnd1 := (List.nodup_append.mp ntnd).1
  have ntnd2 := (List.nodup_append.mp ntnd).2.1
  have ntd := (List.nodup_append.mp ntnd).2.2
  have rnmem : ∀ n, n ∈ rn.map Ev.node ↔ f.Live n ∧ (n, false) ∈ nt E1 ∧ f.x (f.seg n).2 = cx := by
    intro n
    rw [List.mem_map]
    constructor
    · rintro ⟨a, ha, rfl⟩
      obtain ⟨a1, a2, a3, a4⟩ := (mrn a).mp ha
      refine ⟨(hf.dead_iff a (inE1 a a1)).mp a3, mem_nt.mpr ⟨a, a1, by unfold Ev.nt; rw [a2]⟩, ?_⟩
      rw [← ((hf.ends (inE1 a a1)).2 a2).1]; exact a4.symm
    · rintro ⟨h1, h2, h3⟩
      obtain ⟨a, a1, a2⟩ := mem_nt.mp h2
      have an : a.node = n := congrArg Prod.fst a2
      have af : a.ty.isFwd = false := congrArg Prod.snd a2
      refine ⟨a, (mrn a).mpr ⟨a1, af, (hf.dead_iff a (inE1 a a1)).mpr (an ▸ h1), ?_⟩, an⟩
      rw [((hf.ends (inE1 a a1)).2 af).1, an, h3]
  have pnmem : ∀ n, n ∈ pn.map Ev.node ↔ f.Live n ∧ (n, true) ∈ nt E2 ∧ f.x (f.seg n).1 = cx := by
    intro n
    rw [List.mem_map]
    constructor
    · rintro ⟨a, ha, rfl⟩
      obtain ⟨a1, a2, a3, a4⟩ := (mpn a).mp ha
      refine ⟨(hf.dead_iff a (inE2 a a1)).mp a3, mem_nt.mpr ⟨a, a1, by unfold Ev.nt; rw [a2]⟩, ?_⟩
      rw [← ((hf.ends (inE2 a a1)).1 a2).1]; exact a4.symm
    · rintro ⟨h1, h2, h3⟩
      obtain ⟨a, a1, a2⟩ := mem_nt.mp h2
      have an : a.node = n := congrArg Prod.fst a2
      have af : a.ty.isFwd = true := congrArg Prod.snd a2
      refine ⟨a, (mpn a).mpr ⟨a1, af, (hf.dead_iff a (inE2 a a1)).mpr (an ▸ h1), ?_⟩, an⟩
      rw [((hf.ends (inE2 a a1)).1 af).1, an, h3]
  have nodeNd : ∀ (l : List Ev) (b : Bool), (nt l).Nodup → (∀ a ∈ l, a.ty.isFwd = b) → (l.map Ev.node).Nodup := by
    intro l b hl hb
    have : nt l = (l.map Ev.node).map fun n => (n, b) := by
      unfold nt; rw [List.map_map]
      apply List.map_congr_left
      intro a ha; unfold Ev.nt; simp [hb a ha]
    rw [this] at hl
    exact hl.of_map
  -- two events of one node
  have order : ∀ n, (n, true) ∈ nt E2 → (n, false) ∈ nt E1 → False := by
    intro n h1 h2
    obtain ⟨a, a1, a2⟩ := mem_nt.mp h1
    obtain ⟨b, b1, b2⟩ := mem_nt.mp h2
    have l1 : less f.x a b = true := hf.fwd_lt (inE2 a a1) (inE1 b b1) a2 b2
    have l2 := so4 b b1 a (List.mem_cons_of_mem _ a1)
    rw [C21_asymm f.x l1] at l2; cases l2
  have nF : ∀ n, (n, true) ∈ nt (E1 ++ [e]) → (n, true) ∈ nt E2 → False := by
    intro n h1 h2
    rw [nt_append, List.mem_append] at h1
    rcases h1 with h1 | h1
    · exact ntd _ h1 _ (List.mem_cons_of_mem _ h2) rfl
    · have : (n, true) = e.nt := by simpa [nt] using h1
      have hn := (List.nodup_cons.mp (show (e.nt :: nt E2).Nodup from ntnd2)).1
      rw [← this] at hn
      exact hn h2
  have Rnd : R.Nodup := by
    rw [hR, List.nodup_append, List.nodup_append]
    refine ⟨⟨hm.1, ?_, ?_⟩, ?_, ?_⟩
    · apply nodeNd _ false
      · rw [hrn]
        exact ((List.nodup_reverse.mpr ntnd1).sublist (by
          unfold nt; rw [← List.map_reverse]; exact List.filter_sublist.map _))
      · intro a ha; exact ((mrn a).mp ha).2.1
    · rintro a ha b hb rfl
      exact ((hm.2 a).mp ha).2.2 ((rnmem a).mp hb).2.1
    · apply nodeNd _ true
      · rw [hpn]
        exact (List.nodup_cons.mp (show (e.nt :: nt E2).Nodup from ntnd2)).2.sublist (List.filter_sublist.map _)
      · intro a ha; exact ((mpn a).mp ha).2.1
    · rintro a ha b hb rfl
      have hb' := ((pnmem a).mp hb).2.1
      rcases List.mem_append.mp ha with ha | ha
      · exact nF a ((hm.2 a).mp ha).2.1 hb'
      · exact order a hb' ((rnmem a).mp ha).2.1
  have Rmem : ∀ n, n ∈ R ↔ f.Live n ∧ f.x (f.seg n).1 ≤ cx ∧ cx ≤ f.x (f.seg n).2 := by
    intro n
    rw [hR, List.mem_append, List.mem_append, rnmem, pnmem, hm.2]
    have hxx : f.Live n → f.x (f.seg n).1 ≤ f.x (f.seg n).2 := fun h => (hf.seg_lt n h.1 h.2.1).2.2
    have fa : ∀ a ∈ f.q.events, a.nt = (n, true) → f.x a.a = f.x (f.seg n).1 := by
      intro a ha h
      have an : a.node = n := congrArg Prod.fst h
      rw [((hf.ends ha).1 (congrArg Prod.snd h)).1, an]
    have fb : ∀ a ∈ f.q.events, a.nt = (n, false) → f.x a.a = f.x (f.seg n).2 := by
      intro a ha h
      have an : a.node = n := congrArg Prod.fst h
      rw [((hf.ends ha).2 (congrArg Prod.snd h)).1, an]
    constructor
    · rintro ((⟨h1, h2, h3⟩ | ⟨h1, h2, h3⟩) | ⟨h1, h2, h3⟩)
      · refine ⟨h1, ?_, ?_⟩
        · obtain ⟨a, a1, a2⟩ := mem_nt.mp h2
          rcases List.mem_append.mp a1 with a1 | a1
          · rw [← fa a (inE1 a a1) a2]; exact x1 a a1
          · simp only [List.mem_singleton] at a1
            rw [← fa a (a1 ▸ ine) a2, a1]
        · obtain ⟨b, b1, b2⟩ := mem_nt.mp (hf.ev_ex n false h1.1 h1.2.1)
          rw [← fb b b1 b2]
          rw [hev] at b1
          rcases List.mem_append.mp b1 with b1 | b1
          · exact absurd (mem_nt.mpr ⟨b, b1, b2⟩) h3
          · rcases List.mem_cons.mp b1 with rfl | b1
            · exact le_rfl
            · exact x2 b b1
      · exact ⟨h1, by rw [← h3]; exact hxx h1, by rw [h3]⟩
      · exact ⟨h1, by rw [h3], by rw [← h3]; exact hxx h1⟩
    · rintro ⟨h1, h2, h3⟩
      by_cases c1 : (n, true) ∈ nt E2
      · right
        obtain ⟨a, a1, a2⟩ := mem_nt.mp c1
        have := x2 a a1
        rw [fa a (inE2 a a1) a2] at this
        exact ⟨h1, c1, le_antisymm h2 this⟩
      · left
        have c2 : (n, true) ∈ nt (E1 ++ [e]) := by
          have := hf.ev_ex n true h1.1 h1.2.1
          rw [hev, show E1 ++ e :: E2 = (E1 ++ [e]) ++ E2 by simp, nt_append, List.mem_append] at this
          exact this.resolve_right c1
        by_cases c3 : (n, false) ∈ nt E1
        · right
          obtain ⟨a, a1, a2⟩ := mem_nt.mp c3
          have := x1 a a1
          rw [fb a (inE1 a a1) a2] at this
          exact ⟨h1, c3, le_antisymm this h3⟩
        · exact Or.inl ⟨h1, c2, c3⟩
  rw [hscan]
  refine (List.perm_ext_iff_of_nodup ?_ ?_).mpr ?_
  · rw [List.nodup_map_iff_inj_on Rnd]
    intro n hn m hm' he
    have ln := ((Rmem n).mp hn).1
    have lm := ((Rmem m).mp hm').1
    obtain ⟨i, hi, si⟩ := hf.own n ln
    obtain ⟨j, hj, sj⟩ := hf.own m lm
    rw [hf.main hi si, hf.main hj sj] at he
    subst he
    exact hf.seg_inj n m ln.1 ln.2.1 lm.1 lm.2.1 (si.trans sj.symm)
  · exact List.nodup_range.filter _
  · intro i
    unfold Clip.touching
    rw [List.mem_map, List.mem_filter, List.mem_range, decide_eq_true_eq]
    have tl : ∀ i, f.touches cx i ↔ f.x (f.lineSeg i).1 ≤ cx ∧ cx ≤ f.x (f.lineSeg i).2 := by
      intro i
      unfold Clip.touches Clip.lineSeg
      split
      · simp only; omega
      · simp only; omega
    constructor
    · rintro ⟨n, hn, rfl⟩
      obtain ⟨h1, h2, h3⟩ := (Rmem n).mp hn
      obtain ⟨i, hi, si⟩ := hf.own n h1
      rw [hf.main hi si, tl, ← si]
      exact ⟨hi, h2, h3⟩
    · rintro ⟨hi, ht⟩
      obtain ⟨n, hn, si⟩ := hf.has i hi
      rw [tl, ← si] at ht
      exact ⟨n, (Rmem n).mpr ⟨hn, ht⟩, hf.main hi si⟩

end

end PolyOps.Sweep
