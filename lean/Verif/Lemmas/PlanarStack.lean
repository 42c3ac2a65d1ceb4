import Verif.Lemmas.PlanarPair

/-! A stack of segments met by a vertical, in sweep order, whose neighbours meet only where they may: then all do. -/
namespace PolyOps.Planarity
open PolyOps PolyOps.SweepCmp

/-- Segments met by the vertical at `x`, in the order of the sweep, such that neighbours are fine up to `x`. -/
structure Stack (x : Rat) (l : List CSeg) : Prop where
  mid : ∀ s ∈ l, Mid x s
  comp : ∀ s ∈ l, ∀ t ∈ l, Compat s t
  sorted : l.Pairwise (fun s t => sweepCmp s t = true)
  adj : l.IsChain (ALC x)

theorem Stack.infix {x : Rat} {l1 l l2 : List CSeg} (h : Stack x (l1 ++ l ++ l2)) : Stack x l := by
  have sub : ∀ s ∈ l, s ∈ l1 ++ l ++ l2 := fun s hs => by simp [hs]
  refine ⟨fun s hs => h.mid s (sub s hs), fun s hs t ht => h.comp s (sub s hs) t (sub t ht), ?_, ?_⟩
  · exact h.sorted.sublist ((List.sublist_append_right l1 l).trans (List.sublist_append_left _ l2))
  · exact h.adj.left_of_append.right_of_append

theorem Stack.tail {x : Rat} {u : CSeg} {l : List CSeg} (h : Stack x (u :: l)) : Stack x l := by
  have : Stack x ([u] ++ l ++ []) := by simpa using h
  exact this.infix

theorem Stack.init {x : Rat} {l l2 : List CSeg} (h : Stack x (l ++ l2)) : Stack x l := by
  have : Stack x ([] ++ l ++ l2) := by simpa using h
  exact this.infix

theorem Stack.heights {x : Rat} {l : List CSeg} (h : Stack x l) : l.Pairwise (fun s t => hAt t x ≤ hAt s x) := by
  haveI : IsTrans CSeg (fun s t => hAt t x ≤ hAt s x) := ⟨fun a b c h1 h2 => h2.trans h1⟩
  rw [← List.isChain_iff_pairwise]
  rw [List.isChain_iff_forall_rel_of_append_cons_cons]
  rintro a b l1 l2 rfl
  have hs : Stack x [a, b] := by
    have : Stack x (l1 ++ [a, b] ++ l2) := by simpa using h
    exact this.infix
  have hc := hs.sorted
  have hb := hs.adj
  rw [List.isChain_pair] at hb
  simp at hc
  exact height (hs.mid a (by simp)) (hs.mid b (by simp)) (hs.comp a (by simp) b (by simp)) hb hc

variable {x : Rat}

theorem Stack.pair {a b : CSeg} (h : Stack x [a, b]) : Mid x a ∧ Mid x b ∧ sweepCmp a b = true ∧ ALC x a b ∧ hAt b x ≤ hAt a x := by
  refine ⟨h.mid a (by simp), h.mid b (by simp), ?_, ?_, ?_⟩
  · have := h.sorted; simpa using this
  · have := h.adj; rwa [List.isChain_pair] at this
  · have := h.heights; simpa using this

/-- Segments of one height. -/
theorem Stack.group {u v : CSeg} {m : List CSeg} (h : Stack x (u :: m ++ [v])) (he : hAt u x = hAt v x) : LC u v x (hAt u x) := by
  induction m generalizing u with
  | nil =>
    obtain ⟨m1, m2, _, ha, _⟩ := Stack.pair (a := u) (b := v) (by simpa using h)
    exact ha x _ le_rfl m1.on (by rw [he]; exact m2.on)
  | cons w m ih =>
    have hh := h.heights
    simp only [List.cons_append, List.pairwise_cons] at hh
    have h1 : hAt w x ≤ hAt u x := hh.1 w (by simp)
    have h2 : hAt v x ≤ hAt w x := hh.2.1 v (by simp)
    have e : hAt w x = hAt v x := by linarith
    have hp : Stack x [u, w] := by
      have : Stack x ([] ++ [u, w] ++ (m ++ [v])) := by simpa using h
      exact this.infix
    obtain ⟨m1, m2, _, ha, _⟩ := hp.pair
    have l1 := ha x (hAt u x) le_rfl m1.on (by rw [he, ← e]; exact m2.on)
    have l2 := ih (u := w) (by simpa using h.tail) e
    rw [e, ← he] at l2
    exact l1.trans m1.ok m2.ok (h.mid v (by simp)).ok l2

/-- Vertical, upwards. -/
def Up (s : CSeg) : Prop := s.pa.x = s.pb.x ∧ s.pa.y < s.pb.y

/-- Vertical, downwards. -/
def Dn (s : CSeg) : Prop := s.pa.x = s.pb.x ∧ s.pb.y < s.pa.y

theorem vdir_up {s : CSeg} (h : Up s) : vdir s = 1 := by
  unfold vdir; rw [if_pos h.1]; exact Int.sign_eq_one_of_pos (by have := h.2; omega)

theorem vdir_dn {s : CSeg} (h : Dn s) : vdir s = -1 := by
  unfold vdir; rw [if_pos h.1]; exact Int.sign_eq_neg_one_of_neg (by have := h.2; omega)

theorem kinds {s : CSeg} (h : SOk s) : Nv s ∨ Up s ∨ Dn s := by
  by_cases c : s.pa.x = s.pb.x
  · rcases lt_or_gt_of_ne (h.vy c) with d | d
    · exact Or.inr (Or.inl ⟨c, d⟩)
    · exact Or.inr (Or.inr ⟨c, d⟩)
  · exact Or.inl (h.nv c)

theorem up_of_vdir {s : CSeg} (h : SOk s) (hv : 1 ≤ vdir s) : Up s := by
  rcases kinds h with k | k | k
  · rw [vdir_nv k] at hv; omega
  · exact k
  · rw [vdir_dn k] at hv; omega

theorem dn_of_vdir {s : CSeg} (h : SOk s) (hv : vdir s ≤ -1) : Dn s := by
  rcases kinds h with k | k | k
  · rw [vdir_nv k] at hv; omega
  · rw [vdir_up k] at hv; omega
  · exact k

theorem cmp_v {a b : CSeg} (ha : Mid x a) (hb : Mid x b) (hv : a.pa.x = a.pb.x ∨ b.pa.x = b.pb.x) (hc : sweepCmp a b = true)
    (he : hAt a x = hAt b x) : vdir b ≤ vdir a := by
  have hap : Apart x a b := by
    rcases hv with hv | hv
    · exact apart_of (by rw [← ha.vx hv]; exact le_max_left _ _) (fun n => absurd hv n.ne) ha.ok hb.ok
    · exact apart_of (by rw [← hb.vx hv]; exact le_max_right _ _) (fun _ n => absurd hv n.ne) ha.ok hb.ok
  rcases cmp_pos ha.meets hb.meets hap hc with h | ⟨_, h | ⟨h, _⟩⟩
  · linarith
  · exact h.le
  · exact h.le

/-- Two verticals from one place in one direction, of which the shorter ends fine. -/
theorem same_up {a b : CSeg} (ha : Up a) (hb : Up b) (hp : a.pa = b.pa) (hx : (a.pa.x : Rat) = x) (h : ALC x a b) : a.pb = b.pb := by
  have oka : SOk a := ⟨fun e => by have := ha.2; rw [e] at this; omega, ha.1.le⟩
  have okb : SOk b := ⟨fun e => by have := hb.2; rw [e] at this; omega, hb.1.le⟩
  have xe : a.pb.x = b.pb.x := by rw [← ha.1, ← hb.1, hp]
  have key : ∀ {a b : CSeg}, Up a → Up b → a.pa = b.pa → (a.pa.x : Rat) = x → ALC x a b → b.pb.y < a.pb.y → SOk a → SOk b → False := by
    intro a b ha hb hp hx h hl oka okb
    have hl' : (b.pb.y : Rat) < a.pb.y := by exact_mod_cast hl
    have hb' : (b.pa.y : Rat) < b.pb.y := by exact_mod_cast hb.2
    have hx2 : (b.pb.x : Rat) = x := by rw [← hx, hp]; exact_mod_cast hb.1.symm
    have o : On a x b.pb.y := (on_v ha.1 (oka.vy ha.1) _ _).mpr ⟨hx.symm, Or.inl ⟨by rw [hp]; linarith, hl'.le⟩⟩
    have ob : On b x b.pb.y := by rw [← hx2]; exact on_b b
    have l := h x _ le_rfl o ob
    have : EndQ a x b.pb.y := l.end_iff.mpr (by rw [← hx2]; exact endq_b b)
    rcases this with ⟨_, e⟩ | ⟨_, e⟩
    · rw [hp] at e; linarith
    · linarith
  refine Pt.ext xe ?_
  rcases lt_trichotomy a.pb.y b.pb.y with c | c | c
  · exact (key hb ha hp.symm (by rw [← hp]; exact hx) h.symm c okb oka).elim
  · exact c
  · exact (key ha hb hp hx h c oka okb).elim

theorem same_dn {a b : CSeg} (ha : Dn a) (hb : Dn b) (hp : a.pa = b.pa) (hx : (a.pa.x : Rat) = x) (h : ALC x a b) : a.pb = b.pb := by
  have oka : SOk a := ⟨fun e => by have := ha.2; rw [e] at this; omega, ha.1.le⟩
  have okb : SOk b := ⟨fun e => by have := hb.2; rw [e] at this; omega, hb.1.le⟩
  have xe : a.pb.x = b.pb.x := by rw [← ha.1, ← hb.1, hp]
  have key : ∀ {a b : CSeg}, Dn a → Dn b → a.pa = b.pa → (a.pa.x : Rat) = x → ALC x a b → a.pb.y < b.pb.y → SOk a → SOk b → False := by
    intro a b ha hb hp hx h hl oka okb
    have hl' : (a.pb.y : Rat) < b.pb.y := by exact_mod_cast hl
    have hb' : (b.pb.y : Rat) < b.pa.y := by exact_mod_cast hb.2
    have hx2 : (b.pb.x : Rat) = x := by rw [← hx, hp]; exact_mod_cast hb.1.symm
    have o : On a x b.pb.y := (on_v ha.1 (oka.vy ha.1) _ _).mpr ⟨hx.symm, Or.inr ⟨hl'.le, by rw [hp]; linarith⟩⟩
    have ob : On b x b.pb.y := by rw [← hx2]; exact on_b b
    have l := h x _ le_rfl o ob
    have : EndQ a x b.pb.y := l.end_iff.mpr (by rw [← hx2]; exact endq_b b)
    rcases this with ⟨_, e⟩ | ⟨_, e⟩
    · rw [hp] at e; linarith
    · linarith
  refine Pt.ext xe ?_
  rcases lt_trichotomy a.pb.y b.pb.y with c | c | c
  · exact (key ha hb hp hx h c oka okb).elim
  · exact c
  · exact (key hb ha hp.symm (by rw [← hp]; exact hx) h.symm c okb oka).elim

theorem start_of_height {a b : CSeg} (ha : Mid x a) (hb : Mid x b) (va : a.pa.x = a.pb.x) (vb : b.pa.x = b.pb.x)
    (he : hAt a x = hAt b x) : a.pa = b.pa := by
  rw [hAt_v va, hAt_v vb] at he
  have h1 := ha.vx va
  have h2 := hb.vx vb
  exact Pt.ext (by exact_mod_cast h1.trans h2.symm) (by exact_mod_cast he)

/-- Above an upward vertical at the same height there are only copies of it. -/
theorem Stack.up_same {w v : CSeg} {m : List CSeg} (h : Stack x (w :: m ++ [v])) (hv : Up v) (he : hAt w x = hAt v x) :
    w.pa = v.pa ∧ w.pb = v.pb := by
  induction m using List.reverseRecOn generalizing v with
  | nil =>
    obtain ⟨m1, m2, hc, ha, _⟩ := Stack.pair (a := w) (b := v) (by simpa using h)
    have := cmp_v m1 m2 (Or.inr hv.1) hc he
    rw [vdir_up hv] at this
    have uw := up_of_vdir m1.ok this
    have hp := start_of_height m1 m2 uw.1 hv.1 he
    exact ⟨hp, same_up uw hv hp (m1.vx uw.1) ha⟩
  | append_singleton m z ih =>
    have hh := h.heights
    have hs : Stack x (w :: m ++ [z]) := by
      have : Stack x ((w :: m ++ [z]) ++ [v]) := by simpa using h
      exact this.init
    have hz : Stack x [z, v] := by
      have : Stack x ((w :: m) ++ [z, v] ++ []) := by simpa using h
      exact this.infix
    obtain ⟨m1, m2, hc, ha, hle⟩ := hz.pair
    have h1 : hAt z x ≤ hAt w x := by
      have := hs.heights
      simp only [List.cons_append, List.pairwise_cons] at this
      exact this.1 z (by simp)
    have e : hAt z x = hAt v x := by linarith
    have := cmp_v m1 m2 (Or.inr hv.1) hc e
    rw [vdir_up hv] at this
    have uz := up_of_vdir m1.ok this
    have hp := start_of_height m1 m2 uz.1 hv.1 e
    have hp2 := same_up uz hv hp (m1.vx uz.1) ha
    obtain ⟨a, b⟩ := ih hs uz (by linarith)
    exact ⟨a.trans hp, b.trans hp2⟩

/-- Below a downward vertical at the same height there are only copies of it. -/
theorem Stack.dn_same {u v : CSeg} {m : List CSeg} (h : Stack x (u :: m ++ [v])) (hu : Dn u) (he : hAt u x = hAt v x) :
    u.pa = v.pa ∧ u.pb = v.pb := by
  induction m generalizing u with
  | nil =>
    obtain ⟨m1, m2, hc, ha, _⟩ := Stack.pair (a := u) (b := v) (by simpa using h)
    have := cmp_v m1 m2 (Or.inl hu.1) hc he
    rw [vdir_dn hu] at this
    have dv := dn_of_vdir m2.ok this
    have hp := start_of_height m1 m2 hu.1 dv.1 he
    exact ⟨hp, same_dn hu dv hp (m1.vx hu.1) ha⟩
  | cons z m ih =>
    have hh := h.heights
    simp only [List.cons_append, List.pairwise_cons] at hh
    have hz : Stack x [u, z] := by
      have : Stack x ([] ++ [u, z] ++ (m ++ [v])) := by simpa using h
      exact this.infix
    obtain ⟨m1, m2, hc, ha, hle⟩ := hz.pair
    have h1 : hAt v x ≤ hAt z x := hh.2.1 v (by simp)
    have e : hAt u x = hAt z x := by linarith
    have := cmp_v m1 m2 (Or.inl hu.1) hc e
    rw [vdir_dn hu] at this
    have dz := dn_of_vdir m2.ok this
    have hp := start_of_height m1 m2 hu.1 dz.1 e
    have hp2 := same_dn hu dz hp (m1.vx hu.1) ha
    obtain ⟨a, b⟩ := ih (by simpa using h.tail) dz (by linarith)
    exact ⟨hp.trans a, hp2.trans b⟩

theorem up_end_pair {u v : CSeg} (h : Stack x [u, v]) (hv : Up v) (hlt : hAt v x < hAt u x) (hle : hAt u x ≤ v.pb.y) :
    hAt u x = v.pb.y ∧ EndQ u x (hAt u x) := by
  obtain ⟨m1, m2, hc, ha, _⟩ := h.pair
  have ho : On v x (hAt u x) := by
    rw [on_v hv.1 (m2.ok.vy hv.1)]
    rw [hAt_v hv.1] at hlt
    exact ⟨(m2.vx hv.1).symm, Or.inl ⟨hlt.le, hle⟩⟩
  have l := ha x _ le_rfl m1.on ho
  rw [hAt_v hv.1] at hlt
  rcases l with ⟨l1, ⟨_, l⟩ | ⟨_, l⟩⟩ | ⟨_, _, l⟩ | l
  · linarith
  · exact ⟨l, l1⟩
  · exact absurd hv.1 l.nt.ne
  · rcases l with ⟨a, b⟩ | ⟨a, b⟩
    · have hvu : u.pa.x = u.pb.x := by rw [a, b]; exact hv.1
      rw [hAt_v hvu, a] at hlt; exact absurd hlt (lt_irrefl _)
    · have hvu : u.pa.x = u.pb.x := by rw [a, b]; exact hv.1.symm
      refine ⟨by rw [hAt_v hvu, a], ?_⟩
      rw [hAt_v hvu]
      exact Or.inl ⟨(m1.vx hvu).symm, rfl⟩

theorem dn_end_pair {u v : CSeg} (h : Stack x [u, v]) (hu : Dn u) (hlt : hAt v x < hAt u x) (hle : u.pb.y ≤ hAt v x) :
    hAt v x = u.pb.y ∧ EndQ v x (hAt v x) := by
  obtain ⟨m1, m2, hc, ha, _⟩ := h.pair
  have ho : On u x (hAt v x) := by
    rw [on_v hu.1 (m1.ok.vy hu.1)]
    rw [hAt_v hu.1] at hlt
    exact ⟨(m1.vx hu.1).symm, Or.inr ⟨hle, hlt.le⟩⟩
  have l := ha x _ le_rfl ho m2.on
  rw [hAt_v hu.1] at hlt
  rcases l with ⟨⟨_, l⟩ | ⟨_, l⟩, l1⟩ | ⟨_, _, l⟩ | l
  · linarith
  · exact ⟨l, l1⟩
  · exact absurd hu.1 l.ns.ne
  · rcases l with ⟨a, b⟩ | ⟨a, b⟩
    · have hvv : v.pa.x = v.pb.x := by rw [← a, ← b]; exact hu.1
      rw [hAt_v hvv, a] at hlt; exact absurd hlt (lt_irrefl _)
    · have hvv : v.pa.x = v.pb.x := by rw [← a, ← b]; exact hu.1.symm
      refine ⟨by rw [hAt_v hvv, b], ?_⟩
      rw [hAt_v hvv]
      exact Or.inl ⟨(m2.vx hvv).symm, rfl⟩

/-- An upward vertical reaches the next height above only with its end. -/
theorem Stack.up_end {u v : CSeg} {m : List CSeg} (h : Stack x (u :: m ++ [v])) (hv : Up v) (hlt : hAt v x < hAt u x)
    (hle : hAt u x ≤ v.pb.y) : hAt u x = v.pb.y ∧ EndQ u x (hAt u x) := by
  induction m using List.reverseRecOn generalizing v with
  | nil => exact up_end_pair (by simpa using h) hv hlt hle
  | append_singleton m z ih =>
    have hs : Stack x (u :: m ++ [z]) := by
      have : Stack x ((u :: m ++ [z]) ++ [v]) := by simpa using h
      exact this.init
    have hz : Stack x [z, v] := by
      have : Stack x ((u :: m) ++ [z, v] ++ []) := by simpa using h
      exact this.infix
    obtain ⟨m1, m2, hc, ha, hle2⟩ := hz.pair
    have h1 : hAt z x ≤ hAt u x := by
      have := hs.heights
      simp only [List.cons_append, List.pairwise_cons] at this
      exact this.1 z (by simp)
    rcases hle2.lt_or_eq with c | c
    · obtain ⟨b1, b2⟩ := up_end_pair hz hv c (h1.trans hle)
      have e : hAt u x = hAt z x := by linarith
      have l := hs.group e
      rw [e] at l ⊢
      exact ⟨b1, l.end_iff.mpr b2⟩
    · obtain ⟨a, b⟩ := Stack.up_same (w := z) (m := []) (v := v) (by simpa using hz) hv c.symm
      have uz : Up z := by unfold Up; rw [a, b]; exact hv
      have := ih hs uz (by rw [← c]; exact hlt) (by rw [b]; exact hle)
      rw [b] at this
      exact this

/-- A downward vertical reaches the next height below only with its end. -/
theorem Stack.dn_end {u v : CSeg} {m : List CSeg} (h : Stack x (u :: m ++ [v])) (hu : Dn u) (hlt : hAt v x < hAt u x)
    (hle : u.pb.y ≤ hAt v x) : hAt v x = u.pb.y ∧ EndQ v x (hAt v x) := by
  induction m generalizing u with
  | nil => exact dn_end_pair (by simpa using h) hu hlt hle
  | cons z m ih =>
    have hs : Stack x (z :: m ++ [v]) := by simpa using h.tail
    have hz : Stack x [u, z] := by
      have : Stack x ([] ++ [u, z] ++ (m ++ [v])) := by simpa using h
      exact this.infix
    obtain ⟨m1, m2, hc, ha, hle2⟩ := hz.pair
    have h1 : hAt v x ≤ hAt z x := by
      have := hs.heights
      simp only [List.cons_append, List.pairwise_cons] at this
      exact this.1 v (by simp)
    rcases hle2.lt_or_eq with c | c
    · obtain ⟨b1, b2⟩ := dn_end_pair hz hu c (hle.trans h1)
      have e : hAt z x = hAt v x := by linarith
      have l := hs.group e
      rw [← e]
      exact ⟨b1, by rw [e]; rw [e] at b2 l; exact l.end_iff.mp b2⟩
    · obtain ⟨a, b⟩ := Stack.dn_same (u := u) (m := []) (v := z) (by simpa using hz) hu c.symm
      have dz : Dn z := by unfold Dn; rw [← a, ← b]; exact hu
      have := ih hs dz (by rw [c]; exact hlt) (by rw [← b]; exact hle)
      rw [← b] at this
      exact this

/-- Below a downward vertical: a neighbour of a copy of it. -/
theorem Stack.dn_next {u v : CSeg} {m : List CSeg} (h : Stack x (u :: m ++ [v])) (hu : Dn u) (hlt : hAt v x < hAt u x) :
    ∃ u', (u'.pa = u.pa ∧ u'.pb = u.pb) ∧ SOk u' ∧
      (ALC x u' v ∨ ∃ m1 w m2, m = m1 ++ w :: m2 ∧ ALC x u' w ∧ Stack x [u', w] ∧ hAt w x < hAt u x) := by
  induction m generalizing u with
  | nil =>
    obtain ⟨m1, m2, hc, ha, _⟩ := Stack.pair (a := u) (b := v) (by simpa using h)
    exact ⟨u, ⟨rfl, rfl⟩, m1.ok, Or.inl ha⟩
  | cons z m ih =>
    have hs : Stack x (z :: m ++ [v]) := by simpa using h.tail
    have hz : Stack x [u, z] := by
      have : Stack x ([] ++ [u, z] ++ (m ++ [v])) := by simpa using h
      exact this.infix
    obtain ⟨m1, m2, hc, ha, hle2⟩ := hz.pair
    rcases hle2.lt_or_eq with c | c
    · exact ⟨u, ⟨rfl, rfl⟩, m1.ok, Or.inr ⟨[], z, m, rfl, ha, hz, c⟩⟩
    · obtain ⟨a, b⟩ := Stack.dn_same (u := u) (m := []) (v := z) (by simpa using hz) hu c.symm
      have dz : Dn z := by unfold Dn; rw [← a, ← b]; exact hu
      obtain ⟨u', ⟨e1, e2⟩, hok, hr⟩ := ih hs dz (by rw [c]; exact hlt)
      refine ⟨u', ⟨e1.trans a.symm, e2.trans b.symm⟩, hok, hr.imp id ?_⟩
      rintro ⟨l1, w, l2, e, h1, h2, h3⟩
      exact ⟨z :: l1, w, l2, by rw [e]; rfl, h1, h2, by rw [← c]; exact h3⟩

theorem LC.congr {s t s' t' : CSeg} {X Y : Rat} (hs : s'.pa = s.pa ∧ s'.pb = s.pb) (ht : t'.pa = t.pa ∧ t'.pb = t.pb)
    (h : LC s' t' X Y) : LC s t X Y := by
  unfold LC EndQ Coin at *
  rw [hs.1, hs.2, ht.1, ht.2] at h
  rcases h with h | ⟨a, b, c⟩ | h
  · exact Or.inl h
  · refine Or.inr (Or.inl ⟨a, b, ?_, ?_, ?_, ?_⟩)
    · have := c.ns; unfold Nv at *; rw [hs.1, hs.2] at this; exact this
    · have := c.nt; unfold Nv at *; rw [ht.1, ht.2] at this; exact this
    · rw [← hs.1, ← ht.1]; exact c.pa
    · rw [← slope_congr hs.1 hs.2, ← slope_congr ht.1 ht.2]; exact c.sl
  · exact Or.inr (Or.inr h)

theorem on_up {s : CSeg} (h : Up s) {X Y : Rat} (ho : On s X Y) : (s.pa.y : Rat) ≤ Y ∧ Y ≤ s.pb.y := by
  rw [on_v h.1 (ne_of_lt h.2)] at ho
  have : (s.pa.y : Rat) < s.pb.y := by exact_mod_cast h.2
  rcases ho.2 with h | h
  · exact h
  · exact ⟨by linarith [h.1, h.2], by linarith [h.1, h.2]⟩

theorem on_dn {s : CSeg} (h : Dn s) {X Y : Rat} (ho : On s X Y) : (s.pb.y : Rat) ≤ Y ∧ Y ≤ s.pa.y := by
  rw [on_v h.1 (ne_of_gt h.2)] at ho
  have : (s.pb.y : Rat) < s.pa.y := by exact_mod_cast h.2
  rcases ho.2 with h | h
  · exact ⟨by linarith [h.1, h.2], by linarith [h.1, h.2]⟩
  · exact h

/-- In a stack every two segments are fine at the vertical. -/
theorem Stack.lc {u v : CSeg} {m : List CSeg} (h : Stack x (u :: m ++ [v])) {Y : Rat} (ou : On u x Y) (ov : On v x Y) :
    LC u v x Y := by
  have hmu := h.mid u (by simp)
  have hmv := h.mid v (by simp)
  have hle : hAt v x ≤ hAt u x := by
    have := h.heights
    simp only [List.cons_append, List.pairwise_cons] at this
    exact this.1 v (by simp)
  rcases hle.lt_or_eq with hlt | heq
  · -- different heights
    by_cases c1 : hAt u x ≤ Y
    · -- the lower one goes up
      have uv : Up v := by
        rcases kinds hmv.ok with k | k | k
        · have := on_nv_y k ov; linarith
        · exact k
        · have := on_dn k ov; rw [hAt_v k.1] at hlt; linarith
      obtain ⟨e, he⟩ := h.up_end uv hlt (c1.trans (on_up uv ov).2)
      have : Y = hAt u x := le_antisymm (by rw [e]; exact (on_up uv ov).2) c1
      rw [this]
      refine Or.inl ⟨he, ?_⟩
      rw [e]
      exact Or.inr ⟨by rw [← hmv.vx uv.1]; exact_mod_cast uv.1, rfl⟩
    · push Not at c1
      by_cases c2 : Y ≤ hAt v x
      · have du : Dn u := by
          rcases kinds hmu.ok with k | k | k
          · have := on_nv_y k ou; linarith
          · have := on_up k ou; rw [hAt_v k.1] at hlt c1; linarith
          · exact k
        obtain ⟨e, he⟩ := h.dn_end du hlt ((on_dn du ou).1.trans c2)
        have : Y = hAt v x := le_antisymm c2 (by rw [e]; exact (on_dn du ou).1)
        rw [this]
        refine Or.inl ⟨?_, he⟩
        rw [e]
        exact Or.inr ⟨by rw [← hmu.vx du.1]; exact_mod_cast du.1, rfl⟩
      · push Not at c2
        have du : Dn u := by
          rcases kinds hmu.ok with k | k | k
          · have := on_nv_y k ou; linarith
          · have := on_up k ou; rw [hAt_v k.1] at c1; linarith
          · exact k
        have uv : Up v := by
          rcases kinds hmv.ok with k | k | k
          · have := on_nv_y k ov; linarith
          · exact k
          · have := on_dn k ov; rw [hAt_v k.1] at c2; linarith
        obtain ⟨u', hu', ok', hr⟩ := h.dn_next du hlt
        have ou' : On u' x Y := by unfold On at *; rw [hu'.1, hu'.2]; exact ou
        have yu := on_dn du ou
        have yv := on_up uv ov
        rcases hr with hr | ⟨m1, w, m2, rfl, ha, hst, hw⟩
        · exact (hr x Y le_rfl ou' ov).congr hu' ⟨rfl, rfl⟩
        · have hs2 : Stack x (w :: m2 ++ [v]) := by
            have : Stack x ((u :: m1) ++ (w :: m2 ++ [v]) ++ []) := by simpa using h
            exact this.infix
          have hwv : hAt v x ≤ hAt w x := by
            have := hs2.heights
            simp only [List.cons_append, List.pairwise_cons] at this
            exact this.1 v (by simp)
          rcases hwv.lt_or_eq with d | d
          · rcases le_or_gt Y (hAt w x) with f | f
            · have du' : Dn u' := by unfold Dn; rw [hu'.1, hu'.2]; exact du
              have hu'h : hAt u' x = hAt u x := by rw [hAt_v du'.1, hAt_v du.1, hu'.1]
              obtain ⟨g1, g2⟩ := dn_end_pair hst du' (by rw [hu'h]; exact hw) (by rw [hu'.2]; linarith)
              rw [hu'.2] at g1
              have hy : Y = hAt w x := by linarith
              obtain ⟨g3, g4⟩ := hs2.up_end uv d (by rw [← hy]; exact yv.2)
              rw [hy]
              refine Or.inl ⟨?_, ?_⟩
              · rw [g1]; exact Or.inr ⟨by rw [← hmu.vx du.1]; exact_mod_cast du.1, rfl⟩
              · rw [g3]; exact Or.inr ⟨by rw [← hmv.vx uv.1]; exact_mod_cast uv.1, rfl⟩
            · obtain ⟨g3, _⟩ := hs2.up_end uv d (by linarith)
              linarith
          · obtain ⟨a, b⟩ := hs2.up_same uv d.symm
            have ow : On w x Y := by unfold On at *; rw [a, b]; exact ov
            exact (ha x Y le_rfl ou' ow).congr hu' ⟨a, b⟩
  · -- one height
    by_cases cy : Y = hAt u x
    · rw [cy]; exact h.group heq.symm
    · rcases kinds hmu.ok with k | k | k
      · exact absurd (on_nv_y k ou) cy
      · rcases kinds hmv.ok with k' | k' | k'
        · exact absurd ((on_nv_y k' ov).trans heq) cy
        · obtain ⟨a, b⟩ := h.up_same k' heq.symm
          exact Or.inr (Or.inr (Or.inl ⟨a, b⟩))
        · exfalso
          have h1 := on_up k ou
          have h2 := on_dn k' ov
          rw [hAt_v k'.1] at heq
          rw [hAt_v k.1] at heq cy
          exact cy (le_antisymm (by linarith) h1.1)
      · obtain ⟨a, b⟩ := h.dn_same k heq.symm
        exact Or.inr (Or.inr (Or.inl ⟨a, b⟩))

end PolyOps.Planarity
