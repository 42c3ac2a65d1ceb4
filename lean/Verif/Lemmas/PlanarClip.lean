import Verif.Lemmas.PlanarAbs
import Verif.Lemmas.SweepInv
import Verif.Lemmas.SweepMarks

/-! The states of the intersection sweep as sets of lines. -/
namespace PolyOps.Planarity
open PolyOps PolyOps.SweepCmp PolyOps.Events PolyOps.Sweep

/-- The lines of a state, those started, those ended, and the sweep. -/
def abs (s : Clip) : AS where
  L c := ∃ n, s.Live n ∧ s.cseg n = c
  SA c := ∃ n, s.Live n ∧ s.cseg n = c ∧ (n, true) ∈ nt (applied s.q)
  EA c := ∃ n, s.Live n ∧ s.cseg n = c ∧ (n, false) ∈ nt (applied s.q)
  sw := s.sweep.map s.cseg

/-- Key of an event. -/
def evK (s : Clip) (nb : Nat × Bool) : Key := if nb.2 then sk (s.cseg nb.1) else ek (s.cseg nb.1)

theorem evless_iff {s : Clip} (h : Inv0 s) {e f : Ev} (he : e ∈ s.q.events) (hf : f ∈ s.q.events) :
    less s.x e f = true ↔ evK s e.nt < evK s f.nt := by
  have key : ∀ e ∈ s.q.events, ordKey s.x e = evK s e.nt := by
    intro e he
    have hk := (h.ev_ok e he).2.2
    unfold evK Ev.nt ordKey
    simp only
    cases hb : e.ty.isFwd with
    | true =>
      rw [hb] at hk
      simp only [evKey, Ev.key, if_true, Prod.mk.injEq, fTy] at hk
      obtain ⟨k1, k2, k3⟩ := hk
      rw [if_pos rfl, k2, k3]
      unfold sk Clip.cseg
      simp only
      rw [k1]
      have : s.x (s.seg e.node).1 = s.x (s.seg e.node).2 ↔ (s.lp (s.seg e.node).1).data.x = (s.lp (s.seg e.node).2).data.x := Iff.rfl
      by_cases c : s.x (s.seg e.node).1 = s.x (s.seg e.node).2
      · rw [if_pos c, if_pos (this.mp c)]; rfl
      · rw [if_neg c, if_neg (fun h => c (this.mpr h))]; rfl
    | false =>
      rw [hb] at hk
      simp only [evKey, Ev.key, Bool.false_eq_true, if_false, Prod.mk.injEq, bTy] at hk
      obtain ⟨k1, k2, k3⟩ := hk
      rw [if_neg (by simp), k2, k3]
      unfold ek Clip.cseg
      simp only
      rw [k1]
      have : s.x (s.seg e.node).1 = s.x (s.seg e.node).2 ↔ (s.lp (s.seg e.node).1).data.x = (s.lp (s.seg e.node).2).data.x := Iff.rfl
      by_cases c : s.x (s.seg e.node).1 = s.x (s.seg e.node).2
      · rw [if_pos c, if_pos (this.mp c)]; rfl
      · rw [if_neg c, if_neg (fun h => c (this.mpr h))]; rfl
  rw [← key e he, ← key f hf]
  exact Events.less_iff s.x e f

theorem cseg_inj {s : Clip} (h : Inv0 s) {m n : Nat} (hm : s.Live m) (hn : s.Live n) (e : s.cseg m = s.cseg n) : m = n := by
  refine h.seg_inj m n hm.1 hm.2.1 hn.1 hn.2.1 ?_
  unfold Clip.cseg at e
  injection e with e1 e2
  exact Prod.ext e1 e2

/-- A live line is the line of a point. -/
theorem live_line {s : Clip} (h : Inv0 s) {n : Nat} (hn : s.Live n) : ∃ i < s.np, s.seg n = s.lineSeg i ∧
    (((s.cseg n).a = (s.lp i).next ∧ (s.cseg n).b = i ∧ Nv (s.cseg n)) ∨ ((s.cseg n).a = i ∧ (s.cseg n).b = (s.lp i).next)) := by
  obtain ⟨i, hi, hs⟩ := h.own n hn
  refine ⟨i, hi, hs, ?_⟩
  unfold Clip.cseg Nv
  rw [hs]
  unfold Clip.lineSeg
  split
  · rename_i c; left; exact ⟨rfl, rfl, c⟩
  · right; exact ⟨rfl, rfl⟩

theorem world_of_inv {s : Clip} (h : Inv0 s) : World (abs s).L := by
  have line : ∀ c, (abs s).L c → ∃ n, s.Live n ∧ s.cseg n = c := fun c hc => hc
  have eqi : ∀ m n i, s.Live m → s.Live n → s.seg m = s.lineSeg i → s.seg n = s.lineSeg i → s.cseg m = s.cseg n := by
    intro m n i hm hn e1 e2
    rw [h.seg_inj m n hm.1 hm.2.1 hn.1 hn.2.1 (e1.trans e2.symm)]
  refine ⟨?_, ?_, ?_, ?_, ?_, ?_⟩
  · rintro _ ⟨n, hn, rfl⟩
    obtain ⟨i, hi, hs⟩ := h.own n hn
    refine ⟨?_, (h.seg_lt n hn.1 hn.2.1).2.2⟩
    have := h.pt_ne i hi
    unfold Clip.cseg
    rw [hs]
    unfold Clip.lineSeg
    split
    · exact this
    · exact this.symm
  · rintro _ _ ⟨m, hm, rfl⟩ ⟨n, hn, rfl⟩
    refine ⟨?_, ?_, ?_, ?_⟩ <;> · intro e; exact congrArg (fun i => (s.lp i).data) e
  · rintro _ _ ⟨m, hm, rfl⟩ ⟨n, hn, rfl⟩ e1 e2
    have : s.seg m = s.seg n := Prod.ext e1 e2
    rw [h.seg_inj m n hm.1 hm.2.1 hn.1 hn.2.1 this]
  · rintro _ _ _ ⟨r, hr, rfl⟩ ⟨m, hm, rfl⟩ ⟨n, hn, rfl⟩ _ _ _ e1 e2
    obtain ⟨i, hi, si, ci⟩ := live_line h hr
    obtain ⟨j, hj, sj, cj⟩ := live_line h hm
    obtain ⟨k, hk, sk, ck⟩ := live_line h hn
    have nxt : ∀ a b, a < s.np → b < s.np → (s.lp a).next = (s.lp b).next → a = b := fun a b ha hb => h.next_inj a ha b hb
    have key : i = j ∨ j = k ∨ i = k := by
      rcases ci with ⟨a1, _, _⟩ | ⟨a1, _⟩ <;> rcases cj with ⟨a2, _, _⟩ | ⟨a2, _⟩ <;> rcases ck with ⟨a3, _, _⟩ | ⟨a3, _⟩
      · exact Or.inl (nxt i j hi hj (by omega))
      · exact Or.inl (nxt i j hi hj (by omega))
      · exact Or.inr (Or.inr (nxt i k hi hk (by omega)))
      · omega
      · exact Or.inr (Or.inl (nxt j k hj hk (by omega)))
      · omega
      · omega
      · omega
    rcases key with rfl | rfl | rfl
    · exact Or.inl (eqi _ _ _ hr hm si sj)
    · exact Or.inr (Or.inl (eqi _ _ _ hm hn sj sk))
    · exact Or.inr (Or.inr (eqi _ _ _ hr hn si sk))
  · rintro _ _ ⟨m, hm, rfl⟩ ⟨n, hn, rfl⟩ v1 v2 e
    obtain ⟨i, hi, si, ci⟩ := live_line h hm
    obtain ⟨j, hj, sj, cj⟩ := live_line h hn
    have a1 : (s.cseg m).a = i := by
      rcases ci with ⟨_, _, c⟩ | ⟨c, _⟩
      · exact absurd v1 (ne_of_lt c)
      · exact c
    have a2 : (s.cseg n).a = j := by
      rcases cj with ⟨_, _, c⟩ | ⟨c, _⟩
      · exact absurd v2 (ne_of_lt c)
      · exact c
    have : i = j := by omega
    subst this
    exact eqi _ _ _ hm hn si sj
  · obtain ⟨b, hb⟩ : ∃ b : Int, ∀ i < s.np, b ≤ s.x i := by
      generalize s.np = N
      induction N with
      | zero => exact ⟨0, fun i hi => by omega⟩
      | succ N ih =>
        obtain ⟨b, hb⟩ := ih
        refine ⟨min b (s.x N), fun i hi => ?_⟩
        by_cases c : i = N
        · rw [c]; exact min_le_right _ _
        · exact (min_le_left _ _).trans (hb i (by omega))
    refine ⟨b, ?_⟩
    rintro _ ⟨n, hn, rfl⟩
    exact hb _ (h.seg_lt n hn.1 hn.2.1).1

theorem map_erase_inj {l : List Nat} {f : Nat → CSeg} {n : Nat} (h : ∀ m ∈ l, f m = f n → m = n) : (l.erase n).map f = (l.map f).erase (f n) := by
  induction l with
  | nil => rfl
  | cons a l ih =>
    by_cases c : a = n
    · subst c; simp
    · have : f a ≠ f n := fun e => c (h a (by simp) e)
      rw [List.erase_cons_tail (by simpa using c), List.map_cons, List.map_cons, List.erase_cons_tail (by simpa using this)]
      rw [ih fun m hm => h m (List.mem_cons_of_mem _ hm)]

theorem sweep_live {s : Clip} (h : Inv s) {n : Nat} (hn : n ∈ s.sweep) : s.Live n := ((h.2.mem n).mp hn).1

theorem erase_map {s : Clip} (h : Inv s) {n : Nat} (hn : s.Live n) : (s.sweep.erase n).map s.cseg = (s.sweep.map s.cseg).erase (s.cseg n) :=
  map_erase_inj fun _ hm e => cseg_inj h.1 (sweep_live h hm) hn e

/-! ### Splits -/

theorem split_abs {s u : Clip} (h : Inv s) (hm : Sweep.Mid s u) {n : Nat} (hs : n ∈ s.sweep) {c : Pt} {i : Nat} (hp : SplitAt s u n c i)
    (b1 : (s.cseg n).pa.x ≤ c.x) (b2 : c.x ≤ (s.cseg n).pb.x) : ∃ l r, AKill (abs s) (abs u) (s.cseg n) l r c := by
  have hn := sweep_live h hs
  have hnn : n < s.nn := hn.2.1
  have oldseg : ∀ m, s.Live m → u.cseg m = s.cseg m := by
    intro m hm'
    have sl := h.1.seg_lt m hm'.1 hm'.2.1
    unfold Clip.cseg
    rw [hm.ext.seg m hm'.2.1, hm.ext.ref.data _ sl.1, hm.ext.ref.data _ sl.2.1]
  have hj := h.1.next_lt _ hp.hi
  have di := hm.ext.ref.data i hp.hi
  have dj := hm.ext.ref.data _ hj
  have w : World (abs u).L := world_of_inv hm.inv.1
  have olt : ∀ m, s.Live m → (s.cseg m).a < s.np ∧ (s.cseg m).b < s.np := fun m hm' =>
    ⟨(h.1.seg_lt m hm'.1 hm'.2.1).1, (h.1.seg_lt m hm'.1 hm'.2.1).2.1⟩
  have xi : u.x i = s.x i := congrArg Pt.x di
  have xj : u.x (s.lp i).next = s.x (s.lp i).next := congrArg Pt.x dj
  have xc : u.x s.np = c.x := congrArg Pt.x hp.data
  -- the two new lines
  have cl : u.cseg s.nn = if s.x i > c.x then ⟨s.np, i, c, (s.lp i).data⟩ else ⟨i, s.np, (s.lp i).data, c⟩ := by
    unfold Clip.cseg
    rw [hp.segl]
    unfold Clip.lineSeg
    rw [hp.nexti, xi, xc]
    split <;> simp only [hp.data, di]
  have cr : u.cseg (s.nn + 1) = if c.x > s.x (s.lp i).next then ⟨(s.lp i).next, s.np, (s.lp (s.lp i).next).data, c⟩
      else ⟨s.np, (s.lp i).next, c, (s.lp (s.lp i).next).data⟩ := by
    unfold Clip.cseg
    rw [hp.segr]
    unfold Clip.lineSeg
    rw [hp.nextc, xj, xc]
    split <;> simp only [hp.data, dj]
  have fresh : ∀ k, (k = s.nn ∨ k = s.nn + 1) → ¬ (abs s).L (u.cseg k) := by
    rintro k hk ⟨m, hm', e⟩
    have := olt m hm'
    rw [e] at this
    rcases hk with rfl | rfl
    · rw [cl] at this
      split at this <;> simp only at this <;> omega
    · rw [cr] at this
      split at this <;> simp only at this <;> omega
  have Llive : ∀ l r : Nat, (l = s.nn ∧ r = s.nn + 1 ∨ l = s.nn + 1 ∧ r = s.nn) → ∀ t, (abs u).L t ↔ ((abs s).L t ∧ t ≠ s.cseg n) ∨ t = u.cseg l ∨ t = u.cseg r := by
    intro l r hlr t
    constructor
    · rintro ⟨m, hm', rfl⟩
      rcases (hp.live m).mp hm' with ⟨h1, h2⟩ | h1
      · left
        rw [oldseg m h1]
        exact ⟨⟨m, h1, rfl⟩, fun e => h2 (cseg_inj h.1 h1 hn e)⟩
      · right
        rcases hlr with ⟨rfl, rfl⟩ | ⟨rfl, rfl⟩ <;> rcases h1 with rfl | rfl <;> simp
    · rintro (⟨⟨m, h1, rfl⟩, h2⟩ | h1)
      · refine ⟨m, (hp.live m).mpr (Or.inl ⟨h1, ?_⟩), oldseg m h1⟩
        rintro rfl; exact h2 rfl
      · rcases hlr with ⟨rfl, rfl⟩ | ⟨rfl, rfl⟩ <;> rcases h1 with rfl | rfl <;>
          first
          | exact ⟨_, (hp.live _).mpr (Or.inr (Or.inl rfl)), rfl⟩
          | exact ⟨_, (hp.live _).mpr (Or.inr (Or.inr rfl)), rfl⟩
  have Alt : ∀ m d, (m, d) ∈ nt (applied s.q) → m < s.nn := by
    intro m d hm'
    obtain ⟨f, hf, h1⟩ := mem_nt.mp hm'
    have := (h.1.ev_ok f (List.mem_of_mem_take ((applied_sorted h.1.wf).2.subset hf))).2.1
    rw [show f.node = m from congrArg Prod.fst h1] at this
    exact this
  have sa : ∀ t, (abs u).SA t ↔ (abs s).SA t ∧ t ≠ s.cseg n := by
    intro t
    constructor
    · rintro ⟨m, hm', rfl, ha⟩
      rw [hm.app] at ha
      have := Alt m _ ha
      rcases (hp.live m).mp hm' with ⟨h1, h2⟩ | h1
      · rw [oldseg m h1]
        exact ⟨⟨m, h1, rfl, ha⟩, fun e => h2 (cseg_inj h.1 h1 hn e)⟩
      · omega
    · rintro ⟨⟨m, h1, rfl, ha⟩, h2⟩
      refine ⟨m, (hp.live m).mpr (Or.inl ⟨h1, ?_⟩), oldseg m h1, by rw [hm.app]; exact ha⟩
      rintro rfl; exact h2 rfl
  have ea : ∀ t, (abs u).EA t ↔ (abs s).EA t := by
    intro t
    constructor
    · rintro ⟨m, hm', rfl, ha⟩
      rw [hm.app] at ha
      have := Alt m _ ha
      rcases (hp.live m).mp hm' with ⟨h1, h2⟩ | h1
      · rw [oldseg m h1]
        exact ⟨m, h1, rfl, ha⟩
      · omega
    · rintro ⟨m, h1, rfl, ha⟩
      refine ⟨m, (hp.live m).mpr (Or.inl ⟨h1, ?_⟩), oldseg m h1, by rw [hm.app]; exact ha⟩
      rintro rfl; exact ((h.2.mem m).mp hs).2.2 ha
  have sw : (abs u).sw = (abs s).sw.erase (s.cseg n) := by
    show u.sweep.map u.cseg = (s.sweep.map s.cseg).erase (s.cseg n)
    rw [hp.sw, ← erase_map h hn]
    exact List.map_congr_left fun m hm' => oldseg m (sweep_live h (List.mem_of_mem_erase hm'))
  have inn : s.cseg n ∈ (abs s).sw := List.mem_map_of_mem hs
  have fin : ∀ l r : Nat, (l = s.nn ∧ r = s.nn + 1 ∨ l = s.nn + 1 ∧ r = s.nn) →
      (((u.cseg l).a = (s.cseg n).a ∧ (u.cseg l).pa = (s.cseg n).pa ∧ (u.cseg l).pb = c) ∨
        (Nv (s.cseg n) ∧ c.x = (s.cseg n).pa.x ∧ (u.cseg l).pa = c ∧ (u.cseg l).pb = (s.cseg n).pa)) →
      (((u.cseg r).pa = c ∧ (u.cseg r).pb = (s.cseg n).pb) ∨ (Nv (s.cseg n) ∧ c.x = (s.cseg n).pb.x ∧ (u.cseg r).pa = (s.cseg n).pb ∧ (u.cseg r).pb = c)) →
      ∃ l r, AKill (abs s) (abs u) (s.cseg n) l r c := by
    intro l r hlr h1 h2
    refine ⟨u.cseg l, u.cseg r, ⟨⟨⟨n, hn, rfl⟩, Llive l r hlr, b1, b2, h1, h2⟩, w, fresh l (by omega), fresh r (by omega), sa, ea, sw, inn⟩⟩
  by_cases ci : s.x i > s.x (s.lp i).next
  · have cn : s.cseg n = ⟨(s.lp i).next, i, (s.lp (s.lp i).next).data, (s.lp i).data⟩ := by
      unfold Clip.cseg; rw [hp.seg]; unfold Clip.lineSeg; rw [if_pos ci]
    have b1' : s.x (s.lp i).next ≤ c.x := by rw [cn] at b1; exact b1
    have b2' : c.x ≤ s.x i := by rw [cn] at b2; exact b2
    have nv : Nv (s.cseg n) := by rw [cn]; exact ci
    refine fin (s.nn + 1) s.nn (Or.inr ⟨rfl, rfl⟩) ?_ ?_
    · rw [cr]
      by_cases d : c.x > s.x (s.lp i).next
      · left; rw [if_pos d, cn]; exact ⟨rfl, rfl, rfl⟩
      · right
        refine ⟨nv, ?_, ?_, ?_⟩
        · rw [cn]; show c.x = s.x (s.lp i).next; omega
        · rw [if_neg d]
        · rw [if_neg d, cn]
    · rw [cl]
      by_cases d : s.x i > c.x
      · left; rw [if_pos d, cn]; exact ⟨rfl, rfl⟩
      · right
        refine ⟨nv, ?_, ?_, ?_⟩
        · rw [cn]; show c.x = s.x i; omega
        · rw [if_neg d, cn]
        · rw [if_neg d]
  · have cn : s.cseg n = ⟨i, (s.lp i).next, (s.lp i).data, (s.lp (s.lp i).next).data⟩ := by
      unfold Clip.cseg; rw [hp.seg]; unfold Clip.lineSeg; rw [if_neg ci]
    have b1' : s.x i ≤ c.x := by rw [cn] at b1; exact b1
    have b2' : c.x ≤ s.x (s.lp i).next := by rw [cn] at b2; exact b2
    refine fin s.nn (s.nn + 1) (Or.inl ⟨rfl, rfl⟩) ?_ ?_
    · left; rw [cl, if_neg (by omega), cn]; exact ⟨rfl, rfl, rfl⟩
    · left; rw [cr, if_neg (by omega), cn]; exact ⟨rfl, rfl⟩

/-! ### Testing two lines -/

/-- What the intersection test guarantees: lines it leaves alone are clean, and a line splits another one with the same start only when
it lies on it. -/
structure EnvSound (env : Env) : Prop where
  ok : EnvOk env
  clean : ∀ k s t, SOk s → SOk t → Consistent s t → (∀ r, env.isect k s t = some r → r.e0 ≠ .no ∧ r.e1 ≠ .no) → Cl s t
  over : ∀ k s t r c, SOk s → SOk t → Consistent s t → s.a = t.a → Nv s → Nv t → env.isect k s t = some r → r.p = some c →
    r.e0 ≠ .no → r.e1 = .no → Over s t ∧ s.pb = c ∧ c.x < t.pb.x ∧ r.e0 = .end
  tested : ∀ (mk : Nat → Prop) k s t, SOk s → SOk t → Consistent s t → (∀ r, env.isect k s t = some r → r.e0 ≠ .no ∧ r.e1 ≠ .no) →
    (∀ r, env.isect k s t = some r → (r.e0 = .both → mk s.a ∧ mk s.b ∧ mk t.a ∧ mk t.b) ∧ (r.e0 = .start → mk s.a) ∧ (r.e0 = .end → mk s.b) ∧
      (r.e1 = .start → mk t.a) ∧ (r.e1 = .end → mk t.b)) → Te mk s t

/-- Every point added to the first `N` is in the x-range of the line to which it was added. -/
def RangeOk (N : Nat) (f : Clip) : Prop := ∀ k ab, f.log[k]? = some ab →
  min (f.x ab.1) (f.x ab.2) ≤ f.x (N + k) ∧ f.x (N + k) ≤ max (f.x ab.1) (f.x ab.2)

/-- Points are numbered in the order in which they were added. -/
def Count (N : Nat) (s : Clip) : Prop := s.np = N + s.log.length

theorem Count.ext {N : Nat} {s t : Clip} (h : Count N s) (hx : Ext s t) : Count N t := by
  obtain ⟨l, h1, h2⟩ := hx.log
  have := h2.length
  unfold Count at *
  rw [h1, List.length_append]; omega

theorem range_split {N : Nat} {s u t : Clip} (h : Inv0 s) (hN : Count N s) {n : Nat} {c : Pt} {i : Nat} (hp : SplitAt s u n c i) (hxu : Ext s u) (hx : Ext u t)
    (hR : RangeOk N t) : (s.cseg n).pa.x ≤ c.x ∧ c.x ≤ (s.cseg n).pb.x := by
  have hj := h.next_lt _ hp.hi
  obtain ⟨l, hl, _⟩ := hx.log
  have hk : t.log[s.log.length]? = some (i, (s.lp i).next) := by
    rw [hl, hp.log]; simp
  have := hR _ _ hk
  simp only at this
  have e : N + s.log.length = s.np := hN.symm
  rw [e] at this
  have xt : ∀ m < s.np, t.x m = s.x m := by
    intro m hm
    have h1 := hx.ref.data m (by rw [hp.np]; omega)
    have h2 := hxu.ref.data m hm
    exact congrArg Pt.x (h1.trans h2)
  have xc : t.x s.np = c.x := by
    have h1 := hx.ref.data s.np (by rw [hp.np]; omega)
    exact congrArg Pt.x (h1.trans hp.data)
  rw [xt i hp.hi, xt _ hj, xc] at this
  unfold Clip.cseg
  rw [hp.seg]
  unfold Clip.lineSeg
  unfold Clip.x at *
  split <;> simp only <;> omega

/-- The state of points does not matter. -/
theorem mark_abs (s : Clip) (i : Nat) : abs (s.mark i) = abs s ∧ (s.mark i).cseg = s.cseg := by
  have e : (s.mark i).cseg = s.cseg := by
    funext n
    unfold Clip.cseg
    rw [(mark_fields s i _).1, (mark_fields s i _).1]; rfl
  refine ⟨?_, e⟩
  unfold abs
  rw [e]; rfl

theorem checkIsect_abs {env : Env} (he : EnvSound env) {N : Nat} {s : Clip} (h : Inv s) (hN : Count N s) (hn : s.q.news = []) {n1 n2 : Nat}
    (h1 : n1 ∈ s.sweep) (h2 : n2 ∈ s.sweep) (hne : n1 ≠ n2) {b : Bool} {t : Clip} (ht : s.checkIsect env n1 n2 = some (b, t)) {f : Clip} (hx : Ext t f) (hR : RangeOk N f)
    {mk : Nat → Prop} (hmk : ∀ i < t.np, (t.lp i).state = .check → mk i) :
    (b = false ∧ abs t = abs s ∧ t.cseg = s.cseg ∧ t.sweep = s.sweep ∧ t.q = s.q ∧ Inv t ∧ Ct mk (s.cseg n1) (s.cseg n2)) ∨
    (b = true ∧ ∃ r c, env.isect s.clock (s.cseg n1) (s.cseg n2) = some r ∧ r.p = some c ∧
      ((∃ l r', AKill (abs s) (abs t) (s.cseg n1) l r' c) ∨
       (r.e0 ≠ .no ∧ r.e1 = .no ∧ (r.e0 = .end → mk (s.cseg n1).b) ∧ ∃ l r', AKill (abs s) (abs t) (s.cseg n2) l r' c) ∨
       ∃ B l r l' r', AKill (abs s) B (s.cseg n1) l r c ∧ AKill B (abs t) (s.cseg n2) l' r' c)) := by
  have w := world_of_inv h.1
  have L1 : (abs s).L (s.cseg n1) := ⟨n1, sweep_live h h1, rfl⟩
  have L2 : (abs s).L (s.cseg n2) := ⟨n2, sweep_live h h2, rfl⟩
  have o1 := w.ok _ L1
  have o2 := w.ok _ L2
  have hinv : ∀ b' t', s.checkIsect env n1 n2 = some (b', t') → Inv t' := by
    intro b' t' e
    obtain ⟨b'', t'', e', m, _⟩ := checkIsect_spec he.ok h hn h1 h2 hne
    rw [e', Option.some.injEq, Prod.mk.injEq] at e
    rw [← e.2]; exact m.inv
  have tinv := hinv b t ht
  have base : Sweep.Mid s { s with clock := s.clock + 1 } := ⟨clock_inv h _, hn, clock_ext s _, rfl⟩
  have cl : (∀ r, env.isect s.clock (s.cseg n1) (s.cseg n2) = some r → r.e0 ≠ .no ∧ r.e1 ≠ .no) → Cl (s.cseg n1) (s.cseg n2) :=
    he.clean _ _ _ o1 o2 (w.cons _ _ L1 L2)
  have l1 := ((h.2.mem n1).mp h1).1
  have l2 := ((h.2.mem n2).mp h2).1
  have g1 := h.1.seg_lt n1 l1.1 l1.2.1
  have g2 := h.1.seg_lt n2 l2.1 l2.2.1
  unfold Clip.checkIsect at ht
  simp only at ht
  cases hr : env.isect s.clock (s.cseg n1) (s.cseg n2) with
  | none =>
    rw [hr] at ht
    simp only [Option.some.injEq, Prod.mk.injEq] at ht
    obtain ⟨rfl, rfl⟩ := ht
    exact Or.inl ⟨rfl, rfl, rfl, rfl, rfl, tinv, cl (by rw [hr]; nofun), he.tested mk _ _ _ o1 o2 (w.cons _ _ L1 L2) (by rw [hr]; nofun) (by rw [hr]; nofun)⟩
  | some r =>
    obtain ⟨hb, hc1, hc2⟩ := he.ok _ _ _ r o1.ne o2.ne hr
    rw [hr] at ht
    simp only at ht
    rw [if_neg (not_not.mpr hb)] at ht
    by_cases cno : r.e0 = .no ∨ r.e1 = .no
    · right
      rw [if_pos cno] at ht
      have nb : r.e0 ≠ .both ∧ r.e1 ≠ .both := by
        rcases cno with c | c
        · refine ⟨by rw [c]; simp, fun hh => ?_⟩
          rw [hb.mpr hh] at c; cases c
        · refine ⟨fun hh => ?_, by rw [c]; simp⟩
          rw [hb.mp hh] at c; cases c
      obtain ⟨m1, t1, s1, s2, s3, _, k1, k2⟩ := split_spec base.inv base.news (n := n1) h1 r.p r.e0 nb.1 hc1
      have hn2 : n2 ∈ t1.sweep := s3 n2 h2 (Ne.symm hne)
      have hcs : t1.cseg n2 = s.cseg n2 := by
        have hlt := ((h.2.mem n2).mp h2).1
        have sl := h.1.seg_lt n2 hlt.1 hlt.2.1
        unfold Clip.cseg
        rw [s2.ext.seg n2 hlt.2.1]
        show CSeg.mk (s.seg n2).1 (s.seg n2).2 (t1.lp (s.seg n2).1).data (t1.lp (s.seg n2).2).data = _
        rw [s2.ext.ref.data _ sl.1, s2.ext.ref.data _ sl.2.1]
      obtain ⟨m2, t2, s4, s5, s6, _, k3, k4⟩ := split_spec s2.inv s2.news (n := n2) hn2 r.p r.e1 nb.2 (by rw [hcs]; exact hc2)
      rw [s1] at ht
      simp only [Option.bind_some] at ht
      rw [s4] at ht
      simp only [Option.map_some, Option.some.injEq, Prod.mk.injEq] at ht
      obtain ⟨rfl, rfl⟩ := ht
      obtain ⟨c, hc⟩ : ∃ c, r.p = some c := by
        rcases cno with c | c
        · obtain ⟨c, e, _⟩ := hc1 c; exact ⟨c, e⟩
        · obtain ⟨c, e, _⟩ := hc2 c; exact ⟨c, e⟩
      refine ⟨rfl, r, c, rfl, hc, ?_⟩
      rw [(mark_abs _ _).1, (mark_abs _ _).1]
      have mx : Ext t2 f := ((mark_ext t2 m1).trans (mark_ext _ m2)).trans hx
      have first : r.e0 = .no → ∃ l r', AKill (abs s) (abs t1) (s.cseg n1) l r' c := by
        intro e
        obtain ⟨i, hi⟩ := k2 e c hc
        have bx := range_split base.inv.1 hN hi s2.ext (s5.ext.trans mx) hR
        exact split_abs base.inv s2 h1 hi bx.1 bx.2
      have second : r.e1 = .no → ∃ l r', AKill (abs t1) (abs t2) (s.cseg n2) l r' c := by
        intro e
        obtain ⟨i, hi⟩ := k4 e c hc
        have bx := range_split s2.inv.1 (Count.ext (Count.ext hN base.ext) s2.ext) hi s5.ext mx hR
        have := split_abs s2.inv s5 hn2 hi bx.1 bx.2
        rw [hcs] at this
        exact this
      by_cases c0 : r.e0 = .no
      · obtain ⟨l, r', f⟩ := first c0
        by_cases c1 : r.e1 = .no
        · obtain ⟨l', r'', g⟩ := second c1
          exact Or.inr (Or.inr ⟨_, l, r', l', r'', f, g⟩)
        · left
          rw [k3 c1]; exact ⟨l, r', f⟩
      · have c1 : r.e1 = .no := cno.resolve_left c0
        right; left
        refine ⟨c0, c1, ?_, ?_⟩
        · intro e
          rw [e] at s1
          simp only [Clip.split, Option.some.injEq, Prod.mk.injEq] at s1
          have ib : (s.seg n1).2 = m1 := s1.1
          show mk (s.seg n1).2
          rw [ib]
          refine hmk m1 ?_ ?_
          · show m1 < t2.np
            rw [← ib]
            exact lt_of_lt_of_le (h.1.seg_lt n1 l1.1 l1.2.1).2.1 (base.ext.ref.le.trans (s2.ext.ref.le.trans s5.ext.ref.le))
          · rw [mark_state, mark_state, if_pos rfl]; split <;> rfl
        obtain ⟨l', r'', g⟩ := second c1
        rw [k1 c0] at g
        exact ⟨l', r'', g⟩
    · left
      rw [if_neg cno] at ht
      push Not at cno
      have hcl := cl (by rw [hr]; rintro r' hr'; cases hr'; exact cno)
      have tst : ((r.e0 = .both → mk (s.cseg n1).a ∧ mk (s.cseg n1).b ∧ mk (s.cseg n2).a ∧ mk (s.cseg n2).b) ∧ (r.e0 = .start → mk (s.cseg n1).a) ∧
          (r.e0 = .end → mk (s.cseg n1).b) ∧ (r.e1 = .start → mk (s.cseg n2).a) ∧ (r.e1 = .end → mk (s.cseg n2).b)) → Te mk (s.cseg n1) (s.cseg n2) := fun hm =>
        he.tested mk _ _ _ o1 o2 (w.cons _ _ L1 L2) (by rw [hr]; rintro r' hr'; cases hr'; exact cno) (by rw [hr]; rintro r' hr'; cases hr'; exact hm)
      by_cases cb : r.e0 = .both
      · rw [if_pos cb] at ht
        simp only [Option.some.injEq, Prod.mk.injEq] at ht
        obtain ⟨rfl, rfl⟩ := ht
        refine ⟨rfl, ?_, ?_, rfl, rfl, tinv, hcl, tst ⟨fun _ => ?_, fun e => ?_, fun e => ?_, fun e => ?_, fun e => ?_⟩⟩
        rotate_left 3
        · rw [cb] at e; cases e
        · rw [cb] at e; cases e
        · rw [hb.mp cb] at e; cases e
        · rw [hb.mp cb] at e; cases e
        rotate_left 2
        · refine ⟨hmk _ g1.1 ?_, hmk _ g1.2.1 ?_, hmk _ g2.1 ?_, hmk _ g2.2.1 ?_⟩ <;> simp only [mark_state, Clip.cseg, ite_self, if_true] <;> (repeat' split) <;> first | rfl | simp_all
        · rw [(mark_abs _ _).1, (mark_abs _ _).1, (mark_abs _ _).1, (mark_abs _ _).1]; rfl
        · rw [(mark_abs _ _).2, (mark_abs _ _).2, (mark_abs _ _).2, (mark_abs _ _).2]; rfl
      · rw [if_neg cb] at ht
        simp only [Option.some.injEq, Prod.mk.injEq] at ht
        obtain ⟨rfl, rfl⟩ := ht
        have cb1 : r.e1 ≠ .both := fun e => cb (hb.mpr e)
        refine ⟨rfl, ?_, ?_, rfl, rfl, tinv, hcl, tst ⟨fun e => absurd e cb, fun e => hmk _ g1.1 ?_, fun e => hmk _ g1.2.1 ?_, fun e => hmk _ g2.1 ?_, fun e => hmk _ g2.2.1 ?_⟩⟩
        rotate_left 2
        · rw [mark_state, mark_state, e]; simp [Clip.endOf, Clip.cseg]
        · rw [mark_state, mark_state, e]; simp [Clip.endOf, Clip.cseg]
        · rw [mark_state, mark_state, e]; simp [Clip.endOf, Clip.cseg]
        · rw [mark_state, mark_state, e]; simp [Clip.endOf, Clip.cseg]
        · rw [(mark_abs _ _).1, (mark_abs _ _).1]; rfl
        · rw [(mark_abs _ _).2, (mark_abs _ _).2]; rfl

end PolyOps.Planarity
