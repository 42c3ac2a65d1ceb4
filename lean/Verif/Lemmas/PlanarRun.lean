import Verif.Lemmas.PlanarClip

/-! Every step of the intersection sweep keeps what is known of neighbours. -/
namespace PolyOps.Planarity
open PolyOps PolyOps.SweepCmp PolyOps.Events PolyOps.Sweep

variable {mk : Nat → Prop}

/-- A node that can be put into the sweep set: new, no header, and all lines differ. -/
structure Insertable (s : Clip) (n : Nat) : Prop where
  nd : (n :: s.sweep).Nodup
  nz : 0 ∉ n :: s.sweep
  inj : ∀ m ∈ s.sweep, s.seg m ≠ s.seg n

/-- The sweep set puts a line after all lines that come before it and before all that come after it, if these are at the two
ends of the set. -/
def PosOk (env : Env) : Prop := ∀ (s : Clip) n l1 mid l2, Insertable s n → s.sweep = l1 ++ mid ++ l2 →
  (∀ m ∈ l1, sweepCmp (s.cseg m) (s.cseg n) = true) → (∀ m ∈ l2, sweepCmp (s.cseg n) (s.cseg m) = true) →
  l1.length ≤ min (env.pos s n) s.sweep.length ∧ min (env.pos s n) s.sweep.length ≤ (l1 ++ mid).length

theorem insertable {s : Clip} (h : Inv s) {n : Nat} (hn : s.Live n) (hni : n ∉ s.sweep) : Insertable s n := by
  have hl : ∀ m ∈ s.sweep, s.Live m := fun m hm => ((h.2.mem m).mp hm).1
  refine ⟨List.nodup_cons.mpr ⟨hni, h.2.nodup⟩, ?_, ?_⟩
  · intro hz
    rcases List.mem_cons.mp hz with hz | hz
    · have := hn.1; omega
    · have := (hl 0 hz).1; omega
  · intro m hm e
    have := h.1.seg_inj m n (hl m hm).1 (hl m hm).2.1 hn.1 hn.2.1 e
    subst this; exact hni hm

theorem insertIdx_mid (l1 l2 : List Nat) (n : Nat) : (l1 ++ l2).insertIdx l1.length n = l1 ++ n :: l2 := by
  induction l1 with
  | nil => rfl
  | cons a l1 ih => simp [ih]

theorem put_of_pos {env : Env} (hp : PosOk env) (s : Clip) (n : Nat) (hn : Insertable s n) :
    Put (s.sweep.map s.cseg) (s.cseg n) ((s.sweep.insertIdx (min (env.pos s n) s.sweep.length) n).map s.cseg) := by
  intro l1' mid' l2' e c1 c2
  obtain ⟨x, l2, e1, e2, rfl⟩ := List.map_eq_append_iff.mp e
  obtain ⟨l1, mid, rfl, rfl, rfl⟩ := List.map_eq_append_iff.mp e2
  obtain ⟨h1, h2⟩ := hp s n l1 mid l2 hn e1 (fun m hm => c1 _ (List.mem_map_of_mem hm)) (fun m hm => c2 _ (List.mem_map_of_mem hm))
  generalize min (env.pos s n) s.sweep.length = k at h1 h2
  rw [List.length_append] at h2
  refine ⟨(mid.take (k - l1.length)).map s.cseg, (mid.drop (k - l1.length)).map s.cseg, ?_, ?_⟩
  · rw [← List.map_append, List.take_append_drop]
  · have hk : k ≤ s.sweep.length := by rw [e1]; simp only [List.length_append]; omega
    have this : s.sweep.insertIdx k n = l1 ++ mid.take (k - l1.length) ++ n :: mid.drop (k - l1.length) ++ l2 := by
      have e3 : s.sweep = (l1 ++ mid.take (k - l1.length)) ++ (mid.drop (k - l1.length) ++ l2) := by
        rw [e1, List.append_assoc l1 (mid.take _), ← List.append_assoc (mid.take _), List.take_append_drop, List.append_assoc]
      have e4 : k = (l1 ++ mid.take (k - l1.length)).length := by
        rw [List.length_append, List.length_take]; omega
      have e5 := insertIdx_mid (l1 ++ mid.take (k - l1.length)) (mid.drop (k - l1.length) ++ l2) n
      rw [← e4, ← e3] at e5
      rw [e5]; simp
    rw [this]
    simp

theorem idxOf_mid {l1 l2 : List Nat} {n : Nat} (h : n ∉ l1) : (l1 ++ n :: l2).idxOf n = l1.length := by
  rw [List.idxOf_append_of_notMem h, List.idxOf_cons_self]; rfl

theorem prevOf_mid {l1 l2 : List Nat} {n : Nat} (h : n ∉ l1) : prevOf (l1 ++ n :: l2) n = l1.getLast? := by
  unfold prevOf
  rw [idxOf_mid h]
  cases hl : l1.length with
  | zero => rw [List.length_eq_zero_iff] at hl; subst hl; rfl
  | succ k =>
    simp only
    rw [List.getElem?_append_left (by omega), List.getLast?_eq_getElem?, hl]; rfl

theorem nextOf_mid {l1 l2 : List Nat} {n : Nat} (h : n ∉ l1) : nextOf (l1 ++ n :: l2) n = l2.head? := by
  unfold nextOf
  rw [idxOf_mid h, List.getElem?_append_right (by omega)]
  have : l1.length + 1 - l1.length = 1 := by omega
  rw [this]
  cases l2 <;> rfl

theorem live_perm {s : Clip} {q : Queue} (hp : q.events.Perm s.q.events) (sw : List Nat) (k : Nat) (n : Nat) :
    ({ s with q := q, sweep := sw, clock := k } : Clip).Live n ↔ s.Live n := by
  unfold Clip.Live Dead
  simp only [hp.mem_iff]

theorem cseg_eq (s : Clip) (q : Queue) (sw : List Nat) (k : Nat) : ({ s with q := q, sweep := sw, clock := k } : Clip).cseg = s.cseg := rfl

section
variable {s : Clip} {q : Queue} {e : Ev}

theorem app_mem (h : Inv0 s) {f : Ev} (hf : f ∈ applied s.q) : f ∈ s.q.events :=
  List.mem_of_mem_take ((applied_sorted h.wf).2.subset hf)

/-- All events of live lines before the event are applied. -/
theorem _root_.PolyOps.Sweep.Fwd.safe (hF : Fwd s q e) (h : Inv s) : (abs s).safe (evK s e.nt) := by
  have he : e ∈ s.q.events := hF.perm.mem_iff.mp hF.mem
  have key : ∀ n b, s.Live n → evK s (n, b) < evK s e.nt → (n, b) ∈ nt (applied s.q) := by
    intro n b hn hlt
    obtain ⟨f, hf, hfn⟩ := mem_nt.mp (h.1.ev_ex n b hn.1 hn.2.1)
    refine mem_nt.mpr ⟨f, hF.before f (hF.perm.mem_iff.mpr hf) ?_, hfn⟩
    rw [evless_iff h.1 hf he, hfn]; exact hlt
  rintro _ ⟨n, hn, rfl⟩
  exact ⟨fun hlt => ⟨n, hn, rfl, key n true hn hlt⟩, fun hlt => ⟨n, hn, rfl, key n false hn hlt⟩⟩

theorem _root_.PolyOps.Sweep.Fwd.max (hF : Fwd s q e) (h : Inv s) : ∀ k, (abs s).App k → k < evK s e.nt := by
  have he : e ∈ s.q.events := hF.perm.mem_iff.mp hF.mem
  have key : ∀ n b, (n, b) ∈ nt (applied s.q) → evK s (n, b) < evK s e.nt := by
    intro n b hn
    obtain ⟨f, hf, hfn⟩ := mem_nt.mp hn
    rw [← hfn, ← evless_iff h.1 (app_mem h.1 hf) he]
    exact hF.after f hf
  rintro k (⟨_, ⟨n, hn, rfl, ha⟩, rfl⟩ | ⟨_, ⟨n, hn, rfl, ha⟩, rfl⟩)
  · exact key n true ha
  · exact key n false ha

theorem _root_.PolyOps.Sweep.Bwd.max (hB : Bwd s q e) (h : Inv s) : ∀ k, (abs s).App k → k ≤ evK s e.nt := by
  have he : e ∈ s.q.events := hB.perm.mem_iff.mp hB.mem
  have key : ∀ n b, (n, b) ∈ nt (applied s.q) → evK s (n, b) ≤ evK s e.nt := by
    intro n b hn
    obtain ⟨f, hf, hfn⟩ := mem_nt.mp hn
    rw [← hfn]
    have hfe := app_mem h.1 hf
    rw [hB.app] at hf
    rcases List.mem_append.mp hf with hf | hf
    · exact ((evless_iff h.1 hfe he).mp (hB.before f hf)).le
    · rw [List.mem_singleton.mp hf]
  rintro k (⟨_, ⟨n, hn, rfl, ha⟩, rfl⟩ | ⟨_, ⟨n, hn, rfl, ha⟩, rfl⟩)
  · exact key n true ha
  · exact key n false ha

theorem _root_.PolyOps.Sweep.Fwd.ntq (hF : Fwd s q e) (a : Nat × Bool) : a ∈ nt (applied q) ↔ a ∈ nt (applied s.q) ∨ a = e.nt := by
  rw [hF.app, nt_append, List.mem_append]
  simp [nt]

theorem _root_.PolyOps.Sweep.Bwd.ntq (hB : Bwd s q e) (h : Inv s) (a : Nat × Bool) : a ∈ nt (applied q) ↔ a ∈ nt (applied s.q) ∧ a ≠ e.nt := by
  have nd : (nt (applied s.q)).Nodup :=
    h.1.nt_nodup.sublist (((applied_sorted h.1.wf).2.trans (List.take_prefix _ _)).sublist.map Ev.nt)
  have ha : nt (applied s.q) = nt (applied q) ++ [e.nt] := by rw [hB.app, nt_append]; rfl
  rw [ha] at nd ⊢
  rw [List.mem_append, List.mem_singleton]
  constructor
  · intro hc
    exact ⟨Or.inl hc, fun e' => (List.nodup_append.mp nd).2.2 a hc e.nt (by simp) e'⟩
  · rintro ⟨hc | hc, hne⟩
    · exact hc
    · exact absurd hc hne

end

/-! ### The tests after a start -/

theorem fs_check {env : Env} (he : EnvSound env) {N : Nat} {s : Clip} (h : Inv s) (hN : Count N s) (hn : s.q.news = []) {n m : Nat} (hp : Pre mk (abs s) (s.cseg n))
    (h1 : n ∈ s.sweep) (h2 : m ∈ s.sweep) (hne : n ≠ m) (hadj : ∃ l1 l2, s.sweep = l1 ++ m :: n :: l2 ∨ s.sweep = l1 ++ n :: m :: l2)
    {b : Bool} {t : Clip} (ht : s.checkIsect env n m = some (b, t)) {f : Clip} (hx : Ext t f) (hR : RangeOk N f)
    (hmk : ∀ i < t.np, (t.lp i).state = .check → mk i) :
    (b = true ∧ J mk (abs t)) ∨ (b = false ∧ abs t = abs s ∧ t.cseg = s.cseg ∧ t.sweep = s.sweep ∧ t.q = s.q ∧ Inv t ∧ Ct mk (s.cseg n) (s.cseg m)) := by
  rcases checkIsect_abs he h hN hn h1 h2 hne ht hx hR hmk with hc | ⟨hb, r, c, hr, hrc, hk⟩
  · exact Or.inr hc
  · left
    refine ⟨hb, ?_⟩
    have w := hp.w
    have L1 : (abs s).L (s.cseg n) := ⟨n, sweep_live h h1, rfl⟩
    have L2 : (abs s).L (s.cseg m) := ⟨m, sweep_live h h2, rfl⟩
    rcases hk with ⟨l, r', hk⟩ | ⟨e0, e1, he0, l, r', hk⟩ | ⟨B, l, r', l', r'', hk, hk'⟩
    · exact hp.killN hk
    · refine hp.killP hk (fun e => hne (cseg_inj h.1 (sweep_live h h2) (sweep_live h h1) e).symm) ?_ ?_
      · obtain ⟨l1, l2, e | e⟩ := hadj
        · exact ⟨l1.map s.cseg, l2.map s.cseg, Or.inl (by show s.sweep.map s.cseg = _; rw [e]; simp)⟩
        · exact ⟨l1.map s.cseg, l2.map s.cseg, Or.inr (by show s.sweep.map s.cseg = _; rw [e]; simp)⟩
      · intro ha n1 n2
        obtain ⟨a1, a2, a3, a4⟩ := he.over _ _ _ r c (w.ok _ L1) (w.ok _ L2) (w.cons _ _ L1 L2) ha n1 n2 hr hrc e0 e1
        exact ⟨a1, a2, a3, he0 a4⟩
    · exact hp.killNP hk hk'

theorem checkOpt_ext {env : Env} (he : EnvOk env) {s : Clip} (h : Inv s) (hn : s.q.news = []) {n : Nat} (h1 : n ∈ s.sweep) {o : Option Nat}
    (ho : ∀ m, o = some m → m ∈ s.sweep ∧ m ≠ n) {b : Bool} {t : Clip} (ht : s.checkOpt env n o = some (b, t)) :
    Ext s t ∧ (b = false → Inv t ∧ t.q.news = [] ∧ t.sweep = s.sweep) := by
  cases o with
  | none =>
    simp only [Clip.checkOpt, Option.some.injEq, Prod.mk.injEq] at ht
    obtain ⟨rfl, rfl⟩ := ht
    exact ⟨Ext.refl _, fun _ => ⟨h, hn, rfl⟩⟩
  | some m =>
    obtain ⟨m1, m2⟩ := ho m rfl
    obtain ⟨b', t', e, hm, hs, _⟩ := checkIsect_spec he h hn h1 m1 m2.symm
    change s.checkIsect env n m = _ at ht
    rw [e, Option.some.injEq, Prod.mk.injEq] at ht
    obtain ⟨rfl, rfl⟩ := ht
    exact ⟨hm.ext, fun hb => ⟨hm.inv, hm.news, hs hb⟩⟩

theorem step_abs {env : Env} (he : EnvSound env) (hp : PosOk env) {N : Nat} {s t : Clip} (h : Inv s) (hN : Count N s) (hj : J mk (abs s)) (hc : StepCase env s t)
    {f : Clip} (hx : Ext t f) (hR : RangeOk N f) (hmk : ∀ i < t.np, (t.lp i).state = .check → mk i) : J mk (abs t) := by
  cases hc with
  | same q ht hl ha =>
    have : abs t = abs s := by
      subst ht
      unfold abs
      have e : ∀ b, (fun c => ∃ n, ({ s with q := q } : Clip).Live n ∧ ({ s with q := q } : Clip).cseg n = c ∧ (n, b) ∈ nt (applied q)) =
          (fun c => ∃ n, s.Live n ∧ s.cseg n = c ∧ (n, b) ∈ nt (applied s.q)) := by
        intro b
        funext c
        refine propext (exists_congr fun n => ?_)
        rw [hl]
        exact and_congr_right fun hn => and_congr_right fun _ => ha n b hn
      have e0 : (fun c => ∃ n, ({ s with q := q } : Clip).Live n ∧ ({ s with q := q } : Clip).cseg n = c) =
          (fun c => ∃ n, s.Live n ∧ s.cseg n = c) := by
        funext c
        refine propext (exists_congr fun n => ?_)
        rw [hl]; exact Iff.rfl
      rw [AS.mk.injEq]
      exact ⟨e0, e true, e false, rfl⟩
    rw [this]; exact hj
  | fs q e t0 u b hF hty hni ht0 hinv hcheck hres =>
    have hnt : e.nt = (e.node, true) := by unfold Ev.nt; rw [hty]
    have hkey : evK s e.nt = sk (s.cseg e.node) := by rw [hnt]; rfl
    have hpre0 := hj.start (n := s.cseg e.node) ⟨_, hF.live, rfl⟩ (hkey ▸ hF.safe h) (hkey ▸ hF.max h)
      (put_of_pos hp { s with q := q } e.node (let k := insertable h hF.live hni; ⟨k.nd, k.nz, k.inj⟩))
    have hcs : t0.cseg = s.cseg := by rw [ht0]; rfl
    have habs : abs t0 = ⟨(abs s).L, fun c => (abs s).SA c ∨ c = s.cseg e.node, (abs s).EA,
        (s.sweep.insertIdx (min (env.pos { s with q := q } e.node) s.sweep.length) e.node).map s.cseg⟩ := by
      unfold abs
      rw [AS.mk.injEq]
      have hl : ∀ n, t0.Live n ↔ s.Live n := by intro n; rw [ht0]; exact live_perm hF.perm _ _ n
      have hq : t0.q = q := by rw [ht0]
      refine ⟨?_, ?_, ?_, ?_⟩
      · funext c
        refine propext (exists_congr fun n => ?_)
        rw [hl, hcs]
      · funext c
        refine propext ?_
        rw [hcs, hq]
        constructor
        · rintro ⟨n, hn, rfl, ha⟩
          rcases (hF.ntq _).mp ha with ha | ha
          · exact Or.inl ⟨n, (hl n).mp hn, rfl, ha⟩
          · rw [hnt] at ha; rw [show n = e.node from congrArg Prod.fst ha]; exact Or.inr rfl
        · rintro (⟨n, hn, rfl, ha⟩ | rfl)
          · exact ⟨n, (hl n).mpr hn, rfl, (hF.ntq _).mpr (Or.inl ha)⟩
          · exact ⟨e.node, (hl _).mpr hF.live, rfl, (hF.ntq _).mpr (Or.inr hnt.symm)⟩
      · funext c
        refine propext (exists_congr fun n => ?_)
        rw [hl, hcs, hq, hF.ntq, hnt]; simp
      · rw [hcs, ht0]
    have hpre : Pre mk (abs t0) (t0.cseg e.node) := by rw [habs, hcs]; exact hpre0
    have hnews : t0.q.news = [] := by rw [ht0]; exact hF.news
    have hN0 : Count N t0 := by rw [ht0]; exact hN
    have hin : e.node ∈ t0.sweep := by
      obtain ⟨m, hm, hme⟩ := List.mem_map.mp hpre.inn
      rwa [cseg_inj hinv.1 (sweep_live hinv hm) (by rw [ht0]; exact (live_perm hF.perm _ _ _).mpr hF.live) hme] at hm
    obtain ⟨l1, l2, hsw⟩ := List.append_of_mem hin
    have hnd := hinv.2.nodup
    rw [hsw] at hnd
    have hn1 : e.node ∉ l1 := fun hc => (List.nodup_append.mp hnd).2.2 _ hc _ (by simp) rfl
    have hn2 : e.node ∉ l2 := (List.nodup_cons.mp (List.nodup_append.mp hnd).2.1).1
    have hxu : Ext t0 u ∧ (b = false → Inv u ∧ u.q.news = [] ∧ u.sweep = t0.sweep) := checkOpt_ext he.ok hinv hnews hin (fun m hm => prevOf_spec hinv.2.nodup hin hm) hcheck
    have hxf : Ext u f := by
      rcases hres with ⟨_, rfl⟩ | ⟨hb, c, hc2⟩
      · exact hx
      · subst hb
        obtain ⟨u1, u2, u3⟩ := hxu.2 rfl
        exact (checkOpt_ext he.ok u1 u2 (by rw [u3]; exact hin) (fun m hm => nextOf_spec u1.2.nodup hm) hc2).1.trans hx
    have hmku : ∀ i < u.np, (u.lp i).state = .check → mk i := by
      rcases hres with ⟨_, rfl⟩ | ⟨_, c, hc2⟩
      · exact hmk
      · have := checkOpt_st hc2
        exact fun i hi e => hmk i (lt_of_lt_of_le hi this.le) (this.keep i hi e)
    rw [hsw, prevOf_mid hn1] at hcheck
    -- the test against the line before
    have first : (b = true ∧ J mk (abs u)) ∨ (b = false ∧ abs u = abs t0 ∧ u.cseg = t0.cseg ∧ u.sweep = t0.sweep ∧ u.q = t0.q ∧ Inv u ∧
        ∀ p ∈ (l1.map t0.cseg).getLast?, Ct mk (t0.cseg e.node) p) := by
      cases hl : l1.getLast? with
      | none =>
        rw [hl] at hcheck
        simp only [Clip.checkOpt, Option.some.injEq, Prod.mk.injEq] at hcheck
        obtain ⟨rfl, rfl⟩ := hcheck
        refine Or.inr ⟨rfl, rfl, rfl, rfl, rfl, hinv, ?_⟩
        rw [List.getLast?_map, hl]; simp
      | some p =>
        rw [hl] at hcheck
        have hp1 : p ∈ l1 := List.mem_of_getLast? hl
        have adj : ∃ l1 l2, t0.sweep = l1 ++ p :: e.node :: l2 ∨ t0.sweep = l1 ++ e.node :: p :: l2 := by
          refine ⟨l1.dropLast, l2, Or.inl ?_⟩
          rw [hsw]
          conv_lhs => rw [← List.dropLast_append_getLast? p hl]
          simp
        rcases fs_check he hinv hN0 hnews hpre hin (by rw [hsw]; simp [hp1]) (fun e' => hn1 (e' ▸ hp1)) adj hcheck hxf hR hmku with hr | ⟨r1, r2, r3, r4, r5, r6, r7⟩
        · exact Or.inl hr
        · refine Or.inr ⟨r1, r2, r3, r4, r5, r6, ?_⟩
          rw [List.getLast?_map, hl]; simpa using r7
    rcases first with ⟨hb, hJ⟩ | ⟨hb, a1, a2, a3, a4, a5, a6⟩
    · rcases hres with ⟨_, rfl⟩ | ⟨hb', _⟩
      · exact hJ
      · rw [hb] at hb'; cases hb'
    · rcases hres with ⟨hb', _⟩ | ⟨_, c, hcheck2⟩
      · rw [hb] at hb'; cases hb'
      rw [a3, hsw, nextOf_mid hn1] at hcheck2
      have hpre' : Pre mk (abs u) (u.cseg e.node) := by rw [a1, a2]; exact hpre
      have hsw' : (abs u).sw = l1.map u.cseg ++ u.cseg e.node :: l2.map u.cseg := by
        show u.sweep.map u.cseg = _
        rw [a3, hsw]; simp
      have done : (∀ m ∈ (l2.map u.cseg).head?, Ct mk (u.cseg e.node) m) → J mk (abs u) := fun h2 => hpre'.none hsw' (by rw [a2]; exact a6) h2
      cases hl : l2.head? with
      | none =>
        rw [hl] at hcheck2
        simp only [Clip.checkOpt, Option.some.injEq, Prod.mk.injEq] at hcheck2
        obtain ⟨_, rfl⟩ := hcheck2
        refine done ?_
        rw [List.head?_map, hl]; simp
      | some m =>
        rw [hl] at hcheck2
        have hm2 : m ∈ l2 := List.mem_of_head? hl
        have adj : ∃ l1 l2, u.sweep = l1 ++ m :: e.node :: l2 ∨ u.sweep = l1 ++ e.node :: m :: l2 := by
          cases l2 with
          | nil => simp at hl
          | cons m' l2 =>
            simp only [List.head?_cons, Option.some.injEq] at hl
            subst hl
            exact ⟨l1, l2, Or.inr (by rw [a3, hsw])⟩
        rcases fs_check he a5 (Count.ext hN0 hxu.1) (by rw [a4]; exact hnews) hpre' (by rw [a3]; exact hin) (by rw [a3, hsw]; simp [hm2]) (fun e' => hn2 (e' ▸ hm2)) adj hcheck2 hx hR hmk
          with ⟨_, hr⟩ | ⟨_, r2, _, _, _, _, r7⟩
        · exact hr
        · rw [r2]
          refine done ?_
          rw [List.head?_map, hl]; simpa using r7
  | fe q e t0 hF hty hin ht0 hinv hres =>
    have hnt : e.nt = (e.node, false) := by unfold Ev.nt; rw [hty]
    have hkey : evK s e.nt = ek (s.cseg e.node) := by rw [hnt]; rfl
    obtain ⟨l1, l2, hsw⟩ := List.append_of_mem hin
    have hnd := h.2.nodup
    rw [hsw] at hnd
    have hn1 : e.node ∉ l1 := fun hc => (List.nodup_append.mp hnd).2.2 _ hc _ (by simp) rfl
    have hpost0 := hj.end (n := s.cseg e.node) (l1 := l1.map s.cseg) (l2 := l2.map s.cseg)
      (by show s.sweep.map s.cseg = _; rw [hsw]; simp) (hkey ▸ hF.safe h) (hkey ▸ hF.max h)
    have hcs : t0.cseg = s.cseg := by rw [ht0]; rfl
    have hsw0 : t0.sweep = l1 ++ l2 := by
      rw [ht0]; show s.sweep.erase e.node = _
      rw [hsw, List.erase_append_right _ hn1, List.erase_cons_head]
    have habs : abs t0 = ⟨(abs s).L, (abs s).SA, fun c => (abs s).EA c ∨ c = s.cseg e.node, l1.map s.cseg ++ l2.map s.cseg⟩ := by
      unfold abs
      rw [AS.mk.injEq]
      have hl : ∀ n, t0.Live n ↔ s.Live n := by intro n; rw [ht0]; exact live_perm hF.perm _ _ n
      have hq : t0.q = q := by rw [ht0]
      refine ⟨?_, ?_, ?_, ?_⟩
      · funext c
        refine propext (exists_congr fun n => ?_)
        rw [hl, hcs]
      · funext c
        refine propext (exists_congr fun n => ?_)
        rw [hl, hcs, hq, hF.ntq, hnt]; simp
      · funext c
        refine propext ?_
        rw [hcs, hq]
        constructor
        · rintro ⟨n, hn, rfl, ha⟩
          rcases (hF.ntq _).mp ha with ha | ha
          · exact Or.inl ⟨n, (hl n).mp hn, rfl, ha⟩
          · rw [hnt] at ha; rw [show n = e.node from congrArg Prod.fst ha]; exact Or.inr rfl
        · rintro (⟨n, hn, rfl, ha⟩ | rfl)
          · exact ⟨n, (hl n).mpr hn, rfl, (hF.ntq _).mpr (Or.inl ha)⟩
          · exact ⟨e.node, (hl _).mpr hF.live, rfl, (hF.ntq _).mpr (Or.inr hnt.symm)⟩
      · rw [hcs, hsw0, List.map_append]
    have hpost : Post mk (abs t0) (s.cseg e.node) (l1.map s.cseg) (l2.map s.cseg) := by rw [habs]; exact hpost0
    have hnews : t0.q.news = [] := by rw [ht0]; exact hF.news
    have hN0 : Count N t0 := by rw [ht0]; exact hN
    rw [hsw, prevOf_mid hn1, nextOf_mid hn1] at hres
    rcases hres with ⟨rfl, hr⟩ | ⟨p, m, b, hp1, hm1, hcheck⟩
    · refine hpost.none ?_
      rw [List.getLast?_map, List.head?_map]
      rcases hr with hr | hr <;> rw [hr] <;> simp
    · have hp2 : p ∈ l1 := List.mem_of_getLast? hp1
      have hm2 : m ∈ l2 := List.mem_of_head? hm1
      have hne : p ≠ m := by
        rintro rfl
        exact (List.nodup_append.mp hnd).2.2 p hp2 p (List.mem_cons_of_mem _ hm2) rfl
      rcases checkIsect_abs he hinv hN0 hnews (by rw [hsw0]; simp [hp2]) (by rw [hsw0]; simp [hm2]) hne hcheck hx hR hmk with
        ⟨_, r2, _, _, _, _, r7⟩ | ⟨_, r, c, _, _, hk⟩
      · rw [r2]
        refine hpost.none ?_
        rw [List.getLast?_map, List.head?_map, hp1, hm1]
        rw [hcs] at r7
        simpa using r7
      · rcases hk with ⟨l, r', hk⟩ | ⟨_, _, _, l, r', hk⟩ | ⟨B, l, r', l', r'', hk, hk'⟩
        · exact hpost.kill hk
        · exact hpost.kill hk
        · exact hpost.kill2 hk hk'
  | bs q e hB hty hin ht =>
    have hnt : e.nt = (e.node, true) := by unfold Ev.nt; rw [hty]
    have hkey : evK s e.nt = sk (s.cseg e.node) := by rw [hnt]; rfl
    have := hj.undoStart (n := s.cseg e.node) (List.mem_map_of_mem hin) (hkey ▸ hB.max h)
    have habs : abs t = ⟨(abs s).L, fun c => (abs s).SA c ∧ c ≠ s.cseg e.node, (abs s).EA, (abs s).sw.erase (s.cseg e.node)⟩ := by
      subst ht
      unfold abs
      rw [AS.mk.injEq]
      have hl : ∀ n, ({ s with q := q, sweep := s.sweep.erase e.node } : Clip).Live n ↔ s.Live n := fun n => live_perm hB.perm _ _ n
      refine ⟨?_, ?_, ?_, ?_⟩
      · funext c
        refine propext (exists_congr fun n => ?_)
        rw [hl]; exact Iff.rfl
      · funext c
        refine propext ?_
        constructor
        · rintro ⟨n, hn, rfl, ha⟩
          obtain ⟨b1, b2⟩ := (hB.ntq h _).mp ha
          refine ⟨⟨n, (hl n).mp hn, rfl, b1⟩, fun e' => b2 ?_⟩
          rw [hnt, cseg_inj h.1 ((hl n).mp hn) hB.live e']
        · rintro ⟨⟨n, hn, rfl, ha⟩, hne⟩
          refine ⟨n, (hl n).mpr hn, rfl, (hB.ntq h _).mpr ⟨ha, fun e' => hne ?_⟩⟩
          rw [hnt] at e'; rw [show n = e.node from congrArg Prod.fst e']
      · funext c
        refine propext (exists_congr fun n => ?_)
        rw [hl]
        refine and_congr_right fun hn => and_congr_right fun _ => ?_
        show (n, false) ∈ nt (applied q) ↔ _
        rw [hB.ntq h, hnt]; simp
      · exact erase_map h hB.live
    rw [habs]; exact this
  | be q e hB hty hni ht =>
    have hnt : e.nt = (e.node, false) := by unfold Ev.nt; rw [hty]
    have hkey : evK s e.nt = ek (s.cseg e.node) := by rw [hnt]; rfl
    have hea : (e.node, false) ∈ nt (applied s.q) := by rw [hB.app, nt_append, ← hnt]; simp [nt]
    have := hj.undoEnd (n := s.cseg e.node) ⟨_, hB.live, rfl, hea⟩ (hkey ▸ hB.max h) (put_of_pos hp { s with q := q } e.node (let k := insertable h hB.live hni; ⟨k.nd, k.nz, k.inj⟩))
    have habs : abs t = ⟨(abs s).L, (abs s).SA, fun c => (abs s).EA c ∧ c ≠ s.cseg e.node,
        (s.sweep.insertIdx (min (env.pos { s with q := q } e.node) s.sweep.length) e.node).map s.cseg⟩ := by
      subst ht
      unfold abs
      rw [AS.mk.injEq]
      have hl : ∀ n, ({ s with q := q, sweep := s.sweep.insertIdx (min (env.pos { s with q := q } e.node) s.sweep.length) e.node, clock := s.clock + 1 } : Clip).Live n ↔ s.Live n :=
        fun n => live_perm hB.perm _ _ n
      refine ⟨?_, ?_, ?_, ?_⟩
      · funext c
        refine propext (exists_congr fun n => ?_)
        rw [hl]; exact Iff.rfl
      · funext c
        refine propext (exists_congr fun n => ?_)
        rw [hl]
        refine and_congr_right fun hn => and_congr_right fun _ => ?_
        show (n, true) ∈ nt (applied q) ↔ _
        rw [hB.ntq h, hnt]; simp
      · funext c
        refine propext ?_
        constructor
        · rintro ⟨n, hn, rfl, ha⟩
          obtain ⟨b1, b2⟩ := (hB.ntq h _).mp ha
          refine ⟨⟨n, (hl n).mp hn, rfl, b1⟩, fun e' => b2 ?_⟩
          rw [hnt, cseg_inj h.1 ((hl n).mp hn) hB.live e']
        · rintro ⟨⟨n, hn, rfl, ha⟩, hne⟩
          refine ⟨n, (hl n).mpr hn, rfl, (hB.ntq h _).mpr ⟨ha, fun e' => hne ?_⟩⟩
          rw [hnt] at e'; rw [show n = e.node from congrArg Prod.fst e']
      · rfl
    rw [habs]; exact this

/-- Before the sweep. -/
theorem start_abs {s : Clip} (h : Inv s) (ha : applied s.q = []) : J mk (abs s) := by
  have nSA : ∀ c, ¬ (abs s).SA c := by
    rintro c ⟨n, _, _, hn⟩; rw [ha] at hn; simp [nt] at hn
  have nEA : ∀ c, ¬ (abs s).EA c := by
    rintro c ⟨n, _, _, hn⟩; rw [ha] at hn; simp [nt] at hn
  have hsw : s.sweep = [] := by
    rw [List.eq_nil_iff_forall_not_mem]
    intro n hn
    have := ((h.2.mem n).mp hn).2.1
    rw [ha] at this; simp [nt] at this
  have hsw' : (abs s).sw = [] := by show s.sweep.map _ = _; rw [hsw]; rfl
  refine ⟨⟨world_of_inv h.1, fun c hc => absurd hc (nSA c), fun c hc => absurd hc (nEA c), ?_, ?_, ?_⟩, ?_, Or.inl ?_⟩
  · rw [hsw']; exact List.nodup_nil
  · intro c; rw [hsw']
    constructor
    · intro hc; cases hc
    · rintro ⟨hc, _⟩; exact absurd hc (nSA c)
  · rintro k (⟨c, hc, _⟩ | ⟨c, hc, _⟩)
    · exact absurd hc (nSA c)
    · exact absurd hc (nEA c)
  · intro κ hκ
    refine ⟨[], ⟨fun c => ?_, List.Pairwise.nil⟩, .nil⟩
    constructor
    · intro hc; cases hc
    · rintro ⟨h1, h2, _⟩
      exact absurd ((hκ c h1).1 h2) (nSA c)
  · rw [hsw']; exact List.Pairwise.nil

/-- What is known of neighbours in every state of a sweep that goes on to `f`. -/
theorem reach_abs {env : Env} (he : EnvSound env) (hp : PosOk env) {lp : Nat → LP} {np : Nat} (hl : Loops lp np) {s : Clip}
    (hr : Clip.Reach env lp np s) {f : Clip} (hx : Ext s f) (hR : RangeOk np f) (hst : StOk s f) :
    J (fun i => (f.lp i).state = .check) (abs s) := by
  induction hr with
  | init h =>
    obtain ⟨t, h1, h2, h3⟩ := start_inv hl
    have h1' := h1
    rw [h1, Option.some.injEq] at h
    subst h
    refine start_abs h2 ?_
    obtain ⟨s, e1, e2, e3, e4, e5, e6, e7, e8, _⟩ := addLines_spec hl np le_rfl
    rw [e1, Option.some.injEq] at h1'
    rw [← h1']; exact e8
  | step hr hm hs ih =>
    obtain ⟨hi, _, hsp⟩ := reach_spec he.ok hl hr
    obtain ⟨t, t1, t2, t3, _, t5⟩ := step_spec he.ok hi hm
    rw [t1, Option.some.injEq] at hs
    subst hs
    exact step_abs he hp hi hsp.length (ih (t3.trans hx) ((step_st t1).trans hst)) t5 hx hR hst.keep

end PolyOps.Planarity
