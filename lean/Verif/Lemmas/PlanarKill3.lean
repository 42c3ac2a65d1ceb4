import Verif.Lemmas.PlanarKill

/-! Cuts after the start of a second line from the same point. -/
namespace PolyOps.Planarity
open PolyOps PolyOps.SweepCmp

variable {mk : Nat → Prop}

/-- Two lines from one start in sweep order. -/
theorem slope_order {s t : CSeg} (ns : Nv s) (nt : Nv t) (hp : s.pa = t.pa) (hc : sweepCmp s t = true) : slope t ≤ slope s := by
  have h := cmp_pos (x := (s.pa.x : Rat)) (meets_of ns.sok le_rfl (fun _ => rfl)) (meets_of nt.sok (by rw [hp]) (fun e => absurd e nt.ne))
    (apart_of (le_max_left _ _) (fun _ _ _ _ => hp) ns.sok nt.sok) hc
  have e1 : hAt t s.pa.x = hAt s s.pa.x := by rw [hAt_start, hp, hAt_start]
  rcases h with h | ⟨_, h | ⟨_, h | ⟨h, _⟩⟩⟩
  · rw [e1] at h; exact absurd h (lt_irrefl _)
  · rw [vdir_nv ns, vdir_nv nt] at h; exact absurd h (lt_irrefl _)
  · exact h.le
  · exact h.le

/-- Lines from one start on different lines meet only there. -/
theorem fan {s t : CSeg} (ns : Nv s) (nt : Nv t) (hp : s.pa = t.pa) (hs : slope s ≠ slope t) (x : Rat) : Sep x s t := by
  intro X Y _ h1 h2
  obtain ⟨a1, a2, a3⟩ := (on_nv ns _ _).mp h1
  obtain ⟨b1, b2, b3⟩ := (on_nv nt _ _).mp h2
  have hx : X = s.pa.x := by
    by_contra hne
    have e := hAt_diff s t s.pa.x X
    have e1 : hAt s s.pa.x = hAt t s.pa.x := by rw [hAt_start, hp, hAt_start]
    have : (slope s - slope t) * (X - s.pa.x) = 0 := by rw [← a3, ← b3, e1] at e; linarith
    rcases mul_eq_zero.mp this with h | h
    · exact hs (by linarith)
    · exact hne (by linarith)
  have hy : Y = s.pa.y := by rw [a3, hx, hAt_start]
  rw [hx, hy]
  exact ⟨endq_a s, by rw [hp]; exact endq_a t⟩

/-- A line above `n` is also above a line that starts with `n` and runs below it. -/
theorem sep_above {u n M : CSeg} {z : Rat} (hu : SOk u) (nn : Nv n) (nM : Nv M) (hp : n.pa = M.pa) (hs : slope M < slope n)
    (hux : u.pa.x ≤ n.pa.x) (hub : Nv u → n.pa.x < u.pb.x) (hc : sweepCmp u n = true) (hz : z ≤ n.pb.x) (h : Sep z u n) : Sep z u M := by
  intro X Y hX h1 h2
  obtain ⟨b1, b2, b3⟩ := (on_nv nM _ _).mp h2
  rw [← hp] at b1
  rcases eq_or_lt_of_le b1 with e | b1
  · have hy : Y = n.pa.y := by rw [b3, ← e, hp, hAt_start]
    rw [← e, hy] at h1 ⊢
    have := h n.pa.x n.pa.y (by rw [e]; exact hX) h1 (on_a n)
    exact ⟨this.1, by rw [hp]; exact endq_a M⟩
  · exfalso
    obtain ⟨u1, u2⟩ := on_x hu h1
    have nu : Nv u := by
      refine hu.nv (fun e => ?_)
      have e' : (u.pa.x : Rat) = u.pb.x := by exact_mod_cast e
      have : (u.pa.x : Rat) ≤ n.pa.x := by exact_mod_cast hux
      linarith
    have hux' : (u.pa.x : Rat) ≤ n.pa.x := by exact_mod_cast hux
    have nn' := nn
    unfold Nv at nn'
    have hh := height_nv nu nn (h.mono hX).alc u1 b1.le u2 (hX.trans hz) (by omega) (hub nu) hc
    have y1 := on_nv_y nu h1
    have e := hAt_diff n M n.pa.x X
    have e1 : hAt n n.pa.x = hAt M n.pa.x := by rw [hAt_start, hp, hAt_start]
    have : 0 < (slope n - slope M) * (X - n.pa.x) := mul_pos (by linarith) (by linarith)
    linarith

theorem sep_below {v n M : CSeg} {z : Rat} (hv : SOk v) (nn : Nv n) (nM : Nv M) (hp : n.pa = M.pa) (hs : slope n < slope M)
    (hvx : v.pa.x ≤ n.pa.x) (hvb : Nv v → n.pa.x < v.pb.x) (hc : sweepCmp n v = true) (hz : z ≤ n.pb.x) (h : Sep z n v) : Sep z M v := by
  intro X Y hX h2 h1
  obtain ⟨b1, b2, b3⟩ := (on_nv nM _ _).mp h2
  rw [← hp] at b1
  rcases eq_or_lt_of_le b1 with e | b1
  · have hy : Y = n.pa.y := by rw [b3, ← e, hp, hAt_start]
    rw [← e, hy] at h1 ⊢
    have := h n.pa.x n.pa.y (by rw [e]; exact hX) (on_a n) h1
    exact ⟨by rw [hp]; exact endq_a M, this.2⟩
  · exfalso
    obtain ⟨u1, u2⟩ := on_x hv h1
    have hvx' : (v.pa.x : Rat) ≤ n.pa.x := by exact_mod_cast hvx
    have nv : Nv v := by
      refine hv.nv (fun e => ?_)
      have e' : (v.pa.x : Rat) = v.pb.x := by exact_mod_cast e
      linarith
    have nn' := nn
    unfold Nv at nn'
    have hh := height_nv nn nv (h.mono hX).alc b1.le u1 (hX.trans hz) u2 (hvb nv) (by omega) hc
    have y1 := on_nv_y nv h1
    have e := hAt_diff n M n.pa.x X
    have e1 : hAt n n.pa.x = hAt M n.pa.x := by rw [hAt_start, hp, hAt_start]
    have : (slope n - slope M) * (X - n.pa.x) < 0 := mul_neg_of_neg_of_pos (by linarith) (by linarith)
    linarith

/-- Overlapping lines are not separate to the right of their start. -/
theorem over_sep {s t : CSeg} (h : Over s t) {x : Rat} (hx : (s.pa.x : Rat) < x) : ¬ Sep x s t := by
  intro hs
  have c1 := h.ns.cast
  have c2 := h.nt.cast
  have hpx : (s.pa.x : Rat) = t.pa.x := by rw [h.pa]
  obtain ⟨z, z1, z2⟩ : ∃ z : Rat, (s.pa.x : Rat) < z ∧ z < min x (min s.pb.x t.pb.x) :=
    exists_between (lt_min hx (lt_min c1 (by rw [hpx]; exact c2)))
  have z3 : z < x := lt_of_lt_of_le z2 (min_le_left _ _)
  have z4 : z < s.pb.x := lt_of_lt_of_le z2 ((min_le_right _ _).trans (min_le_left _ _))
  have z5 : z < t.pb.x := lt_of_lt_of_le z2 ((min_le_right _ _).trans (min_le_right _ _))
  have := hs z (hAt s z) z3.le ((on_nv h.ns _ _).mpr ⟨z1.le, z4.le, rfl⟩) ((on_nv h.nt _ _).mpr ⟨by rw [← hpx]; exact z1.le, z5.le, h.hAt z⟩)
  exact not_end z1 z4 this.1

theorem over_cl {s t : CSeg} (h : Over s t) (hc : Cl s t) : s.pb = t.pb := by
  rcases hc.cases with hc | hc
  · exact (hc.nv h.ns h.nt.sok).2
  · exact absurd (hc _) (over_sep (x := s.pa.x + 1) h (by linarith))

theorem sep_congr {s t t' : CSeg} {x : Rat} (h1 : t.pa = t'.pa) (h2 : t.pb = t'.pb) (h : Sep x s t) : Sep x s t' := by
  unfold Sep On EndQ at *; rw [← h1, ← h2]; exact h

theorem cl_congr {s t t' : CSeg} (h1 : t.pa = t'.pa) (h2 : t.pb = t'.pb) (h : Cl s t) : Cl s t' := by
  unfold Cl at *; rw [← h1, ← h2]; exact h

theorem Te.congr {s t t' : CSeg} (h1 : t.pa = t'.pa) (h2 : t.pb = t'.pb) (ha : Eqm mk t.a t'.a) (hb : Eqm mk t.b t'.b) (h : Te mk s t) :
    Te mk s t' := by
  have nv : Nv t ↔ Nv t' := by unfold Nv; rw [h1, h2]
  have co : Coin s t ↔ Coin s t' := by unfold Coin; rw [h1, h2]
  constructor
  · intro e c; exact (h.aa (e.trans h1.symm) (by rw [nv, co]; exact c)).trans ha
  · intro e c; exact (h.bb (e.trans h2.symm) (by rw [nv, co]; exact c)).trans hb
  · intro e c; exact (h.ab (e.trans h2.symm) (by rw [nv, co]; exact c)).trans hb
  · intro e c; exact (h.ba (e.trans h1.symm) (by rw [nv, co]; exact c)).trans ha

/-- Lines that can only have their starts in common. -/
theorem Te.of_start {s t : CSeg} (h1 : s.pb ≠ t.pb) (h2 : s.pa ≠ t.pb) (h3 : s.pb ≠ t.pa) (h : s.pa = t.pa → Eqm mk s.a t.a) : Te mk s t :=
  ⟨fun e _ => h e, fun e => absurd e h1, fun e => absurd e h2, fun e => absurd e h3⟩

/-- Another line from the start of a tested line. -/
theorem Te.other {s t t' : CSeg} (nt : Nv t) (nt' : Nv t') (hp : t.pa = t'.pa) (ha : t'.a = t.a) (h1 : s.pb ≠ t'.pb) (h2 : s.pa ≠ t'.pb)
    (h : Te mk s t) : Te mk s t' := by
  refine ⟨fun e _ => ?_, fun e => absurd e h1, fun e => absurd e h2, fun e c => ?_⟩
  · rw [ha]; exact h.aa (e.trans hp.symm) (Or.inr (Or.inl nt))
  · rw [ha]
    refine h.ba (e.trans hp.symm) (Or.inl fun hh => ?_)
    rcases c with c | c
    · exact c (hh.trans (iff_of_true nt nt'))
    · rcases c with ⟨_, c⟩ | ⟨c, _⟩
      · exact h1 c
      · exact h2 c

theorem over_congr {s t t' : CSeg} (h1 : t.pa = t'.pa) (h2 : t.pb = t'.pb) (nt : Nv t') (h : Over s t) : Over s t' :=
  ⟨h.ns, nt, h.pa.trans h1, h.sl.trans (slope_congr h1 h2)⟩

section
variable {L L' : CSeg → Prop} {n l r : CSeg} {c : Pt}

/-- A second line from the start of `n` was started. -/
structure Second (L : CSeg → Prop) (n l M : CSeg) (κ : Key) : Prop where
  h1 : sk n < κ
  h2 : κ ≤ sk l
  live : L M
  m1 : sk n < sk M
  m2 : sk M < κ

theorem Second.facts {M : CSeg} {κ : Key} (hs : Second L n l M κ) (hw : World L) (hl : SOk l) (hk : Kill L L' n l r c) :
    M.a = n.a ∧ n.pa = M.pa ∧ Nv n ∧ Nv M ∧ n ≠ M := by
  have hn := hw.ok n hk.live
  obtain ⟨a, _, h | h⟩ := hk.between hn hl hs.h1 hs.h2 hs.m1 hs.m2
  · exact ⟨a, (hw.cons n M hk.live hs.live).aa a.symm, h.1, (hw.ok M hs.live).nv h.2, by rintro rfl; exact lt_irrefl _ hs.m1⟩
  · exfalso
    have := hw.vone n M hk.live hs.live h.1 h.2 a.symm
    rw [this] at hs; exact lt_irrefl _ hs.m1

/-- No third line starts at that point. -/
theorem Second.third {M : CSeg} {κ : Key} (hs : Second L n l M κ) (hw : World L) (hl : SOk l) (hk : Kill L L' n l r c) {s : CSeg} (h : L s)
    (ns : Nv s) (ha : s.a = n.a) : s = n ∨ s = M := by
  obtain ⟨a, _, nn, nM, hne⟩ := hs.facts hw hl hk
  rcases hw.two n M s hk.live hs.live h nn nM ns a.symm (a.trans ha.symm) with h | h | h
  · exact absurd h hne
  · exact Or.inr h.symm
  · exact Or.inl h.symm

theorem Second.start {M : CSeg} {κ : Key} (hs : Second L n l M κ) (hw : World L) (hl : SOk l) (hk : Kill L L' n l r c) {s : CSeg} (h : L s)
    (s1 : sk n < sk s) (s2 : sk s < κ) : s = M := by
  have hn := hw.ok n hk.live
  obtain ⟨_, _, nn, nM, hne⟩ := hs.facts hw hl hk
  obtain ⟨a, _, h' | h'⟩ := hk.between hn hl hs.h1 hs.h2 s1 s2
  · rcases hs.third hw hl hk h ((hw.ok s h).nv h'.2) a with rfl | h
    · exact absurd s1 (lt_irrefl _)
    · exact h
  · exact absurd h'.1 nn.ne

theorem Second.no_pend {M : CSeg} {κ : Key} (hs : Second L n l M κ) (hw : World L) (hl : SOk l) (hk : Kill L L' n l r c) {m l0 : CSeg}
    (hm : L m) (nm : Nv m) (hl0 : L l0) (nl : Nv l0) (ha : m.a = l0.a) (m1 : sk m < κ) (m2 : κ ≤ sk l0) : False := by
  obtain ⟨a, hp, nn, nM, hne⟩ := hs.facts hw hl hk
  have hn := hw.ok n hk.live
  obtain ⟨e, ap, _, w1, _⟩ := hk.window hn hl hs.h1 hs.h2
  obtain ⟨y, rfl⟩ := pend_key nm nl ha ((hw.cons m l0 hm hl0).aa ha) m1 m2
  have h1 := hs.h1
  have h2 := hs.h2
  rw [sk_nv nn, key_lt] at h1
  rw [sk_nv (w1 nn), e, ap, key_le] at h2
  have hma : m.a = n.a := by omega
  rcases hs.third hw hl hk hl0 nl (ha.symm.trans hma) with rfl | rfl
  · exact absurd (lt_of_lt_of_le hs.h1 m2) (lt_irrefl _)
  · exact absurd (lt_of_lt_of_le hs.m2 m2) (lt_irrefl _)

/-- Neighbours other than `n`. -/
theorem Kill.ok3 (hw : World L) (hw' : World L') (hk : Kill L L' n l r c) {κ : Key} {M : CSeg} (hs : Second L n l M κ) {u v : CSeg}
    (h : OK mk L κ u v) : OK mk L' κ u v := by
  have hl := hw'.ok l hk.left
  have hn := hw.ok n hk.live
  obtain ⟨a, hp, nn, nM, hne⟩ := hs.facts hw hl hk
  obtain ⟨e, ap, lb, w1, _⟩ := hk.window hn hl hs.h1 hs.h2
  rcases h with h | ⟨l0, b, hg, h3, h4, h5, h6⟩ | ⟨l0, b, m, hg, hm, nm, ha, h3, h4⟩ | ⟨ho, ha, hh⟩
  · exact Or.inl h
  · by_cases en : l0 = n
    · subst en
      exact Or.inr (Or.inr (Or.inl ⟨l, b, M, hk.gap_self hg (w1 nn) lb, hk.old hs.live hne.symm, nM, a.trans e.symm, hs.m2, hs.h2⟩))
    · exact Or.inr (Or.inl ⟨l0, b, hk.gap hg en, h3, h4, h5, h6⟩)
  · exact absurd (hs.no_pend hw hl hk hm nm hg.live hg.nv ha h3 h4) not_false
  · exact Or.inr (Or.inr (Or.inr ⟨ho, ha, hh.imp (And.imp_right (And.imp_left hk.wit)) (And.imp_right (And.imp_left hk.wit))⟩))

/-- Lines at the cut. -/
theorem Second.at {M : CSeg} {κ : Key} (hs : Second L n l M κ) (hw : World L) (hl : SOk l) (hk : Kill L L' n l r c) {u : CSeg} (hu : InCut L κ u) :
    u.pa.x ≤ n.pa.x ∧ (Nv u → n.pa.x < u.pb.x) := by
  have hn := hw.ok n hk.live
  obtain ⟨a, hp, nn, nM, hne⟩ := hs.facts hw hl hk
  obtain ⟨e, ap, lb, w1, _⟩ := hk.window hn hl hs.h1 hs.h2
  obtain ⟨_, u1, u2⟩ := hu
  have h1 := lt_of_lt_of_le u1 hs.h2
  have h2 := lt_of_lt_of_le hs.h1 u2
  have := sk_lt_x h1
  rw [ap] at this
  refine ⟨this, fun nu => ?_⟩
  rw [sk_nv nn, ek_nv nu, key_lt] at h2
  omega

/-- The second line on the line of `n` is the same as `n`. -/
theorem Second.same {M : CSeg} {κ : Key} (hs : Second L n l M κ) (hw : World L) (hl : SOk l) (hk : Kill L L' n l r c) {s t : CSeg}
    (hst : (s = n ∧ t = M) ∨ (s = M ∧ t = n)) (hsl : slope n = slope M) (h : OK mk L κ s t) : n.pb = M.pb ∧ Eqm mk n.b M.b := by
  obtain ⟨a, hp, nn, nM, hne⟩ := hs.facts hw hl hk
  have hov : Over n M := ⟨nn, nM, hp, hsl⟩
  have hov' : Over s t := by rcases hst with ⟨rfl, rfl⟩ | ⟨rfl, rfl⟩; exacts [hov, hov.symm]
  have hst' : s.pb = t.pb → n.pb = M.pb := by rcases hst with ⟨rfl, rfl⟩ | ⟨rfl, rfl⟩; exacts [id, Eq.symm]
  have hsa : s.a = t.a := by rcases hst with ⟨rfl, rfl⟩ | ⟨rfl, rfl⟩; exacts [a.symm, a]
  have hsx : s.pa.x = n.pa.x := by rcases hst with ⟨rfl, rfl⟩ | ⟨rfl, rfl⟩; exacts [rfl, by rw [hp]]
  have hsk : sk n ≤ sk s := by rcases hst with ⟨rfl, rfl⟩ | ⟨rfl, rfl⟩; exacts [le_rfl, hs.m1.le]
  rcases h with h | ⟨l0, b, hg, h3, h4, h5, h6⟩ | ⟨l0, b, m, hg, hm, nm, ha, h3, h4⟩ | ⟨ho, ha, hh⟩
  · have e := hst' (over_cl hov' h.1)
    refine ⟨e, ?_⟩
    rcases hst with ⟨rfl, rfl⟩ | ⟨rfl, rfl⟩
    · exact h.2.bb e (Or.inl nn)
    · exact (h.2.bb e.symm (Or.inl nM)).symm
  · exfalso
    have := sk_lt_x h4
    have := chain_x hg.chain
    have nl := hg.nv
    unfold Nv at nl
    exact over_sep hov' (by exact_mod_cast (by omega : s.pa.x < b.x)) hg.sep
  · exact absurd (hs.no_pend hw hl hk hm nm hg.live hg.nv ha h3 h4) not_false
  · exact absurd hsa ha.1

/-- A line above `n`, and the second line just below `n`. -/
theorem Kill.ok_above (hw : World L) (hw' : World L') (hk : Kill L L' n l r c) {κ : Key} {M : CSeg} (hs : Second L n l M κ) {u : CSeg}
    (hu : InCut L κ u) (un : u ≠ n) (uM : u ≠ M) (c1 : sweepCmp u n = true) (c2 : sweepCmp n M = true) (h1 : OK mk L κ u n) (h2 : OK mk L κ n M) :
    OK mk L' κ u M := by
  have hl := hw'.ok l hk.left
  have hn := hw.ok n hk.live
  obtain ⟨a, hp, nn, nM, hne⟩ := hs.facts hw hl hk
  obtain ⟨e, ap, lb, w1, _⟩ := hk.window hn hl hs.h1 hs.h2
  obtain ⟨ux, ub⟩ := hs.at hw hl hk hu
  have ok := hw.ok u hu.1
  have sl := slope_order nn nM hp c2
  rcases eq_or_lt_of_le sl with sl | sl
  · -- the same line
    obtain ⟨hpb, hbb⟩ := hs.same hw hl hk (Or.inl ⟨rfl, rfl⟩) sl.symm h2
    rcases h1 with h | ⟨l0, b, hg, h3, h4, h5, h6⟩ | ⟨l0, b, m, hg, hm, nm, ha, h3, h4⟩ | ⟨ho, ha, hh⟩
    · exact Or.inl ⟨cl_congr hp hpb h.1, h.2.congr hp hpb (Or.inl a.symm) hbb⟩
    · exfalso
      have := hs.start hw hl hk hg.live h5 h3
      subst this
      have := chain_x hg.chain
      have := hg.vb
      rw [hpb] at this; omega
    · exact absurd (hs.no_pend hw hl hk hm nm hg.live hg.nv ha h3 h4) not_false
    · refine Or.inr (Or.inr (Or.inr ⟨over_congr hp hpb nM ho, by rw [a]; exact ha, ?_⟩))
      rw [← hpb]
      exact hh.imp (And.imp_right (And.imp_left hk.wit)) (And.imp_right (And.imp hk.wit hbb.mk))
  · have sep : ∀ z : Rat, z ≤ n.pb.x → Sep z u n → Sep z u M := fun z hz h => sep_above ok nn nM hp sl ux ub c1 hz h
    have nM' := nM
    unfold Nv at nM'
    have hpx : n.pa.x = M.pa.x := by rw [hp]
    have uM2 : u.pa ≠ M.pb := fun e => by rw [e] at ux; omega
    rcases h1 with ⟨h, ht⟩ | ⟨l0, b, hg, h3, h4, h5, h6⟩ | ⟨l0, b, m, hg, hm, nm, ha, h3, h4⟩ | ⟨ho, ha, hh⟩
    · rcases h.cases with h | h
      · obtain ⟨b1, b2⟩ := h.symm.nv nn ok
        have nu : Nv u := by unfold Nv; rw [← b1, ← b2]; exact nn
        have hne' : slope u ≠ slope M := by rw [← slope_congr b1 b2]; exact ne_of_gt sl
        exact Or.inl ⟨Cl.of_sep (x := u.pb.x) ok (fan nu nM (b1.symm.trans hp) hne' _) le_rfl,
          ht.other nn nM hp a (fun e => hne' (slope_congr (b1.symm.trans hp) e)) uM2⟩
      · have s1 := sep n.pb.x le_rfl (h _)
        have apart : u.pb.x ≤ n.pb.x → u.pb ≠ M.pb := by
          intro dx e
          have nu : Nv u := by unfold Nv; rw [e]; omega
          have hh := height_nv nu nn (h u.pb.x).alc (x := u.pb.x) nu.cast.le (by exact_mod_cast (ub nu).le) le_rfl (by exact_mod_cast dx)
            (by unfold Nv at nn; omega) (ub nu) c1
          rw [slope_end u nu.ne] at hh
          have e1 : hAt n n.pa.x = hAt M n.pa.x := by rw [hAt_start, hp, hAt_start]
          have e2 := hAt_diff n M n.pa.x u.pb.x
          have e3 : hAt M u.pb.x = u.pb.y := by rw [e]; exact slope_end M nM.ne
          have : 0 < (slope n - slope M) * ((u.pb.x : Rat) - n.pa.x) :=
            mul_pos (by linarith) (by have : (n.pa.x : Rat) < u.pb.x := by exact_mod_cast ub nu
                                      linarith)
          linarith
        by_cases d1 : u.pb.x ≤ n.pb.x
        · exact Or.inl ⟨Cl.of_sep ok s1 (by exact_mod_cast d1), ht.other nn nM hp a (apart d1) uM2⟩
        by_cases d2 : M.pb.x ≤ n.pb.x
        · exact Or.inl ⟨(Cl.of_sep nM.sok s1.symm (by exact_mod_cast d2)).symm, ht.other nn nM hp a (fun e => apart (by rw [e]; exact d2) e) uM2⟩
        push Not at d1 d2
        have nn' := nn
        unfold Nv at nn'
        have nu : Nv u := by unfold Nv; omega
        refine Or.inr (Or.inr (Or.inl ⟨l, n.pb, M, ⟨hk.left, w1 nn, ?_, s1, d1, d2, ?_, ?_, fun e => by rw [a]; exact ht.aa (e.trans hp.symm) (Or.inr (Or.inl nn))⟩, hk.old hs.live hne.symm, nM, a.trans e.symm, hs.m2, hs.h2⟩))
        · rw [lb]; exact Relation.ReflTransGen.single hk.link_r
        · have e1 : hAt n n.pa.x = hAt M n.pa.x := by rw [hAt_start, hp, hAt_start]
          have e2 := hAt_diff n M n.pa.x n.pb.x
          rw [slope_end n nn.ne] at e2
          have : 0 < (slope n - slope M) * ((n.pb.x : Rat) - n.pa.x) := mul_pos (by linarith) (by have := nn.cast; linarith)
          linarith
        · have ux' : (u.pa.x : Rat) ≤ n.pb.x := by exact_mod_cast (by omega : u.pa.x ≤ n.pb.x)
          have d1' : (n.pb.x : Rat) < u.pb.x := by exact_mod_cast d1
          have hh := height_nv nu nn (h n.pb.x).alc ux' nn.cast.le d1'.le le_rfl (by omega) (ub nu) c1
          rw [slope_end n nn.ne] at hh
          refine lt_of_le_of_ne hh (fun heq => ?_)
          have := h n.pb.x n.pb.x n.pb.y le_rfl ((on_nv nu _ _).mpr ⟨ux', d1'.le, heq⟩) (on_b n)
          exact not_end (by exact_mod_cast (by omega : u.pa.x < n.pb.x)) d1' this.1
    · have := hs.start hw hl hk hg.live h5 h3
      subst this
      have c3 := chain_x hg.chain
      have gu := hg.ub
      refine Or.inl ⟨(Cl.of_sep nM.sok (sep b.x ?_ hg.sep).symm (by exact_mod_cast c3)).symm,
        Te.of_start (fun e => ?_) uM2 (fun e => ?_) (fun e => by rw [a]; exact hg.st (e.trans hp.symm))⟩
      · exact_mod_cast hg.vb.le
      · rw [e] at gu; omega
      · rw [e] at gu; omega
    · exact absurd (hs.no_pend hw hl hk hm nm hg.live hg.nv ha h3 h4) not_false
    · have hne' : slope u ≠ slope M := by rw [ho.sl]; exact ne_of_gt sl
      refine Or.inl ⟨Cl.of_sep (x := u.pb.x) ok (fan ho.ns nM (ho.pa.trans hp) hne' _) le_rfl,
        Te.of_start (fun e => hne' (slope_congr (ho.pa.trans hp) e)) uM2 (fun e => ?_) (fun _ => by rw [a]; exact Or.inr ha.2)⟩
      have := ho.ns
      unfold Nv at this
      rw [e, ho.pa, hp] at this
      exact lt_irrefl _ this

/-- A line below `n`, and the second line just above `n`. -/
theorem Kill.ok_below (hw : World L) (hw' : World L') (hk : Kill L L' n l r c) {κ : Key} {M : CSeg} (hs : Second L n l M κ) {v : CSeg}
    (hv : InCut L κ v) (c1 : sweepCmp n v = true) (c2 : sweepCmp M n = true) (h1 : OK mk L κ n v) (h2 : OK mk L κ M n) :
    OK mk L' κ M v := by
  have hl := hw'.ok l hk.left
  have hn := hw.ok n hk.live
  obtain ⟨a, hp, nn, nM, hne⟩ := hs.facts hw hl hk
  obtain ⟨e, ap, lb, w1, _⟩ := hk.window hn hl hs.h1 hs.h2
  obtain ⟨ux, ub⟩ := hs.at hw hl hk hv
  have ok := hw.ok v hv.1
  have sl := slope_order nM nn hp.symm c2
  rcases eq_or_lt_of_le sl with sl | sl
  · obtain ⟨hpb, hbb⟩ := hs.same hw hl hk (Or.inr ⟨rfl, rfl⟩) sl h2
    rcases h1 with h | ⟨l0, b, hg, h3, h4, h5, h6⟩ | ⟨l0, b, m, hg, hm, nm, ha, h3, h4⟩ | ⟨ho, ha, hh⟩
    · exact Or.inl ⟨(cl_congr hp hpb h.1.symm).symm, (h.2.symm.congr hp hpb (Or.inl a.symm) hbb).symm⟩
    · exfalso
      have := hs.start hw hl hk hg.live h4 h3
      subst this
      have := chain_x hg.chain
      have := hg.ub
      rw [hpb] at this; omega
    · exact absurd (hs.no_pend hw hl hk hm nm hg.live hg.nv ha h3 h4) not_false
    · refine Or.inr (Or.inr (Or.inr ⟨(over_congr hp hpb nM ho.symm).symm, by rw [a]; exact ha, ?_⟩))
      rw [← hpb]
      exact hh.imp (And.imp_right (And.imp hk.wit hbb.mk)) (And.imp_right (And.imp_left hk.wit))
  · have sep : ∀ z : Rat, z ≤ n.pb.x → Sep z n v → Sep z M v := fun z hz h => sep_below ok nn nM hp sl ux ub c1 hz h
    have nM' := nM
    unfold Nv at nM'
    have hpx : n.pa.x = M.pa.x := by rw [hp]
    have uM2 : v.pa ≠ M.pb := fun e => by rw [e] at ux; omega
    rcases h1 with ⟨h, ht⟩ | ⟨l0, b, hg, h3, h4, h5, h6⟩ | ⟨l0, b, m, hg, hm, nm, ha, h3, h4⟩ | ⟨ho, ha, hh⟩
    · rcases h.cases with h | h
      · obtain ⟨b1, b2⟩ := h.nv nn ok
        have nv : Nv v := by unfold Nv; rw [← b1, ← b2]; exact nn
        have hne' : slope M ≠ slope v := by rw [← slope_congr b1 b2]; exact ne_of_gt sl
        exact Or.inl ⟨Cl.of_sep (x := M.pb.x) nM.sok (fan nM nv (hp.symm.trans b1) hne' _) le_rfl,
          (ht.symm.other nn nM hp a (fun e => hne' (slope_congr (hp.symm.trans b1) e.symm)) uM2).symm⟩
      · have s1 := sep n.pb.x le_rfl (h _)
        have apart : v.pb.x ≤ n.pb.x → v.pb ≠ M.pb := by
          intro dx e
          have nu : Nv v := by unfold Nv; rw [e]; omega
          have hh := height_nv nn nu (h v.pb.x).alc (x := v.pb.x) (by exact_mod_cast (ub nu).le) nu.cast.le (by exact_mod_cast dx) le_rfl
            (ub nu) (by unfold Nv at nn; omega) c1
          rw [slope_end v nu.ne] at hh
          have e1 : hAt n n.pa.x = hAt M n.pa.x := by rw [hAt_start, hp, hAt_start]
          have e2 := hAt_diff n M n.pa.x v.pb.x
          have e3 : hAt M v.pb.x = v.pb.y := by rw [e]; exact slope_end M nM.ne
          have : (slope n - slope M) * ((v.pb.x : Rat) - n.pa.x) < 0 :=
            mul_neg_of_neg_of_pos (by linarith) (by have : (n.pa.x : Rat) < v.pb.x := by exact_mod_cast ub nu
                                                    linarith)
          linarith
        by_cases d1 : v.pb.x ≤ n.pb.x
        · exact Or.inl ⟨(Cl.of_sep ok s1.symm (by exact_mod_cast d1)).symm, (ht.symm.other nn nM hp a (apart d1) uM2).symm⟩
        by_cases d2 : M.pb.x ≤ n.pb.x
        · exact Or.inl ⟨Cl.of_sep nM.sok s1 (by exact_mod_cast d2), (ht.symm.other nn nM hp a (fun e => apart (by rw [e]; exact d2) e) uM2).symm⟩
        push Not at d1 d2
        have nn' := nn
        unfold Nv at nn'
        have nv : Nv v := by unfold Nv; omega
        refine Or.inr (Or.inr (Or.inl ⟨l, n.pb, M, ⟨hk.left, w1 nn, ?_, s1, d2, d1, ?_, ?_, fun e => by rw [a]; exact ht.aa (hp.trans e) (Or.inl nn)⟩, hk.old hs.live hne.symm, nM, a.trans e.symm, hs.m2, hs.h2⟩))
        · rw [lb]; exact Relation.ReflTransGen.single hk.link_r
        · have ux' : (v.pa.x : Rat) ≤ n.pb.x := by exact_mod_cast (by omega : v.pa.x ≤ n.pb.x)
          have d1' : (n.pb.x : Rat) < v.pb.x := by exact_mod_cast d1
          have hh := height_nv nn nv (h n.pb.x).alc nn.cast.le ux' le_rfl d1'.le (ub nv) (by omega) c1
          rw [slope_end n nn.ne] at hh
          refine lt_of_le_of_ne hh (fun heq => ?_)
          have := h n.pb.x n.pb.x n.pb.y le_rfl (on_b n) ((on_nv nv _ _).mpr ⟨ux', d1'.le, heq.symm⟩)
          exact not_end (by exact_mod_cast (by omega : v.pa.x < n.pb.x)) d1' this.2
        · have e1 : hAt n n.pa.x = hAt M n.pa.x := by rw [hAt_start, hp, hAt_start]
          have e2 := hAt_diff n M n.pa.x n.pb.x
          rw [slope_end n nn.ne] at e2
          have : (slope n - slope M) * ((n.pb.x : Rat) - n.pa.x) < 0 := mul_neg_of_neg_of_pos (by linarith) (by have := nn.cast; linarith)
          linarith
    · have := hs.start hw hl hk hg.live h4 h3
      subst this
      have c3 := chain_x hg.chain
      have gv := hg.vb
      refine Or.inl ⟨Cl.of_sep nM.sok (sep b.x ?_ hg.sep) (by exact_mod_cast c3),
        (Te.of_start (fun e => ?_) uM2 (fun e => ?_) (fun e => by rw [a]; exact (hg.st (hp.trans e.symm)).symm)).symm⟩
      · exact_mod_cast hg.ub.le
      · rw [e] at gv; omega
      · rw [e] at gv; omega
    · exact absurd (hs.no_pend hw hl hk hm nm hg.live hg.nv ha h3 h4) not_false
    · have hne' : slope M ≠ slope v := by rw [← ho.sl]; exact ne_of_gt sl
      refine Or.inl ⟨Cl.of_sep (x := M.pb.x) nM.sok (fan nM ho.nt (hp.symm.trans ho.pa) hne' _) le_rfl,
        (Te.of_start (fun e => hne' (slope_congr (hp.symm.trans ho.pa) e.symm)) uM2 (fun e => ?_)
          (fun _ => by rw [a]; exact Or.inr ⟨ha.2.2, ha.2.1⟩)).symm⟩
      have := ho.nt
      unfold Nv at this
      rw [e, ← ho.pa, hp] at this
      exact lt_irrefl _ this

theorem Kill.cut3 (hw : World L) (hw' : World L') (hk : Kill L L' n l r c) {κ : Key} {M : CSeg} (hs : Second L n l M κ) (h3 : κ ≤ sk r)
    (h0 : CutOK mk L (sk n)) (h : CutOK mk L κ) : CutOK mk L' κ := by
  have hl := hw'.ok l hk.left
  have hn := hw.ok n hk.live
  obtain ⟨a, hp, nn, nM, hne⟩ := hs.facts hw hl hk
  obtain ⟨W, hW, hc⟩ := h
  obtain ⟨W0, hW0, hc0⟩ := h0
  have hnW : n ∈ W := (hW.mem n).mpr ⟨hk.live, hs.h1, hk.ends hn hl hs.h1 hs.h2 (sk_lt_ek hn).le⟩
  obtain ⟨l1, l2, rfl⟩ := List.append_of_mem hnW
  have hso := hW.sorted
  have hnd := sorted_nodup hso
  have hd := (List.pairwise_append.mp hso)
  have hn1 : n ∉ l1 := fun hc => by
    have := hd.2.2 n hc n (by simp)
    rw [C22_irrefl] at this; cases this
  have hn2 : n ∉ l2 := fun hc => by
    have := (List.pairwise_cons.mp hd.2.1).1 n hc
    rw [C22_irrefl] at this; cases this
  refine ⟨l1 ++ l2, ⟨fun s => ?_, ?_⟩, ?_⟩
  · have e : s ∈ l1 ++ l2 ↔ s ∈ l1 ++ n :: l2 ∧ s ≠ n := by
      simp only [List.mem_append, List.mem_cons]
      constructor
      · rintro (h | h)
        · exact ⟨Or.inl h, by rintro rfl; exact hn1 h⟩
        · exact ⟨Or.inr (Or.inr h), by rintro rfl; exact hn2 h⟩
      · rintro ⟨h | h | h, hne⟩
        · exact Or.inl h
        · exact absurd h hne
        · exact Or.inr h
    rw [e, hW.mem]
    constructor
    · rintro ⟨⟨b1, b2, b3⟩, b4⟩; exact ⟨hk.old b1 b4, b2, b3⟩
    · rintro ⟨b1, b2, b3⟩
      rcases (hk.iff s).mp b1 with ⟨b1, b4⟩ | rfl | rfl
      · exact ⟨⟨b1, b2, b3⟩, b4⟩
      · exact absurd (lt_of_lt_of_le b2 hs.h2) (lt_irrefl _)
      · exact absurd (lt_of_lt_of_le b2 h3) (lt_irrefl _)
  · exact hso.sublist ((List.sublist_cons_self n l2).append_left l1)
  · rw [List.isChain_append] at hc ⊢
    obtain ⟨k1, k2, k3⟩ := hc
    have k2' : l2.IsChain (OK mk L κ) := by
      cases l2 with
      | nil => exact .nil
      | cons v l2 => exact (List.isChain_cons_cons.mp k2).2
    refine ⟨k1.imp fun u v => hk.ok3 hw hw' hs, k2'.imp fun u v => hk.ok3 hw hw' hs, ?_⟩
    intro u hu v hv
    have okun : OK mk L κ u n := k3 u hu n rfl
    obtain ⟨l1', rfl⟩ : ∃ l1', l1 = l1' ++ [u] := by
      refine ⟨l1.dropLast, ?_⟩
      exact (List.dropLast_append_getLast? u hu).symm
    obtain ⟨l2', rfl⟩ : ∃ l2', l2 = v :: l2' := by
      cases l2 with
      | nil => cases hv
      | cons w l2 => simp only [List.head?_cons, Option.mem_def, Option.some.injEq] at hv; exact ⟨l2, by rw [hv]⟩
    have oknv : OK mk L κ n v := (List.isChain_cons_cons.mp k2).1
    have cun : sweepCmp u n = true := hd.2.2 u (by simp) n (by simp)
    have cnv : sweepCmp n v = true := (List.pairwise_cons.mp hd.2.1).1 v (by simp)
    have inu : InCut L κ u := (hW.mem u).mp (by simp)
    have inv : InCut L κ v := (hW.mem v).mp (by simp)
    have une : u ≠ n := by rintro rfl; exact hn1 (by simp)
    have vne : v ≠ n := by rintro rfl; exact hn2 (by simp)
    have uvne : u ≠ v := by
      rintro rfl
      have := hd.2.2 u (by simp) u (by simp)
      rw [C22_irrefl] at this; cases this
    by_cases cv : v = M
    · subst cv
      exact hk.ok_above hw hw' hs inu une uvne cun cnv okun oknv
    by_cases cu : u = M
    · subst cu
      exact hk.ok_below hw hw' hs inv cnv cun oknv okun
    -- at the cut before the start of `n`
    have heq : W0 = (l1' ++ [u] ++ n :: v :: l2').filter (fun s => decide (s ≠ n ∧ s ≠ M)) := by
      refine sorted_unique hW0.sorted (hso.sublist List.filter_sublist) (fun s => ?_)
      rw [List.mem_filter, hW.mem, hW0.mem, decide_eq_true_iff]
      constructor
      · rintro ⟨b1, b2, b3⟩
        exact ⟨⟨b1, b2.trans hs.h1, hk.ends hn hl hs.h1 hs.h2 b3⟩, by rintro rfl; exact lt_irrefl _ b2,
          by rintro rfl; exact lt_asymm b2 hs.m1⟩
      · rintro ⟨⟨b1, b2, b3⟩, b4, b5⟩
        refine ⟨b1, ?_, hs.h1.le.trans b3⟩
        rcases lt_trichotomy (sk s) (sk n) with h | h | h
        · exact h
        · exfalso
          unfold sk at h
          injection h with _ h; injection h with _ h; injection h with ha hb
          exact b4 (hw.inj s n b1 hk.live ha hb)
        · exact absurd (hs.start hw hl hk b1 h b2) b5
    have hf : (l1' ++ [u] ++ n :: v :: l2').filter (fun s => decide (s ≠ n ∧ s ≠ M)) =
        l1'.filter (fun s => decide (s ≠ n ∧ s ≠ M)) ++ u :: v :: l2'.filter (fun s => decide (s ≠ n ∧ s ≠ M)) := by
      rw [List.filter_append, List.filter_append]
      simp [une, vne, cu, cv]
    rw [heq, hf] at hc0
    exact hk.ok2 hw hw' hs.h1 hs.h2 (List.isChain_iff_forall_rel_of_append_cons_cons.mp hc0 rfl)

/-- Killing a line in general. -/
theorem Kill.cutOK (hw : World L) (hw' : World L') (hk : Kill L L' n l r c) {κ : Key} (h2 : κ ≤ sk l) (h3 : κ ≤ sk r)
    (h0 : sk n < κ → CutOK mk L (sk n)) (h : (κ ≤ sk n ∨ ∃ s, L s ∧ sk n < sk s ∧ sk s < κ) → CutOK mk L κ) : CutOK mk L' κ := by
  rcases le_or_gt κ (sk n) with h1 | h1
  · exact hk.cut1 hw hw' h1 h2 h3 (h (Or.inl h1))
  · by_cases hM : ∃ s, L s ∧ sk n < sk s ∧ sk s < κ
    · obtain ⟨M, hM, m1, m2⟩ := hM
      exact hk.cut3 hw hw' ⟨h1, h2, hM, m1, m2⟩ h3 (h0 h1) (h (Or.inr ⟨M, hM, m1, m2⟩))
    · push Not at hM
      refine hk.cut2 hw hw' h1 h2 h3 (fun s hs hk => ?_) (h0 h1)
      by_contra hc
      push Not at hc
      exact absurd hk (not_lt.mpr (hM s hs hc))
end
end PolyOps.Planarity
