import Verif.Lemmas.PlanarKill3

/-! A line that was just started overlaps its neighbour, which is replaced by pieces. -/
namespace PolyOps.Planarity
open PolyOps PolyOps.SweepCmp

variable {mk : Nat → Prop}

theorem Exc2.symm {L : CSeg → Prop} {u v : CSeg} (h : Exc2 mk L u v) : Exc2 mk L v u := ⟨h.1.symm, ⟨fun e => h.2.1.1 e.symm, h.2.1.2.2, h.2.1.2.1⟩, h.2.2.symm⟩

/-- A line on the same line from the same place that ends earlier. -/
theorem over_on {n p : CSeg} (h : Over n p) (hb : n.pb.x < p.pb.x) {X Y : Rat} (ho : On n X Y) : On p X Y := by
  obtain ⟨a1, a2, a3⟩ := (on_nv h.ns _ _).mp ho
  have : (n.pb.x : Rat) < p.pb.x := by exact_mod_cast hb
  exact (on_nv h.nt _ _).mpr ⟨by rw [← h.pa]; exact a1, by linarith, by rw [← h.hAt]; exact a3⟩

theorem over_sep_sub {n p u : CSeg} (h : Over n p) (hb : n.pb.x < p.pb.x) {z : Rat} (hs : Sep z u p) : Sep z u n := by
  intro X Y hX h1 h2
  have := hs X Y hX h1 (over_on h hb h2)
  refine ⟨this.1, ?_⟩
  obtain ⟨a1, a2, a3⟩ := (on_nv h.ns _ _).mp h2
  have hb' : (n.pb.x : Rat) < p.pb.x := by exact_mod_cast hb
  rcases this.2 with ⟨e1, e2⟩ | ⟨e1, e2⟩
  · left; rw [h.pa]; exact ⟨e1, e2⟩
  · exfalso; rw [e1] at a2; linarith

section
variable {L L' : CSeg → Prop} {n p l r : CSeg} {c : Pt}

theorem Second.pend_eq {κ : Key} (hs : Second L p l n κ) (hw : World L) (hl : SOk l) (hk : Kill L L' p l r c) {m l0 : CSeg}
    (hm : L m) (nm : Nv m) (hl0 : L l0) (nl : Nv l0) (ha : m.a = l0.a) (m1 : sk m < sk n) (m2 : sk n ≤ sk l0) : m = p ∧ l0 = n := by
  obtain ⟨a, hp, np, nn, hne⟩ := hs.facts hw hl hk
  obtain ⟨y, hy⟩ := pend_key nm nl ha ((hw.cons m l0 hm hl0).aa ha) m1 m2
  have hna : n.a = m.a := by
    rw [sk_nv nn] at hy
    injection hy with _ h; injection h with _ h; injection h
  constructor
  · rcases hs.third hw hl hk hm nm (hna.symm.trans a) with h | rfl
    · exact h
    · exact absurd m1 (lt_irrefl _)
  · rcases hs.third hw hl hk hl0 nl ((ha.symm.trans hna.symm).trans a) with rfl | h
    · exact absurd (lt_of_lt_of_le hs.m1 m2) (lt_irrefl _)
    · exact h

/-- The new line takes the place of the longer one. -/
theorem Kill.ok_over (hw : World L) (hw' : World L') (hk : Kill L L' p l r c) {κ : Key} (hs : Second L p l n κ) (ho : Over n p) (hc : n.pb = c)
    (hlt : c.x < p.pb.x) (hmb : mk n.b) {u : CSeg} (hu : L u) (un : u ≠ n) (up : u ≠ p) (h : OK mk L (sk n) u p ∨ OK mk L (sk n) p u) :
    Ct mk u n ∨ Exc2 mk L' u n := by
  have hl := hw'.ok l hk.left
  obtain ⟨a, hp, np, nn, hne⟩ := hs.facts hw hl hk
  have hb : n.pb.x < p.pb.x := by rw [hc]; exact hlt
  have hwit : Wit L' n.pb := by
    refine ⟨r, hk.right, Or.inl ?_⟩
    rcases hk.rgt with ⟨e, _⟩ | ⟨_, e, _⟩
    · rw [e, hc]
    · omega
  have hua : Nv u → u.a ≠ n.a := fun nu e => by
    rcases hs.third hw hl hk hu nu (e.trans a) with h | h
    · exact up h
    · exact un h
  have inner : ∀ {X Y : Rat}, n.pb.x = X → ¬ EndQ p X Y := fun {X Y} e => by
    rw [← e]
    have h1 : (p.pa.x : Rat) < n.pb.x := by rw [hp]; exact nn.cast
    exact not_end h1 (by exact_mod_cast hb)
  have onp : On p n.pb.x n.pb.y := over_on ho hb (on_b n)
  have k1 : Ct mk u p → Ct mk u n ∨ Exc2 mk L' u n := by
    rintro ⟨h, ht⟩
    rcases h.cases with h | h
    · obtain ⟨b1, b2⟩ := h.symm.nv np (hw.ok u hu)
      have nu : Nv u := by unfold Nv; rw [← b1, ← b2]; exact np
      right
      refine ⟨⟨nu, nn, b1.symm.trans ho.pa.symm, (slope_congr b1.symm b2.symm).trans ho.sl.symm⟩, ?_, Or.inr ⟨?_, hwit, hmb⟩⟩
      · have := ht.aa b1.symm (Or.inl nu)
        rw [← a] at this
        exact ⟨hua nu, this.resolve_left (hua nu)⟩
      · rw [← b2]; exact hb
    · refine Or.inl ⟨(Cl.of_sep nn.sok (over_sep_sub ho hb (h n.pb.x)).symm le_rfl).symm, ht.other np nn hp a (fun e => ?_) (fun e => ?_)⟩
      · have o := on_b u
        rw [e] at o
        exact inner rfl (h _ _ _ le_rfl o onp).2
      · have o := on_a u
        rw [e] at o
        exact inner rfl (h _ _ _ le_rfl o onp).2
  have k2 : Exc2 mk L u p → Ct mk u n ∨ Exc2 mk L' u n := by
    rintro ⟨o, oa, hh⟩
    have ov : Over u n := ⟨o.ns, nn, o.pa.trans ho.pa.symm, o.sl.trans ho.sl.symm⟩
    rw [← a] at oa
    rcases lt_trichotomy u.pb.x n.pb.x with h | h | h
    · refine Or.inr ⟨ov, oa, Or.inl ⟨h, ?_⟩⟩
      rcases hh with hh | hh
      · exact ⟨hk.wit hh.2.1, hh.2.2⟩
      · omega
    · left
      have hub : mk u.b := by
        rcases hh with hh | hh
        · exact hh.2.2
        · omega
      have nu := o.ns
      have nn' := nn
      have px : u.pa.x = n.pa.x := by rw [ov.pa]
      unfold Nv at nu nn'
      refine ⟨?_, fun _ _ => Or.inr oa.2, fun _ _ => Or.inr ⟨hub, hmb⟩, fun e => ?_, fun e => ?_⟩
      · apply Cl.of_coin
        left
        refine ⟨ov.pa, ?_⟩
        have e1 := slope_end u o.ns.ne
        have e2 := slope_end n nn.ne
        have e3 := ov.hAt u.pb.x
        rw [e1] at e3
        have : (u.pb.x : Rat) = n.pb.x := by exact_mod_cast h
        rw [this, e2] at e3
        have e4 : u.pb.y = n.pb.y := by exact_mod_cast e3
        cases hu' : u.pb; cases hn' : n.pb
        rw [hu', hn'] at h e4
        simp only at h e4
        rw [h, e4]
      · rw [e] at px; omega
      · rw [e] at nu; omega
    · exact Or.inr ⟨ov, oa, Or.inr ⟨h, hwit, hmb⟩⟩
  have k3 : ∀ {l0 : CSeg}, L l0 → sk l0 < sk n → sk p < sk l0 → False := fun hl0 h1 h2 => by
    have := hs.start hw hl hk hl0 h2 (h1.trans hs.m2)
    rw [this] at h1; exact lt_irrefl _ h1
  have k4 : ∀ {b : Pt}, Chain L n.pb b → Sep b.x u p → b.x < u.pb.x → (u.pa = p.pa → Eqm mk u.a p.a) → Ct mk u n := by
    intro b h1 h2 h3 h4
    have c3 := chain_x h1
    have c3' : (n.pb.x : Rat) ≤ b.x := by exact_mod_cast c3
    have nn' := nn
    unfold Nv at nn'
    refine ⟨(Cl.of_sep nn.sok (over_sep_sub ho hb h2).symm c3').symm, Te.of_start (fun e => ?_) (fun e => ?_) (fun e => ?_) (fun e => ?_)⟩
    · rw [e] at h3; omega
    · have o := on_a u
      rw [e] at o
      exact inner rfl (h2 _ _ c3' o onp).2
    · rw [e] at h3; omega
    · rw [a]; exact h4 (e.trans hp.symm)
  rcases h with (h | ⟨l0, b, hg, h3, h4, h5, h6⟩ | ⟨l0, b, m, hg, hm, nm, ha, h3, h4⟩ | h) | (h | ⟨l0, b, hg, h3, h4, h5, h6⟩ | ⟨l0, b, m, hg, hm, nm, ha, h3, h4⟩ | h)
  · exact k1 h
  · exact (k3 hg.live h3 h5).elim
  · obtain ⟨rfl, rfl⟩ := hs.pend_eq hw hl hk hm nm hg.live hg.nv ha h3 h4
    exact Or.inl (k4 hg.chain hg.sep hg.ub hg.st)
  · exact k2 h
  · exact k1 h.symm
  · exact (k3 hg.live h3 h4).elim
  · obtain ⟨rfl, rfl⟩ := hs.pend_eq hw hl hk hm nm hg.live hg.nv ha h3 h4
    exact Or.inl (k4 hg.chain hg.sep.symm hg.vb fun e => (hg.st e.symm).symm)
  · exact k2 h.symm

/-- Other neighbours. -/
theorem Kill.ok4 (hw : World L) (hw' : World L') (hk : Kill L L' p l r c) {κ : Key} (hs : Second L p l n κ) {u v : CSeg}
    (hu : sk u < sk n) (hv : sk v < sk n) (hn : sweepCmp n u = true ∨ sweepCmp v n = true)
    (h : OK mk L (sk n) u v) : OK mk L' κ u v := by
  have hl := hw'.ok l hk.left
  obtain ⟨a, hp, np, nn, hne⟩ := hs.facts hw hl hk
  obtain ⟨e, ap, lb, w1, _⟩ := hk.window np.sok hl hs.h1 hs.h2
  rcases h with h | ⟨l0, b, hg, h3, h4, h5, h6⟩ | ⟨l0, b, m, hg, hm, nm, ha, h3, h4⟩ | ⟨ho, ha, hh⟩
  · exact Or.inl h
  · by_cases en : l0 = p
    · subst en
      exact Or.inr (Or.inr (Or.inl ⟨l, b, n, hk.gap_self hg (w1 np) lb, hk.old hs.live hne.symm, nn, a.trans e.symm, hs.m2, hs.h2⟩))
    · exact Or.inr (Or.inl ⟨l0, b, hk.gap hg en, h3.trans hs.m2, h4, h5, h6⟩)
  · obtain ⟨rfl, rfl⟩ := hs.pend_eq hw hl hk hm nm hg.live hg.nv ha h3 h4
    exact Or.inr (Or.inl ⟨l0, b, hk.gap hg hne.symm, hs.m2, hu, hv, hn⟩)
  · exact Or.inr (Or.inr (Or.inr ⟨ho, ha, hh.imp (And.imp_right (And.imp_left hk.wit)) (And.imp_right (And.imp_left hk.wit))⟩))

theorem Kill.cut4 (hw : World L) (hw' : World L') (hk : Kill L L' p l r c) {κ : Key} (hs : Second L p l n κ) (h3 : κ ≤ sk r)
    (ho : Over n p) (hc : n.pb = c) (hlt : c.x < p.pb.x) (hmb : mk n.b) {l1 l2 : List CSeg} (hW : CutList L (sk n) (l1 ++ p :: l2))
    (hso : (l1 ++ n :: l2).Pairwise (fun s t => sweepCmp s t = true)) (hch : (l1 ++ p :: l2).IsChain (OK mk L (sk n))) : CutOK mk L' κ := by
  have hl := hw'.ok l hk.left
  obtain ⟨a, hp, np, nn, hne⟩ := hs.facts hw hl hk
  have hd := List.pairwise_append.mp hW.sorted
  have hp1 : p ∉ l1 := fun hc => by
    have := hd.2.2 p hc p (by simp)
    rw [C22_irrefl] at this; cases this
  have hp2 : p ∉ l2 := fun hc => by
    have := (List.pairwise_cons.mp hd.2.1).1 p hc
    rw [C22_irrefl] at this; cases this
  have hdn := List.pairwise_append.mp hso
  have hin : ∀ s, s ∈ l1 ∨ s ∈ l2 → InCut L (sk n) s := fun s h => (hW.mem s).mp (by
    simp only [List.mem_append, List.mem_cons]; rcases h with h | h <;> simp [h])
  have hsn : ∀ s, s ∈ l1 ∨ s ∈ l2 → s ≠ n := fun s h e => by
    have := (hin s h).2.1
    rw [e] at this; exact lt_irrefl _ this
  have c1 : ∀ s ∈ l1, sweepCmp s n = true := fun s h => hdn.2.2 s h n (by simp)
  have c2 : ∀ s ∈ l2, sweepCmp n s = true := fun s h => (List.pairwise_cons.mp hdn.2.1).1 s h
  refine ⟨l1 ++ n :: l2, ⟨fun s => ?_, hso⟩, ?_⟩
  · constructor
    · intro h
      have : s = n ∨ (s ∈ l1 ∨ s ∈ l2) := by simp only [List.mem_append, List.mem_cons] at h; tauto
      rcases this with rfl | h
      · exact ⟨hk.old hs.live hne.symm, hs.m2, hk.ends np.sok hl hs.h1 hs.h2 (hs.m1.le.trans (sk_lt_ek nn.sok).le)⟩
      · obtain ⟨b1, b2, b3⟩ := hin s h
        refine ⟨hk.old b1 ?_, b2.trans hs.m2, hk.ends np.sok hl hs.h1 hs.h2 (hs.m1.le.trans b3)⟩
        rintro rfl
        exact h.elim hp1 hp2
    · rintro ⟨b1, b2, b3⟩
      rcases (hk.iff s).mp b1 with ⟨b1, hsp⟩ | rfl | rfl
      · by_cases e : s = n
        · simp [e]
        · have : s ∈ l1 ++ p :: l2 := by
            refine (hW.mem s).mpr ⟨b1, ?_, hs.m2.le.trans b3⟩
            rcases lt_trichotomy (sk s) (sk n) with h | h | h
            · exact h
            · exfalso
              unfold sk at h
              injection h with _ h; injection h with _ h; injection h with ha hb
              exact e (hw.inj s n b1 hs.live ha hb)
            · exact absurd (hs.start hw hl hk b1 (hs.m1.trans h) b2) e
          simp only [List.mem_append, List.mem_cons, hsp, false_or] at this ⊢
          tauto
      · exact absurd (lt_of_lt_of_le b2 hs.h2) (lt_irrefl _)
      · exact absurd (lt_of_lt_of_le b2 h3) (lt_irrefl _)
  · rw [List.isChain_append] at hch
    obtain ⟨k1, k2, k3⟩ := hch
    have k2' : l2.IsChain (OK mk L (sk n)) := by
      cases l2 with
      | nil => exact .nil
      | cons v l2 => exact (List.isChain_cons_cons.mp k2).2
    have m1 : l1.IsChain (OK mk L' κ) := by
      refine (chain_imp_mem k1 fun u hu v hv h => hk.ok4 hw hw' hs (hin u (Or.inl hu)).2.1 (hin v (Or.inl hv)).2.1 (Or.inr (c1 v hv)) h)
    have m2 : l2.IsChain (OK mk L' κ) := by
      refine (chain_imp_mem k2' fun u hu v hv h => hk.ok4 hw hw' hs (hin u (Or.inr hu)).2.1 (hin v (Or.inr hv)).2.1 (Or.inl (c2 u hu)) h)
    rw [List.isChain_append]
    refine ⟨m1, ?_, ?_⟩
    · cases l2 with
      | nil => exact .singleton _
      | cons v l2 =>
        refine List.isChain_cons_cons.mpr ⟨?_, m2⟩
        have hv := hin v (by simp)
        have := hk.ok_over hw hw' hs ho hc hlt hmb hv.1 (hsn v (by simp)) (fun e => hp2 (by simp [e])) (Or.inr (List.isChain_cons_cons.mp k2).1)
        rcases this with h | h
        · exact Or.inl h.symm
        · exact Or.inr (Or.inr (Or.inr h.symm))
    · intro u hu v hv
      simp only [List.head?_cons, Option.mem_def, Option.some.injEq] at hv
      subst hv
      have hu' : u ∈ l1 := List.mem_of_getLast? hu
      have := hk.ok_over hw hw' hs ho hc hlt hmb (hin u (Or.inl hu')).1 (hsn u (Or.inl hu')) (fun e => hp1 (e ▸ hu')) (Or.inl (k3 u hu p rfl))
      rcases this with h | h
      · exact Or.inl h
      · exact Or.inr (Or.inr (Or.inr h))
end
end PolyOps.Planarity
