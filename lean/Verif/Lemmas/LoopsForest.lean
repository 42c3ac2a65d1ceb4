import Verif.Lemmas.LoopsTrack

/-! The loops with tree output, from classified lines. -/
namespace PolyOps.Loops
open PolyOps PolyOps.Sweep PolyOps.Exec

section
variable {w W : Work} (hb : Bare w) (h : Anch w W)
include hb h

/-- The points from `w.np` on are the anchors. -/
theorem Anch.new {k : Nat} (h1 : w.np ≤ k) (h2 : k < W.np) : (W.lp k).anchor = true := by
  obtain ⟨i, hi, e⟩ := h.all k h1 h2
  rcases h.cases hb hi with ⟨_, c⟩ | ⟨_, _, _, c⟩
  · omega
  · rw [← e, c]

theorem Anch.tidy : ∀ {l : List Nat}, (∀ k ∈ l, k < w.np) → Tidy W.lp (l.flatMap (fun k => k :: W.ext w.np k))
  | [], _ => by unfold Tidy; simp
  | k :: l, hl => by
    have ih := Anch.tidy (l := l) (fun x hx => hl x (List.mem_cons_of_mem _ hx))
    have hk := hl k List.mem_cons_self
    unfold Tidy at ih ⊢
    have hhead : ∀ {x : Nat}, ∀ y ∈ (l.flatMap (fun k => k :: W.ext w.np k)).head?, ((W.lp y).anchor = true → (W.lp x).anchor = false ∧ (W.lp y).data = (W.lp x).data) := by
      intro x y hy ha
      cases l with
      | nil => simp at hy
      | cons b l =>
        have e : y = b := by simpa using hy.symm
        rw [e, (h.flag hb (hl b (by simp))).1] at ha
        cases ha
    rw [List.flatMap_cons]
    rcases h.ext_cases hb hk with ⟨e, _⟩ | ⟨a, e, _, _, e3, e4⟩
    · rw [e]
      exact List.isChain_cons.mpr ⟨hhead, ih⟩
    · rw [e]
      refine List.isChain_cons.mpr ⟨?_, List.isChain_cons.mpr ⟨hhead, ih⟩⟩
      intro y hy ha
      have : y = a := by simpa using hy.symm
      subst this
      refine ⟨(h.flag hb hk).1, ?_⟩
      rw [e4, e3]

theorem Anch.neat {a : Arc} (hl : ∀ k ∈ a.nodes, k < w.np) (hs : a.stop < w.np) : (a.ext W w.np).Neat W.lp :=
  ⟨by rw [Arc.ext_nodes]; exact h.tidy hb hl, (h.flag hb hs).1⟩

/-- The line of an anchor. -/
theorem Anch.line {k : Nat} (hk : k < w.np) (hn : w.np ≤ W.anc k) : W.line (W.anc k) = ((w.lp k).data, (w.lp (w.lp k).next).data) ∧
    (W.lp (W.anc k)).anchor = true ∧ W.anc k ∈ W.ext w.np k := by
  rcases h.cases hb hk with ⟨_, c⟩ | ⟨c1, c2, c3, c4⟩
  · exact absurd hn (by unfold Work.anc; omega)
  · have c4' : W.lp (W.anc k) = { w.lp k with st := .undef, anchor := true } := c4
    refine ⟨?_, by rw [c4'], ?_⟩
    · unfold Work.line Work.endPoint
      rw [c4']
      dsimp only
      rw [(h.flag hb (hb.next k hk)).2.1]
    · unfold Work.ext; rw [if_pos c1]; exact List.mem_singleton.mpr rfl

end

theorem Arc.ext_mid {W : Work} {n : Nat} {a : Arc} {k j : Nat} (hk : k ∈ a.nodes) (hj : j ∈ W.ext n k) : j ∈ (a.ext W n).mid := by
  unfold Arc.ext
  dsimp only
  rcases List.mem_cons.mp hk with c | c
  · rw [List.mem_append]; left; rw [← c]; exact hj
  · rw [List.mem_append]; right
    exact List.mem_flatMap.mpr ⟨k, c, List.mem_cons_of_mem _ hj⟩

section
variable {lp : Nat → OP} {np : Nat} {cls : Nat → LState}

theorem Input.bare (h : Input lp np cls) : Bare (Work.init lp np) := ⟨h.next_lt, h.anchor⟩

/-- The arcs with anchors. -/
theorem Input.start (h : Input lp np cls) {A : List Arc} (hA : ∀ a ∈ A, IsArc lp a)
    (hs : (A.map Arc.head).Perm ((List.range np).filter (fun i => decide ((lp i).st ≠ .undef)))) {W : Work} (hW : Anch (Work.init lp np) W) :
    Start W (A.map (Arc.ext W np)) ∧ (A.map (Arc.ext W np)).flatMap (Arc.lines W.lp) = A.flatMap (Arc.lines lp) ∧
    (∀ a ∈ A.map (Arc.ext W np), (∀ k ∈ a.nodes, k < W.np) ∧ a.stop < W.np) ∧ (∀ a ∈ A.map (Arc.ext W np), a.Neat W.lp) ∧
    (RevBal (Work.init lp np) A → RevBal W (A.map (Arc.ext W np))) := by
  have hlt : ∀ a ∈ A, a.head < np := by
    intro a ha
    have := hs.subset (List.mem_map.mpr ⟨a, ha, rfl⟩)
    exact List.mem_range.mp (List.mem_filter.mp this).1
  have hl : ∀ a ∈ A, (∀ k ∈ a.nodes, k < np) ∧ a.stop < np := fun a ha => h.nodes_lt (hA a ha) (hlt a ha)
  have hp := h.perm hA hs
  have hpe : ((A.map (Arc.ext W np)).flatMap Arc.nodes).Perm (List.range W.np) := by
    have := hW.perm h.bare h.next_inj hp
    rw [List.flatMap_assoc] at this
    rw [List.flatMap_map]
    exact this
  have hnd : ((A.map (Arc.ext W np)).flatMap Arc.nodes).Nodup := hpe.nodup_iff.mpr List.nodup_range
  have hmem : ∀ a ∈ A.map (Arc.ext W np), ∀ k ∈ a.nodes, k < W.np := fun a ha k hk =>
    List.mem_range.mp (hpe.subset (List.mem_flatMap.mpr ⟨a, ha, hk⟩))
  refine ⟨⟨?_, hnd, fun k hk => List.mem_range.mp (hpe.subset hk), fun k hk _ => hpe.symm.subset (List.mem_range.mpr hk), ?_, ?_, ?_, ?_⟩, ?_, ?_, ?_, ?_⟩
  · intro b hb
    obtain ⟨a, ha, rfl⟩ := List.mem_map.mp hb
    refine hW.isArc h.bare (hA a ha) (hl a ha).1 (hl a ha).2 ?_
    exact (List.nodup_flatMap.mp hnd).1 _ hb
  · intro c; rw [hW.same]; rfl
  · rw [hW.same]; rfl
  · intro c; rw [hW.same]; rfl
  · rw [hW.same]; rfl
  · rw [List.flatMap_map]
    apply List.flatMap_congr
    intro a ha
    exact hW.lines h.bare (hl a ha).1 (hl a ha).2
  · intro b hb
    refine ⟨hmem b hb, ?_⟩
    obtain ⟨a, ha, rfl⟩ := List.mem_map.mp hb
    exact (hl a ha).2.trans_le hW.le
  · intro b hb
    obtain ⟨a, ha, rfl⟩ := List.mem_map.mp hb
    exact hW.neat h.bare (hl a ha).1 (hl a ha).2
  · unfold RevBal
    intro hr
    have e1 : ∀ a ∈ A, (W.lp (a.ext W np).head).ls.rev = ((Work.init lp np).lp a.head).ls.rev := by
      intro a ha
      have := (hW.flag h.bare (hlt a ha)).2.2
      unfold OP.ls
      change (match (W.lp a.head).st with | .res s => s | _ => .discard).rev = _
      rw [this]
      rfl
    have e2 : ∀ (B : List Arc), B ⊆ A → (B.map (Arc.ext W np)).filter (fun a => (W.lp a.head).ls.rev) = (B.filter (fun a => ((Work.init lp np).lp a.head).ls.rev)).map (Arc.ext W np) := by
      intro B hB
      rw [List.filter_map]
      congr 1
      apply List.filter_congr
      intro a ha
      exact e1 a (hB ha)
    rw [e2 A (fun _ h => h), List.map_map, List.map_map]
    have e3 : ∀ a ∈ A.filter (fun a => ((Work.init lp np).lp a.head).ls.rev), (W.lp (a.ext W np).head).data = ((Work.init lp np).lp a.head).data ∧
        (W.lp (a.ext W np).stop).data = ((Work.init lp np).lp a.stop).data := by
      intro a ha
      have ha := (List.mem_filter.mp ha).1
      exact ⟨(hW.flag h.bare (hlt a ha)).2.1, (hW.flag h.bare (hl a ha).2).2.1⟩
    refine ((List.Perm.of_eq (List.map_congr_left fun a ha => ?_)).trans hr).trans (List.Perm.of_eq (List.map_congr_left fun a ha => ?_))
    · exact (e3 a ha).1
    · exact (e3 a ha).2.symm

/-- The lines that a sample names. -/
def Named (S : List (Nat × List Nat)) (k : Nat) : Prop := ∃ s ∈ S, k = s.1 ∨ k ∈ s.2

/-- The loops with tree output, and on which loops the anchors are. -/
theorem Input.tree (h : Input lp np cls) {S : List (Nat × List Nat)}
    (hs : (S.map Prod.fst).Perm ((List.range np).filter (fun i => decide ((lp i).st ≠ .undef)))) (hS : ∀ s ∈ S, ∀ k ∈ s.2, k < np)
    (hk : Balanced (keptLines lp np cls)) (hr : Balanced ((revLines np cls).map (fun i => ((lp i).data, (lp (lp i).next).data)))) :
    ∃ w P f an, doOpTree lp np S = some (w, f, S.map fun s => (an s.1, s.2.map an)) ∧ np ≤ w.np ∧
      (∀ k, k < np → (w.lp k).data = (lp k).data ∧ (w.lp k).anchor = false) ∧ (∀ k, k < w.np → (w.lp k).anchor = false → k < np) ∧
      Joined w P ∧ Extracted w P f ∧
      ((f.loops.flatMap f.ring).map (fun i => ((w.lp i).data, (w.lp (f.next i)).data))).Perm (keptLines lp np cls) ∧
      (∀ k, Named S k → ((cls k).keep = false → f.idx (an k) = .discarded) ∧ ((cls k).keep = true → lineOf w f (an k) = used lp cls k ∧
        ∃ m, m < f.loops.length ∧ f.idx (an k) = .loop m ∧ used lp cls k ∈ loopLines w f m)) ∧
      (∀ m, m < f.loops.length → ∃ s ∈ S, (cls s.1).keep = true ∧ used lp cls s.1 ∈ loopLines w f m) ∧
      (Exec.Arr (keptLines lp np cls) → Bal (keptLines lp np cls) →
        (∀ x y, Off (keptLines lp np cls) x y → wind (keptLines lp np cls) x y = 0 ∨ wind (keptLines lp np cls) x y = 1) →
        (∀ i < np, (lp (lp i).next).st = .undef → (cls i).keep = true →
          Tip (keptLines lp np cls) (corner3 lp cls i).1 (corner3 lp cls i).2.1 (corner3 lp cls i).2.2) →
        Parts (keptLines lp np cls) f.loops.length (loopLines w f)) := by
  have hmem : ∀ k ∈ S.map Prod.fst, k < np ∧ (lp k).st ≠ .undef := by
    intro k hk
    have := List.mem_filter.mp (hs.subset hk)
    exact ⟨List.mem_range.mp this.1, by simpa using this.2⟩
  obtain ⟨A, eA, hA⟩ := h.arcs (S.map Prod.fst) hmem
  have hsA : (A.map Arc.head).Perm ((List.range np).filter (fun i => decide ((lp i).st ≠ .undef))) := eA ▸ hs
  have hS' : ∀ s ∈ S, s.1 < (Work.init lp np).np ∧ ∀ k ∈ s.2, k < (Work.init lp np).np :=
    fun s hsm => ⟨(hmem _ (List.mem_map.mpr ⟨s, hsm, rfl⟩)).1, hS s hsm⟩
  have hnam : ∀ k, Named S k → k < np := by
    rintro k ⟨s, hsm, c | c⟩
    · rw [c]; exact (hS' s hsm).1
    · exact (hS' s hsm).2 k c
  obtain ⟨h0, h0e, -, -⟩ := anch_all h.bare S (Anch.refl (Work.init lp np)) (fun s hs => (hS' s hs).2)
  obtain ⟨hW, eW, nW⟩ := anch_with h.bare hS'
  set w0 := ((Work.init lp np).anchorAll S).1 with hw0
  set W := (Work.init lp np).withAnchors S with hWd
  obtain ⟨s0, _, l0, _, _⟩ := h.start hA hsA h0
  obtain ⟨sW, lW, ltW, nW2, rW⟩ := h.start hA hsA hW
  have hhd : (A.map (Arc.ext W np)).map Arc.head = S.map Prod.fst := by rw [List.map_map, ← eA]; rfl
  have hhd0 : (A.map (Arc.ext w0 np)).map Arc.head = S.map Prod.fst := by rw [List.map_map, ← eA]; rfl
  have hfst : ((Work.init lp np).anchorAll S).2.map Prod.fst = S.map Prod.fst := by
    rw [h0e, List.map_map]; rfl
  have hfol := followTree_eq ((Work.init lp np).anchorAll S).2 (A.map (Arc.ext w0 np)) (w := w0) (by rw [hhd0, hfst]) s0.arcs s0.nodup l0
  rw [hfst] at hfol
  have hpk := h.all_lines hA hsA
  obtain ⟨w1, w', P, f, e1, e2, e3, hj, hf, hc, hsame, htr, hpar⟩ := sW.tree (rW (h.revBal hA hsA hr))
    (by unfold KeepBal; rw [lW]; exact h.keepBal hA hsA hk) nW2
  rw [hhd] at e1
  rw [lW] at hc hpar
  have hnp : np ≤ w'.np := by rw [hsame.1]; exact hW.le
  refine ⟨w', P, f, W.anc, ?_, hnp, ?_, ?_, hj, hf, ?_, ?_, ?_, ?_⟩
  · unfold doOpTree
    dsimp only
    rw [hfol]
    have : (w0.anchorHits (S.map Prod.fst)).1 = W := rfl
    rw [this, e1, eW]
    simp only [Option.map_some, Option.bind_some, e2, e3]
    rfl
  · intro k hk
    have hfl := hW.flag h.bare hk
    have := hsame.2 k
    exact ⟨(this.2 hfl.1).trans hfl.2.1, this.1.trans hfl.1⟩
  · intro k hk ha
    by_contra c
    have := hW.new h.bare (k := k) (by change np ≤ k; omega) (by rw [← hsame.1]; exact hk)
    rw [(hsame.2 k).1, this] at ha
    cases ha
  · exact (hf.lines (w := Work.init lp np) hc).trans (h.all_lines hA hsA)
  · intro k hkn
    have hklt := hnam k hkn
    have hanc : np ≤ W.anc k := by
      obtain ⟨s, hsm, c | c⟩ := hkn
      · rw [c]; exact (nW s hsm).1
      · exact (nW s hsm).2 k c
    obtain ⟨g1, g2, g3⟩ := hW.line h.bare hklt hanc
    obtain ⟨a, ha, hka⟩ := List.mem_flatMap.mp ((h.perm hA hsA).symm.subset (List.mem_range.mpr hklt))
    have hah : a.head < np := by
      have := hsA.subset (List.mem_map.mpr ⟨a, ha, rfl⟩)
      exact List.mem_range.mp (List.mem_filter.mp this).1
    have hcl := h.arc_cls (hA a ha) hah k hka
    have hls : (W.lp (a.ext W np).head).ls = cls k := by
      rw [hcl]
      have := (hW.flag h.bare hah).2.2
      unfold OP.ls
      change (match (W.lp a.head).st with | .res s => s | _ => .discard) = _
      rw [this]
      rfl
    have := htr (a.ext W np) (List.mem_map.mpr ⟨a, ha, rfl⟩) (W.anc k) (Arc.ext_mid hka g3) g2
    rw [hls, g1] at this
    have hu : turned (cls k) (((Work.init lp np).lp k).data, ((Work.init lp np).lp ((Work.init lp np).lp k).next).data) = used lp cls k := by
      unfold turned used
      split <;> rfl
    rw [hu] at this
    exact this
  · intro m hm
    have hr0 : (f.loops.getD m (0, 0)).1 ∈ f.ring (f.loops.getD m (0, 0)) := by
      unfold Found.ring
      exact List.mem_map.mpr ⟨0, List.mem_range.mpr (loop_ring hf hm).1, rfl⟩
    obtain ⟨p, hp, hkp⟩ := on_piece hj hf (ring_mem hm hr0)
    obtain ⟨t, t1, t2, t3⟩ := piece_lines hj hf hp
    obtain ⟨a, ha, hpa⟩ := List.mem_flatMap.mp (hc.subset (List.mem_map.mpr ⟨p, hp, rfl⟩))
    have hah : a.head < np := by
      have := hsA.subset (List.mem_map.mpr ⟨a, ha, rfl⟩)
      exact List.mem_range.mp (List.mem_filter.mp this).1
    have hst : (cls a.head).keep = true := by
      rw [h.arc_cls (hA a ha) hah a.head List.mem_cons_self]
      by_contra c
      unfold Arc.lines at hpa
      rw [if_neg c] at hpa
      simp at hpa
    have hsing : (a.lines lp).flatMap pairs = pairs (p.corners w'.lp) := by
      unfold Arc.lines at hpa ⊢
      split at hpa
      · rename_i c
        rw [if_pos c, List.mem_singleton.mp hpa, List.flatMap_cons, List.flatMap_nil, List.append_nil]
      · simp at hpa
    have hu : used lp cls a.head ∈ pairs (p.corners w'.lp) := by
      rw [← hsing]
      refine (h.arc_lines (hA a ha) hah).symm.subset (List.mem_map.mpr ⟨a.head, List.mem_filter.mpr ⟨List.mem_cons_self, hst⟩, rfl⟩)
    rw [← t3] at hu
    obtain ⟨k, hk, ek⟩ := List.mem_map.mp hu
    obtain ⟨s, hsm, es⟩ := List.mem_map.mp (eA ▸ List.mem_map.mpr ⟨a, ha, rfl⟩ : a.head ∈ S.map Prod.fst)
    refine ⟨s, hsm, by rw [es]; exact hst, ?_⟩
    rw [es, ← ek]
    have hkr : k ∈ f.loops.flatMap f.ring := piece_ring hj hf hp (by rw [t1]; exact hk)
    obtain ⟨l, hl, hkl⟩ := List.mem_flatMap.mp hkr
    obtain ⟨b, hb, rfl⟩ := List.getElem_of_mem hl
    have hkl' : k ∈ f.ring (f.loops.getD b (0, 0)) := by rw [List.getD_eq_getElem _ _ hb]; exact hkl
    have i1 := hf.idx b hb k hkl'
    have i2 := hf.idx m hm _ hr0
    have hkn : k ∈ p.nodes := (List.mem_filter.mp (by rw [t1]; exact hk : k ∈ p.nodes.filter (fun i => !(w'.lp i).anchor))).1
    rw [hf.piece p hp k hkn] at i1
    rw [hf.piece p hp _ (List.mem_filter.mp hkp).1, i1] at i2
    injection i2 with i2
    rw [← i2]
    exact List.mem_map.mpr ⟨k, hkl', rfl⟩
  · intro hArr hB hw ht
    have hfit : Fit (A.flatMap (Arc.lines lp)) := by
      refine ⟨hArr.perm hpk, hB.perm hpk, ?_, ?_⟩
      · refine unit_of (hArr.perm hpk) (hB.perm hpk) fun x y hoff => ?_
        have : wind ((A.flatMap (Arc.lines lp)).flatMap pairs) x y = wind (keptLines lp np cls) x y := wind_perm hpk x y
        rw [this]
        exact hw x y (fun e he => hoff e (hpk.symm.subset he))
      · rintro u v u' ⟨c, hc, hm⟩
        obtain ⟨a, ha, hca⟩ := List.mem_flatMap.mp hc
        have hah : a.head < np := by
          have := hsA.subset (List.mem_map.mpr ⟨a, ha, rfl⟩)
          exact List.mem_range.mp (List.mem_filter.mp this).1
        obtain ⟨i, hi, h1, h2, h3⟩ := h.tri (hA a ha) hah ⟨c, hca, hm⟩
        have := ht i hi h1 h2
        rw [h3] at this
        exact this.perm hpk
    exact (hpar hfit).perm hpk.symm

end
end PolyOps.Loops
