import Verif.Lemmas.LoopsNeat

/-! What becomes of the anchors, from the end of following to the loops. -/
namespace PolyOps.Loops
open PolyOps PolyOps.Sweep PolyOps.Exec

/-- Adopting one orphan, with what becomes of the anchors. -/
theorem Inv2.adopt_neat {W w : Work} {P : List Piece} {V : List VPiece} {o : Nat} {os : List Nat} (h : Inv2 w P V (o :: os))
    (hp : ∀ p ∈ P, p.Neat w.lp) (hv : ∀ v ∈ V, v.keep = true → v.Neat w.lp) (hs : Same W w) {D : List Arc} (ht : ∀ c ∈ D, Tracked W w c) :
    ∃ w' P' V', w.adopt o = some w' ∧ Inv2 w' P' V' os ∧ (corners2 w' P' V').Perm (corners2 w P V) ∧ Same w w' ∧
      (∀ p ∈ P', p.Neat w'.lp) ∧ (∀ v ∈ V', v.keep = true → v.Neat w'.lp) ∧ ∀ c ∈ D, Tracked W w' c := by
  obtain ⟨w', P', V', e1, e2, e3, e4, V1, v, V2, eV, ep, eP, eV', el⟩ := h.adopt
  have ho := h.orphan o List.mem_cons_self
  have lpo : w'.lp o = { w.lp o with st := .res (if v.keep then .kept else .discard), next := v.next } := by rw [el, setFn_same]
  have lpn : ∀ k, k ≠ o → w'.lp k = w.lp k := fun k hk => by rw [el, setFn_ne _ _ hk]
  have ha : ∀ k, (w'.lp k).anchor = (w.lp k).anchor := by
    intro k
    by_cases c : k = o
    · rw [c, lpo]
    · rw [lpn k c]
  have hd : ∀ k, (w'.lp k).data = (w.lp k).data := by
    intro k
    by_cases c : k = o
    · rw [c, lpo]
    · rw [lpn k c]
  have hnd := h.nodup
  have hno : o ∉ P.flatMap Piece.nodes ∧ o ∉ V.flatMap VPiece.rest := by
    rw [List.nodup_append] at hnd
    refine ⟨fun c => hnd.2.2 o c o (by simp) rfl, fun c => ?_⟩
    have := hnd.2.1
    rw [List.nodup_append] at this
    exact this.2.2 o c o (by simp) rfl
  have hvo : ∀ u ∈ V, ∀ k ∈ u.rest, k ≠ o := fun u hu k hk c => hno.2 (List.mem_flatMap.mpr ⟨u, hu, c ▸ hk⟩)
  refine ⟨w', P', V', e1, e2, e3, e4, ?_, ?_, ?_⟩
  · intro p hpm
    rw [eP] at hpm
    rcases List.mem_append.mp hpm with hpm | hpm
    · exact (hp p hpm).congr (fun k hk => lpn k fun c => hno.1 (List.mem_flatMap.mpr ⟨p, hpm, c ▸ hk⟩)) ha
    · unfold VPiece.born at hpm
      split at hpm
      · rename_i kk
        rw [List.mem_singleton] at hpm
        subst hpm
        have hvm : v ∈ V := by rw [eV]; simp
        have hvn := hv v hvm kk
        obtain ⟨z, hz, _, _⟩ := (h.virts v hvm).sq kk
        have hsq : Sq (fun i => (w'.lp i).next) (w'.lp o).next v.rest z := by
          rw [lpo]
          exact Sq.congr hz fun k hk => by change (w'.lp k).next = _; rw [lpn k (hvo v hvm k hk)]
        refine ⟨?_, ?_⟩
        · change List.IsChain _ (o :: v.rest)
          have ht := hvn.tidy.congr (lp' := w'.lp) fun k _ => ⟨ha k, hd k⟩
          unfold Tidy at ht
          cases hr : v.rest with
          | nil => simp
          | cons x r =>
            rw [hr] at ht
            refine List.isChain_cons_cons.mpr ⟨fun hx => ?_, ht⟩
            rw [ha] at hx ⊢
            rw [hd, hd, ho.1]
            exact ⟨rfl, (hvn.pos x (by rw [hr]; rfl) hx).trans ep⟩
        · have := (Sq.chain (nx := fun i => (w'.lp i).next) hsq).2
          have e : (w'.lp (Piece.last ⟨o, v.rest, v.target⟩)).next = z := this
          rw [e, ha]
          exact hvn.na z hz
      · simp at hpm
  · intro u hu hk
    have hum : u ∈ V := by
      rw [eV'] at hu
      rw [eV]
      rcases List.mem_append.mp hu with c | c
      · exact List.mem_append_left _ c
      · exact List.mem_append_right _ (List.mem_cons_of_mem _ c)
    exact (hv u hum hk).congr (fun k hk => lpn k (hvo u hum k hk)) ha
  · intro c hc k hk hka
    obtain ⟨t1, t2, t3⟩ := ht c hc k hk hka
    have hko : k ≠ o := by
      intro e
      have := (hs.2 k).1
      rw [hka, e, ho.1] at this
      cases this
    refine ⟨by rw [lpn k hko]; exact t1, fun kk => ?_, by rw [lpn k hko, ha]; exact t3⟩
    rw [← t2 kk]
    unfold Work.line Work.endPoint
    rw [lpn k hko, hd]

theorem Inv2.adoptAll_neat {W : Work} : ∀ {os : List Nat} {w : Work} {P : List Piece} {V : List VPiece}, Inv2 w P V os →
    (∀ p ∈ P, p.Neat w.lp) → (∀ v ∈ V, v.keep = true → v.Neat w.lp) → Same W w → ∀ {D : List Arc}, (∀ c ∈ D, Tracked W w c) →
    ∃ w' P', w.adoptAll os = some w' ∧ Inv2 w' P' [] [] ∧ (corners2 w' P' []).Perm (corners2 w P V) ∧ Same w w' ∧
      (∀ p ∈ P', p.Neat w'.lp) ∧ ∀ c ∈ D, Tracked W w' c
  | [], w, P, V, h, hp, _, _, D, ht => by
    have hV : V = [] := by
      have := h.bal.length_eq
      simpa using this.symm
    subst hV
    exact ⟨w, P, rfl, h, List.Perm.refl _, Same.refl w, hp, ht⟩
  | o :: os, w, P, V, h, hp, hv, hs, D, ht => by
    obtain ⟨w1, P1, V1, e1, h1, c1, s1, p1, v1, t1⟩ := h.adopt_neat hp hv hs ht
    obtain ⟨w2, P2, e2, h2, c2, s2, p2, t2⟩ := Inv2.adoptAll_neat (W := W) h1 p1 v1 (hs.trans s1) t1
    refine ⟨w2, P2, ?_, h2, c2.trans c1, s1.trans s2, p2, t2⟩
    unfold Work.adoptAll
    rw [e1, Option.bind_some, e2]

theorem join_st {w w' : Work} {i : Nat} (h : w.join i = some w') (k : Nat) : (w'.lp k).st = (w.lp k).st := by
  unfold Work.join at h
  dsimp only at h
  split at h
  · cases h
  · cases h
    dsimp only
    by_cases c : k = i
    · rw [c, setFn_same]
    · rw [setFn_ne _ _ c]

theorem joinAll_st : ∀ {es : List Nat} {w w' : Work}, w.joinAll es = some w' → ∀ k, (w'.lp k).st = (w.lp k).st
  | [], w, w', h, k => by cases h; rfl
  | e :: es, w, w', h, k => by
    unfold Work.joinAll at h
    obtain ⟨w1, h1, h2⟩ := Option.bind_eq_some_iff.mp h
    rw [joinAll_st h2 k, join_st h1 k]

/-- The points that are anchors or not kept keep their next point. -/
theorem trace_next (k i x : Nat) : ∀ (fuel : Nat) (f f' : Found) (prev j size size' : Nat), Found.trace k i fuel f prev j size = some (f', size') →
    x ≠ prev → f.idx x ≠ .unset → f'.next x = f.next x ∧ f'.idx x ≠ .unset
  | 0, _, _, _, _, _, _, h, _, _ => by simp [Found.trace] at h
  | fuel + 1, f, f', prev, j, size, size', h, hp, hu => by
    unfold Found.trace at h
    split at h
    · cases h; exact ⟨rfl, hu⟩
    · have hset : setFn f.idx j (.loop k) x ≠ .unset := by
        by_cases c : x = j
        · rw [c, setFn_same]; simp
        · rw [setFn_ne _ _ c]; exact hu
      split at h
      · obtain ⟨a, b⟩ := trace_next k i x fuel _ _ _ _ _ _ h hp hset
        refine ⟨a.trans ?_, b⟩
        exact setFn_ne _ _ hp
      · rename_i e
        have hxj : x ≠ j := fun c => hu (c ▸ e)
        exact trace_next k i x fuel { f with idx := setFn f.idx j (.loop k) } f' j (f.next j) _ _ h hxj hset
      · cases h

theorem find_next (fuel x : Nat) (f : Found) (hu : f.idx x ≠ .unset) : ∀ (n : Nat) (f' : Found), Found.find fuel f n = some f' →
    f'.next x = f.next x ∧ f'.idx x ≠ .unset
  | 0, f', h => by cases h; exact ⟨rfl, hu⟩
  | n + 1, f', h => by
    unfold Found.find at h
    obtain ⟨g, h1, h2⟩ := Option.bind_eq_some_iff.mp h
    obtain ⟨a, b⟩ := find_next fuel x f hu n g h1
    split at h2
    · rename_i e
      obtain ⟨⟨r, s⟩, h3, h4⟩ := Option.map_eq_some_iff.mp h2
      have hxn : x ≠ n := fun c => b (c ▸ e)
      obtain ⟨c, d⟩ := trace_next _ n x _ _ _ _ _ _ _ h3 hxn (by change setFn g.idx n _ x ≠ _; rw [setFn_ne _ _ hxn]; exact b)
      subst h4
      exact ⟨c.trans a, d⟩
    · cases h2; exact ⟨a, b⟩

/-- The line of an anchor on a piece is the line of a point of its loop. -/
theorem anchor_line {w : Work} {P : List Piece} {f : Found} (hj : Joined w P) (hx : Extracted w P f) (hf : w.findLoops = some f)
    (ht : ∀ p ∈ P, Tidy w.lp p.nodes) {k : Nat} (hk : k < w.np) (hkeep : (w.lp k).keep = true) (hka : (w.lp k).anchor = true) :
    lineOf w f k = w.line k ∧ ∃ m, m < f.loops.length ∧ f.idx k = .loop m ∧ w.line k ∈ loopLines w f m := by
  have hnx : f.next k = (w.lp k).next := by
    refine (find_next _ k _ ?_ _ _ hf).1
    dsimp only [OP.mark]
    rw [if_pos hkeep, if_pos hka]; simp
  have hl : lineOf w f k = w.line k := by unfold lineOf Work.line Work.endPoint; rw [hnx]
  refine ⟨hl, ?_⟩
  obtain ⟨p, hp, hkp⟩ := List.mem_flatMap.mp ((hj.keep k hk).mp hkeep)
  obtain ⟨l1, l2, e⟩ := List.append_of_mem hkp
  have hl1 : l1 ≠ [] := by
    intro c
    rw [c] at e
    have : p.first = k := by unfold Piece.nodes at e; exact (List.cons.inj e).1
    have h1 := hj.first p hp
    rw [this, hka] at h1; cases h1
  obtain ⟨l0, i, rfl⟩ : ∃ l0 i, l1 = l0 ++ [i] := ⟨_, _, (List.dropLast_append_getLast hl1).symm⟩
  have e' : p.nodes = l0 ++ i :: k :: l2 := by rw [e]; simp
  obtain ⟨t1, t2⟩ := isChain_iff_split.mp (ht p hp) l0 i k l2 e' hka
  obtain ⟨t, w1, w2⟩ := hx.walk p hp
  have hik : i ∈ p.nodes.filter (fun i => !(w.lp i).anchor) := by
    rw [List.mem_filter]; exact ⟨by rw [e']; simp, by simp [t1]⟩
  have hfi : f.next i = (w.lp k).next := by
    have hc := Sq.chain (nx := f.next) w2
    have hfilt : p.first :: t = l0.filter (fun i => !(w.lp i).anchor) ++ i :: l2.filter (fun i => !(w.lp i).anchor) := by
      rw [← w1, e', List.filter_append, List.filter_cons, if_pos (by simp [t1]), List.filter_cons, if_neg (by simp [hka])]
    cases hl2 : l2 with
    | nil =>
      rw [hl2] at hfilt e'
      have hlast : (p.first :: t).getLast (by simp) = i := by simp only [hfilt]; simp
      rw [hlast] at hc
      rw [hc.2]
      have : p.last = k := by
        have h1 : p.last = p.nodes.getLast (by simp [Piece.nodes]) := rfl
        rw [h1]; simp only [e']; simp
      rw [this]
    | cons b r =>
      rw [hl2] at hfilt e'
      have hb : (w.lp k).next = b := isChain_iff_split.mp (hj.chain p hp) (l0 ++ [i]) k b r (by rw [e']; simp)
      have hbn : (w.lp b).anchor = false := by
        by_contra c
        have := isChain_iff_split.mp (ht p hp) (l0 ++ [i]) k b r (by rw [e']; simp) (by simpa using c)
        rw [hka] at this; cases this.1
      rw [List.filter_cons, if_pos (by simp [hbn])] at hfilt
      rw [hb]
      exact isChain_iff_split.mp hc.1 _ i b _ hfilt
  have hir : i ∈ f.loops.flatMap f.ring := by
    rw [hx.part.mem_iff, List.mem_filter]
    have him : i ∈ P.flatMap Piece.nodes := List.mem_flatMap.mpr ⟨p, hp, (List.mem_filter.mp hik).1⟩
    exact ⟨List.mem_range.mpr (hj.lt i him), by simp [t1, (hj.keep i (hj.lt i him)).mpr him]⟩
  obtain ⟨l, hlm, hil⟩ := List.mem_flatMap.mp hir
  obtain ⟨m, hm, rfl⟩ := List.mem_iff_getElem.mp hlm
  have hg : f.loops.getD m (0, 0) = f.loops[m] := by rw [List.getD_eq_getElem _ _ hm]
  refine ⟨m, hm, ?_, ?_⟩
  · rw [hx.piece p hp k hkp, ← hx.piece p hp i (List.mem_filter.mp hik).1]
    exact hx.idx m hm i (by rw [hg]; exact hil)
  · unfold loopLines
    rw [List.mem_map]
    refine ⟨i, by rw [hg]; exact hil, ?_⟩
    unfold lineOf Work.line Work.endPoint
    rw [hfi, t2]

/-- A line in its direction of use. -/
def turned (s : LState) (e : Pt × Pt) : Pt × Pt := if s.rev then e.swap else e

/-- All phases together, for neat arcs. -/
theorem Start.tree {W : Work} {A : List Arc} (h : Start W A) (hb1 : RevBal W A) (hb2 : KeepBal W A) (hn : ∀ a ∈ A, a.Neat W.lp) :
    ∃ w1 w' P f, W.followAll (A.map Arc.head) = some w1 ∧ w1.reconnect = some w' ∧ w'.findLoops = some f ∧
      Joined w' P ∧ Extracted w' P f ∧ (P.map (Piece.corners w'.lp)).Perm (A.flatMap (Arc.lines W.lp)) ∧ Same W w' ∧
      (∀ a ∈ A, ∀ k ∈ a.mid, (W.lp k).anchor = true →
        ((W.lp a.head).ls.keep = false → f.idx k = .discarded) ∧
        ((W.lp a.head).ls.keep = true → lineOf w' f k = turned (W.lp a.head).ls (W.line k) ∧
          ∃ m, m < f.loops.length ∧ f.idx k = .loop m ∧ turned (W.lp a.head).ls (W.line k) ∈ loopLines w' f m)) ∧
      (Fit (A.flatMap (Arc.lines W.lp)) → Parts ((A.flatMap (Arc.lines W.lp)).flatMap pairs) f.loops.length (loopLines w' f)) := by
  obtain ⟨w1, P1, V1, e1, i1, c1, rh, rs, s1, n1, t1⟩ := Neat1.followAll (W := W) (D := []) h.inv1 ⟨hn, by simp, by simp⟩
    (fun a ha => ⟨h.arcs a ha, fun _ _ => rfl⟩) (Same.refl W) (by simp) (by simp)
  have b1 : (revHeads w1 []).Perm (revStops w1 [] V1) := by
    refine (rh.trans ?_).trans rs.symm
    simpa [revHeads, revStops, h.orphans, RevBal] using hb1
  obtain ⟨w2, P2, e2, i2, c2, s2, n2, t2⟩ := (i1.inv2 b1).adoptAll_neat (W := W) n1.pieces n1.virts s1 t1
  have hc : (corners2 w2 P2 []).Perm (A.flatMap (Arc.lines W.lp)) := by
    refine c2.trans ?_
    have : corners2 w1 P1 V1 = corners w1 [] P1 V1 := rfl
    rw [this]
    refine c1.trans ?_
    simp [corners]
  have i3 := i2.inv3 (((hc.map _).trans hb2).trans (hc.map _).symm)
  have hC2 : (P2.map (Piece.corners w2.lp)).Perm (A.flatMap (Arc.lines W.lp)) := by
    have : P2.map (Piece.corners w2.lp) = corners2 w2 P2 [] := by
      unfold corners2
      rw [List.filter_nil, List.map_nil, List.append_nil]
    rw [this]; exact hc
  have hnaP : ∀ p ∈ P2, p.last ∈ w2.ends := by
    intro p hp
    have : w2.ends.Perm (P2.map Piece.last) := by simpa [endsOf] using i2.ends
    exact this.symm.subset (List.mem_map.mpr ⟨p, hp, rfl⟩)
  obtain ⟨w3, e3, j3, d3, a3, np3⟩ := i3.joinAll
  have hj := j3.joined
  obtain ⟨f, ef, hf⟩ := hj.find
  have hC3 : (P2.map (Piece.corners w3.lp)).Perm (A.flatMap (Arc.lines W.lp)) := by
    have : P2.map (Piece.corners w3.lp) = P2.map (Piece.corners w2.lp) := by
      apply List.map_congr_left
      intro p _
      unfold Piece.corners
      rw [crd_congr (fun k _ => a3 k) (fun k _ _ => d3 k)]
    rw [this]; exact hC2
  have hsame : Same W w3 := (s1.trans s2).trans ⟨np3, fun k => ⟨a3 k, fun _ => d3 k⟩⟩
  have htidy : ∀ p ∈ P2, Tidy w3.lp p.nodes := fun p hp => (n2 p hp).tidy.congr fun k _ => ⟨a3 k, d3 k⟩
  refine ⟨w1, w3, P2, f, e1, ?_, ef, hj, hf, hC3, hsame, ?_, ?_⟩
  · unfold Work.reconnect; rw [e2, Option.bind_some, e3]
  · intro a ha k hk hka
    obtain ⟨u1, u2, u3⟩ := t2 a (by simpa using ha) k hk hka
    have hklt : k < w3.np := by
      rw [hsame.1]
      exact h.lt k (List.mem_flatMap.mpr ⟨a, ha, List.mem_cons_of_mem _ hk⟩)
    have hst : (w3.lp k).keep = (W.lp a.head).ls.keep := by
      unfold OP.keep
      rw [joinAll_st e3 k, u1]
    refine ⟨fun hd => hf.drop k hklt (hst.trans hd), fun hkp => ?_⟩
    have hka3 : (w3.lp k).anchor = true := (hsame.2 k).1.trans hka
    have hkeep := hst.trans hkp
    obtain ⟨v1, v2⟩ := anchor_line hj hf ef htidy hklt hkeep hka3
    have hline : w3.line k = turned (W.lp a.head).ls (W.line k) := by
      unfold turned
      rw [← u2 hkp]
      obtain ⟨p, hp, hkP⟩ := List.mem_flatMap.mp ((hj.keep k hklt).mp hkeep)
      unfold Work.line Work.endPoint
      rw [d3, d3]
      congr 1
      obtain ⟨l1, l2, e⟩ := List.append_of_mem hkP
      cases hl2 : l2 with
      | nil =>
        have hlast : p.last = k := by
          have h1 : p.last = p.nodes.getLast (by simp [Piece.nodes]) := rfl
          rw [h1]; simp only [e, hl2]; simp
        have q1 := i3.open_ p hp (hnaP p hp)
        obtain ⟨q, _, q2, q3⟩ := hj.link p hp
        rw [hlast] at q1 q2
        rw [q1, q2, ← d3, q3]
      | cons b r =>
        rw [hl2] at e
        rw [isChain_iff_split.mp (hj.chain p hp) l1 k b r e, isChain_iff_split.mp (i3.chain p hp) l1 k b r e]
    rw [hline] at v1 v2
    exact ⟨v1, v2⟩
  · intro hfit
    have i4 : Inv4 w2 P2 w2.ends (P2.map Piece.first) := by
      refine { i3 with tidy := fun p hp => (n2 p hp).tidy, na := fun p hp => (n2 p hp).na, sharp := sharp_of hfit.arr hfit.bal hfit.unit hfit.tip hC2 i3.first, used := ?_, best := ?_ }
      · intro q hq hn
        exact absurd (List.mem_map.mpr ⟨q, hq, rfl⟩) hn
      · intro p hp hn
        exact absurd (hnaP p hp) hn
    obtain ⟨w4, e4, i5, _⟩ := i4.joinAll
    rw [e3] at e4
    cases e4
    refine loop_parts hj hf hfit.arr hfit.bal hfit.unit hfit.tip hC3 ?_
    intro p hp
    obtain ⟨q, hq, l1, l2⟩ := hj.link p hp
    exact ⟨q, hq, l1, i5.best p hp (by simp) q hq l1⟩

end PolyOps.Loops
