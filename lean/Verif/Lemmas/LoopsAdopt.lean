import Verif.Lemmas.LoopsFollow

/-! The second phase: orphans become the first points of the reversed arcs. -/
namespace PolyOps.Loops
open PolyOps PolyOps.Sweep

/-- Pieces `P`, waiting pieces `V`, orphans `os` left. -/
structure Inv2 (w : Work) (P : List Piece) (V : List VPiece) (os : List Nat) : Prop where
  pieces : ∀ p ∈ P, p.OK w.lp
  virts : ∀ v ∈ V, v.OK w.lp
  nodup : (P.flatMap Piece.nodes ++ (V.flatMap VPiece.rest ++ os)).Nodup
  lt : ∀ k ∈ P.flatMap Piece.nodes ++ (V.flatMap VPiece.rest ++ os), k < w.np
  rest : ∀ k, k < w.np → (w.lp k).keep = true → k ∈ P.flatMap Piece.nodes ++ (V.flatMap VPiece.rest ++ os)
  orphan : ∀ o ∈ os, (w.lp o).anchor = false ∧ (w.lp o).st ≠ .undef
  starts : ∀ c, (w.starts c).Perm ((P.map Piece.first).filter (fun i => decide ((w.lp i).data = c)))
  ends : w.ends.Perm (endsOf P V)
  vps : ∀ c, w.virts c = (V.filter (fun v => decide (v.pos = c))).map VPiece.vp
  bal : (os.map (fun i => (w.lp i).data)).Perm (V.map VPiece.pos)

def corners2 (w : Work) (P : List Piece) (V : List VPiece) : List (List Pt) :=
  P.map (Piece.corners w.lp) ++ (V.filter VPiece.keep).map (VPiece.corners w.lp)

theorem Inv1.inv2 {w : Work} {P : List Piece} {V : List VPiece} (h : Inv1 w [] P V) (hb : (revHeads w []).Perm (revStops w [] V)) :
    Inv2 w P V w.orphans := by
  refine ⟨h.pieces, h.virts, h.nodup, h.lt, h.rest, h.orphan, h.starts, h.ends, h.vps, ?_⟩
  simpa [revHeads, revStops] using hb

/-- The last element with a property. -/
theorem exists_last {α : Type} (f : α → Bool) : ∀ l : List α, (∃ x ∈ l, f x = true) →
    ∃ l1 v l2, l = l1 ++ v :: l2 ∧ f v = true ∧ ∀ x ∈ l2, f x = false
  | [], h => by obtain ⟨x, hx, _⟩ := h; simp at hx
  | a :: l, h => by
    by_cases c : ∃ x ∈ l, f x = true
    · obtain ⟨l1, v, l2, e, h1, h2⟩ := exists_last f l c
      exact ⟨a :: l1, v, l2, by rw [e]; rfl, h1, h2⟩
    · refine ⟨[], a, l, rfl, ?_, ?_⟩
      · obtain ⟨x, hx, hf⟩ := h
        rcases List.mem_cons.mp hx with e | e
        · rw [← e]; exact hf
        · exact absurd ⟨x, e, hf⟩ c
      · intro x hx
        by_contra cc
        exact c ⟨x, hx, by simpa using cc⟩

/-- The piece an orphan begins. -/
def VPiece.born (v : VPiece) (o : Nat) : List Piece := if v.keep then [⟨o, v.rest, v.target⟩] else []

theorem Inv2.adopt {w : Work} {P : List Piece} {V : List VPiece} {o : Nat} {os : List Nat} (h : Inv2 w P V (o :: os)) :
    ∃ w' P' V', w.adopt o = some w' ∧ Inv2 w' P' V' os ∧ (corners2 w' P' V').Perm (corners2 w P V) ∧ Same w w' ∧
      ∃ V1 v V2, V = V1 ++ v :: V2 ∧ v.pos = (w.lp o).data ∧ P' = P ++ v.born o ∧ V' = V1 ++ V2 ∧
        w'.lp = setFn w.lp o { w.lp o with st := .res (if v.keep then .kept else .discard), next := v.next } := by
  have hb := h.bal
  rw [List.map_cons] at hb
  have hm : (w.lp o).data ∈ V.map VPiece.pos := hb.subset List.mem_cons_self
  obtain ⟨v0, hv0, hv0p⟩ := List.mem_map.mp hm
  obtain ⟨V1, v, V2, eV, hv, hV2⟩ := exists_last (fun v : VPiece => decide (v.pos = (w.lp o).data)) V ⟨v0, hv0, by simp [hv0p]⟩
  have hvp : v.pos = (w.lp o).data := by simpa using hv
  have hvm : v ∈ V := by rw [eV]; simp
  have hvok := h.virts v hvm
  have hV2' : V2.filter (fun v => decide (v.pos = (w.lp o).data)) = [] :=
    List.filter_eq_nil_iff.mpr (fun x hx => by rw [hV2 x hx]; simp)
  have hvd : w.virts (w.lp o).data = (V1.filter (fun v => decide (v.pos = (w.lp o).data))).map VPiece.vp ++ [v.vp] := by
    rw [h.vps, eV, List.filter_append, List.filter_cons, if_pos (by simp [hvp]), hV2']
    simp
  have hni : ¬(v.vp.nextIsEnd = true ∧ v.vp.keep = false) := by
    unfold VPiece.vp
    simp only [decide_eq_true_eq]
    rintro ⟨⟨c, _⟩, d⟩
    rw [c] at d
    exact absurd d (by simp)
  -- disjointness
  have hnd := h.nodup
  have oP : ∀ k ∈ P.flatMap Piece.nodes, k ≠ o := by
    intro k hk c
    rw [List.nodup_append] at hnd
    exact hnd.2.2 k hk o (by simp) c
  have oV : ∀ k ∈ V.flatMap VPiece.rest, k ≠ o := by
    intro k hk c
    rw [List.nodup_append] at hnd
    have := hnd.2.1
    rw [List.nodup_append] at this
    exact this.2.2 k hk o (by simp) c
  have oO : ∀ k ∈ os, k ≠ o := by
    intro k hk c
    rw [List.nodup_append] at hnd
    have := hnd.2.1
    rw [List.nodup_append] at this
    exact (List.nodup_cons.mp this.2.1).1 (c ▸ hk)
  obtain ⟨oa, ost⟩ := h.orphan o List.mem_cons_self
  let lp' := setFn w.lp o { w.lp o with st := .res (if v.keep then .kept else .discard), next := v.next }
  have lpo : lp' o = { w.lp o with st := .res (if v.keep then .kept else .discard), next := v.next } := setFn_same _ _ _
  have lpn : ∀ k, k ≠ o → lp' k = w.lp k := fun k hk => setFn_ne _ _ hk
  have lpd : ∀ k, (lp' k).data = (w.lp k).data := by
    intro k
    by_cases c : k = o
    · rw [c, lpo]
    · rw [lpn k c]
  have e2 : ∀ k, (w.lp k).st ≠ .undef → (lp' k).data = (w.lp k).data ∧ (lp' k).st ≠ .undef := by
    intro k hk
    refine ⟨lpd k, ?_⟩
    by_cases c : k = o
    · rw [c, lpo]; simp
    · rw [lpn k c]; exact hk
  let w' : Work := { w with
        virts := setPt w.virts (w.lp o).data (w.virts (w.lp o).data).dropLast
        starts := if v.keep then setPt w.starts (w.lp o).data (w.starts (w.lp o).data ++ [o]) else w.starts
        ends := if v.vp.nextIsEnd then w.ends ++ [o] else w.ends
        lp := lp' }
  have ew : w.adopt o = some w' := by
    unfold Work.adopt
    dsimp only
    rw [hvd, List.getLast?_concat]
    dsimp only
    rw [if_neg hni, ← hvd]
    rfl
  have bornK : v.keep = true → v.born o = [⟨o, v.rest, v.target⟩] := fun k => if_pos k
  have bornN : v.keep = false → v.born o = [] := fun k => if_neg (by simp [k])
  refine ⟨w', P ++ v.born o, V1 ++ V2, ew, ?_, ?_, ?_, V1, v, V2, eV, hvp, rfl, rfl, rfl⟩
  · have hVs : ∀ x ∈ V1 ++ V2, x ∈ V := by
      intro x hx
      rw [eV]
      rcases List.mem_append.mp hx with c | c <;> simp [c]
    have hperm : ((P ++ v.born o).flatMap Piece.nodes ++ ((V1 ++ V2).flatMap VPiece.rest ++ os)
        ++ (if v.keep then [] else [o])).Perm (P.flatMap Piece.nodes ++ (V.flatMap VPiece.rest ++ (o :: os))) := by
      rw [List.perm_iff_count]
      intro k
      rw [eV]
      simp only [List.flatMap_append, List.flatMap_cons, List.count_append, List.count_cons]
      by_cases kk : v.keep = true
      · rw [bornK kk, if_pos kk]
        simp only [List.flatMap_cons, List.flatMap_nil, Piece.nodes, List.append_nil, List.count_cons, List.count_nil]
        omega
      · have kk' : v.keep = false := by simpa using kk
        rw [bornN kk', if_neg kk, hvok.drop kk']
        simp only [List.flatMap_nil, List.count_nil, List.count_cons]
        omega
    constructor
    · intro p hp
      rcases List.mem_append.mp hp with c | c
      · exact (h.pieces p c).congr (fun k hk => lpn k (oP k (List.mem_flatMap.mpr ⟨p, c, hk⟩))) e2
      · by_cases kk : v.keep = true
        · rw [bornK kk] at c
          rw [List.mem_singleton.mp c]
          obtain ⟨z, z1, z2, z3⟩ := hvok.sq kk
          refine ⟨⟨z, ?_, ?_, (e2 z z3).2⟩, ?_, ?_⟩
          · change Sq (fun i => (lp' i).next) (lp' o).next v.rest z
            rw [lpo]
            refine Sq.congr z1 (fun q hq => ?_)
            change (lp' q).next = _
            rw [lpn q (oV q (List.mem_flatMap.mpr ⟨v, hvm, hq⟩))]
          · rw [(e2 z z3).1]; exact z2
          · intro i hi
            rcases List.mem_cons.mp hi with e | e
            · have e : i = o := e
              change (lp' i).keep = true
              rw [e, lpo]
              unfold OP.keep
              simp [kk, LState.kept]
            · change (lp' i).keep = true
              rw [lpn i (oV i (List.mem_flatMap.mpr ⟨v, hvm, e⟩))]
              exact hvok.keep i e
          · change (lp' o).anchor = false
            rw [lpo]; exact oa
        · rw [bornN (by simpa using kk)] at c; simp at c
    · intro x hx
      have hx' := hVs x hx
      exact (h.virts x hx').congr (fun k hk => lpn k (oV k (List.mem_flatMap.mpr ⟨x, hx', hk⟩))) e2
    · exact (List.nodup_append.mp (hperm.nodup_iff.mpr hnd)).1
    · intro k hk
      exact h.lt k (hperm.subset (List.mem_append_left _ hk))
    · intro k hk hkk
      have hkk : (lp' k).keep = true := hkk
      have h1 : k ∈ P.flatMap Piece.nodes ++ (V.flatMap VPiece.rest ++ (o :: os)) := by
        by_cases c : k = o
        · rw [c]; simp
        · rw [lpn k c] at hkk
          exact h.rest k hk hkk
      rcases List.mem_append.mp (hperm.symm.subset h1) with c | c
      · exact c
      · exfalso
        by_cases kk : v.keep = true
        · rw [if_pos kk] at c; simp at c
        · rw [if_neg kk] at c
          rw [List.mem_singleton.mp c, lpo] at hkk
          unfold OP.keep at hkk
          simp [kk, LState.discard] at hkk
    · intro q hq
      change (lp' q).anchor = false ∧ (lp' q).st ≠ .undef
      rw [lpn q (oO q hq)]
      exact h.orphan q (List.mem_cons_of_mem _ hq)
    · intro c
      change (if v.keep then setPt w.starts (w.lp o).data (w.starts (w.lp o).data ++ [o]) else w.starts) c |>.Perm _
      have e : ∀ l : List Nat, l.filter (fun i => decide ((lp' i).data = c)) = l.filter (fun i => decide ((w.lp i).data = c)) :=
        fun l => List.filter_congr (fun i _ => by rw [lpd i])
      change List.Perm _ (((P ++ v.born o).map Piece.first).filter (fun i => decide ((lp' i).data = c)))
      rw [e, List.map_append, List.filter_append]
      by_cases kk : v.keep = true
      · rw [if_pos kk, bornK kk]
        have e3 : [(⟨o, v.rest, v.target⟩ : Piece)].map Piece.first = [o] := rfl
        rw [e3]
        by_cases hc : (w.lp o).data = c
        · rw [← hc, setPt_same]
          have := (h.starts (w.lp o).data).append_right [o]
          simpa using this
        · rw [setPt_ne _ _ (fun x => hc x.symm)]
          simpa [hc] using h.starts c
      · rw [if_neg kk, bornN (by simpa using kk)]
        simpa using h.starts c
    · change (if v.vp.nextIsEnd then w.ends ++ [o] else w.ends).Perm _
      have h0 := h.ends
      rw [eV] at h0
      have ev : v.vp.nextIsEnd = decide (v.keep = true ∧ v.rest = []) := rfl
      rw [ev]
      rw [List.perm_iff_count] at h0 ⊢
      intro k
      have h1 := h0 k
      unfold endsOf at h1 ⊢
      simp only [List.map_append, List.filter_append, List.filter_cons, List.count_append] at h1 ⊢
      by_cases kk : v.keep = true
      · rw [bornK kk]
        by_cases hr : v.rest = []
        · simp only [kk, hr, and_self, decide_true, if_true, List.isEmpty_nil, Bool.not_true, Bool.false_eq_true, if_false,
            List.count_append, List.map_cons, List.map_nil, Piece.last, List.getLast_singleton] at h1 ⊢
          omega
        · have e4 : ([⟨o, v.rest, v.target⟩] : List Piece).map Piece.last = [v.rest.getLastD 0] := by
            have e7 : v.rest.getLastD 0 = v.rest.getLast hr := by
              rw [List.getLastD_eq_getLast?, List.getLast?_eq_some_getLast hr]; rfl
            rw [e7, List.map_singleton]
            unfold Piece.last
            dsimp only
            rw [List.getLast_cons hr]
          have e5 : (!v.rest.isEmpty) = true := by simp [hr]
          rw [e4]
          simp only [kk, hr, e5, and_false, decide_false, Bool.false_eq_true, if_false, if_true, List.map_cons, List.count_cons,
            List.count_nil] at h1 ⊢
          omega
      · have kk' : v.keep = false := by simpa using kk
        rw [bornN kk']
        have hr := hvok.drop kk'
        simp only [hr, List.isEmpty_nil, Bool.not_true, Bool.false_eq_true, if_false] at h1
        simp only [kk', Bool.false_eq_true, false_and, decide_false, if_false, List.map_nil, List.count_nil]
        omega
    · intro c
      change setPt w.virts (w.lp o).data (w.virts (w.lp o).data).dropLast c = _
      by_cases hc : c = (w.lp o).data
      · rw [hc, setPt_same, hvd, List.dropLast_concat, List.filter_append, hV2', List.append_nil]
      · rw [setPt_ne _ _ hc, h.vps c, eV, List.filter_append, List.filter_append, List.filter_cons,
          if_neg (by rw [hvp]; simp; exact fun x => hc x.symm)]
    · change (os.map (fun i => (lp' i).data)).Perm _
      have e : os.map (fun i => (lp' i).data) = os.map (fun i => (w.lp i).data) := List.map_congr_left (fun i _ => lpd i)
      rw [e]
      rw [eV, List.map_append, List.map_cons, hvp] at hb
      rw [List.map_append]
      exact (List.perm_cons _).mp (hb.trans List.perm_middle)
  · unfold corners2
    change List.Perm ((P ++ v.born o).map (Piece.corners lp') ++ ((V1 ++ V2).filter VPiece.keep).map (VPiece.corners lp')) _
    have eP : P.map (Piece.corners lp') = P.map (Piece.corners w.lp) :=
      List.map_congr_left (fun b hb => Piece.corners_congr (fun k hk => lpn k (oP k (List.mem_flatMap.mpr ⟨b, hb, hk⟩))))
    have eVV : ∀ b ∈ V, VPiece.corners lp' b = VPiece.corners w.lp b :=
      fun b hb => VPiece.corners_congr (fun k hk => lpn k (oV k (List.mem_flatMap.mpr ⟨b, hb, hk⟩)))
    have e1 : (V1.filter VPiece.keep).map (VPiece.corners lp') = (V1.filter VPiece.keep).map (VPiece.corners w.lp) :=
      List.map_congr_left (fun b hb => eVV b (by rw [eV]; simp [(List.mem_filter.mp hb).1]))
    have e2' : (V2.filter VPiece.keep).map (VPiece.corners lp') = (V2.filter VPiece.keep).map (VPiece.corners w.lp) :=
      List.map_congr_left (fun b hb => eVV b (by rw [eV]; simp [(List.mem_filter.mp hb).1]))
    rw [List.map_append, List.filter_append, List.map_append, eP, e1, e2', eV, List.filter_append, List.filter_cons, List.map_append]
    rw [List.perm_iff_count]
    intro l
    by_cases kk : v.keep = true
    · rw [bornK kk, if_pos kk]
      have e6 : [(⟨o, v.rest, v.target⟩ : Piece)].map (Piece.corners lp') = [v.corners w.lp] := by
        rw [List.map_singleton, ← eVV v hvm]
        unfold Piece.corners VPiece.corners Piece.nodes
        dsimp only
        rw [crd_cons _ (by rw [lpo]; exact oa), lpd, hvp]
      rw [e6]
      simp only [List.map_cons, List.count_append, List.count_cons, List.count_nil]
      omega
    · rw [bornN (by simpa using kk), if_neg kk]
      simp only [List.map_nil, List.count_append, List.count_nil]
      omega
  · refine ⟨rfl, fun k => ⟨?_, fun _ => lpd k⟩⟩
    change (lp' k).anchor = _
    by_cases c : k = o
    · rw [c, lpo]
    · rw [lpn k c]

theorem Inv2.adoptAll : ∀ {os : List Nat} {w : Work} {P : List Piece} {V : List VPiece}, Inv2 w P V os →
    ∃ w' P', w.adoptAll os = some w' ∧ Inv2 w' P' [] [] ∧ (corners2 w' P' []).Perm (corners2 w P V) ∧ Same w w'
  | [], w, P, V, h => by
    have hV : V = [] := by
      have := h.bal.length_eq
      simpa using this.symm
    subst hV
    exact ⟨w, P, rfl, h, List.Perm.refl _, Same.refl w⟩
  | o :: os, w, P, V, h => by
    obtain ⟨w1, P1, V1, e1, h1, c1, s1, -⟩ := h.adopt
    obtain ⟨w2, P2, e2, h2, c2, s2⟩ := Inv2.adoptAll h1
    refine ⟨w2, P2, ?_, h2, c2.trans c1, s1.trans s2⟩
    unfold Work.adoptAll
    rw [e1, Option.bind_some, e2]

end PolyOps.Loops
