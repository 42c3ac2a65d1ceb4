import Verif.Lemmas.OutTree
import Verif.Lemmas.OutMerges

/-! The calls of `point_merge` with tree output. -/
namespace PolyOps.Loops
open PolyOps PolyOps.Sweep

section
variable {lp : Nat → OP} {np : Nat} {cls : Nat → LState}

/-- With tree output, if there are merges, the first one goes to an anchor; if there are none, all lines are kept. -/
theorem Input.tree_merges (h : Input lp np cls) {S : List (Nat × List Nat)}
    (hs : (S.map Prod.fst).Perm ((List.range np).filter (fun i => decide ((lp i).st ≠ .undef)))) (hS : ∀ s ∈ S, ∀ k ∈ s.2, k < np)
    {w : Work} {f : Found} {T : List (Nat × List Nat)} (e : doOpTree lp np S = some (w, f, T)) :
    (w.merges = [] ∧ ∀ k < np, (cls k).keep = true) ∨ ∃ i a M, w.merges = (i, a) :: M ∧ np ≤ a ∧ (cls i).keep = false := by
  have hmem : ∀ k ∈ S.map Prod.fst, k < np ∧ (lp k).st ≠ .undef := by
    intro k hk
    have := List.mem_filter.mp (hs.subset hk)
    exact ⟨List.mem_range.mp this.1, by simpa using this.2⟩
  obtain ⟨A, eA, hA⟩ := h.arcs (S.map Prod.fst) hmem
  have hsA : (A.map Arc.head).Perm ((List.range np).filter (fun i => decide ((lp i).st ≠ .undef))) := eA ▸ hs
  have hS' : ∀ s ∈ S, s.1 < (Work.init lp np).np ∧ ∀ k ∈ s.2, k < (Work.init lp np).np :=
    fun s hsm => ⟨(hmem _ (List.mem_map.mpr ⟨s, hsm, rfl⟩)).1, hS s hsm⟩
  obtain ⟨h0, h0e, -, -⟩ := anch_all h.bare S (Anch.refl (Work.init lp np)) (fun s hs => (hS' s hs).2)
  obtain ⟨hW, eW, nW⟩ := anch_with h.bare hS'
  set w0 := ((Work.init lp np).anchorAll S).1 with hw0
  set W := (Work.init lp np).withAnchors S with hWd
  obtain ⟨s0, _, l0, _, _⟩ := h.start hA hsA h0
  obtain ⟨sW, lW, ltW, nW2, rW⟩ := h.start hA hsA hW
  have hhd : (A.map (Arc.ext W np)).map Arc.head = S.map Prod.fst := by rw [List.map_map, ← eA]; rfl
  have hhd0 : (A.map (Arc.ext w0 np)).map Arc.head = S.map Prod.fst := by rw [List.map_map, ← eA]; rfl
  have hfst : ((Work.init lp np).anchorAll S).2.map Prod.fst = S.map Prod.fst := by
    rw [h0e, List.map_map]; rfl
  have hfol := followTree_eq ((Work.init lp np).anchorAll S).2 (A.map (Arc.ext w0 np)) (w := w0) (by rw [hhd0, hfst]) s0.arcs s0.nodup l0
  rw [hfst] at hfol
  unfold doOpTree at e
  dsimp only at e
  rw [hfol] at e
  have hWW : (w0.anchorHits (S.map Prod.fst)).1 = W := rfl
  rw [hWW] at e
  obtain ⟨⟨w1, T1⟩, e1, e⟩ := Option.bind_eq_some_iff.mp e
  obtain ⟨w1', e5, e6⟩ := Option.map_eq_some_iff.mp e1
  clear e1
  cases e6
  obtain ⟨w2, e2, e⟩ := Option.bind_eq_some_iff.mp e
  obtain ⟨f', -, e⟩ := Option.map_eq_some_iff.mp e
  cases e
  rw [← hhd] at e5
  obtain ⟨m1, -, -, -⟩ := sW.inv1.merges (W := W.lp) (fun _ _ => rfl) e5
  unfold Work.reconnect at e2
  obtain ⟨w3, e3, e4⟩ := Option.bind_eq_some_iff.mp e2
  obtain ⟨a1, -⟩ := adoptAll_merges _ e3
  obtain ⟨j1, -⟩ := joinAll_merges _ e4
  have hm0 : W.merges = [] := by
    have : ∀ (l : List Nat) (u : Work), (u.anchorHits l).1.merges = u.merges := by
      intro l
      induction l with
      | nil => intro u; rfl
      | cons i l ih =>
        intro u
        show ((u.insertAnchor i).1.anchorHits l).1.merges = _
        rw [ih]
        unfold Work.insertAnchor
        split <;> rfl
    have this2 : ∀ (l : List (Nat × List Nat)) (u : Work), (u.anchorAll l).1.merges = u.merges := by
      intro l
      induction l with
      | nil => intro u; rfl
      | cons i l ih =>
        intro u
        show ((u.anchorHits i.2).1.anchorAll l).1.merges = _
        rw [ih, this]
    rw [← hWW, this, hw0, this2]
    rfl
  have hmer : w.merges = (A.map (Arc.ext W np)).flatMap (Arc.merges W.lp) := by rw [j1, a1, m1, hm0, List.nil_append]
  -- one arc
  have one : ∀ a ∈ A, (((Arc.ext W np a).merges W.lp = [] ∧ (lp a.head).ls.keep = true) ∨ ∃ x M, (Arc.ext W np a).merges W.lp = (a.head, x) :: M ∧ np ≤ x ∧ (lp a.head).ls.keep = false) := by
    intro a ha
    have hah : a.head ∈ S.map Prod.fst := by rw [← eA]; exact List.mem_map.mpr ⟨a, ha, rfl⟩
    obtain ⟨s, hsm, hse⟩ := List.mem_map.mp hah
    have hanc := (nW s hsm).1
    rw [hse] at hanc
    have hls : (W.lp a.head).ls = (lp a.head).ls := by
      have := (hW.flag h.bare (hmem _ hah).1).2.2
      unfold OP.ls
      rw [this]
      rfl
    have hext : W.ext np a.head = [W.anc a.head] := if_pos hanc
    unfold Arc.merges
    rw [show (Arc.ext W np a).head = a.head from rfl, hls]
    cases hk : (lp a.head).ls.keep
    · right
      unfold Arc.ext
      rw [hext]
      exact ⟨W.anc a.head, _, rfl, hanc, rfl⟩
    · exact .inl ⟨rfl, rfl⟩
  rw [hmer]
  have hall : ∀ (B : List Arc), (∀ a ∈ B, a ∈ A) → (((B.map (Arc.ext W np)).flatMap (Arc.merges W.lp) = [] ∧ ∀ a ∈ B, (lp a.head).ls.keep = true) ∨
      ∃ a ∈ B, ∃ x M, (B.map (Arc.ext W np)).flatMap (Arc.merges W.lp) = (a.head, x) :: M ∧ np ≤ x ∧ (lp a.head).ls.keep = false) := by
    intro B
    induction B with
    | nil => intro _; exact .inl ⟨rfl, by simp⟩
    | cons b B ih =>
      intro hB
      rw [List.map_cons, List.flatMap_cons]
      rcases one b (hB b List.mem_cons_self) with ⟨q1, q2⟩ | ⟨x, M, q1, q2⟩
      · rw [q1, List.nil_append]
        rcases ih fun a ha => hB a (List.mem_cons_of_mem _ ha) with ⟨p1, p2⟩ | h
        · refine .inl ⟨p1, fun a ha => ?_⟩
          rcases List.mem_cons.mp ha with rfl | ha
          · exact q2
          · exact p2 a ha
        · obtain ⟨a, ha, h⟩ := h
          exact .inr ⟨a, List.mem_cons_of_mem _ ha, h⟩
      · rw [q1, List.cons_append]
        exact .inr ⟨b, List.mem_cons_self, _, _, rfl, q2⟩
  rcases hall A fun _ h => h with ⟨q1, q2⟩ | ⟨a, ha, x, M, q1, q2, q3⟩
  · refine .inl ⟨q1, fun k hk => ?_⟩
    obtain ⟨a, ha, hka⟩ := List.mem_flatMap.mp ((h.perm hA hsA).symm.subset (List.mem_range.mpr hk))
    rw [h.arc_cls (hA a ha) (hmem _ (by rw [← eA]; exact List.mem_map.mpr ⟨a, ha, rfl⟩)).1 k hka]
    exact q2 a ha
  · refine .inr ⟨a.head, x, M, q1, q2, ?_⟩
    rw [h.arc_cls (hA a ha) (hmem _ (by rw [← eA]; exact List.mem_map.mpr ⟨a, ha, rfl⟩)).1 _ List.mem_cons_self]
    exact q3

end
end PolyOps.Loops

namespace PolyOps.Exec
open PolyOps PolyOps.Sweep PolyOps.Region PolyOps.Planarity PolyOps.Loops PolyOps.PointSink PolyOps.Clipper PolyOps.MiniSet

variable {env env2 : Env} (he : EnvOk env) {lp : Nat → LP} {np : Nat} (hl : Sweep.Loops lp np) {f : Clip} (hr : Clip.Reach env lp np f)
  (hm : f.q.more = false)

include he hl hr hm in
/-- With tree output: if there are merges, the first one goes to a point that came after all points of the first sweep. If there are none,
each point of the first sweep is returned once, where it was, and no other point is returned. -/
theorem tree_returned (h0 : ∀ i < np, Unset (lp i).state) (h1 : ∀ i < np, ∃ m, (lp ((fun k => (lp k).next)^[m] i)).state = .check)
    (hp : Planar f.lines) (hM : Marks f) {op : BoolOp} {s : Clip} {r : List (Nat × List Nat)} (h : Clip.Reach2 env2 op f s r)
    (hs : s.q.more = false) {w : Work} {g : Found} {T : List (Nat × List Nat)} (e : doOpTree (fun i => opOf (s.lp i)) s.np r = some (w, g, T)) :
    (w.merges = [] ∧ f.np ≤ w.np ∧ (∀ k < f.np, (w.lp k).data = (f.lp k).data) ∧ (g.loops.flatMap g.ring).Perm (List.range f.np)) ∨
      (op ≠ .normalize ∧ ∃ i a M, w.merges = (i, a) :: M ∧ f.np ≤ a) := by
  obtain ⟨hin, hs2, hk, hrv, snp, hd, hx, hund⟩ := out_input he hl hr hm h0 h1 hp hM h hs
  obtain ⟨-, -, -, -, -, -, hhits⟩ := C29_final he hl hr hm h hs
  rw [snp] at hin hs2 hk hrv e
  have hlt : ∀ p ∈ r, ∀ k ∈ p.2, k < f.np := fun p hp k hk => (hit_iff.mp ((hhits p hp).subset hk)).1
  rcases hin.tree_merges hs2 hlt e with ⟨q1, q2⟩ | ⟨i, a, M, q1, q2, q3⟩
  · left
    obtain ⟨w', P, g', an, e1, p1, p2, p3, hj, hxt, hc, -⟩ := hin.tree hs2 hlt hk hrv
    rw [e, Option.some.injEq, Prod.mk.injEq, Prod.mk.injEq] at e1
    obtain ⟨rfl, rfl, -⟩ := e1
    refine ⟨q1, p1, fun k hk => ((p2 k hk).1).trans (hd k), ?_⟩
    have hnd : (g.loops.flatMap g.ring).Nodup := hxt.part.nodup_iff.mpr (List.nodup_range.filter _)
    have hsub : g.loops.flatMap g.ring ⊆ List.range f.np := by
      intro k hk
      have := List.mem_filter.mp (hxt.part.subset hk)
      have h2 := this.2
      simp only [Bool.and_eq_true, Bool.not_eq_true'] at h2
      exact List.mem_range.mpr (p3 k (List.mem_range.mp this.1) h2.2)
    refine (List.subperm_of_subset hnd hsub).perm_of_length_le ?_
    have := hc.length_eq
    rw [List.length_map] at this
    rw [this]
    have e3 : (List.range f.np).filter (fun i => (cls f op i).keep) = List.range f.np := List.filter_eq_self.mpr fun i hi => q2 i (List.mem_range.mp hi)
    unfold keptLines
    rw [List.length_map, e3]
  · refine .inr ⟨?_, i, a, M, q1, q2⟩
    rintro rfl
    have : ∀ b w, (lbResult .normalize b w).keep = true := by
      intro b w
      unfold lbResult
      dsimp only
      split <;> rfl
    unfold cls at q3
    rw [this] at q3
    cases q3

end PolyOps.Exec
