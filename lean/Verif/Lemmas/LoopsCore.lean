import Verif.Lemmas.LoopsEdges

/-! All phases together, for a set of arcs. -/
namespace PolyOps.Loops
open PolyOps PolyOps.Sweep

/-- The arcs `A` are the lines of `w`; nothing has been done yet. -/
structure Start (w : Work) (A : List Arc) : Prop where
  arcs : ∀ a ∈ A, IsArc w.lp a
  nodup : (A.flatMap Arc.nodes).Nodup
  lt : ∀ k ∈ A.flatMap Arc.nodes, k < w.np
  heads : ∀ k, k < w.np → (w.lp k).keep = true → k ∈ A.flatMap Arc.nodes
  starts : ∀ c, w.starts c = []
  ends : w.ends = []
  virts : ∀ c, w.virts c = []
  orphans : w.orphans = []

theorem Start.inv1 {w : Work} {A : List Arc} (h : Start w A) : Inv1 w A [] [] := by
  refine ⟨h.arcs, by simp, by simp, ?_, ?_, ?_, by simp [h.orphans], ?_, ?_, ?_⟩
  · simpa [h.orphans] using h.nodup
  · simpa [h.orphans] using h.lt
  · simpa [h.orphans] using h.heads
  · intro c; simp [h.starts c]
  · simp [h.ends, endsOf]
  · intro c; simp [h.virts c]

/-- As many reversed arcs begin at a place as end there. -/
def RevBal (w : Work) (A : List Arc) : Prop :=
  ((A.filter (fun a => (w.lp a.head).ls.rev)).map (fun a => (w.lp a.head).data)).Perm
    ((A.filter (fun a => (w.lp a.head).ls.rev)).map (fun a => (w.lp a.stop).data))

/-- As many kept arcs begin at a place, in the direction of use, as end there. -/
def KeepBal (w : Work) (A : List Arc) : Prop := (heads (A.flatMap (Arc.lines w.lp))).Perm (lasts (A.flatMap (Arc.lines w.lp)))

theorem Start.core {w : Work} {A : List Arc} (h : Start w A) (hb1 : RevBal w A) (hb2 : KeepBal w A) :
    ∃ w1 w' P f, w.followAll (A.map Arc.head) = some w1 ∧ w1.reconnect = some w' ∧ w'.findLoops = some f ∧
      Joined w' P ∧ Extracted w' P f ∧ (P.map (Piece.corners w'.lp)).Perm (A.flatMap (Arc.lines w.lp)) ∧ Same w w' := by
  obtain ⟨w1, P1, V1, e1, i1, c1, rh, rs, s1⟩ := h.inv1.followAll
  have b1 : (revHeads w1 []).Perm (revStops w1 [] V1) := by
    refine (rh.trans ?_).trans rs.symm
    simpa [revHeads, revStops, h.orphans, RevBal] using hb1
  obtain ⟨w2, P2, e2, i2, c2, s2⟩ := (i1.inv2 b1).adoptAll
  have hc : (corners2 w2 P2 []).Perm (A.flatMap (Arc.lines w.lp)) := by
    refine c2.trans ?_
    have : corners2 w1 P1 V1 = corners w1 [] P1 V1 := rfl
    rw [this]
    refine c1.trans ?_
    simp [corners]
  obtain ⟨w3, e3, i3, d3, a3, n3⟩ := (i2.inv3 (((hc.map _).trans hb2).trans (hc.map _).symm)).joinAll
  have hj := i3.joined
  obtain ⟨f, ef, hf⟩ := hj.find
  refine ⟨w1, w3, P2, f, e1, ?_, ef, hj, hf, ?_, ?_⟩
  · unfold Work.reconnect; rw [e2, Option.bind_some, e3]
  · have : P2.map (Piece.corners w3.lp) = corners2 w2 P2 [] := by
      unfold corners2
      rw [List.filter_nil, List.map_nil, List.append_nil]
      apply List.map_congr_left
      intro p _
      unfold Piece.corners
      rw [crd_congr (fun k _ => a3 k) (fun k _ _ => d3 k)]
    rw [this]; exact hc
  · exact (s1.trans s2).trans ⟨n3, fun k => ⟨a3 k, fun _ => d3 k⟩⟩

theorem Extracted.lines {w w' : Work} {A : List Arc} {P : List Piece} {f : Found} (h : Extracted w' P f)
    (hc : (P.map (Piece.corners w'.lp)).Perm (A.flatMap (Arc.lines w.lp))) :
    ((f.loops.flatMap f.ring).map (fun i => ((w'.lp i).data, (w'.lp (f.next i)).data))).Perm ((A.flatMap (Arc.lines w.lp)).flatMap pairs) := by
  refine h.edges.trans ?_
  have : P.flatMap (fun p => pairs (p.corners w'.lp)) = (P.map (Piece.corners w'.lp)).flatMap pairs := by
    rw [List.flatMap_map]
  rw [this]
  exact hc.flatMap_right _

end PolyOps.Loops
