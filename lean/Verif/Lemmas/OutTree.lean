import Verif.Lemmas.Hits
import Verif.Lemmas.LoopsForest
import Verif.Props.Hierarchy

/-! The loops of an operation with tree output, and what is counted for their hierarchy. -/
namespace PolyOps.Exec
open PolyOps PolyOps.Sweep PolyOps.Region PolyOps.Planarity PolyOps.Loops PolyOps.Clipper PolyOps.Hierarchy

theorem windOf_sum (data : Nat → Pt) (next : Nat → Nat) (idx : Nat → LIdx) (l : Nat) (an : Nat → Nat) (H : List Nat) :
    windOf data next idx l (H.map an) =
      (H.map fun j => if idx (an j) = .loop l then (if Back data next (an j) then (1 : Int) else -1) else 0).sum := by
  induction H with
  | nil => rfl
  | cons j H ih => rw [List.map_cons, windOf_cons, ih, List.map_cons, List.sum_cons, lineSign_eq]

section
variable {env env2 : Env} {lp : Nat → LP} {np : Nat} {f : Clip} (he : EnvOk env) (hl : Loops lp np) (hr : Clip.Reach env lp np f) (hm : f.q.more = false)

include he hl hr hm in
theorem out_tree (h0 : ∀ i < np, Unset (lp i).state) (h1 : ∀ i < np, ∃ m, (lp ((fun k => (lp k).next)^[m] i)).state = .check)
    (hp : Planar f.lines) (hM : Marks f) {op : BoolOp} {s : Clip} {r : List (Nat × List Nat)} (h : Clip.Reach2 env2 op f s r)
    (hs : s.q.more = false) :
    ∃ w g S, doOpTree (fun i => opOf (s.lp i)) s.np r = some (w, g, S) ∧ (∀ l ∈ g.loops, 0 < l.2 ∧ g.next^[l.2] l.1 = l.1) ∧
      ((g.loops.flatMap g.ring).map fun i => ((w.lp i).data, (w.lp (g.next i)).data)).Perm (keptLines (fun i => opOf (s.lp i)) f.np (cls f op)) ∧
      (Single (keptLines (fun i => opOf (s.lp i)) f.np (cls f op)) →
        Parts (keptLines (fun i => opOf (s.lp i)) f.np (cls f op)) g.loops.length (Loops.loopLines w g) ∧
        Unit (keptLines (fun i => opOf (s.lp i)) f.np (cls f op)) ∧
        (∀ k < g.loops.length, ∃ p ∈ S, g.idx p.1 = .loop k) ∧ (∀ p ∈ S, ∀ k, g.idx p.1 = .loop k → k < g.loops.length) ∧
        ∀ p ∈ S, ∀ k, g.idx p.1 = .loop k → ∀ l < g.loops.length, l ≠ k → ∃ e ∈ Loops.loopLines w g k, ∃ x y, OnSegQ x y e.1 e.2 ∧
          Off (Loops.loopLines w g l) x y ∧ windOf (fun i => (w.lp i).data) g.next g.idx l p.2 = - wind (Loops.loopLines w g l) x y) := by
  obtain ⟨hin, hs2, hk, hrv, snp, hd, hx, hund⟩ := out_input he hl hr hm h0 h1 hp hM h hs
  obtain ⟨-, -, -, -, -, -, hhits⟩ := C29_final he hl hr hm h hs
  have hlo := (reach_spec he hl hr).1.1.toLoops
  have hne : ∀ j < f.np, (f.line j).p ≠ (f.line j).q := fun j hj => (hlo.pt_ne j hj).symm
  rw [snp] at hin hs2 hk hrv
  have hlt : ∀ p ∈ r, ∀ k ∈ p.2, k < f.np := fun p hp k hk => (hit_iff.mp ((hhits p hp).subset hk)).1
  obtain ⟨w, P, g, an, e1, -, -, -, hj, hxt, hc, hnm, hall, hpar⟩ := hin.tree hs2 hlt hk hrv
  refine ⟨w, g, _, by rw [snp]; exact e1, hxt.ring, hc, fun hS => ?_⟩
  obtain ⟨hA, hB, hw, ht⟩ := out_fit he hl hr hm h0 h1 hp hM h hs hS
  have hPt := hpar hA hB hw ht
  have hid : ∀ k, Named r k → ∀ m, m < g.loops.length → (g.idx (an k) = .loop m ↔ (cls f op k).keep = true ∧ used (fun i => opOf (s.lp i)) (cls f op) k ∈ Loops.loopLines w g m) := by
    intro k hkn m hm'
    obtain ⟨g1, g2⟩ := hnm k hkn
    cases c : (cls f op k).keep
    · rw [g1 c]; simp
    · obtain ⟨-, m', q1, q2, q3⟩ := g2 c
      rw [q2]
      constructor
      · intro e; injection e with e; subst e; exact ⟨rfl, q3⟩
      · rintro ⟨_, q⟩
        by_contra c'
        exact hPt.disj m' q1 m hm' (fun e => c' (by rw [e])) _ q3 q
  refine ⟨hPt, unit_of hA hB hw, ?_, ?_, ?_⟩
  · intro k hkl
    obtain ⟨p, hp', q1, q2⟩ := hall k hkl
    exact ⟨(an p.1, p.2.map an), List.mem_map.mpr ⟨p, hp', rfl⟩, (hid p.1 ⟨p, hp', Or.inl rfl⟩ k hkl).mpr ⟨q1, q2⟩⟩
  · rintro p' hq k hi
    obtain ⟨p, hp', rfl⟩ := List.mem_map.mp hq
    obtain ⟨g1, g2⟩ := hnm p.1 ⟨p, hp', Or.inl rfl⟩
    dsimp only at hi
    cases c : (cls f op p.1).keep
    · rw [g1 c] at hi; cases hi
    · obtain ⟨-, m', q1, q2, q3⟩ := g2 c
      rw [q2] at hi; injection hi with hi; omega
  · rintro p' hq k hi l hll hlk
    obtain ⟨p, hp', rfl⟩ := List.mem_map.mp hq
    dsimp only at hi ⊢
    have hpn : Named r p.1 := ⟨p, hp', Or.inl rfl⟩
    have hkl : k < g.loops.length := by
      obtain ⟨g1, g2⟩ := hnm p.1 hpn
      cases c : (cls f op p.1).keep
      · rw [g1 c] at hi; cases hi
      · obtain ⟨-, m', q1, q2, q3⟩ := g2 c
        rw [q2] at hi; injection hi with hi; omega
    obtain ⟨k1, k2⟩ := (hid p.1 hpn k hkl).mp hi
    have hplt : p.1 < f.np := List.mem_range.mp (List.mem_filter.mp (hs2.subset (List.mem_map.mpr ⟨p, hp', rfl⟩))).1
    obtain ⟨x0, y0, o1, -, o3, o4⟩ := hits_wind hd hx hne hA (hPt.bal l hll) (hPt.nodup l hll) (hPt.sub l hll) hplt k1
      (hPt.disj k hkl l hll (Ne.symm hlk) _ k2) (hhits p hp')
    refine ⟨_, k2, x0, y0, o1, o3, ?_⟩
    rw [← o4, windOf_sum]
    congr 1
    apply List.map_congr_left
    intro j hjm
    have hjn : Named r j := ⟨p, hp', Or.inr hjm⟩
    refine if_ctx_congr (hid j hjn l hll) (fun hc => ?_) fun _ => rfl
    have hln := ((hnm j hjn).2 hc.1).1
    refine if_congr ?_ rfl rfl
    rw [← hln]
    rfl

end
end PolyOps.Exec
