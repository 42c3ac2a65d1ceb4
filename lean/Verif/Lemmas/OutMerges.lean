import Verif.Lemmas.Origins
import Verif.Lemmas.Tracker
import Verif.Lemmas.NewMarks
import Verif.Props.Region

/-! The merges of an operation. -/
namespace PolyOps.Exec
open PolyOps PolyOps.Sweep PolyOps.Region PolyOps.Planarity PolyOps.Loops PolyOps.PointSink PolyOps.Clipper PolyOps.MiniSet

theorem split_unique {α : Type} {k : Nat} {d e : α} : ∀ {M M1 M2 N1 N2 : List (Nat × α)}, (M.map Prod.fst).Nodup → M = M1 ++ (k, d) :: M2 →
    M = N1 ++ (k, e) :: N2 → M1 = N1
  | M, [], M2, [], N2, _, _, _ => rfl
  | M, [], M2, n :: N1, N2, hn, h1, h2 => by
    exfalso
    subst h1
    rw [List.cons_append, List.nil_append] at h2
    injection h2 with h3 h4
    rw [List.nil_append, List.map_cons, List.nodup_cons, h4] at hn
    exact hn.1 (by simp)
  | M, m :: M1, M2, [], N2, hn, h1, h2 => by
    exfalso
    subst h2
    rw [List.cons_append, List.nil_append] at h1
    injection h1 with h3 h4
    rw [List.nil_append, List.map_cons, List.nodup_cons, h4] at hn
    exact hn.1 (by simp)
  | M, m :: M1, M2, n :: N1, N2, hn, h1, h2 => by
    subst h1
    rw [List.cons_append, List.cons_append] at h2
    injection h2 with h3 h4
    rw [h3, split_unique (M := M1 ++ (k, d) :: M2) (by rw [List.cons_append, List.map_cons, List.nodup_cons] at hn; exact hn.2) rfl h4]

theorem lbResult_rev {op : BoolOp} (h : op ≠ .difference) (b : BSet) (w : Wn) : (lbResult op b w).rev = true → (lbResult op b w).keep = true := by
  unfold lbResult
  cases op with
  | difference => exact absurd rfl h
  | union => dsimp only; split <;> simp [LState.kept, LState.discard]
  | intersection => dsimp only; generalize (if b = BSet.clip then w.c else w.s) = x; generalize (if b = BSet.clip then w.s else w.c) = y; split <;> simp [LState.kept, LState.discard]
  | xor =>
    dsimp only
    generalize (if b = BSet.clip then w.c else w.s) = x
    generalize (if b = BSet.clip then w.s else w.c) = y
    split
    · split <;> simp [LState.kept, LState.keepRev]
    · simp [LState.discard]
  | normalize => dsimp only; split <;> simp [LState.kept, LState.keepRev]

variable {env env2 : Env} (he : EnvOk env) {lp : Nat → LP} {np : Nat} (hl : Sweep.Loops lp np) {f : Clip} (hr : Clip.Reach env lp np f)
  (hm : f.q.more = false)

include he hl hr hm in
/-- The merges of an operation: along the links, from different points. A point that is returned is not merged, except for
differences; then it has been merged into an input point that was not merged before. -/
theorem out_merges (h0 : ∀ i < np, Unset (lp i).state) (h1 : ∀ i < np, ∃ m, (lp ((fun k => (lp k).next)^[m] i)).state = .check)
    (hp : Planar f.lines) (hM : Marks f) {op : BoolOp} {s : Clip} {r : List (Nat × List Nat)} (h : Clip.Reach2 env2 op f s r)
    (hs : s.q.more = false) {w : Work} {g : Found} (e : doOp (fun i => opOf (s.lp i)) s.np (r.map Prod.fst) = some (w, g)) :
    w.np = f.np ∧ (∀ k < f.np, (w.lp k).data = (f.lp k).data) ∧ (∀ k ∈ g.loops.flatMap g.ring, k < f.np) ∧ Along (fun i => (f.lp i).next) f.np w.merges ∧
      (∀ m ∈ w.merges, (cls f op m.1).keep = false) ∧
      ∀ k ∈ g.loops.flatMap g.ring, k ∈ w.merges.map Prod.fst → op = .difference ∧
        ∀ M1 d M2, w.merges = M1 ++ (k, d) :: M2 → d < np ∧ d ∉ M1.map Prod.fst := by
  obtain ⟨hin, hs2, hk, hrv, snp, hd, hx, hund⟩ := out_input he hl hr hm h0 h1 hp hM h hs
  have hlo := (reach_spec he hl hr).1.1.toLoops
  obtain ⟨w', P, g', e', hnp, hdat, -, hex, -⟩ := hin.result hs2 hk hrv
  rw [e, Option.some.injEq, Prod.mk.injEq] at e'
  obtain ⟨rfl, rfl⟩ := e'
  obtain ⟨A, hA, hperm, -, hmerge, hst⟩ := hin.merges hs2 e
  have hnd : (A.flatMap Arc.nodes).Nodup := hperm.nodup_iff.mpr List.nodup_range
  have hring : ∀ k ∈ g.loops.flatMap g.ring, k < s.np ∧ (w.lp k).keep = true := by
    intro k hk
    have := List.mem_filter.mp (hex.part.subset hk)
    rw [hnp] at this
    refine ⟨List.mem_range.mp this.1, ?_⟩
    have h2 := this.2
    simp only [Bool.and_eq_true] at h2
    exact h2.1
  have hal : Along (fun i => (f.lp i).next) f.np w.merges := by
    have one : ∀ m ∈ w.merges, m.1 < f.np ∧ m.2 = (f.lp m.1).next := by
      intro m hm
      rw [hmerge] at hm
      obtain ⟨a, ha, hma⟩ := List.mem_flatMap.mp hm
      obtain ⟨q1, q2, -⟩ := Arc.merges_mem hin (hA a ha).1 (hA a ha).2 hma
      refine ⟨?_, by rw [q2]; exact hx m.1⟩
      rw [← snp]
      exact (hin.nodes_lt (hA a ha).1 (hA a ha).2).1 m.1 q1
    refine ⟨fun m hm => ⟨(one m hm).1, ?_⟩, fun m hm => (one m hm).2, fun m hm => ?_, ?_⟩
    · rw [(one m hm).2]; exact hlo.next_lt _ (one m hm).1
    · rw [(one m hm).2]; exact (hlo.next_ne _ (one m hm).1).symm
    · rw [hmerge, List.map_flatMap]
      refine hnd.sublist ?_
      clear hmerge hst hnd hperm one
      induction A with
      | nil => simp
      | cons a A ih =>
        rw [List.flatMap_cons, List.flatMap_cons]
        exact (Arc.merges_fst.sublist).append (ih fun b hb => hA b (List.mem_cons_of_mem _ hb))
  have hcl : ∀ a ∈ A, ∀ k ∈ a.nodes, cls f op k = (opOf (s.lp a.head)).ls := fun a ha k hk => hin.arc_cls (hA a ha).1 (hA a ha).2 k hk
  refine ⟨hnp.trans snp, fun k hk => ((hdat k (by omega)).1).trans (hd k), fun k hk => snp ▸ (hring k hk).1, hal, ?_, ?_⟩
  · intro m hm
    rw [hmerge] at hm
    obtain ⟨a, ha, hma⟩ := List.mem_flatMap.mp hm
    obtain ⟨q1, -, q3, -⟩ := Arc.merges_mem hin (hA a ha).1 (hA a ha).2 hma
    rw [hcl a ha _ q1]; exact q3
  · intro k hk hkm
    obtain ⟨m, hm, rfl⟩ := List.mem_map.mp hkm
    rw [hmerge] at hm
    obtain ⟨a, ha, hma⟩ := List.mem_flatMap.mp hm
    obtain ⟨q1, q2, q3, q4⟩ := Arc.merges_mem hin (hA a ha).1 (hA a ha).2 hma
    have hrev : (opOf (s.lp a.head)).ls.rev = true ∧ m.1 = a.head := by
      by_contra hc
      have : (opOf (s.lp a.head)).ls.rev = false ∨ m.1 ≠ a.head := by
        by_cases c : m.1 = a.head
        · left
          cases hb : (opOf (s.lp a.head)).ls.rev with
          | false => rfl
          | true => exact absurd ⟨hb, c⟩ hc
        · exact .inr c
      have h3 := hst a ha m.1 q1 this
      have h4 := (hring m.1 hk).2
      unfold OP.keep at h4
      rw [h3] at h4
      dsimp only at h4
      rw [hcl a ha _ q1, q3] at h4
      cases h4
    refine ⟨?_, fun M1 d M2 eM => ?_⟩
    · by_contra hne
      have := lbResult_rev hne (f.lp a.head).set (f.balance a.head).wn
      have hc := hcl a ha a.head List.mem_cons_self
      unfold cls at hc
      rw [hc] at this
      rw [this hrev.1] at q3
      cases q3
    · obtain ⟨A1, A2, eA⟩ := List.append_of_mem ha
      have hmem : (m.1, d) ∈ w.merges := by rw [eM]; simp
      have hdn : d = (f.lp m.1).next := hal.next _ hmem
      have hdm : d ∈ a.mid := by rw [hdn, ← hx, ← q2]; exact q4 hrev.1
      -- the merges of the arc begin with this one
      have hfirst : ∃ d' rest, a.merges (fun i => opOf (s.lp i)) = (m.1, d') :: rest := by
        unfold Arc.merges
        rw [q3, hrev.1]
        simp only [Bool.false_eq_true, if_false, if_true, List.append_nil]
        cases hmid : a.mid with
        | nil => rw [hmid] at hdm; simp at hdm
        | cons y l => exact ⟨y, _, by rw [List.zip_cons_cons, hrev.2]⟩
      obtain ⟨d', rest, hfirst⟩ := hfirst
      have eM' : w.merges = A1.flatMap (Arc.merges fun i => opOf (s.lp i)) ++ (m.1, d') :: (rest ++ A2.flatMap (Arc.merges fun i => opOf (s.lp i))) := by
        rw [hmerge, eA, List.flatMap_append, List.flatMap_cons, hfirst]; rfl
      have e1 := split_unique hal.nodup eM eM'
      constructor
      · by_contra hc
        have hlt : d < f.np := (hal.lt _ hmem).2
        have hck := reach_new he hl hr d (by omega) hlt
        have hun : (f.lp d).state = .undef := (hund d hlt).mp ((hA a ha).1.mid d hdm)
        rw [hck] at hun
        cases hun
      · intro hc
        rw [e1] at hc
        obtain ⟨m', hm', em'⟩ := List.mem_map.mp hc
        obtain ⟨b, hb, hmb⟩ := List.mem_flatMap.mp hm'
        have hbA : b ∈ A := by rw [eA]; exact List.mem_append_left _ hb
        obtain ⟨p1, -⟩ := Arc.merges_mem hin (hA b hbA).1 (hA b hbA).2 hmb
        rw [eA, List.flatMap_append, List.flatMap_cons, List.nodup_append] at hnd
        exact hnd.2.2 d (List.mem_flatMap.mpr ⟨b, hb, em' ▸ p1⟩) d (List.mem_append_left _ (List.mem_cons_of_mem _ hdm)) rfl

end PolyOps.Exec
