import Verif.Lemmas.OutMerges
import Mathlib.Data.List.Perm.Lattice

/-! Which points are returned, and where numbers can be after the merges. -/
namespace PolyOps.MiniSet

/-- Merges along which numbers stay at one place: `R` are the points that are returned, from them only dead points are reached. -/
theorem merge_once {R D : Nat → Prop} : ∀ (M : List (Nat × Nat)) (s : Spec), (M.map Prod.fst).Nodup → (∀ m ∈ M, ¬s.used m.1) →
    (∀ m ∈ M, R m.1 ∨ D m.1 → D m.2) →
    (∀ x k k', ¬D k ∧ (R k ∨ ¬s.used k) → ¬D k' ∧ (R k' ∨ ¬s.used k') → x ∈ s.sets k → x ∈ s.sets k' → k = k') →
    ∀ x k k', R k ∧ ¬D k → R k' ∧ ¬D k' → x ∈ ((mergeCalls M).foldl Spec.step s).sets k → x ∈ ((mergeCalls M).foldl Spec.step s).sets k' → k = k'
  | [], s, _, _, _, h => fun x k k' hk hk' => h x k k' ⟨hk.2, .inl hk.1⟩ ⟨hk'.2, .inl hk'.1⟩
  | (f, d) :: M, s, hn, hu, hD, h => by
    have hn' := List.nodup_cons.mp hn
    have hfu := hu (f, d) List.mem_cons_self
    have hfD := hD (f, d) List.mem_cons_self
    dsimp only at hfu hfD
    refine merge_once M (s.step (.merge f d)) hn'.2 ?_ (fun m hm => hD m (List.mem_cons_of_mem _ hm)) ?_
    · rintro m hm (c | c)
      · exact hn'.1 (List.mem_map.mpr ⟨m, hm, c⟩)
      · exact hu m (List.mem_cons_of_mem _ hm) c
    · have live : ∀ k, ¬D k ∧ (R k ∨ ¬(s.step (.merge f d)).used k) → ¬D k ∧ (R k ∨ ¬s.used k) := by
        rintro k ⟨a, b | b⟩
        · exact ⟨a, .inl b⟩
        · exact ⟨a, .inr fun c => b (.inr c)⟩
      -- a point that has its old set, and the target
      have key : ∀ x k', ¬D d → ¬D k' ∧ (R k' ∨ ¬(s.step (.merge f d)).used k') → x ∈ s.sets f → x ∈ s.sets k' → False := by
        intro x k' hd hk' hx hx'
        have hfl : ¬D f := fun c => hd (hfD (.inr c))
        have e := h x f k' ⟨hfl, .inr hfu⟩ (live k' hk') hx hx'
        subst e
        rcases hk'.2 with c | c
        · exact hd (hfD (.inl c))
        · exact c (.inl rfl)
      intro x k k' hk hk' hx hx'
      simp only [Spec.step] at hx hx'
      by_cases c : k = d <;> by_cases c' : k' = d
      · rw [c, c']
      · rw [if_pos c] at hx
        rw [if_neg c'] at hx'
        rcases hx with hx | hx
        · rw [c]; exact h x d k' (live d (c ▸ hk)) (live k' hk') hx hx'
        · exact (key x k' (c ▸ hk.1) hk' hx hx').elim
      · rw [if_neg c] at hx
        rw [if_pos c'] at hx'
        rcases hx' with hx' | hx'
        · rw [c']; exact h x k d (live k hk) (live d (c' ▸ hk')) hx hx'
        · exact (key x k (c' ▸ hk'.1) hk hx' hx).elim
      · rw [if_neg c] at hx
        rw [if_neg c'] at hx'
        exact h x k k' (live k hk) (live k' hk') hx hx'

/-- A number is not lost if merges from the points in `S` do not go to points that were merged before. -/
theorem merge_kept {S : Nat → Prop} {x : Nat} : ∀ (M : List (Nat × Nat)) (s : Spec),
    (∀ M1 f d M2, M = M1 ++ (f, d) :: M2 → S f → S d ∧ d ≠ f ∧ ¬s.used d ∧ d ∉ M1.map Prod.fst) →
    (∃ k, S k ∧ x ∈ s.sets k ∧ ¬s.used k) → ∃ k, S k ∧ x ∈ ((mergeCalls M).foldl Spec.step s).sets k ∧ ¬((mergeCalls M).foldl Spec.step s).used k
  | [], s, _, h => h
  | (f, d) :: M, s, hS, ⟨k, h1, h2, h3⟩ => by
    refine merge_kept M (s.step (.merge f d)) (fun M1 f' d' M2 e hf' => ?_) ?_
    · obtain ⟨q1, q2, q3, q4⟩ := hS ((f, d) :: M1) f' d' M2 (by rw [e]; rfl) hf'
      rw [List.map_cons, List.mem_cons, not_or] at q4
      refine ⟨q1, q2, ?_, q4.2⟩
      rintro (c | c)
      · exact q4.1 c
      · exact q3 c
    · by_cases c : k = f
      · subst c
        obtain ⟨q1, q2, q3, -⟩ := hS [] k d M rfl h1
        refine ⟨d, q1, ?_, ?_⟩
        · simp only [Spec.step, if_true]
          exact .inr h2
        · rintro (c | c)
          · exact q2 c
          · exact q3 c
      · refine ⟨k, h1, ?_, ?_⟩
        · simp only [Spec.step]
          split
          · rename_i e; exact .inl (e ▸ h2)
          · exact h2
        · rintro (e | e)
          · exact c e
          · exact h3 e

end PolyOps.MiniSet

namespace PolyOps.Exec
open PolyOps PolyOps.Sweep PolyOps.Region PolyOps.Planarity PolyOps.Loops PolyOps.PointSink PolyOps.Clipper PolyOps.MiniSet

theorem Arc.merges_all {lp : Nat → OP} {a : Arc} (h1 : (lp a.head).ls.keep = false) (h2 : (lp a.head).ls.rev = false) : (a.merges lp).map Prod.fst = a.nodes := by
  unfold Arc.merges
  have e : ∀ (l : List Nat) (x : Nat), ((x :: l).zip l).map Prod.fst ++ [(x :: l).getLast (by simp)] = x :: l := by
    intro l
    induction l with
    | nil => intro x; simp
    | cons y l ih =>
      intro x
      rw [List.zip_cons_cons, List.map_cons, List.cons_append, List.getLast_cons (by simp), ih y]
  rw [h1, h2]
  simp only [Bool.false_eq_true, if_false, List.map_append, List.map_cons, List.map_nil]
  exact e a.mid a.head

variable {env env2 : Env} (he : EnvOk env) {lp : Nat → LP} {np : Nat} (hl : Sweep.Loops lp np) {f : Clip} (hr : Clip.Reach env lp np f)
  (hm : f.q.more = false)

include he hl hr hm in
/-- The points returned are all different. There are points (the inner ones of reversed lines that are not used) that are not returned, and
merges from such a point or from a point that is returned go to such points. Except for differences, each point is either returned or merged. -/
theorem out_returned (h0 : ∀ i < np, Unset (lp i).state) (h1 : ∀ i < np, ∃ m, (lp ((fun k => (lp k).next)^[m] i)).state = .check)
    (hp : Planar f.lines) (hM : Marks f) {op : BoolOp} {s : Clip} {r : List (Nat × List Nat)} (h : Clip.Reach2 env2 op f s r)
    (hs : s.q.more = false) {w : Work} {g : Found} (e : doOp (fun i => opOf (s.lp i)) s.np (r.map Prod.fst) = some (w, g)) :
    (g.loops.flatMap g.ring).Nodup ∧
      (∃ D : Nat → Prop, (∀ k ∈ g.loops.flatMap g.ring, ¬D k) ∧ ∀ m ∈ w.merges, m.1 ∈ g.loops.flatMap g.ring ∨ D m.1 → D m.2) ∧
      (op ≠ .difference → ∀ k < f.np, k ∈ g.loops.flatMap g.ring ∨ k ∈ w.merges.map Prod.fst) := by
  obtain ⟨hin, hs2, hk, hrv, snp, hd, hx, hund⟩ := out_input he hl hr hm h0 h1 hp hM h hs
  obtain ⟨w', P, g', e', hnp, hdat, -, hex, hlines⟩ := hin.result hs2 hk hrv
  rw [e, Option.some.injEq, Prod.mk.injEq] at e'
  obtain ⟨rfl, rfl⟩ := e'
  obtain ⟨A, hA, hperm, -, hmerge, hst⟩ := hin.merges hs2 e
  have hnd : (A.flatMap Arc.nodes).Nodup := hperm.nodup_iff.mpr List.nodup_range
  have hring : ∀ k ∈ g.loops.flatMap g.ring, k < s.np ∧ (w.lp k).keep = true := by
    intro k hk
    have := List.mem_filter.mp (hex.part.subset hk)
    rw [hnp] at this
    refine ⟨List.mem_range.mp this.1, ?_⟩
    have h2 := this.2
    simp only [Bool.and_eq_true] at h2
    exact h2.1
  have hcl : ∀ a ∈ A, ∀ k ∈ a.nodes, cls f op k = (opOf (s.lp a.head)).ls := fun a ha k hk => hin.arc_cls (hA a ha).1 (hA a ha).2 k hk
  have hnr : (g.loops.flatMap g.ring).Nodup := hex.part.nodup_iff.mpr (List.nodup_range.filter _)
  -- a point of an unused line that is returned is the first of a reversed line
  have hone : ∀ a ∈ A, ∀ k ∈ a.nodes, (opOf (s.lp a.head)).ls.keep = false → k ∈ g.loops.flatMap g.ring → (opOf (s.lp a.head)).ls.rev = true ∧ k = a.head := by
    intro a ha k hka hkeep hk
    by_contra hc
    have : (opOf (s.lp a.head)).ls.rev = false ∨ k ≠ a.head := by
      by_cases c : k = a.head
      · left
        cases hb : (opOf (s.lp a.head)).ls.rev with
        | false => rfl
        | true => exact absurd ⟨hb, c⟩ hc
      · exact .inr c
    have h3 := hst a ha k hka this
    have h4 := (hring k hk).2
    unfold OP.keep at h4
    rw [h3] at h4
    dsimp only at h4
    rw [hcl a ha _ hka, hkeep] at h4
    cases h4
  refine ⟨hnr, ⟨fun k => ∃ a ∈ A, (opOf (s.lp a.head)).ls.keep = false ∧ (opOf (s.lp a.head)).ls.rev = true ∧ k ∈ a.mid, ?_, ?_⟩, ?_⟩
  · rintro k hk ⟨a, ha, q1, q2, q3⟩
    have := hone a ha k (List.mem_cons_of_mem _ q3) q1 hk
    exact (List.nodup_cons.mp (hA a ha).1.nodup).1 (this.2 ▸ q3)
  · intro m hm
    rw [hmerge] at hm
    obtain ⟨a, ha, hma⟩ := List.mem_flatMap.mp hm
    obtain ⟨q1, q2, q3, q4⟩ := Arc.merges_mem hin (hA a ha).1 (hA a ha).2 hma
    rintro (c | ⟨b, hb, c1, c2, c3⟩)
    · have := hone a ha m.1 q1 q3 c
      exact ⟨a, ha, q3, this.1, q4 this.1⟩
    · have := hin.disjoint (hA a ha).1 (hA b hb).1 (hA a ha).2 (hA b hb).2 q1 (List.mem_cons_of_mem _ c3)
      rw [← this] at c2
      exact ⟨a, ha, q3, c2, q4 c2⟩
  · intro hop k hk
    have hrev : ∀ j, (cls f op j).keep = false → (cls f op j).rev = false := by
      intro j hj
      cases hb : (cls f op j).rev with
      | false => rfl
      | true =>
        have := lbResult_rev hop (f.lp j).set (f.balance j).wn hb
        unfold cls at hj
        rw [this] at hj
        cases hj
    have hkA : k ∈ A.flatMap Arc.nodes := hperm.symm.subset (List.mem_range.mpr (by rw [snp]; exact hk))
    obtain ⟨a, ha, hka⟩ := List.mem_flatMap.mp hkA
    cases hc : (cls f op k).keep with
    | false =>
      right
      have hc' := hrev k hc
      rw [hcl a ha k hka] at hc hc'
      rw [hmerge, List.map_flatMap]
      exact List.mem_flatMap.mpr ⟨a, ha, by rw [Arc.merges_all hc hc']; exact hka⟩
    | true =>
      left
      -- as many points are returned as lines are used
      have hsub : g.loops.flatMap g.ring ⊆ (List.range s.np).filter fun i => (cls f op i).keep := by
        intro j hj
        have hj1 := (hring j hj).1
        refine List.mem_filter.mpr ⟨List.mem_range.mpr hj1, ?_⟩
        obtain ⟨b, hb, hjb⟩ := List.mem_flatMap.mp (hperm.symm.subset (List.mem_range.mpr hj1))
        cases hcj : (cls f op j).keep with
        | true => rfl
        | false =>
          have := hrev j hcj
          rw [hcl b hb j hjb] at hcj this
          have h2 := (hone b hb j hjb hcj hj).1
          rw [this] at h2
          cases h2
      have hlen : (g.loops.flatMap g.ring).length = ((List.range s.np).filter fun i => (cls f op i).keep).length := by
        have := hlines.length_eq
        rw [List.length_map] at this
        rw [this]
        unfold keptLines
        rw [List.length_map]
      have hsp : (g.loops.flatMap g.ring).Subperm ((List.range s.np).filter fun i => (cls f op i).keep) := List.subperm_of_subset hnr hsub
      have := (hsp.perm_of_length_le (by omega)).symm.subset
      exact this (List.mem_filter.mpr ⟨List.mem_range.mpr (by rw [snp]; exact hk), hc⟩)

end PolyOps.Exec
