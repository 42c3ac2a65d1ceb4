import Verif.Lemmas.Ends
import Verif.Props.Region

/-! C51: the sweeps end. -/
namespace PolyOps.Ends
open PolyOps PolyOps.Events PolyOps.Sweep PolyOps.Planarity PolyOps.Clipper

section
variable {env env2 : Env} (he : EnvOk env) (hb : EnvLog Box env) {lp : Nat → LP} {np : Nat} (hl : Loops lp np)

include he hb hl in
/-- C51: if each added point is in the rectangle spanned by its line, there are never more lines than the total length of the
input lines along the axes. -/
theorem C51_count {s : Clip} (h : Clip.Reach env lp np s) : s.np ≤ total (fun i => (lp i).data) (fun i => (lp i).next) np := by
  obtain ⟨hi, hr, hs⟩ := reach_spec he hl h
  have hlog := reach_log (Q := Box) (fun _ _ _ => Box.symm) he hb hl h
  have e := splits_total hs (fun i => (s.lp i).data) fun k ab hk => (hlog k ab hk).2.2
  have e2 : total (fun i => (s.lp i).data) (fun i => (lp i).next) np = total (fun i => (lp i).data) (fun i => (lp i).next) np := by
    apply Finset.sum_congr rfl
    intro i hi
    rw [Finset.mem_range] at hi
    simp only [hr.data i hi, hr.data _ (hl.next_lt i hi)]
  rw [← e2, ← e]
  exact total_le fun i hi' => (hi.1.pt_ne i hi').symm

include he hb hl in
theorem sweep1_ends {s : Clip} (h : Clip.Reach env lp np s) :
    ∃ N f, Clip.Reach env lp np f ∧ f.q.more = false ∧ ∀ fuel ≥ N, sweep1 env fuel s = .ok f := by
  generalize hk : total (fun i => (lp i).data) (fun i => (lp i).next) np - s.np = k
  induction k using Nat.strong_induction_on generalizing s with
  | _ k ihk =>
    generalize hq : s.q = q
    induction q using nearer_wf.induction generalizing s with
    | _ q ihq =>
      cases hm : s.q.more with
      | false =>
        refine ⟨1, s, h, hm, fun fuel hf => ?_⟩
        obtain ⟨n, rfl⟩ : ∃ n, fuel = n + 1 := ⟨fuel - 1, by omega⟩
        unfold sweep1
        rw [hm]; rfl
      | true =>
        obtain ⟨t, ht, -⟩ := step_spec he (reach_spec he hl h).1 hm
        have hrt := h.step hm ht
        have key : ∃ N f, Clip.Reach env lp np f ∧ f.q.more = false ∧ ∀ fuel ≥ N, sweep1 env fuel t = .ok f := by
          rcases step_nearer ht with hlt | ⟨heq, hnear⟩
          · exact ihk _ (by have := C51_count he hb hl hrt; omega) hrt rfl
          · exact ihq t.q (hq ▸ hnear) hrt (by rw [heq]; exact hk) rfl
        obtain ⟨N, f, h1, h2, h3⟩ := key
        refine ⟨N + 1, f, h1, h2, fun fuel hf => ?_⟩
        obtain ⟨n, rfl⟩ : ∃ n, fuel = n + 1 := ⟨fuel - 1, by omega⟩
        unfold sweep1
        rw [hm, ht]
        exact h3 n (by omega)

include he hb hl in
/-- C51: the first sweep ends without failing if each added point is in the rectangle spanned by its line: with fuel from some
number on, the loop stops in one and the same state, in which no event is left. -/
theorem C51_first {s : Clip} (h : (Clip.start lp np).addLines np = some s) :
    ∃ N f, Clip.Reach env lp np f ∧ f.q.more = false ∧ ∀ fuel ≥ N, sweep1 env fuel s = .ok f :=
  sweep1_ends he hb hl (.init h)

end

section
variable {env env2 : Env} (he : EnvOk env) {lp : Nat → LP} {np : Nat} (hl : Loops lp np) {f : Clip} (hr : Clip.Reach env lp np f)
  (hm : f.q.more = false)

include he hl hr hm in
/-- C51: the second sweep always ends without failing. -/
theorem C51_second {op : BoolOp} {s : Clip} {r : List (Nat × List Nat)} (h : Clip.Reach2 env2 op f s r) :
    ∃ N t o, Clip.Reach2 env2 op f t o ∧ t.q.more = false ∧ ∀ fuel ≥ N, sweep2 env2 op fuel s r = .ok (t, o) := by
  generalize hq : s.q = q
  induction q using nearer_wf.induction generalizing s r with
  | _ q ihq =>
    cases hm' : s.q.more with
    | false =>
      refine ⟨1, s, r, h, hm', fun fuel hf => ?_⟩
      obtain ⟨n, rfl⟩ : ∃ n, fuel = n + 1 := ⟨fuel - 1, by omega⟩
      unfold sweep2
      rw [hm']; rfl
    | true =>
      obtain ⟨t, ht⟩ : ∃ t, s.step2 env2 op = some t := by
        obtain ⟨_, _, t, _, ht, _⟩ := C29_scanned he hl hr hm h hm'
        exact ⟨t, ht⟩
      have h' := h.step hm' (t := t.1) (r' := t.2) ht
      obtain ⟨N, f', o, h1, h2, h3⟩ := ihq t.1.q (hq ▸ step2_nearer ht) h' rfl
      refine ⟨N + 1, f', o, h1, h2, fun fuel hf => ?_⟩
      obtain ⟨n, rfl⟩ : ∃ n, fuel = n + 1 := ⟨fuel - 1, by omega⟩
      unfold sweep2
      rw [hm', ht]
      exact h3 n (by omega)
end

/-- C51: with exact arithmetic before rounding the first sweep always ends. -/
theorem C51_exact (r : Nat → Bool × Bool) (pos : Clip → Nat → Nat) {lp : Nat → LP} {np : Nat} (hl : Loops lp np) {s : Clip}
    (h : (Clip.start lp np).addLines np = some s) : ∃ N f, Clip.Reach (realEnv id r pos) lp np f ∧ f.q.more = false ∧
      ∀ fuel ≥ N, sweep1 (realEnv id r pos) fuel s = .ok f :=
  C51_first (realEnv_ok id r pos) (realEnv_box r pos) hl h

/-- The two overlapping squares of `Region.exLp`: any random decisions and any places in the sweep. The sides add up to 32. -/
example (r : Nat → Bool × Bool) (pos : Clip → Nat → Nat) : ∃ s, (Clip.start Region.exLp 8).addLines 8 = some s ∧
    (∃ N f, Clip.Reach (realEnv id r pos) Region.exLp 8 f ∧ f.q.more = false ∧ ∀ fuel ≥ N, sweep1 (realEnv id r pos) fuel s = .ok f) ∧
    total (fun i => (Region.exLp i).data) (fun i => (Region.exLp i).next) 8 = 32 := by
  obtain ⟨s, h⟩ := Option.isSome_iff_exists.mp (show ((Clip.start Region.exLp 8).addLines 8).isSome = true by decide +kernel)
  exact ⟨s, h, C51_exact r pos Region.exLoops h, by decide +kernel⟩

end PolyOps.Ends
