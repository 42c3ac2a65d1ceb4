import Verif.Lemmas.LoopsParts
import Verif.Lemmas.Nested
import Verif.Props.Region

/-! The loops of an operation are nested. -/
namespace PolyOps.Exec
open PolyOps PolyOps.Sweep PolyOps.Region PolyOps.Planarity PolyOps.Loops PolyOps.Clipper

theorem bal_of {L : List (Pt × Pt)} (h : Balanced L) : Bal L := by
  intro φ
  have := (h.perm.map φ).sum_eq
  rw [List.map_map, List.map_map] at this
  have e : ∀ l : List (Pt × Pt), (l.map fun e => φ e.1 - φ e.2).sum = (l.map (φ ∘ Prod.fst)).sum - (l.map (φ ∘ Prod.snd)).sum := by
    intro l
    induction l with
    | nil => rfl
    | cons a l ih => simp only [List.map_cons, List.sum_cons, ih, Function.comp]; ring
  rw [e, this]; ring

/-- Just right of a place there are verticals that avoid finitely many others. -/
theorem avoid (S : List Rat) (x : Rat) : ∃ d : Rat, 0 < d ∧ ∀ z, x < z → z < x + d → z ∉ S := by
  induction S with
  | nil => exact ⟨1, one_pos, by simp⟩
  | cons s S ih =>
    obtain ⟨d, p, h⟩ := ih
    by_cases c : x < s
    · refine ⟨min d (s - x), by have : 0 < s - x := by linarith
                                positivity, fun z h1 h2 => ?_⟩
      have g1 := min_le_left d (s - x)
      have g2 := min_le_right d (s - x)
      simp only [List.mem_cons, not_or]
      exact ⟨by intro e; linarith, h z h1 (by linarith)⟩
    · refine ⟨d, p, fun z h1 h2 => ?_⟩
      simp only [List.mem_cons, not_or]
      exact ⟨by intro e; exact c (e ▸ h1), h z h1 h2⟩

theorem wind_near (E : List (Pt × Pt)) {x y : Rat} (h : Off E x y) : ∃ d : Rat, 0 < d ∧ ∀ z, x < z → z < x + d → edgesAbove E z y = wind E x y := by
  have key : ∃ d : Rat, 0 < d ∧ ∀ z, x < z → z < x + d → ∀ e ∈ E, edgesAbove [e] z y = count e x y := by
    induction E with
    | nil => exact ⟨1, one_pos, fun _ _ _ _ h => by simp at h⟩
    | cons e E ih =>
      obtain ⟨d1, p1, k1⟩ := ih fun e he => h e (List.mem_cons_of_mem _ he)
      obtain ⟨d2, p2, k2⟩ := count_right e (h e (by simp))
      refine ⟨min d1 d2, by positivity, fun z h1 h2 f hf => ?_⟩
      rcases List.mem_cons.mp hf with rfl | hf
      · exact (k2 z h1 (h2.trans_le (by linarith [min_le_right d1 d2]))).2.2
      · exact k1 z h1 (h2.trans_le (by linarith [min_le_left d1 d2])) f hf
  obtain ⟨d, p, k⟩ := key
  refine ⟨d, p, fun z h1 h2 => ?_⟩
  unfold wind
  rw [show edgesAbove E z y = (E.map fun e => edgesAbove [e] z y).sum by unfold edgesAbove; simp]
  exact map_sum_congr fun e he => k z h1 h2 e he

section
variable {env env2 : Env} {lp : Nat → LP} {np : Nat} {f : Clip} (he : EnvOk env) (hl : Loops lp np) (hr : Clip.Reach env lp np f) (hm : f.q.more = false)

include he hl hr in
/-- Lines to be kept, none of which coincide, form an arrangement. -/
theorem kept_arr (hp : Planar f.lines) (op : BoolOp) {lp' : Nat → OP} (hd : ∀ i, (lp' i).data = (f.lp i).data) (hx : ∀ i, (lp' i).next = (f.lp i).next)
    (hS : Single (keptLines lp' f.np (cls f op))) : Arr (keptLines lp' f.np (cls f op)) := by
  have hlo := (reach_spec he hl hr).1.1.toLoops
  have mem : ∀ e ∈ keptLines lp' f.np (cls f op), ∃ i < f.np, e = ((f.line i).p, (f.line i).q) ∨ e = ((f.line i).q, (f.line i).p) := by
    intro e h
    obtain ⟨i, hi, rfl⟩ := List.mem_map.mp h
    refine ⟨i, List.mem_range.mp (List.mem_filter.mp hi).1, ?_⟩
    unfold used
    rw [hd, hx, hd]
    split
    · exact Or.inr rfl
    · exact Or.inl rfl
  have inL : ∀ i < f.np, f.line i ∈ f.lines := fun i hi => List.mem_map.mpr ⟨i, List.mem_range.mpr hi, rfl⟩
  refine ⟨hS.1, ?_, hS.2, ?_⟩
  · intro e h
    obtain ⟨i, hi, rfl | rfl⟩ := mem e h
    · exact (hlo.pt_ne i hi).symm
    · exact hlo.pt_ne i hi
  · intro e h e' h' hne x y h1 h2
    obtain ⟨i, hi, k⟩ := mem e h
    obtain ⟨j, hj, k'⟩ := mem e' h'
    have o1 : (f.line i).on x y := by
      unfold Line.on
      rcases k with rfl | rfl
      · exact h1
      · exact onq_swap h1
    have o2 : (f.line j).on x y := by
      unfold Line.on
      rcases k' with rfl | rfl
      · exact h2
      · exact onq_swap h2
    have sw : ∀ {l : Line}, l.endAt x y → IsEnd x y l.p l.q ∧ IsEnd x y l.q l.p := fun h => ⟨h, h.symm⟩
    rcases hp _ (inL i hi) _ (inL j hj) with c | c
    · exfalso
      have : e = e' ∨ e = (e'.2, e'.1) := by
        rcases c with ⟨c1, c2⟩ | ⟨c1, c2⟩ <;> rcases k with rfl | rfl <;> rcases k' with rfl | rfl <;> simp [c1, c2]
      rcases this with c | c
      · exact hne c
      · rw [c] at h; exact hS.2 e' h' h
    · obtain ⟨c1, c2⟩ := c x y o1 o2
      constructor
      · rcases k with rfl | rfl
        · exact (sw c1).1
        · exact (sw c1).2
      · rcases k' with rfl | rfl
        · exact (sw c2).1
        · exact (sw c2).2

include he hl hr hm in
/-- The lines to be kept are as the loops need them. -/
theorem out_fit (h0 : ∀ i < np, Unset (lp i).state) (h1 : ∀ i < np, ∃ m, (lp ((fun k => (lp k).next)^[m] i)).state = .check)
    (hp : Planar f.lines) (hM : Marks f) {op : BoolOp} {s : Clip} {r : List (Nat × List Nat)} (h : Clip.Reach2 env2 op f s r)
    (hs : s.q.more = false) (hS : Single (keptLines (fun i => opOf (s.lp i)) f.np (cls f op))) :
    Arr (keptLines (fun i => opOf (s.lp i)) f.np (cls f op)) ∧ Bal (keptLines (fun i => opOf (s.lp i)) f.np (cls f op)) ∧
    (∀ x y, Off (keptLines (fun i => opOf (s.lp i)) f.np (cls f op)) x y → wind (keptLines (fun i => opOf (s.lp i)) f.np (cls f op)) x y = 0 ∨
      wind (keptLines (fun i => opOf (s.lp i)) f.np (cls f op)) x y = 1) ∧
    (∀ i < f.np, (opOf (s.lp (opOf (s.lp i)).next)).st = .undef → (cls f op i).keep = true →
      Tip (keptLines (fun i => opOf (s.lp i)) f.np (cls f op)) (corner3 (fun i => opOf (s.lp i)) (cls f op) i).1
        (corner3 (fun i => opOf (s.lp i)) (cls f op) i).2.1 (corner3 (fun i => opOf (s.lp i)) (cls f op) i).2.2) := by
  obtain ⟨hin, hs2, hk, hrv, snp, hd, hx, hund⟩ := out_input he hl hr hm h0 h1 hp hM h hs
  have hlo := (reach_spec he hl hr).1.1.toLoops
  have hA := kept_arr he hl hr hp op hd hx hS
  have hw : ∀ x y, Off (keptLines (fun i => opOf (s.lp i)) f.np (cls f op)) x y → wind (keptLines (fun i => opOf (s.lp i)) f.np (cls f op)) x y = 0 ∨
      wind (keptLines (fun i => opOf (s.lp i)) f.np (cls f op)) x y = 1 := by
    intro x y hoff
    obtain ⟨d1, p1, k1⟩ := wind_near _ hoff
    obtain ⟨d2, p2, k2⟩ := avoid (f.lines.flatMap fun l => [(l.p.x : Rat), (l.q.x : Rat)]) x
    have g1 := min_le_left d1 d2
    have g2 := min_le_right d1 d2
    have p : 0 < min d1 d2 := by positivity
    have hg : PolyOps.Generic f.lines (x + min d1 d2 / 2) := by
      intro l hl'
      have := k2 (x + min d1 d2 / 2) (by linarith) (by linarith)
      constructor <;> intro e <;> refine this (List.mem_flatMap.mpr ⟨l, hl', ?_⟩) <;> simp [← e]
    rw [← k1 (x + min d1 d2 / 2) (by linarith) (by linarith), kept_winding he hl hr hm hp op hd hx hg]
    split
    · exact Or.inr rfl
    · exact Or.inl rfl
  have hB : Bal (keptLines (fun i => opOf (s.lp i)) f.np (cls f op)) := bal_of (by rw [← snp]; exact hk)
  rw [snp] at hin hs2 hk hrv
  have hmem : ∀ i < f.np, (cls f op i).keep = true → used (fun i => opOf (s.lp i)) (cls f op) i ∈ keptLines (fun i => opOf (s.lp i)) f.np (cls f op) :=
    fun i hi hk => List.mem_map.mpr ⟨i, List.mem_filter.mpr ⟨List.mem_range.mpr hi, hk⟩, rfl⟩
  have ht : ∀ i < f.np, (opOf (s.lp (opOf (s.lp i)).next)).st = .undef → (cls f op i).keep = true →
      Tip (keptLines (fun i => opOf (s.lp i)) f.np (cls f op)) (corner3 (fun i => opOf (s.lp i)) (cls f op) i).1
        (corner3 (fun i => opOf (s.lp i)) (cls f op) i).2.1 (corner3 (fun i => opOf (s.lp i)) (cls f op) i).2.2 := by
    intro i hi hst hkp
    have hcl := hin.cls i hi hst
    have hnl : (f.lp i).next < f.np := hlo.next_lt i hi
    have hst' : (f.lp (f.lp i).next).state = .undef := by rw [hx] at hst; exact (hund _ hnl).mp hst
    have m1 := hmem i hi hkp
    have m2 := hmem (f.lp i).next hnl (by rw [← hx, hcl]; exact hkp)
    have hcl' : cls f op (f.lp i).next = cls f op i := by rw [← hx]; exact hcl
    -- the lines at the place
    have other : ∀ r : Pt, Seg (keptLines (fun i => opOf (s.lp i)) f.np (cls f op)) (f.lp (f.lp i).next).data r → r ≠ (f.lp i).data →
        r ≠ (f.lp (f.lp (f.lp i).next).next).data → ∃ j < f.np, j ≠ i ∧ j ≠ (f.lp i).next ∧
          ((f.line j).p = (f.lp (f.lp i).next).data ∧ (f.line j).q = r ∨ (f.line j).q = (f.lp (f.lp i).next).data ∧ (f.line j).p = r) := by
      intro r hseg n1 n2
      have : ∃ j < f.np, ((f.line j).p = (f.lp (f.lp i).next).data ∧ (f.line j).q = r ∨ (f.line j).q = (f.lp (f.lp i).next).data ∧ (f.line j).p = r) := by
        rcases hseg with hseg | hseg <;> obtain ⟨j, hj, e⟩ := List.mem_map.mp hseg <;> refine ⟨j, List.mem_range.mp (List.mem_filter.mp hj).1, ?_⟩ <;>
          unfold used at e <;> rw [hd, hx, hd] at e <;> split at e <;> obtain ⟨e1, e2⟩ := Prod.mk.inj e
        · exact Or.inr ⟨e1, e2⟩
        · exact Or.inl ⟨e1, e2⟩
        · exact Or.inl ⟨e2, e1⟩
        · exact Or.inr ⟨e2, e1⟩
      obtain ⟨j, hj, hc⟩ := this
      refine ⟨j, hj, ?_, ?_, hc⟩
      · rintro rfl
        rcases hc with ⟨c1, _⟩ | ⟨_, c2⟩
        · exact hlo.pt_ne j hi c1.symm
        · exact n1 c2.symm
      · rintro rfl
        rcases hc with ⟨_, c2⟩ | ⟨c1, _⟩
        · exact n2 c2.symm
        · exact hlo.pt_ne _ hnl c1
    -- not both vertical
    have nosp : (f.lp (f.lp (f.lp i).next).next).data ≠ (f.lp i).data := by
      intro c
      unfold used at m1 m2
      rw [hcl'] at m2
      simp only [hd, hx] at m1 m2
      rw [c] at m2
      split at m1
      · rename_i g; rw [if_pos g] at m2; exact hA.one _ m1 m2
      · rename_i g; rw [if_neg g] at m2; exact hA.one _ m1 m2
    have mk : ∀ r : Pt, Seg (keptLines (fun i => opOf (s.lp i)) f.np (cls f op)) (f.lp (f.lp i).next).data r → r ≠ (f.lp i).data →
        r ≠ (f.lp (f.lp (f.lp i).next).next).data →
        (((f.lp i).data.x < (f.lp (f.lp i).next).data.x ∧ (f.lp (f.lp (f.lp i).next).next).data.x < (f.lp (f.lp i).next).data.x) ∧ ¬ r.x < (f.lp (f.lp i).next).data.x) ∨
        (((f.lp (f.lp i).next).data.x < (f.lp i).data.x ∧ (f.lp (f.lp i).next).data.x < (f.lp (f.lp (f.lp i).next).next).data.x) ∧ ¬ (f.lp (f.lp i).next).data.x < r.x) := by
      intro r hseg n1 n2
      obtain ⟨j, hj, ji, jn, hc⟩ := other r hseg n1 n2
      have := hM i hi hst' j hj ji jn (by rcases hc with c | c; exacts [Or.inl c.1, Or.inr c.1])
      rcases this with ⟨a, b1, b2⟩ | ⟨a, b1, b2⟩ | ⟨a, _⟩
      · refine Or.inl ⟨a, ?_⟩
        rcases hc with c | c
        · rw [← c.2]; exact b2
        · rw [← c.2]; exact b1
      · refine Or.inr ⟨a, ?_⟩
        rcases hc with c | c
        · rw [← c.2]; exact b2
        · rw [← c.2]; exact b1
      · exact absurd a.2 nosp
    -- in the direction of use
    have gen : ∀ u u' : Pt, (u = (f.lp i).data ∧ u' = (f.lp (f.lp (f.lp i).next).next).data) ∨ (u' = (f.lp i).data ∧ u = (f.lp (f.lp (f.lp i).next).next).data) →
        (u, (f.lp (f.lp i).next).data) ∈ keptLines (fun i => opOf (s.lp i)) f.np (cls f op) →
        ((f.lp (f.lp i).next).data, u') ∈ keptLines (fun i => opOf (s.lp i)) f.np (cls f op) →
        Tip (keptLines (fun i => opOf (s.lp i)) f.np (cls f op)) u (f.lp (f.lp i).next).data u' := by
      intro u u' hu g1 g2
      have mk' : ∀ r : Pt, Seg (keptLines (fun i => opOf (s.lp i)) f.np (cls f op)) (f.lp (f.lp i).next).data r → r ≠ u → r ≠ u' →
          ((u.x < (f.lp (f.lp i).next).data.x ∧ u'.x < (f.lp (f.lp i).next).data.x) ∧ ¬ r.x < (f.lp (f.lp i).next).data.x) ∨
          (((f.lp (f.lp i).next).data.x < u.x ∧ (f.lp (f.lp i).next).data.x < u'.x) ∧ ¬ (f.lp (f.lp i).next).data.x < r.x) := by
        intro r hseg n1 n2
        rcases hu with ⟨rfl, rfl⟩ | ⟨rfl, rfl⟩
        · exact mk r hseg n1 n2
        · rcases mk r hseg n2 n1 with a | a
          · exact Or.inl ⟨a.1.symm, a.2⟩
          · exact Or.inr ⟨a.1.symm, a.2⟩
      generalize (f.lp (f.lp i).next).data = c at *
      by_cases k1 : u.x < c.x ∧ u'.x < c.x
      · refine tip_of_half hA 1 g1 g2 ?_ ?_ ?_
        · have : (u.x : Rat) < c.x := by exact_mod_cast k1.1
          unfold vec; dsimp only; linarith
        · have : (u'.x : Rat) < c.x := by exact_mod_cast k1.2
          unfold vec; dsimp only; linarith
        · intro r hseg n1 n2
          have : ¬ r.x < c.x := by
            rcases mk' r hseg n1 n2 with a | a
            · exact a.2
            · have := a.1.1; omega
          have : (c.x : Rat) ≤ r.x := by exact_mod_cast not_lt.mp this
          unfold vec; dsimp only; linarith
      · by_cases k2 : c.x < u.x ∧ c.x < u'.x
        · refine tip_of_half hA (-1) g1 g2 ?_ ?_ ?_
          · have : (c.x : Rat) < u.x := by exact_mod_cast k2.1
            unfold vec; dsimp only; linarith
          · have : (c.x : Rat) < u'.x := by exact_mod_cast k2.2
            unfold vec; dsimp only; linarith
          · intro r hseg n1 n2
            have : ¬ c.x < r.x := by
              rcases mk' r hseg n1 n2 with a | a
              · exact absurd a.1 k1
              · exact a.2
            have : (r.x : Rat) ≤ c.x := by exact_mod_cast not_lt.mp this
            unfold vec; dsimp only; linarith
        · refine ⟨g1, g2, Or.inl fun r hseg hb => ?_⟩
          rcases mk' r hseg hb.irrefl.1.symm hb.irrefl.2.1 with a | a
          · exact k1 a.1
          · exact k2 a.1
    unfold corner3
    unfold used at m1 m2
    rw [hcl'] at m2
    simp only [hd, hx] at m1 m2 ⊢
    split
    · rename_i g
      rw [if_pos g] at m1 m2
      exact gen _ _ (Or.inr ⟨rfl, rfl⟩) m2 m1
    · rename_i g
      rw [if_neg g] at m1 m2
      exact gen _ _ (Or.inl ⟨rfl, rfl⟩) m1 m2
  exact ⟨hA, hB, hw, ht⟩

include he hl hr hm in
theorem out_parts (h0 : ∀ i < np, Unset (lp i).state) (h1 : ∀ i < np, ∃ m, (lp ((fun k => (lp k).next)^[m] i)).state = .check)
    (hp : Planar f.lines) (hM : Marks f) {op : BoolOp} {s : Clip} {r : List (Nat × List Nat)} (h : Clip.Reach2 env2 op f s r)
    (hs : s.q.more = false) (hS : Single (keptLines (fun i => opOf (s.lp i)) f.np (cls f op))) :
    ∃ w g, doOp (fun i => opOf (s.lp i)) s.np (r.map Prod.fst) = some (w, g) ∧
      Parts (keptLines (fun i => opOf (s.lp i)) f.np (cls f op)) g.loops.length (Loops.loopLines w g) ∧
      Unit (keptLines (fun i => opOf (s.lp i)) f.np (cls f op)) := by
  obtain ⟨hin, hs2, hk, hrv, snp, hd, hx, hund⟩ := out_input he hl hr hm h0 h1 hp hM h hs
  obtain ⟨hA, hB, hw, ht⟩ := out_fit he hl hr hm h0 h1 hp hM h hs hS
  rw [snp] at hin hs2 hk hrv
  obtain ⟨w, g, e, hP⟩ := hin.parts hs2 hk hrv (fun _ => rfl) hA hB hw ht
  exact ⟨w, g, by rw [snp]; exact e, hP, unit_of hA hB hw⟩

end
end PolyOps.Exec
