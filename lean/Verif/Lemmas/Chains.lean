import Verif.Lemmas.Region4
import Verif.Lemmas.SweepMarks

/-! Lines split into chains: the pieces together count like the lines they come from. -/
namespace PolyOps.Sweep
open PolyOps

theorem iter_lt {f : Nat → Nat} {n : Nat} (hlt : ∀ i < n, f i < n) {i : Nat} (hi : i < n) (m : Nat) : f^[m] i < n := by
  induction m with
  | zero => exact hi
  | succ m ih => rw [Function.iterate_succ_apply']; exact hlt _ ih

theorem iter_cancel {f : Nat → Nat} {n : Nat} (hlt : ∀ i < n, f i < n) (hinj : ∀ i < n, ∀ j < n, f i = f j → i = j) {i j : Nat} (hi : i < n)
    (hj : j < n) (a d : Nat) (h : f^[a] i = f^[a + d] j) : i = f^[d] j := by
  induction a with
  | zero => rw [Nat.zero_add] at h; exact h
  | succ a ih =>
    apply ih
    rw [show a + 1 + d = (a + d) + 1 by omega, Function.iterate_succ_apply', Function.iterate_succ_apply'] at h
    exact hinj _ (iter_lt hlt hi _) _ (iter_lt hlt hj _) h

/-- If from each old point on `len` new points follow before the next old one, and every point is found so, the chains have every
point once. -/
theorem chains_perm {f : Nat → Nat} {N np : Nat} (hle : np ≤ N) (hlt : ∀ i < N, f i < N) (hinj : ∀ i < N, ∀ j < N, f i = f j → i = j)
    (len : Nat → Nat) (hnew : ∀ i < np, ∀ a, 0 < a → a ≤ len i → np ≤ f^[a] i) (hold : ∀ i < np, f^[len i + 1] i < np)
    (hvia : ∀ c < N, ∃ i < np, ∃ a, f^[a] i = c) :
    ((List.range np).flatMap fun i => (List.range (len i + 1)).map fun a => f^[a] i).Perm (List.range N) := by
  have uniq : ∀ i < np, ∀ j < np, ∀ a ≤ len i, ∀ b ≤ len j, f^[a] i = f^[b] j → i = j ∧ a = b := by
    have half : ∀ i < np, ∀ j < np, ∀ a ≤ len i, ∀ b ≤ len j, a ≤ b → f^[a] i = f^[b] j → i = j ∧ a = b := by
      intro i hi j hj a ha b hb hab e
      obtain ⟨d, rfl⟩ := Nat.exists_eq_add_of_le hab
      have e := iter_cancel hlt hinj (hi.trans_le hle) (hj.trans_le hle) a d e
      cases d with
      | zero => exact ⟨e, rfl⟩
      | succ d =>
        have := hnew j hj (d + 1) (by omega) (by omega)
        omega
    intro i hi j hj a ha b hb e
    rcases le_total a b with h | h
    · exact half i hi j hj a ha b hb h e
    · obtain ⟨e1, e2⟩ := half j hj i hi b hb a ha h e.symm
      exact ⟨e1.symm, e2.symm⟩
  rw [List.perm_ext_iff_of_nodup _ List.nodup_range]
  · intro c
    rw [List.mem_flatMap, List.mem_range]
    constructor
    · rintro ⟨i, hi, hc⟩
      obtain ⟨a, _, rfl⟩ := List.mem_map.mp hc
      exact iter_lt hlt ((List.mem_range.mp hi).trans_le hle) a
    · intro hc
      obtain ⟨i, hi, a, e⟩ := hvia c hc
      clear hc
      induction a using Nat.strong_induction_on generalizing i with
      | _ a ih =>
        by_cases h : a ≤ len i
        · exact ⟨i, List.mem_range.mpr hi, List.mem_map.mpr ⟨a, List.mem_range.mpr (by omega), e⟩⟩
        · refine ih (a - (len i + 1)) (by omega) _ (hold i hi) ?_
          rw [← Function.iterate_add_apply, Nat.sub_add_cancel (by omega)]; exact e
  · rw [List.nodup_flatMap]
    constructor
    · intro i hi
      refine List.nodup_range.map_on ?_
      intro a ha b hb e
      rw [List.mem_range] at *
      exact (uniq i hi i hi a (by omega) b (by omega) e).2
    · refine List.nodup_range.pairwise_of_forall_ne ?_
      intro i hi j hj hne c h1 h2
      obtain ⟨a, ha, rfl⟩ := List.mem_map.mp h1
      obtain ⟨b, hb, e⟩ := List.mem_map.mp h2
      rw [List.mem_range] at *
      exact hne (uniq i hi j hj a (by omega) b (by omega) e.symm).1

theorem path_iter {lp : Nat → LP} : ∀ {l : List Nat} {i j : Nat}, Path lp i l j →
    (fun k => (lp k).next)^[l.length + 1] i = j ∧ ∀ a, 0 < a → a ≤ l.length → (fun k => (lp k).next)^[a] i ∈ l
  | [], i, j, h => ⟨h, fun a h1 h2 => by simp at h2; omega⟩
  | b :: l, i, j, h => by
    obtain ⟨h1, h2⟩ := path_iter h.2
    constructor
    · rw [List.length_cons, Function.iterate_succ_apply, h.1]; exact h1
    · intro a ha hl
      cases a with
      | zero => omega
      | succ a =>
        rw [Function.iterate_succ_apply, h.1]
        cases a with
        | zero => simp
        | succ a => exact List.mem_cons_of_mem _ (h2 (a + 1) (by omega) (by simpa using hl))

theorem tele_range (F : Nat → Int) (n : Nat) : ((List.range n).map fun a => F (a + 1) - F a).sum = F n - F 0 := by
  induction n with
  | zero => simp
  | succ n ih => rw [List.range_succ, List.map_append, List.sum_append, ih]; simp

/-- The contribution of a line to the winding number of a place. -/
def contrib (x y : Rat) (p q : Pt) : Int :=
  let l : Line := ⟨0, p, q, .subject⟩
  if l.covers x ∧ l.yAt x < y then l.dir else 0

theorem contrib_line (x y : Rat) (l : Line) : (if l.covers x ∧ l.yAt x < y then l.dir else 0) = contrib x y l.p l.q := rfl

/-- The pieces of a line count like it. -/
theorem chain_contrib {p q : Pt} (x y : Rat) (n : Nat) (c : Nat → Pt) (h0 : c 0 = p) (hn : c n = q)
    (hc : ∀ a ≤ n, OnSegQ (c a).x (c a).y p q) (hg : ∀ a ≤ n, ((c a).x : Rat) ≠ x) :
    ((List.range n).map fun a => contrib x y (c a) (c (a + 1))).sum = contrib x y p q := by
  by_cases hv : p.x = q.x
  · have hx : ∀ a ≤ n, (c a).x = p.x := by
      intro a ha
      obtain ⟨t, _, _, e, _⟩ := hc a ha
      rw [hv] at e ⊢
      have : ((c a).x : Rat) = q.x := by rw [e]; ring
      exact_mod_cast this
    have z : ∀ u v : Pt, u.x = v.x → contrib x y u v = 0 := by
      intro u v e
      unfold contrib
      dsimp only
      rw [if_neg]
      rintro ⟨h, _⟩
      exact Line.covers_nv h e
    rw [z p q hv]
    have : ((List.range n).map fun a => contrib x y (c a) (c (a + 1))) = (List.range n).map fun _ => 0 := by
      refine List.map_congr_left fun a ha => z _ _ ?_
      rw [List.mem_range] at ha
      rw [hx a (by omega), hx (a + 1) (by omega)]
    rw [this]; simp
  · set b : Line := ⟨0, p, q, .subject⟩ with hb
    have hbv : b.p.x ≠ b.q.x := hv
    have ond : ∀ u : Pt, OnSegQ u.x u.y p q → (u.y : Rat) = b.yAt u.x := by
      rintro u ⟨t, _, _, e1, e2⟩
      have hne : ((q.x : Rat) - p.x) ≠ 0 := by
        intro e; apply hv; have : (q.x : Rat) = p.x := by linarith
        exact_mod_cast this.symm
      unfold Line.yAt
      show (u.y : Rat) = p.y + (u.x - p.x) * ((q.y : Rat) - p.y) / ((q.x : Rat) - p.x)
      rw [e1, e2]
      field_simp
      ring
    let J : Pt → Int := fun u => if b.yAt x < y ∧ x < (u.x : Rat) then 1 else 0
    have piece : ∀ u v : Pt, OnSegQ u.x u.y p q → OnSegQ v.x v.y p q → (u.x : Rat) ≠ x → (v.x : Rat) ≠ x →
        contrib x y u v = J v - J u := by
      intro u v hu hv' gu gv
      unfold contrib
      dsimp only
      set l : Line := ⟨0, u, v, .subject⟩ with hl
      by_cases huv : u.x = v.x
      · rw [if_neg (fun h => Line.covers_nv h.1 huv)]
        simp only [J, huv]; ring
      · have hne : ((v.x : Rat) - u.x) ≠ 0 := by
          intro e; apply huv; have : (v.x : Rat) = u.x := by linarith
          exact_mod_cast this.symm
        have ey : l.yAt x = b.yAt x := by
          have e1 := ond u hu
          have e2 := ond v hv'
          rw [b.yAt_affine v.x u.x] at e2
          rw [b.yAt_affine x u.x, ← e1]
          unfold Line.yAt
          show (u.y : Rat) + (x - u.x) * ((v.y : Rat) - u.y) / ((v.x : Rat) - u.x) = _
          rw [show ((v.y : Rat) - u.y) = ((v.x : Rat) - u.x) * b.slope by rw [e2, ← e1]; ring]
          field_simp
        rw [ey]
        by_cases hy : b.yAt x < y
        · simp only [hy, and_true, true_and, J]
          unfold Line.covers Line.dir
          show (if ((u.x : Rat) < x ∧ x < v.x) ∨ ((v.x : Rat) < x ∧ x < u.x) then (if u.x < v.x then (1 : Int) else if v.x < u.x then -1 else 0) else 0) = _
          rcases lt_or_gt_of_ne gu with a | a <;> rcases lt_or_gt_of_ne gv with d | d
          · rw [if_neg (by rintro (h | h) <;> linarith [h.1, h.2]), if_neg (by linarith), if_neg (by linarith)]; rfl
          · have : u.x < v.x := by exact_mod_cast a.trans d
            rw [if_pos (Or.inl ⟨a, d⟩), if_pos this, if_pos d, if_neg (by linarith)]; rfl
          · have : v.x < u.x := by exact_mod_cast d.trans a
            rw [if_pos (Or.inr ⟨d, a⟩), if_neg (by omega), if_pos this, if_neg (by linarith), if_pos a]; rfl
          · rw [if_neg (by rintro (h | h) <;> linarith [h.1, h.2]), if_pos d, if_pos a]; rfl
        · simp [hy, J]
    have e1 : ((List.range n).map fun a => contrib x y (c a) (c (a + 1))).sum = ((List.range n).map fun a => J (c (a + 1)) - J (c a)).sum := by
      congr 1
      refine List.map_congr_left fun a ha => ?_
      rw [List.mem_range] at ha
      exact piece _ _ (hc a (by omega)) (hc (a + 1) (by omega)) (hg a (by omega)) (hg (a + 1) (by omega))
    rw [e1, tele_range (fun a => J (c a)) n, hn, h0]
    have a0 := hc 0 (by omega)
    have a1 := hc n le_rfl
    have g0 := hg 0 (by omega)
    have g1 := hg n le_rfl
    rw [h0] at a0 g0
    rw [hn] at a1 g1
    exact (piece p q a0 a1 g0 g1).symm

end PolyOps.Sweep
