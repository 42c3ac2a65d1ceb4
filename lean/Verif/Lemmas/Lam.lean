import Verif.Lemmas.Nest
import Verif.Props.Hierarchy

/-! Closed parts of an arrangement whose lines see the same winding numbers: none crosses itself or another. -/
namespace PolyOps.Exec
open PolyOps PolyOps.Sweep PolyOps.Region PolyOps.Planarity PolyOps.Hierarchy

/-- Closed parts, such that along each of them the winding number of any of them is the same. -/
structure Parts (K : List (Pt × Pt)) (n : Nat) (L : Nat → List (Pt × Pt)) : Prop where
  arr : Arr K
  sub : ∀ a < n, ∀ e ∈ L a, e ∈ K
  bal : ∀ a < n, Bal (L a)
  nodup : ∀ a < n, (L a).Nodup
  ne : ∀ a < n, L a ≠ []
  disj : ∀ a < n, ∀ b < n, a ≠ b → ∀ e ∈ L a, e ∉ L b
  const : ∀ a < n, ∀ b < n, ∃ s, ∀ e ∈ L b, Beside (L a) e (nrm e) s

theorem Arr.mono {K E : List (Pt × Pt)} (h : Arr K) (hE : ∀ e ∈ E, e ∈ K) (hN : E.Nodup) : Arr E :=
  ⟨hN, fun e he => h.ne e (hE e he), fun e he hr => h.one e (hE e he) (hE _ hr), fun e he f hf => h.meet e (hE e he) f (hE f hf)⟩

section
variable {K : List (Pt × Pt)} {n : Nat} {L : Nat → List (Pt × Pt)} (P : Parts K n L)
include P

/-- The winding number beside lines of another part, on either side, is the constant. -/
theorem Parts.side {a b : Nat} (ha : a < n) (hb : b < n) (hab : a ≠ b) {s : Int} (hs : ∀ e ∈ L b, Beside (L a) e (nrm e) s) {e : Pt × Pt} (he : e ∈ L b)
    {m : V} (hm : m = nrm e ∨ m = -nrm e) {t : Int} (ht : Beside (L a) e m t) : t = s := by
  rcases hm with rfl | rfl
  · exact ht.unique (hs e he)
  · have := crossing P.arr (P.sub a ha) (P.bal a ha) (P.nodup a ha) (P.sub b hb e he) (hs e he) ht
    rw [if_neg (P.disj b hb a ha hab.symm e he)] at this
    omega

omit P in
theorem neg_cross {e : Pt × Pt} {K : List (Pt × Pt)} (hA : Arr K) (he : e ∈ K) : cr (vec e.1 e.2) (-nrm e) ≠ 0 := by
  have := nrm_pos (hA.ne e he)
  unfold cr at *
  simp only [Prod.fst_neg, Prod.snd_neg]
  intro c
  linarith

omit P in
/-- A closed part has a line that is not vertical. -/
theorem not_vertical {K E : List (Pt × Pt)} (hA : Arr K) (hE : ∀ e ∈ E, e ∈ K) (hB : Bal E) (hN : E.Nodup) (h0 : E ≠ []) : ∃ e ∈ E, e.1.x ≠ e.2.x := by
  by_contra h
  have hv : ∀ e ∈ E, e.1.x = e.2.x := fun e he => by
    by_contra c; exact h ⟨e, he, c⟩
  obtain ⟨e, he⟩ := List.exists_mem_of_ne_nil _ h0
  have z : ∀ n, Beside E e n 0 := fun n => ⟨1, one_pos, fun ε _ _ => by
    unfold windAt wind
    apply List.sum_eq_zero
    intro i hi
    obtain ⟨f, hf, rfl⟩ := List.mem_map.mp hi
    exact count_vert (hv f hf) _ _⟩
  have := crossing hA hE hB hN (hE e he) (z _) (z _)
  rw [if_pos he] at this
  omega

/-- A part winds at most once around any place, and always in the same direction. -/
theorem Parts.simple {a : Nat} (ha : a < n) : (∃ s, (s = 0 ∨ s = 1) ∧ (∀ e ∈ L a, Beside (L a) e (nrm e) s) ∧
    ∀ x y, Off (L a) x y → wind (L a) x y = 0 ∨ wind (L a) x y = 2 * s - 1) := by
  have hA := P.arr.mono (P.sub a ha) (P.nodup a ha)
  obtain ⟨s, hs⟩ := P.const a ha a ha
  have hside : ∀ e ∈ L a, ∀ m, (m = nrm e ∨ m = -nrm e) → ∀ t, Beside (L a) e m t → t = s ∨ t = s - 1 := by
    intro e he m hm t ht
    rcases hm with rfl | rfl
    · exact Or.inl (ht.unique (hs e he))
    · have := crossing hA (fun _ h => h) (P.bal a ha) (P.nodup a ha) he (hs e he) ht
      rw [if_pos he] at this
      right; omega
  obtain ⟨e, he, m, hm, h0⟩ := find_first hA (not_vertical P.arr (P.sub a ha) (P.bal a ha) (P.nodup a ha) (P.ne a ha))
  have hs01 : s = 0 ∨ s = 1 := by
    rcases hside e he m hm 0 (h0 _ (fun _ h => h) (P.bal a ha)) with h | h <;> omega
  refine ⟨s, hs01, hs, fun x y hoff => ?_⟩
  rcases find_line hA hoff with h | ⟨e, he, m, hm, h⟩
  · exact Or.inl (h _ (fun _ h => h) (P.bal a ha))
  · rcases hside e he m hm _ (h _ (fun _ h => h) (P.bal a ha)) with h | h <;> omega

/-- Part `a` winds around part `b`. -/
def Around (n : Nat) (L : Nat → List (Pt × Pt)) (a b : Nat) : Prop :=
  a < n ∧ b < n ∧ a ≠ b ∧ ∃ s, s ≠ 0 ∧ ∀ e ∈ L b, Beside (L a) e (nrm e) s

omit P in
theorem append_sub {K A B : List (Pt × Pt)} (h1 : ∀ e ∈ A, e ∈ K) (h2 : ∀ e ∈ B, e ∈ K) : ∀ e ∈ A ++ B, e ∈ K := fun e he => by
  rcases List.mem_append.mp he with h | h; exacts [h1 e h, h2 e h]

theorem Parts.two {a b : Nat} (ha : a < n) (hb : b < n) (hab : a ≠ b) : Arr (L a ++ L b) := by
  refine P.arr.mono (append_sub (P.sub a ha) (P.sub b hb)) ?_
  rw [List.nodup_append]
  exact ⟨P.nodup a ha, P.nodup b hb, fun x hx y hy e => P.disj a ha b hb hab x hx (e ▸ hy)⟩

theorem Parts.asymm {a b : Nat} (h1 : Around n L a b) (h2 : Around n L b a) : False := by
  obtain ⟨ha, hb, hab, s, s0, hs⟩ := h1
  obtain ⟨_, _, _, t, t0, ht⟩ := h2
  have hA := P.two ha hb hab
  obtain ⟨e0, he0, hv⟩ := not_vertical P.arr (P.sub a ha) (P.bal a ha) (P.nodup a ha) (P.ne a ha)
  obtain ⟨e, he, m, hm, h0⟩ := find_first hA ⟨e0, List.mem_append_left _ he0, hv⟩
  rcases List.mem_append.mp he with k | k
  · exact t0 (P.side hb ha hab.symm ht k hm (h0 _ (fun _ h => List.mem_append_right _ h) (P.bal b hb))).symm
  · exact s0 (P.side ha hb hab hs k hm (h0 _ (fun _ h => List.mem_append_left _ h) (P.bal a ha))).symm

/-- Of two parts around a place, one is around the other, seen from a line that has the winding numbers of the place. -/
theorem Parts.meet {a b c : Nat} (ha : a < n) (hb : b < n) (hc : c < n) (hab : a ≠ b) {s t : Int} (hs : ∀ e ∈ L c, Beside (L a) e (nrm e) s)
    (ht : ∀ e ∈ L c, Beside (L b) e (nrm e) t) (h : s ≠ 0 ∨ t ≠ 0) :
    (∃ e ∈ L a, ∃ m, (m = nrm e ∨ m = -nrm e) ∧ Beside (L a) e m s ∧ Beside (L b) e m t) ∨
      ∃ e ∈ L b, ∃ m, (m = nrm e ∨ m = -nrm e) ∧ Beside (L a) e m s ∧ Beside (L b) e m t := by
  have hA := P.two ha hb hab
  obtain ⟨e, he⟩ := List.exists_mem_of_ne_nil _ (P.ne c hc)
  have heK := P.sub c hc e he
  obtain ⟨ε, p, ⟨h1, h2⟩, h3⟩ := (((hs e he).and (ht e he)).and
    (near_off P.arr (append_sub (P.sub a ha) (P.sub b hb)) heK (mid_within (P.arr.ne e heK)) (nrm_pos (P.arr.ne e heK)).ne')).get
  unfold windAt at h1 h2
  rcases find_line hA h3 with k | ⟨f, hf, m, hm, k⟩
  · have k1 := k (L a) (fun _ h => List.mem_append_left _ h) (P.bal a ha)
    have k2 := k (L b) (fun _ h => List.mem_append_right _ h) (P.bal b hb)
    rw [h1] at k1; rw [h2] at k2
    omega
  · have k1 := k (L a) (fun _ h => List.mem_append_left _ h) (P.bal a ha)
    have k2 := k (L b) (fun _ h => List.mem_append_right _ h) (P.bal b hb)
    rw [h1] at k1; rw [h2] at k2
    rcases List.mem_append.mp hf with j | j
    · exact Or.inl ⟨f, j, m, hm, k1, k2⟩
    · exact Or.inr ⟨f, j, m, hm, k1, k2⟩

/-- Being wound around nests the parts. -/
theorem Parts.laminar : Laminar n (Around n L) := by
  refine ⟨fun a b h => ⟨h.1, h.2.1⟩, fun a h => h.2.2.1 rfl, fun a b c h1 h2 => ?_, fun a b c h1 h2 => ?_⟩
  · obtain ⟨ha, hb, hab, s, s0, hs⟩ := h1
    obtain ⟨_, hc, hbc, t, t0, ht⟩ := h2
    have hac : a ≠ c := by
      rintro rfl
      exact P.asymm ⟨ha, hb, hab, s, s0, hs⟩ ⟨hb, ha, hbc, t, t0, ht⟩
    obtain ⟨r, hr⟩ := P.const a ha c hc
    refine ⟨ha, hc, hac, r, ?_, hr⟩
    rcases P.meet ha hb hc hab hr ht (Or.inr t0) with ⟨e, he, m, hm, k1, k2⟩ | ⟨e, he, m, hm, k1, k2⟩
    · -- `b` would be around `a`
      obtain ⟨u, hu⟩ := P.const b hb a ha
      have := P.side hb ha hab.symm hu he hm k2
      exact (P.asymm ⟨ha, hb, hab, s, s0, hs⟩ ⟨hb, ha, hab.symm, u, this ▸ t0, hu⟩).elim
    · rw [P.side ha hb hab hs he hm k1]; exact s0
  · obtain ⟨ha, hc, hac, s, s0, hs⟩ := h1
    obtain ⟨hb, _, hbc, t, t0, ht⟩ := h2
    by_cases hab : a = b
    · exact Or.inl hab
    right
    rcases P.meet ha hb hc hab hs ht (Or.inl s0) with ⟨e, he, m, hm, k1, k2⟩ | ⟨e, he, m, hm, k1, k2⟩
    · right
      obtain ⟨u, hu⟩ := P.const b hb a ha
      exact ⟨hb, ha, fun e => hab e.symm, u, P.side hb ha (fun e => hab e.symm) hu he hm k2 ▸ t0, hu⟩
    · left
      obtain ⟨u, hu⟩ := P.const a ha b hb
      exact ⟨ha, hb, hab, u, P.side ha hb hab hu he hm k1 ▸ s0, hu⟩

/-- A part has one winding number around all of another one. -/
theorem Parts.seen {a b : Nat} (ha : a < n) (hb : b < n) (hab : a ≠ b) : ∃ s, (∀ e ∈ L b, Beside (L a) e (nrm e) s) ∧
    ∀ e ∈ L b, ∀ x y, OnSegQ x y e.1 e.2 → Off (L a) x y → wind (L a) x y = s := by
  obtain ⟨s, hs⟩ := P.const a ha b hb
  refine ⟨s, hs, fun e he x y hon hoff => ?_⟩
  have heK := P.sub b hb e he
  have hw := mid_within (P.arr.ne e heK)
  have hF : ∀ f ∈ L a, f ∈ K ∧ f ≠ e := fun f hf => ⟨P.sub a ha f hf, fun c => P.disj b hb a ha hab.symm e he (c ▸ hf)⟩
  have h1 : wind (L a) x y = windAt (L a) (mid e.1 e.2) := by
    refine (wind_clear (z := mid e.1 e.2) (w := (x, y)) (P.bal a ha) fun t t0 t1 f hf hc => ?_).symm
    rcases t1.lt_or_eq with k | k
    · have hin : Within e (mix (mid e.1 e.2) (x, y) t) := by
        obtain ⟨q, q0, q1, e1, e2⟩ := hon
        have m1 : (mix (mid e.1 e.2) (x, y) t).1 = e.1.x + ((1 - t) / 2 + t * q) * ((e.2.x : Rat) - e.1.x) := by unfold mix mid; dsimp only; rw [e1]; ring
        have m2 : (mix (mid e.1 e.2) (x, y) t).2 = e.1.y + ((1 - t) / 2 + t * q) * ((e.2.y : Rat) - e.1.y) := by unfold mix mid; dsimp only; rw [e2]; ring
        have c0 : 0 < (1 - t) / 2 + t * q := by nlinarith [mul_nonneg t0 q0]
        have c1 : (1 - t) / 2 + t * q < 1 := by nlinarith [mul_nonneg t0 (show 0 ≤ 1 - q by linarith)]
        refine ⟨⟨_, c0.le, c1.le, m1, m2⟩, ?_⟩
        have hv := vec_ne (P.arr.ne e heK)
        rintro (⟨g1, g2⟩ | ⟨g1, g2⟩) <;> rw [m1] at g1 <;> rw [m2] at g2 <;> apply hv
        · exact Prod.ext ((mul_eq_zero.mp (show ((1 - t) / 2 + t * q) * ((e.2.x : Rat) - e.1.x) = 0 by linarith)).resolve_left c0.ne')
            ((mul_eq_zero.mp (show ((1 - t) / 2 + t * q) * ((e.2.y : Rat) - e.1.y) = 0 by linarith)).resolve_left c0.ne')
        · have n : 1 - ((1 - t) / 2 + t * q) ≠ 0 := by linarith
          exact Prod.ext ((mul_eq_zero.mp (show (1 - ((1 - t) / 2 + t * q)) * ((e.2.x : Rat) - e.1.x) = 0 by linarith)).resolve_left n)
            ((mul_eq_zero.mp (show (1 - ((1 - t) / 2 + t * q)) * ((e.2.y : Rat) - e.1.y) = 0 by linarith)).resolve_left n)
      exact hin.2 (P.arr.meet e heK f (hF f hf).1 (hF f hf).2.symm _ _ hin.1 hc).1
    · rw [k] at hc
      have : mix (mid e.1 e.2) (x, y) 1 = (x, y) := by unfold mix; ext <;> dsimp only <;> ring
      rw [this] at hc
      exact hoff f hf hc
  rw [h1]
  obtain ⟨ε, p, h2, h3⟩ := ((hs e he).and (others_clear P.arr heK hF hw hw 0 (nrm e))).get
  have : sh (mid e.1 e.2) ε 0 = mid e.1 e.2 := by unfold sh; ext <;> simp
  rw [this] at h3
  rw [← h2]
  exact wind_clear (P.bal a ha) h3

end
end PolyOps.Exec
