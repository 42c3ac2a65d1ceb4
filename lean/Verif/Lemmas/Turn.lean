import Verif.Lemmas.Lam
import Verif.Props.LoopsVertex

/-! Lines around a point: the closed parts that result from always taking the sharpest turn keep the same side. -/
namespace PolyOps.Exec
open PolyOps PolyOps.Sweep PolyOps.Region PolyOps.Planarity PolyOps.Loops

theorem par_same {a b : V} (ha : a ≠ 0) (hb : b ≠ 0) (h : cr a b = 0) : Same a b ∨ ∃ s : Rat, 0 < s ∧ b.1 = -s * a.1 ∧ b.2 = -s * a.2 := by
  by_cases hd : 0 < dt a b
  · exact Or.inl ((same_iff ha hb).mpr ⟨h, hd⟩)
  · right
    have hA := sq_pos_of ha
    have hne : dt a b ≠ 0 := by
      intro g
      have h2 := sq_pos_of hb
      unfold dt cr at *
      have : (a.1 * a.1 + a.2 * a.2) * (b.1 * b.1 + b.2 * b.2) = 0 := by
        have : (a.1 * a.1 + a.2 * a.2) * (b.1 * b.1 + b.2 * b.2) = (a.1 * b.2 - a.2 * b.1) ^ 2 + (a.1 * b.1 + a.2 * b.2) ^ 2 := by ring
        rw [this, h, g]; ring
      exact absurd this (mul_pos hA h2).ne'
    refine ⟨-(dt a b / dt a a), ?_, ?_, ?_⟩
    · have : dt a b < 0 := lt_of_le_of_ne (not_lt.mp hd) hne
      have := div_neg_of_neg_of_pos this hA
      linarith
    · rw [neg_neg, div_mul_eq_mul_div, eq_div_iff hA.ne']
      unfold dt cr at *; linear_combination -a.2 * h
    · rw [neg_neg, div_mul_eq_mul_div, eq_div_iff hA.ne']
      unfold dt cr at *; linear_combination a.1 * h

/-- A direction met between another one and the way back is the sharper turn. -/
theorem before_of_btw {q p c d : Pt} (hq : q ≠ p) (hc : c ≠ p) (hd : d ≠ p) (h1 : ¬ Same (vec p c) (vec p q)) (h2 : ¬ Same (vec p d) (vec p q))
    (h3 : ¬ Same (vec p c) (vec p d)) (h : Btw (vec p c) (vec p d) (vec p q)) : before q p d c := by
  have q0 : vec p q ≠ 0 := vec_ne hq.symm
  have c0 : vec p c ≠ 0 := vec_ne hc.symm
  have d0 : vec p d ≠ 0 := vec_ne hd.symm
  by_contra hn
  have L : ∀ e : Pt, leftOf q p e ↔ 0 < cr (vec p q) (vec p e) := by
    intro e
    rw [leftOf_ac]
    unfold ac cr vec
    dsimp only
    have : ((p.x - q.x) * (e.y - p.y) - (e.x - p.x) * (p.y - q.y) < 0) ↔ (((p.x - q.x) * (e.y - p.y) - (e.x - p.x) * (p.y - q.y) : Int) : Rat) < 0 := by
      exact_mod_cast Iff.rfl
    rw [this]
    push_cast
    constructor <;> intro h <;> linarith
  have L2 : leftOf p d c ↔ cr (vec p d) (vec p c) < 0 := by
    unfold leftOf cr vec
    dsimp only
    have : ((d.x - p.x) * (c.y - p.y) < (c.x - p.x) * (d.y - p.y)) ↔ (((d.x - p.x) * (c.y - p.y) : Int) : Rat) < ((c.x - p.x) * (d.y - p.y) : Int) := by
      exact_mod_cast Iff.rfl
    rw [this]
    push_cast
    constructor <;> intro h <;> linarith
  unfold before at hn
  rw [L, L, L2] at hn
  have s1 := cr_swap (vec p q) (vec p c)
  have s2 := cr_swap (vec p q) (vec p d)
  generalize vec p q = b at *
  generalize vec p c = c at *
  generalize vec p d = d at *
  suffices Btw d c b from h.asymm this
  by_cases ld : 0 < cr b d <;> by_cases lc : 0 < cr b c
  · -- both left
    have k : ¬ cr d c < 0 := fun k => hn (Or.inr ⟨iff_of_true ld lc, k⟩)
    have k2 : 0 < cr d c := by
      rcases (not_lt.mp k).lt_or_eq with j | j
      · exact j
      · rcases par_same d0 c0 j.symm with e | ⟨s, sp, e1, e2⟩
        · exact (h3 e.symm).elim
        · have : cr b c = -s * cr b d := by unfold cr; rw [e1, e2]; ring
          nlinarith [mul_pos sp ld]
    exact btw_of_left q0 k2 (fun g => by linarith) h2
  · have k : 0 < cr d c ∨ 0 < cr c b := by
      rcases (not_lt.mp lc).lt_or_eq with j | j
      · right; linarith
      · left
        rcases par_same q0 c0 j with e | ⟨s, sp, e1, e2⟩
        · exact (h1 e.symm).elim
        · have : cr d c = -s * cr d b := by unfold cr; rw [e1, e2]; ring
          rw [this]
          nlinarith [mul_pos sp ld]
    rcases k with k | k
    · exact btw_of_left q0 k (fun g => by linarith) h2
    · exact btw_of_right d0 k (fun g => by linarith) h2
  · exact (hn (Or.inl ⟨ld, lc⟩)).elim
  · have k : ¬ cr d c < 0 := fun k => hn (Or.inr ⟨iff_of_false ld lc, k⟩)
    have k2 : 0 < cr d c := by
      rcases (not_lt.mp k).lt_or_eq with j | j
      · exact j
      · rcases par_same d0 c0 j.symm with e | ⟨s, sp, e1, e2⟩
        · exact (h3 e.symm).elim
        · have : cr b c = -s * cr b d := by unfold cr; rw [e1, e2]; ring
          have z : cr b d = 0 := by nlinarith [mul_nonneg sp.le (show 0 ≤ -cr b d by linarith)]
          have z2 : cr b c = 0 := by rw [this, z]; ring
          rcases par_same q0 d0 z with e | ⟨u, up, f1, f2⟩
          · exact (h2 e.symm).elim
          rcases par_same q0 c0 z2 with e | ⟨v, vp, g1, g2⟩
          · exact (h1 e.symm).elim
          exfalso
          apply h3
          rw [same_iff c0 d0]
          have hB := sq_pos_of q0
          unfold cr dt at *
          refine ⟨by rw [f1, f2, g1, g2]; ring, ?_⟩
          rw [f1, f2, g1, g2]
          have : -v * b.1 * (-u * b.1) + -v * b.2 * (-u * b.2) = v * u * (b.1 * b.1 + b.2 * b.2) := by ring
          rw [this]; positivity
    refine btw_of_left q0 k2 (fun g => ?_) h2
    rcases (not_lt.mp lc).lt_or_eq with j | j
    · linarith
    · rcases par_same q0 c0 j with e | ⟨s, sp, e1, e2⟩
      · exact (h1 e.symm).elim
      · have : cr d c = -s * cr d b := by unfold cr; rw [e1, e2]; ring
        nlinarith [mul_pos sp g]

/-- A finite set with a strict order that is not empty has a last element. -/
theorem exists_last' {α : Type} (R : α → α → Prop) (P : α → Prop) (hi : ∀ a, P a → ¬ R a a) (ht : ∀ a b c, P a → P b → P c → R a b → R b c → R a c) :
    ∀ l : List α, (∃ a ∈ l, P a) → ∃ a ∈ l, P a ∧ ∀ b ∈ l, P b → ¬ R a b := by
  intro l
  induction l with
  | nil => rintro ⟨a, h, _⟩; exact absurd h List.not_mem_nil
  | cons x l ih =>
    intro h
    by_cases h2 : ∃ a ∈ l, P a
    · obtain ⟨a, ha, pa, hm⟩ := ih h2
      by_cases hx : P x ∧ R a x
      · refine ⟨x, List.mem_cons_self, hx.1, fun b hb pb hr => ?_⟩
        rcases List.mem_cons.mp hb with rfl | hb
        · exact hi _ pb hr
        · exact hm b hb pb (ht _ _ _ pa hx.1 pb hx.2 hr)
      · refine ⟨a, List.mem_cons_of_mem _ ha, pa, fun b hb pb hr => ?_⟩
        rcases List.mem_cons.mp hb with rfl | hb
        · exact hx ⟨pb, hr⟩
        · exact hm b hb pb hr
    · obtain ⟨a, ha, pa⟩ := h
      have : a = x := by
        rcases List.mem_cons.mp ha with e | e
        · exact e
        · exact (h2 ⟨a, e, pa⟩).elim
      subst this
      refine ⟨a, List.mem_cons_self, pa, fun b hb pb hr => ?_⟩
      rcases List.mem_cons.mp hb with rfl | hb
      · exact hi _ pb hr
      · exact h2 ⟨b, hb, pb⟩

/-- The other ends of lines. -/
def tipsOf (K : List (Pt × Pt)) : List Pt := K.map Prod.fst ++ K.map Prod.snd

theorem Seg.mem {K : List (Pt × Pt)} {v u : Pt} (h : Seg K v u) : u ∈ tipsOf K := by
  unfold tipsOf
  rcases h with h | h
  · exact List.mem_append_right _ (List.mem_map.mpr ⟨_, h, rfl⟩)
  · exact List.mem_append_left _ (List.mem_map.mpr ⟨_, h, rfl⟩)

/-- Around `v`, turning from `c` towards growing angles, `d` comes before `b`. -/
abbrev Bt (v c d b : Pt) : Prop := Btw (vec v c) (vec v d) (vec v b)

theorem Bt.rot {v c d b : Pt} (h : Bt v c d b) : Bt v d b c := Btw.cyc h

theorem Bt.trans {v c d e b : Pt} (h1 : Bt v c d b) (h2 : Bt v d e b) : Bt v c e b := Btw.trans h1 h2

theorem Bt.inner {v c x y z : Pt} (h1 : Bt v c y x) (h2 : Bt v c z y) : Bt v c z x := ((h2.rot).trans h1.rot).rot.rot

theorem Bt.irrefl {v c d b : Pt} (h : Bt v c d b) : c ≠ d ∧ d ≠ b ∧ c ≠ b := by
  unfold Bt Btw at h
  refine ⟨?_, ?_, ?_⟩ <;> rintro rfl <;> rcases h with h | h | h <;> linarith [h.1, h.2]

section
variable {K : List (Pt × Pt)} (hA : Arr K)

include hA in
theorem bt_total {v c d b : Pt} (hc : Seg K v c) (hd : Seg K v d) (hb : Seg K v b) (h1 : c ≠ d) (h2 : d ≠ b) (h3 : c ≠ b) : Bt v c d b ∨ Bt v d c b :=
  btw_total (ray_ne hA hc hd h1) (ray_ne hA hd hb h2) (ray_ne hA hc hb h3)

/-- The line next to `b` among those between `c` and `b`. -/
theorem nearest {v c b : Pt} (h : ∃ r, Seg K v r ∧ Bt v c r b) : ∃ r, Seg K v r ∧ Bt v c r b ∧ ∀ r', Seg K v r' → ¬ Bt v r r' b := by
  obtain ⟨r, hr⟩ := h
  obtain ⟨a, _, pa, hm⟩ := exists_last' (fun x y => Bt v x y b) (fun r => Seg K v r ∧ Bt v c r b)
    (fun a _ h => h.irrefl.1 rfl) (fun x y z _ _ _ h1 h2 => Btw.trans h1 h2) (tipsOf K) ⟨r, hr.1.mem, hr⟩
  exact ⟨a, pa.1, pa.2, fun r' hr' hb => hm r' hr'.mem ⟨hr', Btw.trans pa.2 hb⟩ hb⟩

/-- The line next to `c` among those between `c` and `b`. -/
theorem nearest' {v c b : Pt} (h : ∃ r, Seg K v r ∧ Bt v c r b) : ∃ r, Seg K v r ∧ Bt v c r b ∧ ∀ r', Seg K v r' → ¬ Bt v c r' r := by
  obtain ⟨r, hr⟩ := h
  have tr : ∀ x y z : Pt, Bt v c y x → Bt v c z y → Bt v c z x := fun x y z h1 h2 => h1.inner h2
  obtain ⟨a, _, pa, hm⟩ := exists_last' (fun x y => Bt v c y x) (fun r => Seg K v r ∧ Bt v c r b)
    (fun a _ h => h.irrefl.2.1 rfl) (fun x y z _ _ _ h1 h2 => tr _ _ _ h1 h2) (tipsOf K) ⟨r, hr.1.mem, hr⟩
  exact ⟨a, pa.1, pa.2, fun r' hr' hb => hm r' hr'.mem ⟨hr', tr _ _ _ pa.2 hb⟩ hb⟩

theorem cr_vec_swap (u v : Pt) (n : V) : cr (vec v u) n = - cr (vec u v) n := by unfold cr vec; dsimp only; ring

theorem out_side {v c : Pt} (h : v ≠ c) : 0 < cr (vec v c) (nrm (v, c)) := nrm_pos (e := (v, c)) h
theorem in_side {v b : Pt} (h : b ≠ v) : 0 < cr (nrm (b, v)) (vec v b) := by
  have := nrm_pos (e := (b, v)) h
  dsimp only at this
  rw [cr_swap, cr_vec_swap]; linarith
theorem out_side' {v c : Pt} (h : v ≠ c) : 0 < cr (-nrm (v, c)) (vec v c) := by
  have := nrm_pos (e := (v, c)) h
  dsimp only at this
  unfold cr at *
  simp only [Prod.fst_neg, Prod.snd_neg]
  linarith
theorem in_side' {v b : Pt} (h : b ≠ v) : 0 < cr (vec v b) (-nrm (b, v)) := by
  have := nrm_pos (e := (b, v)) h
  dsimp only at this
  rw [cr_vec_swap]
  unfold cr at *
  simp only [Prod.fst_neg, Prod.snd_neg]
  linarith

/-- Everything lies once inside or not at all inside the lines together. -/
def Unit (K : List (Pt × Pt)) : Prop := ∀ e ∈ K, Beside K e (nrm e) 1 ∧ Beside K e (-nrm e) 0

theorem unit_of (hA : Arr K) (hB : Bal K) (h : ∀ x y, Off K x y → wind K x y = 0 ∨ wind K x y = 1) : Unit K := by
  intro e he
  obtain ⟨s, hs⟩ := beside_exists hA (fun _ h => h) hB he (nrm_pos (hA.ne e he)).ne'
  obtain ⟨t, ht⟩ := beside_exists hA (fun _ h => h) hB he (neg_cross hA he)
  have := crossing hA (fun _ h => h) hB hA.nodup he hs ht
  rw [if_pos he] at this
  have hw := mid_within (hA.ne e he)
  obtain ⟨ε, _, h1, h2⟩ := (hs.and (near_off hA (fun _ h => h) he hw (nrm_pos (hA.ne e he)).ne')).get
  obtain ⟨δ, _, h3, h4⟩ := (ht.and (near_off hA (fun _ h => h) he hw (neg_cross hA he))).get
  unfold windAt at h1 h3
  have a := h _ _ h2
  have b := h _ _ h4
  rw [h1] at a; rw [h3] at b
  have e1 : s = 1 := by omega
  have e2 : t = 0 := by omega
  exact ⟨e1 ▸ hs, e2 ▸ ht⟩

include hA in
/-- Between two lines that arrive at a point there is another line. -/
theorem between_ins (hB : Bal K) (hU : Unit K) {v b b' : Pt} (h : (b, v) ∈ K) (h' : (b', v) ∈ K) (hne : b' ≠ b) : ∃ r, Seg K v r ∧ Bt v b' r b := by
  by_contra hn
  have hw := wedge hA (fun _ h => h) hB (c := b') (b := b) (Or.inr h') (Or.inr h) hne (fun r hr _ _ hb => hn ⟨r, hr, hb⟩)
    (in_side' (hA.ne _ h')) (in_side (hA.ne _ h))
  obtain ⟨ε, _, ⟨h1, h2⟩, h3⟩ := ((hw.and (hU _ h).1).and (hU _ h').2).get
  rw [mid_symm v b', mid_symm v b] at h1
  rw [h2, h3] at h1
  omega

/-- The lines from `u` to `v` and on to `u'` have no line between them on one of their sides. -/
structure Tip (K : List (Pt × Pt)) (u v u' : Pt) : Prop where
  inn : (u, v) ∈ K
  out : (v, u') ∈ K
  free : (∀ r, Seg K v r → ¬ Bt v u r u') ∨ ∀ r, Seg K v r → ¬ Bt v u' r u

variable {E : List (Pt × Pt)} (hE : ∀ e ∈ E, e ∈ K) (hBE : Bal E) (hN : E.Nodup)

theorem Seg.mono {E K : List (Pt × Pt)} (h : ∀ e ∈ E, e ∈ K) {v u : Pt} (hs : Seg E v u) : Seg K v u := by
  rcases hs with hs | hs; exacts [Or.inl (h _ hs), Or.inr (h _ hs)]

include hA hE hBE hN in
theorem tip_side {u v u' : Pt} (ht : Tip K u v u') (hiff : (u, v) ∈ E ↔ (v, u') ∈ E) {s t : Int} (hs : Beside E (u, v) (nrm (u, v)) s)
    (hr : Beside E (v, u') (nrm (v, u')) t) : s = t := by
  have hne : u ≠ u' := by
    rintro rfl
    exact hA.one _ ht.inn ht.out
  obtain ⟨s', hs'⟩ := beside_exists hA hE hBE ht.inn (neg_cross hA ht.inn)
  obtain ⟨t', ht'⟩ := beside_exists hA hE hBE ht.out (neg_cross hA ht.out)
  have c1 := crossing hA hE hBE hN ht.inn hs hs'
  have c2 := crossing hA hE hBE hN ht.out hr ht'
  rcases ht.free with hfree | hfree
  · have hw := wedge hA hE hBE (c := u) (b := u') (Or.inr ht.inn) (Or.inl ht.out) hne (fun r hr _ _ hb => hfree r (hr.mono hE) hb)
      (in_side' (hA.ne _ ht.inn)) (out_side' (hA.ne _ ht.out))
    obtain ⟨ε, _, ⟨h1, h2⟩, h3⟩ := ((hw.and hs').and ht').get
    rw [mid_symm v u] at h1
    rw [h2, h3] at h1
    simp only [hiff] at c1
    omega
  · have hw := wedge hA hE hBE (c := u') (b := u) (Or.inl ht.out) (Or.inr ht.inn) hne.symm (fun r hr _ _ hb => hfree r (hr.mono hE) hb)
      (out_side (hA.ne _ ht.out)) (in_side (hA.ne _ ht.inn))
    obtain ⟨ε, _, ⟨h1, h2⟩, h3⟩ := ((hw.and hs).and hr).get
    rw [mid_symm v u] at h1
    rw [h2, h3] at h1
    exact h1.symm

open Classical in
/-- How many lines are between. -/
noncomputable def cnt (K : List (Pt × Pt)) (v c b : Pt) : Nat := ((tipsOf K).filter fun r => decide (Seg K v r ∧ Bt v c r b)).length

theorem cnt_lt {v c b r c' u : Pt} (hu : ∀ x, Bt v c' x u → Bt v c x b) (hr : Seg K v r) (h1 : Bt v c r b) (h2 : ¬ Bt v c' r u) : cnt K v c' u < cnt K v c b := by
  classical
  unfold cnt
  have : ∀ l : List Pt, (l.filter fun r => decide (Seg K v r ∧ Bt v c' r u)).length ≤ (l.filter fun r => decide (Seg K v r ∧ Bt v c r b)).length ∧
      (r ∈ l → (l.filter fun r => decide (Seg K v r ∧ Bt v c' r u)).length < (l.filter fun r => decide (Seg K v r ∧ Bt v c r b)).length) := by
    intro l
    induction l with
    | nil => simp
    | cons x l ih =>
      by_cases a : Seg K v x ∧ Bt v c' x u
      · have b' : Seg K v x ∧ Bt v c x b := ⟨a.1, hu x a.2⟩
        rw [List.filter_cons_of_pos (by simpa using a), List.filter_cons_of_pos (by simpa using b')]
        refine ⟨by simpa using ih.1, fun hm => ?_⟩
        rcases List.mem_cons.mp hm with rfl | hm
        · exact (h2 a.2).elim
        · simpa using ih.2 hm
      · rw [List.filter_cons_of_neg (by simpa using a)]
        by_cases b' : Seg K v x ∧ Bt v c x b
        · rw [List.filter_cons_of_pos (by simpa using b')]
          exact ⟨by have := ih.1; simp only [List.length_cons]; omega, fun _ => by have := ih.1; simp only [List.length_cons]; omega⟩
        · rw [List.filter_cons_of_neg (by simpa using b')]
          refine ⟨ih.1, fun hm => ih.2 ?_⟩
          rcases List.mem_cons.mp hm with rfl | hm
          · exact (b' ⟨hr, h1⟩).elim
          · exact hm
  exact (this _).2 hr.mem

theorem cnt_pos {v c b r : Pt} (hr : Seg K v r) (h : Bt v c r b) : 0 < cnt K v c b := by
  classical
  unfold cnt
  exact List.length_pos_of_mem (List.mem_filter.mpr ⟨hr.mem, decide_eq_true ⟨hr, h⟩⟩)

include hA hE hBE hN in
/-- From a line that arrives to the line that leaves, with only tips between them, the side is kept. -/
theorem run_side (hB : Bal K) (hU : Unit K) (T : Pt → Pt → Pt → Prop) (hTK : ∀ u v u', T u v u' → Tip K u v u')
    (hTf : ∀ u v d d', T u v d → T u v d' → d = d')
    (hT : ∀ u v u', T u v u' → ((u, v) ∈ E ↔ (v, u') ∈ E)) {v c : Pt} (hc : (v, c) ∈ K) {t : Int}
    (ht : Beside E (v, c) (nrm (v, c)) t) : ∀ (n : Nat) (b : Pt), cnt K v c b < n → (b, v) ∈ K → (∀ d, (v, d) ∈ K → Bt v c d b → ∃ u, T u v d) →
    (∀ d, Bt v c d b → ¬ T b v d) → ∀ s, Beside E (b, v) (nrm (b, v)) s → s = t := by
  intro n
  induction n with
  | zero =>
    intro b hn
    omega
  | succ n ih =>
    intro b hn hb hd hnt s hs
    have hcb : c ≠ b := by rintro rfl; exact hA.one _ hc hb
    by_cases hex : ∃ r, Seg K v r ∧ Bt v c r b
    · obtain ⟨r, hr, hbt, hnear⟩ := nearest hex
      rcases hr with hr | hr
      · -- the next line leaves: it is the second line of a tip
        obtain ⟨u, huT⟩ := hd r hr hbt
        have hu := hTK _ _ _ huT
        obtain ⟨s', hs'⟩ := beside_exists hA hE hBE hr (nrm_pos (hA.ne _ hr)).ne'
        obtain ⟨s'', hs''⟩ := beside_exists hA hE hBE hu.inn (nrm_pos (hA.ne _ hu.inn)).ne'
        have e1 : s'' = s' := tip_side hA hE hBE hN hu (hT _ _ _ huT) hs'' hs'
        have hw := wedge hA hE hBE (c := r) (b := b) (Or.inl hr) (Or.inr hb) hbt.irrefl.2.1 (fun r' hr' _ _ hb' => hnear r' (hr'.mono hE) hb')
          (out_side (hA.ne _ hr)) (in_side (hA.ne _ hb))
        have e2 : s' = s := by
          obtain ⟨ε, _, ⟨h1, h2⟩, h3⟩ := ((hw.and hs).and hs').get
          rw [mid_symm v b] at h1
          rw [h2, h3] at h1
          exact h1
        have hcu : c ≠ u := by rintro rfl; exact hA.one _ hc hu.inn
        have hru : u ≠ r := by rintro rfl; exact hA.one _ hr hu.inn
        have hfree : ∀ x, Seg K v x → ¬ Bt v u x r := by
          rcases hu.free with k | k
          · exact k
          · exfalso
            have hub : u ≠ b := by rintro rfl; exact hnt r hbt huT
            rcases bt_total hA (Or.inr hu.inn) (Or.inr hb) (Or.inl hr) hub hbt.irrefl.2.1.symm hru with g | g
            · exact hnear u (Or.inr hu.inn) g.rot.rot
            · exact k b (Or.inr hb) g.rot.rot
        have hcur : Bt v c u r := by
          rcases bt_total hA (Or.inl hc) (Or.inr hu.inn) (Or.inl hr) hcu hru hbt.irrefl.1 with k | k
          · exact k
          · exact (hfree c (Or.inl hc) k).elim
        -- `c u r b`
        have hub : Bt v c u b := hbt.inner hcur
        have hmono : ∀ x, Bt v c x u → Bt v c x b := fun x hx => hub.inner hx
        have hlt : cnt K v c u < cnt K v c b := by
          refine cnt_lt hmono (Or.inl hr) hbt fun h => ?_
          -- `c r u` and `c u r`
          have k1 : Bt v u r c := hcur.rot
          have k2 : Bt v r u c := h.rot
          exact k1.asymm k2
        have := ih u (by omega) hu.inn (fun d hd' hb' => hd d hd' (hmono d hb')) (fun d hb' hTd => by
          obtain rfl := hTf _ _ _ _ huT hTd
          exact hcur.rot.asymm hb'.rot) s'' hs''
        omega
      · -- two lines that arrive one after the other
        obtain ⟨r', hr', hb'⟩ := between_ins hA hB hU hb hr hbt.irrefl.2.1
        exact (hnear r' hr' hb').elim
    · have hw := wedge hA hE hBE (c := c) (b := b) (Or.inl hc) (Or.inr hb) hcb (fun r hr _ _ hbt => hex ⟨r, hr.mono hE, hbt⟩) (out_side (hA.ne _ hc)) (in_side (hA.ne _ hb))
      obtain ⟨ε, _, ⟨h1, h2⟩, h3⟩ := ((hw.and hs).and ht).get
      rw [mid_symm v b] at h1
      rw [h2, h3] at h1
      exact h1.symm

include hA in
/-- Two lines that arrive and are not part of tips do not have the same sharpest turn. -/
theorem partner_inj (hB : Bal K) (hU : Unit K) (T : Pt → Pt → Pt → Prop) (hTK : ∀ u v u', T u v u' → Tip K u v u')
    (hTf : ∀ u v d d', T u v d → T u v d' → d = d') {v c b b' : Pt} (hc : (v, c) ∈ K) (hb : (b, v) ∈ K)
    (hb' : (b', v) ∈ K) (hne : b ≠ b') (hd : ∀ d, (v, d) ∈ K → Bt v c d b → ∃ u, T u v d) (hd' : ∀ d, (v, d) ∈ K → Bt v c d b' → ∃ u, T u v d)
    (hn : ∀ d, ¬ T b v d) (hn' : ∀ d, ¬ T b' v d) : False := by
  have main : ∀ b : Pt, (b, v) ∈ K → (∀ d, (v, d) ∈ K → Bt v c d b → ∃ u, T u v d) → (∀ d, ¬ T b v d) → ∀ (n : Nat) (b' : Pt), cnt K v b' b < n →
      (b', v) ∈ K → b ≠ b' → (∀ d, Bt v b' d b → ¬ T b' v d) → Bt v c b' b → False := by
    intro b hb hd hn n
    induction n with
    | zero => intro b' h; omega
    | succ n ih =>
      intro b' hcnt hb' hne hn' hbt
      obtain ⟨r, hr, h1, h2⟩ := nearest' (between_ins hA hB hU hb hb' hne.symm)
      rcases hr with hr | hr
      · obtain ⟨u, hu⟩ := hd r hr (hbt.trans h1)
        have ht := hTK _ _ _ hu
        have hub : u ≠ b' := by rintro rfl; exact hn' r h1 hu
        have hur : u ≠ r := by rintro rfl; exact hA.one _ hr ht.inn
        have huB : u ≠ b := by rintro rfl; exact hn _ hu
        have hrb' : r ≠ b' := h1.irrefl.1.symm
        rcases ht.free with hfree | hfree
        · rcases bt_total hA (Or.inr ht.inn) (Or.inr hb') (Or.inl hr) hub h1.irrefl.1 hur with k | k
          · exact hfree b' (Or.inr hb') k
          · exact h2 u (Or.inr ht.inn) k
        · -- `b' r u b`
          have k1 : Bt v r u b := by
            rcases bt_total hA (Or.inl hr) (Or.inr ht.inn) (Or.inr hb) hur.symm huB h1.irrefl.2.1 with k | k
            · exact k
            · exact (hfree b (Or.inr hb) k.rot).elim
          have k2 : Bt v b' u b := h1.trans k1
          have hmono : ∀ x, Bt v u x b → Bt v b' x b := fun x hx => k2.trans hx
          have hlt : cnt K v u b < cnt K v b' b := cnt_lt hmono (Or.inl hr) h1 fun h => k1.asymm h
          refine ih u (by omega) ht.inn huB.symm (fun d hb'' hTd => ?_) (hbt.trans k2)
          obtain rfl := hTf _ _ _ _ hu hTd
          exact k1.asymm hb''
      · obtain ⟨r', hr', hb''⟩ := between_ins hA hB hU hr hb' h1.irrefl.1
        exact h2 r' hr' hb''
  have hcb : c ≠ b := by rintro rfl; exact hA.one _ hc hb
  have hcb' : c ≠ b' := by rintro rfl; exact hA.one _ hc hb'
  rcases bt_total hA (Or.inl hc) (Or.inr hb') (Or.inr hb) hcb' hne.symm hcb with k | k
  · exact main b hb hd hn _ b' (Nat.lt_succ_self _) hb' hne (fun d _ => hn' d) k
  · exact main b' hb' hd' hn' _ b (Nat.lt_succ_self _) hb hne.symm (fun d _ => hn d) k.rot

/-- Within less than half a turn. -/
theorem btw_pos {a r b : V} (hr : r ≠ 0) (h : 0 < cr a b) (hb : Btw a r b) : 0 < cr a r ∧ 0 < cr r b := by
  obtain ⟨a0, b0⟩ := ne_of_cr h
  have hs : ¬ Same r b ∧ ¬ Same a r := by
    unfold Same Btw at *
    constructor <;> intro e <;> rcases hb with g | g | g <;> linarith [g.1, g.2]
  have h2 : 0 < cr r b := by
    by_contra c
    exact hb.asymm (btw_of_right hr h (fun g => absurd g c) hs.1)
  refine ⟨?_, h2⟩
  rcases lt_trichotomy (cr a r) 0 with g | g | g
  · exact (hb.asymm (btw_of_right hr h (fun _ => by rw [cr_swap]; linarith) hs.1)).elim
  · rcases par_same a0 hr g with k | ⟨s, s0, k1, k2⟩
    · exact absurd k hs.2
    · exfalso
      have : cr r b = -s * cr a b := by unfold cr; rw [k1, k2]; ring
      rw [this] at h2
      nlinarith
  · exact g

/-- What is met between two directions of a half plane is in the half plane. -/
theorem btw_half {a r b : V} (σ : Rat) (hr : r ≠ 0) (h : 0 < cr a b) (hb : Btw a r b) (h1 : σ * a.1 < 0) (h2 : σ * b.1 < 0) : σ * r.1 < 0 := by
  obtain ⟨k1, k2⟩ := btw_pos hr h hb
  have e : σ * r.1 * cr a b = σ * a.1 * cr r b + σ * b.1 * cr a r := by unfold cr; ring
  have : σ * r.1 * cr a b < 0 := by rw [e]; nlinarith
  by_contra c
  exact absurd this (not_lt.mpr (mul_nonneg (not_lt.mp c) h.le))

include hA in
/-- Two lines of one half plane, with all others in the other half plane. -/
theorem tip_of_half {u v u' : Pt} (σ : Rat) (h1 : (u, v) ∈ K) (h2 : (v, u') ∈ K) (k1 : σ * (vec v u).1 < 0) (k2 : σ * (vec v u').1 < 0)
    (ho : ∀ r, Seg K v r → r ≠ u → r ≠ u' → ¬ σ * (vec v r).1 < 0) : Tip K u v u' := by
  have hne : u ≠ u' := by rintro rfl; exact hA.one _ h1 h2
  refine ⟨h1, h2, ?_⟩
  have nz : ∀ r, Seg K v r → vec v r ≠ 0 := fun r hr => vec_ne (hr.ne hA)
  rcases lt_trichotomy (cr (vec v u) (vec v u')) 0 with g | g | g
  · right
    intro r hr hb
    exact ho r hr hb.irrefl.2.1 hb.irrefl.1.symm (btw_half σ (nz r hr) (by rw [cr_swap]; linarith) hb k2 k1)
  · exfalso
    rcases par_same (nz u (Or.inr h1)) (nz u' (Or.inl h2)) g with k | ⟨s, s0, e1, _⟩
    · exact ray_ne hA (Or.inr h1) (Or.inl h2) hne k
    · rw [e1] at k2
      nlinarith
  · left
    intro r hr hb
    exact ho r hr hb.irrefl.1.symm hb.irrefl.2.1 (btw_half σ (nz r hr) g hb k1 k2)

end
end PolyOps.Exec
