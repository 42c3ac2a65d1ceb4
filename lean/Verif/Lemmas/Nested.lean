import Verif.Lemmas.Lam
import Verif.Lemmas.Turn
import Mathlib.Algebra.BigOperators.Group.Finset.Basic
import Mathlib.Algebra.BigOperators.Group.Finset.Piecewise

/-! What it means that polygons are nested, and that closed parts are. -/
namespace PolyOps.Exec
open PolyOps PolyOps.Sweep PolyOps.Region PolyOps.Planarity PolyOps.Hierarchy

/-- No two edges are the same segment, in the same direction or in opposite ones. -/
def Single (E : List (Pt × Pt)) : Prop := E.Nodup ∧ ∀ e ∈ E, (e.2, e.1) ∉ E

/-- The edges wind around some places `d` times and around all others not at all. -/
def Simple (E : List (Pt × Pt)) (d : Int) : Prop :=
  (∀ x y, Off E x y → wind E x y = 0 ∨ wind E x y = d) ∧ ∃ x y, Off E x y ∧ wind E x y = d

/-- Polygon `a` winds around a place on an edge of polygon `b`. -/
def Contains (out : List (List Pt)) (a b : Nat) : Prop := a < out.length ∧ b < out.length ∧ a ≠ b ∧
  ∃ e ∈ edges (out.getD b []), ∃ x y, OnSegQ x y e.1 e.2 ∧ Off (edges (out.getD a [])) x y ∧ wind (edges (out.getD a [])) x y ≠ 0

/-- Of the polygons that contain `b`, `a` is the innermost one. -/
def Directly (out : List (List Pt)) (a b : Nat) : Prop := Contains out a b ∧ ∀ c, Contains out c b → c ≠ a → Contains out c a

/-- Polygons that do not cross themselves or each other, nested, with alternating directions. -/
structure Nested (out : List (List Pt)) : Prop where
  /-- Each polygon winds once around all places inside it, always in the same direction. -/
  simple : ∀ l ∈ out, Simple (edges l) 1 ∨ Simple (edges l) (-1)
  /-- A polygon winds equally often around all of another one: that one is inside or outside as a whole. -/
  whole : ∀ a < out.length, ∀ b < out.length, a ≠ b → ∃ s, ∀ e ∈ edges (out.getD b []), ∀ x y, OnSegQ x y e.1 e.2 →
    Off (edges (out.getD a [])) x y → wind (edges (out.getD a [])) x y = s
  /-- Containment is an order in which the polygons that contain a given one contain one another. -/
  laminar : Laminar out.length (Contains out)
  /-- A polygon that is in no other one winds forwards. -/
  top : ∀ b < out.length, (∀ a, ¬ Contains out a b) → Simple (edges (out.getD b [])) 1
  /-- A polygon directly inside another one winds in the other direction. -/
  turn : ∀ a b, Directly out a b → ∀ d, Simple (edges (out.getD a [])) d → Simple (edges (out.getD b [])) (-d)
  /-- What is inside a polygon is inside those that contain it. -/
  inner : ∀ a b, Contains out a b → ∀ x y, Off (edges (out.getD a [])) x y → Off (edges (out.getD b [])) x y → wind (edges (out.getD b [])) x y ≠ 0 →
    wind (edges (out.getD a [])) x y ≠ 0
  /-- Two polygons with a place inside both contain one another. -/
  both : ∀ a < out.length, ∀ b < out.length, a ≠ b → ∀ x y, Off (edges (out.getD a [])) x y → Off (edges (out.getD b [])) x y →
    wind (edges (out.getD a [])) x y ≠ 0 → wind (edges (out.getD b [])) x y ≠ 0 → Contains out a b ∨ Contains out b a
  /-- Inside a polygon there is a place that is in no other one but those that contain it. -/
  rim : ∀ a < out.length, ∃ x y, Off (out.flatMap edges) x y ∧ wind (edges (out.getD a [])) x y ≠ 0 ∧
    ∀ b < out.length, b ≠ a → ¬ Contains out b a → wind (edges (out.getD b [])) x y = 0

theorem Simple.unique {E : List (Pt × Pt)} {d d' : Int} (h : Simple E d) (h' : Simple E d') (h0 : d ≠ 0) : d = d' := by
  obtain ⟨x, y, ho, e⟩ := h.2
  rcases h'.1 x y ho with k | k
  · rw [e] at k; exact absurd k h0
  · rw [e] at k; exact k

section
variable {K : List (Pt × Pt)} {n : Nat} {L : Nat → List (Pt × Pt)} (P : Parts K n L)
include P

theorem Parts.dir {a : Nat} (ha : a < n) : ∃ s, (s = 0 ∨ s = 1) ∧ (∀ e ∈ L a, Beside (L a) e (nrm e) s) ∧ Simple (L a) (2 * s - 1) := by
  obtain ⟨s, hs, h1, h2⟩ := P.simple ha
  refine ⟨s, hs, h1, h2, ?_⟩
  obtain ⟨e, he⟩ := List.exists_mem_of_ne_nil _ (P.ne a ha)
  have heK := P.sub a ha e he
  have hw := mid_within (P.arr.ne e heK)
  rcases hs with rfl | rfl
  · obtain ⟨t, ht⟩ := beside_exists P.arr (P.sub a ha) (P.bal a ha) heK (neg_cross P.arr heK)
    have := crossing P.arr (P.sub a ha) (P.bal a ha) (P.nodup a ha) heK (h1 e he) ht
    rw [if_pos he] at this
    obtain ⟨ε, _, g1, g2⟩ := (ht.and (near_off P.arr (P.sub a ha) heK hw (neg_cross P.arr heK))).get
    exact ⟨_, _, g2, by unfold windAt at g1; rw [g1]; omega⟩
  · obtain ⟨ε, _, g1, g2⟩ := ((h1 e he).and (near_off P.arr (P.sub a ha) heK hw (nrm_pos (P.arr.ne e heK)).ne')).get
    exact ⟨_, _, g2, by unfold windAt at g1; rw [g1]; omega⟩

/-- Around is decided at any place of the other part. -/
theorem Parts.around_iff {a b : Nat} (ha : a < n) (hb : b < n) (hab : a ≠ b) : Around n L a b ↔
    ∃ e ∈ L b, ∃ x y, OnSegQ x y e.1 e.2 ∧ Off (L a) x y ∧ wind (L a) x y ≠ 0 := by
  obtain ⟨s, hs, h1⟩ := P.seen ha hb hab
  constructor
  · rintro ⟨_, _, _, t, t0, ht⟩
    obtain ⟨e, he⟩ := List.exists_mem_of_ne_nil _ (P.ne b hb)
    have heK := P.sub b hb e he
    have hw := mid_within (P.arr.ne e heK)
    have hoff : Off (L a) (mid e.1 e.2).1 (mid e.1 e.2).2 := fun f hf hc => by
      have hfe : e ≠ f := fun c => P.disj b hb a ha hab.symm e he (c ▸ hf)
      exact hw.2 (P.arr.meet e heK f (P.sub a ha f hf) hfe _ _ hw.1 hc).1
    refine ⟨e, he, _, _, hw.1, hoff, ?_⟩
    rw [h1 e he _ _ hw.1 hoff, (hs e he).unique (ht e he)]
    exact t0
  · rintro ⟨e, he, x, y, hon, hoff, h0⟩
    rw [h1 e he x y hon hoff] at h0
    exact ⟨ha, hb, hab, s, h0, hs⟩

/-- A place around which one of two parts winds has the winding numbers of a place beside one of them. -/
theorem Parts.place {a b : Nat} (ha : a < n) (hb : b < n) (hab : a ≠ b) {x y : Rat} (h1 : Off (L a) x y) (h2 : Off (L b) x y) (h : wind (L a) x y ≠ 0 ∨ wind (L b) x y ≠ 0) :
    (∃ e ∈ L a, ∃ m, (m = nrm e ∨ m = -nrm e) ∧ Beside (L a) e m (wind (L a) x y) ∧ Beside (L b) e m (wind (L b) x y)) ∨
      ∃ e ∈ L b, ∃ m, (m = nrm e ∨ m = -nrm e) ∧ Beside (L a) e m (wind (L a) x y) ∧ Beside (L b) e m (wind (L b) x y) := by
  have hoff : Off (L a ++ L b) x y := fun e he => (List.mem_append.mp he).elim (h1 e) (h2 e)
  rcases find_line (P.two ha hb hab) hoff with k | ⟨f, hf, m, hm, k⟩
  · have k1 := k (L a) (fun _ h => List.mem_append_left _ h) (P.bal a ha)
    have k2 := k (L b) (fun _ h => List.mem_append_right _ h) (P.bal b hb)
    omega
  · have k1 := k (L a) (fun _ h => List.mem_append_left _ h) (P.bal a ha)
    have k2 := k (L b) (fun _ h => List.mem_append_right _ h) (P.bal b hb)
    rcases List.mem_append.mp hf with j | j
    · exact Or.inl ⟨f, j, m, hm, k1, k2⟩
    · exact Or.inr ⟨f, j, m, hm, k1, k2⟩

theorem Parts.both {a b : Nat} (ha : a < n) (hb : b < n) (hab : a ≠ b) {x y : Rat} (h1 : Off (L a) x y) (h2 : Off (L b) x y) (w1 : wind (L a) x y ≠ 0) (w2 : wind (L b) x y ≠ 0) :
    Around n L a b ∨ Around n L b a := by
  rcases P.place ha hb hab h1 h2 (Or.inl w1) with ⟨e, he, m, hm, k1, k2⟩ | ⟨e, he, m, hm, k1, k2⟩
  · right
    obtain ⟨u, hu⟩ := P.const b hb a ha
    exact ⟨hb, ha, hab.symm, u, P.side hb ha hab.symm hu he hm k2 ▸ w2, hu⟩
  · left
    obtain ⟨u, hu⟩ := P.const a ha b hb
    exact ⟨ha, hb, hab, u, P.side ha hb hab hu he hm k1 ▸ w1, hu⟩

theorem Parts.inner {a b : Nat} (h : Around n L a b) {x y : Rat} (h1 : Off (L a) x y) (h2 : Off (L b) x y) (w2 : wind (L b) x y ≠ 0) : wind (L a) x y ≠ 0 := by
  have h' := h
  obtain ⟨ha, hb, hab, s, s0, hs⟩ := h'
  rcases P.place ha hb hab h1 h2 (Or.inr w2) with ⟨e, he, m, hm, k1, k2⟩ | ⟨e, he, m, hm, k1, k2⟩
  · obtain ⟨u, hu⟩ := P.const b hb a ha
    exact (P.asymm h ⟨hb, ha, hab.symm, u, P.side hb ha hab.symm hu he hm k2 ▸ w2, hu⟩).elim
  · rw [P.side ha hb hab hs he hm k1]; exact s0

theorem Parts.rim {a : Nat} (ha : a < n) : ∃ x y, Off K x y ∧ wind (L a) x y ≠ 0 ∧ ∀ b < n, b ≠ a → ¬ Around n L b a → wind (L b) x y = 0 := by
  obtain ⟨s, hs, h1, -⟩ := P.dir ha
  obtain ⟨e, he⟩ := List.exists_mem_of_ne_nil _ (P.ne a ha)
  have heK := P.sub a ha e he
  have hw := mid_within (P.arr.ne e heK)
  obtain ⟨t, ht⟩ := beside_exists P.arr (P.sub a ha) (P.bal a ha) heK (neg_cross P.arr heK)
  have hst := crossing P.arr (P.sub a ha) (P.bal a ha) (P.nodup a ha) heK (h1 e he) ht
  rw [if_pos he] at hst
  obtain ⟨m, u, hm, hm0, hu, u0⟩ : ∃ m u, (m = nrm e ∨ m = -nrm e) ∧ cr (vec e.1 e.2) m ≠ 0 ∧ Beside (L a) e m u ∧ u ≠ 0 := by
    rcases hs with rfl | rfl
    · exact ⟨_, t, Or.inr rfl, neg_cross P.arr heK, ht, by omega⟩
    · exact ⟨_, 1, Or.inl rfl, (nrm_pos (P.arr.ne e heK)).ne', h1 e he, by omega⟩
  have hz : ∀ b ∈ List.range n, Small fun ε => b ≠ a → ¬ Around n L b a → windAt (L b) (sh (mid e.1 e.2) ε m) = 0 := by
    intro b hb
    have hb := List.mem_range.mp hb
    by_cases hba : b = a
    · exact ⟨1, one_pos, fun ε _ _ h => absurd hba h⟩
    by_cases hc : Around n L b a
    · exact ⟨1, one_pos, fun ε _ _ _ h => absurd hc h⟩
    obtain ⟨q, hq⟩ := P.const b hb a ha
    obtain ⟨q', hq'⟩ := beside_exists P.arr (P.sub b hb) (P.bal b hb) heK hm0
    have e1 := P.side hb ha hba hq he hm hq'
    have q0 : q = 0 := by
      by_contra c
      exact hc ⟨hb, ha, hba, q, c, hq⟩
    have hq'' : Beside (L b) e m 0 := by rw [e1, q0] at hq'; exact hq'
    exact hq''.mono fun ε _ h _ _ => h
  obtain ⟨ε, _, ⟨g1, g2⟩, g3⟩ := ((hu.and (near_off P.arr (fun _ h => h) heK hw hm0)).and (Small.list hz)).get
  unfold windAt at g1 g3
  exact ⟨_, _, g2, by rw [g1]; exact u0, fun b hb h1 h2 => g3 b (List.mem_range.mpr hb) h1 h2⟩

variable (hK : ((List.range n).flatMap L).Perm K) (hU : Unit K)
include hK hU

open Finset in
theorem Parts.total (g : Nat → Int) {b : Nat} (hb : b < n) {e : Pt × Pt} (he : e ∈ L b) (hg : ∀ a < n, Beside (L a) e (nrm e) (g a)) :
    ∑ a ∈ Finset.range n, g a = 1 := by
  have h1 := (hU e (P.sub b hb e he)).1
  have h2 : Small fun ε => ∀ a ∈ List.range n, windAt (L a) (sh (mid e.1 e.2) ε (nrm e)) = g a :=
    Small.list fun a ha => hg a (List.mem_range.mp ha)
  obtain ⟨ε, _, k1, k2⟩ := (h1.and h2).get
  unfold windAt at k1 k2
  rw [← wind_perm hK, wind_flatMap] at k1
  rw [← k1]
  have : ∀ m, m ≤ n → ∑ a ∈ Finset.range m, g a = ((List.range m).map fun a => wind (L a) (sh (mid e.1 e.2) ε (nrm e)).1 (sh (mid e.1 e.2) ε (nrm e)).2).sum := by
    intro m
    induction m with
    | zero => intro _; simp
    | succ m ih =>
      intro hm
      rw [Finset.sum_range_succ, List.range_succ, List.map_append, List.sum_append, ih (by omega), List.map_singleton, List.sum_singleton,
        k2 m (List.mem_range.mpr (by omega))]
  exact this n le_rfl

theorem Parts.top {b : Nat} (hb : b < n) (h : ∀ a, ¬ Around n L a b) : Simple (L b) 1 := by
  obtain ⟨s, hs, h1, h2⟩ := P.dir hb
  obtain ⟨e, he⟩ := List.exists_mem_of_ne_nil _ (P.ne b hb)
  have := P.total hK hU (fun a => if a = b then s else 0) hb he (fun a ha => by
    by_cases c : a = b
    · subst c; rw [if_pos rfl]; exact h1 e he
    · rw [if_neg c]
      obtain ⟨t, ht⟩ := P.const a ha b hb
      have t0 : t = 0 := by
        by_contra t0
        exact h a ⟨ha, hb, c, t, t0, ht⟩
      rw [← t0]; exact ht e he)
  rw [Finset.sum_ite_eq' (Finset.range n) b, if_pos (Finset.mem_range.mpr hb)] at this
  subst this
  exact h2

theorem Parts.turn {a b : Nat} (h : Around n L a b) (hi : ∀ c, Around n L c b → c ≠ a → Around n L c a) {d : Int} (hd : Simple (L a) d) (h0 : d ≠ 0) :
    Simple (L b) (-d) := by
  have ha := h.1
  have hb := h.2.1
  have hab := h.2.2.1
  obtain ⟨s, hs, s1, s2⟩ := P.dir ha
  obtain ⟨r, hr, r1, r2⟩ := P.dir hb
  have e1 : d = 2 * s - 1 := hd.unique s2 h0
  have ex : ∀ p, p < n → ∃ g : Nat → Int, ∀ c < n, ∀ e ∈ L p, Beside (L c) e (nrm e) (g c) := by
    intro p hp
    classical
    refine ⟨fun c => if hc : c < n then Classical.choose (P.const c hc p hp) else 0, fun c hc => ?_⟩
    dsimp only
    rw [dif_pos hc]
    exact Classical.choose_spec (P.const c hc p hp)
  obtain ⟨ga, hga⟩ := ex a ha
  obtain ⟨gb, hgb⟩ := ex b hb
  obtain ⟨ea, hea⟩ := List.exists_mem_of_ne_nil _ (P.ne a ha)
  obtain ⟨eb, heb⟩ := List.exists_mem_of_ne_nil _ (P.ne b hb)
  have ta := P.total hK hU ga ha hea (fun c hc => hga c hc ea hea)
  have tb := P.total hK hU gb hb heb (fun c hc => hgb c hc eb heb)
  have va : ga a = s := (hga a ha ea hea).unique (s1 ea hea)
  have vb : gb b = r := (hgb b hb eb heb).unique (r1 eb heb)
  have ar : ∀ c < n, ∀ p, (hp : p < n) → c ≠ p → ∀ g : Int, (∀ e ∈ L p, Beside (L c) e (nrm e) g) → (g = 0 ↔ ¬ Around n L c p) := by
    intro c hc p hp hcp g hg
    obtain ⟨e, he⟩ := List.exists_mem_of_ne_nil _ (P.ne p hp)
    constructor
    · rintro rfl ⟨_, _, _, t, t0, ht⟩
      exact t0 ((ht e he).unique (hg e he))
    · intro hn
      by_contra g0
      exact hn ⟨hc, hp, hcp, g, g0, hg⟩
  -- values other than zero are fixed
  have val : ∀ c < n, ∀ p, p < n → c ≠ p → ∀ g : Int, (∀ e ∈ L p, Beside (L c) e (nrm e) g) → g ≠ 0 → ∀ t, Simple (L c) t → t ≠ 0 → g = t := by
    intro c hc p hp hcp g hg g0 t ht _
    obtain ⟨e, he⟩ := List.exists_mem_of_ne_nil _ (P.ne p hp)
    have heK := P.sub p hp e he
    obtain ⟨ε, _, k1, k2⟩ := ((hg e he).and (near_off P.arr (P.sub c hc) heK (mid_within (P.arr.ne e heK)) (nrm_pos (P.arr.ne e heK)).ne')).get
    unfold windAt at k1
    rcases ht.1 _ _ k2 with k | k
    · rw [k1] at k; exact absurd k g0
    · rw [k1] at k; exact k
  have vab : gb a = d := val a ha b hb hab (gb a) (hgb a ha) (fun c => (ar a ha b hb hab _ (hgb a ha)).mp c h) d hd h0
  have vba : ga b = 0 := (ar b hb a ha hab.symm _ (hga b hb)).mpr fun k => P.asymm h k
  have same : ∀ c < n, c ≠ a → c ≠ b → gb c = ga c := by
    intro c hc ca cb
    by_cases k : Around n L c b
    · have k' := hi c k ca
      obtain ⟨sc, hsc, _, hd⟩ := P.dir hc
      rw [val c hc b hb cb _ (hgb c hc) (fun z => (ar c hc b hb cb _ (hgb c hc)).mp z k) _ hd (by omega),
        val c hc a ha ca _ (hga c hc) (fun z => (ar c hc a ha ca _ (hga c hc)).mp z k') _ hd (by omega)]
    · have k' : ¬ Around n L c a := fun z => k (P.laminar.trans c a b z h)
      rw [(ar c hc b hb cb _ (hgb c hc)).mpr k, (ar c hc a ha ca _ (hga c hc)).mpr k']
  have hsum : ∑ c ∈ Finset.range n, (gb c - ga c) = (gb a - ga a) + (gb b - ga b) := by
    apply Finset.sum_eq_add a b hab
    · intro c hc ⟨h1, h2⟩
      rw [same c (Finset.mem_range.mp hc) h1 h2]; ring
    · intro hn; exact absurd (Finset.mem_range.mpr ha) hn
    · intro hn; exact absurd (Finset.mem_range.mpr hb) hn
  rw [Finset.sum_sub_distrib, ta, tb, va, vb, vab, vba] at hsum
  have : -d = 2 * r - 1 := by omega
  rw [this]; exact r2

end

theorem nested_of {K : List (Pt × Pt)} {out : List (List Pt)} (P : Parts K out.length (fun m => edges (out.getD m []))) (hK : (out.flatMap edges).Perm K) (hU : Unit K) :
    Nested out := by
  have hK' : ((List.range out.length).flatMap fun m => edges (out.getD m [])).Perm K := by
    have : (List.range out.length).flatMap (fun m => edges (out.getD m [])) = out.flatMap edges := by
      have e : out = (List.range out.length).map fun m => out.getD m [] := by
        apply List.ext_getElem
        · simp
        · intro i h1 h2
          simp [h1]
      conv_rhs => rw [e, List.flatMap_map]
    rw [this]; exact hK
  have hiff : ∀ a b, Contains out a b ↔ Around out.length (fun m => edges (out.getD m [])) a b := by
    intro a b
    constructor
    · rintro ⟨ha, hb, hab, h⟩
      exact (P.around_iff ha hb hab).mpr h
    · intro h
      exact ⟨h.1, h.2.1, h.2.2.1, (P.around_iff h.1 h.2.1 h.2.2.1).mp h⟩
  refine ⟨?_, ?_, ?_, ?_, ?_, ?_, ?_, ?_⟩
  · intro l hl
    obtain ⟨m, hm, rfl⟩ := List.getElem_of_mem hl
    obtain ⟨s, hs, _, h2⟩ := P.dir hm
    simp only [List.getD_eq_getElem _ _ hm] at h2
    rcases hs with rfl | rfl
    · exact Or.inr h2
    · exact Or.inl h2
  · intro a ha b hb hab
    obtain ⟨s, _, h⟩ := P.seen ha hb hab
    exact ⟨s, h⟩
  · have := P.laminar
    have e : Contains out = Around out.length (fun m => edges (out.getD m [])) := by
      funext a b; exact propext (hiff a b)
    rw [e]; exact this
  · intro b hb h
    exact P.top hK' hU hb fun a ha => h a ((hiff a b).mpr ha)
  · intro a b h d hd
    by_cases h0 : d = 0
    · exfalso
      subst h0
      obtain ⟨s, hs, _, h2⟩ := P.dir h.1.1
      obtain ⟨x, y, ho, e⟩ := h2.2
      rcases hd.1 x y ho with k | k <;> rw [e] at k <;> omega
    · exact P.turn hK' hU ((hiff a b).mp h.1) (fun c hc hca => (hiff c a).mp (h.2 c ((hiff c b).mpr hc) hca)) hd h0
  · intro a b h x y h1 h2 w
    exact P.inner ((hiff a b).mp h) h1 h2 w
  · intro a ha b hb hab x y h1 h2 w1 w2
    exact (P.both ha hb hab h1 h2 w1 w2).imp (hiff a b).mpr (hiff b a).mpr
  · intro a ha
    obtain ⟨x, y, h1, h2, h3⟩ := P.rim ha
    exact ⟨x, y, fun e he => h1 e (hK.mem_iff.mp he), h2, fun b hb hba hc => h3 b hb hba fun c => hc ((hiff b a).mpr c)⟩

end PolyOps.Exec
