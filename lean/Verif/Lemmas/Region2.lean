import Verif.Lemmas.Region
import Mathlib.Data.List.Sort

/-! Winding numbers across an arrangement: along lines and down a vertical. -/
namespace PolyOps
open PolyOps.Loops (regionI)

/-- A list of lines that meet only at their ends and close up. -/
structure Arr (L : List Line) : Prop where
  idx : IdxInj L
  nodup : L.Nodup
  ne : ∀ l ∈ L, l.p ≠ l.q
  planar : Planar L
  closed : ClosedSets L

/-- `out` are the winding numbers on the outer side of each line, at its start. -/
structure Outer (L : List Line) (out : Line → Wn) : Prop where
  nv : ∀ l ∈ L, l.p.x ≠ l.q.x → ∃ e0 : Rat, 0 < e0 ∧ ∀ e, 0 < e → e < e0 → ∀ k,
    (out l).get k = stackAbove L k (l.p.x + sgn (l.q.x - l.p.x) * e) (l.yAt (l.p.x + sgn (l.q.x - l.p.x) * e)) l.idx +
      if l.set = k ∧ l.q.x < l.p.x then -1 else 0
  vt : ∀ l ∈ L, l.p.x = l.q.x → ∃ d0 : Rat, 0 < d0 ∧ ∀ d, 0 < d → d < d0 → ∃ e0 : Rat, 0 < e0 ∧ ∀ e, 0 < e → e < e0 → ∀ k,
    (out l).get k =
      crossAbove L k (l.p.x + sgn (l.q.y - l.p.y) * e) (l.p.y + sgn (l.q.y - l.p.y) * d) + vertStack L k l

/-- The winding numbers on the inner side of a line with outer winding numbers `w`. -/
def Line.inner (l : Line) (w : Wn) : Wn := ⟨innerS l.set w.s, innerC l.set w.c⟩

/-! ### Sums -/

theorem closed_sum {L : List Line} (h : ClosedSets L) (k : BSet) (H : Pt → Int) :
    (L.map fun l => if l.set = k then H l.q - H l.p else 0).sum = 0 := by
  have hp : ((L.filter fun l => decide (l.set = k)).map Line.p).Perm ((L.filter fun l => decide (l.set = k)).map Line.q) := by
    rw [List.perm_iff_count]
    intro v
    have := h k v
    simp only [List.count, List.countP_map, List.countP_filter]
    convert this using 2 <;> (funext x; simp [Function.comp, beq_eq_decide, Bool.and_comm])
  have e := (hp.map H).sum_eq
  have key : ∀ (g : Line → Int) (M : List Line), (M.map fun l => if l.set = k then g l else 0).sum =
      ((M.filter fun l => decide (l.set = k)).map g).sum := by
    intro g M
    induction M with
    | nil => rfl
    | cons a M ih =>
      by_cases c : a.set = k
      · simp [c, ih]
      · simp [c, ih]
  rw [key]
  have : ∀ M : List Line, (M.map fun l => H l.q - H l.p).sum = ((M.map Line.q).map H).sum - ((M.map Line.p).map H).sum := by
    intro M
    induction M with
    | nil => rfl
    | cons a M ih => simp only [List.map_cons, List.sum_cons, ih]; ring
  rw [this, e, sub_self]

theorem map_sum_sub {α : Type} (L : List α) (f g : α → Int) :
    (L.map f).sum - (L.map g).sum = (L.map fun l => f l - g l).sum := by
  induction L with
  | nil => rfl
  | cons a L ih => simp only [List.map_cons, List.sum_cons, ← ih]; ring

theorem map_sum_add {α : Type} (L : List α) (f g : α → Int) :
    (L.map f).sum + (L.map g).sum = (L.map fun l => f l + g l).sum := by
  induction L with
  | nil => rfl
  | cons a L ih => simp only [List.map_cons, List.sum_cons, ← ih]; ring

theorem map_sum_congr {α : Type} {L : List α} {f g : α → Int} (h : ∀ l ∈ L, f l = g l) : (L.map f).sum = (L.map g).sum :=
  congrArg List.sum (List.map_congr_left h)

theorem map_sum_filter {α : Type} (L : List α) (P : α → Prop) [DecidablePred P] (f : α → Int) :
    (L.map fun l => if P l then f l else 0).sum = ((L.filter fun l => decide (P l)).map f).sum := by
  induction L with
  | nil => rfl
  | cons a L ih =>
    by_cases c : P a
    · simp [c, ih]
    · simp [c, ih]

/-! ### Along a line -/

section
variable {L : List Line}

/-- The stacked winding number is the same all along a line. -/
theorem Arr.stack_const (h : Arr L) (k : BSet) {l : Line} (hl : l ∈ L) {x1 x2 : Rat} (g1 : Generic L x1) (g2 : Generic L x2)
    (c1 : l.covers x1) (c2 : l.covers x2) :
    stackAbove L k x1 (l.yAt x1) l.idx = stackAbove L k x2 (l.yAt x2) l.idx := by
  wlog hx : x1 < x2 generalizing x1 x2
  · rcases eq_or_lt_of_le (not_lt.mp hx) with e | e
    · rw [e]
    · exact (this g2 g1 c2 c1 e).symm
  have : stackAbove L k x1 (l.yAt x1) l.idx - stackAbove L k x2 (l.yAt x2) l.idx = 0 := by
    unfold stackAbove
    rw [map_sum_sub]
    refine Eq.trans (map_sum_congr fun s hs => ?_) (closed_sum h.closed k (stripAbove l x1 x2))
    have := strip_line (h.planar s hs l hl) hx c1 c2 (g1 s hs) (g2 s hs)
    unfold Line.over at this
    by_cases c : s.set = k
    · simp only [c, true_and, if_true]; exact this
    · simp [c]
  omega

theorem generic_near (L : List Line) (x : Int) (σ : Rat) (hσ : σ = 1 ∨ σ = -1) {e : Rat} (h0 : 0 < e) (h1 : e < 1) :
    Generic L (x + σ * e) := by
  have key : ∀ a : Int, (a : Rat) ≠ x + σ * e := by
    intro a ha
    rcases hσ with rfl | rfl
    · have h2 : (x : Rat) < a := by rw [ha]; linarith
      have h3 : (a : Rat) < x + 1 := by rw [ha]; linarith
      have h2 : x < a := by exact_mod_cast h2
      have h3 : a < x + 1 := by exact_mod_cast h3
      omega
    · have h2 : (a : Rat) < x := by rw [ha]; linarith
      have h3 : (x : Rat) < a + 1 := by rw [ha]; linarith
      have h2 : a < x := by exact_mod_cast h2
      have h3 : x < a + 1 := by exact_mod_cast h3
      omega
  exact fun l _ => ⟨key _, key _⟩

theorem covers_start {l : Line} (hx : l.p.x ≠ l.q.x) {e : Rat} (h0 : 0 < e) (h1 : e < 1) :
    l.covers (l.p.x + sgn (l.q.x - l.p.x) * e) := by
  rcases lt_or_gt_of_ne hx with h | h
  · have : sgn (l.q.x - l.p.x) = 1 := by unfold sgn; rw [if_neg (by omega)]
    rw [this]
    have : (l.p.x : Rat) + 1 ≤ l.q.x := by exact_mod_cast h
    exact Or.inl ⟨by linarith, by linarith⟩
  · have : sgn (l.q.x - l.p.x) = -1 := by unfold sgn; rw [if_pos (by omega)]
    rw [this]
    have : (l.q.x : Rat) + 1 ≤ l.p.x := by exact_mod_cast h
    exact Or.inr ⟨by linarith, by linarith⟩

theorem sgn_or (v : Int) : sgn v = 1 ∨ sgn v = -1 := by unfold sgn; split <;> simp

/-- The outer winding numbers are those beside every part of the line. -/
theorem Arr.out_at (h : Arr L) {out : Line → Wn} (ho : Outer L out) {l : Line} (hl : l ∈ L) {x : Rat} (g : Generic L x)
    (c : l.covers x) (k : BSet) :
    (out l).get k = stackAbove L k x (l.yAt x) l.idx + if l.set = k ∧ l.q.x < l.p.x then -1 else 0 := by
  have hx := Line.covers_nv c
  obtain ⟨e0, a, b⟩ := ho.nv l hl hx
  have h0 : 0 < min e0 1 := lt_min a one_pos
  have e1 : min e0 1 / 2 < 1 := by have := min_le_right e0 1; linarith
  have e2 : min e0 1 / 2 < e0 := by have := min_le_left e0 1; linarith
  rw [b (min e0 1 / 2) (by linarith) e2 k]
  congr 1
  exact h.stack_const k hl (generic_near L _ _ (sgn_or _) (by linarith) e1) g (covers_start hx (by linarith) e1) c

/-! ### Down a vertical -/

/-- Sum of the directions of the lines of one set. -/
def dirs (M : List Line) : Wn :=
  ⟨(M.map fun l => if l.set = .subject then l.dir else 0).sum, (M.map fun l => if l.set = .clip then l.dir else 0).sum⟩

theorem dirs_get (M : List Line) (k : BSet) : (dirs M).get k = (M.map fun l => if l.set = k then l.dir else 0).sum := by
  cases k <;> rfl

theorem dirs_append (M N : List Line) : dirs (M ++ N) = ⟨(dirs M).s + (dirs N).s, (dirs M).c + (dirs N).c⟩ := by
  simp [dirs]

theorem Wn.ext_get {a b : Wn} (h : ∀ k, a.get k = b.get k) : a = b := by
  have h1 := h .subject
  have h2 := h .clip
  cases a; cases b; simp only [Wn.get] at h1 h2; rw [h1, h2]

/-- One line: its change of a potential, in its direction. -/
theorem step_one (φ : Wn → Int) {l : Line} (hx : l.p.x ≠ l.q.x) {o w : Wn}
    (ho : ∀ k, o.get k = w.get k + if l.set = k ∧ l.q.x < l.p.x then -1 else 0) :
    l.dir * (φ (l.inner o) - φ o) =
      φ ⟨w.s + (dirs [l]).s, w.c + (dirs [l]).c⟩ - φ w := by
  have h1 := ho .subject
  have h2 := ho .clip
  obtain ⟨os, oc⟩ := o
  obtain ⟨ws, wc⟩ := w
  simp only [Wn.get] at h1 h2
  rcases lt_or_gt_of_ne hx with c | c
  · have c' : ¬ l.q.x < l.p.x := by omega
    have d : l.dir = 1 := by unfold Line.dir; rw [if_pos c]
    simp only [c', and_false, if_false, add_zero] at h1 h2
    subst h1 h2
    rw [d, one_mul]
    congr 2
    unfold Line.inner innerS innerC dirs
    cases hk : l.set <;> simp [hk, d]
  · have c' : ¬ l.p.x < l.q.x := by omega
    have d : l.dir = -1 := by unfold Line.dir; rw [if_neg c', if_pos c]
    simp only [c, and_true] at h1 h2
    subst h1 h2
    rw [d]
    have : ∀ a b : Int, -1 * (a - b) = b - a := by intros; ring
    rw [this]
    unfold Line.inner innerS innerC dirs
    cases hk : l.set <;> simp [hk, d]

/-- A stack of lines, from top to bottom. -/
theorem stack_tele (φ : Wn → Int) (out : Line → Wn) (M : List Line) (hv : ∀ l ∈ M, l.p.x ≠ l.q.x)
    (ho : ∀ pre l suf, M = pre ++ l :: suf → ∀ k, (out l).get k = (dirs pre).get k + if l.set = k ∧ l.q.x < l.p.x then -1 else 0) :
    ∀ pre suf, M = pre ++ suf → (suf.map fun l => l.dir * (φ (l.inner (out l)) - φ (out l))).sum = φ (dirs M) - φ (dirs pre)
  | pre, [], e => by rw [List.append_nil] at e; rw [e]; simp
  | pre, l :: suf, e => by
    rw [List.map_cons, List.sum_cons, stack_tele φ out M hv ho (pre ++ [l]) suf (by rw [e]; simp),
      step_one φ (hv l (by rw [e]; simp)) (ho pre l suf e), dirs_append]
    ring

def Line.geo (x : Rat) (a b : Line) : Prop := a.yAt x < b.yAt x ∨ (a.yAt x = b.yAt x ∧ a.idx ≥ b.idx)

instance (x : Rat) (a b : Line) : Decidable (a.geo x b) := by unfold Line.geo; infer_instance

theorem exists_sorted (x : Rat) (M : List Line) (hi : IdxInj M) (hn : M.Nodup) :
    ∃ N : List Line, N.Perm M ∧ N.Pairwise (fun a b => a.over b x) := by
  haveI : Std.Total (Line.geo x) := ⟨fun a b => by
    unfold Line.geo
    rcases lt_trichotomy (a.yAt x) (b.yAt x) with h | h | h
    · exact Or.inl (Or.inl h)
    · rcases le_total a.idx b.idx with g | g
      · exact Or.inr (Or.inr ⟨h.symm, g⟩)
      · exact Or.inl (Or.inr ⟨h, g⟩)
    · exact Or.inr (Or.inl h)⟩
  haveI : IsTrans Line (Line.geo x) := ⟨fun a b c => by
    unfold Line.geo
    rintro (h | ⟨h, g⟩) (h' | ⟨h', g'⟩)
    · exact Or.inl (h.trans h')
    · exact Or.inl (by rw [← h']; exact h)
    · exact Or.inl (by rw [h]; exact h')
    · exact Or.inr ⟨h.trans h', by omega⟩⟩
  have hp := List.perm_insertionSort (Line.geo x) M
  refine ⟨M.insertionSort (Line.geo x), hp, ?_⟩
  have h1 := List.pairwise_insertionSort (Line.geo x) M
  have h2 : (M.insertionSort (Line.geo x)).Pairwise (· ≠ ·) := hp.nodup_iff.mpr hn
  refine List.Pairwise.imp_of_mem ?_ (h1.and h2)
  intro a b ha hb hab
  unfold Line.over
  rcases hab.1 with h | ⟨h, g⟩
  · exact Or.inl h
  · refine Or.inr ⟨h, lt_of_le_of_ne g fun e => hab.2 ?_⟩
    exact (hi b (hp.subset hb) a (hp.subset ha) e).symm

/-- Down a vertical: the changes of a potential at the lines above a place sum up to its value there. -/
theorem Arr.down (h : Arr L) {out : Line → Wn} (ho : Outer L out) (φ : Wn → Int) {x : Rat} (g : Generic L x) (y : Rat) :
    (L.map fun l => if l.covers x ∧ l.yAt x < y then l.dir * (φ (l.inner (out l)) - φ (out l)) else 0).sum =
      φ ⟨crossAbove L .subject x y, crossAbove L .clip x y⟩ - φ ⟨0, 0⟩ := by
  set M := L.filter fun l => decide (l.covers x ∧ l.yAt x < y) with hM
  have memM : ∀ l, l ∈ M ↔ l ∈ L ∧ l.covers x ∧ l.yAt x < y := by intro l; rw [hM]; simp
  obtain ⟨N, hp, hs⟩ := exists_sorted x M (fun s hs t ht => h.idx s ((memM s).mp hs).1 t ((memM t).mp ht).1)
    (h.nodup.filter _)
  have memN : ∀ l, l ∈ N ↔ l ∈ L ∧ l.covers x ∧ l.yAt x < y := fun l => (hp.mem_iff).trans (memM l)
  rw [map_sum_filter L (fun l => l.covers x ∧ l.yAt x < y), ← hM, ← (hp.map _).sum_eq]
  have hd : dirs N = ⟨crossAbove L .subject x y, crossAbove L .clip x y⟩ := by
    apply Wn.ext_get
    intro k
    have : (⟨crossAbove L .subject x y, crossAbove L .clip x y⟩ : Wn).get k = crossAbove L k x y := by cases k <;> rfl
    rw [this, dirs_get, (hp.map _).sum_eq, hM, ← map_sum_filter L (fun l => l.covers x ∧ l.yAt x < y)]
    unfold crossAbove
    refine map_sum_congr fun l _ => ?_
    by_cases c : l.set = k <;> by_cases c' : l.covers x ∧ l.yAt x < y <;> simp [c, c']
  have := stack_tele φ out N (fun l hl => Line.covers_nv ((memN l).mp hl).2.1) ?_ [] N rfl
  · rw [this, hd]; rfl
  · intro pre l suf e k
    have hlN := (memN l).mp (by rw [e]; simp)
    rw [h.out_at ho hlN.1 g hlN.2.1 k]
    congr 1
    have hs' := hs
    rw [e] at hs'
    obtain ⟨_, hs2, hs3⟩ := List.pairwise_append.mp hs'
    obtain ⟨hs4, _⟩ := List.pairwise_cons.mp hs2
    have e1 : stackAbove L k x (l.yAt x) l.idx = (N.map fun s => if s.set = k ∧ s.over l x then s.dir else 0).sum := by
      rw [(hp.map _).sum_eq, hM, ← map_sum_filter L (fun l => l.covers x ∧ l.yAt x < y)]
      unfold stackAbove
      refine map_sum_congr fun s _ => ?_
      unfold Line.over
      have hle : s.yAt x < l.yAt x ∨ (s.yAt x = l.yAt x ∧ s.idx > l.idx) → s.yAt x < y := by
        rintro (c | c)
        · exact c.trans hlN.2.2
        · rw [c.1]; exact hlN.2.2
      by_cases c1 : s.set = k <;> by_cases c2 : s.covers x <;>
        by_cases c3 : s.yAt x < l.yAt x ∨ (s.yAt x = l.yAt x ∧ s.idx > l.idx)
      all_goals first
        | (have := hle c3; simp [c1, c2, c3, this])
        | simp [c1, c2, c3]
    rw [e1, e, List.map_append, List.sum_append, List.map_cons, List.sum_cons, dirs_get]
    have z1 : (if l.set = k ∧ l.over l x then l.dir else 0) = 0 := by
      rw [if_neg]; rintro ⟨_, c | c⟩
      · exact lt_irrefl _ c
      · exact lt_irrefl _ c.2
    have z2 : (suf.map fun s => if s.set = k ∧ s.over l x then s.dir else 0).sum = 0 := by
      apply List.sum_eq_zero
      intro v hv
      obtain ⟨s, hs, rfl⟩ := List.mem_map.mp hv
      rw [if_neg]
      rintro ⟨_, c⟩
      rcases c with c | c <;> rcases hs4 s hs with d | d
      · exact lt_asymm c d
      · exact absurd d.1 c.ne'
      · exact absurd c.1 d.ne'
      · exact lt_asymm c.2 d.2
    rw [z1, z2, add_zero, add_zero]
    refine map_sum_congr fun s hs => ?_
    have : s.over l x := hs3 s hs l (by simp)
    simp [this]

end
end PolyOps
