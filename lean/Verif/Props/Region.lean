import Verif.Lemmas.Region4
import Verif.Lemmas.Chains
import Verif.Lemmas.Clean
import Verif.Props.SweepScan
import Verif.Props.SweepCmp
import Verif.Props.Loops
import Verif.Model.Clipper

/-! C49: the winding number of the output. -/
namespace PolyOps.Region
open PolyOps PolyOps.Sweep PolyOps.Loops PolyOps.Clipper

/-! ### Specification -/

/-- Signed number of edges above a place: the winding number of the place with respect to a list of directed edges (for a place
whose vertical meets no vertex). -/
def edgesAbove (E : List (Pt × Pt)) (x y : Rat) : Int :=
  (E.map fun e =>
    if (e.1.x : Rat) < x ∧ x < e.2.x ∧ (e.1.y : Rat) + (x - e.1.x) * ((e.2.y : Rat) - e.1.y) / ((e.2.x : Rat) - e.1.x) < y then (1 : Int)
    else if (e.2.x : Rat) < x ∧ x < e.1.x ∧ (e.1.y : Rat) + (x - e.1.x) * ((e.2.y : Rat) - e.1.y) / ((e.2.x : Rat) - e.1.x) < y then -1
    else 0).sum

/-- Where a point is not marked for classification, the other lines at the place do not separate its two lines: there are none,
or they are all on the other side (left or right) of the vertical through the place than both its lines, or its two lines are
vertical and coincide with each other and with no other line. -/
def Marks (f : Clip) : Prop :=
  ∀ i < f.np, (f.lp (f.lp i).next).state = .undef → ∀ j < f.np, j ≠ i → j ≠ (f.lp i).next →
    let c := (f.lp (f.lp i).next).data
    (f.line j).p = c ∨ (f.line j).q = c →
      (((f.line i).p.x < c.x ∧ (f.line (f.lp i).next).q.x < c.x) ∧ ¬ (f.line j).p.x < c.x ∧ ¬ (f.line j).q.x < c.x) ∨
      ((c.x < (f.line i).p.x ∧ c.x < (f.line (f.lp i).next).q.x) ∧ ¬ c.x < (f.line j).p.x ∧ ¬ c.x < (f.line j).q.x) ∨
      (((f.line i).p.x = c.x ∧ (f.line (f.lp i).next).q = (f.line i).p) ∧ ¬ Coincide (f.line j) (f.line i))

/-- The lines of the loops `lp` of `np` points. -/
def inputLines (lp : Nat → LP) (np : Nat) : List Line :=
  (List.range np).map fun i => ⟨i, (lp i).data, (lp (lp i).next).data, (lp i).set⟩

/-- Every point added by the first sweep lies on the line it was added to. -/
def ExactSplits (lp : Nat → LP) (np : Nat) (f : Clip) : Prop :=
  ∀ i < np, ∃ l, Path f.lp i l (lp i).next ∧
    ∀ a ∈ l, np ≤ a ∧ OnSegQ (f.lp a).data.x (f.lp a).data.y (lp i).data (lp (lp i).next).data

/-- The class of the line from point `i`. -/
def cls (f : Clip) (op : BoolOp) (i : Nat) : LState := lbResult op (f.lp i).set (f.balance i).wn

def outer (f : Clip) (l : Line) : Wn := (f.balance l.idx).wn

/-! ### Sums over the lines -/

theorem sum_two {n i j : Nat} (hi : i < n) (hj : j < n) (hij : i ≠ j) (g : Nat → Int) (h : ∀ k < n, k ≠ i → k ≠ j → g k = 0) :
    ((List.range n).map g).sum = g i + g j := by
  have : ((List.range n).map g).sum = ((List.range n).map fun k => if k = i then g i else 0).sum +
      ((List.range n).map fun k => if k = j then g j else 0).sum := by
    rw [map_sum_add]
    refine map_sum_congr fun k hk => ?_
    by_cases c1 : k = i
    · subst c1; simp [hij]
    · by_cases c2 : k = j
      · subst c2; simp [c1]
      · simp [c1, c2, h k (List.mem_range.mp hk) c1 c2]
  have one : ∀ (i : Nat) (a : Int) (n : Nat), ((List.range n).map fun k => if k = i then a else 0).sum = if i < n then a else 0 := by
    intro i a n
    induction n with
    | zero => simp
    | succ n ih =>
      rw [List.range_succ, List.map_append, List.sum_append, ih]
      simp only [List.map_cons, List.map_nil, List.sum_cons, List.sum_nil, add_zero]
      split_ifs <;> omega
  rw [this, one, one, if_pos hi, if_pos hj]

theorem next_perm {lp : Nat → LP} {np : Nat} (h : Loops lp np) : ((List.range np).map fun i => (lp i).next).Perm (List.range np) := by
  have nd : ((List.range np).map fun i => (lp i).next).Nodup :=
    List.nodup_range.map_on fun a ha b hb e => h.next_inj a (List.mem_range.mp ha) b (List.mem_range.mp hb) e
  refine (List.subperm_of_subset nd ?_).perm_of_length_le (by simp)
  intro a ha
  obtain ⟨i, hi, rfl⟩ := List.mem_map.mp ha
  exact List.mem_range.mpr (h.next_lt i (List.mem_range.mp hi))

theorem lines_closed {f : Clip} (h : Loops f.lp f.np) : ClosedSets f.lines := by
  intro k v
  unfold Clip.lines
  rw [List.countP_map, List.countP_map]
  have e1 := (next_perm h).countP_eq (fun i => decide ((f.lp i).set = k ∧ (f.lp i).data = v))
  rw [List.countP_map] at e1
  have : List.countP ((fun l => decide (l.set = k ∧ l.p = v)) ∘ f.line) (List.range f.np) =
      List.countP (fun i => decide ((f.lp i).set = k ∧ (f.lp i).data = v)) (List.range f.np) := rfl
  rw [this, ← e1]
  apply List.countP_congr
  intro i hi
  have := h.set_eq i (List.mem_range.mp hi)
  simp only [Function.comp, Clip.line, this]
  exact Iff.rfl

section
variable {env env2 : Env} (he : EnvOk env) {lp : Nat → LP} {np : Nat} (hl : Loops lp np) {f : Clip} (hr : Clip.Reach env lp np f)
  (hm : f.q.more = false)

include he hl hr in
theorem lines_arr (hp : Planar f.lines) : Arr f.lines := by
  have h0 := (reach_spec he hl hr).1.1
  refine ⟨line_inj f _, lines_nodup f List.nodup_range, ?_, hp, lines_closed h0.toLoops⟩
  intro l hl
  obtain ⟨i, hi, rfl⟩ := List.mem_map.mp hl
  exact (h0.pt_ne i (List.mem_range.mp hi)).symm

include he hl hr hm in
theorem lines_outer : Outer f.lines (outer f) := by
  constructor
  · intro l hl hx
    obtain ⟨i, hi, rfl⟩ := List.mem_map.mp hl
    exact C29_winding f i (List.mem_range.mp hi) hx
  · intro l hl' hx
    obtain ⟨i, hi, rfl⟩ := List.mem_map.mp hl'
    exact C29_vertical he hl hr hm i (List.mem_range.mp hi) hx

include he hl hr hm in
/-- The two lines at a point that is not marked have the same winding numbers outside. -/
theorem outer_eq (hp : Planar f.lines) (hM : Marks f) {i : Nat} (hi : i < f.np) (hu : (f.lp (f.lp i).next).state = .undef) :
    outer f (f.line (f.lp i).next) = outer f (f.line i) := by
  have h0 := (reach_spec he hl hr).1.1
  have ha := lines_arr he hl hr hp
  have ho := lines_outer he hl hr hm
  have hn : (f.lp i).next < f.np := h0.next_lt i hi
  have hne : i ≠ (f.lp i).next := (h0.next_ne i hi).symm
  set v := (f.lp i).next with hv
  set c := (f.lp v).data with hc
  have p1 : (f.line i).q = c := rfl
  have p2 : (f.line v).p = c := rfl
  have p3 : (f.line i).p ≠ c := (h0.pt_ne i hi).symm
  have p4 : (f.line v).q ≠ c := h0.pt_ne v hn
  have hset : (f.line v).set = (f.line i).set := h0.set_eq i hi
  have memi : f.line i ∈ f.lines := List.mem_map.mpr ⟨i, List.mem_range.mpr hi, rfl⟩
  by_cases hoth : ∃ j < f.np, j ≠ i ∧ j ≠ v ∧ ((f.line j).p = c ∨ (f.line j).q = c)
  · have hM := hM i hi hu
    obtain ⟨j, hj, j1, j2, j3⟩ := hoth
    -- one side of the vertex
    have fin : ∀ (E : Line → Int) (σ : Rat), (σ = 1 ∨ σ = -1) →
        (∀ e : Rat, 0 < e → e < 1 → ∀ s ∈ f.lines, (if s.covers (c.x + σ * e) ∧ s.yAt c.x = c.y then s.dir else 0) = E s) →
        E (f.line i) = -E (f.line v) → E (f.line v) ≠ 0 → (∀ k < f.np, k ≠ i → k ≠ v → E (f.line k) = 0) →
        outer f (f.line v) = outer f (f.line i) := by
      intro E σ hσ hE e1 e2 e3
      obtain ⟨w1, w2, q1, q2⟩ := ha.side ho c σ hσ E hE
      have hw : w1 = w2 := by
        apply Wn.ext_get
        intro k
        have := q2 k
        unfold Clip.lines at this
        rw [List.map_map, sum_two hi hn hne _ (fun k hk a b => by simp only [Function.comp, e3 k hk a b]; split <;> rfl)] at this
        simp only [Function.comp, hset, e1] at this
        split at this <;> omega
      apply out_eq_of_jump hset
      intro φ
      have := q1 φ
      unfold Clip.lines at this
      rw [List.map_map, sum_two hi hn hne _ (fun k hk a b => by simp only [Function.comp, e3 k hk a b]; simp), hw, sub_self] at this
      simp only [Function.comp, e1] at this
      have : E (f.line v) * (jump φ (outer f) (f.line v) - jump φ (outer f) (f.line i)) = 0 := by linear_combination this
      rcases mul_eq_zero.mp this with h | h
      · exact absurd h e2
      · omega
    rcases hM j hj j1 j2 j3 with ⟨⟨s1, s2⟩, _⟩ | ⟨⟨s1, s2⟩, _⟩ | ⟨⟨s1, s2⟩, _⟩
    · refine fin (endsL c) (-1) (Or.inr rfl) (fun e a b s hs => ha.left_line hs memi (Or.inr p1) a b) ?_ ?_ ?_
      · unfold endsL
        rw [if_pos ⟨p1, s1⟩, if_neg (fun h => p3 h.1), if_neg (fun h => p4 h.1), if_pos ⟨p2, s2⟩]; rfl
      · unfold endsL
        rw [if_neg (fun h => p4 h.1), if_pos ⟨p2, s2⟩]; decide
      · intro k hk k1 k2
        unfold endsL
        rw [if_neg, if_neg]; · rfl
        · rintro ⟨a, b⟩
          rcases hM k hk k1 k2 (Or.inl a) with q | q | q
          · exact q.2.2 b
          · exact absurd s1 (by have := q.1.1; omega)
          · exact absurd s1 (by have := q.1.1; omega)
        · rintro ⟨a, b⟩
          rcases hM k hk k1 k2 (Or.inr a) with q | q | q
          · exact q.2.1 b
          · exact absurd s1 (by have := q.1.1; omega)
          · exact absurd s1 (by have := q.1.1; omega)
    · refine fin (endsR c) 1 (Or.inl rfl) (fun e a b s hs => ha.right_line hs memi (Or.inr p1) a b) ?_ ?_ ?_
      · unfold endsR
        rw [if_neg (fun h => p3 h.1), if_pos ⟨p1, s1⟩, if_pos ⟨p2, s2⟩, if_neg (fun h => p4 h.1)]; rfl
      · unfold endsR
        rw [if_pos ⟨p2, s2⟩, if_neg (fun h => p4 h.1)]; decide
      · intro k hk k1 k2
        unfold endsR
        rw [if_neg, if_neg]; · rfl
        · rintro ⟨a, b⟩
          rcases hM k hk k1 k2 (Or.inr a) with q | q | q
          · exact absurd s1 (by have := q.1.1; omega)
          · exact q.2.1 b
          · exact absurd s1 (by have := q.1.1; omega)
        · rintro ⟨a, b⟩
          rcases hM k hk k1 k2 (Or.inl a) with q | q | q
          · exact absurd s1 (by have := q.1.1; omega)
          · exact q.2.2 b
          · exact absurd s1 (by have := q.1.1; omega)
    · have memv : f.line v ∈ f.lines := List.mem_map.mpr ⟨v, List.mem_range.mpr hn, rfl⟩
      refine (ha.spike ho memi memv (by rw [s1, p1]) (p2.trans p1.symm) s2 hset.symm fun s hs hco => ?_).symm
      obtain ⟨k, hk, rfl⟩ := List.mem_map.mp hs
      have hk := List.mem_range.mp hk
      by_contra hne'
      push Not at hne'
      have k1 : k ≠ i := fun e => hne'.1 (by rw [e])
      have k2 : k ≠ v := fun e => hne'.2 (by rw [e])
      have k3 : (f.line k).p = c ∨ (f.line k).q = c := by
        rcases hco with ⟨_, e⟩ | ⟨e, _⟩
        · exact Or.inr (e.trans p1)
        · exact Or.inl (e.trans p1)
      rcases hM k hk k1 k2 k3 with q | q | q
      · exact absurd s1 (by have := q.1.1; omega)
      · exact absurd s1 (by have := q.1.1; omega)
      · exact q.2 hco
  · push Not at hoth
    apply out_eq_of_jump hset
    intro φ
    have := ha.vertex_zero ho φ c
    unfold Clip.lines at this
    rw [List.map_map, sum_two hi hn hne _ (fun k hk a b => by
      simp only [Function.comp]
      obtain ⟨x, y⟩ := hoth k hk a b
      unfold ends
      rw [if_neg x, if_neg y]; simp)] at this
    simp only [Function.comp] at this
    unfold ends at this
    rw [if_neg p3, if_pos p1, if_pos p2, if_neg p4] at this
    omega

/-! ### The lines to keep -/

theorem cls_jump_keep (f : Clip) (op : BoolOp) (i : Nat) :
    jump (regionI op) (outer f) (f.line i) = if (cls f op i).keep then (if (cls f op i).rev then -1 else 1) else 0 := by
  have := keep_step op (outer f (f.line i)) ⟨(f.line i).set, true⟩
  have e : Ray.cross (outer f (f.line i)) ⟨(f.line i).set, true⟩ = (f.line i).inner (outer f (f.line i)) := by
    unfold Ray.cross Line.inner innerS innerC; simp
  rw [e] at this
  unfold jump
  rw [this]
  have e2 : lbResult op (f.line i).set (Ray.outer (outer f (f.line i)) ⟨(f.line i).set, true⟩) = cls f op i := rfl
  simp only [e2, leaves]
  cases (cls f op i).keep <;> cases (cls f op i).rev <;> rfl

theorem cls_jump_rev (f : Clip) (op : BoolOp) (i : Nat) :
    jump (revI op) (outer f) (f.line i) = if (cls f op i).rev then 1 else 0 := by
  have := rev_step op (outer f (f.line i)) ⟨(f.line i).set, true⟩
  have e : Ray.cross (outer f (f.line i)) ⟨(f.line i).set, true⟩ = (f.line i).inner (outer f (f.line i)) := by
    unfold Ray.cross Line.inner innerS innerC; simp
  rw [e] at this
  unfold jump
  rw [this]
  have e2 : lbResult op (f.line i).set (Ray.outer (outer f (f.line i)) ⟨(f.line i).set, true⟩) = cls f op i := rfl
  simp only [e2, if_true]

theorem filter_sum {α : Type} (l : List α) (p : α → Bool) (g : α → Int) :
    ((l.filter p).map g).sum = (l.map fun a => if p a then g a else 0).sum := by
  induction l with
  | nil => rfl
  | cons a l ih =>
    rw [List.map_cons, List.sum_cons, ← ih, List.filter_cons]
    cases p a <;> simp

theorem countP_sum {α : Type} (l : List α) (p : α → Bool) : ((l.countP p : Nat) : Int) = (l.map fun a => if p a then (1 : Int) else 0).sum := by
  induction l with
  | nil => rfl
  | cons a l ih =>
    rw [List.countP_cons, List.map_cons, List.sum_cons, ← ih]
    cases p a <;> simp; ring

include he hl hr hm in
theorem kept_balanced (hp : Planar f.lines) (op : BoolOp) {lp' : Nat → OP} (hd : ∀ i, (lp' i).data = (f.lp i).data) (hx : ∀ i, (lp' i).next = (f.lp i).next) :
    Balanced (keptLines lp' f.np (cls f op)) := by
  intro c
  have z := (lines_arr he hl hr hp).vertex_zero (lines_outer he hl hr hm) (regionI op) c
  unfold Clip.lines at z
  rw [List.map_map] at z
  suffices h : ((((keptLines lp' f.np (cls f op)).countP fun l => decide (l.1 = c)) : Nat) : Int) -
      (((keptLines lp' f.np (cls f op)).countP fun l => decide (l.2 = c)) : Nat) = 0 by omega
  rw [countP_sum, countP_sum, map_sum_sub]
  refine Eq.trans ?_ z
  clear z
  unfold keptLines
  rw [List.map_map, filter_sum]
  refine map_sum_congr fun i _ => ?_
  simp only [Function.comp, cls_jump_keep]
  cases hk : (cls f op i).keep
  · simp
  · unfold used ends Clip.line
    rw [hd, hx, hd]
    cases hv : (cls f op i).rev
    · simp
    · simp

include he hl hr hm in
theorem rev_balanced (hp : Planar f.lines) (op : BoolOp) {lp' : Nat → OP} (hd : ∀ i, (lp' i).data = (f.lp i).data) (hx : ∀ i, (lp' i).next = (f.lp i).next) :
    Balanced ((revLines f.np (cls f op)).map fun i => ((lp' i).data, (lp' (lp' i).next).data)) := by
  intro c
  have z := (lines_arr he hl hr hp).vertex_zero (lines_outer he hl hr hm) (revI op) c
  unfold Clip.lines at z
  rw [List.map_map] at z
  suffices h : (((((revLines f.np (cls f op)).map fun i => ((lp' i).data, (lp' (lp' i).next).data)).countP fun l => decide (l.1 = c)) : Nat) : Int) -
      ((((revLines f.np (cls f op)).map fun i => ((lp' i).data, (lp' (lp' i).next).data)).countP fun l => decide (l.2 = c)) : Nat) = 0 by omega
  rw [countP_sum, countP_sum, map_sum_sub]
  refine Eq.trans ?_ z
  clear z
  unfold revLines
  rw [List.map_map, filter_sum]
  refine map_sum_congr fun i _ => ?_
  simp only [Function.comp, cls_jump_rev]
  unfold ends Clip.line
  simp only [hd, hx]
  cases hv : (cls f op i).rev
  · simp
  · simp

/-- A used line has the height and the range of the line, and its direction or the opposite one. -/
theorem used_above (f : Clip) (op : BoolOp) {lp' : Nat → OP} (hd : ∀ i, (lp' i).data = (f.lp i).data) (hx : ∀ i, (lp' i).next = (f.lp i).next)
    (i : Nat) (x y : Rat) : edgesAbove [used lp' (cls f op) i] x y =
      (if (f.line i).covers x ∧ (f.line i).yAt x < y then (f.line i).dir else 0) * (if (cls f op i).rev then -1 else 1) := by
  have key : ∀ l : Line, edgesAbove [(l.p, l.q)] x y = if l.covers x ∧ l.yAt x < y then l.dir else 0 := by
    intro l
    unfold edgesAbove Line.covers Line.dir
    simp only [List.map_cons, List.map_nil, List.sum_cons, List.sum_nil, add_zero]
    have e : (l.p.y : Rat) + (x - l.p.x) * ((l.q.y : Rat) - l.p.y) / ((l.q.x : Rat) - l.p.x) = l.yAt x := rfl
    rw [e]
    by_cases a : (l.p.x : Rat) < x ∧ x < l.q.x
    · have h1 : l.p.x < l.q.x := by exact_mod_cast a.1.trans a.2
      have h2 : ¬ ((l.q.x : Rat) < x ∧ x < l.p.x) := fun h => by linarith [a.1, h.2]
      by_cases b : l.yAt x < y
      · rw [if_pos ⟨a.1, a.2, b⟩, if_pos ⟨Or.inl a, b⟩, if_pos h1]
      · rw [if_neg (fun h => b h.2.2), if_neg (fun h => b h.2.2), if_neg (fun h => b h.2)]
    · rw [if_neg (fun h => a ⟨h.1, h.2.1⟩)]
      by_cases c : (l.q.x : Rat) < x ∧ x < l.p.x
      · have h1 : l.q.x < l.p.x := by exact_mod_cast c.1.trans c.2
        by_cases b : l.yAt x < y
        · rw [if_pos ⟨c.1, c.2, b⟩, if_pos ⟨Or.inr c, b⟩, if_neg (by omega), if_pos h1]
        · rw [if_neg (fun h => b h.2.2), if_neg (fun h => b h.2)]
      · rw [if_neg (fun h => c ⟨h.1, h.2.1⟩), if_neg]
        rintro ⟨h | h, _⟩
        · exact a h
        · exact c h
  unfold used
  rw [hd, hx, hd]
  cases hv : (cls f op i).rev
  · have := key (f.line i)
    simp only [Bool.false_eq_true, if_false, mul_one]
    exact this
  · set r : Line := ⟨i, (f.line i).q, (f.line i).p, (f.line i).set⟩ with hr
    have co : Coincide r (f.line i) := Or.inr ⟨rfl, rfl⟩
    have := key r
    simp only [if_true]
    rw [show ((f.lp (f.lp i).next).data, (f.lp i).data) = (r.p, r.q) from rfl, this]
    by_cases hc : (f.line i).covers x
    · have hv := Line.covers_nv hc
      rw [if_congr (and_congr (co.covers x) (by rw [co.yAt hv])) rfl rfl]
      have : r.dir = -(f.line i).dir := by
        have a1 : r.p.x = (f.line i).q.x := rfl
        have a2 : r.q.x = (f.line i).p.x := rfl
        unfold Line.dir
        rw [a1, a2]
        split_ifs <;> omega
      rw [this]
      split <;> simp
    · have : ¬ r.covers x := fun h => hc ((co.covers x).mp h)
      simp [hc, this]

theorem edgesAbove_map {α : Type} (l : List α) (g : α → Pt × Pt) (x y : Rat) :
    edgesAbove (l.map g) x y = (l.map fun a => edgesAbove [g a] x y).sum := by
  unfold edgesAbove
  rw [List.map_map]
  refine map_sum_congr fun a _ => ?_
  simp

theorem edgesAbove_perm {E F : List (Pt × Pt)} (h : E.Perm F) (x y : Rat) : edgesAbove E x y = edgesAbove F x y := (h.map _).sum_eq

include he hl hr hm in
/-- The kept lines wind once around the places inside the result and not around the others. -/
theorem kept_winding (hp : Planar f.lines) (op : BoolOp) {lp' : Nat → OP} (hd : ∀ i, (lp' i).data = (f.lp i).data) (hx : ∀ i, (lp' i).next = (f.lp i).next)
    {x : Rat} (hg : Generic f.lines x) (y : Rat) :
    edgesAbove (keptLines lp' f.np (cls f op)) x y =
      if region op (crossAbove f.lines .subject x y) (crossAbove f.lines .clip x y) then 1 else 0 := by
  have d := (lines_arr he hl hr hp).down (lines_outer he hl hr hm) (regionI op) hg y
  rw [down_mul] at d
  unfold Clip.lines at d
  rw [List.map_map] at d
  have z : regionI op ⟨0, 0⟩ = 0 := by cases op <;> decide
  rw [z, sub_zero] at d
  unfold keptLines
  rw [edgesAbove_map, filter_sum]
  refine Eq.trans (map_sum_congr fun i _ => ?_) d
  simp only [Function.comp, cls_jump_keep, used_above f op hd hx]
  cases hk : (cls f op i).keep <;> simp

include he hl hr hm in
/-- If after the first sweep lines meet only at their ends and the points that are not marked have no other line between their
two, the second sweep leaves what the last phase needs. -/
theorem out_input (h0 : ∀ i < np, Unset (lp i).state) (h1 : ∀ i < np, ∃ m, (lp ((fun k => (lp k).next)^[m] i)).state = .check)
    (hp : Planar f.lines) (hM : Marks f) {op : BoolOp} {s : Clip} {r : List (Nat × List Nat)} (h : Clip.Reach2 env2 op f s r)
    (hs : s.q.more = false) :
    Input (fun i => opOf (s.lp i)) s.np (cls f op) ∧ (r.map Prod.fst).Perm ((List.range s.np).filter fun i => decide ((opOf (s.lp i)).st ≠ .undef)) ∧
      Balanced (keptLines (fun i => opOf (s.lp i)) s.np (cls f op)) ∧
      Balanced ((revLines s.np (cls f op)).map fun i => ((opOf (s.lp i)).data, (opOf (s.lp (opOf (s.lp i)).next)).data)) ∧
      s.np = f.np ∧ (∀ i, (opOf (s.lp i)).data = (f.lp i).data) ∧ (∀ i, (opOf (s.lp i)).next = (f.lp i).next) ∧
      ∀ i < f.np, (opOf (s.lp i)).st = .undef ↔ (f.lp i).state = .undef := by
  obtain ⟨_, sm, snp, sst, rnd, rmem, _⟩ := C29_final he hl hr hm h hs
  have hlo := (reach_spec he hl hr).1.1.toLoops
  have hun := (reach_st he hl hr).2 h0
  have hmk := reach_marked he hl h1 hr
  have hd : ∀ i, (opOf (s.lp i)).data = (f.lp i).data := fun i => (sm i).1
  have hx : ∀ i, (opOf (s.lp i)).next = (f.lp i).next := fun i => (sm i).2.1
  have hst : ∀ i < f.np, (opOf (s.lp i)).st = if (f.lp i).state = .check then .res (cls f op i) else .undef := by
    intro i hi
    show (s.lp i).state = _
    rw [sst i hi]
    rcases hun i hi with e | e <;> rw [e] <;> rfl
  have hund : ∀ i < f.np, (opOf (s.lp i)).st = .undef ↔ (f.lp i).state = .undef := by
    intro i hi
    rw [hst i hi]
    rcases hun i hi with e | e <;> rw [e] <;> simp
  have hin : Input (fun i => opOf (s.lp i)) s.np (cls f op) := by
    rw [snp]
    refine ⟨fun i hi => by rw [hx]; exact hlo.next_lt i hi, fun i hi j hj e => ?_, fun i hi => ?_, fun _ _ => rfl, fun i hi => ?_, fun i hi e => ?_⟩
    · rw [hx, hx] at e; exact hlo.next_inj i hi j hj e
    · rw [hst i hi]; split
      · exact Or.inr rfl
      · exact Or.inl rfl
    · obtain ⟨m, e⟩ := hmk i hi
      refine ⟨m, ?_⟩
      have e1 : (fun k => (opOf (s.lp k)).next) = fun k => (f.lp k).next := by funext k; exact hx k
      rw [e1]
      have hlt : (fun k => (f.lp k).next)^[m] i < f.np := by
        clear e
        induction m with
        | zero => exact hi
        | succ m ih => rw [Function.iterate_succ_apply']; exact hlo.next_lt _ ih
      rw [hst _ hlt, if_pos e]; simp
    · rw [hx] at e ⊢
      have e2 := (hund _ (hlo.next_lt i hi)).mp e
      have := outer_eq he hl hr hm hp hM hi e2
      unfold cls
      rw [hlo.set_eq i hi]
      exact congrArg (lbResult op (f.lp i).set) this
  have hs2 : (r.map Prod.fst).Perm ((List.range s.np).filter fun i => decide ((opOf (s.lp i)).st ≠ .undef)) := by
    rw [List.perm_ext_iff_of_nodup rnd (List.nodup_range.filter _)]
    intro i
    rw [List.mem_filter, List.mem_range, snp]
    constructor
    · intro hi
      have hlt : i < f.np := by
        have hf := fin_of_reach he hl hr hm
        obtain ⟨_, e, e1, _, e2⟩ := (reach2_inv hf h).smp_mem i |>.mp hi
        obtain ⟨k1, k2, k3⟩ := hf.ev_ok e (List.mem_of_mem_take e1)
        obtain ⟨b1, b2, _⟩ := hf.seg_lt _ k1 k2
        rw [← e2]
        unfold Events.evKey Events.Ev.key at k3
        split at k3 <;> (injection k3 with k3 k4; injection k4 with k4 k5; omega)
      refine ⟨hlt, ?_⟩
      have := (rmem i hlt).mp hi
      simp only [decide_eq_true_eq]
      intro e
      rw [(hund i hlt).mp e] at this
      cases this
    · rintro ⟨hlt, e⟩
      rw [rmem i hlt]
      simp only [decide_eq_true_eq] at e
      rcases hun i hlt with e' | e'
      · exact absurd ((hund i hlt).mpr e') e
      · exact e'
  exact ⟨hin, hs2, by rw [snp]; exact kept_balanced he hl hr hm hp op hd hx, by rw [snp]; exact rev_balanced he hl hr hm hp op hd hx, snp, hd, hx, hund⟩

include he hl hr hm in
/-- If after the first sweep lines meet only at their ends and the points that are not marked have no other line between their
two, the operation succeeds, its loops are closed, and their edges are the lines to keep. -/
theorem out_edges (h0 : ∀ i < np, Unset (lp i).state) (h1 : ∀ i < np, ∃ m, (lp ((fun k => (lp k).next)^[m] i)).state = .check)
    (hp : Planar f.lines) (hM : Marks f) {op : BoolOp} {s : Clip} {r : List (Nat × List Nat)} (h : Clip.Reach2 env2 op f s r)
    (hs : s.q.more = false) :
    ∃ w g, doOp (fun i => opOf (s.lp i)) s.np (r.map Prod.fst) = some (w, g) ∧ (∀ l ∈ g.loops, 0 < l.2 ∧ g.next^[l.2] l.1 = l.1) ∧
      (∀ i ∈ g.loops.flatMap g.ring, g.next i ∈ g.loops.flatMap g.ring ∧ (w.lp i).data = (s.lp i).data) ∧
      ((g.loops.flatMap g.ring).map fun i => ((w.lp i).data, (w.lp (g.next i)).data)).Perm (keptLines (fun i => opOf (s.lp i)) f.np (cls f op)) := by
  obtain ⟨hin, hs2, hk, hrv, snp, -⟩ := out_input he hl hr hm h0 h1 hp hM h hs
  obtain ⟨w, g, e, e1, e2, hperm⟩ := C48_loops hin hs2 hk hrv
  exact ⟨w, g, e, e1, fun i hi => (e2 i hi).2, by rw [← snp]; exact hperm⟩

include he hl hr hm in
/-- C49: if after the first sweep lines meet only at their ends and the points that are not marked have no other line between
their two, the operation succeeds and the winding number of its result is, at every place off the vertices, 1 where the winding
numbers of the two sets are in the region of the operation, and 0 elsewhere. -/
theorem C49_winding (h0 : ∀ i < np, Unset (lp i).state) (h1 : ∀ i < np, ∃ m, (lp ((fun k => (lp k).next)^[m] i)).state = .check)
    (hp : Planar f.lines) (hM : Marks f) {op : BoolOp} {s : Clip} {r : List (Nat × List Nat)} (h : Clip.Reach2 env2 op f s r)
    (hs : s.q.more = false) :
    ∃ w g, doOp (fun i => opOf (s.lp i)) s.np (r.map Prod.fst) = some (w, g) ∧ ∀ x, Generic f.lines x → ∀ y,
      edgesAbove ((g.loops.flatMap g.ring).map fun i => ((s.lp i).data, (s.lp (g.next i)).data)) x y =
        if region op (crossAbove f.lines .subject x y) (crossAbove f.lines .clip x y) then 1 else 0 := by
  obtain ⟨_, sm, snp, _⟩ := C29_final he hl hr hm h hs
  obtain ⟨w, g, e, _, e2, hperm⟩ := out_edges he hl hr hm h0 h1 hp hM h hs
  refine ⟨w, g, e, fun x hg y => ?_⟩
  rw [← kept_winding he hl hr hm hp op (lp' := fun i => opOf (s.lp i)) (fun i => (sm i).1) (fun i => (sm i).2.1) hg y]
  refine edgesAbove_perm ((List.Perm.of_eq (List.map_congr_left fun i hi => ?_)).trans hperm) x y
  rw [(e2 i hi).2, (e2 _ (e2 i hi).1).2]

theorem sum_flatMap {α : Type} (l : List α) (g : α → List Int) : (l.flatMap g).sum = (l.map fun a => (g a).sum).sum := by
  induction l with
  | nil => rfl
  | cons a l ih => rw [List.flatMap_cons, List.sum_append, ih, List.map_cons, List.sum_cons]

include he hl hr in
/-- Without rounding the winding numbers of the split lines are those of the input. -/
theorem exact_cross (hX : ExactSplits lp np f) {x : Rat} (hg : Generic f.lines x) (k : BSet) (y : Rat) :
    crossAbove f.lines k x y = crossAbove (inputLines lp np) k x y := by
  obtain ⟨hlo, href, hvia⟩ := C27_loops he hl hr
  set F := fun c => (f.lp c).next with hF
  choose! l hpath hon using hX
  have hit := fun i hi => path_iter (hpath i hi)
  have gen : ∀ c < f.np, ((f.lp c).data.x : Rat) ≠ x := fun c hc => (hg _ (List.mem_map.mpr ⟨c, List.mem_range.mpr hc, rfl⟩)).1
  have setc : ∀ m c, c < f.np → (f.lp (F^[m] c)).set = (f.lp c).set := by
    intro m c hc
    induction m with
    | zero => rfl
    | succ m ih => rw [Function.iterate_succ_apply', ← ih]; exact hlo.set_eq _ (iter_lt hlo.next_lt hc m)
  have via : ∀ c < f.np, ∃ i < np, ∃ a, F^[a] i = c := by
    intro c hc
    obtain ⟨i, hi, hv⟩ := hvia c hc
    refine ⟨i, hi, ?_⟩
    clear hc
    induction hv with
    | refl => exact ⟨0, rfl⟩
    | step _ _ ih =>
      obtain ⟨a, ha⟩ := ih
      exact ⟨a + 1, by rw [Function.iterate_succ_apply', ha]; rfl⟩
  have hperm := chains_perm href.le hlo.next_lt hlo.next_inj (fun i => (l i).length) (fun i hi a a0 a1 => (hon i hi _ ((hit i hi).2 a a0 a1)).1)
    (fun i hi => by rw [(hit i hi).1]; exact hl.next_lt i hi) via
  rw [crossAbove_mul, crossAbove_mul]
  unfold Clip.lines inputLines
  rw [List.map_map, List.map_map, ← (hperm.map _).sum_eq, List.map_flatMap, sum_flatMap]
  refine map_sum_congr fun i hi => ?_
  rw [List.mem_range] at hi
  have hi' := hi.trans_le href.le
  simp only [List.map_map, Function.comp, contrib_line, Clip.line]
  by_cases hk : (lp i).set = k
  · rw [if_pos hk]
    rw [← chain_contrib x y ((l i).length + 1) (fun a => (f.lp (F^[a] i)).data) (href.data i hi)
      (by show (f.lp (F^[(l i).length + 1] i)).data = _; rw [(hit i hi).1]; exact href.data _ (hl.next_lt i hi)) ?_
      (fun a _ => gen _ (iter_lt hlo.next_lt hi' a))]
    · refine map_sum_congr fun a _ => ?_
      show (if (f.lp (F^[a] i)).set = k then Sweep.contrib x y (f.lp (F^[a] i)).data (f.lp (F (F^[a] i))).data else 0) = _
      rw [if_pos (by rw [setc a i hi', href.set i hi]; exact hk), Function.iterate_succ_apply']
    · intro a ha
      by_cases a0 : a = 0
      · subst a0
        show OnSegQ (f.lp i).data.x (f.lp i).data.y _ _
        rw [href.data i hi]
        exact ⟨0, le_rfl, zero_le_one, at_zero' _ _⟩
      · by_cases a1 : a = (l i).length + 1
        · subst a1
          show OnSegQ (f.lp (F^[(l i).length + 1] i)).data.x (f.lp (F^[(l i).length + 1] i)).data.y _ _
          rw [(hit i hi).1, href.data _ (hl.next_lt i hi)]
          exact ⟨1, zero_le_one, le_rfl, at_one' _ _⟩
        · exact (hon i hi _ ((hit i hi).2 a (by omega) (by omega))).2
  · rw [if_neg hk]
    have : ∀ a, (f.lp (F^[a] i)).set ≠ k := fun a e => hk (by rw [← href.set i hi, ← setc a i hi']; exact e)
    refine Eq.trans (map_sum_congr (g := fun _ => 0) fun a _ => if_neg (this _)) ?_
    simp

include he hl hr hm in
/-- C49: the result in terms of the input, when no added point had to be rounded. -/
theorem C49_exact (h0 : ∀ i < np, Unset (lp i).state) (h1 : ∀ i < np, ∃ m, (lp ((fun k => (lp k).next)^[m] i)).state = .check)
    (hp : Planar f.lines) (hM : Marks f) (hX : ExactSplits lp np f) {op : BoolOp} {s : Clip} {r : List (Nat × List Nat)}
    (h : Clip.Reach2 env2 op f s r) (hs : s.q.more = false) :
    ∃ w g, doOp (fun i => opOf (s.lp i)) s.np (r.map Prod.fst) = some (w, g) ∧ ∀ x, Generic f.lines x → ∀ y,
      edgesAbove ((g.loops.flatMap g.ring).map fun i => ((s.lp i).data, (s.lp (g.next i)).data)) x y =
        if region op (crossAbove (inputLines lp np) .subject x y) (crossAbove (inputLines lp np) .clip x y) then 1 else 0 := by
  obtain ⟨w, g, e, k⟩ := C49_winding he hl hr hm h0 h1 hp hM h hs
  refine ⟨w, g, e, fun x hx y => ?_⟩
  rw [k x hx y, exact_cross he hl hr hX hx, exact_cross he hl hr hX hx]

end

/-! ### Concrete case -/

/-- Lines of which the intersection test splits none meet only at their ends. -/
theorem planar_of_test {L : List Line} (h : ∀ s ∈ L, s.p ≠ s.q ∧ ∀ l ∈ L, NoSplit (intersects id true true ⟨0, 1, s.p, s.q⟩ ⟨2, 3, l.p, l.q⟩)) :
    Planar L := by
  intro s hs l hl
  have := clean_of_noSplit id true true ⟨0, 1, s.p, s.q⟩ ⟨2, 3, l.p, l.q⟩ (by constructor <;> (intro h; cases h))
    (h s hs).1 (h l hl).1 ((h s hs).2 l hl)
  rcases this with ⟨a, b⟩ | ⟨a, b⟩ | h
  · exact Or.inl (Or.inl ⟨a, b⟩)
  · exact Or.inl (Or.inr ⟨a, b⟩)
  · exact Or.inr h

/-- Two squares that overlap, of both sets. -/
def exLp : Nat → LP
  | 0 => ⟨⟨0, 0⟩, 1, .subject, .undef⟩
  | 1 => ⟨⟨4, 0⟩, 2, .subject, .undef⟩
  | 2 => ⟨⟨4, 4⟩, 3, .subject, .undef⟩
  | 3 => ⟨⟨0, 4⟩, 0, .subject, .check⟩
  | 4 => ⟨⟨2, 2⟩, 5, .clip, .undef⟩
  | 5 => ⟨⟨6, 2⟩, 6, .clip, .undef⟩
  | 6 => ⟨⟨6, 6⟩, 7, .clip, .undef⟩
  | _ => ⟨⟨2, 6⟩, 4, .clip, .check⟩

theorem exLoops : Loops exLp 8 := by
  refine ⟨?_, ?_, ?_, ?_, ?_, ?_⟩ <;> decide

def exEnv : Env := realEnv id (fun _ => (true, false)) fun s n => (s.sweep.takeWhile fun m => SweepCmp.sweepCmp (s.cseg m) (s.cseg n)).length

def exEnd : Option Clip := ((Clip.start exLp 8).addLines 8).bind (Clip.run exEnv 200)

/-- The hypotheses about the end of the first sweep, as a computation. -/
def exTest (f : Clip) : Bool :=
  decide ((List.range 12).map (fun i => ((f.lp i).next, (f.lp i).data)) =
    [(1, ⟨0, 0⟩), (10, ⟨4, 0⟩), (9, ⟨4, 4⟩), (0, ⟨0, 4⟩), (11, ⟨2, 2⟩), (6, ⟨6, 2⟩), (7, ⟨6, 6⟩), (8, ⟨2, 6⟩), (4, ⟨2, 4⟩), (3, ⟨2, 4⟩),
      (2, ⟨4, 2⟩), (5, ⟨4, 2⟩)]) &&
  !f.q.more && decide (f.np = 12) &&
  f.lines.all (fun s => decide (s.p ≠ s.q) && f.lines.all fun l => decide (NoSplit (intersects id true true ⟨0, 1, s.p, s.q⟩ ⟨2, 3, l.p, l.q⟩))) &&
  (List.range f.np).all fun i => !decide ((f.lp (f.lp i).next).state = .undef) || (List.range f.np).all fun j =>
    decide (j = i) || decide (j = (f.lp i).next) ||
      !(decide ((f.line j).p = (f.lp (f.lp i).next).data) || decide ((f.line j).q = (f.lp (f.lp i).next).data))

def exEnd2 : Option (Clip × List (Nat × List Nat)) :=
  exEnd.bind fun f => Clip.run2 exEnv .intersection 200 ({ f with q := f.q.rewind, sweep := [] }, [])

/-- The squares are split at their two crossings, the lines are planar afterwards and the points that are not marked are alone. -/
theorem exEnd_ok : ∃ f s r, Clip.Reach exEnv exLp 8 f ∧ f.q.more = false ∧ f.np = 12 ∧ Planar f.lines ∧ Marks f ∧ ExactSplits exLp 8 f ∧
    Clip.Reach2 exEnv .intersection f s r ∧ s.q.more = false := by
  have h : exEnd.map exTest = some true := by decide +kernel
  have h' : exEnd2.map (fun p => p.1.q.more) = some false := by decide +kernel
  unfold exEnd2 at h'
  cases hs : exEnd with
  | none => rw [hs] at h; cases h
  | some f =>
    rw [hs] at h h'
    rw [Option.bind_some, Option.map_eq_some_iff] at h'
    obtain ⟨⟨s, r⟩, h5, h6⟩ := h'
    simp only [Option.map_some, Option.some.injEq, exTest, Bool.and_eq_true, Bool.not_eq_true', List.all_eq_true, Bool.or_eq_true,
      decide_eq_true_eq, List.mem_range] at h
    obtain ⟨⟨⟨⟨h0, h1⟩, h2⟩, h3⟩, h4⟩ := h
    refine ⟨f, s, r, ?_, h1, h2, planar_of_test h3, fun i hi hu j hj a b hc => ?_, ?_, run2_reach 200 .init h5, h6⟩
    · unfold exEnd at hs
      cases ha : (Clip.start exLp 8).addLines 8 with
      | none => rw [ha] at hs; cases hs
      | some t => rw [ha] at hs; exact run_reach 200 (.init ha) hs
    · rcases h4 i hi with h | h
      · simp [hu] at h
      · rcases h j hj with (h | h) | h
        · exact absurd h a
        · exact absurd h b
        · simp only [Bool.or_eq_false_iff, decide_eq_false_iff_not] at h
          exact absurd hc (not_or.mpr h)
    · simp only [List.range_succ, List.range_zero, List.nil_append, List.cons_append, List.map_cons, List.map_nil, List.cons.injEq,
        Prod.mk.injEq, and_true] at h0
      obtain ⟨a0, a1, a2, a3, a4, a5, a6, a7, a8, a9, a10, a11⟩ := h0
      have mid : ∀ (i c j : Nat) (p : Pt), (f.lp i).next = c → (f.lp c).next = j → (exLp i).next = j → 8 ≤ c → (f.lp c).data = p →
          OnSegQ p.x p.y (exLp i).data (exLp j).data → ∃ l, Path f.lp i l (exLp i).next ∧
            ∀ a ∈ l, 8 ≤ a ∧ OnSegQ (f.lp a).data.x (f.lp a).data.y (exLp i).data (exLp (exLp i).next).data := by
        intro i c j p e1 e2 e3 e4 e5 e6
        refine ⟨[c], ⟨e1, e2.trans e3.symm⟩, ?_⟩
        intro a ha
        rw [List.mem_singleton] at ha
        subst ha
        rw [e5, e3]
        exact ⟨e4, e6⟩
      have one : ∀ i, (f.lp i).next = (exLp i).next → ∃ l, Path f.lp i l (exLp i).next ∧
            ∀ a ∈ l, 8 ≤ a ∧ OnSegQ (f.lp a).data.x (f.lp a).data.y (exLp i).data (exLp (exLp i).next).data :=
        fun i e => ⟨[], e, by simp⟩
      intro i hi
      interval_cases i
      · exact one 0 a0.1
      · exact mid 1 10 2 _ a1.1 a10.1 rfl (by omega) a10.2 ⟨1 / 2, by norm_num, by norm_num, by constructor <;> norm_num [exLp]⟩
      · exact mid 2 9 3 _ a2.1 a9.1 rfl (by omega) a9.2 ⟨1 / 2, by norm_num, by norm_num, by constructor <;> norm_num [exLp]⟩
      · exact one 3 a3.1
      · exact mid 4 11 5 _ a4.1 a11.1 rfl (by omega) a11.2 ⟨1 / 2, by norm_num, by norm_num, by constructor <;> norm_num [exLp]⟩
      · exact one 5 a5.1
      · exact one 6 a6.1
      · exact mid 7 8 4 _ a7.1 a8.1 rfl (by omega) a8.2 ⟨1 / 2, by norm_num, by norm_num, by constructor <;> norm_num [exLp]⟩

/-- The theorem at the squares: the winding number of the result at (5/2, 3) is 1. -/
example : ∃ f s r, Clip.Reach2 exEnv .intersection f s r ∧ ∃ w g, doOp (fun i => opOf (s.lp i)) s.np (r.map Prod.fst) = some (w, g) ∧
    edgesAbove ((g.loops.flatMap g.ring).map fun i => ((s.lp i).data, (s.lp (g.next i)).data)) (5 / 2) 3 = 1 := by
  obtain ⟨f, s, r, h1, h2, h3, h4, h5, h6, h7, h8⟩ := exEnd_ok
  have hv : ∀ l ∈ f.lines, (l.p.x : Rat) ≠ 5 / 2 ∧ (l.q.x : Rat) ≠ 5 / 2 := by
    intro l _
    constructor
    · intro e
      have : (2 * l.p.x : Rat) = 5 := by rw [e]; norm_num
      have : 2 * l.p.x = 5 := by exact_mod_cast this
      omega
    · intro e
      have : (2 * l.q.x : Rat) = 5 := by rw [e]; norm_num
      have : 2 * l.q.x = 5 := by exact_mod_cast this
      omega
  have hc : ∀ i < 8, ∃ m, (exLp ((fun k => (exLp k).next)^[m] i)).state = .check := by
    intro i hi
    interval_cases i
    · exact ⟨3, rfl⟩
    · exact ⟨2, rfl⟩
    · exact ⟨1, rfl⟩
    · exact ⟨0, rfl⟩
    · exact ⟨3, rfl⟩
    · exact ⟨2, rfl⟩
    · exact ⟨1, rfl⟩
    · exact ⟨0, rfl⟩
  obtain ⟨w, g, e, k⟩ := C49_exact (env2 := exEnv) (realEnv_ok _ _ _) exLoops h1 h2 (by unfold Unset; decide) hc h4 h5 h6 h7 h8
  refine ⟨f, s, r, h7, w, g, e, ?_⟩
  rw [k _ hv]
  decide +kernel

end PolyOps.Region
