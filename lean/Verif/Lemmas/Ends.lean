import Verif.Lemmas.PlanarEnd
import Verif.Model.Clipper
import Mathlib.Algebra.BigOperators.Group.Finset.Basic
import Mathlib.Algebra.Order.BigOperators.Group.Finset
import Mathlib.Data.Prod.Lex

/-! The sweeps end: between two splits the queue comes nearer to its end, and each split shortens lines. -/
namespace PolyOps.Ends
open PolyOps PolyOps.Events PolyOps.Sweep PolyOps.Planarity

/-! ### The queue -/

/-- 2: events were added since the last step; 1: going back; 0: going forward. -/
def phase (q : Queue) : Nat := if q.news = [] then (if q.events.length > q.last then 2 else 0) else 1

/-- Steps until the phase ends. -/
def left (q : Queue) : Nat := if q.news = [] then ((q.events.length : Int) - q.cur).toNat else (q.cur + 1).toNat

/-- The queue `q'` is nearer to its end than `q`. -/
def Nearer (q' q : Queue) : Prop := phase q' < phase q ∨ (phase q' = phase q ∧ left q' < left q)

theorem nearer_wf : WellFounded Nearer := by
  have h : WellFounded (Prod.Lex (· < ·) (· < ·) : Nat × Nat → Nat × Nat → Prop) := (Prod.lex Nat.lt_wfRel Nat.lt_wfRel).wf
  refine Subrelation.wf (r := InvImage (Prod.Lex (· < ·) (· < ·)) fun q => (phase q, left q)) ?_ (InvImage.wf _ h)
  intro a b hab
  rcases hab with h | ⟨h1, h2⟩
  · exact Prod.Lex.left _ _ h
  · show Prod.Lex _ _ (phase a, left a) (phase b, left b)
    rw [h1]; exact Prod.Lex.right _ h2

theorem placeNew_ne {x : Nat → Int} {l : List Ev} {k : Nat} (h : k < l.length) : placeNew x l k ≠ [] := by
  intro e
  have := congrArg List.length e
  unfold placeNew addIdx at this
  rw [List.length_map, List.length_zipIdx, (sortBy_perm _ _).length_eq, List.length_map, List.length_drop] at this
  simp at this; omega

theorem incorporate_phase (q : Queue) : phase q.incorporate = 0 := by
  unfold phase Queue.incorporate
  simp

theorem advance_phase {q q' : Queue} {e : Ev} {b : Bool} (h : q.advance = some (e, b, q')) :
    phase q' = phase q ∧ (q.news = [] → left q' < left q) := by
  unfold Queue.advance at h
  rw [Option.map_eq_some_iff] at h
  obtain ⟨a, h1, h2⟩ := h
  have hl := (List.getElem?_eq_some_iff.mp h1).1
  cases h2
  refine ⟨rfl, fun hn => ?_⟩
  unfold left
  simp only [hn, if_true]
  omega

/-- Each step of the queue brings it nearer to its end. -/
theorem next_nearer {x : Nat → Int} {q q' : Queue} {e : Ev} {b : Bool} (h : q.next x = some (e, b, q')) : Nearer q' q := by
  unfold Queue.next at h
  split at h
  · rename_i n ns hn
    have p1 : phase q = 1 := by unfold phase; rw [if_neg (by rw [hn]; simp)]
    simp only at h
    split at h
    · rename_i hc
      unfold Queue.back at h
      rw [Option.map_eq_some_iff] at h
      obtain ⟨a, h1, h2⟩ := h
      cases h2
      refine Or.inr ⟨rfl, ?_⟩
      unfold left
      simp only [hn, List.cons_ne_nil, if_false]
      omega
    · left
      rw [p1, (advance_phase h).1, incorporate_phase]; exact Nat.one_pos
  · rename_i hn
    split at h
    · rename_i hlen
      have p2 : phase q = 2 := by unfold phase; rw [if_pos hn, if_pos hlen]
      left
      rw [p2]
      split at h
      · simp only at h
        rw [(advance_phase h).1]
        unfold phase
        simp only [hn, if_true, (sortBy_perm _ _).length_eq]
        simp
      · simp only at h
        have hp := placeNew_ne (x := x) hlen
        split at h
        · rename_i n ns hn'
          split at h
          · unfold Queue.back at h
            rw [Option.map_eq_some_iff] at h
            obtain ⟨a, h1, h2⟩ := h
            cases h2
            unfold phase
            simp only [hp, if_false]; omega
          · rw [(advance_phase h).1, incorporate_phase]; omega
        · rename_i hn'
          exact absurd hn' hp
    · right
      have := advance_phase h
      exact ⟨this.1, this.2 hn⟩

theorem delAt_nearer {q q' : Queue} (k : Nat) (h : Nearer q' q) : Nearer (q'.delAt k) q := by
  have e1 : phase (q'.delAt k) = phase q' := by unfold phase Queue.delAt; simp
  have e2 : left (q'.delAt k) = left q' := by unfold left Queue.delAt; simp
  unfold Nearer at *
  rw [e1, e2]; exact h

/-! ### One iteration -/

theorem addFb_np {s t : Clip} {a b : Nat} (h : s.addFb a b = some t) : t.np = s.np := by
  unfold Clip.addFb at h
  split at h <;> cases h
  rfl

theorem insertMid_np {s t : Clip} {a b m : Nat} {c : Pt} (h : s.insertMid a b c = some (m, t)) : t.np = s.np + 1 := by
  unfold Clip.insertMid at h
  split at h
  · cases h
  split at h
  · cases h
  simp only at h
  rw [Option.bind_eq_some_iff] at h
  obtain ⟨u, h1, h2⟩ := h
  rw [Option.map_eq_some_iff] at h2
  obtain ⟨v, h2, h3⟩ := h2
  cases h3
  have e1 : u.np = s.np + 1 := by split at h1 <;> exact addFb_np h1
  have e2 : t.np = u.np := by split at h2 <;> exact addFb_np h2
  rw [e2, e1]

theorem split_np {s t : Clip} {n m : Nat} {c : Option Pt} {e : AtEdge} (h : s.split n c e = some (m, t)) :
    (e = .no → t.np = s.np + 1) ∧ (e ≠ .no → t = s) := by
  unfold Clip.split at h
  cases e with
  | both => cases h
  | start => cases h; exact ⟨nofun, fun _ => rfl⟩
  | «end» => cases h; exact ⟨nofun, fun _ => rfl⟩
  | no =>
    refine ⟨fun _ => ?_, fun h => absurd rfl h⟩
    simp only at h
    cases c with
    | none => cases h
    | some c =>
      simp only at h
      rw [Option.bind_eq_some_iff] at h
      obtain ⟨u, h1, h2⟩ := h
      have e1 : u.np = s.np := by
        unfold Clip.unlink at h1
        split at h1
        · dsimp only at h1
          generalize (s.q.events.take s.q.last)[s.q.findIdx s.x (s.seg n).1 (s.seg n).2 _]? = z at h1
          cases z with
          | none => cases h1
          | some z =>
            dsimp only at h1
            generalize (if s.x (s.seg n).1 = s.x (s.seg n).2 then EvTy.vforward else EvTy.forward) = ty at h1
            by_cases c : z.a = (s.seg n).1 ∧ z.b = (s.seg n).2 ∧ z.ty = ty
            · rw [if_pos c] at h1; cases h1; rfl
            · rw [if_neg c] at h1; cases h1
        · cases h1
      rw [← e1]
      split at h2 <;> exact insertMid_np h2

/-- A test splits a line or does not touch the queue. -/
theorem check_np {env : Env} {s t : Clip} {n1 n2 : Nat} {b : Bool} (h : s.checkIsect env n1 n2 = some (b, t)) :
    s.np < t.np ∨ (t.np = s.np ∧ t.q = s.q) := by
  unfold Clip.checkIsect at h
  simp only at h
  split at h
  · cases h; exact Or.inr ⟨rfl, rfl⟩
  · rename_i r _
    split at h
    · cases h
    split at h
    · rename_i hno
      rw [Option.bind_eq_some_iff] at h
      obtain ⟨⟨i1, t1⟩, h1, h2⟩ := h
      rw [Option.map_eq_some_iff] at h2
      obtain ⟨⟨i2, t2⟩, h2, h3⟩ := h2
      cases h3
      left
      show s.np < t2.np
      have a := split_np h1
      have b : (r.e1 = .no → t2.np = t1.np + 1) ∧ (r.e1 ≠ .no → t2 = t1) := split_np h2
      have ha : s.np ≤ t1.np := by
        by_cases c : r.e0 = .no
        · have := a.1 c; have e : ({ s with clock := s.clock + 1 } : Clip).np = s.np := rfl
          omega
        · rw [a.2 c]
      have hb : t1.np ≤ t2.np := by
        by_cases c : r.e1 = .no
        · have := b.1 c; omega
        · rw [b.2 c]
      rcases hno with c | c
      · have := a.1 c; have e : ({ s with clock := s.clock + 1 } : Clip).np = s.np := rfl
        omega
      · have := b.1 c; omega
    split at h
    · cases h; exact Or.inr ⟨rfl, rfl⟩
    · cases h; exact Or.inr ⟨rfl, rfl⟩

theorem checkOpt_np {env : Env} {s t : Clip} {n : Nat} {o : Option Nat} {b : Bool} (h : s.checkOpt env n o = some (b, t)) :
    s.np < t.np ∨ (t.np = s.np ∧ t.q = s.q) := by
  cases o with
  | none => cases h; exact Or.inr ⟨rfl, rfl⟩
  | some m => exact check_np h

/-- An iteration splits a line or brings the queue nearer to its end. -/
theorem step_nearer {env : Env} {s t : Clip} (h : s.step env = some t) : s.np < t.np ∨ (t.np = s.np ∧ Nearer t.q s.q) := by
  unfold Clip.step at h
  rw [Option.bind_eq_some_iff] at h
  obtain ⟨⟨e, fwd, q⟩, h1, h⟩ := h
  have hq := next_nearer h1
  simp only at h
  split at h
  · cases h; exact Or.inr ⟨rfl, hq⟩
  split at h
  · -- start, forward
    unfold Clip.onForward at h
    rw [Option.bind_eq_some_iff] at h
    obtain ⟨u, h2, h⟩ := h
    have hu : u.np = s.np ∧ u.q = q := by
      unfold Clip.insert at h2
      split at h2 <;> cases h2
      exact ⟨rfl, rfl⟩
    rw [Option.bind_eq_some_iff] at h
    obtain ⟨⟨b, v⟩, h3, h⟩ := h
    have hv := checkOpt_np h3
    rw [hu.1, hu.2] at hv
    simp only at h
    split at h
    · cases h
      rcases hv with h | ⟨h, h'⟩
      · exact Or.inl h
      · exact Or.inr ⟨h, by rw [h']; exact hq⟩
    · rw [Option.map_eq_some_iff] at h
      obtain ⟨⟨c, w⟩, h4, h5⟩ := h
      cases h5
      have hw : v.np < w.np ∨ (w.np = v.np ∧ w.q = v.q) := checkOpt_np h4
      show s.np < w.np ∨ (w.np = s.np ∧ Nearer w.q s.q)
      rcases hv with h | ⟨h, h'⟩ <;> rcases hw with g | ⟨g, g'⟩
      · left; omega
      · left; omega
      · left; omega
      · right; exact ⟨g.trans h, by rw [g', h']; exact hq⟩
  · unfold Clip.erase at h
    split at h <;> cases h
    exact Or.inr ⟨rfl, hq⟩
  · unfold Clip.onBackward at h
    split at h
    · simp only at h
      split at h
      · rw [Option.map_eq_some_iff] at h
        obtain ⟨⟨c, w⟩, h4, h5⟩ := h
        cases h5
        rcases check_np h4 with g | ⟨g, g'⟩
        · exact Or.inl g
        · exact Or.inr ⟨g, by rw [g']; exact hq⟩
      · cases h; exact Or.inr ⟨rfl, hq⟩
    · cases h; exact Or.inr ⟨rfl, delAt_nearer _ hq⟩
  · unfold Clip.insert at h
    split at h <;> cases h
    exact Or.inr ⟨rfl, hq⟩

theorem step2_nearer {env : Env} {op : BoolOp} {s t : Clip} {r : List (Nat × List Nat)} (h : s.step2 env op = some (t, r)) : Nearer t.q s.q := by
  have hscan : ∀ (u : Clip) (i : Nat), (u.scan op i).1.q = u.q := by
    intro u i; unfold Clip.scan; split <;> rfl
  unfold Clip.step2 at h
  rw [Option.bind_eq_some_iff] at h
  obtain ⟨⟨e, fwd, q⟩, h1, h⟩ := h
  have hq := next_nearer h1
  simp only at h
  split at h
  · cases h
  split at h
  · cases h; exact hq
  split at h
  · rw [Option.map_eq_some_iff] at h
    obtain ⟨u, h2, h3⟩ := h
    have hu : u.q = q := by
      unfold Clip.insert at h2
      split at h2 <;> cases h2
      rfl
    have := hscan u e.a
    rw [h3] at this
    rw [this, hu]; exact hq
  · rw [Option.map_eq_some_iff] at h
    obtain ⟨u, h2, h3⟩ := h
    have h4 := hscan { s with q := q } e.a
    generalize ({ s with q := q } : Clip).scan op e.a = z at *
    cases h3
    unfold Clip.erase at h2
    split at h2 <;> cases h2
    rw [h4]; exact hq

/-! ### Lengths -/

/-- Distance along the axes. -/
def dist (a b : Pt) : Nat := (a.x - b.x).natAbs + (a.y - b.y).natAbs

theorem dist_box {a b c : Pt} (h : Box a b c) : dist a c + dist c b = dist a b := by
  unfold Box InBox at h
  unfold dist
  omega

theorem dist_pos {a b : Pt} (h : a ≠ b) : 1 ≤ dist a b := by
  unfold dist
  by_contra hc
  apply h
  obtain ⟨a1, a2⟩ := a
  obtain ⟨b1, b2⟩ := b
  simp only at hc
  congr 1 <;> omega

/-- The sum of the lengths of the lines of `n` points. -/
def total (d : Nat → Pt) (f : Nat → Nat) (n : Nat) : Nat := ∑ i ∈ Finset.range n, dist (d i) (d (f i))

theorem splits_total {f g : Nat → Nat} {n m : Nat} {l : List (Nat × Nat)} (h : Splits f n l g m) (d : Nat → Pt)
    (hb : ∀ k ab, l[k]? = some ab → Box (d ab.1) (d ab.2) (d (n + k))) : total d g m = total d f n := by
  induction h with
  | nil => rfl
  | @snoc l g m a b h0 ha hg ih =>
    have hlen := h0.length
    rw [← ih fun k ab hk => hb k ab (by rw [List.getElem?_append_left (List.getElem?_eq_some_iff.mp hk).1]; exact hk)]
    have hbx := hb l.length (a, b) (by simp)
    rw [← hlen] at hbx
    simp only at hbx
    unfold total
    rw [Finset.sum_range_succ]
    have e1 : setFn (setFn g a m) m b m = b := by unfold setFn; simp
    rw [e1, ← Finset.add_sum_erase _ _ (Finset.mem_range.mpr ha), ← Finset.add_sum_erase (Finset.range m) _ (Finset.mem_range.mpr ha)]
    have e2 : setFn (setFn g a m) m b a = m := by unfold setFn; simp; omega
    have e3 : ∑ x ∈ (Finset.range m).erase a, dist (d x) (d (setFn (setFn g a m) m b x)) = ∑ x ∈ (Finset.range m).erase a, dist (d x) (d (g x)) := by
      apply Finset.sum_congr rfl
      intro x hx
      rw [Finset.mem_erase, Finset.mem_range] at hx
      have : setFn (setFn g a m) m b x = g x := by unfold setFn; rw [if_neg (by omega), if_neg hx.1]
      rw [this]
    rw [e2, e3, hg]
    have := dist_box hbx
    omega

theorem total_le {d : Nat → Pt} {f : Nat → Nat} {n : Nat} (h : ∀ i < n, d i ≠ d (f i)) : n ≤ total d f n := by
  unfold total
  calc n = ∑ _i ∈ Finset.range n, 1 := by simp
    _ ≤ _ := Finset.sum_le_sum fun i hi => dist_pos (h i (Finset.mem_range.mp hi))

end PolyOps.Ends
