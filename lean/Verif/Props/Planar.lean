import Verif.Lemmas.PlanarMarks
import Verif.Props.Region

/-! C50: after the intersection sweep, lines meet only at their ends. `Planar` (any two lines have the same ends or meet only at
places that are ends of both) is defined in Lemmas/Region.lean over rational places. -/
namespace PolyOps.Planarity
open PolyOps PolyOps.SweepCmp PolyOps.Events PolyOps.Sweep PolyOps.Region

/-- C50: whatever the rounding of computed points, the random decisions and the shape of the tree, if every added point is in the
x-range of the line it was put into, then after the sweep any two lines have the same ends or meet only at ends of both. -/
theorem C50_planar (rnd : Rat → Rat) (r : Nat → Bool × Bool) {tree : Clip → RbTree.Mem} (ht : Trees tree) {lp : Nat → LP} {np : Nat}
    (hl : Loops lp np) {f : Clip} (hr : Clip.Reach (realEnv rnd r (treePos tree)) lp np f) (hm : f.q.more = false) (hR : RangeOk np f) :
    Planar f.lines :=
  planar_end (realEnv_sound rnd r _) (tree_posOk rnd r ht) hl hr hm hR

/-- C50: with exact arithmetic before rounding to integers this is always so. -/
theorem C50_planar_exact (r : Nat → Bool × Bool) {tree : Clip → RbTree.Mem} (ht : Trees tree) {lp : Nat → LP} {np : Nat}
    (hl : Loops lp np) {f : Clip} (hr : Clip.Reach (realEnv id r (treePos tree)) lp np f) (hm : f.q.more = false) : Planar f.lines :=
  C50_planar id r ht hl hr hm (reach_range (realEnv_ok id r _) (realEnv_range r _) hl hr)

/-- C50: the same for any other sorted container. -/
theorem C50_planar_pos (r : Nat → Bool × Bool) {pos : Clip → Nat → Nat} (hp : PosOk (realEnv id r pos)) {lp : Nat → LP} {np : Nat}
    (hl : Loops lp np) {f : Clip} (hr : Clip.Reach (realEnv id r pos) lp np f) (hm : f.q.more = false) : Planar f.lines :=
  planar_end (realEnv_sound id r pos) hp hl hr hm (reach_range (realEnv_ok id r _) (realEnv_range r _) hl hr)

/-! ### Concrete cases -/

/-- Putting a line after all those that come before it is a sorted container. -/
theorem takeWhile_posOk (rnd : Rat → Rat) (r : Nat → Bool × Bool) :
    PosOk (realEnv rnd r fun s n => (s.sweep.takeWhile fun m => sweepCmp (s.cseg m) (s.cseg n)).length) := by
  intro s n l1 mid l2 hi hs h1 h2
  show _ ≤ min ((s.sweep.takeWhile fun m => sweepCmp (s.cseg m) (s.cseg n)).length) _ ∧ min ((s.sweep.takeWhile fun m => sweepCmp (s.cseg m) (s.cseg n)).length) _ ≤ _
  generalize hq : (fun m => sweepCmp (s.cseg m) (s.cseg n)) = q
  have h1' : ∀ m ∈ l1, q m = true := fun m hm => by rw [← hq]; exact h1 m hm
  have h2' : ∀ m ∈ l2, q m = false := fun m hm => by rw [← hq]; exact C22_asymm _ _ (h2 m hm)
  have hlen : (s.sweep.takeWhile q).length ≤ s.sweep.length := (List.takeWhile_sublist q).length_le
  rw [Nat.min_eq_left hlen, hs]
  constructor
  · rw [List.append_assoc, List.takeWhile_append_of_pos h1', List.length_append]; omega
  · rw [List.takeWhile_append]
    split
    · rw [List.length_append]
      cases l2 with
      | nil => simp
      | cons v l2 => rw [List.takeWhile_cons_of_neg (by rw [h2' v (by simp)]; simp)]; simp
    · exact (List.takeWhile_sublist q).length_le

/-- Two squares that overlap: the sweep ends with 12 lines that meet only at their ends. -/
example : ∃ f, Clip.Reach Region.exEnv Region.exLp 8 f ∧ f.q.more = false ∧ f.np = 12 ∧ Planar f.lines := by
  obtain ⟨f, s, r, h1, h2, h3, -⟩ := Region.exEnd_ok
  exact ⟨f, h1, h2, h3, C50_planar_pos _ (takeWhile_posOk id _) Region.exLoops h1 h2⟩

/-- There are trees for all states. -/
example : ∃ tree, Trees tree := exists_trees

/-! ### C49 without assumptions on lines -/

/-- After the sweep every point that is not marked is as the classification assumes. -/
theorem marks_end {env : Env} (he : EnvSound env) (hp : PosOk env) {lp : Nat → LP} {np : Nat} (hl : Loops lp np) {f : Clip}
    (hr : Clip.Reach env lp np f) (hm : f.q.more = false) (hR : RangeOk np f) : Marks f := by
  have hi := (reach_spec he.ok hl hr).1
  have hS : Settled (fun i => (f.lp i).state = .check) (abs f).L := by
    obtain ⟨-, q2, -, -⟩ := final_queue he.ok hl hr hm
    refine (reach_abs he hp hl hr (Ext.refl f) hR (StOk.refl f)).settled ?_
    rintro _ ⟨n, hn, rfl⟩
    refine ⟨⟨n, hn, rfl, ?_⟩, ⟨n, hn, rfl, ?_⟩⟩
    · rw [q2]; exact hi.1.ev_ex n true hn.1 hn.2.1
    · rw [q2]; exact hi.1.ev_ex n false hn.1 hn.2.1
  intro i hi1 hun j hj hji hjv c hjc
  have hv := hi.1.next_lt i hi1
  obtain ⟨n1, v1, d1⟩ := line_node hi.1 hi1
  obtain ⟨n2, v2, d2⟩ := line_node hi.1 hv
  obtain ⟨n3, v3, d3⟩ := line_node hi.1 hj
  have L1 : (abs f).L (f.cseg n1) := ⟨n1, v1, rfl⟩
  have L2 : (abs f).L (f.cseg n2) := ⟨n2, v2, rfl⟩
  have L3 : (abs f).L (f.cseg n3) := ⟨n3, v3, rfl⟩
  have o1 := hS.w.ok _ L1
  have o2 := hS.w.ok _ L2
  have o3 := hS.w.ok _ L3
  have q1 := node_q o1 d1
  have q2 := node_p o2 d2
  have ec1 : (f.line i).q = c := rfl
  have ec2 : (f.line (f.lp i).next).p = c := rfl
  rw [ec1] at q1
  rw [ec2] at q2
  have q3 : EndAt (f.cseg n3) c ∧ idx (f.cseg n3) c ≠ (f.lp i).next ∧ ((f.line j).p = c ∧ oth (f.cseg n3) c = (f.line j).q ∨ (f.line j).q = c ∧ oth (f.cseg n3) c = (f.line j).p) := by
    rcases hjc with e | e
    · have := node_p o3 d3
      rw [e] at this
      exact ⟨this.1, by rw [this.2.1]; exact hjv, Or.inl ⟨e, this.2.2⟩⟩
    · have := node_q o3 d3
      rw [e] at this
      exact ⟨this.1, by rw [this.2.1]; exact fun g => hji (hi.1.next_inj j hj i hi1 g), Or.inr ⟨e, this.2.2⟩⟩
  have h12 : f.cseg n1 ≠ f.cseg n2 := by
    intro e
    have hne := hi.1.next_ne i hi1
    have hne2 := hi.1.next_ne _ hv
    have hn2 := hi.1.next2 i hi1
    rcases d1 with ⟨a, b, _⟩ | ⟨a, b, _⟩ <;> rcases d2 with ⟨a', b', _⟩ | ⟨a', b', _⟩ <;> rw [e] at a b
    · exact hne (a'.symm.trans a)
    · exact hn2 (a'.symm.trans a)
    · exact hn2 (b'.symm.trans b)
    · exact hne (b'.symm.trans b)
  have key := hS.unmarked L1 L2 L3 q1.1 q2.1 q3.1 h12 q1.2.1 q2.2.1 q3.2.1 (by show ¬ _ = _; rw [hun]; simp)
  rw [q1.2.2, q2.2.2] at key
  rcases key with ⟨k1, k2, k3⟩ | ⟨k1, k2, k3⟩ | ⟨k1, k2, k3⟩
  · left
    refine ⟨⟨k1, k2⟩, ?_⟩
    rcases q3.2.2 with ⟨e, g⟩ | ⟨e, g⟩ <;> rw [g] at k3
    · exact ⟨by rw [e]; omega, k3⟩
    · exact ⟨k3, by rw [e]; omega⟩
  · right; left
    refine ⟨⟨k1, k2⟩, ?_⟩
    rcases q3.2.2 with ⟨e, g⟩ | ⟨e, g⟩ <;> rw [g] at k3
    · exact ⟨by rw [e]; omega, k3⟩
    · exact ⟨k3, by rw [e]; omega⟩
  · right; right
    refine ⟨⟨k1, k2⟩, fun hc => k3 ?_⟩
    have ends : ∀ {u : CSeg} {i j : Nat} {p q : Pt}, ((u.a = i ∧ u.b = j ∧ u.pa = p ∧ u.pb = q) ∨ (u.a = j ∧ u.b = i ∧ u.pa = q ∧ u.pb = p)) →
        ((u.pa = p ∧ u.pb = q) ∨ (u.pa = q ∧ u.pb = p)) := by
      rintro u i j p q (⟨_, _, a, b⟩ | ⟨_, _, a, b⟩)
      · exact Or.inl ⟨a, b⟩
      · exact Or.inr ⟨a, b⟩
    have g1 := ends d1
    have g3 := ends d3
    unfold Coin
    rcases g1 with ⟨a, b⟩ | ⟨a, b⟩ <;> rcases g3 with ⟨a', b'⟩ | ⟨a', b'⟩ <;> rw [a, b, a', b'] <;> rcases hc with ⟨k1, k2⟩ | ⟨k1, k2⟩ <;>
      first | exact Or.inl ⟨k1, k2⟩ | exact Or.inl ⟨k2, k1⟩ | exact Or.inr ⟨k1, k2⟩ | exact Or.inr ⟨k2, k1⟩

/-- C49: for any sorted container. -/
theorem C49_region_pos {env2 : Env} (rnd : Rat → Rat) (r : Nat → Bool × Bool) {pos : Clip → Nat → Nat} (hp : PosOk (realEnv rnd r pos)) {lp : Nat → LP} {np : Nat}
    (hl : Loops lp np) {f : Clip} (hr : Clip.Reach (realEnv rnd r pos) lp np f) (hm : f.q.more = false) (hR : RangeOk np f)
    (h0 : ∀ i < np, Unset (lp i).state) (h1 : ∀ i < np, ∃ m, (lp ((fun k => (lp k).next)^[m] i)).state = .check)
    {op : BoolOp} {s : Clip} {o : List (Nat × List Nat)} (h : Clip.Reach2 env2 op f s o) (hs : s.q.more = false) :
    ∃ w g, Loops.doOp (fun i => Clipper.opOf (s.lp i)) s.np (o.map Prod.fst) = some (w, g) ∧ ∀ x, Generic f.lines x → ∀ y,
      edgesAbove ((g.loops.flatMap g.ring).map fun i => ((s.lp i).data, (s.lp (g.next i)).data)) x y =
        if region op (crossAbove f.lines .subject x y) (crossAbove f.lines .clip x y) then 1 else 0 :=
  C49_winding (realEnv_ok rnd r _) hl hr hm h0 h1 (planar_end (realEnv_sound rnd r _) hp hl hr hm hR)
    (marks_end (realEnv_sound rnd r _) hp hl hr hm hR) h hs

/-- C49: whatever the rounding of computed points, the random decisions and the shape of the tree, if every added point is in the
x-range of the line it was put into, the operation succeeds and the winding number of its result is, at every place off the
vertices, 1 where the winding numbers of the two sets of lines are in the region of the operation, and 0 elsewhere. -/
theorem C49_region {env2 : Env} (rnd : Rat → Rat) (r : Nat → Bool × Bool) {tree : Clip → RbTree.Mem} (ht : Trees tree) {lp : Nat → LP} {np : Nat}
    (hl : Loops lp np) {f : Clip} (hr : Clip.Reach (realEnv rnd r (treePos tree)) lp np f) (hm : f.q.more = false) (hR : RangeOk np f)
    (h0 : ∀ i < np, Unset (lp i).state) (h1 : ∀ i < np, ∃ m, (lp ((fun k => (lp k).next)^[m] i)).state = .check)
    {op : BoolOp} {s : Clip} {o : List (Nat × List Nat)} (h : Clip.Reach2 env2 op f s o) (hs : s.q.more = false) :
    ∃ w g, Loops.doOp (fun i => Clipper.opOf (s.lp i)) s.np (o.map Prod.fst) = some (w, g) ∧ ∀ x, Generic f.lines x → ∀ y,
      edgesAbove ((g.loops.flatMap g.ring).map fun i => ((s.lp i).data, (s.lp (g.next i)).data)) x y =
        if region op (crossAbove f.lines .subject x y) (crossAbove f.lines .clip x y) then 1 else 0 :=
  C49_region_pos rnd r (tree_posOk rnd r ht) hl hr hm hR h0 h1 h hs

/-- C49: with exact arithmetic before rounding to integers this is always so. -/
theorem C49_region_exact {env2 : Env} (r : Nat → Bool × Bool) {tree : Clip → RbTree.Mem} (ht : Trees tree) {lp : Nat → LP} {np : Nat}
    (hl : Loops lp np) {f : Clip} (hr : Clip.Reach (realEnv id r (treePos tree)) lp np f) (hm : f.q.more = false)
    (h0 : ∀ i < np, Unset (lp i).state) (h1 : ∀ i < np, ∃ m, (lp ((fun k => (lp k).next)^[m] i)).state = .check)
    {op : BoolOp} {s : Clip} {o : List (Nat × List Nat)} (h : Clip.Reach2 env2 op f s o) (hs : s.q.more = false) :
    ∃ w g, Loops.doOp (fun i => Clipper.opOf (s.lp i)) s.np (o.map Prod.fst) = some (w, g) ∧ ∀ x, Generic f.lines x → ∀ y,
      edgesAbove ((g.loops.flatMap g.ring).map fun i => ((s.lp i).data, (s.lp (g.next i)).data)) x y =
        if region op (crossAbove f.lines .subject x y) (crossAbove f.lines .clip x y) then 1 else 0 :=
  C49_region id r ht hl hr hm (reach_range (realEnv_ok id r _) (realEnv_range r _) hl hr) h0 h1 h hs

/-- C49: in terms of the input, when no added point had to be rounded. -/
theorem C49_input {env2 : Env} (rnd : Rat → Rat) (r : Nat → Bool × Bool) {tree : Clip → RbTree.Mem} (ht : Trees tree) {lp : Nat → LP} {np : Nat}
    (hl : Loops lp np) {f : Clip} (hr : Clip.Reach (realEnv rnd r (treePos tree)) lp np f) (hm : f.q.more = false) (hR : RangeOk np f)
    (h0 : ∀ i < np, Unset (lp i).state) (h1 : ∀ i < np, ∃ m, (lp ((fun k => (lp k).next)^[m] i)).state = .check) (hX : ExactSplits lp np f)
    {op : BoolOp} {s : Clip} {o : List (Nat × List Nat)} (h : Clip.Reach2 env2 op f s o) (hs : s.q.more = false) :
    ∃ w g, Loops.doOp (fun i => Clipper.opOf (s.lp i)) s.np (o.map Prod.fst) = some (w, g) ∧ ∀ x, Generic f.lines x → ∀ y,
      edgesAbove ((g.loops.flatMap g.ring).map fun i => ((s.lp i).data, (s.lp (g.next i)).data)) x y =
        if region op (crossAbove (inputLines lp np) .subject x y) (crossAbove (inputLines lp np) .clip x y) then 1 else 0 :=
  C49_exact (realEnv_ok rnd r _) hl hr hm h0 h1 (C50_planar rnd r ht hl hr hm hR)
    (marks_end (realEnv_sound rnd r _) (tree_posOk rnd r ht) hl hr hm hR) hX h hs

/-- Two squares that overlap: the hypotheses of `C49_region_pos` and `ExactSplits` hold at an end of both sweeps with 12 lines. -/
example : ∃ f s r, Clip.Reach Region.exEnv Region.exLp 8 f ∧ f.q.more = false ∧ f.np = 12 ∧ RangeOk 8 f ∧ ExactSplits Region.exLp 8 f ∧ Marks f ∧
    Clip.Reach2 Region.exEnv .intersection f s r ∧ s.q.more = false ∧
    ∃ w g, Loops.doOp (fun i => Clipper.opOf (s.lp i)) s.np (r.map Prod.fst) = some (w, g) := by
  obtain ⟨f, s, r, h1, h2, h3, -, -, h6, h7, h8⟩ := Region.exEnd_ok
  have hR : RangeOk 8 f := reach_range (realEnv_ok id _ _) (realEnv_range _ _) Region.exLoops h1
  have hM := marks_end (realEnv_sound id _ _) (takeWhile_posOk id _) Region.exLoops h1 h2 hR
  obtain ⟨w, g, e, -⟩ := C49_region_pos (env2 := Region.exEnv) id _ (takeWhile_posOk id _) Region.exLoops h1 h2 hR (by unfold Unset; decide) (by
    intro i hi
    interval_cases i
    · exact ⟨3, rfl⟩
    · exact ⟨2, rfl⟩
    · exact ⟨1, rfl⟩
    · exact ⟨0, rfl⟩
    · exact ⟨3, rfl⟩
    · exact ⟨2, rfl⟩
    · exact ⟨1, rfl⟩
    · exact ⟨0, rfl⟩) h7 h8
  exact ⟨f, s, r, h1, h2, h3, hR, h6, hM, h7, h8, w, g, e⟩

end PolyOps.Planarity
