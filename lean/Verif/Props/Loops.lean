import Verif.Lemmas.LoopsLines
import Mathlib.Tactic.IntervalCases

/-! C30, C31, C48: the kept lines are joined to loops.

The setting is `Input lp np cls`: links among the `np` points are a permutation, each loop has a classified point, and `cls i` is
the class of the line that starts at point `i` (`keep`: in the output, `rev`: to be used backwards). `used` is a line in the
direction of use, `Balanced` says of a list of directed lines that at each place as many begin as end. -/
namespace PolyOps.Loops
open PolyOps PolyOps.Sweep

section
variable {lp : Nat → OP} {np : Nat} {cls : Nat → LState}

/-- C31: if the lines to keep, in their direction of use, begin and end equally often at each place, and so do the lines to be
reversed, then joining succeeds (no assertion fails, no list of starts is found empty, no loop runs out of steps), and the links
of the kept points are then a permutation of the kept points. -/
theorem C31_reconnect (h : Input lp np cls) {samples : List Nat}
    (hs : samples.Perm ((List.range np).filter (fun i => decide ((lp i).st ≠ .undef))))
    (hk : Balanced (keptLines lp np cls)) (hr : Balanced ((revLines np cls).map (fun i => ((lp i).data, (lp (lp i).next).data)))) :
    ∃ w f, doOp lp np samples = some (w, f) ∧ w.np = np ∧
      (∀ i < np, (w.lp i).keep = true → (w.lp i).next < np ∧ (w.lp (w.lp i).next).keep = true) ∧
      (∀ i < np, ∀ j < np, (w.lp i).keep = true → (w.lp j).keep = true → (w.lp i).next = (w.lp j).next → i = j) ∧
      (∀ i < np, (w.lp i).data = (lp i).data) := by
  obtain ⟨w, P, f, e, hn, hd, hj, hf, _⟩ := h.result hs hk hr
  refine ⟨w, f, e, hn, ?_, ?_, fun i hi => (hd i hi).1⟩
  · intro i hi k
    have m := (hj.keep i (hn ▸ hi)).mp k
    have m2 := hj.next_mem m
    have l := hj.lt _ m2
    exact ⟨hn ▸ l, (hj.keep _ l).mpr m2⟩
  · intro i hi j hj' k k' e
    exact hj.next_inj ((hj.keep i (hn ▸ hi)).mp k) ((hj.keep j (hn ▸ hj')).mp k') e

/-- C30: the loops of the output: each is a non-empty cycle of the final links, of the stored size; together they hold each kept
point exactly once and no other point. -/
theorem C30_loops (h : Input lp np cls) {samples : List Nat}
    (hs : samples.Perm ((List.range np).filter (fun i => decide ((lp i).st ≠ .undef))))
    (hk : Balanced (keptLines lp np cls)) (hr : Balanced ((revLines np cls).map (fun i => ((lp i).data, (lp (lp i).next).data)))) :
    ∃ w f, doOp lp np samples = some (w, f) ∧
      (∀ l ∈ f.loops, 0 < l.2 ∧ f.next^[l.2] l.1 = l.1) ∧
      (f.loops.flatMap f.ring).Perm ((List.range np).filter (fun i => (w.lp i).keep)) ∧
      (∀ m < f.loops.length, ∀ i ∈ f.ring (f.loops.getD m (0, 0)), f.idx i = .loop m) := by
  obtain ⟨w, P, f, e, hn, hd, hj, hf, _⟩ := h.result hs hk hr
  refine ⟨w, f, e, hf.ring, ?_, hf.idx⟩
  have := hf.part
  rw [hn] at this
  refine this.trans (List.Perm.of_eq (List.filter_congr fun i hi => ?_))
  rw [(hd i (List.mem_range.mp hi)).2]; simp

/-- C48 with the loops as the library stores them: each returns to its start, and together their edges are the lines to keep. -/
theorem C48_loops (h : Input lp np cls) {samples : List Nat}
    (hs : samples.Perm ((List.range np).filter (fun i => decide ((lp i).st ≠ .undef))))
    (hk : Balanced (keptLines lp np cls)) (hr : Balanced ((revLines np cls).map (fun i => ((lp i).data, (lp (lp i).next).data)))) :
    ∃ w f, doOp lp np samples = some (w, f) ∧ (∀ l ∈ f.loops, 0 < l.2 ∧ f.next^[l.2] l.1 = l.1) ∧
      (∀ i ∈ f.loops.flatMap f.ring, i < np ∧ f.next i ∈ f.loops.flatMap f.ring ∧ (w.lp i).data = (lp i).data) ∧
      ((f.loops.flatMap f.ring).map (fun i => ((w.lp i).data, (w.lp (f.next i)).data))).Perm (keptLines lp np cls) := by
  obtain ⟨w, P, f, e, hn, hd, hj, hf, hl⟩ := h.result hs hk hr
  refine ⟨w, f, e, hf.ring, fun i hi => ?_, hl⟩
  have mem : i < np := by
    have := hf.part.subset hi
    rw [hn] at this
    exact List.mem_range.mp (List.mem_filter.mp this).1
  refine ⟨mem, ?_, (hd i mem).1⟩
  obtain ⟨l, hl, hm⟩ := List.mem_flatMap.mp hi
  obtain ⟨m, hm, e⟩ := List.mem_map.mp hm
  have hm := List.mem_range.mp hm
  refine List.mem_flatMap.mpr ⟨l, hl, List.mem_map.mpr ?_⟩
  rw [← e]
  have r := hf.ring l hl
  by_cases c : m + 1 = l.2
  · exact ⟨0, List.mem_range.mpr r.1, by
      have r2 := r.2
      rw [← c, Function.iterate_succ_apply'] at r2
      exact r2.symm⟩
  · exact ⟨m + 1, List.mem_range.mpr (by omega), by rw [← Function.iterate_succ_apply' f.next]⟩

/-- C48: the edges of the output loops are exactly the lines to keep, each as often as it is there, in its direction of use. -/
theorem C48_edges (h : Input lp np cls) {samples : List Nat}
    (hs : samples.Perm ((List.range np).filter (fun i => decide ((lp i).st ≠ .undef))))
    (hk : Balanced (keptLines lp np cls)) (hr : Balanced ((revLines np cls).map (fun i => ((lp i).data, (lp (lp i).next).data)))) :
    ∃ w f, doOp lp np samples = some (w, f) ∧
      ((f.loops.flatMap f.ring).map (fun i => ((lp i).data, (lp (f.next i)).data))).Perm (keptLines lp np cls) := by
  obtain ⟨w, f, e, _, hd, hl⟩ := C48_loops h hs hk hr
  refine ⟨w, f, e, (List.Perm.of_eq (List.map_congr_left fun i hi => ?_)).trans hl⟩
  rw [(hd i hi).2.2, (hd _ (hd i hi).2.1).2.2]

end

/-! `find_loops` on its own. -/

theorem Sq.same_next {f g : Nat → Nat} {e : Nat} : ∀ {t : List Nat} {x : Nat}, Sq f (f x) t e → Sq g (g x) t e → ∀ k ∈ x :: t, f k = g k
  | [], x, h1, h2, k, hk => by
    have h1 : f x = e := h1
    have h2 : g x = e := h2
    rw [List.mem_singleton.mp hk, h1, h2]
  | a :: t, x, h1, h2, k, hk => by
    rcases List.mem_cons.mp hk with c | c
    · rw [c, h1.1, h2.1]
    · exact Sq.same_next h1.2 h2.2 k c

/-- C30: on any points whose links permute the kept ones (none of them an anchor) `find_loops` ends and returns the cycles. -/
theorem C30_find (w : Work) (hk : ∀ i < w.np, (w.lp i).keep = true → (w.lp i).next < w.np ∧ (w.lp (w.lp i).next).keep = true)
    (hi : ∀ i < w.np, ∀ j < w.np, (w.lp i).keep = true → (w.lp j).keep = true → (w.lp i).next = (w.lp j).next → i = j)
    (ha : ∀ i < w.np, (w.lp i).anchor = false) :
    ∃ f, w.findLoops = some f ∧ (∀ l ∈ f.loops, 0 < l.2 ∧ f.next^[l.2] l.1 = l.1) ∧
      (f.loops.flatMap f.ring).Perm ((List.range w.np).filter (fun i => (w.lp i).keep)) ∧
      (∀ i ∈ f.loops.flatMap f.ring, f.next i = (w.lp i).next) := by
  set K := (List.range w.np).filter (fun i => (w.lp i).keep) with eK
  set P : List Piece := K.map (fun i => ⟨i, [], (w.lp (w.lp i).next).data⟩) with eP
  have eN : P.flatMap Piece.nodes = K := by
    rw [eP, List.flatMap_map]
    simp [Piece.nodes]
  have mK : ∀ i, i ∈ K ↔ i < w.np ∧ (w.lp i).keep = true := by
    intro i; rw [eK, List.mem_filter, List.mem_range]
  have hj : Joined w P := by
    constructor
    · rw [eN]; exact List.Nodup.filter _ List.nodup_range
    · rw [eN]; intro k hk; exact ((mK k).mp hk).1
    · intro k hk; rw [eN, mK]; simp [hk]
    · intro p hp
      obtain ⟨i, hi, rfl⟩ := List.mem_map.mp hp
      exact ha i ((mK i).mp hi).1
    · intro p hp
      obtain ⟨i, hi, rfl⟩ := List.mem_map.mp hp
      simp [Piece.nodes]
    · intro p hp
      obtain ⟨i, hi, rfl⟩ := List.mem_map.mp hp
      have := (mK i).mp hi
      refine ⟨⟨(w.lp i).next, [], (w.lp (w.lp (w.lp i).next).next).data⟩, List.mem_map.mpr ⟨(w.lp i).next, ?_, rfl⟩, rfl, rfl⟩
      rw [mK]; exact hk i this.1 this.2
    · intro p hp p' hp' e
      obtain ⟨i, hi', rfl⟩ := List.mem_map.mp hp
      obtain ⟨j, hj', rfl⟩ := List.mem_map.mp hp'
      have h1 := (mK i).mp hi'
      have h2 := (mK j).mp hj'
      have : i = j := hi i h1.1 j h2.1 h1.2 h2.2 e
      rw [this]
  obtain ⟨f, e, hf⟩ := hj.find
  refine ⟨f, e, hf.ring, ?_, ?_⟩
  · refine hf.part.trans (List.Perm.of_eq (List.filter_congr fun i hi => ?_))
    rw [ha i (List.mem_range.mp hi)]; simp
  · intro i hi'
    have hiK : i ∈ K := by
      have := hf.part.subset hi'
      rw [List.mem_filter, List.mem_range] at this
      exact (mK i).mpr ⟨this.1, by simpa using (Bool.and_eq_true _ _ ▸ this.2).1⟩
    have hu : ∀ k ∈ K, (w.lp k).mark = .unset := fun k hk' => (mark_unset _).mpr ⟨((mK k).mp hk').2, ha k ((mK k).mp hk').1⟩
    obtain ⟨f', G, e', hF⟩ := find_spec (nx := fun i => (w.lp i).next) (idx := fun i => (w.lp i).mark) (K := K)
      (fun k hk' => (mK _).mpr (hk k ((mK k).mp hk').1 ((mK k).mp hk').2))
      (fun k hk' k' hk2 e => hi k ((mK k).mp hk').1 k' ((mK k').mp hk2).1 ((mK k).mp hk').2 ((mK k').mp hk2).2 e)
      (fun k hk' => .inl (hu k hk')) w.np (fun k hk' => ((mK k).mp hk').1) w.np
      (fun k hk' hm => (mK k).mpr ⟨hk', ((mark_unset _).mp hm).1⟩)
    have : f' = f := by
      have e2 : w.findLoops = some f' := e'
      rw [e] at e2; exact (Option.some.inj e2).symm
    subst this
    obtain ⟨g, hg, hig⟩ := List.mem_flatten.mp (hF.done i ((mK i).mp hiK).1 (hu i hiK))
    obtain ⟨a, cs, e1, s1, _⟩ := hF.cyc g hg
    obtain ⟨b, t, e2, e3, s2⟩ := hF.out g hg
    have eg : unsets (fun i => (w.lp i).mark) g = g := by
      unfold unsets
      exact List.filter_eq_self.mpr fun k hk' => by simpa using hu k (hF.sub k (List.mem_flatten.mpr ⟨g, hg, hk'⟩))
    rw [eg, e1] at e2
    obtain ⟨rfl, rfl⟩ := List.cons.inj e2
    exact Sq.same_next s2 s1 i (e1 ▸ hig)

/-! ### A case with reversed lines

The square (0,0) (4,0) (4,4) (0,4) as subject and the square (1,1) (2,1) (2,2) (1,2) as clip, in one direction: the difference is
the first with the second reversed as a hole. Points 4 to 7 are the second; each loop has one classified point, point 6 in the
middle of the second. -/

def exLp (i : Nat) : OP := match i with
  | 0 => ⟨⟨0, 0⟩, 1, .res .kept, false⟩
  | 1 => ⟨⟨4, 0⟩, 2, .undef, false⟩
  | 2 => ⟨⟨4, 4⟩, 3, .undef, false⟩
  | 3 => ⟨⟨0, 4⟩, 0, .undef, false⟩
  | 4 => ⟨⟨1, 1⟩, 5, .undef, false⟩
  | 5 => ⟨⟨2, 1⟩, 6, .undef, false⟩
  | 6 => ⟨⟨2, 2⟩, 7, .res .keepRev, false⟩
  | 7 => ⟨⟨1, 2⟩, 4, .undef, false⟩
  | _ => ⟨⟨0, 0⟩, 0, .undef, false⟩

def exCls (i : Nat) : LState := if i < 4 then .kept else .keepRev

theorem exInput : Input exLp 8 exCls where
  next_lt := by decide
  next_inj := by decide
  st := by decide
  anchor := by decide
  reach := by
    intro i hi
    interval_cases i
    · exact ⟨0, by decide⟩
    · exact ⟨3, by decide⟩
    · exact ⟨2, by decide⟩
    · exact ⟨1, by decide⟩
    · exact ⟨2, by decide⟩
    · exact ⟨1, by decide⟩
    · exact ⟨0, by decide⟩
    · exact ⟨3, by decide⟩
  cls := by decide

theorem Balanced.of_perm {L : List (Pt × Pt)} (h : (L.map Prod.fst).Perm (L.map Prod.snd)) : Balanced L := by
  intro c
  have := h.countP_eq (fun p => decide (p = c))
  rwa [List.countP_map, List.countP_map] at this

example : ∃ w f, doOp exLp 8 [0, 6] = some (w, f) ∧
    ((f.loops.flatMap f.ring).map (fun i => ((exLp i).data, (exLp (f.next i)).data))).Perm (keptLines exLp 8 exCls) :=
  C48_edges exInput (by decide) (Balanced.of_perm (by decide)) (Balanced.of_perm (by decide))

/-- The second square comes out in the other direction. -/
example : (doOp exLp 8 [0, 6]).map (fun p => p.2.loops.map fun l => (p.2.ring l).map fun i => (p.1.lp i).data) =
    some [[⟨0, 0⟩, ⟨4, 0⟩, ⟨4, 4⟩, ⟨0, 4⟩], [⟨1, 1⟩, ⟨1, 2⟩, ⟨2, 2⟩, ⟨2, 1⟩]] := by decide

end PolyOps.Loops
