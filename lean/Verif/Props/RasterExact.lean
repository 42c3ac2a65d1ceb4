import Verif.Lemmas.RasterEnds
import Verif.Props.RasterFind
/-! C55: when no side ends where two others cross and no three sides of different directions cross in one place, the lines of
every row go from right to left, and `draw` fills what the fill rule chooses.

Specification: `Inside` and `OnSide` are the places of a side without and with its ends, `winding` the winding number of the
loops as given. Horizontal sides do not matter. Nothing is assumed about the tree but that a new line is put next to lines
it compares to accordingly (`Fair`), which every search tree grants. -/
namespace PolyOps.Raster
open PolyOps.Events

/-- A place of a side, the ends included. -/
def OnSide (s : Pt × Pt) (X Y : ℚ) : Prop :=
  ∃ t : ℚ, 0 ≤ t ∧ t ≤ 1 ∧ X = s.1.x + t * (s.2.x - s.1.x) ∧ Y = s.1.y + t * (s.2.y - s.1.y)

/-- Same or opposite directions. -/
def Par (s s' : Pt × Pt) : Prop := (s.2.x - s.1.x) * (s'.2.y - s'.1.y) = (s.2.y - s.1.y) * (s'.2.x - s'.1.x)

/-- Where two sides cross no further side ends, and every further side there is parallel to one of the two. -/
def NoKnot (loops : List (List Pt)) : Prop :=
  ∀ s ∈ loopSides loops, ∀ s' ∈ loopSides loops, ∀ s'' ∈ loopSides loops, s.1.y ≠ s.2.y → s'.1.y ≠ s'.2.y → s''.1.y ≠ s''.2.y →
    ¬ Par s s' → ∀ X Y : ℚ, Inside s.1 s.2 X Y → Inside s'.1 s'.2 X Y → OnSide s'' X Y →
      Inside s''.1 s''.2 X Y ∧ (Par s'' s ∨ Par s'' s')

theorem Inside.symm {p p' : Pt} {X Y : ℚ} (h : Inside p p' X Y) : Inside p' p X Y := by
  obtain ⟨t, h0, h1, rfl, rfl⟩ := h
  exact ⟨1 - t, by linarith, by linarith, by ring, by ring⟩

theorem OnSide.symm {p p' : Pt} {X Y : ℚ} (h : OnSide (p, p') X Y) : OnSide (p', p) X Y := by
  obtain ⟨t, h0, h1, rfl, rfl⟩ := h
  exact ⟨1 - t, by linarith, by linarith, by simp only; ring, by simp only; ring⟩

theorem Par.flip {p p' : Pt} {s : Pt × Pt} (h : Par (p, p') s) : Par (p', p) s := by
  unfold Par at *
  simp only at *
  linarith

theorem Par.flip' {p p' : Pt} {s : Pt × Pt} (h : Par s (p, p')) : Par s (p', p) := by
  unfold Par at *
  simp only at *
  linarith

/-- What a stored line is. -/
theorem seg_side (loops : List (List Pt)) (realloc : Nat → Bool) (k : Nat) (hk : k < (envOf (addLoops loops) realloc).nodes.length) :
    Down ((envOf (addLoops loops) realloc).seg k) ∧
    ((((envOf (addLoops loops) realloc).seg k).pa, ((envOf (addLoops loops) realloc).seg k).pb) ∈ loopSides loops ∨
      (((envOf (addLoops loops) realloc).seg k).pb, ((envOf (addLoops loops) realloc).seg k).pa) ∈ loopSides loops) ∧
    ((envOf (addLoops loops) realloc).seg k).pa = ((addLoops loops).getD ((envOf (addLoops loops) realloc).seg k).a default).1 ∧
    ((envOf (addLoops loops) realloc).seg k).pb = ((addLoops loops).getD ((envOf (addLoops loops) realloc).seg k).b default).1 := by
  have hdown := wf_envOf (addLoops loops) realloc k hk
  have hm : (envOf (addLoops loops) realloc).seg k ∈ edges (addLoops loops) := by
    unfold Env.seg
    rw [List.getD_eq_getElem?_getD, List.getElem?_eq_getElem hk, Option.getD_some]
    exact List.getElem_mem hk
  generalize (envOf (addLoops loops) realloc).seg k = s at *
  refine ⟨hdown.2.2, ?_⟩
  unfold edges at hm
  rw [List.mem_filterMap] at hm
  obtain ⟨i, hi, he⟩ := hm
  rw [List.mem_range] at hi
  simp only at he
  split at he
  · rename_i hne
    have hmem : (addLoops loops).getD i default ∈ addLoops loops := by
      rw [List.getD_eq_getElem?_getD, List.getElem?_eq_getElem hi, Option.getD_some]
      exact List.getElem_mem hi
    have hs := C40_sides loops _ hmem (by
      intro hh
      apply hne
      unfold ptY
      rw [hh])
    rw [Option.some.injEq] at he
    rw [← he]
    simp only
    split
    · exact ⟨Or.inr hs, by simp⟩
    · exact ⟨Or.inl hs, by simp⟩
  · cases he

theorem wfx_envOf (loops : List (List Pt)) (realloc : Nat → Bool) : WFX (envOf (addLoops loops) realloc) := by
  intro i hi
  obtain ⟨h1, _, h2, h3⟩ := seg_side loops realloc i hi
  refine ⟨h1, ?_⟩
  intro j hj
  obtain ⟨_, _, k2, k3⟩ := seg_side loops realloc j hj
  unfold Fits
  rw [h2, h3, k2, k3]
  exact ⟨fun e => by rw [e], fun e => by rw [e], fun e => by rw [e], fun e => by rw [e]⟩

theorem onSide_of {s : Seg} (h : Down s) {Y : ℚ} (h1 : (s.pa.y : ℚ) ≤ Y) (h2 : Y ≤ s.pb.y) : OnSide (s.pa, s.pb) (lx s Y) Y := by
  have hp := h.pos
  refine ⟨(Y - s.pa.y) / (s.pb.y - s.pa.y), div_nonneg (by linarith) hp.le, ?_, ?_, ?_⟩
  · rw [div_le_one hp]; linarith
  · show s.pa.x + (Y - s.pa.y) * (((s.pb.x : ℚ) - s.pa.x) / ((s.pb.y : ℚ) - s.pa.y)) = _
    simp only
    ring
  · simp only
    field_simp
    ring

theorem simple_of_noKnot {loops : List (List Pt)} (h : NoKnot loops) (realloc : Nat → Bool) : Simple (envOf (addLoops loops) realloc) := by
  intro i hi j hj k hk v hsl hx a1 a2 b1 b2 c1 c2 hxk
  obtain ⟨di, si, _⟩ := seg_side loops realloc i hi
  obtain ⟨dj, sj, _⟩ := seg_side loops realloc j hj
  obtain ⟨dk, sk, _⟩ := seg_side loops realloc k hk
  generalize (envOf (addLoops loops) realloc).seg i = s at *
  generalize (envOf (addLoops loops) realloc).seg j = s' at *
  generalize (envOf (addLoops loops) realloc).seg k = s'' at *
  have pick : ∀ {u : Seg}, Down u → ((u.pa, u.pb) ∈ loopSides loops ∨ (u.pb, u.pa) ∈ loopSides loops) → ∃ w ∈ loopSides loops,
      w.1.y ≠ w.2.y ∧ (∀ X Y, Inside w.1 w.2 X Y ↔ Inside u.pa u.pb X Y) ∧ (∀ X Y, OnSide (u.pa, u.pb) X Y → OnSide w X Y) ∧
      (∀ z, Par w z → Par (u.pa, u.pb) z) ∧ (∀ z, Par z w → Par z (u.pa, u.pb)) := by
    intro u hd hu
    have hne : u.pa.y ≠ u.pb.y := ne_of_lt hd
    rcases hu with hu | hu
    · exact ⟨_, hu, hne, fun _ _ => Iff.rfl, fun _ _ h => h, fun _ h => h, fun _ h => h⟩
    · exact ⟨_, hu, hne.symm, fun _ _ => ⟨Inside.symm, Inside.symm⟩, fun _ _ h => h.symm, fun _ h => h.flip, fun _ h => h.flip'⟩
  obtain ⟨w, w1, w2, w3, w4, w5, w6⟩ := pick di si
  obtain ⟨w', x1, x2, x3, x4, x5, x6⟩ := pick dj sj
  obtain ⟨w'', y1, y2, y3, y4, y5, y6⟩ := pick dk sk
  obtain ⟨r1, r2⟩ := h w w1 w' x1 w'' y1 w2 x2 y2 (fun hp => hsl ((par_iff di dj).mp (x6 _ (w5 _ hp)))) (lx s v) v
    ((w3 _ _).mpr ((inside_iff di _ _).mpr ⟨a1, a2, rfl⟩)) ((x3 _ _).mpr ((inside_iff dj _ _).mpr ⟨b1, b2, hx⟩))
    (y4 _ _ (by rw [← hxk]; exact onSide_of dk c1 c2))
  obtain ⟨q1, q2, _⟩ := (inside_iff dk _ _).mp ((y3 _ _).mp r1)
  refine ⟨⟨q1, q2⟩, ?_⟩
  rcases r2 with r2 | r2
  · exact Or.inl ((par_iff dk di).mp (w6 _ (y5 _ r2)))
  · exact Or.inr ((par_iff dk dj).mp (x6 _ (y5 _ r2)))

/-- C55: the lines of every row go from right to left. -/
theorem C55_order (loops : List (List Pt)) (hk : NoKnot loops) (realloc : Nat → Bool) (orc : Nat → Place)
    (hf : ∀ n, Fair (envOf (addLoops loops) realloc) (orc n)) (h : Int) (f : Nat) (r : List (Int × List Nat))
    (hr : scanRows (addLoops loops) realloc orc h f = .ok r) :
    ∀ row ∈ r, RightToLeft (crossings (addLoops loops) (edges (addLoops loops)) row.1 row.2) := by
  intro row hrow
  obtain ⟨hi, hd⟩ := initSt_inv (envOf (addLoops loops) realloc) orc
  have hX := wfx_envOf loops realloc
  have ho := rows_ord (wf_envOf _ realloc) hX (simple_of_noKnot hk realloc) h f _ _ r hi
    (by intro g hg; rw [hd] at hg; simp at hg) (init_ge _ orc) (init_ord _ orc hf _) hr row hrow
  have hact := ((C40_rows _ _ _ _ _ _ hr).1 row hrow).2
  unfold RightToLeft crossings
  rw [List.pairwise_filterMap]
  unfold RowOrd at ho
  refine ho.imp_of_mem ?_
  intro j k hj hk hle c hc c' hc'
  have key : ∀ (k : Nat) (c : Crossing), k ∈ row.2 → (if h : ((edges (addLoops loops)).getD k default).pa.y -
      ((edges (addLoops loops)).getD k default).pb.y ≠ 0 then some (⟨xIntercept ((edges (addLoops loops)).getD k default).pa
        ((edges (addLoops loops)).getD k default).pb row.1 h, if aIsMain (addLoops loops) ((edges (addLoops loops)).getD k default)
        then 1 else -1⟩ : Crossing) else none) = some c → c.x.val = lx ((envOf (addLoops loops) realloc).seg k) row.1 := by
    intro k c hk hc
    split at hc
    · rw [Option.some.injEq] at hc
      rw [← hc]
      simp only
      rw [xIntercept_val]
      show _ = lx ((edges (addLoops loops)).getD k default) row.1
      unfold xAt lx sl
      ring
    · cases hc
  rw [key j c hj hc, key k c' hk hc']
  exact hle

/-- The order in which the tree looks for the place of a new line does not matter: going through the lines from the first on
is one fair way. -/
theorem ordPlace_fair (E : Env) : Fair E (ordPlace E.nodes) := by
  intro y l k
  have hs : ∀ (p : Nat → Bool), l.take (l.takeWhile p).length = l.takeWhile p ∧ l.drop (l.takeWhile p).length = l.dropWhile p := by
    intro p
    have h := List.takeWhile_append_dropWhile (p := p) (l := l)
    generalize l.takeWhile p = a at *
    generalize l.dropWhile p = b at *
    rw [← h]
    simp
  unfold ordPlace
  rw [(hs _).1, (hs _).2]
  refine ⟨(List.takeWhile_sublist _).length_le, ?_, ?_⟩
  · intro j hj
    have := List.mem_takeWhile_imp (List.mem_of_mem_getLast? hj)
    simpa [Env.seg] using this
  · intro j hj
    have := List.head?_dropWhile_not (fun j => !sweepCmp y (E.nodes.getD k default) (E.nodes.getD j default)) l
    rw [Option.mem_def] at hj
    rw [hj] at this
    simpa [Env.seg] using this

/-- C55: the scan ends, whenever storage is reallocated. -/
theorem C55_ends (loops : List (List Pt)) (hk : NoKnot loops) (realloc : Nat → Bool) (orc : Nat → Place)
    (hf : ∀ n, Fair (envOf (addLoops loops) realloc) (orc n)) (h : Int) : ∃ f0, ∀ f ≥ f0, scanRows (addLoops loops) realloc orc h f ≠ .fuel := by
  obtain ⟨hi, hd⟩ := initSt_inv (envOf (addLoops loops) realloc) orc
  refine ⟨debt (envOf (addLoops loops) realloc) (initSt (envOf (addLoops loops) realloc) orc) +
    (h - firstRow (envOf (addLoops loops) realloc) (initSt (envOf (addLoops loops) realloc) orc)).toNat + 2, fun f hf0 => ?_⟩
  have := rows_ends (wf_envOf _ realloc) (wfx_envOf loops realloc) (simple_of_noKnot hk realloc) h f _ _ hi
    (by intro g hg; rw [hd] at hg; simp at hg) (init_ge _ orc) (init_ord _ orc hf _) (by omega)
  intro he
  unfold scanRows at he
  simp only at he
  rw [he] at this
  exact this

/-- C55: when the storage of the events is not reallocated during the scan, the scan ends with a result. -/
theorem C55_total (loops : List (List Pt)) (hk : NoKnot loops) (realloc : Nat → Bool) (hs : ∀ n, realloc n = false) (orc : Nat → Place)
    (hf : ∀ n, Fair (envOf (addLoops loops) realloc) (orc n)) (h : Int) :
    ∃ r, ∃ f0, ∀ f ≥ f0, scanRows (addLoops loops) realloc orc h f = .ok r := by
  obtain ⟨f0, h0⟩ := C55_ends loops hk realloc orc hf h
  have h1 := C40_defined_partial (addLoops loops) realloc orc h f0 hs
  cases hr : scanRows (addLoops loops) realloc orc h f0 with
  | ok r => exact ⟨r, f0, fun f hf => by rw [C40_bound_free _ _ _ _ f0 f hf (h0 f0 le_rfl), hr]⟩
  | ub => exact absurd hr h1
  | fuel => exact absurd hr (h0 f0 le_rfl)

/-- A side crosses a row. -/
def Crosses (s : Pt × Pt) (y : Int) : Prop := s.1.y ≤ y ∧ y < s.2.y ∨ s.2.y ≤ y ∧ y < s.1.y

theorem xAt_symm {p p' : Pt} (h : p.y ≠ p'.y) (y : Int) : xAt p p' y = xAt p' p y := by
  have h1 : (p'.y : ℚ) - p.y ≠ 0 := by
    intro e
    apply h
    have : (p.y : ℚ) = p'.y := by linarith
    exact_mod_cast this
  have h2 : (p.y : ℚ) - p'.y ≠ 0 := by
    intro e; apply h1; linarith
  unfold xAt
  field_simp
  ring

theorem crossing_side (loops : List (List Pt)) {row : Int × List Nat} (hact : ∀ k ∈ row.2, Active (envOf (addLoops loops) fun _ => false) row.1 k) :
    ∀ c ∈ crossings (addLoops loops) (edges (addLoops loops)) row.1 row.2, ∃ s ∈ loopSides loops, Crosses s row.1 ∧
      c.x.val = xAt s.1 s.2 row.1 := by
  intro c hc
  unfold crossings at hc
  obtain ⟨k, hk, he⟩ := List.mem_filterMap.mp hc
  obtain ⟨hlt, a1, a2⟩ := hact k hk
  obtain ⟨hd, hs, _⟩ := seg_side loops (fun _ => false) k hlt
  have hseg : (envOf (addLoops loops) fun _ => false).seg k = (edges (addLoops loops)).getD k default := rfl
  rw [hseg] at a1 a2 hd hs
  simp only at he
  split at he
  · rw [Option.some.injEq] at he
    rw [← he]
    simp only
    rw [xIntercept_val]
    rcases hs with hs | hs
    · exact ⟨_, hs, Or.inl ⟨a1, a2⟩, rfl⟩
    · exact ⟨_, hs, Or.inr ⟨a1, a2⟩, xAt_symm (ne_of_lt hd) _⟩
  · cases he

theorem shouldFill_zero (rule : Rule) : shouldFill rule 0 = false := by cases rule <;> rfl

/-- C55: drawing. Every place of the image where the winding number of the loops is chosen by the fill rule, and which is not on a
side, is in a filled pixel; and every filled run goes from the pixel of one place to that of another with the rule choosing
the winding number all the way between. -/
theorem C55_draw (loops : List (List Pt)) (hk : NoKnot loops) (realloc : Nat → Bool) (hs : ∀ n, realloc n = false) (orc : Nat → Place)
    (hf : ∀ n, Fair (envOf (addLoops loops) realloc) (orc n)) (width h : Int) (hw : 0 < width) (rule : Rule) :
    ∃ r, (∃ f0, ∀ f ≥ f0, scanRows (addLoops loops) realloc orc h f = .ok r) ∧
    (∀ y : Int, 0 ≤ y → y < h → ∀ q : ℚ, 0 ≤ q → q < width → (∀ s ∈ loopSides loops, Crosses s y → xAt s.1 s.2 y ≠ q) →
      shouldFill rule (winding loops y q) = true →
      ∃ x1 x2, (x1, x2, y) ∈ drawCalls (addLoops loops) (edges (addLoops loops)) width rule r ∧ x1 ≤ ⌊q⌋ ∧ ⌊q⌋ ≤ x2) ∧
    (∀ x1 x2 y : Int, (x1, x2, y) ∈ drawCalls (addLoops loops) (edges (addLoops loops)) width rule r →
      0 ≤ x1 ∧ x1 ≤ x2 ∧ x2 < width ∧ 0 ≤ y ∧ y < h ∧
      ∃ L R : ℚ, L ≤ R ∧ x1 = max 0 (min ⌊L⌋ (width - 1)) ∧ x2 = max 0 (min ⌊R⌋ (width - 1)) ∧
        (∃ s ∈ loopSides loops, Crosses s y ∧ L = xAt s.1 s.2 y) ∧ (∃ s ∈ loopSides loops, Crosses s y ∧ R = xAt s.1 s.2 y) ∧
        ∀ q, L < q → q < R → shouldFill rule (winding loops y q) = true) := by
  obtain ⟨r, f0, hr⟩ := C55_total loops hk realloc hs orc hf h
  have hr0 := hr f0 le_rfl
  obtain ⟨c1, _, c3, c4, _⟩ := C40_rows _ _ _ _ _ _ hr0
  have hord := C55_order loops hk realloc orc hf h f0 r hr0
  have hact : ∀ row ∈ r, ∀ k ∈ row.2, Active (envOf (addLoops loops) fun _ => false) row.1 k := fun row hrow k hk => ((c1 row hrow).2 k).mp hk
  refine ⟨r, ⟨f0, hr⟩, ?_, ?_⟩
  · intro y h0 hh q q0 q1 hq hfill
    have hne : winding loops y q ≠ 0 := by
      intro e
      rw [e, shouldFill_zero] at hfill
      cases hfill
    by_cases hrow : ∃ row ∈ r, row.1 = y
    · obtain ⟨row, hrow, rfl⟩ := hrow
      refine (C41_draw_partial loops realloc orc width h hw f0 r hr0 rule row hrow h0 (hord row hrow)).1 q ?_ hne hfill q0 q1
      intro c hc e
      obtain ⟨s, s1, s2, s3⟩ := crossing_side loops (hact row hrow) c hc
      exact hq s s1 s2 (by rw [← s3, e])
    · exact absurd (C41_skipped loops realloc orc h f0 r hr0 y hh (fun row hr he => hrow ⟨row, hr, he⟩) q) hne
  · intro x1 x2 y hm
    obtain ⟨row, hrow, h0, s, hsp, hfill, rfl, rfl, rfl⟩ := (C41_draw _ _ _ _ _ _ _ _).mp hm
    have hwd := C41_winding loops realloc orc h f0 r hr0 row hrow
    obtain ⟨b1, b2, b3, b4⟩ := (C41_in_bounds width row.1 hw _ (hord row hrow) 0).1 s hsp
    obtain ⟨L, R, hL, hR, hLR, e1, e2, _, hmid⟩ := C41_span_winding width row.1 0 _ (hord row hrow) s hsp
    rw [b4]
    refine ⟨b1, b2, b3, h0, c4 row hrow, L.x.val, R.x.val, hLR, ?_, ?_, crossing_side loops (hact row hrow) L hL,
      crossing_side loops (hact row hrow) R hR, ?_⟩
    · rw [e1, C41_column _ _ (by omega)]
    · rw [e2, C41_column _ _ (by omega)]
    · intro q h1 h2
      rw [← hwd q, (hmid q h1 h2).1]
      exact hfill

/-- Two triangles that touch in the middle of a side of each: the sides cross strictly between their ends. -/
def bowtie : List (List Pt) := [[⟨0, 0⟩, ⟨4, 4⟩, ⟨0, 4⟩, ⟨4, 0⟩]]

theorem bowtie_noKnot : NoKnot bowtie := by
  have hm : ∀ s ∈ loopSides bowtie, s.1.y ≠ s.2.y → s = (⟨0, 0⟩, ⟨4, 4⟩) ∨ s = (⟨0, 4⟩, ⟨4, 0⟩) := by decide +kernel
  have hp : ∀ s : Pt × Pt, Par s s := fun s => by unfold Par; ring
  intro s hs s' hs' s'' hs'' n1 n2 n3 hpar X Y i1 i2 _
  rcases hm s hs n1 with e | e <;> rcases hm s' hs' n2 with e' | e' <;> rcases hm s'' hs'' n3 with e'' | e'' <;> subst e e' e'' <;>
    first
      | exact absurd (hp _) hpar
      | exact ⟨i1, Or.inl (hp _)⟩
      | exact ⟨i2, Or.inr (hp _)⟩

/-- The hypotheses are met by a loop that crosses itself, and pixels are filled on both sides of the crossing. -/
example : NoKnot bowtie ∧ (∀ n : Nat, Fair (envOf (addLoops bowtie) fun _ => false) ((fun _ => ordPlace (edges (addLoops bowtie))) n)) ∧
    ∃ r, scanRows (addLoops bowtie) (fun _ => false) (fun _ => ordPlace (edges (addLoops bowtie))) 10 60 = .ok r ∧
      drawCalls (addLoops bowtie) (edges (addLoops bowtie)) 10 .evenOdd r = [(0, 4, 0), (1, 3, 1), (2, 2, 2), (1, 3, 3)] :=
  ⟨bowtie_noKnot, fun _ => ordPlace_fair _, by
    refine ⟨[(0, [1, 0]), (1, [1, 0]), (2, [0, 1]), (3, [0, 1]), (4, [])], ?_, ?_⟩ <;> decide +kernel⟩

/-- The bowtie with a triangle cut out of its lower half; the triangle starts where the sides of the bowtie cross. -/
def cutBow : List (List Pt) := [[⟨0, 0⟩, ⟨16, 16⟩, ⟨0, 16⟩, ⟨16, 0⟩], [⟨8, 8⟩, ⟨4, 16⟩, ⟨12, 16⟩]]

/-- Finding: where a side starts at the crossing of two others the claim fails. The new sides are put into the tree by how the lines
go on below the crossing, while the lines in the tree are still in the order from above, and nothing corrects this later:
on row 15 the triangle, from x = 4.5 to x = 11.5, is filled although the winding number there is zero. -/
theorem C55_start_at_crossing_wrong : ¬ NoKnot cutBow ∧
    ∃ r, scanRows (addLoops cutBow) (fun _ => false) (fun _ => ordPlace (edges (addLoops cutBow))) 20 100 = .ok r ∧
      (1, 15, 15) ∈ drawCalls (addLoops cutBow) (edges (addLoops cutBow)) 20 .nonZero r ∧
      winding cutBow 15 5 = 0 ∧ winding cutBow 15 8 = 0 ∧ winding cutBow 15 11 = 0 := by
  constructor
  · intro h
    have := h (⟨0, 0⟩, ⟨16, 16⟩) (by decide) (⟨0, 16⟩, ⟨16, 0⟩) (by decide) (⟨8, 8⟩, ⟨4, 16⟩) (by decide) (by decide) (by decide) (by decide)
      (by unfold Par; decide) 8 8 ⟨1/2, by norm_num, by norm_num, by norm_num, by norm_num⟩ ⟨1/2, by norm_num, by norm_num, by norm_num, by norm_num⟩
      ⟨0, by norm_num, by norm_num, by norm_num, by norm_num⟩
    obtain ⟨⟨t, t0, t1, _, ht⟩, _⟩ := this
    norm_num at ht
    linarith
  · refine ⟨[(0, [1, 0]), (1, [1, 0]), (2, [1, 0]), (3, [1, 0]), (4, [1, 0]), (5, [1, 0]), (6, [1, 0]), (7, [1, 0]), (8, [3, 2, 1, 0]),
      (9, [3, 2, 0, 1]), (10, [3, 2, 0, 1]), (11, [3, 2, 0, 1]), (12, [3, 2, 0, 1]), (13, [3, 2, 0, 1]), (14, [3, 2, 0, 1]),
      (15, [3, 2, 0, 1]), (16, [])], ?_, ?_, ?_, ?_, ?_⟩ <;> decide +kernel

end PolyOps.Raster
