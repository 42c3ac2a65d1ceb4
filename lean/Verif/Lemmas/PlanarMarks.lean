import Verif.Lemmas.PlanarEnd

/-! At the end of the intersection sweep: lines with ends at one place are neighbours at the cuts of that place, so the points there
are marked unless two verticals, one from above and one from below, are all that touches. -/
namespace PolyOps.Planarity
open PolyOps PolyOps.SweepCmp

variable {mk : Nat → Prop}

/-- The line has an end at the place. -/
def EndAt (s : CSeg) (c : Pt) : Prop := s.pa = c ∨ s.pb = c

/-- The point of the line at the place. -/
def idx (s : CSeg) (c : Pt) : Nat := if s.pa = c then s.a else s.b

/-- The other end. -/
def oth (s : CSeg) (c : Pt) : Pt := if s.pa = c then s.pb else s.pa

/-- Vertical, upwards of the place. -/
def Hi (s : CSeg) (c : Pt) : Prop := s.pa.x = s.pb.x ∧ EndAt s c ∧ c.y < (oth s c).y

/-- Vertical, downwards of the place. -/
def Lo (s : CSeg) (c : Pt) : Prop := s.pa.x = s.pb.x ∧ EndAt s c ∧ (oth s c).y < c.y

theorem idx_a {s : CSeg} {c : Pt} (h : s.pa = c) : idx s c = s.a := if_pos h
theorem idx_b {s : CSeg} {c : Pt} (hs : SOk s) (h : s.pb = c) : idx s c = s.b := if_neg (fun e => hs.ne (e.trans h.symm))
theorem oth_a {s : CSeg} {c : Pt} (h : s.pa = c) : oth s c = s.pb := if_pos h
theorem oth_b {s : CSeg} {c : Pt} (hs : SOk s) (h : s.pb = c) : oth s c = s.pa := if_neg (fun e => hs.ne (e.trans h.symm))

theorem hi_or_lo {s : CSeg} {c : Pt} (hs : SOk s) (hv : s.pa.x = s.pb.x) (he : EndAt s c) : Hi s c ∨ Lo s c := by
  have := hs.vy hv
  unfold Hi Lo
  rcases he with h | h
  · rw [oth_a h, ← h]
    rcases lt_or_gt_of_ne this with g | g
    · exact Or.inl ⟨hv, Or.inl rfl, g⟩
    · exact Or.inr ⟨hv, Or.inl rfl, g⟩
  · rw [oth_b hs h, ← h]
    rcases lt_or_gt_of_ne this with g | g
    · exact Or.inr ⟨hv, Or.inr rfl, g⟩
    · exact Or.inl ⟨hv, Or.inr rfl, g⟩

/-- The places of a vertical. -/
theorem on_oth {s : CSeg} {c : Pt} (hs : SOk s) (hv : s.pa.x = s.pb.x) (he : EndAt s c) {Y : Rat}
    (h : (c.y ≤ Y ∧ Y ≤ (oth s c).y) ∨ ((oth s c).y ≤ Y ∧ Y ≤ c.y)) : On s c.x Y := by
  rw [on_v hv (hs.vy hv)]
  rcases he with e | e
  · rw [oth_a e, ← e] at h
    exact ⟨by rw [e], h⟩
  · rw [oth_b hs e, ← e] at h
    exact ⟨by rw [hv, e], by tauto⟩

theorem end_oth {s : CSeg} {c : Pt} (hs : SOk s) (hv : s.pa.x = s.pb.x) (he : EndAt s c) (Y : Rat) :
    EndQ s c.x Y ↔ Y = c.y ∨ Y = (oth s c).y := by
  unfold EndQ IsEnd
  rcases he with e | e
  · rw [oth_a e, ← e, hv]; simp
  · rw [oth_b hs e, ← e, hv]; simp [or_comm]

theorem oth_x {s : CSeg} {c : Pt} (hv : s.pa.x = s.pb.x) (he : EndAt s c) : (oth s c).x = c.x := by
  unfold oth
  rcases he with e | e
  · rw [if_pos e, ← e, hv]
  · split
    · rename_i h; rw [← h, hv]
    · rw [← e, hv]

theorem coin_of_oth {s t : CSeg} {c : Pt} (hs : SOk s) (ht : SOk t) (h1 : EndAt s c) (h2 : EndAt t c) (h : oth s c = oth t c) : Coin s t := by
  rcases h1 with e | e <;> rcases h2 with g | g
  · rw [oth_a e, oth_a g] at h; exact Or.inl ⟨e.trans g.symm, h⟩
  · rw [oth_a e, oth_b ht g] at h; exact Or.inr ⟨e.trans g.symm, h⟩
  · rw [oth_b hs e, oth_a g] at h; exact Or.inr ⟨h, e.trans g.symm⟩
  · rw [oth_b hs e, oth_b ht g] at h; exact Or.inl ⟨h, e.trans g.symm⟩

/-- Verticals from one place to one side coincide. -/
theorem vert_coin {s t : CSeg} {c : Pt} (hs : SOk s) (ht : SOk t) (hc : Cl s t) (h : (Hi s c ∧ Hi t c) ∨ (Lo s c ∧ Lo t c)) : Coin s t := by
  rcases hc.cases with hc | hc
  · exact hc
  have vs : s.pa.x = s.pb.x := by rcases h with h | h; exacts [h.1.1, h.1.1]
  have vt : t.pa.x = t.pb.x := by rcases h with h | h; exacts [h.2.1, h.2.1]
  have es : EndAt s c := by rcases h with h | h; exacts [h.1.2.1, h.1.2.1]
  have et : EndAt t c := by rcases h with h | h; exacts [h.2.2.1, h.2.2.1]
  have key : ∀ {s t : CSeg}, SOk s → SOk t → (∀ x, Sep x s t) → s.pa.x = s.pb.x → t.pa.x = t.pb.x → EndAt s c → EndAt t c →
      (c.y < (oth s c).y ∧ (oth s c).y ≤ (oth t c).y ∨ (oth s c).y < c.y ∧ (oth t c).y ≤ (oth s c).y) → (oth s c).y = (oth t c).y := by
    intro s t hs ht hc vs vt es et h
    have os : On s c.x (oth s c).y := by
      refine on_oth hs vs es ?_
      rcases h with h | h
      · exact Or.inl ⟨by exact_mod_cast h.1.le, le_rfl⟩
      · exact Or.inr ⟨le_rfl, by exact_mod_cast h.1.le⟩
    have ot : On t c.x (oth s c).y := by
      refine on_oth ht vt et ?_
      rcases h with h | h
      · exact Or.inl ⟨by exact_mod_cast h.1.le, by exact_mod_cast h.2⟩
      · exact Or.inr ⟨by exact_mod_cast h.2, by exact_mod_cast h.1.le⟩
    rcases (end_oth ht vt et _).mp (hc c.x _ _ le_rfl os ot).2 with e | e
    · have : (oth s c).y = c.y := by exact_mod_cast e
      omega
    · exact_mod_cast e
  refine coin_of_oth hs ht es et (Pt.ext ((oth_x vs es).trans (oth_x vt et).symm) ?_)
  rcases h with ⟨h1, h2⟩ | ⟨h1, h2⟩
  · rcases le_total (oth s c).y (oth t c).y with h | h
    · exact key hs ht hc vs vt es et (Or.inl ⟨h1.2.2, h⟩)
    · exact (key ht hs (fun x => (hc x).symm) vt vs et es (Or.inl ⟨h2.2.2, h⟩)).symm
  · rcases le_total (oth s c).y (oth t c).y with h | h
    · exact (key ht hs (fun x => (hc x).symm) vt vs et es (Or.inr ⟨h2.2.2, h⟩)).symm
    · exact key hs ht hc vs vt es et (Or.inr ⟨h1.2.2, h⟩)

/-- Tested lines that have ends at one place. -/
theorem te_idx {s t : CSeg} {c : Pt} (hs : SOk s) (ht : SOk t) (h : Ct mk s t) (es : EndAt s c) (et : EndAt t c)
    (one : Nv s → Nv t → (s.pa = c ↔ t.pa = c)) (n1 : ¬ (Hi s c ∧ Lo t c)) (n2 : ¬ (Lo s c ∧ Hi t c)) : Eqm mk (idx s c) (idx t c) := by
  have co : ¬ Nv s → ¬ Nv t → Coin s t := by
    intro v1 v2
    have v1' : s.pa.x = s.pb.x := by by_contra e; exact v1 (hs.nv e)
    have v2' : t.pa.x = t.pb.x := by by_contra e; exact v2 (ht.nv e)
    refine vert_coin (c := c) hs ht h.1 ?_
    rcases hi_or_lo hs v1' es with a | a <;> rcases hi_or_lo ht v2' et with b | b
    · exact Or.inl ⟨a, b⟩
    · exact absurd ⟨a, b⟩ n1
    · exact absurd ⟨a, b⟩ n2
    · exact Or.inr ⟨a, b⟩
  have c1 : Nv s ∨ Nv t ∨ Coin s t := by
    by_cases a : Nv s
    · exact Or.inl a
    · by_cases b : Nv t
      · exact Or.inr (Or.inl b)
      · exact Or.inr (Or.inr (co a b))
  have c2 : ¬ (Nv s ∧ Nv t) → ¬ (Nv s ↔ Nv t) ∨ Coin s t := by
    intro hn
    by_cases a : Nv s
    · left; intro e; exact hn ⟨a, e.mp a⟩
    · by_cases b : Nv t
      · left; intro e; exact a (e.mpr b)
      · exact Or.inr (co a b)
  rcases es with e | e <;> rcases et with g | g
  · rw [idx_a e, idx_a g]; exact h.2.aa (e.trans g.symm) c1
  · rw [idx_a e, idx_b ht g]
    exact h.2.ab (e.trans g.symm) (c2 fun ⟨a, b⟩ => ht.ne (((one a b).mp e).trans g.symm))
  · rw [idx_b hs e, idx_a g]
    exact h.2.ba (e.trans g.symm) (c2 fun ⟨a, b⟩ => hs.ne (((one a b).mpr g).trans e.symm))
  · rw [idx_b hs e, idx_b ht g]; exact h.2.bb (e.trans g.symm) c1

/-! ### Lines at one place in a stack -/

section
variable {X : Int} {c : Pt}

theorem endAt_of {s : CSeg} (h : EndQ s c.x c.y) : EndAt s c := by
  rcases h with ⟨h1, h2⟩ | ⟨h1, h2⟩
  · exact Or.inl (Pt.ext (by exact_mod_cast h1.symm) (by exact_mod_cast h2.symm))
  · exact Or.inr (Pt.ext (by exact_mod_cast h1.symm) (by exact_mod_cast h2.symm))

theorem EndAt.endq {s : CSeg} (h : EndAt s c) : EndQ s c.x c.y := by
  rcases h with h | h
  · rw [← h]; exact endq_a s
  · rw [← h]; exact endq_b s

theorem Coin.endAt {s t : CSeg} (h : Coin s t) (he : EndAt s c) : EndAt t c := endAt_of ((h.endq _ _).mp he.endq)

/-- Height of a line with an end at the place: that of the place unless the line is vertical and ends there. -/
theorem height_at {s : CSeg} (hs : SOk s) (he : EndAt s c) :
    hAt s c.x = c.y ∨ (Dn s ∧ s.pb = c ∧ (c.y : Rat) < hAt s c.x) ∨ (Up s ∧ s.pb = c ∧ hAt s c.x < c.y) := by
  rcases kinds hs with k | k | k
  · left
    rcases he with h | h
    · rw [← h]; exact (on_nv_y k (on_a s)).symm
    · rw [← h]; exact (on_nv_y k (on_b s)).symm
  · rw [hAt_v k.1]
    rcases he with h | h
    · left; rw [h]
    · right; right; exact ⟨k, h, by rw [← h]; exact_mod_cast k.2⟩
  · rw [hAt_v k.1]
    rcases he with h | h
    · left; rw [h]
    · right; left; exact ⟨k, h, by rw [← h]; exact_mod_cast k.2⟩

/-- Neighbours in between. -/
theorem between_end {L : List CSeg} {u m w : CSeg} (hst : Stack c.x L) (hu : u ∈ L) (hm : m ∈ L) (hw : w ∈ L)
    (hum : sweepCmp u m = true) (hmw : sweepCmp m w = true) (h1 : hAt m c.x ≤ hAt u c.x) (h2 : hAt w c.x ≤ hAt m c.x)
    (cu : Cl u m) (cw : Cl w m) (eu : EndAt u c) (ew : EndAt w c) : EndAt m c := by
  have mu := hst.mid u hu
  have mm := hst.mid m hm
  have mw := hst.mid w hw
  rcases lt_trichotomy (hAt m c.x) c.y with h | h | h
  · -- below the place
    rcases height_at mw.ok ew with g | ⟨_, _, g⟩ | ⟨k, kb, g⟩
    · linarith
    · linarith
    rcases cw.cases with hc | hc
    · exact hc.endAt ew
    rw [hAt_v k.1] at h2 g
    have ow : On w c.x (hAt m c.x) := by
      rw [on_v k.1 (mw.ok.vy k.1)]
      exact ⟨by rw [k.1, kb], Or.inl ⟨h2, by rw [kb]; exact h.le⟩⟩
    have e := (hc _ _ _ le_rfl ow mm.on).1
    have e2 : hAt m c.x = w.pa.y := by
      rcases e with ⟨_, e⟩ | ⟨_, e⟩
      · exact e
      · rw [kb] at e; linarith
    have e3 : hAt m c.x = hAt w c.x := by rw [e2, hAt_v k.1]
    have kd := cmp_v mm mw (Or.inr k.1) hmw e3
    rw [vdir_up k] at kd
    have km := up_of_vdir mm.ok kd
    have ea : m.pa = w.pa := by
      refine Pt.ext ?_ ?_
      · have a1 := mm.vx km.1; have a2 := mw.vx k.1
        exact_mod_cast a1.trans a2.symm
      · rw [hAt_v km.1] at e2; exact_mod_cast e2
    right
    rw [same_up km k ea (mm.vx km.1) (cw.symm.alc _), kb]
  · -- at the place
    have om : On m c.x c.y := by rw [← h]; exact mm.on
    have ou : On u c.x c.y := end_on eu.endq
    exact endAt_of ((cu.alc c.x _ _ le_rfl ou om).end_iff.mp eu.endq)
  · rcases height_at mu.ok eu with g | ⟨k, kb, g⟩ | ⟨_, _, g⟩
    · linarith
    · rcases cu.cases with hc | hc
      · exact hc.endAt eu
      rw [hAt_v k.1] at h1 g
      have ow : On u c.x (hAt m c.x) := by
        rw [on_v k.1 (mu.ok.vy k.1)]
        exact ⟨by rw [k.1, kb], Or.inr ⟨by rw [kb]; exact h.le, h1⟩⟩
      have e := (hc _ _ _ le_rfl ow mm.on).1
      have e2 : hAt m c.x = u.pa.y := by
        rcases e with ⟨_, e⟩ | ⟨_, e⟩
        · exact e
        · rw [kb] at e; linarith
      have e3 : hAt u c.x = hAt m c.x := by rw [e2, hAt_v k.1]
      have kd := cmp_v mu mm (Or.inl k.1) hum e3
      rw [vdir_dn k] at kd
      have km := dn_of_vdir mm.ok kd
      have ea : u.pa = m.pa := by
        refine Pt.ext ?_ ?_
        · have a1 := mm.vx km.1; have a2 := mu.vx k.1
          exact_mod_cast a2.trans a1.symm
        · rw [hAt_v km.1] at e2; exact_mod_cast e2.symm
      right
      rw [← same_dn k km ea (mu.vx k.1) (cu.alc _), kb]
    · linarith

/-- Verticals above come first, those below last. -/
theorem lo_last {L : List CSeg} {u w : CSeg} (hst : Stack c.x L) (hu : u ∈ L) (hw : w ∈ L) (huw : sweepCmp u w = true) (h1 : hAt w c.x ≤ hAt u c.x)
    (ew : EndAt w c) (h : Lo u c) : Lo w c := by
  have mu := hst.mid u hu
  have mw := hst.mid w hw
  obtain ⟨v, eu, y⟩ := h
  rcases eu with e | e
  · -- starts at the place
    rw [oth_a e, ← e] at y
    have du : Dn u := ⟨v, y⟩
    have hu' : hAt u c.x = c.y := by rw [hAt_v v, e]
    rcases height_at mw.ok ew with g | ⟨_, _, g⟩ | ⟨k, kb, g⟩
    · have kd := cmp_v mu mw (Or.inl v) huw (hu'.trans g.symm)
      rw [vdir_dn du] at kd
      have kw := dn_of_vdir mw.ok kd
      have ea : w.pa = c := by
        rcases ew with ew | ew
        · exact ew
        · have := kw.2; rw [hAt_v kw.1] at g
          have : w.pa.y = c.y := by exact_mod_cast g
          rw [ew] at *; omega
      exact ⟨kw.1, Or.inl ea, by rw [oth_a ea, ← ea]; exact kw.2⟩
    · linarith
    · exact ⟨k.1, Or.inr kb, by rw [oth_b mw.ok kb, ← kb]; exact k.2⟩
  · rw [oth_b mu.ok e] at y
    have hu' : hAt u c.x < c.y := by rw [hAt_v v]; exact_mod_cast y
    rcases height_at mw.ok ew with g | ⟨_, _, g⟩ | ⟨k, kb, g⟩
    · linarith
    · linarith
    · exact ⟨k.1, Or.inr kb, by rw [oth_b mw.ok kb, ← kb]; exact k.2⟩

theorem hi_first {L : List CSeg} {u w : CSeg} (hst : Stack c.x L) (hu : u ∈ L) (hw : w ∈ L) (huw : sweepCmp u w = true) (h1 : hAt w c.x ≤ hAt u c.x)
    (eu : EndAt u c) (h : Hi w c) : Hi u c := by
  have mu := hst.mid u hu
  have mw := hst.mid w hw
  obtain ⟨v, ew, y⟩ := h
  rcases ew with e | e
  · rw [oth_a e, ← e] at y
    have du : Up w := ⟨v, y⟩
    have hw' : hAt w c.x = c.y := by rw [hAt_v v, e]
    rcases height_at mu.ok eu with g | ⟨k, kb, g⟩ | ⟨_, _, g⟩
    · have kd := cmp_v mu mw (Or.inr v) huw (g.trans hw'.symm)
      rw [vdir_up du] at kd
      have kw := up_of_vdir mu.ok kd
      have ea : u.pa = c := by
        rcases eu with eu | eu
        · exact eu
        · have := kw.2; rw [hAt_v kw.1] at g
          have : u.pa.y = c.y := by exact_mod_cast g
          rw [eu] at *; omega
      exact ⟨kw.1, Or.inl ea, by rw [oth_a ea, ← ea]; exact kw.2⟩
    · exact ⟨k.1, Or.inr kb, by rw [oth_b mu.ok kb, ← kb]; exact k.2⟩
    · linarith
  · rw [oth_b mw.ok e] at y
    have hw' : (c.y : Rat) < hAt w c.x := by rw [hAt_v v]; exact_mod_cast y
    rcases height_at mu.ok eu with g | ⟨k, kb, g⟩ | ⟨_, _, g⟩
    · linarith
    · exact ⟨k.1, Or.inr kb, by rw [oth_b mu.ok kb, ← kb]; exact k.2⟩
    · linarith

theorem hi_lo {s : CSeg} (h1 : Hi s c) (h2 : Lo s c) : False := by have := h1.2.2; have := h2.2.2; omega

/-- A run of lines from one with an end at the place to another. -/
theorem run_eqm {u w : CSeg} {m : List CSeg} (hst : Stack c.x (u :: m ++ [w])) (hct : (u :: m ++ [w]).IsChain (Ct mk))
    (hcl : ∀ s ∈ u :: m ++ [w], ∀ t ∈ u :: m ++ [w], s ≠ t → Cl s t)
    (one : ∀ s ∈ u :: m ++ [w], ∀ t ∈ u :: m ++ [w], Nv s → Nv t → EndAt s c → EndAt t c → (s.pa = c ↔ t.pa = c))
    (eu : EndAt u c) (ew : EndAt w c) (hn : ¬ (Hi u c ∧ Lo w c)) : Eqm mk (idx u c) (idx w c) := by
  induction m generalizing u with
  | nil =>
    have hc : Ct mk u w := by simpa using hct
    obtain ⟨m1, m2, h1, _, h3⟩ := Stack.pair (a := u) (b := w) (by simpa using hst)
    refine te_idx m1.ok m2.ok hc eu ew (fun a b => one u (by simp) w (by simp) a b eu ew) hn ?_
    rintro ⟨a, b⟩
    exact hi_lo b (lo_last hst (by simp) (by simp) h1 h3 ew a)
  | cons v m ih =>
    have hh := hst.heights
    have hso := hst.sorted
    simp only [List.cons_append, List.pairwise_cons] at hh hso
    have h1 := hh.1 v (by simp)
    have h2 := hh.2.1 w (by simp)
    have s1 := hso.1 v (by simp)
    have s2 := hso.2.1 w (by simp)
    have mu : u ∈ u :: v :: m ++ [w] := by simp
    have mv : v ∈ u :: v :: m ++ [w] := by simp
    have mw : w ∈ u :: v :: m ++ [w] := by simp
    have irr : ∀ {s t : CSeg}, sweepCmp s t = true → s ≠ t := by
      rintro s t h rfl
      have := C22_asymm _ _ h
      rw [this] at h; cases h
    have ev : EndAt v c := between_end hst mu mv mw s1 s2 h1 h2 (hcl u mu v mv (irr s1)) (hcl w mw v mv (irr s2).symm) eu ew
    have hc : Ct mk u v := by
      have := hct
      simp only [List.cons_append, List.isChain_cons_cons] at this
      exact this.1
    have q1 : Eqm mk (idx u c) (idx v c) := by
      refine te_idx (hst.mid u mu).ok (hst.mid v mv).ok hc eu ev (fun a b => one u mu v mv a b eu ev) ?_ ?_
      · rintro ⟨a, b⟩
        exact hn ⟨a, lo_last hst mv mw s2 h2 ew b⟩
      · rintro ⟨a, b⟩
        exact hi_lo b (lo_last hst mu mv s1 h1 ev a)
    refine q1.trans (ih (u := v) (by simpa using hst.tail) ?_ ?_ ?_ ev ?_)
    · have := hct
      simp only [List.cons_append, List.isChain_cons_cons] at this
      exact this.2
    · exact fun s hs t ht => hcl s (List.mem_cons_of_mem _ hs) t (List.mem_cons_of_mem _ ht)
    · exact fun s hs t ht => one s (List.mem_cons_of_mem _ hs) t (List.mem_cons_of_mem _ ht)
    · rintro ⟨a, b⟩
      exact hn ⟨hi_first hst mu mv s1 h1 eu a, b⟩

/-- Lines of a stack with ends at one place. -/
theorem stack_eqm {W : List CSeg} (hst : Stack c.x W) (hct : W.IsChain (Ct mk)) (hcl : ∀ s ∈ W, ∀ t ∈ W, s ≠ t → Cl s t)
    (one : ∀ s ∈ W, ∀ t ∈ W, Nv s → Nv t → EndAt s c → EndAt t c → (s.pa = c ↔ t.pa = c)) {s t : CSeg} (hs : s ∈ W) (ht : t ∈ W) (hne : s ≠ t)
    (es : EndAt s c) (et : EndAt t c) (h1 : ¬ (Hi s c ∧ Lo t c)) (h2 : ¬ (Lo s c ∧ Hi t c)) : Eqm mk (idx s c) (idx t c) := by
  have run : ∀ {s t : CSeg} {l1 m l2 : List CSeg}, W = l1 ++ (s :: m ++ [t]) ++ l2 → EndAt s c → EndAt t c → ¬ (Hi s c ∧ Lo t c) → Eqm mk (idx s c) (idx t c) := by
    rintro s t l1 m l2 rfl es et hn
    have sub : ∀ x ∈ s :: m ++ [t], x ∈ l1 ++ (s :: m ++ [t]) ++ l2 := fun x hx => List.mem_append_left _ (List.mem_append_right _ hx)
    exact run_eqm hst.infix hct.left_of_append.right_of_append (fun a ha b hb => hcl a (sub a ha) b (sub b hb)) (fun a ha b hb => one a (sub a ha) b (sub b hb)) es et hn
  rcases two_mem hs ht hne with ⟨l1, m, l2, e⟩ | ⟨l1, m, l2, e⟩
  · exact run e es et h1
  · exact (run e et es (fun ⟨a, b⟩ => h2 ⟨b, a⟩)).symm

end

/-! ### All lines -/

/-- What is known when nothing is left to do. -/
structure Settled (mk : Nat → Prop) (L : CSeg → Prop) : Prop where
  w : World L
  good : ∀ κ, ∃ W, CutList L κ W ∧ W.IsChain (OK mk L κ)
  fine : ∀ X, Fine L X

theorem J.settled {A : AS} (h : J mk A) (hall : ∀ c, A.L c → A.SA c ∧ A.EA c) : Settled mk A.L :=
  ⟨h.w, fun κ => h.good κ (fun c hc => ⟨fun _ => (hall c hc).1, fun _ => (hall c hc).2⟩), h.fine hall⟩

variable {L : CSeg → Prop} {c : Pt}

theorem Settled.cl (h : Settled mk L) {u v : CSeg} (hu : L u) (hv : L v) (hne : u ≠ v) : Cl u v := by
  by_cases hc : Coin u v
  · exact Cl.of_coin hc
  have lc : ∀ X Y, On u X Y → On v X Y → LC u v X Y := fun X Y h1 h2 => h.fine u.pb.x u v hu hv hne X Y ((on_x (h.w.ok u hu) h1).2) h1 h2
  refine Cl.of_sep (x := u.pb.x) (h.w.ok u hu) (fun X Y _ h1 h2 => ?_) le_rfl
  rcases lc X Y h1 h2 with g | ⟨_, _, g⟩ | g
  · exact g
  · exact absurd (over_coin g lc) hc
  · exact absurd g hc

theorem Settled.ct (h : Settled mk L) {X : Int} {r : Nat} (hr : r ≠ 2) {u v : CSeg} (hu : L u) (hv : L v) (hne : u ≠ v) (ho : OK mk L (cut X r) u v) :
    Ct mk u v := by
  rcases ho with ho | ⟨l, b, hg, _, su, sv, hc⟩ | ho | ⟨ho, _, hx⟩
  · exact ho
  · exact (exc1_false h.w hu hv hg (h.fine _) su sv hc).elim
  · exact absurd ho (pend_cut h.w hr)
  · have := over_cl ho (h.cl hu hv hne)
    rw [this] at hx
    omega

/-- Lines at one place that are in the sweep at once. -/
theorem Settled.near (h : Settled mk L) {r : Nat} (hr : r = 1 ∨ r = 3) {s t : CSeg} (hs : InCut L (cut c.x r) s) (ht : InCut L (cut c.x r) t) (hne : s ≠ t)
    (es : EndAt s c) (et : EndAt t c) (h1 : ¬ (Hi s c ∧ Lo t c)) (h2 : ¬ (Lo s c ∧ Hi t c)) : Eqm mk (idx s c) (idx t c) := by
  obtain ⟨W, hW, hc⟩ := h.good (cut c.x r)
  have hL : ∀ s ∈ W, L s := fun s hs => ((hW.mem s).mp hs).1
  have hin : ∀ s ∈ W, (Nv s ∧ s.pa.x ≤ c.x ∧ c.x ≤ s.pb.x ∧ (r = 1 → s.pa.x < c.x) ∧ (r = 3 → c.x < s.pb.x)) ∨ (s.pa.x = c.x ∧ s.pb.x = c.x) := by
    intro s hsW
    have hs' := (hW.mem s).mp hsW
    rcases hr with rfl | rfl
    · rcases ((incut1 (h.w.ok s (hL s hsW))).mp hs').2 with ⟨a, b, d⟩ | a
      · exact Or.inl ⟨a, b.le, d, fun _ => b, nofun⟩
      · exact Or.inr a
    · rcases ((incut3 (h.w.ok s (hL s hsW))).mp hs').2 with ⟨a, b, d⟩ | a
      · exact Or.inl ⟨a, b, d.le, nofun, fun _ => d⟩
      · exact Or.inr a
  have irr : ∀ {s t : CSeg}, sweepCmp s t = true → s ≠ t := by
    rintro s t h rfl
    have := C22_asymm _ _ h
    rw [this] at h; cases h
  have hcl : ∀ s ∈ W, ∀ t ∈ W, s ≠ t → Cl s t := fun s hs t ht => h.cl (hL s hs) (hL t ht)
  have nd : W.Pairwise (· ≠ ·) := hW.sorted.imp irr
  have hct : W.IsChain (Ct mk) := by
    rw [List.isChain_iff_forall_rel_of_append_cons_cons] at hc ⊢
    rintro a b l1 l2 e
    have hab : a ≠ b := by
      rw [e] at nd
      exact (List.pairwise_cons.mp (List.pairwise_append.mp nd).2.1).1 b (by simp)
    exact h.ct (by omega) (hL a (by rw [e]; simp)) (hL b (by rw [e]; simp)) hab (hc e)
  refine stack_eqm (W := W) ⟨fun s hs => ?_, fun s hs t ht n1 n2 => ?_, hW.sorted, chain_imp_mem hct (fun _ _ _ _ h => h.1.alc _)⟩ hct hcl ?_
    ((hW.mem s).mpr hs) ((hW.mem t).mpr ht) hne es et h1 h2
  · refine ⟨h.w.ok s (hL s hs), ?_, ?_⟩
    · have := hin s hs
      exact_mod_cast (by omega : s.pa.x ≤ c.x)
    · have := hin s hs
      exact_mod_cast (by omega : c.x ≤ s.pb.x)
  · have a1 := hin s hs
    have a2 := hin t ht
    unfold Nv at *
    omega
  · intro s hs t ht n1 n2 es et
    have a1 := hin s hs
    have a2 := hin t ht
    unfold Nv at *
    have b1 : s.pa = c → s.pa.x = c.x := fun e => by rw [e]
    have b2 : t.pa = c → t.pa.x = c.x := fun e => by rw [e]
    have b3 : s.pb = c → s.pb.x = c.x := fun e => by rw [e]
    have b4 : t.pb = c → t.pb.x = c.x := fun e => by rw [e]
    unfold EndAt at es et
    constructor
    · intro e; have := b1 e
      rcases et with et | et
      · exact et
      · have := b4 et; omega
    · intro e; have := b2 e
      rcases es with es | es
      · exact es
      · have := b3 es; omega

theorem oth_side {s : CSeg} (hs : SOk s) (he : EndAt s c) :
    ((oth s c).x < c.x ∧ s.pb = c ∧ s.pa.x < c.x) ∨ (c.x < (oth s c).x ∧ s.pa = c ∧ c.x < s.pb.x) ∨ ((oth s c).x = c.x ∧ s.pa.x = c.x ∧ s.pb.x = c.x) := by
  have := hs.le
  rcases he with e | e
  · rw [oth_a e]
    have ex : s.pa.x = c.x := by rw [e]
    rcases lt_trichotomy s.pb.x c.x with g | g | g
    · omega
    · exact Or.inr (Or.inr ⟨g, ex, g⟩)
    · exact Or.inr (Or.inl ⟨g, e, g⟩)
  · rw [oth_b hs e]
    have ex : s.pb.x = c.x := by rw [e]
    rcases lt_trichotomy s.pa.x c.x with g | g | g
    · exact Or.inl ⟨g, e, g⟩
    · exact Or.inr (Or.inr ⟨g, g, ex⟩)
    · omega

theorem in1 {s : CSeg} (hL : L s) (hs : SOk s) (he : EndAt s c) (h : ¬ c.x < (oth s c).x) : InCut L (cut c.x 1) s := by
  rw [incut1 hs]
  rcases oth_side hs he with ⟨_, b, d⟩ | ⟨a, _, _⟩ | ⟨_, b, d⟩
  · exact ⟨hL, Or.inl ⟨by unfold Nv; rw [b]; exact d, d, by rw [b]⟩⟩
  · exact absurd a h
  · exact ⟨hL, Or.inr ⟨b, d⟩⟩

theorem in3 {s : CSeg} (hL : L s) (hs : SOk s) (he : EndAt s c) (h : ¬ (oth s c).x < c.x) : InCut L (cut c.x 3) s := by
  rw [incut3 hs]
  rcases oth_side hs he with ⟨a, _, _⟩ | ⟨_, b, d⟩ | ⟨_, b, d⟩
  · exact absurd a h
  · exact ⟨hL, Or.inl ⟨by unfold Nv; rw [b]; exact d, by rw [b], d⟩⟩
  · exact ⟨hL, Or.inr ⟨b, d⟩⟩

theorem coin_oth {s t : CSeg} (hs : SOk s) (ht : SOk t) (es : EndAt s c) (h : Coin s t) : oth t c = oth s c := by
  rcases h with ⟨a, b⟩ | ⟨a, b⟩ <;> rcases es with e | e
  · rw [oth_a e, oth_a (a.symm.trans e), b]
  · rw [oth_b hs e, oth_b ht (b.symm.trans e), a]
  · rw [oth_a e, oth_b ht (a.symm.trans e), b]
  · rw [oth_b hs e, oth_a (b.symm.trans e), a]

/-- Where a point is not marked, the other lines at the place do not separate its lines. -/
theorem Settled.unmarked (h : Settled mk L) {s1 s2 t : CSeg} (l1 : L s1) (l2 : L s2) (lt : L t) (e1 : EndAt s1 c) (e2 : EndAt s2 c) (et : EndAt t c)
    (h12 : s1 ≠ s2) {v : Nat} (i1 : idx s1 c = v) (i2 : idx s2 c = v) (it : idx t c ≠ v) (hv : ¬ mk v) :
    ((oth s1 c).x < c.x ∧ (oth s2 c).x < c.x ∧ ¬ (oth t c).x < c.x) ∨ (c.x < (oth s1 c).x ∧ c.x < (oth s2 c).x ∧ ¬ c.x < (oth t c).x) ∨
      ((oth s1 c).x = c.x ∧ oth s2 c = oth s1 c ∧ ¬ Coin t s1) := by
  have o1 := h.w.ok _ l1
  have o2 := h.w.ok _ l2
  have ot := h.w.ok _ lt
  have bad : ∀ s, idx s c = v → ¬ Eqm mk (idx s c) (idx t c) := by
    rintro s hi (q | q)
    · exact it (q.symm.trans hi)
    · rw [hi] at q; exact hv q.1
  have ne : ∀ s, idx s c = v → s ≠ t := by rintro s hi rfl; exact it hi
  have n1 : ∀ s, L s → SOk s → EndAt s c → idx s c = v → ¬ c.x < (oth s c).x → ¬ c.x < (oth t c).x → ¬ (Hi s c ∧ Lo t c) → ¬ (Lo s c ∧ Hi t c) → False :=
    fun s a1 a2 a3 a4 a5 a6 a7 a8 => bad s a4 (h.near (Or.inl rfl) (in1 a1 a2 a3 a5) (in1 lt ot et a6) (ne s a4) a3 et a7 a8)
  have n3 : ∀ s, L s → SOk s → EndAt s c → idx s c = v → ¬ (oth s c).x < c.x → ¬ (oth t c).x < c.x → ¬ (Hi s c ∧ Lo t c) → ¬ (Lo s c ∧ Hi t c) → False :=
    fun s a1 a2 a3 a4 a5 a6 a7 a8 => bad s a4 (h.near (Or.inr rfl) (in3 a1 a2 a3 a5) (in3 lt ot et a6) (ne s a4) a3 et a7 a8)
  have hx : ∀ {s : CSeg}, Hi s c → (oth s c).x = c.x := fun h => oth_x h.1 h.2.1
  have lx : ∀ {s : CSeg}, Lo s c → (oth s c).x = c.x := fun h => oth_x h.1 h.2.1
  rcases lt_trichotomy (oth t c).x c.x with d | d | d
  · right; left
    refine ⟨?_, ?_, by omega⟩
    · by_contra q
      exact n1 s1 l1 o1 e1 i1 q (by omega) (fun k => by have := lx k.2; omega) (fun k => by have := hx k.2; omega)
    · by_contra q
      exact n1 s2 l2 o2 e2 i2 q (by omega) (fun k => by have := lx k.2; omega) (fun k => by have := hx k.2; omega)
  · right; right
    have vert : ∀ s, L s → SOk s → EndAt s c → idx s c = v → (oth s c).x = c.x ∧ ((Hi s c ∧ Lo t c) ∨ (Lo s c ∧ Hi t c)) := by
      intro s a1 a2 a3 a4
      have g1 : ¬ (oth s c).x < c.x := fun q => n1 s a1 a2 a3 a4 (by omega) (by omega) (fun k => by have := hx k.1; omega) (fun k => by have := lx k.1; omega)
      have g2 : ¬ c.x < (oth s c).x := fun q => n3 s a1 a2 a3 a4 (by omega) (by omega) (fun k => by have := hx k.1; omega) (fun k => by have := lx k.1; omega)
      refine ⟨by omega, ?_⟩
      by_contra q
      push Not at q
      exact n1 s a1 a2 a3 a4 (by omega) (by omega) (fun k => q.1 k.1 k.2) (fun k => q.2 k.1 k.2)
    obtain ⟨x1, y1⟩ := vert s1 l1 o1 e1 i1
    obtain ⟨_, y2⟩ := vert s2 l2 o2 e2 i2
    have both : (Hi s1 c ∧ Hi s2 c) ∨ (Lo s1 c ∧ Lo s2 c) := by
      rcases y1 with ⟨a, b⟩ | ⟨a, b⟩ <;> rcases y2 with ⟨a', b'⟩ | ⟨a', b'⟩
      · exact Or.inl ⟨a, a'⟩
      · exact (hi_lo b' b).elim
      · exact (hi_lo b b').elim
      · exact Or.inr ⟨a, a'⟩
    refine ⟨x1, coin_oth o1 o2 e1 (vert_coin o1 o2 (h.cl l1 l2 h12) both), fun q => ?_⟩
    have e := coin_oth ot o1 et q
    rcases y1 with ⟨a, b⟩ | ⟨a, b⟩
    · have := a.2.2; have := b.2.2; rw [e] at *; omega
    · have := a.2.2; have := b.2.2; rw [e] at *; omega
  · left
    refine ⟨?_, ?_, by omega⟩
    · by_contra q
      exact n3 s1 l1 o1 e1 i1 q (by omega) (fun k => by have := lx k.2; omega) (fun k => by have := hx k.2; omega)
    · by_contra q
      exact n3 s2 l2 o2 e2 i2 q (by omega) (fun k => by have := lx k.2; omega) (fun k => by have := hx k.2; omega)

/-! ### Points and their lines -/

/-- A line with its node. -/
theorem line_node {f : Sweep.Clip} (h : Sweep.Inv0 f) {i : Nat} (hi : i < f.np) : ∃ n, f.Live n ∧
    (((f.cseg n).a = i ∧ (f.cseg n).b = (f.lp i).next ∧ (f.cseg n).pa = (f.line i).p ∧ (f.cseg n).pb = (f.line i).q) ∨
     ((f.cseg n).a = (f.lp i).next ∧ (f.cseg n).b = i ∧ (f.cseg n).pa = (f.line i).q ∧ (f.cseg n).pb = (f.line i).p)) := by
  obtain ⟨n, hn, hs⟩ := h.has i hi
  refine ⟨n, hn, ?_⟩
  unfold Sweep.Clip.cseg Sweep.Clip.line
  rw [hs]
  unfold Sweep.Clip.lineSeg
  split
  · right; exact ⟨rfl, rfl, rfl, rfl⟩
  · left; exact ⟨rfl, rfl, rfl, rfl⟩

theorem node_q {u : CSeg} {i j : Nat} {p q : Pt} (hu : SOk u)
    (h : (u.a = i ∧ u.b = j ∧ u.pa = p ∧ u.pb = q) ∨ (u.a = j ∧ u.b = i ∧ u.pa = q ∧ u.pb = p)) : EndAt u q ∧ idx u q = j ∧ oth u q = p := by
  rcases h with ⟨_, b, e, g⟩ | ⟨a, _, e, g⟩
  · exact ⟨Or.inr g, (idx_b hu g).trans b, (oth_b hu g).trans e⟩
  · exact ⟨Or.inl e, (idx_a e).trans a, (oth_a e).trans g⟩

theorem node_p {u : CSeg} {i j : Nat} {p q : Pt} (hu : SOk u)
    (h : (u.a = i ∧ u.b = j ∧ u.pa = p ∧ u.pb = q) ∨ (u.a = j ∧ u.b = i ∧ u.pa = q ∧ u.pb = p)) : EndAt u p ∧ idx u p = i ∧ oth u p = q :=
  node_q hu (by rcases h with ⟨a, b, e, g⟩ | ⟨a, b, e, g⟩; exacts [Or.inr ⟨a, b, e, g⟩, Or.inl ⟨a, b, e, g⟩])

end PolyOps.Planarity
