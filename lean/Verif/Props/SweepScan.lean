import Verif.Lemmas.SweepScan

/-! Property C29: the second sweep classifies every line that needs it, from exactly the lines that touch the vertical
through its start. With C18 and C20: the classification is that of the winding numbers beside the line. -/
namespace PolyOps.Sweep
open PolyOps PolyOps.Events

/-! ### Order of the tests -/

theorem check_hits (l : Line) (L : List Line) : ∀ b : LineBal, (L.foldl (LineBal.check l) b).hits =
    b.hits ++ (L.filter fun s => decide (s.idx ≠ l.idx) && upRay s.sa s.sb l.p (hsignOf l.delta) l.delta (decide (s.idx > l.idx))).map Line.idx := by
  induction L with
  | nil => intro b; simp
  | cons s L ih =>
    intro b
    rw [List.foldl_cons, ih]
    unfold LineBal.check
    by_cases c1 : s.idx ≠ l.idx
    · by_cases c2 : upRay s.sa s.sb l.p (hsignOf l.delta) l.delta (decide (s.idx > l.idx)) = true
      · rw [if_pos c1, if_pos c2, List.filter_cons_of_pos (by rw [c2]; simp [c1])]
        simp
      · rw [if_pos c1, if_neg c2, List.filter_cons_of_neg (by simp [c2])]
    · rw [if_neg c1, List.filter_cons_of_neg (by simp [c1])]

/-- The order of the tested lines does not matter. -/
theorem lineBal_perm (l : Line) {L M : List Line} (h : L.Perm M) :
    (lineBal l L).wn = (lineBal l M).wn ∧ (lineBal l L).hits.Perm (lineBal l M).hits := by
  constructor
  · have e : ∀ k, (lineBal l L).wn.get k = (lineBal l M).wn.get k := by
      intro k; rw [lineBal_get, lineBal_get, (h.map _).sum_eq]
    have e1 := e .subject
    have e2 := e .clip
    cases h1 : (lineBal l L).wn
    cases h2 : (lineBal l M).wn
    rw [h1, h2] at e1 e2
    simp only [Wn.get] at e1 e2
    rw [e1, e2]
  · unfold lineBal
    rw [check_hits, check_hits]
    exact List.Perm.append_left _ ((h.filter _).map _)

/-! ### Invariant -/

/-- The balance of point `i` from the lines that touch the vertical through it. -/
def Clip.balance (f : Clip) (i : Nat) : LineBal := lineBal (f.line i) ((f.touching (f.x i)).map f.line)

/-- Point `i` was the first point of a passed event. -/
def Passed (E : List Ev) (i : Nat) : Prop := ∃ e ∈ E, e.del = false ∧ e.a = i

structure Inv2 (f : Clip) (op : BoolOp) (s : Clip) (r : List (Nat × List Nat)) : Prop where
  same : Same f s
  cur_lo : -1 ≤ s.q.cur
  cur_hi : s.q.cur < f.q.events.length
  nodup : s.sweep.Nodup
  mem : ∀ n, n ∈ s.sweep ↔ f.Live n ∧ (n, true) ∈ nt (f.q.events.take (s.q.cur + 1).toNat) ∧
    (n, false) ∉ nt (f.q.events.take (s.q.cur + 1).toNat)
  st_done : ∀ i, (f.lp i).state = .check → Passed (f.q.events.take (s.q.cur + 1).toNat) i →
    (s.lp i).state = .res (lbResult op (f.lp i).set (f.balance i).wn)
  st_todo : ∀ i, ¬ ((f.lp i).state = .check ∧ Passed (f.q.events.take (s.q.cur + 1).toNat) i) → (s.lp i).state = (f.lp i).state
  smp_nodup : (r.map Prod.fst).Nodup
  smp_mem : ∀ i, i ∈ r.map Prod.fst ↔ (f.lp i).state = .check ∧ Passed (f.q.events.take (s.q.cur + 1).toNat) i
  smp_hits : ∀ p ∈ r, p.2.Perm (f.balance p.1).hits

theorem inv2_init {f : Clip} (hf : Fin f) (op : BoolOp) : Inv2 f op { f with q := f.q.rewind, sweep := [] } [] := by
  refine ⟨⟨fun _ => rfl, fun _ => rfl, fun _ => rfl, rfl, rfl, rfl, rfl, hf.news, hf.last⟩, le_rfl, ?_, List.nodup_nil, ?_, ?_, ?_,
    by simp, ?_, by simp⟩
  · show (-1 : Int) < _; omega
  · intro n; simp [Queue.rewind, nt]
  · rintro i _ ⟨e, he, _⟩; simp [Queue.rewind] at he
  · intro i _; rfl
  · intro i
    simp only [List.map_nil, List.not_mem_nil, false_iff, not_and]
    rintro _ ⟨e, he, _⟩; simp [Queue.rewind] at he

/-- `scan` of one point when the tested lines are those touching the vertical through it. -/
theorem scan_spec {f : Clip} (op : BoolOp) {t : Clip} (hs : Same f t) {i : Nat} (hp : t.scanned.Perm (f.touching (f.x i))) :
    ((t.lp i).state = .check → (t.scan op i).1 = { t with lp := setFn t.lp i { t.lp i with state := .res (lbResult op (f.lp i).set (f.balance i).wn) } } ∧
      ∃ h, (t.scan op i).2 = [(i, h)] ∧ h.Perm (f.balance i).hits) ∧
    ((t.lp i).state ≠ .check → t.scan op i = (t, [])) := by
  constructor
  · intro hc
    obtain ⟨e1, e2⟩ := lineBal_perm (f.line i) (hp.map f.line)
    unfold Clip.scan
    rw [if_pos hc]
    simp only
    rw [hs.line, hs.set, e1]
    exact ⟨rfl, _, rfl, e2⟩
  · intro hc
    unfold Clip.scan
    rw [if_neg hc]

theorem setFn_fields {g : Nat → LP} {i k : Nat} {st : Base} : (setFn g i { g i with state := st } k).data = (g k).data ∧
    (setFn g i { g i with state := st } k).next = (g k).next ∧ (setFn g i { g i with state := st } k).set = (g k).set := by
  unfold setFn
  split
  · rename_i h; rw [h]; exact ⟨rfl, rfl, rfl⟩
  · exact ⟨rfl, rfl, rfl⟩

/-- The scan of the current event keeps states and samples right. -/
theorem scan_inv {f : Clip} {op : BoolOp} {s : Clip} {r : List (Nat × List Nat)} {E1 E2 : List Ev} {e : Ev}
    (h : Inv2 f op s r) (hE1 : f.q.events.take (s.q.cur + 1).toNat = E1) (hdel : e.del = false)
    {t : Clip} (ht : Same f t) (hlp : t.lp = s.lp) (hp : t.scanned.Perm (f.touching (f.x e.a))) :
    let u := (t.scan op e.a).1
    let r' := (t.scan op e.a).2
    Same f u ∧ u.q = t.q ∧ u.sweep = t.sweep ∧
    (∀ i, (f.lp i).state = .check → Passed (E1 ++ [e]) i → (u.lp i).state = .res (lbResult op (f.lp i).set (f.balance i).wn)) ∧
    (∀ i, ¬ ((f.lp i).state = .check ∧ Passed (E1 ++ [e]) i) → (u.lp i).state = (f.lp i).state) ∧
    ((r ++ r').map Prod.fst).Nodup ∧
    (∀ i, i ∈ (r ++ r').map Prod.fst ↔ (f.lp i).state = .check ∧ Passed (E1 ++ [e]) i) ∧
    ∀ p ∈ r ++ r', p.2.Perm (f.balance p.1).hits := by
  have pass : ∀ i, Passed (E1 ++ [e]) i ↔ Passed E1 i ∨ e.a = i := by
    intro i
    unfold Passed
    constructor
    · rintro ⟨g, g1, g2, g3⟩
      rcases List.mem_append.mp g1 with g1 | g1
      · exact Or.inl ⟨g, g1, g2, g3⟩
      · simp only [List.mem_singleton] at g1
        exact Or.inr (g1 ▸ g3)
    · rintro (⟨g, g1, g2, g3⟩ | h)
      · exact ⟨g, List.mem_append_left _ g1, g2, g3⟩
      · exact ⟨e, by simp, hdel, h⟩
  have done := h.st_done
  have todo := h.st_todo
  have smem := h.smp_mem
  rw [hE1] at done todo smem
  obtain ⟨sc1, sc2⟩ := scan_spec op ht hp
  by_cases hc : (t.lp e.a).state = .check
  · obtain ⟨u1, hh, u2, u3⟩ := sc1 hc
    simp only
    rw [u1, u2]
    have hc' : (f.lp e.a).state = .check ∧ ¬ Passed E1 e.a := by
      rw [hlp] at hc
      by_cases c : (f.lp e.a).state = .check ∧ Passed E1 e.a
      · rw [done _ c.1 c.2] at hc; cases hc
      · have := todo _ c
        rw [hc] at this
        exact ⟨this.symm, fun hp => c ⟨this.symm, hp⟩⟩
    refine ⟨⟨?_, ?_, ?_, ht.np, ht.seg, ht.nn, ht.events, ht.news, ht.last⟩, rfl, rfl, ?_, ?_, ?_, ?_, ?_⟩
    · intro i; exact setFn_fields.1.trans (ht.data i)
    · intro i; exact setFn_fields.2.1.trans (ht.next i)
    · intro i; exact setFn_fields.2.2.trans (ht.set i)
    · intro i h1 h2
      show (setFn t.lp e.a _ i).state = _
      unfold setFn
      by_cases c : i = e.a
      · rw [if_pos c, c]
      · rw [if_neg c, hlp]
        exact done i h1 (((pass i).mp h2).resolve_right (fun hh => c hh.symm))
    · intro i h1
      show (setFn t.lp e.a _ i).state = _
      have c : i ≠ e.a := by
        rintro rfl; exact h1 ⟨hc'.1, (pass _).mpr (Or.inr rfl)⟩
      unfold setFn
      rw [if_neg c, hlp]
      exact todo i (fun hh => h1 ⟨hh.1, (pass i).mpr (Or.inl hh.2)⟩)
    · rw [List.map_append, List.nodup_append]
      refine ⟨h.smp_nodup, by simp, ?_⟩
      rintro a ha b hb rfl
      simp only [List.map_cons, List.map_nil, List.mem_singleton] at hb
      subst hb
      exact hc'.2 ((smem _).mp ha).2
    · intro i
      rw [List.map_append, List.mem_append, smem, pass]
      simp only [List.map_cons, List.map_nil, List.mem_singleton]
      constructor
      · rintro (⟨h1, h2⟩ | rfl)
        · exact ⟨h1, Or.inl h2⟩
        · exact ⟨hc'.1, Or.inr rfl⟩
      · rintro ⟨h1, h2 | h2⟩
        · exact Or.inl ⟨h1, h2⟩
        · exact Or.inr h2.symm
    · intro p hp
      rcases List.mem_append.mp hp with hp | hp
      · exact h.smp_hits p hp
      · simp only [List.mem_singleton] at hp
        rw [hp]; exact u3
  · rw [sc2 hc]
    simp only [List.append_nil]
    rw [hlp] at hc
    have hc' : (f.lp e.a).state = .check → Passed E1 e.a := by
      intro h1
      by_contra h2
      exact hc ((todo _ (fun hh => h2 hh.2)).trans h1)
    refine ⟨ht, trivial, trivial, ?_, ?_, h.smp_nodup, ?_, h.smp_hits⟩
    · intro i h1 h2
      rw [hlp]
      rcases (pass i).mp h2 with h3 | h3
      · exact done i h1 h3
      · subst h3; exact done _ h1 (hc' h1)
    · intro i h1
      rw [hlp]
      exact todo i (fun hh => h1 ⟨hh.1, (pass i).mpr (Or.inl hh.2)⟩)
    · intro i
      rw [smem, pass]
      constructor
      · rintro ⟨h1, h2⟩; exact ⟨h1, Or.inl h2⟩
      · rintro ⟨h1, h2 | h2⟩
        · exact ⟨h1, h2⟩
        · subst h2; exact ⟨h1, hc' h1⟩

/-- One iteration of the second sweep. -/
theorem step2_spec {env : Env} {f : Clip} (hf : Fin f) {op : BoolOp} {s : Clip} {r : List (Nat × List Nat)} (h : Inv2 f op s r)
    (hm : s.q.more = true) : ∃ e q t r', s.q.next s.x = some (e, true, q) ∧ s.step2 env op = some (t, r') ∧ Inv2 f op t (r ++ r') ∧
      (e.del = false → e.ty.isFwd = true → ∃ u, ({ s with q := q } : Clip).insert env e.node = some u ∧ u.scanned.Perm (f.touching (f.x e.a))) ∧
      (e.del = false → e.ty.isFwd = false → ({ s with q := q } : Clip).scanned.Perm (f.touching (f.x e.a))) := by
  have hmore : s.q.cur + 1 < f.q.events.length := by
    unfold Queue.more at hm
    rw [h.same.news, h.same.events] at hm
    simpa using hm
  have hlo := h.cur_lo
  obtain ⟨k, hk⟩ : ∃ k : Nat, s.q.cur + 1 = k := ⟨(s.q.cur + 1).toNat, by omega⟩
  have hkl : k < f.q.events.length := by omega
  set e := f.q.events[k] with he
  set q : Queue := { s.q with cur := s.q.cur + 1 } with hq
  have hnext : s.q.next s.x = some (e, true, q) := by
    unfold Queue.next
    rw [h.same.news]
    simp only
    rw [if_neg (by rw [h.same.events, h.same.last]; omega)]
    unfold Queue.advance
    have hg : s.q.events[(s.q.cur + 1).toNat]? = some e := by
      rw [h.same.events, hk]
      exact List.getElem?_eq_getElem hkl
    rw [hg]; rfl
  set E1 := f.q.events.take k with hE1
  set E2 := f.q.events.drop (k + 1) with hE2
  have hev : f.q.events = E1 ++ e :: E2 := by
    rw [hE1, hE2, he, List.cons_getElem_drop_succ, List.take_append_drop]
  have hE1l : E1.length = k := by rw [hE1, List.length_take]; omega
  have hE1' : f.q.events.take (s.q.cur + 1).toNat = E1 := by rw [hk]; rfl
  have hE1e : f.q.events.take (q.cur + 1).toNat = E1 ++ [e] := by
    show f.q.events.take (s.q.cur + 1 + 1).toNat = _
    rw [hk, show ((k : Int) + 1).toNat = k + 1 by omega, List.take_succ_eq_append_getElem hkl]
  have hee : e ∈ f.q.events := List.getElem_mem hkl
  have same' : Same f { s with q := q } := ⟨h.same.data, h.same.next, h.same.set, h.same.np, h.same.seg, h.same.nn, h.same.events,
    h.same.news, h.same.last⟩
  have hmem := h.mem
  rw [hE1'] at hmem
  have hcur : q.cur = E1.length := by rw [hE1l]; exact hk
  have pass0 : e.del = true → ∀ i, Passed (E1 ++ [e]) i ↔ Passed E1 i := by
    intro hd i
    unfold Passed
    constructor
    · rintro ⟨g, g1, g2, g3⟩
      rcases List.mem_append.mp g1 with g1 | g1
      · exact ⟨g, g1, g2, g3⟩
      · simp only [List.mem_singleton] at g1
        rw [g1, hd] at g2; cases g2
    · rintro ⟨g, g1, g2, g3⟩; exact ⟨g, List.mem_append_left _ g1, g2, g3⟩
  have done := h.st_done
  have todo := h.st_todo
  have smem := h.smp_mem
  rw [hE1'] at done todo smem
  have ntnd : (nt f.q.events).Nodup := hf.nt_nodup
  rw [hev, nt_append] at ntnd
  have notin : e.nt ∉ nt E1 := by
    intro hc
    exact (List.nodup_append.mp ntnd).2.2 _ hc _ (List.mem_cons_self) rfl
  have hsrt := hf.srt
  rw [hev] at hsrt
  unfold Sorted at hsrt
  rw [List.pairwise_append] at hsrt
  have inE1 : ∀ a ∈ E1, a ∈ f.q.events := fun a ha => by rw [hev]; exact List.mem_append_left _ ha
  refine ⟨e, q, ?_⟩
  unfold Clip.step2
  rw [hnext]
  simp only [Option.bind_some, Bool.true_eq_false, if_false]
  by_cases hdel : e.del = true
  · refine ⟨{ s with q := q }, [], trivial, by rw [if_pos hdel], ?_, fun h => (by rw [hdel] at h; cases h), fun h => (by rw [hdel] at h; cases h)⟩
    rw [List.append_nil]
    have nl : ¬ f.Live e.node := by
      intro hl; rw [(hf.dead_iff e hee).mpr hl] at hdel; cases hdel
    refine ⟨same', by show -1 ≤ s.q.cur + 1; omega, hmore, h.nodup, ?_, ?_, ?_, h.smp_nodup, ?_, h.smp_hits⟩
    · intro n
      show n ∈ s.sweep ↔ _ ∧ _ ∈ nt (f.q.events.take (q.cur + 1).toNat) ∧ _ ∉ nt (f.q.events.take (q.cur + 1).toNat)
      rw [hmem, hE1e, nt_append]
      have : ∀ b, f.Live n → ¬ (n, b) ∈ nt [e] := by
        intro b hl hc
        have hc : (n, b) = e.nt := by simpa [nt] using hc
        have : n = e.node := congrArg Prod.fst hc
        exact nl (this ▸ hl)
      simp only [List.mem_append, not_or]
      constructor
      · rintro ⟨h1, h2, h3⟩; exact ⟨h1, Or.inl h2, h3, this _ h1⟩
      · rintro ⟨h1, h2, h3, _⟩; exact ⟨h1, h2.resolve_right (this _ h1), h3⟩
    · intro i h1 h2
      change Passed (f.q.events.take (q.cur + 1).toNat) i at h2
      rw [hE1e, pass0 hdel] at h2
      exact done i h1 h2
    · intro i h1
      change ¬ (_ ∧ Passed (f.q.events.take (q.cur + 1).toNat) i) at h1
      rw [hE1e, pass0 hdel] at h1
      exact todo i h1
    · intro i
      show _ ↔ _ ∧ Passed (f.q.events.take (q.cur + 1).toNat) i
      rw [hE1e, pass0 hdel]
      exact smem i
  · have hdel' : e.del = false := by simpa using hdel
    have hlive := (hf.dead_iff e hee).mp hdel'
    cases hty : e.ty.isFwd with
    | true =>
      have hnt : e.nt = (e.node, true) := by unfold Ev.nt; rw [hty]
      have nB : (e.node, false) ∉ nt E1 := by
        intro hc
        obtain ⟨g, g1, g2⟩ := mem_nt.mp hc
        have l1 : less f.x e g = true := hf.fwd_lt hee (inE1 g g1) hnt g2
        have l2 := hsrt.2.2 g g1 e (by simp)
        rw [C21_asymm f.x l1] at l2; cases l2
      have nin : e.node ∉ s.sweep := by
        intro hc; exact notin (hnt ▸ ((hmem _).mp hc).2.1)
      obtain ⟨nd, mm⟩ := insert_nodup h.nodup nin (min (env.pos ({ s with q := q } : Clip) e.node) s.sweep.length) (min_le_right _ _)
      set u : Clip := { s with q := q, sweep := s.sweep.insertIdx (min (env.pos ({ s with q := q } : Clip) e.node) s.sweep.length) e.node, clock := s.clock + 1 } with hu
      have hins : ({ s with q := q } : Clip).insert env e.node = some u := by
        unfold Clip.insert
        rw [if_neg nin]
      have su : Same f u := ⟨h.same.data, h.same.next, h.same.set, h.same.np, h.same.seg, h.same.nn, h.same.events, h.same.news, h.same.last⟩
      have mids : ∀ n, n ∈ u.sweep ↔ f.Live n ∧ (n, true) ∈ nt (E1 ++ [e]) ∧ (n, false) ∉ nt E1 := by
        intro n
        show n ∈ s.sweep.insertIdx _ e.node ↔ _
        rw [mm, hmem, nt_append, List.mem_append]
        by_cases c : n = e.node
        · subst c
          simp only [true_or, true_iff]
          exact ⟨hlive, Or.inr (by simp [nt, hnt]), nB⟩
        · simp [c, nt, hnt]
      have hperm := scanned_perm hf su hev hcur ⟨nd, mids⟩
      obtain ⟨g1, g2, g3, g4, g5, g6, g7, g8⟩ := scan_inv (E2 := E2) h hE1' hdel' su rfl hperm
      refine ⟨(u.scan op e.a).1, (u.scan op e.a).2, trivial, ?_, ?_, fun _ _ => ⟨u, hins, hperm⟩, fun _ h => (by cases h)⟩
      · rw [if_neg hdel, hins]; rfl
      · refine ⟨g1, by rw [g2]; show -1 ≤ s.q.cur + 1; omega, by rw [g2]; exact hmore, by rw [g3]; exact nd, ?_, ?_, ?_, g6, ?_, g8⟩
        · intro n
          rw [g2, g3, mids]
          show _ ↔ _ ∧ _ ∈ nt (f.q.events.take (q.cur + 1).toNat) ∧ _ ∉ nt (f.q.events.take (q.cur + 1).toNat)
          rw [hE1e, nt_append]
          simp [nt, hnt]
        · rw [g2]
          show ∀ i, _ → Passed (f.q.events.take (q.cur + 1).toNat) i → _
          rw [hE1e]; exact g4
        · rw [g2]
          show ∀ i, ¬ (_ ∧ Passed (f.q.events.take (q.cur + 1).toNat) i) → _
          rw [hE1e]; exact g5
        · rw [g2]
          show ∀ i, _ ↔ _ ∧ Passed (f.q.events.take (q.cur + 1).toNat) i
          rw [hE1e]; exact g7
    | false =>
      have hnt : e.nt = (e.node, false) := by unfold Ev.nt; rw [hty]
      have inF : (e.node, true) ∈ nt E1 := by
        obtain ⟨g, g1, g2⟩ := mem_nt.mp (hf.ev_ex e.node true hlive.1 hlive.2.1)
        have l1 : less f.x g e = true := hf.fwd_lt g1 hee g2 hnt
        rw [hev] at g1
        rcases List.mem_append.mp g1 with g1 | g1
        · exact mem_nt.mpr ⟨g, g1, g2⟩
        · exfalso
          rcases List.mem_cons.mp g1 with rfl | g1
          · rw [C21_irrefl] at l1; cases l1
          · have l2 := (List.pairwise_cons.mp hsrt.2.1).1 g g1
            rw [C21_asymm f.x l2] at l1; cases l1
      have mids : ∀ n, n ∈ s.sweep ↔ f.Live n ∧ (n, true) ∈ nt (E1 ++ [e]) ∧ (n, false) ∉ nt E1 := by
        intro n
        rw [hmem, nt_append, List.mem_append]
        simp [nt, hnt]
      have hperm := scanned_perm hf same' hev hcur ⟨h.nodup, mids⟩
      obtain ⟨g1, g2, g3, g4, g5, g6, g7, g8⟩ := scan_inv (E2 := E2) h hE1' hdel' same' rfl hperm
      set v := (({ s with q := q } : Clip).scan op e.a).1 with hv
      have cin : e.node ∈ v.sweep := by
        rw [g3]
        exact (hmem _).mpr ⟨hlive, inF, hnt ▸ notin⟩
      refine ⟨{ v with sweep := v.sweep.erase e.node }, (({ s with q := q } : Clip).scan op e.a).2, trivial, ?_, ?_,
        fun _ h => (by cases h), fun _ _ => hperm⟩
      · rw [if_neg hdel]
        simp only [Bool.false_eq_true, if_false]
        have hers : v.erase e.node = some { v with sweep := v.sweep.erase e.node } := by
          unfold Clip.erase; rw [if_pos cin]
        show Option.map _ (v.erase e.node) = _
        rw [hers]; rfl
      · refine ⟨⟨g1.data, g1.next, g1.set, g1.np, g1.seg, g1.nn, g1.events, g1.news, g1.last⟩,
          by show -1 ≤ v.q.cur; rw [g2]; show -1 ≤ s.q.cur + 1; omega, by show v.q.cur < _; rw [g2]; exact hmore,
          by show (v.sweep.erase e.node).Nodup; rw [g3]; exact h.nodup.erase _, ?_, ?_, ?_, g6, ?_, g8⟩
        · intro n
          show n ∈ v.sweep.erase e.node ↔ _ ∧ _ ∈ nt (f.q.events.take (v.q.cur + 1).toNat) ∧ _ ∉ nt (f.q.events.take (v.q.cur + 1).toNat)
          rw [g2, g3]
          show n ∈ s.sweep.erase e.node ↔ _ ∧ _ ∈ nt (f.q.events.take (q.cur + 1).toNat) ∧ _ ∉ nt (f.q.events.take (q.cur + 1).toNat)
          rw [h.nodup.mem_erase_iff, hmem, hE1e, nt_append]
          simp only [nt, List.map_cons, List.map_nil, hnt, List.mem_append, List.mem_singleton, Prod.mk.injEq, Bool.true_eq_false,
            and_false, or_false, and_true, not_or]
          tauto
        · show ∀ i, _ → Passed (f.q.events.take (v.q.cur + 1).toNat) i → _
          rw [g2]
          show ∀ i, _ → Passed (f.q.events.take (q.cur + 1).toNat) i → _
          rw [hE1e]; exact g4
        · show ∀ i, ¬ (_ ∧ Passed (f.q.events.take (v.q.cur + 1).toNat) i) → _
          rw [g2]
          show ∀ i, ¬ (_ ∧ Passed (f.q.events.take (q.cur + 1).toNat) i) → _
          rw [hE1e]; exact g5
        · show ∀ i, _ ↔ _ ∧ Passed (f.q.events.take (v.q.cur + 1).toNat) i
          rw [g2]
          show ∀ i, _ ↔ _ ∧ Passed (f.q.events.take (q.cur + 1).toNat) i
          rw [hE1e]; exact g7

theorem reach2_inv {env : Env} {f : Clip} (hf : Fin f) {op : BoolOp} {s : Clip} {r : List (Nat × List Nat)}
    (h : Clip.Reach2 env op f s r) : Inv2 f op s r := by
  induction h with
  | init => exact inv2_init hf op
  | step _ hm hs ih =>
    obtain ⟨e, q, t, r', _, h2, h3, _⟩ := step2_spec (env := env) hf ih hm
    rw [h2, Option.some.injEq, Prod.mk.injEq] at hs
    rw [← hs.1, ← hs.2]; exact h3

/-! ### C29 -/

/-- The lines of all points. -/
def Clip.lines (f : Clip) : List Line := (List.range f.np).map f.line

section
variable {env env2 : Env} (he : EnvOk env) {lp : Nat → LP} {np : Nat} (hl : Loops lp np) {f : Clip} (hr : Clip.Reach env lp np f)
  (hm : f.q.more = false)
include he hl hr hm

/-- C29: the second sweep never fails, only goes forward, and whenever it classifies a point the lines it tests are exactly, each
once, the lines whose closed x-range contains the x of the point. -/
theorem C29_scanned {op : BoolOp} {s : Clip} {r : List (Nat × List Nat)} (h : Clip.Reach2 env2 op f s r) (hs : s.q.more = true) :
    ∃ e q t, s.q.next s.x = some (e, true, q) ∧ s.step2 env2 op = some t ∧
      (e.del = false → e.ty.isFwd = true → ∃ u, ({ s with q := q } : Clip).insert env2 e.node = some u ∧
        u.scanned.Perm (f.touching (f.x e.a))) ∧
      (e.del = false → e.ty.isFwd = false → ({ s with q := q } : Clip).scanned.Perm (f.touching (f.x e.a))) := by
  have hf := fin_of_reach he hl hr hm
  obtain ⟨e, q, t, r', h1, h2, _, h3, h4⟩ := step2_spec (env := env2) hf (reach2_inv hf h) hs
  exact ⟨e, q, (t, r'), h1, h2, h3, h4⟩

/-- C29: after the second sweep, every point that was to be classified is, from the lines that touch the vertical through it;
the others keep their state, positions and links are unchanged, and there is one sample for each classified point. -/
theorem C29_final {op : BoolOp} {s : Clip} {r : List (Nat × List Nat)} (h : Clip.Reach2 env2 op f s r) (hs : s.q.more = false) :
    s.sweep = [] ∧
    (∀ i, (s.lp i).data = (f.lp i).data ∧ (s.lp i).next = (f.lp i).next ∧ (s.lp i).set = (f.lp i).set) ∧ s.np = f.np ∧
    (∀ i < f.np, (s.lp i).state = if (f.lp i).state = .check then .res (lbResult op (f.lp i).set (f.balance i).wn) else (f.lp i).state) ∧
    (r.map Prod.fst).Nodup ∧ (∀ i < f.np, i ∈ r.map Prod.fst ↔ (f.lp i).state = .check) ∧
    ∀ p ∈ r, p.2.Perm (f.balance p.1).hits := by
  have hf := fin_of_reach he hl hr hm
  have hi := reach2_inv hf h
  have hcur : (s.q.cur + 1).toNat = f.q.events.length := by
    unfold Queue.more at hs
    rw [hi.same.news, hi.same.events] at hs
    simp only [List.isEmpty_nil, Bool.not_true, Bool.or_false, decide_eq_false_iff_not, not_lt] at hs
    have := hi.cur_hi
    omega
  have hall : f.q.events.take (s.q.cur + 1).toNat = f.q.events := by rw [hcur, List.take_length]
  have passed : ∀ i < f.np, Passed f.q.events i := by
    intro i hi'
    obtain ⟨e, g, h1, _, h2, _⟩ := (C28_events he hl hr).1 i hi'
    by_cases cx : f.x i > f.x (f.lp i).next
    · refine ⟨g, h2.1, h2.2.1, ?_⟩
      have := h2.2.2.2
      unfold Clip.lineSeg at this
      rw [if_pos cx] at this
      exact congrArg Prod.snd this
    · refine ⟨e, h1.1, h1.2.1, ?_⟩
      have := h1.2.2.2
      unfold Clip.lineSeg at this
      rw [if_neg cx] at this
      exact congrArg Prod.fst this
  have done := hi.st_done
  have todo := hi.st_todo
  have smem := hi.smp_mem
  have mem := hi.mem
  rw [hall] at done todo smem mem
  refine ⟨?_, fun i => ⟨hi.same.data i, hi.same.next i, hi.same.set i⟩, hi.same.np, ?_, hi.smp_nodup, ?_, hi.smp_hits⟩
  · rw [List.eq_nil_iff_forall_not_mem]
    intro n hn
    obtain ⟨h1, h2, h3⟩ := (mem n).mp hn
    exact h3 (hf.ev_ex n false h1.1 h1.2.1)
  · intro i hi'
    by_cases c : (f.lp i).state = .check
    · rw [if_pos c]; exact done i c (passed i hi')
    · rw [if_neg c]; exact todo i (fun h => c h.1)
  · intro i hi'
    rw [smem]
    exact ⟨fun h => h.1, fun h => ⟨h, passed i hi'⟩⟩

end

/-! ### From the touching lines to all lines -/

theorem line_inj (f : Clip) (l : List Nat) : IdxInj (l.map f.line) := by
  intro s hs t ht h
  obtain ⟨i, _, rfl⟩ := List.mem_map.mp hs
  obtain ⟨j, _, rfl⟩ := List.mem_map.mp ht
  have : i = j := h
  rw [this]

theorem lines_nodup (f : Clip) {l : List Nat} (h : l.Nodup) : (l.map f.line).Nodup :=
  h.map_on (fun _ _ _ _ he => congrArg Line.idx he)

/-- A line that covers a place within one unit of a point on the vertical at an integer `x` touches the vertical. -/
theorem touches_of_covers (f : Clip) (i : Nat) (x : Int) (σ : Rat) (hσ : σ = 1 ∨ σ = -1) (e : Rat) (h0 : 0 < e) (h1 : e < 1)
    (hc : (f.line i).covers (x + σ * e)) : f.touches x i := by
  unfold Line.covers Clip.line at hc
  unfold Clip.touches Clip.x
  simp only at hc
  have lt1 : ∀ a b : Int, (a : Rat) < b + 1 → a ≤ b := by
    intro a b h
    have : a < b + 1 := by exact_mod_cast h
    omega
  rcases hσ with rfl | rfl
  · rcases hc with ⟨c1, c2⟩ | ⟨c1, c2⟩
    · left
      refine ⟨lt1 _ _ (by linarith), ?_⟩
      have : (x : Rat) < (f.lp (f.lp i).next).data.x := by linarith
      have : x < (f.lp (f.lp i).next).data.x := by exact_mod_cast this
      omega
    · right
      refine ⟨lt1 _ _ (by linarith), ?_⟩
      have : (x : Rat) < (f.lp i).data.x := by linarith
      have : x < (f.lp i).data.x := by exact_mod_cast this
      omega
  · rcases hc with ⟨c1, c2⟩ | ⟨c1, c2⟩
    · left
      refine ⟨?_, lt1 _ _ (by linarith)⟩
      have : ((f.lp i).data.x : Rat) < x := by linarith
      have : (f.lp i).data.x < x := by exact_mod_cast this
      omega
    · right
      refine ⟨?_, lt1 _ _ (by linarith)⟩
      have : ((f.lp (f.lp i).next).data.x : Rat) < x := by linarith
      have : (f.lp (f.lp i).next).data.x < x := by exact_mod_cast this
      omega

theorem touching_sum (f : Clip) (x : Int) (g : Line → Int) (h : ∀ i, ¬ f.touches x i → g (f.line i) = 0) :
    (((f.touching x).map f.line).map g).sum = (f.lines.map g).sum := by
  unfold Clip.touching Clip.lines
  rw [List.map_map, List.map_map]
  induction List.range f.np with
  | nil => rfl
  | cons a l ih =>
    by_cases c : f.touches x a
    · rw [List.filter_cons_of_pos (by simpa using c), List.map_cons, List.map_cons, List.sum_cons, List.sum_cons, ih]
    · rw [List.filter_cons_of_neg (by simpa using c), List.map_cons, List.sum_cons, ih]
      simp only [Function.comp]
      rw [h a c, zero_add]

/-- Lines that do not touch the vertical do not contribute next to it. -/
theorem crossAbove_touching (f : Clip) (x : Int) (σ : Rat) (hσ : σ = 1 ∨ σ = -1) (e : Rat) (h0 : 0 < e) (h1 : e < 1) (k : BSet) (y : Rat) :
    crossAbove ((f.touching x).map f.line) k (x + σ * e) y = crossAbove f.lines k (x + σ * e) y :=
  touching_sum f x _ (fun i hc => if_neg (fun h => hc (touches_of_covers f i x σ hσ e h0 h1 h.2.1)))

theorem stackAbove_touching (f : Clip) (x : Int) (σ : Rat) (hσ : σ = 1 ∨ σ = -1) (e : Rat) (h0 : 0 < e) (h1 : e < 1) (k : BSet) (y : Rat)
    (j : Nat) : stackAbove ((f.touching x).map f.line) k (x + σ * e) y j = stackAbove f.lines k (x + σ * e) y j :=
  touching_sum f x _ (fun i hc => if_neg (fun h => hc (touches_of_covers f i x σ hσ e h0 h1 h.2.1)))

theorem vertStack_touching (f : Clip) (i : Nat) (k : BSet) :
    vertStack ((f.touching (f.x i)).map f.line) k (f.line i) = vertStack f.lines k (f.line i) :=
  touching_sum f _ _ (fun j hc => if_neg (fun h => hc (by
    have : (f.lp j).data = (f.lp i).data := h.2.1
    unfold Clip.touches Clip.x
    rw [this]
    omega)))

theorem self_touching (f : Clip) {i : Nat} (hi : i < f.np) : i ∈ f.touching (f.x i) := by
  unfold Clip.touching
  rw [List.mem_filter, List.mem_range, decide_eq_true_eq]
  refine ⟨hi, ?_⟩
  unfold Clip.touches
  omega

/-- C29 with C18: the winding numbers that the second sweep computes for a line that is not vertical are those with respect to
all lines, coincident lines being stacked by index. -/
theorem C29_winding (f : Clip) (i : Nat) (hi : i < f.np) (hx : f.x i ≠ f.x (f.lp i).next) :
    ∃ e0 : Rat, 0 < e0 ∧ ∀ e, 0 < e → e < e0 → ∀ k,
      let l := f.line i
      let x : Rat := l.p.x + sgn (l.q.x - l.p.x) * e
      (f.balance i).wn.get k = stackAbove f.lines k x (l.yAt x) i + if l.set = k ∧ l.q.x < l.p.x then -1 else 0 := by
  obtain ⟨e0, g0, g1⟩ := C18_stacked ((f.touching (f.x i)).map f.line) (line_inj f _) (f.line i)
    (List.mem_map.mpr ⟨i, self_touching f hi, rfl⟩) hx
  refine ⟨min e0 1, lt_min g0 one_pos, fun e a b k => ?_⟩
  have k2 := g1 e a (lt_of_lt_of_le b (min_le_left _ _)) k
  have hsg : sgn ((f.line i).q.x - (f.line i).p.x) = 1 ∨ sgn ((f.line i).q.x - (f.line i).p.x) = -1 := by
    rcases sgn_cases (f.line i) hx with h | h
    · exact Or.inl h.1
    · exact Or.inr h.1
  have ca := stackAbove_touching f (f.x i) (sgn ((f.line i).q.x - (f.line i).p.x)) hsg e a (lt_of_lt_of_le b (min_le_right _ _)) k
    ((f.line i).yAt ((f.line i).p.x + sgn ((f.line i).q.x - (f.line i).p.x) * e)) (f.line i).idx
  exact k2.trans (congrArg (· + _) ca)

section
variable {env env2 : Env} (he : EnvOk env) {lp : Nat → LP} {np : Nat} (hl : Loops lp np) {f : Clip} (hr : Clip.Reach env lp np f)
  (hm : f.q.more = false)
include he hl hr hm

/-- C29 with C18, vertical lines: the winding numbers right of a line that goes down, or left of a line that goes up. -/
theorem C29_vertical (i : Nat) (hi : i < f.np) (hx : f.x i = f.x (f.lp i).next) :
    ∃ d0 : Rat, 0 < d0 ∧ ∀ d, 0 < d → d < d0 → ∃ e0 : Rat, 0 < e0 ∧ ∀ e, 0 < e → e < e0 → ∀ k,
      let l := f.line i
      (f.balance i).wn.get k =
        crossAbove f.lines k (l.p.x + sgn (l.q.y - l.p.y) * e) (l.p.y + sgn (l.q.y - l.p.y) * d) + vertStack f.lines k l := by
  have hf := fin_of_reach he hl hr hm
  have hne : (f.line i).p.y ≠ (f.line i).q.y := by
    intro h
    have h2 := hf.toInv0.pt_ne i hi
    unfold Clip.line at h
    unfold Clip.x at hx
    simp only at h
    apply h2
    cases h3 : (f.lp i).data
    cases h4 : (f.lp (f.lp i).next).data
    rw [h3, h4] at h hx
    simp only at h hx
    rw [h, hx]
  obtain ⟨d0, g0, g1⟩ := C18_vertical ((f.touching (f.x i)).map f.line) (line_inj f _) (f.line i)
    (List.mem_map.mpr ⟨i, self_touching f hi, rfl⟩) hx hne (by
      intro s hs he'
      obtain ⟨j, hj, rfl⟩ := List.mem_map.mp hs
      unfold Clip.touching at hj
      rw [List.mem_filter, decide_eq_true_eq] at hj
      have ht := hj.2
      unfold Clip.touches Clip.x at ht
      unfold Clip.line at he' ⊢
      simp only at he' ⊢
      omega)
  refine ⟨d0, g0, fun d a b => ?_⟩
  obtain ⟨e0, k0, k1⟩ := g1 d a b
  refine ⟨min e0 1, lt_min k0 one_pos, fun e a' b' k => ?_⟩
  have k2 := k1 e a' (lt_of_lt_of_le b' (min_le_left _ _)) k
  have hsg : sgn ((f.line i).q.y - (f.line i).p.y) = 1 ∨ sgn ((f.line i).q.y - (f.line i).p.y) = -1 := by
    unfold sgn
    split
    · exact Or.inr rfl
    · exact Or.inl rfl
  have ca := crossAbove_touching f (f.x i) (sgn ((f.line i).q.y - (f.line i).p.y)) hsg e a' (lt_of_lt_of_le b' (min_le_right _ _)) k
    ((f.line i).p.y + sgn ((f.line i).q.y - (f.line i).p.y) * d)
  exact k2.trans (congrArg₂ (· + ·) ca (vertStack_touching f i k))

/-- C29 with C18 and C20, the classification as a whole: after the two sweeps a point to be classified whose line is not
vertical and is covered by no other line has the state "keep" exactly when the result region, evaluated at the winding numbers
with respect to all lines, differs between the two sides of the line, and "reverse" beside "keep" exactly when the outer side
is inside the result. -/
theorem C29_classified {op : BoolOp} {s : Clip} {r : List (Nat × List Nat)} (h : Clip.Reach2 env2 op f s r) (hs : s.q.more = false)
    {i : Nat} (hi : i < f.np) (hc : (f.lp i).state = .check) (hx : f.x i ≠ f.x (f.lp i).next) (hn : NoStack f.lines (f.line i)) :
    ∃ st, (s.lp i).state = .res st ∧
    ∃ e0 : Rat, 0 < e0 ∧ ∀ e, 0 < e → e < e0 → ∃ η0 : Rat, 0 < η0 ∧ ∀ η, 0 < η → η < η0 →
      let l := f.line i
      let x : Rat := l.p.x + sgn (l.q.x - l.p.x) * e
      let outY : Rat := l.yAt x - sgn (l.q.x - l.p.x) * η
      let inY : Rat := l.yAt x + sgn (l.q.x - l.p.x) * η
      let Inside (y : Rat) : Prop := region op (crossAbove f.lines .subject x y) (crossAbove f.lines .clip x y)
      (st.keep = true ↔ ¬ (Inside outY ↔ Inside inY)) ∧ (st.keep = true → (st.rev = true ↔ Inside outY)) := by
  obtain ⟨_, _, _, h4, _⟩ := C29_final he hl hr hm h hs
  have h5 := h4 i hi
  rw [if_pos hc] at h5
  refine ⟨_, h5, ?_⟩
  have nst : NoStack ((f.touching (f.x i)).map f.line) (f.line i) := by
    obtain ⟨e0, h0, h1⟩ := hn
    refine ⟨e0, h0, fun e a b t ht hne => h1 e a b t ?_ hne⟩
    obtain ⟨j, hj, rfl⟩ := List.mem_map.mp ht
    exact List.mem_map.mpr ⟨j, List.mem_of_mem_filter hj, rfl⟩
  obtain ⟨e0, g0, g1⟩ := C20_boundary op ((f.touching (f.x i)).map f.line) (line_inj f _) (lines_nodup f (List.nodup_range.filter _)) (f.line i)
    (List.mem_map.mpr ⟨i, self_touching f hi, rfl⟩) hx nst
  refine ⟨min e0 1, lt_min g0 one_pos, fun e a b => ?_⟩
  obtain ⟨η0, k0, k1⟩ := g1 e a (lt_of_lt_of_le b (min_le_left _ _))
  refine ⟨η0, k0, fun η a' b' => ?_⟩
  have k2 := k1 η a' b'
  have hsg : sgn ((f.line i).q.x - (f.line i).p.x) = 1 ∨ sgn ((f.line i).q.x - (f.line i).p.x) = -1 := by
    rcases sgn_cases (f.line i) hx with h | h
    · exact Or.inl h.1
    · exact Or.inr h.1
  have ca := crossAbove_touching f (f.x i) (sgn ((f.line i).q.x - (f.line i).p.x)) (by
    rcases hsg with h | h <;> rw [h] <;> simp) e a (lt_of_lt_of_le b (min_le_right _ _))
  simp only at k2 ⊢
  have cb : ∀ k y, crossAbove ((f.touching (f.x i)).map f.line) k ((f.line i).p.x + sgn ((f.line i).q.x - (f.line i).p.x) * e) y =
      crossAbove f.lines k ((f.line i).p.x + sgn ((f.line i).q.x - (f.line i).p.x) * e) y := ca
  rw [cb, cb, cb, cb] at k2
  exact k2

end

/-! ### The bow tie of Verif.Props.Sweep again -/

/-- Up to `k` iterations of the second sweep. -/
def Clip.run2 (env : Env) (op : BoolOp) : Nat → Clip × List (Nat × List Nat) → Option (Clip × List (Nat × List Nat))
  | 0, s => some s
  | k + 1, s => if s.1.q.more then (s.1.step2 env op).bind fun t => Clip.run2 env op k (t.1, s.2 ++ t.2) else some s

theorem run2_reach {env : Env} {op : BoolOp} {f : Clip} (k : Nat) : ∀ {s t : Clip × List (Nat × List Nat)},
    Clip.Reach2 env op f s.1 s.2 → Clip.run2 env op k s = some t → Clip.Reach2 env op f t.1 t.2 := by
  induction k with
  | zero => intro s t h1 h2; cases h2; exact h1
  | succ k ih =>
    intro s t h1 h2
    unfold Clip.run2 at h2
    split at h2
    · rename_i hm
      cases hs : s.1.step2 env op with
      | none => rw [hs] at h2; cases h2
      | some u => rw [hs] at h2; exact ih (h1.step hm hs) h2
    · cases h2; exact h1

def exEnd2 : Option (Clip × List (Nat × List Nat)) :=
  exEnd.bind fun f => Clip.run2 exEnv .union 100 ({ f with q := f.q.rewind, sweep := [] }, [])

/-- Both points of the crossing are classified: the line from the one to (4, 4) is kept, that from the other to (0, 4) is not. -/
example : exEnd2.map (fun p => (p.2, p.1.q.more, (List.range 6).map fun i => (p.1.lp i).state)) =
    some ([(4, [0]), (5, [2])], false, [.undef, .undef, .undef, .undef, .res ⟨true, false⟩, .res ⟨false, false⟩]) := by
  decide +kernel

end PolyOps.Sweep
