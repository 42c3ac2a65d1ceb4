import Verif.Lemmas.RbTree

/-! Insertion in the red-black tree. -/
namespace PolyOps.RbTree

/-- Red-black tree with `n` black elements on every path; a red element has no red child. -/
def Bal : T → Nat → Prop
  | .leaf, n => n = 0
  | .node r a _ b, n => if r then Bal a n ∧ Bal b n ∧ a.isRed = false ∧ b.isRed = false else ∃ k, n = k + 1 ∧ Bal a k ∧ Bal b k

theorem bal_red (d : Bool) (a b : T) (i n : Nat) : Bal (T.mk d true a i b) n ↔ Bal a n ∧ Bal b n ∧ a.isRed = false ∧ b.isRed = false := by
  cases d <;> simp [T.mk, Bal] <;> tauto

theorem bal_black (d : Bool) (a b : T) (i n : Nat) : Bal (T.mk d false a i b) n ↔ ∃ k, n = k + 1 ∧ Bal a k ∧ Bal b k := by
  cases d <;> simp [T.mk, Bal] <;> tauto

theorem isRed_mk (d r : Bool) (a b : T) (i : Nat) : (T.mk d r a i b).isRed = r := by cases d <;> rfl

/-- The first element of the path is red. -/
def headRed : Ctx → Bool
  | [] => false
  | f :: _ => f.red

/-- The path fits a tree with `n` black elements on every path. -/
def BalC : Ctx → Nat → Prop
  | [], _ => True
  | f :: c, n => Bal f.sib n ∧ (f.red = true → f.sib.isRed = false ∧ headRed c = false) ∧ BalC c (if f.red then n else n + 1)

theorem bal_plug (c : Ctx) : ∀ (t : T) (n : Nat), Bal t n → BalC c n → (t.isRed = true → headRed c = false) → ∃ k, Bal (plug t c) k := by
  induction c with
  | nil => intro t n h _ _; exact ⟨n, h⟩
  | cons f c ih =>
    intro t n h1 ⟨h2, h3, h4⟩ h5
    obtain ⟨d, r, i, s⟩ := f
    cases r with
    | true =>
      have ht : t.isRed = false := by
        cases h : t.isRed with
        | false => rfl
        | true => have := h5 h; simp [headRed] at this
      exact ih _ n ((bal_red ..).mpr ⟨h1, h2, ht, (h3 rfl).1⟩) h4 (fun _ => (h3 rfl).2)
    | false =>
      refine ih _ (n + 1) ((bal_black ..).mpr ⟨n, rfl, h1, h2⟩) h4 ?_
      intro h; simp [isRed_mk] at h

theorem T.exists_mk (t : T) (d : Bool) (h : t ≠ .leaf) : ∃ r a i b, t = T.mk d r a i b := by
  cases t with
  | leaf => exact absurd rfl h
  | node r a i b =>
    cases d
    · exact ⟨r, b, i, a, rfl⟩
    · exact ⟨r, a, i, b, rfl⟩

theorem T.exists_red (t : T) (d : Bool) (h : t.isRed = true) : ∃ a i b, t = T.mk d true a i b := by
  obtain ⟨r, a, i, b, e⟩ := t.exists_mk d (by rintro rfl; cases h)
  rw [e, isRed_mk] at h
  exact ⟨a, i, b, by rw [e, h]⟩

/-- The tree in memory with its root at the header. -/
structure Root (m : Mem) (t : T) : Prop where
  foc : Foc m (m.parent 0) t []

theorem Foc.root {m : Mem} {c : Ctx} : ∀ {o : Option Nat} {t : T}, Foc m o t c → Foc m (m.parent 0) (plug t c) [] := by
  induction c with
  | nil => intro o t h; have := h.repc; rw [show m.parent 0 = o from this]; exact h
  | cons f c ih => intro o t h; exact ih h.up

/-- Red or black, `n` black elements on the paths below the root. -/
def AlmostBal (t : T) : Prop := t = .leaf ∨ ∃ r a i b n, t = .node r a i b ∧ Bal a n ∧ Bal b n

theorem bal_almost {t : T} {n : Nat} (h : Bal t n) : AlmostBal t := by
  cases t with
  | leaf => exact Or.inl rfl
  | node r a i b =>
    refine Or.inr ⟨r, a, i, b, ?_⟩
    cases r
    · obtain ⟨k, -, h1, h2⟩ := (bal_black true a b i n).mp h
      exact ⟨k, rfl, h1, h2⟩
    · obtain ⟨h1, h2, -, -⟩ := (bal_red true a b i n).mp h
      exact ⟨n, rfl, h1, h2⟩

/-- Two rotations in which the first one leaves links that the second one sets. -/
theorem rot_rot (m : Mem) (d : Bool) (pp p pg gg : Nat) (h1 : pp ≠ p) (h2 : pp ≠ pg) (h3 : p ≠ pg) (h4 : gg ≠ pp) (h5 : gg ≠ p) (h6 : gg ≠ pg)
    (h7 : m.child d p ≠ some pg) (h8 : m.child d p ≠ some p) (h9 : m.child (!d) p ≠ some pp) (h10 : m.child (!d) p ≠ some p)
    (h11 : m.child (!d) p ≠ some pg) (p0 : pg ≠ 0) (q0 : p ≠ 0)
    (hg : m.child d pg = some pp) (hr : m.child (!d) pg ≠ some pp) :
    (m.rotNoFix d pp p).rot (!d) pg p gg = (m.rot d pp p pg).rot (!d) pg p gg := by
  have hp : ∀ k, ((m.rotNoFix d pp p).rot (!d) pg p gg).parent k = ((m.rot d pp p pg).rot (!d) pg p gg).parent k := by
    intro k
    rw [rot_parent, rot_parent, rot_parent]
    have e1 : (m.rotNoFix d pp p).child (!d) p = (m.rot d pp p pg).child (!d) p := by
      rw [rot_child]
      simp [Mem.rotNoFix, h3]
    rw [e1]
    have e2 : (m.rotNoFix d pp p).parent k = if k = pp then some p else if m.child d p = some k then some pp else m.parent k := by
      simp [Mem.rotNoFix]
    rw [e2, if_neg (show ¬ (pg = 0 ∧ k = 0) from fun h => p0 h.1)]
    by_cases hk : k = p
    · rw [if_pos hk, if_pos hk]
    · rw [if_neg hk, if_neg hk, if_neg hk]
  have hc : ∀ e k, ((m.rotNoFix d pp p).rot (!d) pg p gg).child e k = ((m.rot d pp p pg).rot (!d) pg p gg).child e k := by
    intro e k
    have e0 : ∀ e k, (m.rotNoFix d pp p).child e k = if e = d ∧ k = p then some pp else if e = (!d) ∧ k = pp then m.child d p else m.child e k := by
      intro e k; simp [Mem.rotNoFix]
    have w : decide (m.left pg = some pp) = d := by
      cases d
      · simp only [Bool.not_false] at hr; exact decide_eq_false hr
      · exact decide_eq_true hg
    have e3 : ∀ e k, (m.rot d pp p pg).child e k = if e = d ∧ k = pg then some p else (m.rotNoFix d pp p).child e k := by
      intro e k
      rw [rot_child, w, e0]
      by_cases h : e = d ∧ k = pg
      · rw [if_pos ⟨p0, h.1, h.2⟩, if_pos h]
      · rw [if_neg (fun h' => h h'.2), if_neg h]
    have l3 : (m.rot d pp p pg).left gg = (m.rotNoFix d pp p).left gg := by
      have := e3 true gg
      rw [if_neg (fun h => h6 h.2)] at this
      exact this
    rw [rot_child, rot_child, l3, e3, e3]
    by_cases hk1 : gg ≠ 0 ∧ e = decide ((m.rotNoFix d pp p).left gg = some pg) ∧ k = gg
    · rw [if_pos hk1, if_pos hk1]
    · rw [if_neg hk1, if_neg hk1]
      by_cases hk2 : e = (!d) ∧ k = p
      · rw [if_pos hk2, if_pos hk2]
      · rw [if_neg hk2, if_neg hk2, Bool.not_not, if_neg (show ¬ ((!d) = d ∧ p = pg) from fun h => h3 h.2)]
        by_cases hk3 : e = d ∧ k = pg
        · rw [if_pos hk3, if_pos hk3]
        · rw [if_neg hk3, if_neg hk3, if_neg hk3]
  have hR : ((m.rotNoFix d pp p).rot (!d) pg p gg).red = ((m.rot d pp p pg).rot (!d) pg p gg).red := by
    rw [rot_red, rot_red, rot_red]; simp [Mem.rotNoFix]
  have hP : ((m.rotNoFix d pp p).rot (!d) pg p gg).parent = ((m.rot d pp p pg).rot (!d) pg p gg).parent := funext hp
  have hL : ((m.rotNoFix d pp p).rot (!d) pg p gg).left = ((m.rot d pp p pg).rot (!d) pg p gg).left := funext (hc true)
  have hRt : ((m.rotNoFix d pp p).rot (!d) pg p gg).right = ((m.rot d pp p pg).rot (!d) pg p gg).right := funext (hc false)
  generalize (m.rotNoFix d pp p).rot (!d) pg p gg = x at *
  generalize (m.rot d pp p pg).rot (!d) pg p gg = y at *
  cases x; cases y; simp_all

/-- The final step in terms of sides. -/
def Mem.insFinalD (m : Mem) (d pd : Bool) (p pp pg : Nat) : Option Mem :=
  let r := if pd = d then (m, pp) else (m.rotNoFix d pp p, p)
  (r.1.parent pg).map fun gg => (r.1.rot (!d) pg r.2 gg).setRed r.2 false

theorem insFinal_eq (m : Mem) (d pd : Bool) (p pp pg : Nat) (h : decide (m.left pp = some p) = pd) :
    m.insFinal p pp pg d = m.insFinalD d pd p pp pg := by
  unfold Mem.insFinal Mem.insFinalD
  rw [h]
  cases d <;> cases pd <;> rfl

theorem insFinal_spec {m : Mem} {p : Nat} {a b : T} {f g : Fr} {c : Ctx} {n : Nat}
    (h : Foc m (some p) (.node true a p b) (f :: g :: c)) (ha : Bal a n) (hb : Bal b n) (ra : a.isRed = false) (rb : b.isRed = false)
    (hf : f.red = true) (hg : g.red = true) (hs : Bal f.sib n) (hsr : f.sib.isRed = false) (hu : Bal g.sib n) (hur : g.sib.isRed = false) :
    ∃ m' t q, m.insFinal p f.i g.i g.d = some m' ∧ Foc m' (some q) t c ∧ Bal t (n + 1) ∧ t.isRed = false ∧
      (plug t c).nodes = (plug (.node true a p b) (f :: g :: c)).nodes ∧ HeadSame m m' := by
  obtain ⟨fd, fr, fi, fs⟩ := f
  obtain ⟨gd, gr, gi, gs⟩ := g
  simp only at hf hg hs hsr hu hur
  subst hf hg
  have hw := h.wasLeft
  simp only at hw ⊢
  rw [insFinal_eq m gd fd p fi gi hw]
  unfold Mem.insFinalD
  have hup := h.up
  have hup2 := hup.up
  simp only at hup hup2
  by_cases e : fd = gd
  · subst e
    rw [if_pos rfl]
    simp only
    rw [hup2.parent]
    -- one rotation
    have h3 : Foc m (some gi) (T.mk (!fd) true gs gi (T.mk (!fd) true fs fi (.node true a p b))) c := by
      rw [mk_not, mk_not]; exact hup2
    obtain ⟨h4, s4⟩ := h3.rot
    obtain ⟨h5, s5⟩ := h4.setRed false
    refine ⟨_, _, _, rfl, h5, (bal_black ..).mpr ⟨n, rfl, (bal_red ..).mpr ⟨hu, hs, hur, hsr⟩, ?_⟩, isRed_mk .., ?_, s4.trans s5⟩
    · exact (bal_red true ..).mpr ⟨ha, hb, ra, rb⟩
    · show _ = (plug (T.mk fd true (T.mk fd true (.node true a p b) fi fs) gi gs) c).nodes
      apply plug_nodes_congr
      rw [mk_rot_nodes (!fd) true true true false, mk_not, mk_not]
  · have e' : fd = !gd := by cases fd <;> cases gd <;> simp_all
    subst e'
    rw [if_neg e]
    simp only
    obtain ⟨x, y, hxy, hx, hy, rx, ry⟩ : ∃ x y, T.node true a p b = T.mk gd true x p y ∧ Bal x n ∧ Bal y n ∧ x.isRed = false ∧ y.isRed = false := by
      cases gd
      · exact ⟨b, a, rfl, hb, ha, rb, ra⟩
      · exact ⟨a, b, rfl, ha, hb, ra, rb⟩
    rw [hxy] at h hup hup2 ⊢
    have h1 : Foc m (some fi) (T.mk gd true fs fi (T.mk gd true x p y)) (⟨gd, true, gi, gs⟩ :: c) := by
      rw [mk_not] at hup; exact hup
    obtain ⟨h2, s2⟩ := h1.rot
    have h3 := h2.up
    simp only at h3
    rw [← mk_not gd true y p _, ← mk_not gd true gs gi _] at h3
    obtain ⟨h4, s4⟩ := h3.rot
    obtain ⟨h5, s5⟩ := h4.setRed false
    -- the memory is the same
    have pgp : (m.rotNoFix gd fi p).parent gi = some (par c) := by
      have e1 : (m.rotNoFix gd fi p).parent gi = if gi = fi then some p else if m.child gd p = some gi then some fi else m.parent gi := by
        simp [Mem.rotNoFix]
      obtain ⟨n1, n2, n3⟩ := nd_plug hup2.nd
      obtain ⟨k1, k2, k3, k4, k5⟩ := nd_mk n1
      rw [e1, if_neg, if_neg, hup2.parent]
      · intro hk
        have := (((rep_mk ..).mp h.rep).2.2.2.1.link hk).1
        exact k1 (mem_mk.mpr (Or.inr (Or.inl (mem_mk.mpr (Or.inr (Or.inl this))))))
      · rintro rfl
        exact k1 (mem_mk.mpr (Or.inl rfl))
    rw [pgp]
    have eq : (m.rotNoFix gd fi p).rot (!gd) gi p (par c) = (m.rot gd fi p gi).rot (!gd) gi p (par c) := by
      obtain ⟨n1, n2, n3⟩ := nd_plug hup2.nd
      obtain ⟨k1, k2, k3, k4, k5⟩ := nd_mk n1
      obtain ⟨l1, l2, l3, l4, l5⟩ := nd_mk k3
      obtain ⟨o1, o2, o3, o4, o5⟩ := nd_mk l3
      have mt : ∀ k, k = fi ∨ k = p ∨ k = gi → k ∈ (T.mk gd true (T.mk (!gd) true (T.mk gd true x p y) fi fs) gi gs).nodes := by
        intro k hk
        rw [mem_mk, mem_mk, mem_mk]; tauto
      have z : ∀ k, k ∈ (T.mk gd true (T.mk (!gd) true (T.mk gd true x p y) fi fs) gi gs).nodes → k ≠ 0 :=
        fun k hk e => hup2.nz (mem_plug.mpr (Or.inl (e ▸ hk)))
      have pc : ∀ k, k ∈ (T.mk gd true (T.mk (!gd) true (T.mk gd true x p y) fi fs) gi gs).nodes → par c ≠ k := by
        intro k hk
        cases c with
        | nil => exact Ne.symm (z k hk)
        | cons f c => intro e; exact n3 k hk (mem_cnodes_cons.mpr (Or.inl e.symm))
      obtain ⟨-, -, -, rx', ry'⟩ := (rep_mk ..).mp h.rep
      have cx : ∀ k, m.child gd p = some k → k ∈ x.nodes := fun k hk => (rx'.link hk).1
      have cy : ∀ k, m.child (!gd) p = some k → k ∈ y.nodes := fun k hk => (ry'.link hk).1
      have gix : gi ∉ x.nodes := fun hk => k1 (mem_mk.mpr (Or.inr (Or.inl (mem_mk.mpr (Or.inr (Or.inl hk))))))
      have giy : gi ∉ y.nodes := fun hk => k1 (mem_mk.mpr (Or.inr (Or.inl (mem_mk.mpr (Or.inr (Or.inr hk))))))
      have fiy : fi ∉ y.nodes := fun hk => l1 (mem_mk.mpr (Or.inr (Or.inr hk)))
      have fip : fi ≠ p := fun hk => l1 (mem_mk.mpr (Or.inl hk))
      have figi : fi ≠ gi := fun hk => k1 (mem_mk.mpr (Or.inl hk.symm))
      have pgi : p ≠ gi := fun hk => k1 (mem_mk.mpr (Or.inr (Or.inl (mem_mk.mpr (Or.inl hk.symm)))))
      have rg := (rep_mk ..).mp hup2.rep
      refine rot_rot m gd fi p gi (par c) fip figi pgi (pc fi (mt _ (by tauto))) (pc p (mt _ (by tauto)))
        (pc gi (mt _ (by tauto))) (fun hk => gix (cx _ hk)) (fun hk => o1 (cx _ hk)) (fun hk => fiy (cy _ hk)) (fun hk => o2 (cy _ hk))
        (fun hk => giy (cy _ hk)) (z gi (mt _ (by tauto))) (z p (mt _ (by tauto))) ?_ ?_
      · exact ((rep_mk ..).mp rg.2.2.2.1).1
      · intro hk
        have := (rg.2.2.2.2.link hk).1
        exact k5 fi (mem_mk.mpr (Or.inl rfl)) this
    simp only [Option.map_some]
    rw [eq]
    refine ⟨_, _, _, rfl, h5, (bal_black ..).mpr ⟨n, rfl, (bal_red ..).mpr ⟨hu, hy, hur, ry⟩, (bal_red ..).mpr ⟨hs, hx, hsr, rx⟩⟩, isRed_mk .., ?_,
      (s2.trans s4).trans s5⟩
    show _ = (plug (T.mk gd true (T.mk (!gd) true (T.mk gd true x p y) fi fs) gi gs) c).nodes
    apply plug_nodes_congr
    rw [mk_rot_nodes (!gd) true true true false, mk_not, mk_not]
    cases gd <;> simp [T.mk, T.nodes]

theorem insFix_spec (k : Nat) : ∀ {m : Mem} {p : Nat} {a b : T} {c : Ctx} {n : Nat}, c.length < k →
    Foc m (some p) (.node true a p b) c → Bal a n → Bal b n → a.isRed = false → b.isRed = false → BalC c n →
    ∃ m' t, Mem.insFix k m p = some m' ∧ Foc m' (m'.parent 0) t [] ∧ AlmostBal t ∧ t ≠ .leaf ∧
      t.nodes = (plug (.node true a p b) c).nodes ∧ HeadSame m m' := by
  induction k with
  | zero => intro m p a b c n h; omega
  | succ k ih =>
    intro m p a b c n hk h ha hb ra rb hc
    have hbal : Bal (.node true a p b) n := (bal_red true ..).mpr ⟨ha, hb, ra, rb⟩
    have hpar : m.parent p = some (par c) := Foc.parent (d := true) h
    rw [Mem.insFix, hpar, Option.bind_some]
    -- a tree in which nothing is wrong
    have stop : headRed c = false ∨ (∃ f, c = [f]) ∨ c = [] → ∃ m' t, some m = some m' ∧ Foc m' (m'.parent 0) t [] ∧ AlmostBal t ∧ t ≠ .leaf ∧
        t.nodes = (plug (.node true a p b) c).nodes ∧ HeadSame m m' := by
      intro hs
      refine ⟨m, _, rfl, h.root, ?_, ?_, rfl, HeadSame.refl m⟩
      · rcases hs with hs | ⟨f, rfl⟩ | rfl
        · obtain ⟨j, hj⟩ := bal_plug c _ n hbal hc (fun _ => hs)
          exact bal_almost hj
        · obtain ⟨h1, -, -⟩ := hc
          obtain ⟨d, r, i, s⟩ := f
          cases d
          · exact Or.inr ⟨r, s, i, _, n, rfl, h1, hbal⟩
          · exact Or.inr ⟨r, _, i, s, n, rfl, hbal, h1⟩
        · exact bal_almost hbal
      · intro e
        have : (plug (.node true a p b) c).nodes = [] := by rw [e]; rfl
        rw [plug_nodes] at this
        simp [T.nodes] at this
    cases c with
    | nil => rw [if_pos (show par [] = 0 from rfl)]; exact stop (by simp)
    | cons f c =>
      have f0 : f.i ≠ 0 := fun e => h.nz (mem_plug.mpr (Or.inr (mem_cnodes_cons.mpr (Or.inl e.symm))))
      have hup := h.up
      rw [show par (f :: c) = f.i from rfl, if_neg f0, hup.parent, Option.bind_some, hup.red]
      by_cases hst : f.red = false ∨ par c = 0
      · rw [if_pos hst]
        apply stop
        rcases hst with hst | hst
        · exact Or.inl hst
        · cases c with
          | nil => exact Or.inr (Or.inl ⟨f, rfl⟩)
          | cons g c => exact absurd (mem_plug.mpr (Or.inr (mem_cnodes_cons.mpr (Or.inl hst.symm)))) hup.nz
      · rw [if_neg hst]
        rw [not_or] at hst
        have fr : f.red = true := by cases h : f.red with | true => rfl | false => exact absurd h hst.1
        cases c with
        | nil => exact absurd rfl hst.2
        | cons g c =>
          obtain ⟨b1, b2, b3⟩ := hc
          obtain ⟨b4, b5⟩ := b2 fr
          rw [fr, if_pos rfl] at b3
          obtain ⟨b6, -, b8⟩ := b3
          have gr : g.red = false := b5
          rw [gr] at b8
          simp only [Bool.false_eq_true, if_false] at b8
          -- grandparent is red from now on
          have h1 := hup.up
          obtain ⟨h2, s2⟩ := h1.setRed true
          have h3 : Foc (m.setRed g.i true) (some p) (.node true a p b) (f :: ⟨g.d, true, g.i, g.sib⟩ :: c) := by
            have e := h2.down
            have e1 := e.link_mk
            rw [e1] at e
            have e2 := e.down
            have e3 := Foc.link_mk (d := true) e2
            rw [e3] at e2
            exact e2
          have hw := h3.up.wasLeft
          simp only at hw
          simp only [show par (g :: c) = g.i from rfl]
          rw [hw]
          have hx : (if g.d = true then (m.setRed g.i true).right g.i else (m.setRed g.i true).left g.i) = (m.setRed g.i true).child (!g.d) g.i := by
            cases g.d <;> rfl
          rw [hx]
          have h4 := h2.down'
          cases hu : g.sib.isRed with
          | true =>
            -- red uncle
            obtain ⟨ua, ui, ub, ue⟩ := g.sib.exists_red true hu
            rw [ue] at h4 b6
            obtain ⟨u1, u2, u3, u4⟩ := (bal_red ..).mp b6
            rw [h4.link_mk]
            simp only
            rw [h4.red, if_pos rfl]
            obtain ⟨h5, s5⟩ := h4.setRed false
            have h6 := h5.up
            simp only at h6
            rw [mk_not] at h6
            have h7 := h6.down
            have e7 := h7.link_mk
            rw [e7] at h7
            obtain ⟨h8, s8⟩ := h7.setRed false
            have h9 := h8.up
            simp only at h9
            obtain ⟨x, y, hxy, hx1, hx2, rx, ry⟩ : ∃ x y, T.mk g.d true (T.mk f.d false (.node true a p b) f.i f.sib) g.i (T.mk true false ua ui ub) = .node true x g.i y ∧
                Bal x (n + 1) ∧ Bal y (n + 1) ∧ x.isRed = false ∧ y.isRed = false := by
              have e1 : Bal (T.mk f.d false (.node true a p b) f.i f.sib) (n + 1) := (bal_black ..).mpr ⟨n, rfl, hbal, b1⟩
              have e2 : Bal (T.mk true false ua ui ub) (n + 1) := (bal_black ..).mpr ⟨n, rfl, u1, u2⟩
              cases g.d
              · exact ⟨_, _, rfl, e2, e1, isRed_mk .., isRed_mk ..⟩
              · exact ⟨_, _, rfl, e1, e2, isRed_mk .., isRed_mk ..⟩
            have h10 := h9
            rw [hxy] at h10
            obtain ⟨m', t, q1, q2, q3, q4, q5, q6⟩ := ih (by simp only [List.length_cons] at hk; omega) h10 hx1 hx2 rx ry b8
            refine ⟨m', t, q1, q2, q3, q4, ?_, ((s2.trans s5).trans s8).trans q6⟩
            rw [q5, ← hxy]
            show _ = (plug (T.mk g.d g.red (T.mk f.d f.red (.node true a p b) f.i f.sib) g.i g.sib) c).nodes
            apply plug_nodes_congr
            rw [ue]
            cases g.d <;> cases f.d <;> simp [T.mk, T.nodes]
          | false =>
            obtain ⟨m', t, q, q1, q2, q3, q4, q5, q6⟩ := insFinal_spec h3 ha hb ra rb fr rfl b1 b4 b6 hu
            simp only at q1
            have fin : ∃ m'' t', (m.setRed g.i true).insFinal p f.i g.i g.d = some m'' ∧ Foc m'' (m''.parent 0) t' [] ∧ AlmostBal t' ∧ t' ≠ .leaf ∧
                t'.nodes = (plug (.node true a p b) (f :: g :: c)).nodes ∧ HeadSame m m'' := by
              obtain ⟨j, hj⟩ := bal_plug c t (n + 1) q3 b8 (by rw [q4]; simp)
              have e5 : (plug t c).nodes = (plug (.node true a p b) (f :: g :: c)).nodes := by
                rw [q5]
                show (plug (T.mk g.d true _ g.i g.sib) c).nodes = (plug (T.mk g.d g.red _ g.i g.sib) c).nodes
                exact plug_nodes_congr (mk_nodes_red ..) c
              refine ⟨m', plug t c, q1, q2.root, bal_almost hj, ?_, e5, s2.trans q6⟩
              intro e
              rw [e] at e5
              have := e5.symm
              rw [plug_nodes] at this
              simp [T.nodes] at this
            cases hx : (m.setRed g.i true).child (!g.d) g.i with
            | none => exact fin
            | some x =>
              simp only
              have : (m.setRed g.i true).red x = false := by
                have := h4.isRed
                rw [hx, hu] at this
                exact this
              rw [this, if_neg (by simp)]
              exact fin

end PolyOps.RbTree
