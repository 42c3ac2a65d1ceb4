import Verif.Lemmas.RbIter

/-! Erasing in the red-black tree: unlinking an element and rebalancing. -/
namespace PolyOps.RbTree

theorem plug_append (c c' : Ctx) : ∀ t, plug t (c ++ c') = plug (plug t c) c' := by
  induction c with
  | nil => intro t; rfl
  | cons f c ih => intro t; exact ih _

def T.black : T → T
  | .leaf => .leaf
  | .node _ a i b => .node false a i b

/-- A subtree that has one black element less than needed on its paths, or a red root. -/
def Pre (t : T) (n : Nat) : Prop := if t.isRed then Bal t.black (n + 1) else Bal t n

theorem pre_of_bal {t : T} {n : Nat} (h : Bal t n) : Pre t n := by
  unfold Pre
  cases hr : t.isRed with
  | false => exact h
  | true =>
    obtain ⟨a, i, b, rfl⟩ := t.exists_red true hr
    obtain ⟨h1, h2, -, -⟩ := (bal_red ..).mp h
    exact (bal_black true a b i (n + 1)).mpr ⟨n, rfl, h1, h2⟩

theorem black_nodes (t : T) : t.black.nodes = t.nodes := by cases t <;> rfl

def RootB (c : Ctx) : Prop := ∀ f, c.getLast? = some f → f.red = false

theorem rootB_tail {f : Fr} {c : Ctx} (h : RootB (f :: c)) : RootB c := by
  intro g hg
  apply h g
  cases c with
  | nil => cases hg
  | cons f' c => rw [List.getLast?_cons_cons]; exact hg

theorem rootB_single {f : Fr} (h : RootB [f]) : f.red = false := h f rfl

theorem rootB_cons {f : Fr} {c : Ctx} (h : RootB c) (h1 : c = [] → f.red = false) : RootB (f :: c) := by
  intro g hg
  cases c with
  | nil => cases hg; exact h1 rfl
  | cons f' c => rw [List.getLast?_cons_cons] at hg; exact h g hg

theorem root_black (c : Ctx) : ∀ {t : T}, RootB c → (c = [] → t.isRed = false) → (plug t c).isRed = false := by
  induction c with
  | nil => intro t _ h; exact h rfl
  | cons f c ih =>
    intro t h _
    apply ih (rootB_tail h)
    rintro rfl
    rw [isRed_mk]; exact rootB_single h

theorem rootB_of_black (c : Ctx) : ∀ {t : T}, (plug t c).isRed = false → RootB c ∧ (c = [] → t.isRed = false) := by
  induction c with
  | nil => intro t h; exact ⟨fun f hf => by simp at hf, fun _ => h⟩
  | cons f c ih =>
    intro t h
    obtain ⟨h1, h2⟩ := ih h
    refine ⟨rootB_cons h1 fun hc => ?_, by simp⟩
    have := h2 hc
    rwa [isRed_mk] at this

/-- A finished tree. -/
def Fin (m m' : Mem) (L : List Nat) : Prop :=
  ∃ t j, Foc m' (m'.parent 0) t [] ∧ Bal t j ∧ t.isRed = false ∧ t.nodes = L ∧ HeadSame m m'

theorem fin_of {m m' : Mem} {o : Option Nat} {t : T} {c : Ctx} {n : Nat} (h : Foc m' o t c) (hb : Bal t n) (hc : BalC c n)
    (hr : t.isRed = true → headRed c = false) (hB : RootB c) (h0 : c = [] → t.isRed = false) (hs : HeadSame m m') : Fin m m' (plug t c).nodes := by
  obtain ⟨j, hj⟩ := bal_plug c t n hb hc hr
  exact ⟨_, j, h.root, hj, root_black c hB h0, rfl, hs⟩

theorem setRed_same {m : Mem} {i : Nat} {r : Bool} (h : m.red i = r) : m.setRed i r = m := by
  unfold Mem.setRed
  have : upd m.red i r = m.red := by
    funext k
    unfold upd
    split
    · next e => rw [e, h]
    · rfl
  rw [this]

theorem blacken_same {m : Mem} {x : Option Nat} (h : m.isRed x = false) : m.blacken x = m := by
  cases x with
  | none => rfl
  | some i => exact setRed_same h

/-- The loop ends at a red element or at the root. -/
theorem stop_spec {m : Mem} {x : Option Nat} {X : T} {c : Ctx} {n : Nat} (h : Foc m x X c) (hp : Pre X n) (hc : BalC c (n + 1)) (hB : RootB c)
    (hs : c = [] ∨ X.isRed = true) : Fin m (m.blacken x) (plug X c).nodes := by
  cases X with
  | leaf =>
    rcases hs with rfl | hs
    · rw [show x = none from h.rep]
      exact fin_of h (n := 0) rfl trivial (by simp [T.isRed]) hB (fun _ => rfl) (HeadSame.refl m)
    · cases hs
  | node r a i b =>
    rw [h.rep.1]
    have h' : Foc m x (T.mk true r a i b) c := h
    obtain ⟨h1, s1⟩ := h'.setRed false
    show Fin m (m.setRed i false) (plug (T.mk true r a i b) c).nodes
    rw [← plug_nodes_congr (mk_nodes_red true false r a i b) c]
    cases r with
    | true => exact fin_of h1 hp hc (by rw [isRed_mk]; simp) hB (fun _ => isRed_mk ..) s1
    | false =>
      rcases hs with rfl | hs
      · exact fin_of (n := n) h1 hp trivial (by rw [isRed_mk]; simp) hB (fun _ => isRed_mk ..) s1
      · cases hs

/-! ### One step of the rebalancing, in terms of sides -/

def Mem.farFix (m : Mem) (d : Bool) (xp w : Nat) : Option (Mem × Option Nat) :=
  let m := (m.setRed w (m.red xp)).setRed xp false
  let m := match m.child (!d) w with | some v => m.setRed v false | none => m
  (m.child (!d) xp).bind fun w => (m.parent xp).map fun xpp => (m.rot d xp w xpp, none)

def Mem.nearFix (m : Mem) (d : Bool) (xp w : Nat) : Option (Mem × Nat) :=
  (m.child d w).bind fun wl =>
  let m := (m.setRed wl false).setRed w true
  (m.parent w).bind fun wp =>
  let m := m.rot (!d) w wl wp
  (m.child (!d) xp).map fun w => (m, w)

def Mem.bodyFix (m : Mem) (d : Bool) (xp w : Nat) : Option (Mem × Option Nat) :=
  if ¬ m.isRed (m.child d w) ∧ ¬ m.isRed (m.child (!d) w) then some (m.setRed w true, some xp)
  else (if ¬ m.isRed (m.child (!d) w) then m.nearFix d xp w else some (m, w)).bind fun (m, w) => m.farFix d xp w

def Mem.sibFix (m : Mem) (d : Bool) (xp w : Nat) : Option (Mem × Nat) :=
  let m := (m.setRed w false).setRed xp true
  (m.parent xp).bind fun xpp =>
  let m := m.rot d xp w xpp
  (m.child (!d) xp).map fun w => (m, w)

def Mem.eraseD (m : Mem) (d : Bool) (xp : Nat) : Option (Mem × Option Nat) :=
  (m.child (!d) xp).bind fun w => (if m.red w then m.sibFix d xp w else some (m, w)).bind fun (m, w) => m.bodyFix d xp w

theorem eraseLeft_eq (m : Mem) (xp : Nat) : m.eraseLeft xp = m.eraseD true xp := rfl
theorem eraseRight_eq (m : Mem) (xp : Nat) : m.eraseRight xp = m.eraseD false xp := rfl

theorem farFix_spec {m : Mem} {x : Option Nat} {d r : Bool} {X N : T} {F : T} {xp w : Nat} {c : Ctx} {n : Nat}
    (h : Foc m (some xp) (T.mk d r X xp (T.mk d false N w F)) c) (hx : m.child d xp = x) (hX : Bal X n) (hXr : X.isRed = false)
    (hN : Bal N n) (hF : Bal F n) (hFr : F.isRed = true) :
    ∃ m' t, m.farFix d xp w = some (m', none) ∧ Foc m' (some w) t c ∧ Bal t (if r then n + 1 else n + 2) ∧ t.isRed = r ∧ m'.isRed x = false ∧
      t.nodes = (T.mk d r X xp (T.mk d false N w F)).nodes ∧ HeadSame m m' := by
  obtain ⟨fa, f, fb, rfl⟩ := F.exists_red d hFr
  obtain ⟨f1, f2, f3, f4⟩ := (bal_red ..).mp hF
  unfold Mem.farFix
  rw [h.red]
  have h1 := h.down'
  have e1 := h1.link_mk
  rw [e1] at h1
  obtain ⟨h2, s2⟩ := h1.setRed r
  have h3 := h2.up
  simp only at h3
  obtain ⟨h4, s4⟩ := h3.setRed false
  have h5 := h4.down
  have e5 := h5.link_mk
  rw [e5] at h5
  have h6 := h5.down'
  have e6 := h6.link_mk
  simp only
  rw [e6]
  simp only
  rw [e6] at h6
  obtain ⟨h7, s7⟩ := h6.setRed false
  have h8 := h7.up
  simp only at h8
  rw [mk_not] at h8
  have h9 := h8.up
  simp only at h9
  rw [mk_not] at h9
  rw [(h8.repc).1, Option.bind_some, h9.parent, Option.map_some]
  obtain ⟨h10, s10⟩ := h9.rot
  refine ⟨_, _, rfl, h10, ?_, isRed_mk .., ?_, ?_, ((s2.trans s4).trans s7).trans s10⟩
  · have b1 : Bal (T.mk d false X xp N) (n + 1) := (bal_black ..).mpr ⟨n, rfl, hX, hN⟩
    have b2 : Bal (T.mk d false fa f fb) (n + 1) := (bal_black ..).mpr ⟨n, rfl, f1, f2⟩
    cases r
    · exact (bal_black ..).mpr ⟨n + 1, rfl, b1, b2⟩
    · exact (bal_red ..).mpr ⟨b1, b2, isRed_mk .., isRed_mk ..⟩
  · have h11 := h10.down
    rw [h11.link_mk] at h11
    have h12 := h11.down
    have e12 := h12.isRed
    rw [hXr] at e12
    -- the link to `x` is kept
    have ex : ((((m.setRed w r).setRed xp false).setRed f false).rot d xp w (par c)).child d xp = x := by
      obtain ⟨n1, n2, n3⟩ := nd_plug h9.nd
      obtain ⟨k1, k2, k3, k4, k5⟩ := nd_mk n1
      have hc : xp ≠ par c := by
        cases c with
        | nil => intro e; exact h9.nz (mem_plug.mpr (Or.inl (mem_mk.mpr (Or.inl e.symm))))
        | cons g c => intro e; exact n3 xp (mem_mk.mpr (Or.inl rfl)) (mem_cnodes_cons.mpr (Or.inl e))
      have hw : xp ≠ w := fun e => k2 (mem_mk.mpr (Or.inl e))
      rw [rot_child, if_neg (fun h => hc h.2.2), if_neg (fun h => hw h.2), if_neg (by cases d <;> simp)]
      exact hx
    rw [ex] at e12
    exact e12
  · cases d <;> simp [T.mk, T.nodes]

theorem nearFix_spec {m : Mem} {d r : Bool} {X N : T} {F : T} {xp w : Nat} {c : Ctx} {n : Nat}
    (h : Foc m (some xp) (T.mk d r X xp (T.mk d false N w F)) c)
    (hN : Bal N n) (hF : Bal F n) (hNr : N.isRed = true) (hFr : F.isRed = false) :
    ∃ m' N' F' v, m.nearFix d xp w = some (m', v) ∧ Foc m' (some xp) (T.mk d r X xp (T.mk d false N' v F')) c ∧ Bal N' n ∧ Bal F' n ∧ F'.isRed = true ∧
      m'.child d xp = m.child d xp ∧ (T.mk d false N' v F').nodes = (T.mk d false N w F).nodes ∧ HeadSame m m' := by
  obtain ⟨na, v, nb, rfl⟩ := N.exists_red d hNr
  obtain ⟨f1, f2, f3, f4⟩ := (bal_red ..).mp hN
  unfold Mem.nearFix
  have h1 := h.down'
  have e1 := h1.link_mk
  rw [e1] at h1
  have h2 := h1.down
  have e2 := h2.link_mk
  rw [e2] at h2
  rw [e2, Option.bind_some]
  obtain ⟨h3, s3⟩ := h2.setRed false
  have h4 := h3.up
  simp only at h4
  obtain ⟨h5, s5⟩ := h4.setRed true
  simp only
  rw [h5.parent, Option.bind_some]
  have h6 : Foc ((m.setRed v false).setRed w true) (some w) (T.mk (!d) true F w (T.mk (!d) false nb v na)) (⟨!d, r, xp, X⟩ :: c) := by
    rw [mk_not, mk_not]; exact h5
  obtain ⟨h7, s7⟩ := h6.rot
  rw [mk_not, mk_not] at h7
  have h8 := h7.up
  simp only at h8
  rw [mk_not] at h8
  rw [h7.repc.1, Option.map_some]
  have ch : ∀ e k, ((m.setRed v false).setRed w true).child e k = m.child e k := by intro e k; cases e <;> rfl
  refine ⟨_, na, T.mk d true nb w F, v, rfl, h8, f1, (bal_red ..).mpr ⟨f2, hF, f4, hFr⟩, isRed_mk .., ?_, ?_, (s3.trans s5).trans s7⟩
  · obtain ⟨n1, n2, n3⟩ := nd_plug h8.nd
    obtain ⟨k1, k2, k3, k4, k5⟩ := nd_mk n1
    have hv : xp ≠ v := fun e => k2 (mem_mk.mpr (Or.inl e))
    have hw : xp ≠ w := fun e => k2 (mem_mk.mpr (Or.inr (Or.inr (mem_mk.mpr (Or.inl e)))))
    have hwl := h6.wasLeft
    simp only at hwl
    rw [show par (⟨!d, r, xp, X⟩ :: c) = xp from rfl, rot_child, hwl, if_neg (by cases d <;> simp), if_neg (fun h => hv h.2), if_neg (fun h => hw h.2), ch]
  · cases d <;> simp [T.mk, T.nodes]

/-- The black sibling. -/
theorem bodyFix_spec {m : Mem} {x : Option Nat} {d r : Bool} {X N : T} {F : T} {xp w : Nat} {c : Ctx} {n : Nat}
    (h : Foc m (some xp) (T.mk d r X xp (T.mk d false N w F)) c) (hx : m.child d xp = x) (hX : Bal X n) (hXr : X.isRed = false)
    (hN : Bal N n) (hF : Bal F n) :
    (∃ m' q t, m.bodyFix d xp w = some (m', none) ∧ Foc m' (some q) t c ∧ Bal t (if r then n + 1 else n + 2) ∧ t.isRed = r ∧ m'.isRed x = false ∧
      t.nodes = (T.mk d r X xp (T.mk d false N w F)).nodes ∧ HeadSame m m') ∨
    (∃ m' t, m.bodyFix d xp w = some (m', some xp) ∧ Foc m' (some xp) t c ∧ Pre t (if r then n else n + 1) ∧ t.isRed = r ∧
      t.nodes = (T.mk d r X xp (T.mk d false N w F)).nodes ∧ HeadSame m m') := by
  have h1 := h.down'
  have e1 := h1.link_mk
  rw [e1] at h1
  have i1 := h1.down.isRed
  have i2 := h1.down'.isRed
  unfold Mem.bodyFix
  rw [i1, i2]
  by_cases hb : N.isRed = false ∧ F.isRed = false
  · right
    rw [if_pos (by rw [hb.1, hb.2]; simp)]
    obtain ⟨h2, s2⟩ := h1.setRed true
    have h3 := h2.up
    simp only at h3
    rw [mk_not] at h3
    refine ⟨_, _, rfl, h3, ?_, isRed_mk .., ?_, s2⟩
    · have b1 : Bal (T.mk d true N w F) n := (bal_red ..).mpr ⟨hN, hF, hb.1, hb.2⟩
      unfold Pre
      rw [isRed_mk]
      cases r
      · exact (bal_black ..).mpr ⟨n, rfl, hX, b1⟩
      · have : (T.mk d true X xp (T.mk d true N w F)).black = T.mk d false X xp (T.mk d true N w F) := by cases d <;> rfl
        rw [if_pos rfl, this]
        exact (bal_black ..).mpr ⟨n, rfl, hX, b1⟩
    · cases d <;> simp [T.mk, T.nodes]
  · left
    rw [if_neg (by
      rintro ⟨a, b⟩
      exact hb ⟨by simpa using a, by simpa using b⟩)]
    cases hFr : F.isRed with
    | true =>
      rw [if_neg (by simp), Option.bind_some]
      obtain ⟨m', t, q1, q2, q3, q4, q5, q6, q7⟩ := farFix_spec h hx hX hXr hN hF hFr
      exact ⟨m', w, t, q1, q2, q3, q4, q5, q6, q7⟩
    | false =>
      rw [if_pos (by simp)]
      have hNr : N.isRed = true := by
        cases hh : N.isRed with
        | true => rfl
        | false => exact absurd ⟨hh, hFr⟩ hb
      obtain ⟨m1, N', F', v, p1, p2, p3, p4, p5, p6, p7, p8⟩ := nearFix_spec h hN hF hNr hFr
      rw [p1, Option.bind_some]
      obtain ⟨m', t, q1, q2, q3, q4, q5, q6, q7⟩ := farFix_spec p2 (p6.trans hx) hX hXr p3 p4 p5
      refine ⟨m', v, t, q1, q2, q3, q4, q5, ?_, p8.trans q7⟩
      rw [q6]
      have : ∀ t t' : T, t.nodes = t'.nodes → (T.mk d r X xp t).nodes = (T.mk d r X xp t').nodes := by
        intro t t' e; cases d <;> simp [T.mk, T.nodes, e]
      exact this _ _ p7

theorem sibFix_spec {m : Mem} {d : Bool} {X N F : T} {xp w : Nat} {c : Ctx}
    (h : Foc m (some xp) (T.mk d false X xp (T.mk d true N w F)) c) (hN : N ≠ .leaf) :
    ∃ m' v, m.sibFix d xp w = some (m', v) ∧ m'.child (!d) xp = some v ∧ Foc m' (some xp) (T.mk d true X xp N) (⟨d, false, w, F⟩ :: c) ∧ m'.child d xp = m.child d xp ∧
      HeadSame m m' := by
  unfold Mem.sibFix
  have h1 := h.down'
  have e1 := h1.link_mk
  rw [e1] at h1
  obtain ⟨h2, s2⟩ := h1.setRed false
  have h3 := h2.up
  simp only at h3
  obtain ⟨h4, s4⟩ := h3.setRed true
  rw [mk_not] at h4
  simp only
  rw [h4.parent, Option.bind_some]
  obtain ⟨h5, s5⟩ := h4.rot
  have h6 := h5.down
  have e6 := h6.link_mk
  rw [e6] at h6
  have h7 := h6.down'
  have ch : ∀ e k, ((m.setRed w false).setRed xp true).child e k = m.child e k := by intro e k; cases e <;> rfl
  cases hv : (((m.setRed w false).setRed xp true).rot d xp w (par c)).child (!d) xp with
  | none => exact absurd (h7.leaf.mp hv) hN
  | some v =>
    refine ⟨_, v, rfl, hv, h6, ?_, (s2.trans s4).trans s5⟩
    obtain ⟨n1, n2, n3⟩ := nd_plug h4.nd
    obtain ⟨k1, k2, k3, k4, k5⟩ := nd_mk n1
    have hc : xp ≠ par c := by
      cases c with
      | nil => intro e; exact h4.nz (mem_plug.mpr (Or.inl (mem_mk.mpr (Or.inl e.symm))))
      | cons g c => intro e; exact n3 xp (mem_mk.mpr (Or.inl rfl)) (mem_cnodes_cons.mpr (Or.inl e))
    have hw : xp ≠ w := fun e => k2 (mem_mk.mpr (Or.inl e))
    rw [rot_child, if_neg (fun h => hc h.2.2), if_neg (fun h => hw h.2), if_neg (by cases d <;> simp), ch]

/-- One step of the loop. -/
theorem eraseD_spec {m : Mem} {x : Option Nat} {X : T} {d r : Bool} {xp : Nat} {W : T} {c : Ctx} {n : Nat}
    (h : Foc m x X (⟨d, r, xp, W⟩ :: c)) (hX : Bal X n) (hXr : X.isRed = false) (hc : BalC (⟨d, r, xp, W⟩ :: c) (n + 1)) (hB : RootB (⟨d, r, xp, W⟩ :: c)) :
    (∃ m', m.eraseD d xp = some (m', none) ∧ m'.isRed x = false ∧ Fin m m' (plug X (⟨d, r, xp, W⟩ :: c)).nodes) ∨
    (∃ m' t c' k, m.eraseD d xp = some (m', some xp) ∧ m'.parent xp = some (par c') ∧ Foc m' (some xp) t c' ∧ Pre t k ∧ BalC c' (k + 1) ∧ RootB c' ∧
      (t.isRed = true ∨ c'.length ≤ c.length) ∧ (plug t c').nodes = (plug X (⟨d, r, xp, W⟩ :: c)).nodes ∧ HeadSame m m') := by
  obtain ⟨hW, hred, hc'⟩ := hc
  simp only at hW hred hc'
  have hx : m.child d xp = x := h.repc.1
  have hup := h.up
  simp only at hup
  have hpn : (plug X (⟨d, r, xp, W⟩ :: c)).nodes = (plug (T.mk d r X xp W) c).nodes := rfl
  rw [hpn]
  obtain ⟨rw', N, w, F, hWe⟩ := W.exists_mk d (by rintro rfl; exact absurd hW (by simp [Bal]))
  subst hWe
  unfold Mem.eraseD
  have h1 := hup.down'
  have e1 := h1.link_mk
  rw [e1, Option.bind_some]
  rw [h1.red]
  cases rw' with
  | false =>
    rw [if_neg (by simp), Option.bind_some]
    obtain ⟨k, ek, bN, bF⟩ := (bal_black ..).mp hW
    have ek : n = k := by omega
    subst ek
    rcases bodyFix_spec hup hx hX hXr bN bF with ⟨m', q, t, q1, q2, q3, q4, q5, q6, q7⟩ | ⟨m', t, q1, q2, q3, q4, q6, q7⟩
    · left
      refine ⟨m', q1, q5, ?_⟩
      rw [← plug_nodes_congr q6 c]
      refine fin_of (n := if r then n + 1 else n + 2) q2 q3 ?_ ?_ (rootB_tail hB) ?_ q7
      · cases r <;> exact hc'
      · rw [q4]; intro hr; exact (hred hr).2
      · rintro rfl; rw [q4]; exact rootB_single hB
    · right
      obtain ⟨a, i, b, e⟩ : ∃ a i b, t = T.mk d r a i b := by
        have : t ≠ .leaf := by
          rintro rfl
          have := q2.rep; cases this
        obtain ⟨r', a, i, b, e⟩ := t.exists_mk d this
        refine ⟨a, i, b, ?_⟩
        rw [e, isRed_mk] at q4
        rw [e, q4]
      have hp : m'.parent xp = some (par c) := by
        have q2' := q2
        rw [e] at q2'
        have := q2'.link_mk
        cases this
        exact q2'.parent
      refine ⟨m', t, c, if r then n else n + 1, q1, hp, q2, q3, ?_, rootB_tail hB, Or.inr (Nat.le_refl _), plug_nodes_congr q6 c, q7⟩
      cases r <;> exact hc'
  | true =>
    rw [if_pos rfl]
    have hr : r = false := by
      cases r with
      | false => rfl
      | true => have := (hred rfl).1; rw [isRed_mk] at this; cases this
    subst hr
    simp only [Bool.false_eq_true, if_false] at hc'
    obtain ⟨bN, bF, nN, nF⟩ := (bal_red ..).mp hW
    have hNl : N ≠ .leaf := by rintro rfl; simp [Bal] at bN
    obtain ⟨m1, v, p1, p2, p3, p4, p5⟩ := sibFix_spec hup hNl
    rw [p1, Option.bind_some]
    obtain ⟨rN, N', v', F', hNe⟩ := N.exists_mk d hNl
    subst hNe
    rw [isRed_mk] at nN
    subst nN
    have hv : v = v' := by
      have := p3.down'.link_mk
      rw [p2] at this; cases this; rfl
    subst hv
    obtain ⟨k, ek, bN', bF'⟩ := (bal_black ..).mp bN
    have ek : n = k := by omega
    subst ek
    have hpn' : (plug (T.mk d true X xp (T.mk d false N' v F')) (⟨d, false, w, F⟩ :: c)).nodes = (plug (T.mk d false X xp (T.mk d true (T.mk d false N' v F') w F)) c).nodes := by
      show (plug (T.mk d false (T.mk d true X xp (T.mk d false N' v F')) w F) c).nodes = _
      refine plug_nodes_congr ?_ c
      cases d <;> simp [T.mk, T.nodes]
    have hB' : RootB (⟨d, false, w, F⟩ :: c) := rootB_cons (rootB_tail hB) fun _ => rfl
    have hbc : BalC (⟨d, false, w, F⟩ :: c) (n + 1) := ⟨bF, by simp, hc'⟩
    rcases bodyFix_spec p3 (p4.trans hx) hX hXr bN' bF' with ⟨m', q, t, q1, q2, q3, q4, q5, q6, q7⟩ | ⟨m', t, q1, q2, q3, q4, q6, q7⟩
    · left
      refine ⟨m', q1, q5, ?_⟩
      rw [← hpn', ← plug_nodes_congr q6]
      exact fin_of (n := n + 1) q2 q3 hbc (fun _ => rfl) hB' (by simp) (p5.trans q7)
    · right
      obtain ⟨a, i, b, e⟩ := t.exists_red d q4
      have hp : m'.parent xp = some w := by
        have q2' := q2
        rw [e] at q2'
        have := q2'.link_mk
        cases this
        exact q2'.parent
      exact ⟨m', t, ⟨d, false, w, F⟩ :: c, n, q1, hp, q2, q3, hbc, hB', Or.inl q4, by rw [← hpn']; exact plug_nodes_congr q6 _, p5.trans q7⟩

theorem eraseFix_spec (k : Nat) : ∀ {m : Mem} {x : Option Nat} {X : T} {c : Ctx} {n : Nat}, (c.length < k ∨ (X.isRed = true ∧ 0 < k)) → Foc m x X c → Pre X n →
    BalC c (n + 1) → RootB c → ∃ m', Mem.eraseFix k m x (par c) = some m' ∧ Fin m m' (plug X c).nodes := by
  induction k with
  | zero => intro m x X c n hk; omega
  | succ k ih =>
    intro m x X c n hk h hp hc hB
    rw [Mem.eraseFix, h.isRed]
    by_cases hs : c = [] ∨ X.isRed = true
    · have : par c = 0 ∨ X.isRed = true := by
        rcases hs with rfl | hs
        · exact Or.inl rfl
        · exact Or.inr hs
      rw [if_pos this]
      exact ⟨_, rfl, stop_spec h hp hc hB hs⟩
    · rw [not_or] at hs
      have hXr : X.isRed = false := by simpa using hs.2
      cases c with
      | nil => exact absurd rfl hs.1
      | cons f c =>
        have f0 : f.i ≠ 0 := fun e => h.nz (mem_plug.mpr (Or.inr (mem_cnodes_cons.mpr (Or.inl e.symm))))
        rw [show par (f :: c) = f.i from rfl, if_neg (by rw [hXr]; simp [f0])]
        obtain ⟨d, r, xp, W⟩ := f
        have hX : Bal X n := by
          unfold Pre at hp
          rw [hXr] at hp
          exact hp
        have hk' : c.length < k := by
          rcases hk with hk | ⟨hk, -⟩
          · simp only [List.length_cons] at hk; omega
          · rw [hXr] at hk; cases hk
        -- the side
        have hside : (if x = m.left xp then m.eraseLeft xp else m.eraseRight xp) = m.eraseD d xp := by
          have hx : m.child d xp = x := h.repc.1
          cases d with
          | true => rw [if_pos (show x = m.left xp from hx.symm)]; rfl
          | false =>
            rw [if_neg]
            · rfl
            · intro e
              have hw := h.repc.2.2.2.1
              simp only [Bool.not_false] at hw
              have hWl : W ≠ .leaf := by rintro rfl; exact absurd hc.1 (by simp [Bal])
              cases x with
              | none =>
                rw [show m.child true xp = m.left xp from rfl, ← e] at hw
                cases W with
                | leaf => exact hWl rfl
                | node => cases hw.1
              | some i => exact h.other e.symm
        simp only
        rw [hside]
        rcases eraseD_spec h hX hXr hc hB with ⟨m', q1, q2, q3⟩ | ⟨m', t, c', j, q1, q2, q3, q4, q5, q6, q7, q8, q9⟩
        · rw [q1, Option.bind_some]
          simp only
          rw [blacken_same q2]
          exact ⟨m', rfl, q3⟩
        · rw [q1, Option.bind_some]
          simp only
          rw [q2, Option.bind_some]
          obtain ⟨m'', r1, t', j', r2, r3, r4, r5, r6⟩ := ih (by
            rcases q7 with q7 | q7
            · exact Or.inr ⟨q7, by omega⟩
            · exact Or.inl (by omega)) q3 q4 q5 q6
          exact ⟨m'', r1, t', j', r2, r3, r4, by rw [r5, q8], q9.trans r6⟩

end PolyOps.RbTree
