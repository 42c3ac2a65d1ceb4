import Verif.Lemmas.RbErase

/-! Erasing in the red-black tree: taking an element out. -/
namespace PolyOps.RbTree

/-- The link to `z` replaced by `x`. -/
structure Spliced (m m' : Mem) (z : Nat) (x : Option Nat) (c : Ctx) : Prop where
  parent : ∀ k, k ≠ z → m'.parent k = if c = [] ∧ k = 0 then x else if x = some k then some (par c) else m.parent k
  child : ∀ d k, k ≠ z → k ≠ 0 → m'.child d k = if c ≠ [] ∧ d = lastD c ∧ k = par c then x else m.child d k
  red : ∀ k, k ≠ z → m'.red k = m.red k

theorem Foc.splice {m m' : Mem} {r : Bool} {a b X : T} {z : Nat} {x : Option Nat} {c : Ctx} (h : Foc m (some z) (.node r a z b) c)
    (hX : Rep m x X z) (hs : X.nodes.Sublist (T.node r a z b).nodes) (hz : z ∉ X.nodes) (S : Spliced m m' z x c) : Foc m' x X c := by
  obtain ⟨n1, n2, n3⟩ := nd_plug h.nd
  have hsub : (plug X c).nodes.Sublist (plug (.node r a z b) c).nodes := by
    rw [plug_nodes, plug_nodes]
    exact (List.Sublist.append (List.Sublist.append (List.Sublist.refl _) hs) (List.Sublist.refl _))
  have zc : z ∉ cnodes c := n3 z (by simp [T.nodes])
  have oc : 0 ∉ cnodes c := fun hh => h.nz (mem_plug.mpr (Or.inr hh))
  have ox : ∀ k ∈ X.nodes, k ≠ 0 := fun k hk e => h.nz (mem_plug.mpr (Or.inl (e ▸ hs.subset hk)))
  have xc : ∀ k ∈ X.nodes, k ∉ cnodes c := fun k hk => n3 k (hs.subset hk)
  have xp : ∀ k ∈ X.nodes, k ≠ par c := by
    intro k hk
    cases c with
    | nil => exact ox k hk
    | cons f c => intro e; exact xc k hk (mem_cnodes_cons.mpr (Or.inl e))
  have same : ∀ k ∈ cnodes c, k ≠ par c → Same m m' k := by
    intro k hk hp
    have k0 : k ≠ 0 := fun e => oc (e ▸ hk)
    have kz : k ≠ z := fun e => zc (e ▸ hk)
    refine ⟨(agree_iff ..).mpr ⟨fun d => ?_, S.red k kz⟩, ?_⟩
    · rw [S.child d k kz k0, if_neg (by tauto)]
    · rw [S.parent k kz, if_neg (by tauto), if_neg]
      intro e
      exact xc k (hX.link e).1 hk
  have z0 : z ≠ 0 := fun e => h.nz (mem_plug.mpr (Or.inl (by simp [T.nodes, e])))
  refine ⟨?_, ?_, h.nd.sublist hsub, fun hh => h.nz (hsub.subset hh)⟩
  · refine hX.frame (n1.sublist hs) ?_ ?_ ?_
    · intro k hk
      have kz : k ≠ z := fun e => hz (e ▸ hk)
      refine (agree_iff ..).mpr ⟨fun d => ?_, S.red k kz⟩
      rw [S.child d k kz (ox k hk), if_neg (fun h => xp k hk h.2.2)]
    · intro k hk hne
      have kz : k ≠ z := fun e => hz (e ▸ hk)
      rw [S.parent k kz, if_neg (fun h => ox k hk h.2), if_neg (Ne.symm hne)]
    · intro k hk
      have hm := (hX.link hk).1
      have kz : k ≠ z := fun e => hz (e ▸ hm)
      rw [S.parent k kz, if_neg (fun h => ox k hm h.2), if_pos hk]
  · refine h.repc.hole n2 ?_ ?_
    · rintro rfl
      rw [S.parent 0 z0.symm, if_pos ⟨rfl, rfl⟩]
    · rintro f c' rfl
      obtain ⟨m1, m2, m3, m4, m5⟩ := nd_cons n2
      have fm : f.i ∈ cnodes (f :: c') := mem_cnodes_cons.mpr (Or.inl rfl)
      have f0 : f.i ≠ 0 := fun e => oc (e ▸ fm)
      have fz : f.i ≠ z := fun e => zc (e ▸ fm)
      refine ⟨?_, ?_, S.red _ fz, ?_, ?_, ?_, ?_⟩
      · rw [S.child f.d f.i fz f0, if_pos ⟨by simp, rfl, rfl⟩]
      · rw [S.child _ f.i fz f0, if_neg]
        rintro ⟨-, e, -⟩
        revert e
        show (!f.d) = f.d → False
        cases f.d <;> simp
      · rw [S.parent f.i fz, if_neg (by simp), if_neg]
        intro e
        exact xc _ (hX.link e).1 fm
      · rw [S.parent 0 z0.symm, if_neg (by simp), if_neg]
        intro e
        exact ox _ (hX.link e).1 rfl
      · intro k hk
        exact same k (mem_cnodes_cons.mpr (by tauto)) (fun e => m1 (by rw [show par (f :: c') = f.i from rfl] at e; exact e ▸ hk))
      · intro k hk
        exact same k (mem_cnodes_cons.mpr (by tauto)) (fun e => m2 (by rw [show par (f :: c') = f.i from rfl] at e; exact e ▸ hk))

/-- `y` put in the place of `z`. -/
structure Replaced (m m' : Mem) (z y : Nat) (c : Ctx) : Prop where
  parent : ∀ k, k ≠ z → m'.parent k = if c = [] ∧ k = 0 then some y else if k = y then some (par c) else
    if m.left z = some k ∨ m.right z = some k then some y else m.parent k
  childy : ∀ d, m'.child d y = m.child d z
  child : ∀ d k, k ≠ z → k ≠ y → k ≠ 0 → m'.child d k = if c ≠ [] ∧ d = lastD c ∧ k = par c then some y else m.child d k
  redy : m'.red y = m.red z
  red : ∀ k, k ≠ z → k ≠ y → m'.red k = m.red k

theorem Foc.replace {m m' : Mem} {r : Bool} {a b : T} {z y : Nat} {c : Ctx} (h : Foc m (some z) (.node r a z b) c)
    (hy : y ∉ (plug (.node r a z b) c).nodes) (y0 : y ≠ 0) (S : Replaced m m' z y c) : Foc m' (some y) (.node r a y b) c := by
  obtain ⟨n1, n2, n3⟩ := nd_plug h.nd
  obtain ⟨k1, k2, k3, k4, k5⟩ := nd_mk (d := true) n1
  obtain ⟨a1, a2, a3, a4, a5⟩ := h.rep
  have zm : z ∈ (T.node r a z b).nodes := by simp [T.nodes]
  have zc : z ∉ cnodes c := n3 z zm
  have yc : y ∉ cnodes c := fun hh => hy (mem_plug.mpr (Or.inr hh))
  have oc : 0 ∉ cnodes c := fun hh => h.nz (mem_plug.mpr (Or.inr hh))
  have am : ∀ k, k ∈ a.nodes ∨ k ∈ b.nodes → k ∈ (T.node r a z b).nodes := by
    intro k hk; simp only [T.nodes, List.mem_append, List.mem_cons]; tauto
  have yab : ∀ k, k ∈ a.nodes ∨ k ∈ b.nodes → k ≠ y := by
    intro k hk e; exact hy (mem_plug.mpr (Or.inl (e ▸ am k hk)))
  have oab : ∀ k, k ∈ a.nodes ∨ k ∈ b.nodes → k ≠ 0 := by
    intro k hk e; exact h.nz (mem_plug.mpr (Or.inl (e ▸ am k hk)))
  have zab : ∀ k, k ∈ a.nodes ∨ k ∈ b.nodes → k ≠ z := by
    rintro k hk rfl; tauto
  have pab : ∀ k, k ∈ a.nodes ∨ k ∈ b.nodes → k ≠ par c := by
    intro k hk
    cases c with
    | nil => exact oab k hk
    | cons f c => intro e; exact n3 k (am k hk) (mem_cnodes_cons.mpr (Or.inl e))
  have z0 : z ≠ 0 := fun e => h.nz (mem_plug.mpr (Or.inl (e ▸ zm)))
  have agr : ∀ k, k ∈ a.nodes ∨ k ∈ b.nodes → Agree m m' k := by
    intro k hk
    refine (agree_iff ..).mpr ⟨fun d => ?_, S.red k (zab k hk) (yab k hk)⟩
    rw [S.child d k (zab k hk) (yab k hk) (oab k hk), if_neg (fun h => pab k hk h.2.2)]
  have lm : ∀ k, m.left z = some k → k ∈ a.nodes := fun k hk => (a4.link hk).1
  have rm : ∀ k, m.right z = some k → k ∈ b.nodes := fun k hk => (a5.link hk).1
  have same : ∀ k ∈ cnodes c, k ≠ par c → Same m m' k := by
    intro k hk hp
    have k0 : k ≠ 0 := fun e => oc (e ▸ hk)
    have kz : k ≠ z := fun e => zc (e ▸ hk)
    have ky : k ≠ y := fun e => yc (e ▸ hk)
    refine ⟨(agree_iff ..).mpr ⟨fun d => ?_, S.red k kz ky⟩, ?_⟩
    · rw [S.child d k kz ky k0, if_neg (by tauto)]
    · rw [S.parent k kz, if_neg (by tauto), if_neg ky, if_neg]
      rintro (e | e)
      · exact n3 k (am k (Or.inl (lm k e))) hk
      · exact n3 k (am k (Or.inr (rm k e))) hk
  have ndn : (plug (T.node r a y b) c).nodes.Nodup ∧ 0 ∉ (plug (T.node r a y b) c).nodes := by
    have e1 : (plug (T.node r a y b) c).nodes = (before c ++ a.nodes) ++ y :: (b.nodes ++ after c) := by rw [plug_nodes]; simp [T.nodes]
    have e2 : (plug (T.node r a z b) c).nodes = (before c ++ a.nodes) ++ z :: (b.nodes ++ after c) := by rw [plug_nodes]; simp [T.nodes]
    have h1 := h.nd
    have h2 := h.nz
    rw [e2] at h1 h2 hy
    rw [e1]
    rw [List.nodup_middle, List.nodup_cons] at h1 ⊢
    constructor
    · refine ⟨fun hh => hy ?_, h1.2⟩
      simp only [List.mem_append, List.mem_cons] at hh ⊢; tauto
    · simp only [List.mem_append, List.mem_cons, not_or] at h2 ⊢
      refine ⟨h2.1, Ne.symm y0, h2.2.2⟩
  by_cases hyz : y = z
  · subst hyz; exact absurd (mem_plug.mpr (Or.inl zm)) hy
  refine ⟨⟨rfl, ?_, ?_, ?_, ?_⟩, ?_, ndn.1, ndn.2⟩
  · rw [S.parent y hyz, if_neg (fun h => y0 h.2), if_pos rfl]
  · rw [S.redy, a3]
  · rw [show m'.left y = m.left z from S.childy true]
    refine a4.frame k3 (fun k hk => agr k (Or.inl hk)) ?_ ?_
    · intro k hk hne
      rw [S.parent k (zab k (Or.inl hk)), if_neg (fun h => oab k (Or.inl hk) h.2), if_neg (yab k (Or.inl hk)), if_neg]
      rintro (e | e)
      · exact hne e.symm
      · exact k5 k hk (rm k e)
    · intro k e
      have hk := lm k e
      rw [S.parent k (zab k (Or.inl hk)), if_neg (fun h => oab k (Or.inl hk) h.2), if_neg (yab k (Or.inl hk)), if_pos (Or.inl e)]
  · rw [show m'.right y = m.right z from S.childy false]
    refine a5.frame k4 (fun k hk => agr k (Or.inr hk)) ?_ ?_
    · intro k hk hne
      rw [S.parent k (zab k (Or.inr hk)), if_neg (fun h => oab k (Or.inr hk) h.2), if_neg (yab k (Or.inr hk)), if_neg]
      rintro (e | e)
      · exact k5 k (lm k e) hk
      · exact hne e.symm
    · intro k e
      have hk := rm k e
      rw [S.parent k (zab k (Or.inr hk)), if_neg (fun h => oab k (Or.inr hk) h.2), if_neg (yab k (Or.inr hk)), if_pos (Or.inr e)]
  · refine h.repc.hole n2 ?_ ?_
    · rintro rfl
      rw [S.parent 0 z0.symm, if_pos ⟨rfl, rfl⟩]
    · rintro f c' rfl
      obtain ⟨m1, m2, m3, m4, m5⟩ := nd_cons n2
      have fm : f.i ∈ cnodes (f :: c') := mem_cnodes_cons.mpr (Or.inl rfl)
      have f0 : f.i ≠ 0 := fun e => oc (e ▸ fm)
      have fz : f.i ≠ z := fun e => zc (e ▸ fm)
      have fy : f.i ≠ y := fun e => yc (e ▸ fm)
      refine ⟨?_, ?_, S.red _ fz fy, ?_, ?_, ?_, ?_⟩
      · rw [S.child f.d f.i fz fy f0, if_pos ⟨by simp, rfl, rfl⟩]
      · rw [S.child _ f.i fz fy f0, if_neg]
        rintro ⟨-, e, -⟩
        revert e
        show (!f.d) = f.d → False
        cases f.d <;> simp
      · rw [S.parent f.i fz, if_neg (by simp), if_neg fy, if_neg]
        rintro (e | e)
        · exact n3 _ (am _ (Or.inl (lm _ e))) fm
        · exact n3 _ (am _ (Or.inr (rm _ e))) fm
      · rw [S.parent 0 z0.symm, if_neg (by simp), if_neg y0.symm, if_neg]
        rintro (e | e)
        · exact oab _ (Or.inl (lm _ e)) rfl
        · exact oab _ (Or.inr (rm _ e)) rfl
      · intro k hk
        exact same k (mem_cnodes_cons.mpr (by tauto)) (fun e => m1 (by rw [show par (f :: c') = f.i from rfl] at e; exact e ▸ hk))
      · intro k hk
        exact same k (mem_cnodes_cons.mpr (by tauto)) (fun e => m2 (by rw [show par (f :: c') = f.i from rfl] at e; exact e ▸ hk))

theorem par_eq_zero {m : Mem} {o : Option Nat} {t : T} {c : Ctx} (h : Foc m o t c) : par c = 0 ↔ c = [] := by
  cases c with
  | nil => simp [par]
  | cons f c =>
    have : f.i ≠ 0 := fun e => h.nz (mem_plug.mpr (Or.inr (mem_cnodes_cons.mpr (Or.inl e.symm))))
    simp [par, this]

theorem lastD_eq {m : Mem} {z : Nat} {t : T} {c : Ctx} (h : Foc m (some z) t c) (hc : c ≠ []) : decide (m.left (par c) = some z) = lastD c := by
  cases c with
  | nil => exact absurd rfl hc
  | cons f c => exact h.wasLeft

/-- What lines 601, 604 of the source do. -/
theorem spliced_op {m : Mem} {z : Nat} {t : T} {c : Ctx} (h : Foc m (some z) t c) (x : Option Nat) :
    Spliced m ((m.adopt x (par c)).setChild x (par c) (decide (m.left (par c) = some z))) z x c := by
  refine ⟨?_, ?_, ?_⟩
  · intro k hk
    rw [setChild_parent, adopt_parent]
    simp only [par_eq_zero h]
  · intro d k hk h0
    rw [setChild_child, adopt_child]
    by_cases hc : c = []
    · have := (par_eq_zero h).mpr hc
      rw [if_neg (by tauto), if_neg (by tauto)]
    · rw [lastD_eq h hc]
      simp only [ne_eq, par_eq_zero h]
  · intro k hk
    rw [setChild_red, adopt_red]

/-! ### At most one child -/

theorem ends_first {c : Ctx} (h : before c = []) : (after c).head?.getD 0 = par c := by
  cases c with
  | nil => rfl
  | cons f c =>
    rw [before] at h
    cases hd : f.d with
    | true => simp [after, hd, par]
    | false => rw [hd] at h; simp at h

theorem ends_last {c : Ctx} (h : after c = []) : (before c).getLast?.getD 0 = par c := by
  cases c with
  | nil => rfl
  | cons f c =>
    rw [after] at h
    cases hd : f.d with
    | false => simp [before, hd, par]
    | true => rw [hd] at h; simp at h

theorem eraseOne_spec {m : Mem} {r : Bool} {a b X : T} {z k : Nat} {c : Ctx} (h : Foc m (some z) (.node r a z b) c) (he : Ends m (plug (.node r a z b) c).nodes)
    (hX : (a = .leaf ∧ X = b) ∨ (b = .leaf ∧ X = a)) (x : Option Nat) (hx : Rep m x X z) (hk : X.height ≤ k) :
    ∃ m', m.eraseOne k z (m.left z) (m.right z) x (par c) (decide (m.left (par c) = some z)) = some m' ∧ Foc m' x X c ∧ Ends m' (plug X c).nodes ∧ m'.red = m.red := by
  have S := spliced_op h x
  obtain ⟨n1, n2, n3⟩ := nd_plug h.nd
  obtain ⟨k1, k2, k3, k4, k5⟩ := nd_mk (d := true) n1
  have z0 : z ≠ 0 := fun e => h.nz (mem_plug.mpr (Or.inl (by simp [T.nodes, e])))
  have hs : X.nodes.Sublist (T.node r a z b).nodes := by
    rcases hX with ⟨rfl, rfl⟩ | ⟨rfl, rfl⟩
    · simp [T.nodes]
    · simp [T.nodes]
  have hz : z ∉ X.nodes := by
    rcases hX with ⟨rfl, rfl⟩ | ⟨rfl, rfl⟩
    · exact k2
    · exact k1
  have h1 := h.splice hx hs hz S
  unfold Mem.eraseOne
  simp only
  set m1 := (m.adopt x (par c)).setChild x (par c) (decide (m.left (par c) = some z)) with hm1
  have l1 : m1.left 0 = m.left 0 := by
    have : m1.child true 0 = m.child true 0 := by
      rw [hm1, setChild_child, adopt_child, if_neg (by rintro ⟨a, -, b⟩; exact a b.symm)]
    exact this
  have r1 : m1.right 0 = m.right 0 := by
    have : m1.child false 0 = m.child false 0 := by
      rw [hm1, setChild_child, adopt_child, if_neg (by rintro ⟨a, -, b⟩; exact a b.symm)]
    exact this
  have red1 : m1.red = m.red := by rw [hm1, setChild_red, adopt_red]
  clear_value m1
  have hL : (plug (.node r a z b) c).nodes = before c ++ a.nodes ++ z :: (b.nodes ++ after c) := by rw [plug_nodes]; simp [T.nodes]
  have hX' : (plug X c).nodes = before c ++ a.nodes ++ (b.nodes ++ after c) := by
    rw [plug_nodes]
    rcases hX with ⟨rfl, rfl⟩ | ⟨rfl, rfl⟩ <;> simp [T.nodes]
  have nd := h.nd
  rw [hL] at he nd
  have nd' := nd
  rw [List.nodup_middle, List.nodup_cons] at nd
  have zb : z ∉ before c ++ a.nodes := fun hh => nd.1 (List.mem_append.mpr (Or.inl hh))
  have za : z ∉ b.nodes ++ after c := fun hh => nd.1 (List.mem_append.mpr (Or.inr hh))
  -- first
  have step1 : ∃ m2, (if m1.left 0 = some z then (m1.minOr k (par c) (m.right z)).map fun v => m1.setLeft 0 (some v)
      else some m1) = some m2 ∧ m2.left 0 = some ((plug X c).nodes.head?.getD 0) ∧ m2.right = m1.right ∧ m2.parent = m1.parent ∧ m2.red = m1.red ∧
      ∀ i, i ≠ 0 → m2.left i = m1.left i := by
    rw [hX', l1, he.first]
    cases hb : before c ++ a.nodes with
    | cons y l =>
      rw [if_neg]
      · exact ⟨m1, rfl, by rw [l1, he.first, hb]; rfl, rfl, rfl, rfl, fun _ _ => rfl⟩
      · intro e
        simp only [List.cons_append, List.head?_cons, Option.getD_some, Option.some.injEq] at e
        exact zb (by rw [hb, ← e]; simp)
    | nil =>
      rw [List.nil_append, List.head?_cons, Option.getD_some, if_pos rfl]
      have hbc : before c = [] := (List.append_eq_nil_iff.mp hb).1
      have han : a.nodes = [] := (List.append_eq_nil_iff.mp hb).2
      have ha : a = .leaf := by
        cases a with
        | leaf => rfl
        | node => simp [T.nodes] at han
      have hval : ∃ v, (m1.minOr k (par c) (m.right z)) = some v ∧ v = (b.nodes ++ after c).head?.getD 0 := by
        cases hr : m.right z with
        | none =>
          have hbl : b = .leaf := by
            have := h.rep.2.2.2.2
            rw [hr] at this
            cases b with
            | leaf => rfl
            | node => cases this.1
          refine ⟨_, rfl, ?_⟩
          rw [hbl]
          exact (ends_first hbc).symm
        | some j =>
          have hb5 := h.rep.2.2.2.2
          have hbl : b ≠ .leaf := by
            rintro rfl
            rw [hr] at hb5; cases hb5
          have hXb : X = b := by
            rcases hX with hX | hX
            · exact hX.2
            · exact absurd hX.1 hbl
          have hxj : x = some j := by
            rw [hXb] at hx
            cases hbe : b with
            | leaf => exact absurd hbe hbl
            | node rb ba bi bb =>
              rw [hbe] at hx hb5
              rw [hx.1, ← hr, hb5.1]
          have hr1 := h1.rep
          rw [hxj] at hr1
          obtain ⟨v, q1, q2⟩ := minimum_spec X hr1 hk
          refine ⟨v, q1, ?_⟩
          rw [← hXb, List.head?_append, q2]; rfl
      obtain ⟨v, q1, q2⟩ := hval
      rw [q1, Option.map_some]
      refine ⟨_, rfl, ?_, rfl, rfl, rfl, fun i hi => upd_ne hi⟩
      rw [List.nil_append, ← q2]
      exact upd_eq (f := m1.left) (i := 0) (a := some v)
  obtain ⟨m2, q1, q2, q3, q4, q5, q6⟩ := step1
  rw [q1, Option.bind_some]
  have h2 : Foc m2 x X c := by
    refine h1.same ?_ (by rw [q4])
    intro i hi
    have i0 : i ≠ 0 := fun e => h1.nz (e ▸ hi)
    exact ⟨⟨q6 i i0, by rw [q3], by rw [q5]⟩, by rw [q4]⟩
  -- last
  have step2 : ∃ m3, (if m2.right 0 = some z then (m2.maxOr k (par c) (m.left z)).map fun v => m2.setRight 0 (some v)
      else some m2) = some m3 ∧ m3.right 0 = some ((plug X c).nodes.getLast?.getD 0) ∧ m3.left = m2.left ∧ m3.parent = m2.parent ∧ m3.red = m2.red ∧
      ∀ i, i ≠ 0 → m3.right i = m2.right i := by
    have eq : before c ++ a.nodes ++ z :: (b.nodes ++ after c) = (before c ++ a.nodes ++ [z]) ++ (b.nodes ++ after c) := by simp
    have hlast := he.last
    rw [eq, List.getLast?_append] at hlast
    rw [hX', show m2.right 0 = m.right 0 by rw [q3, r1], hlast]
    rcases List.eq_nil_or_concat (b.nodes ++ after c) with hb | ⟨l, y, hb⟩
    · rw [hb]
      simp only [List.getLast?_nil, Option.none_or, List.append_nil, List.getLast?_concat, Option.getD_some, if_true]
      have hbc : after c = [] := (List.append_eq_nil_iff.mp hb).2
      have hbn : b.nodes = [] := (List.append_eq_nil_iff.mp hb).1
      have hbl : b = .leaf := by
        cases b with
        | leaf => rfl
        | node => simp [T.nodes] at hbn
      have hval : ∃ v, (m2.maxOr k (par c) (m.left z)) = some v ∧ v = (before c ++ a.nodes).getLast?.getD 0 := by
        cases hr : m.left z with
        | none =>
          have hal : a = .leaf := by
            have := h.rep.2.2.2.1
            rw [hr] at this
            cases a with
            | leaf => rfl
            | node => cases this.1
          refine ⟨_, rfl, ?_⟩
          rw [hal]
          simp only [T.nodes, List.append_nil]
          exact (ends_last hbc).symm
        | some j =>
          have hb5 := h.rep.2.2.2.1
          have hal : a ≠ .leaf := by
            rintro rfl
            rw [hr] at hb5; cases hb5
          have hXb : X = a := by
            rcases hX with hX | hX
            · exact absurd hX.1 hal
            · exact hX.2
          have hxj : x = some j := by
            rw [hXb] at hx
            cases hbe : a with
            | leaf => exact absurd hbe hal
            | node rb ba bi bb =>
              rw [hbe] at hx hb5
              rw [hx.1, ← hr, hb5.1]
          have hr1 := h2.rep
          rw [hxj] at hr1
          obtain ⟨v, q1, q2⟩ := maximum_spec X hr1 hk
          refine ⟨v, q1, ?_⟩
          rw [← hXb, List.getLast?_append, q2]; rfl
      obtain ⟨v, p1, p2⟩ := hval
      rw [p1, Option.map_some]
      refine ⟨_, rfl, ?_, rfl, rfl, rfl, fun i hi => upd_ne hi⟩
      rw [← p2]
      exact upd_eq (f := m2.right) (i := 0) (a := some v)
    · rw [List.concat_eq_append] at hb
      rw [hb, if_neg]
      · refine ⟨m2, rfl, ?_, rfl, rfl, rfl, fun _ _ => rfl⟩
        rw [q3, r1, hlast, hb, ← List.append_assoc]
        simp
      · intro e
        simp only [List.getLast?_concat, Option.some_or, Option.getD_some, Option.some.injEq] at e
        exact za (by rw [hb, ← e]; simp)
  obtain ⟨m3, p1, p2, p3, p4, p5, p6⟩ := step2
  refine ⟨m3, p1, ?_, ⟨by rw [p3, q2], p2, by rw [p5, q5, red1, he.red]⟩, by rw [p5, q5, red1]⟩
  refine h2.same ?_ (by rw [p4])
  intro i hi
  have i0 : i ≠ 0 := fun e => h1.nz (e ▸ hi)
  exact ⟨⟨by rw [p3], p6 i i0, by rw [p5]⟩, by rw [p4]⟩

/-! ### Two children -/

def allLeft (c : Ctx) : Prop := ∀ f ∈ c, f.d = true

theorem before_allLeft {c : Ctx} (h : allLeft c) : before c = [] := by
  induction c with
  | nil => rfl
  | cons f c ih =>
    rw [before, ih (fun g hg => h g (List.mem_cons_of_mem _ hg)), h f (by simp)]; rfl

/-- The first element of a tree. -/
theorem exists_min (t : T) : t ≠ .leaf → ∃ r y X c, t = plug (.node r .leaf y X) c ∧ allLeft c := by
  induction t with
  | leaf => intro h; exact absurd rfl h
  | node r a i b iha ihb =>
    intro _
    by_cases ha : a = .leaf
    · subst ha
      exact ⟨r, i, b, [], rfl, fun f hf => by simp at hf⟩
    · obtain ⟨r', y, X, c, e, hc⟩ := iha ha
      refine ⟨r', y, X, c ++ [⟨true, r, i, b⟩], ?_, ?_⟩
      · rw [plug_append, ← e]; rfl
      · intro f hf
        rcases List.mem_append.mp hf with hf | hf
        · exact hc f hf
        · simp only [List.mem_singleton] at hf; rw [hf]

theorem balC_rename (c' : Ctx) (f : Fr) (i : Nat) (c : Ctx) : ∀ n, BalC (c' ++ f :: c) n → BalC (c' ++ ⟨f.d, f.red, i, f.sib⟩ :: c) n := by
  induction c' with
  | nil => intro n h; exact h
  | cons g c' ih =>
    intro n ⟨h1, h2, h3⟩
    refine ⟨h1, ?_, ih _ h3⟩
    intro hg
    refine ⟨(h2 hg).1, ?_⟩
    have := (h2 hg).2
    cases c' <;> exact this

theorem headRed_rename (c' : Ctx) (f : Fr) (i : Nat) (c : Ctx) : headRed (c' ++ ⟨f.d, f.red, i, f.sib⟩ :: c) = headRed (c' ++ f :: c) := by
  cases c' <;> rfl

theorem rootB_rename (c' : Ctx) (f : Fr) (i : Nat) (c : Ctx) (h : RootB (c' ++ f :: c)) : RootB (c' ++ ⟨f.d, f.red, i, f.sib⟩ :: c) := by
  intro g hg
  rw [List.getLast?_append] at hg
  cases c with
  | nil =>
    simp only [List.getLast?_singleton, Option.some_or, Option.some.injEq] at hg
    rw [← hg]
    exact h f (by simp)
  | cons f' c =>
    apply h g
    rw [List.getLast?_append]
    simpa [List.getLast?_cons_cons] using hg

theorem Foc.plug_down {m : Mem} (c' : Ctx) : ∀ {o : Option Nat} {t : T} {c : Ctx}, Foc m o (plug t c') c → ∃ o', Foc m o' t (c' ++ c) := by
  induction c' with
  | nil => intro o t c h; exact ⟨o, h⟩
  | cons f c' ih =>
    intro o t c h
    obtain ⟨o', h'⟩ := ih h
    exact ⟨_, h'.down⟩

theorem Foc.plug_up {m : Mem} (c' : Ctx) : ∀ {o : Option Nat} {t : T} {c : Ctx}, Foc m o t (c' ++ c) → ∃ o', Foc m o' (plug t c') c := by
  induction c' with
  | nil => intro o t c h; exact ⟨o, h⟩
  | cons f c' ih => intro o t c h; exact ih h.up

/-- The element `y` after `z` is put in its place; with the colour of `z` the tree is as wanted. -/
theorem eraseTwo_spec {m : Mem} {r ry : Bool} {a X : T} {z y zl zr : Nat} {c cy : Ctx}
    (h : Foc m (some z) (.node r a z (plug (.node ry .leaf y X) cy)) c) (hcy : allLeft cy) (hl : m.left z = some zl) (hr : m.right z = some zr) :
    ∃ m', m.eraseTwo z zl zr y (m.right y) (par c) (decide (m.left (par c) = some z)) = some (m', par (cy ++ ⟨false, r, y, a⟩ :: c)) ∧
      Foc (m'.setRed y r) (m.right y) X (cy ++ ⟨false, r, y, a⟩ :: c) ∧ m'.red = m.red ∧ m'.left 0 = m.left 0 ∧ m'.right 0 = m.right 0 := by
  set x := m.right y with hx
  -- names of places
  have hz' : Foc m (m.right z) (plug (.node ry .leaf y X) cy) (⟨false, r, z, a⟩ :: c) := Foc.down' (d := true) h
  obtain ⟨o, hy⟩ := Foc.plug_down cy hz'
  have ho : o = some y := hy.rep.1
  subst ho
  have hleft : m.left y = none := hy.rep.2.2.2.1
  have hcne : cy ++ ⟨false, r, z, a⟩ :: c ≠ [] := by simp
  have S := spliced_op hy x
  have hX : Rep m x X y := hy.rep.2.2.2.2
  obtain ⟨n1, n2, n3⟩ := nd_plug hy.nd
  have yX : y ∉ X.nodes := (nd_mk (d := true) n1).2.1
  have h1 := hy.splice (X := X) hX (by simp [T.nodes]) yX S
  set m1 := (m.adopt x (par (cy ++ ⟨false, r, z, a⟩ :: c))).setChild x (par (cy ++ ⟨false, r, z, a⟩ :: c))
    (decide (m.left (par (cy ++ ⟨false, r, z, a⟩ :: c)) = some y)) with hm1
  obtain ⟨o1, h2⟩ := Foc.plug_up cy h1
  have h3 := h2.up
  simp only at h3
  have h3' : Foc m1 (some z) (.node r a z (plug X cy)) c := h3
  -- `y` is gone
  have yc : y ∉ cnodes (cy ++ ⟨false, r, z, a⟩ :: c) := n3 y (by simp [T.nodes])
  have ynot : y ∉ (plug (.node r a z (plug X cy)) c).nodes := by
    have e : plug (T.node r a z (plug X cy)) c = plug X (cy ++ ⟨false, r, z, a⟩ :: c) := by rw [plug_append]; rfl
    rw [e, mem_plug, not_or]
    exact ⟨yX, yc⟩
  have y0 : y ≠ 0 := fun e => hy.nz (mem_plug.mpr (Or.inl (by simp [T.nodes, e])))
  have zm : z ∈ cnodes (cy ++ ⟨false, r, z, a⟩ :: c) := by
    have : z ∈ (plug T.leaf (cy ++ ⟨false, r, z, a⟩ :: c)).nodes := by
      rw [plug_append]
      show z ∈ (plug (T.mk false r (plug .leaf cy) z a) c).nodes
      exact mem_plug.mpr (Or.inl (mem_mk.mpr (Or.inl rfl)))
    rcases mem_plug.mp this with h | h
    · cases h
    · exact h
  have yz : y ≠ z := fun e => yc (e ▸ zm)
  have z0 : z ≠ 0 := fun e => h.nz (mem_plug.mpr (Or.inl (by simp [T.nodes, e])))
  -- the parent of `y`
  have hpy : m.parent y = some (par (cy ++ ⟨false, r, z, a⟩ :: c)) := hy.rep.2.1
  obtain ⟨w1, w2, w3⟩ := nd_plug h.nd
  obtain ⟨k1, k2, k3, k4, k5⟩ := nd_mk (d := true) w1
  have zlm : zl ∈ a.nodes := (h.rep.2.2.2.1.link hl).1
  have ymb : y ∈ (plug (.node ry .leaf y X) cy).nodes := mem_plug.mpr (Or.inl (by simp [T.nodes]))
  have zly : zl ≠ y := fun e => k5 zl zlm (e ▸ ymb)
  have zlz : zl ≠ z := fun e => k1 (e ▸ zlm)
  have zrm : zr ∈ (plug (.node ry .leaf y X) cy).nodes := (h.rep.2.2.2.2.link hr).1
  have zrz : zr ≠ z := fun e => k2 (e ▸ zrm)
  have ab : ∀ k, k ∈ a.nodes ∨ k ∈ (plug (.node ry .leaf y X) cy).nodes → k ∈ (T.node r a z (plug (.node ry .leaf y X) cy)).nodes := by
    intro k hk; simp only [T.nodes, List.mem_append, List.mem_cons]; tauto
  have nzk : ∀ k, k ∈ a.nodes ∨ k ∈ (plug (.node ry .leaf y X) cy).nodes → k ≠ 0 := by
    intro k hk e; exact h.nz (mem_plug.mpr (Or.inl (e ▸ ab k hk)))
  have npk : ∀ k, k ∈ a.nodes ∨ k ∈ (plug (.node ry .leaf y X) cy).nodes → k ≠ par c := by
    intro k hk
    cases c with
    | nil => exact nzk k hk
    | cons f c => intro e; exact w3 k (ab k hk) (mem_cnodes_cons.mpr (Or.inl e))
  have zpk : z ≠ par c := by
    cases c with
    | nil => exact z0
    | cons f c => intro e; exact w3 z (by simp [T.nodes]) (mem_cnodes_cons.mpr (Or.inl e))
  have xm : ∀ k, x = some k → k ∈ X.nodes := fun k hk => (hX.link hk).1
  have Xb : ∀ k ∈ X.nodes, k ∈ (plug (.node ry .leaf y X) cy).nodes := fun k hk => mem_plug.mpr (Or.inl (by simp [T.nodes, hk]))
  have side : ∀ (d : Bool) (k : Nat) (v w : Option Nat), (if par c ≠ 0 ∧ d = decide (m.left (par c) = some z) ∧ k = par c then v else w) =
      if c ≠ [] ∧ d = lastD c ∧ k = par c then v else w := by
    intro d k v w
    by_cases hc : c = []
    · have := (par_eq_zero h).mpr hc
      rw [if_neg (by tauto), if_neg (by tauto)]
    · rw [lastD_eq h hc]
      simp only [ne_eq, par_eq_zero h]
  have fin : ∀ (m' : Mem) (R : Replaced m1 (m'.setRed y r) z y c), Foc (m'.setRed y r) x X (cy ++ ⟨false, r, y, a⟩ :: c) := by
    intro m' R
    have h4 := h3'.replace ynot y0 R
    have h4' : Foc (m'.setRed y r) (some y) (T.mk true r a y (plug X cy)) c := h4
    have h5 := h4'.down'
    simp only [Bool.not_true] at h5
    obtain ⟨o5, h6⟩ := Foc.plug_down cy h5
    have : o5 = x := by
      -- the link to the subtree of `y`
      cases hXe : X with
      | leaf =>
        have e1 : x = none := by rw [hXe] at hX; exact hX
        rw [hXe] at h6
        rw [e1]; exact h6.rep
      | node rX aX iX bX =>
        have e1 : x = some iX := by rw [hXe] at hX; exact hX.1
        rw [hXe] at h6
        rw [e1]; exact h6.rep.1
    rw [this] at h6
    exact h6
  unfold Mem.eraseTwo
  simp only
  by_cases hyr : y = zr
  · -- `y` is the right child of `z`
    have hcy' : cy = [] := by
      cases cy with
      | nil => rfl
      | cons f cy' =>
        exfalso
        have := (h.rep.2.2.2.2)
        obtain ⟨o', hh⟩ := Foc.plug_up cy' (show Foc m (some f.i) (T.mk f.d f.red (.node ry .leaf y X) f.i f.sib) (cy' ++ ⟨false, r, z, a⟩ :: c) from hy.up)
        -- the parent of `y` is `f.i`, not `z`
        have p1 : m.parent y = some f.i := hpy
        have p2 := (this.link hr).2
        rw [← hyr, p1] at p2
        have : f.i = z := by simpa using p2
        have : z ∈ (plug (.node ry .leaf y X) (f :: cy')).nodes := mem_plug.mpr (Or.inr (mem_cnodes_cons.mpr (Or.inl this.symm)))
        exact k2 this
    subst hcy'
    rw [if_neg (by simp [hyr]), Option.map_some]
    simp only
    refine ⟨_, rfl, fin _ ⟨?_, ?_, ?_, ?_, ?_⟩, ?_, ?_, ?_⟩
    · intro k hk
      have em1 : m1.parent k = if x = some k then some z else m.parent k := by
        rw [hm1, setChild_parent, adopt_parent, if_neg (fun h => z0 h.1)]; rfl
      have el : m1.left z = some zl := by
        have : m1.child true z = m.child true z := by
          rw [hm1, setChild_child, adopt_child, if_neg]
          rintro ⟨-, e, -⟩
          rw [lastD_eq hy hcne] at e
          cases e
        exact this.trans hl
      have er : m1.right z = x := by
        have : m1.child false z = x := by
          rw [hm1, setChild_child, if_pos ⟨z0, by rw [lastD_eq hy hcne]; rfl, rfl⟩]
        exact this
      rw [em1, el, er]
      show (((m.setParent zl (some y)).setLeft y (some zl)).setParent y (some (par c)) |>.setChild (some y) (par c) _).parent k = _
      rw [setChild_parent, setParent_parent]
      show (if par c = 0 ∧ k = 0 then some y else if k = y then some (par c) else if k = zl then some y else m.parent k) = _
      simp only [par_eq_zero h]
      by_cases q1 : c = [] ∧ k = 0
      · rw [if_pos q1, if_pos q1]
      · rw [if_neg q1, if_neg q1]
        by_cases q2 : k = y
        · rw [if_pos q2, if_pos q2]
        · rw [if_neg q2, if_neg q2]
          by_cases q3 : k = zl
          · rw [if_pos q3, if_pos (Or.inl (by rw [q3]))]
          · rw [if_neg q3]
            by_cases q4 : x = some k
            · rw [if_pos (Or.inr q4)]
              exact (hX.link q4).2
            · rw [if_neg, if_neg q4]
              rintro (e | e)
              · exact q3 (by simpa using e.symm)
              · exact q4 e
    · intro d
      have e1 : ((((m.setParent zl (some y)).setLeft y (some zl)).setParent y (some (par c)) |>.setChild (some y) (par c) (decide (m.left (par c) = some z))).setRed y r).child d y =
          if d = true then some zl else x := by
        have : ∀ mm : Mem, (mm.setRed y r).child d y = mm.child d y := fun mm => by cases d <;> rfl
        rw [this, setChild_child, if_neg (fun h => npk y (Or.inr ymb) h.2.2), setParent_child]
        cases d
        · exact hx.symm
        · simp [Mem.child, Mem.setLeft, upd]
      have e2 : m1.child d z = if d = true then some zl else x := by
        rw [hm1, setChild_child, adopt_child, lastD_eq hy hcne]
        cases d
        · rw [if_pos ⟨z0, rfl, rfl⟩]; rfl
        · rw [if_neg (by rintro ⟨-, e, -⟩; cases e)]; exact hl
      rw [e2]
      exact e1
    · intro d k q1 q2 q3
      have e2 : m1.child d k = m.child d k := by
        rw [hm1, setChild_child, adopt_child, if_neg (fun h => q1 h.2.2)]
      rw [e2]
      have : ∀ mm : Mem, (mm.setRed y r).child d k = mm.child d k := fun mm => by cases d <;> rfl
      rw [this, setChild_child, setParent_child, side]
      have e3 : ((m.setParent zl (some y)).setLeft y (some zl)).child d k = m.child d k := by
        cases d
        · rfl
        · simp [Mem.child, Mem.setLeft, upd, q2]; rfl
      rw [e3]
    · show upd _ y r y = m1.red z
      rw [upd_eq, hm1, setChild_red, adopt_red, h.rep.2.2.1]
    · intro k q1 q2
      show upd _ y r k = m1.red k
      rw [upd_ne q2, hm1, setChild_red, setChild_red, adopt_red]; rfl
    · rw [setChild_red]; rfl
    · have : ∀ mm : Mem, (mm.setChild (some y) (par c) (decide (m.left (par c) = some z))).child true 0 = mm.child true 0 := by
        intro mm; rw [setChild_child, if_neg (by rintro ⟨a, -, b⟩; exact a b.symm)]
      refine (this _).trans ?_
      simp [Mem.child, Mem.setLeft, Mem.setParent, upd, y0.symm]
    · have : ∀ mm : Mem, (mm.setChild (some y) (par c) (decide (m.left (par c) = some z))).child false 0 = mm.child false 0 := by
        intro mm; rw [setChild_child, if_neg (by rintro ⟨a, -, b⟩; exact a b.symm)]
      exact this _
  · -- `y` is further down
    obtain ⟨f, cy', rfl⟩ : ∃ f cy', cy = f :: cy' := by
      cases cy with
      | cons f cy' => exact ⟨f, cy', rfl⟩
      | nil =>
        exfalso
        have := h.rep.2.2.2.2.1
        rw [hr] at this
        exact hyr (by simpa using this.symm)
    have hfd : f.d = true := hcy f (by simp)
    set xp := f.i with hxp
    have hparx : par ((f :: cy') ++ ⟨false, r, z, a⟩ :: c) = xp := rfl
    have hlastx : lastD ((f :: cy') ++ ⟨false, r, z, a⟩ :: c) = true := hfd
    rw [hparx] at hpy
    have xpm : xp ∈ (plug (.node ry .leaf y X) (f :: cy')).nodes := mem_plug.mpr (Or.inr (mem_cnodes_cons.mpr (Or.inl rfl)))
    have xpz : xp ≠ z := fun e => k2 (e ▸ xpm)
    have xpy : xp ≠ y := by
      intro e
      apply yc
      rw [← e]
      exact mem_cnodes_cons.mpr (Or.inl rfl)
    have xp0 : xp ≠ 0 := nzk xp (Or.inr xpm)
    have xzr : x ≠ some zr := by
      intro e
      have p1 := (hX.link e).2
      have p2 := (h.rep.2.2.2.2.link hr).2
      rw [p1] at p2
      exact yz (by simpa using p2)
    have xzl : x ≠ some zl := fun e => k5 zl zlm (Xb _ (xm _ e))
    have zlr : zl ≠ zr := fun e => k5 zl zlm (e ▸ zrm)
    have em1 : ∀ k, m1.parent k = if x = some k then some xp else m.parent k := by
      intro k
      rw [hm1, setChild_parent, adopt_parent, hparx, if_neg (fun h => xp0 h.1)]
    have ec1 : ∀ d k, m1.child d k = if d = true ∧ k = xp then x else m.child d k := by
      intro d k
      rw [hm1, setChild_child, adopt_child, lastD_eq hy hcne, hparx, hlastx]
      by_cases q : d = true ∧ k = xp
      · rw [if_pos ⟨xp0, q⟩, if_pos q]
      · rw [if_neg (fun h => q h.2), if_neg q]
    have el : m1.left z = some zl := by
      have := ec1 true z
      rw [if_neg (fun h => xpz h.2.symm)] at this
      exact this.trans hl
    have er : m1.right z = some zr := by
      have := ec1 false z
      rw [if_neg (by simp)] at this
      exact this.trans hr
    rw [if_pos hyr]
    have py' : ((((m.setParent zl (some y)).setLeft y (some zl)).setRight y (some zr)).setParent zr (some y)).parent y = some xp := by
      show (if y = zr then some y else if y = zl then some y else m.parent y) = _
      rw [if_neg hyr, if_neg (Ne.symm zly), hpy]
    rw [py', Option.map_some, Option.map_some]
    simp only
    refine ⟨_, rfl, fin _ ⟨?_, ?_, ?_, ?_, ?_⟩, ?_, ?_, ?_⟩
    · intro k hk
      rw [em1, el, er]
      show (((((((m.setParent zl (some y)).setLeft y (some zl)).setRight y (some zr)).setParent zr (some y)).adopt x xp).setLeft xp x).setParent y (some (par c)) |>.setChild (some y) (par c) _).parent k = _
      rw [setChild_parent, setParent_parent]
      show (if par c = 0 ∧ k = 0 then some y else if k = y then some (par c) else (((((m.setParent zl (some y)).setLeft y (some zl)).setRight y (some zr)).setParent zr (some y)).adopt x xp).parent k) = _
      rw [adopt_parent, setParent_parent]
      show (if par c = 0 ∧ k = 0 then some y else if k = y then some (par c) else if x = some k then some xp else if k = zr then some y else if k = zl then some y else m.parent k) = _
      simp only [par_eq_zero h]
      by_cases q1 : c = [] ∧ k = 0
      · rw [if_pos q1, if_pos q1]
      · rw [if_neg q1, if_neg q1]
        by_cases q2 : k = y
        · rw [if_pos q2, if_pos q2]
        · rw [if_neg q2, if_neg q2]
          by_cases q3 : x = some k
          · rw [if_pos q3, if_neg, if_pos q3]
            rintro (e | e)
            · exact xzl (q3.trans e.symm)
            · exact xzr (q3.trans e.symm)
          · rw [if_neg q3, if_neg q3]
            by_cases q4 : k = zr
            · rw [if_pos q4, if_pos (Or.inr (by rw [q4]))]
            · rw [if_neg q4]
              by_cases q5 : k = zl
              · rw [if_pos q5, if_pos (Or.inl (by rw [q5]))]
              · rw [if_neg q5, if_neg]
                rintro (e | e)
                · exact q5 (by simpa using e.symm)
                · exact q4 (by simpa using e.symm)
    · intro d
      have : ∀ mm : Mem, (mm.setRed y r).child d y = mm.child d y := fun mm => by cases d <;> rfl
      rw [this, setChild_child, if_neg (fun h => npk y (Or.inr ymb) h.2.2), setParent_child, ec1, if_neg (fun h => xpz h.2.symm)]
      cases d
      · have : ∀ mm : Mem, ((mm.setParent zr (some y)).adopt x xp |>.setLeft xp x).child false y = mm.child false y := by
          intro mm
          show ((mm.setParent zr (some y)).adopt x xp).child false y = _
          rw [adopt_child, setParent_child]
        rw [this]
        show upd m.right y (some zr) y = m.right z
        rw [upd_eq, hr]
      · have : ∀ mm : Mem, ((mm.setParent zr (some y)).adopt x xp |>.setLeft xp x).child true y = mm.child true y := by
          intro mm
          show upd ((mm.setParent zr (some y)).adopt x xp).left xp x y = _
          rw [upd_ne xpy.symm]
          show ((mm.setParent zr (some y)).adopt x xp).child true y = _
          rw [adopt_child, setParent_child]
        rw [this]
        show upd m.left y (some zl) y = m.left z
        rw [upd_eq, hl]
    · intro d k q1 q2 q3
      rw [ec1]
      have : ∀ mm : Mem, (mm.setRed y r).child d k = mm.child d k := fun mm => by cases d <;> rfl
      rw [this, setChild_child, setParent_child, side]
      have e3 : (((((m.setParent zl (some y)).setLeft y (some zl)).setRight y (some zr)).setParent zr (some y)).adopt x xp |>.setLeft xp x).child d k =
          if d = true ∧ k = xp then x else m.child d k := by
        cases d
        · rw [if_neg (by simp)]
          show (((((m.setParent zl (some y)).setLeft y (some zl)).setRight y (some zr)).setParent zr (some y)).adopt x xp).child false k = _
          rw [adopt_child, setParent_child]
          show upd m.right y (some zr) k = m.right k
          rw [upd_ne q2]
        · show upd (((((m.setParent zl (some y)).setLeft y (some zl)).setRight y (some zr)).setParent zr (some y)).adopt x xp).left xp x k = _
          by_cases q4 : k = xp
          · rw [q4, upd_eq, if_pos ⟨rfl, rfl⟩]
          · rw [upd_ne q4, if_neg (fun h => q4 h.2)]
            show (((((m.setParent zl (some y)).setLeft y (some zl)).setRight y (some zr)).setParent zr (some y)).adopt x xp).child true k = _
            rw [adopt_child, setParent_child]
            show upd m.left y (some zl) k = m.left k
            rw [upd_ne q2]
      rw [e3]
    · show upd _ y r y = m1.red z
      rw [upd_eq, hm1, setChild_red, adopt_red, h.rep.2.2.1]
    · intro k q1 q2
      show upd _ y r k = m1.red k
      rw [upd_ne q2, hm1, setChild_red, setChild_red, adopt_red]
      show ((((((m.setParent zl (some y)).setLeft y (some zl)).setRight y (some zr)).setParent zr (some y)).adopt x xp)).red k = m.red k
      rw [adopt_red]; rfl
    · rw [setChild_red]
      show ((((((m.setParent zl (some y)).setLeft y (some zl)).setRight y (some zr)).setParent zr (some y)).adopt x xp)).red = m.red
      rw [adopt_red]; rfl
    · have : ∀ mm : Mem, (mm.setChild (some y) (par c) (decide (m.left (par c) = some z))).child true 0 = mm.child true 0 := by
        intro mm; rw [setChild_child, if_neg (by rintro ⟨a, -, b⟩; exact a b.symm)]
      refine (this _).trans ?_
      show upd (((((m.setParent zl (some y)).setLeft y (some zl)).setRight y (some zr)).setParent zr (some y)).adopt x xp).left xp x 0 = m.left 0
      rw [upd_ne (Ne.symm xp0)]
      show (((((m.setParent zl (some y)).setLeft y (some zl)).setRight y (some zr)).setParent zr (some y)).adopt x xp).child true 0 = m.left 0
      rw [adopt_child, setParent_child]
      show upd m.left y (some zl) 0 = m.left 0
      rw [upd_ne (Ne.symm y0)]
    · have : ∀ mm : Mem, (mm.setChild (some y) (par c) (decide (m.left (par c) = some z))).child false 0 = mm.child false 0 := by
        intro mm; rw [setChild_child, if_neg (by rintro ⟨a, -, b⟩; exact a b.symm)]
      refine (this _).trans ?_
      show (((((m.setParent zl (some y)).setLeft y (some zl)).setRight y (some zr)).setParent zr (some y)).adopt x xp).child false 0 = m.right 0
      rw [adopt_child, setParent_child]
      show upd m.right y (some zr) 0 = m.right 0
      rw [upd_ne (Ne.symm y0)]

end PolyOps.RbTree
