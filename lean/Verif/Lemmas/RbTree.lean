import Verif.Model.RbTree
import Mathlib.Tactic.Tauto
import Mathlib.Data.List.Nodup

/-! Trees in the memory of the red-black tree: what a tree with a place in it looks like, and what moving, recolouring and
rotating do. -/
namespace PolyOps.RbTree

inductive T
  | leaf
  | node (red : Bool) (l : T) (i : Nat) (r : T)

/-- `d`: `a` is the left subtree and `b` the right one; otherwise the other way round. -/
def T.mk (d : Bool) (c : Bool) (a : T) (i : Nat) (b : T) : T := if d then .node c a i b else .node c b i a

theorem mk_not (d c : Bool) (a : T) (i : Nat) (b : T) : T.mk (!d) c a i b = T.mk d c b i a := by cases d <;> rfl

def T.nodes : T → List Nat
  | .leaf => []
  | .node _ l i r => l.nodes ++ i :: r.nodes

def T.isRed : T → Bool
  | .leaf => false
  | .node c _ _ _ => c

/-- One step of the path from a place up to the root: `d`: the place is in the left subtree. -/
structure Fr where
  d : Bool
  red : Bool
  i : Nat
  sib : T

abbrev Ctx := List Fr

def plug : T → Ctx → T
  | t, [] => t
  | t, f :: c => plug (T.mk f.d f.red t f.i f.sib) c

/-- What is before the place, and after it. -/
def before : Ctx → List Nat
  | [] => []
  | f :: c => before c ++ (if f.d then [] else f.sib.nodes ++ [f.i])

def after : Ctx → List Nat
  | [] => []
  | f :: c => (if f.d then f.i :: f.sib.nodes else []) ++ after c

theorem plug_nodes (c : Ctx) : ∀ t, (plug t c).nodes = before c ++ t.nodes ++ after c := by
  induction c with
  | nil => intro t; simp [plug, before, after]
  | cons f c ih =>
    intro t
    rw [plug, ih]
    obtain ⟨d, r, i, s⟩ := f
    cases d <;> simp [T.mk, T.nodes, before, after]

def par : Ctx → Nat
  | [] => 0
  | f :: _ => f.i

def Mem.child (m : Mem) (d : Bool) (i : Nat) : Option Nat := if d then m.left i else m.right i

/-- `t` is in memory at the link `o` below `p`. -/
def Rep (m : Mem) : Option Nat → T → Nat → Prop
  | o, .leaf, _ => o = none
  | o, .node c l i r, p => o = some i ∧ m.parent i = some p ∧ m.red i = c ∧ Rep m (m.left i) l i ∧ Rep m (m.right i) r i

/-- The rest of the tree is in memory around the link `o`. -/
def RepC (m : Mem) : Option Nat → Ctx → Prop
  | o, [] => m.parent 0 = o
  | o, f :: c => m.child f.d f.i = o ∧ m.parent f.i = some (par c) ∧ m.red f.i = f.red ∧ Rep m (m.child (!f.d) f.i) f.sib f.i ∧
      RepC m (some f.i) c

/-- The memory holds the tree `plug t c`, `o` is the link to `t`. -/
structure Foc (m : Mem) (o : Option Nat) (t : T) (c : Ctx) : Prop where
  rep : Rep m o t (par c)
  repc : RepC m o c
  nd : (plug t c).nodes.Nodup
  nz : 0 ∉ (plug t c).nodes

theorem rep_mk (m : Mem) (o : Option Nat) (d c : Bool) (a : T) (i : Nat) (b : T) (p : Nat) : Rep m o (T.mk d c a i b) p ↔
    o = some i ∧ m.parent i = some p ∧ m.red i = c ∧ Rep m (m.child d i) a i ∧ Rep m (m.child (!d) i) b i := by
  cases d
  · show (o = some i ∧ m.parent i = some p ∧ m.red i = c ∧ Rep m (m.left i) b i ∧ Rep m (m.right i) a i) ↔ _
    simp only [Mem.child, Bool.not_false, if_true, Bool.false_eq_true, if_false]
    tauto
  · show (o = some i ∧ m.parent i = some p ∧ m.red i = c ∧ Rep m (m.left i) a i ∧ Rep m (m.right i) b i) ↔ _
    simp only [Mem.child, Bool.not_true, if_true, Bool.false_eq_true, if_false]

theorem mk_nodes_perm (d c : Bool) (a : T) (i : Nat) (b : T) : (T.mk d c a i b).nodes.Perm (i :: (a.nodes ++ b.nodes)) := by
  cases d
  · exact List.perm_middle.trans (List.Perm.cons _ List.perm_append_comm)
  · exact List.perm_middle

theorem mem_mk {d c : Bool} {a : T} {i : Nat} {b : T} {k : Nat} : k ∈ (T.mk d c a i b).nodes ↔ k = i ∨ k ∈ a.nodes ∨ k ∈ b.nodes := by
  rw [(mk_nodes_perm d c a i b).mem_iff]; simp

def cnodes (c : Ctx) : List Nat := before c ++ after c

theorem mem_cnodes_cons {f : Fr} {c : Ctx} {k : Nat} : k ∈ cnodes (f :: c) ↔ k = f.i ∨ k ∈ f.sib.nodes ∨ k ∈ cnodes c := by
  show k ∈ (before c ++ (if f.d then [] else f.sib.nodes ++ [f.i])) ++ ((if f.d then f.i :: f.sib.nodes else []) ++ after c) ↔
    k = f.i ∨ k ∈ f.sib.nodes ∨ k ∈ before c ++ after c
  cases f.d <;> simp <;> tauto

theorem mem_plug {t : T} {c : Ctx} {k : Nat} : k ∈ (plug t c).nodes ↔ k ∈ t.nodes ∨ k ∈ cnodes c := by
  rw [plug_nodes]; unfold cnodes; simp; tauto

theorem nd_plug {t : T} {c : Ctx} (h : (plug t c).nodes.Nodup) : t.nodes.Nodup ∧ (cnodes c).Nodup ∧ ∀ k ∈ t.nodes, k ∉ cnodes c := by
  have p : (plug t c).nodes.Perm (t.nodes ++ cnodes c) := by
    rw [plug_nodes]; unfold cnodes
    rw [List.append_assoc]
    refine (List.Perm.append_left _ List.perm_append_comm).trans ?_
    rw [← List.append_assoc]
    exact List.perm_append_comm
  have := p.nodup_iff.mp h
  rw [List.nodup_append] at this
  exact ⟨this.1, this.2.1, fun k h1 h2 => this.2.2 k h1 k h2 rfl⟩

theorem nd_mk {d c : Bool} {a : T} {i : Nat} {b : T} (h : (T.mk d c a i b).nodes.Nodup) : i ∉ a.nodes ∧ i ∉ b.nodes ∧ a.nodes.Nodup ∧
    b.nodes.Nodup ∧ ∀ k ∈ a.nodes, k ∉ b.nodes := by
  have := (mk_nodes_perm d c a i b).nodup_iff.mp h
  rw [List.nodup_cons, List.nodup_append] at this
  simp only [List.mem_append, not_or] at this
  exact ⟨this.1.1, this.1.2, this.2.1, this.2.2.1, fun k h1 h2 => this.2.2.2 k h1 k h2 rfl⟩

theorem nd_cons {f : Fr} {c : Ctx} (h : (cnodes (f :: c)).Nodup) : f.i ∉ f.sib.nodes ∧ f.i ∉ cnodes c ∧ f.sib.nodes.Nodup ∧ (cnodes c).Nodup ∧
    ∀ k ∈ f.sib.nodes, k ∉ cnodes c := by
  have p : (cnodes (f :: c)).Perm ((T.mk f.d f.red .leaf f.i f.sib).nodes ++ cnodes c) := by
    show ((before c ++ (if f.d then [] else f.sib.nodes ++ [f.i])) ++ ((if f.d then f.i :: f.sib.nodes else []) ++ after c)).Perm
      ((T.mk f.d f.red .leaf f.i f.sib).nodes ++ (before c ++ after c))
    cases f.d
    · simp only [Bool.false_eq_true, if_false, T.mk, T.nodes]
      rw [List.nil_append, ← List.append_assoc (f.sib.nodes ++ [f.i])]
      exact List.Perm.append_right _ List.perm_append_comm
    · simp only [if_true, T.mk, T.nodes]
      rw [List.append_nil, List.nil_append, ← List.append_assoc, ← List.append_assoc]
      exact List.Perm.append_right _ List.perm_append_comm
  have := p.nodup_iff.mp h
  rw [List.nodup_append] at this
  obtain ⟨h1, h2, h3⟩ := this
  obtain ⟨-, h5, -, h6, -⟩ := nd_mk h1
  refine ⟨h5, fun hk => h3 f.i (mem_mk.mpr (Or.inl rfl)) f.i hk rfl, h6, h2, fun k k1 k2 => h3 k (mem_mk.mpr (Or.inr (Or.inr k1))) k k2 rfl⟩

/-! ### What a change of other elements leaves -/

/-- Links down and colour as before. -/
def Agree (m m' : Mem) (i : Nat) : Prop := m'.left i = m.left i ∧ m'.right i = m.right i ∧ m'.red i = m.red i

theorem Rep.link {m : Mem} {o : Option Nat} {t : T} {p : Nat} (h : Rep m o t p) {i : Nat} (hi : o = some i) : i ∈ t.nodes ∧ m.parent i = some p := by
  cases t with
  | leaf => rw [show o = none from h] at hi; cases hi
  | node c l j r =>
    obtain ⟨h1, h2, -⟩ := h
    rw [h1] at hi; cases hi
    exact ⟨by simp [T.nodes], h2⟩

theorem Rep.frame {m m' : Mem} {t : T} : ∀ {o : Option Nat} {p p' : Nat}, Rep m o t p → t.nodes.Nodup → (∀ i ∈ t.nodes, Agree m m' i) →
    (∀ i ∈ t.nodes, some i ≠ o → m'.parent i = m.parent i) → (∀ i, o = some i → m'.parent i = some p') → Rep m' o t p' := by
  induction t with
  | leaf => intro o p p' h _ _ _ _; exact h
  | node c l i r ihl ihr =>
    intro o p p' ⟨h1, h2, h3, h4, h5⟩ hn ha hp hr
    obtain ⟨n1, n2, n3, n4, n5⟩ := nd_mk (d := true) hn
    obtain ⟨a1, a2, a3⟩ := ha i (by simp [T.nodes])
    have il : ∀ j ∈ l.nodes, some j ≠ o := fun j hj e => n1 (by rw [h1] at e; cases e; exact hj)
    have ir : ∀ j ∈ r.nodes, some j ≠ o := fun j hj e => n2 (by rw [h1] at e; cases e; exact hj)
    have ml : ∀ j ∈ l.nodes, j ∈ (T.node c l i r).nodes := fun j hj => by simp [T.nodes, hj]
    have mr : ∀ j ∈ r.nodes, j ∈ (T.node c l i r).nodes := fun j hj => by simp [T.nodes, hj]
    refine ⟨h1, hr i h1, by rw [a3, h3], ?_, ?_⟩
    · rw [a1]
      refine ihl h4 n3 (fun j hj => ha j (ml j hj)) (fun j hj _ => hp j (ml j hj) (il j hj)) ?_
      intro j hj
      obtain ⟨k1, k2⟩ := h4.link hj
      rw [hp j (ml j k1) (il j k1), k2]
    · rw [a2]
      refine ihr h5 n4 (fun j hj => ha j (mr j hj)) (fun j hj _ => hp j (mr j hj) (ir j hj)) ?_
      intro j hj
      obtain ⟨k1, k2⟩ := h5.link hj
      rw [hp j (mr j k1) (ir j k1), k2]

/-- All links and the colour as before. -/
def Same (m m' : Mem) (i : Nat) : Prop := Agree m m' i ∧ m'.parent i = m.parent i

theorem Rep.same {m m' : Mem} {t : T} {o : Option Nat} {p : Nat} (h : Rep m o t p) (hn : t.nodes.Nodup) (hs : ∀ i ∈ t.nodes, Same m m' i) :
    Rep m' o t p :=
  h.frame hn (fun i hi => (hs i hi).1) (fun i hi _ => (hs i hi).2) (fun i hi => by
    obtain ⟨k1, k2⟩ := h.link hi
    rw [(hs i k1).2, k2])

theorem Agree.child {m m' : Mem} {i : Nat} (h : Agree m m' i) (d : Bool) : m'.child d i = m.child d i := by
  cases d
  · exact h.2.1
  · exact h.1

theorem RepC.same {m m' : Mem} {c : Ctx} : ∀ {o : Option Nat}, RepC m o c → (cnodes c).Nodup → (∀ i ∈ cnodes c, Same m m' i) →
    m'.parent 0 = m.parent 0 → RepC m' o c := by
  induction c with
  | nil => intro o h _ _ h0; rw [RepC, h0]; exact h
  | cons f c ih =>
    intro o ⟨h1, h2, h3, h4, h5⟩ hn hs h0
    obtain ⟨n1, n2, n3, n4, n5⟩ := nd_cons hn
    have hf := hs f.i (mem_cnodes_cons.mpr (Or.inl rfl))
    refine ⟨by rw [hf.1.child, h1], by rw [hf.2, h2], by rw [hf.1.2.2, h3], ?_, ?_⟩
    · rw [hf.1.child]
      exact h4.same n3 fun i hi => hs i (mem_cnodes_cons.mpr (Or.inr (Or.inl hi)))
    · exact ih h5 n4 (fun i hi => hs i (mem_cnodes_cons.mpr (Or.inr (Or.inr hi)))) h0

/-- The link in the place replaced. -/
theorem RepC.hole {m m' : Mem} {o o' : Option Nat} {c : Ctx} (h : RepC m o c) (hn : (cnodes c).Nodup)
    (h0 : c = [] → m'.parent 0 = o') (h1 : ∀ f c', c = f :: c' → m'.child f.d f.i = o' ∧ m'.child (!f.d) f.i = m.child (!f.d) f.i ∧
      m'.red f.i = m.red f.i ∧ m'.parent f.i = m.parent f.i ∧ m'.parent 0 = m.parent 0 ∧
      (∀ i ∈ f.sib.nodes, Same m m' i) ∧ ∀ i ∈ cnodes c', Same m m' i) : RepC m' o' c := by
  cases c with
  | nil => exact h0 rfl
  | cons f c =>
    obtain ⟨a1, a2, a3, a4, a5⟩ := h
    obtain ⟨n1, n2, n3, n4, n5⟩ := nd_cons hn
    obtain ⟨b1, b2, b3, b4, b5, b6, b7⟩ := h1 f c rfl
    refine ⟨b1, by rw [b4, a2], by rw [b3, a3], ?_, a5.same n4 b7 b5⟩
    rw [b2]
    exact a4.same n3 b6

/-! ### Moving -/

theorem Foc.down {m : Mem} {o : Option Nat} {d r : Bool} {a : T} {i : Nat} {b : T} {c : Ctx} (h : Foc m o (T.mk d r a i b) c) :
    Foc m (m.child d i) a (⟨d, r, i, b⟩ :: c) := by
  obtain ⟨h1, h2, h3, h4⟩ := h
  obtain ⟨a1, a2, a3, a4, a5⟩ := (rep_mk ..).mp h1
  subst a1
  exact ⟨a4, ⟨rfl, a2, a3, a5, h2⟩, h3, h4⟩

theorem Foc.down' {m : Mem} {o : Option Nat} {d r : Bool} {a : T} {i : Nat} {b : T} {c : Ctx} (h : Foc m o (T.mk d r a i b) c) :
    Foc m (m.child (!d) i) b (⟨!d, r, i, a⟩ :: c) := by
  rw [← mk_not] at h
  exact h.down

theorem Foc.up {m : Mem} {o : Option Nat} {t : T} {f : Fr} {c : Ctx} (h : Foc m o t (f :: c)) :
    Foc m (some f.i) (T.mk f.d f.red t f.i f.sib) c := by
  obtain ⟨h1, ⟨a1, a2, a3, a4, a5⟩, h3, h4⟩ := h
  refine ⟨(rep_mk ..).mpr ⟨rfl, a2, a3, ?_, a4⟩, a5, h3, h4⟩
  rw [a1]; exact h1

theorem Foc.link_mk {m : Mem} {o : Option Nat} {d r : Bool} {a : T} {i : Nat} {b : T} {c : Ctx} (h : Foc m o (T.mk d r a i b) c) :
    o = some i := ((rep_mk ..).mp h.rep).1

theorem Foc.parent {m : Mem} {o : Option Nat} {d r : Bool} {a : T} {i : Nat} {b : T} {c : Ctx} (h : Foc m o (T.mk d r a i b) c) :
    m.parent i = some (par c) := ((rep_mk ..).mp h.rep).2.1

theorem Foc.red {m : Mem} {o : Option Nat} {d r : Bool} {a : T} {i : Nat} {b : T} {c : Ctx} (h : Foc m o (T.mk d r a i b) c) :
    m.red i = r := ((rep_mk ..).mp h.rep).2.2.1

theorem Foc.isRed {m : Mem} {o : Option Nat} {t : T} {c : Ctx} (h : Foc m o t c) : m.isRed o = t.isRed := by
  cases t with
  | leaf => rw [show o = none from h.rep]; rfl
  | node r l i s => rw [h.rep.1]; exact h.rep.2.2.1

theorem Foc.leaf {m : Mem} {o : Option Nat} {t : T} {c : Ctx} (h : Foc m o t c) : o = none ↔ t = .leaf := by
  cases t with
  | leaf => exact ⟨fun _ => rfl, fun _ => h.rep⟩
  | node r l i s => rw [h.rep.1]; simp

/-- A change that touches no element of the tree. -/
theorem Foc.same {m m' : Mem} {o : Option Nat} {t : T} {c : Ctx} (h : Foc m o t c) (hs : ∀ i ∈ (plug t c).nodes, Same m m' i)
    (h0 : m'.parent 0 = m.parent 0) : Foc m' o t c := by
  obtain ⟨n1, n2, n3⟩ := nd_plug h.nd
  exact ⟨h.rep.same n1 fun i hi => hs i (mem_plug.mpr (Or.inl hi)), h.repc.same n2 (fun i hi => hs i (mem_plug.mpr (Or.inr hi))) h0, h.nd, h.nz⟩

/-! ### Recolouring -/

theorem plug_nodes_congr {t t' : T} (h : t.nodes = t'.nodes) (c : Ctx) : (plug t c).nodes = (plug t' c).nodes := by
  rw [plug_nodes, plug_nodes, h]

theorem mk_nodes_red (d r r' : Bool) (a : T) (i : Nat) (b : T) : (T.mk d r a i b).nodes = (T.mk d r' a i b).nodes := by cases d <;> rfl

/-- The header as before. -/
def HeadSame (m m' : Mem) : Prop := m'.left 0 = m.left 0 ∧ m'.right 0 = m.right 0 ∧ m'.red 0 = m.red 0

theorem HeadSame.trans {m m' m'' : Mem} (h : HeadSame m m') (h' : HeadSame m' m'') : HeadSame m m'' :=
  ⟨h'.1.trans h.1, h'.2.1.trans h.2.1, h'.2.2.trans h.2.2⟩

theorem HeadSame.refl (m : Mem) : HeadSame m m := ⟨rfl, rfl, rfl⟩

theorem upd_ne {α : Type} {f : Nat → α} {i k : Nat} {a : α} (h : k ≠ i) : upd f i a k = f k := if_neg h
theorem upd_eq {α : Type} {f : Nat → α} {i : Nat} {a : α} : upd f i a i = a := if_pos rfl

theorem Foc.setRed {m : Mem} {o : Option Nat} {d r : Bool} {a : T} {i : Nat} {b : T} {c : Ctx} (h : Foc m o (T.mk d r a i b) c) (r' : Bool) :
    Foc (m.setRed i r') (some i) (T.mk d r' a i b) c ∧ HeadSame m (m.setRed i r') := by
  obtain ⟨n1, n2, n3⟩ := nd_plug h.nd
  obtain ⟨k1, k2, k3, k4, k5⟩ := nd_mk n1
  obtain ⟨a1, a2, a3, a4, a5⟩ := (rep_mk ..).mp h.rep
  subst a1
  have ii : i ∉ cnodes c := n3 i (mem_mk.mpr (Or.inl rfl))
  have i0 : i ≠ 0 := fun e => h.nz (mem_plug.mpr (Or.inl (mem_mk.mpr (Or.inl e.symm))))
  have hs : ∀ k, k ≠ i → Same m (m.setRed i r') k := fun k hk => ⟨⟨rfl, rfl, upd_ne hk⟩, rfl⟩
  have e := plug_nodes_congr (mk_nodes_red d r' r a i b) c
  refine ⟨⟨(rep_mk ..).mpr ⟨rfl, a2, upd_eq, a4.same k3 ?_, a5.same k4 ?_⟩, h.repc.same n2 ?_ rfl, by rw [e]; exact h.nd, by rw [e]; exact h.nz⟩,
    rfl, rfl, upd_ne (Ne.symm i0)⟩
  · intro k hk; exact hs k fun e => k1 (e ▸ hk)
  · intro k hk; exact hs k fun e => k2 (e ▸ hk)
  · intro k hk; exact hs k fun e => ii (e ▸ hk)

/-! ### Rotations -/

def Mem.setChildD (m : Mem) (d : Bool) (i : Nat) (v : Option Nat) : Mem := if d then m.setLeft i v else m.setRight i v

/-- Rotation at `p` towards side `d`. -/
def Mem.rotNoFix (m : Mem) (d : Bool) (p q : Nat) : Mem :=
  let b := m.child d q
  let m := (m.setChildD (!d) p b).adopt b p
  (m.setChildD d q (some p)).setParent p (some q)

def Mem.rot (m : Mem) (d : Bool) (p q pp : Nat) : Mem :=
  let wasLeft := decide (m.left pp = some p)
  ((m.rotNoFix d p q).setParent q (some pp)).setChild (some q) pp wasLeft

theorem rotLeft_eq (m : Mem) (p q pp : Nat) : m.rotLeft p q pp = m.rot true p q pp := rfl
theorem rotRight_eq (m : Mem) (p q pp : Nat) : m.rotRight p q pp = m.rot false p q pp := rfl
theorem rotLeftNoFix_eq (m : Mem) (p q : Nat) : m.rotLeftNoFix p q = m.rotNoFix true p q := rfl
theorem rotRightNoFix_eq (m : Mem) (p q : Nat) : m.rotRightNoFix p q = m.rotNoFix false p q := rfl

section acc
variable (m : Mem) (d e : Bool) (i k : Nat) (v : Option Nat)

@[simp] theorem setChildD_parent : (m.setChildD d i v).parent = m.parent := by cases d <;> rfl
@[simp] theorem setChildD_red : (m.setChildD d i v).red = m.red := by cases d <;> rfl
@[simp] theorem setParent_child : (m.setParent i v).child d k = m.child d k := by cases d <;> rfl
@[simp] theorem setParent_red : (m.setParent i v).red = m.red := rfl
@[simp] theorem setParent_parent : (m.setParent i v).parent k = if k = i then v else m.parent k := rfl
@[simp] theorem setChildD_child : (m.setChildD d i v).child e k = if e = d ∧ k = i then v else m.child e k := by
  cases d <;> cases e <;> simp [Mem.setChildD, Mem.child, Mem.setLeft, Mem.setRight, upd]
@[simp] theorem adopt_child : (m.adopt v i).child d k = m.child d k := by cases v <;> cases d <;> rfl
@[simp] theorem adopt_red : (m.adopt v i).red = m.red := by cases v <;> rfl
@[simp] theorem adopt_parent : (m.adopt v i).parent k = if v = some k then some i else m.parent k := by
  cases v with
  | none => simp [Mem.adopt]
  | some j => simp [Mem.adopt, eq_comm]
@[simp] theorem setChild_red (ll : Bool) : (m.setChild v i ll).red = m.red := by
  unfold Mem.setChild; split
  · rfl
  · split <;> rfl
@[simp] theorem setChild_parent (ll : Bool) : (m.setChild v i ll).parent k = if i = 0 ∧ k = 0 then v else m.parent k := by
  unfold Mem.setChild; split
  · rename_i h; simp [h]
  · rename_i h; cases ll <;> simp [h, Mem.setLeft, Mem.setRight]
@[simp] theorem setChild_child (ll : Bool) : (m.setChild v i ll).child d k = if i ≠ 0 ∧ d = ll ∧ k = i then v else m.child d k := by
  unfold Mem.setChild; split
  · rename_i h; simp [h]
  · rename_i h
    cases ll <;> cases d <;> simp [Mem.child, Mem.setLeft, Mem.setRight, upd, h]
end acc

theorem agree_iff (m m' : Mem) (i : Nat) : Agree m m' i ↔ (∀ d, m'.child d i = m.child d i) ∧ m'.red i = m.red i := by
  constructor
  · intro h; exact ⟨h.child, h.2.2⟩
  · intro h; exact ⟨h.1 true, h.1 false, h.2⟩

theorem rot_parent (m : Mem) (d : Bool) (p q pp k : Nat) : (m.rot d p q pp).parent k =
    if pp = 0 ∧ k = 0 then some q else if k = q then some pp else if k = p then some q else if m.child d q = some k then some p else m.parent k := by
  simp [Mem.rot, Mem.rotNoFix]

theorem rot_child (m : Mem) (d e : Bool) (p q pp k : Nat) : (m.rot d p q pp).child e k =
    if pp ≠ 0 ∧ e = decide (m.left pp = some p) ∧ k = pp then some q else if e = d ∧ k = q then some p
    else if e = (!d) ∧ k = p then m.child d q else m.child e k := by
  simp [Mem.rot, Mem.rotNoFix]

theorem rot_red (m : Mem) (d : Bool) (p q pp : Nat) : (m.rot d p q pp).red = m.red := by simp [Mem.rot, Mem.rotNoFix]

theorem mk_rot_nodes (d r s r' s' : Bool) (a b e : T) (p q : Nat) :
    (T.mk d s' (T.mk d r' a p b) q e).nodes = (T.mk d r a p (T.mk d s b q e)).nodes := by
  cases d <;> simp [T.mk, T.nodes]

/-- The side on which the place is. -/
theorem Foc.wasLeft {m : Mem} {p : Nat} {t : T} {f : Fr} {c : Ctx} (h : Foc m (some p) t (f :: c)) :
    decide (m.left f.i = some p) = f.d := by
  obtain ⟨h1, ⟨a1, a2, a3, a4, a5⟩, h3, h4⟩ := h
  obtain ⟨n1, n2, n3⟩ := nd_plug h3
  have hp := (h1.link rfl).1
  cases hd : f.d with
  | true => rw [hd] at a1; exact decide_eq_true a1
  | false =>
    rw [hd] at a4
    apply decide_eq_false
    intro e
    have := (a4.link e).1
    exact n3 p hp (mem_cnodes_cons.mpr (Or.inr (Or.inl this)))

theorem Foc.rot {m : Mem} {o : Option Nat} {d r s : Bool} {a b e : T} {p q : Nat} {c : Ctx}
    (h : Foc m o (T.mk d r a p (T.mk d s b q e)) c) :
    Foc (m.rot d p q (par c)) (some q) (T.mk d s (T.mk d r a p b) q e) c ∧ HeadSame m (m.rot d p q (par c)) := by
  obtain ⟨n1, n2, n3⟩ := nd_plug h.nd
  obtain ⟨k1, k2, k3, k4, k5⟩ := nd_mk n1
  obtain ⟨l1, l2, l3, l4, l5⟩ := nd_mk k4
  obtain ⟨a1, a2, a3, a4, a5⟩ := (rep_mk ..).mp h.rep
  obtain ⟨b1, b2, b3, b4, b5⟩ := (rep_mk ..).mp a5
  subst a1
  have pq : p ≠ q := fun e => k2 (mem_mk.mpr (Or.inl e))
  have pb : p ∉ b.nodes := fun e => k2 (mem_mk.mpr (Or.inr (Or.inl e)))
  have pe : p ∉ e.nodes := fun e => k2 (mem_mk.mpr (Or.inr (Or.inr e)))
  have qa : q ∉ a.nodes := fun e => k5 q e (mem_mk.mpr (Or.inl rfl))
  have ab : ∀ k ∈ a.nodes, k ∉ b.nodes := fun k h1 h2 => k5 k h1 (mem_mk.mpr (Or.inr (Or.inl h2)))
  have mp : ∀ k, k = p ∨ k = q ∨ k ∈ a.nodes ∨ k ∈ b.nodes ∨ k ∈ e.nodes → k ∈ (T.mk d r a p (T.mk d s b q e)).nodes := by
    intro k hk; rw [mem_mk, mem_mk]; tauto
  have z : ∀ k, k ∈ (T.mk d r a p (T.mk d s b q e)).nodes → k ≠ 0 := fun k hk e => h.nz (mem_plug.mpr (Or.inl (e ▸ hk)))
  have zc : ∀ k, k ∈ cnodes c → k ≠ 0 := fun k hk e => h.nz (mem_plug.mpr (Or.inr (e ▸ hk)))
  have pc : ∀ k, k ∈ (T.mk d r a p (T.mk d s b q e)).nodes → k ≠ par c := by
    intro k hk
    cases c with
    | nil => exact z k hk
    | cons f c => intro e; exact n3 k hk (mem_cnodes_cons.mpr (Or.inl e))
  have lb : ∀ k, m.child d q = some k → k ∈ b.nodes := fun k hk => (b4.link hk).1
  have en := plug_nodes_congr (mk_rot_nodes d r s r s a b e p q) c
  have p0 := z p (mp p (by tauto))
  have q0 := z q (mp q (by tauto))
  have pp := pc p (mp p (by tauto))
  have qp := pc q (mp q (by tauto))
  have agree : ∀ k, k ∈ a.nodes ∨ k ∈ b.nodes ∨ k ∈ e.nodes → Agree m (m.rot d p q (par c)) k := by
    intro k hk
    rw [agree_iff]
    have h1 := pc k (mp k (by tauto))
    have h2 : k ≠ p := by rintro rfl; tauto
    have h3 : k ≠ q := by rintro rfl; tauto
    refine ⟨fun d' => ?_, by rw [rot_red]⟩
    rw [rot_child, if_neg (by tauto), if_neg (by tauto), if_neg (by tauto)]
  have keep : ∀ k, k ∈ a.nodes ∨ k ∈ e.nodes → (m.rot d p q (par c)).parent k = m.parent k := by
    intro k hk
    have h0 := z k (mp k (by tauto))
    have h2 : k ≠ p := by rintro rfl; tauto
    have h3 : k ≠ q := by rintro rfl; tauto
    rw [rot_parent, if_neg (by tauto), if_neg h3, if_neg h2, if_neg]
    intro hk'
    have := lb k hk'
    rcases hk with hk | hk
    · exact ab k hk this
    · exact l5 k this hk
  refine ⟨⟨(rep_mk ..).mpr ⟨rfl, ?_, by rw [rot_red, b3], (rep_mk ..).mpr ⟨?_, ?_, by rw [rot_red, a3], ?_, ?_⟩, ?_⟩, ?_, by rw [en]; exact h.nd,
    by rw [en]; exact h.nz⟩, ?_⟩
  · rw [rot_parent, if_neg (by tauto), if_pos rfl]
  · rw [rot_child, if_neg (by tauto), if_pos ⟨rfl, rfl⟩]
  · rw [rot_parent, if_neg (by tauto), if_neg pq, if_pos rfl]
  · rw [rot_child, if_neg (by tauto), if_neg (by tauto), if_neg (by cases d <;> simp)]
    exact a4.same k3 fun k hk => ⟨agree k (by tauto), keep k (by tauto)⟩
  · rw [rot_child, if_neg (by tauto), if_neg (by tauto), if_pos ⟨rfl, rfl⟩]
    refine b4.frame l3 (fun k hk => agree k (by tauto)) ?_ ?_
    · intro k hk hne
      have h0 := z k (mp k (by tauto))
      rw [rot_parent, if_neg (by tauto), if_neg (by rintro rfl; tauto), if_neg (by rintro rfl; tauto), if_neg (Ne.symm hne)]
    · intro k hk
      have := lb k hk
      have h0 := z k (mp k (by tauto))
      rw [rot_parent, if_neg (by tauto), if_neg (by rintro rfl; tauto), if_neg (by rintro rfl; tauto), if_pos hk]
  · rw [rot_child, if_neg (by tauto), if_neg (by cases d <;> simp), if_neg (by tauto)]
    exact b5.same l4 fun k hk => ⟨agree k (by tauto), keep k (by tauto)⟩
  · have same : ∀ k, k ∈ cnodes c → k ≠ par c → Same m (m.rot d p q (par c)) k := by
      intro k hk hne
      have h0 := zc k hk
      have h2 : k ≠ p := by rintro rfl; exact n3 k (mp k (by tauto)) hk
      have h3 : k ≠ q := by rintro rfl; exact n3 k (mp k (by tauto)) hk
      refine ⟨(agree_iff ..).mpr ⟨fun d' => ?_, by rw [rot_red]⟩, ?_⟩
      · rw [rot_child, if_neg (by tauto), if_neg (by tauto), if_neg (by tauto)]
      · rw [rot_parent, if_neg (by tauto), if_neg h3, if_neg h2, if_neg]
        intro hk'
        exact n3 k (mp k (by have := lb k hk'; tauto)) hk
    refine h.repc.hole n2 ?_ ?_
    · rintro rfl
      rw [rot_parent, if_pos ⟨rfl, rfl⟩]
    · rintro f c' rfl
      obtain ⟨m1, m2, m3, m4, m5⟩ := nd_cons n2
      have hw := h.wasLeft
      have f0 : f.i ≠ 0 := zc f.i (mem_cnodes_cons.mpr (Or.inl rfl))
      have fp : f.i ≠ p := fun e => pp e.symm
      have fq : f.i ≠ q := fun e => qp e.symm
      refine ⟨?_, ?_, by rw [rot_red], ?_, ?_, ?_, ?_⟩
      · rw [rot_child, if_pos ⟨f0, hw.symm, rfl⟩]
      · rw [rot_child, if_neg, if_neg (by tauto), if_neg (by tauto)]
        show ¬ (f.i ≠ 0 ∧ (!f.d) = decide (m.left f.i = some p) ∧ f.i = f.i)
        rw [hw]; cases f.d <;> simp
      · rw [rot_parent, if_neg (by tauto), if_neg fq, if_neg fp, if_neg]
        intro hk'
        exact n3 f.i (mp _ (by have := lb _ hk'; tauto)) (mem_cnodes_cons.mpr (Or.inl rfl))
      · rw [rot_parent, if_neg (fun h => f0 h.1), if_neg (Ne.symm q0), if_neg (Ne.symm p0), if_neg]
        intro hk'
        exact z 0 (mp 0 (by have := lb 0 hk'; tauto)) rfl
      · intro k hk
        exact same k (mem_cnodes_cons.mpr (by tauto)) (fun e => m1 (by rw [show par (f :: c') = f.i from rfl] at e; exact e ▸ hk))
      · intro k hk
        exact same k (mem_cnodes_cons.mpr (by tauto)) (fun e => m2 (by rw [show par (f :: c') = f.i from rfl] at e; exact e ▸ hk))
  · have : ∀ d', (m.rot d p q (par c)).child d' 0 = m.child d' 0 := by
      intro d'
      rw [rot_child, if_neg (by tauto), if_neg (by tauto), if_neg (by tauto)]
    exact ⟨this true, this false, by rw [rot_red]⟩

end PolyOps.RbTree
