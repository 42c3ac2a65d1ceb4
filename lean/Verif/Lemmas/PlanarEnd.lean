import Verif.Lemmas.PlanarRun
import Verif.Lemmas.PlanarTest
import Verif.Lemmas.Region
import Verif.Props.SweepScan
import Verif.Props.RbTree
import Verif.Props.GeomCross

/-! The lines at the end of the intersection sweep: the library's intersection test and its tree fit the assumptions made, and
what is known of neighbours at the end covers all lines. -/
namespace PolyOps.Planarity
open PolyOps PolyOps.SweepCmp PolyOps.Events PolyOps.Sweep

/-! ### The intersection test -/

theorem realEnv_sound (rnd : Rat → Rat) (r : Nat → Bool × Bool) (pos : Clip → Nat → Nat) : EnvSound (realEnv rnd r pos) where
  ok := realEnv_ok rnd r pos
  clean k s t hs ht hc h := clean_of_noSplit rnd _ _ s t hc hs.ne ht.ne h
  tested mk k s t hs ht hc h hm := te_test rnd _ _ hs ht hc (clean_of_noSplit rnd _ _ s t hc hs.ne ht.ne h) hm
  over k s t q c hs ht hc ha ns nt h hp h0 h1 := by
    change intersects rnd (r k).1 (r k).2 s t = some q at h
    have hd : isD s t = 0 := by
      by_contra hd
      unfold intersects at h
      simp only at h
      rw [if_neg hd, if_pos (Or.inl ha)] at h
      cases h
    unfold intersects at h
    simp only at h
    rw [if_pos hd] at h
    obtain ⟨p1, p2, p3⟩ := C17_report s t hd hs.ne ht.ne q h
    obtain ⟨o1, o2, a1, a2, a3, a4⟩ := p3 c hp
    have hpa := hc.aa ha
    have e0 : q.e0 = .end := by
      cases e : q.e0 with
      | start => rw [a3.mpr ((a1.mp e).trans hpa)] at h1; cases h1
      | «end» => rfl
      | no => exact absurd e h0
      | both => rw [(parallel_both h).mp e] at h1; cases h1
    have hb := a2.mp e0
    have nb : c ≠ t.pb := fun e => by rw [a4.mpr e] at h1; cases h1
    have hx := (on_nv nt _ _).mp o2
    refine ⟨⟨ns, nt, hpa, ?_⟩, hb.symm, ?_, e0⟩
    · exact par_slope ns nt hd
    · have h2 : c.x ≤ t.pb.x := by exact_mod_cast hx.2.1
      rcases lt_or_eq_of_le h2 with h2 | h2
      · exact h2
      · exfalso
        apply nb
        have hy := hx.2.2
        rw [h2] at hy
        have hy' := on_nv_y nt (on_b t)
        rw [← hy'] at hy
        have : c.y = t.pb.y := by exact_mod_cast hy
        cases c; cases hq : t.pb; simp_all

/-! ### The tree -/

/-- The place a tree puts a node: the tree of the state is searched with `sweep_cmp` and the node's number in the order of the new
tree is taken. -/
def treePos (tree : Clip → RbTree.Mem) (s : Clip) (n : Nat) : Nat :=
  match (tree s).insert (fun i j => sweepCmp (s.cseg i) (s.cseg j)) (RbTree.bound s.sweep) n with
  | some (m, _, true) => ((m.walk (RbTree.bound (n :: s.sweep)) (s.sweep.length + 1) (m.left 0)).getD []).idxOf n
  | _ => 0

/-- A red-black tree of each sweep set. -/
def Trees (tree : Clip → RbTree.Mem) : Prop := ∀ s : Clip, s.sweep.Nodup → 0 ∉ s.sweep → RbTree.Ok (tree s) s.sweep

theorem treePos_spec {tree : Clip → RbTree.Mem} (ht : Trees tree) {s : Clip} {n : Nat} (hi : Insertable s n) :
    ∃ a b m, s.sweep = a ++ b ∧ treePos tree s n = a.length ∧ (∀ v, a.getLast? = some v → sweepCmp (s.cseg n) (s.cseg v) = false) ∧
      (∀ v, b.head? = some v → sweepCmp (s.cseg n) (s.cseg v) = true) ∧
      (tree s).insert (fun i j => sweepCmp (s.cseg i) (s.cseg j)) (RbTree.bound s.sweep) n = some (m, n, true) ∧ RbTree.Ok m (a ++ n :: b) := by
  obtain ⟨n1, n2⟩ := List.nodup_cons.mp hi.nd
  have z := hi.nz
  rw [List.mem_cons, not_or] at z
  obtain ⟨a, b, e, h1, h2, -, h4⟩ := RbTree.C34_insert_any (fun i j => sweepCmp (s.cseg i) (s.cseg j)) (ht s n2 z.2) n1 (Ne.symm z.1) le_rfl
  obtain ⟨m, g1, g2⟩ := h4 (by
    intro v hv
    have hv' : v ∈ s.sweep := by rw [e]; exact List.mem_append.mpr (Or.inl (List.mem_of_getLast? hv))
    rcases C22_total (s.cseg v) (s.cseg n) (hi.inj v hv') with h | h
    · exact h
    · rw [h1 v hv] at h; cases h)
  refine ⟨a, b, m, e, ?_, h1, h2, g1, g2⟩
  have lenb : (a ++ n :: b).length = (n :: s.sweep).length := by rw [e]; simp; omega
  unfold treePos
  rw [g1]
  simp only
  have hb : RbTree.bound (n :: s.sweep) = RbTree.bound (a ++ n :: b) := by unfold RbTree.bound; rw [lenb]
  rw [hb, RbTree.C34_iterate g2 le_rfl (by rw [lenb]; simp)]
  have na : n ∉ a := fun h => n1 (by rw [e]; exact List.mem_append.mpr (Or.inl h))
  rw [Option.getD_some, List.idxOf_append_of_notMem na, List.idxOf_cons_self]; simp

theorem tree_posOk (rnd : Rat → Rat) (r : Nat → Bool × Bool) {tree : Clip → RbTree.Mem} (ht : Trees tree) : PosOk (realEnv rnd r (treePos tree)) := by
  intro s n l1 mid l2 hi hs h1 h2
  obtain ⟨a, b, m, e, hp, ha, hb, -, -⟩ := treePos_spec ht hi
  have hpos : (realEnv rnd r (treePos tree)).pos s n = a.length := hp
  have hmin : min a.length s.sweep.length = a.length := by rw [e]; simp
  rw [hpos, hmin]
  have e' : a ++ b = l1 ++ (mid ++ l2) := by rw [← e, hs]; simp
  constructor
  · by_contra hc
    push Not at hc
    obtain ⟨d, rfl⟩ : ∃ d, l1 = a ++ d := by
      rw [List.append_eq_append_iff] at e'
      rcases e' with ⟨d, h, _⟩ | ⟨d, h, _⟩
      · exact ⟨d, h⟩
      · rw [h] at hc; simp at hc
    cases d with
    | nil => simp at hc
    | cons v d =>
      rw [List.append_assoc, List.append_cancel_left_eq] at e'
      have q1 := hb v (by rw [e']; rfl)
      have q2 := h1 v (by simp)
      rw [C22_asymm _ _ q1] at q2; cases q2
  · by_contra hc
    push Not at hc
    rw [← List.append_assoc] at e'
    generalize l1 ++ mid = l at *
    obtain ⟨d, rfl⟩ : ∃ d, a = l ++ d := by
      rw [List.append_eq_append_iff] at e'
      rcases e' with ⟨d, h, _⟩ | ⟨d, h, _⟩
      · rw [h] at hc; simp at hc
      · exact ⟨d, h⟩
    rcases List.eq_nil_or_concat d with rfl | ⟨d, v, rfl⟩
    · simp at hc
    · rw [List.append_assoc, List.append_cancel_left_eq] at e'
      have q1 := ha v (by rw [List.concat_eq_append, ← List.append_assoc]; simp)
      have q2 := h2 v (by rw [← e']; simp)
      rw [q1] at q2; cases q2

/-- There are such trees. -/
theorem exists_trees : ∃ tree, Trees tree := by
  have key : ∀ L : List Nat, L.Nodup → 0 ∉ L → ∃ m, RbTree.Ok m L := by
    intro L
    induction L using List.reverseRecOn with
    | nil => intro _ _; exact ⟨_, RbTree.C34_init ⟨fun _ => none, fun _ => none, fun _ => none, fun _ => false⟩⟩
    | append_singleton L n ih =>
      intro h1 h2
      rw [List.mem_append, not_or, List.mem_singleton] at h2
      have h3 := List.nodup_append.mp h1
      obtain ⟨m, hm⟩ := ih h3.1 h2.1
      obtain ⟨m', _, h⟩ := RbTree.C34_insert_end hm (fun h => h3.2.2 n h n (by simp) rfl) (Ne.symm h2.2) le_rfl
      exact ⟨m', h⟩
  classical
  refine ⟨fun s => if h : s.sweep.Nodup ∧ 0 ∉ s.sweep then (key s.sweep h.1 h.2).choose else ⟨fun _ => none, fun _ => none, fun _ => none, fun _ => false⟩, ?_⟩
  intro s h1 h2
  simp only
  rw [dif_pos ⟨h1, h2⟩]
  exact (key s.sweep h1 h2).choose_spec

/-! ### Added points with exact arithmetic -/

/-- Points reported by the test have a property `Q` with respect to the ends of both lines. -/
def EnvLog (Q : Pt → Pt → Pt → Prop) (env : Env) : Prop := ∀ k s t r c, SOk s → SOk t → Consistent s t → env.isect k s t = some r → r.p = some c →
  Q s.pa s.pb c ∧ Q t.pa t.pb c

/-- The same for lines of which the ends are in a relation `R`. -/
def EnvLogOn (R : Pt → Pt → Prop) (Q : Pt → Pt → Pt → Prop) (env : Env) : Prop := ∀ k s t r c, SOk s → SOk t → Consistent s t → R s.pa s.pb → R t.pa t.pb →
  env.isect k s t = some r → r.p = some c → Q s.pa s.pb c ∧ Q t.pa t.pb c

/-- The same for pairs of lines in a relation `K`. -/
def EnvLogK (R : Pt → Pt → Prop) (K : CSeg → CSeg → Prop) (Q : Pt → Pt → Pt → Prop) (env : Env) : Prop := ∀ k s t r c, SOk s → SOk t → Consistent s t →
  R s.pa s.pb → R t.pa t.pb → K s t → env.isect k s t = some r → r.p = some c → Q s.pa s.pb c ∧ Q t.pa t.pb c

/-- In the rectangle spanned by two points. -/
def Box (a b c : Pt) : Prop := InBox c a b

theorem Box.symm {a b c : Pt} (h : Box a b c) : Box b a c := by unfold Box InBox at *; omega

/-- Between two points horizontally. -/
def XIn (a b c : Pt) : Prop := min a.x b.x ≤ c.x ∧ c.x ≤ max a.x b.x

theorem XIn.symm {a b c : Pt} (h : XIn a b c) : XIn b a c := by unfold XIn at *; omega

theorem Box.xin {a b c : Pt} (h : Box a b c) : XIn a b c := ⟨h.1, h.2.1⟩

theorem on_box {s : CSeg} {c : Pt} (h : On s c.x c.y) : Box s.pa s.pb c := by
  obtain ⟨t, h0, h1, hx, hy⟩ := h
  have key : ∀ a b n : Int, (n : Rat) = a + t * ((b : Rat) - a) → min a b ≤ n ∧ n ≤ max a b := by
    intro a b n e
    have e1 : ((min a b : Int) : Rat) ≤ n := by
      rw [e]; push_cast
      rcases le_total (a : Rat) b with h | h
      · rw [min_eq_left h]; nlinarith
      · rw [min_eq_right h]; nlinarith
    have e2 : (n : Rat) ≤ (max a b : Int) := by
      rw [e]; push_cast
      rcases le_total (a : Rat) b with h | h
      · rw [max_eq_right h]; nlinarith
      · rw [max_eq_left h]; nlinarith
    exact ⟨by exact_mod_cast e1, by exact_mod_cast e2⟩
  have kx := key _ _ _ hx
  have ky := key _ _ _ hy
  exact ⟨kx.1, kx.2, ky.1, ky.2⟩

/-- With exact arithmetic the test reports a point of both lines, or one that is less than one unit away from the crossing in each
coordinate. -/
theorem realEnv_report (r : Nat → Bool × Bool) (pos : Clip → Nat → Nat) {k : Nat} {s t : CSeg} {q : Isect} {c : Pt} (hs : SOk s) (ht : SOk t)
    (h : (realEnv id r pos).isect k s t = some q) (hp : q.p = some c) : (On s c.x c.y ∧ On t c.x c.y) ∨
      (isD s t ≠ 0 ∧ (∃ x y, On s x y ∧ On t x y ∧ |(c.x : Rat) - x| < 1 ∧ |(c.y : Rat) - y| < 1) ∧ Box s.pa s.pb c ∧ Box t.pa t.pb c) := by
  change intersects id (r k).1 (r k).2 s t = some q at h
  have on : On s c.x c.y → On t c.x c.y → (On s c.x c.y ∧ On t c.x c.y) ∨
      (isD s t ≠ 0 ∧ (∃ x y, On s x y ∧ On t x y ∧ |(c.x : Rat) - x| < 1 ∧ |(c.y : Rat) - y| < 1) ∧ Box s.pa s.pb c ∧ Box t.pa t.pb c) := fun o1 o2 => Or.inl ⟨o1, o2⟩
  by_cases hd : isD s t = 0
  · unfold intersects at h
    simp only at h
    rw [if_pos hd] at h
    obtain ⟨p1, p2, p3⟩ := C17_report s t hd hs.ne ht.ne q h
    obtain ⟨o1, o2, -⟩ := p3 c hp
    exact on o1 o2
  · have hi : ¬ SharesIndex s t := by
      intro hi
      unfold intersects at h
      simp only at h
      rw [if_neg hd, if_pos (show _ ∨ _ from hi)] at h
      cases h
    obtain ⟨x, y, a, b, a0, a1, b0, b1, h1, h2⟩ := (C15_intersects_iff id (r k).1 (r k).2 s t hd hi).mp (by rw [h]; rfl)
    obtain ⟨ea, eb⟩ := (cramer s t hd a b).mp ⟨x, y, h1, h2⟩
    have hd' : (isD s t : Rat) ≠ 0 := by exact_mod_cast hd
    have onx : ∀ c' : Pt, x = c'.x → y = c'.y → On s c'.x c'.y ∧ On t c'.x c'.y := by
      intro c' e1 e2
      rw [← e1, ← e2]
      exact ⟨⟨a, a0, a1, h1⟩, ⟨b, b0, b1, h2⟩⟩
    have z : ∀ {w : Rat} {p p' : Pt}, At p p' w x y → (w = 0 → x = p.x ∧ y = p.y) ∧ (w = 1 → x = p'.x ∧ y = p'.y) := by
      intro w p p' h
      constructor
      · rintro rfl; obtain ⟨g1, g2⟩ := h; constructor <;> linarith
      · rintro rfl; obtain ⟨g1, g2⟩ := h; constructor <;> linarith
    have nz : ∀ {w : Rat} {n : Int}, w * isD s t = n → (n = 0 → w = 0) ∧ (n = isD s t → w = 1) := by
      intro w n e
      constructor
      · rintro rfl
        rcases mul_eq_zero.mp (e.trans (by norm_num)) with h | h
        · exact h
        · exact absurd h hd'
      · rintro rfl
        exact mul_right_cancel₀ hd' (e.trans (one_mul _).symm)
    unfold intersects at h
    simp only at h
    rw [if_neg hd, if_neg (by exact hi)] at h
    split at h
    · cases h
    split at h
    · cases h
    split at h
    · rename_i c0
      cases h; cases hp
      have := onx _ ((z h1).1 ((nz ea).1 c0)).1 ((z h1).1 ((nz ea).1 c0)).2
      exact on this.1 this.2
    split at h
    · rename_i c0
      cases h; cases hp
      have := onx _ ((z h1).2 ((nz ea).2 c0)).1 ((z h1).2 ((nz ea).2 c0)).2
      exact on this.1 this.2
    split at h
    · rename_i c0
      cases h; cases hp
      have := onx _ ((z h2).1 ((nz eb).1 c0)).1 ((z h2).1 ((nz eb).1 c0)).2
      exact on this.1 this.2
    split at h
    · rename_i c0
      cases h; cases hp
      have := onx _ ((z h2).2 ((nz eb).2 c0)).1 ((z h2).2 ((nz eb).2 c0)).2
      exact on this.1 this.2
    · cases h
      obtain ⟨g3, g4, g1, g2⟩ := C16_exact (r k).1 (r k).2 s t hd x y a b a0 a1 b0 b1 h1 h2 c hp
      exact Or.inr ⟨hd, ⟨x, y, ⟨a, a0, a1, h1⟩, ⟨b, b0, b1, h2⟩, g3, g4⟩, g1, g2⟩

/-- Exact arithmetic gives points in the rectangles of both lines. -/
theorem realEnv_box (r : Nat → Bool × Bool) (pos : Clip → Nat → Nat) : EnvLog Box (realEnv id r pos) := by
  intro k s t q c hs ht hc h hp
  rcases realEnv_report r pos hs ht h hp with ⟨h1, h2⟩ | ⟨_, _, h1, h2⟩
  · exact ⟨on_box h1, on_box h2⟩
  · exact ⟨h1, h2⟩

/-- Each added point has the property with respect to the ends of the line it was put into. -/
def LogIn (Q : Pt → Pt → Pt → Prop) (N : Nat) (f : Clip) : Prop := ∀ k ab, f.log[k]? = some ab → ab.1 < f.np ∧ ab.2 < f.np ∧
  Q (f.lp ab.1).data (f.lp ab.2).data (f.lp (N + k)).data

/-- In addition the ends of each line are in a relation. -/
structure LogOn (R : Pt → Pt → Prop) (Q : Pt → Pt → Pt → Prop) (N : Nat) (f : Clip) : Prop where
  log : LogIn Q N f
  rel : ∀ i < f.np, R (f.lp i).data (f.lp (f.lp i).next).data

theorem splits_one {f g : Nat → Nat} {n m a b : Nat} (h : Splits f n [(a, b)] g m) : g = setFn (setFn f a n) n b := by
  generalize hl : [(a, b)] = l at h
  cases h with
  | nil => cases hl
  | snoc h1 h2 h3 =>
    rename_i l' g' m' a' b'
    have : l' = [] := by
      have := congrArg List.length hl
      simp at this
      exact this
    subst this
    cases hl
    generalize hl : ([] : List (Nat × Nat)) = l at h1
    cases h1 with
    | nil => rfl
    | snoc => simp at hl

section
variable {R : Pt → Pt → Prop} {Q : Pt → Pt → Pt → Prop} (hQ : ∀ a b c, Q a b c → Q b a c) (hS : ∀ a b, R a b → R b a)
  (hC : ∀ a b c, R a b → Q a b c → R a c ∧ R c b)

include hQ in
theorem LogIn.put {N : Nat} {s u : Clip} (h : Inv0 s) (hN : Count N s) {n : Nat} {c : Pt} {i : Nat} (hp : SplitAt s u n c i) (hx : Ext s u)
    (hc : Q (s.cseg n).pa (s.cseg n).pb c) (hR : LogIn Q N s) : LogIn Q N u := by
  have hj := h.next_lt _ hp.hi
  have xt : ∀ m < s.np, (u.lp m).data = (s.lp m).data := hx.ref.data
  have xc : (u.lp s.np).data = c := hp.data
  intro k ab hk
  rw [hp.log] at hk
  rw [hp.np]
  unfold Count at hN
  rcases lt_trichotomy k s.log.length with hlt | rfl | hgt
  · rw [List.getElem?_append_left hlt] at hk
    obtain ⟨a1, a2, a3⟩ := hR k ab hk
    rw [xt _ a1, xt _ a2, xt _ (by omega)]
    exact ⟨by omega, by omega, a3⟩
  · rw [List.getElem?_append_right le_rfl] at hk
    simp only [Nat.sub_self, List.getElem?_cons_zero, Option.some.injEq] at hk
    subst hk
    rw [← hN, xc]
    simp only
    rw [xt i hp.hi, xt _ hj]
    have hi := hp.hi
    refine ⟨by omega, by omega, ?_⟩
    unfold Clip.cseg at hc
    rw [hp.seg] at hc
    unfold Clip.lineSeg at hc
    split at hc
    · exact hQ _ _ _ hc
    · exact hc
  · rw [List.getElem?_eq_none (by simp; omega)] at hk; cases hk

theorem LogIn.of {N : Nat} {s t : Clip} (h : LogIn Q N s) (h1 : t.log = s.log) (h2 : t.np = s.np) (h3 : ∀ i, (t.lp i).data = (s.lp i).data) : LogIn Q N t := by
  intro k ab hk
  rw [h2, h3, h3, h3]; exact h k ab (h1 ▸ hk)

include hQ hC in
theorem LogOn.put {N : Nat} {s u : Clip} (h : Inv0 s) (hN : Count N s) {n : Nat} {c : Pt} {i : Nat} (hp : SplitAt s u n c i) (hx : Ext s u)
    (hc : Q (s.cseg n).pa (s.cseg n).pb c) (hR : LogOn R Q N s) : LogOn R Q N u := by
  refine ⟨hR.log.put hQ h hN hp hx hc, fun j hj => ?_⟩
  have hn : ∀ j < s.np, j ≠ i → (u.lp j).next = (s.lp j).next := by
    intro j hj hji
    obtain ⟨l, e1, e2⟩ := hx.log
    rw [hp.log, List.append_cancel_left_eq] at e1
    subst e1
    have := splits_one e2
    have := congrFun this j
    unfold setFn at this
    rw [if_neg (by omega), if_neg hji] at this
    exact this
  have xt : ∀ m < s.np, (u.lp m).data = (s.lp m).data := hx.ref.data
  have hc' : Q (s.lp i).data (s.lp (s.lp i).next).data c := by
    unfold Clip.cseg at hc
    rw [hp.seg] at hc
    unfold Clip.lineSeg at hc
    split at hc
    · exact hQ _ _ _ hc
    · exact hc
  obtain ⟨k1, k2⟩ := hC _ _ _ (hR.rel i hp.hi) hc'
  have hj' : j < s.np + 1 := hp.np ▸ hj
  by_cases e : j = i
  · subst e
    rw [hp.nexti, hp.data, xt _ hp.hi]; exact k1
  · by_cases e2 : j = s.np
    · subst e2
      rw [hp.nextc, hp.data, xt _ (h.next_lt _ hp.hi)]; exact k2
    · have : j < s.np := by omega
      rw [hn j this e, xt j this, xt _ (h.next_lt j this)]; exact hR.rel j this

theorem LogOn.of {N : Nat} {s t : Clip} (h : LogOn R Q N s) (h1 : t.log = s.log) (h2 : t.np = s.np) (h3 : ∀ i, (t.lp i).data = (s.lp i).data)
    (h4 : ∀ i, (t.lp i).next = (s.lp i).next) : LogOn R Q N t := by
  refine ⟨h.log.of h1 h2 h3, fun i hi => ?_⟩
  rw [h3, h3, h4]
  exact h.rel i (h2 ▸ hi)

theorem LogOn.mark {N : Nat} {s : Clip} (h : LogOn R Q N s) (i : Nat) : LogOn R Q N (s.mark i) := by
  exact h.of rfl rfl (fun j => (mark_fields s i j).1) fun j => (mark_fields s i j).2.1

include hS in
theorem LogOn.seg {N : Nat} {s : Clip} (hi : Inv0 s) (h : LogOn R Q N s) {n : Nat} (hn : s.Live n) : R (s.cseg n).pa (s.cseg n).pb := by
  obtain ⟨i, h1, h2⟩ := hi.own n hn
  unfold Clip.cseg
  rw [h2]
  unfold Clip.lineSeg
  split
  · exact hS _ _ (h.rel i h1)
  · exact h.rel i h1

theorem cseg_ext {s u : Clip} (h : Inv s) (hx : Ext s u) {n : Nat} (hn : n ∈ s.sweep) : u.cseg n = s.cseg n := by
  have hlt := ((h.2.mem n).mp hn).1
  have sl := h.1.seg_lt n hlt.1 hlt.2.1
  unfold Clip.cseg
  rw [hx.seg n hlt.2.1, hx.ref.data _ sl.1, hx.ref.data _ sl.2.1]

include hQ hS hC in
theorem LogOn.check {env : Env} (he : EnvOk env) {K : CSeg → CSeg → Prop} (hr : EnvLogK R K Q env) {N : Nat} {s : Clip} (h : Inv s) (hN : Count N s) (hn : s.q.news = []) {n1 n2 : Nat}
    (h1 : n1 ∈ s.sweep) (h2 : n2 ∈ s.sweep) (hne : n1 ≠ n2) {b : Bool} {t : Clip} (ht : s.checkIsect env n1 n2 = some (b, t)) (hK : K (s.cseg n1) (s.cseg n2))
    (hR : LogOn R Q N s) :
    LogOn R Q N t := by
  have w := world_of_inv h.1
  have L1 : (abs s).L (s.cseg n1) := ⟨n1, sweep_live h h1, rfl⟩
  have L2 : (abs s).L (s.cseg n2) := ⟨n2, sweep_live h h2, rfl⟩
  have o1 := w.ok _ L1
  have o2 := w.ok _ L2
  have base : Sweep.Mid s { s with clock := s.clock + 1 } := ⟨clock_inv h _, hn, clock_ext s _, rfl⟩
  have hR0 : LogOn R Q N { s with clock := s.clock + 1 } := ⟨hR.log, hR.rel⟩
  unfold Clip.checkIsect at ht
  simp only at ht
  cases hr' : env.isect s.clock (s.cseg n1) (s.cseg n2) with
  | none =>
    rw [hr'] at ht
    simp only [Option.some.injEq, Prod.mk.injEq] at ht
    obtain ⟨rfl, rfl⟩ := ht
    exact hR0
  | some r =>
    obtain ⟨hb, hc1, hc2⟩ := he _ _ _ r o1.ne o2.ne hr'
    rw [hr'] at ht
    simp only at ht
    rw [if_neg (not_not.mpr hb)] at ht
    by_cases cno : r.e0 = .no ∨ r.e1 = .no
    · rw [if_pos cno] at ht
      have nb : r.e0 ≠ .both ∧ r.e1 ≠ .both := by
        rcases cno with c | c
        · refine ⟨by rw [c]; simp, fun hh => ?_⟩
          rw [hb.mpr hh] at c; cases c
        · refine ⟨fun hh => ?_, by rw [c]; simp⟩
          rw [hb.mp hh] at c; cases c
      obtain ⟨m1, t1, s1, s2, s3, _, k1, k2⟩ := split_spec base.inv base.news (n := n1) h1 r.p r.e0 nb.1 hc1
      have hn2 : n2 ∈ t1.sweep := s3 n2 h2 (Ne.symm hne)
      have hcs : t1.cseg n2 = s.cseg n2 := by
        have hlt := ((h.2.mem n2).mp h2).1
        have sl := h.1.seg_lt n2 hlt.1 hlt.2.1
        unfold Clip.cseg
        rw [s2.ext.seg n2 hlt.2.1]
        show CSeg.mk (s.seg n2).1 (s.seg n2).2 (t1.lp (s.seg n2).1).data (t1.lp (s.seg n2).2).data = _
        rw [s2.ext.ref.data _ sl.1, s2.ext.ref.data _ sl.2.1]
      obtain ⟨m2, t2, s4, s5, s6, _, k3, k4⟩ := split_spec s2.inv s2.news (n := n2) hn2 r.p r.e1 nb.2 (by rw [hcs]; exact hc2)
      rw [s1] at ht
      simp only [Option.bind_some] at ht
      rw [s4] at ht
      simp only [Option.map_some, Option.some.injEq, Prod.mk.injEq] at ht
      obtain ⟨rfl, rfl⟩ := ht
      obtain ⟨c, hc⟩ : ∃ c, r.p = some c := by
        rcases cno with c | c
        · obtain ⟨c, e, _⟩ := hc1 c; exact ⟨c, e⟩
        · obtain ⟨c, e, _⟩ := hc2 c; exact ⟨c, e⟩
      obtain ⟨b1, b2⟩ := hr _ _ _ r c o1 o2 (w.cons _ _ L1 L2) (hR.seg hS h.1 (sweep_live h h1)) (hR.seg hS h.1 (sweep_live h h2)) hK hr' hc
      have r1 : LogOn R Q N t1 := by
        by_cases c0 : r.e0 = .no
        · obtain ⟨i, hi⟩ := k2 c0 c hc
          exact hR0.put hQ hC base.inv.1 hN hi s2.ext b1
        · rw [k1 c0]; exact hR0
      have r2 : LogOn R Q N t2 := by
        by_cases c1 : r.e1 = .no
        · obtain ⟨i, hi⟩ := k4 c1 c hc
          exact r1.put hQ hC s2.inv.1 (Count.ext (Count.ext hN base.ext) s2.ext) hi s5.ext (by rw [hcs]; exact b2)
        · rw [k3 c1]; exact r1
      exact (r2.mark _).mark _
    · rw [if_neg cno] at ht
      by_cases cb : r.e0 = .both
      · rw [if_pos cb] at ht
        simp only [Option.some.injEq, Prod.mk.injEq] at ht
        obtain ⟨rfl, rfl⟩ := ht
        exact (((hR0.mark _).mark _).mark _).mark _
      · rw [if_neg cb] at ht
        simp only [Option.some.injEq, Prod.mk.injEq] at ht
        obtain ⟨rfl, rfl⟩ := ht
        exact (hR0.mark _).mark _

include hQ hS hC in
theorem LogOn.opt {env : Env} (he : EnvOk env) {K : CSeg → CSeg → Prop} (hr : EnvLogK R K Q env) {N : Nat} {s : Clip} (h : Inv s) (hN : Count N s) (hn : s.q.news = []) {n : Nat}
    (h1 : n ∈ s.sweep) {o : Option Nat} (ho : ∀ m, o = some m → m ∈ s.sweep ∧ m ≠ n) {b : Bool} {t : Clip} (ht : s.checkOpt env n o = some (b, t))
    (hK : ∀ m, o = some m → K (s.cseg n) (s.cseg m)) (hR : LogOn R Q N s) : LogOn R Q N t := by
  cases o with
  | none =>
    unfold Clip.checkOpt at ht
    simp only [Option.some.injEq, Prod.mk.injEq] at ht
    rw [← ht.2]; exact hR
  | some m => exact hR.check hQ hS hC he hr h hN hn h1 (ho m rfl).1 (Ne.symm (ho m rfl).2) ht (hK m rfl)

/-- The pairs of lines tested next are in the relation `K`. -/
structure Pairs (K : CSeg → CSeg → Prop) (s : Clip) : Prop where
  start : ∀ q e, Fwd s q e → e.ty.isFwd = true → ∀ m ∈ s.sweep, K (s.cseg e.node) (s.cseg m)
  «end» : ∀ q e p m, Fwd s q e → e.ty.isFwd = false → e.node ∈ s.sweep → prevOf s.sweep e.node = some p → nextOf s.sweep e.node = some m →
    K (s.cseg p) (s.cseg m)

include hQ hS hC in
theorem step_log {env : Env} (he : EnvOk env) {K : CSeg → CSeg → Prop} (hr : EnvLogK R K Q env) {N : Nat} {s t : Clip} (h : Inv s) (hN : Count N s) (hc : StepCase env s t)
    (hK : Pairs K s) (hR : LogOn R Q N s) : LogOn R Q N t := by
  cases hc with
  | same q ht hl ha => subst ht; exact ⟨hR.log, hR.rel⟩
  | bs q e hB hty hni ht => subst ht; exact ⟨hR.log, hR.rel⟩
  | be q e hB hty hni ht => subst ht; exact ⟨hR.log, hR.rel⟩
  | fe q e t0 hF hty hni ht0 hinv hres =>
    have hR0 : LogOn R Q N t0 := by subst ht0; exact ⟨hR.log, hR.rel⟩
    have hN0 : Count N t0 := by subst ht0; exact hN
    rcases hres with ⟨rfl, _⟩ | ⟨p, m, b, hp, hm, hck⟩
    · exact hR0
    · have hnews : t0.q.news = [] := by rw [ht0]; exact hF.news
      have hnd := h.2.nodup
      have p1 := prevOf_spec hnd hni hp
      have m1 := nextOf_spec hnd hm
      have hsw : t0.sweep = s.sweep.erase e.node := by rw [ht0]
      have hne : p ≠ m := by
        rintro rfl
        obtain ⟨l1, l2, hl⟩ := List.append_of_mem hni
        rw [hl] at hnd hp hm
        have hn1 : e.node ∉ l1 := fun hc => (List.nodup_append.mp hnd).2.2 _ hc _ (by simp) rfl
        rw [prevOf_mid hn1] at hp
        rw [nextOf_mid hn1] at hm
        exact (List.nodup_append.mp hnd).2.2 p (List.mem_of_getLast? hp) p (List.mem_cons_of_mem _ (List.mem_of_head? hm)) rfl
      exact hR0.check hQ hS hC he hr hinv hN0 hnews (by rw [hsw]; exact (hnd.mem_erase_iff).mpr ⟨p1.2, p1.1⟩)
        (by rw [hsw]; exact (hnd.mem_erase_iff).mpr ⟨m1.2, m1.1⟩) hne hck (by rw [ht0]; exact hK.end q e p m hF hty hni hp hm)
  | fs q e t0 u b hF hty hni ht0 hinv hcheck hres =>
    have hR0 : LogOn R Q N t0 := by subst ht0; exact ⟨hR.log, hR.rel⟩
    have hN0 : Count N t0 := by subst ht0; exact hN
    have hnews : t0.q.news = [] := by rw [ht0]; exact hF.news
    have hin : e.node ∈ t0.sweep := by
      rw [ht0]
      exact (List.mem_insertIdx (by omega)).mpr (Or.inl rfl)
    have hold : ∀ m, m ∈ t0.sweep → m ≠ e.node → K (t0.cseg e.node) (t0.cseg m) := by
      intro m hm hne
      rw [ht0] at hm ⊢
      exact hK.start q e hF hty m (((List.mem_insertIdx (by omega)).mp hm).resolve_left hne)
    have hxu := checkOpt_ext he hinv hnews hin (fun m hm => prevOf_spec hinv.2.nodup hin hm) hcheck
    have hRu := hR0.opt hQ hS hC he hr hinv hN0 hnews hin (fun m hm => prevOf_spec hinv.2.nodup hin hm) hcheck
      fun m hm => hold m (prevOf_spec hinv.2.nodup hin hm).1 (prevOf_spec hinv.2.nodup hin hm).2
    rcases hres with ⟨_, rfl⟩ | ⟨hb, c, hc2⟩
    · exact hRu
    · subst hb
      obtain ⟨u1, u2, u3⟩ := hxu.2 rfl
      exact hRu.opt hQ hS hC he hr u1 (Count.ext hN0 hxu.1) u2 (by rw [u3]; exact hin) (fun m hm => nextOf_spec u1.2.nodup hm) hc2
        fun m hm => by
          obtain ⟨h1, h2⟩ := nextOf_spec u1.2.nodup hm
          rw [u3] at h1
          rw [cseg_ext hinv hxu.1 hin, cseg_ext hinv hxu.1 h1]
          exact hold m h1 h2

include hQ hS hC in
/-- If for related ends and pairs in the relation the points that the test reports have the property, so have the added points. -/
theorem reach_logK {env : Env} (he : EnvOk env) {K : CSeg → CSeg → Prop} (hr : EnvLogK R K Q env) {lp : Nat → LP} {np : Nat} (hl : Loops lp np)
    (h0 : ∀ i < np, R (lp i).data (lp (lp i).next).data) 
    (hK : ∀ s, Clip.Reach env lp np s → s.q.more = true → LogOn R Q np s → Pairs K s) {s : Clip} (h : Clip.Reach env lp np s) : LogOn R Q np s := by
  induction h with
  | init h =>
    obtain ⟨s, e1, e2, e3, e4, e5, e6, e7, e8, _⟩ := addLines_spec hl np le_rfl
    rw [e1, Option.some.injEq] at h
    subst h
    refine ⟨fun k ab hk => ?_, fun i hi => ?_⟩
    · have : s.log = [] := by assumption
      rw [this] at hk; simp at hk
    · have h1 : s.lp = lp := by assumption
      have h2 : s.np = np := by assumption
      rw [h1]; exact h0 i (h2 ▸ hi)
  | step h hm hs ih =>
    obtain ⟨hi, _, hsp⟩ := reach_spec he hl h
    obtain ⟨t, t1, t2, t3, _, t5⟩ := step_spec he hi hm
    rw [t1, Option.some.injEq] at hs
    subst hs
    exact step_log hQ hS hC he hr hi hsp.length t5 (hK _ h hm ih) ih

include hQ hS hC in
/-- If for related ends the points that the test reports have the property, so have the added points. -/
theorem reach_logOn {env : Env} (he : EnvOk env) (hr : EnvLogOn R Q env) {lp : Nat → LP} {np : Nat} (hl : Loops lp np)
    (h0 : ∀ i < np, R (lp i).data (lp (lp i).next).data) {s : Clip} (h : Clip.Reach env lp np s) : LogOn R Q np s :=
  reach_logK hQ hS hC he (K := fun _ _ => True) (fun k s t r c h1 h2 h3 h4 h5 _ h6 h7 => hr k s t r c h1 h2 h3 h4 h5 h6 h7) hl h0
    (fun _ _ _ _ => ⟨fun _ _ _ _ _ _ => trivial, fun _ _ _ _ _ _ _ _ _ => trivial⟩) h
end

/-- If the points that the test reports have the property, so have the added points. -/
theorem reach_log {Q : Pt → Pt → Pt → Prop} (hQ : ∀ a b c, Q a b c → Q b a c) {env : Env} (he : EnvOk env) (hr : EnvLog Q env) {lp : Nat → LP} {np : Nat}
    (hl : Loops lp np) {s : Clip} (h : Clip.Reach env lp np s) : LogIn Q np s :=
  (reach_logOn (R := fun _ _ => True) (Q := Q) hQ (fun _ _ _ => trivial) (fun _ _ _ _ _ => ⟨trivial, trivial⟩) he
    (fun k s t r c h1 h2 h3 _ _ h4 h5 => hr k s t r c h1 h2 h3 h4 h5) hl (fun _ _ => trivial) h).log

/-- If the test only reports points in the x-ranges of both lines, points are only added in the x-range of their line. -/
theorem reach_range {env : Env} (he : EnvOk env) (hr : EnvLog XIn env) {lp : Nat → LP} {np : Nat} (hl : Loops lp np) {s : Clip}
    (h : Clip.Reach env lp np s) : RangeOk np s := fun k ab hk => (reach_log (Q := XIn) (fun _ _ _ => XIn.symm) he hr hl h k ab hk).2.2

theorem realEnv_range (r : Nat → Bool × Bool) (pos : Clip → Nat → Nat) : EnvLog XIn (realEnv id r pos) :=
  fun k s t q c hs ht hc h hp => ⟨(realEnv_box r pos k s t q c hs ht hc h hp).1.xin, (realEnv_box r pos k s t q c hs ht hc h hp).2.xin⟩

/-! ### All lines -/

/-- The line of a point and the line of its node. -/
theorem line_seg {f : Clip} (h : Inv0 f) {i : Nat} (hi : i < f.np) : ∃ n, f.Live n ∧
    (((f.cseg n).pa = (f.line i).p ∧ (f.cseg n).pb = (f.line i).q) ∨ ((f.cseg n).pa = (f.line i).q ∧ (f.cseg n).pb = (f.line i).p)) := by
  obtain ⟨n, hn, hs⟩ := h.has i hi
  refine ⟨n, hn, ?_⟩
  unfold Clip.cseg Clip.line
  rw [hs]
  unfold Clip.lineSeg
  split
  · right; exact ⟨rfl, rfl⟩
  · left; exact ⟨rfl, rfl⟩

theorem onq_swap {X Y : Rat} {a b : Pt} (h : OnSegQ X Y a b) : OnSegQ X Y b a := by
  obtain ⟨t, t0, t1, h1, h2⟩ := h
  exact ⟨1 - t, by linarith, by linarith, by rw [h1]; ring, by rw [h2]; ring⟩

/-- Lines that run on together are the same if they are fine at every place. -/
theorem over_coin {u v : CSeg} (ho : Over u v) (h : ∀ X Y, On u X Y → On v X Y → LC u v X Y) : Coin u v := by
  have half : ∀ {u v : CSeg}, Over u v → (∀ X Y, On u X Y → On v X Y → LC u v X Y) → ¬ u.pb.x < v.pb.x := by
    intro u v ho h hlt
    have hlt' : (u.pb.x : Rat) < v.pb.x := by exact_mod_cast hlt
    have hu := ho.ns
    unfold Nv at hu
    have hu' : (v.pa.x : Rat) < u.pb.x := by rw [← ho.pa]; exact_mod_cast hu
    have onv : On v u.pb.x u.pb.y := (on_nv ho.nt _ _).mpr ⟨hu'.le, hlt'.le, by rw [← ho.hAt]; exact on_nv_y ho.ns (on_b u)⟩
    have := (h _ _ (on_b u) onv).end_iff.mp (endq_b u)
    exact not_end hu' hlt' this
  have h1 := half ho h
  have h2 := half ho.symm (fun X Y a b => (h X Y b a).symm)
  have hx : u.pb.x = v.pb.x := by omega
  have e1 := on_nv_y ho.ns (on_b u)
  have e2 := on_nv_y ho.nt (on_b v)
  rw [ho.hAt, hx, ← e2] at e1
  have hy : u.pb.y = v.pb.y := by exact_mod_cast e1
  left
  refine ⟨ho.pa, ?_⟩
  cases hu : u.pb; cases hv : v.pb; simp_all

/-- At the end of the sweep, any two lines are the same or meet only at their ends. -/
theorem planar_end {env : Env} (he : EnvSound env) (hp : PosOk env) {lp : Nat → LP} {np : Nat} (hl : Loops lp np) {f : Clip}
    (hr : Clip.Reach env lp np f) (hm : f.q.more = false) (hR : RangeOk np f) : Planar f.lines := by
  have hJ := reach_abs he hp hl hr (Ext.refl f) hR (StOk.refl f)
  have hi := (reach_spec he.ok hl hr).1
  obtain ⟨-, q2, -, -⟩ := final_queue he.ok hl hr hm
  have hall : ∀ c, (abs f).L c → (abs f).SA c ∧ (abs f).EA c := by
    rintro _ ⟨n, hn, rfl⟩
    refine ⟨⟨n, hn, rfl, ?_⟩, ⟨n, hn, rfl, ?_⟩⟩
    · rw [q2]; exact hi.1.ev_ex n true hn.1 hn.2.1
    · rw [q2]; exact hi.1.ev_ex n false hn.1 hn.2.1
  intro s hs l hl'
  obtain ⟨i, hi1, rfl⟩ := List.mem_map.mp hs
  obtain ⟨j, hj1, rfl⟩ := List.mem_map.mp hl'
  obtain ⟨n, hn, en⟩ := line_seg hi.1 (List.mem_range.mp hi1)
  obtain ⟨m, hm', em⟩ := line_seg hi.1 (List.mem_range.mp hj1)
  have Ln : (abs f).L (f.cseg n) := ⟨n, hn, rfl⟩
  have Lm : (abs f).L (f.cseg m) := ⟨m, hm', rfl⟩
  generalize f.cseg n = u at *
  generalize f.cseg m = v at *
  generalize f.line i = a at *
  generalize f.line j = b at *
  have coin : Coin u v → Coincide a b := by
    rintro (⟨c1, c2⟩ | ⟨c1, c2⟩) <;> rcases en with ⟨g1, g2⟩ | ⟨g1, g2⟩ <;> rcases em with ⟨k1, k2⟩ | ⟨k1, k2⟩ <;>
      unfold Coincide <;> rw [← g1, ← g2, ← k1, ← k2] <;> simp [c1, c2]
  have ony : ∀ {u : CSeg} {a : Line}, ((u.pa = a.p ∧ u.pb = a.q) ∨ (u.pa = a.q ∧ u.pb = a.p)) → ∀ {X Y}, (a.on X Y → On u X Y) ∧ (EndQ u X Y → a.endAt X Y) := by
    intro u a h X Y
    unfold On EndQ IsEnd Line.on Line.endAt
    rcases h with ⟨h1, h2⟩ | ⟨h1, h2⟩ <;> rw [h1, h2]
    · exact ⟨id, id⟩
    · exact ⟨onq_swap, Or.symm⟩
  by_cases huv : u = v
  · subst huv; exact Or.inl (coin (Or.inl ⟨rfl, rfl⟩))
  have hfine : ∀ X Y, On u X Y → On v X Y → LC u v X Y := fun X Y h1 h2 =>
    hJ.fine hall u.pb.x u v Ln Lm huv X Y ((on_x (hJ.w.ok u Ln) h1).2) h1 h2
  by_cases hc : Coin u v
  · exact Or.inl (coin hc)
  · right
    intro X Y h1 h2
    rcases hfine X Y ((ony en).1 h1) ((ony em).1 h2) with ⟨g1, g2⟩ | ⟨_, _, ho⟩ | g
    · exact ⟨(ony en).2 g1, (ony em).2 g2⟩
    · exact absurd (over_coin ho hfine) hc
    · exact absurd g hc

end PolyOps.Planarity
