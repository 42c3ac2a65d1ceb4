import Verif.Lemmas.PlanarStack
import Mathlib.Logic.Relation
import Mathlib.Algebra.Order.Archimedean.Basic
import Mathlib.Algebra.Order.Floor.Ring
import Mathlib.Data.Rat.Floor

/-! The lines of a state of the intersection sweep, seen from the cuts of the event order. If at every cut neighbours are fine, or
excused for the time being, then all lines to the left are. -/
namespace PolyOps.Planarity
open PolyOps PolyOps.SweepCmp

variable {mk : Nat → Prop}

/-- Order of the events. -/
abbrev Key := Int ×ₗ Nat ×ₗ Nat ×ₗ Nat

/-- Key of the start event. -/
def sk (s : CSeg) : Key := toLex (s.pa.x, toLex (if s.pa.x = s.pb.x then 0 else 2, toLex (s.a, s.b)))

/-- Key of the end event. -/
def ek (s : CSeg) : Key := toLex (s.pb.x, toLex (if s.pa.x = s.pb.x then 3 else 1, toLex (s.b, s.a)))

/-- The lines of a state. -/
structure World (L : CSeg → Prop) : Prop where
  ok : ∀ s, L s → SOk s
  cons : ∀ s t, L s → L t → Consistent s t
  inj : ∀ s t, L s → L t → s.a = t.a → s.b = t.b → s = t
  two : ∀ r s t, L r → L s → L t → Nv r → Nv s → Nv t → r.a = s.a → s.a = t.a → r = s ∨ s = t ∨ r = t
  vone : ∀ s t, L s → L t → s.pa.x = s.pb.x → t.pa.x = t.pb.x → s.a = t.a → s = t
  lo : ∃ b : Int, ∀ s, L s → b ≤ s.pa.x

/-- The line is in the sweep at the cut. -/
def InCut (L : CSeg → Prop) (κ : Key) (s : CSeg) : Prop := L s ∧ sk s < κ ∧ κ ≤ ek s

/-- A line joins the places, the second is not to the left. -/
def Link (L : CSeg → Prop) (p q : Pt) : Prop := p.x ≤ q.x ∧ ∃ m, L m ∧ ((m.pa = p ∧ m.pb = q) ∨ (m.pa = q ∧ m.pb = p))

abbrev Chain (L : CSeg → Prop) : Pt → Pt → Prop := Relation.ReflTransGen (Link L)

/-- Lines `u` above `v` that were not tested against each other: they are separate up to the place `b`, which is between them,
and lines lead from `l` to `b`. -/
structure Gap (mk : Nat → Prop) (L : CSeg → Prop) (u v l : CSeg) (b : Pt) : Prop where
  live : L l
  nv : Nv l
  chain : Chain L l.pb b
  sep : Sep b.x u v
  ub : b.x < u.pb.x
  vb : b.x < v.pb.x
  above : hAt v b.x < b.y
  below : (b.y : Rat) < hAt u b.x
  st : u.pa = v.pa → Eqm mk u.a v.a

/-- Excuse: the lines that lead to a place between the two start outside. -/
def Exc1 (mk : Nat → Prop) (L : CSeg → Prop) (κ : Key) (u v : CSeg) : Prop := ∃ l b, Gap mk L u v l b ∧ sk l < κ ∧ sk u < sk l ∧ sk v < sk l ∧
  (sweepCmp l u = true ∨ sweepCmp v l = true)

/-- Excuse: the next event is the start of a line that leads to a place between the two. -/
def Pend (mk : Nat → Prop) (L : CSeg → Prop) (κ : Key) (u v : CSeg) : Prop := ∃ l b m, Gap mk L u v l b ∧ L m ∧ Nv m ∧ m.a = l.a ∧ sk m < κ ∧ κ ≤ sk l

/-- A line starts at the place, or is vertical and ends there. -/
def Wit (L : CSeg → Prop) (p : Pt) : Prop := ∃ r, L r ∧ (r.pa = p ∨ (r.pa.x = r.pb.x ∧ r.pb = p))

/-- Excuse: the two overlap, and another line starts where the shorter one ends. -/
def Exc2 (mk : Nat → Prop) (L : CSeg → Prop) (u v : CSeg) : Prop := Over u v ∧ (u.a ≠ v.a ∧ mk u.a ∧ mk v.a) ∧
  ((u.pb.x < v.pb.x ∧ Wit L u.pb ∧ mk u.b) ∨ (v.pb.x < u.pb.x ∧ Wit L v.pb ∧ mk v.b))

/-- What is known of neighbours. -/
def OK (mk : Nat → Prop) (L : CSeg → Prop) (κ : Key) (u v : CSeg) : Prop := Ct mk u v ∨ Exc1 mk L κ u v ∨ Pend mk L κ u v ∨ Exc2 mk L u v

/-- The sweep at a cut. -/
structure CutList (L : CSeg → Prop) (κ : Key) (W : List CSeg) : Prop where
  mem : ∀ s, s ∈ W ↔ InCut L κ s
  sorted : W.Pairwise (fun s t => sweepCmp s t = true)

def Good (mk : Nat → Prop) (L : CSeg → Prop) (safe : Key → Prop) : Prop := ∀ κ, safe κ → ∃ W, CutList L κ W ∧ W.IsChain (OK mk L κ)

/-! ### Cuts -/

/-- The cut before the events at `X` of rank `r` and more. -/
def cut (X : Int) (r : Nat) : Key := toLex (X, toLex (r, toLex (0, 0)))

theorem key_lt {x y : Int} {r q a b c d : Nat} :
    (toLex (x, toLex (r, toLex (a, b))) : Key) < toLex (y, toLex (q, toLex (c, d))) ↔
      x < y ∨ x = y ∧ (r < q ∨ r = q ∧ (a < c ∨ a = c ∧ b < d)) := by
  rw [Prod.Lex.toLex_lt_toLex, Prod.Lex.toLex_lt_toLex, Prod.Lex.toLex_lt_toLex]

theorem key_le {x y : Int} {r q a b c d : Nat} :
    (toLex (x, toLex (r, toLex (a, b))) : Key) ≤ toLex (y, toLex (q, toLex (c, d))) ↔
      x < y ∨ x = y ∧ (r < q ∨ r = q ∧ (a < c ∨ a = c ∧ b ≤ d)) := by
  rw [← not_lt, key_lt]; omega

theorem sk_nv {s : CSeg} (h : Nv s) : sk s = toLex (s.pa.x, toLex (2, toLex (s.a, s.b))) := by unfold sk; rw [if_neg h.ne]
theorem ek_nv {s : CSeg} (h : Nv s) : ek s = toLex (s.pb.x, toLex (1, toLex (s.b, s.a))) := by unfold ek; rw [if_neg h.ne]
theorem sk_v {s : CSeg} (h : s.pa.x = s.pb.x) : sk s = toLex (s.pa.x, toLex (0, toLex (s.a, s.b))) := by unfold sk; rw [if_pos h]
theorem ek_v {s : CSeg} (h : s.pa.x = s.pb.x) : ek s = toLex (s.pb.x, toLex (3, toLex (s.b, s.a))) := by unfold ek; rw [if_pos h]

theorem sk_lt_ek {s : CSeg} (h : SOk s) : sk s < ek s := by
  by_cases c : s.pa.x = s.pb.x
  · rw [sk_v c, ek_v c, key_lt]; omega
  · rw [sk_nv (h.nv c), ek_nv (h.nv c), key_lt]; exact Or.inl (h.nv c)

theorem sk_lt_x {s t : CSeg} (h : sk s < sk t) : s.pa.x ≤ t.pa.x := by
  unfold sk at h; rw [key_lt] at h; omega

theorem key_x_le {κ : Key} {x : Int} {r a b : Nat} (h : (toLex (x, toLex (r, toLex (a, b))) : Key) ≤ κ) : x ≤ (ofLex κ).1 := by
  obtain ⟨y, q, c, d⟩ := κ
  have := key_le.mp h
  show x ≤ y
  omega

theorem key_le_x {κ : Key} {x : Int} {r a b : Nat} (h : κ ≤ (toLex (x, toLex (r, toLex (a, b))) : Key)) : (ofLex κ).1 ≤ x := by
  obtain ⟨y, q, c, d⟩ := κ
  have := key_le.mp h
  show y ≤ x
  omega

/-! ### Chains -/

theorem chain_x {L : CSeg → Prop} {p q : Pt} (h : Chain L p q) : p.x ≤ q.x := by
  induction h with
  | refl => exact le_rfl
  | tail _ h ih => exact ih.trans h.1

/-- All lines are fine up to `X`. -/
def Fine (L : CSeg → Prop) (X : Int) : Prop := ∀ u v, L u → L v → u ≠ v → ∀ z Y : Rat, z ≤ X → On u z Y → On v z Y → LC u v z Y

/-- A line that runs past `b` is not met by lines that start after it and end up to `b`. -/
theorem no_meet {L : CSeg → Prop} (hw : World L) {B : Int} (hf : Fine L B) {v m : CSeg} (hv : L v) (hm : L m) (h1 : v.pa.x < m.pa.x)
    (h2 : B < v.pb.x) (h3 : m.pb.x ≤ B) {z Y : Rat} (ov : On v z Y) (om : On m z Y) : False := by
  have hne : v ≠ m := by rintro rfl; omega
  obtain ⟨x1, x2⟩ := on_x (hw.ok m hm) om
  have e1 : (v.pa.x : Rat) < m.pa.x := by exact_mod_cast h1
  have e2 : (B : Rat) < v.pb.x := by exact_mod_cast h2
  have e3 : (m.pb.x : Rat) ≤ B := by exact_mod_cast h3
  rcases hf v m hv hm hne z Y (by linarith) ov om with ⟨l, _⟩ | ⟨_, _, l⟩ | l
  · exact not_end (by linarith) (by linarith) l
  · have := l.pa; rw [this] at h1; exact lt_irrefl _ h1
  · have := (hw.ok m hm).le
    rcases l with ⟨a, b⟩ | ⟨a, b⟩
    · rw [a] at h1; exact lt_irrefl _ h1
    · rw [b] at h2; omega

theorem link_line {L : CSeg → Prop} (hw : World L) {p q : Pt} (h : Link L p q) : ∃ m, L m ∧
    ((m.pa = p ∧ m.pb = q) ∨ (m.pa = q ∧ m.pb = p ∧ p.x = q.x)) := by
  obtain ⟨hx, m, hm, h | ⟨h1, h2⟩⟩ := h
  · exact ⟨m, hm, Or.inl h⟩
  · have := (hw.ok m hm).le
    rw [h1, h2] at this
    exact ⟨m, hm, Or.inr ⟨h1, h2, by omega⟩⟩

/-- Lines that start below a line stay below it. -/
theorem chain_below {L : CSeg → Prop} (hw : World L) {b : Pt} (hf : Fine L b.x) {v : CSeg} (hv : L v) (h2 : b.x < v.pb.x) {p : Pt}
    (hc : Chain L p b) (h1 : v.pa.x < p.x) (hp : (p.y : Rat) < hAt v p.x) : (b.y : Rat) < hAt v b.x := by
  induction hc using Relation.ReflTransGen.head_induction_on with
  | refl => exact hp
  | @head p q hl hc ih =>
    have hx := hl.1
    have hqb := chain_x hc
    refine ih (by omega) ?_
    have c1 : (v.pa.x : Rat) < p.x := by exact_mod_cast h1
    have c2 : (p.x : Rat) ≤ q.x := by exact_mod_cast hx
    have c3 : (q.x : Rat) ≤ b.x := by exact_mod_cast hqb
    have c4 : (b.x : Rat) < v.pb.x := by exact_mod_cast h2
    have nv : Nv v := by unfold Nv; omega
    by_contra hn
    push Not at hn
    obtain ⟨m, hm, hh⟩ := link_line hw hl
    by_cases cx : p.x = q.x
    · have cx' : (p.x : Rat) = q.x := by exact_mod_cast cx
      refine no_meet hw hf (z := p.x) (Y := hAt v p.x) hv hm ?_ h2 ?_ ((on_nv nv _ _).mpr ⟨c1.le, by linarith, rfl⟩) ?_
      · rcases hh with ⟨a, _⟩ | ⟨a, _⟩ <;> rw [a] <;> omega
      · rcases hh with ⟨_, a⟩ | ⟨_, a, _⟩ <;> rw [a] <;> omega
      · have vm : m.pa.x = m.pb.x := by rcases hh with ⟨a, b⟩ | ⟨a, b, _⟩ <;> rw [a, b] <;> omega
        rw [on_v vm ((hw.ok m hm).vy vm)]
        rw [← cx'] at hn
        rcases hh with ⟨a, b⟩ | ⟨a, b, _⟩
        · exact ⟨by rw [a], Or.inl ⟨by rw [a]; exact hp.le, by rw [b]; exact hn⟩⟩
        · exact ⟨by rw [a]; exact cx', Or.inr ⟨by rw [b]; exact hp.le, by rw [a]; exact hn⟩⟩
    · obtain ⟨ha, hb⟩ : m.pa = p ∧ m.pb = q := by
        rcases hh with h | ⟨_, _, h⟩
        · exact h
        · exact absurd h cx
      have nm : Nv m := by unfold Nv; rw [ha, hb]; omega
      have hk : ¬ ∀ z, (p.x : Rat) < z → z ≤ q.x → hAt v z = hAt m z → slope v = slope m := fun hc => by
        have e1 : hAt m p.x = p.y := by rw [← ha]; exact hAt_start m
        have e2 : hAt m q.x = q.y := by rw [← hb]; exact slope_end m nm.ne
        have := keep_sign c2 hc (by rw [e1]; exact hp)
        rw [e2] at this
        linarith
      push Not at hk
      obtain ⟨z, z1, z2, z3, _⟩ := hk
      exact no_meet hw hf (z := z) (Y := hAt v z) hv hm (by rw [ha]; exact h1) h2 (by rw [hb]; exact hqb)
        ((on_nv nv _ _).mpr ⟨by linarith, by linarith, rfl⟩)
        ((on_nv nm _ _).mpr ⟨by rw [ha]; exact z1.le, by rw [hb]; exact z2, z3⟩)

/-- Lines that start above a line stay above it. -/
theorem chain_above {L : CSeg → Prop} (hw : World L) {b : Pt} (hf : Fine L b.x) {v : CSeg} (hv : L v) (h2 : b.x < v.pb.x) {p : Pt}
    (hc : Chain L p b) (h1 : v.pa.x < p.x) (hp : hAt v p.x < (p.y : Rat)) : hAt v b.x < (b.y : Rat) := by
  induction hc using Relation.ReflTransGen.head_induction_on with
  | refl => exact hp
  | @head p q hl hc ih =>
    have hx := hl.1
    have hqb := chain_x hc
    refine ih (by omega) ?_
    have c1 : (v.pa.x : Rat) < p.x := by exact_mod_cast h1
    have c2 : (p.x : Rat) ≤ q.x := by exact_mod_cast hx
    have c3 : (q.x : Rat) ≤ b.x := by exact_mod_cast hqb
    have c4 : (b.x : Rat) < v.pb.x := by exact_mod_cast h2
    have nv : Nv v := by unfold Nv; omega
    by_contra hn
    push Not at hn
    obtain ⟨m, hm, hh⟩ := link_line hw hl
    by_cases cx : p.x = q.x
    · have cx' : (p.x : Rat) = q.x := by exact_mod_cast cx
      refine no_meet hw hf (z := p.x) (Y := hAt v p.x) hv hm ?_ h2 ?_ ((on_nv nv _ _).mpr ⟨c1.le, by linarith, rfl⟩) ?_
      · rcases hh with ⟨a, _⟩ | ⟨a, _⟩ <;> rw [a] <;> omega
      · rcases hh with ⟨_, a⟩ | ⟨_, a, _⟩ <;> rw [a] <;> omega
      · have vm : m.pa.x = m.pb.x := by rcases hh with ⟨a, b⟩ | ⟨a, b, _⟩ <;> rw [a, b] <;> omega
        rw [on_v vm ((hw.ok m hm).vy vm)]
        rw [← cx'] at hn
        rcases hh with ⟨a, b⟩ | ⟨a, b, _⟩
        · exact ⟨by rw [a], Or.inr ⟨by rw [b]; exact hn, by rw [a]; exact hp.le⟩⟩
        · exact ⟨by rw [a]; exact cx', Or.inl ⟨by rw [a]; exact hn, by rw [b]; exact hp.le⟩⟩
    · obtain ⟨ha, hb⟩ : m.pa = p ∧ m.pb = q := by
        rcases hh with h | ⟨_, _, h⟩
        · exact h
        · exact absurd h cx
      have nm : Nv m := by unfold Nv; rw [ha, hb]; omega
      have hk : ¬ ∀ z, (p.x : Rat) < z → z ≤ q.x → hAt m z = hAt v z → slope m = slope v := fun hc => by
        have e1 : hAt m p.x = p.y := by rw [← ha]; exact hAt_start m
        have e2 : hAt m q.x = q.y := by rw [← hb]; exact slope_end m nm.ne
        have := keep_sign c2 hc (by rw [e1]; exact hp)
        rw [e2] at this
        linarith
      push Not at hk
      obtain ⟨z, z1, z2, z3, _⟩ := hk
      exact no_meet hw hf (z := z) (Y := hAt v z) hv hm (by rw [ha]; exact h1) h2 (by rw [hb]; exact hqb)
        ((on_nv nv _ _).mpr ⟨by linarith, by linarith, rfl⟩)
        ((on_nv nm _ _).mpr ⟨by rw [ha]; exact z1.le, by rw [hb]; exact z2, z3.symm⟩)

/-- A line against one that starts later and ends before it does: strictly on one side at the end. -/
theorem end_below {L : CSeg → Prop} (hw : World L) {B : Int} (hf : Fine L B) {v l : CSeg} (hv : L v) (hl : L l) (nv : Nv v) (nl : Nv l)
    (h1 : v.pa.x ≤ l.pa.x) (h2 : B < v.pb.x) (h3 : l.pb.x ≤ B) (hc : sweepCmp v l = true) : hAt l l.pb.x < hAt v l.pb.x := by
  have hne : v ≠ l := by rintro rfl; omega
  have c0 : (v.pa.x : Rat) ≤ l.pa.x := by exact_mod_cast h1
  have c1 := nl.cast
  have c2 : (B : Rat) < v.pb.x := by exact_mod_cast h2
  have c3 : (l.pb.x : Rat) ≤ B := by exact_mod_cast h3
  have hl1 := nl
  unfold Nv at hl1
  have alc : ALC B v l := fun X Y hx a b => hf v l hv hl hne X Y hx a b
  have ho := order_start nv nl alc (max_le (by linarith) (by linarith)) (by omega) (by omega) hc
  rw [max_eq_right c0] at ho
  by_contra hn
  push Not at hn
  -- a common place that is no end of `v` and where they differ in slope, or the end of `l`
  have : ∃ z, (l.pa.x : Rat) < z ∧ z ≤ l.pb.x ∧ hAt v z = hAt l z ∧ (slope v ≠ slope l ∨ z = l.pb.x) := by
    rcases ho with ho | ⟨ho, hs⟩
    · have hk : ¬ ∀ z, (l.pa.x : Rat) < z → z ≤ l.pb.x → hAt v z = hAt l z → slope v = slope l := fun hc => by
        have := keep_sign c1.le hc ho; linarith
      push Not at hk
      obtain ⟨z, z1, z2, z3, z4⟩ := hk
      exact ⟨z, z1, z2, z3, Or.inl z4⟩
    · refine ⟨l.pb.x, c1, le_rfl, ?_, Or.inr rfl⟩
      have e := hAt_diff v l l.pa.x l.pb.x
      have : 0 ≤ (slope v - slope l) * ((l.pb.x : Rat) - l.pa.x) := mul_nonneg (by linarith) (by linarith)
      linarith
  obtain ⟨z, z1, z2, z3, z4⟩ := this
  have lc := alc z (hAt v z) (by linarith) ((on_nv nv _ _).mpr ⟨by linarith, by linarith, rfl⟩) ((on_nv nl _ _).mpr ⟨z1.le, z2, z3⟩)
  have ne : ¬ EndQ v z (hAt v z) := not_end (by linarith) (by linarith)
  have hcoin : ¬ Coin v l := fun hco => by
    obtain ⟨_, b⟩ := hco.nv nv nl.sok
    rw [b] at h2; omega
  rcases z4 with z4 | z4
  · rcases lc with ⟨l, _⟩ | ⟨_, _, l⟩ | l
    · exact ne l
    · exact z4 l.sl
    · exact hcoin l
  · refine ne (lc.end_iff.mpr ?_)
    rw [z3, z4, slope_end _ nl.ne]
    exact endq_b _

theorem end_above {L : CSeg → Prop} (hw : World L) {B : Int} (hf : Fine L B) {v l : CSeg} (hv : L v) (hl : L l) (nv : Nv v) (nl : Nv l)
    (h1 : v.pa.x ≤ l.pa.x) (h2 : B < v.pb.x) (h3 : l.pb.x ≤ B) (hc : sweepCmp l v = true) : hAt v l.pb.x < hAt l l.pb.x := by
  have hne : l ≠ v := by rintro rfl; omega
  have c0 : (v.pa.x : Rat) ≤ l.pa.x := by exact_mod_cast h1
  have c1 := nl.cast
  have c2 : (B : Rat) < v.pb.x := by exact_mod_cast h2
  have c3 : (l.pb.x : Rat) ≤ B := by exact_mod_cast h3
  have hl1 := nl
  unfold Nv at hl1
  have alc : ALC B l v := fun X Y hx a b => hf l v hl hv hne X Y hx a b
  have ho := order_start nl nv alc (max_le (by linarith) (by linarith)) (by omega) (by omega) hc
  rw [max_eq_left c0] at ho
  by_contra hn
  push Not at hn
  have : ∃ z, (l.pa.x : Rat) < z ∧ z ≤ l.pb.x ∧ hAt l z = hAt v z ∧ (slope l ≠ slope v ∨ z = l.pb.x) := by
    rcases ho with ho | ⟨ho, hs⟩
    · have hk : ¬ ∀ z, (l.pa.x : Rat) < z → z ≤ l.pb.x → hAt l z = hAt v z → slope l = slope v := fun hc => by
        have := keep_sign c1.le hc ho; linarith
      push Not at hk
      obtain ⟨z, z1, z2, z3, z4⟩ := hk
      exact ⟨z, z1, z2, z3, Or.inl z4⟩
    · refine ⟨l.pb.x, c1, le_rfl, ?_, Or.inr rfl⟩
      have e := hAt_diff l v l.pa.x l.pb.x
      have : 0 ≤ (slope l - slope v) * ((l.pb.x : Rat) - l.pa.x) := mul_nonneg (by linarith) (by linarith)
      linarith
  obtain ⟨z, z1, z2, z3, z4⟩ := this
  have lc := alc z (hAt v z) (by linarith) ((on_nv nl _ _).mpr ⟨z1.le, z2, z3.symm⟩) ((on_nv nv _ _).mpr ⟨by linarith, by linarith, rfl⟩)
  have ne : ¬ EndQ v z (hAt v z) := not_end (by linarith) (by linarith)
  have hcoin : ¬ Coin v l := fun hco => by
    obtain ⟨_, b⟩ := hco.nv nv nl.sok
    rw [b] at h2; omega
  rcases z4 with z4 | z4
  · rcases lc with ⟨_, l⟩ | ⟨_, _, l⟩ | l
    · exact ne l
    · exact z4 l.sl
    · exact hcoin l.symm
  · refine ne (lc.end_iff.mp ?_)
    rw [← z3, z4, slope_end _ nl.ne]
    exact endq_b _

/-- The first excuse cannot outlive its time. -/
theorem exc1_false {L : CSeg → Prop} (hw : World L) {u v l : CSeg} {b : Pt} (hu : L u) (hv : L v) (hg : Gap mk L u v l b) (hf : Fine L b.x)
    (su : sk u < sk l) (sv : sk v < sk l) (hc : sweepCmp l u = true ∨ sweepCmp v l = true) : False := by
  have hb := chain_x hg.chain
  have nl := hg.nv
  have nl' := nl
  unfold Nv at nl'
  have xu := sk_lt_x su
  have xv := sk_lt_x sv
  have hub := hg.ub
  have hvb := hg.vb
  have nu : Nv u := by unfold Nv; omega
  have nv : Nv v := by unfold Nv; omega
  rcases hc with hc | hc
  · have h1 := end_above hw hf hu hg.live nu nl xu hub hb hc
    rw [slope_end l nl.ne] at h1
    have := chain_above hw hf hu hub hg.chain (by omega) h1
    have := hg.below
    linarith
  · have h1 := end_below hw hf hv hg.live nv nl xv hvb hb hc
    rw [slope_end l nl.ne] at h1
    have := chain_below hw hf hv hvb hg.chain (by omega) h1
    have := hg.above
    linarith

/-! ### All cuts to the left -/

theorem over_alc {u v : CSeg} (h : Over u v) {z : Rat} (h1 : z < u.pb.x) (h2 : z < v.pb.x) : ALC z u v := by
  intro X Y hx ou ov
  obtain ⟨x1, x2, y1⟩ := (on_nv h.ns _ _).mp ou
  obtain ⟨_, _, y2⟩ := (on_nv h.nt _ _).mp ov
  by_cases c : X = u.pa.x
  · have hy : Y = u.pa.y := by rw [y1, c, hAt_start]
    rw [c, hy]
    exact Or.inl ⟨endq_a u, by rw [h.pa]; exact endq_a v⟩
  · have c' : (u.pa.x : Rat) < X := lt_of_le_of_ne x1 (Ne.symm c)
    exact Or.inr (Or.inl ⟨not_end c' (by linarith), not_end (by rw [← h.pa]; exact c') (by linarith), h⟩)

theorem two_mem {α : Type} {l : List α} {u v : α} (hu : u ∈ l) (hv : v ∈ l) (hne : u ≠ v) :
    (∃ l1 m l2, l = l1 ++ (u :: m ++ [v]) ++ l2) ∨ ∃ l1 m l2, l = l1 ++ (v :: m ++ [u]) ++ l2 := by
  obtain ⟨s, t, rfl⟩ := List.append_of_mem hu
  rcases List.mem_append.mp hv with h | h
  · obtain ⟨s1, s2, rfl⟩ := List.append_of_mem h
    exact Or.inr ⟨s1, s2, t, by simp⟩
  · rcases List.mem_cons.mp h with rfl | h
    · exact absurd rfl hne
    · obtain ⟨s1, s2, rfl⟩ := List.append_of_mem h
      exact Or.inl ⟨s, s1, s2, by simp⟩

theorem Stack.all {x : Rat} {l : List CSeg} (h : Stack x l) {u v : CSeg} (hu : u ∈ l) (hv : v ∈ l) (hne : u ≠ v) {Y : Rat}
    (ou : On u x Y) (ov : On v x Y) : LC u v x Y := by
  rcases two_mem hu hv hne with ⟨l1, m, l2, rfl⟩ | ⟨l1, m, l2, rfl⟩
  · exact h.infix.lc ou ov
  · exact (h.infix.lc ov ou).symm

theorem chain_imp_mem {α : Type} {R S : α → α → Prop} {l : List α} (h : l.IsChain R) (hi : ∀ a ∈ l, ∀ b ∈ l, R a b → S a b) : l.IsChain S := by
  rw [List.isChain_iff_forall_rel_of_append_cons_cons] at h ⊢
  rintro a b l1 l2 rfl
  exact hi a (by simp) b (by simp) (h rfl)

theorem pend_cut {L : CSeg → Prop} (hw : World L) {X : Int} {r : Nat} (hr : r ≠ 2) {u v : CSeg} : ¬ Pend mk L (cut X r) u v := by
  rintro ⟨l, b, m, hg, hm, nm, ha, h1, h2⟩
  rw [sk_nv nm] at h1
  rw [sk_nv hg.nv] at h2
  unfold cut at h1 h2
  have hp := (hw.cons m l hm hg.live).1 ha
  rw [hp] at h1
  rw [key_lt] at h1
  rw [key_le] at h2
  omega

/-- Lines up to a cut after which no excuse of the first kind is left. -/
theorem alc_of_ok {L : CSeg → Prop} (hw : World L) {X : Int} (hf : Fine L (X - 1)) {r : Nat} (hr : r ≠ 2) {u v : CSeg} (hu : L u) (hv : L v)
    (z : Rat) (hz : z ≤ X) (he : Exc2 mk L u v → z < u.pb.x ∧ z < v.pb.x) (h : OK mk L (cut X r) u v) : ALC z u v := by
  rcases h with h | ⟨l, b, hg, _, su, sv, hc⟩ | h | h
  · exact h.1.alc z
  · by_cases c : X ≤ b.x
    · exact (hg.sep.mono (hz.trans (by exact_mod_cast c))).alc
    · exfalso
      refine exc1_false hw hu hv hg ?_ su sv hc
      intro u v hu hv hne z Y hz
      exact hf u v hu hv hne z Y (hz.trans (by exact_mod_cast (by omega : b.x ≤ X - 1)))
  · exact absurd h (pend_cut hw hr)
  · obtain ⟨h1, h2⟩ := he h
    exact over_alc h.1 h1 h2

theorem Exc2.min {L : CSeg → Prop} {u v : CSeg} (h : Exc2 mk L u v) {z : Rat} (h1 : ∀ w, (w = u ∨ w = v) → Wit L w.pb → z < w.pb.x) :
    z < u.pb.x ∧ z < v.pb.x := by
  obtain ⟨ho, _, ⟨hx, hw⟩ | ⟨hx, hw⟩⟩ := h
  · have := h1 u (Or.inl rfl) hw.1
    have hx' : (u.pb.x : Rat) < v.pb.x := by exact_mod_cast hx
    exact ⟨this, by linarith⟩
  · have := h1 v (Or.inr rfl) hw.1
    have hx' : (v.pb.x : Rat) < u.pb.x := by exact_mod_cast hx
    exact ⟨by linarith, this⟩

theorem incut0 {L : CSeg → Prop} {X : Int} {s : CSeg} (hs : SOk s) : InCut L (cut X 0) s ↔ L s ∧ Nv s ∧ s.pa.x < X ∧ X ≤ s.pb.x := by
  unfold InCut cut
  by_cases c : s.pa.x = s.pb.x
  · rw [sk_v c, ek_v c, key_lt, key_le]
    constructor
    · rintro ⟨_, h1, h2⟩; omega
    · rintro ⟨_, h, _⟩; exact absurd c h.ne
  · have n := hs.nv c
    rw [sk_nv n, ek_nv n, key_lt, key_le]
    constructor
    · rintro ⟨h0, h1, h2⟩; exact ⟨h0, n, by omega, by omega⟩
    · rintro ⟨h0, _, h1, h2⟩; exact ⟨h0, by omega, by omega⟩

theorem incut1 {L : CSeg → Prop} {X : Int} {s : CSeg} (hs : SOk s) : InCut L (cut X 1) s ↔
    L s ∧ ((Nv s ∧ s.pa.x < X ∧ X ≤ s.pb.x) ∨ (s.pa.x = X ∧ s.pb.x = X)) := by
  unfold InCut cut
  by_cases c : s.pa.x = s.pb.x
  · rw [sk_v c, ek_v c, key_lt, key_le]
    constructor
    · rintro ⟨h0, h1, h2⟩; exact ⟨h0, Or.inr (by omega)⟩
    · rintro ⟨h0, ⟨h, _⟩ | h⟩
      · exact absurd c h.ne
      · exact ⟨h0, by omega, by omega⟩
  · have n := hs.nv c
    rw [sk_nv n, ek_nv n, key_lt, key_le]
    constructor
    · rintro ⟨h0, h1, h2⟩; exact ⟨h0, Or.inl ⟨n, by omega, by omega⟩⟩
    · rintro ⟨h0, ⟨_, h1, h2⟩ | h⟩
      · exact ⟨h0, by omega, by omega⟩
      · omega

theorem incut3 {L : CSeg → Prop} {X : Int} {s : CSeg} (hs : SOk s) : InCut L (cut X 3) s ↔
    L s ∧ ((Nv s ∧ s.pa.x ≤ X ∧ X < s.pb.x) ∨ (s.pa.x = X ∧ s.pb.x = X)) := by
  unfold InCut cut
  by_cases c : s.pa.x = s.pb.x
  · rw [sk_v c, ek_v c, key_lt, key_le]
    constructor
    · rintro ⟨h0, h1, h2⟩; exact ⟨h0, Or.inr (by omega)⟩
    · rintro ⟨h0, ⟨h, _⟩ | h⟩
      · exact absurd c h.ne
      · exact ⟨h0, by omega, by omega⟩
  · have n := hs.nv c
    rw [sk_nv n, ek_nv n, key_lt, key_le]
    constructor
    · rintro ⟨h0, h1, h2⟩; exact ⟨h0, Or.inl ⟨n, by omega, by omega⟩⟩
    · rintro ⟨h0, ⟨_, h1, h2⟩ | h⟩
      · exact ⟨h0, by omega, by omega⟩
      · omega

/-- The next column. -/
theorem fine_step {L : CSeg → Prop} (hw : World L) {safe : Key → Prop} (hd : ∀ κ κ', κ ≤ κ' → safe κ' → safe κ) (hg : Good mk L safe) {X : Int}
    (hs : safe (cut X 3)) (hf : Fine L (X - 1)) : Fine L X := by
  have cl : ∀ r r' : Nat, r ≤ r' → cut X r ≤ cut X r' := by intro r r' h; unfold cut; rw [key_le]; omega
  -- after the starts at `X`
  obtain ⟨W3, hW3, hc3⟩ := hg _ hs
  have st3 : Stack X W3 := by
    have mem : ∀ s ∈ W3, L s ∧ ((Nv s ∧ s.pa.x ≤ X ∧ X < s.pb.x) ∨ (s.pa.x = X ∧ s.pb.x = X)) := fun s hs =>
      (incut3 (hw.ok s ((hW3.mem s).mp hs).1)).mp ((hW3.mem s).mp hs)
    refine ⟨fun s h => ?_, fun s h t h' n1 n2 => ?_, hW3.sorted, chain_imp_mem hc3 (fun a ha b hb h => ?_)⟩
    · obtain ⟨h0, ⟨_, h1, h2⟩ | ⟨h1, h2⟩⟩ := mem s h
      · exact ⟨hw.ok s h0, by exact_mod_cast h1, by exact_mod_cast h2.le⟩
      · exact ⟨hw.ok s h0, by exact_mod_cast h1.le, by exact_mod_cast h2.ge⟩
    · have h1 := (mem s h).2; have h2 := (mem t h').2
      unfold Nv at n1 n2
      omega
    · refine alc_of_ok hw hf (by decide) (mem a ha).1 (mem b hb).1 X le_rfl (fun he => ?_) h
      have h1 := (mem a ha).2; have h2 := (mem b hb).2
      have n1 := he.1.ns; have n2 := he.1.nt
      unfold Nv at n1 n2
      exact ⟨by exact_mod_cast (by omega : X < a.pb.x), by exact_mod_cast (by omega : X < b.pb.x)⟩
  have lc3 : ∀ u v, InCut L (cut X 3) u → InCut L (cut X 3) v → u ≠ v → ∀ Y, On u X Y → On v X Y → LC u v X Y := fun u v hu hv hne Y =>
    st3.all ((hW3.mem u).mpr hu) ((hW3.mem v).mpr hv) hne
  -- no excuse of the second kind ends at `X`
  have exc2 : ∀ u v, L u → L v → Exc2 mk L u v → (X : Int) ≤ u.pb.x → X ≤ v.pb.x → X < u.pb.x ∧ X < v.pb.x := by
    have key : ∀ u v, L u → L v → Over u v → u.pb.x < v.pb.x → Wit L u.pb → X ≤ u.pb.x → X < u.pb.x := by
      intro u v hu hv ho hx hwit hX
      by_contra hn
      have hX : u.pb.x = X := by omega
      obtain ⟨r, hr, hh⟩ := hwit
      have nu := ho.ns
      have nv := ho.nt
      unfold Nv at nu nv
      have hpa := ho.pa
      have hr3 : InCut L (cut X 3) r := by
        rw [incut3 (hw.ok r hr)]
        refine ⟨hr, ?_⟩
        have := (hw.ok r hr).le
        rcases hh with h | ⟨h1, h2⟩
        · by_cases c : r.pa.x = r.pb.x
          · right; rw [← c, h]; exact ⟨hX, hX⟩
          · left; have hn := (hw.ok r hr).nv c; exact ⟨hn, by rw [h, hX], by unfold Nv at hn; rw [h, hX] at hn; exact hn⟩
        · right; rw [h1, h2]; exact ⟨hX, hX⟩
      have hxa : v.pa.x < X := by rw [← hpa]; omega
      have hv3 : InCut L (cut X 3) v := by
        rw [incut3 (hw.ok v hv)]
        exact ⟨hv, Or.inl ⟨ho.nt, by omega, by omega⟩⟩
      have hne : v ≠ r := by
        rintro rfl
        rcases hh with h | ⟨h1, h2⟩
        · rw [h] at hxa; omega
        · rw [h2] at hx; exact lt_irrefl _ hx
      have er : EndQ r X u.pb.y := by
        rcases hh with h | ⟨h1, h2⟩
        · exact Or.inl ⟨by rw [h, hX], by rw [h]⟩
        · exact Or.inr ⟨by rw [h2, hX], by rw [h2]⟩
      have ov : On v X u.pb.y := by
        rw [on_nv ho.nt]
        refine ⟨by exact_mod_cast hxa.le, by exact_mod_cast (by omega : X ≤ v.pb.x), ?_⟩
        rw [← ho.hAt, ← hX, slope_end u ho.ns.ne]
      have := (lc3 v r hv3 hr3 hne _ ov (end_on er)).end_iff.mpr er
      exact not_end (by exact_mod_cast hxa) (by exact_mod_cast (by omega : X < v.pb.x)) this
    rintro u v hu hv ⟨ho, _, ⟨hx, hwit⟩ | ⟨hx, hwit⟩⟩ h1 h2
    · exact ⟨key u v hu hv ho hx hwit.1 h1, by omega⟩
    · exact ⟨by omega, key v u hv hu ho.symm hx hwit.1 h2⟩
  -- before the events at `X`
  obtain ⟨W0, hW0, hc0⟩ := hg _ (hd _ _ (cl 0 3 (by omega)) hs)
  have st0 : ∀ z : Rat, (X : Rat) - 1 < z → z ≤ X → Stack z W0 := by
    intro z hz hz'
    have mem : ∀ s ∈ W0, L s ∧ Nv s ∧ s.pa.x < X ∧ X ≤ s.pb.x := fun s hs =>
      (incut0 (hw.ok s ((hW0.mem s).mp hs).1)).mp ((hW0.mem s).mp hs)
    refine ⟨fun s h => ?_, fun s h t h' n1 n2 => ?_, hW0.sorted, chain_imp_mem hc0 (fun a ha b hb h => ?_)⟩
    · obtain ⟨h0, _, h1, h2⟩ := mem s h
      have h1' : (s.pa.x : Rat) ≤ X - 1 := by exact_mod_cast (by omega : s.pa.x ≤ X - 1)
      have h2' : (X : Rat) ≤ s.pb.x := by exact_mod_cast h2
      exact ⟨hw.ok s h0, by linarith, by linarith⟩
    · have h1 := (mem s h).2; have h2 := (mem t h').2
      omega
    · refine alc_of_ok hw hf (by decide) (mem a ha).1 (mem b hb).1 z hz' (fun he => ?_) h
      obtain ⟨h1, h2⟩ := exc2 a b (mem a ha).1 (mem b hb).1 he (mem a ha).2.2.2 (mem b hb).2.2.2
      have h1' : (X : Rat) < a.pb.x := by exact_mod_cast h1
      have h2' : (X : Rat) < b.pb.x := by exact_mod_cast h2
      exact ⟨by linarith, by linarith⟩
  -- after the starts of the verticals at `X`
  obtain ⟨W1, hW1, hc1⟩ := hg _ (hd _ _ (cl 1 3 (by omega)) hs)
  have st1 : Stack X W1 := by
    have mem : ∀ s ∈ W1, L s ∧ ((Nv s ∧ s.pa.x < X ∧ X ≤ s.pb.x) ∨ (s.pa.x = X ∧ s.pb.x = X)) := fun s hs =>
      (incut1 (hw.ok s ((hW1.mem s).mp hs).1)).mp ((hW1.mem s).mp hs)
    refine ⟨fun s h => ?_, fun s h t h' n1 n2 => ?_, hW1.sorted, chain_imp_mem hc1 (fun a ha b hb h => ?_)⟩
    · obtain ⟨h0, ⟨_, h1, h2⟩ | ⟨h1, h2⟩⟩ := mem s h
      · exact ⟨hw.ok s h0, by exact_mod_cast h1.le, by exact_mod_cast h2⟩
      · exact ⟨hw.ok s h0, by exact_mod_cast h1.le, by exact_mod_cast h2.ge⟩
    · have h1 := (mem s h).2; have h2 := (mem t h').2
      unfold Nv at n1 n2
      omega
    · refine alc_of_ok hw hf (by decide) (mem a ha).1 (mem b hb).1 X le_rfl (fun he => ?_) h
      have h1 := (mem a ha).2; have h2 := (mem b hb).2
      have n1 := he.1.ns; have n2 := he.1.nt
      unfold Nv at n1 n2
      obtain ⟨h1, h2⟩ := exc2 a b (mem a ha).1 (mem b hb).1 he (by omega) (by omega)
      exact ⟨by exact_mod_cast h1, by exact_mod_cast h2⟩
  -- all places
  intro u v hu hv hne z Y hz ou ov
  by_cases cz : z ≤ (X : Rat) - 1
  · exact hf u v hu hv hne z Y (by push_cast; exact cz) ou ov
  push Not at cz
  obtain ⟨u1, u2⟩ := on_x (hw.ok u hu) ou
  obtain ⟨v1, v2⟩ := on_x (hw.ok v hv) ov
  have lb : ∀ b : Int, z ≤ b → X ≤ b := by
    intro b h
    have : (X : Rat) - 1 < b := by linarith
    have : (X - 1 : Int) < b := by exact_mod_cast (by push_cast; exact this : ((X - 1 : Int) : Rat) < b)
    omega
  have ub := lb _ u2
  have vb := lb _ v2
  by_cases c0 : u.pa.x < X ∧ v.pa.x < X
  · refine (st0 z cz hz).all ((hW0.mem u).mpr ?_) ((hW0.mem v).mpr ?_) hne ou ov
    · rw [incut0 (hw.ok u hu)]; exact ⟨hu, by unfold Nv; omega, c0.1, ub⟩
    · rw [incut0 (hw.ok v hv)]; exact ⟨hv, by unfold Nv; omega, c0.2, vb⟩
  · have hzX : z = X := by
      refine le_antisymm hz ?_
      by_cases c : u.pa.x < X
      · have : X ≤ v.pa.x := by omega
        have : (X : Rat) ≤ v.pa.x := by exact_mod_cast this
        linarith
      · have : X ≤ u.pa.x := by omega
        have : (X : Rat) ≤ u.pa.x := by exact_mod_cast this
        linarith
    subst hzX
    have ua : u.pa.x ≤ X := by exact_mod_cast u1
    have va : v.pa.x ≤ X := by exact_mod_cast v1
    -- a line that ends at `X` against the rest
    have ends : ∀ u v, L u → L v → u ≠ v → u.pa.x < X → u.pb.x = X → v.pa.x = X → X ≤ v.pb.x → On u X Y → On v X Y → LC u v X Y := by
      intro u v hu hv hne a1 a2 a3 a4 ou ov
      by_cases c : v.pb.x = X
      · refine st1.all ((hW1.mem u).mpr ?_) ((hW1.mem v).mpr ?_) hne ou ov
        · rw [incut1 (hw.ok u hu)]; exact ⟨hu, Or.inl ⟨by unfold Nv; omega, a1, by omega⟩⟩
        · rw [incut1 (hw.ok v hv)]; exact ⟨hv, Or.inr ⟨a3, c⟩⟩
      · have nu : Nv u := by unfold Nv; omega
        have nv : Nv v := by unfold Nv; omega
        have y1 := on_nv_y nu ou
        have y2 := on_nv_y nv ov
        rw [← a2, slope_end u nu.ne] at y1
        rw [← a3, hAt_start] at y2
        refine Or.inl ⟨Or.inr ⟨by rw [a2], y1⟩, Or.inl ⟨by rw [a3], y2⟩⟩
    by_cases cu : u.pa.x < X ∧ u.pb.x = X
    · exact ends u v hu hv hne cu.1 cu.2 (by omega) vb ou ov
    by_cases cv : v.pa.x < X ∧ v.pb.x = X
    · exact (ends v u hv hu (Ne.symm hne) cv.1 cv.2 (by omega) ub ov ou).symm
    refine lc3 u v ?_ ?_ hne Y ou ov
    · rw [incut3 (hw.ok u hu)]
      refine ⟨hu, ?_⟩
      by_cases c : u.pb.x = X
      · right; omega
      · left; exact ⟨by unfold Nv; omega, ua, by omega⟩
    · rw [incut3 (hw.ok v hv)]
      refine ⟨hv, ?_⟩
      by_cases c : v.pb.x = X
      · right; omega
      · left; exact ⟨by unfold Nv; omega, va, by omega⟩

/-- Wherever neighbours are known at all cuts up to a column, all lines are fine up to it. -/
theorem fine_of_good {L : CSeg → Prop} (hw : World L) {safe : Key → Prop} (hd : ∀ κ κ', κ ≤ κ' → safe κ' → safe κ) (hg : Good mk L safe) (X : Int)
    (hs : safe (cut X 3)) : Fine L X := by
  obtain ⟨b, hb⟩ := hw.lo
  have : ∀ k : Nat, ∀ X : Int, X ≤ b - 1 + k → safe (cut X 3) → Fine L X := by
    intro k
    induction k with
    | zero =>
      intro X hX _ u v hu _ _ z Y hz ou _
      exfalso
      obtain ⟨h1, _⟩ := on_x (hw.ok u hu) ou
      have h2 : (b : Rat) ≤ u.pa.x := by exact_mod_cast hb u hu
      have h3 : (X : Rat) ≤ b - 1 := by exact_mod_cast (by omega : X ≤ b - 1)
      linarith
    | succ k ih =>
      intro X hX hs
      refine fine_step hw hd hg hs (ih (X - 1) (by omega) (hd _ _ ?_ hs))
      unfold cut; rw [key_le]; omega
  exact this (X - (b - 1)).toNat X (by omega) hs

end PolyOps.Planarity
