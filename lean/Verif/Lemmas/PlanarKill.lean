import Verif.Lemmas.PlanarWorld
import Mathlib.Data.List.Sort

/-! What is known of neighbours stays known when a line is replaced by two pieces. -/
namespace PolyOps.Planarity
open PolyOps PolyOps.SweepCmp

variable {mk : Nat → Prop}

theorem sorted_nodup {W : List CSeg} (h : W.Pairwise (fun s t => sweepCmp s t = true)) : W.Nodup :=
  h.imp (fun {a b} hab e => by rw [e, C22_irrefl] at hab; cases hab)

theorem sorted_unique {W W' : List CSeg} (h : W.Pairwise (fun s t => sweepCmp s t = true)) (h' : W'.Pairwise (fun s t => sweepCmp s t = true))
    (hm : ∀ s, s ∈ W ↔ s ∈ W') : W = W' := by
  refine List.Perm.eq_of_pairwise (le := fun s t => sweepCmp s t = true) (fun a b _ _ h1 h2 => ?_) h h'
    ((List.perm_ext_iff_of_nodup (sorted_nodup h) (sorted_nodup h')).mpr hm)
  rw [C22_asymm a b h1] at h2; cases h2

theorem CutList.unique {L : CSeg → Prop} {κ : Key} {W W' : List CSeg} (h : CutList L κ W) (h' : CutList L κ W') : W = W' :=
  sorted_unique h.sorted h'.sorted (fun s => (h.mem s).trans (h'.mem s).symm)

/-- Neighbours at a cut are known. -/
def CutOK (mk : Nat → Prop) (L : CSeg → Prop) (κ : Key) : Prop := ∃ W, CutList L κ W ∧ W.IsChain (OK mk L κ)

/-- The line `n` is replaced by `l` and `r`, which meet at `c`. -/
structure Kill (L L' : CSeg → Prop) (n l r : CSeg) (c : Pt) : Prop where
  live : L n
  iff : ∀ s, L' s ↔ (L s ∧ s ≠ n) ∨ s = l ∨ s = r
  x1 : n.pa.x ≤ c.x
  x2 : c.x ≤ n.pb.x
  lft : (l.a = n.a ∧ l.pa = n.pa ∧ l.pb = c) ∨ (Nv n ∧ c.x = n.pa.x ∧ l.pa = c ∧ l.pb = n.pa)
  rgt : (r.pa = c ∧ r.pb = n.pb) ∨ (Nv n ∧ c.x = n.pb.x ∧ r.pa = n.pb ∧ r.pb = c)

section
variable {L L' : CSeg → Prop} {n l r : CSeg} {c : Pt}

theorem Kill.old (hk : Kill L L' n l r c) {s : CSeg} (h : L s) (hne : s ≠ n) : L' s := (hk.iff s).mpr (Or.inl ⟨h, hne⟩)
theorem Kill.left (hk : Kill L L' n l r c) : L' l := (hk.iff l).mpr (Or.inr (Or.inl rfl))
theorem Kill.right (hk : Kill L L' n l r c) : L' r := (hk.iff r).mpr (Or.inr (Or.inr rfl))

theorem Kill.link_l (hk : Kill L L' n l r c) : Link L' n.pa c := by
  refine ⟨hk.x1, l, hk.left, ?_⟩
  rcases hk.lft with ⟨_, a, b⟩ | ⟨_, _, a, b⟩
  · exact Or.inl ⟨a, b⟩
  · exact Or.inr ⟨a, b⟩

theorem Kill.link_r (hk : Kill L L' n l r c) : Link L' c n.pb := by
  refine ⟨hk.x2, r, hk.right, ?_⟩
  rcases hk.rgt with ⟨a, b⟩ | ⟨_, _, a, b⟩
  · exact Or.inl ⟨a, b⟩
  · exact Or.inr ⟨a, b⟩

theorem Link.rev {p q : Pt} (h : Link L p q) (hx : q.x ≤ p.x) : Link L q p := by
  obtain ⟨_, m, hm, ⟨a, b⟩ | ⟨a, b⟩⟩ := h
  · exact ⟨hx, m, hm, Or.inr ⟨a, b⟩⟩
  · exact ⟨hx, m, hm, Or.inl ⟨a, b⟩⟩

theorem Kill.link (hk : Kill L L' n l r c) {p q : Pt} (h : Link L p q) : Chain L' p q := by
  obtain ⟨hx, m, hm, hh⟩ := h
  by_cases e : m = n
  · subst e
    have x1 := hk.x1
    have x2 := hk.x2
    rcases hh with ⟨rfl, rfl⟩ | ⟨rfl, rfl⟩
    · exact (Relation.ReflTransGen.single hk.link_l).tail hk.link_r
    · exact (Relation.ReflTransGen.single (hk.link_r.rev (by omega))).tail (hk.link_l.rev (by omega))
  · exact Relation.ReflTransGen.single ⟨hx, m, hk.old hm e, hh⟩

theorem Kill.chain (hk : Kill L L' n l r c) {p q : Pt} (h : Chain L p q) : Chain L' p q := by
  induction h with
  | refl => exact .refl
  | tail _ h ih => exact ih.trans (hk.link h)

theorem Kill.wit (hk : Kill L L' n l r c) {p : Pt} (h : Wit L p) : Wit L' p := by
  obtain ⟨s, hs, hh⟩ := h
  by_cases e : s = n
  · subst e
    have x1 := hk.x1
    have x2 := hk.x2
    rcases hh with h | ⟨h1, h2⟩
    · refine ⟨l, hk.left, ?_⟩
      rcases hk.lft with ⟨_, a, _⟩ | ⟨_, b, a, d⟩
      · exact Or.inl (a.trans h)
      · exact Or.inr ⟨by rw [a, d]; exact b, d.trans h⟩
    · refine ⟨r, hk.right, ?_⟩
      rcases hk.rgt with ⟨a, b⟩ | ⟨nv, _⟩
      · exact Or.inr ⟨by rw [a, b]; omega, b.trans h2⟩
      · exact absurd h1 nv.ne
  · exact ⟨s, hk.old hs e, hh⟩

theorem Kill.gap (hk : Kill L L' n l r c) {u v l0 : CSeg} {b : Pt} (h : Gap mk L u v l0 b) (hne : l0 ≠ n) : Gap mk L' u v l0 b :=
  ⟨hk.old h.live hne, h.nv, hk.chain h.chain, h.sep, h.ub, h.vb, h.above, h.below, h.st⟩

/-- The piece takes over. -/
theorem Kill.gap_self (hk : Kill L L' n l r c) {u v : CSeg} {b : Pt} (h : Gap mk L u v n b) (nl : Nv l) (hl : l.pb = c) : Gap mk L' u v l b :=
  ⟨hk.left, nl, by rw [hl]; exact (Relation.ReflTransGen.single hk.link_r).trans (hk.chain h.chain), h.sep, h.ub, h.vb, h.above, h.below, h.st⟩

/-- The left piece, if its start comes after that of a line from the same place. -/
theorem Kill.piece (hk : Kill L L' n l r c) (hl : SOk l) (nn : Nv n) {k : Nat} {y : Nat} (h : (toLex (n.pa.x, toLex (2, toLex (k, y))) : Key) < sk l) :
    l.a = n.a ∧ l.pa = n.pa ∧ l.pb = c ∧ Nv l := by
  by_cases v : l.pa.x = l.pb.x
  · exfalso
    rw [sk_v v, key_lt] at h
    rcases hk.lft with ⟨_, a, b⟩ | ⟨_, b, a, d⟩
    · rw [a] at h; omega
    · rw [a, b] at h; omega
  · have nl := hl.nv v
    rcases hk.lft with ⟨e, a, b⟩ | ⟨_, b, a, d⟩
    · exact ⟨e, a, b, nl⟩
    · exfalso; apply v; rw [a, d]; exact b

/-- What is between the start of a line and the start of its piece. -/
theorem Kill.window (hk : Kill L L' n l r c) (hn : SOk n) (hl : SOk l) {κ : Key} (h1 : sk n < κ) (h2 : κ ≤ sk l) :
    l.a = n.a ∧ l.pa = n.pa ∧ l.pb = c ∧ (Nv n → Nv l) ∧ (n.pa.x = n.pb.x → l.pa.x = l.pb.x) := by
  by_cases v : n.pa.x = n.pb.x
  · have x1 := hk.x1
    have x2 := hk.x2
    rcases hk.lft with ⟨e, a, b⟩ | ⟨nv, _⟩
    · exact ⟨e, a, b, fun nv => absurd v nv.ne, fun _ => by rw [a, b]; omega⟩
    · exact absurd v nv.ne
  · have nn := hn.nv v
    rw [sk_nv nn] at h1
    obtain ⟨e, a, b, nl⟩ := hk.piece hl nn (lt_of_lt_of_le h1 h2)
    exact ⟨e, a, b, fun _ => nl, fun e => absurd e v⟩

/-- Starts in that window are at the same point. -/
theorem Kill.between (hk : Kill L L' n l r c) (hn : SOk n) (hl : SOk l) {κ : Key} (h1 : sk n < κ) (h2 : κ ≤ sk l) {s : CSeg}
    (s1 : sk n < sk s) (s2 : sk s < κ) : s.a = n.a ∧ s.pa.x = n.pa.x ∧ ((Nv n ∧ s.pa.x ≠ s.pb.x) ∨ (n.pa.x = n.pb.x ∧ s.pa.x = s.pb.x)) := by
  obtain ⟨e, a, _, w1, w2⟩ := hk.window hn hl h1 h2
  have h3 := lt_of_lt_of_le s2 h2
  have ax : l.pa.x = n.pa.x := by rw [a]
  by_cases v : n.pa.x = n.pb.x
  · rw [sk_v v] at s1
    rw [sk_v (w2 v), e, ax] at h3
    unfold sk at s1 h3
    split at s1
    · rename_i hs
      rw [if_pos hs] at h3
      rw [key_lt] at s1 h3
      exact ⟨by omega, by omega, Or.inr ⟨v, hs⟩⟩
    · rename_i hs
      rw [if_neg hs] at h3
      rw [key_lt] at s1 h3
      omega
  · have nn := hn.nv v
    rw [sk_nv nn] at s1
    rw [sk_nv (w1 nn), e, ax] at h3
    unfold sk at s1 h3
    split at s1
    · rename_i hs
      rw [if_pos hs] at h3
      rw [key_lt] at s1 h3
      omega
    · rename_i hs
      rw [if_neg hs] at h3
      rw [key_lt] at s1 h3
      exact ⟨by omega, by omega, Or.inl ⟨nn, hs⟩⟩

/-- No line ends in that window. -/
theorem Kill.ends (hk : Kill L L' n l r c) (hn : SOk n) (hl : SOk l) {κ : Key} (h1 : sk n < κ) (h2 : κ ≤ sk l) {s : CSeg}
    (s1 : sk n ≤ ek s) : κ ≤ ek s := by
  obtain ⟨e, a, _, w1, w2⟩ := hk.window hn hl h1 h2
  have ax : l.pa.x = n.pa.x := by rw [a]
  by_contra hc
  push Not at hc
  have h3 := lt_of_lt_of_le hc h2
  by_cases v : n.pa.x = n.pb.x
  · rw [sk_v v] at s1
    rw [sk_v (w2 v), e, ax] at h3
    unfold ek at s1 h3
    rw [key_le] at s1
    rw [key_lt] at h3
    split at s1 <;> split at h3 <;> omega
  · have nn := hn.nv v
    rw [sk_nv nn] at s1
    rw [sk_nv (w1 nn), e, ax] at h3
    unfold ek at s1 h3
    rw [key_le] at s1
    rw [key_lt] at h3
    split at s1 <;> split at h3 <;> omega

/-- A line that was started before both others. -/
theorem pend_key {κ : Key} {m l0 : CSeg} (nm : Nv m) (nl : Nv l0) (ha : m.a = l0.a) (hp : m.pa = l0.pa) (h1 : sk m < κ) (h2 : κ ≤ sk l0) :
    ∃ y, κ = toLex (m.pa.x, toLex (2, toLex (m.a, y))) := by
  obtain ⟨X, q, a, y⟩ := κ
  rw [sk_nv nm] at h1
  rw [sk_nv nl, ← hp, ← ha] at h2
  have h1' := key_lt.mp h1
  have h2' := key_le.mp h2
  refine ⟨y, ?_⟩
  have e1 : X = m.pa.x := by omega
  have e2 : q = 2 := by omega
  have e3 : a = m.a := by omega
  subst e1 e2 e3
  rfl

/-! ### Cuts up to the start of the line -/

theorem Kill.ok1 (hw : World L) (hw' : World L') (hk : Kill L L' n l r c) {κ : Key} (h0 : κ ≤ sk n) (h1 : κ ≤ sk l) {u v : CSeg} (h : OK mk L κ u v) :
    OK mk L' κ u v := by
  rcases h with h | ⟨l0, b, hg, h2, h3, h4, h5⟩ | ⟨l0, b, m, hg, hm, nm, ha, h2, h3⟩ | ⟨ho, ha, hh⟩
  · exact Or.inl h
  · refine Or.inr (Or.inl ⟨l0, b, hk.gap hg ?_, h2, h3, h4, h5⟩)
    rintro rfl; exact absurd (lt_of_lt_of_le h2 h0) (lt_irrefl _)
  · have hmn : m ≠ n := by rintro rfl; exact absurd (lt_of_lt_of_le h2 h0) (lt_irrefl _)
    refine Or.inr (Or.inr (Or.inl ?_))
    by_cases e : l0 = n
    · subst e
      have hp := (hw.cons m l0 hm hg.live).aa ha
      have hx : m.pa.x = l0.pa.x := by rw [hp]
      have h2' := lt_of_lt_of_le h2 h1
      rw [sk_nv nm, hx] at h2'
      obtain ⟨e1, e2, e3, e4⟩ := hk.piece (hw'.ok l hk.left) hg.nv h2'
      exact ⟨l, b, m, hk.gap_self hg e4 e3, hk.old hm hmn, nm, ha.trans e1.symm, h2, h1⟩
    · exact ⟨l0, b, m, hk.gap hg e, hk.old hm hmn, nm, ha, h2, h3⟩
  · exact Or.inr (Or.inr (Or.inr ⟨ho, ha, hh.imp (And.imp_right (And.imp_left hk.wit)) (And.imp_right (And.imp_left hk.wit))⟩))

theorem Kill.cut1 (hw : World L) (hw' : World L') (hk : Kill L L' n l r c) {κ : Key} (h0 : κ ≤ sk n) (h1 : κ ≤ sk l) (h2 : κ ≤ sk r)
    (h : CutOK mk L κ) : CutOK mk L' κ := by
  obtain ⟨W, hW, hc⟩ := h
  refine ⟨W, ⟨fun s => ?_, hW.sorted⟩, hc.imp (fun a b => hk.ok1 hw hw' h0 h1)⟩
  rw [hW.mem]
  constructor
  · rintro ⟨a, b, d⟩
    exact ⟨hk.old a (by rintro rfl; exact absurd (lt_of_lt_of_le b h0) (lt_irrefl _)), b, d⟩
  · rintro ⟨a, b, d⟩
    rcases (hk.iff s).mp a with ⟨a, _⟩ | rfl | rfl
    · exact ⟨a, b, d⟩
    · exact absurd (lt_of_lt_of_le b h1) (lt_irrefl _)
    · exact absurd (lt_of_lt_of_le b h2) (lt_irrefl _)

/-! ### Cuts after the start of the line and before the start of its piece -/

/-- The same lines as before, for another cut. -/
theorem Kill.ok2 (hw : World L) (hw' : World L') (hk : Kill L L' n l r c) {κ : Key} (h1 : sk n < κ) (h2 : κ ≤ sk l)
    {u v : CSeg} (h : OK mk L (sk n) u v) : OK mk L' κ u v := by
  have hn := hw.ok n hk.live
  have hl := hw'.ok l hk.left
  obtain ⟨e, a, hlb, w1, w2⟩ := hk.window hn hl h1 h2
  rcases h with h | ⟨l0, b, hg, h3, h4, h5, h6⟩ | ⟨l0, b, m, hg, hm, nm, ha, h3, h4⟩ | ⟨ho, ha, hh⟩
  · exact Or.inl h
  · refine Or.inr (Or.inl ⟨l0, b, hk.gap hg ?_, h3.trans h1, h4, h5, h6⟩)
    rintro rfl; exact lt_irrefl _ h3
  · have hmn : m ≠ n := by rintro rfl; exact lt_irrefl _ h3
    have hp := (hw.cons m l0 hm hg.live).aa ha
    obtain ⟨y, hy⟩ := pend_key nm hg.nv ha hp h3 h4
    have nn : Nv n := by
      by_contra hc
      have v : n.pa.x = n.pb.x := by by_contra hv; exact hc (hn.nv hv)
      rw [sk_v v] at hy
      injection hy with _ h; injection h with h _; omega
    have hna : n.a = m.a := by
      rw [sk_nv nn] at hy
      injection hy with _ h; injection h with _ h; injection h
    have hln : l0 = n := by
      have hml : m ≠ l0 := by rintro rfl; exact absurd (lt_of_lt_of_le h3 h4) (lt_irrefl _)
      rcases hw.two m l0 n hm hg.live hk.live nm hg.nv nn ha (ha.symm.trans hna.symm) with h | h | h
      · exact absurd h hml
      · exact h
      · exact absurd h hmn
    subst hln
    exact Or.inr (Or.inr (Or.inl ⟨l, b, m, hk.gap_self hg (w1 nn) hlb, hk.old hm hmn, nm, ha.trans e.symm, h3.trans h1, h2⟩))
  · exact Or.inr (Or.inr (Or.inr ⟨ho, ha, hh.imp (And.imp_right (And.imp_left hk.wit)) (And.imp_right (And.imp_left hk.wit))⟩))

theorem Kill.cut2 (hw : World L) (hw' : World L') (hk : Kill L L' n l r c) {κ : Key} (h1 : sk n < κ) (h2 : κ ≤ sk l) (h3 : κ ≤ sk r)
    (hM : ∀ s, L s → sk s < κ → sk s ≤ sk n) (h : CutOK mk L (sk n)) : CutOK mk L' κ := by
  obtain ⟨W, hW, hc⟩ := h
  have hn := hw.ok n hk.live
  have hl := hw'.ok l hk.left
  refine ⟨W, ⟨fun s => ?_, hW.sorted⟩, hc.imp (fun a b => hk.ok2 hw hw' h1 h2)⟩
  rw [hW.mem]
  constructor
  · rintro ⟨a, b, d⟩
    exact ⟨hk.old a (by rintro rfl; exact lt_irrefl _ b), b.trans h1, hk.ends hn hl h1 h2 d⟩
  · rintro ⟨a, b, d⟩
    rcases (hk.iff s).mp a with ⟨a, hne⟩ | rfl | rfl
    · refine ⟨a, lt_of_le_of_ne (hM s a b) (fun e => hne ?_), h1.le.trans d⟩
      have := e
      unfold sk at this
      injection this with _ h; injection h with _ h; injection h with ha hb
      exact hw.inj s n a hk.live ha hb
    · exact absurd (lt_of_lt_of_le b h2) (lt_irrefl _)
    · exact absurd (lt_of_lt_of_le b h3) (lt_irrefl _)
end
end PolyOps.Planarity
