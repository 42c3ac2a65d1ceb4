import Verif.Model.TreeWalk
import Verif.Props.TreeOut

/-! C81: going through a tree finds each polygon once, inside those that contain it. -/
namespace PolyOps.TreeWalk
open PolyOps PolyOps.Hierarchy PolyOps.Exec PolyOps.Clipper PolyOps.Planarity PolyOps.Sweep
open scoped Classical

/-! ### Specification -/

/-- The polygon and all below it, each before those below it. -/
def listing (i : Nat) (below : List (List Nat)) : List Nat := i :: below.flatten

/-- Going through the tree `t` of the polygons `out`. -/
structure Walked (out : List (List Pt)) (t : Tree) : Prop where
  /-- Whatever is made of a polygon and of what was made of its children, the recursion ends, and is no deeper than the number of polygons. -/
  ends : ∀ {β : Type} (f : Nat → List β → β), ∃ v : Nat → β, (∀ i < out.length, v i = f i ((t.children i).map v)) ∧ ∀ depth ≥ out.length, convert f t depth = some (t.top.map v)
  /-- The polygons found from the top are all polygons, each found once; those found below a polygon are those inside it, each found once. -/
  once : ∃ l : Nat → List Nat, (∀ depth ≥ out.length, convert listing t depth = some (t.top.map l)) ∧ (t.top.flatMap l).Perm (List.range out.length) ∧
    ∀ i < out.length, ∃ m, l i = i :: m ∧ m.Nodup ∧ ∀ p, p ∈ m ↔ Contains out i p

/-! ### Proof -/

section
variable {n : Nat} {C : Nat → Nat → Prop} {t : Tree} (h : Laminar n C) (hc : ∀ a p, p ∈ t.children a ↔ Direct C a p)

/-- The number of polygons inside. -/
noncomputable def inside (n : Nat) (C : Nat → Nat → Prop) (a : Nat) : Nat := ((List.range n).filter fun p => decide (C a p)).length

include h in
theorem inside_lt {a b : Nat} (k : C a b) : inside n C b < inside n C a := by
  unfold inside
  have hb : b ∉ (List.range n).filter fun p => decide (C b p) := fun m => h.irrefl b (of_decide_eq_true (List.mem_filter.mp m).2)
  have nd : (b :: (List.range n).filter fun p => decide (C b p)).Nodup := List.nodup_cons.mpr ⟨hb, List.Nodup.filter _ List.nodup_range⟩
  have := (List.subperm_of_subset nd (l₂ := (List.range n).filter fun p => decide (C a p)) (by
    intro x hx
    rcases List.mem_cons.mp hx with rfl | hx
    · exact List.mem_filter.mpr ⟨List.mem_range.mpr (h.lt _ _ k).2, decide_eq_true k⟩
    · obtain ⟨h1, h2⟩ := List.mem_filter.mp hx
      exact List.mem_filter.mpr ⟨h1, decide_eq_true (h.trans _ _ _ k (of_decide_eq_true h2))⟩)).length_le
  rw [List.length_cons] at this
  omega

include h in
theorem inside_lt_n {a : Nat} (ha : a < n) : inside n C a < n := by
  unfold inside
  have hb : a ∉ (List.range n).filter fun p => decide (C a p) := fun m => h.irrefl a (of_decide_eq_true (List.mem_filter.mp m).2)
  have nd : (a :: (List.range n).filter fun p => decide (C a p)).Nodup := List.nodup_cons.mpr ⟨hb, List.Nodup.filter _ List.nodup_range⟩
  have := (List.subperm_of_subset nd (l₂ := List.range n) (by
    intro x hx
    rcases List.mem_cons.mp hx with rfl | hx
    · exact List.mem_range.mpr ha
    · exact (List.mem_filter.mp hx).1)).length_le
  rw [List.length_cons, List.length_range] at this
  omega

theorem tuple_some {α β : Type} {g : α → Option β} {v : α → β} {l : List α} (hg : ∀ a ∈ l, g a = some (v a)) : tuple g l = some (l.map v) := by
  induction l with
  | nil => rfl
  | cons a l ih =>
    unfold tuple
    rw [hg a (List.mem_cons_self ..), ih fun b hb => hg b (List.mem_cons_of_mem _ hb)]
    rfl

/-- What is made of a polygon. -/
noncomputable def value {β : Type} (f : Nat → List β → β) (t : Tree) (n : Nat) (C : Nat → Nat → Prop) (i : Nat) : β := (visit f t (inside n C i + 1) i).getD (f i [])

include h hc in
theorem visit_value {β : Type} (f : Nat → List β → β) : ∀ (m i : Nat), inside n C i = m → ∀ k > m, visit f t k i = some (f i ((t.children i).map (value f t n C))) ∧
    value f t n C i = f i ((t.children i).map (value f t n C)) := by
  intro m
  induction m using Nat.strong_induction_on with
  | _ m ih =>
    intro i hi
    have kids : ∀ k ≥ m, ∀ c ∈ t.children i, visit f t k c = some (value f t n C c) := by
      intro k hk c hcm
      have := inside_lt h ((hc i c).mp hcm).1
      obtain ⟨e1, e2⟩ := ih _ (by omega) c rfl k (by omega)
      rw [e1, e2]
    have key : ∀ k > m, visit f t k i = some (f i ((t.children i).map (value f t n C))) := by
      intro k hk
      obtain ⟨j, rfl⟩ : ∃ j, k = j + 1 := ⟨k - 1, by omega⟩
      unfold visit
      rw [tuple_some (kids j (by omega))]
      rfl
    intro k hk
    refine ⟨key k hk, ?_⟩
    conv => lhs; unfold value
    rw [key _ (by omega)]
    rfl

include h in
theorem exists_child {a : Nat} : ∀ (m p : Nat), (outer n C p).length = m → C a p → ∃ c, Direct C a c ∧ (p = c ∨ C c p) := by
  intro m
  induction m using Nat.strong_induction_on with
  | _ m ih =>
    intro p hm k
    obtain ⟨d, hd⟩ := exists_direct h k
    rcases hd.2 a k with rfl | k'
    · exact ⟨p, hd, .inl rfl⟩
    · obtain ⟨c, h1, h2⟩ := ih _ (by have := outer_lt h hd.1; omega) d rfl k'
      refine ⟨c, h1, .inr ?_⟩
      rcases h2 with rfl | h2
      · exact hd.1
      · exact h.trans _ _ _ h2 hd.1

include h in
/-- Polygons beside each other have nothing inside in common. -/
theorem beside {R : Nat → Prop} {c d p : Nat} (hR : ∀ c d, R c → R d → ¬ C c d) (h1 : R c) (h2 : R d) (h3 : p = c ∨ C c p) (h4 : p = d ∨ C d p) : c = d := by
  rcases h3 with rfl | h3
  · rcases h4 with rfl | h4
    · rfl
    · exact absurd h4 (hR _ _ h2 h1)
  · rcases h4 with rfl | h4
    · exact absurd h3 (hR _ _ h1 h2)
    · rcases h.chain c d p h3 h4 with e | e | e
      · exact e
      · exact absurd e (hR _ _ h1 h2)
      · exact absurd e (hR _ _ h2 h1)

include h in
theorem siblings {a c d : Nat} (h1 : Direct C a c) (h2 : Direct C a d) : ¬ C c d := by
  intro k
  rcases h2.2 c k with rfl | k'
  · exact h.irrefl _ h1.1
  · exact h.irrefl _ (h.trans _ _ _ h1.1 k')

include h hc in
/-- The listing of a polygon. -/
theorem listing_spec (hn : ∀ a < n, (t.children a).Nodup) : ∀ (m a : Nat), a < n → inside n C a = m →
    (value listing t n C a).Nodup ∧ ∀ p, p ∈ value listing t n C a ↔ p = a ∨ C a p := by
  intro m
  induction m using Nat.strong_induction_on with
  | _ m ih =>
    intro a han ha
    have kid : ∀ c ∈ t.children a, (value listing t n C c).Nodup ∧ ∀ p, p ∈ value listing t n C c ↔ p = c ∨ C c p := by
      intro c hcm
      have k := ((hc a c).mp hcm).1
      exact ih _ (by rw [← ha]; exact inside_lt h k) c (h.lt _ _ k).2 rfl
    have mem : ∀ p, p ∈ ((t.children a).map (value listing t n C)).flatten ↔ C a p := by
      intro p
      rw [← List.flatMap_def, List.mem_flatMap]
      constructor
      · rintro ⟨c, hcm, hp⟩
        have k := ((hc a c).mp hcm).1
        rcases ((kid c hcm).2 p).mp hp with rfl | k'
        · exact k
        · exact h.trans _ _ _ k k'
      · intro k
        obtain ⟨c, h1, h2⟩ := exists_child h _ p rfl k
        have hcm := (hc a c).mpr h1
        exact ⟨c, hcm, ((kid c hcm).2 p).mpr h2⟩
    rw [(visit_value h hc listing m a ha (m + 1) (by omega)).2]
    unfold listing at mem kid ⊢
    refine ⟨List.nodup_cons.mpr ⟨fun k => h.irrefl a ((mem a).mp k), ?_⟩, fun p => ?_⟩
    · rw [← List.flatMap_def, List.nodup_flatMap]
      refine ⟨fun c hcm => (kid c hcm).1, ?_⟩
      refine List.Pairwise.imp_of_mem ?_ (hn a han)
      intro c d hcm hdm hne p hp hp'
      exact hne (beside h (R := Direct C a) (fun _ _ => siblings h) ((hc a c).mp hcm) ((hc a d).mp hdm) (((kid c hcm).2 p).mp hp) (((kid d hdm).2 p).mp hp'))
    · rw [List.mem_cons, mem]

include h hc in
/-- Going through a tree in which the children of a polygon are those directly inside it. -/
theorem walk_tree (ht : ∀ p, p ∈ t.top ↔ p < n ∧ ∀ a, ¬ C a p) (hn : ∀ a < n, (t.children a).Nodup) (hn' : t.top.Nodup) :
    (∀ {β : Type} (f : Nat → List β → β), ∃ v : Nat → β, (∀ i < n, v i = f i ((t.children i).map v)) ∧ ∀ depth ≥ n, convert f t depth = some (t.top.map v)) ∧
    ∃ l : Nat → List Nat, (∀ depth ≥ n, convert listing t depth = some (t.top.map l)) ∧ (t.top.flatMap l).Perm (List.range n) ∧
      ∀ i < n, ∃ m, l i = i :: m ∧ m.Nodup ∧ ∀ p, p ∈ m ↔ C i p := by
  have conv : ∀ {β : Type} (f : Nat → List β → β), ∀ depth ≥ n, convert f t depth = some (t.top.map (value f t n C)) := by
    intro β f depth hd
    refine tuple_some fun i hi => ?_
    have := inside_lt_n h ((ht i).mp hi).1
    obtain ⟨e1, e2⟩ := visit_value h hc f _ i rfl depth (by omega)
    rw [e1, e2]
  refine ⟨fun f => ⟨value f t n C, fun i _ => (visit_value h hc f _ i rfl _ (Nat.lt_succ_self _)).2, conv f⟩, value listing t n C, conv listing, ?_, ?_⟩
  · have spec := fun i hi => listing_spec h hc hn _ i hi rfl
    refine (List.perm_ext_iff_of_nodup ?_ List.nodup_range).mpr fun p => ?_
    · rw [List.nodup_flatMap]
      refine ⟨fun i hi => (spec i ((ht i).mp hi).1).1, ?_⟩
      refine List.Pairwise.imp_of_mem ?_ hn'
      intro c d hcm hdm hne p hp hp'
      exact hne (beside h (R := fun x => x < n ∧ ∀ a, ¬ C a x) (fun x _ _ hy k => hy.2 x k) ((ht c).mp hcm) ((ht d).mp hdm)
        (((spec c ((ht c).mp hcm).1).2 p).mp hp) (((spec d ((ht d).mp hdm).1).2 p).mp hp'))
    · rw [List.mem_flatMap, List.mem_range]
      constructor
      · rintro ⟨i, hi, hp⟩
        rcases ((spec i ((ht i).mp hi).1).2 p).mp hp with rfl | k
        · exact ((ht p).mp hi).1
        · exact (h.lt _ _ k).2
      · intro hp
        -- the outermost polygon around `p`
        have : ∀ (m p : Nat), (outer n C p).length = m → p < n → ∃ i ∈ t.top, p = i ∨ C i p := by
          intro m
          induction m using Nat.strong_induction_on with
          | _ m ih =>
            intro p hm hp
            by_cases k : ∃ a, C a p
            · obtain ⟨a, k⟩ := k
              obtain ⟨i, hi, e⟩ := ih _ (by have := outer_lt h k; omega) a rfl (h.lt _ _ k).1
              refine ⟨i, hi, .inr ?_⟩
              rcases e with rfl | e
              · exact k
              · exact h.trans _ _ _ e k
            · exact ⟨p, (ht p).mpr ⟨hp, fun a c => k ⟨a, c⟩⟩, .inl rfl⟩
        obtain ⟨i, hi, e⟩ := this _ p rfl hp
        exact ⟨i, hi, ((spec i ((ht i).mp hi).1).2 p).mpr e⟩
  · intro i hi
    obtain ⟨h1, h2⟩ := listing_spec h hc hn _ i hi rfl
    have e := (visit_value h hc listing _ i rfl _ (Nat.lt_succ_self _)).2
    rw [e] at h1 h2
    refine ⟨_, e, (List.nodup_cons.mp h1).2, fun p => ?_⟩
    constructor
    · intro hp
      rcases (h2 p).mp (List.mem_cons_of_mem _ hp) with rfl | k
      · exact absurd hp (List.nodup_cons.mp h1).1
      · exact k
    · intro k
      rcases List.mem_cons.mp ((h2 p).mpr (.inr k)) with rfl | hp
      · exact absurd k (h.irrefl _)
      · exact hp

end

section
variable {G : Type} {P : Params G} {r : Nat → Bool × Bool} {pos : Clip → Nat → Nat} {c : Clipper G} (hP : P.env1 c.rgen = realEnv id r pos)
  (hpos : PosOk (realEnv id r pos)) (hc : PolyOps.Exec.Empty c)

theorem walked {out : List (List Pt)} {t : Tree} (hn : PolyOps.Exec.Nested out) (h1 : t.top.Nodup) (h2 : ∀ a < out.length, (t.children a).Nodup)
    (h3 : ∀ p, p ∈ t.top ↔ p < out.length ∧ ∀ a, ¬ Contains out a p) (h4 : ∀ a p, p ∈ t.children a ↔ Directly out a p) : Walked out t := by
  obtain ⟨w1, w2⟩ := walk_tree (t := t) hn.laminar (fun a p => (h4 a p).trans direct_iff.symm) h3 h2 h1
  exact ⟨w1, w2⟩

include hP hpos hc in
/-- **C81.** Polygons are added to an empty clipper and an operation is run with tree output. If no two edges of the polygons returned coincide, going through the tree from the top ends, and finds
each polygon once, below exactly those that contain it. -/
theorem C81_walk {ps : List Poly} (hf : Fine none ps) (op : BoolOp) (log : List TCall) :
    ∃ N o out, (∀ fuel ≥ N, run P fuel (ps.map Poly.cmd ++ [.exec op true]) (c, log) = o) ∧
      (o = .bad ∨ ∃ st t, o = .ok (st, List.replicate ps.length none ++ [some ⟨out, some t⟩])) ∧
      (Single (out.flatMap edges) → ∃ st t, o = .ok (st, List.replicate ps.length none ++ [some ⟨out, some t⟩]) ∧ Walked out t) := by
  obtain ⟨B, _, _, key⟩ := C54_tree hP hpos hc hf
  obtain ⟨N, o, out, e1, e2, e3⟩ := key op log
  refine ⟨N, o, out, e1, e2.ends, fun hS => ?_⟩
  obtain ⟨st, t, e, h1, h2, h3, h4⟩ := e2.tree hS
  exact ⟨st, t, e, walked (e3.nested hS) h1 h2 h3 h4⟩

include hP hpos hc in
/-- **C81 (edges that do not overlap).** If no two edges of the polygons given overlap, and those that are not parallel only meet at integer points, this holds without further conditions. -/
theorem C81_apart {ps : List Poly} (hf : Fine none ps) (hE : Lattice (ps.flatMap fun p => edges p.pts))
    (hA : (ps.flatMap fun p => edges p.pts).Pairwise Apart) (op : BoolOp) (log : List TCall) :
    ∃ N st out t, (∀ fuel ≥ N, run P fuel (ps.map Poly.cmd ++ [.exec op true]) (c, log) = .ok (st, List.replicate ps.length none ++ [some ⟨out, some t⟩])) ∧ Walked out t := by
  obtain ⟨N, st, out, t, e, _, hn, h1, h2, h3, h4⟩ := C54_apart hP hpos hc hf hE hA op log
  exact ⟨N, st, out, t, e, walked hn h1 h2 h3 h4⟩

end

/-! ### Cases -/

/-- Three nested squares. -/
example (g : Nat → Bool × Bool) (op : BoolOp) : ∃ N st out t, (∀ fuel ≥ N, run lib fuel (rings.map Poly.cmd ++ [.exec op true]) (Clipper.fresh g, []) =
      .ok (st, List.replicate rings.length none ++ [some ⟨out, some t⟩])) ∧ Walked out t :=
  C81_apart (P := lib) rfl (takeWhile_posOk id g) (fresh_empty g) (by decide +kernel)
    (axis_lattice (by intro e he; unfold Axis; revert e; decide +kernel)) (List.Pairwise.imp (fun h => BoxApart.apart h) (by decide +kernel)) op []

/-- What is found in the result of an exclusive or of them. -/
def ringsWalk : Option (Option (List (List Nat))) :=
  match run lib 1000 (rings.map Poly.cmd ++ [.exec .xor true]) (Clipper.fresh fun _ => (false, false), []) with
  | .ok (_, l) => (l.getLast?.join.bind (·.tree)).map fun t => convert listing t 3
  | _ => none

example : ringsWalk = some (some [[0, 1, 2]]) := by decide +kernel

end PolyOps.TreeWalk
