import Verif.Lemmas.PlanarInsert

/-! The intersection sweep in terms of lines only: the lines, whose events were applied, and the sweep. -/
namespace PolyOps.Planarity
open PolyOps PolyOps.SweepCmp

variable {mk : Nat → Prop}

/-- Lines, those whose start was applied, those whose end was applied, and the sweep. -/
structure AS where
  L : CSeg → Prop
  SA : CSeg → Prop
  EA : CSeg → Prop
  sw : List CSeg

abbrev Sorted (l : List CSeg) : Prop := l.Pairwise (fun s t => sweepCmp s t = true)

/-- All events before the cut are applied. -/
def AS.safe (A : AS) (κ : Key) : Prop := ∀ c, A.L c → (sk c < κ → A.SA c) ∧ (ek c < κ → A.EA c)

/-- An event was applied. -/
def AS.App (A : AS) (k : Key) : Prop := (∃ c, A.SA c ∧ k = sk c) ∨ ∃ c, A.EA c ∧ k = ek c

/-- What the sweep held before an applied event. -/
def AS.T (A : AS) (k : Key) (s : CSeg) : Prop := A.SA s ∧ sk s < k ∧ ¬ (A.EA s ∧ ek s < k)

structure Base (A : AS) : Prop where
  w : World A.L
  sa : ∀ c, A.SA c → A.L c
  ea : ∀ c, A.EA c → A.SA c
  nodup : A.sw.Nodup
  mem : ∀ c, c ∈ A.sw ↔ A.SA c ∧ ¬ A.EA c
  s1 : ∀ k, A.App k → ∃ W, (∀ s, s ∈ W ↔ A.T k s) ∧ Sorted W

/-- The line started last is not in its place, but will be taken out next. -/
def AS.Exc (A : AS) : Prop := ∃ n ∈ A.sw, (∀ k, A.App k → k ≤ sk n) ∧ (∃ c, A.L c ∧ ¬ A.SA c ∧ sk c < sk n) ∧ Sorted (A.sw.erase n)

structure J (mk : Nat → Prop) (A : AS) : Prop extends Base A where
  good : Good mk A.L A.safe
  s2 : Sorted A.sw ∨ A.Exc

/-- The line `n` is put where the order says, as far as it does. -/
def Put (sw : List CSeg) (n : CSeg) (sw' : List CSeg) : Prop := ∀ l1 mid l2, sw = l1 ++ mid ++ l2 →
  (∀ m ∈ l1, sweepCmp m n = true) → (∀ m ∈ l2, sweepCmp n m = true) → ∃ m1 m2, mid = m1 ++ m2 ∧ sw' = l1 ++ m1 ++ n :: m2 ++ l2

theorem AS.safe_mono {A : AS} {κ κ' : Key} (h : κ ≤ κ') (hs : A.safe κ') : A.safe κ :=
  fun c hc => ⟨fun h' => (hs c hc).1 (lt_of_lt_of_le h' h), fun h' => (hs c hc).2 (lt_of_lt_of_le h' h)⟩

theorem sk_inj {L : CSeg → Prop} (hw : World L) {s t : CSeg} (hs : L s) (ht : L t) (h : sk s = sk t) : s = t := by
  unfold sk at h
  injection h with _ h; injection h with _ h; injection h with ha hb
  exact hw.inj s t hs ht ha hb

theorem ek_inj {L : CSeg → Prop} (hw : World L) {s t : CSeg} (hs : L s) (ht : L t) (h : ek s = ek t) : s = t := by
  unfold ek at h
  injection h with _ h; injection h with _ h; injection h with ha hb
  exact hw.inj s t hs ht hb ha

theorem sk_ne_ek (s t : CSeg) : sk s ≠ ek t := by
  intro h
  unfold sk ek at h
  injection h with _ h; injection h with h _
  split at h <;> split at h <;> omega

/-! ### Going back -/

theorem J.undoStart {A : AS} (h : J mk A) {n : CSeg} (hn : n ∈ A.sw) (hmax : ∀ k, A.App k → k ≤ sk n) :
    J mk ⟨A.L, fun c => A.SA c ∧ c ≠ n, A.EA, A.sw.erase n⟩ := by
  obtain ⟨hn1, hn2⟩ := (h.mem n).mp hn
  have app : ∀ k, (AS.mk A.L (fun c => A.SA c ∧ c ≠ n) A.EA (A.sw.erase n)).App k → A.App k := by
    rintro k (⟨c, hc, e⟩ | ⟨c, hc, e⟩)
    · exact Or.inl ⟨c, hc.1, e⟩
    · exact Or.inr ⟨c, hc, e⟩
  refine ⟨⟨h.w, fun c hc => h.sa c hc.1, fun c hc => ⟨h.ea c hc, ?_⟩, h.nodup.erase n, fun c => ?_, fun k hk => ?_⟩, ?_, Or.inl ?_⟩
  · rintro rfl; exact hn2 hc
  · rw [h.nodup.mem_erase_iff, h.mem]; tauto
  · obtain ⟨W, hW, hs⟩ := h.s1 k (app k hk)
    refine ⟨W, fun s => ?_, hs⟩
    rw [hW]
    unfold AS.T
    constructor
    · rintro ⟨h1, h2, h3⟩
      refine ⟨⟨h1, ?_⟩, h2, h3⟩
      rintro rfl
      exact absurd (lt_of_lt_of_le h2 (hmax k (app k hk))) (lt_irrefl _)
    · rintro ⟨h1, h2, h3⟩; exact ⟨h1.1, h2, h3⟩
  · intro κ hκ
    refine h.good κ fun c hc => ⟨fun h' => ((hκ c hc).1 h').1, (hκ c hc).2⟩
  · rcases h.s2 with hs | ⟨m, hm, hx, _, hs⟩
    · exact hs.sublist List.erase_sublist
    · obtain ⟨hm1, _⟩ := (h.mem m).mp hm
      have e : n = m := sk_inj h.w (h.sa n hn1) (h.sa m hm1)
        (le_antisymm (hx _ (Or.inl ⟨n, hn1, rfl⟩)) (hmax _ (Or.inl ⟨m, hm1, rfl⟩)))
      rw [e]; exact hs

theorem J.undoEnd {A : AS} (h : J mk A) {n : CSeg} (hn : A.EA n) (hmax : ∀ k, A.App k → k ≤ ek n) {sw' : List CSeg} (hp : Put A.sw n sw') :
    J mk ⟨A.L, A.SA, fun c => A.EA c ∧ c ≠ n, sw'⟩ := by
  have hL := h.sa n (h.ea n hn)
  have app : ∀ k, (AS.mk A.L A.SA (fun c => A.EA c ∧ c ≠ n) sw').App k → A.App k := by
    rintro k (⟨c, hc, e⟩ | ⟨c, hc, e⟩)
    · exact Or.inl ⟨c, hc, e⟩
    · exact Or.inr ⟨c, hc.1, e⟩
  have hsw : Sorted A.sw := by
    rcases h.s2 with hs | ⟨m, hm, hx, _, _⟩
    · exact hs
    · exfalso
      obtain ⟨hm1, _⟩ := (h.mem m).mp hm
      exact sk_ne_ek m n (le_antisymm (hmax _ (Or.inl ⟨m, hm1, rfl⟩)) (hx _ (Or.inr ⟨n, hn, rfl⟩)))
  obtain ⟨W, hW, hs⟩ := h.s1 (ek n) (Or.inr ⟨n, hn, rfl⟩)
  have memW : ∀ s, s ∈ W ↔ s ∈ A.sw ∨ s = n := by
    intro s
    rw [hW, h.mem]
    unfold AS.T
    constructor
    · rintro ⟨h1, h2, h3⟩
      by_cases c : A.EA s
      · right
        refine ek_inj h.w (h.sa s h1) hL (le_antisymm (hmax _ (Or.inr ⟨s, c, rfl⟩)) ?_)
        by_contra hc; exact h3 ⟨c, not_le.mp hc⟩
      · exact Or.inl ⟨h1, c⟩
    · rintro (⟨h1, h2⟩ | rfl)
      · exact ⟨h1, lt_of_le_of_ne (hmax _ (Or.inl ⟨s, h1, rfl⟩)) (sk_ne_ek s n), fun hc => h2 hc.1⟩
      · exact ⟨h.ea s hn, sk_lt_ek (h.w.ok s hL), fun hc => lt_irrefl _ hc.2⟩
  obtain ⟨l1, l2, rfl⟩ := List.append_of_mem ((memW n).mpr (Or.inr rfl))
  have hd := List.pairwise_append.mp hs
  have c1 : ∀ m ∈ l1, sweepCmp m n = true := fun m hm => hd.2.2 m hm n (by simp)
  have c2 : ∀ m ∈ l2, sweepCmp n m = true := fun m hm => (List.pairwise_cons.mp hd.2.1).1 m hm
  have heq : A.sw = l1 ++ l2 := by
    refine sorted_unique hsw (hs.sublist ((List.sublist_cons_self n l2).append_left l1)) fun s => ?_
    have hns : n ∉ A.sw := fun hc => ((h.mem n).mp hc).2 hn
    have := memW s
    constructor
    · intro hs'
      have h1 := this.mpr (Or.inl hs')
      simp only [List.mem_append, List.mem_cons] at h1 ⊢
      rcases h1 with h1 | rfl | h1
      · exact Or.inl h1
      · exact absurd hs' hns
      · exact Or.inr h1
    · intro hs'
      have h1 : s ∈ l1 ++ n :: l2 := by
        simp only [List.mem_append, List.mem_cons] at hs' ⊢; tauto
      rcases this.mp h1 with h1 | rfl
      · exact h1
      · exfalso
        rcases List.mem_append.mp hs' with h1 | h1
        · have := c1 s h1; rw [C22_irrefl] at this; cases this
        · have := c2 s h1; rw [C22_irrefl] at this; cases this
  obtain ⟨m1, m2, e1, e2⟩ := hp l1 [] l2 (by rw [heq]; simp) c1 c2
  obtain ⟨rfl, rfl⟩ := List.nil_eq_append_iff.mp e1
  have e2 : sw' = l1 ++ n :: l2 := by rw [e2]; simp
  subst e2
  refine ⟨⟨h.w, h.sa, fun c hc => h.ea c hc.1, sorted_nodup hs, fun c => ?_, fun k hk => ?_⟩, ?_, Or.inl hs⟩
  · show c ∈ l1 ++ n :: l2 ↔ A.SA c ∧ ¬ (A.EA c ∧ c ≠ n)
    rw [memW, h.mem]
    constructor
    · rintro (⟨h1, h2⟩ | rfl)
      · exact ⟨h1, fun hc => h2 hc.1⟩
      · exact ⟨h.ea c hn, fun hc => hc.2 rfl⟩
    · rintro ⟨h1, h2⟩
      by_cases e : c = n
      · exact Or.inr e
      · exact Or.inl ⟨h1, fun hc => h2 ⟨hc, e⟩⟩
  · obtain ⟨W, hW, hs⟩ := h.s1 k (app k hk)
    refine ⟨W, fun s => ?_, hs⟩
    rw [hW]
    unfold AS.T
    have hk' := hmax k (app k hk)
    constructor
    · rintro ⟨h1, h2, h3⟩; exact ⟨h1, h2, fun hc => h3 ⟨hc.1.1, hc.2⟩⟩
    · rintro ⟨h1, h2, h3⟩
      refine ⟨h1, h2, fun hc => h3 ⟨⟨hc.1, ?_⟩, hc.2⟩⟩
      rintro rfl
      exact absurd (lt_of_lt_of_le hc.2 hk') (lt_irrefl _)
  · intro κ hκ
    exact h.good κ fun c hc => ⟨(hκ c hc).1, fun h' => ((hκ c hc).2 h').1⟩

/-! ### The start of a line -/

/-- The line `n` was just started and not tested yet. -/
structure Pre (mk : Nat → Prop) (A : AS) (n : CSeg) : Prop extends Base A where
  inn : n ∈ A.sw
  max : ∀ k, A.App k → k ≤ sk n
  cuts : ∀ κ, κ ≤ sk n → CutOK mk A.L κ
  cl : CutList A.L (sk n) (A.sw.erase n)
  pl : Sorted A.sw ∨ ∃ l1 m1 m2 l2, A.sw = l1 ++ m1 ++ n :: m2 ++ l2 ∧ Block (A.sw.erase n) (m1 ++ m2) n

theorem J.sorted {A : AS} (h : J mk A) {κ : Key} (hs : A.safe κ) (hmax : ∀ k, A.App k → k < κ) : Sorted A.sw := by
  rcases h.s2 with h' | ⟨m, hm, _, ⟨c, c1, c2, c3⟩, _⟩
  · exact h'
  · exact absurd ((hs c c1).1 (c3.trans (hmax _ (Or.inl ⟨m, ((h.mem m).mp hm).1, rfl⟩)))) c2

theorem J.cutList {A : AS} (h : J mk A) {κ : Key} (hs : A.safe κ) (hmax : ∀ k, A.App k → k < κ) : CutList A.L κ A.sw := by
  refine ⟨fun s => ?_, h.sorted hs hmax⟩
  rw [h.mem]
  constructor
  · rintro ⟨h1, h2⟩
    refine ⟨h.sa s h1, hmax _ (Or.inl ⟨s, h1, rfl⟩), ?_⟩
    by_contra hc; exact h2 ((hs s (h.sa s h1)).2 (not_le.mp hc))
  · rintro ⟨h1, h2, h3⟩
    exact ⟨(hs s h1).1 h2, fun hc => absurd (lt_of_lt_of_le (hmax _ (Or.inr ⟨s, hc, rfl⟩)) h3) (lt_irrefl _)⟩

theorem J.start {A : AS} (h : J mk A) {n : CSeg} (hn : A.L n) (hs : A.safe (sk n)) (hmax : ∀ k, A.App k → k < sk n) {sw' : List CSeg}
    (hp : Put A.sw n sw') : Pre mk ⟨A.L, fun c => A.SA c ∨ c = n, A.EA, sw'⟩ n := by
  have hcl := h.cutList hs hmax
  have cuts : ∀ κ, κ ≤ sk n → CutOK mk A.L κ := fun κ hκ => h.good κ (AS.safe_mono hκ hs)
  have hnsa : ¬ A.SA n := fun hc => lt_irrefl _ (hmax _ (Or.inl ⟨n, hc, rfl⟩))
  have hnsw : n ∉ A.sw := fun hc => hnsa ((h.mem n).mp hc).1
  obtain ⟨l1, mid, l2, e, c1, c2, hb⟩ := place h.w cuts hn hcl
  obtain ⟨m1, m2, rfl, e'⟩ := hp l1 mid l2 e c1 c2
  have eW : A.sw = l1 ++ m1 ++ (m2 ++ l2) := by rw [e]; simp
  have eS : sw' = l1 ++ m1 ++ n :: (m2 ++ l2) := by rw [e']; simp
  have hn1 : n ∉ l1 ++ m1 := fun hc => hnsw (by rw [eW]; exact List.mem_append.mpr (Or.inl hc))
  have hmem : ∀ s, s ∈ sw' ↔ s ∈ A.sw ∨ s = n := by
    intro s; rw [eS, eW]; simp only [List.mem_append, List.mem_cons]; tauto
  have her : sw'.erase n = A.sw := by
    rw [eS, List.erase_append_right _ hn1, List.erase_cons_head, eW]
  have hnd : sw'.Nodup := by
    have hp : sw'.Perm (n :: A.sw) := by rw [eS, eW]; exact List.perm_middle
    exact hp.nodup_iff.mpr (List.nodup_cons.mpr ⟨hnsw, h.nodup⟩)
  refine ⟨⟨h.w, ?_, fun c hc => Or.inl (h.ea c hc), hnd, fun c => ?_, fun k hk => ?_⟩, (hmem n).mpr (Or.inr rfl), ?_, cuts, ?_, ?_⟩
  · rintro c (hc | rfl)
    · exact h.sa c hc
    · exact hn
  · show c ∈ sw' ↔ _
    rw [hmem, h.mem]
    constructor
    · rintro (⟨h1, h2⟩ | rfl)
      · exact ⟨Or.inl h1, h2⟩
      · exact ⟨Or.inr rfl, fun hc => hnsa (h.ea _ hc)⟩
    · rintro ⟨h1 | h1, h2⟩
      · exact Or.inl ⟨h1, h2⟩
      · exact Or.inr h1
  · have hk' : A.App k ∨ k = sk n := by
      rcases hk with ⟨c, hc | rfl, e⟩ | ⟨c, hc, e⟩
      · exact Or.inl (Or.inl ⟨c, hc, e⟩)
      · exact Or.inr e
      · exact Or.inl (Or.inr ⟨c, hc, e⟩)
    rcases hk' with hk' | rfl
    · obtain ⟨W, hW, hso⟩ := h.s1 k hk'
      refine ⟨W, fun s => ?_, hso⟩
      rw [hW]
      unfold AS.T
      constructor
      · rintro ⟨h1, h2⟩; exact ⟨Or.inl h1, h2⟩
      · rintro ⟨h1 | rfl, h2⟩
        · exact ⟨h1, h2⟩
        · exact absurd (h2.1.trans (hmax k hk')) (lt_irrefl _)
    · refine ⟨A.sw, fun s => ?_, hcl.sorted⟩
      rw [h.mem]
      unfold AS.T
      constructor
      · rintro ⟨h1, h2⟩; exact ⟨Or.inl h1, hmax _ (Or.inl ⟨s, h1, rfl⟩), fun hc => h2 hc.1⟩
      · rintro ⟨h1 | rfl, h2, h3⟩
        · exact ⟨h1, fun hc => h3 ⟨hc, hmax _ (Or.inr ⟨s, hc, rfl⟩)⟩⟩
        · exact absurd h2 (lt_irrefl _)
  · rintro k (⟨c, hc | rfl, rfl⟩ | ⟨c, hc, rfl⟩)
    · exact (hmax _ (Or.inl ⟨c, hc, rfl⟩)).le
    · exact le_rfl
    · exact (hmax _ (Or.inr ⟨c, hc, rfl⟩)).le
  · show CutList A.L (sk n) (sw'.erase n)
    rw [her]; exact hcl
  · rcases hb with hb | hb
    · left
      obtain ⟨rfl, rfl⟩ := List.append_eq_nil_iff.mp hb
      show Sorted sw'
      rw [e']
      have hso := hcl.sorted
      rw [e] at hso
      simp only [List.append_nil, List.append_assoc, List.cons_append, List.nil_append] at hso ⊢
      obtain ⟨q1, q2, q3⟩ := List.pairwise_append.mp hso
      refine List.pairwise_append.mpr ⟨q1, List.pairwise_cons.mpr ⟨c2, q2⟩, ?_⟩
      intro a ha b hb
      rcases List.mem_cons.mp hb with rfl | hb
      · exact c1 a ha
      · exact q3 a ha b hb
    · right
      refine ⟨l1, m1, m2, l2, e', ?_⟩
      show Block (sw'.erase n) _ n
      rw [her]; exact hb

/-! ### Killing a line -/

/-- A line of the sweep is replaced by two pieces that were not started. -/
structure AKill (A A' : AS) (n l r : CSeg) (c : Pt) : Prop where
  k : Kill A.L A'.L n l r c
  w : World A'.L
  fl : ¬ A.L l
  fr : ¬ A.L r
  sa : ∀ c, A'.SA c ↔ A.SA c ∧ c ≠ n
  ea : ∀ c, A'.EA c ↔ A.EA c
  sw : A'.sw = A.sw.erase n
  inn : n ∈ A.sw

section
variable {A A' : AS} {n l r : CSeg} {c : Pt}

theorem AKill.app (hk : AKill A A' n l r c) {k : Key} (h : A'.App k) : A.App k := by
  rcases h with ⟨c, hc, e⟩ | ⟨c, hc, e⟩
  · exact Or.inl ⟨c, ((hk.sa c).mp hc).1, e⟩
  · exact Or.inr ⟨c, (hk.ea c).mp hc, e⟩

theorem AKill.lsa (hk : AKill A A' n l r c) (h : Base A) : ¬ A'.SA l := fun hc => hk.fl (h.sa l ((hk.sa l).mp hc).1)
theorem AKill.rsa (hk : AKill A A' n l r c) (h : Base A) : ¬ A'.SA r := fun hc => hk.fr (h.sa r ((hk.sa r).mp hc).1)

theorem AKill.safe (hk : AKill A A' n l r c) (h : Base A) {κ : Key} (hs : A'.safe κ) : κ ≤ sk l ∧ κ ≤ sk r := by
  constructor
  · by_contra hc; exact hk.lsa h ((hs l hk.k.left).1 (not_le.mp hc))
  · by_contra hc; exact hk.rsa h ((hs r hk.k.right).1 (not_le.mp hc))

theorem Base.kill (h : Base A) (hk : AKill A A' n l r c) : Base A' := by
  have hn := (h.mem n).mp hk.inn
  refine ⟨hk.w, fun c hc => ?_, fun c hc => ?_, ?_, fun c => ?_, fun k hk' => ?_⟩
  · obtain ⟨h1, h2⟩ := (hk.sa c).mp hc
    exact hk.k.old (h.sa c h1) h2
  · rw [hk.ea] at hc
    rw [hk.sa]
    refine ⟨h.ea c hc, ?_⟩
    rintro rfl; exact hn.2 hc
  · rw [hk.sw]; exact h.nodup.erase n
  · rw [hk.sw, h.nodup.mem_erase_iff, h.mem, hk.sa, hk.ea]; tauto
  · obtain ⟨W, hW, hs⟩ := h.s1 k (hk.app hk')
    refine ⟨W.filter (fun s => decide (s ≠ n)), fun s => ?_, hs.sublist List.filter_sublist⟩
    rw [List.mem_filter, hW, decide_eq_true_iff]
    unfold AS.T
    rw [hk.sa, hk.ea]; tauto

/-! ### After the start of a line -/

theorem sorted_erase (h : Sorted A.sw) (n : CSeg) : Sorted (A.sw.erase n) := h.sublist List.erase_sublist

/-- The new line is split. -/
theorem Pre.killN (h : Pre mk A n) (hk : AKill A A' n l r c) : J mk A' := by
  refine ⟨h.toBase.kill hk, fun κ hs => ?_, Or.inl ?_⟩
  · obtain ⟨h2, h3⟩ := hk.safe h.toBase hs
    refine hk.k.cutOK h.w hk.w h2 h3 (fun _ => h.cuts _ le_rfl) ?_
    rintro (h1 | ⟨M, hM, m1, m2⟩)
    · exact h.cuts κ h1
    · exfalso
      have : M ≠ n := by rintro rfl; exact lt_irrefl _ m1
      have := ((hk.sa M).mp ((hs M (hk.k.old hM this)).1 m2)).1
      exact absurd (lt_of_lt_of_le m1 (h.max _ (Or.inl ⟨M, this, rfl⟩))) (lt_irrefl _)
  · rw [hk.sw]; exact h.cl.sorted

/-- The new line and its neighbour are split. -/
theorem Pre.killNP {B : AS} {p l' r' : CSeg} {c' : Pt} (h : Pre mk A n) (hk : AKill A B n l r c) (hk' : AKill B A' p l' r' c') : J mk A' := by
  have hb := h.toBase.kill hk
  have hp : A.SA p ∧ p ≠ n := (hk.sa p).mp ((hb.mem p).mp hk'.inn).1
  have hpn : sk p < sk n := by
    refine lt_of_le_of_ne (h.max _ (Or.inl ⟨p, hp.1, rfl⟩)) (fun e => hp.2 ?_)
    exact sk_inj h.w (h.sa p hp.1) (h.sa n ((h.mem n).mp h.inn).1) e
  refine ⟨hb.kill hk', fun κ hs => ?_, Or.inl ?_⟩
  · obtain ⟨h2, h3⟩ := hk'.safe hb hs
    have hlp : l ≠ p := by rintro rfl; exact hk.fl (h.sa _ hp.1)
    have hrp : r ≠ p := by rintro rfl; exact hk.fr (h.sa _ hp.1)
    have h4 : κ ≤ sk l := by
      by_contra hc
      have := (hs l (hk'.k.old hk.k.left hlp)).1 (not_le.mp hc)
      exact hk.lsa h.toBase ((hk'.sa l).mp this).1
    have h5 : κ ≤ sk r := by
      by_contra hc
      have := (hs r (hk'.k.old hk.k.right hrp)).1 (not_le.mp hc)
      exact hk.rsa h.toBase ((hk'.sa r).mp this).1
    have first : ∀ κ', κ' ≤ κ → CutOK mk B.L κ' := by
      intro κ' hκ
      refine hk.k.cutOK h.w hk.w (hκ.trans h4) (hκ.trans h5) (fun _ => h.cuts _ le_rfl) ?_
      rintro (h1 | ⟨M, hM, m1, m2⟩)
      · exact h.cuts κ' h1
      · exfalso
        have e1 : M ≠ n := by rintro rfl; exact lt_irrefl _ m1
        have e2 : M ≠ p := by rintro rfl; exact lt_asymm m1 hpn
        have := (hs M (hk'.k.old (hk.k.old hM e1) e2)).1 (lt_of_lt_of_le m2 hκ)
        have := ((hk.sa M).mp ((hk'.sa M).mp this).1).1
        exact absurd (lt_of_lt_of_le m1 (h.max _ (Or.inl ⟨M, this, rfl⟩))) (lt_irrefl _)
    exact hk'.k.cutOK hk.w hk'.w h2 h3 (fun h1 => first _ h1.le) (fun _ => first _ le_rfl)
  · rw [hk'.sw, hk.sw]; exact h.cl.sorted.sublist List.erase_sublist

/-- The neighbour of the new line is split. -/
theorem Pre.killP {p : CSeg} (h : Pre mk A n) (hk : AKill A A' p l r c) (hpn : p ≠ n)
    (hadj : ∃ l1 l2, A.sw = l1 ++ p :: n :: l2 ∨ A.sw = l1 ++ n :: p :: l2)
    (hov : n.a = p.a → Nv n → Nv p → Over n p ∧ n.pb = c ∧ c.x < p.pb.x ∧ mk n.b) : J mk A' := by
  have hnA := (h.mem n).mp h.inn
  have hL := h.sa n hnA.1
  have hpA := (h.mem p).mp hk.inn
  have hlt : sk p < sk n := by
    refine lt_of_le_of_ne (h.max _ (Or.inl ⟨p, hpA.1, rfl⟩)) (fun e => hpn ?_)
    exact sk_inj h.w (h.sa p hpA.1) hL e
  have okl := hk.w.ok l hk.k.left
  have okp := h.w.ok p (h.sa p hpA.1)
  have hpW : p ∈ A.sw.erase n := (h.nodup.mem_erase_iff).mpr ⟨hpn, hk.inn⟩
  -- the new line starts where the neighbour does
  have same : ∀ κ, sk n < κ → κ ≤ sk l → n.a = p.a ∧ Nv n ∧ Nv p ∧ p.pa = n.pa := by
    intro κ h1 h2
    have hsec : Second A.L p l n κ := ⟨hlt.trans h1, h2, hL, hlt, h1⟩
    obtain ⟨a1, a2, a3, a4, _⟩ := hsec.facts h.w okl hk.k
    exact ⟨a1, a4, a3, a2⟩
  have hne : ∀ κ, sk n < κ → κ ≤ sk l → Sorted A.sw := by
    intro κ h1 h2
    rcases h.pl with hs | ⟨_, _, _, _, _, hb⟩
    · exact hs
    · exact absurd (same κ h1 h2).2.2.2 (hb.fresh p hpW)
  refine ⟨h.toBase.kill hk, fun κ hs => ?_, ?_⟩
  · obtain ⟨h2, h3⟩ := hk.safe h.toBase hs
    rcases le_or_gt κ (sk n) with h1 | h1
    · exact hk.k.cutOK h.w hk.w h2 h3 (fun h => h.le.trans h1 |> Pre.cuts ‹_› _) (fun _ => h.cuts κ h1)
    · obtain ⟨a1, a2, a3, _⟩ := same κ h1 h2
      obtain ⟨o1, o2, o3, o4⟩ := hov a1 a2 a3
      have hsec : Second A.L p l n κ := ⟨hlt.trans h1, h2, hL, hlt, h1⟩
      have hso := hne κ h1 h2
      obtain ⟨W', hW', hch⟩ := h.cuts _ le_rfl
      rw [hW'.unique h.cl] at hch
      have hcl := h.cl
      obtain ⟨l1, l2, e | e⟩ := hadj
      · have hnl : n ∉ l1 ++ [p] := by
          intro hc
          have := h.nodup
          rw [e, show l1 ++ p :: n :: l2 = l1 ++ [p] ++ n :: l2 by simp, List.nodup_append] at this
          exact this.2.2 n hc n (by simp) rfl
        have ee : A.sw.erase n = l1 ++ p :: l2 := by
          rw [e, show l1 ++ p :: n :: l2 = l1 ++ [p] ++ n :: l2 by simp, List.erase_append_right _ hnl, List.erase_cons_head]; simp
        rw [ee] at hcl hch
        refine hk.k.cut4 h.w hk.w hsec h3 o1 o2 o3 o4 hcl ?_ hch
        rw [e] at hso
        exact hso.sublist ((List.sublist_cons_self p _).append_left l1)
      · have hnl : n ∉ l1 := by
          intro hc
          have := h.nodup
          rw [e, List.nodup_append] at this
          exact this.2.2 n hc n (by simp) rfl
        have ee : A.sw.erase n = l1 ++ p :: l2 := by
          rw [e, List.erase_append_right _ hnl, List.erase_cons_head]
        rw [ee] at hcl hch
        refine hk.k.cut4 h.w hk.w hsec h3 o1 o2 o3 o4 hcl ?_ hch
        rw [e] at hso
        exact hso.sublist (((List.sublist_cons_self p l2).cons_cons n).append_left l1)
  · rw [hk.sw]
    rcases h.pl with hs | ⟨_, _, _, _, _, hb⟩
    · exact Or.inl (hs.sublist List.erase_sublist)
    · right
      refine ⟨n, ?_, fun k hk' => h.max k (hk.app hk'), ⟨l, hk.k.left, hk.lsa h.toBase, ?_⟩, ?_⟩
      · rw [hk.sw, h.nodup.mem_erase_iff]; exact ⟨Ne.symm hpn, h.inn⟩
      · by_contra hc
        push Not at hc
        have hlt' : sk n < sk l := lt_of_le_of_ne hc (fun e => by
          have := sk_inj hk.w (hk.k.old hL (Ne.symm hpn)) hk.k.left e
          rw [this] at hL; exact hk.fl hL)
        exact hb.fresh p hpW (same _ hlt' le_rfl).2.2.2
      · rw [hk.sw, List.erase_comm]; exact h.cl.sorted.sublist List.erase_sublist

/-- Nothing is split. -/
theorem Pre.none (h : Pre mk A n) {l1 l2 : List CSeg} (e : A.sw = l1 ++ n :: l2) (h1 : ∀ p ∈ l1.getLast?, Ct mk n p) (h2 : ∀ q ∈ l2.head?, Ct mk n q) :
    J mk A := by
  have hnA := (h.mem n).mp h.inn
  have hnd := h.nodup
  rw [e] at hnd
  have hn1 : n ∉ l1 := fun hc => (List.nodup_append.mp hnd).2.2 n hc n (by simp) rfl
  have her : A.sw.erase n = l1 ++ l2 := by rw [e, List.erase_append_right _ hn1, List.erase_cons_head]
  have hso : Sorted A.sw := by
    rcases h.pl with hs | ⟨k1, m1, m2, k2, e', hb⟩
    · exact hs
    · exfalso
      have bad : ∀ w ∈ m1 ++ m2, ¬ Ct mk n w := by
        intro w hw hcl
        obtain ⟨b1, b2⟩ := hb.pass w hw
        rcases hcl.1.cases with hc | hc
        · exact b2 ((hc.endq _ _).mp (endq_a n))
        · exact b2 (hc _ _ _ le_rfl (on_a n) b1).2
      have e2 : l1 ++ n :: l2 = (k1 ++ m1) ++ n :: (m2 ++ k2) := by rw [← e, e']; simp
      have hn2 : n ∉ k1 ++ m1 := by
        intro hc
        rw [e2] at hnd
        exact (List.nodup_append.mp hnd).2.2 n hc n (by simp) rfl
      obtain ⟨f1, f2⟩ : l1 = k1 ++ m1 ∧ l2 = m2 ++ k2 := by
        rcases List.append_eq_append_iff.mp e2 with ⟨a, q1, q2⟩ | ⟨a, q1, q2⟩
        · cases a with
          | nil => simp at q1 q2; exact ⟨q1.symm, q2⟩
          | cons x a =>
            simp only [List.cons_append, List.cons.injEq] at q2
            exact absurd (by rw [q1, ← q2.1]; simp) hn2
        · cases a with
          | nil => simp at q1 q2; exact ⟨q1, q2.symm⟩
          | cons x a =>
            simp only [List.cons_append, List.cons.injEq] at q2
            exact absurd (by rw [q1, ← q2.1]; simp) hn1
      rcases List.eq_nil_or_concat m1 with hm | ⟨m, w, hm⟩
      · cases m2 with
        | nil => exact hb.ne (by rw [hm]; rfl)
        | cons w m => exact bad w (by simp) (h2 w (by rw [f2]; simp))
      · exact bad w (by rw [hm]; simp) (h1 w (by rw [f1, hm]; simp))
  refine ⟨h.toBase, fun κ hs => ?_, Or.inl hso⟩
  rcases le_or_gt κ (sk n) with hκ | hκ
  · exact h.cuts κ hκ
  obtain ⟨W', hW', hch⟩ := h.cuts _ le_rfl
  rw [hW'.unique h.cl, her] at hch
  have mem : ∀ s ∈ l1 ++ l2, InCut A.L (sk n) s := fun s hs => (h.cl.mem s).mp (by rw [her]; exact hs)
  have hd := List.pairwise_append.mp (e ▸ hso)
  have ok : ∀ u v, sk u < sk n → sk v < sk n → (sweepCmp n u = true ∨ sweepCmp v n = true) → OK mk A.L (sk n) u v → OK mk A.L κ u v := by
    intro u v hu hv hc ho
    rcases ho with ho | ⟨l0, b, hg, h3, h4, h5, h6⟩ | ⟨l0, b, m, hg, hm, nm, ha, h3, h4⟩ | ho
    · exact Or.inl ho
    · exact Or.inr (Or.inl ⟨l0, b, hg, h3.trans hκ, h4, h5, h6⟩)
    · rcases le_or_gt κ (sk l0) with h5 | h5
      · exact Or.inr (Or.inr (Or.inl ⟨l0, b, m, hg, hm, nm, ha, h3.trans hκ, h5⟩))
      · have hl0 : l0 = n := by
          have := (hs l0 hg.live).1 h5
          exact sk_inj h.w hg.live (h.sa n hnA.1) (le_antisymm (h.max _ (Or.inl ⟨l0, this, rfl⟩)) h4)
        subst hl0
        exact Or.inr (Or.inl ⟨l0, b, hg, hκ, hu, hv, hc⟩)
    · exact Or.inr (Or.inr (Or.inr ho))
  refine ⟨A.sw, ⟨fun s => ?_, hso⟩, ?_⟩
  · rw [h.mem]
    constructor
    · rintro ⟨b1, b2⟩
      refine ⟨h.sa s b1, lt_of_le_of_lt (h.max _ (Or.inl ⟨s, b1, rfl⟩)) hκ, ?_⟩
      by_contra hc; exact b2 ((hs s (h.sa s b1)).2 (not_le.mp hc))
    · rintro ⟨b1, b2, b3⟩
      exact ⟨(hs s b1).1 b2, fun hc => absurd (lt_of_le_of_lt (h.max _ (Or.inr ⟨s, hc, rfl⟩)) (lt_of_lt_of_le hκ b3)) (lt_irrefl _)⟩
  · rw [e, List.isChain_append]
    rw [List.isChain_append] at hch
    obtain ⟨k1, k2, _⟩ := hch
    refine ⟨chain_imp_mem k1 fun u hu v hv ho => ok u v (mem u (by simp [hu])).2.1 (mem v (by simp [hv])).2.1 (Or.inr (hd.2.2 v hv n (by simp))) ho, ?_, ?_⟩
    · have k2' : l2.IsChain (OK mk A.L κ) := chain_imp_mem k2 fun u hu v hv ho =>
        ok u v (mem u (by simp [hu])).2.1 (mem v (by simp [hv])).2.1 (Or.inl ((List.pairwise_cons.mp hd.2.1).1 u hu)) ho
      cases l2 with
      | nil => exact .singleton _
      | cons q l2 => exact List.isChain_cons_cons.mpr ⟨Or.inl (h2 q (by simp)), k2'⟩
    · intro u hu v hv
      simp only [List.head?_cons, Option.mem_def, Option.some.injEq] at hv
      subst hv
      exact Or.inl (h1 u hu).symm

end

/-! ### The end of a line -/

/-- The line `n` just ended and its neighbours are not tested yet. -/
structure Post (mk : Nat → Prop) (A : AS) (n : CSeg) (l1 l2 : List CSeg) : Prop extends Base A where
  max : ∀ k, A.App k → k ≤ ek n
  cuts : ∀ κ, κ ≤ ek n → CutOK mk A.L κ
  eq : A.sw = l1 ++ l2
  cl : CutList A.L (ek n) (l1 ++ n :: l2)

theorem J.end {A : AS} (h : J mk A) {n : CSeg} {l1 l2 : List CSeg} (e : A.sw = l1 ++ n :: l2) (hs : A.safe (ek n)) (hmax : ∀ k, A.App k → k < ek n) :
    Post mk ⟨A.L, A.SA, fun c => A.EA c ∨ c = n, l1 ++ l2⟩ n l1 l2 := by
  have hcl := h.cutList hs hmax
  have hn := (h.mem n).mp (by rw [e]; simp)
  have hL := h.sa n hn.1
  have hso := hcl.sorted
  rw [e] at hso
  have hd := List.pairwise_append.mp hso
  have hn1 : n ∉ l1 := fun hc => by
    have := hd.2.2 n hc n (by simp)
    rw [C22_irrefl] at this; cases this
  have hn2 : n ∉ l2 := fun hc => by
    have := (List.pairwise_cons.mp hd.2.1).1 n hc
    rw [C22_irrefl] at this; cases this
  refine ⟨⟨h.w, h.sa, ?_, ?_, fun c => ?_, fun k hk => ?_⟩, ?_, fun κ hκ => h.good κ (AS.safe_mono hκ hs), rfl, e ▸ hcl⟩
  · rintro c (hc | rfl)
    · exact h.ea c hc
    · exact hn.1
  · exact sorted_nodup (hso.sublist ((List.sublist_cons_self n l2).append_left l1))
  · show c ∈ l1 ++ l2 ↔ A.SA c ∧ ¬ (A.EA c ∨ c = n)
    have := h.mem c
    rw [e] at this
    simp only [List.mem_append, List.mem_cons] at this ⊢
    constructor
    · intro hc
      have h1 := this.mp (by tauto)
      refine ⟨h1.1, ?_⟩
      rintro (h2 | rfl)
      · exact h1.2 h2
      · exact hc.elim hn1 hn2
    · rintro ⟨h1, h2⟩
      have := this.mpr ⟨h1, fun h' => h2 (Or.inl h')⟩
      have hne : c ≠ n := fun h' => h2 (Or.inr h')
      tauto
  · have hk' : A.App k ∨ k = ek n := by
      rcases hk with ⟨c, hc, e'⟩ | ⟨c, hc | rfl, e'⟩
      · exact Or.inl (Or.inl ⟨c, hc, e'⟩)
      · exact Or.inl (Or.inr ⟨c, hc, e'⟩)
      · exact Or.inr e'
    rcases hk' with hk' | rfl
    · obtain ⟨W, hW, hso⟩ := h.s1 k hk'
      refine ⟨W, fun s => ?_, hso⟩
      rw [hW]
      unfold AS.T
      constructor
      · rintro ⟨h1, h2, h3⟩
        refine ⟨h1, h2, ?_⟩
        rintro ⟨h4 | rfl, h5⟩
        · exact h3 ⟨h4, h5⟩
        · exact absurd (h5.trans (hmax k hk')) (lt_irrefl _)
      · rintro ⟨h1, h2, h3⟩; exact ⟨h1, h2, fun hc => h3 ⟨Or.inl hc.1, hc.2⟩⟩
    · refine ⟨A.sw, fun s => ?_, hcl.sorted⟩
      rw [h.mem]
      unfold AS.T
      constructor
      · rintro ⟨h1, h2⟩
        refine ⟨h1, hmax _ (Or.inl ⟨s, h1, rfl⟩), ?_⟩
        rintro ⟨h3 | rfl, h4⟩
        · exact h2 h3
        · exact lt_irrefl _ h4
      · rintro ⟨h1, h2, h3⟩
        exact ⟨h1, fun hc => h3 ⟨Or.inl hc, hmax _ (Or.inr ⟨s, hc, rfl⟩)⟩⟩
  · rintro k (⟨c, hc, rfl⟩ | ⟨c, hc | rfl, rfl⟩)
    · exact (hmax _ (Or.inl ⟨c, hc, rfl⟩)).le
    · exact (hmax _ (Or.inr ⟨c, hc, rfl⟩)).le
    · exact le_rfl

section
variable {A A' : AS} {n : CSeg} {l1 l2 : List CSeg}

theorem Post.sorted (h : Post mk A n l1 l2) : Sorted A.sw := by
  rw [h.eq]
  exact h.cl.sorted.sublist ((List.sublist_cons_self n l2).append_left l1)

theorem Post.none (h : Post mk A n l1 l2) (hc : ∀ p ∈ l1.getLast?, ∀ q ∈ l2.head?, Ct mk p q) : J mk A := by
  refine ⟨h.toBase, fun κ hs => ?_, Or.inl h.sorted⟩
  rcases le_or_gt κ (ek n) with hκ | hκ
  · exact h.cuts κ hκ
  obtain ⟨W', hW', hch⟩ := h.cuts _ le_rfl
  rw [hW'.unique h.cl] at hch
  have ok : ∀ u v, OK mk A.L (ek n) u v → OK mk A.L κ u v := by
    intro u v ho
    rcases ho with ho | ⟨l0, b, hg, h3, h4, h5, h6⟩ | ⟨l0, b, m, hg, hm, nm, ha, h3, h4⟩ | ho
    · exact Or.inl ho
    · exact Or.inr (Or.inl ⟨l0, b, hg, h3.trans hκ, h4, h5, h6⟩)
    · exfalso
      obtain ⟨y, hy⟩ := pend_key nm hg.nv ha ((h.w.cons m l0 hm hg.live).aa ha) h3 h4
      unfold ek at hy
      injection hy with _ hy; injection hy with hy _
      split at hy <;> omega
    · exact Or.inr (Or.inr (Or.inr ho))
  refine ⟨A.sw, ⟨fun s => ?_, h.sorted⟩, ?_⟩
  · rw [h.mem]
    constructor
    · rintro ⟨b1, b2⟩
      refine ⟨h.sa s b1, lt_of_le_of_lt (h.max _ (Or.inl ⟨s, b1, rfl⟩)) hκ, ?_⟩
      by_contra hc; exact b2 ((hs s (h.sa s b1)).2 (not_le.mp hc))
    · rintro ⟨b1, b2, b3⟩
      exact ⟨(hs s b1).1 b2, fun hc => absurd (lt_of_le_of_lt (h.max _ (Or.inr ⟨s, hc, rfl⟩)) (lt_of_lt_of_le hκ b3)) (lt_irrefl _)⟩
  · rw [h.eq, List.isChain_append]
    rw [List.isChain_append] at hch
    obtain ⟨k1, k2, _⟩ := hch
    refine ⟨k1.imp fun u v => ok u v, ?_, fun u hu v hv => Or.inl (hc u hu v hv)⟩
    cases l2 with
    | nil => exact .nil
    | cons v l2 => exact (List.isChain_cons_cons.mp k2).2.imp fun u v => ok u v

/-- The start of the left piece comes before the end of another line. -/
theorem Kill.no_end {L L' : CSeg → Prop} {p l r : CSeg} {c : Pt} (hk : Kill L L' p l r c) (hp : SOk p) (hl : SOk l) (h1 : sk p < ek n) : sk l < ek n := by
  by_contra hc
  push Not at hc
  obtain ⟨e, a, _, w1, w2⟩ := hk.window hp hl h1 hc
  have ax : l.pa.x = p.pa.x := by rw [a]
  by_cases v : p.pa.x = p.pb.x
  · rw [sk_v v] at h1
    rw [sk_v (w2 v), ax] at hc
    unfold ek at h1 hc
    rw [key_lt] at h1
    rw [key_le] at hc
    split at h1 <;> split at hc <;> omega
  · have np := hp.nv v
    rw [sk_nv np] at h1
    rw [sk_nv (w1 np), ax] at hc
    unfold ek at h1 hc
    rw [key_lt] at h1
    rw [key_le] at hc
    split at h1 <;> split at hc <;> omega

theorem Post.lt (h : Post mk A n l1 l2) {p : CSeg} (hp : p ∈ A.sw) : sk p < ek n :=
  lt_of_le_of_ne (h.max _ (Or.inl ⟨p, ((h.mem p).mp hp).1, rfl⟩)) (sk_ne_ek p n)

/-- A neighbour is split. -/
theorem Post.kill {p l r : CSeg} {c : Pt} (h : Post mk A n l1 l2) (hk : AKill A A' p l r c) : J mk A' := by
  refine ⟨h.toBase.kill hk, fun κ hs => ?_, Or.inl ?_⟩
  · obtain ⟨h2, h3⟩ := hk.safe h.toBase hs
    have hp := h.lt hk.inn
    have := hk.k.no_end (n := n) (h.w.ok p hk.k.live) (hk.w.ok l hk.k.left) hp
    exact hk.k.cutOK h.w hk.w h2 h3 (fun _ => h.cuts _ hp.le) (fun _ => h.cuts _ (h2.trans this.le))
  · rw [hk.sw]; exact h.sorted.sublist List.erase_sublist

/-- Both neighbours are split. -/
theorem Post.kill2 {B : AS} {p q l r l' r' : CSeg} {c c' : Pt} (h : Post mk A n l1 l2) (hk : AKill A B p l r c) (hk' : AKill B A' q l' r' c') : J mk A' := by
  have hb := h.toBase.kill hk
  have hq : A.SA q ∧ q ≠ p := (hk.sa q).mp ((hb.mem q).mp hk'.inn).1
  refine ⟨hb.kill hk', fun κ hs => ?_, Or.inl ?_⟩
  · obtain ⟨h2, h3⟩ := hk'.safe hb hs
    have hlp : l ≠ q := by rintro rfl; exact hk.fl (h.sa _ hq.1)
    have hrp : r ≠ q := by rintro rfl; exact hk.fr (h.sa _ hq.1)
    have h4 : κ ≤ sk l := by
      by_contra hc
      have := (hs l (hk'.k.old hk.k.left hlp)).1 (not_le.mp hc)
      exact hk.lsa h.toBase ((hk'.sa l).mp this).1
    have h5 : κ ≤ sk r := by
      by_contra hc
      have := (hs r (hk'.k.old hk.k.right hrp)).1 (not_le.mp hc)
      exact hk.rsa h.toBase ((hk'.sa r).mp this).1
    have hp := h.lt hk.inn
    have hle := hk.k.no_end (n := n) (h.w.ok p hk.k.live) (hk.w.ok l hk.k.left) hp
    have first : ∀ κ', κ' ≤ κ → CutOK mk B.L κ' := fun κ' hκ =>
      hk.k.cutOK h.w hk.w (hκ.trans h4) (hκ.trans h5) (fun _ => h.cuts _ hp.le) (fun _ => h.cuts _ ((hκ.trans h4).trans hle.le))
    exact hk'.k.cutOK hk.w hk'.w h2 h3 (fun h1 => first _ h1.le) (fun _ => first _ le_rfl)
  · rw [hk'.sw, hk.sw]; exact (h.sorted.sublist List.erase_sublist).sublist List.erase_sublist
end

/-- When nothing is left to do all lines are fine. -/
theorem J.fine {A : AS} (h : J mk A) (hall : ∀ c, A.L c → A.SA c ∧ A.EA c) (X : Int) : Fine A.L X :=
  fine_of_good h.w (fun _ _ h h' => AS.safe_mono h h') h.good X (fun c hc => ⟨fun _ => (hall c hc).1, fun _ => (hall c hc).2⟩)

end PolyOps.Planarity
