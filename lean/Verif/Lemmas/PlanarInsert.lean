import Verif.Lemmas.PlanarKill4

/-! Where a line goes when it is put into the sweep. -/
namespace PolyOps.Planarity
open PolyOps PolyOps.SweepCmp

variable {mk : Nat → Prop}

/-- A list in which what is before `n` comes first. -/
theorem partition {n : CSeg} : ∀ {W : List CSeg}, W.Pairwise (fun u v => sweepCmp v n = true → sweepCmp u n = true) →
    (∀ s ∈ W, sweepCmp s n = true ∨ sweepCmp n s = true) →
    ∃ l1 l2, W = l1 ++ l2 ∧ (∀ s ∈ l1, sweepCmp s n = true) ∧ (∀ s ∈ l2, sweepCmp n s = true) := by
  intro W
  induction W with
  | nil => intro _ _; exact ⟨[], [], rfl, by simp, by simp⟩
  | cons u W ih =>
    intro hp ht
    obtain ⟨p1, p2⟩ := List.pairwise_cons.mp hp
    rcases ht u (by simp) with h | h
    · obtain ⟨l1, l2, rfl, h1, h2⟩ := ih p2 (fun s hs => ht s (by simp [hs]))
      refine ⟨u :: l1, l2, rfl, ?_, h2⟩
      intro s hs
      rcases List.mem_cons.mp hs with rfl | hs
      · exact h
      · exact h1 s hs
    · refine ⟨[], u :: W, rfl, by simp, ?_⟩
      intro s hs
      rcases List.mem_cons.mp hs with rfl | hs
      · exact h
      · rcases ht s (by simp [hs]) with h' | h'
        · have := p1 s hs h'
          rw [C22_asymm n u h] at this; cases this
        · exact h'

/-- A list in order of height. -/
theorem three_way {f : CSeg → Rat} (y : Rat) : ∀ {W : List CSeg}, W.Pairwise (fun u v => f v ≤ f u) →
    ∃ l1 G l2, W = l1 ++ G ++ l2 ∧ (∀ s ∈ l1, y < f s) ∧ (∀ s ∈ G, f s = y) ∧ (∀ s ∈ l2, f s < y) := by
  intro W
  induction W with
  | nil => intro _; exact ⟨[], [], [], rfl, by simp, by simp, by simp⟩
  | cons u W ih =>
    intro hp
    obtain ⟨p1, p2⟩ := List.pairwise_cons.mp hp
    obtain ⟨l1, G, l2, rfl, h1, h2, h3⟩ := ih p2
    rcases lt_trichotomy y (f u) with h | h | h
    · exact ⟨u :: l1, G, l2, rfl, by intro s hs; rcases List.mem_cons.mp hs with rfl | hs; exacts [h, h1 s hs], h2, h3⟩
    · have e : l1 = [] := by
        cases l1 with
        | nil => rfl
        | cons a l =>
          have := p1 a (by simp)
          have := h1 a (by simp)
          linarith
      subst e
      exact ⟨[], u :: G, l2, rfl, by simp, by intro s hs; rcases List.mem_cons.mp hs with rfl | hs; exacts [h.symm, h2 s hs], h3⟩
    · have e : l1 = [] := by
        cases l1 with
        | nil => rfl
        | cons a l =>
          have := p1 a (by simp)
          have := h1 a (by simp)
          linarith
      have e' : G = [] := by
        cases G with
        | nil => rfl
        | cons a l =>
          have := p1 a (by simp)
          have := h2 a (by simp)
          linarith
      subst e e'
      exact ⟨[], [], u :: l2, rfl, by simp, by simp, by intro s hs; rcases List.mem_cons.mp hs with rfl | hs; exacts [h, h3 s hs]⟩

/-- Lines that run through the start of `n`. -/
structure Block (W mid : List CSeg) (n : CSeg) : Prop where
  ne : mid ≠ []
  nv : Nv n
  pass : ∀ w ∈ mid, On w n.pa.x n.pa.y ∧ ¬ EndQ w n.pa.x n.pa.y
  fresh : ∀ p ∈ W, p.pa ≠ n.pa

section
variable {L : CSeg → Prop} {n : CSeg} {W : List CSeg}

theorem fine_before (hw : World L) (hg : ∀ κ, κ ≤ sk n → CutOK mk L κ) : Fine L (n.pa.x - 1) := by
  refine fine_of_good hw (safe := fun κ => κ ≤ sk n) (fun _ _ h h' => h.trans h') (fun κ h => hg κ h) _ ?_
  unfold cut sk
  rw [key_le]; omega

theorem cut_total (hw : World L) (hn : L n) (hW : CutList L (sk n) W) {s : CSeg} (hs : s ∈ W) : sweepCmp s n = true ∨ sweepCmp n s = true := by
  refine C22_total s n (fun e => ?_)
  obtain ⟨h1, h2, _⟩ := (hW.mem s).mp hs
  obtain ⟨e1, e2⟩ := Prod.mk.inj e
  rw [hw.inj s n h1 hn e1 e2] at h2
  exact lt_irrefl _ h2

/-- Neighbours just before the start of `n`. -/
theorem alc_at (hw : World L) (hf : Fine L (n.pa.x - 1)) {u v : CSeg} (hu : L u) (hv : L v) (h : OK mk L (sk n) u v) :
    ALC n.pa.x u v ∨ Over u v := by
  rcases h with h | ⟨l, b, hg, _, su, sv, hc⟩ | ⟨l, b, m, hg, hm, nm, ha, h3, h4⟩ | h
  · exact Or.inl (h.1.alc _)
  · left
    by_cases c : n.pa.x ≤ b.x
    · exact (hg.sep.mono (by exact_mod_cast c)).alc
    · exfalso
      refine exc1_false hw hu hv hg ?_ su sv hc
      intro u v hu hv hne z Y hz
      exact hf u v hu hv hne z Y (hz.trans (by exact_mod_cast (by omega : b.x ≤ n.pa.x - 1)))
  · left
    have h5 := chain_x hg.chain
    have nl := hg.nv
    unfold Nv at nl
    have : n.pa.x ≤ l.pa.x := by
      unfold sk at h4; rw [key_le] at h4; omega
    exact (hg.sep.mono (by exact_mod_cast (by omega : n.pa.x ≤ b.x))).alc
  · exact Or.inr h.1

/-- The place of a vertical line. -/
theorem place_v (hw : World L) (hg : ∀ κ, κ ≤ sk n → CutOK mk L κ) (hn : L n) (hv : n.pa.x = n.pb.x) (hW : CutList L (sk n) W) :
    ∃ l1 l2, W = l1 ++ l2 ∧ (∀ s ∈ l1, sweepCmp s n = true) ∧ (∀ s ∈ l2, sweepCmp n s = true) := by
  have hf := fine_before hw hg
  have okn := hw.ok n hn
  obtain ⟨W', hW', hch⟩ := hg _ le_rfl
  rw [hW'.unique hW] at hch
  have mem : ∀ s ∈ W, L s ∧ ((Nv s ∧ s.pa.x < n.pa.x ∧ n.pa.x ≤ s.pb.x) ∨ (s.pa.x = n.pa.x ∧ s.pb.x = n.pa.x)) := by
    intro s hs
    obtain ⟨h0, h1, h2⟩ := (hW.mem s).mp hs
    refine ⟨h0, ?_⟩
    rw [sk_v hv] at h1 h2
    by_cases c : s.pa.x = s.pb.x
    · rw [sk_v c, key_lt] at h1
      rw [ek_v c, key_le] at h2
      right; omega
    · have ns := (hw.ok s h0).nv c
      rw [sk_nv ns, key_lt] at h1
      rw [ek_nv ns, key_le] at h2
      left; exact ⟨ns, by omega, by omega⟩
  have mid : ∀ s ∈ W, Mid n.pa.x s := by
    intro s hs
    obtain ⟨h0, ⟨_, h1, h2⟩ | ⟨h1, h2⟩⟩ := mem s hs
    · exact ⟨hw.ok s h0, by exact_mod_cast h1.le, by exact_mod_cast h2⟩
    · exact ⟨hw.ok s h0, by exact_mod_cast h1.le, by exact_mod_cast h2.ge⟩
  have hts : W.Pairwise (fun s t => hAt t n.pa.x ≤ hAt s n.pa.x) := by
    haveI : IsTrans CSeg (fun s t => hAt t n.pa.x ≤ hAt s n.pa.x) := ⟨fun a b c h1 h2 => h2.trans h1⟩
    rw [← List.isChain_iff_pairwise]
    rw [List.isChain_iff_forall_rel_of_append_cons_cons] at hch ⊢
    rintro a b l1 l2 rfl
    have ha : a ∈ l1 ++ a :: b :: l2 := by simp
    have hb : b ∈ l1 ++ a :: b :: l2 := by simp
    rcases alc_at hw hf (mem a ha).1 (mem b hb).1 (hch rfl) with h | h
    · refine height (mid a ha) (mid b hb) (fun n1 n2 => ?_) h ?_
      · have h1 := (mem a ha).2; have h2 := (mem b hb).2
        unfold Nv at n1 n2; omega
      · have := hW.sorted
        rw [List.pairwise_append] at this
        exact (List.pairwise_cons.mp this.2.1).1 b (by simp)
    · exact (h.hAt _).ge
  have mn : Meets n.pa.x n := meets_of okn le_rfl (fun _ => rfl)
  have an : ∀ s ∈ W, Apart n.pa.x s n := fun s hs => apart_of (le_max_right _ _) (fun _ h => absurd hv h.ne) (mid s hs).ok okn
  have vn : vdir n ≠ 0 := by
    rcases kinds okn with h | h | h
    · exact absurd hv h.ne
    · rw [vdir_up h]; decide
    · rw [vdir_dn h]; decide
  refine partition ?_ (fun s hs => cut_total hw hn hW hs)
  have := hts.and hW.sorted
  refine List.Pairwise.imp_of_mem ?_ this
  rintro u v hu hv' ⟨hle, hc⟩ hvn
  by_cases c : Nv u ∧ Nv v
  · obtain ⟨nu, nv⟩ := c
    rcases cmp_pos (mid v hv').meets mn (an v hv') hvn with h | ⟨h, h'⟩
    · exact C22_height (mid u hu).meets mn (an u hu) (lt_of_lt_of_le h hle)
    · rw [vdir_nv nv] at h'
      rcases eq_or_lt_of_le (h.le.trans hle) with e | e
      · rw [C22_order (mid u hu).meets mn (an u hu)]
        unfold key
        rw [Prod.Lex.toLex_lt_toLex]
        left
        rw [pos_lt_iff]
        right
        refine ⟨e, Or.inl ?_⟩
        rw [vdir_nv nu]
        rcases h' with h' | ⟨h', _⟩
        · exact h'
        · exact absurd h' vn
      · exact C22_height (mid u hu).meets mn (an u hu) e
  · refine C22_trans (mid u hu).meets (mid v hv').meets mn (apart_of ?_ (fun h1 h2 => absurd ⟨h1, h2⟩ c) (mid u hu).ok (mid v hv').ok)
      (an v hv') (an u hu) hc hvn
    have h1 := (mem u hu).2
    have h2 := (mem v hv').2
    rcases h1 with ⟨h1, _⟩ | ⟨h1, _⟩
    · rcases h2 with ⟨h2, _⟩ | ⟨h2, _⟩
      · exact absurd ⟨h1, h2⟩ c
      · exact le_max_of_le_right (by exact_mod_cast h2.ge)
    · exact le_max_of_le_left (by exact_mod_cast h1.ge)

/-- The place of a line that is not vertical. -/
theorem place_nv (hw : World L) (hg : ∀ κ, κ ≤ sk n → CutOK mk L κ) (hn : L n) (nn : Nv n) (hW : CutList L (sk n) W) :
    ∃ l1 mid l2, W = l1 ++ mid ++ l2 ∧ (∀ s ∈ l1, sweepCmp s n = true) ∧ (∀ s ∈ l2, sweepCmp n s = true) ∧
      (mid = [] ∨ Block W mid n) := by
  have hf := fine_before hw hg
  have okn := hw.ok n hn
  obtain ⟨W', hW', hch⟩ := hg _ le_rfl
  rw [hW'.unique hW] at hch
  have mem : ∀ s ∈ W, L s ∧ ((Nv s ∧ s.pa.x ≤ n.pa.x ∧ n.pa.x < s.pb.x) ∨ (s.pa.x = n.pa.x ∧ s.pb.x = n.pa.x)) := by
    intro s hs
    obtain ⟨h0, h1, h2⟩ := (hW.mem s).mp hs
    refine ⟨h0, ?_⟩
    rw [sk_nv nn] at h1 h2
    by_cases c : s.pa.x = s.pb.x
    · rw [sk_v c, key_lt] at h1
      rw [ek_v c, key_le] at h2
      right; omega
    · have ns := (hw.ok s h0).nv c
      rw [sk_nv ns, key_lt] at h1
      rw [ek_nv ns, key_le] at h2
      left; exact ⟨ns, by omega, by omega⟩
  have st : Stack n.pa.x W := by
    refine ⟨fun s hs => ?_, fun s h t h' n1 n2 => ?_, hW.sorted, chain_imp_mem hch (fun a ha b hb h => ?_)⟩
    · obtain ⟨h0, ⟨_, h1, h2⟩ | ⟨h1, h2⟩⟩ := mem s hs
      · exact ⟨hw.ok s h0, by exact_mod_cast h1, by exact_mod_cast h2.le⟩
      · exact ⟨hw.ok s h0, by exact_mod_cast h1.le, by exact_mod_cast h2.ge⟩
    · have h1 := (mem s h).2; have h2 := (mem t h').2
      unfold Nv at n1 n2; omega
    · rcases alc_at hw hf (mem a ha).1 (mem b hb).1 h with h | h
      · exact h
      · have h1 := (mem a ha).2; have h2 := (mem b hb).2
        have n1 := h.ns; have n2 := h.nt
        unfold Nv at n1 n2
        exact over_alc h (by exact_mod_cast (by omega : n.pa.x < a.pb.x)) (by exact_mod_cast (by omega : n.pa.x < b.pb.x))
  have mn : Meets n.pa.x n := meets_of okn le_rfl (fun _ => rfl)
  have hy : hAt n n.pa.x = n.pa.y := hAt_start n
  -- ends at the start of `n`
  have start : ∀ s ∈ W, hAt s n.pa.x = n.pa.y → EndQ s n.pa.x n.pa.y → s.pa = n.pa := by
    intro s hs h1 h2
    have pt : s.pa.x = n.pa.x → s.pa.y = n.pa.y → s.pa = n.pa := by
      intro a b
      cases ha : s.pa; cases hb : n.pa
      rw [ha, hb] at a b; simp only at a b; rw [a, b]
    rcases (mem s hs).2 with ⟨ns, a1, a2⟩ | ⟨a1, a2⟩
    · rcases h2 with ⟨e1, e2⟩ | ⟨e1, _⟩
      · exact (pt (by exact_mod_cast e1.symm) (by exact_mod_cast e2.symm))
      · exfalso
        have : n.pa.x = s.pb.x := by exact_mod_cast e1
        omega
    · refine pt a1 ?_
      rw [← a1, hAt_start] at h1
      exact_mod_cast h1
  obtain ⟨l1, G, l2, rfl, h1, h2, h3⟩ := three_way (f := fun s => hAt s n.pa.x) (n.pa.y : Rat) st.heights
  have c1 : ∀ s ∈ l1, sweepCmp s n = true := by
    intro s hs
    have hm := st.mid s (by simp [hs])
    have := h1 s hs
    exact C22_height hm.meets mn (apart_of (le_max_right _ _) (fun _ _ _ h => by rw [h, hy] at this; exact absurd this (lt_irrefl _)) hm.ok okn)
      (by rw [hy]; exact this)
  have c3 : ∀ s ∈ l2, sweepCmp n s = true := by
    intro s hs
    have hm := st.mid s (by simp [hs])
    have := h3 s hs
    exact C22_height mn hm.meets (apart_of (le_max_left _ _) (fun _ _ _ h => by rw [← h, hy] at this; exact absurd this (lt_irrefl _)) okn hm.ok)
      (by rw [hy]; exact this)
  by_cases ce : ∃ g ∈ G, EndQ g n.pa.x n.pa.y
  · obtain ⟨g, hgG, hge⟩ := ce
    have all : ∀ s ∈ G, s.pa = n.pa := by
      intro s hs
      have hsW : s ∈ l1 ++ G ++ l2 := by simp [hs]
      refine start s hsW (h2 s hs) ?_
      by_cases e : g = s
      · rw [← e]; exact hge
      · have o1 := (st.mid g (by simp [hgG])).on
        have o2 := (st.mid s hsW).on
        rw [h2 g hgG] at o1
        rw [h2 s hs] at o2
        exact (st.all (by simp [hgG]) hsW e o1 o2).end_iff.mp hge
    have ap : ∀ s ∈ G, Apart n.pa.x s n := fun s hs => apart_of (le_max_right _ _) (fun _ _ _ _ => all s hs) (st.mid s (by simp [hs])).ok okn
    have hsG : G.Pairwise (fun s t => sweepCmp s t = true) := hW.sorted.sublist
      ((List.sublist_append_right l1 G).trans (List.sublist_append_left _ l2))
    obtain ⟨g1, g2, rfl, k1, k2⟩ := partition (n := n) (W := G) (by
      refine List.Pairwise.imp_of_mem ?_ hsG
      intro u v hu hv huv hvn
      refine C22_trans (st.mid u (by simp [hu])).meets (st.mid v (by simp [hv])).meets mn ?_ (ap v hv) (ap u hu) huv hvn
      refine apart_of ?_ (fun _ _ _ _ => (all u hu).trans (all v hv).symm) (st.mid u (by simp [hu])).ok (st.mid v (by simp [hv])).ok
      rw [all u hu]; exact le_max_left _ _) (fun s hs => cut_total hw hn hW (by simp [hs]))
    refine ⟨l1 ++ g1, [], g2 ++ l2, by simp, ?_, ?_, Or.inl rfl⟩
    · intro s hs
      rcases List.mem_append.mp hs with hs | hs
      · exact c1 s hs
      · exact k1 s hs
    · intro s hs
      rcases List.mem_append.mp hs with hs | hs
      · exact k2 s hs
      · exact c3 s hs
  · push Not at ce
    refine ⟨l1, G, l2, rfl, c1, c3, ?_⟩
    by_cases cG : G = []
    · exact Or.inl cG
    · right
      refine ⟨cG, nn, fun w hw => ⟨?_, ce w hw⟩, fun p hp e => ?_⟩
      · have := (st.mid w (by simp [hw])).on
        rw [h2 w hw] at this; exact this
      · obtain ⟨g, hgG⟩ := List.exists_mem_of_ne_nil G cG
        have hpe : EndQ p n.pa.x n.pa.y := by rw [← e]; exact endq_a p
        by_cases epg : p = g
        · rw [epg] at hpe; exact ce g hgG hpe
        · have o1 := (st.mid g (by simp [hgG])).on
          rw [h2 g hgG] at o1
          have o2 : On p n.pa.x n.pa.y := by rw [← e]; exact on_a p
          exact ce g hgG ((st.all hp (by simp [hgG]) epg o2 o1).end_iff.mp hpe)

/-- The place of a new line: exactly one, or among lines that run through its start. -/
theorem place (hw : World L) (hg : ∀ κ, κ ≤ sk n → CutOK mk L κ) (hn : L n) (hW : CutList L (sk n) W) :
    ∃ l1 mid l2, W = l1 ++ mid ++ l2 ∧ (∀ s ∈ l1, sweepCmp s n = true) ∧ (∀ s ∈ l2, sweepCmp n s = true) ∧
      (mid = [] ∨ Block W mid n) := by
  by_cases hv : n.pa.x = n.pb.x
  · obtain ⟨l1, l2, h1, h2, h3⟩ := place_v hw hg hn hv hW
    exact ⟨l1, [], l2, by rw [h1]; simp, h2, h3, Or.inl rfl⟩
  · exact place_nv hw hg hn ((hw.ok n hn).nv hv) hW
end
end PolyOps.Planarity
