import Verif.Lemmas.Deform

/-! Points reported with inexact arithmetic: which pairs of lines are tested, and where the reported points are. -/
namespace PolyOps.Planarity
open PolyOps PolyOps.SweepCmp PolyOps.Events PolyOps.Sweep

/-- The lines cross at a place that is an end of neither. -/
def Proper (s t : CSeg) : Prop := isD s t ≠ 0 ∧ ∃ x y, On s x y ∧ On t x y ∧ ¬ EndQ s x y ∧ ¬ EndQ t x y

/-- A pair that is tested: a vertical second line is not properly crossed by the first. -/
def Upright (s t : CSeg) : Prop := t.pa.x = t.pb.x → ¬ Proper s t

theorem nv_of_d {s t : CSeg} (hs : SOk s) (hv : t.pa.x = t.pb.x) (hd : isD s t ≠ 0) : Nv s := by
  refine hs.nv fun e => hd ?_
  unfold isD
  rw [e, hv]; ring

theorem lc_vertical {s t : CSeg} (hs : Nv s) (ht : SOk t) (hv : t.pa.x = t.pb.x) {x y : Rat} (h1 : ¬ EndQ s x y) (h : LC s t x y) : False := by
  rcases h with h | ⟨_, _, h⟩ | h
  · exact h1 h.1
  · exact h.nt.ne hv
  · obtain ⟨a, b⟩ := h.nv hs ht
    exact hs.ne (by rw [a, b]; exact hv)

/-- When a line is taken out, its upper neighbour does not properly cross a vertical lower neighbour. -/
theorem upright_end {mk : Nat → Prop} {A : AS} (h : J mk A) {p n m : CSeg} {l1 l2 : List CSeg} (e : A.sw = l1 ++ p :: n :: m :: l2) (hs : A.safe (ek n))
    (hmax : ∀ k, A.App k → k < ek n) : Upright p m := by
  rintro hv ⟨hd, x, y, op, om, np, nm⟩
  have hcl := h.cutList hs hmax
  obtain ⟨W, hW, hch⟩ := h.good _ hs
  have hWe : W = A.sw := sorted_unique hW.sorted hcl.sorted fun s => by rw [hW.mem, hcl.mem]
  have hso := hcl.sorted
  rw [hWe, e] at hch
  rw [e] at hso
  have hch' := (List.isChain_append.mp hch).2.1
  rw [List.isChain_cons_cons, List.isChain_cons_cons] at hch'
  obtain ⟨o1, o2, _⟩ := hch'
  have hso' := (List.pairwise_append.mp hso).2.1
  rw [List.pairwise_cons, List.pairwise_cons] at hso'
  have c1 := hso'.1 n (by simp)
  have c2 := hso'.2.1 m (by simp)
  have ip := (hcl.mem p).mp (by rw [e]; simp)
  have im := (hcl.mem m).mp (by rw [e]; simp)
  have iN := (hcl.mem n).mp (by rw [e]; simp)
  have kp := h.w.ok p ip.1
  have kn := h.w.ok n iN.1
  have km := h.w.ok m im.1
  have nvp := nv_of_d kp hv hd
  have hmono : ∀ κ κ', κ ≤ κ' → A.safe κ' → A.safe κ := fun κ κ' h h' => AS.safe_mono h h'
  have hpm : p ≠ m := by rintro rfl; exact nvp.ne hv
  have xm := (on_v hv (km.vy hv) x y).mp om
  have nvp' := nvp
  unfold Nv at nvp'
  have hp1 := ip.2.1
  have hp2 := ip.2.2
  have hm1 := im.2.1
  have hm2 := im.2.2
  rw [sk_nv nvp] at hp1
  rw [ek_nv nvp] at hp2
  rw [sk_v hv] at hm1
  rw [ek_v hv] at hm2
  by_cases vn : n.pa.x = n.pb.x
  · rw [ek_v vn] at hm1 hm2 hs
    rw [key_lt] at hm1
    rw [key_le] at hm2
    have hx : m.pa.x = n.pb.x := by omega
    have hf := fine_of_good h.w hmono h.good n.pb.x (hmono _ _ (by unfold cut; rw [key_le]; omega) hs)
    exact lc_vertical nvp km hv np (hf p m ip.1 im.1 hpm x y (by rw [xm.1, hx]) op om)
  · have nvn := kn.nv vn
    have nvn' := nvn
    unfold Nv at nvn'
    rw [ek_nv nvn] at hm1 hm2 hp1 hp2 hs
    rw [key_lt] at hm1 hp1
    rw [key_le] at hm2 hp2
    have hx : m.pa.x = n.pb.x := by omega
    have hxp : p.pa.x < n.pb.x := by omega
    have hxp' : n.pb.x ≤ p.pb.x := by omega
    have hf := fine_of_good h.w hmono h.good (n.pb.x - 1) (hmono _ _ (by unfold cut; rw [key_le]; omega) hs)
    have exc : ∀ u v l b, A.L u → A.L v → Gap mk A.L u v l b → sk u < sk l → sk v < sk l → (sweepCmp l u = true ∨ sweepCmp v l = true) → n.pb.x ≤ b.x := by
      intro u v l b hu hv hg su sv hc
      by_contra hb
      refine exc1_false h.w hu hv hg ?_ su sv hc
      intro u v hu hv hne z Y hz
      exact hf u v hu hv hne z Y (hz.trans (by exact_mod_cast (by omega : b.x ≤ n.pb.x - 1)))
    have pend : ∀ u v, Pend mk A.L (ek n) u v → ∃ l b, Gap mk A.L u v l b ∧ n.pb.x < b.x := by
      rintro u v ⟨l, b, _, hg, _, _, _, _, hk⟩
      refine ⟨l, b, hg, ?_⟩
      have := chain_x hg.chain
      have nl := hg.nv
      rw [ek_nv nvn, sk_nv nl, key_le] at hk
      unfold Nv at nl
      omega
    have mp : Mid (n.pb.x : Rat) p := ⟨kp, by exact_mod_cast hxp.le, by exact_mod_cast hxp'⟩
    have mn : Mid (n.pb.x : Rat) n := ⟨kn, by exact_mod_cast nvn'.le, le_rfl⟩
    have mm : Mid (n.pb.x : Rat) m := ⟨km, by rw [hx], by rw [← hx, hv]⟩
    have hpn : hAt n n.pb.x ≤ hAt p n.pb.x := by
      have cpt : Compat p n := fun _ _ => by omega
      rcases o1 with o | ⟨l, b, hg, _, su, sv, hc⟩ | o | o
      · exact height mp mn cpt (o.1.alc _) c1
      · exfalso
        have := exc p n l b ip.1 iN.1 hg su sv hc
        have := hg.vb
        omega
      · exfalso
        obtain ⟨l, b, hg, hb⟩ := pend _ _ o
        have := hg.vb
        omega
      · rw [o.1.hAt]
    have hclm : Cl n m := by
      rcases o2 with o | ⟨l, b, hg, _, su, sv, hc⟩ | o | o
      · exact o.1
      · exfalso
        have := chain_x hg.chain
        have nl := hg.nv
        rw [sk_nv nl, sk_v hv, key_lt] at sv
        have := hg.vb
        unfold Nv at nl
        omega
      · exfalso
        obtain ⟨l, b, hg, hb⟩ := pend _ _ o
        have := hg.vb
        omega
      · exact absurd hv o.1.nt.ne
    have hst : Stack (n.pb.x : Rat) [n, m] := by
      refine ⟨?_, ?_, ?_, ?_⟩
      · intro s hs
        simp only [List.mem_cons, List.not_mem_nil, or_false] at hs
        rcases hs with rfl | rfl
        · exact mn
        · exact mm
      · intro s hs t ht n1 n2
        simp only [List.mem_cons, List.not_mem_nil, or_false] at hs ht
        rcases hs with rfl | rfl
        · rcases ht with rfl | rfl
          · omega
          · exact absurd hv n2.ne
        · exact absurd hv n1.ne
      · simp [c2]
      · simp [hclm.alc]
    have hnm := (hst.pair).2.2.2.2
    have hy : y = hAt p n.pb.x := by
      have := ((on_nv nvp _ _).mp op).2.2
      rw [this, xm.1, hx]
    rw [hAt_v hv] at hnm
    have hup : Up m := by
      rcases kinds km with k | k | k
      · exact absurd hv k.ne
      · exact k
      · exfalso
        have := (on_dn k om)
        apply nm
        left
        refine ⟨xm.1, ?_⟩
        linarith
    have hyb : y < m.pb.y := by
      rcases (on_up hup om).2.lt_or_eq with c | c
      · exact c
      · exfalso; apply nm; right; exact ⟨by rw [xm.1, hv], c⟩
    rcases hnm.lt_or_eq with c | c
    · have := (up_end_pair hst hup (by rw [hAt_v hv]; exact c) (by linarith)).1
      linarith
    · have := cmp_v mn mm (Or.inr hv) c2 (by rw [hAt_v hv]; exact c.symm)
      rw [vdir_up hup, vdir_nv nvn] at this
      omega

/-- When a line is started, it does not properly cross a vertical line of the sweep. -/
theorem upright_start {mk : Nat → Prop} {A : AS} (h : J mk A) {n m : CSeg} (hn : A.L n) (hm : m ∈ A.sw) (hs : A.safe (sk n))
    (hmax : ∀ k, A.App k → k < sk n) : Upright n m := by
  rintro hv ⟨hd, x, y, op, om, np, nm⟩
  have hcl := h.cutList hs hmax
  have im := (hcl.mem m).mp hm
  have kn := h.w.ok n hn
  have km := h.w.ok m im.1
  have nvn := nv_of_d kn hv hd
  have hm1 := im.2.1
  have hm2 := im.2.2
  rw [sk_nv nvn, sk_v hv, key_lt] at hm1
  rw [sk_nv nvn, ek_v hv, key_le] at hm2
  have hx : m.pa.x = n.pa.x := by omega
  have xm := (on_v hv (km.vy hv) x y).mp om
  apply np
  left
  have hxx : x = n.pa.x := by rw [xm.1, hx]
  refine ⟨hxx, ?_⟩
  rw [hxx] at op
  have := ((on_nv nvn _ _).mp op).2.2
  rw [this]
  unfold hAt; ring

theorem upright_pairs {env : Env} (he : EnvSound env) (hp : PosOk env) {lp : Nat → LP} {np : Nat} (hl : Loops lp np) {s : Clip}
    (hr : Clip.Reach env lp np s) (hR : RangeOk np s) : Pairs Upright s := by
  have hj := reach_abs he hp hl hr (Ext.refl s) hR (StOk.refl s)
  have h : Inv s := (reach_spec he.ok hl hr).1
  refine ⟨fun q e hF hty m hm => ?_, fun q e p m hF hty hin hpr hnx => ?_⟩
  · have hnt : e.nt = (e.node, true) := by unfold Ev.nt; rw [hty]
    have hkey : evK s e.nt = sk (s.cseg e.node) := by rw [hnt]; rfl
    exact upright_start hj ⟨_, hF.live, rfl⟩ (List.mem_map_of_mem hm) (hkey ▸ hF.safe h) (hkey ▸ hF.max h)
  · have hnt : e.nt = (e.node, false) := by unfold Ev.nt; rw [hty]
    have hkey : evK s e.nt = ek (s.cseg e.node) := by rw [hnt]; rfl
    obtain ⟨l1, l2, hsw⟩ := List.append_of_mem hin
    have hnd := h.2.nodup
    rw [hsw] at hnd
    have hn1 : e.node ∉ l1 := fun hc => (List.nodup_append.mp hnd).2.2 _ hc _ (by simp) rfl
    rw [hsw, prevOf_mid hn1] at hpr
    rw [hsw, nextOf_mid hn1] at hnx
    obtain ⟨l1', rfl⟩ := List.getLast?_eq_some_iff.mp hpr
    cases l2 with
    | nil => simp at hnx
    | cons m' l2 =>
      simp only [List.head?_cons, Option.some.injEq] at hnx
      subst hnx
      refine upright_end hj (n := s.cseg e.node) (l1 := l1'.map s.cseg) (l2 := l2.map s.cseg) ?_ (hkey ▸ hF.safe h) (hkey ▸ hF.max h)
      show s.sweep.map s.cseg = _
      rw [hsw]; simp

/-! ### Where the reported points are -/

/-- What the test reports: a point of both lines, or the rounded place of a proper crossing. -/
theorem isect_cases {rnd : Rat → Rat} {bx by' : Bool} {s t : CSeg} {q : Isect} {c : Pt} (hs : SOk s) (ht : SOk t)
    (h : intersects rnd bx by' s t = some q) (hp : q.p = some c) : (On s c.x c.y ∧ On t c.x c.y) ∨
      (isD s t ≠ 0 ∧ (crossing rnd bx by' s t).p = some c ∧
        ∃ a b x y, (0 : Rat) < a ∧ a < 1 ∧ (0 : Rat) < b ∧ b < 1 ∧ At s.pa s.pb a x y ∧ At t.pa t.pb b x y) := by
  by_cases hd : isD s t = 0
  · unfold intersects at h
    simp only at h
    rw [if_pos hd] at h
    obtain ⟨p1, p2, p3⟩ := C17_report s t hd hs.ne ht.ne q h
    obtain ⟨o1, o2, -⟩ := p3 c hp
    exact Or.inl ⟨o1, o2⟩
  · have hi : ¬ SharesIndex s t := by
      intro hi
      unfold intersects at h
      simp only at h
      rw [if_neg hd, if_pos (show _ ∨ _ from hi)] at h
      cases h
    obtain ⟨x, y, a, b, a0, a1, b0, b1, h1, h2⟩ := (C15_intersects_iff rnd bx by' s t hd hi).mp (by rw [h]; rfl)
    obtain ⟨ea, eb⟩ := (cramer s t hd a b).mp ⟨x, y, h1, h2⟩
    have hd' : (isD s t : Rat) ≠ 0 := by exact_mod_cast hd
    have onx : ∀ c' : Pt, x = c'.x → y = c'.y → On s c'.x c'.y ∧ On t c'.x c'.y := by
      intro c' e1 e2
      rw [← e1, ← e2]
      exact ⟨⟨a, a0, a1, h1⟩, ⟨b, b0, b1, h2⟩⟩
    have z : ∀ {w : Rat} {p p' : Pt}, At p p' w x y → (w = 0 → x = p.x ∧ y = p.y) ∧ (w = 1 → x = p'.x ∧ y = p'.y) := by
      intro w p p' h
      constructor
      · rintro rfl; obtain ⟨g1, g2⟩ := h; constructor <;> linarith
      · rintro rfl; obtain ⟨g1, g2⟩ := h; constructor <;> linarith
    have nz : ∀ {w : Rat} {n : Int}, w * isD s t = n → (n = 0 → w = 0) ∧ (n = isD s t → w = 1) := by
      intro w n e
      constructor
      · rintro rfl
        rcases mul_eq_zero.mp (e.trans (by norm_num)) with h | h
        · exact h
        · exact absurd h hd'
      · rintro rfl
        exact mul_right_cancel₀ hd' (e.trans (one_mul _).symm)
    have on : ∀ {c'}, On s c'.x c'.y ∧ On t c'.x c'.y → some c' = some c → (On s c.x c.y ∧ On t c.x c.y) := by
      rintro c' h e; cases e; exact h
    unfold intersects at h
    simp only at h
    rw [if_neg hd, if_neg (by exact hi)] at h
    split at h
    · cases h
    split at h
    · cases h
    split at h
    · rename_i c0
      cases h
      exact Or.inl (on (onx _ ((z h1).1 ((nz ea).1 c0)).1 ((z h1).1 ((nz ea).1 c0)).2) hp)
    rename_i n0
    split at h
    · rename_i c0
      cases h
      exact Or.inl (on (onx _ ((z h1).2 ((nz ea).2 c0)).1 ((z h1).2 ((nz ea).2 c0)).2) hp)
    rename_i n1
    split at h
    · rename_i c0
      cases h
      exact Or.inl (on (onx _ ((z h2).1 ((nz eb).1 c0)).1 ((z h2).1 ((nz eb).1 c0)).2) hp)
    rename_i n2
    split at h
    · rename_i c0
      cases h
      exact Or.inl (on (onx _ ((z h2).2 ((nz eb).2 c0)).1 ((z h2).2 ((nz eb).2 c0)).2) hp)
    · rename_i n3
      cases h
      have ne0 : ∀ {w : Rat} {n : Int}, w * isD s t = n → n ≠ 0 → w ≠ 0 := by
        rintro w n e hn rfl
        rw [zero_mul] at e
        exact hn (by exact_mod_cast e.symm)
      have ne1 : ∀ {w : Rat} {n : Int}, w * isD s t = n → n ≠ isD s t → w ≠ 1 := by
        rintro w n e hn rfl
        rw [one_mul] at e
        exact hn (by exact_mod_cast e.symm)
      exact Or.inr ⟨hd, hp, a, b, x, y, lt_of_le_of_ne a0 (ne0 ea n0).symm, lt_of_le_of_ne a1 (ne1 ea n1), lt_of_le_of_ne b0 (ne0 eb n2).symm,
        lt_of_le_of_ne b1 (ne1 eb n3), h1, h2⟩

/-- A strict inner point is no end. -/
theorem at_inner {s : CSeg} (hs : s.pa ≠ s.pb) {a x y : Rat} (h0 : 0 < a) (h1 : a < 1) (h : At s.pa s.pb a x y) : ¬ EndQ s x y := by
  obtain ⟨hx, hy⟩ := h
  rintro (⟨e1, e2⟩ | ⟨e1, e2⟩)
  · apply hs
    have k : ∀ {p q : Int} {z : Rat}, z = p + a * ((q : Rat) - p) → z = p → p = q := by
      intro p q z e e'
      have : a * ((q : Rat) - p) = 0 := by linarith
      rcases mul_eq_zero.mp this with h | h
      · linarith
      · have : (q : Rat) = p := by linarith
        exact_mod_cast this.symm
    exact Pt.ext (k hx e1) (k hy e2)
  · apply hs
    have k : ∀ {p q : Int} {z : Rat}, z = p + a * ((q : Rat) - p) → z = q → p = q := by
      intro p q z e e'
      have : (1 - a) * ((q : Rat) - p) = 0 := by linarith
      rcases mul_eq_zero.mp this with h | h
      · linarith
      · have : (q : Rat) = p := by linarith
        exact_mod_cast this.symm
    exact Pt.ext (k hx e1) (k hy e2)

/-- The rounding `rnd` is good enough for coordinates that differ by at most `M`: it keeps order, has a relative error of at most `ε`, and
keeps the integers up to `M`. -/
structure Arith (rnd : Rat → Rat) (ε : Rat) (M : Int) : Prop where
  mono : RndMono rnd
  nonneg : 0 ≤ ε
  le : ε ≤ 1 / 100
  err : RelErr rnd ε
  exact : ∀ n : Int, |n| ≤ M → rnd n = n
  small : 12 * ε * (M : Rat) ^ 3 ≤ 1

/-- In the square with lower left corner `o` and side `M`. -/
def InSq (o : Pt) (M : Int) (p : Pt) : Prop := o.x ≤ p.x ∧ p.x ≤ o.x + M ∧ o.y ≤ p.y ∧ p.y ≤ o.y + M

theorem InSq.diff {o : Pt} {M : Int} {p q : Pt} (h : InSq o M p) (h' : InSq o M q) : |p.x - q.x| ≤ M ∧ |p.y - q.y| ≤ M := by
  unfold InSq at *
  rw [abs_le, abs_le]; omega

theorem InSq.box {o : Pt} {M : Int} {p q c : Pt} (h : InSq o M p) (h' : InSq o M q) (hb : Box p q c) : InSq o M c := by
  unfold Box InBox at hb
  unfold InSq at *
  omega

theorem isD_le {o : Pt} {M : Int} {s t : CSeg} (h1 : InSq o M s.pa) (h2 : InSq o M s.pb) (h3 : InSq o M t.pa) (h4 : InSq o M t.pb) :
    |isD s t| ≤ 2 * M ^ 2 := by
  obtain ⟨a1, a2⟩ := h1.diff h2
  obtain ⟨b1, b2⟩ := h3.diff h4
  have hM : 0 ≤ M := (abs_nonneg _).trans a1
  unfold isD
  refine (abs_sub _ _).trans ?_
  rw [abs_mul, abs_mul]
  have := mul_le_mul a1 b2 (abs_nonneg _) hM
  have := mul_le_mul a2 b1 (abs_nonneg _) hM
  nlinarith

/-- The rounded place of a proper crossing is between the ends of a second line that is not vertical. -/
theorem crossing_xin {rnd : Rat → Rat} {ε : Rat} {M : Int} (hA : Arith rnd ε M) {o : Pt} {bx by' : Bool} {s t : CSeg} {c : Pt} (hd : isD s t ≠ 0)
    (ht : Nv t) (h1 : InSq o M s.pa) (h2 : InSq o M s.pb) (h3 : InSq o M t.pa) (h4 : InSq o M t.pb) {a b x y : Rat} (a0 : 0 < a) (a1 : a < 1)
    (b0 : 0 < b) (b1 : b < 1) (hs : At s.pa s.pb a x y) (hb : At t.pa t.pb b x y) (hp : (crossing rnd bx by' s t).p = some c) : XIn t.pa t.pb c := by
  have near := (C16_near rnd ε hA.nonneg hA.le hA.err bx by' s t hd x y a b a0.le a1.le hs hb c hp).1
  have hD := isD_le h1 h2 h3 h4
  have hM1 := (h1.diff h2).1
  have hM : 0 ≤ M := (abs_nonneg _).trans hM1
  have hMq : (0 : Rat) ≤ M := by exact_mod_cast hM
  obtain ⟨_, eb⟩ := (cramer s t hd a b).mp ⟨x, y, hs, hb⟩
  have hd' : (isD s t : Rat) ≠ 0 := by exact_mod_cast hd
  have hDq : |(isD s t : Rat)| ≤ 2 * M ^ 2 := by exact_mod_cast hD
  have hD0 : 0 < |(isD s t : Rat)| := abs_pos.mpr hd'
  have hlen : |(s.pb.x : Rat) - s.pa.x| ≤ M := by
    rw [abs_sub_comm]; exact_mod_cast hM1
  have ht' : (t.pa.x : Rat) < t.pb.x := ht.cast
  -- a positive multiple of `1 / d`
  have far : ∀ (z : Rat) (n : Int), 0 < z → z * isD s t = n → 6 * ε * |(s.pb.x : Rat) - s.pa.x| ≤ z := by
    intro z n hz hn
    have hn0 : n ≠ 0 := by
      rintro rfl
      rcases mul_eq_zero.mp (hn.trans (by norm_num)) with h | h
      · linarith
      · exact hd' h
    have hn1 : (1 : Rat) ≤ |(n : Rat)| := by
      have : 1 ≤ |n| := Int.one_le_abs hn0
      exact_mod_cast this
    rw [← hn, abs_mul, abs_of_pos hz] at hn1
    have e1 : 1 ≤ z * (2 * M ^ 2) := hn1.trans (mul_le_mul_of_nonneg_left hDq hz.le)
    have e2 : 6 * ε * |(s.pb.x : Rat) - s.pa.x| ≤ 6 * ε * M := mul_le_mul_of_nonneg_left hlen (by have := hA.nonneg; linarith)
    refine e2.trans ?_
    by_contra hc
    push Not at hc
    have hpos : 0 < 2 * (M : Rat) ^ 2 := by
      by_contra h
      have : 2 * (M : Rat) ^ 2 = 0 := le_antisymm (not_lt.mp h) (by positivity)
      rw [this] at e1; linarith
    have := mul_lt_mul_of_pos_right hc hpos
    have hsm := hA.small
    nlinarith
  have hx := hb.1
  have f1 := far (x - t.pa.x) (isU s t * (t.pb.x - t.pa.x)) (by rw [hx]; nlinarith) (by rw [hx]; push_cast; rw [← eb]; ring)
  have f2 := far (t.pb.x - x) ((isD s t - isU s t) * (t.pb.x - t.pa.x)) (by rw [hx]; nlinarith) (by rw [hx]; push_cast; rw [← eb]; ring)
  rw [abs_lt] at near
  have g1 : (t.pa.x : Rat) < c.x + 1 := by linarith
  have g2 : (c.x : Rat) < t.pb.x + 1 := by linarith
  have g1' : t.pa.x < c.x + 1 := by exact_mod_cast g1
  have g2' : c.x < t.pb.x + 1 := by exact_mod_cast g2
  unfold XIn
  omega

/-- Between the ends of the line, in the square, and at most one and a half units from the line. -/
def QSq (o : Pt) (M : Int) (a b c : Pt) : Prop := XIn a b c ∧ InSq o M c ∧ Exec.NearEdge (3 / 2) a b c

/-- The point reported is at most one and a half units from both lines. -/
theorem crossing_near {rnd : Rat → Rat} {ε : Rat} {M : Int} (hA : Arith rnd ε M) {o : Pt} {bx by' : Bool} {s t : CSeg} {c : Pt} (hd : isD s t ≠ 0)
    (h1 : InSq o M s.pa) (h2 : InSq o M s.pb) {a b x y : Rat} (a0 : 0 < a) (a1 : a < 1)
    (b0 : 0 < b) (b1 : b < 1) (hs : At s.pa s.pb a x y) (hb : At t.pa t.pb b x y) (hp : (crossing rnd bx by' s t).p = some c) :
    Exec.NearEdge (3 / 2) s.pa s.pb c ∧ Exec.NearEdge (3 / 2) t.pa t.pb c := by
  obtain ⟨n1, n2⟩ := C16_near rnd ε hA.nonneg hA.le hA.err bx by' s t hd x y a b a0.le a1.le hs hb c hp
  obtain ⟨d1, d2⟩ := h2.diff h1
  have hM : 0 ≤ M := (abs_nonneg _).trans d1
  have small : ∀ z : Int, |z| ≤ M → 6 * ε * |(z : Rat)| ≤ 1 / 2 := by
    intro z hz
    have hz' : |(z : Rat)| ≤ M := by exact_mod_cast hz
    have e0 := hA.nonneg
    have hs := hA.small
    have k1 : 6 * ε * |(z : Rat)| ≤ 6 * ε * M := mul_le_mul_of_nonneg_left hz' (by linarith)
    refine k1.trans ?_
    rcases hM.eq_or_lt with h | h
    · rw [← h]; norm_num
    · have m1 : (1 : Rat) ≤ M := by exact_mod_cast h
      have k2 : (M : Rat) ≤ (M : Rat) ^ 3 := by nlinarith [mul_le_mul m1 m1 zero_le_one (by linarith : (0 : Rat) ≤ M)]
      have := mul_le_mul_of_nonneg_left k2 e0
      linarith
  have e1 := small _ d1
  have e2 := small _ d2
  push_cast at e1 e2
  have m1 : |(c.x : Rat) - x| ≤ 3 / 2 := by linarith
  have m2 : |(c.y : Rat) - y| ≤ 3 / 2 := by linarith
  exact ⟨⟨x, y, ⟨a, a0.le, a1.le, hs⟩, m1, m2⟩, ⟨x, y, ⟨b, b0.le, b1.le, hb⟩, m1, m2⟩⟩

def RSq (o : Pt) (M : Int) (a b : Pt) : Prop := InSq o M a ∧ InSq o M b

/-- In a small square inexact arithmetic gives points between the ends of both lines. -/
theorem near_log {rnd : Rat → Rat} {ε : Rat} {M : Int} (hA : Arith rnd ε M) (o : Pt) (r : Nat → Bool × Bool) (pos : Clip → Nat → Nat) :
    EnvLogK (RSq o M) Upright (QSq o M) (realEnv rnd r pos) := by
  intro k s t q c hs ht hc h1 h2 hK h hp
  change intersects rnd (r k).1 (r k).2 s t = some q at h
  rcases isect_cases hs ht h hp with ⟨o1, o2⟩ | ⟨hd, hcr, a, b, x, y, a0, a1, b0, b1, e1, e2⟩
  · exact ⟨⟨(on_box o1).xin, h1.1.box h1.2 (on_box o1), _, _, o1, by norm_num, by norm_num⟩,
      ⟨(on_box o2).xin, h2.1.box h2.2 (on_box o2), _, _, o2, by norm_num, by norm_num⟩⟩
  · have nvt : Nv t := by
      refine ht.nv fun hv => hK hv ⟨hd, x, y, ⟨a, a0.le, a1.le, e1⟩, ⟨b, b0.le, b1.le, e2⟩, at_inner hs.ne a0 a1 e1, at_inner ht.ne b0 b1 e2⟩
    have hbox : Box s.pa s.pb c := by
      obtain ⟨d1, d2⟩ := h1.2.diff h1.1
      exact C16_inBox rnd hA.mono _ _ s t hd (hA.exact _ d1) (hA.exact _ d2) ⟨x, y, a, b, a0.le, a1.le, b0.le, b1.le, e1, e2⟩ c hcr
    have hin := h1.1.box h1.2 hbox
    obtain ⟨n1, n2⟩ := crossing_near hA hd h1.1 h1.2 a0 a1 b0 b1 e1 e2 hcr
    exact ⟨⟨hbox.xin, hin, n1⟩, ⟨crossing_xin hA hd nvt h1.1 h1.2 h2.1 h2.2 a0 a1 b0 b1 e1 e2 hcr, hin, n2⟩⟩

/-- In a small square each added point stays between the ends of its line, whatever the state. -/
theorem near_logOn {rnd : Rat → Rat} {ε : Rat} {M : Int} (hA : Arith rnd ε M) (o : Pt) {r : Nat → Bool × Bool} {pos : Clip → Nat → Nat}
    (hp : PosOk (realEnv rnd r pos)) {lp : Nat → LP} {np : Nat} (hl : Loops lp np) (h0 : ∀ i < np, InSq o M (lp i).data) {s : Clip}
    (h : Clip.Reach (realEnv rnd r pos) lp np s) : LogOn (RSq o M) (QSq o M) np s := by
  refine reach_logK (R := RSq o M) (Q := QSq o M) (fun a b c h => ⟨h.1.symm, h.2.1, h.2.2.symm⟩) (fun a b h => ⟨h.2, h.1⟩)
    (fun a b c h h' => ⟨⟨h.1, h'.2.1⟩, ⟨h'.2.1, h.2⟩⟩) (realEnv_ok rnd r pos) (near_log hA o r pos) hl (fun i hi => ⟨h0 i hi, h0 _ (hl.next_lt i hi)⟩) ?_ h
  intro s hr _ hlog
  exact upright_pairs (realEnv_sound rnd r pos) hp hl hr fun k ab hk => (hlog.log k ab hk).2.2.1

theorem near_range {rnd : Rat → Rat} {ε : Rat} {M : Int} (hA : Arith rnd ε M) (o : Pt) {r : Nat → Bool × Bool} {pos : Clip → Nat → Nat}
    (hp : PosOk (realEnv rnd r pos)) {lp : Nat → LP} {np : Nat} (hl : Loops lp np) (h0 : ∀ i < np, InSq o M (lp i).data) {s : Clip}
    (h : Clip.Reach (realEnv rnd r pos) lp np s) : RangeOk np s :=
  fun k ab hk => ((near_logOn hA o hp hl h0 h).log k ab hk).2.2.1

end PolyOps.Planarity
