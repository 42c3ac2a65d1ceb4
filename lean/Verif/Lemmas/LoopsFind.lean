import Verif.Lemmas.LoopsJoin

/-! The fourth phase: `find_loops`. -/
namespace PolyOps.Loops
open PolyOps PolyOps.Sweep

/-- In a finite set closed under an injective map every point lies on a cycle. -/
theorem orbit_aux (nx : Nat → Nat) (K : List Nat) (hc : ∀ k ∈ K, nx k ∈ K) (hi : ∀ k ∈ K, ∀ k' ∈ K, nx k = nx k' → k = k') (i : Nat) :
    ∀ (m : Nat) (cs : List Nat) (y : Nat), K.length ≤ cs.length + 1 + m → Sq nx (nx i) cs y → (i :: cs).Nodup → (∀ c ∈ i :: cs, c ∈ K) →
    ∃ cs', Sq nx (nx i) cs' i ∧ (i :: cs').Nodup ∧ ∀ c ∈ i :: cs', c ∈ K := by
  intro m
  induction m with
  | zero =>
    intro cs y hl hs hn hK
    by_cases hy : y = i
    · exact ⟨cs, hy ▸ hs, hn, hK⟩
    · exfalso
      have hlast := (Sq.chain hs).2
      have hyK : y ∈ K := by rw [← hlast]; exact hc _ (hK _ (List.getLast_mem _))
      have hyn : y ∉ cs := by
        intro c
        obtain ⟨l1, l2, e⟩ := List.append_of_mem c
        subst e
        obtain ⟨x, h1, h2⟩ := Sq.append.mp hs
        have hx : x = y := h2.1
        rw [hx] at h1
        have a := (Sq.chain h1).2
        have b := hi _ (hK _ (by
            rcases List.mem_cons.mp (List.getLast_mem (l := i :: l1) (by simp)) with c | c
            · rw [c]; exact List.mem_cons_self
            · exact List.mem_cons_of_mem _ (List.mem_append_left _ c))) _ (hK _ (List.getLast_mem _)) (a.trans hlast.symm)
        have e2 : (i :: (l1 ++ y :: l2)).getLast (by simp) = (y :: l2).getLast (by simp) := by
          rw [List.getLast_cons (by simp), List.getLast_append_of_ne_nil _ (by simp)]
        rw [e2] at b
        have hn' : ((i :: l1) ++ (y :: l2)).Nodup := hn
        rw [List.nodup_append] at hn'
        exact hn'.2.2 _ (List.getLast_mem _) _ (List.getLast_mem _) b
      have h3 : (y :: i :: cs).Nodup := List.nodup_cons.mpr ⟨by simp [hy, hyn], hn⟩
      have h4 : (y :: i :: cs) ⊆ K := by
        intro x hx
        rcases List.mem_cons.mp hx with c | c
        · exact c ▸ hyK
        · exact hK x c
      have := (List.subperm_of_subset h3 h4).length_le
      simp at this
      omega
  | succ m ih =>
    intro cs y hl hs hn hK
    by_cases hy : y = i
    · exact ⟨cs, hy ▸ hs, hn, hK⟩
    · have hlast := (Sq.chain hs).2
      have hyK : y ∈ K := by rw [← hlast]; exact hc _ (hK _ (List.getLast_mem _))
      have hyn : y ∉ cs := by
        intro c
        obtain ⟨l1, l2, e⟩ := List.append_of_mem c
        subst e
        obtain ⟨x, h1, h2⟩ := Sq.append.mp hs
        have hx : x = y := h2.1
        rw [hx] at h1
        have a := (Sq.chain h1).2
        have b := hi _ (hK _ (by
            rcases List.mem_cons.mp (List.getLast_mem (l := i :: l1) (by simp)) with c | c
            · rw [c]; exact List.mem_cons_self
            · exact List.mem_cons_of_mem _ (List.mem_append_left _ c))) _ (hK _ (List.getLast_mem _)) (a.trans hlast.symm)
        have e2 : (i :: (l1 ++ y :: l2)).getLast (by simp) = (y :: l2).getLast (by simp) := by
          rw [List.getLast_cons (by simp), List.getLast_append_of_ne_nil _ (by simp)]
        rw [e2] at b
        have hn' : ((i :: l1) ++ (y :: l2)).Nodup := hn
        rw [List.nodup_append] at hn'
        exact hn'.2.2 _ (List.getLast_mem _) _ (List.getLast_mem _) b
      apply ih (cs ++ [y]) (nx y) (by simp; omega)
      · exact Sq.append.mpr ⟨y, hs, rfl, rfl⟩
      · rw [← List.cons_append, List.nodup_append]
        refine ⟨hn, by simp, ?_⟩
        intro a ha b hb c
        have : b = y := by simpa using hb
        rw [c, this] at ha
        rcases List.mem_cons.mp ha with d | d
        · exact hy d
        · exact hyn d
      · intro c hcm
        rw [← List.cons_append] at hcm
        rcases List.mem_append.mp hcm with d | d
        · exact hK c d
        · have : c = y := by simpa using d
          exact this ▸ hyK

theorem orbit {nx : Nat → Nat} {K : List Nat} (hc : ∀ k ∈ K, nx k ∈ K) (hi : ∀ k ∈ K, ∀ k' ∈ K, nx k = nx k' → k = k') {i : Nat} (h : i ∈ K) :
    ∃ cs, Sq nx (nx i) cs i ∧ (i :: cs).Nodup ∧ ∀ c ∈ i :: cs, c ∈ K :=
  orbit_aux nx K hc hi i K.length [] (nx i) (by simp) rfl (by simp) (by simpa using h)

def unsets (idx : Nat → LIdx) (l : List Nat) : List Nat := l.filter (fun i => decide (idx i = .unset))

theorem trace_spec (k i : Nat) : ∀ (js : List Nat) (fuel : Nat) (f : Found) (prev j size : Nat), js.length < fuel → Sq f.next j js i →
    f.next prev = j → prev ∉ js → i ∉ js → js.Nodup → (∀ x ∈ js, f.idx x = .unset ∨ f.idx x = .anchor) →
    ∃ f', Found.trace k i fuel f prev j size = some (f', size + (unsets f.idx js).length) ∧ f'.loops = f.loops ∧
      (∀ x ∈ js, f'.idx x = .loop k) ∧ (∀ x, x ∉ js → f'.idx x = f.idx x) ∧ (∀ x, x ∉ prev :: js → f'.next x = f.next x) ∧
      Sq f'.next (f'.next prev) (unsets f.idx js) i := by
  intro js
  induction js with
  | nil =>
    intro fuel f prev j size hf hs hp _ _ _ _
    obtain ⟨fuel, rfl⟩ : ∃ m, fuel = m + 1 := ⟨fuel - 1, by simp at hf; omega⟩
    have hj : j = i := hs
    refine ⟨f, ?_, rfl, by simp, fun _ _ => rfl, fun _ _ => rfl, ?_⟩
    · unfold Found.trace; rw [if_pos hj]; simp [unsets]
    · change f.next prev = i; rw [hp, hj]
  | cons a js ih =>
    intro fuel f prev j size hf hs hp hpn hin hn hu
    obtain ⟨fuel, rfl⟩ : ∃ m, fuel = m + 1 := ⟨fuel - 1, by simp at hf; omega⟩
    have hja : j = a := hs.1
    have hai : a ≠ i := fun c => hin (c ▸ List.mem_cons_self)
    have hap : a ≠ prev := fun c => hpn (c ▸ List.mem_cons_self)
    have hn' := List.nodup_cons.mp hn
    have hpj : prev ∉ js := fun c => hpn (List.mem_cons_of_mem _ c)
    have hij : i ∉ js := fun c => hin (List.mem_cons_of_mem _ c)
    have hlen : js.length < fuel := by simp at hf; omega
    have e0 : ∀ (g : Nat → LIdx), (∀ x ∈ js, g x = f.idx x) → unsets g js = unsets f.idx js := by
      intro g hg
      unfold unsets
      exact List.filter_congr (fun x hx => by rw [hg x hx])
    have hne : ∀ x ∈ js, x ≠ a := fun x hx c => hn'.1 (c ▸ hx)
    have hidx : ∀ x ∈ js, setFn f.idx a (.loop k) x = f.idx x := fun x hx => setFn_ne _ _ (hne x hx)
    unfold Found.trace
    rw [if_neg (by rw [hja]; exact hai), hja]
    rcases hu a List.mem_cons_self with ha | ha
    · rw [ha]
      dsimp only
      obtain ⟨f', t1, t2, t3, t4, t5, t6⟩ := ih fuel { f with idx := setFn f.idx a (.loop k) } a (f.next a) (size + 1) hlen hs.2 rfl hn'.1 hij hn'.2
        (fun x hx => by
          change setFn f.idx a (.loop k) x = _ ∨ setFn f.idx a (.loop k) x = _
          rw [hidx x hx]; exact hu x (List.mem_cons_of_mem _ hx))
      dsimp only at t1 t2 t3 t4 t5 t6
      rw [e0 _ hidx] at t1 t6
      have e1 : unsets f.idx (a :: js) = a :: unsets f.idx js := by
        unfold unsets; rw [List.filter_cons, if_pos (by simp [ha])]
      refine ⟨f', ?_, t2, ?_, ?_, ?_, ?_⟩
      · rw [t1, e1]; simp; omega
      · intro x hx
        rcases List.mem_cons.mp hx with c | c
        · rw [c, t4 a hn'.1, setFn_same]
        · exact t3 x c
      · intro x hx
        rw [t4 x (fun c => hx (List.mem_cons_of_mem _ c)), setFn_ne]
        exact fun c => hx (c ▸ List.mem_cons_self)
      · intro x hx; exact t5 x (fun c => hx (List.mem_cons_of_mem _ c))
      · rw [e1]
        refine ⟨?_, t6⟩
        rw [t5 prev (by simp [hap.symm, hpj]), hp, hja]
    · rw [ha]
      dsimp only
      have en : setFn f.next prev (f.next a) a = f.next a := setFn_ne _ _ hap
      rw [en]
      obtain ⟨f', t1, t2, t3, t4, t5, t6⟩ := ih fuel { f with next := setFn f.next prev (f.next a), idx := setFn f.idx a (.loop k) } prev (f.next a) size hlen
        (Sq.congr hs.2 (fun p hp => setFn_ne _ _ (fun c => hpj (c ▸ hp)))) (setFn_same _ _ _) hpj hij hn'.2
        (fun x hx => by
          change setFn f.idx a (.loop k) x = _ ∨ setFn f.idx a (.loop k) x = _
          rw [hidx x hx]; exact hu x (List.mem_cons_of_mem _ hx))
      dsimp only at t1 t2 t3 t4 t5 t6
      rw [e0 _ hidx] at t1 t6
      have e1 : unsets f.idx (a :: js) = unsets f.idx js := by
        unfold unsets; rw [List.filter_cons, if_neg (by simp [ha])]
      refine ⟨f', ?_, t2, ?_, ?_, ?_, ?_⟩
      · rw [t1, e1]
      · intro x hx
        rcases List.mem_cons.mp hx with c | c
        · rw [c, t4 a hn'.1, setFn_same]
        · exact t3 x c
      · intro x hx
        rw [t4 x (fun c => hx (List.mem_cons_of_mem _ c)), setFn_ne]
        exact fun c => hx (c ▸ List.mem_cons_self)
      · intro x hx
        rw [t5 x (fun c => hx (by
          rcases List.mem_cons.mp c with d | d
          · rw [d]; exact List.mem_cons_self
          · exact List.mem_cons_of_mem _ (List.mem_cons_of_mem _ d)))]
        exact setFn_ne _ _ (fun c => hx (c ▸ List.mem_cons_self))
      · rw [e1]; exact t6

/-- State of `find_loops` when the points below `n` have been tried; `G`: the cycles found. -/
structure FInv (nx : Nat → Nat) (idx : Nat → LIdx) (K : List Nat) (f : Found) (n : Nat) (G : List (List Nat)) : Prop where
  cyc : ∀ g ∈ G, ∃ i cs, g = i :: cs ∧ Sq nx (nx i) cs i ∧ idx i = .unset
  out : ∀ g ∈ G, ∃ i t, unsets idx g = i :: t ∧ g.head? = some i ∧ Sq f.next (f.next i) t i
  nodup : G.flatten.Nodup
  sub : ∀ k ∈ G.flatten, k ∈ K
  loops : f.loops = G.map (fun g => (g.headD 0, (unsets idx g).length))
  seen : ∀ m, ∀ k ∈ G.getD m [], f.idx k = .loop m
  free : ∀ k, k ∉ G.flatten → f.idx k = idx k ∧ f.next k = nx k
  done : ∀ k, k < n → idx k = .unset → k ∈ G.flatten

theorem FInv.closed {nx : Nat → Nat} {idx : Nat → LIdx} {K : List Nat} {f : Found} {n : Nat} {G : List (List Nat)} (h : FInv nx idx K f n G)
    {k : Nat} (hk : k ∈ G.flatten) : nx k ∈ G.flatten := by
  obtain ⟨g, hg, hkg⟩ := List.mem_flatten.mp hk
  obtain ⟨i, cs, e, hs, _⟩ := h.cyc g hg
  refine List.mem_flatten.mpr ⟨g, hg, ?_⟩
  rw [e] at hkg ⊢
  obtain ⟨l1, l2, e2⟩ := List.append_of_mem hkg
  have hc := Sq.chain hs
  cases l2 with
  | nil =>
    have : (i :: cs).getLast (by simp) = k := by simp only [e2]; simp
    rw [this] at hc
    rw [hc.2]; exact List.mem_cons_self
  | cons j l2 =>
    rw [isChain_iff_split.mp hc.1 l1 k j l2 e2, e2]; simp

/-- A point outside the found cycles has its whole cycle outside. -/
theorem FInv.outside {nx : Nat → Nat} {idx : Nat → LIdx} {K : List Nat} {f : Found} {n : Nat} {G : List (List Nat)} (h : FInv nx idx K f n G) :
    ∀ {cs : List Nat} {x i : Nat}, Sq nx x cs i → i ∉ G.flatten → ∀ c ∈ cs, c ∉ G.flatten
  | [], _, _, _, _, c, hc => by simp at hc
  | a :: cs, x, i, hs, hi, c, hc => by
    have ih := FInv.outside h hs.2 hi
    have ha : a ∉ G.flatten := by
      intro ca
      have hb := h.closed ca
      cases cs with
      | nil =>
        have : nx a = i := hs.2
        exact hi (this ▸ hb)
      | cons b cs =>
        have : nx a = b := hs.2.1
        exact ih b List.mem_cons_self (this ▸ hb)
    rcases List.mem_cons.mp hc with d | d
    · exact d ▸ ha
    · exact ih c d

theorem find_spec {nx : Nat → Nat} {idx : Nat → LIdx} {K : List Nat} (hc : ∀ k ∈ K, nx k ∈ K)
    (hi : ∀ k ∈ K, ∀ k' ∈ K, nx k = nx k' → k = k') (hK : ∀ k ∈ K, idx k = .unset ∨ idx k = .anchor)
    (np : Nat) (hlt : ∀ k ∈ K, k < np) :
    ∀ n, (∀ k, k < n → idx k = .unset → k ∈ K) →
    ∃ f G, Found.find (np + 1) ⟨nx, idx, []⟩ n = some f ∧ FInv nx idx K f n G
  | 0, _ => ⟨_, [], rfl, by
      refine ⟨by simp, by simp, by simp, by simp, rfl, ?_, fun _ _ => ⟨rfl, rfl⟩, by simp⟩
      intro m k hk; simp at hk⟩
  | n + 1, hn => by
    obtain ⟨f, G, e, h⟩ := find_spec hc hi hK np hlt n (fun k hk => hn k (by omega))
    unfold Found.find
    rw [e, Option.bind_some]
    by_cases hu : f.idx n = .unset
    · rw [if_pos hu]
      dsimp only
      have hnG : n ∉ G.flatten := by
        intro c
        obtain ⟨g, hg, hng⟩ := List.mem_flatten.mp c
        obtain ⟨m, hm, hgm⟩ := List.getElem_of_mem hg
        have := h.seen m n (by rw [List.getD_eq_getElem?_getD, List.getElem?_eq_getElem hm]; simpa [hgm] using hng)
        rw [this] at hu
        exact absurd hu (by simp)
      have hn0 : idx n = .unset := (h.free n hnG).1 ▸ hu
      have hnK : n ∈ K := hn n (by omega) hn0
      obtain ⟨cs, c1, c2, c3⟩ := orbit hc hi hnK
      have hout := h.outside c1 hnG
      have c2' := List.nodup_cons.mp c2
      have hcsn : ∀ c ∈ cs, c ≠ n := fun c hc d => c2'.1 (d ▸ hc)
      have hlen : cs.length < np + 1 := by
        have h4 : (n :: cs) ⊆ List.range np := fun x hx => List.mem_range.mpr (hlt x (c3 x hx))
        have := (List.subperm_of_subset c2 h4).length_le
        simp at this
        omega
      have hidx : ∀ c ∈ cs, setFn f.idx n (.loop f.loops.length) c = idx c := by
        intro c hc
        rw [setFn_ne _ _ (hcsn c hc)]
        exact (h.free c (hout c hc)).1
      obtain ⟨f', t1, t2, t3, t4, t5, t6⟩ := trace_spec f.loops.length n cs (np + 1) { f with idx := setFn f.idx n (.loop f.loops.length) } n (f.next n) 1
        hlen (by
          change Sq f.next (f.next n) cs n
          rw [(h.free n hnG).2]
          exact Sq.congr c1 (fun p hp => (h.free p (hout p hp)).2)) rfl c2'.1 c2'.1 c2'.2
        (fun x hx => by
          change setFn f.idx n _ x = _ ∨ setFn f.idx n _ x = _
          rw [hidx x hx]; exact hK x (c3 x (List.mem_cons_of_mem _ hx)))
      dsimp only at t1 t2 t3 t4 t5 t6
      rw [t1, Option.map_some]
      have e1 : unsets (setFn f.idx n (.loop f.loops.length)) cs = unsets idx cs :=
        List.filter_congr (fun x hx => by rw [hidx x hx])
      rw [e1] at t6
      have e2 : unsets idx (n :: cs) = n :: unsets idx cs := by
        unfold unsets; rw [List.filter_cons, if_pos (by simp [hn0])]
      have hGn : ∀ x ∈ G.flatten, x ∉ n :: cs := by
        intro x hx c
        rcases List.mem_cons.mp c with d | d
        · exact hnG (d ▸ hx)
        · exact hout x d hx
      have ll : f.loops.length = G.length := by rw [h.loops]; simp
      refine ⟨_, G ++ [n :: cs], rfl, ?_⟩
      constructor
      · intro g hg
        rcases List.mem_append.mp hg with d | d
        · exact h.cyc g d
        · exact ⟨n, cs, by simpa using d, c1, hn0⟩
      · intro g hg
        rcases List.mem_append.mp hg with d | d
        · obtain ⟨i, t, q1, q2, q3⟩ := h.out g d
          refine ⟨i, t, q1, q2, ?_⟩
          have hig : i ∈ g := by
            have : i ∈ unsets idx g := by rw [q1]; exact List.mem_cons_self
            exact (List.mem_filter.mp this).1
          have hnx : ∀ x ∈ g, f'.next x = f.next x := fun x hx => t5 x (hGn x (List.mem_flatten.mpr ⟨g, d, hx⟩))
          change Sq f'.next (f'.next i) t i
          rw [hnx i hig]
          refine Sq.congr q3 (fun p hp => hnx p ?_)
          have : p ∈ unsets idx g := by rw [q1]; exact List.mem_cons_of_mem _ hp
          exact (List.mem_filter.mp this).1
        · have d : g = n :: cs := by simpa using d
          exact ⟨n, unsets idx cs, by rw [d, e2], by rw [d]; rfl, t6⟩
      · rw [List.flatten_append, List.nodup_append]
        refine ⟨h.nodup, by simpa using c2, ?_⟩
        intro a ha b hb c
        exact hGn a ha (by rw [c]; simpa using hb)
      · intro k hk
        rw [List.flatten_append] at hk
        rcases List.mem_append.mp hk with d | d
        · exact h.sub k d
        · exact c3 k (by simpa using d)
      · change f'.loops ++ [(n, 1 + (unsets (setFn f.idx n (.loop f.loops.length)) cs).length)] = _
        rw [e1, t2, h.loops, List.map_append]
        simp [e2]
        omega
      · intro m k hk
        change f'.idx k = .loop m
        rw [List.getD_eq_getElem?_getD] at hk
        by_cases hm : m < G.length
        · rw [List.getElem?_append_left hm] at hk
          have hk' : k ∈ G.getD m [] := by rw [List.getD_eq_getElem?_getD]; exact hk
          have hkG : k ∈ G.flatten := by
            rw [List.getElem?_eq_getElem hm] at hk
            exact List.mem_flatten.mpr ⟨_, List.getElem_mem hm, hk⟩
          have k2 := hGn k hkG
          rw [t4 k (fun c => k2 (List.mem_cons_of_mem _ c)), setFn_ne _ _ (fun c : k = n => k2 (c ▸ List.mem_cons_self))]
          exact h.seen m k hk'
        · rw [List.getElem?_append_right (by omega)] at hk
          by_cases hm2 : m = G.length
          · have hk2 : k ∈ n :: cs := by simpa [hm2] using hk
            rw [hm2, ← ll]
            rcases List.mem_cons.mp hk2 with d | d
            · rw [d, t4 n c2'.1, setFn_same]
            · exact t3 k d
          · have : m - G.length ≠ 0 := by omega
            obtain ⟨q, hq⟩ : ∃ q, m - G.length = q + 1 := ⟨m - G.length - 1, by omega⟩
            rw [hq] at hk
            simp at hk
      · intro k hk
        rw [List.flatten_append] at hk
        have k1 : k ∉ G.flatten := fun c => hk (List.mem_append_left _ c)
        have k2 : k ∉ n :: cs := fun c => hk (List.mem_append_right _ (by simpa using c))
        refine ⟨?_, ?_⟩
        · change f'.idx k = idx k
          rw [t4 k (fun c => k2 (List.mem_cons_of_mem _ c)), setFn_ne _ _ (fun c : k = n => k2 (c ▸ List.mem_cons_self))]
          exact (h.free k k1).1
        · change f'.next k = nx k
          rw [t5 k k2]
          exact (h.free k k1).2
      · intro k hk hku
        rw [List.flatten_append]
        by_cases c : k = n
        · exact List.mem_append_right _ (by simp [c])
        · exact List.mem_append_left _ (h.done k (by omega) hku)
    · rw [if_neg hu]
      refine ⟨f, G, rfl, h.cyc, h.out, h.nodup, h.sub, h.loops, h.seen, h.free, ?_⟩
      intro k hk hku
      by_cases c : k = n
      · by_contra d
        exact hu (by rw [← c, (h.free k d).1]; exact hku)
      · exact h.done k (by omega) hku

end PolyOps.Loops
