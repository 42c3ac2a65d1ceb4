import Verif.Lemmas.Winding
import Verif.Lemmas.PlanarEnd

/-! The lines after the intersection sweep as bent input lines. -/
namespace PolyOps.Exec
open PolyOps PolyOps.Sweep PolyOps.Region PolyOps.Planarity

/-! ### Paths -/

/-- A walk along `g` from `i` through the points of a list to `j`. -/
def GPath (g : Nat → Nat) (i : Nat) : List Nat → Nat → Prop
  | [], j => g i = j
  | a :: l, j => g i = a ∧ GPath g a l j

theorem gpath_path {lp : Nat → LP} : ∀ {l : List Nat} {i j : Nat}, GPath (fun k => (lp k).next) i l j → Path lp i l j
  | [], _, _, h => h
  | _ :: _, _, _, h => ⟨h.1, gpath_path h.2⟩

/-- The points of the list go from `p` to `q` without turning back, along neither axis. -/
def Ahead (p : Pt) : List Pt → Pt → Prop
  | [], _ => True
  | c :: l, q => InBox c p q ∧ Ahead c l q

theorem gpath_insert {g : Nat → Nat} {a m : Nat} (ham : a ≠ m) : ∀ {l : List Nat} {i j : Nat}, GPath g i l j → i ≠ m → (∀ c ∈ l, c ≠ m) →
    ∃ l', GPath (setFn (setFn g a m) m (g a)) i l' j ∧ (∀ c ∈ l', c ∈ l ∨ (c = m ∧ a ∈ i :: l ∧ (g a ∈ l ∨ g a = j) ∧ l.length < l'.length)) ∧
      l.length ≤ l'.length ∧ ∀ d : Nat → Pt, InBox (d m) (d a) (d (g a)) → Ahead (d i) (l.map d) (d j) → Ahead (d i) (l'.map d) (d j)
  | [], i, j, h, hi, _ => by
    by_cases c : i = a
    · subst c
      refine ⟨[m], ⟨by simp [setFn, hi], ?_⟩, fun c hc => Or.inr ⟨by simpa using hc, by simp, Or.inr h, by simp⟩, by simp,
        fun d hd _ => ⟨by rw [show g i = j from h] at hd; exact hd, trivial⟩⟩
      show setFn _ _ _ _ = _
      simp only [setFn, if_true]; exact h
    · refine ⟨[], ?_, fun c hc => by simp at hc, le_rfl, fun _ _ _ => trivial⟩
      show setFn _ _ _ _ = _
      simp only [setFn, if_neg hi, if_neg c]; exact h
  | b :: l, i, j, h, hi, hm => by
    obtain ⟨l', h1, h2, hlen, h3⟩ := gpath_insert ham h.2 (hm b (by simp)) fun c hc => hm c (by simp [hc])
    have up : ∀ c ∈ l', c ∈ b :: l ∨ (c = m ∧ a ∈ i :: b :: l ∧ (g a ∈ b :: l ∨ g a = j) ∧ l.length < l'.length) := by
      intro c hc
      rcases h2 c hc with h | ⟨h, h', h'', h3⟩
      · exact Or.inl (List.mem_cons_of_mem _ h)
      · exact Or.inr ⟨h, List.mem_cons_of_mem _ h', h''.imp (List.mem_cons_of_mem _) id, h3⟩
    by_cases c : i = a
    · subst c
      refine ⟨m :: b :: l', ⟨by simp [setFn, hi], ⟨by simp only [setFn, if_true]; exact h.1, h1⟩⟩, fun c hc => ?_, by simp only [List.length_cons]; omega, fun d hd hA => ⟨?_, ?_, h3 d hd hA.2⟩⟩
      rcases List.mem_cons.mp hc with rfl | hc
      · exact Or.inr ⟨rfl, by simp, Or.inl (by rw [h.1]; simp), by simp only [List.length_cons]; omega⟩
      · rcases List.mem_cons.mp hc with rfl | hc
        · exact Or.inl (by simp)
        · exact (up c hc).imp id fun h => ⟨h.1, h.2.1, h.2.2.1, by simp only [List.length_cons]; omega⟩
      · have hA := hA.1
        rw [h.1] at hd
        unfold InBox at *; omega
      · have hA := hA.1
        rw [h.1] at hd
        unfold InBox at *; omega
    · refine ⟨b :: l', ⟨by simp only [setFn, if_neg hi, if_neg c]; exact h.1, h1⟩, fun c hc => ?_, by simp only [List.length_cons]; omega, fun d hd hA => ⟨hA.1, h3 d hd hA.2⟩⟩
      rcases List.mem_cons.mp hc with rfl | hc
      · exact Or.inl (by simp)
      · exact (up c hc).imp id fun h => ⟨h.1, h.2.1, h.2.2.1, by simp only [List.length_cons]; have := h.2.2.2; omega⟩

/-- A property of points relative to an edge that gets weaker with each point put in; `S` is a property of the point put in relative to
the piece that is split. -/
structure Grade (S : Pt → Pt → Pt → Prop) (R : Nat → Pt → Pt → Pt → Prop) : Prop where
  left : ∀ a b, R 0 a b a
  right : ∀ a b, R 0 a b b
  mono : ∀ m n a b c, m ≤ n → R m a b c → R n a b c
  step : ∀ n p q a b c, R n p q a → R n p q b → S a b c → R (n + 1) p q c

/-- Splitting lines at points that have a convex property makes each line a chain of points with it. -/
theorem splits_chain {Q : Pt → Pt → Pt → Prop} (hl : ∀ a b, Q a b a) (hr : ∀ a b, Q a b b)
    (hQ : ∀ p q a b c, Q p q a → Q p q b → Q a b c → Q p q c) {f g : Nat → Nat} {n m : Nat} {l : List (Nat × Nat)} (h : Splits f n l g m)
    (hf : ∀ i < n, f i < n) (d : Nat → Pt) (hd : ∀ k ab, l[k]? = some ab → Q (d ab.1) (d ab.2) (d (n + k))) :
    ∀ i < n, ∃ L, GPath g i L (f i) ∧ (∀ c ∈ L, n ≤ c ∧ c < m ∧ Q (d i) (d (f i)) (d c)) ∧
      ((∀ a b c, Q a b c → InBox c a b) → Ahead (d i) (L.map d) (d (f i))) ∧
      ∀ S R, Grade S R → (∀ k ab, l[k]? = some ab → S (d ab.1) (d ab.2) (d (n + k))) → ∀ c ∈ L, R L.length (d i) (d (f i)) (d c) := by
  induction h with
  | nil => exact fun i _ => ⟨[], rfl, by simp, fun _ => trivial, by simp⟩
  | @snoc l g m a b h ha hb ih =>
    intro i hi
    have hlen := h.length
    have up : ∀ (k : Nat) (ab : Nat × Nat), l[k]? = some ab → (l ++ [(a, b)])[k]? = some ab := by
      intro k ab hk
      rw [List.getElem?_append_left]
      · exact hk
      · exact (List.getElem?_eq_some_iff.mp hk).1
    obtain ⟨L, p1, p2, p3, p4⟩ := ih (fun k ab hk => hd k ab (up k ab hk)) i hi
    have new : Q (d a) (d b) (d m) := by
      have := hd l.length (a, b) (by rw [List.getElem?_append_right le_rfl]; simp)
      rw [← hlen] at this; exact this
    obtain ⟨L', q1, q2, q4, q3⟩ := gpath_insert (a := a) (m := m) (by omega) p1 (by omega) fun c hc => by have := (p2 c hc).2.1; omega
    rw [hb] at q1 q2 q3
    refine ⟨L', q1, fun c hc => ?_, fun hbox => q3 d (hbox _ _ _ new) (p3 hbox), fun S R hR hS c hc => ?_⟩
    rotate_left
    · have p4 := p4 S R hR fun k ab hk => hS k ab (up k ab hk)
      rcases q2 c hc with h1 | ⟨rfl, h1, h2, h3⟩
      · exact hR.mono _ _ _ _ _ q4 (p4 c h1)
      · refine hR.mono _ _ _ _ _ h3 (hR.step _ _ _ (d a) (d b) _ ?_ ?_ ?_)
        · rcases List.mem_cons.mp h1 with rfl | h1
          · exact hR.mono _ _ _ _ _ (Nat.zero_le _) (hR.left _ _)
          · exact p4 a h1
        · rcases h2 with h2 | h2
          · exact p4 b h2
          · rw [h2]; exact hR.mono _ _ _ _ _ (Nat.zero_le _) (hR.right _ _)
        · have := hS l.length (a, b) (by rw [List.getElem?_append_right le_rfl]; simp)
          rw [← hlen] at this; exact this
    rcases q2 c hc with h1 | ⟨rfl, h1, h2, -⟩
    · have := p2 c h1
      exact ⟨this.1, by omega, this.2.2⟩
    · refine ⟨by omega, by omega, hQ _ _ (d a) (d b) _ ?_ ?_ new⟩
      · rcases List.mem_cons.mp h1 with rfl | h1
        · exact hl _ _
        · exact (p2 a h1).2.2
      · rcases h2 with h2 | h2
        · exact (p2 b h2).2.2
        · rw [h2]; exact hr _ _

theorem box_left (a b : Pt) : Box a b a := by unfold Box InBox; omega
theorem box_right (a b : Pt) : Box a b b := by unfold Box InBox; omega
theorem box_trans (p q a b c : Pt) (h1 : Box p q a) (h2 : Box p q b) (h : Box a b c) : Box p q c := by unfold Box InBox at *; omega

/-! ### Bent lines -/

/-- An input edge and the points put into it. -/
structure Bent where
  set : BSet
  edge : Pt × Pt
  via : List Pt

/-- The walk along the edge through these points. -/
def Bent.pieces (b : Bent) : List (Pt × Pt) := walk b.edge.1 (b.via ++ [b.edge.2])

/-- The pieces of the edges of one set. -/
def piecesOf (B : List Bent) (k : BSet) : List (Pt × Pt) := (B.filter fun b => b.set = k).flatMap Bent.pieces

theorem path_walk {lp : Nat → LP} : ∀ {l : List Nat} {i j : Nat}, Path lp i l j →
    walk (lp i).data (l.map (fun c => (lp c).data) ++ [(lp j).data]) = (i :: l).map fun c => ((lp c).data, (lp (lp c).next).data)
  | [], i, j, h => by
    have h : (lp i).next = j := h
    subst h; rfl
  | b :: l, i, j, h => by
    have := path_walk h.2
    change ((lp i).data, (lp b).data) :: walk (lp b).data (l.map (fun c => (lp c).data) ++ [(lp j).data]) = _
    rw [this]; simp only [List.map_cons, h.1]

theorem path_range {lp : Nat → LP} : ∀ {l : List Nat} {i j : Nat}, Path lp i l j →
    (List.range (l.length + 1)).map (fun a => (fun k => (lp k).next)^[a] i) = i :: l
  | [], i, j, _ => rfl
  | b :: l, i, j, h => by
    have := path_range h.2
    rw [List.length_cons, List.range_succ_eq_map, List.map_cons, List.map_map]
    congr 1
    rw [← this]
    apply List.map_congr_left
    intro a _
    simp only [Function.comp, Function.iterate_succ_apply, h.1]

/-- The lines after the first sweep are the pieces of bent input lines. `Q` is a convex property of the added points. -/
theorem bent_lines {Q : Pt → Pt → Pt → Prop} (hq1 : ∀ a b, Q a b a) (hq2 : ∀ a b, Q a b b)
    (hQ : ∀ p q a b c, Q p q a → Q p q b → Q a b c → Q p q c) {env : Env} (he : EnvOk env) {lp : Nat → LP} {np : Nat} (hl : Loops lp np) {f : Clip}
    (hr : Clip.Reach env lp np f) (hlog : LogIn Q np f) :
    ∃ B : List Bent, B.map (fun b => (b.set, b.edge)) = (inputLines lp np).map (fun l => (l.set, l.p, l.q)) ∧
      (∀ b ∈ B, ∀ p ∈ b.via, Q b.edge.1 b.edge.2 p) ∧
      ((∀ a b c, Q a b c → InBox c a b) → ∀ b ∈ B, Ahead b.edge.1 b.via b.edge.2) ∧
      (∀ S R, Grade S R → LogIn S np f → ∀ b ∈ B, ∀ p ∈ b.via, R b.via.length b.edge.1 b.edge.2 p) ∧
      (f.lines.map fun l => (l.set, l.p, l.q)).Perm (B.flatMap fun b => b.pieces.map fun e => (b.set, e)) := by
  obtain ⟨hi, href, hsp⟩ := reach_spec he hl hr
  obtain ⟨hlo, -, hvia⟩ := C27_loops he hl hr
  set F := fun c => (f.lp c).next with hF
  have hex := splits_chain hq1 hq2 hQ hsp hl.next_lt (fun i => (f.lp i).data) fun k ab hk => (hlog k ab hk).2.2
  choose! L hp hc hah hgr using hex
  have hpath : ∀ i < np, Path f.lp i (L i) (lp i).next := fun i hi => gpath_path (hp i hi)
  have hit := fun i hi => path_iter (hpath i hi)
  have via : ∀ c < f.np, ∃ i < np, ∃ a, F^[a] i = c := by
    intro c hc
    obtain ⟨i, hi, hv⟩ := hvia c hc
    refine ⟨i, hi, ?_⟩
    clear hc
    induction hv with
    | refl => exact ⟨0, rfl⟩
    | step _ _ ih =>
      obtain ⟨a, ha⟩ := ih
      exact ⟨a + 1, by rw [Function.iterate_succ_apply', ha]; rfl⟩
  have hperm := chains_perm href.le hlo.next_lt hlo.next_inj (fun i => (L i).length) (fun i hi a a0 a1 => (hc i hi _ ((hit i hi).2 a a0 a1)).1)
    (fun i hi => by rw [(hit i hi).1]; exact hl.next_lt i hi) via
  have setc : ∀ m c, c < f.np → (f.lp (F^[m] c)).set = (f.lp c).set := by
    intro m c hc
    induction m with
    | zero => rfl
    | succ m ih => rw [Function.iterate_succ_apply', ← ih]; exact hlo.set_eq _ (iter_lt hlo.next_lt hc m)
  refine ⟨(List.range np).map fun i => ⟨(lp i).set, ((lp i).data, (lp (lp i).next).data), (L i).map fun c => (f.lp c).data⟩, ?_, ?_, ?_, ?_, ?_⟩
  · unfold inputLines
    rw [List.map_map, List.map_map]; rfl
  · intro b hb p hp'
    obtain ⟨i, hi, rfl⟩ := List.mem_map.mp hb
    have hi := List.mem_range.mp hi
    obtain ⟨c, hc', rfl⟩ := List.mem_map.mp hp'
    have := (hc i hi c hc').2.2
    dsimp only at this ⊢
    rw [href.data i hi, href.data _ (hl.next_lt i hi)] at this
    exact this
  · intro hbox b hb
    obtain ⟨i, hi, rfl⟩ := List.mem_map.mp hb
    have hi := List.mem_range.mp hi
    have := hah i hi hbox
    dsimp only at this ⊢
    rw [href.data i hi, href.data _ (hl.next_lt i hi)] at this
    exact this
  · intro S R hR hS b hb p hp'
    obtain ⟨i, hi, rfl⟩ := List.mem_map.mp hb
    have hi := List.mem_range.mp hi
    obtain ⟨c, hc', rfl⟩ := List.mem_map.mp hp'
    have := hgr i hi S R hR (fun k ab hk => (hS k ab hk).2.2) c hc'
    dsimp only at this ⊢
    rw [href.data i hi, href.data _ (hl.next_lt i hi)] at this
    rw [List.length_map]
    exact this
  · unfold Clip.lines
    rw [List.map_map]
    refine (hperm.symm.map _).trans (List.Perm.of_eq ?_)
    rw [List.map_flatMap, List.flatMap_map]
    apply List.flatMap_congr
    intro i hi
    have hi := List.mem_range.mp hi
    have hw := path_walk (hpath i hi)
    rw [href.data i hi, href.data _ (hl.next_lt i hi)] at hw
    unfold Bent.pieces
    dsimp only
    rw [hw, ← path_range (hpath i hi), List.map_map, List.map_map, List.map_map]
    apply List.map_congr_left
    intro a _
    show ((f.lp (F^[a] i)).set, _, _) = _
    rw [setc a i (hi.trans_le href.le), href.set i hi]; rfl

end PolyOps.Exec
