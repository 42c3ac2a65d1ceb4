import Verif.Lemmas.Turn
import Verif.Lemmas.LoopsCore

/-! Which pieces are joined. -/
namespace PolyOps.Loops
open PolyOps PolyOps.Sweep PolyOps.Exec

/-- An anchor follows a point that is none and has its place. -/
def Tidy (lp : Nat → OP) (l : List Nat) : Prop :=
  l.IsChain (fun i j => (lp j).anchor = true → (lp i).anchor = false ∧ (lp j).data = (lp i).data)

/-- The second corner of a piece. -/
def Piece.far (lp : Nat → OP) (p : Piece) : Pt := (crd lp p.rest ++ [p.target]).headD default
/-- The corner before the last. -/
def Piece.back (lp : Nat → OP) (p : Piece) : Pt := (crd lp p.nodes).getLastD default
/-- The first corner. -/
def Piece.start (lp : Nat → OP) (p : Piece) : Pt := (lp p.first).data

theorem crd_append (lp : Nat → OP) (l m : List Nat) : crd lp (l ++ m) = crd lp l ++ crd lp m := by
  unfold crd; rw [List.filter_append, List.map_append]

theorem crd_anchor {lp : Nat → OP} {i : Nat} (h : (lp i).anchor = true) : crd lp [i] = [] := by unfold crd; simp [h]
theorem crd_point {lp : Nat → OP} {i : Nat} (h : (lp i).anchor = false) : crd lp [i] = [(lp i).data] := by unfold crd; simp [h]

theorem Tidy.last {lp : Nat → OP} {l : List Nat} (h : Tidy lp l) (h0 : l ≠ []) (hf : ∀ x, l.head? = some x → (lp x).anchor = false) :
    (lp (l.getLast h0)).data = (crd lp l).getLastD default := by
  obtain ⟨l', x, rfl⟩ : ∃ l' x, l = l' ++ [x] := ⟨l.dropLast, l.getLast h0, (List.dropLast_append_getLast h0).symm⟩
  rw [List.getLast_append_singleton, crd_append]
  cases ha : (lp x).anchor
  · rw [crd_point ha, List.getLastD_eq_getLast?, List.getLast?_append]; simp
  · rcases List.eq_nil_or_concat l' with rfl | ⟨l'', y, rfl⟩
    · have := hf x rfl; rw [ha] at this; cases this
    · rw [List.concat_eq_append] at *
      rw [List.append_assoc] at h
      have := isChain_iff_split.mp h l'' y x [] rfl ha
      rw [crd_anchor ha, List.append_nil, crd_append, crd_point this.1, this.2, List.getLastD_eq_getLast?, List.getLast?_append]; simp

theorem Piece.back_last {lp : Nat → OP} {p : Piece} (h : Tidy lp p.nodes) (hf : (lp p.first).anchor = false) : (lp p.last).data = p.back lp :=
  h.last (by simp [Piece.nodes]) (fun x hx => by have : p.first = x := by simpa [Piece.nodes] using hx
                                                 rw [← this]; exact hf)

theorem Piece.far_end {w : Work} {p : Piece} (h : Tidy w.lp p.nodes) (hc : p.nodes.IsChain (fun i j => (w.lp i).next = j))
    (hn : (w.lp (w.lp p.last).next).anchor = false) (ht : (w.lp (w.lp p.last).next).data = p.target) : FarEnd w p.first (p.far w.lp) := by
  obtain ⟨s, r, t⟩ := p
  unfold Piece.nodes at h hc
  unfold Piece.last at hn ht
  unfold Piece.far
  dsimp only at *
  cases r with
  | nil => exact ⟨_, hn, by simpa [crd] using ht, Or.inl rfl⟩
  | cons j r =>
    rw [List.isChain_cons_cons] at hc
    obtain ⟨c1, c2⟩ := hc
    cases ha : (w.lp j).anchor
    · refine ⟨j, ha, ?_, Or.inl c1.symm⟩
      rw [crd_cons _ ha]; rfl
    · have t2 := (List.isChain_cons_cons.mp h).2
      cases r with
      | nil =>
        refine ⟨_, hn, ?_, Or.inr ⟨by rw [c1]; exact ha, ?_⟩⟩
        · rw [crd_anchor ha]; simpa using ht
        · rw [c1]; rfl
      | cons k r =>
        have hk : (w.lp k).anchor = false := by
          by_contra c
          have := (List.isChain_cons_cons.mp t2).1 (by simpa using c)
          rw [ha] at this; cases this.1
        refine ⟨k, hk, ?_, Or.inr ⟨by rw [c1]; exact ha, ?_⟩⟩
        · rw [show j :: k :: r = [j] ++ k :: r from rfl, crd_append, crd_anchor ha, List.nil_append, crd_cons _ hk]; rfl
        · rw [c1]; exact (List.isChain_cons_cons.mp c2).1.symm

/-- No piece that starts where `p` ends is a sharper turn than `q`. -/
def Best (lp : Nat → OP) (P : List Piece) (p q : Piece) : Prop :=
  ∀ q' ∈ P, q'.start lp = p.target → ¬ Bt p.target (q.far lp) (q'.far lp) (p.back lp)

/-- The directions at the ends of the pieces are all different, and no two pieces have the same best turn. -/
structure Sharp (lp : Nat → OP) (P : List Piece) : Prop where
  ne : ∀ p ∈ P, p.back lp ≠ p.target
  ne' : ∀ q ∈ P, q.far lp ≠ q.start lp
  nb : ∀ p ∈ P, ∀ q ∈ P, q.start lp = p.target → ¬ Exec.Same (vec p.target (q.far lp)) (vec p.target (p.back lp))
  nf : ∀ q ∈ P, ∀ q' ∈ P, q.start lp = q'.start lp → q.first ≠ q'.first → ¬ Exec.Same (vec (q.start lp) (q.far lp)) (vec (q.start lp) (q'.far lp))
  inj : ∀ p ∈ P, ∀ p' ∈ P, ∀ q ∈ P, p.target = p'.target → q.start lp = p.target → Best lp P p q → Best lp P p' q → p = p'

theorem Piece.far_congr {lp lp' : Nat → OP} {p : Piece} (hd : ∀ k, (lp' k).data = (lp k).data) (ha : ∀ k, (lp' k).anchor = (lp k).anchor) : p.far lp' = p.far lp := by
  unfold Piece.far; rw [crd_congr (fun k _ => ha k) (fun k _ _ => hd k)]
theorem Piece.back_congr {lp lp' : Nat → OP} {p : Piece} (hd : ∀ k, (lp' k).data = (lp k).data) (ha : ∀ k, (lp' k).anchor = (lp k).anchor) : p.back lp' = p.back lp := by
  unfold Piece.back; rw [crd_congr (fun k _ => ha k) (fun k _ _ => hd k)]

theorem Best.congr {lp lp' : Nat → OP} {P : List Piece} {p q : Piece} (hd : ∀ k, (lp' k).data = (lp k).data) (ha : ∀ k, (lp' k).anchor = (lp k).anchor)
    (h : Best lp P p q) : Best lp' P p q := by
  intro q' hq' hs
  rw [Piece.far_congr hd ha, Piece.far_congr hd ha, Piece.back_congr hd ha]
  exact h q' hq' (by unfold Piece.start at *; rw [← hd]; exact hs)

theorem Sharp.congr {lp lp' : Nat → OP} {P : List Piece} (hd : ∀ k, (lp' k).data = (lp k).data) (ha : ∀ k, (lp' k).anchor = (lp k).anchor)
    (h : Sharp lp P) : Sharp lp' P := by
  have f := fun p : Piece => Piece.far_congr (p := p) hd ha
  have b := fun p : Piece => Piece.back_congr (p := p) hd ha
  have s : ∀ p : Piece, p.start lp' = p.start lp := fun p => hd _
  refine ⟨?_, ?_, ?_, ?_, ?_⟩
  · intro p hp; rw [b]; exact h.ne p hp
  · intro p hp; rw [f, s]; exact h.ne' p hp
  · intro p hp q hq; rw [f, b, s]; exact h.nb p hp q hq
  · intro p hp q hq; rw [f, f, s, s]; exact h.nf p hp q hq
  · intro p hp p' hp' q hq e hs b1 b2
    rw [s] at hs
    exact h.inj p hp p' hp' q hq e hs (b1.congr (fun k => (hd k).symm) (fun k => (ha k).symm)) (b2.congr (fun k => (hd k).symm) (fun k => (ha k).symm))

/-- With the choices made so far. -/
structure Inv4 (w : Work) (P : List Piece) (es S : List Nat) : Prop extends Inv3 w P es S where
  tidy : ∀ p ∈ P, Tidy w.lp p.nodes
  na : ∀ p ∈ P, (w.lp (w.lp p.last).next).anchor = false
  sharp : Sharp w.lp P
  used : ∀ q ∈ P, q.first ∉ S → ∃ p ∈ P, p.last ∉ es ∧ (w.lp p.last).next = q.first
  best : ∀ p ∈ P, p.last ∉ es → ∀ q ∈ P, (w.lp p.last).next = q.first → Best w.lp P p q

theorem Piece.eq_of_first {P : List Piece} (hn : (P.flatMap Piece.nodes).Nodup) {p q : Piece} (hp : p ∈ P) (hq : q ∈ P) (h : p.first = q.first) : p = q :=
  Piece.first_inj hn hp hq (List.mem_cons_self : p.first ∈ p.nodes) (by rw [h]; exact List.mem_cons_self)

theorem Piece.eq_of_last {P : List Piece} (hn : (P.flatMap Piece.nodes).Nodup) {p q : Piece} (hp : p ∈ P) (hq : q ∈ P) (h : p.last = q.last) : p = q :=
  Piece.first_inj hn hp hq p.last_mem (by rw [h]; exact q.last_mem)

/-- There is a best turn. -/
theorem exists_best {lp : Nat → OP} {P : List Piece} {p : Piece} (h : ∃ q ∈ P, q.start lp = p.target) : ∃ q ∈ P, q.start lp = p.target ∧ Best lp P p q := by
  obtain ⟨q, hq, hs, hm⟩ := exists_last' (fun x y : Piece => Bt p.target (x.far lp) (y.far lp) (p.back lp)) (fun q => q.start lp = p.target)
    (fun a _ h => h.irrefl.1 rfl) (fun a b c _ _ _ h1 h2 => h1.trans h2) P h
  exact ⟨q, hq, hs, hm⟩

theorem Inv4.join {w : Work} {P : List Piece} {e : Nat} {es S : List Nat} (h : Inv4 w P (e :: es) S) :
    ∃ w' S', w.join e = some w' ∧ Inv4 w' P es S' ∧ (∀ k, (w'.lp k).data = (w.lp k).data) ∧
      (∀ k, (w'.lp k).anchor = (w.lp k).anchor) ∧ w'.np = w.np := by
  obtain ⟨w', S', ew, hi, hd, ha, hn, hS, hne⟩ := h.toInv3.join
  have hen := List.nodup_cons.mp h.enod
  obtain ⟨pe, hpe, hpel⟩ := List.mem_map.mp (h.esub e List.mem_cons_self)
  have hpt : w.endPoint e = pe.target := by
    have := h.open_ pe hpe (by rw [hpel]; exact List.mem_cons_self)
    rw [hpel] at this; exact this
  have hbk : (w.lp e).data = pe.back w.lp := by
    rw [← hpel]; exact Piece.back_last (h.tidy pe hpe) (h.first pe hpe)
  -- the place after the last point of a piece
  have htar : ∀ q ∈ P, (w.lp (w.lp q.last).next).data = q.target := by
    intro q hq
    by_cases c : q.last ∈ e :: es
    · exact h.open_ q hq c
    · obtain ⟨q', _, e1, _, e2⟩ := h.closed q hq c
      rw [e1]; exact e2
  have hfar : ∀ q ∈ P, FarEnd w q.first (q.far w.lp) := fun q hq => Piece.far_end (h.tidy q hq) (h.chain q hq) (h.na q hq) (htar q hq)
  have hstart : ∀ s ∈ w.starts (w.endPoint e), ∃ q ∈ P, q.first = s ∧ s ∈ S ∧ q.start w.lp = pe.target := by
    intro s hs
    have := (h.starts _).subset hs
    rw [List.mem_filter, decide_eq_true_eq] at this
    obtain ⟨q, hq, e1⟩ := List.mem_map.mp (h.ssub s this.1)
    exact ⟨q, hq, e1, this.1, by unfold Piece.start; rw [e1, this.2, hpt]⟩
  -- what is chosen
  obtain ⟨hc1, hc2⟩ := C45_join ew (by rw [hbk, hpt]; exact h.sharp.ne pe hpe) w.naEnd
    (fun s hs => by obtain ⟨q, hq, rfl, _⟩ := hstart s hs; rw [(hfar q hq).naEnd]; exact hfar q hq)
    (fun s hs => by
      obtain ⟨q, hq, rfl, _, hs'⟩ := hstart s hs
      rw [(hfar q hq).naEnd, hbk, hpt]
      have k1 := h.sharp.ne' q hq
      rw [hs'] at k1
      have k2 := h.sharp.nb pe hpe q hq hs'
      refine ⟨k1, fun ⟨c1, c2⟩ => k2 ?_⟩
      rw [same_iff (vec_ne k1.symm) (vec_ne (h.sharp.ne pe hpe).symm)]
      unfold cr dt vec
      dsimp only
      generalize pe.target = a at *
      generalize q.far w.lp = b at *
      generalize pe.back w.lp = c at *
      have c1' : ((a.x : Rat) - c.x) * (b.y - a.y) = (b.x - a.x) * (a.y - c.y) := by exact_mod_cast c1
      have c2' : ((a.x : Rat) - c.x) * (b.x - a.x) + (a.y - c.y) * (b.y - a.y) < 0 := by exact_mod_cast c2
      constructor <;> linarith)
  obtain ⟨qc, hqc, eqc, hqS, hqs⟩ := hstart _ hc1
  have hle : (w'.lp e).next = qc.first := eqc.symm
  -- it is the best
  have hbest : Best w.lp P pe qc := by
    obtain ⟨q0, hq0, hs0, hb0⟩ := exists_best (lp := w.lp) (p := pe) ⟨qc, hqc, hqs⟩
    by_cases c : q0.first = qc.first
    · rw [← Piece.eq_of_first h.nodup hq0 hqc c]; exact hb0
    -- the best one is unused
    have hu : q0.first ∈ S := by
      by_contra hu
      obtain ⟨p', hp', hl', hn'⟩ := h.used q0 hq0 hu
      have b' := h.best p' hp' hl' q0 hq0 hn'
      obtain ⟨q1, hq1, e1, _, e2⟩ := h.closed p' hp' hl'
      have : q1 = q0 := Piece.eq_of_first h.nodup hq1 hq0 (by rw [← e1, hn'])
      subst this
      have ht : p'.target = pe.target := by rw [← hs0, ← e2]; rfl
      have := h.sharp.inj p' hp' pe hpe q1 hq1 ht (by rw [hs0, ht]) b' hb0
      exact hl' (by rw [this, hpel]; exact List.mem_cons_self)
    have hin : q0.first ∈ w.starts (w.endPoint e) := by
      refine (h.starts _).symm.subset (List.mem_filter.mpr ⟨hu, decide_eq_true ?_⟩)
      rw [hpt]; exact hs0
    have hnb := hc2 _ hin
    rw [hle, (hfar q0 hq0).naEnd, (hfar qc hqc).naEnd, hbk, hpt] at hnb
    have k1 := h.sharp.ne' q0 hq0
    have k2 := h.sharp.ne' qc hqc
    have k3 := h.sharp.nf q0 hq0 qc hqc (by rw [hs0, hqs]) c
    rw [hs0] at k1 k3
    rw [hqs] at k2
    exfalso
    rcases btw_total k3 (h.sharp.nb pe hpe qc hqc hqs) (h.sharp.nb pe hpe q0 hq0 hs0) with k | k
    · exact hb0 qc hqc hqs k
    · exact hnb (before_of_btw (h.sharp.ne pe hpe) k2 k1 (h.sharp.nb pe hpe qc hqc hqs) (h.sharp.nb pe hpe q0 hq0 hs0) (fun c => k3 c.symm) k)
  refine ⟨w', S', ew, ?_, hd, ha, hn⟩
  refine { hi with tidy := ?_, na := ?_, sharp := h.sharp.congr hd ha, used := ?_, best := ?_ }
  · intro p hp
    have := h.tidy p hp
    unfold Tidy at *
    simpa only [hd, ha] using this
  · intro p hp
    rw [ha]
    by_cases c : p.last = e
    · rw [c, hle]; exact h.first qc hqc
    · rw [hne _ c]; exact h.na p hp
  · intro q hq hqn
    by_cases c : q.first = qc.first
    · exact ⟨pe, hpe, by rw [hpel]; exact hen.1, by rw [hpel, hle, c]⟩
    · have : q.first ∉ S := fun hm => hqn (by rw [hS, hle]; exact (List.Nodup.mem_erase_iff h.snod).mpr ⟨c, hm⟩)
      obtain ⟨p, hp, h1, h2⟩ := h.used q hq this
      have : p.last ≠ e := fun x => h1 (by rw [x]; exact List.mem_cons_self)
      exact ⟨p, hp, fun x => h1 (List.mem_cons_of_mem _ x), by rw [hne _ this]; exact h2⟩
  · intro p hp hpm q hq hnx
    by_cases c : p.last = e
    · have : p = pe := Piece.eq_of_last h.nodup hp hpe (by rw [c, hpel])
      subst this
      rw [c, hle] at hnx
      rw [← Piece.eq_of_first h.nodup hqc hq hnx]
      exact hbest.congr hd ha
    · rw [hne _ c] at hnx
      exact (h.best p hp (by simp [c, hpm]) q hq hnx).congr hd ha

theorem Inv4.joinAll : ∀ {es : List Nat} {w : Work} {P : List Piece} {S : List Nat}, Inv4 w P es S →
    ∃ w', w.joinAll es = some w' ∧ Inv4 w' P [] [] ∧ (∀ k, (w'.lp k).data = (w.lp k).data) ∧
      (∀ k, (w'.lp k).anchor = (w.lp k).anchor) ∧ w'.np = w.np
  | [], w, P, S, h => by
    have hS : S = [] := by
      have := h.bal.length_eq
      simpa using this.symm
    subst hS
    exact ⟨w, rfl, h, fun _ => rfl, fun _ => rfl, rfl⟩
  | e :: es, w, P, S, h => by
    obtain ⟨w1, S1, e1, h1, d1, a1, n1⟩ := h.join
    obtain ⟨w2, e2, h2, d2, a2, n2⟩ := Inv4.joinAll h1
    refine ⟨w2, ?_, h2, fun k => (d2 k).trans (d1 k), fun k => (a2 k).trans (a1 k), n2.trans n1⟩
    unfold Work.joinAll
    rw [e1, Option.bind_some, e2]

end PolyOps.Loops
