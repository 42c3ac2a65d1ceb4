import Verif.Lemmas.Stored

/-! The numbers a tracker gets when polygons are added. -/
namespace PolyOps.Exec
open PolyOps PolyOps.Sweep PolyOps.Region PolyOps.PointSink PolyOps.Clipper

/-- Points with their numbers. -/
def numbered (n : Nat) (l : List Pt) : List (Pt × Int) := (List.range l.length).map fun i => (l.getD i default, (n : Int) + (i : Int))

/-- The numbers of the vertices that are stored, the first vertex having the number `n`. -/
def numsOf (n : Nat) : List Poly → List Nat
  | [] => []
  | p :: ps => (if p.big then (cyc (numbered n p.pts)).map fun q => q.2.toNat else []) ++ numsOf (n + p.pts.length) ps

theorem numsOf_cons (n : Nat) (p : Poly) (ps : List Poly) : numsOf n (p :: ps) =
    (if p.big then (cyc (numbered n p.pts)).map fun q => q.2.toNat else []) ++ numsOf (n + p.pts.length) ps := rfl

/-- The polygon to which the vertex number `x` belongs. -/
def polyOf : List Poly → Nat → Nat
  | [], _ => 0
  | p :: ps, x => if x < p.pts.length then 0 else polyOf ps (x - p.pts.length) + 1

theorem cyc_sub (l : List (Pt × Int)) : (cyc l).Sublist l := by
  unfold cyc
  dsimp only
  split
  · exact (List.dropLast_sublist _).trans (List.destutter_sublist _ _)
  · exact List.destutter_sublist _ _

theorem numbered_fst (n : Nat) (l : List Pt) : (numbered n l).map Prod.fst = l := idx_map l n

theorem numbered_mem {n : Nat} {l : List Pt} {q : Pt × Int} (h : q ∈ numbered n l) : ∃ i < l.length, q.2 = ((n + i : Nat) : Int) ∧ l[i]? = some q.1 := by
  obtain ⟨i, hi, rfl⟩ := List.mem_map.mp h
  have hi := List.mem_range.mp hi
  refine ⟨i, hi, by push_cast; rfl, ?_⟩
  dsimp only
  rw [List.getElem?_eq_getElem hi, List.getD_eq_getElem _ _ hi]

theorem numbered_lt (n : Nat) (l : List Pt) : (numbered n l).Pairwise fun a b => a.2.toNat < b.2.toNat := by
  unfold numbered
  rw [List.pairwise_map]
  exact List.pairwise_lt_range.imp fun {a b} h => by dsimp only; omega

theorem cyc_len (n : Nat) (p : Poly) : (cyc (numbered n p.pts)).length = (clean p.pts).length := by
  rw [← List.length_map (f := Prod.fst), cyc_clean, numbered_fst]

theorem numsOf_lt : ∀ (ps : List Poly) (n : Nat), (numsOf n ps).Pairwise (· < ·) ∧ ∀ x ∈ numsOf n ps, n ≤ x ∧ x < n + (ps.flatMap Poly.pts).length
  | [], n => ⟨List.Pairwise.nil, fun x hx => absurd hx (by simp [numsOf])⟩
  | p :: ps, n => by
    obtain ⟨h1, h2⟩ := numsOf_lt ps (n + p.pts.length)
    have hb : ∀ x ∈ (if p.big then (cyc (numbered n p.pts)).map fun q => q.2.toNat else []), n ≤ x ∧ x < n + p.pts.length := by
      intro x hx
      split at hx
      · obtain ⟨q, hq, rfl⟩ := List.mem_map.mp hx
        obtain ⟨i, hi, e, -⟩ := numbered_mem ((cyc_sub _).subset hq)
        rw [e]; omega
      · simp at hx
    rw [numsOf_cons]
    refine ⟨List.pairwise_append.mpr ⟨?_, h1, fun a ha b hb' => ?_⟩, fun x hx => ?_⟩
    · split
      · rw [List.pairwise_map]; exact (numbered_lt _ _).sublist (cyc_sub _)
      · exact List.Pairwise.nil
    · have := (hb a ha).2; have := (h2 b hb').1; omega
    · rw [List.flatMap_cons, List.length_append]
      rcases List.mem_append.mp hx with h | h
      · have := hb x h; omega
      · have := h2 x h; omega

theorem store_len : ∀ (ps : List Poly) (n : Nat) (pts : List LP), (store pts ps).length = pts.length + (numsOf n ps).length
  | [], n, pts => by simp [store, numsOf]
  | p :: ps, n, pts => by
    show (store (if p.big then pts ++ block pts.length p.set (clean p.pts) else pts) ps).length = _
    rw [store_len ps (n + p.pts.length)]
    rw [numsOf_cons]
    by_cases hb : p.big
    · rw [if_pos hb, if_pos hb, List.length_append, block_length, List.length_append, List.length_map, cyc_len]; omega
    · rw [if_neg hb, if_neg hb]; simp

theorem store_left : ∀ (ps : List Poly) {pts : List LP} {i : Nat}, i < pts.length → lpOf (store pts ps) i = lpOf pts i
  | [], _, _, _ => rfl
  | p :: ps, pts, i, hi => by
    show lpOf (store (if p.big then pts ++ block pts.length p.set (clean p.pts) else pts) ps) i = _
    by_cases hb : p.big
    · rw [if_pos hb, store_left ps (by rw [List.length_append]; omega), lpOf_left hi]
    · rw [if_neg hb, store_left ps hi]

/-- Each stored point is the vertex its number says, and is linked to a point of the same polygon. -/
theorem store_nums : ∀ (ps : List Poly) (n : Nat) (pts : List LP) (j x : Nat), (numsOf n ps)[j]? = some x →
    (ps.flatMap Poly.pts)[x - n]? = some (lpOf (store pts ps) (pts.length + j)).data ∧
    ∃ j' x', (lpOf (store pts ps) (pts.length + j)).next = pts.length + j' ∧ (numsOf n ps)[j']? = some x' ∧ polyOf ps (x' - n) = polyOf ps (x - n)
  | [], n, pts, j, x, h => by simp [numsOf] at h
  | p :: ps, n, pts, j, x, h => by
    obtain ⟨-, hlt⟩ := numsOf_lt ps (n + p.pts.length)
    have hst : store pts (p :: ps) = store (if p.big then pts ++ block pts.length p.set (clean p.pts) else pts) ps := rfl
    have hnn : numsOf n (p :: ps) = (if p.big then (cyc (numbered n p.pts)).map fun q => q.2.toNat else []) ++ numsOf (n + p.pts.length) ps := rfl
    rw [hst]
    have later : ∀ (pts' : List LP) (j0 j : Nat), (numsOf (n + p.pts.length) ps)[j]? = some x → pts'.length = pts.length + j0 →
        (∀ k y : Nat, (numsOf (n + p.pts.length) ps)[k]? = some y → (numsOf n (p :: ps))[j0 + k]? = some y) →
        ((p :: ps).flatMap Poly.pts)[x - n]? = some (lpOf (store pts' ps) (pts.length + (j0 + j))).data ∧
        ∃ j' x', (lpOf (store pts' ps) (pts.length + (j0 + j))).next = pts.length + j' ∧ (numsOf n (p :: ps))[j']? = some x' ∧
          polyOf (p :: ps) (x' - n) = polyOf (p :: ps) (x - n) := by
      intro pts' j0 j hx hl hk
      obtain ⟨q1, j', x', q2, q3, q4⟩ := store_nums ps (n + p.pts.length) pts' j x hx
      rw [hl, Nat.add_assoc] at q1 q2
      have b1 := hlt x (List.mem_of_getElem? hx)
      have b2 := hlt x' (List.mem_of_getElem? q3)
      refine ⟨?_, j0 + j', x', by rw [q2, ← Nat.add_assoc, ← hl], hk _ _ q3, ?_⟩
      · rw [List.flatMap_cons, List.getElem?_append_right (by omega), ← q1]
        congr 1; omega
      · unfold polyOf
        rw [if_neg (by omega), if_neg (by omega)]
        rw [Nat.sub_sub, Nat.sub_sub, q4]
    by_cases hb : p.big
    · rw [hnn, if_pos hb] at h
      rw [if_pos hb] at hnn ⊢
      set C := (cyc (numbered n p.pts)).map fun q => q.2.toNat with hC
      have hCl : C.length = (clean p.pts).length := by rw [hC, List.length_map, cyc_len]
      by_cases c : j < C.length
      · rw [List.getElem?_append_left c] at h
        have inC : ∀ k y : Nat, C[k]? = some y → n ≤ y ∧ y < n + p.pts.length ∧ ∃ v, (clean p.pts)[k]? = some v ∧ p.pts[y - n]? = some v := by
          intro k y hk
          rw [hC, List.getElem?_map, Option.map_eq_some_iff] at hk
          obtain ⟨q, hq, rfl⟩ := hk
          obtain ⟨i, hi, e, e2⟩ := numbered_mem ((cyc_sub _).subset (List.mem_of_getElem? hq))
          have hcl : (clean p.pts)[k]? = some q.1 := by
            have := cyc_clean (numbered n p.pts)
            rw [numbered_fst] at this
            rw [← this, List.getElem?_map, hq]; rfl
          refine ⟨by rw [e]; omega, by rw [e]; omega, q.1, hcl, ?_⟩
          rw [e, ← e2]; congr 1; omega
        have pol : ∀ y, n ≤ y → y < n + p.pts.length → polyOf (p :: ps) (y - n) = 0 := by
          intro y h1 h2
          unfold polyOf
          rw [if_pos (by omega)]
        obtain ⟨a1, a2, v, a3, a4⟩ := inC j x h
        have hlen : (pts ++ block pts.length p.set (clean p.pts)).length = pts.length + (clean p.pts).length := by rw [List.length_append, block_length]
        rw [store_left ps (by rw [hlen]; omega), lpOf_block (by omega)]
        dsimp only
        refine ⟨?_, ?_⟩
        · rw [List.flatMap_cons, List.getElem?_append_left (by omega), a4, List.getD_eq_getElem _ _ (by omega)]
          rw [List.getElem?_eq_getElem (by omega)] at a3
          exact a3.symm
        · set j' := if j + 1 = (clean p.pts).length then 0 else j + 1 with hj'
          have hj'l : j' < C.length := by rw [hj']; split <;> omega
          refine ⟨j', C[j'], ?_, ?_, ?_⟩
          · rw [hj']; split <;> omega
          · rw [hnn, List.getElem?_append_left hj'l, List.getElem?_eq_getElem hj'l]
          · obtain ⟨b1, b2, -⟩ := inC j' C[j'] (List.getElem?_eq_getElem hj'l)
            rw [pol _ b1 b2, pol _ a1 a2]
      · rw [List.getElem?_append_right (by omega)] at h
        have := later (pts ++ block pts.length p.set (clean p.pts)) C.length (j - C.length) h
          (by rw [List.length_append, block_length, hCl]) (fun k y hk => by rw [hnn, List.getElem?_append_right (by omega), Nat.add_sub_cancel_left]; exact hk)
        rw [show C.length + (j - C.length) = j from by omega] at this
        exact this
    · rw [hnn, if_neg hb, List.nil_append] at h
      rw [if_neg hb] at hnn ⊢
      have := later pts 0 j h rfl (fun k y hk => by rw [hnn, List.nil_append, Nat.zero_add]; exact hk)
      rw [Nat.zero_add] at this
      exact this

/-- Adding polygons with a tracker to a clipper that has not run. -/
theorem run_tracked {G : Type} (P : Params G) : ∀ (ps : List Poly) (c : Clipper G) (n : Nat) (log : List TCall), c.ran = false → c.nextOrig = (n : Int) →
    (∀ p ∈ ps, p.track = true) →
    Fine (backPt ⟨c.pts, [], 0⟩) ps → ∀ fuel cmds, run P fuel (ps.map Poly.cmd ++ cmds) (c, log) =
      (run P fuel cmds ({ c with pts := store c.pts ps, nextOrig := ((n + (ps.flatMap Poly.pts).length : Nat) : Int) }, log ++ (numsOf n ps).map fun x => .added (x : Int))).bind fun q => .ok (q.1, List.replicate ps.length none ++ q.2)
  | [], c, n, log, _, hn, _, _ => fun fuel cmds => by
      have e : ({ c with pts := store c.pts [], nextOrig := ((n + (([] : List Poly).flatMap Poly.pts).length : Nat) : Int) } : Clipper G) = c := by
        show ({ c with pts := c.pts, nextOrig := ((n : Nat) : Int) } : Clipper G) = c
        rw [← hn]
      rw [e]
      show run P fuel cmds (c, log) = (run P fuel cmds (c, log ++ [])).bind fun q => .ok (q.1, q.2)
      rw [List.append_nil]
      cases run P fuel cmds (c, log) <;> rfl
  | p :: ps, c, n, log, hr, hn, ht, hf => by
    obtain ⟨hf1, hf2⟩ := hf
    have one : addPts ⟨c.pts, [], c.nextOrig⟩ p.set p.track p.pts =
        some ⟨if p.big then c.pts ++ block c.pts.length p.set (clean p.pts) else c.pts,
          (if p.big then (cyc (numbered n p.pts)).map Prod.snd else []), ((n + p.pts.length : Nat) : Int)⟩ := by
      rw [addPts_eq, ht p List.mem_cons_self]
      have hm := numbered_fst n p.pts
      have hcl := cyc_len n p
      have hcy := cyc_clean (numbered n p.pts)
      rw [hm] at hcy
      have hll : (numbered n p.pts).getLast?.map (fun q => q.2 + 1) = if p.pts = [] then none else some ((n + p.pts.length : Nat) : Int) := by
        unfold numbered
        rw [List.getLast?_map, Option.map_map]
        cases hp : p.pts with
        | nil => rfl
        | cons a l =>
          rw [List.length_cons, List.range_succ, List.getLast?_append_of_ne_nil _ (by simp)]
          simp
          omega
      have hnum : ((List.range p.pts.length).map fun i => (p.pts.getD i default, c.nextOrig + (i : Int))) = numbered n p.pts := by rw [hn]; rfl
      dsimp only
      rw [hnum]
      rcases hf1 with he | ⟨h1, h2, h3⟩
      · have : numbered n p.pts = [] := by unfold numbered; rw [he]; rfl
        rw [this, C25_empty]
        have hs : ¬ p.big := by unfold Poly.big; rw [he]; decide
        rw [if_neg hs, if_neg hs, hn, he]; rfl
      · have hC : PointSink.Clean (backPt ⟨c.pts, [], c.nextOrig⟩) (numbered n p.pts) := by
          unfold PointSink.Clean
          rw [← List.getLast?_map, ← List.head?_map, ← List.getLast?_map, List.map_dropLast, hm]
          refine ⟨by rw [← hm, List.length_map] at h1; exact h1, h2, h3⟩
        have hne : p.pts ≠ [] := by intro e; rw [e] at h1; simp at h1
        rw [C25_partial _ _ _ _ hC]
        unfold addSpec
        rw [hcl, hcy, hll, if_neg hne]
        by_cases q : p.big
        · rw [if_pos (show 3 ≤ (clean p.pts).length from q), if_pos q, if_pos q]; rfl
        · rw [if_neg (show ¬ 3 ≤ (clean p.pts).length from q), if_neg q, if_neg q]; rfl
    have hb : backPt ⟨if p.big then c.pts ++ block c.pts.length p.set (clean p.pts) else c.pts, [], 0⟩ =
        if p.big then (clean p.pts).getLast? else backPt ⟨c.pts, [], 0⟩ := by
      by_cases hbig : p.big
      · rw [if_pos hbig, if_pos hbig]
        refine back_block _ _ ?_ _ _
        intro h
        unfold Poly.big at hbig
        rw [h] at hbig; simp at hbig
      · rw [if_neg hbig, if_neg hbig]
    have h := run_tracked P ps
      { c with pts := if p.big then c.pts ++ block c.pts.length p.set (clean p.pts) else c.pts, nextOrig := ((n + p.pts.length : Nat) : Int) } (n + p.pts.length)
      (log ++ (if p.big then (cyc (numbered n p.pts)).map Prod.snd else []).map .added) hr rfl (fun q hq => ht q (List.mem_cons_of_mem _ hq)) (by rw [hb]; exact hf2)
    intro fuel cmds
    have hs : step P fuel (c, log) p.cmd =
        .ok (({ c with pts := if p.big then c.pts ++ block c.pts.length p.set (clean p.pts) else c.pts, nextOrig := ((n + p.pts.length : Nat) : Int) },
          log ++ (if p.big then (cyc (numbered n p.pts)).map Prod.snd else []).map .added), none) := by
      unfold step Poly.cmd Clipper.add
      simp only [hr, Bool.false_eq_true, if_false]
      rw [one]; rfl
    rw [List.map_cons, List.cons_append]
    have e1 : run P fuel (p.cmd :: (ps.map Poly.cmd ++ cmds)) (c, log) =
        (step P fuel (c, log) p.cmd).bind fun r => (run P fuel (ps.map Poly.cmd ++ cmds) r.1).bind fun q => .ok (q.1, r.2 :: q.2) := rfl
    rw [e1, hs]
    change (run P fuel (ps.map Poly.cmd ++ cmds) _).bind _ = _
    rw [h fuel cmds]
    have e2 : (n + p.pts.length + (ps.flatMap Poly.pts).length) = n + ((p :: ps).flatMap Poly.pts).length := by
      rw [List.flatMap_cons, List.length_append]; omega
    have e3 : log ++ (if p.big then (cyc (numbered n p.pts)).map Prod.snd else []).map TCall.added ++ (numsOf (n + p.pts.length) ps).map (fun x : Nat => TCall.added (x : Int)) =
        log ++ (numsOf n (p :: ps)).map fun x : Nat => TCall.added (x : Int) := by
      rw [List.append_assoc]
      congr 1
      rw [numsOf_cons]
      rw [List.map_append]
      congr 1
      split
      · rw [List.map_map, List.map_map]
        apply List.map_congr_left
        intro q hq
        obtain ⟨i, -, e, -⟩ := numbered_mem ((cyc_sub _).subset hq)
        have e' : ((q.2.toNat : Nat) : Int) = q.2 := by rw [e]; rfl
        simp only [Function.comp, e']
      · rfl
    rw [e2, e3]
    change ((run P fuel cmds ({ c with pts := store c.pts (p :: ps), nextOrig := _ }, _)).bind _).bind _ = _
    generalize run P fuel cmds _ = r
    cases r <;> rfl

end PolyOps.Exec
