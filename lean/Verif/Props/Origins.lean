import Verif.Lemmas.Reported
import Verif.Lemmas.Numbers
import Verif.Model.Iter
import Verif.Props.Double

/-! C64: origins of the points returned. -/
namespace PolyOps.Exec
open PolyOps PolyOps.Sweep PolyOps.Region PolyOps.Planarity PolyOps.Loops PolyOps.PointSink PolyOps.Clipper PolyOps.MiniSet

/-! ### Specification -/

/-- The polygon each point belongs to, from the calls a tracker got: an added vertex to its own polygon, a new point to the polygon
of the line that it splits. -/
def homes (ps : List Poly) (calls : List TCall) : List Nat :=
  calls.foldl (fun h c => match c with
    | .added x => h ++ [polyOf ps x.toNat]
    | .between a _ => h ++ [h.getD a 0]
    | .merge _ _ => h) []

/-- The origins of a point that is returned are as they should be, given the polygons and the calls a tracker got: they are in
increasing order, are those that the calls have brought to the point, are vertices of the polygon of the point, and if the point is
an input vertex its own number is one of them. -/
structure Traced (ps : List Poly) (calls : List TCall) (v : Visited) : Prop where
  sorted : v.origins.Pairwise (· < ·)
  mem : ∀ x, x ∈ v.origins ↔ x ∈ ((calls.map toCall).foldl Spec.step Spec.init).sets v.idx
  home : ∀ x ∈ v.origins, x < (ps.flatMap Poly.pts).length ∧ (homes ps calls)[v.idx]? = some (polyOf ps x)
  own : ∀ x, calls[v.idx]? = some (.added x) → x.toNat ∈ v.origins ∧ (ps.flatMap Poly.pts)[x.toNat]? = some v.data

/-- No number is reported twice. -/
def Once (V : List (List Visited)) : Prop := (V.flatten.flatMap Visited.origins).Nodup

/-- Merges from points of the polygon `i` never go to a point that was merged before; `h` is the polygon of each point, `done` are the
points merged so far. -/
def Onward (h : List Nat) (i : Nat) : List Nat → List TCall → Prop
  | _, [] => True
  | done, .merge a b :: L => (h[a]? = some i → b ∉ done) ∧ Onward h i (a :: done) L
  | done, _ :: L => Onward h i done L

instance (h : List Nat) (i : Nat) : (done : List Nat) → (L : List TCall) → Decidable (Onward h i done L)
  | _, [] => .isTrue trivial
  | done, .merge a b :: L => @instDecidableAnd _ _ inferInstance (instDecidableOnward h i (a :: done) L)
  | done, .added _ :: L => instDecidableOnward h i done L
  | done, .between _ _ :: L => instDecidableOnward h i done L

/-- All numbers of the polygon `i` are reported that were given to the tracker. -/
def Reported (ps : List Poly) (calls : List TCall) (V : List (List Visited)) (i : Nat) : Prop :=
  ∀ x, .added x ∈ calls → polyOf ps x.toNat = i → ∃ l ∈ V, ∃ v ∈ l, x.toNat ∈ v.origins

/-! ### Reading a result -/

theorem visitFrom_some {pts : List LP} {t : List MSet} {l : Nat × Nat} {nxt : Nat → Nat} {dat : Nat → Pt} {org : Nat → List Nat} :
    ∀ (n i fuel : Nat), n ≤ fuel →
    (∀ m < n, ∃ p, pts[nxt^[m] i]? = some p ∧ p.next = nxt (nxt^[m] i) ∧ p.data = dat (nxt^[m] i) ∧ origins t (nxt^[m] i) = some (org (nxt^[m] i))) →
    visitFrom pts t (Iter.end l) fuel ⟨i, n⟩ = some ((List.range n).map fun m => ⟨nxt^[m] i, dat (nxt^[m] i), org (nxt^[m] i)⟩)
  | 0, i, 0, _, _ => rfl
  | 0, i, fuel + 1, _, _ => rfl
  | n + 1, i, 0, hf, _ => absurd hf (by omega)
  | n + 1, i, fuel + 1, hf, h => by
    obtain ⟨p, h1, h2, h3, h4⟩ := h 0 (Nat.succ_pos n)
    rw [Function.iterate_zero, id] at h1 h2 h3 h4
    have ih := visitFrom_some (pts := pts) (t := t) (l := l) (nxt := nxt) (dat := dat) (org := org) n (nxt i) fuel (by omega) (fun m hm => by
      have := h (m + 1) (by omega)
      rw [Function.iterate_succ_apply] at this
      exact this)
    unfold visitFrom
    rw [if_neg (by simp [Iter.eq, Iter.end])]
    have hg : Iter.get pts t ⟨i, n + 1⟩ = some ⟨i, p.data, org i⟩ := by
      unfold Iter.get; dsimp only; rw [h1, h4]
    have hi : Iter.inc pts ⟨i, n + 1⟩ = some ⟨nxt i, n⟩ := by
      unfold Iter.inc; dsimp only; rw [h1]; dsimp only; rw [h2]
    rw [hg, hi, Option.bind_some, Option.bind_some, ih, List.range_succ_eq_map, List.map_cons, List.map_map, Option.map_some, h3]
    simp only [Function.iterate_zero, id, Function.comp_def, Function.iterate_succ_apply]

/-! ### What `execute` does -/

section
variable {G : Type} {P : Params G} {g : G} {rnd : Rat → Rat} {r : Nat → Bool × Bool} {pos : Clip → Nat → Nat} (hP : P.env1 g = realEnv rnd r pos)
  (hpos : PosOk (realEnv rnd r pos))

include hP in
/-- The parts of a run of `execute` that has ended. -/
theorem exec_parts {c : Clipper G} (hc : c.ran = false) (hsm : c.samples = []) (hnn : c.nodes = 1) (hrg : c.rgen = g) (hg : Good c.pts)
    {op : BoolOp} {log : List TCall} {fuel : Nat} {st : Clipper G × List TCall} {o : Output}
    (h : Clipper.execute P fuel op false (c, log) = .ok (st, o)) :
    ∃ f s rs w gf, Clip.Reach (realEnv rnd r pos) (lpOf c.pts) c.pts.length f ∧ f.q.more = false ∧ Clip.Reach2 (P.env2 g) op f s rs ∧ s.q.more = false ∧
      Loops.doOp (fun i => opOf (s.lp i)) s.np (rs.map Prod.fst) = some (w, gf) ∧
      st.1.pts = (List.range w.np).map (fun i => ⟨(w.lp i).data, gf.next i, (s.lp i).set, (w.lp i).st⟩) ∧ st.1.loopsOut = gf.loops ∧
      st.2 = log ++ f.log.map (fun p => .between p.1 p.2) ++ w.merges.map (fun p => .merge p.1 p.2) ∧
      o = ⟨gf.loops.map (loopPts w gf), none⟩ := by
  have hok := realEnv_ok rnd r pos
  obtain ⟨k0, hk0, -⟩ := start_inv hg.loops
  unfold Clipper.execute at h
  simp only [hc, Bool.false_eq_true, if_false] at h
  unfold Clipper.doOp at h
  simp only [hc, Bool.false_eq_true, if_false] at h
  have hclip : ∀ ev : Events.Queue, ∀ st en vi orp lo tp, ev = Events.Queue.empty → (⟨c.pts, c.samples, ev, c.nodes, st, en, vi, orp, c.rgen, c.nextOrig, true, lo, tp⟩ : Clipper G).clip =
      Clip.start (lpOf c.pts) c.pts.length := by
    rintro ev st en vi orp lo tp rfl
    unfold Clipper.clip Clip.start
    dsimp only
    rw [hnn]; rfl
  rw [hclip _ _ _ _ _ _ _ rfl] at h
  have hnp : (Clip.start (lpOf c.pts) c.pts.length).np = c.pts.length := rfl
  rw [hnp, hk0] at h
  simp only [Out.of, Out.bind] at h
  rw [hrg, hP] at h
  rcases sweep1_cases hok hg.loops (.init hk0) fuel with h1 | ⟨f, h1, hr, hm⟩
  · rw [h1] at h; simp at h
  · rw [h1] at h
    simp only at h
    rw [hsm] at h
    obtain ⟨N2, s, o2, hs, hsm', hso⟩ := Ends.C51_second hok hg.loops hr hm (Clip.Reach2.init (env := P.env2 g) (op := op))
    by_cases h2 : sweep2 (P.env2 g) op fuel { f with q := f.q.rewind, sweep := [] } [] = .fuel
    · rw [h2] at h; simp at h
    · have := sweep2_stable rfl h2 (Nat.le_max_left fuel N2)
      rw [← this, hso _ (Nat.le_max_right fuel N2)] at h
      simp only at h
      unfold joinLoops at h
      rw [if_neg (by simp)] at h
      cases hw1 : Work.followAll ⟨fun i => opOf (s.lp i), s.np, fun _ => [], [], fun _ => [], [], []⟩ (o2.map Prod.fst) with
      | none => rw [hw1] at h; simp at h
      | some w1 =>
        rw [hw1, Option.bind_some] at h
        cases hw2 : w1.reconnect with
        | none => rw [hw2] at h; simp at h
        | some w =>
          rw [hw2, Option.bind_some] at h
          cases hgf : w.findLoops with
          | none => rw [hgf] at h; simp at h
          | some gf =>
            rw [hgf, Option.map_some] at h
            simp only [Out.ok.injEq, Prod.mk.injEq] at h
            obtain ⟨rfl, e3⟩ := h
            refine ⟨f, s, o2, w, gf, hr, hm, hs, hsm', ?_, ?_, ?_, ?_, e3.symm⟩
            · unfold Loops.doOp Work.init
              rw [hw1, Option.bind_some, hw2, Option.bind_some, hgf]; rfl
            · rfl
            · rfl
            · rfl

/-! ### Merged along a path -/

theorem merged_path {nums : List Nat} {R : Nat → Nat → Prop} : ∀ (M : List (Nat × Nat)) (s : Spec), (∀ m ∈ M, R m.1 m.2) →
    (∀ k x, x ∈ s.sets k → ∃ i : Nat, nums[i]? = some x ∧ Relation.ReflTransGen R i k) →
    ∀ k x, x ∈ ((mergeCalls M).foldl Spec.step s).sets k → ∃ i : Nat, nums[i]? = some x ∧ Relation.ReflTransGen R i k
  | [], _, _, h => h
  | m :: M, s, hM, h => by
    refine merged_path M (s.step (.merge m.1 m.2)) (fun a ha => hM a (List.mem_cons_of_mem _ ha)) fun k x hx => ?_
    simp only [Spec.step] at hx
    split at hx
    · rename_i c
      rcases hx with hx | hx
      · exact c ▸ h _ x hx
      · obtain ⟨i, h1, h2⟩ := h _ x hx
        exact ⟨i, h1, c ▸ h2.tail (hM m List.mem_cons_self)⟩
    · exact h k x hx

def homeStep (ps : List Poly) (h : List Nat) (c : TCall) : List Nat := match c with
  | .added x => h ++ [polyOf ps x.toNat]
  | .between a _ => h ++ [h.getD a 0]
  | .merge _ _ => h

theorem homes_added (ps : List Poly) : ∀ (nums h : List Nat), (nums.map fun x : Nat => TCall.added (x : Int)).foldl (homeStep ps) h = h ++ nums.map (polyOf ps)
  | [], h => by simp
  | x :: nums, h => by
    rw [List.map_cons, List.foldl_cons, homes_added ps nums]
    simp [homeStep]

theorem homes_merge (ps : List Poly) : ∀ (M : List (Nat × Nat)) (h : List Nat), (M.map fun p => TCall.merge p.1 p.2).foldl (homeStep ps) h = h
  | [], h => rfl
  | m :: M, h => homes_merge ps M h

theorem homes_split (ps : List Poly) {f g : Nat → Nat} {n m : Nat} {l : List (Nat × Nat)} (h : Splits f n l g m) (hf : ∀ i < n, f i < n) {H : List Nat}
    (hH : H.length = n) (hn : ∀ i < n, H.getD (f i) 0 = H.getD i 0) :
    ((l.map fun p => TCall.between p.1 p.2).foldl (homeStep ps) H).length = m ∧ (∀ i < m, g i < m) ∧
    ∀ i < m, ((l.map fun p => TCall.between p.1 p.2).foldl (homeStep ps) H).getD (g i) 0 = ((l.map fun p => TCall.between p.1 p.2).foldl (homeStep ps) H).getD i 0 := by
  induction h with
  | nil => exact ⟨hH, hf, hn⟩
  | @snoc l g m a b hs ha hb ih =>
    obtain ⟨i1, i2, i3⟩ := ih
    rw [List.map_append, List.foldl_append]
    generalize (l.map fun p => TCall.between p.1 p.2).foldl (homeStep ps) H = K at *
    show (K ++ [K.getD a 0]).length = m + 1 ∧ (∀ i < m + 1, setFn (setFn g a m) m b i < m + 1) ∧ ∀ i < m + 1, (K ++ [K.getD a 0]).getD _ 0 = (K ++ [K.getD a 0]).getD i 0
    have old : ∀ i < m, (K ++ [K.getD a 0]).getD i 0 = K.getD i 0 := fun i hi => List.getD_append _ _ _ _ (by omega)
    have new : (K ++ [K.getD a 0]).getD m 0 = K.getD a 0 := by
      rw [List.getD_append_right _ _ _ _ (by omega), i1, Nat.sub_self]; rfl
    have hga := i2 a ha
    refine ⟨by rw [List.length_append, i1]; rfl, fun i hi => ?_, fun i hi => ?_⟩
    · unfold setFn
      split
      · omega
      split
      · omega
      · have := i2 i (by omega); omega
    · unfold setFn
      split
      · rename_i c
        rw [c, new, old b (by omega), ← hb, i3 a ha]
      split
      · rename_i c
        rw [c, new, old a ha]
      · have hi' : i < m := by omega
        rw [old _ (i2 i hi'), old i hi', i3 i hi']

theorem onward_skip {h : List Nat} {i : Nat} : ∀ {L rest : List TCall} {done : List Nat}, (∀ c ∈ L, ∀ a b, c ≠ .merge a b) →
    Onward h i done (L ++ rest) → Onward h i done rest
  | [], _, _, _, ho => ho
  | .merge a b :: L, _, _, hL, _ => absurd rfl (hL _ List.mem_cons_self a b)
  | .added _ :: L, _, _, hL, ho => onward_skip (L := L) (fun c hc => hL c (List.mem_cons_of_mem _ hc)) ho
  | .between _ _ :: L, _, _, hL, ho => onward_skip (L := L) (fun c hc => hL c (List.mem_cons_of_mem _ hc)) ho

theorem onward_merge {h : List Nat} {i : Nat} : ∀ {M : List (Nat × Nat)} {done : List Nat}, Onward h i done (M.map fun p => .merge p.1 p.2) →
    ∀ M1 f d M2, M = M1 ++ (f, d) :: M2 → h[f]? = some i → d ∉ done ∧ d ∉ M1.map Prod.fst
  | [], _, _, M1, f, d, M2, e, _ => by simp at e
  | m :: M, done, ho, [], f, d, M2, e, hf => by
    rw [List.nil_append, List.cons.injEq] at e
    obtain ⟨rfl, -⟩ := e
    exact ⟨ho.1 hf, by simp⟩
  | m :: M, done, ho, n :: M1, f, d, M2, e, hf => by
    rw [List.cons_append, List.cons.injEq] at e
    obtain ⟨rfl, e⟩ := e
    obtain ⟨q1, q2⟩ := onward_merge ho.2 M1 f d M2 e hf
    rw [List.mem_cons, not_or] at q1
    exact ⟨q1.2, by rw [List.map_cons, List.mem_cons, not_or]; exact ⟨q1.1, q2⟩⟩

include hP hpos in
/-- What is read after `execute` if all polygons were added with a tracker. -/
theorem exec_origins {c : Clipper G} (hc : c.ran = false) (hsm : c.samples = []) (hnn : c.nodes = 1) (hrg : c.rgen = g) (hg : Good c.pts)
    (hR : ∀ f, Clip.Reach (realEnv rnd r pos) (lpOf c.pts) c.pts.length f → RangeOk c.pts.length f) {ps : List Poly} {nums : List Nat}
    (hnl : nums.length = c.pts.length) (hnd : nums.Nodup) (hna : ∀ k x : Nat, nums[k]? = some x → (ps.flatMap Poly.pts)[x]? = some (lpOf c.pts k).data)
    (hho : ∀ i < c.pts.length, (nums.map (polyOf ps)).getD (lpOf c.pts i).next 0 = (nums.map (polyOf ps)).getD i 0)
    {op : BoolOp} {fuel : Nat} {st : Clipper G × List TCall} {o : Output}
    (h : Clipper.execute P fuel op false (c, nums.map fun x : Nat => .added (x : Int)) = .ok (st, o)) :
    ∃ t V, trackAll [] (st.2.map toCall) = some t ∧ st.1.loopsOut.mapM (visit st.1.pts t) = some V ∧ o = ⟨V.map (·.map Visited.data), none⟩ ∧
      (∀ l ∈ V, ∀ v ∈ l, Traced ps st.2 v) ∧ Once V ∧ (op ≠ .difference → ∀ i, Onward (homes ps st.2) i [] st.2 → Reported ps st.2 V i) := by
  obtain ⟨f, s, rs, w, gf, hr, hm, hs, hsm', e1, e2, e3, e4, rfl⟩ := exec_parts hP hc hsm hnn hrg hg h
  have hok := realEnv_ok rnd r pos
  have hsound := realEnv_sound rnd r pos
  have hp := planar_end hsound hpos hg.loops hr hm (hR f hr)
  have hM := marks_end hsound hpos hg.loops hr hm (hR f hr)
  obtain ⟨k1, k2, k3, k4, -, k5⟩ := out_merges hok hg.loops hr hm hg.unset hg.check hp hM hs hsm' e1
  obtain ⟨r1, ⟨D, r2, r3⟩, r4⟩ := out_returned hok hg.loops hr hm hg.unset hg.check hp hM hs hsm' e1
  obtain ⟨hspl, hlen⟩ := C26_splits hok hg.loops hr
  obtain ⟨hinv, href, -⟩ := reach_spec hok hg.loops hr
  have hlo := hinv.1.toLoops
  have hcalls : st.2.map toCall = pushes nums f.log ++ mergeCalls w.merges := by
    rw [e4]
    unfold pushes mergeCalls
    simp only [List.map_append, List.map_map]
    congr 2
  rw [hlen, ← hnl] at k4
  obtain ⟨t, ht, hK⟩ := flow (K := fun k => k ∈ gf.loops.flatMap gf.ring) k4 (by rw [hnl, ← hlen]; exact hlo.next_inj) (fun k hk => by
    refine ⟨by rw [hnl, ← hlen]; exact k3 k hk, fun hkm => ⟨hnd, fun M1 d M2 e => ?_⟩⟩
    have := (k5 k hk hkm).2 M1 d M2 e
    rw [hnl]; exact this)
  -- the points read
  have hK' : ∀ k, ∃ og, k ∈ gf.loops.flatMap gf.ring → origins t k = some og ∧ og.Pairwise (· < ·) ∧
        (∀ x, x ∈ og ↔ x ∈ ((pushes nums f.log ++ mergeCalls w.merges).foldl Spec.step Spec.init).sets k) ∧
        (∀ x, nums[k]? = some x → x ∈ og) ∧ ∀ x ∈ og, x ∈ nums := by
    intro k
    by_cases c : k ∈ gf.loops.flatMap gf.ring
    · obtain ⟨og, hog⟩ := hK k c
      exact ⟨og, fun _ => hog⟩
    · exact ⟨[], fun h => absurd h c⟩
  choose og hog using hK'
  set VV : Nat × Nat → List Visited := fun l => (List.range l.2).map fun m => ⟨gf.next^[m] l.1, (w.lp (gf.next^[m] l.1)).data, og (gf.next^[m] l.1)⟩ with hVV
  have hvis : ∀ l ∈ gf.loops, visit st.1.pts t l = some (VV l) := by
    intro l hl
    refine visitFrom_some (dat := fun k => (w.lp k).data) (org := og) l.2 l.1 l.2 le_rfl fun m hm => ?_
    have hin : gf.next^[m] l.1 ∈ gf.loops.flatMap gf.ring :=
      List.mem_flatMap.mpr ⟨l, hl, List.mem_map.mpr ⟨m, List.mem_range.mpr hm, rfl⟩⟩
    have hlt : gf.next^[m] l.1 < w.np := by rw [k1]; exact k3 _ hin
    refine ⟨⟨(w.lp (gf.next^[m] l.1)).data, gf.next (gf.next^[m] l.1), (s.lp (gf.next^[m] l.1)).set, (w.lp (gf.next^[m] l.1)).st⟩, ?_, rfl, rfl, (hog _ hin).1⟩
    rw [e2, List.getElem?_map, List.getElem?_range hlt]; rfl
  have hH : homes ps st.2 = (f.log.map fun p => TCall.between p.1 p.2).foldl (homeStep ps) (nums.map (polyOf ps)) := by
    show st.2.foldl (homeStep ps) [] = _
    rw [e4, List.foldl_append, List.foldl_append, homes_merge, homes_added, List.nil_append]
  obtain ⟨hh1, hh2, hh3⟩ := homes_split ps hspl hg.loops.next_lt (H := nums.map (polyOf ps)) (by rw [List.length_map, hnl]) hho
  rw [← hH] at hh1 hh3
  have home0 : ∀ i x : Nat, nums[i]? = some x → (homes ps st.2).getD i 0 = polyOf ps x := by
    intro i x hi
    have hil : i < nums.length := (List.getElem?_eq_some_iff.mp hi).1
    have pre : ∀ (L : List (Nat × Nat)) (H : List Nat), H.getD i 0 = polyOf ps x → i < H.length →
        ((L.map fun p => TCall.between p.1 p.2).foldl (homeStep ps) H).getD i 0 = polyOf ps x := by
      intro L
      induction L with
      | nil => intro H h _; exact h
      | cons a L ih =>
        intro H h hl
        refine ih (H ++ [H.getD a.1 0]) ?_ ?_
        · rw [List.getD_append _ _ _ _ hl]; exact h
        · rw [List.length_append]; omega
    rw [hH]
    refine pre _ _ ?_ (by rw [List.length_map]; exact hil)
    rw [List.getD_eq_getElem?_getD, List.getElem?_map, hi]; rfl
  have homeD : ∀ k, k < f.np → (homes ps st.2)[k]? = some ((homes ps st.2).getD k 0) := by
    intro k hk
    have hkl : k < (homes ps st.2).length := by rw [hh1]; exact hk
    rw [List.getElem?_eq_getElem hkl, List.getD_eq_getElem _ _ hkl]
  obtain ⟨u1, u0, us⟩ := foldl_pushes nums f.log
  obtain ⟨-, -, uu, -⟩ := (Fl.start nums f.log fun i => (f.lp i).next).merges k4 (fun m _ => u0 m.1)
  refine ⟨t, gf.loops.map VV, by rw [hcalls]; exact ht, ?_, ?_, ?_, ?_, ?_⟩
  · rw [e3]
    have : ∀ L : List (Nat × Nat), (∀ l ∈ L, visit st.1.pts t l = some (VV l)) → L.mapM (visit st.1.pts t) = some (L.map VV) := by
      intro L
      induction L with
      | nil => intro _; rfl
      | cons a L ih =>
        intro hL
        rw [List.mapM_cons, hL a List.mem_cons_self, ih fun l hl => hL l (List.mem_cons_of_mem _ hl)]
        rfl
    exact this _ hvis
  · rw [List.map_map]
    congr 1
    apply List.map_congr_left
    intro l _
    rw [hVV]
    simp only [Function.comp, List.map_map, loopPts]
    rfl
  · intro L hL v hv
    obtain ⟨l, hl, rfl⟩ := List.mem_map.mp hL
    obtain ⟨m, hmr, rfl⟩ := List.mem_map.mp hv
    have hin : gf.next^[m] l.1 ∈ gf.loops.flatMap gf.ring :=
      List.mem_flatMap.mpr ⟨l, hl, List.mem_map.mpr ⟨m, hmr, rfl⟩⟩
    generalize gf.next^[m] l.1 = k at hin hv
    obtain ⟨-, p1, p2, p3, p4⟩ := hog k hin
    have hkf := k3 k hin
    refine ⟨p1, by rw [hcalls]; exact p2, fun x hx => ?_, fun x hx => ?_⟩
    · dsimp only at hx ⊢
      obtain ⟨j, hj⟩ := List.mem_iff_getElem?.mp (p4 x hx)
      refine ⟨(List.getElem?_eq_some_iff.mp (hna j x hj)).1, ?_⟩
      have hmem := (p2 x).mp hx
      rw [List.foldl_append] at hmem
      obtain ⟨i, hi, hpath⟩ := merged_path (nums := nums) (R := fun a b => a < f.np ∧ b = (f.lp a).next) w.merges _
        (fun m hm => ⟨by rw [hlen, ← hnl]; exact (k4.lt m hm).1, k4.next m hm⟩)
        (fun k x hx => by
          rw [(foldl_pushes nums f.log).2.2] at hx
          exact ⟨k, hx, .refl⟩) k x hmem
      have hil : i < nums.length := (List.getElem?_eq_some_iff.mp hi).1
      have hsame : (homes ps st.2).getD k 0 = (homes ps st.2).getD i 0 := by
        clear hmem hx hin hkf p1 p2 p3 p4 hv
        induction hpath with
        | refl => rfl
        | tail _ hR ih =>
          rw [← ih, hR.2]
          exact hh3 _ hR.1
      rw [homeD k hkf, hsame, home0 i x hi]
    · dsimp only at hx ⊢
      have hx' : nums[k]? = some x.toNat := by
        rw [e4, List.append_assoc] at hx
        by_cases c : k < nums.length
        · rw [List.getElem?_append_left (by rw [List.length_map]; exact c), List.getElem?_map, Option.map_eq_some_iff] at hx
          obtain ⟨y, hy, hy'⟩ := hx
          cases hy'
          exact hy
        · exfalso
          rw [List.getElem?_append_right (by rw [List.length_map]; omega)] at hx
          have := List.mem_of_getElem? hx
          simp at this
      refine ⟨p3 _ hx', ?_⟩
      have hkl : k < c.pts.length := by rw [← hnl]; exact (List.getElem?_eq_some_iff.mp hx').1
      rw [hna k _ hx', k2 k hkf, href.data k hkl]
  · -- each number once
    unfold Once
    have e : (gf.loops.map VV).flatten.flatMap Visited.origins = (gf.loops.flatMap gf.ring).flatMap og := by
      rw [← List.flatMap_def, List.flatMap_assoc, List.flatMap_assoc]
      apply List.flatMap_congr
      intro l _
      rw [hVV]
      unfold Found.ring
      simp only [List.flatMap_map]
    rw [e, List.nodup_flatMap]
    refine ⟨fun k hk => (hog k hk).2.1.imp fun h => Nat.ne_of_lt h, r1.imp_of_mem fun {k k'} hk hk' hne => ?_⟩
    intro x hx hx'
    refine hne ?_
    have h1 := ((hog k hk).2.2.1 x).mp hx
    have h2 := ((hog k' hk').2.2.1 x).mp hx'
    rw [List.foldl_append] at h1 h2
    refine merge_once (R := fun k => k ∈ gf.loops.flatMap gf.ring) (D := D) w.merges _ k4.nodup (fun m _ => u0 m.1) r3 ?_ x k k' ⟨hk, r2 k hk⟩ ⟨hk', r2 k' hk'⟩ h1 h2
    intro x k k' _ _ hx hx'
    rw [us] at hx hx'
    obtain ⟨li, ei⟩ := List.getElem?_eq_some_iff.mp hx
    obtain ⟨lj, ej⟩ := List.getElem?_eq_some_iff.mp hx'
    exact (List.Nodup.getElem_inj_iff hnd).mp (ei.trans ej.symm)
  · intro hop i hon x hx hxi
    rw [e4, List.append_assoc] at hx
    have hxn : x.toNat ∈ nums := by
      rcases List.mem_append.mp hx with hx | hx
      · obtain ⟨y, hy, e⟩ := List.mem_map.mp hx
        cases e
        exact hy
      · simp at hx
    obtain ⟨j, hj⟩ := List.mem_iff_getElem?.mp hxn
    have hjl : j < f.np := by rw [hlen, ← hnl]; have := (List.getElem?_eq_some_iff.mp hj).1; omega
    have hon' : Onward (homes ps st.2) i [] (w.merges.map fun p => .merge p.1 p.2) := by
      rw [e4] at hon ⊢
      refine onward_skip ?_ hon
      intro c hc a b e
      subst e
      simp at hc
    obtain ⟨k, q1, q2, q3⟩ := merge_kept (S := fun k => (homes ps st.2)[k]? = some i) (x := x.toNat) w.merges ((pushes nums f.log).foldl Spec.step Spec.init)
      (fun M1 a b M2 e hSa => by
        have hmem : (a, b) ∈ w.merges := by rw [e]; simp
        have hal : a < f.np := by rw [hlen, ← hnl]; exact (k4.lt _ hmem).1
        have hbl : b < f.np := by rw [hlen, ← hnl]; exact (k4.lt _ hmem).2
        have hbn : b = (f.lp a).next := k4.next _ hmem
        refine ⟨?_, (k4.ne _ hmem).symm, u0 b, (onward_merge hon' M1 a b M2 e hSa).2⟩
        rw [homeD b hbl, ← hSa, homeD a hal, hbn]
        exact congrArg some (hh3 a hal))
      ⟨j, by rw [homeD j hjl, home0 j _ hj, hxi], by rw [us]; exact hj, u0 j⟩
    have hkf : k < f.np := by rw [← hh1]; exact (List.getElem?_eq_some_iff.mp q1).1
    have hkr : k ∈ gf.loops.flatMap gf.ring := by
      rcases r4 hop k hkf with h | h
      · exact h
      · exact absurd ((uu k).mpr (.inl h)) q3
    obtain ⟨l, hl, hkl⟩ := List.mem_flatMap.mp hkr
    obtain ⟨m, hmr, rfl⟩ := List.mem_map.mp hkl
    refine ⟨VV l, List.mem_map.mpr ⟨l, hl, rfl⟩, _, List.mem_map.mpr ⟨m, hmr, rfl⟩, ?_⟩
    refine ((hog _ hkr).2.2.1 _).mpr ?_
    rw [List.foldl_append]
    exact q2

end

theorem onward_none {h : List Nat} {i : Nat} : ∀ {L : List TCall} {done : List Nat}, (∀ a b, .merge a b ∉ L) → Onward h i done L
  | [], _, _ => trivial
  | .merge a b :: _, _, hL => absurd List.mem_cons_self (hL a b)
  | .added _ :: L, done, hL => onward_none (L := L) (done := done) fun a b hm => hL a b (List.mem_cons_of_mem _ hm)
  | .between _ _ :: L, done, hL => onward_none (L := L) (done := done) fun a b hm => hL a b (List.mem_cons_of_mem _ hm)

/-! ### C64 -/

section
variable {G : Type} {P : Params G} {rnd : Rat → Rat} {r : Nat → Bool × Bool} {pos : Clip → Nat → Nat} {c : Clipper G} (hP : P.env1 c.rgen = realEnv rnd r pos)
  (hpos : PosOk (realEnv rnd r pos)) (hc : Empty c) (h0 : c.nextOrig = 0)

/-- After polygons were added with a tracker and an operation was run: the tracker got the calls without error, the loops can be read with
it, the points read are those of the output, and their origins are as they should be. -/
structure Read {G : Type} (ps : List Poly) (st : Clipper G × List TCall) (out : List (List Pt)) (t : List MSet) (V : List (List Visited)) : Prop where
  calls : trackAll [] (st.2.map toCall) = some t
  read : st.1.loopsOut.mapM (visit st.1.pts t) = some V
  data : V.map (·.map Visited.data) = out
  traced : ∀ l ∈ V, ∀ v ∈ l, Traced ps st.2 v

include hP hpos hc h0 in
theorem run_origins {ps : List Poly} (hf : Fine none ps) (ht : ∀ p ∈ ps, p.track = true)
    (hR : ∀ f, Clip.Reach (realEnv rnd r pos) (lpOf (store [] ps)) (store [] ps).length f → RangeOk (store [] ps).length f) {op : BoolOp} {fuel : Nat}
    {st : Clipper G × List TCall} {outs : List (Option Output)} (h : run P fuel (ps.map Poly.cmd ++ [.exec op false]) (c, []) = .ok (st, outs)) :
    ∃ out t V, outs = List.replicate ps.length none ++ [some ⟨out, none⟩] ∧ Read ps st out t V ∧ Once V ∧
      (op ≠ .difference → ∀ i, Onward (homes ps st.2) i [] st.2 → Reported ps st.2 V i) ∧ (op = .normalize → ∀ a b, .merge a b ∉ st.2) := by
  obtain ⟨h1, h2, h3, h4⟩ := hc
  rw [run_tracked P ps c 0 [] h1 h0 ht (by rw [h2]; exact hf), h2, List.nil_append] at h
  change ((((Clipper.execute P fuel op false _).bind _).bind _).bind _) = _ at h
  cases he : Clipper.execute P fuel op false ({ c with pts := store [] ps, nextOrig := ((0 + (ps.flatMap Poly.pts).length : Nat) : Int) },
      (numsOf 0 ps).map fun x : Nat => .added (x : Int)) with
  | fuel => rw [he] at h; simp [Out.bind] at h
  | bad => rw [he] at h; simp [Out.bind] at h
  | ok q =>
    rw [he] at h
    obtain ⟨st', o⟩ := q
    have hlen := store_len ps 0 []
    rw [List.length_nil, Nat.zero_add] at hlen
    have hnums := fun (j x : Nat) => store_nums ps 0 [] j x
    simp only [List.length_nil, Nat.zero_add, Nat.sub_zero] at hnums
    obtain ⟨t, V, q1, q2, q3, q4, q5, q6⟩ := exec_origins (c := { c with pts := store [] ps, nextOrig := ((0 + (ps.flatMap Poly.pts).length : Nat) : Int) })
      hP hpos h1 h3 h4 rfl (good_store ps good_nil) hR (ps := ps) (nums := numsOf 0 ps) hlen.symm ((numsOf_lt ps 0).1.imp fun h => Nat.ne_of_lt h)
      (fun k x hk => (hnums k x hk).1) (fun i hi => by
        dsimp only at hi ⊢
        have hi' : i < (numsOf 0 ps).length := by rw [← hlen]; exact hi
        obtain ⟨-, j', x', e1, e2, e3⟩ := hnums i _ (List.getElem?_eq_getElem hi')
        rw [e1, List.getD_eq_getElem?_getD, List.getD_eq_getElem?_getD, List.getElem?_map, List.getElem?_map, e2, List.getElem?_eq_getElem hi']
        simp only [Option.map_some, Option.getD_some]
        exact e3) he
    have e : outs = List.replicate ps.length none ++ [some o] ∧ st = st' := by
      change Out.ok (st', List.replicate ps.length none ++ [some o]) = Out.ok (st, outs) at h
      simp only [Out.ok.injEq, Prod.mk.injEq] at h
      exact ⟨h.2.symm, h.1.symm⟩
    obtain ⟨rfl, rfl⟩ := e
    refine ⟨_, t, V, by rw [q3], ⟨q1, q2, rfl, q4⟩, q5, q6, ?_⟩
    rintro rfl a b hab
    have hg := good_store ps good_nil
    have hok := realEnv_ok rnd r pos
    have hsound := realEnv_sound rnd r pos
    obtain ⟨f, s, rs, w, gf, hr, hm, hs, hsm', e1, -, -, e4, -⟩ := exec_parts (c := { c with pts := store [] ps, nextOrig := ((0 + (ps.flatMap Poly.pts).length : Nat) : Int) }) hP h1 h3 h4 rfl hg he
    obtain ⟨-, -, -, -, k5, -⟩ := out_merges hok hg.loops hr hm hg.unset hg.check (planar_end hsound hpos hg.loops hr hm (hR f hr))
      (marks_end hsound hpos hg.loops hr hm (hR f hr)) hs hsm' e1
    rw [e4] at hab
    have hab : (a, b) ∈ w.merges := by simpa using hab
    have := k5 _ hab
    unfold cls lbResult at this
    dsimp only at this
    split at this <;> cases this

end

section
variable {G : Type} {P : Params G} {r : Nat → Bool × Bool} {pos : Clip → Nat → Nat} {c : Clipper G} (hP : P.env1 c.rgen = realEnv id r pos)
  (hpos : PosOk (realEnv id r pos)) (hc : Empty c) (h0 : c.nextOrig = 0) {ps : List Poly} (hf : Fine none ps) (ht : ∀ p ∈ ps, p.track = true)

include hP hpos hc h0 hf ht in
theorem exact_origins (op : BoolOp) : ∃ N st out t V, (∀ fuel ≥ N, run P fuel (ps.map Poly.cmd ++ [.exec op false]) (c, []) =
      .ok (st, List.replicate ps.length none ++ [some ⟨out, none⟩])) ∧ Read ps st out t V ∧ Once V ∧
      (op ≠ .difference → ∀ i, Onward (homes ps st.2) i [] st.2 → Reported ps st.2 V i) ∧ (op = .normalize → ∀ a b, .merge a b ∉ st.2) := by
  obtain ⟨B, -, -, h⟩ := C52_execute hP hpos hc hf
  obtain ⟨N, st, out, h1, -⟩ := h op []
  obtain ⟨out', t, V, e, hr⟩ := run_origins hP hpos hc h0 hf ht
    (fun f hr => reach_range (realEnv_ok id r pos) (realEnv_range r pos) (good_store ps good_nil).loops hr) (h1 N le_rfl)
  simp only [List.append_cancel_left_eq, List.cons.injEq, Option.some.injEq, Output.mk.injEq, and_true] at e
  subst e
  exact ⟨N, st, out, t, V, h1, hr⟩

include hP hpos hc h0 hf ht in
/-- **C64 (origins).** Polygons are added to an empty clipper, all with an origin tracker, and an operation is run with exact numbers; this
ends without error. When the loops returned are then read with the tracker, the points are those of the output, and the origins of each
point are exactly the numbers that the tracker was told to bring to it, each once and in increasing order. They are numbers of vertices of
the polygon on whose boundary the point is, and if the point is an input vertex, its own number is one of them. -/
theorem C64_origins (op : BoolOp) : ∃ N st out t V, (∀ fuel ≥ N, run P fuel (ps.map Poly.cmd ++ [.exec op false]) (c, []) =
      .ok (st, List.replicate ps.length none ++ [some ⟨out, none⟩])) ∧ Read ps st out t V := by
  obtain ⟨N, st, out, t, V, h1, h2, -⟩ := exact_origins hP hpos hc h0 hf ht op
  exact ⟨N, st, out, t, V, h1, h2⟩

include hP hpos hc h0 hf ht in
/-- **C65 (no number twice).** Each vertex number is an origin of at most one point of the result. -/
theorem C65_once (op : BoolOp) : ∃ N st out t V, (∀ fuel ≥ N, run P fuel (ps.map Poly.cmd ++ [.exec op false]) (c, []) =
      .ok (st, List.replicate ps.length none ++ [some ⟨out, none⟩])) ∧ Read ps st out t V ∧ Once V := by
  obtain ⟨N, st, out, t, V, h1, h2, h3, -⟩ := exact_origins hP hpos hc h0 hf ht op
  exact ⟨N, st, out, t, V, h1, h2, h3⟩

include hP hpos hc h0 hf ht in
/-- **C66 (no number lost), partial.** The full claim is that all numbers given to the tracker for a polygon are origins of points
of the result if a part of its boundary is in the result. Proved: this is so for operations other than differences if no merge of points of the polygon goes to a point that
was merged before. That is what `i_point_tracker::point_merge` promises ("Discarded points are never referenced again"), but not what the
code does (`C66_lost`, `C66_again`). -/
theorem C66_kept_partial {op : BoolOp} (hop : op ≠ .difference) : ∃ N st out t V, (∀ fuel ≥ N, run P fuel (ps.map Poly.cmd ++ [.exec op false]) (c, []) =
      .ok (st, List.replicate ps.length none ++ [some ⟨out, none⟩])) ∧ Read ps st out t V ∧
      ∀ i, Onward (homes ps st.2) i [] st.2 → Reported ps st.2 V i := by
  obtain ⟨N, st, out, t, V, h1, h2, -, h3, -⟩ := exact_origins hP hpos hc h0 hf ht op
  exact ⟨N, st, out, t, V, h1, h2, h3 hop⟩

include hP hpos hc h0 hf ht in
/-- **C66 (normalize).** For `normalize` no number is lost: all numbers given to the tracker are origins of points of the result, of one point each. -/
theorem C66_normalize : ∃ N st out t V, (∀ fuel ≥ N, run P fuel (ps.map Poly.cmd ++ [.exec .normalize false]) (c, []) =
      .ok (st, List.replicate ps.length none ++ [some ⟨out, none⟩])) ∧ Read ps st out t V ∧ Once V ∧ (∀ a b, .merge a b ∉ st.2) ∧ ∀ i, Reported ps st.2 V i := by
  obtain ⟨N, st, out, t, V, h1, h2, h3, h4, h5⟩ := exact_origins hP hpos hc h0 hf ht .normalize
  exact ⟨N, st, out, t, V, h1, h2, h3, h5 rfl, fun i => h4 (by decide) i (onward_none (h5 rfl))⟩

end

section
variable {G : Type} {P : Params G} {rnd : Rat → Rat} {ε : Rat} {M : Int} {r : Nat → Bool × Bool} {pos : Clip → Nat → Nat} {c : Clipper G}
  (hA : Arith rnd ε M) (hP : P.env1 c.rgen = realEnv rnd r pos) (hpos : PosOk (realEnv rnd r pos)) (hc : Empty c) (h0 : c.nextOrig = 0)
  {o : Pt} {ps : List Poly} (hf : Fine none ps) (ht : ∀ p ∈ ps, p.track = true) (hsq : ∀ p ∈ ps, ∀ v ∈ p.pts, InSq o M v)

include hA hP hpos hc h0 hf ht hsq in
/-- **C64, C65, C66 (inexact arithmetic).** The same with numbers that are rounded, for polygons in a square, whenever the operation returns. -/
theorem C64_near (op : BoolOp) (fuel : Nat) :
    run P fuel (ps.map Poly.cmd ++ [.exec op false]) (c, []) = .fuel ∨
      ∃ st out t V, run P fuel (ps.map Poly.cmd ++ [.exec op false]) (c, []) = .ok (st, List.replicate ps.length none ++ [some ⟨out, none⟩]) ∧
        Read ps st out t V ∧ Once V ∧ (op ≠ .difference → ∀ i, Onward (homes ps st.2) i [] st.2 → Reported ps st.2 V i) ∧
        (op = .normalize → ∀ i, Reported ps st.2 V i) := by
  obtain ⟨B, -, -, hB⟩ := C59_near hA hP hpos hc hf hsq
  rcases hB op [] fuel with h | ⟨st, out, h, -⟩
  · exact .inl h
  · right
    have hg := good_store ps good_nil
    obtain ⟨out', t, V, e, hr⟩ := run_origins hP hpos hc h0 hf ht (fun f hr => near_range hA o hpos hg.loops (fun i hi => by
      have : ((lpOf (store [] ps) i).set, (lpOf (store [] ps) i).data, (lpOf (store [] ps) (lpOf (store [] ps) i).next).data) ∈ linesOf (store [] ps) := by
        refine List.mem_map.mpr ⟨lpOf (store [] ps) i, ?_, rfl⟩
        unfold lpOf
        rw [List.getD_eq_getElem _ _ hi]
        exact List.getElem_mem hi
      have hl : linesOf (store [] ps) = inEdges ps := lines_store ps good_nil
      rw [hl] at this
      obtain ⟨p, hp, -, h⟩ := inEdges_mem this
      exact hsq p hp _ (edges_mem h).1) hr) h
    simp only [List.append_cancel_left_eq, List.cons.injEq, Option.some.injEq, Output.mk.injEq, and_true] at e
    subst e
    obtain ⟨q1, q2, q3, q4⟩ := hr
    exact ⟨st, out, t, V, h, q1, q2, q3, fun hop i => q3 (by rw [hop]; decide) i (onward_none (q4 hop))⟩

end

/-! ### Examples -/

/-- What is read: the index, the place and the origins of each point. -/
def readAll {G : Type} (P : Params G) (ps : List Poly) (op : BoolOp) (g : G) : Option (List (List (Nat × Pt × List Nat))) :=
  match run P 100 (ps.map Poly.cmd ++ [.exec op false]) (Clipper.fresh g, []) with
  | .ok (st, _) => (trackAll [] (st.2.map toCall)).bind fun t => (st.1.loopsOut.mapM (visit st.1.pts t)).map (·.map (·.map fun v => (v.idx, v.data, v.origins)))
  | _ => none

/-- Two squares that overlap. -/
def tracked : List Poly := [⟨.subject, true, [⟨0, 0⟩, ⟨4, 0⟩, ⟨4, 4⟩, ⟨0, 4⟩]⟩, ⟨.clip, true, [⟨2, 2⟩, ⟨6, 2⟩, ⟨6, 6⟩, ⟨2, 6⟩]⟩]

/-- The hypotheses of `C64_origins` are met. -/
example (g : Nat → Bool × Bool) (op : BoolOp) : ∃ N st out t V, (∀ fuel ≥ N, run lib fuel (tracked.map Poly.cmd ++ [.exec op false]) (Clipper.fresh g, []) =
      .ok (st, List.replicate tracked.length none ++ [some ⟨out, none⟩])) ∧ Read tracked st out t V :=
  C64_origins (P := lib) rfl (takeWhile_posOk id g) (fresh_empty g) rfl (by decide +kernel) (by decide +kernel) op

/-- The two crossings get the numbers of the corners that are cut off. -/
example : readAll lib tracked .union gen = some [[(0, ⟨0, 0⟩, [0]), (1, ⟨4, 0⟩, [1]), (11, ⟨4, 2⟩, [4]), (5, ⟨6, 2⟩, [5]), (6, ⟨6, 6⟩, [6]),
    (7, ⟨2, 6⟩, [7]), (9, ⟨2, 4⟩, [2]), (3, ⟨0, 4⟩, [3])]] := by decide +kernel

example : readAll lib tracked .intersection gen = some [[(2, ⟨4, 4⟩, [2]), (8, ⟨2, 4⟩, [7]), (4, ⟨2, 2⟩, [4]), (10, ⟨4, 2⟩, [0, 1, 3])]] := by decide +kernel

/-- `C66_normalize` for the same squares: all eight numbers are reported. -/
example (g : Nat → Bool × Bool) : ∃ N st out t V, (∀ fuel ≥ N, run lib fuel (tracked.map Poly.cmd ++ [.exec .normalize false]) (Clipper.fresh g, []) =
      .ok (st, List.replicate tracked.length none ++ [some ⟨out, none⟩])) ∧ Read tracked st out t V ∧ Once V ∧ (∀ a b, .merge a b ∉ st.2) ∧ ∀ i, Reported tracked st.2 V i :=
  C66_normalize (P := lib) rfl (takeWhile_posOk id g) (fresh_empty g) rfl (by decide +kernel) (by decide +kernel)

/-- The calls a tracker gets. -/
def callsOf {G : Type} (P : Params G) (ps : List Poly) (op : BoolOp) (g : G) : List TCall :=
  match run P 100 (ps.map Poly.cmd ++ [.exec op false]) (Clipper.fresh g, []) with
  | .ok (st, _) => st.2
  | _ => []

/-- The hypothesis of `C66_kept_partial` is met by both squares for the union, where points are merged. -/
example : Onward (homes tracked (callsOf lib tracked .union gen)) 0 [] (callsOf lib tracked .union gen) ∧
    Onward (homes tracked (callsOf lib tracked .union gen)) 1 [] (callsOf lib tracked .union gen) ∧
    (callsOf lib tracked .union gen).drop 8 =
      [.between 7 4, .between 2 3, .between 1 2, .between 4 5, .merge 8 4, .merge 4 11, .merge 10 2, .merge 2 9] := by decide +kernel

/-- **C66 (numbers are lost).** For the intersection of two squares, the corners 5 and 6 of the second one are cut off together with the corner
7, but are origins of no point of the result; the corners 4 and 7 of the same square are. -/
theorem C66_lost : ∃ (ps : List Poly) (op : BoolOp) (g : Nat → Bool × Bool) (V : List (List (Nat × Pt × List Nat))) (x y : Nat), readAll lib ps op g = some V ∧
    op ≠ .difference ∧ .added (x : Int) ∈ callsOf lib ps op g ∧ .added (y : Int) ∈ callsOf lib ps op g ∧ polyOf ps x = polyOf ps y ∧
    (∃ l ∈ V, ∃ v ∈ l, y ∈ v.2.2) ∧ ∀ l ∈ V, ∀ v ∈ l, x ∉ v.2.2 :=
  ⟨tracked, .intersection, gen, [[(2, ⟨4, 4⟩, [2]), (8, ⟨2, 4⟩, [7]), (4, ⟨2, 2⟩, [4]), (10, ⟨4, 2⟩, [0, 1, 3])]], 5, 7, by decide +kernel⟩

/-- **C66 (discarded points are referenced again).** The documentation of `point_merge` says that discarded points are never referenced again. In
the same run, the point 7 is discarded, and the point 6 is merged into it afterwards. -/
theorem C66_again : ∃ (ps : List Poly) (op : BoolOp) (g : Nat → Bool × Bool) (L1 L2 L3 : List TCall) (a b c : Nat),
    callsOf lib ps op g = L1 ++ .merge b c :: L2 ++ .merge a b :: L3 ∧ c ≠ a :=
  ⟨tracked, .intersection, gen, (List.range 8).map (fun n => .added (n : Int)) ++ [.between 7 4, .between 2 3, .between 1 2, .between 4 5, .merge 3 0, .merge 0 1, .merge 1 10],
    [.merge 9 3, .merge 11 5, .merge 5 6], [], 6, 7, 8, by decide +kernel⟩

/-- **C66 (a point that is merged is returned).** For the difference of the squares, the point 11 is the source of a merge, that is, it is to be
discarded; but it is a point of the result. -/
theorem C66_source : ∃ (ps : List Poly) (g : Nat → Bool × Bool) (V : List (List (Nat × Pt × List Nat))) (a b : Nat), readAll lib ps .difference g = some V ∧
    .merge a b ∈ callsOf lib ps .difference g ∧ ∃ l ∈ V, ∃ v ∈ l, v.1 = a :=
  ⟨tracked, gen, [[(0, ⟨0, 0⟩, [0]), (1, ⟨4, 0⟩, [1]), (11, ⟨4, 2⟩, []), (4, ⟨2, 2⟩, [4]), (9, ⟨2, 4⟩, [2]), (3, ⟨0, 4⟩, [3])]], 11, 5, by decide +kernel⟩

end PolyOps.Exec
