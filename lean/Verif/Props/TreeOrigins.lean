import Verif.Lemmas.TreeMerges
import Verif.Props.TreeDouble
import Verif.Props.Origins

/-! C84: origins of the points returned with tree output. -/
namespace PolyOps.Exec
open PolyOps PolyOps.Sweep PolyOps.Region PolyOps.Planarity PolyOps.Loops PolyOps.PointSink PolyOps.Clipper PolyOps.MiniSet PolyOps.Double

/-! ### Specification -/

/-- The numbers that were given to a tracker. -/
def numbers (calls : List TCall) : List Nat := calls.filterMap fun c => match c with
  | .added x => some x.toNat
  | _ => none

/-- After polygons were added with a tracker and an operation was run: the tracker got the calls without error, the loops can be read with
it, the points read are those of the output, each has no origin or just one, which is the number of an input vertex at its place,
and each number given to the tracker is the origin of one point. -/
structure Direct {G : Type} (ps : List Poly) (st : Clipper G × List TCall) (out : List (List Pt)) (t : List MSet) (V : List (List Visited)) : Prop where
  calls : trackAll [] (st.2.map toCall) = some t
  read : st.1.loopsOut.mapM (visit st.1.pts t) = some V
  data : V.map (·.map Visited.data) = out
  own : ∀ l ∈ V, ∀ v ∈ l, v.origins = [] ∨ ∃ x, v.origins = [x] ∧ (ps.flatMap Poly.pts)[x]? = some v.data
  all : (V.flatten.flatMap Visited.origins).Perm (numbers st.2)
  once : (numbers st.2).Nodup

/-! ### One operation -/

section
variable {G : Type} {P : Params G} {g : G} {rnd : Rat → Rat} {r : Nat → Bool × Bool} {pos : Clip → Nat → Nat} (hP : P.env1 g = realEnv rnd r pos)
  (hpos : PosOk (realEnv rnd r pos))

include hP in
/-- The parts of a run of `execute` with tree output that has ended. -/
theorem exec_parts_tree {c : Clipper G} (hc : c.ran = false) (hsm : c.samples = []) (hnn : c.nodes = 1) (hrg : c.rgen = g) (hg : Good c.pts)
    {op : BoolOp} {log : List TCall} {fuel : Nat} {st : Clipper G × List TCall} {o : Output}
    (h : Clipper.execute P fuel op true (c, log) = .ok (st, o)) :
    ∃ f s rs w gf S, Clip.Reach (realEnv rnd r pos) (lpOf c.pts) c.pts.length f ∧ f.q.more = false ∧ Clip.Reach2 (P.env2 g) op f s rs ∧ s.q.more = false ∧
      Loops.doOpTree (fun i => opOf (s.lp i)) s.np rs = some (w, gf, S) ∧
      st.1.pts = (List.range w.np).map (fun i => ⟨(w.lp i).data, gf.next i, (s.lp i).set, (w.lp i).st⟩) ∧ st.1.loopsOut = gf.loops ∧
      st.2 = log ++ f.log.map (fun p => .between p.1 p.2) ++ w.merges.map (fun p => .merge p.1 p.2) ∧
      ∃ T, o = ⟨gf.loops.map (loopPts w gf), some T⟩ := by
  have hok := realEnv_ok rnd r pos
  obtain ⟨k0, hk0, -⟩ := start_inv hg.loops
  unfold Clipper.execute at h
  simp only [hc, Bool.false_eq_true, if_false] at h
  unfold Clipper.doOp at h
  simp only [hc, Bool.false_eq_true, if_false] at h
  have hclip : ∀ ev : Events.Queue, ∀ st en vi orp lo tp, ev = Events.Queue.empty → (⟨c.pts, c.samples, ev, c.nodes, st, en, vi, orp, c.rgen, c.nextOrig, true, lo, tp⟩ : Clipper G).clip =
      Clip.start (lpOf c.pts) c.pts.length := by
    rintro ev st en vi orp lo tp rfl
    unfold Clipper.clip Clip.start
    dsimp only
    rw [hnn]; rfl
  rw [hclip _ _ _ _ _ _ _ rfl] at h
  have hnp : (Clip.start (lpOf c.pts) c.pts.length).np = c.pts.length := rfl
  rw [hnp, hk0] at h
  simp only [Out.of, Out.bind] at h
  rw [hrg, hP] at h
  rcases sweep1_cases hok hg.loops (.init hk0) fuel with h1 | ⟨f, h1, hr, hm⟩
  · rw [h1] at h; simp at h
  · rw [h1] at h
    simp only at h
    rw [hsm] at h
    obtain ⟨N2, s, o2, hs, hsm', hso⟩ := Ends.C51_second hok hg.loops hr hm (Clip.Reach2.init (env := P.env2 g) (op := op))
    by_cases h2 : sweep2 (P.env2 g) op fuel { f with q := f.q.rewind, sweep := [] } [] = .fuel
    · rw [h2] at h; simp at h
    · have := sweep2_stable rfl h2 (Nat.le_max_left fuel N2)
      rw [← this, hso _ (Nat.le_max_right fuel N2)] at h
      simp only at h
      have hj : joinLoops ⟨fun i => opOf (s.lp i), s.np, fun _ => [], [], fun _ => [], [], []⟩ true o2 = doOpTree (fun i => opOf (s.lp i)) s.np o2 := by
        unfold joinLoops
        rw [if_pos rfl]
        rfl
      rw [hj] at h
      cases hd : doOpTree (fun i => opOf (s.lp i)) s.np o2 with
      | none => rw [hd] at h; simp at h
      | some q =>
        obtain ⟨w, gf, S⟩ := q
        rw [hd] at h
        simp only [if_true] at h
        cases hl : Hierarchy.loopHierarchy (fun i => (w.lp i).data) gf.next gf.idx gf.loops.length S with
        | none => rw [hl] at h; simp at h
        | some T =>
          rw [hl] at h
          simp only [Out.ok.injEq, Prod.mk.injEq] at h
          obtain ⟨rfl, e3⟩ := h
          exact ⟨f, s, o2, w, gf, S, hr, hm, hs, hsm', hd, rfl, rfl, rfl, T, e3.symm⟩

theorem track_push : ∀ (l : List Call) (t u : List MSet), (∀ c ∈ l, ∀ f d, c ≠ .merge f d) → trackAll t l = some u → u.length = t.length + l.length
  | [], t, u, _, h => by cases h; rfl
  | c :: l, t, u, hl, h => by
    unfold trackAll at h
    obtain ⟨t', h1, h2⟩ := Option.bind_eq_some_iff.mp h
    have e : t'.length = t.length + 1 := by
      cases c with
      | added i =>
        unfold track at h1
        obtain ⟨m, -, rfl⟩ := Option.map_eq_some_iff.mp h1
        simp
      | between a b => cases h1; simp
      | merge f d => exact absurd rfl (hl _ List.mem_cons_self f d)
    rw [track_push l t' u (fun c hc => hl c (List.mem_cons_of_mem _ hc)) h2, e, List.length_cons]
    omega

theorem trackAll_append : ∀ (l m : List Call) (t : List MSet), trackAll t (l ++ m) = (trackAll t l).bind fun u => trackAll u m
  | [], _, _ => rfl
  | c :: l, m, t => by
    show (track t c).bind (fun t => trackAll t (l ++ m)) = ((track t c).bind fun t => trackAll t l).bind fun u => trackAll u m
    cases track t c with
    | none => rfl
    | some t' => exact trackAll_append l m t'

theorem visits_all {pts : List LP} {t : List MSet} {VV : Nat × Nat → List Visited} : ∀ L : List (Nat × Nat), (∀ l ∈ L, visit pts t l = some (VV l)) →
    L.mapM (visit pts t) = some (L.map VV)
  | [], _ => rfl
  | a :: L, hL => by
    rw [List.mapM_cons, hL a List.mem_cons_self, visits_all L fun l hl => hL l (List.mem_cons_of_mem _ hl)]
    rfl

include hP hpos in
/-- What is read after `execute` with tree output if all polygons were added with a tracker. -/
theorem exec_origins_tree {c : Clipper G} (hc : c.ran = false) (hsm : c.samples = []) (hnn : c.nodes = 1) (hrg : c.rgen = g) (hg : Good c.pts)
    (hR : ∀ f, Clip.Reach (realEnv rnd r pos) (lpOf c.pts) c.pts.length f → RangeOk c.pts.length f) {ps : List Poly} {nums : List Nat}
    (hnl : nums.length = c.pts.length) (hnd : nums.Nodup) (hna : ∀ k x : Nat, nums[k]? = some x → (ps.flatMap Poly.pts)[x]? = some (lpOf c.pts k).data)
    {op : BoolOp} {fuel : Nat} {st : Clipper G × List TCall} {o : Output}
    (h : Clipper.execute P fuel op true (c, nums.map fun x : Nat => .added (x : Int)) = .ok (st, o)) :
    ∃ out T, o = ⟨out, some T⟩ ∧ (((∀ a b, .merge a b ∉ st.2) ∧ ∃ t V, Direct ps st out t V) ∨ (op ≠ .normalize ∧ (∃ a b, .merge a b ∈ st.2) ∧ trackAll [] (st.2.map toCall) = none)) := by
  obtain ⟨f, s, rs, w, gf, S, hr, hm, hs, hsm', e1, e2, e3, e4, T, rfl⟩ := exec_parts_tree hP hc hsm hnn hrg hg h
  have hok := realEnv_ok rnd r pos
  have hsound := realEnv_sound rnd r pos
  have hp := planar_end hsound hpos hg.loops hr hm (hR f hr)
  have hM := marks_end hsound hpos hg.loops hr hm (hR f hr)
  obtain ⟨hspl, hlen⟩ := C26_splits hok hg.loops hr
  obtain ⟨hinv, href, -⟩ := reach_spec hok hg.loops hr
  have hlo := hinv.1.toLoops
  have hcalls : st.2.map toCall = pushes nums f.log ++ mergeCalls w.merges := by
    rw [e4]
    unfold pushes mergeCalls
    simp only [List.map_append, List.map_map]
    congr 2
  have hfl : f.np = nums.length + f.log.length := by rw [hlen, hnl]
  obtain ⟨-, -, us⟩ := foldl_pushes nums f.log
  obtain ⟨t, ht, hK⟩ := flow (nums := nums) (bs := f.log) (nxt := fun i => (f.lp i).next) (M := []) (K := fun k => k < f.np)
    ⟨by simp, by simp, by simp, by simp⟩ (by rw [← hfl]; exact hlo.next_inj) (fun k hk => ⟨by rw [← hfl]; exact hk, by simp⟩)
  have em : mergeCalls [] = [] := rfl
  rw [em, List.append_nil] at ht hK
  refine ⟨_, T, rfl, ?_⟩
  rcases tree_returned hok hg.loops hr hm hg.unset hg.check hp hM hs hsm' e1 with ⟨q1, q2, q3, q4⟩ | ⟨hop, i, a, M, q1, q2⟩
  · left
    refine ⟨fun a b hab => ?_, t, ?_⟩
    · rw [e4, q1] at hab
      simp at hab
    have horg : ∀ k < f.np, origins t k = some nums[k]?.toList := by
      intro k hk
      obtain ⟨og, g1, g2, g3, -⟩ := hK k hk
      rw [us] at g3
      rw [g1]
      congr 1
      have hsrt : nums[k]?.toList.Pairwise (· < ·) := by cases nums[k]? <;> simp
      refine List.Perm.eq_of_pairwise (fun a b _ _ h1 h2 => absurd (h1.trans h2) (lt_irrefl _)) g2 hsrt ?_
      rw [List.perm_ext_iff_of_nodup (g2.imp fun h => Nat.ne_of_lt h) (hsrt.imp fun h => Nat.ne_of_lt h)]
      intro x
      rw [g3, Option.mem_toList]
      exact Iff.rfl
    set VV : Nat × Nat → List Visited := fun l => (List.range l.2).map fun m => ⟨gf.next^[m] l.1, (w.lp (gf.next^[m] l.1)).data, nums[gf.next^[m] l.1]?.toList⟩ with hVV
    have hring : ∀ k ∈ gf.loops.flatMap gf.ring, k < f.np := fun k hk => List.mem_range.mp (q4.subset hk)
    have hvis : ∀ l ∈ gf.loops, visit st.1.pts t l = some (VV l) := by
      intro l hl
      refine visitFrom_some (dat := fun k => (w.lp k).data) (org := fun k => nums[k]?.toList) l.2 l.1 l.2 le_rfl fun m hm => ?_
      have hin := hring _ (List.mem_flatMap.mpr ⟨l, hl, List.mem_map.mpr ⟨m, List.mem_range.mpr hm, rfl⟩⟩)
      refine ⟨⟨(w.lp (gf.next^[m] l.1)).data, gf.next (gf.next^[m] l.1), (s.lp (gf.next^[m] l.1)).set, (w.lp (gf.next^[m] l.1)).st⟩, ?_, rfl, rfl, horg _ hin⟩
      rw [e2, List.getElem?_map, List.getElem?_range (by omega)]; rfl
    have hgiv : numbers st.2 = nums := by
      rw [e4, q1]
      unfold numbers
      rw [List.map_nil, List.append_nil, List.filterMap_append, List.filterMap_map, List.filterMap_map]
      have h1 : nums.filterMap ((fun c => match c with | TCall.added x => some x.toNat | _ => none) ∘ fun x : Nat => TCall.added (x : Int)) = nums := by
        conv_rhs => rw [← List.filterMap_some (l := nums)]
        rfl
      have h2 : f.log.filterMap ((fun c => match c with | TCall.added x => some x.toNat | _ => none) ∘ fun p : Nat × Nat => TCall.between p.1 p.2) = [] := by
        rw [List.filterMap_eq_nil_iff]
        intro a _
        rfl
      rw [h1, h2, List.append_nil]
    refine ⟨gf.loops.map VV, by rw [hcalls, q1, em, List.append_nil]; exact ht, by rw [e3]; exact visits_all _ hvis, ?_, ?_, ?_, by rw [hgiv]; exact hnd⟩
    · rw [List.map_map]
      apply List.map_congr_left
      intro l _
      rw [hVV]
      simp only [Function.comp, List.map_map, loopPts]
      rfl
    · intro L hL v hv
      obtain ⟨l, hl, rfl⟩ := List.mem_map.mp hL
      obtain ⟨m, hmr, rfl⟩ := List.mem_map.mp hv
      have hin := hring _ (List.mem_flatMap.mpr ⟨l, hl, List.mem_map.mpr ⟨m, hmr, rfl⟩⟩)
      generalize gf.next^[m] l.1 = k at hin
      dsimp only
      cases hk : nums[k]? with
      | none => exact .inl rfl
      | some x =>
        refine .inr ⟨x, rfl, ?_⟩
        have hkl : k < c.pts.length := by rw [← hnl]; exact (List.getElem?_eq_some_iff.mp hk).1
        rw [hna k x hk, q3 k hin, href.data k hkl]
    · rw [hgiv]
      have e : (gf.loops.map VV).flatten.flatMap Visited.origins = (gf.loops.flatMap gf.ring).flatMap fun k => nums[k]?.toList := by
        rw [← List.flatMap_def, List.flatMap_assoc, List.flatMap_assoc]
        apply List.flatMap_congr
        intro l _
        rw [hVV]
        unfold Found.ring
        simp only [List.flatMap_map]
      rw [e]
      refine (q4.flatMap_right _).trans (List.Perm.of_eq ?_)
      have : ∀ (L : List Nat) (n : Nat), L.length ≤ n → (List.range n).flatMap (fun k => L[k]?.toList) = L := by
        intro L
        induction L with
        | nil => intro n _; simp
        | cons a L ih =>
          intro n hn
          obtain ⟨n, rfl⟩ : ∃ n', n = n' + 1 := ⟨n - 1, by simp at hn; omega⟩
          rw [List.range_succ_eq_map, List.flatMap_cons, List.flatMap_map]
          simp only [List.getElem?_cons_zero, Option.toList_some, List.getElem?_cons_succ, List.singleton_append]
          rw [ih n (by simpa using hn)]
      exact this nums f.np (by omega)
  · right
    refine ⟨hop, ⟨i, a, by rw [e4, q1]; simp⟩, ?_⟩
    rw [hcalls, q1, trackAll_append, ht, Option.bind_some]
    have hlt := track_push _ _ _ (pushes_ne nums f.log) ht
    have hl2 : t.length = f.np := by
      rw [hlt, hfl]
      unfold pushes
      simp
    show (track t (.merge i a)).bind _ = none
    have : t[a]? = none := List.getElem?_eq_none (by omega)
    unfold track
    simp only [this, Option.bind_none]

end

/-! ### C84 -/

section
variable {G : Type} {P : Params G} {rnd : Rat → Rat} {r : Nat → Bool × Bool} {pos : Clip → Nat → Nat} {c : Clipper G} (hP : P.env1 c.rgen = realEnv rnd r pos)
  (hpos : PosOk (realEnv rnd r pos)) (hc : Empty c) (h0 : c.nextOrig = 0)

include hP hpos hc h0 in
theorem run_origins_tree {ps : List Poly} (hf : Fine none ps) (ht : ∀ p ∈ ps, p.track = true)
    (hR : ∀ f, Clip.Reach (realEnv rnd r pos) (lpOf (store [] ps)) (store [] ps).length f → RangeOk (store [] ps).length f) {op : BoolOp} {fuel : Nat}
    {st : Clipper G × List TCall} {outs : List (Option Output)} (h : run P fuel (ps.map Poly.cmd ++ [.exec op true]) (c, []) = .ok (st, outs)) :
    ∃ out T, outs = List.replicate ps.length none ++ [some ⟨out, some T⟩] ∧
      (((∀ a b, .merge a b ∉ st.2) ∧ ∃ t V, Direct ps st out t V) ∨ (op ≠ .normalize ∧ (∃ a b, .merge a b ∈ st.2) ∧ trackAll [] (st.2.map toCall) = none)) := by
  obtain ⟨h1, h2, h3, h4⟩ := hc
  rw [run_tracked P ps c 0 [] h1 h0 ht (by rw [h2]; exact hf), h2, List.nil_append] at h
  change ((((Clipper.execute P fuel op true _).bind _).bind _).bind _) = _ at h
  cases he : Clipper.execute P fuel op true ({ c with pts := store [] ps, nextOrig := ((0 + (ps.flatMap Poly.pts).length : Nat) : Int) },
      (numsOf 0 ps).map fun x : Nat => .added (x : Int)) with
  | fuel => rw [he] at h; simp [Out.bind] at h
  | bad => rw [he] at h; simp [Out.bind] at h
  | ok q =>
    rw [he] at h
    obtain ⟨st', o⟩ := q
    have hlen := store_len ps 0 []
    rw [List.length_nil, Nat.zero_add] at hlen
    have hnums := fun (j x : Nat) => store_nums ps 0 [] j x
    simp only [List.length_nil, Nat.zero_add, Nat.sub_zero] at hnums
    obtain ⟨out, T, q1, q2⟩ := exec_origins_tree (c := { c with pts := store [] ps, nextOrig := ((0 + (ps.flatMap Poly.pts).length : Nat) : Int) })
      hP hpos h1 h3 h4 rfl (good_store ps good_nil) hR (ps := ps) (nums := numsOf 0 ps) hlen.symm ((numsOf_lt ps 0).1.imp fun h => Nat.ne_of_lt h)
      (fun k x hk => (hnums k x hk).1) he
    have e : outs = List.replicate ps.length none ++ [some o] ∧ st = st' := by
      change Out.ok (st', List.replicate ps.length none ++ [some o]) = Out.ok (st, outs) at h
      simp only [Out.ok.injEq, Prod.mk.injEq] at h
      exact ⟨h.2.symm, h.1.symm⟩
    obtain ⟨rfl, rfl⟩ := e
    exact ⟨out, T, by rw [q1], q2⟩

end

section
variable {G : Type} {P : Params G} {r : Nat → Bool × Bool} {pos : Clip → Nat → Nat} {c : Clipper G} (hP : P.env1 c.rgen = realEnv id r pos)
  (hpos : PosOk (realEnv id r pos)) (hc : Empty c) (h0 : c.nextOrig = 0) {ps : List Poly} (hf : Fine none ps) (ht : ∀ p ∈ ps, p.track = true)
  {op : BoolOp} {fuel : Nat} {st : Clipper G × List TCall} {outs : List (Option Output)} (h : run P fuel (ps.map Poly.cmd ++ [.exec op true]) (c, []) = .ok (st, outs))

include hP hpos hc h0 hf ht h in
/-- **C84 (origins with tree output), partial.** Polygons are added with the tracker of the library to an empty clipper and an operation with tree output is run. The
full claim is that the result can be read with the tracker whenever the operation returns. Proved: this is so if no points were merged, and then each point read is without
origin or has the number of an input vertex at its place as its one origin, and each number given to the tracker is the origin of just one point. -/
theorem C84_origins_partial (hm : ∀ a b, .merge a b ∉ st.2) : ∃ out T t V, outs = List.replicate ps.length none ++ [some ⟨out, some T⟩] ∧ Direct ps st out t V := by
  obtain ⟨out, T, e, ⟨-, t, V, q⟩ | ⟨-, ⟨a, b, q⟩, -⟩⟩ := run_origins_tree hP hpos hc h0 hf ht
    (fun f hr => reach_range (realEnv_ok id r pos) (realEnv_range r pos) (good_store ps good_nil).loops hr) h
  · exact ⟨out, T, t, V, e, q⟩
  · exact absurd q (hm a b)

include hP hpos hc h0 hf ht h in
/-- **C84 (normalize).** The result of `normalize` with tree output can always be read with the tracker, with the same origins. -/
theorem C84_normalize (hop : op = .normalize) : (∀ a b, .merge a b ∉ st.2) ∧ ∃ out T t V, outs = List.replicate ps.length none ++ [some ⟨out, some T⟩] ∧ Direct ps st out t V := by
  obtain ⟨out, T, e, ⟨hm, t, V, q⟩ | ⟨q, -⟩⟩ := run_origins_tree hP hpos hc h0 hf ht
    (fun f hr => reach_range (realEnv_ok id r pos) (realEnv_range r pos) (good_store ps good_nil).loops hr) h
  · exact ⟨hm, out, T, t, V, e, q⟩
  · exact absurd hop q

include hP hpos hc h0 hf ht h in
/-- **C84 (what fails).** If any points were merged, the tracker was told to merge a point that it has no record of, which is an access out of bounds. -/
theorem C84_merge_fails {a b : Nat} (hm : .merge a b ∈ st.2) : trackAll [] (st.2.map toCall) = none := by
  obtain ⟨out, T, e, ⟨q, -⟩ | ⟨-, -, q⟩⟩ := run_origins_tree hP hpos hc h0 hf ht
    (fun f hr => reach_range (realEnv_ok id r pos) (realEnv_range r pos) (good_store ps good_nil).loops hr) h
  · exact absurd hm (q a b)
  · exact q

end

section
variable {G : Type} {P : Params G} {rnd : Rat → Rat} {ε : Rat} {M : Int} {r : Nat → Bool × Bool} {pos : Clip → Nat → Nat} {c : Clipper G}
  (hA : Arith rnd ε M) (hP : P.env1 c.rgen = realEnv rnd r pos) (hpos : PosOk (realEnv rnd r pos)) (hc : Empty c) (h0 : c.nextOrig = 0)
  {o : Pt} {ps : List Poly} (hf : Fine none ps) (ht : ∀ p ∈ ps, p.track = true) (hsq : ∀ p ∈ ps, ∀ v ∈ p.pts, InSq o M v)
  {op : BoolOp} {fuel : Nat} {st : Clipper G × List TCall} {outs : List (Option Output)} (h : run P fuel (ps.map Poly.cmd ++ [.exec op true]) (c, []) = .ok (st, outs))

include hA hP hpos hc h0 hf ht hsq h in
/-- **C84 (inexact arithmetic).** The same with numbers that are rounded, for polygons in a square: the result can be read just if no points were merged, which is so for `normalize`. -/
theorem C84_near : ∃ out T, outs = List.replicate ps.length none ++ [some ⟨out, some T⟩] ∧
      (((∀ a b, .merge a b ∉ st.2) ∧ ∃ t V, Direct ps st out t V) ∨ (op ≠ .normalize ∧ (∃ a b, .merge a b ∈ st.2) ∧ trackAll [] (st.2.map toCall) = none)) := by
  have hg := good_store ps good_nil
  refine run_origins_tree hP hpos hc h0 hf ht (fun f hr => near_range hA o hpos hg.loops (fun i hi => ?_) hr) h
  have : ((lpOf (store [] ps) i).set, (lpOf (store [] ps) i).data, (lpOf (store [] ps) (lpOf (store [] ps) i).next).data) ∈ linesOf (store [] ps) := by
    refine List.mem_map.mpr ⟨lpOf (store [] ps) i, ?_, rfl⟩
    unfold lpOf
    rw [List.getD_eq_getElem _ _ hi]
    exact List.getElem_mem hi
  have hl : linesOf (store [] ps) = inEdges ps := lines_store ps good_nil
  rw [hl] at this
  obtain ⟨p, hp, -, h⟩ := inEdges_mem this
  exact hsq p hp _ (edges_mem h).1

end

/-! ### Examples -/

/-- What is read after an operation with tree output. -/
def readTree {G : Type} (P : Params G) (ps : List Poly) (op : BoolOp) (g : G) : Option (List (List (Nat × Pt × List Nat))) :=
  match run P 100 (ps.map Poly.cmd ++ [.exec op true]) (Clipper.fresh g, []) with
  | .ok (st, _) => (trackAll [] (st.2.map toCall)).bind fun t => (st.1.loopsOut.mapM (visit st.1.pts t)).map (·.map (·.map fun v => (v.idx, v.data, v.origins)))
  | _ => none

/-- The calls a tracker gets from an operation with tree output. -/
def callsTree {G : Type} (P : Params G) (ps : List Poly) (op : BoolOp) (g : G) : Option (List TCall) :=
  match run P 100 (ps.map Poly.cmd ++ [.exec op true]) (Clipper.fresh g, []) with
  | .ok (st, _) => some st.2
  | _ => none

/-- The calls for the exclusive or of two squares that overlap: no merges. -/
theorem tracked_xor : callsTree lib tracked .xor gen = some ((List.range 8).map (fun n => .added (n : Int)) ++ [.between 7 4, .between 2 3, .between 1 2, .between 4 5]) := by
  decide +kernel

/-- The hypotheses of `C84_origins_partial` are met by these squares. -/
example : ∃ st outs, run lib 100 (tracked.map Poly.cmd ++ [.exec .xor true]) (Clipper.fresh gen, []) = .ok (st, outs) ∧ ∃ out T t V,
    outs = List.replicate tracked.length none ++ [some ⟨out, some T⟩] ∧ Direct tracked st out t V := by
  have h1 := tracked_xor
  unfold callsTree at h1
  cases h : run lib 100 (tracked.map Poly.cmd ++ [.exec .xor true]) (Clipper.fresh gen, []) with
  | bad => rw [h] at h1; cases h1
  | fuel => rw [h] at h1; cases h1
  | ok q =>
    obtain ⟨st, outs⟩ := q
    rw [h] at h1
    refine ⟨st, outs, rfl, C84_origins_partial (P := lib) (c := Clipper.fresh gen) (pos := _) rfl (takeWhile_posOk id gen) (fresh_empty gen) rfl (by decide +kernel) (by decide +kernel) h fun a b hab => ?_⟩
    rw [Option.some.inj h1] at hab
    simp at hab

example : readTree lib tracked .xor gen = some [[(0, ⟨0, 0⟩, [0]), (1, ⟨4, 0⟩, [1]), (10, ⟨4, 2⟩, []), (4, ⟨2, 2⟩, [4]), (9, ⟨2, 4⟩, []), (3, ⟨0, 4⟩, [3])],
    [(2, ⟨4, 4⟩, [2]), (11, ⟨4, 2⟩, []), (5, ⟨6, 2⟩, [5]), (6, ⟨6, 6⟩, [6]), (7, ⟨2, 6⟩, [7]), (8, ⟨2, 4⟩, [])]] := by decide +kernel

example : callsTree lib tracked .normalize gen = callsTree lib tracked .xor gen := by decide +kernel

/-- `C84_normalize` applies to a polygon that crosses itself. -/
def bowtie : List Poly := [⟨.subject, true, [⟨0, 0⟩, ⟨4, 4⟩, ⟨4, 0⟩, ⟨0, 4⟩]⟩]

example {st outs} (h : run lib 100 (bowtie.map Poly.cmd ++ [.exec .normalize true]) (Clipper.fresh gen, []) = .ok (st, outs)) :
    ∃ out T t V, outs = [none, some ⟨out, some T⟩] ∧ Direct bowtie st out t V :=
  (C84_normalize (P := lib) (c := Clipper.fresh gen) rfl (takeWhile_posOk id gen) (fresh_empty gen) rfl (by decide +kernel) (by decide +kernel) h rfl).2

example : readTree lib bowtie .normalize gen = some [[(0, ⟨0, 0⟩, [0]), (4, ⟨2, 2⟩, []), (3, ⟨0, 4⟩, [3])], [(1, ⟨4, 4⟩, [1]), (5, ⟨2, 2⟩, []), (2, ⟨4, 0⟩, [2])]] := by decide +kernel

/-- **C84 (a result that cannot be read).** The union of two squares that overlap, with tree output: it returns, but the tracker was called with points that it has no record of. -/
theorem C84_unreadable : ∃ (ps : List Poly) (op : BoolOp) (g : Nat → Bool × Bool) (L M : List TCall) (a b : Nat), readTree lib ps op g = none ∧
    callsTree lib ps op g = some (L ++ .merge a b :: M) ∧ L.length ≤ b :=
  ⟨tracked, .union, gen, (List.range 8).map (fun n => .added (n : Int)) ++ [.between 7 4, .between 2 3, .between 1 2, .between 4 5],
    [.merge 17 4, .merge 4 11, .merge 10 18, .merge 18 2, .merge 2 9], 8, 17, by decide +kernel⟩

end PolyOps.Exec
