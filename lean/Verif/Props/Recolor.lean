import Verif.Lemmas.Recolor
import Verif.Props.Shift
import Verif.Props.Same
import Verif.Props.Far

/-! C70: which polygons are subjects and which are clips. `told` is in `Props/Shift.lean`. -/
namespace PolyOps.Exec
open PolyOps PolyOps.Events PolyOps.Sweep PolyOps.Loops PolyOps.Hierarchy PolyOps.Clipper PolyOps.Double PolyOps.Planarity

/-! ### Specification -/

/-- The call with the polygon given to another set. -/
def recolCmd (φ : BSet → BSet) : Cmd → Cmd
  | .add cat pt l => .add (φ cat) pt l
  | c => c

/-- Subjects become clips and clips subjects. -/
def other : BSet → BSet
  | .subject => .clip
  | .clip => .subject

/-- The operations of a list of calls. -/
def opsOf (cs : List Cmd) : List BoolOp := cs.filterMap fun
  | .exec op _ => some op
  | _ => none

/-- The places in the sweep sets do not depend on the sets of the polygons, nor does the use of random numbers. -/
structure Params.Blind {G : Type} (P : Params G) : Prop where
  env1 : ∀ g, (P.env1 g).Blind
  env2 : ∀ g, (P.env2 g).Blind
  adv : ∀ g φ k, P.adv g (Clip.recol φ k) = P.adv g k

/-! ### Proof -/

section
variable {G : Type} (φ : BSet → BSet)

def recolC (c : Clipper G) : Clipper G := { c with pts := c.pts.map (LP.recol φ) }

/-- Whenever the first does not fail, the second is its image. -/
def Sim {α β : Type} (g : α → β) (o : Out α) (o' : Out β) : Prop :=
  match o with
  | .ok a => o' = .ok (g a)
  | .bad => True
  | .fuel => o' = .fuel

theorem Sim.of {α β : Type} {g : α → β} {o : Option α} {o' : Option β} (h : SimO g o o') : Sim g (Out.of o) (Out.of o') := by
  cases o with
  | none => trivial
  | some a => rw [h a rfl]; rfl

theorem Sim.bind {α β γ δ : Type} {g : α → β} {h : γ → δ} {o : Out α} {o' : Out β} {k : α → Out γ} {k' : β → Out δ} (h1 : Sim g o o')
    (h2 : ∀ a, Sim h (k a) (k' (g a))) : Sim h (o.bind k) (o'.bind k') := by
  cases o with
  | ok a => rw [show o' = .ok (g a) from h1]; exact h2 a
  | bad => trivial
  | fuel => rw [show o' = .fuel from h1]; rfl

theorem Sim.eq {α : Type} {o : Out α} : Sim (fun a => a) o o := by cases o <;> trivial

variable {P : Params G} (hP : Params.Blind P) (fuel : Nat)

theorem clip_recol (c : Clipper G) (h : c.pts ≠ []) : (recolC φ c).clip = c.clip.recol φ := by
  unfold Clipper.clip Clip.recol recolC
  simp only [List.length_map, Clip.mk.injEq, and_self, and_true]
  funext i
  have h0 : noPt (c.pts.map (LP.recol φ)) = (noPt c.pts).recol φ := by
    cases hp : c.pts with
    | nil => exact absurd hp h
    | cons a l => rfl
  rw [h0, List.getD_map]

theorem sweep1_recol {env : Env} (he : env.Blind) : ∀ (f : Nat) (s : Clip), Sim (Clip.recol φ) (sweep1 env f s) (sweep1 env f (s.recol φ)) := by
  intro f
  induction f with
  | zero => intro s; rfl
  | succ f ih =>
    intro s
    show Sim _ (if s.q.more = true then _ else _) (if s.q.more = true then _ else _)
    cases s.q.more with
    | false => rfl
    | true =>
      simp only [if_true]
      exact Sim.bind (Sim.of (Clip.step_recol φ s he)) fun a => ih a

theorem sweep2_recol {env : Env} (he : env.Blind) {op : BoolOp} (hop : PolyOps.Blind φ op) : ∀ (f : Nat) (s : Clip) (r : List (Nat × List Nat)),
    Sim (fun t : Clip × List (Nat × List Nat) => (t.1.recol φ, t.2)) (sweep2 env op f s r) (sweep2 env op f (s.recol φ) r) := by
  intro f
  induction f with
  | zero => intro s r; rfl
  | succ f ih =>
    intro s r
    show Sim _ (if s.q.more = true then _ else _) (if s.q.more = true then _ else _)
    cases s.q.more with
    | false => rfl
    | true =>
      simp only [if_true]
      exact Sim.bind (Sim.of (Clip.step2_recol φ s he hop)) fun a => ih a.1 _

/-- What `execute` gives, with other sets of the stored points. -/
def recolR (r : (Clipper G × List TCall) × Output) : (Clipper G × List TCall) × Output := ((recolC φ r.1.1, r.1.2), r.2)

include hP in
theorem doOp_recol {op : BoolOp} (hop : PolyOps.Blind φ op) (tree : Bool) (c : Clipper G) (log : List TCall) (hc : Calm c) :
    Sim (recolR φ) (Clipper.doOp P fuel op tree (c, log)) (Clipper.doOp P fuel op tree (recolC φ c, log)) := by
  rw [doOp_eq, doOp_eq]
  show Sim _ _ (if c.ran = true then _ else _)
  cases hr : c.ran with
  | true => trivial
  | false =>
    simp only [Bool.false_eq_true, if_false]
    by_cases hn : c.pts = []
    · have hs := hc hr
      cases fuel with
      | zero =>
        have h1 : (begun (recolC φ c)).clip = (begun c).clip := by
          unfold begun recolC Clipper.clip; simp [hn]
        rw [h1]
        have h2 : (begun c).clip.np = 0 := by show c.pts.length = 0; rw [hn]; rfl
        rw [h2]
        rfl
      | succ f =>
        obtain ⟨pts, samples, events, nodes, starts, ends, virts, orphans, rgen, nextOrig, ran, loopsOut, top⟩ := c
        simp only at hn hs hr
        subst hn hs hr
        cases tree with
        | false => rfl
        | true =>
          have h : ∀ (data : Nat → Pt) (next : Nat → Nat) (idx : Nat → LIdx), loopHierarchy data next idx 0 [] = some ⟨[], fun _ => []⟩ := by
            intro data next idx
            simp [loopHierarchy, uniqueSorted, Hierarchy.sortBy, uniqBy, arrangeLoops, arrange]
          show Sim _ ((Out.of (loopHierarchy _ _ _ 0 [])).bind _) ((Out.of (loopHierarchy _ _ _ 0 [])).bind _)
          rw [h, h]
          rfl
    · have h1 : (begun (recolC φ c)).clip = (begun c).clip.recol φ := clip_recol φ (begun c) hn
      rw [h1]
      refine Sim.bind (g := Clip.recol φ) (Sim.of (SimO.of_eq (Clip.addLines_recol φ (begun c).clip (begun c).clip.np))) fun k => ?_
      refine Sim.bind (sweep1_recol φ (hP.env1 c.rgen) fuel k) fun k => ?_
      refine Sim.bind (sweep2_recol φ (hP.env2 c.rgen) hop fuel { k with q := k.q.rewind, sweep := [] } c.samples) fun t => ?_
      refine Sim.bind (g := fun a => a)
        (o' := Out.of (joinLoops ⟨fun i => opOf (t.1.lp i), t.1.np, fun _ => [], [], fun _ => [], [], []⟩ tree t.2)) Sim.eq fun u => ?_
      have hp : ((List.range u.1.np).map fun i => (⟨(u.1.lp i).data, u.2.1.next i, ((t.1.recol φ).lp i).set, (u.1.lp i).st⟩ : LP)) =
          ((List.range u.1.np).map fun i => (⟨(u.1.lp i).data, u.2.1.next i, (t.1.lp i).set, (u.1.lp i).st⟩ : LP)).map (LP.recol φ) := by
        rw [List.map_map]
        rfl
      have ha : P.adv (recolC φ c).rgen (k.recol φ) = P.adv c.rgen k := hP.adv _ _ _
      cases tree with
      | false =>
        simp only [Bool.false_eq_true, if_false]
        rw [hp, ha]
        rfl
      | true =>
        simp only [if_true]
        rw [hp, ha]
        refine Sim.bind (g := fun a => a) Sim.eq fun t => ?_
        rfl

include hP in
theorem execute_recol {op : BoolOp} (hop : PolyOps.Blind φ op) (tree : Bool) (c : Clipper G) (log : List TCall) (hc : Calm c) :
    Sim (recolR φ) (Clipper.execute P fuel op tree (c, log)) (Clipper.execute P fuel op tree (recolC φ c, log)) := by
  unfold Clipper.execute
  show Sim _ (Clipper.doOp P fuel op tree (if c.ran = true then _ else _)) (Clipper.doOp P fuel op tree (if c.ran = true then _ else _))
  cases hr : c.ran with
  | true => exact doOp_recol φ hP fuel hop tree c.reset [] fun _ => rfl
  | false => exact doOp_recol φ hP fuel hop tree c log hc

theorem add_recol (cat : BSet) (pt : Bool) (l : List Pt) (c : Clipper G) (log : List TCall) :
    Clipper.add (φ cat) pt l (recolC φ c, log) = omap (fun s => (recolC φ s.1, s.2)) (Clipper.add cat pt l (c, log)) := by
  have core : ∀ (c : Clipper G) (log : List TCall),
      ((Out.of (PointSink.addPts ⟨(recolC φ c).pts, [], (recolC φ c).nextOrig⟩ (φ cat) pt l)).bind fun r =>
        Out.ok (({ recolC φ c with pts := r.pts, nextOrig := r.nextOrig } : Clipper G), log ++ r.tr.map .added)) =
      omap (fun s => (recolC φ s.1, s.2)) ((Out.of (PointSink.addPts ⟨c.pts, [], c.nextOrig⟩ cat pt l)).bind fun r =>
        Out.ok (({ c with pts := r.pts, nextOrig := r.nextOrig } : Clipper G), log ++ r.tr.map .added)) := by
    intro c log
    have h := PointSink.addPts_recol φ ⟨c.pts, [], c.nextOrig⟩ cat pt l
    show (Out.of (PointSink.addPts (PointSink.Store.recol φ ⟨c.pts, [], c.nextOrig⟩) (φ cat) pt l)).bind _ = _
    rw [h, Out.of_map]
    exact omap_bind _ _ _ _ _ fun r => rfl
  unfold Clipper.add
  have hm : (recolC φ c).ran = c.ran := rfl
  cases hr : c.ran with
  | true => simp only [hm, hr, if_true]; exact core c.reset _
  | false => simpa only [hm, hr, Bool.false_eq_true, if_false] using core c log

/-- Results of a sequence of calls. -/
def recolS (r : (Clipper G × List TCall) × List (Option Output)) : (Clipper G × List TCall) × List (Option Output) := ((recolC φ r.1.1, r.1.2), r.2)

include hP in
theorem run_recol (cs : List Cmd) (hop : ∀ op ∈ opsOf cs, PolyOps.Blind φ op) : ∀ (c : Clipper G) (log : List TCall), Calm c →
    Sim (recolS φ) (run P fuel cs (c, log)) (run P fuel (cs.map (recolCmd φ)) (recolC φ c, log)) := by
  induction cs with
  | nil => intro c log _; rfl
  | cons d cs ih =>
    intro c log hc
    have ih := ih fun op ho => hop op (by unfold opsOf at ho ⊢; rw [List.filterMap_cons]; split <;> simp [ho])
    have tail : ∀ (c' : Clipper G) (log' : List TCall) (o : Option Output), Calm c' →
        Sim (recolS φ) ((run P fuel cs (c', log')).bind fun q => Out.ok (q.1, o :: q.2))
          ((run P fuel (cs.map (recolCmd φ)) (recolC φ c', log')).bind fun q => Out.ok (q.1, o :: q.2)) := by
      intro c' log' o h'
      exact Sim.bind (ih c' log' h') fun q => rfl
    show Sim _ ((step P fuel (c, log) d).bind _) ((step P fuel (recolC φ c, log) (recolCmd φ d)).bind _)
    cases d with
    | add cat pt l =>
      show Sim _ (((Clipper.add cat pt l (c, log)).bind _).bind _) (((Clipper.add (φ cat) pt l (recolC φ c, log)).bind _).bind _)
      rw [add_recol]
      cases h : Clipper.add cat pt l (c, log) with
      | bad => trivial
      | fuel => rfl
      | ok s => exact tail s.1 s.2 none (add_calm hc h)
    | exec op tree =>
      have hsim := execute_recol φ hP fuel (op := op) (hop op (by simp [opsOf])) tree c log hc
      show Sim _ (((Clipper.execute P fuel op tree (c, log)).bind _).bind _) (((Clipper.execute P fuel op tree (recolC φ c, log)).bind _).bind _)
      cases h : Clipper.execute P fuel op tree (c, log) with
      | bad => trivial
      | fuel => rw [h] at hsim; rw [show Clipper.execute P fuel op tree (recolC φ c, log) = .fuel from hsim]; rfl
      | ok r =>
        rw [h] at hsim
        rw [show Clipper.execute P fuel op tree (recolC φ c, log) = .ok (recolR φ r) from hsim]
        exact tail r.1.1 r.1.2 (some r.2) fun h' => by rw [exec_calm fuel h] at h'; cases h'
    | reset => exact tail c.reset log none fun _ => rfl
    | resetAll => exact tail c.reset [] none fun _ => rfl

theorem other_other (k : BSet) : other (other k) = k := by cases k <;> rfl

theorem blind_xor : PolyOps.Blind other .xor := by
  intro k w
  cases k <;> simp [lbResult, Wn.push, Wn.add, other]
theorem blind_intersection : PolyOps.Blind other .intersection := by
  intro k w
  cases k <;> simp [lbResult, Wn.push, Wn.add, other]

theorem blind_other {op : BoolOp} (h : op ≠ .difference) : PolyOps.Blind other op := by
  cases op with
  | union => exact blind_union _
  | intersection => exact blind_intersection
  | xor => exact blind_xor
  | difference => exact absurd rfl h
  | normalize => exact blind_normalize _

theorem opsOf_recol (cs : List Cmd) : opsOf (cs.map (recolCmd φ)) = opsOf cs := by
  unfold opsOf
  rw [List.filterMap_map]
  congr 1
  funext d
  cases d <;> rfl

theorem told_recol (r : Out ((Clipper G × List TCall) × List (Option Output))) : told (omap (recolS φ) r) = told r := by cases r <;> rfl

include hP in
/-- **C70 (exchange).** Any sequence of calls on a new clipper is made again with subjects and clips exchanged. If `difference` is not used, it
ends in the same way, and each call returns exactly the same polygons, with the same nesting; the tracker is told the same. -/
theorem C70_swapped (cs : List Cmd) (hop : .difference ∉ opsOf cs) (g : G) (log : List TCall) :
    told (run P fuel (cs.map (recolCmd other)) (Clipper.fresh g, log)) = told (run P fuel cs (Clipper.fresh g, log)) := by
  have hb : ∀ op ∈ opsOf cs, PolyOps.Blind other op := fun op ho => blind_other fun e => hop (e ▸ ho)
  have h1 := run_recol other hP fuel cs hb (Clipper.fresh g) log fun _ => rfl
  have h2 := run_recol other hP fuel (cs.map (recolCmd other)) (by rw [opsOf_recol]; exact hb) (Clipper.fresh g) log fun _ => rfl
  have e : (cs.map (recolCmd other)).map (recolCmd other) = cs := by
    rw [List.map_map]
    conv_rhs => rw [← List.map_id cs]
    refine List.map_congr_left fun d _ => ?_
    cases d with
    | add cat pt l => show Cmd.add (other (other cat)) pt l = _; rw [other_other]; rfl
    | _ => rfl
  rw [e] at h2
  have hf : recolC other (Clipper.fresh g) = Clipper.fresh g := rfl
  rw [hf] at h1 h2
  cases h : run P fuel cs (Clipper.fresh g, log) with
  | ok r => rw [h] at h1; rw [show run P fuel (cs.map (recolCmd other)) (Clipper.fresh g, log) = .ok (recolS other r) from h1]; rfl
  | fuel => rw [h] at h1; rw [show run P fuel (cs.map (recolCmd other)) (Clipper.fresh g, log) = .fuel from h1]
  | bad =>
    rw [h] at h2
    cases h' : run P fuel (cs.map (recolCmd other)) (Clipper.fresh g, log) with
    | ok r => rw [h'] at h2; cases h2
    | fuel => rw [h'] at h2; cases h2
    | bad => rfl

/-- Two lists of calls that differ in the sets of the polygons only. -/
def SameButSets (cs cs' : List Cmd) : Prop := cs.map (recolCmd fun _ => .subject) = cs'.map (recolCmd fun _ => .subject)

include hP in
/-- **C70 (sets ignored).** Two sequences of calls on new clippers differ only in which polygons are subjects and which are clips, and only `union` and
`normalize` are used. If neither fails, each call returns exactly the same polygons, with the same nesting, and the tracker is told the same. -/
theorem C70_ignored {cs cs' : List Cmd} (hop : ∀ op ∈ opsOf cs, op = .union ∨ op = .normalize) (hs : SameButSets cs cs') (g : G) (log : List TCall)
    (hok : told (run P fuel cs (Clipper.fresh g, log)) ≠ .bad) (hok' : told (run P fuel cs' (Clipper.fresh g, log)) ≠ .bad) :
    told (run P fuel cs (Clipper.fresh g, log)) = told (run P fuel cs' (Clipper.fresh g, log)) := by
  have hb : ∀ op ∈ opsOf cs, PolyOps.Blind (fun _ => .subject) op := fun op ho => by
    rcases hop op ho with rfl | rfl
    · exact blind_union _
    · exact blind_normalize _
  have ho : opsOf cs = opsOf cs' := by rw [← opsOf_recol fun _ => .subject, ← opsOf_recol (fun _ => .subject) cs', show _ = _ from hs]
  have h1 := run_recol (fun _ => .subject) hP fuel cs hb (Clipper.fresh g) log fun _ => rfl
  have h2 := run_recol (fun _ => .subject) hP fuel cs' (by rw [← ho]; exact hb) (Clipper.fresh g) log fun _ => rfl
  rw [show cs.map (recolCmd fun _ => .subject) = cs'.map (recolCmd fun _ => .subject) from hs] at h1
  generalize hR : run P fuel (cs'.map (recolCmd fun _ => .subject)) (recolC (fun _ => .subject) (Clipper.fresh g), log) = R at h1 h2
  have key : ∀ o, Sim (recolS fun _ => .subject) o R → told o ≠ .bad → told o = told R := by
    intro o h hok
    cases o with
    | ok r => rw [show R = _ from h]; rfl
    | fuel => rw [show R = _ from h]
    | bad => exact absurd rfl hok
  rw [key _ h1 hok, key _ h2 hok']

end

/-- The same polygon, perhaps in another set. -/
def SameShape (p q : Poly) : Prop := p.pts = q.pts ∧ p.track = q.track

theorem fine_shape {ps qs : List Poly} (h : List.Forall₂ SameShape ps qs) : ∀ b, Fine b ps → Fine b qs := by
  induction h with
  | nil => exact fun _ h => h
  | @cons p q ps qs h1 _ ih =>
    intro b hf
    obtain ⟨k, tr, l⟩ := p
    obtain ⟨k', tr', l'⟩ := q
    obtain ⟨e1, e2⟩ := h1
    simp only at e1 e2
    subst e1 e2
    exact ⟨hf.1, ih _ hf.2⟩

theorem opsOf_polys (ps : List Poly) (op : BoolOp) (tree : Bool) : opsOf (ps.map Poly.cmd ++ [.exec op tree]) = [op] := by
  induction ps with
  | nil => rfl
  | cons p ps ih => exact ih

theorem sameButSets {ps qs : List Poly} (h : List.Forall₂ SameShape ps qs) (op : BoolOp) (tree : Bool) :
    SameButSets (ps.map Poly.cmd ++ [.exec op tree]) (qs.map Poly.cmd ++ [.exec op tree]) := by
  induction h with
  | nil => rfl
  | @cons p q ps qs h1 _ ih =>
    unfold SameButSets at ih ⊢
    simp only [List.map_cons, List.cons_append]
    rw [ih]
    congr 1
    show Cmd.add .subject p.track p.pts = Cmd.add .subject q.track q.pts
    rw [h1.1, h1.2]

/-- **C70 (sets ignored, exact numbers).** The union of a list of polygons, or its normal form, is computed with exact numbers. It ends without
failure and returns exactly the same polygons if other polygons of the list are taken as subjects. -/
theorem C70_union {G : Type} {P : Params G} {g : G} {r : Nat → Bool × Bool} {pos : Clip → Nat → Nat} (hP : Params.Blind P)
    (he : P.env1 g = realEnv id r pos) (hpos : PosOk (realEnv id r pos)) {ps qs : List Poly} (hf : Fine none ps) (h : List.Forall₂ SameShape ps qs)
    {op : BoolOp} (ho : op = .union ∨ op = .normalize) (log : List TCall) : ∃ N st st' out, ∀ fuel ≥ N,
      run P fuel (ps.map Poly.cmd ++ [.exec op false]) (Clipper.fresh g, log) = .ok (st, List.replicate ps.length none ++ [some ⟨out, none⟩]) ∧
      run P fuel (qs.map Poly.cmd ++ [.exec op false]) (Clipper.fresh g, log) = .ok (st', List.replicate ps.length none ++ [some ⟨out, none⟩]) ∧
      st.2 = st'.2 := by
  obtain ⟨N, st, out, h1, -⟩ := C60_outside (c := Clipper.fresh g) he hpos (fresh_empty g) hf op log
  obtain ⟨N', st', out', h1', -⟩ := C60_outside (c := Clipper.fresh g) he hpos (fresh_empty g) (fine_shape h none hf) op log
  refine ⟨max N N', st, st', out, fun fuel hN => ?_⟩
  have a := h1 fuel (by omega)
  have b := h1' fuel (by omega)
  have k := C70_ignored hP fuel (cs := ps.map Poly.cmd ++ [.exec op false]) (cs' := qs.map Poly.cmd ++ [.exec op false])
    (by rw [opsOf_polys]; intro o hm; rw [List.mem_singleton] at hm; subst hm; exact ho) (sameButSets h op false) g log
    (by rw [a]; exact fun e => by cases e) (by rw [b]; exact fun e => by cases e)
  rw [a, b] at k
  have k' : (List.replicate ps.length none ++ [some (⟨out, none⟩ : Output)], st.2) = (List.replicate qs.length none ++ [some ⟨out', none⟩], st'.2) := by
    injection k
  rw [Prod.mk.injEq] at k'
  exact ⟨a, by rw [b, k'.1], k'.2⟩

theorem lib_blind : Params.Blind lib := ⟨fun _ _ _ _ => rfl, fun _ _ _ _ => rfl, fun _ _ _ => rfl⟩
theorem libDouble_blind : Params.Blind libDouble := ⟨fun _ _ _ _ => rfl, fun _ _ _ _ => rfl, fun _ _ _ => rfl⟩

/-- **C70 (exchange, doubles).** -/
theorem C70_double (fuel : Nat) (cs : List Cmd) (hop : .difference ∉ opsOf cs) (g : Nat → Bool × Bool) (log : List TCall) :
    told (run libDouble fuel (cs.map (recolCmd other)) (Clipper.fresh g, log)) = told (run libDouble fuel cs (Clipper.fresh g, log)) :=
  C70_swapped libDouble_blind fuel cs hop g log

/-- **C70 (exchange, exact numbers).** -/
theorem C70_exact (fuel : Nat) (cs : List Cmd) (hop : .difference ∉ opsOf cs) (g : Nat → Bool × Bool) (log : List TCall) :
    told (run lib fuel (cs.map (recolCmd other)) (Clipper.fresh g, log)) = told (run lib fuel cs (Clipper.fresh g, log)) :=
  C70_swapped lib_blind fuel cs hop g log

/-! ### Cases -/

/-- Two squares that overlap; the operations that exchange leaves alone all give something. -/
def pair (op : BoolOp) : List Cmd := squares.map Poly.cmd ++ [.exec op true]

example : .difference ∉ opsOf (pair .xor) := by decide

example : (polysOf (told (run lib 100 ((pair .intersection).map (recolCmd other)) (Clipper.fresh gen, [])))) =
    some [[[⟨4, 4⟩, ⟨2, 4⟩, ⟨2, 2⟩, ⟨4, 2⟩]]] := by decide +kernel

/-- `difference` has to be left out. -/
theorem C70_difference : polysOf (told (run lib 100 ((pair .difference).map (recolCmd other)) (Clipper.fresh gen, []))) ≠
    polysOf (told (run lib 100 (pair .difference) (Clipper.fresh gen, []))) := by decide +kernel

/-- For `intersection` the sets matter: both squares as subjects. -/
example : polysOf (told (run lib 100 ((pair .intersection).map (recolCmd fun _ => .subject)) (Clipper.fresh gen, []))) ≠
    polysOf (told (run lib 100 (pair .intersection) (Clipper.fresh gen, []))) := by decide +kernel

/-- Two squares that overlap, both clips. -/
def bothClips : List Poly := squares.map fun p => { p with set := .clip }

theorem bothClips_shape : List.Forall₂ SameShape squares bothClips := .cons ⟨rfl, rfl⟩ (.cons ⟨rfl, rfl⟩ .nil)

example (g : Nat → Bool × Bool) : ∃ N st st' out, ∀ fuel ≥ N,
      run lib fuel (squares.map Poly.cmd ++ [.exec .union false]) (Clipper.fresh g, []) = .ok (st, List.replicate squares.length none ++ [some ⟨out, none⟩]) ∧
      run lib fuel (bothClips.map Poly.cmd ++ [.exec .union false]) (Clipper.fresh g, []) = .ok (st', List.replicate squares.length none ++ [some ⟨out, none⟩]) ∧
      st.2 = st'.2 :=
  C70_union (P := lib) (g := g) lib_blind rfl (takeWhile_posOk id g) (by decide +kernel) bothClips_shape (.inl rfl) []

end PolyOps.Exec
