import Verif.Lemmas.Fuel
import Verif.Props.Areas
import Verif.Props.Linear

/-! C74: operations on the results of operations. -/
namespace PolyOps.Exec
open PolyOps PolyOps.Sweep PolyOps.Region PolyOps.Planarity PolyOps.Loops PolyOps.PointSink PolyOps.Clipper

/-! ### Specification -/

/-- What to do with given lists of polygons, which have numbers: take one of them, or do an operation with the result of one plan as subjects and that of
another one as clips. -/
inductive Plan
  | given (i : Nat)
  | op (o : BoolOp) (a b : Plan)

/-- The truth table: whether a place is in the result, if `v i` says whether it is in the list with number `i`. -/
def Plan.truth (v : Nat → Bool) : Plan → Bool
  | .given i => v i
  | .op .union a b => a.truth v || b.truth v
  | .op .intersection a b => a.truth v && b.truth v
  | .op .xor a b => a.truth v ^^ b.truth v
  | .op .normalize a b => a.truth v ^^ b.truth v
  | .op .difference a b => a.truth v && !b.truth v

/-- The edges of all lists that a plan uses. -/
def Plan.uses (ls : Nat → List (List Pt)) : Plan → List (Pt × Pt)
  | .given i => (ls i).flatMap edges
  | .op _ a b => a.uses ls ++ b.uses ls

/-- Polygons to add: some as subjects, some as clips. -/
def stage (la lb : List (List Pt)) : List Poly := (la.map fun l => ⟨.subject, false, l⟩) ++ lb.map fun l => ⟨.clip, false, l⟩

/-- Doing what the plan says gives the polygons `out`. Each operation has a new `clipper`, with a generator in any state, and what is added is
stored as intended (C25). -/
inductive Gives {G : Type} (P : Params G) (ls : Nat → List (List Pt)) : Plan → List (List Pt) → Prop
  | given (i : Nat) : Gives P ls (.given i) (ls i)
  | op {o : BoolOp} {a b : Plan} {la lb out : List (List Pt)} {g : G} {fuel : Nat} {st : Clipper G × List TCall}
    (ha : Gives P ls a la) (hb : Gives P ls b lb) (hf : Fine none (stage la lb))
    (hr : run P fuel ((stage la lb).map Poly.cmd ++ [.exec o false]) (Clipper.fresh g, []) =
      .ok (st, List.replicate (stage la lb).length none ++ [some ⟨out, none⟩])) : Gives P ls (.op o a b) out

/-- Polygons that wind once or not at all around each place. -/
def AtMostOnce (l : List (List Pt)) : Prop := ∀ x y, Off (l.flatMap edges) x y → wind (l.flatMap edges) x y = 0 ∨ wind (l.flatMap edges) x y = 1

/-- Each of the first edges is on one of the others. -/
def PartOf (E F : List (Pt × Pt)) : Prop := ∀ e ∈ E, ∃ f ∈ F, OnSegQ e.1.x e.1.y f.1 f.2 ∧ OnSegQ e.2.x e.2.y f.1 f.2

/-! ### Proof -/

theorem PartOf.refl (E : List (Pt × Pt)) : PartOf E E := fun e he => ⟨e, he, onq_left _ _, onq_right _ _⟩

theorem PartOf.trans {E F K : List (Pt × Pt)} (h : PartOf E F) (h' : PartOf F K) : PartOf E K := by
  intro e he
  obtain ⟨f, hf, a, b⟩ := h e he
  obtain ⟨k, hk, c, d⟩ := h' f hf
  exact ⟨k, hk, onq_trans c d a, onq_trans c d b⟩

theorem PartOf.append {E F K L : List (Pt × Pt)} (h : PartOf E F) (h' : PartOf K L) : PartOf (E ++ K) (F ++ L) := by
  intro e he
  rcases List.mem_append.mp he with he | he
  · obtain ⟨f, hf, k⟩ := h e he
    exact ⟨f, List.mem_append_left _ hf, k⟩
  · obtain ⟨f, hf, k⟩ := h' e he
    exact ⟨f, List.mem_append_right _ hf, k⟩

theorem PartOf.off {E F : List (Pt × Pt)} (h : PartOf E F) {x y : ℚ} (ho : Off F x y) : Off E x y := by
  intro e he hon
  obtain ⟨f, hf, a, b⟩ := h e he
  exact ho f hf (onq_trans a b hon)

theorem cross_along {e f k : Pt × Pt} (h1 : OnSegQ e.1.x e.1.y f.1 f.2) (h2 : OnSegQ e.2.x e.2.y f.1 f.2) (h : cross f k = 0) : cross e k = 0 := by
  obtain ⟨t, -, -, a1, a2⟩ := h1
  obtain ⟨u, -, -, b1, b2⟩ := h2
  have h' : ((f.1.x : ℚ) - f.2.x) * (k.1.y - k.2.y) - (f.1.y - f.2.y) * (k.1.x - k.2.x) = 0 := by
    have : (cross f k : ℚ) = 0 := by exact_mod_cast h
    unfold cross at this
    push_cast at this
    exact this
  have : (cross e k : ℚ) = 0 := by
    unfold cross
    push_cast
    rw [a1, a2, b1, b2]
    linear_combination (u - t) * h'
  exact_mod_cast this

theorem cross_anti (e f : Pt × Pt) : cross e f = - cross f e := by unfold cross; ring

theorem PartOf.lattice {E F : List (Pt × Pt)} (h : PartOf E F) (hF : Lattice F) : Lattice E := by
  intro e he k hk hc x y h1 h2
  obtain ⟨f, hf, a, b⟩ := h e he
  obtain ⟨l, hl, c, d⟩ := h k hk
  refine hF f hf l hl (fun h0 => hc ?_) x y (onq_trans a b h1) (onq_trans c d h2)
  refine cross_along a b ?_
  rw [cross_anti, cross_along c d (by rw [cross_anti, h0]; rfl)]
  rfl

theorem stage_edges (la lb : List (List Pt)) : (stage la lb).flatMap (fun p => edges p.pts) = la.flatMap edges ++ lb.flatMap edges := by
  unfold stage; rw [List.flatMap_append, List.flatMap_map, List.flatMap_map]

theorem stage_subject (la lb : List (List Pt)) : edgesOf (stage la lb) .subject = la.flatMap edges := by
  unfold edgesOf stage
  rw [List.filter_append, List.filter_map, List.filter_map, List.flatMap_append, List.flatMap_map, List.flatMap_map]
  simp [Function.comp_def]

theorem stage_clip (la lb : List (List Pt)) : edgesOf (stage la lb) .clip = lb.flatMap edges := by
  unfold edgesOf stage
  rw [List.filter_append, List.filter_map, List.filter_map, List.flatMap_append, List.flatMap_map, List.flatMap_map]
  simp [Function.comp_def]

section
variable {G : Type} {P : Params G} (hP : ∀ g, ∃ r pos, P.env1 g = realEnv id r pos ∧ PosOk (realEnv id r pos)) {ls : Nat → List (List Pt)}

include hP in
theorem stage_exact {la lb out : List (List Pt)} {o : BoolOp} {g : G} {fuel : Nat} {st : Clipper G × List TCall} (hE : Lattice (la.flatMap edges ++ lb.flatMap edges))
    (hf : Fine none (stage la lb)) (hr : run P fuel ((stage la lb).map Poly.cmd ++ [.exec o false]) (Clipper.fresh g, []) =
      .ok (st, List.replicate (stage la lb).length none ++ [some ⟨out, none⟩])) :
    PartOf (out.flatMap edges) (la.flatMap edges ++ lb.flatMap edges) ∧
      ∀ x y, Off (la.flatMap edges ++ lb.flatMap edges) x y → wind (out.flatMap edges) x y =
        if region o (wind (la.flatMap edges) x y) (wind (lb.flatMap edges) x y) then 1 else 0 := by
  obtain ⟨r, pos, h1, h2⟩ := hP g
  obtain ⟨N, st', out', e1, e2, e3⟩ := C52_exact (c := Clipper.fresh g) h1 h2 (fresh_empty g) hf (by rw [stage_edges]; exact hE) o []
  have := run_unique (P := P) (n := fuel) (m := N) (cs := (stage la lb).map Poly.cmd ++ [.exec o false]) (s := (Clipper.fresh g, []))
    (by rw [hr]; simp) (by rw [e1 N le_rfl]; simp)
  rw [hr, e1 N le_rfl] at this
  injection this with this
  injection this with _ this
  have := List.append_cancel_left this
  simp only [List.cons.injEq, and_true, Option.some.injEq, Output.mk.injEq] at this
  subst this
  rw [stage_edges] at e2 e3
  rw [stage_subject, stage_clip] at e3
  exact ⟨e2, e3⟩

include hP in
/-- **C74 (no new places).** Every edge returned is part of an edge given. -/
theorem C74_along {p : Plan} {out : List (List Pt)} (h : Gives P ls p out) (hE : Lattice (p.uses ls)) : PartOf (out.flatMap edges) (p.uses ls) := by
  induction h with
  | given i => exact .refl _
  | op ha hb hf hr iha ihb =>
    have hA := iha fun e he f hf => hE e (List.mem_append_left _ he) f (List.mem_append_left _ hf)
    have hB := ihb fun e he f hf => hE e (List.mem_append_right _ he) f (List.mem_append_right _ hf)
    exact (stage_exact hP ((hA.append hB).lattice hE) hf hr).1.trans (hA.append hB)

include hP in
/-- **C74 (each operation returns).** When the plans of both sides have been carried out and what they gave is stored as intended, the operation
returns, whatever the state of its generator is. -/
theorem C74_returns {a b : Plan} {la lb : List (List Pt)} (hf : Fine none (stage la lb)) (ha : Gives P ls a la) (hb : Gives P ls b lb)
    (o : BoolOp) (g : G) (hE : Lattice ((Plan.op o a b).uses ls)) :
    ∃ N out, Gives P ls (.op o a b) out ∧ ∀ fuel ≥ N, ∃ st, run P fuel ((stage la lb).map Poly.cmd ++ [.exec o false]) (Clipper.fresh g, []) =
      .ok (st, List.replicate (stage la lb).length none ++ [some ⟨out, none⟩]) := by
  obtain ⟨r, pos, h1, h2⟩ := hP g
  have hA := C74_along hP ha fun e he f hf => hE e (List.mem_append_left _ he) f (List.mem_append_left _ hf)
  have hB := C74_along hP hb fun e he f hf => hE e (List.mem_append_right _ he) f (List.mem_append_right _ hf)
  obtain ⟨N, st, out, e1, -⟩ := C52_exact (c := Clipper.fresh g) h1 h2 (fresh_empty g) hf (by rw [stage_edges]; exact (hA.append hB).lattice hE) o []
  exact ⟨N, out, .op ha hb hf (e1 N le_rfl), fun fuel hfu => ⟨st, e1 fuel hfu⟩⟩

include hP in
/-- **C74 (operations in steps).** If edges given that are not parallel only meet at integer points and each list given winds at most once around each place, the
polygons returned in the end wind once around the places that the truth table of the plan says, and not at all around other places; the places are those that are on no edge
given. -/
theorem C74_steps {p : Plan} {out : List (List Pt)} (h : Gives P ls p out) (hE : Lattice (p.uses ls)) (hl : ∀ i, AtMostOnce (ls i)) (x y : ℚ) (ho : Off (p.uses ls) x y) :
    wind (out.flatMap edges) x y = if p.truth (fun i => wind ((ls i).flatMap edges) x y = 1) then 1 else 0 := by
  induction h with
  | given i => rcases hl i x y ho with h | h <;> simp [Plan.truth, h]
  | @op o a b la lb out g fuel st ha hb hf hr iha ihb =>
    have hEa : Lattice (a.uses ls) := fun e he f hf => hE e (List.mem_append_left _ he) f (List.mem_append_left _ hf)
    have hEb : Lattice (b.uses ls) := fun e he f hf => hE e (List.mem_append_right _ he) f (List.mem_append_right _ hf)
    obtain ⟨oa, ob⟩ := Off.append.mp ho
    have hAB := (C74_along hP ha hEa).append (C74_along hP hb hEb)
    rw [(stage_exact hP (hAB.lattice hE) hf hr).2 x y (hAB.off ho), iha hEa oa, ihb hEb ob]
    generalize (fun i => decide (wind ((ls i).flatMap edges) x y = 1)) = v
    cases o <;> rcases ea : a.truth v <;> rcases eb : b.truth v <;> simp [Plan.truth, region, ea, eb]

include hP in
/-- **C74 (plans with the same truth table).** They give polygons that wind around the same places, and have the same area. -/
theorem C74_same {p q : Plan} {out out' : List (List Pt)} (h : Gives P ls p out) (h' : Gives P ls q out') (hpq : ∀ v, p.truth v = q.truth v)
    (hE : Lattice (p.uses ls)) (hE' : Lattice (q.uses ls)) (hl : ∀ i, AtMostOnce (ls i)) :
    areaOf out = areaOf out' ∧ ∀ x y, Off (out.flatMap edges) x y → Off (out'.flatMap edges) x y → wind (out.flatMap edges) x y = wind (out'.flatMap edges) x y := by
  have key : ∀ x y, Off (p.uses ls ++ q.uses ls) x y → wind (out.flatMap edges) x y = wind (out'.flatMap edges) x y := by
    intro x y ho
    obtain ⟨o1, o2⟩ := Off.append.mp ho
    rw [C74_steps hP h hE hl x y o1, C74_steps hP h' hE' hl x y o2, hpq]
  refine ⟨area_same _ key, fun x y o1 o2 => ?_⟩
  obtain ⟨z, w, -, h2, h3⟩ := Compose.wind_near (out.flatMap edges ++ out'.flatMap edges) (p.uses ls ++ q.uses ls) (x := x) (y := y) (Off.append.mpr ⟨o1, o2⟩)
  rw [← h3 _ fun e he => List.mem_append_left _ he, ← h3 _ fun e he => List.mem_append_right _ he]
  exact key z w h2

end

/-- The lists that a plan uses. -/
def Plan.lists (ls : Nat → List (List Pt)) : Plan → List (List Pt)
  | .given i => ls i
  | .op _ a b => a.lists ls ++ b.lists ls

theorem uses_lists (ls : Nat → List (List Pt)) (p : Plan) : p.uses ls = (p.lists ls).flatMap edges := by
  induction p with
  | given i => rfl
  | op o a b iha ihb => show a.uses ls ++ b.uses ls = (a.lists ls ++ b.lists ls).flatMap edges; rw [List.flatMap_append, iha, ihb]

theorem lists_map (f : List Pt → List Pt) (ls : Nat → List (List Pt)) (p : Plan) : p.lists (fun i => (ls i).map f) = (p.lists ls).map f := by
  induction p with
  | given i => rfl
  | op o a b iha ihb => show _ ++ _ = (a.lists ls ++ b.lists ls).map f; rw [List.map_append, iha, ihb]

/-- **C74 (enough resolution).** For every plan there is a factor such that the edges given that are not parallel only meet at integer points when
everything is enlarged by it, or by a multiple of it. -/
theorem C74_resolution (ls : Nat → List (List Pt)) (p : Plan) : ∃ M : Int, 0 < M ∧ ∀ k : Int, 0 < k → Lattice (p.uses fun i => (ls i).map (Lin.times (k * M)).loop) := by
  obtain ⟨M, h1, h2⟩ := Lin.lattice_times (stage (p.lists ls) [])
  refine ⟨M, h1, fun k hk => ?_⟩
  have := h2 k hk
  rw [uses_lists, lists_map]
  unfold allEdges Lin.polys stage at this
  rw [List.map_nil, List.append_nil, List.flatMap_map, List.flatMap_map] at this
  rw [List.flatMap_map]
  exact this

/-! ### Laws -/

/-- Difference with a union in one or in two steps. -/
theorem C74_minus (v : Nat → Bool) (a b c : Plan) : (Plan.op .difference a (.op .union b c)).truth v = (Plan.op .difference (.op .difference a b) c).truth v := by
  simp only [Plan.truth]; cases a.truth v <;> cases b.truth v <;> cases c.truth v <;> rfl

/-- Union and intersection do not depend on the order of steps. -/
theorem C74_assoc (v : Nat → Bool) (a b c : Plan) (o : BoolOp) (ho : o ≠ .difference) :
    (Plan.op o (.op o a b) c).truth v = (Plan.op o a (.op o b c)).truth v := by
  cases o <;> simp only [Plan.truth] <;> first | exact absurd rfl ho | (cases a.truth v <;> cases b.truth v <;> cases c.truth v <;> rfl)

theorem C74_distrib (v : Nat → Bool) (a b c : Plan) : (Plan.op .intersection a (.op .union b c)).truth v =
    (Plan.op .union (.op .intersection a b) (.op .intersection a c)).truth v := by
  simp only [Plan.truth]; cases a.truth v <;> cases b.truth v <;> cases c.truth v <;> rfl

theorem C74_xor (v : Nat → Bool) (a b : Plan) : (Plan.op .xor a b).truth v = (Plan.op .difference (.op .union a b) (.op .intersection a b)).truth v ∧
    (Plan.op .xor a b).truth v = (Plan.op .union (.op .difference a b) (.op .difference b a)).truth v := by
  simp only [Plan.truth]; cases a.truth v <;> cases b.truth v <;> exact ⟨rfl, rfl⟩

/-! ### Cases -/

theorem outOf_last {G : Type} {st : Clipper G × List TCall} {n : Nat} {o : List (List Pt)} :
    outOf (.ok (st, List.replicate n none ++ [some ⟨o, none⟩])) = some o := by
  unfold outOf
  simp

/-- What a run shows is given by a plan. -/
theorem gives_run {g : Nat → Bool × Bool} {ls : Nat → List (List Pt)} {o : BoolOp} {a b : Plan} {la lb out : List (List Pt)} {fuel : Nat}
    (ha : Gives lib ls a la) (hb : Gives lib ls b lb) (hf : Fine none (stage la lb)) (hx : ∀ e ∈ la.flatMap edges ++ lb.flatMap edges, Axis e)
    (h : outOf (run lib fuel ((stage la lb).map Poly.cmd ++ [.exec o false]) (Clipper.fresh g, [])) = some out) : Gives lib ls (.op o a b) out := by
  obtain ⟨N, st, out', e1, -⟩ := C52_exact (P := lib) (c := Clipper.fresh g) rfl (takeWhile_posOk id g) (fresh_empty g) hf (by rw [stage_edges]; exact axis_lattice hx) o []
  have := run_unique (P := lib) (n := fuel) (m := N) (cs := (stage la lb).map Poly.cmd ++ [.exec o false]) (s := (Clipper.fresh g, []))
    (by intro h0; rw [h0] at h; cases h) (by rw [e1 N le_rfl]; simp)
  rw [this, e1 N le_rfl, outOf_last, Option.some.injEq] at h
  subst h
  exact .op ha hb hf (e1 N le_rfl)

theorem lib_real (g : Nat → Bool × Bool) : ∃ r pos, lib.env1 g = realEnv id r pos ∧ PosOk (realEnv id r pos) := ⟨g, _, rfl, takeWhile_posOk id g⟩

/-- Three squares. -/
def three : Nat → List (List Pt)
  | 0 => [[⟨0, 0⟩, ⟨4, 0⟩, ⟨4, 4⟩, ⟨0, 4⟩]]
  | 1 => [[⟨2, 2⟩, ⟨6, 2⟩, ⟨6, 6⟩, ⟨2, 6⟩]]
  | 2 => [[⟨3, -2⟩, ⟨8, -2⟩, ⟨8, 3⟩, ⟨3, 3⟩]]
  | _ => []

theorem three_once (i : Nat) : AtMostOnce (three i) := by
  intro x y _
  match i with
  | 0 => exact square_wind 0 0 4 (by decide) x y
  | 1 => exact square_wind 2 2 4 (by decide) x y
  | 2 => exact square_wind 3 (-2) 5 (by decide) x y
  | _ + 3 => exact .inl rfl

def threeU : List (List Pt) := [[⟨2, 2⟩, ⟨3, 2⟩, ⟨3, -2⟩, ⟨8, -2⟩, ⟨8, 3⟩, ⟨6, 3⟩, ⟨6, 6⟩, ⟨2, 6⟩]]
def threeD : List (List Pt) := [[⟨0, 0⟩, ⟨4, 0⟩, ⟨4, 2⟩, ⟨2, 2⟩, ⟨2, 4⟩, ⟨0, 4⟩]]
def threeR : List (List Pt) := [[⟨0, 0⟩, ⟨3, 0⟩, ⟨3, 2⟩, ⟨2, 2⟩, ⟨2, 4⟩, ⟨0, 4⟩]]

/-- The first square less the union of the others. -/
def oneStep : Plan := .op .difference (.given 0) (.op .union (.given 1) (.given 2))

/-- The first square less the second, less the third. -/
def twoSteps : Plan := .op .difference (.op .difference (.given 0) (.given 1)) (.given 2)

theorem gives_oneStep : Gives lib three oneStep threeR :=
  gives_run (g := gen) (fuel := 200) (.given 0) (gives_run (g := gen) (fuel := 200) (out := threeU) (.given 1) (.given 2) (by decide +kernel) (by unfold Axis; decide +kernel)
    (by decide +kernel)) (by decide +kernel) (by unfold Axis; decide +kernel) (by decide +kernel)

theorem gives_twoSteps : Gives lib three twoSteps threeR :=
  gives_run (g := gen) (fuel := 200) (gives_run (g := gen) (fuel := 200) (out := threeD) (.given 0) (.given 1) (by decide +kernel) (by unfold Axis; decide +kernel)
    (by decide +kernel)) (.given 2) (by decide +kernel) (by unfold Axis; decide +kernel) (by decide +kernel)

theorem three_lattice : Lattice (oneStep.uses three) ∧ Lattice (twoSteps.uses three) :=
  ⟨axis_lattice (by unfold Axis; decide +kernel), axis_lattice (by unfold Axis; decide +kernel)⟩

example {out : List (List Pt)} (h : Gives lib three twoSteps out) : areaOf out = 20 := by
  rw [← (C74_same lib_real gives_oneStep h (fun v => C74_minus v _ _ _) three_lattice.1 three_lattice.2 three_once).1]
  decide

example (x y : ℚ) (ho : Off (oneStep.uses three) x y) : wind (threeR.flatMap edges) x y =
    if oneStep.truth (fun i => wind ((three i).flatMap edges) x y = 1) then 1 else 0 :=
  C74_steps lib_real gives_oneStep three_lattice.1 three_once x y ho

example (g : Nat → Bool × Bool) : ∃ N out, Gives lib three oneStep out ∧ ∀ fuel ≥ N, ∃ st, run lib fuel ((stage (three 0) threeU).map Poly.cmd ++ [.exec .difference false])
    (Clipper.fresh g, []) = .ok (st, List.replicate (stage (three 0) threeU).length none ++ [some ⟨out, none⟩]) :=
  C74_returns lib_real (by decide +kernel) (.given 0) (gives_run (g := gen) (fuel := 200) (out := threeU) (.given 1) (.given 2) (by decide +kernel) (by unfold Axis; decide +kernel)
    (by decide +kernel)) .difference g three_lattice.1

/-- A square, a square around it, and a square in it that is given clockwise. -/
def cutOut : Nat → List (List Pt)
  | 0 => [[⟨0, 0⟩, ⟨6, 0⟩, ⟨6, 6⟩, ⟨0, 6⟩]]
  | 1 => [[⟨-1, -1⟩, ⟨7, -1⟩, ⟨7, 7⟩, ⟨-1, 7⟩]]
  | 2 => [[⟨1, 1⟩, ⟨1, 3⟩, ⟨3, 3⟩, ⟨3, 1⟩]]
  | _ => []

def firstTwo : Plan := .op .union (.op .union (.given 0) (.given 1)) (.given 2)
def lastTwo : Plan := .op .union (.given 0) (.op .union (.given 1) (.given 2))

/-- Lists that wind backwards around places are left out for a reason: the order of two unions does matter. A polygon given clockwise is cut out of the sum of those given in the
same operation; here once it is cut out last, and once it is cut out first and then filled again. -/
theorem C74_backwards : (∀ v, firstTwo.truth v = lastTwo.truth v) ∧ Gives lib cutOut firstTwo (cutOut 1 ++ cutOut 2) ∧ Gives lib cutOut lastTwo (cutOut 1) ∧
    areaOf (cutOut 1 ++ cutOut 2) ≠ areaOf (cutOut 1) :=
  ⟨fun v => C74_assoc v _ _ _ .union (by decide),
    gives_run (g := gen) (fuel := 200) (gives_run (g := gen) (fuel := 200) (out := cutOut 1) (.given 0) (.given 1) (by decide +kernel) (by unfold Axis; decide +kernel)
      (by decide +kernel)) (.given 2) (by decide +kernel) (by unfold Axis; decide +kernel) (by decide +kernel),
    gives_run (g := gen) (fuel := 200) (.given 0) (gives_run (g := gen) (fuel := 200) (out := cutOut 1 ++ cutOut 2) (.given 1) (.given 2) (by decide +kernel) (by unfold Axis; decide +kernel)
      (by decide +kernel)) (by decide +kernel) (by unfold Axis; decide +kernel) (by decide +kernel), by decide⟩

end PolyOps.Exec
