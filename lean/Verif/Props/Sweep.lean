import Verif.Lemmas.SweepInv
import Verif.Props.GeomCross
import Verif.Props.GeomParallel

/-! Properties C26 (splits), C27, C28 and C47: the intersection sweep keeps its bookkeeping consistent, for every
rounding, every sequence of random decisions and every place the tree may put a node. -/
namespace PolyOps.Sweep
open PolyOps PolyOps.Events

/-! ### The intersection test of the library -/

/-- The sweep with the library's intersection test: `rnd` is floating-point rounding, `r k` the two random decisions of
the `k`-th call and `pos` the place the tree puts a node. -/
def realEnv (rnd : Rat → Rat) (r : Nat → Bool × Bool) (pos : Clip → Nat → Nat) : Env :=
  ⟨fun k s1 s2 => intersects rnd (r k).1 (r k).2 s1 s2, pos⟩

theorem parallel_both {s1 s2 : CSeg} {r : Isect} (h : intersectsParallel s1 s2 = some r) : r.e0 = .both ↔ r.e1 = .both := by
  unfold intersectsParallel at h
  simp only at h
  split at h
  · cases h
  split at h
  · cases h; simp
  split at h
  · cases h; simp
  split at h
  · cases h; simp
  split at h
  · cases h; simp
  split at h
  · split at h
    · split at h
      · split at h <;> cases h <;> simp
      · split at h <;> cases h; simp
    · split at h
      · split at h <;> cases h <;> simp
      · split at h <;> cases h; simp
  · cases h

/-- A line is only split at a point that was computed and differs from its ends. -/
theorem realEnv_ok (rnd : Rat → Rat) (r : Nat → Bool × Bool) (pos : Clip → Nat → Nat) : EnvOk (realEnv rnd r pos) := by
  intro k s1 s2 q h1 h2 h
  change intersects rnd (r k).1 (r k).2 s1 s2 = some q at h
  by_cases hd : isD s1 s2 = 0
  · unfold intersects at h
    simp only at h
    rw [if_pos hd] at h
    obtain ⟨p1, p2, p3⟩ := C17_report s1 s2 hd h1 h2 q h
    refine ⟨parallel_both h, ?_, ?_⟩
    · intro he
      cases hp : q.p with
      | none => rw [(p1.mp hp).1] at he; cases he
      | some c =>
        obtain ⟨_, _, a1, a2, a3, a4⟩ := p3 c hp
        exact ⟨c, rfl, fun hc => (by rw [a1.mpr hc.symm] at he; cases he), fun hc => (by rw [a2.mpr hc.symm] at he; cases he)⟩
    · intro he
      cases hp : q.p with
      | none => rw [(p1.mp hp).2] at he; cases he
      | some c =>
        obtain ⟨_, _, a1, a2, a3, a4⟩ := p3 c hp
        exact ⟨c, rfl, fun hc => (by rw [a3.mpr hc.symm] at he; cases he), fun hc => (by rw [a4.mpr hc.symm] at he; cases he)⟩
  · unfold intersects at h
    simp only at h
    rw [if_neg hd] at h
    have z1 : s1.pa = s2.pa → isT s1 s2 = 0 ∧ isU s1 s2 = 0 := by
      intro e; unfold isT isU; rw [e]; constructor <;> ring
    have z2 : s1.pa = s2.pb → isT s1 s2 = 0 ∧ isU s1 s2 = isD s1 s2 := by
      intro e; unfold isT isU isD; rw [e]; constructor <;> ring
    have z3 : s1.pb = s2.pa → isT s1 s2 = isD s1 s2 ∧ isU s1 s2 = 0 := by
      intro e; unfold isT isU isD; rw [e]; constructor <;> ring
    have z4 : s1.pb = s2.pb → isT s1 s2 = isD s1 s2 ∧ isU s1 s2 = isD s1 s2 := by
      intro e; unfold isT isU isD; rw [e]; constructor <;> ring
    have edge : isEdge (isU s1 s2) (isD s1 s2) ≠ .both ∧ (isEdge (isU s1 s2) (isD s1 s2) = .no → isU s1 s2 ≠ 0 ∧ isU s1 s2 ≠ isD s1 s2) := by
      unfold isEdge
      split
      · simp
      · split
        · simp
        · rename_i a b; exact ⟨by simp, fun _ => ⟨a, b⟩⟩
    split at h
    · cases h
    split at h
    · cases h
    split at h
    · cases h
    split at h
    · rename_i ht
      cases h
      refine ⟨⟨fun h => (by cases h), fun h => absurd h edge.1⟩, fun h => (by cases h), fun h => ⟨_, rfl, ?_, ?_⟩⟩
      · intro hc; exact (edge.2 h).1 (z1 hc.symm).2
      · intro hc; exact (edge.2 h).2 (z2 hc.symm).2
    split at h
    · rename_i ht
      cases h
      refine ⟨⟨fun h => (by cases h), fun h => absurd h edge.1⟩, fun h => (by cases h), fun h => ⟨_, rfl, ?_, ?_⟩⟩
      · intro hc; exact (edge.2 h).1 (z3 hc.symm).2
      · intro hc; exact (edge.2 h).2 (z4 hc.symm).2
    split at h
    · rename_i t0 td hu
      cases h
      refine ⟨by simp, fun _ => ⟨_, rfl, ?_, ?_⟩, fun h => (by cases h)⟩
      · intro hc; exact t0 (z1 hc).1
      · intro hc; exact td (z3 hc).1
    split at h
    · rename_i t0 td u0 hu
      cases h
      refine ⟨by simp, fun _ => ⟨_, rfl, ?_, ?_⟩, fun h => (by cases h)⟩
      · intro hc; exact t0 (z2 hc).1
      · intro hc; exact td (z4 hc).1
    · cases h
      simp only [crossing]
      generalize (⟨_, _⟩ : Pt) = p
      refine ⟨⟨?_, ?_⟩, ?_, ?_⟩
      · split
        · simp
        · split <;> simp
      · split
        · simp
        · split <;> simp
      · intro he
        refine ⟨p, rfl, fun hc => ?_, fun hc => ?_⟩
        · rw [if_pos hc.symm] at he; cases he
        · split at he
          · cases he
          · rw [if_pos hc.symm] at he; cases he
      · intro he
        refine ⟨p, rfl, fun hc => ?_, fun hc => ?_⟩
        · rw [if_pos hc.symm] at he; cases he
        · split at he
          · cases he
          · rw [if_pos hc.symm] at he; cases he

/-! ### C28 -/

section
variable {env : Env} (he : EnvOk env) {lp : Nat → LP} {np : Nat} (hl : Loops lp np) {s : Clip} (hr : Clip.Reach env lp np s)
include he hl hr

/-- C28: while events are left an iteration neither fails an assertion nor touches anything out of range. -/
theorem C28_step (hm : s.q.more = true) : ∃ t, s.step env = some t := by
  obtain ⟨t, ht, _⟩ := step_spec he (reach_spec he hl hr).1 hm
  exact ⟨t, ht⟩

/-- C28: at the head of every iteration the sweep holds, without repetition, exactly the nodes whose start event is not
deleted and has been passed, and whose end event has not been passed. -/
theorem C28_contents : s.sweep.Nodup ∧ ∀ n, n ∈ s.sweep ↔
    (∃ e ∈ applied s.q, e.node = n ∧ e.ty.isFwd = true ∧ e.del = false) ∧ ¬ ∃ e ∈ applied s.q, e.node = n ∧ e.ty.isFwd = false := by
  obtain ⟨h0, hd⟩ := (reach_spec he hl hr).1
  refine ⟨hd.nodup, fun n => ?_⟩
  obtain ⟨_, pA⟩ := applied_sorted h0.wf
  have mems : ∀ f ∈ applied s.q, f ∈ s.q.events := fun f hf => List.mem_of_mem_take (pA.subset hf)
  have nf : (n, false) ∈ nt (applied s.q) ↔ ∃ e ∈ applied s.q, e.node = n ∧ e.ty.isFwd = false := by
    rw [mem_nt]; simp [Ev.nt]
  rw [hd.mem, nf]
  constructor
  · rintro ⟨h1, h2, h3⟩
    obtain ⟨e, he1, he2⟩ := mem_nt.mp h2
    refine ⟨⟨e, he1, congrArg Prod.fst he2, congrArg Prod.snd he2, ?_⟩, h3⟩
    cases hdel : e.del with
    | false => rfl
    | true => exact absurd ⟨e, mems e he1, he2, hdel⟩ h1.2.2
  · rintro ⟨⟨e, he1, he2, he3, he4⟩, h3⟩
    have hnt : e.nt = (n, true) := by unfold Ev.nt; rw [he2, he3]
    obtain ⟨k1, k2, _⟩ := h0.ev_ok e (mems e he1)
    refine ⟨⟨he2 ▸ k1, he2 ▸ k2, ?_⟩, mem_nt.mpr ⟨e, he1, hnt⟩, h3⟩
    rintro ⟨f, hf1, hf2, hf3⟩
    rw [h0.key_nt hf1 (mems e he1) (hf2.trans hnt.symm), he4] at hf3
    cases hf3

/-- `e` is the start event of the line of point `i`. -/
def IsStart (s : Clip) (i : Nat) (e : Ev) : Prop := e ∈ s.q.events ∧ e.del = false ∧ e.ty.isFwd = true ∧ (e.a, e.b) = s.lineSeg i

/-- `e` is the end event of the line of point `i`. -/
def IsEnd (s : Clip) (i : Nat) (e : Ev) : Prop := e ∈ s.q.events ∧ e.del = false ∧ e.ty.isFwd = false ∧ (e.b, e.a) = s.lineSeg i

/-- C28: at the head of every iteration each line owns exactly one start event and one end event that are not deleted, they name
the same node, and every start event that is not deleted belongs to a line. -/
theorem C28_events : (∀ i < s.np, ∃ e f, IsStart s i e ∧ (∀ e', IsStart s i e' → e' = e) ∧ IsEnd s i f ∧ (∀ f', IsEnd s i f' → f' = f) ∧
      e.node = f.node ∧ s.seg e.node = s.lineSeg i) ∧
    ∀ e ∈ s.q.events, e.del = false → e.ty.isFwd = true → ∃ i < s.np, IsStart s i e := by
  obtain ⟨h0, hd⟩ := (reach_spec he hl hr).1
  have ends : ∀ e ∈ s.q.events, (e.ty.isFwd = true → (e.a, e.b) = s.seg e.node) ∧ (e.ty.isFwd = false → (e.b, e.a) = s.seg e.node) := by
    intro e he
    have hk := (h0.ev_ok e he).2.2
    constructor
    · intro hf
      rw [hf] at hk
      simp only [evKey, Ev.key, if_true, Prod.mk.injEq] at hk
      exact Prod.ext hk.2.1 hk.2.2
    · intro hf
      rw [hf] at hk
      simp only [evKey, Ev.key, Bool.false_eq_true, if_false, Prod.mk.injEq] at hk
      exact Prod.ext hk.2.2 hk.2.1
  constructor
  · intro i hi
    obtain ⟨n, hn, hs⟩ := h0.has i hi
    obtain ⟨e, e1, e2⟩ := mem_nt.mp (h0.ev_ex n true hn.1 hn.2.1)
    obtain ⟨f, f1, f2⟩ := mem_nt.mp (h0.ev_ex n false hn.1 hn.2.1)
    have en : e.node = n := congrArg Prod.fst e2
    have fn : f.node = n := congrArg Prod.fst f2
    have ef : e.ty.isFwd = true := congrArg Prod.snd e2
    have ff : f.ty.isFwd = false := congrArg Prod.snd f2
    refine ⟨e, f, ⟨e1, ?_, ef, ?_⟩, ?_, ⟨f1, ?_, ff, ?_⟩, ?_, en.trans fn.symm, en ▸ hs⟩
    · cases hdel : e.del with
      | false => rfl
      | true => exact absurd ⟨e, e1, e2, hdel⟩ hn.2.2
    · rw [(ends e e1).1 ef, en, hs]
    · rintro e' ⟨a1, a2, a3, a4⟩
      rw [(ends e' a1).1 a3, ← hs] at a4
      obtain ⟨k1, k2, _⟩ := h0.ev_ok e' a1
      have := h0.seg_inj _ _ k1 k2 hn.1 hn.2.1 a4
      exact h0.key_nt a1 e1 (by unfold Ev.nt; rw [a3, this, ef, en])
    · cases hdel : f.del with
      | false => rfl
      | true => exact absurd (hd.del_b n ⟨f, f1, f2, hdel⟩) hn.2.2
    · rw [(ends f f1).2 ff, fn, hs]
    · rintro f' ⟨a1, a2, a3, a4⟩
      rw [(ends f' a1).2 a3, ← hs] at a4
      obtain ⟨k1, k2, _⟩ := h0.ev_ok f' a1
      have := h0.seg_inj _ _ k1 k2 hn.1 hn.2.1 a4
      exact h0.key_nt a1 f1 (by unfold Ev.nt; rw [a3, this, ff, fn])
  · intro e e1 e2 e3
    obtain ⟨k1, k2, _⟩ := h0.ev_ok e e1
    have hlive : s.Live e.node := by
      refine ⟨k1, k2, ?_⟩
      rintro ⟨g, g1, g2, g3⟩
      rw [h0.key_nt g1 e1 (g2.trans (by unfold Ev.nt; rw [e3])), e2] at g3
      cases g3
    obtain ⟨i, hi, hs⟩ := h0.own _ hlive
    exact ⟨i, hi, e1, e2, e3, by rw [(ends e e1).1 e3, hs]⟩

/-- The queue at the end. -/
theorem final_queue (hm : s.q.more = false) : s.q.news = [] ∧ applied s.q = s.q.events ∧ s.q.last = s.q.events.length ∧
    Sorted s.x s.q.events := by
  obtain ⟨h0, hd⟩ := (reach_spec he hl hr).1
  unfold Queue.more at hm
  simp only [Bool.or_eq_false_iff, decide_eq_false_iff_not, not_lt, Bool.not_eq_false', List.isEmpty_iff] at hm
  have := h0.wf.cur_hi
  have := h0.wf.last_le
  have hl : s.q.last = s.q.events.length := by omega
  refine ⟨hm.2, ?_, hl, ?_⟩
  · unfold applied
    rw [if_pos hm.2]
    exact List.take_of_length_le (by omega)
  · have := h0.wf.sorted
    rw [hl, List.take_length] at this
    exact this

/-- C28: when no event is left the sweep is empty, the events are sorted, and every event that is not deleted is the start or the
end event of a line. -/
theorem C28_final (hm : s.q.more = false) : s.sweep = [] ∧ Sorted s.x s.q.events ∧
    ∀ e ∈ s.q.events, e.del = false → ∃ i < s.np, IsStart s i e ∨ IsEnd s i e := by
  obtain ⟨q1, q2, q3, q4⟩ := final_queue he hl hr hm
  obtain ⟨h0, hd⟩ := (reach_spec he hl hr).1
  refine ⟨?_, q4, ?_⟩
  · rw [List.eq_nil_iff_forall_not_mem]
    intro n hn
    obtain ⟨h1, h2, h3⟩ := (hd.mem n).mp hn
    rw [q2] at h3
    exact h3 (h0.ev_ex n false h1.1 h1.2.1)
  · intro e e1 e2
    cases e3 : e.ty.isFwd with
    | true =>
      obtain ⟨i, hi, h⟩ := (C28_events he hl hr).2 e e1 e2 e3
      exact ⟨i, hi, Or.inl h⟩
    | false =>
      obtain ⟨k1, k2, k3⟩ := h0.ev_ok e e1
      have hnt : e.nt = (e.node, false) := by unfold Ev.nt; rw [e3]
      have hlive : s.Live e.node := by
        refine ⟨k1, k2, fun hdead => ?_⟩
        obtain ⟨g, g1, g2, g3⟩ := hd.app_b e.node hdead (by rw [q2, ← hnt]; exact mem_nt.mpr ⟨e, e1, rfl⟩)
        rw [h0.key_nt g1 e1 (g2.trans hnt.symm), e2] at g3
        cases g3
      obtain ⟨i, hi, hs⟩ := h0.own _ hlive
      refine ⟨i, hi, Or.inr ⟨e1, e2, e3, ?_⟩⟩
      rw [e3] at k3
      simp only [evKey, Ev.key, Bool.false_eq_true, if_false, Prod.mk.injEq] at k3
      rw [← hs]
      exact Prod.ext k3.2.2 k3.2.1

/-! ### C27 -/

/-- C27: after any number of iterations the points still form closed loops; the original points keep position, set and
cyclic order, each original line having become a chain of lines through new points; and every new point
lies on the chain of an original line. -/
theorem C27_loops : Loops s.lp s.np ∧ Refine lp np s.lp s.np ∧ ∀ c < s.np, ∃ i < np, Via s.nexts np i c := by
  obtain ⟨h1, h2, h3⟩ := reach_spec he hl hr
  exact ⟨h1.1.toLoops, h2, (h3.via hl.next_lt).2⟩

/-- C26: the tracker gets one `new_point_between` call per split, and the calls name the ends of the split line: putting the new
points between the named ends, in the order of the calls, turns the original loops into the present ones. -/
theorem C26_splits : Splits (fun i => (lp i).next) np s.log s.nexts s.np ∧ s.np = np + s.log.length := by
  obtain ⟨h1, h2, h3⟩ := reach_spec he hl hr
  exact ⟨h3, h3.length⟩

end

/-! ### C47 -/

/-- Within a rectangle. -/
def Within (lo hi p : Pt) : Prop := lo.x ≤ p.x ∧ p.x ≤ hi.x ∧ lo.y ≤ p.y ∧ p.y ≤ hi.y

theorem parallel_pt {s1 s2 : CSeg} {r : Isect} {c : Pt} (h : intersectsParallel s1 s2 = some r) (hc : r.p = some c) :
    c = s1.pa ∨ c = s1.pb ∨ c = s2.pa ∨ c = s2.pb := by
  unfold intersectsParallel at h
  simp only at h
  split at h
  · cases h
  split at h
  · cases h; cases hc; simp
  split at h
  · cases h; cases hc; simp
  split at h
  · cases h; cases hc; simp
  split at h
  · cases h; cases hc; simp
  split at h
  · split at h
    · split at h
      · split at h <;> cases h <;> cases hc; simp
      · split at h <;> cases h; cases hc; simp
    · split at h
      · split at h <;> cases h <;> cases hc; simp
      · split at h <;> cases h; cases hc; simp
  · cases h

/-- A rectangle contains the points reported for segments within it, if rounding is monotone and exact on numbers up to its size. -/
theorem realEnv_in (rnd : Rat → Rat) (hm : RndMono rnd) (r : Nat → Bool × Bool) (pos : Clip → Nat → Nat) (lo hi : Pt)
    (hx : ∀ d : Int, |d| ≤ max (hi.x - lo.x) (hi.y - lo.y) → rnd d = d) : EnvIn (Within lo hi) (realEnv rnd r pos) := by
  intro k s1 s2 q c h1 h2 a1 a2 a3 a4 h hc
  change intersects rnd (r k).1 (r k).2 s1 s2 = some q at h
  by_cases hd : isD s1 s2 = 0
  · unfold intersects at h
    simp only at h
    rw [if_pos hd] at h
    rcases parallel_pt h hc with rfl | rfl | rfl | rfl <;> assumption
  · have hms : SharesIndex s1 s2 ∨ (Meet s1.pa s1.pb s2.pa s2.pb) := by
      by_contra hcon
      push Not at hcon
      have hb : ¬ InBoth s1 s2 := fun hb => hcon.2 ((meet_iff_inBoth s1 s2 hd).mpr hb)
      rw [(intersects_eq rnd _ _ s1 s2 hd hcon.1).2 hb] at h
      cases h
    unfold intersects at h
    simp only at h
    rw [if_neg hd] at h
    split at h
    · cases h
    rename_i hsh
    split at h
    · cases h
    split at h
    · cases h
    split at h
    · cases h; cases hc; exact a1
    split at h
    · cases h; cases hc; exact a2
    split at h
    · cases h; cases hc; exact a3
    split at h
    · cases h; cases hc; exact a4
    · rw [Option.some.injEq] at h
      subst h
      have hmeet : Meet s1.pa s1.pb s2.pa s2.pb := hms.resolve_left hsh
      have e1 : rnd ((s1.pb.x - s1.pa.x : Int) : Rat) = (s1.pb.x - s1.pa.x : Int) := by
        apply hx; unfold Within at a1 a2; rw [abs_le]; omega
      have e2 : rnd ((s1.pb.y - s1.pa.y : Int) : Rat) = (s1.pb.y - s1.pa.y : Int) := by
        apply hx; unfold Within at a1 a2; rw [abs_le]; omega
      have := C16_inBox rnd hm (r k).1 (r k).2 s1 s2 hd e1 e2 hmeet c hc
      unfold InBox at this
      unfold Within at *
      omega

/-- C47: whatever the random decisions, no point made by the sweep ever leaves a rectangle that contains the input points. -/
theorem C47_bounds (rnd : Rat → Rat) (hm : RndMono rnd) (r : Nat → Bool × Bool) (pos : Clip → Nat → Nat) (lo hi : Pt)
    (hx : ∀ d : Int, |d| ≤ max (hi.x - lo.x) (hi.y - lo.y) → rnd d = d) {lp : Nat → LP} {np : Nat} (hl : Loops lp np)
    (hin : ∀ i < np, Within lo hi (lp i).data) {s : Clip} (hr : Clip.Reach (realEnv rnd r pos) lp np s) :
    ∀ i < s.np, Within lo hi (s.lp i).data :=
  reach_in (realEnv_ok rnd r pos) hl (realEnv_in rnd hm r pos lo hi hx) hin hr

/-! ### A concrete case -/

/-- Up to `k` iterations of the sweep. -/
def Clip.run (env : Env) : Nat → Clip → Option Clip
  | 0, s => some s
  | k + 1, s => if s.q.more then (s.step env).bind (Clip.run env k) else some s

theorem run_reach {env : Env} {lp : Nat → LP} {np : Nat} (k : Nat) : ∀ {s t : Clip}, Clip.Reach env lp np s → s.run env k = some t →
    Clip.Reach env lp np t := by
  induction k with
  | zero => intro s t h1 h2; cases h2; exact h1
  | succ k ih =>
    intro s t h1 h2
    unfold Clip.run at h2
    split at h2
    · rename_i hm
      cases hs : s.step env with
      | none => rw [hs] at h2; cases h2
      | some u => rw [hs] at h2; exact ih (h1.step hm hs) h2
    · cases h2; exact h1

/-- A bow tie: its lines cross at (2, 2). -/
def exLp : Nat → LP
  | 0 => ⟨⟨0, 0⟩, 1, .subject, .undef⟩
  | 1 => ⟨⟨4, 4⟩, 2, .subject, .undef⟩
  | 2 => ⟨⟨4, 0⟩, 3, .subject, .undef⟩
  | _ => ⟨⟨0, 4⟩, 0, .subject, .undef⟩

theorem exLoops : Loops exLp 4 := by
  refine ⟨?_, ?_, ?_, ?_, ?_, ?_⟩ <;> decide

def exEnv : Env := realEnv id (fun _ => (true, false)) (fun s _ => s.sweep.length)

def exEnd : Option Clip := ((Clip.start exLp 4).addLines 4).bind (Clip.run exEnv 100)

/-- The sweep backtracks, splits both lines and ends with six points, two of them at the crossing. -/
example : exEnd.map (fun s => (s.np, s.q.more, s.q.events.length, s.log)) = some (6, false, 16, [(2, 3), (0, 1)]) ∧
    exEnd.map (fun s => ((s.lp 4).data, (s.lp 5).data)) = some (⟨2, 2⟩, ⟨2, 2⟩) := by decide +kernel

example : ∃ s, Clip.Reach exEnv exLp 4 s ∧ s.q.more = false ∧ s.np = 6 := by
  have h : exEnd.map (fun s => (s.np, s.q.more)) = some (6, false) := by decide +kernel
  cases hs : exEnd with
  | none => rw [hs] at h; cases h
  | some s =>
    rw [hs] at h
    simp only [Option.map_some, Option.some.injEq, Prod.mk.injEq] at h
    refine ⟨s, ?_, h.2, h.1⟩
    unfold exEnd at hs
    cases ha : (Clip.start exLp 4).addLines 4 with
    | none => rw [ha] at hs; cases hs
    | some t => rw [ha] at hs; exact run_reach 100 (.init ha) hs

end PolyOps.Sweep
