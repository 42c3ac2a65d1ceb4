import Verif.Props.Balance
import Verif.Model.Loops
import Mathlib.Tactic.Ring
import Mathlib.Tactic.Linarith

/-! C32: the lines to keep balance around a vertex. C45: which line is chosen where several start. -/
namespace PolyOps.Loops
open PolyOps PolyOps.Sweep

/-! ### C32

A line end at a vertex: the set of the line and whether the line starts (`out`) or ends there. Going around the vertex from
sector to sector, crossing a line that starts there goes from its outer to its inner side, crossing one that ends there the other
way. (Around the other way round it is a list read backwards.) -/
structure Ray where
  set : BSet
  out : Bool
deriving DecidableEq, Repr

/-- The winding numbers after crossing a line. -/
def Ray.cross (w : Wn) (r : Ray) : Wn :=
  let d : Int := if r.out then 1 else -1
  ⟨if r.set = .subject then w.s + d else w.s, if r.set = .clip then w.c + d else w.c⟩

/-- The winding numbers on the outer side of the line, if `w` are those before crossing it. -/
def Ray.outer (w : Wn) (r : Ray) : Wn := if r.out then w else r.cross w

/-- The lines around a vertex with their classes, starting in a sector with winding numbers `w`. -/
def around (op : BoolOp) : Wn → List Ray → List (Ray × LState)
  | _, [] => []
  | w, r :: l => (r, lbResult op r.set (r.outer w)) :: around op (r.cross w) l

/-- In its direction of use the line starts at the vertex. -/
def leaves (x : Ray × LState) : Bool := x.1.out != x.2.rev

theorem around_telescope (op : BoolOp) (φ : Wn → Int) (g : Ray × LState → Int)
    (h : ∀ w r, φ (r.cross w) - φ w = g (r, lbResult op r.set (r.outer w))) :
    ∀ (l : List Ray) (w : Wn), ((around op w l).map g).sum = φ (l.foldl (fun w r => r.cross w) w) - φ w
  | [], w => by simp [around]
  | r :: l, w => by
    rw [around, List.map_cons, List.sum_cons, around_telescope op φ g h l, List.foldl_cons, ← h w r]
    omega

theorem foldl_cross : ∀ (l : List Ray) (w : Wn),
    l.foldl (fun w r => r.cross w) w =
      ⟨w.s + (l.countP (fun r => r.set = .subject && r.out) - l.countP (fun r => r.set = .subject && !r.out) : Int),
        w.c + (l.countP (fun r => r.set = .clip && r.out) - l.countP (fun r => r.set = .clip && !r.out) : Int)⟩
  | [], w => by simp
  | r :: l, w => by
    rw [List.foldl_cons, foldl_cross l]
    rcases r with ⟨k, o⟩
    cases k <;> cases o <;> simp [Ray.cross] <;> omega

theorem sum_count {α : Type} (p q : α → Bool) : ∀ l : List α,
    (l.map (fun x => if p x then (if q x then (1 : Int) else -1) else 0)).sum =
      (l.countP (fun x => p x && q x) : Int) - l.countP (fun x => p x && !q x)
  | [] => by simp
  | a :: l => by
    rw [List.map_cons, List.sum_cons, sum_count p q l]
    cases h : p a <;> cases h' : q a <;> simp [h, h'] <;> omega

/-- Both sets close up: of each as many lines end at the vertex as start there. -/
def Closed (l : List Ray) : Prop := ∀ k : BSet, l.countP (fun r => r.set = k && r.out) = l.countP (fun r => r.set = k && !r.out)

theorem Closed.fold {l : List Ray} (h : Closed l) (w : Wn) : l.foldl (fun w r => r.cross w) w = w := by
  rw [foldl_cross, h .subject, h .clip]
  simp

/-- 1 inside the result, 0 outside. -/
def regionI (op : BoolOp) (w : Wn) : Int := if region op w.s w.c then 1 else 0

theorem keep_step (op : BoolOp) (w : Wn) (r : Ray) :
    regionI op (r.cross w) - regionI op w =
      (fun x => if x.2.keep then (if leaves x then (1 : Int) else -1) else 0) (r, lbResult op r.set (r.outer w)) := by
  rcases r with ⟨k, o⟩
  rcases w with ⟨s, c⟩
  have hk := fun a b => C20_kept_iff op k a b
  have hr := fun a b => C20_reversed_iff op k a b
  dsimp only
  cases o
  · have e : (Ray.outer ⟨s, c⟩ ⟨k, false⟩) = Ray.cross ⟨s, c⟩ ⟨k, false⟩ := rfl
    rw [e]
    generalize hx : Ray.cross ⟨s, c⟩ ⟨k, false⟩ = x
    have h1 : innerS k x.s = s := by rw [← hx]; cases k <;> simp [Ray.cross, innerS]
    have h2 : innerC k x.c = c := by rw [← hx]; cases k <;> simp [Ray.cross, innerC]
    have hk := hk x.s x.c
    have hr := hr x.s x.c
    rw [h1, h2] at hk
    unfold regionI
    dsimp only
    by_cases a : (lbResult op k x).keep = true
    · have hr := hr a
      rw [if_pos a]
      have hk := hk.mp a
      by_cases b : (lbResult op k x).rev = true
      · have q := hr.mp b
        rw [if_pos q, if_neg (fun d => hk (iff_of_true q d)), if_pos (by simp [leaves, b])]; rfl
      · have q := fun q => b (hr.mpr q)
        rw [if_neg q, if_pos (by by_contra d; exact hk (iff_of_false q d)), if_neg (by simp [leaves, b])]; rfl
    · rw [if_neg a]
      have hk := not_not.mp (fun q => a (hk.mpr q))
      by_cases q : region op s c
      · rw [if_pos (hk.mpr q), if_pos q]; simp
      · rw [if_neg (fun c => q (hk.mp c)), if_neg q]; simp
  · have e : (Ray.outer ⟨s, c⟩ ⟨k, true⟩) = ⟨s, c⟩ := rfl
    rw [e]
    generalize hx : Ray.cross ⟨s, c⟩ ⟨k, true⟩ = x
    have h1 : innerS k s = x.s := by rw [← hx]; cases k <;> simp [Ray.cross, innerS]
    have h2 : innerC k c = x.c := by rw [← hx]; cases k <;> simp [Ray.cross, innerC]
    have hk := hk s c
    have hr := hr s c
    rw [h1, h2] at hk
    unfold regionI
    dsimp only
    by_cases a : (lbResult op k ⟨s, c⟩).keep = true
    · have hr := hr a
      rw [if_pos a]
      have hk := hk.mp a
      by_cases b : (lbResult op k ⟨s, c⟩).rev = true
      · have q := hr.mp b
        rw [if_pos q, if_neg (fun d => hk (iff_of_true q d)), if_neg (by simp [leaves, b])]; rfl
      · have q := fun q => b (hr.mpr q)
        rw [if_neg q, if_pos (by by_contra d; exact hk (iff_of_false q d)), if_pos (by simp [leaves, b])]; rfl
    · rw [if_neg a]
      have hk := not_not.mp (fun q => a (hk.mpr q))
      by_cases q : region op s c
      · rw [if_pos (hk.mp q), if_pos q]; simp
      · rw [if_neg (fun c => q (hk.mpr c)), if_neg q]; simp

/-- C32: around every vertex, for each operation, as many lines to keep start there as end there, in their direction of use. -/
theorem C32_kept (op : BoolOp) (l : List Ray) (h : Closed l) (w : Wn) :
    (around op w l).countP (fun x => x.2.keep && leaves x) = (around op w l).countP (fun x => x.2.keep && !leaves x) := by
  have t := around_telescope op (regionI op) (fun x => if x.2.keep then (if leaves x then (1 : Int) else -1) else 0) (keep_step op) l w
  rw [h.fold, sum_count (fun x : Ray × LState => x.2.keep) leaves] at t
  omega

/-- What the reversed lines bound. -/
def revI (op : BoolOp) (w : Wn) : Int :=
  match op with
  | .union | .intersection => 0
  | .xor => if 0 < w.s ∧ 0 < w.c then 1 else 0
  | .difference => if 0 < w.c then 1 else 0
  | .normalize => (w.s + w.c) / 2

theorem rev_step (op : BoolOp) (w : Wn) (r : Ray) :
    revI op (r.cross w) - revI op w =
      (fun x => if x.2.rev then (if x.1.out then (1 : Int) else -1) else 0) (r, lbResult op r.set (r.outer w)) := by
  rcases r with ⟨k, o⟩
  rcases w with ⟨s, c⟩
  cases op <;> cases k <;> cases o <;>
    simp only [revI, Ray.cross, Ray.outer, lbResult, LState.kept, LState.discard, LState.keepRev, LState.discardRev, tmod2,
      if_true, if_false, reduceCtorEq, Bool.false_eq_true, sub_self]
  all_goals (repeat' split)
  all_goals (try simp only [if_true, if_false, Bool.false_eq_true, reduceCtorEq])
  all_goals first
    | omega
    | simp_all
    | skip

/-- C32: and as many lines that are to be reversed start there as end there. -/
theorem C32_reversed (op : BoolOp) (l : List Ray) (h : Closed l) (w : Wn) :
    (around op w l).countP (fun x => x.2.rev && x.1.out) = (around op w l).countP (fun x => x.2.rev && !x.1.out) := by
  have t := around_telescope op (revI op) (fun x => if x.2.rev then (if x.1.out then (1 : Int) else -1) else 0) (rev_step op) l w
  rw [h.fold, sum_count (fun x : Ray × LState => x.2.rev) (fun x => x.1.out)] at t
  omega

/-- Two crossing loops: each has a line that starts and one that ends at the vertex. -/
def exRays : List Ray := [⟨.subject, true⟩, ⟨.clip, true⟩, ⟨.subject, false⟩, ⟨.clip, false⟩]

theorem exRays_closed : Closed exRays := by intro k; cases k <;> decide

example : (around .xor ⟨0, 0⟩ exRays).map (fun x => (x.2, leaves x)) =
    [(.kept, true), (.keepRev, false), (.keepRev, true), (.kept, false)] := by decide

example : (around .xor ⟨0, 0⟩ exRays).countP (fun x => x.2.keep && leaves x) =
    (around .xor ⟨0, 0⟩ exRays).countP (fun x => x.2.keep && !leaves x) := C32_kept _ _ exRays_closed _

/-! ### C45

After the line from `q` to `p`, turn from the direction back to `q` (never itself) to the right side, straight on, then to the left
side. (Right and left are those of the source, where `triangle_winding` is negative on the left.) `before q p a b`: the direction
to `a` is met strictly before that to `b`; the line to `a` is the sharper turn. -/

/-- `e` is left of the line from `p1` to `p2`. -/
def leftOf (p1 p2 e : Pt) : Prop := (p2.x - p1.x) * (e.y - p1.y) < (e.x - p1.x) * (p2.y - p1.y)

def before (q p a b : Pt) : Prop := (¬leftOf q p a ∧ leftOf q p b) ∨ ((leftOf q p a ↔ leftOf q p b) ∧ leftOf p a b)

/-- `e` is not at `p` and not on the way back to `q`. -/
def NotBack (q p e : Pt) : Prop :=
  e ≠ p ∧ ¬((p.x - q.x) * (e.y - p.y) = (e.x - p.x) * (p.y - q.y) ∧ (p.x - q.x) * (e.x - p.x) + (p.y - q.y) * (e.y - p.y) < 0)

/-- Coordinates of `e - p` across and along `p - q`. -/
def ac (q p e : Pt) : Int := (p.x - q.x) * (e.y - p.y) - (e.x - p.x) * (p.y - q.y)
def al (q p e : Pt) : Int := (p.x - q.x) * (e.x - p.x) + (p.y - q.y) * (e.y - p.y)

theorem leftOf_ac (q p e : Pt) : leftOf q p e ↔ ac q p e < 0 := by
  unfold leftOf ac
  constructor <;> intro h <;> nlinarith

theorem leftOf_tw (q p e : Pt) : leftOf q p e ↔ triangleWinding q p e < 0 := by
  unfold leftOf triangleWinding
  omega

theorem ne_sq {q p : Pt} (h : q ≠ p) : 0 < (p.x - q.x) * (p.x - q.x) + (p.y - q.y) * (p.y - q.y) := by
  by_cases a : p.x - q.x = 0
  · have b : p.y - q.y ≠ 0 := by
      intro b; apply h; rcases q with ⟨x, y⟩; rcases p with ⟨x', y'⟩
      simp only [Pt.mk.injEq] at *; omega
    have := mul_self_pos.mpr b
    have := mul_self_nonneg (p.x - q.x)
    omega
  · have := mul_self_pos.mpr a
    have := mul_self_nonneg (p.y - q.y)
    omega

theorem leftOf_al {q p : Pt} (h : q ≠ p) (a b : Pt) : leftOf p a b ↔ al q p a * ac q p b < ac q p a * al q p b := by
  have d := ne_sq h
  have e : al q p a * ac q p b - ac q p a * al q p b =
      ((p.x - q.x) * (p.x - q.x) + (p.y - q.y) * (p.y - q.y)) * ((a.x - p.x) * (b.y - p.y) - (b.x - p.x) * (a.y - p.y)) := by
    unfold al ac; ring
  unfold leftOf
  generalize (p.x - q.x) * (p.x - q.x) + (p.y - q.y) * (p.y - q.y) = D at *
  generalize hX : (a.x - p.x) * (b.y - p.y) - (b.x - p.x) * (a.y - p.y) = X at *
  have : (a.x - p.x) * (b.y - p.y) < (b.x - p.x) * (a.y - p.y) ↔ X < 0 := by omega
  rw [this]
  constructor
  · intro h; have := mul_neg_of_pos_of_neg d h; omega
  · intro h
    by_contra c
    have := mul_nonneg d.le (not_lt.mp c)
    omega

theorem NotBack.fwd {q p e : Pt} (hq : q ≠ p) (h : NotBack q p e) (h0 : ac q p e = 0) : 0 < al q p e := by
  have h1 : ¬al q p e < 0 := fun c => h.2 ⟨by unfold ac at h0; omega, c⟩
  rcases Int.lt_or_eq_of_le (not_lt.mp h1) with c | c
  · exact c
  · exfalso
    have d := ne_sq hq
    have e1 : ((p.x - q.x) * (p.x - q.x) + (p.y - q.y) * (p.y - q.y)) * (e.x - p.x) = (p.x - q.x) * al q p e - (p.y - q.y) * ac q p e := by
      unfold al ac; ring
    have e2 : ((p.x - q.x) * (p.x - q.x) + (p.y - q.y) * (p.y - q.y)) * (e.y - p.y) = (p.y - q.y) * al q p e + (p.x - q.x) * ac q p e := by
      unfold al ac; ring
    rw [h0, ← c, mul_zero, mul_zero] at e1 e2
    have e1 := (mul_eq_zero.mp e1).resolve_left (by omega)
    have e2 := (mul_eq_zero.mp e2).resolve_left (by omega)
    apply h.1
    rcases e with ⟨x, y⟩; rcases p with ⟨x', y'⟩
    simp only [Pt.mk.injEq] at *; omega

theorem before_asymm {q p a b : Pt} (h : before q p a b) : ¬before q p b a := by
  unfold before leftOf at *
  rcases h with ⟨h1, h2⟩ | ⟨h1, h2⟩
  · rintro (⟨h3, _⟩ | ⟨h3, _⟩)
    · exact h3 h2
    · exact h1 (h3.mp h2)
  · rintro (⟨h3, h4⟩ | ⟨_, h4⟩)
    · exact h3 (h1.mp h4)
    · nlinarith

theorem before_trans' {q p a b c : Pt} (hq : q ≠ p) (ha : NotBack q p a) (hb : NotBack q p b) (hc : NotBack q p c)
    (h1 : ¬before q p b a) (h2 : ¬before q p c b) : ¬before q p c a := by
  have fa := ha.fwd hq
  have fb := hb.fwd hq
  have fc := hc.fwd hq
  simp only [before, leftOf_al hq, leftOf_ac q p] at *
  generalize ac q p a = Ta at *
  generalize ac q p b = Tb at *
  generalize ac q p c = Tc at *
  generalize al q p a = sa at *
  generalize al q p b = sb at *
  generalize al q p c = sc at *
  rintro (⟨h3, h4⟩ | ⟨h3, h4⟩)
  · by_cases k : Tb < 0
    · exact h2 (.inl ⟨h3, k⟩)
    · exact h1 (.inl ⟨k, h4⟩)
  · by_cases l : Ta < 0
    · have lc := h3.mpr l
      have lb : Tb < 0 := by by_contra k; exact h1 (.inl ⟨k, l⟩)
      have g1 : Tb * sa ≤ sb * Ta := by by_contra k; exact h1 (.inr ⟨by simp [l, lb], by omega⟩)
      have g2 : Tc * sb ≤ sc * Tb := by by_contra k; exact h2 (.inr ⟨by simp [lc, lb], by omega⟩)
      have k1 := mul_le_mul_of_nonpos_right g1 lc.le
      have k2 := mul_le_mul_of_nonpos_right g2 l.le
      have k3 := mul_lt_mul_of_neg_right h4 lb
      nlinarith
    · have lc : ¬Tc < 0 := fun k => l (h3.mp k)
      have lb : ¬Tb < 0 := by intro k; exact h2 (.inl ⟨lc, k⟩)
      have g1 : Tb * sa ≤ sb * Ta := by by_contra k; exact h1 (.inr ⟨by simp [l, lb], by omega⟩)
      have g2 : Tc * sb ≤ sc * Tb := by by_contra k; exact h2 (.inr ⟨by simp [lc, lb], by omega⟩)
      rcases Int.lt_or_eq_of_le (not_lt.mp lb) with k | k
      · have k1 := mul_le_mul_of_nonneg_right g1 (not_lt.mp lc)
        have k2 := mul_le_mul_of_nonneg_right g2 (not_lt.mp l)
        have k3 := mul_lt_mul_of_pos_right h4 k
        nlinarith
      · have hsb := fb k.symm
        rw [← k, mul_zero] at g2
        have : Tc = 0 := by
          rcases Int.lt_or_eq_of_le (not_lt.mp lc) with m | m
          · have := mul_pos m hsb; omega
          · exact m.symm
        have hsc := fc this
        rw [this, zero_mul] at h4
        have := mul_nonneg hsc.le (not_lt.mp l)
        omega

theorem pickFrom_spec {q p : Pt} (hq : q ≠ p) {ends : List Pt} (hb : ∀ e ∈ ends, NotBack q p e) :
    ∀ (fuel b i : Nat), b < ends.length → i ≤ ends.length → ends.length < i + fuel + 1 →
      (∀ j < i, ¬before q p (ends.getD j default) (ends.getD b default)) →
      let r := pickFrom q p ends b (decide (triangleWinding q p (ends.getD b default) < 0)) i fuel
      r < ends.length ∧ ∀ j < ends.length, ¬before q p (ends.getD j default) (ends.getD r default)
  | 0, b, i, h1, h2, h3, h4 => by
    have : i = ends.length := by omega
    exact ⟨h1, this ▸ h4⟩
  | fuel + 1, b, i, h1, h2, h3, h4 => by
    unfold pickFrom
    by_cases hi : i < ends.length
    · rw [dif_pos hi]
      have ei : ends[i] = ends.getD i default := by
        rw [List.getD_eq_getElem?_getD, List.getElem?_eq_getElem hi]; rfl
      have nb : ∀ j, j < ends.length → NotBack q p (ends.getD j default) := by
        intro j hj
        apply hb
        rw [List.getD_eq_getElem?_getD, List.getElem?_eq_getElem hj]
        exact List.getElem_mem hj
      dsimp only
      rw [ei]
      have key : (!(if (decide (triangleWinding q p (ends.getD b default) < 0)) = true then
          (decide (triangleWinding q p (ends.getD i default) < 0)) && (decide (triangleWinding p (ends.getD b default) (ends.getD i default) < 0))
          else (decide (triangleWinding q p (ends.getD i default) < 0)) || (decide (triangleWinding p (ends.getD b default) (ends.getD i default) < 0))))
          = true ↔ ¬before q p (ends.getD b default) (ends.getD i default) := by
        unfold before
        rw [leftOf_tw, leftOf_tw, leftOf_tw]
        by_cases u : triangleWinding q p (ends.getD b default) < 0 <;> by_cases v : triangleWinding q p (ends.getD i default) < 0 <;>
          by_cases x : triangleWinding p (ends.getD b default) (ends.getD i default) < 0 <;>
          simp only [u, v, x, decide_true, decide_false, if_true, if_false, Bool.false_eq_true] <;> decide
      by_cases c : before q p (ends.getD b default) (ends.getD i default)
      · rw [if_neg (fun d => (key.mp d) c)]
        refine pickFrom_spec hq hb fuel b (i + 1) h1 (by omega) (by omega) ?_
        intro j hj
        by_cases e : j = i
        · rw [e]; exact before_asymm c
        · exact h4 j (by omega)
      · rw [if_pos (key.mpr c)]
        refine pickFrom_spec hq hb fuel i (i + 1) hi (by omega) (by omega) ?_
        intro j hj
        by_cases e : j = i
        · rw [e]; exact fun d => before_asymm d d
        · exact before_trans' hq (nb i hi) (nb b h1) (nb j (by omega)) c (h4 j (by omega))
    · rw [dif_neg hi]
      have : i = ends.length := by omega
      exact ⟨h1, this ▸ h4⟩

/-- C45: where several lines start at `p` and none leads back towards `q`, none of them is a sharper turn than the chosen one. -/
theorem C45_pick {q p : Pt} (hq : q ≠ p) {ends : List Pt} (h0 : ends ≠ []) (hb : ∀ e ∈ ends, NotBack q p e) :
    pick q p ends < ends.length ∧ ∀ j < ends.length, ¬before q p (ends.getD j default) (ends.getD (pick q p ends) default) := by
  have hl : 0 < ends.length := List.length_pos_of_ne_nil h0
  unfold pick
  by_cases c : 1 < ends.length
  · rw [if_pos c]
    refine pickFrom_spec hq hb ends.length 0 1 hl (by omega) (by omega) ?_
    intro j hj
    obtain rfl : j = 0 := by omega
    exact fun d => before_asymm d d
  · rw [if_neg c]
    refine ⟨hl, fun j hj => ?_⟩
    obtain rfl : j = 0 := by omega
    exact fun d => before_asymm d d

/-- `e` is the other end of the line from point `s`: the place of the next point, or of the one after it if the next is an anchor. -/
def FarEnd (w : Work) (s : Nat) (e : Pt) : Prop :=
  ∃ j, (w.lp j).anchor = false ∧ (w.lp j).data = e ∧
    (j = (w.lp s).next ∨ ((w.lp (w.lp s).next).anchor = true ∧ j = (w.lp (w.lp s).next).next))

theorem FarEnd.naEnd {w : Work} {s : Nat} {e : Pt} (h : FarEnd w s e) : w.naEnd s = e := by
  obtain ⟨j, h1, h2, h3 | ⟨h3, h4⟩⟩ := h
  · unfold Work.naEnd
    rw [← h3]
    simp [h1, h2]
  · unfold Work.naEnd
    simp [h3, ← h4, h2]

/-- C45, where it is used: the line that a broken end is joined to starts where the end lies, and of all lines waiting there none is
a sharper turn. -/
theorem C45_join {w w' : Work} {i : Nat} (h : w.join i = some w') (hq : (w.lp i).data ≠ w.endPoint i) (far : Nat → Pt)
    (hfar : ∀ s ∈ w.starts (w.endPoint i), FarEnd w s (far s))
    (hb : ∀ s ∈ w.starts (w.endPoint i), NotBack (w.lp i).data (w.endPoint i) (far s)) :
    (w'.lp i).next ∈ w.starts (w.endPoint i) ∧
      ∀ s ∈ w.starts (w.endPoint i), ¬before (w.lp i).data (w.endPoint i) (far s) (far (w'.lp i).next) := by
  unfold Work.join at h
  dsimp only at h
  generalize ep : w.endPoint i = p at *
  generalize eos : w.starts p = os at *
  generalize eq : (w.lp i).data = q at *
  have em : os.map w.naEnd = os.map far := List.map_congr_left fun s hs => (hfar s hs).naEnd
  rw [em] at h
  by_cases h0 : os = []
  · rw [h0] at h; simp at h
  have h1 : os.map far ≠ [] := by simpa using h0
  have hp := C45_pick hq h1 (by
    intro e he
    obtain ⟨s, hs, rfl⟩ := List.mem_map.mp he
    exact hb s hs)
  generalize pick q p (os.map far) = r at *
  have hr : r < os.length := by simpa using hp.1
  rw [List.getElem?_eq_getElem hr] at h
  have h := Option.some.inj h
  have en : (w'.lp i).next = os[r] := by rw [← h]; simp [setFn]
  rw [en]
  refine ⟨List.getElem_mem hr, ?_⟩
  intro s hs
  obtain ⟨j, hj, rfl⟩ := List.getElem_of_mem hs
  have := hp.2 j (by simpa using hj)
  simpa [List.getD_eq_getElem?_getD, List.getElem?_map, hj, hr] using this

/-- The case of `C45_pick`: after (0,0) → (4,0), of the lines straight on, to the right and sharp right, the last is taken. -/
example : pick ⟨0, 0⟩ ⟨4, 0⟩ [⟨8, 0⟩, ⟨4, 4⟩, ⟨2, 1⟩, ⟨4, -4⟩] = 2 := by decide
example : ∀ e ∈ [(⟨8, 0⟩ : Pt), ⟨4, 4⟩, ⟨2, 1⟩, ⟨4, -4⟩], NotBack ⟨0, 0⟩ ⟨4, 0⟩ e := by unfold NotBack; decide

/-- Without the condition on the way back the choice depends on the order of the list: straight on wins against straight back when
it is later in the list, and the other way round. -/
theorem C45_back_order : pick ⟨0, 0⟩ ⟨4, 0⟩ [⟨0, 0⟩, ⟨8, 0⟩] = 1 ∧ pick ⟨0, 0⟩ ⟨4, 0⟩ [⟨8, 0⟩, ⟨0, 0⟩] = 1 := by decide

end PolyOps.Loops
