import Verif.Model.Clipper

/-! The step count that the loops of the model take does not matter: a run that ends is the same with every larger count. -/
namespace PolyOps.Clipper
open PolyOps PolyOps.Events PolyOps.Sweep PolyOps.Loops PolyOps.Hierarchy

/-- The first ran out of steps, or both are the same. -/
def Out.Le {α : Type} (a b : Out α) : Prop := a = .fuel ∨ a = b

theorem Out.Le.refl {α : Type} (a : Out α) : a.Le a := .inr rfl

theorem Out.Le.bind {α β : Type} {a b : Out α} (h : a.Le b) {f g : α → Out β} (hf : ∀ x, (f x).Le (g x)) : (a.bind f).Le (b.bind g) := by
  rcases h with rfl | rfl
  · exact .inl rfl
  · cases a with
    | ok x => exact hf x
    | bad => exact .inr rfl
    | fuel => exact .inl rfl

theorem sweep1_more (env : Env) {n m : Nat} (h : n ≤ m) : ∀ s, (sweep1 env n s).Le (sweep1 env m s) := by
  induction n generalizing m with
  | zero => intro s; exact .inl rfl
  | succ n ih =>
    intro s
    obtain ⟨m, rfl⟩ : ∃ k, m = k + 1 := ⟨m - 1, by omega⟩
    unfold sweep1
    split
    · exact (Out.Le.refl _).bind fun s => ih (by omega) s
    · exact .inr rfl

theorem sweep2_more (env : Env) (op : BoolOp) {n m : Nat} (h : n ≤ m) : ∀ s r, (sweep2 env op n s r).Le (sweep2 env op m s r) := by
  induction n generalizing m with
  | zero => intro s r; exact .inl rfl
  | succ n ih =>
    intro s r
    obtain ⟨m, rfl⟩ : ∃ k, m = k + 1 := ⟨m - 1, by omega⟩
    unfold sweep2
    split
    · exact (Out.Le.refl _).bind fun s => ih (by omega) _ _
    · exact .inr rfl

section
variable {G : Type} (P : Params G) {n m : Nat} (h : n ≤ m)

include h in
theorem doOp_more (op : BoolOp) (tree : Bool) (s : Clipper G × List TCall) : (Clipper.doOp P n op tree s).Le (Clipper.doOp P m op tree s) := by
  unfold Clipper.doOp
  simp only
  split
  · exact .inr rfl
  · refine (Out.Le.refl _).bind fun k => (sweep1_more _ h _).bind fun k => (sweep2_more _ _ h _ _).bind fun k2 => ?_
    exact Out.Le.refl _

include h in
theorem step_more (s : Clipper G × List TCall) (c : Cmd) : (step P n s c).Le (step P m s c) := by
  cases c with
  | add cat pt l => exact .inr rfl
  | exec op tree => exact (doOp_more P h op tree _).bind fun r => .refl _
  | reset => exact .inr rfl
  | resetAll => exact .inr rfl

include h in
theorem run_more (cs : List Cmd) : ∀ s, (run P n cs s).Le (run P m cs s) := by
  induction cs with
  | nil => intro s; exact .inr rfl
  | cons c cs ih => intro s; exact (step_more P h s c).bind fun r => (ih r.1).bind fun q => .refl _

end

/-- Runs that end, with whatever step counts, are the same. -/
theorem run_unique {G : Type} {P : Params G} {n m : Nat} {cs : List Cmd} {s : Clipper G × List TCall} (h : run P n cs s ≠ .fuel) (h' : run P m cs s ≠ .fuel) :
    run P n cs s = run P m cs s := by
  rcases Nat.le_total n m with c | c
  · exact (run_more P c cs s).resolve_left h
  · exact ((run_more P c cs s).resolve_left h').symm

end PolyOps.Clipper
