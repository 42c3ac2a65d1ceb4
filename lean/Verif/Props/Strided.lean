import Verif.Model.Strided
import Mathlib.Tactic.Ring
import Mathlib.Tactic.Linarith

/-! C43: strided ranges. -/
namespace PolyOps.Strided
open PolyOps

theorem visit_spec {d : Int} (hd : d ≠ 0) : ∀ (n : Nat) (p : Int) (fuel : Nat), n < fuel →
    visit fuel ⟨p, d⟩ ⟨p + n * d, d⟩ = some ((List.range n).map fun (i : Nat) => p + i * d)
  | 0, p, fuel, hf => by
    obtain ⟨f, rfl⟩ : ∃ f, fuel = f + 1 := ⟨fuel - 1, by omega⟩
    simp [visit, Itr.eq]
  | n + 1, p, fuel, hf => by
    obtain ⟨f, rfl⟩ : ∃ f, fuel = f + 1 := ⟨fuel - 1, by omega⟩
    have ne : ¬(p = p + ((n + 1 : Nat) : Int) * d) := by
      intro c
      have : ((n + 1 : Nat) : Int) * d = 0 := by omega
      rcases mul_eq_zero.mp this with h | h
      · omega
      · exact hd h
    unfold visit
    rw [if_neg (by simpa [Itr.eq] using ne)]
    have e : p + ((n + 1 : Nat) : Int) * d = (p + d) + n * d := by push_cast; ring
    have ih := visit_spec hd n (p + d) f (by omega)
    simp only [Itr.inc, Itr.deref, e, ih, Option.map_some]
    congr 1
    rw [List.range_succ_eq_map, List.map_cons, List.map_map]
    congr 1
    · simp
    · apply List.map_congr_left
      intro i _
      simp only [Function.comp]
      push_cast
      ring

/-- C43 (elements): iterating a range of `n` elements with a stride that is not 0 ends and visits start + i * stride for i < n, in
order. -/
theorem C43_elements_partial (start stride : Int) (n : Nat) (h : stride ≠ 0) (fuel : Nat) (hf : n < fuel) :
    visit fuel (mkRange start n stride).1 (mkRange start n stride).2 = some ((List.range n).map fun (i : Nat) => start + i * stride) :=
  visit_spec h n start fuel hf

/-- C43: so the points read from a blob are those at the given strides. -/
theorem C43_points (load : Int → Int) (data cs ps : Int) (n : Nat) (h : ps ≠ 0) (fuel : Nat) (hf : n < fuel) :
    blobPoints load data cs ps n fuel = some ((List.range n).map fun (i : Nat) => ⟨load (data + i * ps), load (data + i * ps + cs)⟩) := by
  unfold blobPoints
  dsimp only
  rw [C43_elements_partial data ps n h fuel hf, Option.map_some, List.map_map]
  rfl

theorem mapM_some {α β : Type} (f : α → Option β) (g : α → β) : ∀ l : List α, (∀ a ∈ l, f a = some (g a)) → l.mapM f = some (l.map g)
  | [], _ => rfl
  | a :: l, h => by
    rw [List.mapM_cons, h a List.mem_cons_self, mapM_some f g l (fun b hb => h b (List.mem_cons_of_mem _ hb))]
    rfl

theorem C43_loops (load : Int → Int) (data cs ps ls : Int) (n m : Nat) (h : ps ≠ 0) (h2 : ls ≠ 0) (fuel : Nat) (hf : n < fuel) (hf2 : m < fuel) :
    blobLoops load data cs ps ls n m fuel = some ((List.range m).map fun (j : Nat) => (List.range n).map fun (i : Nat) =>
      (⟨load (data + j * ls + i * ps), load (data + j * ls + i * ps + cs)⟩ : Pt)) := by
  unfold blobLoops
  dsimp only
  rw [C43_elements_partial data ls m h2 fuel hf2, Option.bind_some,
    mapM_some _ (fun p : Int => (List.range n).map fun (i : Nat) => (⟨load (p + i * ps), load (p + i * ps + cs)⟩ : Pt)) _
      (fun p _ => C43_points load p cs ps n h fuel hf), List.map_map]
  rfl

/-- The operators agree: n increments are `+ n`, `[n]` is the element `n` on, `-` undoes `+`. -/
theorem C43_random_access (a : Itr) (n : Nat) (m : Int) :
    (Itr.inc^[n] a) = a.add n ∧ a.at m = (a.add m).deref ∧ (a.add m).sub m = a ∧ a.inc.dec = a ∧ a.postInc = (a, a.inc) ∧
      a.postDec = (a, a.dec) := by
  refine ⟨?_, rfl, ?_, ?_, rfl, rfl⟩
  · induction n with
    | zero => simp [Itr.add]
    | succ n ih =>
      rw [Function.iterate_succ_apply', ih]
      simp only [Itr.inc, Itr.add, Itr.mk.injEq, and_true]
      push_cast; ring
  · simp [Itr.add, Itr.sub]
  · simp [Itr.inc, Itr.dec]

/-- Finding: the size is the number of elements only for stride 1 (or no elements): the difference of two iterators is not divided
by the stride. -/
theorem C43_size_iff (start stride : Int) (n : Nat) : rsize (mkRange start n stride) = n ↔ n = 0 ∨ stride = 1 := by
  have : rsize (mkRange start n stride) = n * stride := by simp [rsize, mkRange, Itr.diff, Itr.add]
  rw [this]
  constructor
  · intro h
    by_cases c : n = 0
    · exact .inl c
    · refine .inr ?_
      have : (n : Int) * (stride - 1) = 0 := by rw [mul_sub, h]; ring
      rcases mul_eq_zero.mp this with d | d <;> omega
  · rintro (h | h)
    · simp [h]
    · simp [h]

/-- Ten 16-byte points count as 160 elements. -/
theorem C43_size_wrong : rsize (mkRange 1000 10 16) = 160 := by decide

/-- Finding: for a negative stride the first iterator is not below the last. -/
theorem C43_order_wrong : (mkRange 1000 10 (-16)).1.lt (mkRange 1000 10 (-16)).2 = false := by decide

/-- A stride of 0 gives no element at all. -/
theorem C43_stride_zero (start : Int) (n fuel : Nat) (hf : 0 < fuel) : visit fuel (mkRange start n 0).1 (mkRange start n 0).2 = some [] := by
  obtain ⟨f, rfl⟩ : ∃ f, fuel = f + 1 := ⟨fuel - 1, by omega⟩
  simp [visit, mkRange, Itr.add, Itr.eq]

example : blobPoints (fun a => a) 0 4 8 2 3 = some [⟨0, 4⟩, ⟨8, 12⟩] := C43_points _ 0 4 8 2 (by decide) 3 (by decide)

end PolyOps.Strided
