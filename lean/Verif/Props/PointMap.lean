import Verif.Model.PointMap
import Mathlib.Data.List.Basic

/-! C44: the origin map of the Python binding. -/
namespace PolyOps.PyMap

/-- Number of origins of the points before point `i`. -/
def before (sets : List (List Nat)) (i : Nat) : Nat := ((sets.take i).map List.length).sum

theorem fill_spec : ∀ (l : List (List Nat)) (off : Nat) (m : PointMap),
    fill l off m = ⟨m.offsets ++ (List.range (l.length + 1)).map (fun i => off + before l i), m.indices ++ l.flatten⟩
  | [], off, m => by simp [fill, before]
  | s :: l, off, m => by
    rw [fill, fill_spec l]
    congr 1
    · rw [List.append_assoc]
      congr 1
      rw [List.length_cons, List.range_succ_eq_map (n := l.length + 1), List.map_cons, List.map_map]
      have e0 : off + before (s :: l) 0 = off := by simp [before]
      rw [e0, List.singleton_append]
      congr 1
      apply List.map_congr_left
      intro i _
      simp [before]
      omega
    · simp

theorem build_spec (sets : List (List Nat)) :
    build sets = ⟨(List.range (sets.length + 1)).map (before sets), sets.flatten⟩ := by
  unfold build
  rw [fill_spec]
  simp

theorem total_spec (sets : List (List Nat)) : total sets = (build sets).indices.length := by
  rw [build_spec]
  have : ∀ (l : List (List Nat)) (t : Nat), l.foldl (fun t s => t + s.length) t = t + l.flatten.length := by
    intro l
    induction l with
    | nil => simp
    | cons a l ih => intro t; rw [List.foldl_cons, ih]; simp; omega
  have := this sets 0
  rw [Nat.zero_add] at this
  exact this

theorem before_succ (sets : List (List Nat)) (i : Nat) (h : i < sets.length) : before sets (i + 1) = before sets i + (sets.getD i []).length := by
  unfold before
  rw [List.take_add_one, List.getElem?_eq_getElem h, List.getD_eq_getElem?_getD, List.getElem?_eq_getElem h, List.map_append, List.sum_append]
  rfl

theorem flatten_slice : ∀ (sets : List (List Nat)) (i : Nat), i < sets.length →
    (sets.flatten.take (before sets (i + 1))).drop (before sets i) = sets.getD i []
  | [], _, h => by simp at h
  | s :: l, 0, _ => by simp [before]
  | s :: l, i + 1, h => by
    have ih := flatten_slice l i (by simpa using h)
    have e : ∀ j, before (s :: l) (j + 1) = s.length + before l j := by intro j; simp [before]
    rw [e, e, List.flatten_cons, List.take_append, List.drop_append]
    simp only [List.take_of_length_le (show s.length ≤ s.length + before l (i + 1) by omega), Nat.add_sub_cancel_left,
      List.drop_of_length_le (show s.length ≤ s.length + before l i by omega), List.nil_append]
    simpa using ih

/-- C44: element `i` of the map is the list of origins of point `i`; other indices raise an error. -/
theorem C44_get (sets : List (List Nat)) (i : Int) :
    (build sets).get i = if 0 ≤ i ∧ i < sets.length then some (sets.getD i.toNat []) else none := by
  rw [build_spec]
  unfold PointMap.get
  simp only [List.length_map, List.length_range]
  by_cases h : 0 ≤ i ∧ i < sets.length
  · rw [if_pos h, if_pos ⟨h.1, by push_cast; omega⟩]
    have hi : i.toNat < sets.length := by omega
    have g : ∀ j, j < sets.length + 1 → ((List.range (sets.length + 1)).map (before sets)).getD j 0 = before sets j := by
      intro j hj
      rw [List.getD_eq_getElem?_getD, List.getElem?_map, List.getElem?_range hj]; rfl
    rw [g _ (by omega), g _ (by omega), flatten_slice sets _ hi]
  · rw [if_neg h, if_neg (by push_cast; omega)]

/-- C44: the map has one element per point, and the buffer for the origins has exactly the size needed. -/
theorem C44_sizes (sets : List (List Nat)) : (build sets).len = sets.length ∧ (build sets).indices.length = total sets := by
  refine ⟨?_, (total_spec sets).symm⟩
  rw [build_spec]; simp [PointMap.len]

theorem writeUpTo_spec (next orig : Nat) : ∀ (fuel : Nat) (a b : List (Option Nat)) (k : Nat), a.length = k → next ≤ k + b.length → next - k < fuel →
    writeUpTo next orig fuel (a ++ b, k) = some (a ++ List.replicate (next - k) (some orig) ++ b.drop (next - k), max k next)
  | 0, _, _, _, _, _, h => by omega
  | fuel + 1, a, b, k, ha, hb, hf => by
    unfold writeUpTo
    by_cases c : k < next
    · rw [if_pos c, if_pos (by simp; omega)]
      cases b with
      | nil => simp at hb; omega
      | cons x b =>
        have e : (a ++ x :: b).set k (some orig) = (a ++ [some orig]) ++ b := by
          rw [List.set_append_right _ _ (by omega), ha]
          simp
        rw [e, writeUpTo_spec next orig fuel (a ++ [some orig]) b (k + 1) (by simp [ha]) (by simp at hb; omega) (by omega)]
        obtain ⟨d, hd⟩ : ∃ d, next - k = d + 1 := ⟨next - k - 1, by omega⟩
        have hd2 : next - (k + 1) = d := by omega
        rw [hd, hd2, List.replicate_succ]
        simp
        omega
    · rw [if_neg c]
      have : next - k = 0 := by omega
      simp [this]
      omega

/-- The number of each point, as often as it has origins. -/
def owners (sets : List (List Nat)) (i : Nat) : List Nat := match sets with
  | [] => []
  | s :: l => List.replicate s.length i ++ owners l (i + 1)

theorem owners_length : ∀ (sets : List (List Nat)) (i : Nat), (owners sets i).length = sets.flatten.length
  | [], _ => rfl
  | s :: l, i => by simp [owners, owners_length l]

theorem indexLoop_spec : ∀ (sets : List (List Nat)) (off orig : Nat) (a b : List (Option Nat)), a.length = off → b.length = sets.flatten.length →
    indexLoop ((List.range sets.length).map fun i => off + before sets (i + 1)) orig (a ++ b, off) =
      some (a ++ (owners sets orig).map some, off + sets.flatten.length)
  | [], off, orig, a, b, ha, hb => by
    have : b = [] := by simpa using hb
    simp [indexLoop, owners, this]
  | s :: l, off, orig, a, b, ha, hb => by
    rw [List.length_cons, List.range_succ_eq_map, List.map_cons, indexLoop]
    have e0 : before (s :: l) (0 + 1) = s.length := by simp [before]
    have hb' : b.length = s.length + l.flatten.length := by rw [hb]; simp
    rw [e0, writeUpTo_spec (off + s.length) orig _ a b off ha (by omega) (by omega), Option.bind_some, Nat.add_sub_cancel_left,
      Nat.max_eq_right (by omega)]
    have ih := indexLoop_spec l (off + s.length) (orig + 1) (a ++ List.replicate s.length (some orig)) (b.drop s.length)
      (by simp [ha]) (by simp [hb'])
    rw [List.map_map]
    have e1 : ((fun i => off + before (s :: l) (i + 1)) ∘ Nat.succ) = fun i => off + s.length + before l (i + 1) := by
      funext i; simp [before]; omega
    rw [e1, ih]
    simp [owners]
    omega

/-- C44: `index_map` writes every cell, none outside, and cell `k` holds the number of the point that origin `k` belongs to. -/
theorem C44_index_map (sets : List (List Nat)) : (build sets).indexMap = some ((owners sets 0).map some) := by
  rw [build_spec]
  unfold PointMap.indexMap
  have e : ((List.range (sets.length + 1)).map (before sets)).tail = (List.range sets.length).map fun i => 0 + before sets (i + 1) := by
    rw [List.range_succ_eq_map]; simp
  dsimp only
  rw [e]
  have := indexLoop_spec sets 0 0 [] (List.replicate sets.flatten.length none) rfl (by simp)
  rw [List.nil_append] at this
  rw [this]
  simp

theorem owners_get : ∀ (sets : List (List Nat)) (j i k : Nat), i < sets.length → before sets i ≤ k → k < before sets (i + 1) →
    (owners sets j)[k]? = some (j + i)
  | [], _, _, _, h, _, _ => by simp at h
  | s :: l, j, 0, k, _, _, h => by
    have : k < s.length := by simpa [before] using h
    simp [owners, List.getElem?_append, this, List.getElem?_replicate]
  | s :: l, j, i + 1, k, h, h1, h2 => by
    have e : ∀ j, before (s :: l) (j + 1) = s.length + before l j := by intro j; simp [before]
    rw [e] at h1 h2
    have ih := owners_get l (j + 1) i (k - s.length) (by simpa using h) (by omega) (by omega)
    simp only [owners, List.getElem?_append, List.length_replicate]
    rw [if_neg (by omega), ih]
    congr 1; omega

/-- C44: the position that `index_map` gives for origin `k` is the point whose slice contains `k`. -/
theorem C44_slice (sets : List (List Nat)) (i k : Nat) (hi : i < sets.length)
    (h1 : (build sets).offsets.getD i 0 ≤ k) (h2 : k < (build sets).offsets.getD (i + 1) 0) :
    ∃ l, (build sets).indexMap = some l ∧ l[k]? = some (some i) := by
  refine ⟨_, C44_index_map sets, ?_⟩
  rw [build_spec] at h1 h2
  have g : ∀ j, j < sets.length + 1 → ((List.range (sets.length + 1)).map (before sets)).getD j 0 = before sets j := by
    intro j hj
    rw [List.getD_eq_getElem?_getD, List.getElem?_map, List.getElem?_range hj]; rfl
  dsimp only at h1 h2
  rw [g _ (by omega)] at h1 h2
  rw [List.getElem?_map, owners_get sets 0 i k hi h1 h2]
  simp

example : build [[3], [], [1, 2]] = ⟨[0, 1, 1, 3], [3, 1, 2]⟩ := by decide
example : (build [[3], [], [1, 2]]).indexMap = some [some 0, some 2, some 2] := by decide

/-- Finding: nested results with origins always raise TypeError: the class called has two fields, three values are given. -/
theorem C44_nested_origins_fail : makeTrackedLoop = true ∧ makeRecurLoop = true ∧ makeTrackedRecurLoop = false := by decide

end PolyOps.PyMap
