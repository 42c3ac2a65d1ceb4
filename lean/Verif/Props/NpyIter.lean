import Verif.Model.NpyIter
import Verif.Props.Clipper
import Mathlib.Tactic.Linarith
import Mathlib.Tactic.Ring

/-! C76: points of NumPy arrays. -/
namespace PolyOps.Npy
open PolyOps PolyOps.Clipper PolyOps.Sweep

/-! ### Proof -/

/-- The rows of an array that are left, one run for each. -/
theorem visit_rows (s1 : Int) : ∀ (rs : List Run) (r : Run), (∀ q ∈ r :: rs, q.stride = s1 ∧ q.size = 2) → ∀ f ≥ (rs.length + 1),
    visit f (.read r rs) = some ((r :: rs).map fun q => (q.ptr, q.ptr + s1)) := by
  intro rs
  induction rs with
  | nil =>
    intro r h f hf
    obtain ⟨f, rfl⟩ : ∃ k, f = k + 1 := ⟨f - 1, by simp at hf; omega⟩
    obtain ⟨h1, h2⟩ := h r (by simp)
    have hi : (Range.read r []).inc = some { Range.read r [] with data := none } := by
      unfold Range.inc Range.read
      simp only [Option.map_some, h2]
      rw [if_pos (by push_cast; ring)]
    unfold visit
    rw [if_neg (by simp [Range.read]), hi]
    have : ∀ k, visit k { Range.read r [] with data := none } = some [] := by intro k; cases k <;> rfl
    simp [Range.at, Range.read, this, h1]
    cases f <;> simp [visit]
  | cons n rs ih =>
    intro r h f hf
    obtain ⟨f, rfl⟩ : ∃ k, f = k + 1 := ⟨f - 1, by simp at hf; omega⟩
    obtain ⟨h1, h2⟩ := h r (by simp)
    have hi : (Range.read r (n :: rs)).inc = some (Range.read n rs) := by
      unfold Range.inc Range.read
      simp only [Option.map_some, h2]
      rw [if_pos (by push_cast; ring)]
    unfold visit
    rw [if_neg (by simp [Range.read]), hi]
    have := ih n (fun q hq => h q (List.mem_cons_of_mem _ hq)) f (by simp at hf ⊢; omega)
    simp only [Option.bind_some, this]
    simp [Range.at, Range.read, h1]

/-- A single run of which `k` points are left. -/
theorem visit_merged {s e : Int} (hs : s ≠ 0) : ∀ (k : Nat) (d : Int), e = d + (k + 1) * (s * 2) → ∀ f ≥ k + 1,
    visit f ⟨[], some d, s, e⟩ = some ((List.range (k + 1)).map fun (i : Nat) => (d + (i : Int) * (s * 2), d + i * (s * 2) + s)) := by
  intro k
  induction k with
  | zero =>
    intro d he f hf
    obtain ⟨f, rfl⟩ : ∃ k, f = k + 1 := ⟨f - 1, by omega⟩
    unfold visit
    have hi : Range.inc ⟨[], some d, s, e⟩ = some ⟨[], none, s, e⟩ := by
      unfold Range.inc
      simp only [Option.map_some]
      rw [if_pos (by rw [he]; push_cast; ring)]
    rw [if_neg (by simp), hi]
    have : visit f ⟨[], none, s, e⟩ = some [] := by cases f <;> rfl
    simp [Range.at, this]
  | succ k ih =>
    intro d he f hf
    obtain ⟨f, rfl⟩ : ∃ k, f = k + 1 := ⟨f - 1, by omega⟩
    unfold visit
    have hi : Range.inc ⟨[], some d, s, e⟩ = some ⟨[], some (d + s * 2), s, e⟩ := by
      unfold Range.inc
      simp only [Option.map_some]
      rw [if_neg]
      intro h
      have : ((k : Int) + 1) * s = 0 := by push_cast at he; linarith
      rcases mul_eq_zero.mp this with h | h
      · omega
      · exact hs h
    rw [if_neg (by simp), hi]
    have := ih (d + s * 2) (by rw [he]; push_cast; ring) f (by omega)
    simp only [Option.bind_some, this]
    rw [List.range_succ_eq_map (n := k + 1)]
    simp only [Range.at, Option.map_some, Option.bind_some, List.map_cons, List.map_map, Nat.cast_zero, zero_mul, add_zero, Option.some.injEq, List.cons.injEq, true_and]
    refine List.map_congr_left fun i _ => ?_
    simp only [Function.comp]
    rw [Prod.mk.injEq]
    constructor <;> push_cast <;> ring

/-- The addresses of the coordinates of each point, in order. -/
theorem visit_array {ptr s0 s1 : Int} {n : Nat} (hn : 0 < n) (hs : s1 ≠ 0 ∨ s0 ≠ 0 ∨ n = 1) {f : Nat} (hf : n ≤ f) :
    ∃ r, Range.start (runsOf ptr s0 s1 n) = some r ∧ visit f r = some ((List.range n).map fun (i : Nat) => (ptr + (i : Int) * s0, ptr + i * s0 + s1)) := by
  unfold runsOf
  by_cases h1 : n = 1
  · subst h1
    rw [if_pos (.inl rfl)]
    refine ⟨_, rfl, ?_⟩
    rw [visit_rows s1 [] _ (by simp) f (by simpa using hf)]
    simp
  by_cases h2 : s0 = 2 * s1
  · rw [if_pos (.inr h2)]
    have hs1 : s1 ≠ 0 := by
      rcases hs with h | h | h
      · exact h
      · intro h0; apply h; rw [h2, h0]; rfl
      · exact absurd h h1
    obtain ⟨k, rfl⟩ : ∃ k, n = k + 1 := ⟨n - 1, by omega⟩
    refine ⟨_, rfl, ?_⟩
    have := visit_merged (s := s1) (e := ptr + (2 * (k + 1) : Nat) * s1) hs1 k ptr (by push_cast; ring) f hf
    unfold Range.read
    rw [this]
    simp only [h2, Option.some.injEq]
    refine List.map_congr_left fun i _ => ?_
    rw [Prod.mk.injEq]
    constructor <;> ring
  · rw [if_neg (by tauto)]
    obtain ⟨k, rfl⟩ : ∃ k, n = k + 1 := ⟨n - 1, by omega⟩
    rw [List.range_succ_eq_map]
    refine ⟨_, rfl, ?_⟩
    rw [visit_rows s1 _ _ (by
      intro q hq
      rcases List.mem_cons.mp hq with rfl | hq
      · exact ⟨rfl, rfl⟩
      · obtain ⟨i, -, rfl⟩ := List.mem_map.mp hq
        exact ⟨rfl, rfl⟩) f (by simpa using hf)]
    simp [List.map_map, Function.comp_def]

/-- **C76 (reading).** Whatever the strides of an array with two columns are (rows reversed or left out, columns exchanged, transposed, parts of larger arrays, one row repeated),
the points read are those of its rows in order. Left out are arrays all of whose elements are the same one in memory. -/
theorem C76_read_partial (load : Int → Int) {ptr s0 s1 : Int} {n : Nat} (hn : 0 < n) (hs : s1 ≠ 0 ∨ s0 ≠ 0 ∨ n = 1) {f : Nat} (hf : n ≤ f) :
    readPts load ptr s0 s1 n f = some ((List.range n).map fun (i : Nat) => ⟨load (ptr + (i : Int) * s0), load (ptr + i * s0 + s1)⟩) := by
  obtain ⟨r, h1, h2⟩ := visit_array (ptr := ptr) hn hs hf
  unfold readPts
  rw [h1]
  simp only [Option.bind_some, h2, Option.map_some, List.map_map]
  rfl

theorem copy_merged {s e : Int} (hs : s ≠ 0) : ∀ (ps : List Pt) (d : Int) (m : Int → Int), ps ≠ [] → e = d + ps.length * (s * 2) →
    ∃ m', copyTo ps ⟨[], some d, s, e⟩ m = some m' ∧
      (∀ b, (∀ i : Nat, i < ps.length → b ≠ d + i * (s * 2) ∧ b ≠ d + i * (s * 2) + s) → m' b = m b) ∧
      ∀ (i : Nat) (h : i < ps.length), m' (d + i * (s * 2)) = ps[i].x ∧ m' (d + i * (s * 2) + s) = ps[i].y := by
  intro ps
  induction ps with
  | nil => intro d m h; exact absurd rfl h
  | cons p ps ih =>
    intro d m _ he
    have hst : ∀ b, b ≠ d → b ≠ d + s → store (store m d p.x) (d + s) p.y b = m b := by
      intro b h1 h2; simp [store, h1, h2]
    have hx : store (store m d p.x) (d + s) p.y d = p.x := by
      have : d ≠ d + s := by omega
      simp [store, this]
    have hy : store (store m d p.x) (d + s) p.y (d + s) = p.y := by simp [store]
    by_cases hp : ps = []
    · subst hp
      have hi : Range.inc ⟨[], some d, s, e⟩ = some ⟨[], none, s, e⟩ := by
        unfold Range.inc
        simp only [Option.map_some]
        rw [if_pos (by rw [he]; simp)]
      refine ⟨store (store m d p.x) (d + s) p.y, by simp [copyTo, Range.at, hi], ?_, ?_⟩
      · intro b hb
        obtain ⟨h1, h2⟩ := hb 0 (by simp)
        exact hst b (by simpa using h1) (by simpa using h2)
      · intro i h
        obtain rfl : i = 0 := by simpa using h
        simpa using ⟨hx, hy⟩
    · have hl : 0 < ps.length := List.length_pos_iff.mpr hp
      have hi : Range.inc ⟨[], some d, s, e⟩ = some ⟨[], some (d + s * 2), s, e⟩ := by
        unfold Range.inc
        simp only [Option.map_some]
        rw [if_neg]
        intro h
        have : (ps.length : Int) * s = 0 := by rw [List.length_cons] at he; push_cast at he; linarith
        rcases mul_eq_zero.mp this with h | h
        · omega
        · exact hs h
      obtain ⟨m', h1, h2, h3⟩ := ih (d + s * 2) (store (store m d p.x) (d + s) p.y) hp (by rw [he, List.length_cons]; push_cast; ring)
      -- the cells written now are not written again
      have key : ∀ (i : Nat) (c : Int), (c = 0 ∨ c = 1) → d + c * s ≠ d + s * 2 + i * (s * 2) ∧ d + c * s ≠ d + s * 2 + i * (s * 2) + s := by
        intro i c hc
        constructor <;> intro h
        · have : (2 + 2 * (i : Int) - c) * s = 0 := by linarith
          rcases mul_eq_zero.mp this with h | h
          · omega
          · exact hs h
        · have : (3 + 2 * (i : Int) - c) * s = 0 := by linarith
          rcases mul_eq_zero.mp this with h | h
          · omega
          · exact hs h
      refine ⟨m', by simp [copyTo, Range.at, hi, h1], ?_, ?_⟩
      · intro b hb
        obtain ⟨ha, hb'⟩ := hb 0 (by simp)
        rw [h2 b, hst b (by simpa using ha) (by simpa using hb')]
        intro i hi
        obtain ⟨ha, hb⟩ := hb (i + 1) (by simpa using hi)
        push_cast at ha hb
        exact ⟨fun h => ha (by rw [h]; ring), fun h => hb (by rw [h]; ring)⟩
      · intro i h
        cases i with
        | zero =>
          have e0 := h2 d (fun i _ => by simpa using key i 0 (.inl rfl))
          have e1 := h2 (d + s) (fun i _ => by simpa using key i 1 (.inr rfl))
          simp only [Nat.cast_zero, zero_mul, add_zero, List.getElem_cons_zero]
          exact ⟨e0.trans hx, e1.trans hy⟩
        | succ i =>
          obtain ⟨ha, hb⟩ := h3 i (by simpa using h)
          simp only [List.getElem_cons_succ]
          rw [← ha, ← hb]
          constructor <;> congr 1 <;> push_cast <;> ring

/-- **C76 (writing).** Points copied to an array as it is newly made for a result (rows after each other, elements of a size other than zero) are found in its rows, in order; no other
memory changes. -/
theorem C76_write (m : Int → Int) (ptr : Int) {s : Int} (hs : s ≠ 0) {ps : List Pt} (hp : ps ≠ []) :
    ∃ m', writePts m ptr (2 * s) s ps = some m' ∧
      (∀ (i : Nat) (h : i < ps.length), m' (ptr + i * (2 * s)) = ps[i].x ∧ m' (ptr + i * (2 * s) + s) = ps[i].y) ∧
      ∀ b, (∀ i : Nat, i < ps.length → b ≠ ptr + i * (2 * s) ∧ b ≠ ptr + i * (2 * s) + s) → m' b = m b := by
  obtain ⟨m', h1, h2, h3⟩ := copy_merged (e := ptr + (2 * ps.length : Nat) * s) hs ps ptr m hp (by push_cast; ring)
  refine ⟨m', ?_, ?_, ?_⟩
  · unfold writePts runsOf
    rw [if_pos (.inr rfl)]
    exact h1
  · intro i h
    rw [show (2 * s : Int) = s * 2 by ring]
    exact h3 i h
  · intro b hb
    rw [show (2 * s : Int) = s * 2 by ring] at hb
    exact h2 b hb

/-- Results passed as input again are read as they were written. -/
theorem C76_round (m : Int → Int) (ptr : Int) {s : Int} (hs : s ≠ 0) {ps : List Pt} (hp : ps ≠ []) :
    ∃ m', writePts m ptr (2 * s) s ps = some m' ∧ readPts m' ptr (2 * s) s ps.length ps.length = some ps := by
  obtain ⟨m', h1, h2, -⟩ := C76_write m ptr hs hp
  refine ⟨m', h1, ?_⟩
  rw [C76_read_partial m' (List.length_pos_iff.mpr hp) (.inl hs) le_rfl]
  congr 1
  refine List.ext_getElem (by simp) fun i h _ => ?_
  obtain ⟨hx, hy⟩ := h2 i (by simpa using h)
  simp [hx, hy]

/-! ### Cases -/

/-- The memory used in the cases below: each cell holds its address. -/
def cells (a : Int) : Int := a

/-- Rows after each other; the same backwards; columns of a larger array, exchanged; one row three times. -/
example : readPts cells 100 2 1 3 3 = some [⟨100, 101⟩, ⟨102, 103⟩, ⟨104, 105⟩] := by decide +kernel
example : readPts cells 104 (-2) 1 3 3 = some [⟨104, 105⟩, ⟨102, 103⟩, ⟨100, 101⟩] := by decide +kernel
example : readPts cells 101 5 (-1) 3 3 = some [⟨101, 100⟩, ⟨106, 105⟩, ⟨111, 110⟩] := by decide +kernel
example : readPts cells 100 0 1 3 3 = some [⟨100, 101⟩, ⟨100, 101⟩, ⟨100, 101⟩] := by decide +kernel
example : readPts cells 101 5 (-1) 3 3 = some ((List.range 3).map fun (i : Nat) => ⟨cells (101 + (i : Int) * 5), cells (101 + (i : Int) * 5 + -1)⟩) :=
  C76_read_partial cells (by decide) (by decide) le_rfl
example : ∃ m', writePts cells 100 2 1 [⟨7, 8⟩, ⟨9, 10⟩] = some m' ∧ readPts m' 100 2 1 2 2 = some [⟨7, 8⟩, ⟨9, 10⟩] := C76_round cells 100 (s := 1) (by decide) (by decide)

/-- **Finding.** An array all of whose elements are the same one in memory (`numpy.broadcast_to(v, (n, 2))`), with two rows or more: the position does not change when it is moved, and it is
taken for the end of the run. Only one point is read. -/
theorem C76_broadcast (load : Int → Int) (ptr : Int) {n : Nat} (f : Nat) : readPts load ptr 0 0 n (f + 1) = some [⟨load ptr, load ptr⟩] := by
  have h : ∀ g, visit g ⟨[], none, 0, ptr⟩ = some [] := by intro g; cases g <;> rfl
  simp [readPts, runsOf, Range.start, Range.read, visit, Range.at, Range.inc, h]

/-- What follows for a clipper: a polygon of one point makes it read past the end of its points, while the points of the array as they should have been read are no error. -/
theorem C76_past_end {G : Type} (load : Int → Int) (ptr : Int) (n : Nat) (set : BSet) (pt : Bool) (g : G) :
    (∃ l, readPts load ptr 0 0 (n + 2) (n + 2) = some l ∧ ∀ s : Clipper G × List TCall, Clipper.add set pt l s = .bad) ∧
    ∃ r, Clipper.add set pt (List.replicate (n + 2) ⟨load ptr, load ptr⟩) (Clipper.fresh g, []) = .ok r := by
  constructor
  · refine ⟨_, C76_broadcast load ptr (n + 1), fun s => ?_⟩
    have h : ∀ c : PointSink.Store, PointSink.addPts c set pt [⟨load ptr, load ptr⟩] = none := by
      intro c
      simp [PointSink.addPts, PointSink.put, PointSink.close, PointSink.Sink.init]
    unfold Clipper.add
    simp only [h]
    rfl
  · generalize (⟨load ptr, load ptr⟩ : Pt) = q
    have h : ∀ (k : Nat) (s : PointSink.Store × PointSink.Sink), (s.1.pts.map LP.data = [q] ∧ s.2.prev = q ∧ s.2.first = 0 ∧ s.2.started = true) →
        let t := (List.replicate k q).foldl (fun s p => PointSink.put s (p, s.1.nextOrig)) s
        (t.1.pts.map LP.data = [q] ∧ t.2.prev = q ∧ t.2.first = 0 ∧ t.2.started = true) := by
      intro k
      induction k with
      | zero => intro s h; exact h
      | succ k ih =>
        intro s hs
        obtain ⟨h1, h2, h3, h4⟩ := hs
        refine ih _ ?_
        have hf : PointSink.finalizePrev s = s := by
          unfold PointSink.finalizePrev
          rw [if_pos]
          rw [← List.getLast?_map, h1, h2]
          rfl
        simp only [PointSink.put, h4, if_true, hf]
        exact ⟨h1, trivial, h3, trivial⟩
    have h0 : ∀ u : PointSink.Store × PointSink.Sink, u = PointSink.put (PointSink.put ((⟨[], [], 0⟩ : PointSink.Store), PointSink.Sink.init ⟨[], [], 0⟩ set pt) (q, 0)) (q, 1) →
        u.1.pts.map LP.data = [q] ∧ u.2.prev = q ∧ u.2.first = 0 ∧ u.2.started = true := by
      rintro u rfl
      cases pt <;> simp [PointSink.put, PointSink.finalizePrev, PointSink.Sink.init]
    obtain ⟨h1, h2, h3, h4⟩ := h n _ (h0 _ rfl)
    have hc : ∃ r, PointSink.addPts ⟨[], [], 0⟩ set pt (List.replicate (n + 2) q) = some r := by
      unfold PointSink.addPts
      rw [List.replicate_succ, List.replicate_succ, List.foldl_cons, List.foldl_cons]
      change ∃ r, PointSink.close (List.foldl (fun s p => PointSink.put s (p, s.1.nextOrig)) (PointSink.put (PointSink.put ((⟨[], [], 0⟩ : PointSink.Store),
        PointSink.Sink.init ⟨[], [], 0⟩ set pt) (q, 0)) (q, 1)) (List.replicate n q)) = some r
      generalize List.foldl _ _ (List.replicate n q) = t at h1 h2 h3 h4 ⊢
      obtain ⟨x, hx, hd⟩ : ∃ x, t.1.pts = [x] ∧ x.data = q := by
        rcases hl : t.1.pts with _ | ⟨x, _ | ⟨y, l⟩⟩
        · simp [hl] at h1
        · simp [hl] at h1; exact ⟨x, rfl, h1⟩
        · simp [hl] at h1
      simp [PointSink.close, h4, hx, h3, h2, hd]
    obtain ⟨r, hr⟩ := hc
    exact ⟨_, by
      unfold Clipper.add Clipper.fresh
      simp only [Bool.false_eq_true, if_false, hr]
      rfl⟩

end PolyOps.Npy
