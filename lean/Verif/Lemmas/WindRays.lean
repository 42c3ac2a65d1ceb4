import Verif.Lemmas.Winding
import Verif.Props.RasterExact

/-! The winding number counted along a vertical ray, as the clipper does, is that counted along a horizontal ray, as the rasteriser does. -/
namespace PolyOps.Compose
open PolyOps PolyOps.Exec

/-- The two ways to list the edges of polygons agree. -/
theorem edges_zip (l : List Pt) : edges l = l.zip (l.rotate 1) := by
  have key : ∀ (l : List Pt) (a b : Pt), walk a (l ++ [b]) = (a :: l).zip (l ++ [b]) := by
    intro l
    induction l with
    | nil => intro a b; rfl
    | cons c l ih => intro a b; rw [List.cons_append, walk, ih]; rfl
  cases l with
  | nil => rfl
  | cons a l => rw [List.rotate_cons_succ, List.rotate_zero]; exact key l a a

theorem sides_edges (ls : List (List Pt)) : Raster.loopSides ls = ls.flatMap edges := by
  unfold Raster.loopSides
  congr 1
  funext l
  exact (edges_zip l).symm

/-- To the right of and not below a place. -/
def corner (x : ℚ) (y : Int) (p : Pt) : Int := if x < p.x ∧ p.y ≤ y then 1 else 0

/-- Which side of a place the line passes. -/
def side (p q : Pt) (x : ℚ) (y : Int) : ℚ := (q.x - p.x) * (y - p.y) - (q.y - p.y) * (x - p.x)

theorem height_up {p q : Pt} {x : ℚ} {y : Int} (h : (p.x : ℚ) < q.x) : height (p, q) x < y ↔ 0 < side p q x y := by
  have h0 : (0 : ℚ) < q.x - p.x := by linarith
  unfold height side
  rw [show (((p, q) : Pt × Pt).1.y : ℚ) + (x - ((p, q) : Pt × Pt).1.x) * ((((p, q) : Pt × Pt).2.y : ℚ) - ((p, q) : Pt × Pt).1.y) / ((((p, q) : Pt × Pt).2.x : ℚ) - ((p, q) : Pt × Pt).1.x)
    = p.y + (x - p.x) * (q.y - p.y) / (q.x - p.x) from rfl]
  rw [← lt_sub_iff_add_lt', div_lt_iff₀ h0]
  constructor <;> intro h <;> nlinarith

theorem height_down {p q : Pt} {x : ℚ} {y : Int} (h : (q.x : ℚ) < p.x) : height (p, q) x < y ↔ side p q x y < 0 := by
  have h0 : (q.x : ℚ) - p.x < 0 := by linarith
  unfold height side
  rw [show (((p, q) : Pt × Pt).1.y : ℚ) + (x - ((p, q) : Pt × Pt).1.x) * ((((p, q) : Pt × Pt).2.y : ℚ) - ((p, q) : Pt × Pt).1.y) / ((((p, q) : Pt × Pt).2.x : ℚ) - ((p, q) : Pt × Pt).1.x)
    = p.y + (x - p.x) * (q.y - p.y) / (q.x - p.x) from rfl]
  rw [← lt_sub_iff_add_lt', div_lt_iff_of_neg h0]
  constructor <;> intro h <;> nlinarith

theorem xAt_up {p q : Pt} {x : ℚ} {y : Int} (h : p.y < q.y) : x < Raster.xAt p q y ↔ 0 < side p q x y := by
  have h0 : (0 : ℚ) < q.y - p.y := by have : (p.y : ℚ) < q.y := by exact_mod_cast h
                                      linarith
  unfold Raster.xAt side
  rw [← sub_lt_iff_lt_add', lt_div_iff₀ h0]
  constructor <;> intro h <;> nlinarith

theorem xAt_down {p q : Pt} {x : ℚ} {y : Int} (h : q.y < p.y) : x < Raster.xAt q p y ↔ side p q x y < 0 := by
  rw [xAt_up h]
  unfold side
  constructor <;> intro h <;> nlinarith

theorem side_off {p q : Pt} {x : ℚ} {y : Int} (hoff : ¬ OnSegQ x y p q) (hs : side p q x y = 0)
    (h : (p.x ≤ x ∧ x < q.x) ∨ (q.x ≤ x ∧ x < p.x)) : False := by
  apply hoff
  unfold side at hs
  have h0 : (q.x : ℚ) - p.x ≠ 0 := by
    intro hc
    rcases h with ⟨a, b⟩ | ⟨a, b⟩ <;> linarith
  refine ⟨(x - p.x) / (q.x - p.x), ?_, ?_, ?_, ?_⟩
  · rcases h with ⟨a, b⟩ | ⟨a, b⟩
    · exact div_nonneg (by linarith) (by linarith)
    · exact div_nonneg_of_nonpos (by linarith) (by linarith)
  · rcases h with ⟨a, b⟩ | ⟨a, b⟩
    · rw [div_le_one (by linarith)]; linarith
    · rw [div_le_one_of_neg (by linarith)]; linarith
  · field_simp; ring
  · field_simp; linarith

/-- What an edge counts along the two rays differs by whether its ends are in the quarter between the rays. -/
theorem count_rays {p q : Pt} {x : ℚ} {y : Int} (hoff : ¬ OnSegQ x y p q) :
    count (p, q) x y - Raster.crossSign (fun X => decide (x < X)) y p q = corner x y q - corner x y p := by
  unfold count Raster.crossSign corner
  simp only [decide_eq_true_eq]
  have hu : (p.x : ℚ) ≤ x → x < q.x → (height (p, q) x < y ↔ 0 < side p q x y) := fun a b => height_up (by linarith)
  have hd : (q.x : ℚ) ≤ x → x < p.x → (height (p, q) x < y ↔ side p q x y < 0) := fun a b => height_down (by linarith)
  have xu : p.y ≤ y → y < q.y → (x < Raster.xAt p q y ↔ 0 < side p q x y) := fun a b => xAt_up (by omega)
  have xd : q.y ≤ y → y < p.y → (x < Raster.xAt q p y ↔ side p q x y < 0) := fun a b => xAt_down (by omega)
  have s1 : (p.x : ℚ) ≤ x → x < q.x → side p q x y ≠ 0 := fun a b h => side_off hoff h (Or.inl ⟨a, b⟩)
  have s2 : (q.x : ℚ) ≤ x → x < p.x → side p q x y ≠ 0 := fun a b h => side_off hoff h (Or.inr ⟨a, b⟩)
  have hs : side p q x y = (q.x - x) * (y - p.y) + (x - p.x) * (y - q.y) := by unfold side; ring
  have cx : ∀ a : Int, ((a : ℚ) ≤ x ∧ ¬ x < a) ∨ (x < a ∧ ¬ (a : ℚ) ≤ x) := fun a =>
    (le_or_gt (a : ℚ) x).imp (fun h => ⟨h, not_lt.mpr h⟩) fun h => ⟨h, not_le.mpr h⟩
  have cy : ∀ a : Int, (a ≤ y ∧ ¬ y < a ∧ (0 : ℚ) ≤ y - a) ∨ (y < a ∧ ¬ a ≤ y ∧ (y : ℚ) - a < 0) := fun a =>
    (le_or_gt a y).imp (fun h => ⟨h, not_lt.mpr h, by have : (a : ℚ) ≤ y := by exact_mod_cast h
                                                      linarith⟩)
      fun h => ⟨h, not_le.mpr h, by have : (y : ℚ) < a := by exact_mod_cast h
                                    linarith⟩
  rcases cx p.x with ⟨a, a'⟩ | ⟨a, a'⟩ <;> rcases cx q.x with ⟨b, b'⟩ | ⟨b, b'⟩ <;>
    rcases cy p.y with ⟨c, c', c''⟩ | ⟨c, c', c''⟩ <;> rcases cy q.y with ⟨d, d', d''⟩ | ⟨d, d', d''⟩ <;>
    simp only [a, a', b, b', c, c', d, d', true_and, and_true, false_and, and_false, if_true, if_false, true_implies, false_implies] at hu hd xu xd s1 s2 ⊢ <;>
    (try simp only [hu, hd, xu, xd]) <;> (try rfl)
  all_goals
    rcases lt_trichotomy (side p q x y) 0 with h | h | h <;>
      first
      | exact absurd h (by assumption)
      | (simp only [h, not_lt.mpr h.le, if_true, if_false] <;> done)
      | (simp only [h, not_lt.mpr h.le, if_true, if_false]; rfl)
      | (simp only [h, lt_irrefl, if_false] <;> done)
      | (exfalso; rw [hs] at h; nlinarith)

theorem sum_sub {α : Type} (f g : α → Int) (l : List α) : (l.map fun e => f e - g e).sum = (l.map f).sum - (l.map g).sum := by
  induction l with
  | nil => rfl
  | cons a l ih => simp only [List.map_cons, List.sum_cons, ih]; omega

theorem wind_rays {l : List Pt} {x : ℚ} {y : Int} (hoff : Off (edges l) x y) :
    wind (edges l) x y = Raster.cycSum (Raster.crossSign (fun X => decide (x < X)) y) l := by
  have h1 : wind (edges l) x y - ((edges l).map fun e => Raster.crossSign (fun X => decide (x < X)) y e.1 e.2).sum =
      ((edges l).map fun e => corner x y e.2 - corner x y e.1).sum := by
    unfold wind
    rw [← sum_sub]
    refine congrArg _ (List.map_congr_left fun e he => count_rays (hoff e he))
  have h2 : ((edges l).map fun e => corner x y e.2 - corner x y e.1).sum = 0 := by
    have z1 : (edges l).map (fun e => corner x y e.1) = l.map (corner x y) := by
      rw [edges_zip, show (fun e : Pt × Pt => corner x y e.1) = corner x y ∘ Prod.fst from rfl, ← List.map_map, List.map_fst_zip (by rw [List.length_rotate])]
    have z2 : (edges l).map (fun e => corner x y e.2) = (l.rotate 1).map (corner x y) := by
      rw [edges_zip, show (fun e : Pt × Pt => corner x y e.2) = corner x y ∘ Prod.snd from rfl, ← List.map_map, List.map_snd_zip (by rw [List.length_rotate])]
    rw [sum_sub, z1, z2, ((l.rotate_perm 1).map _).sum_eq, sub_self]
  have h3 : ((edges l).map fun e => Raster.crossSign (fun X => decide (x < X)) y e.1 e.2).sum = Raster.cycSum (Raster.crossSign (fun X => decide (x < X)) y) l := by
    unfold Raster.cycSum
    rw [edges_zip, ← List.map_uncurry_zip_eq_zipWith]
    rfl
  omega

/-- The two winding numbers of polygons are the same. -/
theorem wind_winding {ls : List (List Pt)} {x : ℚ} {y : Int} (hoff : Off (ls.flatMap edges) x y) :
    wind (ls.flatMap edges) x y = Raster.winding ls y x := by
  unfold Raster.winding
  induction ls with
  | nil => rfl
  | cons l ls ih =>
    rw [List.flatMap_cons, Off.append] at hoff
    rw [List.flatMap_cons, wind_append, List.map_cons, List.sum_cons, ← wind_rays hoff.1, ih hoff.2]

end PolyOps.Compose
