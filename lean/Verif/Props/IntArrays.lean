import Verif.Model.IntArrays
import Verif.Props.GramSchmidt
import Verif.Props.Triangle

/-!
Property C79: arrays of integers in Gram-Schmidt and in barycentric coordinates.
-/

namespace Blmath.Props
open Blmath.Linalg Blmath.Geometry Blmath.Spec
variable {n : ℕ}

/-- a row of integers as a row of reals -/
def realRow (v : Fin n → ℤ) : Fin n → ℝ := fun i => (v i : ℝ)

theorem toFlRow_eq (v : List (Fin n → ℤ)) : v.map toFlRow = (v.map realRow).map flRow := by
  rw [List.map_map]; rfl

/-- **C79.** On Python 3, two or more independent rows of integers give the Gram-Schmidt process, in floats. -/
theorem C79_py3 (v : List (Fin n → ℤ)) (h2 : 2 ≤ v.length) (h : Independent (v.map realRow)) :
    ∃ o, IsGramSchmidt (v.map realRow) o ∧ orthogonalizeInt .py3 v = .floats (o.map flRow) := by
  refine ⟨_, C60_orthogonalize _ h, ?_⟩
  match v, h2 with
  | a :: b :: rest, _ =>
    show Rows.floats (orthogonalize ((a :: b :: rest).map toFlRow)) = _
    rw [toFlRow_eq, C60_independent_floats _ h]

/-- **C79.** On Python 3 a single row of integers comes back as it is, and cannot be normalised: TypeError. -/
theorem C79_py3_single (r : Fin n → ℤ) : orthogonalizeInt .py3 [r] = .ints [r] ∧
    orthonormalizeInt .py3 [r] none = .error .TypeError := ⟨rfl, rfl⟩

theorem floor_length (v : List (Fin n → ℤ)) : ∀ o, (orthogonalizeFloorFrom o v).length = o.length + v.length := by
  induction v with
  | nil => intro o; rfl
  | cons a v ih =>
    intro o
    rw [orthogonalizeFloorFrom, ih]
    simp; omega

/-- **C79.** On Python 2 `orthonormalize` of any non-empty array of integers raises TypeError. -/
theorem C79_py2_unit (v : List (Fin n → ℤ)) (h : v ≠ []) : orthonormalizeInt .py2 v none = .error .TypeError := by
  match v, h with
  | a :: rest, _ =>
    have hr : ((List.range (a :: rest).length).map fun (i : ℕ) => (i : ℤ)) =
        0 :: (((List.range rest.length).map Nat.succ).map fun (i : ℕ) => (i : ℤ)) := by
      rw [List.length_cons, List.range_succ_eq_map]; rfl
    have hl := floor_length (a :: rest) []
    have hi : rowIndex (orthogonalizeFloorFrom [] (a :: rest)).length 0 = .ok 0 := by
      rw [hl]; simp [rowIndex]
    unfold orthonormalizeInt
    simp only [hr]
    show (do let _ ← rowIndex (orthogonalizeFloorFrom [] (a :: rest)).length 0; raise PyErr.TypeError : PyM (Rows n)) = _
    rw [hi]
    rfl

/-- **C79.** On Python 2 the quotients are rounded down: two rows of integers with `0 ≤ u·w < u·u` come back as they
are, orthogonal or not. -/
theorem C79_py2_pair (u w : Fin n → ℤ) (h0 : 0 ≤ ∑ i, u i * w i) (h1 : ∑ i, u i * w i < ∑ i, u i * u i) :
    orthogonalizeInt .py2 [u, w] = .ints [u, w] := by
  have hq : dotInt u w / dotInt u u = 0 := Int.ediv_eq_zero_of_lt h0 h1
  have hu : ∀ i, u i - (fun _ => (0 : ℤ)) i = u i := fun i => by simp
  show Rows.ints (orthogonalizeFloorFrom [] [u, w]) = _
  congr 1
  simp only [orthogonalizeFloorFrom, List.map_nil, List.foldl_nil, List.nil_append, sub_zero, List.map_cons, List.foldl_cons,
    projFloor, hq, ite_self, zero_mul, List.cons_append]
  simp

/-- **C79.** On Python 2 the second of two rows of integers comes back less a whole multiple of the first: of all multiples the one that leaves
`0 ≤ u·r < u·u`, so that it is orthogonal to the first exactly if `u·w` is a multiple of `u·u`; if the first row is zero the second is
unchanged. -/
theorem C79_py2_two (u w : Fin n → ℤ) : ∃ q : ℤ, orthogonalizeInt .py2 [u, w] = .ints [u, fun i => w i - q * u i] ∧
    (u ≠ 0 → 0 ≤ ∑ i, u i * (w i - q * u i) ∧ ∑ i, u i * (w i - q * u i) < ∑ i, u i * u i) ∧
    (u ≠ 0 → (∑ i, u i * (w i - q * u i) = 0 ↔ (∑ i, u i * u i) ∣ ∑ i, u i * w i)) ∧
    (u = 0 → ∀ i, w i - q * u i = w i) := by
  obtain ⟨q, hq⟩ : ∃ q, q = if dotInt u u = 0 then 0 else dotInt u w / dotInt u u := ⟨_, rfl⟩
  have split : ∑ i, u i * (w i - q * u i) = dotInt u w - q * dotInt u u := by
    simp only [dotInt, Finset.mul_sum, ← Finset.sum_sub_distrib]
    exact Finset.sum_congr rfl fun i _ => by ring
  have pos : u ≠ 0 → 0 < dotInt u u := by
    intro h
    obtain ⟨i, hi⟩ := Function.ne_iff.mp h
    exact Finset.sum_pos' (fun j _ => mul_self_nonneg _) ⟨i, Finset.mem_univ i, mul_self_pos.mpr hi⟩
  have hmod : u ≠ 0 → dotInt u w - q * dotInt u u = dotInt u w % dotInt u u := by
    intro h
    rw [hq, if_neg (pos h).ne', Int.emod_def]; ring
  refine ⟨q, ?_, fun h => ?_, fun h => ?_, ?_⟩
  · show Rows.ints (orthogonalizeFloorFrom [] [u, w]) = _
    congr 1
    have hu : (fun i => u i - 0) = u := by funext i; simp
    simp only [orthogonalizeFloorFrom, List.map_nil, List.foldl_nil, List.nil_append, List.map_cons, List.foldl_cons,
      projFloor, List.cons_append, zero_add, hu, ← hq]
  · rw [split, hmod h]
    exact ⟨Int.emod_nonneg _ (pos h).ne', Int.emod_lt_of_pos _ (pos h)⟩
  · rw [split, hmod h]
    exact Int.dvd_iff_emod_eq_zero.symm
  · rintro rfl i
    simp

/-- **C79.** So on Python 2 the result need not be orthogonal: the rows (3, 1) and (2, 2), the example of the module
itself, given as integers. -/
theorem C79_py2_not_orthogonal : Independent (n := 2) [![3, 1], ![2, 2]] ∧
    orthogonalizeInt .py2 [![3, 1], ![2, 2]] = .ints [![3, 1], ![2, 2]] ∧
    ∑ i, (![3, 1] : Fin 2 → ℤ) i * (![2, 2] : Fin 2 → ℤ) i ≠ 0 := by
  refine ⟨?_, C79_py2_pair _ _ (by decide) (by decide), by decide⟩
  show LinearIndependent ℝ _
  rw [Fintype.linearIndependent_iff]
  intro g hg
  have h0 := congrFun hg 0
  have h1 := congrFun hg 1
  simp [Fin.sum_univ_two] at h0 h1
  intro i
  fin_cases i
  · simp; linarith
  · simp; linarith

/-- Non-vacuity of `C79_py3`: the same rows. -/
example : 2 ≤ [![3, 1], (![2, 2] : Fin 2 → ℤ)].length ∧ Independent (List.map realRow [![3, 1], (![2, 2] : Fin 2 → ℤ)]) := by
  refine ⟨by simp, ?_⟩
  have h : List.map realRow [![3, 1], (![2, 2] : Fin 2 → ℤ)] = [![3, 1], ![2, 2]] := by
    simp only [List.map_cons, List.map_nil, List.cons.injEq, and_true]
    constructor <;> (ext i; fin_cases i <;> simp [realRow])
  rw [h]
  exact C79_py2_not_orthogonal.1

/-- integer components as reals -/
def real3 (v : V3 ℤ) : V3 ℝ := ⟨v.x, v.y, v.z⟩

/-- **C79.** Barycentric coordinates with edges given as integers: for a nondegenerate triangle as with floats, in both
forms. -/
theorem C79_bary (stacked : Bool) (p q : V3 ℝ) (u v : V3 ℤ) (h : cross3 (real3 u) (real3 v) ≠ zero3) :
    barycentricIntEdges stacked (p.map .fin) (q.map .fin) u v =
      (barycentric p q (real3 u) (real3 v)).map .fin := by
  obtain ⟨N, hN⟩ : ∃ N : V3 ℤ, N = ⟨u.y * v.z - u.z * v.y, u.z * v.x - u.x * v.z, u.x * v.y - u.y * v.x⟩ := ⟨_, rfl⟩
  have hc : cross3 (real3 u) (real3 v) = real3 N := by
    rw [hN]; ext <;> simp [cross3, real3]
  have hs : N.x * N.x + N.y * N.y + N.z * N.z ≠ 0 := by
    intro h0
    apply h
    rw [hc, ← inner3_self_eq_zero]
    simp only [inner3, real3]
    exact_mod_cast h0
  have hsr : (N.x : ℝ) * N.x + N.y * N.y + N.z * N.z ≠ 0 := by exact_mod_cast hs
  rw [barycentric_real p q _ _ h, hc]
  unfold barycentricIntEdges
  have nx : u.y * v.z - u.z * v.y = N.x := by rw [hN]
  have ny : u.z * v.x - u.x * v.z = N.y := by rw [hN]
  have nz : u.x * v.y - u.y * v.x = N.z := by rw [hN]
  simp only [nx, ny, nz, if_neg hs]
  have hd : (Num.lit 1 / Fl.fin ((N.x * N.x + N.y * N.y + N.z * N.z : ℤ) : ℝ) : Fl) =
      Fl.fin (1 / ((N.x : ℝ) * N.x + N.y * N.y + N.z * N.z)) := by
    rw [Fl.lit_fl, Fl.div_fin _ _ (by exact_mod_cast hs)]; push_cast; rfl
  rw [hd]
  ext <;> simp [V3.map, V3.dot, V3.cross, toFl3, real3, inner3, cross3, vec3] <;> ring

/-- **C79.** For collinear edges the single form gives (1, 0, 0), the stacked form NaN. -/
theorem C79_bary_degenerate (p q : V3 ℝ) (u v : V3 ℤ) (h : cross3 (real3 u) (real3 v) = zero3) :
    barycentricIntEdges false (p.map .fin) (q.map .fin) u v = ⟨.fin 1, .fin 0, .fin 0⟩ ∧
    barycentricIntEdges true (p.map .fin) (q.map .fin) u v = ⟨.nan, .nan, .nan⟩ := by
  have hx := congrArg V3.x h
  have hy := congrArg V3.y h
  have hz := congrArg V3.z h
  simp only [cross3, zero3, real3] at hx hy hz
  have ix : u.y * v.z - u.z * v.y = 0 := by exact_mod_cast hx
  have iy : u.z * v.x - u.x * v.z = 0 := by exact_mod_cast hy
  have iz : u.x * v.y - u.y * v.x = 0 := by exact_mod_cast hz
  have hm : (Fl.fin 0 * Fl.pinf : Fl) = Fl.nan := by
    show Fl.mul _ _ = _
    simp [Fl.mul]
  have hd : (Fl.fin 1 / Fl.fin 0 : Fl) = Fl.pinf := by
    rw [Fl.div_fin_zero _ one_ne_zero]; simp [Fl.infOf]
  unfold barycentricIntEdges
  simp only [ix, iy, iz, toFl3, V3.dot, V3.cross, V3.map, V3.sub_x, V3.sub_y, V3.sub_z, Fl.mul_fin, Fl.sub_fin, Fl.add_fin,
    Int.cast_zero, mul_zero, add_zero, if_true, Fl.lit_fl, Rat.cast_one, spacing1]
  constructor
  · rw [if_neg (by simp), Fl.div_fin _ _ (by positivity)]
    simp
  · rw [hd, hm]; simp

/-- Non-vacuity: collinear and other edges of integers. -/
example : cross3 (real3 ⟨1, 2, 3⟩) (real3 ⟨2, 4, 6⟩) = zero3 ∧ cross3 (real3 ⟨1, 0, 0⟩) (real3 ⟨0, 2, 0⟩) ≠ zero3 := by
  constructor
  · ext <;> norm_num [cross3, real3, zero3]
  · intro h
    have := congrArg V3.z h
    norm_num [cross3, real3, zero3] at this

end Blmath.Props
