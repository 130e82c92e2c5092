import Verif.Model.Rotation
import Verif.Spec.Rotation
import Verif.Proofs.V3

/-!
Lemmas about rotations.
-/

namespace Blmath
open Blmath.Spec Blmath.Geometry

theorem act_eq (R : Mat 3 3 ℝ) (v : V3 ℝ) : act R v =
    ⟨R 0 0 * v.x + R 0 1 * v.y + R 0 2 * v.z, R 1 0 * v.x + R 1 1 * v.y + R 1 2 * v.z,
      R 2 0 * v.x + R 2 1 * v.y + R 2 2 * v.z⟩ := by
  simp [act, Matrix.mulVec, dotProduct, Fin.sum_univ_three]

theorem app_real (R : Mat 3 3 ℝ) (v : V3 ℝ) : Mat.app R v = act R v := by
  rw [act_eq]; rfl

theorem act_mul (A B : Mat 3 3 ℝ) (v : V3 ℝ) : act (A * B) v = act A (act B v) := by
  simp only [act_eq, Matrix.mul_apply, Fin.sum_univ_three]
  ext <;> simp only <;> ring

@[simp] theorem act_one (v : V3 ℝ) : act 1 v = v := by
  rw [act_eq]
  ext <;> simp

theorem act_add (R : Mat 3 3 ℝ) (v w : V3 ℝ) : act R (v + w) = act R v + act R w := by
  simp only [act_eq]
  ext <;> simp <;> ring

theorem act_scale (R : Mat 3 3 ℝ) (k : ℝ) (v : V3 ℝ) : act R (scale3 k v) = scale3 k (act R v) := by
  simp only [act_eq, scale3]
  ext <;> simp only <;> ring

/-- a matrix is determined by its action -/
theorem act_ext {A B : Mat 3 3 ℝ} (h : ∀ v, act A v = act B v) : A = B := by
  have h0 := h ⟨1, 0, 0⟩
  have h1 := h ⟨0, 1, 0⟩
  have h2 := h ⟨0, 0, 1⟩
  simp only [act_eq, V3.mk.injEq] at h0 h1 h2
  ext i j
  fin_cases i <;> fin_cases j <;> simp at h0 h1 h2 ⊢ <;> tauto

namespace Spec.IsRotation
variable {A B : Mat 3 3 ℝ}

theorem one : IsRotation 1 := by simp [IsRotation]

theorem mul (hA : IsRotation A) (hB : IsRotation B) : IsRotation (A * B) := by
  refine ⟨?_, ?_⟩
  · rw [Matrix.transpose_mul, Matrix.mul_assoc, ← Matrix.mul_assoc A.transpose, hA.1, Matrix.one_mul, hB.1]
  · rw [Matrix.det_mul, hA.2, hB.2, one_mul]

theorem mul_transpose (hA : IsRotation A) : A * A.transpose = 1 := mul_eq_one_comm.mp hA.1

theorem transpose (hA : IsRotation A) : IsRotation A.transpose :=
  ⟨by rw [Matrix.transpose_transpose]; exact hA.mul_transpose, by rw [Matrix.det_transpose]; exact hA.2⟩

theorem act_back (hA : IsRotation A) (v : V3 ℝ) : act A.transpose (act A v) = v := by
  rw [← act_mul, hA.1, act_one]

theorem act_forth (hA : IsRotation A) (v : V3 ℝ) : act A (act A.transpose v) = v := by
  rw [← act_mul, hA.mul_transpose, act_one]

theorem inner (hA : IsRotation A) (v w : V3 ℝ) : inner3 (act A v) (act A w) = inner3 v w := by
  have h := hA.1
  have e : ∀ i j, (A.transpose * A) i j = (1 : Mat 3 3 ℝ) i j := fun i j => by rw [h]
  simp only [Matrix.mul_apply, Fin.sum_univ_three, Matrix.transpose_apply] at e
  have e00 := e 0 0; have e01 := e 0 1; have e02 := e 0 2
  have e11 := e 1 1; have e12 := e 1 2; have e22 := e 2 2
  simp at e00 e01 e02 e11 e12 e22
  simp only [act_eq, inner3]
  linear_combination v.x * w.x * e00 + (v.x * w.y + v.y * w.x) * e01 + (v.x * w.z + v.z * w.x) * e02 +
    v.y * w.y * e11 + (v.y * w.z + v.z * w.y) * e12 + v.z * w.z * e22

theorem len (hA : IsRotation A) (v : V3 ℝ) : len3 (act A v) = len3 v := by
  have := hA.inner v v
  rw [inner3_self, inner3_self] at this
  exact (pow_left_inj₀ (len3_nonneg _) (len3_nonneg _) two_ne_zero).mp this

end Spec.IsRotation

theorem sumPts_real (ps : List (V3 ℝ)) : sumPts ps = sum3 ps := by
  induction ps with
  | nil => simp [sumPts, sum3, V3.zero, zero3]
  | cons p ps ih => rw [sumPts, sum3, ih]; rfl

theorem meanPts_real (ps : List (V3 ℝ)) : meanPts ps = centroid ps := by
  unfold meanPts centroid
  rw [sumPts_real]
  ext <;> simp [scale3, div_eq_inv_mul]

theorem sum3_map_add (ps : List (V3 ℝ)) (t : V3 ℝ) : sum3 (ps.map (· + t)) = sum3 ps + scale3 ps.length t := by
  induction ps with
  | nil => ext <;> simp [sum3, zero3, scale3]
  | cons p ps ih =>
    simp only [List.map_cons, sum3, ih, List.length_cons]
    ext <;> simp [scale3] <;> ring

theorem sum3_map_act (R : Mat 3 3 ℝ) (ps : List (V3 ℝ)) : sum3 (ps.map (act R)) = act R (sum3 ps) := by
  induction ps with
  | nil => rw [act_eq]; ext <;> simp [sum3, zero3]
  | cons p ps ih => simp only [List.map_cons, sum3, ih]; exact (act_add R p (sum3 ps)).symm

theorem isRotation_ofRows {x y z : V3 ℝ} (hx : inner3 x x = 1) (hy : inner3 y y = 1) (hz : inner3 z z = 1)
    (hxy : inner3 x y = 0) (hyz : inner3 y z = 0) (hxz : inner3 x z = 0) (hd : det3 x y z = 1) :
    IsRotation (Mat.ofRows x y z) := by
  simp only [inner3, det3, cross3] at *
  have h : Mat.ofRows x y z * (Mat.ofRows x y z).transpose = 1 := by
    ext i j
    fin_cases i <;> fin_cases j <;>
      simp [Mat.ofRows, Matrix.mul_apply, Fin.sum_univ_three] <;> linarith
  refine ⟨mul_eq_one_comm.mp h, ?_⟩
  rw [Matrix.det_fin_three]
  simp [Mat.ofRows]
  linarith

end Blmath
