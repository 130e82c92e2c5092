import Verif.Spec.Rotation
import Mathlib.Analysis.Normed.Algebra.MatrixExponential
import Mathlib.Analysis.Calculus.FDeriv.Pi
import Mathlib.LinearAlgebra.CrossProduct

/-!
The rotation with a given rotation vector as a matrix exponential, and derivatives of maps between
vectors and matrices.
-/

namespace Blmath.Spec

/-- the matrix of `v ↦ r × v` -/
def crossMat (r : Fin 3 → ℝ) : Matrix (Fin 3) (Fin 3) ℝ :=
  !![0, -r 2, r 1; r 2, 0, -r 0; -r 1, r 0, 0]

open scoped Matrix in
/-- `crossMat` is what it should be -/
theorem crossMat_mulVec (r v : Fin 3 → ℝ) : crossMat r *ᵥ v = crossProduct r v := by
  rw [cross_apply]
  ext i
  fin_cases i <;> simp [crossMat, Matrix.mulVec, dotProduct, Fin.sum_univ_three] <;> ring

/-- the rotation by the angle `|r|` about the axis `r` -/
noncomputable def rotMap (r : Fin 3 → ℝ) : Matrix (Fin 3) (Fin 3) ℝ := NormedSpace.exp (crossMat r)

/-- `J j (3 i + k)` is the partial derivative of entry (i, k) of `F` with respect to variable `j`, and
`F` is differentiable at `r`. -/
def HasJacobian39 (F : (Fin 3 → ℝ) → Matrix (Fin 3) (Fin 3) ℝ) (J : Matrix (Fin 3) (Fin 9) ℝ) (r : Fin 3 → ℝ) : Prop :=
  ∀ i k : Fin 3, HasFDerivAt (fun x => F x i k)
    (∑ j, J j (⟨i * 3 + k, by omega⟩ : Fin 9) • (ContinuousLinearMap.proj j : (Fin 3 → ℝ) →L[ℝ] ℝ)) r

end Blmath.Spec
