import Mathlib.Data.Matrix.Mul
import Mathlib.Data.Real.Basic
import Mathlib.Data.Matrix.Diagonal
import Mathlib.Order.Monotone.Defs

/-!
What `np.linalg.svd` promises for a square matrix.
-/

namespace Blmath.Spec

/-- `A = u · diag(s) · v` with orthogonal `u`, `v` and non-negative singular values in descending
order -/
structure SvdSpec {n : ℕ} (A u : Matrix (Fin n) (Fin n) ℝ) (s : Fin n → ℝ) (v : Matrix (Fin n) (Fin n) ℝ) : Prop where
  left : u.transpose * u = 1
  right : v.transpose * v = 1
  nonneg : ∀ i, 0 ≤ s i
  sorted : ∀ i j, i ≤ j → s j ≤ s i
  factor : A = u * Matrix.diagonal s * v

end Blmath.Spec
