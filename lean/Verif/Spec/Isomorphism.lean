import Verif.Base.Py
import Mathlib.LinearAlgebra.Matrix.NonsingularInverse
import Mathlib.Data.Real.Basic

/-!
What `np.linalg.det` and `np.linalg.inv` promise, in exact arithmetic.
-/

namespace Blmath.Spec

/-- the determinant -/
def DetSpec (det : (n : ℕ) → Matrix (Fin n) (Fin n) ℝ → ℝ) : Prop := ∀ n a, det n a = a.det

/-- the inverse, or LinAlgError for a singular matrix -/
structure InvSpecAny (inv : (n : ℕ) → Matrix (Fin n) (Fin n) ℝ → PyM (Matrix (Fin n) (Fin n) ℝ)) : Prop where
  inverse : ∀ n a b, inv n a = .ok b → a * b = 1 ∧ b * a = 1
  fails : ∀ n a e, inv n a = .error e → a.det = 0 ∧ e = .LinAlgError

end Blmath.Spec
