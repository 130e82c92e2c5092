import Mathlib.Data.Matrix.Basis
import Mathlib.Data.Real.Basic

/-!
The matrix given by a list of entries.
-/

namespace Blmath.Spec

/-- the sum of the matrices with a single entry -/
def cooMat {m n : ℕ} (M : List (Fin m × Fin n × ℝ)) : Matrix (Fin m) (Fin n) ℝ :=
  (M.map fun t => Matrix.single t.1 t.2.1 t.2.2).sum

end Blmath.Spec
