import Mathlib.Data.Real.Basic
import Mathlib.Data.Real.Sqrt
import Mathlib.Algebra.BigOperators.Fin

/-!
Points of the plane and of n-space, for stating the properties of `segment.py`.
-/

namespace Blmath.Spec

/-- the point at fraction `t` of the way from `p` to `q` in n-space -/
def between {n : ℕ} (p q : Fin n → ℝ) (t : ℝ) : Fin n → ℝ := fun c => (1 - t) * p c + t * q c

/-- a point of the line through `p` and `q` in the plane -/
def OnLine2 (p q r : ℝ × ℝ) : Prop :=
  ∃ t : ℝ, r = ((1 - t) * p.1 + t * q.1, (1 - t) * p.2 + t * q.2)

/-- the vectors from `p0` to `q0` and from `p1` to `q1` are linearly dependent: the lines are
parallel or equal, or one of them is not a line -/
def Dependent2 (p0 q0 p1 q1 : ℝ × ℝ) : Prop :=
  ∃ a b : ℝ, (a ≠ 0 ∨ b ≠ 0) ∧ a * (q0.1 - p0.1) + b * (q1.1 - p1.1) = 0 ∧
    a * (q0.2 - p0.2) + b * (q1.2 - p1.2) = 0

end Blmath.Spec
