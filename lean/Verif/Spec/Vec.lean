import Mathlib.Analysis.Real.Sqrt
import Mathlib.Tactic.Linarith
import Mathlib.Tactic.FieldSimp
import Mathlib.Tactic.Positivity
import Mathlib.Tactic.Ring

/-!
Elementary vector algebra on lists of reals, used to state the properties of
`vector_shortcuts.py` without the model's helpers.
-/

namespace Blmath.Spec

/-- scalar product of two vectors -/
def rdot (xs ys : List ℝ) : ℝ := (List.zipWith (· * ·) xs ys).sum

/-- Euclidean length -/
noncomputable def rnorm (xs : List ℝ) : ℝ := Real.sqrt (rdot xs xs)

/-- `k` times a vector -/
def rscale (k : ℝ) (xs : List ℝ) : List ℝ := xs.map (k * ·)

/-- sum of two vectors -/
def radd (xs ys : List ℝ) : List ℝ := List.zipWith (· + ·) xs ys

/-- difference of two vectors -/
def rsub (xs ys : List ℝ) : List ℝ := List.zipWith (· - ·) xs ys

/-- some component is not zero -/
def RNonzero (xs : List ℝ) : Prop := ∃ x ∈ xs, x ≠ 0

end Blmath.Spec
