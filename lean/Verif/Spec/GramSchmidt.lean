import Mathlib.LinearAlgebra.LinearIndependent.Lemmas
import Mathlib.LinearAlgebra.Matrix.DotProduct
import Mathlib.Data.Real.Sqrt

/-!
Orthogonal rows and the spaces they span.
-/

namespace Blmath.Spec
variable {n : ℕ}

/-- the rows are linearly independent -/
def Independent (v : List (Fin n → ℝ)) : Prop := LinearIndependent ℝ fun i : Fin v.length => v[i]

/-- the space spanned by the first `k` rows -/
def spanFirst (v : List (Fin n → ℝ)) (k : ℕ) : Submodule ℝ (Fin n → ℝ) := Submodule.span ℝ {w | w ∈ v.take k}

/-- `o` is the Gram-Schmidt process applied to `v`: nonzero, pairwise orthogonal rows, the first `k`
spanning the same space as the first `k` of `v`, the `k`-th differing from that of `v` by a vector of the
space spanned by the earlier ones. -/
structure IsGramSchmidt (v o : List (Fin n → ℝ)) : Prop where
  length : o.length = v.length
  nonzero : ∀ w ∈ o, w ≠ 0
  orthogonal : o.Pairwise fun a b => a ⬝ᵥ b = 0
  span : ∀ k, spanFirst o k = spanFirst v k
  step : ∀ k (h : k < o.length) (h' : k < v.length), v[k] - o[k] ∈ spanFirst v k

/-- Euclidean length -/
noncomputable def vnorm (w : Fin n → ℝ) : ℝ := Real.sqrt (w ⬝ᵥ w)

end Blmath.Spec
