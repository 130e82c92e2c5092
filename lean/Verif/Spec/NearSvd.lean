import Verif.Spec.Svd
import Verif.Spec.Rigid
import Verif.Spec.Fit

/-!
Singular value decompositions and eigenvectors of a matrix near the one given, and how far points extend, for stating properties.
-/

namespace Blmath.Spec

/-- the sum of the squares of the entries -/
def sqEntries (M : Matrix (Fin 3) (Fin 3) ℝ) : ℝ := ∑ i, ∑ j, M i j ^ 2

/-- what a stable routine returns: the decomposition of a matrix that differs from the one given by at most `δ` -/
def NearSvd (δ : ℝ) (c u : Matrix (Fin 3) (Fin 3) ℝ) (s : Fin 3 → ℝ) (v : Matrix (Fin 3) (Fin 3) ℝ) : Prop :=
  ∃ c', sqEntries (c' - c) ≤ δ ^ 2 ∧ SvdSpec c' u s v

/-- eigenvalues and orthonormal eigenvectors of a symmetric matrix that differs from the one given by at most `δ` -/
def NearEig (δ : ℝ) (A : Matrix (Fin 3) (Fin 3) ℝ) (w : Fin 3 → ℝ) (v : Matrix (Fin 3) (Fin 3) ℝ) : Prop :=
  ∃ A' : Matrix (Fin 3) (Fin 3) ℝ, A'.transpose = A' ∧ sqEntries (A' - A) ≤ δ ^ 2 ∧ EigSpec A' w v ∧ v.transpose * v = 1

/-- in each direction the sum of the squared distances from the plane through `o` is at least `σ` -/
def Wide (σ : ℝ) (o : V3 ℝ) (ps : List (V3 ℝ)) : Prop :=
  ∀ w : V3 ℝ, σ * inner3 w w ≤ (ps.map fun p => inner3 w (vec3 o p) ^ 2).sum

end Blmath.Spec
