import Verif.Spec.Plane
import Verif.Spec.Rotation

/-!
Least squares planes, eigenvectors and sorting, for stating properties.
-/

namespace Blmath.Spec
open Blmath.Geometry

/-- sum of the squared distances of the points from the plane, for a unit normal -/
def sqDistSum (pl : Plane ℝ) : List (V3 ℝ) → ℝ
  | [] => 0
  | p :: ps => height pl p ^ 2 + sqDistSum pl ps

/-- a column, as a vector -/
def column (v : Matrix (Fin 3) (Fin 3) ℝ) (i : Fin 3) : V3 ℝ := ⟨v 0 i, v 1 i, v 2 i⟩

/-- eigenvalues `w` with independent unit eigenvectors, the columns of `v`; they need not be orthogonal -/
structure EigSpec (A : Matrix (Fin 3) (Fin 3) ℝ) (w : Fin 3 → ℝ) (v : Matrix (Fin 3) (Fin 3) ℝ) : Prop where
  eigen : ∀ i, act A (column v i) = scale3 (w i) (column v i)
  unit : ∀ i, len3 (column v i) = 1
  independent : v.det ≠ 0

/-- the positions of three numbers, in ascending order of the numbers; ties in any order -/
def IsArgsort (w : Fin 3 → ℝ) (l : List (Fin 3)) : Prop := l.Perm [0, 1, 2] ∧ l.Pairwise (fun i j => w i ≤ w j)

end Blmath.Spec
