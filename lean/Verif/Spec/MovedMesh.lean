import Verif.Spec.Normals

/-!
Meshes whose vertices are mapped by a matrix and moved, and whose vertices and faces are listed differently.
-/

namespace Blmath.Spec
open scoped Matrix

/-- each row mapped by `A` and moved by `t` -/
def mapRows {n : ℕ} (A : Matrix (Fin 3) (Fin 3) ℝ) (t : Fin 3 → ℝ) (v : Fin n → Fin 3 → ℝ) : Fin n → Fin 3 → ℝ :=
  fun i => A *ᵥ v i + t

/-- turned or mirrored: all lengths and angles are kept -/
def KeepsLengths (Q : Matrix (Fin 3) (Fin 3) ℝ) : Prop := ∀ x y : Fin 3 → ℝ, (Q *ᵥ x) ⬝ᵥ (Q *ᵥ y) = x ⬝ᵥ y

/-- the matrix of cofactors: entry (i, j) is the determinant of what is left without row `i` and column `j`, with the
sign of the place -/
def cofactors (A : Matrix (Fin 3) (Fin 3) ℝ) : Matrix (Fin 3) (Fin 3) ℝ :=
  !![A 1 1 * A 2 2 - A 1 2 * A 2 1, A 1 2 * A 2 0 - A 1 0 * A 2 2, A 1 0 * A 2 1 - A 1 1 * A 2 0;
     A 0 2 * A 2 1 - A 0 1 * A 2 2, A 0 0 * A 2 2 - A 0 2 * A 2 0, A 0 1 * A 2 0 - A 0 0 * A 2 1;
     A 0 1 * A 1 2 - A 0 2 * A 1 1, A 0 2 * A 1 0 - A 0 0 * A 1 2, A 0 0 * A 1 1 - A 0 1 * A 1 0]

end Blmath.Spec
