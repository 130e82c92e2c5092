import Verif.Spec.Rotation
import Verif.Base.Py

/-!
Affine maps of space and the 4×4 matrices that stand for them.
-/

namespace Blmath.Spec

/-- the last row is (0, 0, 0, 1) -/
def Affine (m : Matrix (Fin 4) (Fin 4) ℝ) : Prop := m 3 0 = 0 ∧ m 3 1 = 0 ∧ m 3 2 = 0 ∧ m 3 3 = 1

/-- the point `A p + t` for the matrix `[A t; 0 1]` -/
def affMap (m : Matrix (Fin 4) (Fin 4) ℝ) (p : V3 ℝ) : V3 ℝ :=
  ⟨m 0 0 * p.x + m 0 1 * p.y + m 0 2 * p.z + m 0 3, m 1 0 * p.x + m 1 1 * p.y + m 1 2 * p.z + m 1 3,
    m 2 0 * p.x + m 2 1 * p.y + m 2 2 * p.z + m 2 3⟩

/-- what `np.linalg.inv` promises: the inverse, or LinAlgError for a singular matrix -/
structure InvSpec (inv : Matrix (Fin 4) (Fin 4) ℝ → PyM (Matrix (Fin 4) (Fin 4) ℝ)) : Prop where
  inverse : ∀ a b, inv a = .ok b → a * b = 1 ∧ b * a = 1
  fails : ∀ a e, inv a = .error e → a.det = 0 ∧ e = .LinAlgError

end Blmath.Spec
