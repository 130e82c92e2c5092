import Verif.Spec.Rotation
import Verif.Model.RigidTransform

/-!
Rigid motions and least squares residuals, for stating properties.
-/

namespace Blmath.Spec
open Blmath.Geometry

/-- the motion `p ↦ R p + T` -/
def move (R : Matrix (Fin 3) (Fin 3) ℝ) (T p : V3 ℝ) : V3 ℝ :=
  ⟨(act R p).x + T.x, (act R p).y + T.y, (act R p).z + T.z⟩

/-- sum of the squared distances between the images of the first points and the second points -/
noncomputable def sqResid (f : V3 ℝ → V3 ℝ) : List (V3 ℝ) → List (V3 ℝ) → ℝ
  | p :: ps, q :: qs => dist3 (f p) q ^ 2 + sqResid f ps qs
  | _, _ => 0

/-- `Σ (p - centroid) (q - centroid')ᵀ` -/
noncomputable def crossCov (ps qs : List (V3 ℝ)) : Matrix (Fin 3) (Fin 3) ℝ :=
  ((ps.zip qs).map fun pq => Matrix.vecMulVec
    ![pq.1.x - (centroid ps).x, pq.1.y - (centroid ps).y, pq.1.z - (centroid ps).z]
    ![pq.2.x - (centroid qs).x, pq.2.y - (centroid qs).y, pq.2.z - (centroid qs).z]).sum

/-- the array has the points as columns -/
def HasColumns (a : Grid ℝ) (ps : List (V3 ℝ)) : Prop :=
  a.m = 3 ∧ a.n = ps.length ∧ ∀ (j : ℕ) (p : V3 ℝ), ps[j]? = some p → p = ⟨a.e 0 j, a.e 1 j, a.e 2 j⟩

/-- the array has the points as rows -/
def HasRows (a : Grid ℝ) (ps : List (V3 ℝ)) : Prop :=
  a.n = 3 ∧ a.m = ps.length ∧ ∀ (i : ℕ) (p : V3 ℝ), ps[i]? = some p → p = ⟨a.e i 0, a.e i 1, a.e i 2⟩

/-- the points given by a 3×N array, or by an N×3 array if N is not 3 -/
def Given (a : Grid ℝ) (ps : List (V3 ℝ)) : Prop := HasColumns a ps ∨ (ps.length ≠ 3 ∧ HasRows a ps)

/-- three of the points do not lie on a line -/
def Spread (ps : List (V3 ℝ)) : Prop :=
  ∃ p ∈ ps, ∃ q ∈ ps, ∃ r ∈ ps, cross3 (vec3 p q) (vec3 p r) ≠ zero3

/-- a proper rigid motion with the smallest sum of squared distances -/
def BestMotion (R : Matrix (Fin 3) (Fin 3) ℝ) (T : V3 ℝ) (ps qs : List (V3 ℝ)) : Prop :=
  IsRotation R ∧ ∀ R' T', IsRotation R' → sqResid (move R T) ps qs ≤ sqResid (move R' T') ps qs

/-- a rotation about the origin with the smallest sum of squared distances -/
def BestRotation (R : Matrix (Fin 3) (Fin 3) ℝ) (ps qs : List (V3 ℝ)) : Prop :=
  IsRotation R ∧ ∀ R', IsRotation R' → sqResid (act R) ps qs ≤ sqResid (act R') ps qs

/-- `Σ p qᵀ` -/
noncomputable def moments (ps qs : List (V3 ℝ)) : Matrix (Fin 3) (Fin 3) ℝ :=
  ((ps.zip qs).map fun pq => Matrix.vecMulVec ![pq.1.x, pq.1.y, pq.1.z] ![pq.2.x, pq.2.y, pq.2.z]).sum

end Blmath.Spec
