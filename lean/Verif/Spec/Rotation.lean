import Verif.Spec.Geom
import Mathlib.LinearAlgebra.Matrix.Determinant.Basic
import Mathlib.LinearAlgebra.Matrix.Notation
import Mathlib.Analysis.SpecialFunctions.Trigonometric.Basic

/-!
Rotations of 3-space.
-/

namespace Blmath.Spec

/-- a proper rotation: length preserving, orientation preserving -/
def IsRotation (R : Matrix (Fin 3) (Fin 3) ℝ) : Prop := R.transpose * R = 1 ∧ R.det = 1

/-- the image of a vector under a matrix -/
def act (R : Matrix (Fin 3) (Fin 3) ℝ) (v : V3 ℝ) : V3 ℝ :=
  ⟨R.mulVec ![v.x, v.y, v.z] 0, R.mulVec ![v.x, v.y, v.z] 1, R.mulVec ![v.x, v.y, v.z] 2⟩

/-- turn by `t` about the x axis, y towards z -/
noncomputable def turnX (t : ℝ) (v : V3 ℝ) : V3 ℝ :=
  ⟨v.x, Real.cos t * v.y - Real.sin t * v.z, Real.sin t * v.y + Real.cos t * v.z⟩
/-- turn by `t` about the y axis, z towards x -/
noncomputable def turnY (t : ℝ) (v : V3 ℝ) : V3 ℝ :=
  ⟨Real.cos t * v.x + Real.sin t * v.z, v.y, -Real.sin t * v.x + Real.cos t * v.z⟩
/-- turn by `t` about the z axis, x towards y -/
noncomputable def turnZ (t : ℝ) (v : V3 ℝ) : V3 ℝ :=
  ⟨Real.cos t * v.x - Real.sin t * v.y, Real.sin t * v.x + Real.cos t * v.y, v.z⟩

/-- turn about the axis with the given letter; no turn for any other letter -/
noncomputable def turn (axis : Char) (t : ℝ) (v : V3 ℝ) : V3 ℝ :=
  if axis = 'x' then turnX t v else if axis = 'y' then turnY t v else if axis = 'z' then turnZ t v else v

/-- the turns in the order listed -/
noncomputable def turns : List (ℝ × Char) → V3 ℝ → V3 ℝ
  | [], v => v
  | ta :: rest, v => turns rest (turn ta.2 ta.1 v)

/-- sum of the points -/
def sum3 : List (V3 ℝ) → V3 ℝ
  | [] => zero3
  | p :: ps => ⟨p.x + (sum3 ps).x, p.y + (sum3 ps).y, p.z + (sum3 ps).z⟩

/-- the centroid of a nonempty list of points -/
noncomputable def centroid (ps : List (V3 ℝ)) : V3 ℝ := scale3 (ps.length : ℝ)⁻¹ (sum3 ps)

/-- what `cv2.Rodrigues(v)[0]` promises: the rotation about `v` by `|v|` radians, right-handed -/
structure RotationVectorSpec (f : V3 ℝ → Matrix (Fin 3) (Fin 3) ℝ) : Prop where
  rotation : ∀ v, IsRotation (f v)
  zero : f zero3 = 1
  axis : ∀ v, act (f v) v = v
  angle : ∀ v w, v ≠ zero3 → inner3 v w = 0 →
    act (f v) w = along (scale3 (Real.cos (len3 v)) w) (Real.sin (len3 v)) (cross3 (scale3 (len3 v)⁻¹ v) w)

end Blmath.Spec
