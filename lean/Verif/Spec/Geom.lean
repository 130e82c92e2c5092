import Verif.Base.V3
import Mathlib.Tactic.Linarith
import Mathlib.Tactic.Ring

/-!
Euclidean 3-space, used to state geometric properties: independent of the code's arithmetic.
-/

namespace Blmath.Spec

/-- scalar product -/
def inner3 (a b : V3 ℝ) : ℝ := a.x * b.x + a.y * b.y + a.z * b.z

/-- Euclidean length -/
noncomputable def len3 (a : V3 ℝ) : ℝ := Real.sqrt (a.x ^ 2 + a.y ^ 2 + a.z ^ 2)

/-- vector from `a` to `b` -/
def vec3 (a b : V3 ℝ) : V3 ℝ := ⟨b.x - a.x, b.y - a.y, b.z - a.z⟩

/-- distance of two points -/
noncomputable def dist3 (a b : V3 ℝ) : ℝ := len3 (vec3 a b)

/-- `a + k·v`: the point at parameter `k` of the line through `a` in direction `v` -/
def along (a : V3 ℝ) (k : ℝ) (v : V3 ℝ) : V3 ℝ := ⟨a.x + k * v.x, a.y + k * v.y, a.z + k * v.z⟩

/-- `k·v` -/
def scale3 (k : ℝ) (v : V3 ℝ) : V3 ℝ := ⟨k * v.x, k * v.y, k * v.z⟩

/-- vector product -/
def cross3 (a b : V3 ℝ) : V3 ℝ :=
  ⟨a.y * b.z - a.z * b.y, a.z * b.x - a.x * b.z, a.x * b.y - a.y * b.x⟩

/-- the zero vector -/
def zero3 : V3 ℝ := ⟨0, 0, 0⟩

/-- determinant of three vectors -/
def det3 (a b c : V3 ℝ) : ℝ := inner3 (cross3 a b) c

end Blmath.Spec
