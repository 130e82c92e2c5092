import Verif.Spec.Geom
import Verif.Model.Plane

/-!
Planes of Euclidean 3-space, for stating properties.
-/

namespace Blmath.Spec
open Blmath.Geometry

/-- the point `q` belongs to the plane through `r0` orthogonal to `n` -/
def OnPlane (pl : Plane ℝ) (q : V3 ℝ) : Prop := inner3 (vec3 pl.r0 q) pl.n = 0

/-- the normal has length 1 (true of every constructed plane, C21) -/
def UnitNormal (pl : Plane ℝ) : Prop := len3 pl.n = 1

/-- signed height of `q` above the plane, for a unit normal -/
def height (pl : Plane ℝ) (q : V3 ℝ) : ℝ := inner3 (vec3 pl.r0 q) pl.n

/-- `q` is on the line through `p` with direction `v` -/
def OnLine (p v q : V3 ℝ) : Prop := ∃ k, q = along p k v

/-- `q` is on the closed segment from `a` to `b` -/
def OnSegment (a b q : V3 ℝ) : Prop := ∃ t, 0 ≤ t ∧ t ≤ 1 ∧ q = along a t (vec3 a b)

end Blmath.Spec
