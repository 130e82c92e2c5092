import Verif.Spec.Chord

/-!
Specification for C129: how steeply the edges of a mesh cross a plane.
-/

namespace Blmath.Spec
open Blmath.Geometry

/-- along every crossed edge the height above the plane changes by at least `s` times the length of the edge -/
def Steep (s : ℝ) (pl : Plane ℝ) (m : Mesh ℝ) : Prop :=
  ∀ e, CrossedEdge pl m e → ∀ a b, m.v[e.1]? = some a → m.v[e.2]? = some b → s * dist3 a b ≤ |height pl a - height pl b|

/-- `q` is within `r` of a point with property `P` -/
def Nearby (r : ℝ) (P : V3 ℝ → Prop) (q : V3 ℝ) : Prop := ∃ x, P x ∧ dist3 x q ≤ r

end Blmath.Spec
