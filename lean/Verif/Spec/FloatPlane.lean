import Verif.Spec.FloatError
import Verif.Spec.Plane

/-!
The exact plane stored in a rounded one, and the size of the terms of its equation.
-/

namespace Blmath.Spec
open Blmath.Geometry

/-- the real plane with the stored reference point and normal -/
def exactPlane {rnd : ℝ → ℝ} (pl : Plane (Rd rnd)) : Plane ℝ := ⟨Rd.vec pl.r0, Rd.vec pl.n⟩

/-- the sum of the sizes of the six products in the signed distance of `p` -/
def termSize (pl : Plane ℝ) (p : V3 ℝ) : ℝ :=
  |p.x * pl.n.x| + |p.y * pl.n.y| + |p.z * pl.n.z| + (|pl.r0.x * pl.n.x| + |pl.r0.y * pl.n.y| + |pl.r0.z * pl.n.z|)

end Blmath.Spec
