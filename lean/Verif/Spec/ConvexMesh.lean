import Verif.Spec.MeshSlice
import Verif.Spec.Geom
import Verif.Spec.Hull
import Verif.Spec.Surface

/-!
Convex meshes and convex loops.
-/

namespace Blmath.Spec
open Blmath.Geometry

/-- every face is in a plane that has all the other vertices of the mesh strictly on one side -/
def ConvexMesh (m : Mesh ℝ) : Prop :=
  ∀ f ∈ m.f, ∃ (w : V3 ℝ) (k : ℝ), ∀ (i : ℕ) p, m.v[i]? = some p →
    (corner f i = true → inner3 w p = k) ∧ (corner f i = false → inner3 w p < k)

/-- the points are at least three, all different, and seen against `n` all those not on a side of the closed polygon are strictly to the
left of it, for every side -/
structure LeftLoop (n : V3 ℝ) (v : List (V3 ℝ)) : Prop where
  size : 3 ≤ v.length
  nodup : v.Nodup
  left : ∀ e ∈ cyclicPairs v, ∀ p ∈ v, p ≠ e.1 → p ≠ e.2 → 0 < det3 n (vec3 e.1 e.2) (vec3 e.1 p)

/-- a convex polygon, in one direction or the other about `n` -/
def ConvexLoop (n : V3 ℝ) (v : List (V3 ℝ)) : Prop := LeftLoop n v ∨ LeftLoop (scale3 (-1) n) v

/-- a closed surface whose faces look outward: all vertices are behind or on the plane of every face, and not all are on it -/
def OutwardMesh (m : Mesh ℝ) : Prop :=
  Watertight m.f ∧ ∀ f ∈ m.f, ∀ t, Spec.corners m.v f = some t →
    (∀ p ∈ m.v, Behind t p) ∧ ∃ p ∈ m.v, inner3 (cross3 (vec3 t.1 t.2.1) (vec3 t.1 t.2.2)) (vec3 t.1 p) < 0

/-- seen against `n` no point of the plane figure `C` is to the right of a side of the closed polygon -/
def RunsRound (n : V3 ℝ) (v : List (V3 ℝ)) (C : V3 ℝ → Prop) : Prop :=
  ∀ e ∈ cyclicPairs v, ∀ q, C q → 0 ≤ det3 n (vec3 e.1 e.2) (vec3 e.1 q)

/-- a convex polygon that bounds what a plane cuts out of the convex hull of the vertices -/
def Outline (pl : Plane ℝ) (m : Mesh ℝ) (R : List (V3 ℝ)) : Prop :=
  ConvexLoop pl.n R ∧ ∀ q, InHull3 R q ↔ OnPlane pl q ∧ InHull3 m.v q

end Blmath.Spec
