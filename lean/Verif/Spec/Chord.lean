import Verif.Spec.MeshSlice
import Verif.Spec.Polyline

/-!
Triangles, surfaces and polylines as sets of points, for stating that a cross-section is the intersection of
the surface with the plane.
-/

namespace Blmath.Spec
open Blmath.Geometry

/-- `q` is in the triangle, boundary included -/
def InTriangle (a b c q : V3 ℝ) : Prop :=
  ∃ s t, 0 ≤ s ∧ 0 ≤ t ∧ s + t ≤ 1 ∧ q = along (along a s (vec3 a b)) t (vec3 a c)

/-- `q` is a point of the face -/
def InFace (m : Mesh ℝ) (f : ℕ × ℕ × ℕ) (q : V3 ℝ) : Prop :=
  ∃ a b c, m.v[f.1]? = some a ∧ m.v[f.2.1]? = some b ∧ m.v[f.2.2]? = some c ∧ InTriangle a b c q

/-- `q` is a point of the surface -/
def OnSurface (m : Mesh ℝ) (q : V3 ℝ) : Prop := ∃ f ∈ m.f, InFace m f q

/-- the segment is what the face and the plane have in common -/
def Chord (pl : Plane ℝ) (m : Mesh ℝ) (f : ℕ × ℕ × ℕ) (s : V3 ℝ × V3 ℝ) : Prop :=
  ∀ q, OnSegment s.1 s.2 q ↔ OnPlane pl q ∧ InFace m f q

/-- the face and the plane have a segment of length `d` in common -/
def ChordLength (pl : Plane ℝ) (m : Mesh ℝ) (f : ℕ × ℕ × ℕ) (d : ℝ) : Prop :=
  ∃ a b, Chord pl m f (a, b) ∧ d = dist3 a b

/-- `q` is a point of the polyline -/
def OnChain (v : List (V3 ℝ)) (closed : Bool) (q : V3 ℝ) : Prop :=
  ∃ s ∈ chainSegs v closed, OnSegment s.1 s.2 q

/-- the mesh with a further vertex `w` in the face `(x, y, z)`, between the faces `pre` and `post`, and that face divided into
three by it -/
def splitFace (v : List (V3 ℝ)) (pre post : List (ℕ × ℕ × ℕ)) (x y z : ℕ) (w : V3 ℝ) : Mesh ℝ :=
  ⟨v ++ [w], pre ++ [(x, y, v.length), (y, z, v.length), (z, x, v.length)] ++ post⟩

end Blmath.Spec
