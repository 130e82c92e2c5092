import Verif.Model.Vx

/-!
Models of `blmath/geometry/barycentric.py` and `blmath/geometry/surface_normals.py`.
-/

namespace Blmath.Geometry
open Blmath.Vx
variable {α : Type} [Num α]

/-- `np.spacing(1)`: the distance from 1 to the next float64, `2^-52` -/
def spacing1 : α := Num.lit (1 / 2 ^ 52)

/-- `barycentric_coordinates_of_projection` of one point.  barycentric.py:3-43 -/
def barycentric (p q u v : V3 α) : V3 α :=
  let n := V3.cross u v
  let s := V3.dot n n
  let s := if Num.eq s (Num.lit 0) then spacing1 else s
  let oneOver4ASquared := Num.lit 1 / s
  let w := p - q
  let b2 := V3.dot (V3.cross u w) n * oneOver4ASquared
  let b1 := V3.dot (V3.cross w v) n * oneOver4ASquared
  ⟨Num.lit 1 - b1 - b2, b1, b2⟩

/-- the same on stacks of equal height (other shapes raise unless broadcastable, which is not
modelled).  barycentric.py:17, 30-43 -/
def barycentricStack (p q u v : List (V3 α)) : PyM (List (V3 α)) :=
  if p.length = q.length ∧ q.length = u.length ∧ u.length = v.length then
    .ok (List.zipWith (fun (pq : V3 α × V3 α) (uv : V3 α × V3 α) =>
      barycentric pq.1 pq.2 uv.1 uv.2) (p.zip q) (u.zip v))
  else raise .ValueError

/-- `surface_normal` of one triangle.  surface_normals.py:1-13 -/
def surfaceNormal (p1 p2 p3 : V3 α) (normalized : Bool := true) : V3 α :=
  let normal := V3.cross (p2 - p1) (p3 - p1)
  if normalized then normalize3 normal else normal

/-- `surface_normal` of a stack of triangles.  surface_normals.py:1-13 -/
def surfaceNormals (ts : List (V3 α × V3 α × V3 α)) (normalized : Bool := true) : List (V3 α) :=
  ts.map fun t => surfaceNormal t.1 t.2.1 t.2.2 normalized

end Blmath.Geometry
