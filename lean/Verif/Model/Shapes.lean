import Verif.Model.Plane
import Verif.Model.Apex

/-!
Model of `blmath/geometry/shapes.py`.

`lace.topology.quads_to_tris` is not part of the repository.  It is a parameter: a function saying,
for the quad in each position, along which diagonal it is split.
-/

namespace Blmath.Geometry
variable {α : Type} [Num α]

/-- one quad as two triangles, along either diagonal -/
def splitQuad (first : Bool) (a b c d : ℕ) : List (ℕ × ℕ × ℕ) :=
  if first then [(a, b, c), (a, c, d)] else [(b, c, d), (b, d, a)]

/-- `quads_to_tris`; `diag i` is the choice of diagonal for quad number `i` -/
def quadsToTris (diag : ℕ → Bool) : ℕ → List (ℕ × ℕ × ℕ × ℕ) → List (ℕ × ℕ × ℕ)
  | _, [] => []
  | i, (a, b, c, d) :: qs => splitQuad (diag i) a b c d ++ quadsToTris diag (i + 1) qs

/-- `_maybe_flatten` without the flag: `vertices[faces]`.  shapes.py:4-8 -/
def flattenFaces (vertices : List (V3 α)) (faces : List (ℕ × ℕ × ℕ)) : PyM (List (V3 α × V3 α × V3 α)) :=
  faces.mapM fun f => do
    let a ← pyIndex vertices (f.1 : ℤ)
    let b ← pyIndex vertices (f.2.1 : ℤ)
    let c ← pyIndex vertices (f.2.2 : ℤ)
    pure (a, b, c)

/-- `vertices` of `create_rectangular_prism`.  shapes.py:22-31 -/
def prismVertices (origin size : V3 α) : List (V3 α) :=
  let lower : List (V3 α) := [
    origin,
    origin + ⟨size.x, Num.lit 0, Num.lit 0⟩,
    origin + ⟨size.x, Num.lit 0, size.z⟩,
    origin + ⟨Num.lit 0, Num.lit 0, size.z⟩]
  let upper := lower.map fun p => p + ⟨Num.lit 0, size.y, Num.lit 0⟩
  lower ++ upper

/-- the quads of `create_rectangular_prism`.  shapes.py:33-40 -/
def prismQuads : List (ℕ × ℕ × ℕ × ℕ) :=
  [(0, 1, 2, 3), (7, 6, 5, 4), (4, 5, 1, 0), (5, 6, 2, 1), (6, 7, 3, 2), (3, 7, 4, 0)]

/-- `create_rectangular_prism(..., ret_unique_vertices_and_faces=True)`.  shapes.py:11-42 -/
def createRectangularPrism (diag : ℕ → Bool) (origin size : V3 α) : List (V3 α) × List (ℕ × ℕ × ℕ) :=
  (prismVertices origin size, quadsToTris diag 0 prismQuads)

/-- `create_cube`.  shapes.py:45-57 -/
def createCube (diag : ℕ → Bool) (origin : V3 α) (size : α) : List (V3 α) × List (ℕ × ℕ × ℕ) :=
  createRectangularPrism diag origin ⟨size, size, size⟩

/-- the faces of `create_triangular_prism`.  shapes.py:76-82 -/
def triPrismFaces : List (ℕ × ℕ × ℕ) :=
  [(0, 1, 2), (0, 3, 4), (0, 4, 1), (1, 4, 5), (1, 5, 2), (2, 5, 3), (2, 3, 0), (5, 4, 3)]

/-- `create_triangular_prism(..., ret_unique_vertices_and_faces=True)`.  shapes.py:60-84 -/
def createTriangularPrism (p1 p2 p3 : V3 α) (height : α) : PyM (List (V3 α) × List (ℕ × ℕ × ℕ)) := do
  let basePlane ← Plane.fromPoints p1 p2 p3
  let shift := V3.smul height (-basePlane.normal)
  pure ([p1, p2, p3, p1 + shift, p2 + shift, p3 + shift], triPrismFaces)

/-- `create_horizontal_plane(ret_unique_vertices_and_faces=True)`.  shapes.py:87-98 -/
def createHorizontalPlane : List (V3 α) × List (ℕ × ℕ × ℕ) :=
  ([⟨Num.lit 1, Num.lit 0, Num.lit 0⟩, ⟨Num.lit (-1), Num.lit 0, Num.lit 0⟩,
    ⟨Num.lit 0, Num.lit 0, Num.lit 1⟩, ⟨Num.lit 0, Num.lit 0, Num.lit (-1)⟩], [(0, 1, 2), (3, 1, 0)])

/-- numpy's reading of an index that is a list of lists: up to 1.22 it means a tuple of indices, one
per axis; since 1.23 an array of row indices. -/
inductive ListIndex where
  | asTuple
  | asArray

/-- the entry `a[i, j]` of the array with the given rows -/
def entry2 (rows : List (V3 α)) (i j : ℕ) : PyM α := do
  let r ← pyIndex rows (i : ℤ)
  pyIndex r.toList (j : ℤ)

/-- the result of `create_horizontal_plane()` -/
inductive FlatResult (α : Type) where
  | points (ps : List α)
  | triangles (ts : List (V3 α × V3 α × V3 α))

/-- `create_horizontal_plane()`: the faces are a plain list of lists here.  shapes.py:87-98 -/
def createHorizontalPlaneFlat (ver : ListIndex) : PyM (FlatResult α) :=
  let (v, f) := createHorizontalPlane (α := α)
  match ver with
  | .asArray => do
    let ts ← flattenFaces v f
    pure (.triangles ts)
  | .asTuple => do
    -- vertices[[0, 1, 2], [3, 1, 0]]: entries (0, 3), (1, 1), (2, 0)
    let es ← [(0, 3), (1, 1), (2, 0)].mapM fun (ij : ℕ × ℕ) => entry2 v ij.1 ij.2
    pure (.points es)

end Blmath.Geometry
