import Verif.Model.Polyline
import Verif.Model.Rotation

/-!
Model of `blmath/geometry/convexify.py`.  Parameters: `ConvexHull(points).vertices` of 2-d points,
the matrix inverse, the principal component used by `estimate_normal`, and `cv2.Rodrigues`.
-/

namespace Blmath.Geometry
variable {α : Type} [Num α] [Trig α]

/-- the external routines -/
structure HullEnv (α : Type) where
  hull : List (α × α) → PyM (List ℕ)
  inv : Mat 3 3 α → PyM (Mat 3 3 α)
  pca : List (V3 α) → PyM (V3 α)
  cvRodrigues : V3 α → Mat 3 3 α

/-- `np.argmax` of three numbers: the first of the largest -/
def argmax3 (v : V3 α) : ℕ :=
  if Num.lt v.x v.y then (if Num.lt v.y v.z then 2 else 1)
  else if Num.lt v.x v.z then 2 else 0

/-- the components other than the given one.  convexify.py:35-36 -/
def dropDim (d : ℕ) (p : V3 α) : α × α :=
  if d = 0 then (p.y, p.z) else if d = 1 then (p.x, p.z) else (p.x, p.y)

/-- the new polyline, with the indices if wanted.  convexify.py:40-45, 80-85 -/
def wrapHull (closed wantVertices : Bool) (v : List (V3 α)) (hull : List ℕ) : PyM (Polyline α × Option (List ℕ)) := do
  let result ← Polyline.new (rowsOf v) closed
  pure (result, if wantVertices then some hull else none)

/-- moving the points back, if they were moved.  convexify.py:75-78 -/
def unshift (p0 : Option (V3 α)) (ps : List (V3 α)) : List (V3 α) :=
  match p0 with
  | some p0 => (translation ps (some (-p0))).1
  | none => ps

/-- `convexify_and_flatten_planar_curve`.  For at most one vertex the polyline itself is returned, also
when indices are wanted.  convexify.py:47-85 -/
def convexifyFlatten (env : HullEnv α) (p : Polyline α) (wantVertices : Bool) (normal : NormalArg α) :
    PyM (Polyline α × Option (List ℕ)) := do
  let v ← p.vArr
  if v.length ≤ 1 then pure (p, none)
  else
    let (rotated, R, p0) ← rotateToXzPlane env.pca env.cvRodrigues (some v) normal
    let mean := (meanPts rotated).y
    let rotated : List (V3 α) := rotated.map fun r => ⟨r.x, mean, r.z⟩
    let hull ← env.hull (rotated.map fun r => (r.x, r.z))
    let rotatedHull ← hull.mapM fun (i : ℕ) => pyIndex rotated (i : ℤ)
    let Rinv ← env.inv (Mat.tr R)
    -- np.dot(rotated_hull, R_inv): the row r becomes r R_inv
    let invRotated := rotatedHull.map (Mat.app (Mat.tr Rinv))
    wrapHull p.closed wantVertices (unshift p0 invRotated) hull

/-- the normal given, or an estimate.  convexify.py:28-29 -/
def chosenNormal (env : HullEnv α) (v : List (V3 α)) : NormalArg α → PyM (V3 α)
  | .none => estimateNormal env.pca v
  | .seq n => pure n
  | .array n => pure n

/-- `convexify_planar_curve`.  convexify.py:7-45 -/
def convexify (env : HullEnv α) (p : Polyline α) (flatten wantVertices : Bool) (normal : NormalArg α) :
    PyM (Polyline α × Option (List ℕ)) :=
  if flatten then convexifyFlatten env p wantVertices normal
  else do
    let v ← p.vArr
    if v.length ≤ 1 then pure (p, none)
    else
      let normal ← chosenNormal env v normal
      let d := argmax3 (normal.map npAbs)
      let hull ← env.hull (v.map (dropDim d))
      let hv ← hull.mapM fun (i : ℕ) => pyIndex v (i : ℤ)
      wrapHull p.closed wantVertices hv hull

end Blmath.Geometry
