import Verif.Model.Plane
import Verif.Model.Rotation
import Verif.Base.Mat

/-!
Model of `Plane.fit_from_points`.  `np.linalg.eig` of a 3×3 matrix and `np.argsort` of three numbers
are parameters.
-/

namespace Blmath.Geometry
variable {α : Type} [Num α]

/-- sum of a quantity over the points -/
def sumOver (f : V3 α → α) : List (V3 α) → α
  | [] => Num.lit 0
  | p :: ps => f p + sumOver f ps

/-- `np.cov(points.T)`: sums of products of deviations from the mean, divided by `n - 1`.
plane.py:79 -/
def covMat (ps : List (V3 α)) : Mat 3 3 α :=
  let m := meanPts ps
  let k := Num.lit 1 / Num.lit ((ps.length : ℚ) - 1)
  let e (f g : V3 α → α) := sumOver (fun p => (f p - f m) * (g p - g m)) ps * k
  !![e V3.x V3.x, e V3.x V3.y, e V3.x V3.z;
     e V3.y V3.x, e V3.y V3.y, e V3.y V3.z;
     e V3.z V3.x, e V3.z V3.y, e V3.z V3.z]

/-- a column, as a vector -/
def colAt (v : Mat 3 3 α) (i : Fin 3) : V3 α := ⟨v 0 i, v 1 i, v 2 i⟩

/-- `Plane.fit_from_points`.  For fewer than two points the covariance consists of NaNs, which
`np.linalg.eig` rejects.  plane.py:73-82 -/
def Plane.fitFromPoints (eig : Mat 3 3 α → PyM ((Fin 3 → α) × Mat 3 3 α)) (argsort : (Fin 3 → α) → List (Fin 3))
    (points : List (V3 α)) : PyM (Plane α) :=
  if points.length ≤ 1 then raise .LinAlgError
  else do
    let (eigval, eigvec) ← eig (covMat points)
    let ordering := (argsort eigval).reverse
    let i0 ← pyIndex ordering 0
    let i1 ← pyIndex ordering 1
    let normal := V3.cross (colAt eigvec i0) (colAt eigvec i1)
    Plane.mk' (meanPts points) normal

end Blmath.Geometry
