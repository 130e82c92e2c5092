import Verif.Model.Rotation
import Verif.Model.Rodrigues

/-!
Model of `blmath/geometry/transform/rigid_transform.py`.  `np.linalg.svd` is a parameter.  Arguments
are 2-d float arrays of any shape; `visualize` is False (with it set, meshes are shown by another
package).
-/

namespace Blmath.Geometry
variable {α : Type} [Num α]

/-- a 2-d array of any shape; entries are looked at within the shape only -/
structure Grid (α : Type) where
  m : ℕ
  n : ℕ
  e : ℕ → ℕ → α

/-- `a.T` -/
def Grid.tr (a : Grid α) : Grid α := ⟨a.n, a.m, fun i j => a.e j i⟩

/-- the columns of an array with three rows -/
def Grid.cols (a : Grid α) : List (V3 α) := (List.range a.n).map fun j => ⟨a.e 0 j, a.e 1 j, a.e 2 j⟩

/-- N×3 arrays are transposed, unless they have three rows.  rigid_transform.py:16-21 -/
def Grid.fixShape (a : Grid α) : Grid α := if a.m ≠ 3 then (if a.n = 3 then a.tr else a) else a

/-- the columns, if there are three rows.  rigid_transform.py:22-23, 71-72 -/
def Grid.cols3 (a : Grid α) : PyM (List (V3 α)) := if a.m = 3 then .ok a.cols else raise .AssertionError

/-- the sum of the outer products of the columns -/
def outerSum : List (V3 α) → List (V3 α) → Mat 3 3 α
  | p :: ps, q :: qs => Mat.add !![p.x * q.x, p.x * q.y, p.x * q.z; p.y * q.x, p.y * q.y, p.y * q.z;
      p.z * q.x, p.z * q.y, p.z * q.z] (outerSum ps qs)
  | _, _ => Matrix.of fun _ _ => Num.lit 0

/-- `a.dot(b.T)`.  rigid_transform.py:30, 79 -/
def dotT (a b : List (V3 α)) : PyM (Mat 3 3 α) :=
  if a.length = b.length then .ok (outerSum a b) else raise .ValueError

/-- `scipy.linalg.det` of a 3×3 matrix.  rigid_transform.py:35, 84 -/
def det33 (r : Mat 3 3 α) : α :=
  r 0 0 * (r 1 1 * r 2 2 - r 1 2 * r 2 1) - r 0 1 * (r 1 0 * r 2 2 - r 1 2 * r 2 0) + r 0 2 * (r 1 0 * r 2 1 - r 1 1 * r 2 0)

/-- `v[:, 2] = -v[:, 2]`.  rigid_transform.py:37, 85 -/
def flipLast (v : Mat 3 3 α) : Mat 3 3 α := Matrix.of fun i j => if j = 2 then -(v i j) else v i j

/-- `np.any(s == 0)`.  rigid_transform.py:36 -/
def anyZero (s : Fin 3 → α) : Bool := Num.eq (s 0) (Num.lit 0) || Num.eq (s 1) (Num.lit 0) || Num.eq (s 2) (Num.lit 0)

/-- the rotation fitted to a cross-covariance matrix.  rigid_transform.py:31-40 -/
def fitRotation (svd : Svd3 α) (c : Mat 3 3 α) : PyM (Mat 3 3 α) := do
  let (u, s, v) ← svd c
  let v := Mat.tr v
  let R := Mat.mul v (Mat.tr u)
  if Num.lt (det33 R) (Num.lit 0) then
    if anyZero s then pure (Mat.mul (flipLast v) (Mat.tr u))
    else raise .ValueError
  else pure R

/-- `find_rigid_transform`.  `np.mean` of no columns is NaN.  rigid_transform.py:1-55 -/
def findRigidTransform (svd : Svd3 α) (a b : Grid α) : PyM (Mat 3 3 α × V3 α) := do
  let pa ← a.fixShape.cols3
  let pb ← b.fixShape.cols3
  let aMean := meanPts pa
  let bMean := meanPts pb
  let aCentered := pa.map (· - aMean)
  let bCentered := pb.map (· - bMean)
  let c ← dotT aCentered bCentered
  let R ← fitRotation svd c
  let T := bMean - Mat.app R aMean
  pure (R, T)

/-- sum of the squares of all entries -/
def sumSq : List (V3 α) → α
  | [] => Num.lit 0
  | p :: ps => V3.dot p p + sumSq ps

/-- a single column gets a companion, the cross product.  `np.cross` needs three numbers on either
side.  rigid_transform.py:74-77 -/
def addCross (pa pb : List (V3 α)) : PyM (List (V3 α) × List (V3 α)) :=
  match pa with
  | [p] =>
    match pb with
    | [q] => .ok ([p, V3.cross p q], [q, V3.cross p q])
    | _ => raise .ValueError
  | _ => .ok (pa, pb)

/-- the rotation fitted to a product matrix.  rigid_transform.py:80-86 -/
def fitRotation' (svd : Svd3 α) (c : Mat 3 3 α) : PyM (Mat 3 3 α) := do
  let (u, _, v) ← svd c
  let v := Mat.tr v
  let R := Mat.mul v (Mat.tr u)
  if Num.lt (det33 R) (Num.lit 0) then pure (Mat.mul (flipLast v) (Mat.tr u))
  else pure R

/-- `find_rigid_rotation`.  rigid_transform.py:57-92 -/
def findRigidRotation (svd : Svd3 α) (a b : Grid α) (allowScaling : Bool) : PyM (Mat 3 3 α) := do
  let pa ← a.cols3
  let pb ← b.cols3
  let (pa, pb) ← addCross pa pb
  let c ← dotT pa pb
  let R ← fitRotation' svd c
  if allowScaling then
    let scalefactor := Num.sqrt (sumSq pb) / Num.sqrt (sumSq pa)
    pure (Mat.smul scalefactor R)
  else pure R

end Blmath.Geometry
