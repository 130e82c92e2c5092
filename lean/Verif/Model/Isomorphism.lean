import Verif.Model.RigidTransform

/-!
Model of `blmath/numerics/linalg/isomorphism.py`, for 2-d arrays.  `np.linalg.det` of a square matrix and
`np.linalg.inv` are parameters.
-/

namespace Blmath.Linalg
open Blmath.Geometry (Grid)
variable {α : Type} [Num α]

/-- the entries of an n×n array -/
def square (g : Grid α) (n : ℕ) : Mat n n α := Matrix.of fun i j => g.e i j

/-- `np.linalg.det(a)`, which raises LinAlgError unless the array is square -/
def npDet (det : (n : ℕ) → Mat n n α → α) (a : Grid α) : PyM α :=
  if a.m = a.n then .ok (det a.m (square a a.m)) else raise .LinAlgError

/-- `_validate_frames`.  A `np.matrix` always has two dimensions, so the checks of lines 35-38 never fail.
isomorphism.py:25-44 -/
def validateFrames (det : (n : ℕ) → Mat n n α → α) (frame1 frame2 : Grid α) : PyM Unit :=
  if frame1.m ≠ frame2.m then raise .DimensionalityError
  else if frame1.tr.n ≠ frame2.tr.n then raise .DimensionalityError
  else do
    let d1 ← npDet det frame1.tr
    if Num.eq d1 (Num.lit 0) then raise .LinearDependenceError
    else do
      let d2 ← npDet det frame2.tr
      if Num.eq d2 (Num.lit 0) then raise .LinearDependenceError else pure ()

/-- `isomorphism`; past the validation both frames are square, of the size of the first.
isomorphism.py:12-54 -/
def isomorphism (det : (n : ℕ) → Mat n n α → α) (inv : (n : ℕ) → Mat n n α → PyM (Mat n n α))
    (frame1 frame2 : Grid α) : PyM (Mat frame1.m frame1.m α) := do
  validateFrames det frame1 frame2
  let lFrame1 := square frame1.tr frame1.m
  let lFrame2 := square frame2.tr frame1.m
  let i1 ← inv frame1.m lFrame1
  pure (i1.mul lFrame2)

end Blmath.Linalg
