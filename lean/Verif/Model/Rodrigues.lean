import Verif.Base.Mat
import Verif.Base.Py

/-!
Model of `blmath/geometry/transform/rodrigues.py` without the Jacobians (they are in
`Model/RodriguesJac.lean`).  `np.linalg.svd` is a parameter.
-/

namespace Blmath.Geometry
variable {α : Type} [Num α] [Trig α]

/-- `u, s, v = np.linalg.svd(r)` of a 3×3 matrix: `r = u · diag(s) · v` -/
abbrev Svd3 (α : Type) := Mat 3 3 α → PyM (Mat 3 3 α × (Fin 3 → α) × Mat 3 3 α)

/-- argument or result of `rodrigues`: an array of shape (3,), (3, 1) or (1, 3); of shape (3, 3); any
other -/
inductive RotArg (α : Type) where
  | vec (r : V3 α)
  | mat (m : Mat 3 3 α)
  | other

/-- `np.finfo(np.double).eps`.  rodrigues.py:20 -/
def eps : α := Num.lit (1 / 4503599627370496)

/-- the unit vector times its transpose.  rodrigues.py:39 -/
def outer (r : V3 α) : Mat 3 3 α :=
  Mat.ofRows (V3.smul r.x r) (V3.smul r.y r) (V3.smul r.z r)

/-- `_r_x_`.  rodrigues.py:40-44 -/
def skew (r : V3 α) : Mat 3 3 α :=
  !![Num.lit 0, -r.z, r.y; r.z, Num.lit 0, -r.x; -r.y, r.x, Num.lit 0]

/-- the factor `itheta`.  rodrigues.py:36 -/
def itheta (theta : α) : α := if Num.eq theta (Num.lit 0) then Num.lit 1 else Num.lit 1 / theta

/-- `rodrigues` of a vector.  rodrigues.py:22-45 -/
def rodriguesExp (r : V3 α) : Mat 3 3 α :=
  let theta := r.norm
  if Num.lt theta eps then Mat.eye 3
  else
    let c := Trig.cos theta
    let s := Trig.sin theta
    let c1 := Num.lit 1 - c
    let r := V3.smul (itheta theta) r
    Mat.add (Mat.add (Mat.smul c (Mat.eye 3)) (Mat.smul c1 (outer r))) (Mat.smul s (skew r))

/-- `np.clip(x, -1, 1)` -/
def clip11 (x : α) : α := npMin (npMax x (Num.lit (-1))) (Num.lit 1)

/-- one component `np.clip(np.sqrt((d + 1) * 0.5), 0, np.inf)`.  rodrigues.py:78 -/
def halfTurnComp (d : α) : α := npMax (Num.sqrt ((d + Num.lit 1) * Num.lit (1 / 2))) (Num.lit 0)

/-- the axis of a half turn, up to length.  rodrigues.py:78-86 -/
def halfTurnAxis (r : Mat 3 3 α) : V3 α :=
  let rx := halfTurnComp (r 0 0)
  let ry := halfTurnComp (r 1 1)
  let rz := halfTurnComp (r 2 2)
  let ry := if Num.lt (r 0 1) (Num.lit 0) then -ry else ry
  let rz := if Num.lt (r 0 2) (Num.lit 0) then -rz else rz
  let rz := if Num.lt (npAbs rx) (npAbs ry) && Num.lt (npAbs rx) (npAbs rz) &&
      (Num.lt (Num.lit 0) (r 1 2) != Num.lt (Num.lit 0) (ry * rz)) then -rz else rz
  ⟨rx, ry, rz⟩

/-- `rodrigues` of the orthogonal factor of a matrix.  rodrigues.py:67-88, 95, 123-124 -/
def rodriguesLogOrth (r : Mat 3 3 α) : V3 α :=
  let v : V3 α := ⟨r 2 1 - r 1 2, r 0 2 - r 2 0, r 1 0 - r 0 1⟩
  let s := v.norm * Num.sqrt (Num.lit (1 / 4))
  let c := clip11 ((r 0 0 + r 1 1 + r 2 2 - Num.lit 1) * Num.lit (1 / 2))
  let theta := Trig.acos c
  if Num.lt s (Num.lit (1 / 100000)) then
    if Num.lt (Num.lit 0) c then V3.zero
    else
      let a := halfTurnAxis r
      V3.smul (theta / a.norm) a
  else
    let vth := Num.lit 1 / (Num.lit 2 * s)
    V3.smul (vth * theta) v

/-- `rodrigues` of a 3×3 matrix.  rodrigues.py:65-124 -/
def rodriguesLog (svd : Svd3 α) (m : Mat 3 3 α) : PyM (V3 α) := do
  let (u, _, v) ← svd m
  pure (rodriguesLogOrth (Mat.mul u v))

/-- `rodrigues(r)`.  rodrigues.py:18-130 -/
def rodrigues (svd : Svd3 α) : RotArg α → PyM (RotArg α)
  | .vec r => pure (.mat (rodriguesExp r))
  | .mat m => do
    let v ← rodriguesLog svd m
    pure (.vec v)
  | .other => raise .GenericException

/-- `as_rotation_matrix`.  rodrigues.py:133-139 -/
def asRotationMatrix (svd : Svd3 α) : RotArg α → PyM (Mat 3 3 α)
  | .vec r => pure (rodriguesExp r)
  | .mat m => do
    let v ← rodriguesLog svd m
    pure (rodriguesExp v)
  | .other => raise .GenericException

end Blmath.Geometry
