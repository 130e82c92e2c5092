import Verif.Model.Rotation
import Verif.Model.Units

/-!
Model of `blmath/geometry/transform/composite.py`.  A method returns the new state together with its
outcome, so that what an exception leaves behind is part of the model.  `np.linalg.inv` and
`np.linalg.svd` are parameters.  4×4 arguments are taken to have that shape (the code does not check
it); the vector of `translate` has three components.
-/

namespace Blmath.Geometry
open Blmath.Vx
variable {α : Type} [Num α] [Trig α]

/-- `self.transforms`: the forward and reverse matrices.  composite.py:72-74 -/
abbrev Composite (α : Type) := List (Mat 4 4 α × Mat 4 4 α)

/-- an array given where a 3×3 matrix is expected: that, or an array of another shape with the given
number of dimensions -/
inductive Mat33Arg (α : Type) where
  | mat (m : Mat 3 3 α)
  | wrong (ndim : ℕ)

/-- `np.pad(matrix, ((0, 1), (0, 1)))` with a one in the corner.  composite.py:19-20 -/
def pad44 (m : Mat 3 3 α) : Mat 4 4 α :=
  !![m 0 0, m 0 1, m 0 2, Num.lit 0; m 1 0, m 1 1, m 1 2, Num.lit 0; m 2 0, m 2 1, m 2 2, Num.lit 0;
    Num.lit 0, Num.lit 0, Num.lit 0, Num.lit 1]

/-- `convert_33_to_44`.  `"%s" % matrix.shape` is itself a TypeError unless the shape has one entry.
composite.py:4-21 -/
def convert33To44 : Mat33Arg α → PyM (Mat 4 4 α)
  | .mat m => .ok (pad44 m)
  | .wrong ndim => if ndim = 1 then raise .ValueError else raise .TypeError

/-- `convert_44_to_33` of a 4×4 matrix.  composite.py:23-38 -/
def convert44To33 (m : Mat 4 4 α) : Mat 3 3 α :=
  Matrix.of fun i j => m i.castSucc j.castSucc

/-- `append_transform4`.  composite.py:123-138 -/
def append4 (inv : Mat 4 4 α → PyM (Mat 4 4 α)) (st : Composite α) (forward : Mat 4 4 α)
    (reverse : Option (Mat 4 4 α)) : Composite α × PyM ℕ :=
  let reverse := match reverse with
    | none => inv forward
    | some r => .ok r
  match reverse with
  | .error e => (st, .error e)
  | .ok r => (st ++ [(forward, r)], .ok st.length)

/-- `append_transform3`.  composite.py:140-149 -/
def append3 (inv : Mat 4 4 α → PyM (Mat 4 4 α)) (st : Composite α) (forward : Mat33Arg α)
    (reverse : Option (Mat33Arg α)) : Composite α × PyM ℕ :=
  match convert33To44 forward with
  | .error e => (st, .error e)
  | .ok f =>
    match reverse with
    | none => append4 inv st f none
    | some r =>
      match convert33To44 r with
      | .error e => (st, .error e)
      | .ok r => append4 inv st f (some r)

/-- `scale`.  composite.py:151-176 -/
def scaleT (inv : Mat 4 4 α → PyM (Mat 4 4 α)) (st : Composite α) (factor : α) : Composite α × PyM ℕ :=
  if Num.le factor (Num.lit 0) then (st, raise .ValueError)
  else append3 inv st (.mat (Mat.diag fun _ => factor)) (some (.mat (Mat.diag fun _ => Num.lit 1 / factor)))

/-- `convert_units`: the index is not returned.  composite.py:178-194 -/
def convertUnitsT (inv : Mat 4 4 α → PyM (Mat 4 4 α)) (st : Composite α) (fromUnits toUnits : Option String) :
    Composite α × PyM Unit :=
  match Units.factor (α := α) fromUnits toUnits (some "length") with
  | .error e => (st, .error e)
  | .ok f => ((scaleT inv st f).1, (scaleT inv st f).2.map fun _ => ())

/-- `eye(4)` with `v` in the last column.  composite.py:217-218 -/
def translation44 (v : V3 α) : Mat 4 4 α :=
  !![Num.lit 1, Num.lit 0, Num.lit 0, v.x; Num.lit 0, Num.lit 1, Num.lit 0, v.y;
    Num.lit 0, Num.lit 0, Num.lit 1, v.z; Num.lit 0, Num.lit 0, Num.lit 0, Num.lit 1]

/-- `translate`.  composite.py:196-223 -/
def translateT (inv : Mat 4 4 α → PyM (Mat 4 4 α)) (st : Composite α) (v : V3 α) : Composite α × PyM ℕ :=
  append4 inv st (translation44 v) (some (translation44 (-v)))

/-- `append_transform3(m, m.T)`.  composite.py:233, 243 -/
def appendRotation (inv : Mat 4 4 α → PyM (Mat 4 4 α)) (st : Composite α) (m : PyM (Mat 3 3 α)) : Composite α × PyM ℕ :=
  match m with
  | .error e => (st, .error e)
  | .ok m => append3 inv st (.mat m) (some (.mat (Mat.tr m)))

/-- `reorient`.  composite.py:225-233 -/
def reorientT (inv : Mat 4 4 α → PyM (Mat 4 4 α)) (st : Composite α) (up look : V3 α) : Composite α × PyM ℕ :=
  appendRotation inv st (rotationFromUpAndLook up look)

/-- `rotate`.  composite.py:235-243 -/
def rotateT (inv : Mat 4 4 α → PyM (Mat 4 4 α)) (svd : Svd3 α) (st : Composite α) (rot : RotArg α) : Composite α × PyM ℕ :=
  appendRotation inv st (asRotationMatrix svd rot)

/-- `six.moves.reduce(np.dot, matrices)`, and `np.eye(4)` for none.  composite.py:117-120 -/
def reduceDot : List (Mat 4 4 α) → Mat 4 4 α
  | [] => Mat.eye 4
  | m :: ms => ms.foldl Mat.mul m

/-- `matrix_for`.  composite.py:90-121 -/
def matrixFor (st : Composite α) (fromRange : Option (Option ℤ × Option ℤ)) (reverse : Bool) : Mat 4 4 α :=
  let selected : Composite α := match fromRange with
    | some (start, stop) => pySlice st (start.getD 0) (stop.getD st.length)
    | none => st
  let matrices : List (Mat 4 4 α) := selected.map fun t => if reverse then t.2 else Mat.tr t.1
  if matrices.length = 0 then Mat.eye 4
  else if reverse then reduceDot matrices else Mat.tr (reduceDot matrices)

/-- `vx.unpad(np.dot(matrix, vx.pad_with_ones(points).T).T)`.  composite.py:88 -/
def applyMatrix (m : Mat 4 4 α) (points : Arr α) : PyM (Arr α) := do
  match ← padWithOnes points with
  | .mat _ rows => unpad (.mat 4 (rows.map fun r => m.rows.map fun t => dotL t r))
  | _ => raise .ValueError

/-- `__call__`.  composite.py:76-88 -/
def callT (st : Composite α) (points : Arr α) (fromRange : Option (Option ℤ × Option ℤ)) (reverse : Bool) : PyM (Arr α) :=
  applyMatrix (matrixFor st fromRange reverse) points

/-- one call of a method that may change the stack -/
inductive TOp (α : Type) where
  | append4 (forward : Mat 4 4 α) (reverse : Option (Mat 4 4 α))
  | append3 (forward : Mat33Arg α) (reverse : Option (Mat33Arg α))
  | scale (factor : α)
  | convertUnits (fromUnits toUnits : Option String)
  | translate (v : V3 α)
  | reorient (up look : V3 α)
  | rotate (rot : RotArg α)

/-- the stack after the call -/
def stepT (inv : Mat 4 4 α → PyM (Mat 4 4 α)) (svd : Svd3 α) (st : Composite α) : TOp α → Composite α
  | .append4 f r => (append4 inv st f r).1
  | .append3 f r => (append3 inv st f r).1
  | .scale x => (scaleT inv st x).1
  | .convertUnits f t => (convertUnitsT inv st f t).1
  | .translate v => (translateT inv st v).1
  | .reorient u l => (reorientT inv st u l).1
  | .rotate r => (rotateT inv svd st r).1

/-- the stack after a history of calls, some of which may have raised -/
def runT (inv : Mat 4 4 α → PyM (Mat 4 4 α)) (svd : Svd3 α) (st : Composite α) (ops : List (TOp α)) : Composite α :=
  ops.foldl (stepT inv svd) st

end Blmath.Geometry
