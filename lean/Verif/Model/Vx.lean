import Verif.Base.V3
import Verif.Base.Py

/-!
Model of `blmath/numerics/vector_shortcuts.py`.

Arrays of rank 1 and 2 are lists and lists of rows; any other rank is represented only by its
rank, since every function rejects it.  The second argument of `sproj`, `proj`, `reject` is
modelled as a 1-d array (its documented use).
-/

namespace Blmath.Vx
variable {α : Type} [Num α]

/-- A numpy array as seen by these functions.  `mat n rows` has `n` columns. -/
inductive Arr (α : Type) where
  | vec (xs : List α)
  | mat (ncols : ℕ) (rows : List (List α))
  | other (ndim : ℕ)
  deriving DecidableEq, Repr

/-- sum of the elements -/
def sumL : List α → α
  | [] => Num.lit 0
  | x :: xs => x + sumL xs

/-- the dot product of two vectors of equal length -/
def dotL (xs ys : List α) : α := sumL (List.zipWith (· * ·) xs ys)

/-- `np.linalg.norm` of a vector -/
def normL (xs : List α) : α := Num.sqrt (dotL xs xs)

/-- `vector / np.linalg.norm(vector)`.  vector_shortcuts.py:46 -/
def normalizeVec (xs : List α) : List α := xs.map (· / normL xs)

/-- `normalize`.  vector_shortcuts.py:38-50 -/
def normalizeArr : Arr α → PyM (Arr α)
  | .vec xs => .ok (.vec (normalizeVec xs))
  | .mat n rows => .ok (.mat n (rows.map normalizeVec))
  | .other _ => raise .ValueError

/-- `np.dot(v, onto)` for two vectors; unequal lengths raise.  vector_shortcuts.py:59 -/
def sprojVec (xs onto : List α) : PyM α :=
  if xs.length = onto.length then .ok (dotL xs (normalizeVec onto)) else raise .ValueError

/-- `sproj(vector, onto)` for a vector, one row of a stack.  vector_shortcuts.py:52-59, 69, 71 -/
def projVec (xs onto : List α) : PyM (List α) := do
  let s ← sprojVec xs onto
  pure ((normalizeVec onto).map (s * ·))

/-- `proj`.  vector_shortcuts.py:61-73.  For a stack, `np.dot` checks the widths once, also when
there are no rows. -/
def proj (v : Arr α) (onto : List α) : PyM (Arr α) :=
  match v with
  | .vec xs => do
    let p ← projVec xs onto
    pure (.vec p)
  | .mat n rows =>
    if n = onto.length then
      .ok (.mat n (rows.map fun r =>
        (normalizeVec onto).map (dotL r (normalizeVec onto) * ·)))
    else raise .ValueError
  | .other _ => raise .ValueError

/-- elementwise difference of two arrays of equal shape -/
def subL (xs ys : List α) : List α := List.zipWith (· - ·) xs ys

/-- `reject`.  vector_shortcuts.py:75-83 -/
def reject (v : Arr α) (onto : List α) : PyM (Arr α) := do
  let p ← proj v onto
  match v, p with
  | .vec xs, .vec ps => pure (.vec (subL xs ps))
  | .mat n rows, .mat _ prows => pure (.mat n (List.zipWith subL rows prows))
  | _, _ => raise .ValueError

/-- `dims_to_keep = [0, 1, 2]; dims_to_keep.remove(axis)`.  vector_shortcuts.py:100-104 -/
def dimsToKeep (axis : ℤ) : PyM (List ℕ) :=
  if axis = 0 then .ok [1, 2]
  else if axis = 1 then .ok [0, 2]
  else if axis = 2 then .ok [0, 1]
  else raise .ValueError

/-- `xs[dims]` for non-negative indices; out of range raises -/
def takeDims (xs : List α) (dims : List ℕ) : PyM (List α) :=
  dims.mapM fun d => pyIndex xs d

/-- `result[axis] = 0.` on a copy (negative axes count from the end) -/
def zeroAt (xs : List α) (axis : ℤ) : PyM (List α) :=
  let j : ℤ := if axis < 0 then axis + xs.length else axis
  if j < 0 ∨ (xs.length : ℤ) ≤ j then raise .IndexError
  else .ok (xs.set j.toNat (Num.lit 0))

/-- `reject_axis`.  vector_shortcuts.py:85-120.  For a 2-d array the axis is checked against the
number of columns, also when there are no rows. -/
def rejectAxis (v : Arr α) (axis : ℤ) (squash : Bool) : PyM (Arr α) :=
  if squash then do
    let dims ← dimsToKeep axis
    match v with
    | .vec xs => do
      let r ← takeDims xs dims
      pure (.vec r)
    | .mat n rows =>
      if dims.all (· < n) then do
        let r ← rows.mapM fun r => takeDims r dims
        pure (.mat 2 r)
      else raise .IndexError
    | .other _ => raise .ValueError
  else match v with
    | .vec xs => do
      let r ← zeroAt xs axis
      pure (.vec r)
    | .mat n rows =>
      let j : ℤ := if axis < 0 then axis + n else axis
      if j < 0 ∨ (n : ℤ) ≤ j then raise .IndexError
      else .ok (.mat n (rows.map fun r => r.set j.toNat (Num.lit 0)))
    | .other _ => raise .ValueError

/-- `magnitude`.  vector_shortcuts.py:122-134.  A scalar for a vector, one per row for a stack. -/
def magnitude : Arr α → PyM (α ⊕ List α)
  | .vec xs => .ok (.inl (normL xs))
  | .mat _ rows => .ok (.inr (rows.map normL))
  | .other _ => raise .ValueError

/-- `pad_with_ones`.  vector_shortcuts.py:198-212 -/
def padWithOnes : Arr α → PyM (Arr α)
  | .mat n rows =>
    if n ≠ 3 then raise .ValueError
    else .ok (.mat 4 (rows.map fun r => r ++ [Num.lit 1]))
  | _ => raise .ValueError

/-- `matrix[i, 3] == 1.` for one row -/
def lastIsOne (r : List α) : Bool :=
  match r[3]? with
  | some w => Num.eq w (Num.lit 1)
  | none => false

/-- `unpad`.  vector_shortcuts.py:214-230 -/
def unpad : Arr α → PyM (Arr α)
  | .mat n rows =>
    if n ≠ 4 then raise .ValueError
    else if rows.all lastIsOne then .ok (.mat 3 (rows.map fun r => r.eraseIdx 3))
    else raise .ValueError
  | _ => raise .ValueError

/-- `apply_homogeneous`.  vector_shortcuts.py:232-242.  `np.dot(T, P.T).T` has rows `T·p`. -/
def applyHomogeneous (vertices transform : Arr α) : PyM (Arr α) :=
  match vertices with
  | .mat n rows =>
    if n ≠ 3 then raise .ValueError
    else match transform with
      | .mat m trows =>
        if m ≠ 4 ∨ trows.length ≠ 4 then raise .ValueError
        else do
          let p ← padWithOnes (.mat n rows)
          match p with
          | .mat _ prows => unpad (.mat 4 (prows.map fun r => trows.map fun t => dotL t r))
          | _ => raise .ValueError
      | _ => raise .ValueError
  | _ => raise .ValueError

/-! 3-vectors -/

/-- `normalize` of a 3-vector.  vector_shortcuts.py:45-46 -/
def normalize3 (v : V3 α) : V3 α := v.sdiv v.norm

/-- `proj` of a 3-vector.  vector_shortcuts.py:52-69 -/
def proj3 (v onto : V3 α) : V3 α := V3.smul (v.dot (normalize3 onto)) (normalize3 onto)

/-- `reject` of a 3-vector.  vector_shortcuts.py:75-83 -/
def reject3 (v from_v : V3 α) : V3 α := v - proj3 v from_v

/-- Python's `max(min(dot, 1), -1)`: `min`/`max` keep the first argument unless the second
compares strictly smaller/larger.  vector_shortcuts.py:156 -/
def clip (d : α) : α :=
  let m := if Num.lt (Num.lit 1) d then Num.lit 1 else d
  if Num.lt m (Num.lit (-1)) then Num.lit (-1) else m

/-- `angle` (the `look` argument is ignored by the code).  vector_shortcuts.py:136-158.
`math.degrees(x)` is `x * (180 / pi)`. -/
def angle [Trig α] (v1 v2 : V3 α) : α :=
  let dot := (normalize3 v1).dot (normalize3 v2)
  Trig.acos (clip dot) * (Num.lit 180 / Trig.pi)

/-- `signed_angle`.  vector_shortcuts.py:160-176 -/
def signedAngle [Trig α] (v1 v2 look : V3 α) : α :=
  let sign := npSign ((V3.cross v1 v2).dot look)
  let sign := if Num.eq sign (Num.lit 0) then Num.lit 1 else sign
  sign * angle v1 v2

/-- `np.isclose(a, 0, rtol=0, atol)` for a finite `a` and its NaN/inf behaviour: `|a| <= atol`. -/
def closeToZero (a atol : α) : Bool := Num.le (npAbs a) atol

/-- `almost_zero` of a 3-vector.  vector_shortcuts.py:178-183 -/
def almostZero (v : V3 α) (atol : α) : Bool :=
  closeToZero v.x atol && closeToZero v.y atol && closeToZero v.z atol

/-- the default tolerance `1e-08` -/
def defaultAtol : α := Num.lit (1 / 100000000)

/-- `almost_collinear`.  vector_shortcuts.py:185-196 -/
def almostCollinear (v1 v2 : V3 α) (atol : α) : Bool :=
  closeToZero (V3.cross v1 v2).norm atol

end Blmath.Vx
