import Verif.Model.Rodrigues
import Verif.Model.Vx

/-!
Model of `blmath/geometry/transform/translation.py` and `blmath/geometry/transform/rotation.py`.
Points are rows of three numbers.  `sklearn.decomposition.PCA` and `cv2.Rodrigues` are parameters.
-/

namespace Blmath.Geometry
variable {α : Type} [Num α] [Trig α]

/-- sum of the rows -/
def sumPts : List (V3 α) → V3 α
  | [] => V3.zero
  | p :: ps => p + sumPts ps

/-- `np.mean(points, axis=0)` -/
def meanPts (ps : List (V3 α)) : V3 α := V3.sdiv (sumPts ps) (Num.lit (ps.length : ℚ))

/-- `translation`.  translation.py:3-24 -/
def translation (points : List (V3 α)) (factor : Option (V3 α)) : List (V3 α) × V3 α :=
  let factor := match factor with
    | none => -(meanPts points)
    | some f => f
  (points.map fun p => p + factor, factor)

/-- `rotation_from_up_and_look`.  rotation.py:57-81 -/
def rotationFromUpAndLook (up look : V3 α) : PyM (Mat 3 3 α) :=
  if Num.eq up.norm (Num.lit 0) then raise .ValueError
  else if Num.eq look.norm (Num.lit 0) then raise .ValueError
  else
    let y := V3.sdiv up up.norm
    let z := look - V3.smul (look.dot y) y
    if Num.eq z.norm (Num.lit 0) then raise .ValueError
    else
      let z := V3.sdiv z z.norm
      let x := V3.cross y z
      .ok (Mat.ofRows x y z)

/-- the matrix of one step of `euler`; an unknown axis changes nothing.  rotation.py:90-97 -/
def eulerStep (r : Mat 3 3 α) (ta : α × Char) : Mat 3 3 α :=
  let c := Trig.cos ta.1
  let s := Trig.sin ta.1
  let r := if ta.2 = 'x' then
    Mat.mul !![Num.lit 1, Num.lit 0, Num.lit 0; Num.lit 0, c, -s; Num.lit 0, s, c] r else r
  let r := if ta.2 = 'y' then
    Mat.mul !![c, Num.lit 0, s; Num.lit 0, Num.lit 1, Num.lit 0; -s, Num.lit 0, c] r else r
  if ta.2 = 'z' then
    Mat.mul !![c, -s, Num.lit 0; s, c, Num.lit 0; Num.lit 0, Num.lit 0, Num.lit 1] r else r

/-- the first argument of `euler`: one number, or several -/
inductive Angles (α : Type) where
  | one (x : α)
  | many (xs : List α)

/-- `[xyz]` for a number.  rotation.py:84-85 -/
def Angles.toList : Angles α → List α
  | .one x => [x]
  | .many xs => xs

/-- `euler`.  `np.radians(x)` is `x * (pi / 180)`.  rotation.py:83-98 -/
def euler (xyz : Angles α) (order : String) (units : String) : Mat 3 3 α :=
  let xyz := if units = "deg" then xyz.toList.map (· * (Trig.pi / Num.lit 180)) else xyz.toList
  (xyz.zip order.toList).foldl eulerStep (Mat.eye 3)

/-- `normal` argument of `rotate_to_xz_plane`: `not normal` is true for `None` and for an empty
sequence, false for a list or tuple of three numbers, and raises ValueError for an array. -/
inductive NormalArg (α : Type) where
  | none
  | seq (n : V3 α)
  | array (n : V3 α)

/-- `estimate_normal`: the last principal component, normalised; `pca` is `fit(...).components_[-1]`.
rotation.py:3-9 -/
def estimateNormal (pca : List (V3 α) → PyM (V3 α)) (points : List (V3 α)) : PyM (V3 α) := do
  let normal ← pca points
  pure (V3.sdiv normal normal.norm)

/-- `min(a, b)` of two numbers -/
def pyMin (a b : α) : α := if Num.lt b a then b else a

/-- `rotate_to_xz_plane`.  `points = none` is `None`; `cvRodrigues` is `cv2.Rodrigues(v)[0]`.
rotation.py:11-55 -/
def rotateToXzPlane (pca : List (V3 α) → PyM (V3 α)) (cvRodrigues : V3 α → Mat 3 3 α)
    (points : Option (List (V3 α))) (normal : NormalArg α) :
    PyM (List (V3 α) × Mat 3 3 α × Option (V3 α)) :=
  match points with
  | none => raise .ValueError
  | some points =>
    if points.length = 0 then raise .ValueError
    else do
      let center := meanPts points
      let (translated, p0) :=
        if Num.lt (Num.lit (1 / 100000)) center.norm then
          let (image, f) := translation points none
          (image, some f)
        else (points, none)
      let normal ← match normal with
        | .none => estimateNormal pca points
        | .seq n => pure n
        | .array _ => raise .ValueError
      let e2 : V3 α := ⟨Num.lit 0, Num.lit 1, Num.lit 0⟩
      let theta := Trig.acos (e2.dot normal)
      let rAxis := if Num.lt (pyMin (npAbs (theta - Trig.pi)) (npAbs theta)) (Num.lit (1 / 100000)) then
          (⟨Num.lit 1, Num.lit 0, Num.lit 0⟩ : V3 α)
        else V3.cross normal e2
      let rAxis := V3.sdiv rAxis rAxis.norm
      let R := cvRodrigues (V3.smul theta rAxis)
      -- np.dot(translated, R.T): row p becomes R p
      pure (translated.map (Mat.app R), R, p0)

end Blmath.Geometry
