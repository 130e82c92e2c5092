import Verif.Base.V3
import Verif.Base.Py

/-!
Model of `blmath/geometry/primitives/box.py`.

Inputs are numeric array-likes given by their elements; as_numeric_array (property C15) rejects
arrays that are not of shape `(3,)` and arrays with NaN or infinite elements (property C68).  The
element type of the shape array matters for `/` in Python 2, so it is recorded.
-/

namespace Blmath.Geometry
variable {α : Type} [Num α]

/-- element type of a numeric array -/
inductive ElemKind where
  | int | float
  deriving DecidableEq, Repr

/-- `Box`.  box.py:3-19 -/
structure Box (α : Type) where
  origin : V3 α
  shape : V3 α
  shapeKind : ElemKind

/-- `as_numeric_array(xs, shape=(3,))`.  coercion.py:1-46 -/
def asNumeric3 (xs : List α) : PyM (V3 α) :=
  if xs.any fun x => npIsNan x || npIsInf x then raise .ValueError
  else match xs with
    | [x, y, z] => .ok ⟨x, y, z⟩
    | _ => raise .ValueError

/-- `Box.__init__`.  box.py:8-19 -/
def Box.mk' (origin shape : List α) (shapeKind : ElemKind) : PyM (Box α) := do
  let o ← asNumeric3 origin
  let s ← asNumeric3 shape
  if Num.lt s.x (Num.lit 0) || Num.lt s.y (Num.lit 0) || Num.lt s.z (Num.lit 0) then
    raise .ValueError
  else pure ⟨o, s, shapeKind⟩

namespace Box
variable (b : Box α)

/-- `ranges`: one (min, max) row per axis.  box.py:21-30 -/
def ranges : List (α × α) :=
  let row (o s : α) : α × α := (npMin o (o + s), npMax o (o + s))
  [row b.origin.x b.shape.x, row b.origin.y b.shape.y, row b.origin.z b.shape.z]

/-- box.py:32-34 -/
def minX : α := b.origin.x
/-- box.py:36-38 -/
def minY : α := b.origin.y
/-- box.py:40-42 -/
def minZ : α := b.origin.z
/-- box.py:44-46 -/
def maxX : α := b.origin.x + b.shape.x
/-- box.py:48-50 -/
def maxY : α := b.origin.y + b.shape.y
/-- box.py:52-54 -/
def maxZ : α := b.origin.z + b.shape.z

/-- the literal integer `k`, when it exists -/
def litFloor (x : α) : α :=
  match Num.floor x with
  | some k => Num.lit (k : ℚ)
  | none => x

/-- `s / 2` on an element of the shape array: without `from __future__ import division`, Python 2
divides integers with rounding towards minus infinity. -/
def half (ver : PyVer) (k : ElemKind) (s : α) : α :=
  match ver, k with
  | .py2, .int => litFloor (s / Num.lit 2)
  | _, _ => s / Num.lit 2

/-- box.py:56-58 -/
def midX (ver : PyVer) : α := b.origin.x + half ver b.shapeKind b.shape.x
/-- box.py:60-62 -/
def midY (ver : PyVer) : α := b.origin.y + half ver b.shapeKind b.shape.y
/-- box.py:64-66 -/
def midZ (ver : PyVer) : α := b.origin.z + half ver b.shapeKind b.shape.z

/-- box.py:68-70 -/
def width : α := b.shape.x
/-- box.py:72-74 -/
def height : α := b.shape.y
/-- box.py:76-78 -/
def depth : α := b.shape.z

/-- `center_point`.  box.py:80-82 -/
def centerPoint : V3 α := b.origin + V3.smul (Num.lit (1 / 2)) b.shape

/-- `floor_point`.  box.py:84-86 -/
def floorPoint : V3 α :=
  b.origin + ⟨Num.lit (1 / 2) * b.shape.x, Num.lit 0 * b.shape.y, Num.lit (1 / 2) * b.shape.z⟩

/-- `volume`.  box.py:88-90 -/
def volume : α := b.shape.x * b.shape.y * b.shape.z

/-- `surface_area`.  box.py:92-95 -/
def surfaceArea : α :=
  let l := b.shape.x
  let h := b.shape.y
  let w := b.shape.z
  Num.lit 2 * (w * l + h * l + h * w)

end Box
end Blmath.Geometry
