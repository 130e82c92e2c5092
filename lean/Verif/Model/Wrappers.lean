import Verif.Model.Polyline
import Verif.Model.RodriguesJac

/-!
Models of the parts of the library that hand their arguments to another package: `as_lines` of
`blmath/geometry/primitives/polyline.py`, class `Rodrigues` of `blmath/geometry/transform/rodrigues.py`, and
`blmath/geometry/transform/correspondence.py`.

What the other package computes is a parameter: the constructor of `lace.lines.Lines` keeps its arguments, `cv2.Rodrigues` is a
function, and so are the two classes of `bodylabs.mesh.landmarking.transformed_lm`.
-/

namespace Blmath.Geometry

/-- `lace.lines.Lines(v, e, vc)`: the arguments it is given; `κ` is the type of colours -/
structure Lines (α κ : Type) where
  v : Option (List (V3 α))
  e : Option (List (ℕ × ℕ))
  vc : Option κ

/-- `as_lines(vc)`.  polyline.py:54-60 -/
def Polyline.asLines {α κ : Type} (p : Polyline α) (vc : Option κ := none) : Lines α κ :=
  { v := p.v, e := p.e, vc := vc }

/-! ### class `Rodrigues`: a node of a chumpy expression -/

/-- `cv2.Rodrigues`: the converted array and a Jacobian with one row for every number given -/
abbrev Cv2Rodrigues (α : Type) := RotArg α → PyM (RotJac α)

/-- a Jacobian with one row for every number that comes out, for a rotation matrix or a rotation vector -/
inductive DrWrt (α : Type) where
  | ofMat (jac : Mat 9 3 α)
  | ofVec (jac : Mat 3 9 α)

/-- an object of class `Rodrigues`: its one term, `rt` (`dterms = 'rt'`), as an object reference.  rodrigues.py:5-6 -/
structure RodriguesNode where
  rt : ℕ

/-- `compute_r`; `val` is the value `.r` of each chumpy object.  rodrigues.py:8-10 -/
def RodriguesNode.computeR {α : Type} (cv2 : Cv2Rodrigues α) (val : ℕ → RotArg α) (n : RodriguesNode) : PyM (RotArg α) := do
  match ← cv2 (val n.rt) with
  | .mat m _ => pure (.mat m)
  | .vec r _ => pure (.vec r)

/-- `compute_dr_wrt`; the comparison is `is`, between object references.  rodrigues.py:12-15 -/
def RodriguesNode.computeDrWrt {α : Type} (cv2 : Cv2Rodrigues α) (val : ℕ → RotArg α) (n : RodriguesNode) (wrt : ℕ) :
    PyM (Option (DrWrt α)) :=
  if wrt = n.rt then do
    match ← cv2 (val n.rt) with
    | .mat _ j => pure (some (.ofMat (Matrix.of fun p i => j i p)))
    | .vec _ j => pure (some (.ofVec (Matrix.of fun i p => j p i)))
  else pure none

/-! ### `apply_correspondence` -/

/-- an argument: a numpy array or a chumpy object (by reference) -/
inductive ChArg (A : Type) where
  | arr (a : A)
  | ch (id : ℕ)

/-- `isinstance(x, ch.Ch)` -/
def ChArg.isCh {A : Type} : ChArg A → Bool
  | .arr _ => false
  | .ch _ => true

/-- the array, or the present value of the chumpy object -/
def ChArg.r {A : Type} (val : ℕ → A) : ChArg A → A
  | .arr a => a
  | .ch id => val id

/-- `TransformedCoeffs(src_v, dst_v)`, a chumpy expression -/
structure Coeffs (A : Type) where
  srcV : ChArg A
  dstV : ChArg A

/-- `TransformedLms(transformed_coeffs, src_v)`, a chumpy expression -/
structure Lms (A : Type) where
  transformedCoeffs : Coeffs A
  srcV : ChArg A

/-- `.r` of such an expression, evaluated when it is asked for; `fit` and `move` are what the two classes compute -/
def Lms.r {A C : Type} (fit : A → A → C) (move : C → A → A) (val : ℕ → A) (e : Lms A) : A :=
  move (fit (e.transformedCoeffs.srcV.r val) (e.transformedCoeffs.dstV.r val)) (e.srcV.r val)

/-- what `apply_correspondence` returns: an array or an expression -/
inductive Mapped (A : Type) where
  | arr (a : A)
  | ch (e : Lms A)

/-- `apply_correspondence`; `val` has the values of the chumpy objects at the time of the call.  correspondence.py:3-55 -/
def applyCorrespondence {A C : Type} (fit : A → A → C) (move : C → A → A) (val : ℕ → A)
    (correspondenceSrc correspondenceDst vertices : ChArg A) : Mapped A :=
  let chDesired := [correspondenceSrc.isCh, correspondenceDst.isCh, vertices.isCh].any id
  let coeffs : Coeffs A := { srcV := correspondenceSrc, dstV := correspondenceDst }
  let transformedVertices : Lms A := { transformedCoeffs := coeffs, srcV := vertices }
  if chDesired then .ch transformedVertices else .arr (transformedVertices.r fit move val)

end Blmath.Geometry
