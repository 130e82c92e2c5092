import Verif.Model.Vx

/-!
Model of `blmath/geometry/primitives/plane.py`, except the mesh slicing graph (`MeshSlice.lean`)
and `fit_from_points` (`FitPlane.lean`).

Stacks of points (`V x 3` arrays) are lists of 3-vectors.  Inputs are float arrays of the
documented shapes: the calls to `as_numeric_array` in the two `from_*` constructors, which reject
anything else (property C15), are not repeated here.
-/

namespace Blmath.Geometry
open Blmath.Vx
variable {α : Type} [Num α]

/-- `Plane`: the reference point `_r0` and the unit normal `_n`.  plane.py:21-22 -/
@[ext] structure Plane (α : Type) where
  r0 : V3 α
  n : V3 α

/-- `Plane.__init__`.  plane.py:15-22 -/
def Plane.mk' (pointOnPlane unitNormal : V3 α) : PyM (Plane α) :=
  if almostZero unitNormal defaultAtol then raise .ValueError
  else .ok ⟨pointOnPlane, normalize3 unitNormal⟩

/-- `Plane.from_points`.  plane.py:27-44 -/
def Plane.fromPoints (p1 p2 p3 : V3 α) : PyM (Plane α) :=
  let v1 := p2 - p1
  let v2 := p3 - p1
  let normal := V3.cross v1 v2
  Plane.mk' p1 normal

/-- `Plane.from_points_and_vector`.  plane.py:46-71 -/
def Plane.fromPointsAndVector (p1 p2 vector : V3 α) : PyM (Plane α) :=
  let v1 := p2 - p1
  let v2 := vector
  let normal := V3.cross v1 v2
  Plane.mk' p1 normal

namespace Plane
variable (pl : Plane α)

/-- `equation`: `A, B, C, D`.  plane.py:84-101 -/
def equation : α × α × α × α := (pl.n.x, pl.n.y, pl.n.z, -(V3.dot pl.r0 pl.n))

/-- `reference_point`.  plane.py:103-109 -/
def referencePoint : V3 α := pl.r0

/-- `normal`.  plane.py:126-132 -/
def normal : V3 α := pl.n

/-- `canonical_point`.  plane.py:111-124 -/
def canonicalPoint : V3 α := V3.smul (V3.dot pl.r0 pl.n) pl.n

/-- `flipped`.  plane.py:134-139 -/
def flipped : PyM (Plane α) :=
  let normal : V3 α := ⟨pl.n.x * Num.lit (-1), pl.n.y * Num.lit (-1), pl.n.z * Num.lit (-1)⟩
  Plane.mk' pl.r0 normal

/-- `signed_distance` of one point.  plane.py:174-182 -/
def signedDistance1 (p : V3 α) : α :=
  let (a, b, c, d) := pl.equation
  V3.dot p ⟨a, b, c⟩ + d

/-- `signed_distance` of a stack.  plane.py:174-182 -/
def signedDistance (ps : List (V3 α)) : List α := ps.map pl.signedDistance1

/-- `distance`.  plane.py:184-185 -/
def distance (ps : List (V3 α)) : List α := (pl.signedDistance ps).map npAbs

/-- `sign`.  plane.py:141-148 -/
def sign (ps : List (V3 α)) : List α := (pl.signedDistance ps).map npSign

/-- the mask of `points_in_front`.  plane.py:163-168 -/
def frontMask (ps : List (V3 α)) (inverted : Bool) : List Bool :=
  (pl.sign ps).map fun s =>
    if inverted then Num.le s (Num.lit 0) else Num.le (Num.lit 0) s

/-- `np.flatnonzero`: the positions of the true entries -/
def flatnonzeroFrom : ℕ → List Bool → List ℕ
  | _, [] => []
  | i, b :: bs => if b then i :: flatnonzeroFrom (i + 1) bs else flatnonzeroFrom (i + 1) bs

/-- `np.flatnonzero` -/
def flatnonzero (m : List Bool) : List ℕ := flatnonzeroFrom 0 m

/-- `points_in_front(..., ret_indices=True)`.  plane.py:150-172 -/
def indicesInFront (ps : List (V3 α)) (inverted : Bool) : List ℕ :=
  flatnonzero (pl.frontMask ps inverted)

/-- `points_in_front(...)`: `points[indices]`.  plane.py:150-172 -/
def pointsInFront (ps : List (V3 α)) (inverted : Bool) : PyM (List (V3 α)) :=
  (pl.indicesInFront ps inverted).mapM fun (i : ℕ) => pyIndex ps (i : ℤ)

/-- `project_point`.  plane.py:187-194 -/
def projectPoint (p : V3 α) : V3 α := p - V3.smul (pl.signedDistance1 p) pl.n

/-- `line_xsection` / `_line_xsection`; `none` is Python's None.  plane.py:202-210 -/
def lineXsection (pt ray : V3 α) : Option (V3 α) :=
  let denom := V3.dot ray pl.normal
  if Num.eq denom (Num.lit 0) then none
  else
    let p := V3.dot (pl.referencePoint - pt) pl.normal / denom
    some (V3.smul p ray + pt)

/-- the bounding test of lines 218 and 231-232, on one component -/
def beyond (pt a b : α) : Bool := Num.lt a pt && Num.lt b pt

/-- the bounding test of lines 218 and 231-232, on one component -/
def below (pt a b : α) : Bool := Num.lt pt a && Num.lt pt b

/-- `any(pt > a and pt > b) or any(pt < a and pt < b)`.  plane.py:218 -/
def outOfBounds (pt a b : V3 α) : Bool :=
  (beyond pt.x a.x b.x || beyond pt.y a.y b.y || beyond pt.z a.z b.z) ||
  (below pt.x a.x b.x || below pt.y a.y b.y || below pt.z a.z b.z)

/-- `line_segment_xsection` / `_line_segment_xsection`.  plane.py:212-220 -/
def lineSegmentXsection (a b : V3 α) : Option (V3 α) :=
  match pl.lineXsection a (b - a) with
  | some pt => if outOfBounds pt a b then none else some pt
  | none => none

/-- `np.nan` -/
def npNan : α := Num.lit 0 / Num.lit 0

/-- one row of `line_xsections`.  plane.py:222-227 -/
def lineXsectionsRow (pt ray : V3 α) : V3 α × Bool :=
  let denom := V3.dot ray pl.normal
  let denomIsZero := Num.eq denom (Num.lit 0)
  let denom := if denomIsZero then npNan else denom
  let p := V3.dot (pl.referencePoint - pt) pl.normal / denom
  (V3.smul p ray + pt, !denomIsZero)

/-- `line_xsections`: the points and the validity mask.  plane.py:222-227.  A single row is broadcast against any number of
rows; the mask has one entry for each ray. -/
def lineXsections (pts rays : List (V3 α)) : PyM (List (V3 α) × List Bool) :=
  let mask := rays.map fun r => !Num.eq (V3.dot r pl.normal) (Num.lit 0)
  if pts.length = rays.length then .ok (List.zipWith (fun p r => (pl.lineXsectionsRow p r).1) pts rays, mask)
  else match pts, rays with
    | [p], rays => .ok (rays.map fun r => (pl.lineXsectionsRow p r).1, mask)
    | pts, [r] => .ok (pts.map fun p => (pl.lineXsectionsRow p r).1, mask)
    | _, _ => raise .ValueError

/-- one row of `line_segment_xsections`.  plane.py:229-235 -/
def lineSegmentXsectionsRow (a b : V3 α) : V3 α × Bool :=
  let (pt, valid) := pl.lineXsectionsRow a (b - a)
  let valid := if valid then !outOfBounds pt a b else false
  (if valid then pt else ⟨npNan, npNan, npNan⟩, valid)

/-- `line_segment_xsections`.  plane.py:229-235.  A single row is broadcast by `b-a`, but the mask then does not fit it
(numpy ≥ 1.13); other unequal lengths cannot be subtracted. -/
def lineSegmentXsections (a b : List (V3 α)) : PyM (List (V3 α) × List Bool) :=
  if a.length = b.length then
    let rows := List.zipWith pl.lineSegmentXsectionsRow a b
    .ok (rows.map Prod.fst, rows.map Prod.snd)
  else if a.length = 1 ∨ b.length = 1 then raise .IndexError
  else raise .ValueError

end Plane

/-- A triangle mesh: `m.v` and `m.f`. -/
structure Mesh (α : Type) where
  v : List (V3 α)
  f : List (ℕ × ℕ × ℕ)

/-- `np.abs(np.sign(sgn_dists)[f].sum()) != 3` for one face; a vertex index out of range raises.
plane.py:253 -/
def Plane.faceSelected (pl : Plane α) (m : Mesh α) (f : ℕ × ℕ × ℕ) : PyM Bool := do
  let signs := (pl.signedDistance m.v).map npSign
  let s0 ← pyIndex signs (f.1 : ℤ)
  let s1 ← pyIndex signs (f.2.1 : ℤ)
  let s2 ← pyIndex signs (f.2.2 : ℤ)
  pure (!Num.eq (npAbs (s0 + s1 + s2)) (Num.lit 3))

/-- `mesh_intersecting_faces`.  plane.py:251-254 -/
def Plane.meshIntersectingFaces (pl : Plane α) (m : Mesh α) : PyM (List (ℕ × ℕ × ℕ)) := do
  let mask ← m.f.mapM (pl.faceSelected m)
  pure (((m.f.zip mask).filter fun p => p.2).map Prod.fst)

end Blmath.Geometry
