import Verif.Tests.Geometry
import Verif.Model.CoordinateManager

/-!
`blmath/geometry/transform/test_*.py`, run on the models.  For `np.linalg.inv` Gauss-Jordan elimination is used.  The matrices
given to `rotate` are rotations; `m = m · 1 · 1` is a singular value decomposition of such a matrix.
-/

namespace Blmath.Tests
open Blmath Geometry Vx

/-- the rows of a matrix -/
abbrev Rows := List (List Float)

/-- the remaining rows cleared in the leading column -/
def clear (piv : List Float) (r : List Float) : List Float :=
  match piv, r with
  | p :: ps, x :: xs => List.zipWith (fun a b => a - x / p * b) xs ps
  | _, _ => []

/-- Gauss-Jordan elimination of the columns one after the other, the pivot being the largest entry; `done` are the rows already
chosen, without their leading columns -/
def gauss : Nat → Rows → Rows → Option Rows
  | 0, done, _ => some done
  | k + 1, done, rest =>
    let key (r : List Float) : Float := (r.headD 0).abs
    match rest with
    | [] => none
    | r :: rs =>
      let i := ((rs.zipIdx 1).foldl (fun (b : Nat × Float) t => if key t.1 > b.2 then (t.2, key t.1) else b) (0, key r)).1
      match rest[i]? with
      | none => none
      | some piv =>
        if key piv == 0 then none
        else
          let p := piv.headD 0
          gauss k (done.map (clear piv) ++ [(piv.drop 1).map (· / p)]) ((rest.eraseIdx i).map (clear piv))

/-- `np.linalg.inv` -/
def inverse {n : Nat} (m : Mat n n Float) : PyM (Mat n n Float) :=
  let aug : Rows := List.ofFn fun i => (List.ofFn fun j => m i j) ++ List.ofFn fun j => if i = j then 1 else 0
  match gauss n [] aug with
  | none => raise .LinAlgError
  | some rows =>
    let a := (rows.map List.toArray).toArray
    .ok (Matrix.of fun i j => (a[i.val]?.bind (·[j.val]?)).getD 0)

/-- a singular value decomposition of a rotation -/
def svdOfRotation : Svd3 Float := fun m => .ok (m, fun _ => 1, Mat.eye 3)

/-- nearly the same matrices -/
def closeMat {m n : Nat} (a b : Mat m n Float) (places : Int := 6) : Bool := close a.rows.flatten b.rows.flatten places

#guard returns (inverse (n := 2) !![0, 2; 4, 1]) (closeMat · !![-0.125, 0.25; 0.5, 0])
#guard raises (inverse (n := 2) !![1, 2; 2, 4]) .LinAlgError

/-! ### test_rotation.py -/

def ulRaises (up look : V3 Float) : Bool := raises (rotationFromUpAndLook up look) .ValueError

/-- `rotation_from_up_and_look` nearly equal to a matrix -/
def ulIs (up look : V3 Float) (m : Mat 3 3 Float) : Bool := returns (rotationFromUpAndLook up look) (closeMat · m)

def eulerDeg (xs : List Float) : Mat 3 3 Float := euler (.many xs) "xyz" "deg"

-- TestRotationFromUpAndLook
#guard ulIs (pt 0 1 0) (pt 0 0 1) (Mat.eye 3) && ulIs (pt 0 42 0) (pt 0 0 13) (Mat.eye 3)
#guard ulRaises (pt 0 0 0) (pt 0 0 1) && ulRaises (pt 0 1 0) (pt 0 0 0) && ulRaises (pt 0 0 1) (pt 0 0 1) && ulRaises (pt 0 0 1) (pt 0 0 (-1))
-- test_vary_look_alone
#guard [(45, pt (-1) 0 1), (90, pt (-1) 0 0), (135, pt (-1) 0 (-1)), (180, pt 0 0 (-1)), (225, pt 1 0 (-1)), (270, pt 1 0 0), (315, pt 1 0 1)].all
  fun (t : Float × V3 Float) => ulIs (pt 0 1 0) t.2 (eulerDeg [0, t.1])
-- test_vary_up_alone
#guard [(45, pt 1 1 0), (90, pt 1 0 0), (135, pt 1 (-1) 0), (180, pt 0 (-1) 0), (225, pt (-1) (-1) 0), (270, pt (-1) 0 0), (315, pt (-1) 1 0)].all
  fun (t : Float × V3 Float) => ulIs t.2 (pt 0 0 1) (eulerDeg [0, 0, t.1])

/-- cosine and sine of the multiples of 45 degrees used by the tests -/
def turns : List (Float × Float × Float) :=
  let s2 := Float.sqrt 2 / 2
  [(0, 1, 0), (45, s2, s2), (90, 0, 1), (180, -1, 0), (270, 0, -1), (360, 1, 0)]

/-- `euler` in degrees and in radians -/
def eulerIs (pre : List Float) (m : Float → Float → Mat 3 3 Float) : Bool :=
  turns.all fun t => closeMat (euler (.many (pre ++ [t.1])) "xyz" "deg") (m t.2.1 t.2.2) &&
    closeMat (euler (.many (pre ++ [t.1 / 180 * Trig.pi])) "xyz" "rad") (m t.2.1 t.2.2)

-- TestEuler
#guard turns.all fun t => closeMat (euler (.one t.1) "xyz" "deg") !![1, 0, 0; 0, t.2.1, -t.2.2; 0, t.2.2, t.2.1]
#guard eulerIs [] fun c s => !![1, 0, 0; 0, c, -s; 0, s, c]
#guard eulerIs [0] fun c s => !![c, 0, s; 0, 1, 0; -s, 0, c]
#guard eulerIs [0, 0] fun c s => !![c, -s, 0; s, c, 0; 0, 0, 1]

/-! ### test_translation.py, with a third coordinate -/

def square4 : List (V3 Float) := [pt 1 1 0, pt 1 2 0, pt 2 2 0, pt 2 1 0]
#guard let r := translation square4 (some (pt (-1) 2 0)); samePts r.1 [pt 0 3 0, pt 0 4 0, pt 1 4 0, pt 1 3 0] && same r.2.toList [-1, 2, 0]
#guard let r := translation square4 none
  samePts r.1 [pt (-0.5) (-0.5) 0, pt (-0.5) 0.5 0, pt 0.5 0.5 0, pt 0.5 (-0.5) 0] && same r.2.toList [-1.5, -1.5, 0]

/-! ### test_composite.py -/

/-- `create_cube_verts([1., 0., 0.], 4.)` -/
def cubeV : Arr Float := .mat 3 [[1, 0, 0], [5, 0, 0], [5, 0, 4], [1, 0, 4], [1, 4, 0], [5, 4, 0], [5, 4, 4], [1, 4, 4]]

def run (ops : List (TOp Float)) : Composite Float := runT inverse svdOfRotation [] ops

/-- rows 0 and 6 of an array -/
def corners (r : PyM (Arr Float)) (a b : List Float) : Bool :=
  returns r fun x => match x with
    | .mat 3 rows => (rows[0]?).any (close · a) && (rows[6]?).any (close · b)
    | _ => false

/-- nearly the same array -/
def isArr (r : PyM (Arr Float)) (rows : Rows) (places : Int := 6) : Bool :=
  returns r fun x => match x with
    | .mat _ rs => rs.length == rows.length && (rs.zip rows).all fun t => close t.1 t.2 places
    | _ => false

/-- the cube moved by the transforms -/
def moved (ops : List (TOp Float)) : PyM (Arr Float) := callT (run ops) cubeV none false

-- test_translate, test_scale, test_translate_then_scale, test_scale_then_translate
#guard corners (moved [.translate (pt 8 6 7)]) [9, 6, 7] [13, 10, 11]
#guard corners (moved [.scale 10]) [10, 0, 0] [50, 40, 40]
#guard corners (moved [.translate (pt 8 6 7), .scale 10]) [90, 60, 70] [130, 100, 110]
#guard corners (moved [.scale 10, .translate (pt 8 6 7)]) [18, 6, 7] [58, 46, 47]
-- test_rotate_then_translate
#guard isArr (callT (run [.rotate (.vec (pt 1 2 3)), .translate (pt 3 2 1)]) (.mat 3 [[1, 0, 0]]) none false) [[2.30507944, 1.80799303, 1.69297817]] 7
#guard isArr (callT (run [.rotate (.vec (pt 1 2 3)), .translate (pt 3 2 1)]) (.mat 3 [[1, 0, 0]]) none true) [[1.08087689, -1.45082159, -2.3930779]] 7
-- test_reorient, test_rotate
#guard corners (moved [.reorient (pt 0 1 0) (pt (-1) 0 0)]) [0, 0, -1] [4, 4, -5]
#guard corners (moved [.rotate (.vec (pt 0 (Trig.pi / 2) 0))]) [0, 0, -1] [4, 4, -5]
#guard corners (moved [.rotate (.mat !![0, 0, 1; 0, 1, 0; -1, 0, 0])]) [0, 0, -1] [4, 4, -5]
-- test_reverse_transforms
#guard [[], [.translate (pt 8 6 7)], [.scale 10], [.translate (pt 8 6 7), .scale 10], [.scale 10, .translate (pt 8 6 7)]].all fun (ops : List (TOp Float)) =>
  corners (moved ops >>= fun x => callT (run ops) x none true) [1, 0, 0] [5, 4, 4]
-- test_forward_reverse_equivalence
#guard let t := run [.rotate (.vec (pt 1 2 3)), .translate (pt 3 2 1), .scale 10, .rotate (.vec (pt 7 13 5))]
  [none, some (some 0, some 2)].all fun (r : Option (Option ℤ × Option ℤ)) =>
    returns (inverse (matrixFor t r false)) fun m => closeMat (matrixFor t r true) m 10

/-! ### test_coordinate_manager.py -/

def manager : List (MOp Float (List Float)) :=
  [.tag "source", .transform (.translate (-(pt 3 0 2))), .transform (.scale 2), .tag "floored_and_scaled", .transform (.translate (pt 0 (-4) 0)),
   .tag "centered_at_origin", .set "source" (.points cubeV)]

def mgr : CoordMgr Float (List Float) := CoordMgr.run inverse svdOfRotation CoordMgr.init manager

/-- the array of a result -/
def pointsOf (r : PyM (PointsOrMesh Float (List Float))) : PyM (Arr Float) := do
  match ← r with
  | .points a => pure a
  | .mesh _ _ => raise .TypeError

/-- `do_transform` -/
def doT (v : PyVer) (x : PyM (Arr Float)) (a b : String) : PyM (Arr Float) := do
  let x ← x
  pointsOf (mgr.doTransform v (.points x) a b)

-- test_coordinate_manager_forward
#guard [PyVer.py2, .py3].all fun v =>
  let fs := doT v (.ok cubeV) "source" "floored_and_scaled"
  let co1 := doT v (.ok cubeV) "source" "centered_at_origin"
  let co2 := doT v fs "floored_and_scaled" "centered_at_origin"
  let cube := [[1, 0, 0], [5, 0, 0], [5, 0, 4], [1, 0, 4], [1, 4, 0], [5, 4, 0], [5, 4, 4], [1, 4, 4]]
  corners fs [-4, 0, -4] [4, 8, 4] && corners co1 [-4, -4, -4] [4, 4, 4] && corners co2 [-4, -4, -4] [4, 4, 4] &&
    isArr (doT v fs "floored_and_scaled" "source") cube && isArr (doT v co1 "centered_at_origin" "source") cube

/-- reading an attribute -/
def attrOf (m : CoordMgr Float (List Float)) (v : PyVer) (name : String) : PyM (PointsOrMesh Float (List Float)) := do
  match ← m.getAttr v name with
  | .own _ => raise .TypeError
  | .value x => pure x

-- test_coordinate_manager_forward_with_attrs
#guard [PyVer.py2, .py3].all fun v => corners (pointsOf (attrOf mgr v "floored_and_scaled")) [-4, 0, -4] [4, 8, 4] &&
  corners (pointsOf (attrOf mgr v "centered_at_origin")) [-4, -4, -4] [4, 4, 4] && corners (pointsOf (attrOf mgr v "source")) [1, 0, 0] [5, 4, 4]
-- test_coordinate_manager_forward_on_mesh
#guard [PyVer.py2, .py3].all fun v =>
  let m := CoordMgr.run inverse svdOfRotation CoordMgr.init (manager ++ [.set "source" (.mesh (some cubeV) [-9])])
  returns (attrOf m v "floored_and_scaled") fun x => match x with
    | .mesh (some a) rest => corners (.ok a) [-4, 0, -4] [4, 8, 4] && same rest [-9]
    | _ => false

end Blmath.Tests
