import Verif.Tests.Basic
import Verif.Model.Segment
import Verif.Model.Apex
import Verif.Model.Triangle
import Verif.Model.Shapes
import Verif.Model.Convexify

/-!
`blmath/geometry/test_segment.py`, `test_apex.py`, `test_surface_normals.py` and `test_convexify.py`, run on the models.
-/

namespace Blmath.Tests
open Blmath Geometry

/-- nearly the same lists of points -/
def closePts (a b : List (V3 Float)) (places : Int := 6) : Bool := a.length == b.length && (a.zip b).all fun t => close3 t.1 t.2 places

/-- the same lists of points -/
def samePts (a b : List (V3 Float)) : Bool := a.length == b.length && (a.zip b).all fun t => same t.1.toList t.2.toList

/-! ### test_segment.py -/

-- PartitionSegmentOldTests
#guard raises (partitionSegmentOld (α := Float) (pt 0 0 0) (pt 1 0 0) none) .TypeError
#guard raises (partitionSegmentOld (α := Float) (pt 0 0 0) (pt 1 0 0) (some 1)) .ValueError
#guard returns (partitionSegmentOld (α := Float) (pt 0 0 0) (pt 2 0 0) (some 4)) (closePts · [pt 0.5 0 0, pt 1 0 0, pt 1.5 0 0] 7)
#guard returns (partitionSegmentOld (α := Float) (pt 0 0 0) (pt 1 0 0) (some 5)) (closePts · [pt 0.2 0 0, pt 0.4 0 0, pt 0.6 0 0, pt 0.8 0 0] 7)
#guard returns (partitionSegmentOld (α := Float) (pt 1 0 0) (pt 0 0 0) (some 5)) (closePts · [pt 0.8 0 0, pt 0.6 0 0, pt 0.4 0 0, pt 0.2 0 0] 7)
#guard returns (partitionSegmentOld (α := Float) (pt 0 0 0) (pt 1 1 0) (some 3)) (closePts · [pt (1/3) (1/3) 0, pt (2/3) (2/3) 0] 7)
-- PartitionSegmentTests
#guard raises (partitionSegment (α := Float) (pt 0 0 0) (pt 1 0 0) none) .TypeError
#guard raises (partitionSegment (α := Float) (pt 0 0 0) (pt 1 0 0) (some 1)) .ValueError
#guard returns (partitionSegment (α := Float) (pt 0 0 0) (pt 2 0 0) (some 5)) (closePts · [pt 0 0 0, pt 0.5 0 0, pt 1 0 0, pt 1.5 0 0, pt 2 0 0] 7)
#guard returns (partitionSegment (α := Float) (pt 0 0 0) (pt 1 0 0) (some 6))
  (closePts · [pt 0 0 0, pt 0.2 0 0, pt 0.4 0 0, pt 0.6 0 0, pt 0.8 0 0, pt 1 0 0] 7)
#guard returns (partitionSegment (α := Float) (pt 0 0 0) (pt 1 0 0) (some 5) false) (closePts · [pt 0 0 0, pt 0.2 0 0, pt 0.4 0 0, pt 0.6 0 0, pt 0.8 0 0] 7)
-- AddPointsTests
#guard returns (partition (α := Float) [pt 0 0 0, pt 1 0 0, pt 1 1 0, pt 1 2 0, pt 1 3 0] 5) (closePts · ([0, 0.2, 0.4, 0.6, 0.8].map (pt · 0 0) ++
  [0.0, 0.2, 0.4, 0.6, 0.8, 1.0, 1.2, 1.4, 1.6, 1.8, 2.0, 2.2, 2.4, 2.6, 2.8, 3.0].map (pt 1 · 0)))
#guard returns (partition (α := Float) [pt 0 0 0, pt 1 0 1, pt 2 0 1, pt 2 2 1] 5) (closePts · ([0, 0.2, 0.4, 0.6, 0.8].map (fun t => pt t 0 t) ++
  [1, 1.2, 1.4, 1.6, 1.8].map (pt · 0 1) ++ [0.0, 0.4, 0.8, 1.2, 1.6, 2.0].map (pt 2 · 1)))
-- TestLineIntersect: equal on the nose, with the solver of the model
#guard returns (lineIntersect (α := Float) (0, 3) (4, 11) (-2, 8) (6, 4)) fun p => almost p.1 1.6 12 && almost p.2 6.2 12
#guard returns (lineIntersect (α := Float) (0, 3) (5, 5) (5, 5) (6, 4)) fun p => almost p.1 5 12 && almost p.2 5 12
-- TestLineIntersect3D
def isPt (r : Option (V3 Float)) (p : V3 Float) : Bool := match r with
  | some q => same q.toList p.toList
  | none => false
#guard (lineIntersect3 (pt 0 1 2) (pt 0 10 20) (pt 0 2 4) (pt 0 4 8)).isNone
#guard (lineIntersect3 (pt 0 1 2) (pt 0 10 20) (pt 1 2 3) (pt 1 11 21)).isNone
#guard isPt (lineIntersect3 (pt 0 1 2) (pt 0 10 20) (pt 0 1 2) (pt 1 11 21)) (pt 0 1 2)
#guard isPt (lineIntersect3 (pt 0 1 2) (pt 0 10 20) (pt 1 2 3) (pt 0 10 20)) (pt 0 10 20)
#guard isPt (lineIntersect3 (pt 5 5 4) (pt 10 10 6) (pt 5 5 5) (pt 10 10 3)) (pt (25/4) (25/4) (9/2))
#guard isPt (lineIntersect3 (pt 5 5 4) (pt 10 10 (-6)) (pt 5 5 5) (pt 10 10 (-3))) (pt 2.5 2.5 9)
#guard isPt (lineIntersect3 (pt 6 8 4) (pt 12 15 4) (pt 6 8 2) (pt 12 15 6)) (pt 9 (23/2) 4)

/-! ### test_apex.py -/

def apexPoints : List (V3 Float) :=
  [pt (-0.97418884) (-0.79808404) (-0.18545491), pt 0.60675227 0.32673201 (-0.20369793), pt 0.67040405 0.19267665 (-0.56983579),
   pt (-0.68038753) (-0.90011588) 0.4649872, pt (-0.62813991) (-0.23947753) 0.07933854, pt 0.26348356 0.23701114 (-0.38230596),
   pt 0.08302473 0.2784907 0.09308946, pt 0.58695587 (-0.33253376) (-0.33493078), pt (-0.39221704) (-0.45240036) 0.25284163,
   pt 0.46270635 (-0.3865265) (-0.98106526)]
-- test_apex; the largest coordinate sum is that of the second point
#guard [(pt 1 0 0, 2), (pt (-1) 0 0, 0), (pt 0 1 0, 1), (pt 0 (-1) 0, 3), (pt 0 0 1, 3), (pt 0 0 (-1), 9), (pt 1 1 1, 1),
    (pt (1 / Float.sqrt 3) (1 / Float.sqrt 3) (1 / Float.sqrt 3), 1)].all
  fun t => returns (apex apexPoints t.1) fun p => (apexPoints[t.2]?).any fun q => same p.toList q.toList
-- test_farthest
#guard returns (farthest (pt (-1) 0 0) [pt 1 (-2) (-3), pt (-1) (-20) (-30)]) fun r => same r.1.toList [-1, -20, -30] && r.2 == 1

/-! ### test_surface_normals.py -/

-- test_surface_normal_single
#guard close3 (surfaceNormal (pt 3 0 0) (pt 0 3 0) (pt 0 0 3)) (pt (1 / Float.sqrt 3) (1 / Float.sqrt 3) (1 / Float.sqrt 3)) 7
#guard close3 (surfaceNormal (pt 3 0 0) (pt 0 3 0) (pt 0 0 3) false) (pt 9 9 9)
-- test_surface_normal_vectorized
#guard returns (do
    let (v, f) ← createTriangularPrism (pt 3 0 0) (pt 0 3 0) (pt 0 0 3) 1
    flattenFaces v f) fun ts => closePts (surfaceNormals ts)
  ([pt 1 1 1, pt 1 1 (-2), pt 1 1 (-2), pt (-2) 1 1, pt (-2) 1 1, pt 1 (-2) 1, pt 1 (-2) 1, pt (-1) (-1) (-1)].map fun n => V3.sdiv n n.norm) 7

/-! ### test_convexify.py -/

-- test_convexify_degenerate_cases: the external routines are not called
def noHull : HullEnv Float := ⟨fun _ => raise .ValueError, fun _ => raise .LinAlgError, fun _ => raise .ValueError, fun _ => Mat.eye 3⟩
#guard returns (do
    let p ← Polyline.new (rowsOf [pt 1 2 3])
    convexify noHull p false false .none) fun r => samePts (r.1.v.getD []) [pt 1 2 3]
#guard returns (do
    let p ← Polyline.new (α := Float) (.mat 3 [])
    convexify noHull p false false .none) fun r => (r.1.v.map List.length) == some 0

end Blmath.Tests
