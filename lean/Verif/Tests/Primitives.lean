import Verif.Tests.Geometry
import Verif.Model.MeshSlice
import Verif.Model.Polyline
import Mathlib.Data.Finset.Max

/-!
`blmath/geometry/primitives/test_plane.py` and `test_polyline.py`, run on the models.
-/

namespace Blmath.Tests
open Blmath Geometry

/-! ### test_plane.py -/

/-- `Plane(point, normal)` and then `f` -/
def onPlane {β : Type} (r n : V3 Float) (f : Plane Float → β) : PyM β := do
  let p ← Plane.mk' r n
  pure (f p)

/-- a vector divided by its norm -/
def unit (n : V3 Float) : V3 Float := V3.sdiv n n.norm

-- DistanceToPlaneTests
#guard returns (onPlane (pt 0 0 0) (pt 0 1 0) fun p => p.signedDistance [pt 500 502 503, pt (-500) (-501) (-503)]) (same · [502, -501])
#guard returns (onPlane (pt 0 0 0) (pt 0 1 0) fun p => p.distance [pt 500 502 503, pt (-500) (-501) (-503)]) (same · [502, 501])
#guard returns (onPlane (pt 1 1 0) (unit (pt 1 1 0)) fun p => p.signedDistance [pt 425 425 25, pt (-500) (-500) 25])
  (close · [Float.sqrt (2 * (425 - 1) ^ 2), -Float.sqrt (2 * (500 + 1) ^ 2)])
#guard returns (onPlane (pt 0 0 0) (unit (pt 1 1 0)) fun p => p.distance [pt 425 425 25, pt (-500) (-500) 25])
  (close · [Float.sqrt (2 * 425 ^ 2), Float.sqrt (2 * 500 ^ 2)])
#guard returns (onPlane (pt 1 1 0) (unit (pt 1 1 0)) fun p => p.sign [pt 425 425 25, pt (-500) (-500) 25]) (same · [1, -1])
-- TestCanonicalPoint
#guard [unit (pt 1 1 0), -(unit (pt 1 1 0)), unit (pt 1 7 9), -(unit (pt 1 7 9))].all fun n =>
  returns (onPlane (pt 0 0 0) n Plane.canonicalPoint) fun q => same q.toList [0, 0, 0]
#guard [pt 1 0 0, -(pt 1 0 0)].all fun n => returns (onPlane (pt 3 10 20) n Plane.canonicalPoint) fun q => same q.toList [3, 0, 0]
#guard [unit (pt 1 1 1), -(unit (pt 1 1 1))].all fun n =>
  returns (onPlane (pt 1 2 10) n Plane.canonicalPoint) fun q => close3 q (pt 4.333333 4.333333 4.333333)
-- TestProjectPoint
#guard returns (onPlane (pt 0 10 0) (pt 0 1 0) fun p => p.projectPoint (pt 10 20 (-5))) fun q => same q.toList [10, 10, -5]
-- test_plane_from_points: the test asks for exact zeros, which depends on the order in which the library sums
#guard returns (Plane.fromPoints (pt 1 1 1) (pt (-1) 1 0) (pt 2 0 3)) fun p =>
  let (a, b, c, d) := p.equation
  [pt 1 1 1, pt (-1) 1 0, pt 2 0 3].all fun q => almost (a * q.x + b * q.y + c * q.z + d) 0 12 && close3 (p.projectPoint q) q
-- test_plane_from_points_order
#guard returns (Plane.fromPoints (pt 1 0 0) (pt 0 (Float.sqrt 1.25) 0) (pt (-1) 0 0)) fun p => same p.normal.toList [0, 0, 1]
-- test_plane_from_points_and_vector
#guard returns (Plane.fromPointsAndVector (pt 1 5 7) (pt (-2) (-2) (-2)) (pt 1 0 (-1))) fun p =>
  [pt 1 5 7, pt (-2) (-2) (-2)].all (fun q => close3 (p.projectPoint q) q) && V3.dot (pt 1 0 (-1)) p.normal == 0

/-- the x-z plane -/
def xz {β : Type} (f : Plane Float → β) : PyM β := onPlane (pt 0 0 0) (pt 0 1 0) f

/-- the points at the rows with True; at the others, nan -/
def rowsAre (r : List (V3 Float) × List Bool) (b : List (Option (V3 Float))) : Bool :=
  r.1.length == b.length && r.2 == b.map Option.isSome && (r.1.zip b).all fun t => match t.2 with
    | some p => same t.1.toList p.toList
    | none => t.1.toList.all Float.isNaN

-- test_line_plane_intersection
#guard returns (xz fun p => p.lineXsection (pt 0 (-1) 0) (pt 1 0 0)) Option.isNone && returns (xz fun p => p.lineXsection (pt 0 0 0) (pt 1 0 0)) Option.isNone
#guard returns (xz fun p => p.lineXsection (pt 0 (-1) 0) (pt 0 1 0)) (isPt · (pt 0 0 0))
#guard returns (xz fun p => p.lineXsection (pt 0 (-1) 0) (pt 1 1 0)) (isPt · (pt 1 0 0))
-- test_line_plane_intersections
#guard returns (do
    let p ← Plane.mk' (pt 0 0 0) (pt 0 1 0)
    p.lineXsections [pt 0 (-1) 0, pt 0 0 0, pt 0 (-1) 0, pt 0 (-1) 0] [pt 1 0 0, pt 1 0 0, pt 0 1 0, pt 1 1 0])
  (rowsAre · [none, none, some (pt 0 0 0), some (pt 1 0 0)])
-- test_line_segment_plane_intersection
#guard [(pt 0 (-1) 0, pt 1 (-1) 0), (pt 0 0 0, pt 1 0 0), (pt 0 1 0, pt 0 2 0)].all fun t => returns (xz fun p => p.lineSegmentXsection t.1 t.2) Option.isNone
#guard returns (xz fun p => p.lineSegmentXsection (pt 0 (-1) 0) (pt 0 1 0)) (isPt · (pt 0 0 0))
#guard returns (xz fun p => p.lineSegmentXsection (pt 0 (-1) 0) (pt 2 1 0)) (isPt · (pt 1 0 0))
-- test_line_segment_plane_intersections
#guard returns (do
    let p ← Plane.mk' (pt 0 0 0) (pt 0 1 0)
    p.lineSegmentXsections [pt 0 (-1) 0, pt 0 0 0, pt 0 (-1) 0, pt 0 (-1) 0, pt 0 1 0] [pt 1 (-1) 0, pt 1 0 0, pt 0 1 0, pt 2 1 0, pt 0 2 0])
  (rowsAre · [none, none, some (pt 0 0 0), some (pt 1 0 0), none])

/-- the box of the tests -/
def boxMesh : Mesh Float :=
  ⟨[pt 0.5 0.5 0.5, pt (-0.5) 0.5 0.5, pt 0.5 (-0.5) 0.5, pt (-0.5) (-0.5) 0.5, pt 0.5 0.5 (-0.5), pt (-0.5) 0.5 (-0.5), pt 0.5 (-0.5) (-0.5),
    pt (-0.5) (-0.5) (-0.5)],
   [(0, 1, 2), (3, 2, 1), (0, 2, 4), (6, 4, 2), (0, 4, 1), (5, 1, 4), (7, 5, 6), (4, 6, 5), (7, 6, 3), (2, 3, 6), (7, 3, 5), (1, 5, 3)]⟩

/-- `double_mesh` -/
def doubleMesh (m : Mesh Float) : Mesh Float :=
  let n := m.v.length
  ⟨m.v ++ m.v.map (· + pt 2 0 0), m.f ++ m.f.map fun t => (t.1 + n, t.2.1 + n, t.2.2 + n)⟩

/-- the box without the two faces at x = -0.5 -/
def openMesh : Mesh Float :=
  ⟨boxMesh.v, boxMesh.f.filter fun t => [t.1, t.2.1, t.2.2].any fun i => (boxMesh.v[i]?).any fun p => !decide (p.x < 0)⟩

/-- the smallest element of a set -/
def firstPicker : Picker where
  pick _ s := if h : s.Nonempty then s.min' h else 0
  mem _ s h := by simp only [h, dif_pos]; exact s.min'_mem h

/-- the largest element of a set -/
def lastPicker : Picker where
  pick _ s := if h : s.Nonempty then s.max' h else 0
  mem _ s h := by simp only [h, dif_pos]; exact s.max'_mem h

/-- the order in which the keys were put in -/
def inOrder : KeyOrder := ⟨fun d => d.keys, fun _ => .refl _⟩

/-- the reverse order -/
def revOrder : KeyOrder := ⟨fun d => d.keys.reverse, fun d => d.keys.reverse_perm⟩

/-- for both versions of the language and several orders of sets and dicts -/
def always (p : PyVer → (ℕ → Picker) → (ℕ → KeyOrder) → Bool) : Bool :=
  [PyVer.py2, .py3].all fun v => [firstPicker, lastPicker].all fun k => [inOrder, revOrder].all fun o => p v (fun _ => k) (fun _ => o)

/-- `mesh_xsections` of the x-z plane raised by `y` -/
def sections (y : Float) (m : Mesh Float) (nbh : Option (V3 Float × List (V3 Float))) (p : List (Section Float) → Bool)
    (q : Option (Section Float) → Bool) : Bool :=
  always fun v k o =>
    returns (onPlane (pt 0 y 0) (pt 0 1 0) (fun pl => pl.meshXsections v k o m nbh) >>= id) p &&
    returns (onPlane (pt 0 y 0) (pt 0 1 0) (fun pl => pl.meshXsection v k o m nbh) >>= id) q

/-- all in the plane y = 0, consecutive points differ in one coordinate, by 0.5 -/
def walk : List (V3 Float) → Bool
  | a :: b :: r => a.y == 0 && ((a.x == b.x) != (a.z == b.z)) && (a - b).norm == 0.5 && walk (b :: r)
  | [a] => a.y == 0
  | [] => true

/-- `total_length` of a section -/
def sectionLength (s : Section Float) : PyM Float := do
  let p ← Polyline.new (rowsOf s.v) s.closed
  p.totalLength

/-- a section with so many vertices -/
def sectionIs (n : Nat) (closed : Bool) (s : Section Float) : Bool := s.v.length == n && s.closed == closed

-- test_mesh_plane_intersection
#guard returns (xz (fun p => p.meshIntersectingFaces boxMesh) >>= id) fun fs => fs.length == 8
#guard sections 0 boxMesh none
  (fun ss => ss.length == 1 && ss.all fun s => sectionIs 8 true s && returns (sectionLength s) (· == 4.0) && walk s.v)
  (fun s => s.any (sectionIs 8 true))
-- test_mesh_plane_intersection_with_no_intersection
#guard returns (onPlane (pt 0 5 0) (pt 0 1 0) (fun p => p.meshIntersectingFaces boxMesh) >>= id) fun fs => fs.length == 0
#guard sections 5 boxMesh none (fun ss => ss.length == 0) (fun s => s.isNone)
-- test_mesh_plane_intersection_wth_two_components
#guard sections 0 (doubleMesh boxMesh) none (fun ss => ss.length == 2 && ss.all (sectionIs 8 true)) (fun s => s.any (sectionIs 16 true))
-- test_mesh_plane_intersection_wth_neighborhood
#guard sections 0 (doubleMesh boxMesh) (some (pt 0 0 0, [])) (fun ss => ss.length == 1 && ss.all (sectionIs 8 true)) (fun s => s.any (sectionIs 8 true))
-- test_mesh_plane_intersection_with_non_watertight_mesh
#guard openMesh.f.length == 10
#guard sections 0 openMesh none
  (fun ss => ss.length == 1 && ss.all fun s => sectionIs 7 false s && returns (sectionLength s) (· == 3.0) && walk s.v &&
    !s.v.any fun p => same p.toList [-0.5, 0, 0])
  (fun s => s.any (sectionIs 7 true))
-- test_mesh_plane_intersection_with_mulitple_non_watertight_meshes
#guard sections 0 (doubleMesh openMesh) none
  (fun ss => ss.length == 2 && ss.all fun s => sectionIs 7 false s && returns (sectionLength s) (· == 3.0) && walk s.v &&
    !s.v.any fun p => same p.toList [-0.5, 0, 0])
  (fun s => s.any (sectionIs 14 true))

/-! ### test_polyline.py -/

/-- `Polyline(ps, closed)` and then `f` -/
def onPoly {β : Type} (ps : List (V3 Float)) (closed : Bool) (f : Polyline Float → PyM β) : PyM β := do
  let p ← Polyline.new (rowsOf ps) closed
  f p

def five : List (V3 Float) := [pt 0 0 0, pt 1 0 0, pt 1 1 0, pt 1 2 0, pt 1 3 0]
def six : List (V3 Float) := [pt 0 0 0, pt 1 0 0, pt 1 1 0, pt 1 7 0, pt 1 8 0, pt 0 8 0]

-- test_edges
#guard returns (onPoly five false fun p => .ok p.e) (· == some [(0, 1), (1, 2), (2, 3), (3, 4)])
#guard returns (onPoly five true fun p => .ok p.e) (· == some [(0, 1), (1, 2), (2, 3), (3, 4), (4, 0)])
-- test_segments
#guard returns (onPoly (five.take 4) true Polyline.segments) fun s =>
  samePts (s.map Prod.fst) (five.take 4) && samePts (s.map Prod.snd) [pt 1 0 0, pt 1 1 0, pt 1 2 0, pt 0 0 0]
-- test_segment_vectors
#guard returns (onPoly (five.take 4) true Polyline.segmentVectors) (samePts · [pt 1 0 0, pt 0 1 0, pt 0 1 0, pt (-1) (-2) 0])
-- test_length_of_empty_polyline
#guard [true, false].all fun c => returns (Polyline.new (α := Float) .none c >>= Polyline.totalLength) (· == 0)

/-- `partition_by_length` on a copy: the vertices, the edges of a new polyline on them, and the indices -/
def partitions (ps : List (V3 Float)) (closed : Bool) (len : Float) (expected : List (V3 Float)) (idx : List ℕ) : Bool :=
  returns (onPoly ps closed fun p => do
      let q ← p.copy
      let (q, r) := q.partitionByLength len
      let i ← r
      let e ← Polyline.new (rowsOf expected) closed
      pure (q, i, e)) fun r => closePts (r.1.v.getD []) expected && r.1.e == r.2.2.e && r.2.1 == idx

-- test_partition_by_length_noop, test_partition_by_length_degenerate
#guard partitions five false 1 five [0, 1, 2, 3, 4]
#guard partitions [pt 0 0 0, pt 1 0 0, pt 1 0 0] false 1 [pt 0 0 0, pt 1 0 0, pt 1 0 0] [0, 1, 2]
-- test_partition_by_length_divide_by_two
#guard [0.99, 0.75, 0.5].all fun l => partitions five false l
  [pt 0 0 0, pt 0.5 0 0, pt 1 0 0, pt 1 0.5 0, pt 1 1 0, pt 1 1.5 0, pt 1 2 0, pt 1 2.5 0, pt 1 3 0] [0, 2, 4, 6, 8]
-- test_partition_length_divide_by_five
#guard [0.2, 0.24].all fun l => partitions five false l ([0, 0.2, 0.4, 0.6, 0.8].map (pt · 0 0) ++
  [0.0, 0.2, 0.4, 0.6, 0.8, 1.0, 1.2, 1.4, 1.6, 1.8, 2.0, 2.2, 2.4, 2.6, 2.8, 3.0].map (pt 1 · 0)) [0, 5, 10, 15, 20]
-- test_partition_by_length_divide_some_leave_some
#guard [2.0, 2.99].all fun l => partitions (six.take 5) false l [pt 0 0 0, pt 1 0 0, pt 1 1 0, pt 1 3 0, pt 1 5 0, pt 1 7 0, pt 1 8 0] [0, 1, 2, 5, 6]
-- test_partition_by_length_closed
#guard [2.0, 2.5, 2.6].all fun l => partitions six true l
  [pt 0 0 0, pt 1 0 0, pt 1 1 0, pt 1 3 0, pt 1 5 0, pt 1 7 0, pt 1 8 0, pt 0 8 0, pt 0 6 0, pt 0 4 0, pt 0 2 0] [0, 1, 2, 5, 6, 7]
-- test_flip
#guard returns (onPoly six true fun p => .ok p.flip.1.v) fun v => v.any (samePts · six.reverse)
-- test_reindexed
#guard returns (onPoly six true fun p => do
    let (q, m) ← p.reindexed 5
    let s ← p.segments
    let t ← q.segments
    let s' ← m.mapM (pyIndex s)
    pure (q.v.getD [], s', t)) fun r =>
  samePts r.1 [pt 0 8 0, pt 0 0 0, pt 1 0 0, pt 1 1 0, pt 1 7 0, pt 1 8 0] && samePts (r.2.1.map Prod.fst) (r.2.2.map Prod.fst) &&
    samePts (r.2.1.map Prod.snd) (r.2.2.map Prod.snd)

/-- `cut_by_plane` gives an open polyline on these points -/
def cuts (ps : List (V3 Float)) (closed : Bool) (n : V3 Float) (expected : List (V3 Float)) : Bool :=
  returns (onPoly ps closed fun p => do
      let pl ← Plane.mk' (pt 0 7.5 0) n
      p.cutByPlane pl) fun q => !q.closed && closePts (q.v.getD []) expected

-- test_cut_by_plane_closed
#guard cuts six true (pt 0 1 0) [pt 1 7.5 0, pt 1 8 0, pt 0 8 0, pt 0 7.5 0]
#guard cuts six true (pt 0 (-1) 0) [pt 0 7.5 0, pt 0 0 0, pt 1 0 0, pt 1 1 0, pt 1 7 0, pt 1 7.5 0]
-- test_cut_by_plane_open
#guard cuts (six.take 5) false (pt 0 1 0) [pt 1 7.5 0, pt 1 8 0]
#guard cuts (six.take 5) false (pt 0 (-1) 0) [pt 0 0 0, pt 1 0 0, pt 1 1 0, pt 1 7 0, pt 1 7.5 0]

end Blmath.Tests
