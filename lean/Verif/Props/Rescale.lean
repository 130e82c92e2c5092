import Verif.Proofs.Rescale

/-!
C125.  Changing the unit of length: on inputs in the new unit the functions return their results in the new unit, exactly, in
every arithmetic with the laws `Spec.Rescaling`.  These are the exact numbers and the numbers with infinities and NaN, for
every positive factor, and binary floating point (no overflow or underflow), for every power of two.
-/

namespace Blmath.Props
open Blmath Blmath.Geometry Blmath.Spec Blmath.Proofs Blmath.Vx

/-! ### the arithmetics -/

/-- exact numbers: every positive factor -/
theorem C125_exact {c : ℝ} (hc : 0 < c) : Rescaling (byFactor c) := RU.byFactor_ok hc

/-- with infinities and NaN: every positive factor -/
theorem C125_special {c : ℝ} (hc : 0 < c) : Rescaling (byFactorFl c) := RU.byFactorFl_ok hc

/-- rounded numbers: every power of two -/
theorem C125_rounded {rnd : ℝ → ℝ} (hr : Binary rnd) (m : ℤ) : Rescaling (byPower (rnd := rnd) m) := RU.byPower_ok hr m

/-- rounding to 53 bits treats all powers of two alike -/
theorem C125_53_bits : Binary rnd53 := RU.rnd53_binary

/-- but no factor other than a power of two need be exact: 3 times a stored number may not be stored -/
theorem C125_not_three : ∃ x : ℝ, rnd53 x = x ∧ rnd53 (3 * x) ≠ 3 * x := by
  have hr := rounding_rnd53
  refine ⟨((2 ^ 52 + 1 : ℤ) : ℝ) * (2 : ℝ) ^ (-52 : ℤ), hr.grid _ _ (by norm_num), ?_⟩
  intro h
  have hx : (3 : ℝ) * (((2 ^ 52 + 1 : ℤ) : ℝ) * (2 : ℝ) ^ (-52 : ℤ)) = 3 + 3 / 2 ^ 52 := by
    rw [zpow_neg]; norm_num
  rw [hx] at h
  unfold rnd53 at h
  rw [if_neg (by positivity)] at h
  have hl : Int.log 2 |(3 : ℝ) + 3 / 2 ^ 52| = 1 := by
    rw [abs_of_pos (by positivity), Int.log_of_one_le_right 2 (by norm_num)]
    have : ⌊(3 : ℝ) + 3 / 2 ^ 52⌋₊ = 3 := by
      rw [Nat.floor_eq_iff (by positivity)]
      constructor <;> norm_num
    rw [this]
    have : Nat.log 2 3 = 1 := by rw [Nat.log_eq_iff (by norm_num)]; norm_num
    rw [this]; rfl
  have hu : ulp ((3 : ℝ) + 3 / 2 ^ 52) = 1 / 2 ^ 51 := by
    unfold ulp
    rw [hl]
    rw [show (1 : ℤ) - 52 = -51 by norm_num, zpow_neg]
    norm_num
  rw [hu] at h
  generalize nearestEven (((3 : ℝ) + 3 / 2 ^ 52) / (1 / 2 ^ 51)) = k at h
  have h2 : (2 * k : ℝ) = 3 * 2 ^ 52 + 3 := by
    have : (k : ℝ) = (3 + 3 / 2 ^ 52) * 2 ^ 51 := by rw [← h]; ring
    rw [this]; norm_num
  have h3 : 2 * k = 3 * 2 ^ 52 + 3 := by exact_mod_cast h2
  omega

section
variable {α : Type} [Num α] {s : ℤ → α → α} (hs : Rescaling s)
include hs

/-! ### vectors -/

/-- dot products, cross products and lengths have the units they should; directions have none -/
theorem C125_vectors (j k : ℤ) (u v : V3 α) :
    V3.dot (inUnit s j u) (inUnit s k v) = s (j + k) (V3.dot u v) ∧
    V3.cross (inUnit s j u) (inUnit s k v) = inUnit s (j + k) (V3.cross u v) ∧
    V3.norm (inUnit s k v) = s k (V3.norm v) ∧
    normalize3 (inUnit s k v) = normalize3 v ∧
    proj3 (inUnit s j u) (inUnit s k v) = inUnit s j (proj3 u v) ∧
    reject3 (inUnit s j u) (inUnit s k v) = inUnit s j (reject3 u v) := by
  have hp : proj3 (inUnit s j u) (inUnit s k v) = inUnit s j (proj3 u v) := by
    unfold proj3
    rw [RU.normalize hs, RU.dotr hs, RU.vsmull hs]
  refine ⟨RU.dot hs j k u v, RU.cross hs j k u v, RU.norm hs k v, RU.normalize hs k v, hp, ?_⟩
  unfold reject3
  rw [hp, RU.vsub hs]

/-- vectors of any width, and stacks of them -/
theorem C125_widths (k : ℤ) (xs : List α) :
    normL (xs.map (s k)) = s k (normL xs) ∧ normalizeVec (xs.map (s k)) = normalizeVec xs := by
  have h : ∀ xs : List α, normL (xs.map (s k)) = s k (normL xs) := by
    intro xs
    unfold normL dotL
    have : List.zipWith (· * ·) (xs.map (s k)) (xs.map (s k)) = (List.zipWith (· * ·) xs xs).map (s (k + k)) := by
      rw [List.zipWith_map, List.map_zipWith]
      simp only [hs.mul]
    rw [this, RU.sum hs, hs.sqrt]
  refine ⟨h xs, ?_⟩
  unfold normalizeVec
  rw [h, List.map_map]
  apply List.map_congr_left
  intro x _
  exact RU.divs hs k x _

/-- angles do not depend on the unit -/
theorem C125_angle [Trig α] (i j k : ℤ) (u v look : V3 α) :
    angle (inUnit s j u) (inUnit s k v) = angle u v ∧
    signedAngle (inUnit s j u) (inUnit s k v) (inUnit s i look) = signedAngle u v look := by
  have h : angle (inUnit s j u) (inUnit s k v) = angle u v := by
    unfold angle
    rw [RU.normalize hs, RU.normalize hs]
  refine ⟨h, ?_⟩
  unfold signedAngle
  rw [h, RU.cross hs, RU.dot hs, RU.sign hs]

/-! ### planes -/

/-- distances, projections and the points named by a plane -/
theorem C125_plane (pl : Plane α) (p : V3 α) :
    (Plane.inUnit s pl).signedDistance1 (inUnit s 1 p) = s 1 (pl.signedDistance1 p) ∧
    (Plane.inUnit s pl).projectPoint (inUnit s 1 p) = inUnit s 1 (pl.projectPoint p) ∧
    (Plane.inUnit s pl).canonicalPoint = inUnit s 1 pl.canonicalPoint ∧
    (Plane.inUnit s pl).flipped = pl.flipped.map (Plane.inUnit s) := by
  refine ⟨RU.sdist hs pl p, ?_, ?_, ?_⟩
  · unfold Plane.projectPoint
    rw [RU.sdist hs]
    simp only [Plane.inUnit]
    rw [RU.vsmull hs, RU.vsub hs]
  · unfold Plane.canonicalPoint Plane.inUnit
    rw [RU.dotr hs, RU.vsmull hs]
  · unfold Plane.flipped Plane.mk' Plane.inUnit
    simp only
    split <;> rfl

/-- the points in front -/
theorem C125_front (pl : Plane α) (ps : List (V3 α)) (inverted : Bool) :
    (Plane.inUnit s pl).sign (ps.map (inUnit s 1)) = pl.sign ps ∧
    (Plane.inUnit s pl).indicesInFront (ps.map (inUnit s 1)) inverted = pl.indicesInFront ps inverted ∧
    (Plane.inUnit s pl).pointsInFront (ps.map (inUnit s 1)) inverted =
      (pl.pointsInFront ps inverted).map (List.map (inUnit s 1)) := by
  have h : (Plane.inUnit s pl).indicesInFront (ps.map (inUnit s 1)) inverted = pl.indicesInFront ps inverted := by
    unfold Plane.indicesInFront Plane.frontMask
    rw [RU.signs hs]
  refine ⟨RU.signs hs pl ps, h, ?_⟩
  unfold Plane.pointsInFront
  rw [h]
  apply MO.mapM_map
  intro i _
  exact MO.pyIndex_map _ _ _

/-- a line or segment meets the plane in the same point or not at all; the stacked versions give the same mask -/
theorem C125_crossings (pl : Plane α) (a b : V3 α) :
    (Plane.inUnit s pl).lineXsection (inUnit s 1 a) (inUnit s 1 b) = (pl.lineXsection a b).map (inUnit s 1) ∧
    (Plane.inUnit s pl).lineSegmentXsection (inUnit s 1 a) (inUnit s 1 b) =
      (pl.lineSegmentXsection a b).map (inUnit s 1) ∧
    (Plane.inUnit s pl).lineXsectionsRow (inUnit s 1 a) (inUnit s 1 b) =
      (inUnit s 1 (pl.lineXsectionsRow a b).1, (pl.lineXsectionsRow a b).2) ∧
    (Plane.inUnit s pl).lineSegmentXsectionsRow (inUnit s 1 a) (inUnit s 1 b) =
      (inUnit s 1 (pl.lineSegmentXsectionsRow a b).1, (pl.lineSegmentXsectionsRow a b).2) :=
  ⟨RU.line hs pl a b, RU.segment hs pl a b, RU.lineRow hs pl a b, RU.segRow hs pl a b⟩

/-- the plane through three points, as long as the absolute tolerance of the constructor decides alike -/
theorem C125_from_points (p1 p2 p3 : V3 α)
    (h : almostZero (inUnit s (1 + 1) (V3.cross (p2 - p1) (p3 - p1))) (defaultAtol : α) =
      almostZero (V3.cross (p2 - p1) (p3 - p1)) (defaultAtol : α)) :
    Plane.fromPoints (inUnit s 1 p1) (inUnit s 1 p2) (inUnit s 1 p3) = (Plane.fromPoints p1 p2 p3).map (Plane.inUnit s) := by
  unfold Plane.fromPoints Plane.mk'
  simp only [RU.vsub hs, RU.cross hs, h, RU.normalize hs]
  split <;> rfl

/-! ### meshes -/

/-- the sections of a mesh: the same components, closed or open alike, for every order of the choices left open, and with a
neighborhood the same one is chosen -/
theorem C125_mesh_xsections (ver : PyVer) (pk : ℕ → Picker) (ko : ℕ → KeyOrder) (pl : Plane α) (m : Mesh α)
    (nbh : Option (V3 α × List (V3 α))) :
    (Plane.inUnit s pl).meshXsections ver pk ko (Mesh.image (inUnit s 1) m)
        (nbh.map fun n => (inUnit s 1 n.1, n.2.map (inUnit s 1))) =
      (pl.meshXsections ver pk ko m nbh).map (List.map (Section.image (inUnit s 1))) :=
  RU.meshXsections_map hs pl ver pk ko m nbh

/-- `mesh_xsection` -/
theorem C125_mesh_xsection (ver : PyVer) (pk : ℕ → Picker) (ko : ℕ → KeyOrder) (pl : Plane α) (m : Mesh α)
    (nbh : Option (V3 α × List (V3 α))) :
    (Plane.inUnit s pl).meshXsection ver pk ko (Mesh.image (inUnit s 1) m)
        (nbh.map fun n => (inUnit s 1 n.1, n.2.map (inUnit s 1))) =
      (pl.meshXsection ver pk ko m nbh).map (Option.map (Section.image (inUnit s 1))) := by
  unfold Plane.meshXsection
  rw [RU.meshXsections_map hs]
  apply MO.bind_map
  intro cs _
  rw [List.length_map]
  split
  · rfl
  · simp [Except.map, Section.image, List.flatMap_map, List.map_flatMap]

/-! ### polylines -/

/-- lengths -/
theorem C125_length (p : Polyline α) :
    (Polyline.image (inUnit s 1) p).segmentLengths = p.segmentLengths.map (List.map (s 1)) ∧
    (Polyline.image (inUnit s 1) p).totalLength = p.totalLength.map (s 1) :=
  ⟨RU.segmentLengths_map hs p, RU.totalLength_map hs p⟩

/-- `partition_by_length` with the limit in the new unit: the same indices, the same object in the new unit -/
theorem C125_partition_by_length (p : Polyline α) (l : α) :
    (Polyline.image (inUnit s 1) p).partitionByLength (s 1 l) =
      (Polyline.image (inUnit s 1) (p.partitionByLength l).1, (p.partitionByLength l).2) :=
  RU.partitionByLength_map hs p l

/-- `intersect_plane` -/
theorem C125_intersect_plane (p : Polyline α) (pl : Plane α) :
    (Polyline.image (inUnit s 1) p).intersectPlane (Plane.inUnit s pl) =
      (p.intersectPlane pl).map fun x => (x.1.map (inUnit s 1), x.2) :=
  RU.intersectPlane_map hs pl p

/-- `cut_by_plane`: the same outcome, errors included -/
theorem C125_cut_by_plane (p : Polyline α) (pl : Plane α) :
    (Polyline.image (inUnit s 1) p).cutByPlane (Plane.inUnit s pl) =
      (p.cutByPlane pl).map (Polyline.image (inUnit s 1)) :=
  RU.cutByPlane_map hs pl p

/-! ### segments, apex, triangles, boxes -/

/-- dividing segments -/
theorem C125_partition (v : List (V3 α)) (k : ℕ) (a b : V3 α) (n : Option ℤ) (e : Bool) :
    partition (α := α) (v.map (inUnit s 1)) k = (partition (α := α) v k).map (List.map (inUnit s 1)) ∧
    partitionSegment (α := α) (inUnit s 1 a) (inUnit s 1 b) n e =
      (partitionSegment (α := α) a b n e).map (List.map (inUnit s 1)) ∧
    partitionSegmentOld (α := α) (inUnit s 1 a) (inUnit s 1 b) n =
      (partitionSegmentOld (α := α) a b n).map (List.map (inUnit s 1)) :=
  ⟨RU.partition_map hs v k, RU.partitionSegment_map hs a b n e, RU.partitionOld_map hs a b n⟩

/-- `line_intersect3` -/
theorem C125_line_intersect3 (p0 q0 p1 q1 : V3 α) :
    lineIntersect3 (inUnit s 1 p0) (inUnit s 1 q0) (inUnit s 1 p1) (inUnit s 1 q1) =
      (lineIntersect3 p0 q0 p1 q1).map (inUnit s 1) :=
  RU.lineIntersect3_map hs p0 q0 p1 q1

/-- `apex`, `farthest` and `inflection_points` choose the same points, whatever the units of the axes -/
theorem C125_apex (np : NpGradient) (j k : ℤ) (ps : List (V3 α)) (axis span a : V3 α) :
    apex (ps.map (inUnit s 1)) (inUnit s j axis) = (apex ps axis).map (inUnit s 1) ∧
    farthest (inUnit s 1 a) (ps.map (inUnit s 1)) = (farthest a ps).map (fun x => (inUnit s 1 x.1, x.2)) ∧
    inflectionPoints np (ps.map (inUnit s 1)) (inUnit s j axis) (inUnit s k span) =
      (inflectionPoints np ps axis span).map (List.map (inUnit s 1)) :=
  ⟨RU.apex_map hs j ps axis, RU.farthest_map hs a ps, RU.inflection_map hs np j k ps axis span⟩

/-- surface normals: unit ones are the same, the others are areas -/
theorem C125_surface_normal (p1 p2 p3 : V3 α) :
    surfaceNormal (inUnit s 1 p1) (inUnit s 1 p2) (inUnit s 1 p3) = surfaceNormal p1 p2 p3 ∧
    surfaceNormal (inUnit s 1 p1) (inUnit s 1 p2) (inUnit s 1 p3) false = inUnit s 2 (surfaceNormal p1 p2 p3 false) := by
  unfold surfaceNormal
  simp only [RU.vsub hs, RU.cross hs, RU.normalize hs, if_true, Bool.false_eq_true, if_false]
  exact ⟨trivial, rfl⟩

/-- barycentric coordinates do not depend on the unit, for triangles with a nonzero computed area -/
theorem C125_barycentric (p q u v : V3 α)
    (h : Num.eq (V3.dot (V3.cross u v) (V3.cross u v)) (Num.lit 0) = false) :
    barycentric (inUnit s 1 p) (inUnit s 1 q) (inUnit s 1 u) (inUnit s 1 v) = barycentric p q u v := by
  unfold barycentric
  simp only [RU.vsub hs, RU.cross hs, RU.dot hs, RU.eq0 hs, h, Bool.false_eq_true, if_false]
  have hd : ∀ (k : ℤ) (x y : α), s k x * (Num.lit 1 / s k y) = x * (Num.lit 1 / y) := by
    intro k x y
    have h1 := hs.div 0 k (Num.lit 1) y
    rw [hs.none] at h1
    rw [h1, hs.mul, show k + (0 - k) = 0 by ring, hs.none]
  simp only [hd]

/-- boxes: the same checks, and sizes in their units -/
theorem C125_box (o sh : List α) (kind : ElemKind) :
    Box.mk' (o.map (s 1)) (sh.map (s 1)) kind =
      (Box.mk' o sh kind).map fun b => ⟨inUnit s 1 b.origin, inUnit s 1 b.shape, b.shapeKind⟩ := by
  have hn : ∀ xs : List α, asNumeric3 (xs.map (s 1)) = (asNumeric3 xs).map (inUnit s 1) := by
    intro xs
    unfold asNumeric3
    have : ((xs.map (s 1)).any fun x => npIsNan x || npIsInf x) = (xs.any fun x => npIsNan x || npIsInf x) := by
      rw [List.any_map]
      congr 1
      funext x
      simp [RU.isNan hs, RU.isInf hs]
    rw [this]
    split
    · rfl
    · match xs with
      | [] => rfl
      | [_] => rfl
      | [_, _] => rfl
      | [_, _, _] => rfl
      | _ :: _ :: _ :: _ :: _ => rfl
  unfold Box.mk'
  rw [hn, hn]
  apply MO.bind_map
  intro a _
  apply MO.bind_map
  intro b _
  simp only [inUnit, RU.lt0 hs]
  split <;> rfl

/-- the sizes and points of a box (float shapes) -/
theorem C125_box_sizes (o sh : V3 α) :
    let b : Box α := ⟨o, sh, .float⟩
    let b' : Box α := ⟨inUnit s 1 o, inUnit s 1 sh, .float⟩
    b'.volume = s 3 b.volume ∧ b'.surfaceArea = s 2 b.surfaceArea ∧ b'.centerPoint = inUnit s 1 b.centerPoint ∧
    b'.floorPoint = inUnit s 1 b.floorPoint ∧ b'.ranges = b.ranges.map (fun r => (s 1 r.1, s 1 r.2)) ∧
    ∀ ver, b'.midX ver = s 1 (b.midX ver) ∧ b'.midY ver = s 1 (b.midY ver) ∧ b'.midZ ver = s 1 (b.midZ ver) := by
  refine ⟨?_, ?_, ?_, ?_, ?_, ?_⟩
  · simp only [Box.volume, inUnit, hs.mul]; rfl
  · simp only [Box.surfaceArea, inUnit, hs.mul, hs.add, RU.mull hs]; rfl
  · simp only [Box.centerPoint, RU.vsmulr hs, RU.vadd hs]
  · unfold Box.floorPoint
    simp only [inUnit, RU.mull hs]
    apply V3.ext <;> simp only [V3.add_x, V3.add_y, V3.add_z, hs.add]
  · simp only [Box.ranges, inUnit, hs.add, RU.min hs, RU.max hs, List.map]
  · intro ver
    cases ver <;> simp only [Box.midX, Box.midY, Box.midZ, Box.half, inUnit, RU.divr hs, hs.add, and_self]

end

/-! ### what does depend on the unit -/

/-- the tolerance 1e-8 of the constructor is absolute: three points that give a plane do not give one in a unit 2^14 times as
long -/
theorem C125_not_from_points : ∃ p1 p2 p3 : V3 ℝ, (∃ pl, Plane.fromPoints p1 p2 p3 = .ok pl) ∧
    Plane.fromPoints (inUnit (byFactor (1 / 2 ^ 14)) 1 p1) (inUnit (byFactor (1 / 2 ^ 14)) 1 p2)
      (inUnit (byFactor (1 / 2 ^ 14)) 1 p3) = raise .ValueError := by
  refine ⟨⟨0, 0, 0⟩, ⟨1, 0, 0⟩, ⟨0, 1, 0⟩, ?_, ?_⟩
  · refine ⟨_, if_neg ?_⟩
    simp only [almostZero, closeToZero, defaultAtol, V3.cross, V3.sub_x, V3.sub_y, V3.sub_z, npAbs_real', Num.lit_real,
      Bool.and_eq_true, Num.le_real]
    norm_num
  · refine if_pos ?_
    simp only [almostZero, closeToZero, defaultAtol, V3.cross, V3.sub_x, V3.sub_y, V3.sub_z, npAbs_real', Num.lit_real,
      Bool.and_eq_true, Num.le_real, inUnit, byFactor]
    norm_num

/-! ### cases -/

/-- the laws hold of double precision rounding and the change from metres to units of 1/1024 m -/
example : Rescaling (byPower (rnd := rnd53) 10) ∧ inUnit (byFactor 1024) 1 (⟨2, 0, 1⟩ : V3 ℝ) = ⟨2048, 0, 1024⟩ := by
  refine ⟨C125_rounded C125_53_bits 10, ?_⟩
  simp [inUnit, byFactor]
  norm_num

/-- three points and a factor for which the tolerance decides alike -/
example : almostZero (inUnit (byFactor 2) (1 + 1) (V3.cross (⟨1, 0, 0⟩ - ⟨0, 0, 0⟩ : V3 ℝ) (⟨0, 1, 0⟩ - ⟨0, 0, 0⟩))) defaultAtol =
    almostZero (V3.cross (⟨1, 0, 0⟩ - ⟨0, 0, 0⟩ : V3 ℝ) (⟨0, 1, 0⟩ - ⟨0, 0, 0⟩)) defaultAtol := by
  rw [Bool.eq_iff_iff]
  simp only [almostZero, closeToZero, defaultAtol, V3.cross, V3.sub_x, V3.sub_y, V3.sub_z, npAbs_real', Num.lit_real,
    Bool.and_eq_true, Num.le_real, inUnit, byFactor]
  norm_num

/-- a triangle with a nonzero area -/
example : Num.eq (V3.dot (V3.cross (⟨2, 0, 0⟩ : V3 ℝ) ⟨0, 3, 0⟩) (V3.cross ⟨2, 0, 0⟩ ⟨0, 3, 0⟩)) (Num.lit 0) = false := by
  rw [Bool.eq_false_iff, ne_eq, Num.eq_real, Num.lit_real]
  norm_num [V3.dot, V3.cross]

end Blmath.Props
