import Verif.Proofs.Mirror
import Verif.Base.F64

/-!
C126.  Mirror images: reversing axes and exchanging the x and y axes moves the results exactly, in every arithmetic with the
laws `Spec.Signs`.  Rounded arithmetic has them; exchanging the y and z axes is another matter.
-/

namespace Blmath.Props
open Blmath Blmath.Geometry Blmath.Spec Blmath.Proofs Blmath.Vx

/-! ### the arithmetics -/

/-- exact numbers -/
theorem C126_exact : Signs ℝ := MI.signs_real

/-- numbers with infinities and NaN -/
theorem C126_special : Signs Fl := MI.signs_fl

/-- rounded numbers, for every rounding that treats both signs alike -/
theorem C126_rounded {rnd : ℝ → ℝ} (ho : ∀ x, rnd (-x) = -rnd x) : Signs (Rd rnd) := MI.signs_rd ho

/-- rounding to 53 bits does -/
theorem C126_53_bits (x : ℝ) : rnd53 (-x) = -rnd53 x := rnd53_neg x

section
variable {α : Type} [Num α] (hl : Signs α) (w : List Flip)
include hl

/-! ### vectors -/

/-- vectors move along, and numbers stay; cross products are reversed by an odd number of reflections -/
theorem C126_vectors (t : α) (u v : V3 α) :
    moved w u + moved w v = moved w (u + v) ∧ moved w u - moved w v = moved w (u - v) ∧
    V3.smul t (moved w v) = moved w (V3.smul t v) ∧ V3.dot (moved w u) (moved w v) = V3.dot u v ∧
    V3.cross (moved w u) (moved w v) = handed w (moved w (V3.cross u v)) ∧
    V3.norm (moved w v) = V3.norm v ∧ normalize3 (moved w v) = moved w (normalize3 v) ∧
    proj3 (moved w u) (moved w v) = moved w (proj3 u v) ∧ reject3 (moved w u) (moved w v) = moved w (reject3 u v) := by
  have h := MI.moved_exact hl w
  have hp : proj3 (moved w u) (moved w v) = moved w (proj3 u v) := by
    unfold proj3
    rw [MI.normalize h, h.dot, h.smul]
  refine ⟨h.add u v, h.sub u v, h.smul t v, h.dot u v, MI.moved_cross hl w u v, MI.norm h v, MI.normalize h v, hp, ?_⟩
  unfold reject3
  rw [hp, h.sub]

/-- angles -/
theorem C126_angle [Trig α] (u v : V3 α) : angle (moved w u) (moved w v) = angle u v := by
  have h := MI.moved_exact hl w
  unfold angle
  rw [MI.normalize h, MI.normalize h, h.dot]

/-! ### planes -/

/-- distances and projections -/
theorem C126_plane (pl : Plane α) (p : V3 α) :
    (Plane.moved w pl).signedDistance1 (moved w p) = pl.signedDistance1 p ∧
    (Plane.moved w pl).projectPoint (moved w p) = moved w (pl.projectPoint p) ∧
    (Plane.moved w pl).canonicalPoint = moved w pl.canonicalPoint := by
  have h := MI.moved_exact hl w
  have hd := MI.sdist h pl p
  refine ⟨hd, ?_, ?_⟩
  · show moved w p - V3.smul ((MI.pimg (moved w) pl).signedDistance1 (moved w p)) (moved w pl.n) = _
    rw [hd, h.smul, h.sub]
    rfl
  · unfold Plane.canonicalPoint Plane.moved
    rw [h.dot, h.smul]

/-- the points in front -/
theorem C126_front (pl : Plane α) (ps : List (V3 α)) (inverted : Bool) :
    (Plane.moved w pl).sign (ps.map (moved w)) = pl.sign ps ∧
    (Plane.moved w pl).indicesInFront (ps.map (moved w)) inverted = pl.indicesInFront ps inverted ∧
    (Plane.moved w pl).pointsInFront (ps.map (moved w)) inverted =
      (pl.pointsInFront ps inverted).map (List.map (moved w)) := by
  have h := MI.moved_exact hl w
  have hsg : (Plane.moved w pl).sign (ps.map (moved w)) = pl.sign ps := MI.signs h pl ps
  have hi : (Plane.moved w pl).indicesInFront (ps.map (moved w)) inverted = pl.indicesInFront ps inverted := by
    unfold Plane.indicesInFront Plane.frontMask
    rw [hsg]
  refine ⟨hsg, hi, ?_⟩
  unfold Plane.pointsInFront
  rw [hi]
  apply MO.mapM_map
  intro i _
  exact MO.pyIndex_map _ _ _

/-- crossings of lines and segments -/
theorem C126_crossings (pl : Plane α) (a b : V3 α) :
    (Plane.moved w pl).lineXsection (moved w a) (moved w b) = (pl.lineXsection a b).map (moved w) ∧
    (Plane.moved w pl).lineSegmentXsection (moved w a) (moved w b) = (pl.lineSegmentXsection a b).map (moved w) ∧
    (Plane.moved w pl).lineXsectionsRow (moved w a) (moved w b) =
      (moved w (pl.lineXsectionsRow a b).1, (pl.lineXsectionsRow a b).2) ∧
    (Plane.moved w pl).lineSegmentXsectionsRow (moved w a) (moved w b) =
      (moved w (pl.lineSegmentXsectionsRow a b).1, (pl.lineSegmentXsectionsRow a b).2) := by
  have h := MI.moved_exact hl w
  exact ⟨MI.line h pl a b, MI.segment h pl a b, MI.lineRow h pl a b, MI.segRow h pl a b⟩

/-- the plane through three points: an odd number of reflections makes it face the other way -/
theorem C126_from_points (p1 p2 p3 : V3 α) :
    Plane.fromPoints (moved w p1) (moved w p2) (moved w p3) =
      (Plane.fromPoints p1 p2 p3).map fun pl => ⟨moved w pl.r0, handed w (moved w pl.n)⟩ := by
  have h := MI.moved_exact hl w
  have hc := MI.cross_exact hl w
  unfold Plane.fromPoints Plane.mk'
  simp only [h.sub, MI.moved_cross hl]
  have ha : ∀ x t : α, closeToZero (-x) t = closeToZero x t := by
    intro x t
    unfold closeToZero
    rw [hl.abs]
  have hz : ∀ (w : List Flip) (v : V3 α) (t : α), almostZero (moved w v) t = almostZero v t := by
    intro w v t
    induction w with
    | nil => rfl
    | cons f w ih =>
      rw [← ih]
      show almostZero (f.act (moved w v)) t = _
      cases f <;> simp only [almostZero, Flip.act, ha]
      rw [Bool.and_comm (closeToZero (moved w v).y t)]
  have hz2 : ∀ (v : V3 α) (t : α), almostZero (handed w v) t = almostZero v t := by
    intro v t
    unfold handed
    split
    · rfl
    · exact hz [.x, .y, .z] v t
  rw [hz2, hz]
  split
  · rfl
  · exact congrArg Except.ok (Plane.ext rfl (MI.normalize hc _))

/-! ### meshes -/

/-- the sections of a mesh, for every order of the choices left open -/
theorem C126_mesh_xsections (ver : PyVer) (pk : ℕ → Picker) (ko : ℕ → KeyOrder) (pl : Plane α) (m : Mesh α)
    (nbh : Option (V3 α × List (V3 α))) :
    (Plane.moved w pl).meshXsections ver pk ko (Mesh.image (moved w) m)
        (nbh.map fun n => (moved w n.1, n.2.map (moved w))) =
      (pl.meshXsections ver pk ko m nbh).map (List.map (Section.image (moved w))) :=
  MI.meshXsections_map (MI.moved_exact hl w) pl ver pk ko m nbh

/-! ### polylines -/

/-- lengths -/
theorem C126_length (p : Polyline α) :
    (Polyline.image (moved w) p).segmentLengths = p.segmentLengths ∧
    (Polyline.image (moved w) p).totalLength = p.totalLength :=
  ⟨MI.segmentLengths_map (MI.moved_exact hl w) p, MI.totalLength_map (MI.moved_exact hl w) p⟩

/-- `partition_by_length` -/
theorem C126_partition_by_length (p : Polyline α) (l : α) :
    (Polyline.image (moved w) p).partitionByLength l =
      (Polyline.image (moved w) (p.partitionByLength l).1, (p.partitionByLength l).2) :=
  MI.partitionByLength_map (MI.moved_exact hl w) p l

/-- `intersect_plane` -/
theorem C126_intersect_plane (p : Polyline α) (pl : Plane α) :
    (Polyline.image (moved w) p).intersectPlane (Plane.moved w pl) =
      (p.intersectPlane pl).map fun x => (x.1.map (moved w), x.2) :=
  MI.intersectPlane_map (MI.moved_exact hl w) pl p

/-- `cut_by_plane`, errors included -/
theorem C126_cut_by_plane (p : Polyline α) (pl : Plane α) :
    (Polyline.image (moved w) p).cutByPlane (Plane.moved w pl) = (p.cutByPlane pl).map (Polyline.image (moved w)) :=
  MI.cutByPlane_map (MI.moved_exact hl w) pl p

/-! ### segments, apex, triangles -/

/-- dividing segments -/
theorem C126_partition (v : List (V3 α)) (k : ℕ) (a b : V3 α) (n : Option ℤ) (e : Bool) :
    partition (α := α) (v.map (moved w)) k = (partition (α := α) v k).map (List.map (moved w)) ∧
    partitionSegment (α := α) (moved w a) (moved w b) n e =
      (partitionSegment (α := α) a b n e).map (List.map (moved w)) ∧
    partitionSegmentOld (α := α) (moved w a) (moved w b) n =
      (partitionSegmentOld (α := α) a b n).map (List.map (moved w)) := by
  have h := MI.moved_exact hl w
  exact ⟨MI.partition_map h v k, MI.partitionSegment_map h a b n e, MI.partitionOld_map h a b n⟩

/-- `line_intersect3` -/
theorem C126_line_intersect3 (p0 q0 p1 q1 : V3 α) :
    lineIntersect3 (moved w p0) (moved w q0) (moved w p1) (moved w q1) = (lineIntersect3 p0 q0 p1 q1).map (moved w) := by
  have h := MI.moved_exact hl w
  have hc := MI.cross_exact hl w
  have hs : ∀ a b : V3 α, allEq3 (moved w a) (moved w b) = allEq3 a b := h.same
  have hs2 : ∀ a b : V3 α, allEq3 (handed w (moved w a)) (handed w (moved w b)) = allEq3 a b := hc.same
  have hn : ∀ a : V3 α, V3.norm (handed w (moved w a)) = V3.norm a := MI.norm hc
  have hd : ∀ (a : V3 α) (t : α), V3.sdiv (handed w (moved w a)) t = handed w (moved w (V3.sdiv a t)) := hc.sdiv
  unfold lineIntersect3
  simp only [h.sub, MI.moved_cross hl, hn, hd, hs, hs2, h.smul, h.add]
  split
  · rfl
  · split
    · rfl
    · split <;> rfl

/-- `apex`, `farthest`, `inflection_points` -/
theorem C126_apex (np : NpGradient) (ps : List (V3 α)) (axis span a : V3 α) :
    apex (ps.map (moved w)) (moved w axis) = (apex ps axis).map (moved w) ∧
    farthest (moved w a) (ps.map (moved w)) = (farthest a ps).map (fun x => (moved w x.1, x.2)) ∧
    inflectionPoints np (ps.map (moved w)) (moved w axis) (moved w span) =
      (inflectionPoints np ps axis span).map (List.map (moved w)) := by
  have h := MI.moved_exact hl w
  exact ⟨MI.apex_map h ps axis, MI.farthest_map h a ps, MI.inflection_map h np ps axis span⟩

/-- surface normals: reversed by an odd number of reflections -/
theorem C126_surface_normal (p1 p2 p3 : V3 α) (normalized : Bool) :
    surfaceNormal (moved w p1) (moved w p2) (moved w p3) normalized =
      handed w (moved w (surfaceNormal p1 p2 p3 normalized)) := by
  have h := MI.moved_exact hl w
  have hc := MI.cross_exact hl w
  unfold surfaceNormal
  simp only [h.sub, MI.moved_cross hl]
  split
  · exact MI.normalize hc _
  · rfl

/-- barycentric coordinates, degenerate triangles included -/
theorem C126_barycentric (p q u v : V3 α) :
    barycentric (moved w p) (moved w q) (moved w u) (moved w v) = barycentric p q u v := by
  have h := MI.moved_exact hl w
  have hc : ∀ a b : V3 α, V3.dot (handed w (moved w a)) (handed w (moved w b)) = V3.dot a b := (MI.cross_exact hl w).dot
  unfold barycentric
  simp only [h.sub, MI.moved_cross hl, hc]

end

/-! ### another exchange -/

/-- exchanging the y and z axes is not exact: in doubles, `apex` chooses the other of two points -/
theorem C126_not_yz : ∃ a b axis : V3 F64,
    let swap (v : V3 F64) : V3 F64 := ⟨v.x, v.z, v.y⟩
    apex [a, b] axis = .ok a ∧ apex [swap a, swap b] (swap axis) = .ok (swap b) ∧ a ≠ b := by
  refine ⟨⟨.zero false, .num (1 / 2), .zero false⟩, ⟨.num 1, .num (2 ^ 53), .num (-2 ^ 53)⟩, ⟨.num 1, .num 1, .num 1⟩, ?_⟩
  decide +kernel

/-! ### a case -/

/-- 53-bit rounding, a quarter turn around the z axis: exchange and reverse -/
example : Signs (Rd rnd53) ∧ (moved [.x, .xy] (⟨1, 2, 3⟩ : V3 ℝ)) = ⟨-2, 1, 3⟩ ∧
    handed [.x, .xy] (⟨1, 2, 3⟩ : V3 ℝ) = ⟨1, 2, 3⟩ :=
  ⟨C126_rounded C126_53_bits, rfl, rfl⟩

end Blmath.Props
