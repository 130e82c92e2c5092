import Verif.Proofs.Resampling

/-!
C124: putting more points on the segments of a polyline, in particular with `partition_by_length`, before measuring or
cutting it.  `Spec.Finer` says that points of the segments have been added.
-/

namespace Blmath.Props
open Blmath Blmath.Geometry Blmath.Spec Blmath.Proofs Blmath.Proofs.RP Blmath.Numerics

/-- **C124.** `partition_by_length` with a positive limit adds points of the segments, and does nothing else to the
vertices. -/
theorem C124_partition (v : List (V3 ℝ)) (closed : Bool) (hv : v ≠ []) (l : ℝ) (hl : 0 < l) :
    ∃ w, ((poly v closed).partitionByLength l).1 = poly w closed ∧ Finer closed v w :=
  ⟨refined l v closed, by rw [C36_partition v closed hv l hl], finer_refined l v closed hv⟩

/-- **C124.** Adding points keeps the vertices in their order, the first vertex, the last one of an open polyline, and
the total length. -/
theorem C124_same (v w : List (V3 ℝ)) (closed : Bool) (h : Finer closed v w) :
    v.Sublist w ∧ w.head? = v.head? ∧ (closed = false → w.getLast? = v.getLast?) ∧
    (poly w closed).totalLength = (poly v closed).totalLength := by
  rw [(C35_lengths w closed).2, (C35_lengths v closed).2]
  induction h with
  | refl => exact ⟨List.Sublist.refl _, rfl, fun _ => rfl, rfl⟩
  | tail _ h ih =>
    obtain ⟨h1, h2, h3, h4⟩ := ih
    refine ⟨h1.trans (added_mem h), (added_head h).trans h2, fun hc => ?_, by rw [added_length h, h4]⟩
    subst hc
    exact (added_ends h).2.trans (h3 rfl)

/-- **C124.** The apex along an axis is the same point after points have been added. -/
theorem C124_apex (v w : List (V3 ℝ)) (closed : Bool) (h : Finer closed v w) (hv : v ≠ []) (axis : V3 ℝ) :
    (poly w closed).apexOf axis = (poly v closed).apexOf axis := by
  have hw : w ≠ [] := by
    rintro rfl
    exact hv (by simpa using (C124_same v [] closed h).1)
  obtain ⟨i, p, h1, h2⟩ := C44_apex v axis hv
  obtain ⟨j, r, k1, k2⟩ := C44_apex w axis hw
  have : ∃ i, FirstMax (fun q => inner3 q axis) w i p := by
    clear k1 k2 hw
    induction h with
    | refl => exact ⟨i, h2⟩
    | tail _ h ih => exact added_first (convex_inner axis) h ih
  obtain ⟨i', h3⟩ := this
  show apex w axis = apex v axis
  rw [h1, k1, (firstMax_unique h3 k2).2]

/-- **C124.** So is the vertex farthest from a point. -/
theorem C124_farthest (v w : List (V3 ℝ)) (closed : Bool) (h : Finer closed v w) (hv : v ≠ []) (o : V3 ℝ) :
    ∃ p i j, farthest o v = .ok (p, i) ∧ farthest o w = .ok (p, j) := by
  have hw : w ≠ [] := by
    rintro rfl
    exact hv (by simpa using (C124_same v [] closed h).1)
  obtain ⟨i, p, h1, h2⟩ := C44_farthest o v hv
  obtain ⟨j, r, k1, k2⟩ := C44_farthest o w hw
  have : ∃ i, FirstMax (fun q => dist3 o q) w i p := by
    clear k1 k2 hw
    induction h with
    | refl => exact ⟨i, h2⟩
    | tail _ h ih => exact added_first (convex_dist o) h ih
  obtain ⟨i', h3⟩ := this
  exact ⟨p, i, j, h1, by rw [k1, (firstMax_unique h3 k2).2]⟩

/-- **C124.** If none of the vertices, old or added, is on the plane, `intersect_plane` returns the same points in the
same order. -/
theorem C124_intersect (pl : Plane ℝ) (v w : List (V3 ℝ)) (closed : Bool) (h : Finer closed v w)
    (hz : ∀ q ∈ w, ¬ OnPlane pl q) :
    ∃ points edges edges', (poly v closed).intersectPlane pl = .ok (points, edges) ∧
      (poly w closed).intersectPlane pl = .ok (points, edges') := by
  refine ⟨_, _, Plane.flatnonzero ((chainSegs w closed).map (Polyline.edgeMeets pl)), intersectPlane_eq v closed pl, ?_⟩
  rw [intersectPlane_eq]
  have : ((chainSegs w closed).filter (Polyline.edgeMeets pl)).map (Polyline.edgePoint pl) =
      ((chainSegs v closed).filter (Polyline.edgeMeets pl)).map (Polyline.edgePoint pl) := by
    induction h with
    | refl => rfl
    | tail _ h ih =>
      rw [added_points h hz, ih fun q hq => hz q ((added_mem h).subset hq)]
  rw [this]

/-- **C124.** If none of the vertices, old or added, is on the plane, `cut_by_plane` raises the same exception, or
returns the same polyline with points added. -/
theorem C124_cut (pl : Plane ℝ) (hu : UnitNormal pl) (v w : List (V3 ℝ)) (closed : Bool) (h : Finer closed v w)
    (hz : ∀ q ∈ w, ¬ OnPlane pl q) :
    (∀ e, (poly v closed).cutByPlane pl = .error e → (poly w closed).cutByPlane pl = .error e) ∧
    ∀ p, (poly v closed).cutByPlane pl = .ok p →
      ∃ u u', p = poly u false ∧ (poly w closed).cutByPlane pl = .ok (poly u' false) ∧ Finer false u u' := by
  have : CutFiner ((poly v closed).cutByPlane pl) ((poly w closed).cutByPlane pl) := by
    induction h with
    | refl =>
      refine ⟨fun e he => he, fun p hp => ?_⟩
      obtain ⟨u, rfl⟩ := cut_result hu hz hp
      exact ⟨u, u, rfl, hp, .refl⟩
    | tail _ h ih =>
      refine (ih fun q hq => hz q ((added_mem h).subset hq)).trans ?_
      cases closed with
      | false => exact added_cut_open hu h hz
      | true => exact added_cut_closed h hz
  exact this

/-- **C124.** The condition on the added vertices is needed: cutting the segment from height −1 to height 1 works, and
after `partition_by_length` with limit 1, which puts a vertex on the plane, `intersect_plane` returns the point twice and
`cut_by_plane` raises ValueError. -/
theorem C124_vertex_on_plane :
    (poly [⟨0, 0, -1⟩, ⟨0, 0, 1⟩] false).cutByPlane groundPlane = .ok (poly [⟨0, 0, 0⟩, ⟨0, 0, 1⟩] false) ∧
    ((poly [(⟨0, 0, -1⟩ : V3 ℝ), ⟨0, 0, 1⟩] false).partitionByLength 1).1 = poly [⟨0, 0, -1⟩, ⟨0, 0, 0⟩, ⟨0, 0, 1⟩] false ∧
    (poly [⟨0, 0, -1⟩, ⟨0, 0, 0⟩, ⟨0, 0, 1⟩] false).intersectPlane groundPlane =
      .ok ([⟨0, 0, 0⟩, ⟨0, 0, 0⟩], [0, 1]) ∧
    (poly [⟨0, 0, -1⟩, ⟨0, 0, 0⟩, ⟨0, 0, 1⟩] false).cutByPlane groundPlane = .error .ValueError := by
  have hu : UnitNormal groundPlane := by simp [UnitNormal, groundPlane, len3]
  refine ⟨?_, ?_, ?_, ?_⟩
  · refine (cut_open_at (v := [⟨0, 0, -1⟩, ⟨0, 0, 1⟩]) (xs := []) (ys := []) hu rfl ?_ ?_ ?_ ?_ ⟨1 / 2, by norm_num, by norm_num, ?_⟩).1 ?_
    · simp [meetCount, chainSegs, circuit, pairs, Props.Meets, height_ground]
    · simp [Props.Meets, height_ground]
    · rw [height_ground]; norm_num
    · rw [onPlane_iff, height_ground]
    · ext <;> simp [along, vec3]; norm_num
    · rw [height_ground, height_ground]; norm_num
  · rw [C36_partition _ _ (by simp) 1 one_pos]
    have hd : dist3 (⟨0, 0, -1⟩ : V3 ℝ) ⟨0, 0, 1⟩ = 2 := by
      simp only [dist3, vec3, len3]
      rw [show ((0 : ℝ) - 0) ^ 2 + (0 - 0) ^ 2 + (1 - -1) ^ 2 = 2 ^ 2 by norm_num, Real.sqrt_sq (by norm_num)]
    have hp : parts 1 ((⟨0, 0, -1⟩ : V3 ℝ), ⟨0, 0, 1⟩) = 2 := by
      unfold parts
      simp only [hd]
      norm_num
    simp [refined, chainSegs, circuit, pairs, subdivide, hp, cutPoint, List.range_succ, along, vec3]
    norm_num
  · have m1 : Polyline.edgeMeets groundPlane (⟨0, 0, -1⟩, ⟨0, 0, 0⟩) = true := by
      rw [edgeMeets_real]; simp [Props.Meets, height_ground]
    have m2 : Polyline.edgeMeets groundPlane (⟨0, 0, 0⟩, ⟨0, 0, 1⟩) = true := by
      rw [edgeMeets_real]; simp [Props.Meets, height_ground]
    have p1 : Polyline.edgePoint groundPlane (⟨0, 0, -1⟩, ⟨0, 0, 0⟩) = ⟨0, 0, 0⟩ := by
      rw [edgePoint_real _ _ (by simp [Props.InPlane, height_ground])]
      ext <;> simp [crossing, along, vec3, height_ground]
    have p2 : Polyline.edgePoint groundPlane (⟨0, 0, 0⟩, ⟨0, 0, 1⟩) = ⟨0, 0, 0⟩ := by
      rw [edgePoint_real _ _ (by simp [Props.InPlane, height_ground])]
      ext <;> simp [crossing, along, vec3, height_ground]
    rw [intersectPlane_eq]
    simp [chainSegs, circuit, pairs, m1, m2, p1, p2, Plane.flatnonzero, Plane.flatnonzeroFrom]
  · exact C39_count _ _ (by simp [meetCount, chainSegs, circuit, pairs, Props.Meets, height_ground])

/-! ### the hypotheses can be met -/

/-- a square through the plane with a point added on the closing segment and one on a side -/
example : Finer true [⟨0, 0, 1⟩, ⟨3, 0, 1⟩, ⟨3, 0, -2⟩, ⟨0, 0, -2⟩]
      [⟨0, 0, 1⟩, ⟨3, 0, 1⟩, ⟨3, 0, -1⟩, ⟨3, 0, -2⟩, ⟨0, 0, -2⟩, ⟨0, 0, -1⟩] ∧ UnitNormal groundPlane ∧
    (∀ q ∈ ([⟨0, 0, 1⟩, ⟨3, 0, 1⟩, ⟨3, 0, -1⟩, ⟨3, 0, -2⟩, ⟨0, 0, -2⟩, ⟨0, 0, -1⟩] : List (V3 ℝ)), ¬ OnPlane groundPlane q) ∧
    meetCount groundPlane [⟨0, 0, 1⟩, ⟨3, 0, 1⟩, ⟨3, 0, -2⟩, ⟨0, 0, -2⟩] true = 2 := by
  refine ⟨?_, by simp [UnitNormal, groundPlane, len3], ?_, ?_⟩
  · refine (Relation.ReflTransGen.single (AddPoint.inner true [⟨0, 0, 1⟩] ⟨3, 0, 1⟩ ⟨3, 0, -2⟩ [⟨0, 0, -2⟩] ⟨3, 0, -1⟩
      ⟨2 / 3, by norm_num, by norm_num, by ext <;> simp [along, vec3]; norm_num⟩)).tail ?_
    exact AddPoint.closing _ ⟨0, 0, -2⟩ ⟨0, 0, 1⟩ ⟨0, 0, -1⟩ rfl rfl
      ⟨1 / 3, by norm_num, by norm_num, by ext <;> simp [along, vec3]; norm_num⟩
  · simp [onPlane_iff, height_ground]
  · simp [meetCount, chainSegs, circuit, pairs, Props.Meets, height_ground]

end Blmath.Props
