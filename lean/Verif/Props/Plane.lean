import Verif.Proofs.Plane

/-!
Properties C21-C28: planes.
-/

namespace Blmath.Props
open Blmath.Geometry Blmath.Spec Blmath.Vx

/-! ### C21 -/

/-- **C21.** The constructor fails exactly when every component of the normal is within 1e-8 of 0;
otherwise the plane has the given reference point and a unit normal positively proportional to the
given one. -/
theorem C21_construct (p v : V3 ℝ) :
    (∀ pl, Plane.mk' p v = .ok pl →
      pl.referencePoint = p ∧ len3 pl.normal = 1 ∧ ∃ c > 0, pl.normal = scale3 c v) ∧
    (Plane.mk' p v = raise .ValueError ↔
      |v.x| ≤ 1 / 100000000 ∧ |v.y| ≤ 1 / 100000000 ∧ |v.z| ≤ 1 / 100000000) ∧
    (Returns (Plane.mk' p v) ∨ Plane.mk' p v = raise .ValueError) := by
  unfold Plane.mk'
  by_cases h : almostZero v (defaultAtol : ℝ) = true
  · rw [if_pos h]
    refine ⟨by simp, ⟨fun _ => (almostZero_real v).mp h, fun _ => rfl⟩, Or.inr rfl⟩
  · rw [if_neg h]
    have hv : v ≠ zero3 := by rintro rfl; exact h almostZero_zero
    refine ⟨?_, ⟨by simp, fun hc => absurd ((almostZero_real v).mpr hc) h⟩, Or.inl ⟨_, rfl⟩⟩
    intro pl hpl
    injection hpl with hpl
    subst hpl
    exact ⟨rfl, len3_normalize3 hv, (len3 v)⁻¹, inv_pos.mpr (len3_pos hv), normalize3_real v⟩

/-- **C21.** `from_points`: on success the plane contains its three points, which appear
counterclockwise seen from the tip of the normal.  ValueError exactly if no component of the cross product of two
sides exceeds 1e-8, as for collinear points. -/
theorem C21_from_points (p1 p2 p3 : V3 ℝ) :
    (∀ pl, Plane.fromPoints p1 p2 p3 = .ok pl →
      len3 pl.normal = 1 ∧ OnPlane pl p1 ∧ OnPlane pl p2 ∧ OnPlane pl p3 ∧
      0 < det3 (vec3 p1 p2) (vec3 p1 p3) pl.normal) ∧
    (Plane.fromPoints p1 p2 p3 = raise .ValueError ↔
      |(cross3 (vec3 p1 p2) (vec3 p1 p3)).x| ≤ 1 / 100000000 ∧ |(cross3 (vec3 p1 p2) (vec3 p1 p3)).y| ≤ 1 / 100000000 ∧
        |(cross3 (vec3 p1 p2) (vec3 p1 p3)).z| ≤ 1 / 100000000) ∧
    (Returns (Plane.fromPoints p1 p2 p3) ∨ Plane.fromPoints p1 p2 p3 = raise .ValueError) := by
  refine ⟨?_, (C21_construct p1 (cross3 (vec3 p1 p2) (vec3 p1 p3))).2⟩
  · intro pl h
    obtain ⟨h1, h2, c, hc, h3⟩ := (C21_construct p1 (cross3 (vec3 p1 p2) (vec3 p1 p3))).1 pl h
    have hn : pl.n = scale3 c (cross3 (vec3 p1 p2) (vec3 p1 p3)) := h3
    have hr : pl.r0 = p1 := h1
    have on : ∀ q, inner3 (vec3 p1 q) (cross3 (vec3 p1 p2) (vec3 p1 p3)) = 0 → OnPlane pl q := by
      intro q hq
      unfold OnPlane
      rw [hr, hn, inner3_scale_right, hq, mul_zero]
    refine ⟨h2, on _ ?_, on _ ?_, on _ ?_, ?_⟩
    · simp [inner3, vec3]
    · rw [inner3_comm]; exact inner3_cross_left _ _
    · rw [inner3_comm]; exact inner3_cross_right _ _
    · unfold det3
      rw [h3, inner3_scale_right]
      apply mul_pos hc
      rw [inner3_self]
      have : cross3 (vec3 p1 p2) (vec3 p1 p3) ≠ zero3 := by
        intro h0
        have h3' : pl.normal = zero3 := by rw [h3, h0]; simp [scale3, zero3]
        rw [len3_eq_zero.mpr h3'] at h2
        norm_num at h2
      have := len3_pos this
      positivity

/-- **C21.** `from_points_and_vector`: the plane contains both points and is parallel to the vector; the step from the
first point to the second, the vector and the normal form a right-handed system.  ValueError exactly if no component of
the cross product exceeds 1e-8. -/
theorem C21_from_points_and_vector (p1 p2 v : V3 ℝ) :
    (∀ pl, Plane.fromPointsAndVector p1 p2 v = .ok pl →
      len3 pl.normal = 1 ∧ OnPlane pl p1 ∧ OnPlane pl p2 ∧ inner3 v pl.normal = 0 ∧
      (∀ k, OnPlane pl (along p1 k v)) ∧ 0 < det3 (vec3 p1 p2) v pl.normal) ∧
    (Plane.fromPointsAndVector p1 p2 v = raise .ValueError ↔
      |(cross3 (vec3 p1 p2) v).x| ≤ 1 / 100000000 ∧ |(cross3 (vec3 p1 p2) v).y| ≤ 1 / 100000000 ∧
        |(cross3 (vec3 p1 p2) v).z| ≤ 1 / 100000000) ∧
    (Returns (Plane.fromPointsAndVector p1 p2 v) ∨ Plane.fromPointsAndVector p1 p2 v = raise .ValueError) := by
  refine ⟨?_, (C21_construct p1 (cross3 (vec3 p1 p2) v)).2⟩
  intro pl h
  obtain ⟨h1, h2, c, hc, h3⟩ := (C21_construct p1 (cross3 (vec3 p1 p2) v)).1 pl h
  have hn : pl.n = scale3 c (cross3 (vec3 p1 p2) v) := h3
  have hr : pl.r0 = p1 := h1
  have hv : inner3 v pl.n = 0 := by
    rw [hn, inner3_scale_right, inner3_comm, inner3_cross_right, mul_zero]
  refine ⟨h2, ?_, ?_, hv, ?_, ?_⟩
  · unfold OnPlane; rw [hr]; simp [inner3, vec3]
  · unfold OnPlane
    rw [hr, hn, inner3_scale_right, inner3_comm, inner3_cross_left, mul_zero]
  · intro k
    rw [onPlane_iff, height_along, hv, mul_zero, add_zero, height, hr]
    simp [inner3, vec3]
  · unfold det3
    rw [h3, inner3_scale_right]
    apply mul_pos hc
    rw [inner3_self]
    have : cross3 (vec3 p1 p2) v ≠ zero3 := by
      intro h0
      have h3' : pl.normal = zero3 := by rw [h3, h0]; simp [scale3, zero3]
      rw [len3_eq_zero.mpr h3'] at h2
      norm_num at h2
    have := len3_pos this
    positivity

/-- Finding: a proper but small triangle (edges 1e-4) is rejected as if it were degenerate. -/
theorem C21_small_triangle_rejected :
    Plane.fromPoints (⟨0, 0, 0⟩ : V3 ℝ) ⟨1 / 10000, 0, 0⟩ ⟨0, 1 / 10000, 0⟩ = raise .ValueError := by
  show Plane.mk' _ _ = _
  rw [(C21_construct _ _).2.1]
  simp only [V3.cross_real, V3.sub_real, cross3, vec3]
  norm_num [abs_of_pos]

/-- non-vacuity -/
example : Returns (Plane.fromPoints (⟨0, 0, 0⟩ : V3 ℝ) ⟨1, 0, 0⟩ ⟨0, 1, 0⟩) := by
  rcases (C21_construct ⟨0, 0, 0⟩ (V3.cross (⟨1, 0, 0⟩ - ⟨0, 0, 0⟩) (⟨0, 1, 0⟩ - ⟨0, 0, 0⟩))).2.2
    with h | h
  · exact h
  · rw [(C21_construct _ _).2.1] at h
    simp only [V3.cross_real, V3.sub_real, cross3, vec3] at h
    norm_num at h

/-! ### C22 -/

/-- **C22.** `|signed_distance|` is the distance to the plane: attained at a point of the plane,
and no point of the plane is nearer; `distance` is its absolute value. -/
theorem C22_distance (pl : Plane ℝ) (hu : UnitNormal pl) (p : V3 ℝ) :
    (∃ q, OnPlane pl q ∧ dist3 p q = |pl.signedDistance1 p|) ∧
    (∀ q, OnPlane pl q → |pl.signedDistance1 p| ≤ dist3 p q) ∧
    pl.distance [p] = [|pl.signedDistance1 p|] := by
  rw [signedDistance1_real]
  refine ⟨⟨along p (-height pl p) pl.n, ?_, ?_⟩, ?_, ?_⟩
  · rw [onPlane_iff, height_along, unit_inner hu]; ring
  · have : vec3 p (along p (-height pl p) pl.n) = scale3 (-height pl p) pl.n := by
      ext <;> simp [vec3, along, scale3]
    unfold dist3
    rw [this, len3_scale, abs_neg, show len3 pl.n = 1 from hu, mul_one]
  · intro q hq
    have h1 : height pl p = -inner3 (vec3 p q) pl.n := by
      rw [height_sub, (onPlane_iff pl q).mp hq]; ring
    rw [h1, abs_neg]
    have := abs_inner3_le (vec3 p q) pl.n
    rwa [show len3 pl.n = 1 from hu, mul_one] at this
  · simp [Plane.distance, Plane.signedDistance, npAbs_real', signedDistance1_real]

/-- **C22.** The sign tells the side: the point is `sd` normals away from a point of the plane. -/
theorem C22_side (pl : Plane ℝ) (hu : UnitNormal pl) (p : V3 ℝ) (k : ℝ) :
    pl.signedDistance1 p = k ↔ ∃ q, OnPlane pl q ∧ p = along q k pl.normal := by
  rw [signedDistance1_real]
  constructor
  · rintro rfl
    refine ⟨along p (-height pl p) pl.n, ?_, ?_⟩
    · rw [onPlane_iff, height_along, unit_inner hu]; ring
    · ext <;> simp [along, Plane.normal]
  · rintro ⟨q, hq, rfl⟩
    rw [Plane.normal, height_along, (onPlane_iff pl q).mp hq, unit_inner hu]; ring

/-- **C22.** `equation` vanishes exactly on the plane, its first three entries are the normal, and
the signed distance is its value. -/
theorem C22_equation (pl : Plane ℝ) (p : V3 ℝ) :
    (pl.equation.1 * p.x + pl.equation.2.1 * p.y + pl.equation.2.2.1 * p.z + pl.equation.2.2.2
      = pl.signedDistance1 p) ∧
    (pl.signedDistance1 p = 0 ↔ OnPlane pl p) ∧
    (⟨pl.equation.1, pl.equation.2.1, pl.equation.2.2.1⟩ : V3 ℝ) = pl.normal := by
  refine ⟨?_, ?_, rfl⟩
  · simp only [Plane.signedDistance1, Plane.equation, V3.dot]; ring
  · rw [signedDistance1_real]; rfl

/-- **C22.** A stack is measured point by point. -/
theorem C22_stack {α : Type} [Num α] (pl : Plane α) (ps : List (V3 α)) :
    pl.signedDistance ps = ps.map pl.signedDistance1 := rfl

theorem flipped_eq (pl : Plane ℝ) (hu : UnitNormal pl) :
    pl.flipped = .ok ⟨pl.r0, scale3 (-1) pl.n⟩ := by
  have e : (⟨pl.n.x * Num.lit (-1), pl.n.y * Num.lit (-1), pl.n.z * Num.lit (-1)⟩ : V3 ℝ) =
      scale3 (-1) pl.n := by
    ext <;> simp [scale3]
  have hl : len3 (scale3 (-1) pl.n) = 1 := by
    rw [len3_scale, show len3 pl.n = 1 from hu]; norm_num
  unfold Plane.flipped Plane.mk'
  simp only [e]
  rw [not_almostZero_unit hl, if_neg (by simp), normalize3_real, hl]
  simp

/-- **C22.** `flipped()` succeeds, keeps the set of points, reverses the normal and negates signed
distances; flipping twice gives back the plane. -/
theorem C22_flipped (pl : Plane ℝ) (hu : UnitNormal pl) :
    ∃ pl', pl.flipped = .ok pl' ∧ UnitNormal pl' ∧ pl'.normal = scale3 (-1) pl.normal ∧
      (∀ p, pl'.signedDistance1 p = -pl.signedDistance1 p) ∧
      (∀ p, OnPlane pl' p ↔ OnPlane pl p) ∧ pl'.flipped = .ok pl := by
  have hu' : UnitNormal ⟨pl.r0, scale3 (-1) pl.n⟩ := by
    unfold UnitNormal
    rw [len3_scale, show len3 pl.n = 1 from hu]; norm_num
  have hh : ∀ p, height ⟨pl.r0, scale3 (-1) pl.n⟩ p = -height pl p := by
    intro p; simp only [height, inner3_scale_right]; ring
  refine ⟨_, flipped_eq pl hu, hu', rfl, ?_, ?_, ?_⟩
  · intro p; rw [signedDistance1_real, signedDistance1_real, hh]
  · intro p; rw [onPlane_iff, onPlane_iff, hh]; simp
  · rw [flipped_eq _ hu']
    simp [scale3_scale3]

/-- **C22.** `canonical_point` lies on the plane, is a multiple of the normal, is the plane point
nearest the origin, and is the same for every plane with the same points (whatever the reference
point and orientation). -/
theorem C22_canonical (pl : Plane ℝ) (hu : UnitNormal pl) :
    OnPlane pl pl.canonicalPoint ∧ (∃ k, pl.canonicalPoint = scale3 k pl.normal) ∧
    (∀ q, OnPlane pl q → len3 pl.canonicalPoint ≤ len3 q) ∧
    ∀ pl' : Plane ℝ, UnitNormal pl' → (∀ p, OnPlane pl' p ↔ OnPlane pl p) →
      pl'.canonicalPoint = pl.canonicalPoint := by
  have hcan : ∀ P : Plane ℝ, P.canonicalPoint = scale3 (inner3 P.r0 P.n) P.n := fun _ => rfl
  have on : ∀ P : Plane ℝ, UnitNormal P → OnPlane P P.canonicalPoint := by
    intro P hP
    have : inner3 (vec3 P.r0 (scale3 (inner3 P.r0 P.n) P.n)) P.n =
        inner3 P.r0 P.n * inner3 P.n P.n - inner3 P.r0 P.n := by
      simp only [inner3, vec3, scale3]; ring
    rw [hcan, OnPlane, this, unit_inner hP]; ring
  have near : ∀ P : Plane ℝ, UnitNormal P → ∀ q, OnPlane P q →
      len3 q ^ 2 = len3 P.canonicalPoint ^ 2 + dist3 q P.canonicalPoint ^ 2 := by
    intro P hP q hq
    have h1 : inner3 q P.n = inner3 P.r0 P.n := by
      have : height P q = inner3 q P.n - inner3 P.r0 P.n := by
        simp only [height, inner3, vec3]; ring
      rw [(onPlane_iff P q).mp hq] at this
      linarith
    have h2 : inner3 (vec3 q P.canonicalPoint) (vec3 q P.canonicalPoint) =
        inner3 q q - 2 * inner3 P.r0 P.n * inner3 q P.n +
          inner3 P.r0 P.n ^ 2 * inner3 P.n P.n := by
      rw [hcan]; simp only [inner3, vec3, scale3]; ring
    have h3 : inner3 P.canonicalPoint P.canonicalPoint =
        inner3 P.r0 P.n ^ 2 * inner3 P.n P.n := by
      rw [hcan]; simp only [inner3, scale3]; ring
    unfold dist3
    rw [← inner3_self, ← inner3_self, ← inner3_self, h2, h3, h1, unit_inner hP]
    ring
  refine ⟨on pl hu, ⟨_, rfl⟩, ?_, ?_⟩
  · intro q hq
    have := near pl hu q hq
    apply le_of_sq_le_sq _ (len3_nonneg q)
    rw [this]
    have := sq_nonneg (dist3 q pl.canonicalPoint)
    linarith
  · intro pl' hu' hiff
    have a := near pl hu pl'.canonicalPoint ((hiff _).mp (on pl' hu'))
    have b := near pl' hu' pl.canonicalPoint ((hiff _).mpr (on pl hu))
    have h0 := sq_nonneg (dist3 pl'.canonicalPoint pl.canonicalPoint)
    rw [dist3_comm] at b
    have : dist3 pl'.canonicalPoint pl.canonicalPoint ^ 2 = 0 := by linarith
    exact dist3_eq_zero.mp (by simpa using this)

/-- non-vacuity -/
example : UnitNormal ⟨⟨1, 2, 3⟩, ⟨0, 3 / 5, 4 / 5⟩⟩ := by
  unfold UnitNormal len3
  rw [show (0 : ℝ) ^ 2 + (3 / 5) ^ 2 + (4 / 5) ^ 2 = 1 by norm_num, Real.sqrt_one]

/-! ### C23 -/

/-- **C23.** The projection lies on the plane, differs from the point by a multiple of the normal, is
the closest point of the plane, and projecting again changes nothing. -/
theorem C23_project (pl : Plane ℝ) (hu : UnitNormal pl) (p : V3 ℝ) :
    OnPlane pl (pl.projectPoint p) ∧ (∃ k, pl.projectPoint p = along p k pl.normal) ∧
    (∀ q, OnPlane pl q → dist3 p (pl.projectPoint p) ≤ dist3 p q) ∧
    (∀ q, OnPlane pl q → dist3 p q = dist3 p (pl.projectPoint p) → q = pl.projectPoint p) ∧
    pl.projectPoint (pl.projectPoint p) = pl.projectPoint p ∧
    (OnPlane pl p → pl.projectPoint p = p) := by
  have hp : ∀ p, pl.projectPoint p = along p (-height pl p) pl.n := by
    intro p
    unfold Plane.projectPoint
    rw [signedDistance1_real]
    ext <;> simp [along] <;> ring
  have hon : ∀ p, OnPlane pl (pl.projectPoint p) := by
    intro p; rw [hp, onPlane_iff, height_along, unit_inner hu]; ring
  have hfix : ∀ p, OnPlane pl p → pl.projectPoint p = p := by
    intro p h; rw [hp, (onPlane_iff pl p).mp h]; ext <;> simp [along]
  have pyth : ∀ q, OnPlane pl q →
      dist3 p q ^ 2 = dist3 p (pl.projectPoint p) ^ 2 + dist3 (pl.projectPoint p) q ^ 2 := by
    intro q hq
    have hq' : inner3 (vec3 p q) pl.n = -height pl p := by
      rw [height_sub, (onPlane_iff pl q).mp hq]; ring
    unfold dist3
    rw [← inner3_self, ← inner3_self, ← inner3_self, hp]
    have e1 : inner3 (vec3 p (along p (-height pl p) pl.n)) (vec3 p (along p (-height pl p) pl.n)) =
        height pl p ^ 2 * inner3 pl.n pl.n := by
      simp only [inner3, vec3, along]; ring
    have e2 : inner3 (vec3 (along p (-height pl p) pl.n) q) (vec3 (along p (-height pl p) pl.n) q) =
        inner3 (vec3 p q) (vec3 p q) + 2 * height pl p * inner3 (vec3 p q) pl.n +
          height pl p ^ 2 * inner3 pl.n pl.n := by
      simp only [inner3, vec3, along]; ring
    rw [e1, e2, hq', unit_inner hu]; ring
  refine ⟨hon p, ⟨_, hp p⟩, ?_, ?_, hfix _ (hon p), hfix p⟩
  · intro q hq
    apply le_of_sq_le_sq _ (len3_nonneg _)
    have := pyth q hq
    have h0 := sq_nonneg (dist3 (pl.projectPoint p) q)
    unfold dist3 at *
    linarith
  · intro q hq he
    have := pyth q hq
    rw [he] at this
    have : dist3 (pl.projectPoint p) q ^ 2 = 0 := by linarith
    exact (dist3_eq_zero.mp (by simpa using this)).symm

/-! ### C24 -/

theorem front_eq (pl : Plane ℝ) (ps : List (V3 ℝ)) (inv : Bool) :
    pl.frontMask ps inv = ps.map fun p => open Classical in
      decide (if inv then height pl p ≤ 0 else 0 ≤ height pl p) := by
  unfold Plane.frontMask Plane.sign Plane.signedDistance
  rw [List.map_map, List.map_map]
  apply List.map_congr_left
  intro p _
  simp only [Function.comp_def, signedDistance1_real]
  rw [Bool.eq_iff_iff]
  cases inv
  · simp [npSign_nonneg]
  · simp [npSign_nonpos]

/-- **C24.** `points_in_front` returns, in input order and with multiplicity, exactly the points with
nonnegative signed distance (nonpositive when inverted). -/
theorem C24_points (pl : Plane ℝ) (ps : List (V3 ℝ)) :
    pl.pointsInFront ps false =
      .ok (ps.filter fun p => open Classical in decide (0 ≤ height pl p)) ∧
    pl.pointsInFront ps true =
      .ok (ps.filter fun p => open Classical in decide (height pl p ≤ 0)) := by
  have key : ∀ inv, pl.pointsInFront ps inv = .ok (ps.filter fun p => open Classical in
      decide (if inv then height pl p ≤ 0 else 0 ≤ height pl p)) := by
    intro inv
    unfold Plane.pointsInFront Plane.indicesInFront Plane.flatnonzero
    rw [front_eq]
    exact mapM_flatnonzero _ [] ps
  refine ⟨?_, ?_⟩
  · simpa using key false
  · simpa using key true

/-- **C24.** With `ret_indices`, exactly the positions of those points, in increasing order. -/
theorem C24_indices (pl : Plane ℝ) (ps : List (V3 ℝ)) (i : ℕ) :
    (i ∈ pl.indicesInFront ps false ↔ ∃ p, ps[i]? = some p ∧ 0 ≤ height pl p) ∧
    (i ∈ pl.indicesInFront ps true ↔ ∃ p, ps[i]? = some p ∧ height pl p ≤ 0) ∧
    (∀ inv, (pl.indicesInFront ps inv).Pairwise (· < ·)) := by
  have key : ∀ inv, i ∈ pl.indicesInFront ps inv ↔ ∃ p, ps[i]? = some p ∧
      (if inv then height pl p ≤ 0 else 0 ≤ height pl p) := by
    intro inv
    unfold Plane.indicesInFront Plane.flatnonzero
    rw [front_eq, mem_flatnonzeroFrom]
    simp
  refine ⟨?_, ?_, fun inv => flatnonzeroFrom_sorted _ 0⟩
  · simpa using key false
  · simpa using key true

/-- **C24.** Indices and points agree. -/
theorem C24_agree {α : Type} [Num α] (pl : Plane α) (ps : List (V3 α)) (inv : Bool) :
    pl.pointsInFront ps inv = (pl.indicesInFront ps inv).mapM fun (i : ℕ) => pyIndex ps (i : ℤ) :=
  rfl

/-- **C24.** Every position is in one of the two halves, and in both exactly when its point is on the
plane. -/
theorem C24_halves (pl : Plane ℝ) (ps : List (V3 ℝ)) (i : ℕ) (p : V3 ℝ) (h : ps[i]? = some p) :
    (i ∈ pl.indicesInFront ps false ∨ i ∈ pl.indicesInFront ps true) ∧
    ((i ∈ pl.indicesInFront ps false ∧ i ∈ pl.indicesInFront ps true) ↔ OnPlane pl p) := by
  rw [(C24_indices pl ps i).1, (C24_indices pl ps i).2.1]
  simp only [h, Option.some.injEq, exists_eq_left']
  refine ⟨le_total _ _, ?_⟩
  rw [onPlane_iff]
  constructor
  · rintro ⟨h1, h2⟩; exact le_antisymm h2 h1
  · intro h; simp [h]

/-- **C24.** Flipping the plane swaps the halves. -/
theorem C24_flip (pl : Plane ℝ) (hu : UnitNormal pl) (ps : List (V3 ℝ)) (inv : Bool) :
    ∃ pl', pl.flipped = .ok pl' ∧ pl'.pointsInFront ps inv = pl.pointsInFront ps (!inv) ∧
      pl'.indicesInFront ps inv = pl.indicesInFront ps (!inv) := by
  obtain ⟨pl', h1, _, _, h2, _⟩ := C22_flipped pl hu
  refine ⟨pl', h1, ?_⟩
  have hm : pl'.frontMask ps inv = pl.frontMask ps (!inv) := by
    rw [front_eq, front_eq]
    apply List.map_congr_left
    intro p _
    have := h2 p
    rw [signedDistance1_real, signedDistance1_real] at this
    cases inv <;> simp [this]
  have hi : pl'.indicesInFront ps inv = pl.indicesInFront ps (!inv) := by
    unfold Plane.indicesInFront; rw [hm]
  exact ⟨by unfold Plane.pointsInFront; rw [hi], hi⟩

/-! ### C25 -/

/-- **C25.** None exactly when the ray is parallel to the plane; otherwise the unique point that is
both on the plane and on the line. -/
theorem C25_line (pl : Plane ℝ) (pt ray : V3 ℝ) :
    (pl.lineXsection pt ray = none ↔ inner3 ray pl.normal = 0) ∧
    ∀ q, pl.lineXsection pt ray = some q →
      OnPlane pl q ∧ OnLine pt ray q ∧ ∀ q', OnPlane pl q' → OnLine pt ray q' → q' = q := by
  rw [lineXsection_real]
  by_cases h : inner3 ray pl.n = 0
  · simp [h, Plane.normal]
  · simp only [h, if_false, Plane.normal]
    refine ⟨by simp, ?_⟩
    rintro q hq
    injection hq with hq
    subst hq
    refine ⟨?_, ⟨_, rfl⟩, ?_⟩
    · rw [onPlane_iff, height_along]; field_simp; ring
    · rintro q' hq' ⟨k, rfl⟩
      rw [onPlane_iff, height_along] at hq'
      have : k = -height pl pt / inner3 ray pl.n := by
        rw [eq_div_iff h]; linarith
      rw [this]

/-- non-vacuity: a line that meets, and one that does not -/
example : inner3 (⟨1, 2, 3⟩ : V3 ℝ) ⟨0, 0, 1⟩ ≠ 0 ∧ inner3 (⟨1, 2, 0⟩ : V3 ℝ) ⟨0, 0, 1⟩ = 0 := by
  norm_num [inner3]

/-! ### C26 -/

/-- the box test decides whether the parameter is in `[0, 1]` -/
theorem outOfBounds_along (a b : V3 ℝ) (t : ℝ) (hne : a ≠ b) :
    Plane.outOfBounds (along a t (vec3 a b)) a b = true ↔ ¬ (0 ≤ t ∧ t ≤ 1) := by
  have comp : ∀ u v : ℝ, (Plane.beyond (u + t * (v - u)) u v || Plane.below (u + t * (v - u)) u v)
      = true ↔ u ≠ v ∧ ¬ (0 ≤ t ∧ t ≤ 1) := by
    intro u v
    simp only [Plane.beyond, Plane.below, Bool.or_eq_true, Bool.and_eq_true, Num.lt_real]
    rcases lt_trichotomy u v with h | h | h
    · have hp : 0 < v - u := by linarith
      constructor
      · rintro (⟨_, h2⟩ | ⟨h1, _⟩)
        · refine ⟨h.ne, fun ⟨_, ht⟩ => ?_⟩
          nlinarith
        · refine ⟨h.ne, fun ⟨ht, _⟩ => ?_⟩
          nlinarith
      · rintro ⟨_, hn⟩
        rcases lt_or_ge t 0 with ht | ht
        · right; constructor <;> nlinarith
        · have ht1 : 1 < t := by
            by_contra hc; exact hn ⟨ht, not_lt.mp hc⟩
          left; constructor <;> nlinarith
    · subst h; simp
    · have hp : 0 < u - v := by linarith
      constructor
      · rintro (⟨h1, _⟩ | ⟨_, h2⟩)
        · refine ⟨h.ne', fun ⟨ht, _⟩ => ?_⟩
          nlinarith
        · refine ⟨h.ne', fun ⟨_, ht⟩ => ?_⟩
          nlinarith
      · rintro ⟨_, hn⟩
        rcases lt_or_ge t 0 with ht | ht
        · left; constructor <;> nlinarith
        · have ht1 : 1 < t := by
            by_contra hc; exact hn ⟨ht, not_lt.mp hc⟩
          right; constructor <;> nlinarith
  have hx := comp a.x b.x
  have hy := comp a.y b.y
  have hz := comp a.z b.z
  have hne' : a.x ≠ b.x ∨ a.y ≠ b.y ∨ a.z ≠ b.z := by
    by_contra hc
    push Not at hc
    exact hne (V3.ext hc.1 hc.2.1 hc.2.2)
  have e : Plane.outOfBounds (along a t (vec3 a b)) a b = true ↔
      ((Plane.beyond (a.x + t * (b.x - a.x)) a.x b.x || Plane.below (a.x + t * (b.x - a.x)) a.x b.x)
        = true ∨
       (Plane.beyond (a.y + t * (b.y - a.y)) a.y b.y || Plane.below (a.y + t * (b.y - a.y)) a.y b.y)
        = true ∨
       (Plane.beyond (a.z + t * (b.z - a.z)) a.z b.z || Plane.below (a.z + t * (b.z - a.z)) a.z b.z)
        = true) := by
    have shuffle : ∀ a b c d e f : Bool, ((a || b || c) || (d || e || f)) = true ↔
        ((a || d) = true ∨ (b || e) = true ∨ (c || f) = true) := by decide
    exact shuffle _ _ _ _ _ _
  rw [e, hx, hy, hz]
  constructor
  · rintro (⟨_, h⟩ | ⟨_, h⟩ | ⟨_, h⟩) <;> exact h
  · intro h
    rcases hne' with h' | h' | h'
    · exact Or.inl ⟨h', h⟩
    · exact Or.inr (Or.inl ⟨h', h⟩)
    · exact Or.inr (Or.inr ⟨h', h⟩)

/-- **C26.** A point is returned exactly when the endpoints are at different signed distances and
the closed segment meets the plane; it is then the (only) point of the segment on the plane.  In all
other cases the result is None. -/
theorem C26_segment (pl : Plane ℝ) (a b q : V3 ℝ) :
    pl.lineSegmentXsection a b = some q ↔
      height pl a ≠ height pl b ∧ OnPlane pl q ∧ OnSegment a b q := by
  have hray : inner3 (b - a) pl.n = height pl b - height pl a := height_sub pl a b
  unfold Plane.lineSegmentXsection
  rw [lineXsection_real, hray]
  by_cases h : height pl b - height pl a = 0
  · have : height pl a = height pl b := by linarith
    simp [this]
  · have hne : height pl a ≠ height pl b := fun h' => h (by linarith)
    have hab : a ≠ b := by rintro rfl; exact hne rfl
    simp only [h, if_false]
    have e : along a (-height pl a / (height pl b - height pl a)) (b - a) =
        along a (-height pl a / (height pl b - height pl a)) (vec3 a b) := rfl
    rw [e]
    set t := -height pl a / (height pl b - height pl a) with ht
    have hon : ∀ s, OnPlane pl (along a s (vec3 a b)) ↔ s = t := by
      intro s
      rw [onPlane_iff, height_along, height_sub, ht, eq_div_iff h]
      constructor <;> intro h' <;> linarith
    by_cases hb : 0 ≤ t ∧ t ≤ 1
    · have : ¬ Plane.outOfBounds (along a t (vec3 a b)) a b = true := by
        rw [outOfBounds_along a b t hab]; exact not_not.mpr hb
      rw [if_neg this]
      constructor
      · intro hq
        injection hq with hq
        subst hq
        exact ⟨hne, (hon t).mpr rfl, t, hb.1, hb.2, rfl⟩
      · rintro ⟨_, h1, s, _, _, rfl⟩
        rw [(hon s).mp h1]
    · rw [if_pos ((outOfBounds_along a b t hab).mpr hb)]
      constructor
      · simp
      · rintro ⟨_, h1, s, hs0, hs1, rfl⟩
        rw [(hon s).mp h1] at hs0 hs1
        exact absurd ⟨hs0, hs1⟩ hb

/-- **C26.** In terms of the sides of the endpoints: a point is returned exactly when they are not
at equal distance and not strictly on one side. -/
theorem C26_sides (pl : Plane ℝ) (a b : V3 ℝ) :
    (∃ q, pl.lineSegmentXsection a b = some q) ↔
      height pl a ≠ height pl b ∧
      ¬ (0 < height pl a ∧ 0 < height pl b) ∧
      ¬ (height pl a < 0 ∧ height pl b < 0) := by
  constructor
  · rintro ⟨q, hq⟩
    obtain ⟨h1, h2, t, h3, h4, rfl⟩ := (C26_segment pl a b q).mp hq
    refine ⟨h1, ?_⟩
    rw [onPlane_iff, height_along, height_sub] at h2
    constructor
    · rintro ⟨ha, hb⟩
      have e : (1 - t) * height pl a + t * height pl b = 0 := by linarith
      rcases h3.lt_or_eq with h | h
      · have := mul_pos h hb
        have := mul_nonneg (by linarith : 0 ≤ 1 - t) ha.le
        linarith
      · subst h; linarith
    · rintro ⟨ha, hb⟩
      have e : (1 - t) * height pl a + t * height pl b = 0 := by linarith
      rcases h3.lt_or_eq with h | h
      · have := mul_neg_of_pos_of_neg h hb
        have := mul_nonpos_of_nonneg_of_nonpos (by linarith : 0 ≤ 1 - t) ha.le
        linarith
      · subst h; linarith
  · rintro ⟨h1, h2, h3⟩
    have hd : height pl b - height pl a ≠ 0 := fun h => h1 (by linarith)
    set t := -height pl a / (height pl b - height pl a) with ht
    refine ⟨along a t (vec3 a b), (C26_segment pl a b _).mpr ⟨?_, ?_, t, ?_, ?_, rfl⟩⟩
    · simpa only [signedDistance1_real] using h1
    · rw [onPlane_iff, height_along, height_sub, ht]; field_simp; ring
    · rcases lt_or_gt_of_ne hd with h | h
      · have : 0 ≤ height pl a := by
          by_contra hc
          exact h3 ⟨not_le.mp hc, by linarith⟩
        exact div_nonneg_of_nonpos (by linarith) h.le
      · have : height pl a ≤ 0 := by
          by_contra hc
          exact h2 ⟨not_le.mp hc, by linarith⟩
        exact div_nonneg (by linarith) h.le
    · rcases lt_or_gt_of_ne hd with h | h
      · have : height pl b ≤ 0 := by
          by_contra hc
          exact h2 ⟨by linarith, not_le.mp hc⟩
        rw [ht, div_le_one_of_neg h]; linarith
      · have : 0 ≤ height pl b := by
          by_contra hc
          exact h3 ⟨by linarith, not_le.mp hc⟩
        rw [ht, div_le_one h]; linarith

/-! ### C27 -/

theorem npNan_fl : (Plane.npNan : Fl) = .nan := by
  simp only [Plane.npNan, Fl.lit_fl]
  push_cast
  exact Fl.div_zero_zero

/-- a row of three NaNs -/
def nanRow : V3 Fl := ⟨.nan, .nan, .nan⟩

/-- **C27.** `line_xsections`, for all inputs (infinite and NaN coordinates included): row `i` is
valid exactly when the scalar method returns a point, and then holds that point; otherwise it is a
row of NaNs. -/
theorem C27_lines (pl : Plane Fl) (pts rays : List (V3 Fl)) (hl : pts.length = rays.length) :
    ∃ out mask, pl.lineXsections pts rays = .ok (out, mask) ∧ out.length = pts.length ∧
      mask.length = pts.length ∧
      ∀ (i : ℕ) (p r : V3 Fl), pts[i]? = some p → rays[i]? = some r →
        match pl.lineXsection p r with
        | some q => out[i]? = some q ∧ mask[i]? = some true
        | none => out[i]? = some nanRow ∧ mask[i]? = some false := by
  refine ⟨_, _, by simp only [Plane.lineXsections, hl, if_true]; rfl, by simp [hl], by simp [hl], ?_⟩
  intro i p r hp hr
  simp only [List.getElem?_map, List.getElem?_zipWith, hp, hr, Option.map_some]
  unfold Plane.lineXsectionsRow Plane.lineXsection
  cases h : Num.eq (V3.dot r pl.normal) (Num.lit 0)
  · simp only [h, Bool.false_eq_true, if_false, Bool.not_false, and_self]
  · simp only [h, if_true, npNan_fl, Fl.div_nan, Bool.not_true, and_true]
    congr 1

/-- **C27.** `line_segment_xsections` likewise agrees with `line_segment_xsection`. -/
theorem C27_segments (pl : Plane Fl) (a b : List (V3 Fl)) (hl : a.length = b.length) :
    ∃ out mask, pl.lineSegmentXsections a b = .ok (out, mask) ∧ out.length = a.length ∧
      mask.length = a.length ∧
      ∀ (i : ℕ) (p q : V3 Fl), a[i]? = some p → b[i]? = some q →
        match pl.lineSegmentXsection p q with
        | some x => out[i]? = some x ∧ mask[i]? = some true
        | none => out[i]? = some nanRow ∧ mask[i]? = some false := by
  refine ⟨_, _, by simp only [Plane.lineSegmentXsections, hl, if_true]; rfl, by simp [hl],
    by simp [hl], ?_⟩
  intro i p q hp hq
  simp only [List.getElem?_map, List.getElem?_zipWith, hp, hq, Option.map_some]
  unfold Plane.lineSegmentXsectionsRow Plane.lineSegmentXsection Plane.lineXsectionsRow
    Plane.lineXsection
  cases h : Num.eq (V3.dot (q - p) pl.normal) (Num.lit 0)
  case true =>
    simp only [h, if_true, Bool.not_true, Bool.false_eq_true, if_false, nanRow, npNan_fl, and_self]
  case false =>
    simp only [h, Bool.not_false, if_true, Bool.false_eq_true, if_false]
    split
    · rename_i hs
      split at hs
      · cases hs
      · rename_i ho
        injection hs with hs
        subst hs
        simp [ho]
    · rename_i hs
      split at hs
      · rename_i ho
        simp [ho, nanRow, npNan_fl]
      · cases hs

/-- **C27.** A single point or a single ray is used with every row of the other stack; with a single ray the mask has one entry
only.  Other stacks of different lengths raise ValueError. -/
theorem C27_single {α : Type} [Num α] (pl : Plane α) (p r : V3 α) (pts rays : List (V3 α)) (hp : pts.length ≠ 1) (hr : rays.length ≠ 1) :
    (∃ out mask, pl.lineXsections [p] rays = .ok (out, mask) ∧
      pl.lineXsections (List.replicate rays.length p) rays = .ok (out, mask) ∧ mask.length = rays.length) ∧
    (∃ out b mask, pl.lineXsections pts [r] = .ok (out, [b]) ∧
      pl.lineXsections pts (List.replicate pts.length r) = .ok (out, mask) ∧ mask = List.replicate pts.length b) ∧
    (pts.length ≠ rays.length → pl.lineXsections pts rays = .error .ValueError) := by
  have zl : ∀ (f : V3 α → V3 α → V3 α) (l : List (V3 α)) (x : V3 α), List.zipWith f (List.replicate l.length x) l = l.map (f x) := by
    intro f l x
    induction l with
    | nil => rfl
    | cons a l ih => simp [List.replicate_succ, ih]
  have zr : ∀ (f : V3 α → V3 α → V3 α) (l : List (V3 α)) (x : V3 α), List.zipWith f l (List.replicate l.length x) = l.map fun y => f y x := by
    intro f l x
    induction l with
    | nil => rfl
    | cons a l ih => simp [List.replicate_succ, ih]
  refine ⟨⟨rays.map fun r => (pl.lineXsectionsRow p r).1, rays.map fun r => !Num.eq (V3.dot r pl.normal) (Num.lit 0), ?_, ?_, ?_⟩, ⟨pts.map fun p => (pl.lineXsectionsRow p r).1, !Num.eq (V3.dot r pl.normal) (Num.lit 0),
    (List.replicate pts.length r).map fun r => !Num.eq (V3.dot r pl.normal) (Num.lit 0), ?_, ?_, ?_⟩, ?_⟩
  · unfold Plane.lineXsections
    rw [if_neg (by simpa using Ne.symm hr)]
  · unfold Plane.lineXsections
    rw [if_pos (by simp), zl]
  · simp
  · unfold Plane.lineXsections
    rw [if_neg (by simpa using hp)]
    rcases pts with _ | ⟨a, _ | ⟨b, l⟩⟩
    · rfl
    · simp at hp
    · rfl
  · unfold Plane.lineXsections
    rw [if_pos (by simp), zr]
  · simp
  · intro h
    unfold Plane.lineXsections
    rw [if_neg h]
    rcases pts with _ | ⟨a, _ | ⟨b, l⟩⟩ <;> rcases rays with _ | ⟨a', _ | ⟨b', l'⟩⟩ <;> simp at h hp hr ⊢

/-- **C27.** `line_segment_xsections` does not broadcast: stacks of different lengths raise, IndexError if one has a single row,
ValueError otherwise. -/
theorem C27_segments_shapes {α : Type} [Num α] (pl : Plane α) (a b : List (V3 α)) (h : a.length ≠ b.length) :
    pl.lineSegmentXsections a b = .error (if a.length = 1 ∨ b.length = 1 then .IndexError else .ValueError) := by
  unfold Plane.lineSegmentXsections
  rw [if_neg h]
  split <;> rfl

/-- **C27.** The same agreement of the valid rows in any arithmetic, rounded floats included. -/
theorem C27_any_arithmetic {α : Type} [Num α] (pl : Plane α) (a b : V3 α) :
    (pl.lineXsection a b = if (pl.lineXsectionsRow a b).2 then
      some (pl.lineXsectionsRow a b).1 else none) ∧
    (pl.lineSegmentXsection a b = if (pl.lineSegmentXsectionsRow a b).2 then
      some (pl.lineSegmentXsectionsRow a b).1 else none) := by
  unfold Plane.lineSegmentXsectionsRow Plane.lineSegmentXsection Plane.lineXsectionsRow
    Plane.lineXsection
  refine ⟨?_, ?_⟩
  · by_cases h : Num.eq (V3.dot b pl.normal) (Num.lit 0) = true <;> simp [h]
  · by_cases h : Num.eq (V3.dot (b - a) pl.normal) (Num.lit 0) = true
    · simp [h]
    · simp only [h]
      simp only [Bool.not_false, if_true, Bool.false_eq_true, if_false]
      split
      · rename_i ho; simp [ho]
      · rename_i ho; simp [ho]

/-- non-vacuity: one crossing row and one parallel row -/
example : ∃ (pts rays : List (V3 Fl)), pts.length = rays.length ∧ pts.length = 2 :=
  ⟨[⟨.fin 0, .fin 0, .fin 0⟩, ⟨.fin 0, .fin 0, .fin 1⟩],
   [⟨.fin 0, .fin 0, .fin 1⟩, ⟨.fin 1, .fin 0, .fin 0⟩], rfl, rfl⟩

/-! ### C28 -/

/-- the face's vertices are neither all strictly in front nor all strictly behind -/
def Straddles (pl : Plane ℝ) (vs : List (V3 ℝ)) (f : ℕ × ℕ × ℕ) : Prop :=
  ∃ a b c, vs[f.1]? = some a ∧ vs[f.2.1]? = some b ∧ vs[f.2.2]? = some c ∧
    ¬ (0 < height pl a ∧ 0 < height pl b ∧ 0 < height pl c) ∧
    ¬ (height pl a < 0 ∧ height pl b < 0 ∧ height pl c < 0)

/-- every face refers to existing vertices -/
def ValidFaces {α : Type} (m : Mesh α) : Prop :=
  ∀ f ∈ m.f, f.1 < m.v.length ∧ f.2.1 < m.v.length ∧ f.2.2 < m.v.length

theorem signs_sum (x y z : ℝ) :
    |npSign x + npSign y + npSign z| = 3 ↔ (0 < x ∧ 0 < y ∧ 0 < z) ∨ (x < 0 ∧ y < 0 ∧ z < 0) := by
  simp only [npSign_real]
  rcases lt_trichotomy x 0 with hx | hx | hx <;> rcases lt_trichotomy y 0 with hy | hy | hy <;>
    rcases lt_trichotomy z 0 with hz | hz | hz <;>
    simp [hx, hy, hz, not_lt.mpr hx.le, not_lt.mpr hy.le, not_lt.mpr hz.le] <;> norm_num

theorem faceSelected_real (pl : Plane ℝ) (m : Mesh ℝ) (f : ℕ × ℕ × ℕ)
    (h : f.1 < m.v.length ∧ f.2.1 < m.v.length ∧ f.2.2 < m.v.length) :
    pl.faceSelected m f = .ok (open Classical in decide (Straddles pl m.v f)) := by
  obtain ⟨h1, h2, h3⟩ := h
  have g : ∀ i (hi : i < m.v.length), pyIndex ((pl.signedDistance m.v).map npSign) (i : ℤ) =
      .ok (npSign (height pl m.v[i])) := by
    intro i hi
    apply pyIndex_of_getElem?
    simp [Plane.signedDistance, hi, signedDistance1_real]
  unfold Plane.faceSelected
  simp only [g _ h1, g _ h2, g _ h3, ok_bind, pure_eq_ok]
  congr 1
  rw [Bool.eq_iff_iff]
  simp only [Bool.not_eq_true', decide_eq_true_eq]
  rw [← Bool.not_eq_true, Num.eq_real, npAbs_real']
  simp only [Num.lit_real]
  push_cast
  rw [signs_sum]
  unfold Straddles
  simp only [List.getElem?_eq_getElem h1, List.getElem?_eq_getElem h2, List.getElem?_eq_getElem h3,
    Option.some.injEq, exists_and_left, exists_eq_left', not_or]

/-- **C28.** `mesh_intersecting_faces` selects exactly the faces whose three vertices are not
strictly on one side, in order. -/
theorem C28_faces (pl : Plane ℝ) (m : Mesh ℝ) (hv : ValidFaces m) :
    pl.meshIntersectingFaces m =
      .ok (m.f.filter fun f => open Classical in decide (Straddles pl m.v f)) := by
  have hm : ∀ fs : List (ℕ × ℕ × ℕ), (∀ f ∈ fs, f ∈ m.f) →
      fs.mapM (pl.faceSelected m) =
        .ok (fs.map fun f => open Classical in decide (Straddles pl m.v f)) := by
    intro fs
    induction fs with
    | nil => intro _; rfl
    | cons f fs ih =>
      intro h
      simp [List.mapM_cons, faceSelected_real pl m f (hv f (h f (by simp))),
        ih fun g hg => h g (by simp [hg])]
  unfold Plane.meshIntersectingFaces
  rw [hm m.f fun _ h => h]
  simp only [ok_bind, pure_eq_ok]
  congr 1
  generalize m.f = fs
  induction fs with
  | nil => rfl
  | cons f fs ih =>
    by_cases h : Straddles pl m.v f <;> simp [h] <;>
      simpa [List.filter_map, Function.comp_def] using ih

/-- non-vacuity: a mesh of one face that straddles -/
example : ValidFaces (⟨[⟨0, 0, 1⟩, ⟨1, 0, -1⟩, ⟨0, 1, -1⟩], [(0, 1, 2)]⟩ : Mesh ℝ) ∧
    Straddles ⟨⟨0, 0, 0⟩, ⟨0, 0, 1⟩⟩ [⟨0, 0, 1⟩, ⟨1, 0, -1⟩, ⟨0, 1, -1⟩] (0, 1, 2) := by
  refine ⟨by intro f hf; simp at hf; subst hf; simp, ?_⟩
  refine ⟨_, _, _, rfl, rfl, rfl, ?_, ?_⟩ <;> norm_num [height, inner3, vec3]

end Blmath.Props
