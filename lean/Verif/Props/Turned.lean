import Verif.Props.Motion
import Verif.Props.Rotation
import Verif.Props.GramSchmidt
import Verif.Model.Triangle

/-!
C116: the vector functions in turned and mirrored coordinates.
-/

namespace Blmath.Props
open Blmath Blmath.Geometry Blmath.Spec Blmath.Proofs Blmath.Vx

namespace TU

variable {R : Matrix (Fin 3) (Fin 3) ℝ}

theorem dot_act (hR : R.transpose * R = 1) (u v : V3 ℝ) : V3.dot (act R u) (act R v) = V3.dot u v := place_inner hR u v

theorem norm_act (hR : R.transpose * R = 1) (v : V3 ℝ) : V3.norm (act R v) = V3.norm v := by
  unfold V3.norm; rw [dot_act hR]

theorem sub_act (u v : V3 ℝ) : act R u - act R v = act R (u - v) := by
  simp only [act_eq]
  ext <;> simp <;> ring

theorem smul_act (k : ℝ) (v : V3 ℝ) : V3.smul k (act R v) = act R (V3.smul k v) := by
  simp only [act_eq, V3.smul]
  ext <;> simp only <;> ring

theorem sdiv_act (k : ℝ) (v : V3 ℝ) : V3.sdiv (act R v) k = act R (V3.sdiv v k) := by
  simp only [act_eq, V3.sdiv]
  ext <;> simp only <;> ring

theorem normalize_act (hR : R.transpose * R = 1) (v : V3 ℝ) : normalize3 (act R v) = act R (normalize3 v) := by
  unfold normalize3; rw [norm_act hR, sdiv_act]

theorem transpose_cross (u v : V3 ℝ) : act R.transpose (V3.cross (act R u) (act R v)) = V3.smul R.det (V3.cross u v) := by
  simp only [act_eq, Matrix.transpose_apply, Matrix.det_fin_three, V3.cross, V3.smul]
  ext <;> simp only <;> ring

theorem cross_act (hR : R.transpose * R = 1) (u v : V3 ℝ) :
    V3.cross (act R u) (act R v) = act R (V3.smul R.det (V3.cross u v)) := by
  rw [← transpose_cross, ← act_mul, mul_eq_one_comm.mp hR, act_one]

theorem det_sq (hR : R.transpose * R = 1) : R.det = 1 ∨ R.det = -1 := by
  have h := congrArg Matrix.det hR
  rw [Matrix.det_mul, Matrix.det_transpose, Matrix.det_one] at h
  have : (R.det - 1) * (R.det + 1) = 0 := by linarith
  rcases mul_eq_zero.mp this with h | h
  · left; linarith
  · right; linarith

theorem norm_smul_det (hR : R.transpose * R = 1) (v : V3 ℝ) : V3.norm (V3.smul R.det v) = V3.norm v := by
  unfold V3.norm
  congr 1
  rcases det_sq hR with h | h <;> rw [h] <;> simp only [V3.dot, V3.smul] <;> ring

theorem npSign_neg (x : ℝ) : npSign (-x) = -npSign x := by
  rw [npSign_real, npSign_real]
  rcases lt_trichotomy x 0 with h | h | h
  · simp [h, h.not_gt]
  · simp [h]
  · simp [h, h.not_gt]

end TU
open TU

variable {R : Matrix (Fin 3) (Fin 3) ℝ}

/-- **C116.** Lengths, dot products, `proj`, `reject`, `angle`, `almost_collinear` in turned or mirrored coordinates. -/
theorem C116_vectors (hR : R.transpose * R = 1) (u v : V3 ℝ) :
    V3.norm (act R v) = V3.norm v ∧ V3.dot (act R u) (act R v) = V3.dot u v ∧
    normalize3 (act R v) = act R (normalize3 v) ∧
    proj3 (act R u) (act R v) = act R (proj3 u v) ∧ reject3 (act R u) (act R v) = act R (reject3 u v) ∧
    angle (act R u) (act R v) = angle u v ∧
    ∀ atol, almostCollinear (act R u) (act R v) atol = almostCollinear u v atol := by
  have hp : proj3 (act R u) (act R v) = act R (proj3 u v) := by
    unfold proj3; rw [normalize_act hR, dot_act hR, smul_act]
  refine ⟨norm_act hR v, dot_act hR u v, normalize_act hR v, hp, ?_, ?_, ?_⟩
  · unfold reject3; rw [hp, sub_act]
  · unfold angle; rw [normalize_act hR, normalize_act hR, dot_act hR]
  · intro atol
    unfold almostCollinear
    rw [cross_act hR, norm_act hR, norm_smul_det hR]

/-- **C116.** The cross product and `signed_angle`: kept by rotations; a mirror turns the cross product round and the sign of the
angle, unless the three vectors are coplanar. -/
theorem C116_signed (hR : R.transpose * R = 1) (u v look : V3 ℝ) :
    V3.cross (act R u) (act R v) = act R (V3.smul R.det (V3.cross u v)) ∧
    (R.det = 1 → signedAngle (act R u) (act R v) (act R look) = signedAngle u v look) ∧
    (R.det = -1 → det3 u v look ≠ 0 → signedAngle (act R u) (act R v) (act R look) = -signedAngle u v look) ∧
    (det3 u v look = 0 → signedAngle (act R u) (act R v) (act R look) = signedAngle u v look) ∧
    (R.det = 1 ∨ R.det = -1) := by
  have hd : V3.dot (V3.cross (act R u) (act R v)) (act R look) = R.det * V3.dot (V3.cross u v) look := by
    rw [cross_act hR, dot_act hR]
    simp only [V3.dot, V3.smul]; ring
  have ha := (C116_vectors hR u v).2.2.2.2.2.1
  have hdet : V3.dot (V3.cross u v) look = det3 u v look := rfl
  refine ⟨cross_act hR u v, ?_, ?_, ?_, det_sq hR⟩
  · intro h
    unfold signedAngle
    rw [hd, h, one_mul, ha]
  · intro h h0
    unfold signedAngle
    rw [hd, h, neg_one_mul, npSign_neg, ha, hdet]
    have hn : npSign (det3 u v look) ≠ 0 := by
      rw [npSign_real]
      rcases lt_or_gt_of_ne h0 with h | h
      · simp [h, h.not_gt]
      · simp [h]
    have e1 : Num.eq (npSign (det3 u v look)) (Num.lit 0 : ℝ) = false := by
      rw [Bool.eq_false_iff, ne_eq, Num.lit_real, Num.eq_real]; simpa using hn
    have e2 : Num.eq (-npSign (det3 u v look)) (Num.lit 0 : ℝ) = false := by
      rw [Bool.eq_false_iff, ne_eq, Num.lit_real, Num.eq_real]; simpa using hn
    simp only [e1, e2, Bool.false_eq_true, if_false]
    ring
  · intro h0
    unfold signedAngle
    rw [hd, hdet, h0, mul_zero, ha]

theorem place_sub (c : ℝ) (T p q : V3 ℝ) : place c R T p - place c R T q = act R (V3.smul c (p - q)) := by
  rw [← smul_act, ← sub_act]
  simp only [place, V3.smul]
  ext <;> simp <;> ring

theorem cross_smul (c : ℝ) (u v : V3 ℝ) : V3.cross (V3.smul c u) (V3.smul c v) = V3.smul (c * c) (V3.cross u v) := by
  simp only [V3.cross, V3.smul]
  ext <;> simp only <;> ring

theorem normalize_pos {k : ℝ} (hk : 0 < k) (v : V3 ℝ) : normalize3 (V3.smul k v) = normalize3 v := by
  have hn : V3.norm (V3.smul k v) = k * V3.norm v := by
    rw [V3.norm_real, V3.norm_real]
    have := len3_scale k v
    rw [abs_of_pos hk] at this
    exact this
  unfold normalize3
  rw [hn]
  simp only [V3.sdiv, V3.smul]
  ext <;> simp only <;> rw [mul_div_mul_left _ _ hk.ne']

/-- **C116.** The surface normal of a moved triangle: turned along; reversed by a mirror; unnormalised, it grows with the
square of the scale. -/
theorem C116_normal (hR : R.transpose * R = 1) {c : ℝ} (hc : 0 < c) (T p1 p2 p3 : V3 ℝ) :
    surfaceNormal (place c R T p1) (place c R T p2) (place c R T p3) true = V3.smul R.det (act R (surfaceNormal p1 p2 p3 true)) ∧
    surfaceNormal (place c R T p1) (place c R T p2) (place c R T p3) false =
      V3.smul (R.det * c ^ 2) (act R (surfaceNormal p1 p2 p3 false)) := by
  have h0 : V3.cross (place c R T p2 - place c R T p1) (place c R T p3 - place c R T p1) =
      act R (V3.smul R.det (V3.smul (c * c) (V3.cross (p2 - p1) (p3 - p1)))) := by
    rw [place_sub, place_sub, cross_act hR, cross_smul]
  constructor
  · simp only [surfaceNormal, if_true, h0]
    rw [normalize_act hR, smul_act]
    congr 1
    have hsd : ∀ w : V3 ℝ, normalize3 (V3.smul R.det w) = V3.smul R.det (normalize3 w) := by
      intro w
      unfold normalize3
      rw [norm_smul_det hR]
      simp only [V3.sdiv, V3.smul]
      ext <;> simp only <;> ring
    rw [hsd, normalize_pos (by positivity)]
  · simp only [surfaceNormal, h0, Bool.false_eq_true, if_false]
    rw [smul_act]
    congr 1
    simp only [V3.smul]
    ext <;> simp only <;> ring

/-- **C116.** Barycentric coordinates do not change under turning, mirroring, scaling and moving; degenerate triangles included. -/
theorem C116_barycentric (hR : R.transpose * R = 1) {c : ℝ} (hc : 0 < c) (T p q u v : V3 ℝ) :
    barycentric (place c R T p) (place c R T q) (act R (V3.smul c u)) (act R (V3.smul c v)) = barycentric p q u v := by
  unfold barycentric
  simp only [place_sub, cross_act hR, cross_smul, dot_act hR, norm_smul_det hR]
  have hdd : R.det * R.det = 1 := by rcases det_sq hR with h | h <;> rw [h] <;> norm_num
  have hk : ∀ a b : V3 ℝ, V3.dot (V3.smul R.det (V3.smul (c * c) a)) (V3.smul R.det (V3.smul (c * c) b)) =
      (c * c) ^ 2 * V3.dot a b := by
    intro a b
    simp only [V3.dot, V3.smul]
    linear_combination (c * c) ^ 2 * (a.x * b.x + a.y * b.y + a.z * b.z) * hdd
  simp only [hk]
  have hpos : (0 : ℝ) < (c * c) ^ 2 := by positivity
  by_cases h : V3.dot (V3.cross u v) (V3.cross u v) = 0
  · have hz : V3.cross u v = ⟨0, 0, 0⟩ := by
      simp only [V3.dot] at h
      generalize V3.cross u v = n at h
      have hx : n.x = 0 := by nlinarith [mul_self_nonneg n.x, mul_self_nonneg n.y, mul_self_nonneg n.z]
      have hy : n.y = 0 := by nlinarith [mul_self_nonneg n.x, mul_self_nonneg n.y, mul_self_nonneg n.z]
      have hzz : n.z = 0 := by nlinarith [mul_self_nonneg n.x, mul_self_nonneg n.y, mul_self_nonneg n.z]
      exact V3.ext hx hy hzz
    simp only [hz]
    simp [V3.dot]
  · have e1 : Num.eq ((c * c) ^ 2 * V3.dot (V3.cross u v) (V3.cross u v)) (Num.lit 0 : ℝ) = false := by
      rw [Bool.eq_false_iff, ne_eq, Num.lit_real, Num.eq_real]
      push_cast
      exact mul_ne_zero hpos.ne' h
    have e2 : Num.eq (V3.dot (V3.cross u v) (V3.cross u v)) (Num.lit 0 : ℝ) = false := by
      rw [Bool.eq_false_iff, ne_eq, Num.lit_real, Num.eq_real]
      push_cast
      exact h
    simp only [e1, e2, Bool.false_eq_true, if_false]
    simp only [Num.lit_real]
    have key : ∀ x s : ℝ, s ≠ 0 → (c * c) ^ 2 * x * (((1 : ℚ) : ℝ) / ((c * c) ^ 2 * s)) = x * (((1 : ℚ) : ℝ) / s) := by
      intro x s hs
      have := hpos.ne'
      push_cast
      field_simp
    rw [key _ _ h, key _ _ h]

/-- **C116.** Signed distances grow with the scale, and the projection of a moved point on the moved plane is the moved projection. -/
theorem C116_plane (hR : R.transpose * R = 1) {c : ℝ} (hc : 0 < c) (T p : V3 ℝ) (pl : Plane ℝ) :
    (⟨place c R T pl.r0, act R pl.n⟩ : Plane ℝ).signedDistance1 (place c R T p) = c * pl.signedDistance1 p ∧
    (⟨place c R T pl.r0, act R pl.n⟩ : Plane ℝ).projectPoint (place c R T p) = place c R T (pl.projectPoint p) := by
  have h1 : (⟨place c R T pl.r0, act R pl.n⟩ : Plane ℝ).signedDistance1 (place c R T p) = c * pl.signedDistance1 p := by
    rw [signedDistance1_real, signedDistance1_real]
    simp only [height]
    rw [vec_place, inner3_scale_left, place_inner hR]
  refine ⟨h1, ?_⟩
  unfold Plane.projectPoint
  rw [h1]
  generalize pl.signedDistance1 p = d
  simp only [place, act_eq, V3.smul]
  ext <;> simp <;> ring

/-- **C116.** The rotation that brings `up` and `look` to the axes: for turned vectors, turn back first; only the directions of the
two vectors matter; for mirrored vectors the first row is reversed.  The same exceptions. -/
theorem C116_up_and_look (hR : R.transpose * R = 1) {a b : ℝ} (ha : 0 < a) (hb : 0 < b) (up look : V3 ℝ) :
    (R.det = 1 → rotationFromUpAndLook (act R (V3.smul a up)) (act R (V3.smul b look)) =
      (rotationFromUpAndLook up look).map fun M => M * R.transpose) ∧
    (R.det = -1 → rotationFromUpAndLook (act R (V3.smul a up)) (act R (V3.smul b look)) =
      (rotationFromUpAndLook up look).map fun M => Matrix.diagonal ![-1, 1, 1] * M * R.transpose) := by
  have hnorm : ∀ {k : ℝ}, 0 < k → ∀ w : V3 ℝ, V3.norm (V3.smul k w) = k * V3.norm w := by
    intro k hk w
    rw [V3.norm_real, V3.norm_real]
    have := len3_scale k w
    rw [abs_of_pos hk] at this
    exact this
  have heq : ∀ {k : ℝ}, 0 < k → ∀ w : V3 ℝ, Num.eq (V3.norm (V3.smul k w)) (Num.lit 0 : ℝ) = Num.eq (V3.norm w) (Num.lit 0 : ℝ) := by
    intro k hk w
    rw [Bool.eq_iff_iff, hnorm hk, Num.lit_real, Num.eq_real, Num.eq_real]
    push_cast
    simp [hk.ne']
  have hy : V3.sdiv (act R (V3.smul a up)) (V3.norm (V3.smul a up)) = act R (normalize3 up) := by
    rw [sdiv_act, ← normalize_pos ha up]; rfl
  have hz : act R (V3.smul b look) - V3.smul (V3.dot (act R (V3.smul b look)) (act R (normalize3 up))) (act R (normalize3 up)) =
      act R (V3.smul b (look - V3.smul (V3.dot look (normalize3 up)) (normalize3 up))) := by
    rw [dot_act hR, smul_act, sub_act]
    congr 1
    simp only [V3.smul, V3.dot]
    ext <;> simp <;> ring
  have rows : ∀ x y z : V3 ℝ, ∀ i j, (Mat.ofRows x y z * R.transpose) i j = Mat.ofRows (act R x) (act R y) (act R z) i j := by
    intro x y z i j
    fin_cases i <;> fin_cases j <;> simp [Mat.ofRows, Matrix.mul_apply, Fin.sum_univ_three, act_eq] <;> ring
  have run : rotationFromUpAndLook (act R (V3.smul a up)) (act R (V3.smul b look)) =
      if Num.eq up.norm (Num.lit 0 : ℝ) then raise .ValueError
      else if Num.eq look.norm (Num.lit 0 : ℝ) then raise .ValueError
      else if Num.eq (look - V3.smul (look.dot (normalize3 up)) (normalize3 up)).norm (Num.lit 0 : ℝ) then raise .ValueError
      else .ok (Mat.ofRows
        (act R (V3.smul R.det (V3.cross (normalize3 up) (normalize3 (look - V3.smul (look.dot (normalize3 up)) (normalize3 up))))))
        (act R (normalize3 up)) (act R (normalize3 (look - V3.smul (look.dot (normalize3 up)) (normalize3 up))))) := by
    unfold rotationFromUpAndLook
    simp only [norm_act hR, heq ha, heq hb]
    by_cases h1 : Num.eq up.norm (Num.lit 0 : ℝ) = true
    · rw [if_pos h1, if_pos h1]
    · by_cases h2 : Num.eq look.norm (Num.lit 0 : ℝ) = true
      · rw [if_neg h1, if_neg h1, if_pos h2, if_pos h2]
      · simp only [h1, h2, if_false, Bool.false_eq_true]
        simp only [hy, hz, norm_act hR, heq hb]
        by_cases h3 : Num.eq (look - V3.smul (look.dot (normalize3 up)) (normalize3 up)).norm (Num.lit 0 : ℝ) = true
        · rw [if_pos h3, if_pos h3]
        · simp only [h3, if_false, Bool.false_eq_true]
          have hzz : V3.sdiv (act R (V3.smul b (look - V3.smul (look.dot (normalize3 up)) (normalize3 up))))
              (V3.norm (V3.smul b (look - V3.smul (look.dot (normalize3 up)) (normalize3 up)))) =
              act R (normalize3 (look - V3.smul (look.dot (normalize3 up)) (normalize3 up))) := by
            rw [sdiv_act]; exact congrArg (act R) (normalize_pos hb _)
          rw [hzz, cross_act hR]
  have plain : rotationFromUpAndLook up look =
      if Num.eq up.norm (Num.lit 0 : ℝ) then raise .ValueError
      else if Num.eq look.norm (Num.lit 0 : ℝ) then raise .ValueError
      else if Num.eq (look - V3.smul (look.dot (normalize3 up)) (normalize3 up)).norm (Num.lit 0 : ℝ) then raise .ValueError
      else .ok (Mat.ofRows
        (V3.cross (normalize3 up) (normalize3 (look - V3.smul (look.dot (normalize3 up)) (normalize3 up))))
        (normalize3 up) (normalize3 (look - V3.smul (look.dot (normalize3 up)) (normalize3 up)))) := rfl
  rw [run, plain]
  constructor
  · intro hd
    rw [hd]
    split
    · rfl
    · split
      · rfl
      · split
        · rfl
        · simp only [Except.map, Except.ok.injEq]
          ext i j
          rw [rows]
          congr 3
          simp only [V3.smul, one_mul]
  · intro hd
    rw [hd]
    split
    · rfl
    · split
      · rfl
      · split
        · rfl
        · simp only [Except.map, Except.ok.injEq]
          have hdiag : ∀ x y z : V3 ℝ, Matrix.diagonal ![-1, 1, 1] * Mat.ofRows x y z = Mat.ofRows (V3.smul (-1) x) y z := by
            intro x y z
            ext i j
            fin_cases i <;> fin_cases j <;> simp [Mat.ofRows, Matrix.diagonal_mul]
          rw [hdiag]
          ext i j
          rw [rows]

open Blmath.Linalg in
/-- **C116.** Gram-Schmidt of turned or mirrored rows (`Q` orthogonal, in any dimension): the turned result — for dependent rows
too, with division by zero read as zero (C60 says what floats do). -/
theorem C116_gram_schmidt {n : ℕ} {Q : Matrix (Fin n) (Fin n) ℝ} (hQ : Q.transpose * Q = 1) (v : List (Fin n → ℝ))
    (indices : Option (List ℤ)) :
    orthogonalize (v.map Q.mulVec) = (orthogonalize v).map Q.mulVec ∧
    orthonormalize (v.map Q.mulVec) indices = (orthonormalize v indices).map (List.map Q.mulVec) := by
  have hdot : ∀ a b : Fin n → ℝ, dotRow (Q.mulVec a) (Q.mulVec b) = dotRow a b := by
    intro a b
    rw [dotRow_real, dotRow_real, Matrix.dotProduct_mulVec, Matrix.vecMul_mulVec, hQ, Matrix.vecMul_one]
  have hproj : ∀ a b : Fin n → ℝ, Linalg.proj (Q.mulVec a) (Q.mulVec b) = Q.mulVec (Linalg.proj a b) := by
    intro a b
    have e : Linalg.proj a b = (dotRow a b / dotRow a a) • a := rfl
    rw [e, Matrix.mulVec_smul]
    unfold Linalg.proj
    rw [hdot, hdot]
    rfl
  have hsum : ∀ (l : List (Fin n → ℝ)) (s : Fin n → ℝ), (l.map Q.mulVec).foldl (fun s r i => s i + r i) (Q.mulVec s) =
      Q.mulVec (l.foldl (fun s r i => s i + r i) s) := by
    intro l
    induction l with
    | nil => intro s; rfl
    | cons a l ih =>
      intro s
      simp only [List.map_cons, List.foldl_cons]
      rw [← ih]
      congr 1
      exact (Matrix.mulVec_add Q s a).symm
  have hsum0 : ∀ l : List (Fin n → ℝ), pySumRows (l.map Q.mulVec) = Q.mulVec (pySumRows l) := by
    intro l
    unfold pySumRows
    have h0 : (fun _ => Num.lit 0 : Fin n → ℝ) = Q.mulVec (fun _ => Num.lit 0) := by
      have : (fun _ => Num.lit 0 : Fin n → ℝ) = 0 := by funext i; simp [Num.lit_real]
      rw [this, Matrix.mulVec_zero]
    conv_lhs => rw [h0]
    exact hsum l _
  have hgo : ∀ (rest o : List (Fin n → ℝ)), orthogonalizeFrom (o.map Q.mulVec) (rest.map Q.mulVec) =
      (orthogonalizeFrom o rest).map Q.mulVec := by
    intro rest
    induction rest with
    | nil => intro o; rfl
    | cons a rest ih =>
      intro o
      simp only [List.map_cons, orthogonalizeFrom]
      have h1 : (o.map Q.mulVec).map (fun u => Linalg.proj u (Q.mulVec a)) = (o.map fun u => Linalg.proj u a).map Q.mulVec := by
        rw [List.map_map, List.map_map]
        exact List.map_congr_left fun u _ => hproj u a
      rw [h1, hsum0]
      have h2 : (fun i => Q.mulVec a i - Q.mulVec (pySumRows (o.map fun u => Linalg.proj u a)) i) =
          Q.mulVec (fun i => a i - pySumRows (o.map fun u => Linalg.proj u a) i) := (Matrix.mulVec_sub Q _ _).symm
      rw [h2, ← ih, List.map_append]
      rfl
  have ho : orthogonalize (v.map Q.mulVec) = (orthogonalize v).map Q.mulVec := hgo v []
  refine ⟨ho, ?_⟩
  have hunit : ∀ a : Fin n → ℝ, unitRow (Q.mulVec a) = Q.mulVec (unitRow a) := by
    intro a
    have e : unitRow a = (Num.sqrt (dotRow a a))⁻¹ • a := by
      funext i; simp only [unitRow, Pi.smul_apply, smul_eq_mul, div_eq_inv_mul]
    rw [e, Matrix.mulVec_smul]
    funext i
    simp only [unitRow, Pi.smul_apply, smul_eq_mul, div_eq_inv_mul, hdot]
  have hat : ∀ (res : List (Fin n → ℝ)) (i : ℤ), unitAt (res.map Q.mulVec) i = (unitAt res i).map (List.map Q.mulVec) := by
    intro res i
    unfold unitAt
    rw [List.length_map]
    apply MO.bind_same
    intro j _
    simp only [Except.map, pure_eq_ok, Except.ok.injEq]
    apply List.ext_getElem?
    intro k
    simp only [List.getElem?_modify, List.getElem?_map, Option.map_map]
    by_cases hk : j = k <;> simp [hk, Function.comp_def, hunit]
  have hfold : ∀ (is : List ℤ) (res : List (Fin n → ℝ)), is.foldlM unitAt (res.map Q.mulVec) =
      (is.foldlM unitAt res).map (List.map Q.mulVec) := by
    intro is
    induction is with
    | nil => intro res; rfl
    | cons i is ih =>
      intro res
      rw [List.foldlM_cons, List.foldlM_cons, hat]
      apply MO.bind_map
      intro r _
      exact ih r
  unfold orthonormalize
  rw [ho, List.length_map]
  exact hfold _ _

/-! ### examples -/

/-- a quarter turn and a mirror -/
example : (!![0, -1, 0; 1, 0, 0; 0, 0, 1] : Matrix (Fin 3) (Fin 3) ℝ).transpose * !![0, -1, 0; 1, 0, 0; 0, 0, 1] = 1 ∧
    (!![0, -1, 0; 1, 0, 0; 0, 0, 1] : Matrix (Fin 3) (Fin 3) ℝ).det = 1 ∧
    (!![-1, 0, 0; 0, 1, 0; 0, 0, 1] : Matrix (Fin 3) (Fin 3) ℝ).transpose * !![-1, 0, 0; 0, 1, 0; 0, 0, 1] = 1 ∧
    (!![-1, 0, 0; 0, 1, 0; 0, 0, 1] : Matrix (Fin 3) (Fin 3) ℝ).det = -1 ∧
    det3 ⟨1, 0, 0⟩ ⟨0, 1, 0⟩ ⟨0, 0, 1⟩ ≠ 0 := by
  refine ⟨?_, ?_, ?_, ?_, ?_⟩
  · ext i j; fin_cases i <;> fin_cases j <;> simp [Matrix.mul_apply, Fin.sum_univ_three]
  · simp [Matrix.det_fin_three]
  · ext i j; fin_cases i <;> fin_cases j <;> simp [Matrix.mul_apply, Fin.sum_univ_three]
  · simp [Matrix.det_fin_three]
  · simp [det3, inner3, cross3]

end Blmath.Props
