import Verif.Props.Rotation
import Verif.Proofs.Plane
import Verif.Spec.Svd
import Mathlib.Tactic.NormNum
import Mathlib.LinearAlgebra.Matrix.Adjugate
import Mathlib.Analysis.Real.Pi.Bounds
import Mathlib.Analysis.SpecialFunctions.Trigonometric.Bounds

/-!
Properties C51 and C52: rotation vectors and rotation matrices.
-/

namespace Blmath.Props
open Blmath.Geometry Blmath.Spec

/-- `c·1 + (1 - c)·u uᵀ + s·[u]×` -/
def axisMat (u : V3 ℝ) (c s : ℝ) : Mat 3 3 ℝ :=
  !![c + (1 - c) * (u.x * u.x), (1 - c) * (u.x * u.y) - s * u.z, (1 - c) * (u.x * u.z) + s * u.y;
     (1 - c) * (u.y * u.x) + s * u.z, c + (1 - c) * (u.y * u.y), (1 - c) * (u.y * u.z) - s * u.x;
     (1 - c) * (u.z * u.x) - s * u.y, (1 - c) * (u.z * u.y) + s * u.x, c + (1 - c) * (u.z * u.z)]

theorem axisMat_act (u : V3 ℝ) (c s : ℝ) (v : V3 ℝ) :
    act (axisMat u c s) v = scale3 c v + scale3 ((1 - c) * inner3 u v) u + scale3 s (cross3 u v) := by
  rw [act_eq]
  ext <;> simp [axisMat, scale3, inner3, cross3] <;> ring

theorem axisMat_rot (u : V3 ℝ) (c s : ℝ) (hu : inner3 u u = 1) (hcs : c ^ 2 + s ^ 2 = 1) :
    IsRotation (axisMat u c s) := by
  simp only [inner3] at hu
  refine ⟨?_, ?_⟩
  · have key : (axisMat u c s).transpose * axisMat u c s =
        (c ^ 2 + s ^ 2 * (u.x * u.x + u.y * u.y + u.z * u.z)) • (1 : Mat 3 3 ℝ) +
        (2 * c * (1 - c) + (1 - c) ^ 2 * (u.x * u.x + u.y * u.y + u.z * u.z) - s ^ 2) •
          !![u.x * u.x, u.x * u.y, u.x * u.z; u.y * u.x, u.y * u.y, u.y * u.z; u.z * u.x, u.z * u.y, u.z * u.z] := by
      ext i j
      fin_cases i <;> fin_cases j <;> simp [axisMat, Matrix.mul_apply, Fin.sum_univ_three] <;> ring
    rw [key, hu]
    have e1 : c ^ 2 + s ^ 2 * 1 = 1 := by linarith
    have e2 : 2 * c * (1 - c) + (1 - c) ^ 2 * 1 - s ^ 2 = 0 := by linear_combination -hcs
    rw [e1, e2]
    simp
  · have : (axisMat u c s).det = (c + (1 - c) * (u.x * u.x + u.y * u.y + u.z * u.z)) *
        (c ^ 2 + s ^ 2 * (u.x * u.x + u.y * u.y + u.z * u.z)) := by
      rw [Matrix.det_fin_three]
      simp [axisMat]
      ring
    rw [this, hu]
    linear_combination hcs

theorem eps_pos : (0 : ℝ) < eps := by simp [eps]

theorem rodriguesExp_big (r : V3 ℝ) (h : eps ≤ len3 r) :
    rodriguesExp r = axisMat (scale3 (len3 r)⁻¹ r) (Real.cos (len3 r)) (Real.sin (len3 r)) := by
  have hp : 0 < len3 r := lt_of_lt_of_le eps_pos h
  unfold rodriguesExp
  rw [V3.norm_real]
  rw [if_neg (by simpa using h)]
  have hi : itheta (len3 r) = (len3 r)⁻¹ := by
    unfold itheta
    rw [if_neg (by simpa using hp.ne')]
    simp
  simp only [hi, Mat.eye_real, Mat.add_real, Mat.smul_real, V3.smul_real, Trig.cos_real, Trig.sin_real]
  ext i j
  fin_cases i <;> fin_cases j <;>
    simp [axisMat, outer, skew, Mat.ofRows] <;> ring

theorem rodriguesExp_small (r : V3 ℝ) (h : len3 r < eps) : rodriguesExp r = 1 := by
  unfold rodriguesExp
  rw [V3.norm_real, if_pos (by simpa using h), Mat.eye_real]

theorem unit_inv_scale {r : V3 ℝ} (h : 0 < len3 r) : inner3 (scale3 (len3 r)⁻¹ r) (scale3 (len3 r)⁻¹ r) = 1 := by
  rw [inner3_scale_left, inner3_scale_right, ← len3_mul_self]; field_simp

/-- **C51.** `rodrigues(r)` is a proper rotation, for every vector. -/
theorem C51_rotation (r : V3 ℝ) : IsRotation (rodriguesExp r) := by
  by_cases h : len3 r < eps
  · rw [rodriguesExp_small r h]; exact IsRotation.one
  · rw [not_lt] at h
    rw [rodriguesExp_big r h]
    exact axisMat_rot _ _ _ (unit_inv_scale (lt_of_lt_of_le eps_pos h)) (by rw [add_comm]; exact Real.sin_sq_add_cos_sq _)

/-- **C51.** It fixes `r`. -/
theorem C51_axis (r : V3 ℝ) : act (rodriguesExp r) r = r := by
  by_cases h : len3 r < eps
  · rw [rodriguesExp_small r h, act_one]
  · rw [not_lt] at h
    have hp : 0 < len3 r := lt_of_lt_of_le eps_pos h
    rw [rodriguesExp_big r h, axisMat_act, inner3_scale_left, ← len3_mul_self]
    ext <;> simp [scale3, cross3] <;> field_simp <;> ring

/-- **C51.** If `|r|` is at least the machine epsilon, vectors perpendicular to `r` are turned by
`|r|` radians counterclockwise as seen from the tip of `r`. -/
theorem C51_angle (r v : V3 ℝ) (h : eps ≤ len3 r) (hv : inner3 r v = 0) :
    act (rodriguesExp r) v =
      scale3 (Real.cos (len3 r)) v + scale3 (Real.sin (len3 r)) (cross3 (scale3 (len3 r)⁻¹ r) v) := by
  rw [rodriguesExp_big r h, axisMat_act, inner3_scale_left, hv]
  ext <;> simp [scale3]

/-- **C51.** Below the machine epsilon the result is the identity; the exact rotation would move a
vector of length ℓ perpendicular to `r` by no more than `|r|·ℓ`. -/
theorem C51_small (r : V3 ℝ) (h : len3 r < eps) :
    rodriguesExp r = 1 ∧ ∀ v, r ≠ zero3 → inner3 r v = 0 →
      dist3 (act (rodriguesExp r) v)
        (scale3 (Real.cos (len3 r)) v + scale3 (Real.sin (len3 r)) (cross3 (scale3 (len3 r)⁻¹ r) v)) ≤ len3 r * len3 v := by
  refine ⟨rodriguesExp_small r h, fun v hr hv => ?_⟩
  rw [rodriguesExp_small r h, act_one]
  have hp := len3_pos hr
  have hu := unit_inv_scale hp
  have huv : inner3 (scale3 (len3 r)⁻¹ r) v = 0 := by rw [inner3_scale_left, hv, mul_zero]
  obtain ⟨u, hudef⟩ : ∃ u, u = scale3 (len3 r)⁻¹ r := ⟨_, rfl⟩
  rw [← hudef] at hu huv ⊢
  obtain ⟨t, ht⟩ : ∃ t, t = len3 r := ⟨_, rfl⟩
  rw [← ht] at hp ⊢
  apply abs_le_of_sq_le_sq' _ (mul_nonneg hp.le (len3_nonneg v)) |>.2
  have hcs := Real.sin_sq_add_cos_sq t
  have hK := lagrange3 u v
  rw [hu, huv] at hK
  have hKv : inner3 (cross3 u v) v = 0 := inner3_cross_right u v
  have e : dist3 v (scale3 (Real.cos t) v + scale3 (Real.sin t) (cross3 u v)) ^ 2 = 2 * (1 - Real.cos t) * inner3 v v := by
    unfold dist3
    rw [← inner3_self]
    have : inner3 (vec3 v (scale3 (Real.cos t) v + scale3 (Real.sin t) (cross3 u v))) (vec3 v (scale3 (Real.cos t) v + scale3 (Real.sin t) (cross3 u v))) =
        (Real.cos t - 1) ^ 2 * inner3 v v + 2 * (Real.cos t - 1) * Real.sin t * inner3 (cross3 u v) v + Real.sin t ^ 2 * inner3 (cross3 u v) (cross3 u v) := by
      simp only [inner3, vec3, scale3, V3.add_x, V3.add_y, V3.add_z]; ring
    rw [this, hK, hKv]
    linear_combination inner3 v v * hcs
  rw [e, mul_pow, ← inner3_self v]
  apply mul_le_mul_of_nonneg_right _ (inner3_self_nonneg v)
  have := Real.one_sub_sq_div_two_le_cos (x := t)
  linarith

theorem len3_neg (r : V3 ℝ) : len3 (-r) = len3 r := by
  unfold len3
  simp

/-- **C51.** `rodrigues(-r)` is the inverse, which is the transpose. -/
theorem C51_inverse (r : V3 ℝ) :
    rodriguesExp (-r) = (rodriguesExp r).transpose ∧ rodriguesExp (-r) * rodriguesExp r = 1 := by
  have key : rodriguesExp (-r) = (rodriguesExp r).transpose := by
    by_cases h : len3 r < eps
    · rw [rodriguesExp_small r h, rodriguesExp_small (-r) (by rw [len3_neg]; exact h), Matrix.transpose_one]
    · rw [not_lt] at h
      rw [rodriguesExp_big r h, rodriguesExp_big (-r) (by rw [len3_neg]; exact h), len3_neg]
      ext i j
      fin_cases i <;> fin_cases j <;> simp [axisMat, scale3] <;> ring_nf <;> simp
  exact ⟨key, by rw [key]; exact (C51_rotation r).1⟩

/-- **C51.** Shapes: vectors give matrices, matrices vectors, anything else raises. -/
theorem C51_shapes {α : Type} [Num α] [Trig α] (svd : Svd3 α) (r : V3 α) :
    rodrigues svd (.vec r) = .ok (.mat (rodriguesExp r)) ∧
    asRotationMatrix svd (.vec r) = .ok (rodriguesExp r) ∧
    rodrigues svd .other = .error .GenericException ∧
    asRotationMatrix svd .other = .error .GenericException := ⟨rfl, rfl, rfl, rfl⟩

/-- a quarter turn about z -/
example : act (rodriguesExp ⟨0, 0, Real.pi / 2⟩) ⟨1, 0, 0⟩ = ⟨0, 1, 0⟩ := by
  have hl : len3 ⟨0, 0, Real.pi / 2⟩ = Real.pi / 2 := by
    unfold len3
    simp only
    rw [show (0 : ℝ) ^ 2 + 0 ^ 2 + (Real.pi / 2) ^ 2 = (Real.pi / 2) ^ 2 by ring]
    exact Real.sqrt_sq (by positivity)
  have hpi := Real.pi_gt_three
  rw [C51_angle, hl]
  · ext <;> simp [scale3, cross3] 
  · rw [hl]; simp [eps]; linarith
  · simp [inner3]

/-! C52 -/

/-- a correct decomposition of a rotation multiplies out to the rotation -/
theorem svd_rotation {R u v : Mat 3 3 ℝ} {s : Fin 3 → ℝ} (hR : IsRotation R) (h : SvdSpec R u s v) :
    Mat.mul u v = R := by
  rw [Mat.mul_real]
  have h1 : v.transpose * Matrix.diagonal (fun i => s i * s i) * v = 1 := by
    have := hR.1
    rw [h.factor] at this
    rw [← this]
    simp only [Matrix.transpose_mul, Matrix.diagonal_transpose]
    have : v.transpose * (Matrix.diagonal s * u.transpose) * (u * Matrix.diagonal s * v) =
        v.transpose * (Matrix.diagonal s * (u.transpose * u) * Matrix.diagonal s) * v := by
      simp only [Matrix.mul_assoc]
    rw [this, h.left, Matrix.mul_one, Matrix.diagonal_mul_diagonal]
  have hv : v * v.transpose = 1 := mul_eq_one_comm.mp h.right
  have h2 : Matrix.diagonal (fun i => s i * s i) = 1 := by
    calc Matrix.diagonal (fun i => s i * s i) = (v * v.transpose) * Matrix.diagonal (fun i => s i * s i) * (v * v.transpose) := by
          rw [hv]; simp
      _ = v * (v.transpose * Matrix.diagonal (fun i => s i * s i) * v) * v.transpose := by simp only [Matrix.mul_assoc]
      _ = 1 := by rw [h1, Matrix.mul_one, hv]
  have h3 : s = fun _ => 1 := by
    funext i
    have := congrFun (congrFun h2 i) i
    rw [Matrix.diagonal_apply_eq, Matrix.one_apply_eq] at this
    have h0 := h.nonneg i
    nlinarith
  rw [h.factor, h3]
  have : Matrix.diagonal (fun _ : Fin 3 => (1 : ℝ)) = 1 := Matrix.diagonal_one
  rw [this, Matrix.mul_one]

/-- cosine of the angle of a rotation -/
noncomputable def cosOf (R : Mat 3 3 ℝ) : ℝ := (R 0 0 + R 1 1 + R 2 2 - 1) / 2
/-- sine of the angle times the axis -/
noncomputable def sinAxis (R : Mat 3 3 ℝ) : V3 ℝ :=
  ⟨(R 2 1 - R 1 2) / 2, (R 0 2 - R 2 0) / 2, (R 1 0 - R 0 1) / 2⟩

theorem rot_entries {R : Mat 3 3 ℝ} (hR : IsRotation R) :
    (1 + cosOf R) * (R 0 0 - cosOf R) = (sinAxis R).x ^ 2 ∧
    (1 + cosOf R) * (R 1 1 - cosOf R) = (sinAxis R).y ^ 2 ∧
    (1 + cosOf R) * (R 2 2 - cosOf R) = (sinAxis R).z ^ 2 ∧
    (1 + cosOf R) * ((R 0 1 + R 1 0) / 2) = (sinAxis R).x * (sinAxis R).y ∧
    (1 + cosOf R) * ((R 0 2 + R 2 0) / 2) = (sinAxis R).x * (sinAxis R).z ∧
    (1 + cosOf R) * ((R 1 2 + R 2 1) / 2) = (sinAxis R).y * (sinAxis R).z := by
  have hc : ∀ i j, (R.transpose * R) i j = (1 : Mat 3 3 ℝ) i j := fun i j => by rw [hR.1]
  have hr : ∀ i j, (R * R.transpose) i j = (1 : Mat 3 3 ℝ) i j := fun i j => by rw [hR.mul_transpose]
  have hadj : R.transpose = R.adjugate := by
    have h1 : R * R.adjugate = 1 := by rw [Matrix.mul_adjugate, hR.2, one_smul]
    calc R.transpose = R.transpose * (R * R.adjugate) := by rw [h1, Matrix.mul_one]
      _ = R.adjugate := by rw [← Matrix.mul_assoc, hR.1, Matrix.one_mul]
  rw [Matrix.adjugate_fin_three] at hadj
  have ha : ∀ i j, R.transpose i j = _ := fun i j => congrFun (congrFun hadj i) j
  simp only [Matrix.mul_apply, Fin.sum_univ_three, Matrix.transpose_apply] at hc hr ha
  have c00 := hc 0 0; have c11 := hc 1 1; have c22 := hc 2 2
  have c01 := hc 0 1; have c02 := hc 0 2; have c12 := hc 1 2
  have r00 := hr 0 0; have r11 := hr 1 1; have r22 := hr 2 2
  have r01 := hr 0 1; have r02 := hr 0 2; have r12 := hr 1 2
  have a00 := ha 0 0; have a11 := ha 1 1; have a22 := ha 2 2
  have a01 := ha 0 1; have a02 := ha 0 2; have a12 := ha 1 2
  have a10 := ha 1 0; have a20 := ha 2 0; have a21 := ha 2 1
  simp at c00 c11 c22 c01 c02 c12 r00 r11 r22 r01 r02 r12 a00 a11 a22 a01 a02 a12 a10 a20 a21
  simp only [cosOf, sinAxis]
  generalize R 0 0 = m00 at *
  generalize R 0 1 = m01 at *
  generalize R 0 2 = m02 at *
  generalize R 1 0 = m10 at *
  generalize R 1 1 = m11 at *
  generalize R 1 2 = m12 at *
  generalize R 2 0 = m20 at *
  generalize R 2 1 = m21 at *
  generalize R 2 2 = m22 at *
  refine ⟨?_, ?_, ?_, ?_, ?_, ?_⟩
  all_goals linarith

theorem cos_sin_sq {R : Mat 3 3 ℝ} (hR : IsRotation R) : inner3 (sinAxis R) (sinAxis R) = 1 - cosOf R ^ 2 := by
  obtain ⟨h1, h2, h3, -, -, -⟩ := rot_entries hR
  have : R 0 0 + R 1 1 + R 2 2 = 2 * cosOf R + 1 := by unfold cosOf; ring
  simp only [inner3]
  linear_combination -h1 - h2 - h3 + (1 + cosOf R) * this

theorem cos_bounds {R : Mat 3 3 ℝ} (hR : IsRotation R) : -1 ≤ cosOf R ∧ cosOf R ≤ 1 := by
  have h := cos_sin_sq hR
  have h0 := inner3_self_nonneg (sinAxis R)
  constructor <;> nlinarith

theorem sinAxis_len {R : Mat 3 3 ℝ} (hR : IsRotation R) : len3 (sinAxis R) = Real.sin (Real.arccos (cosOf R)) := by
  rw [Real.sin_arccos, ← cos_sin_sq hR, inner3_self, Real.sqrt_sq (len3_nonneg _)]

theorem clip11_real {x : ℝ} (h1 : -1 ≤ x) (h2 : x ≤ 1) : clip11 x = x := by
  have a : npMax x (Num.lit (-1)) = x := by
    unfold npMax npIsNan
    simp only [Num.lit_real]
    rw [if_neg (by simp), if_neg (by simp), if_neg (by simp; linarith)]
  unfold clip11
  rw [a]
  unfold npMin npIsNan
  simp only [Num.lit_real]
  rw [if_neg (by simp), if_neg (by simp), if_neg (by simp; linarith)]

/-- what `rodrigues` computes from a rotation matrix -/
theorem logOrth_eq {R : Mat 3 3 ℝ} (hR : IsRotation R) : rodriguesLogOrth R =
    if len3 (sinAxis R) < 1 / 100000 then
      if 0 < cosOf R then zero3
      else scale3 (Real.arccos (cosOf R) / len3 (halfTurnAxis R)) (halfTurnAxis R)
    else scale3 (Real.arccos (cosOf R) / len3 (sinAxis R)) (sinAxis R) := by
  have hc : clip11 ((R 0 0 + R 1 1 + R 2 2 - Num.lit 1) * Num.lit (1 / 2)) = cosOf R := by
    have : (R 0 0 + R 1 1 + R 2 2 - Num.lit 1) * Num.lit (1 / 2) = cosOf R := by
      simp [cosOf]; ring
    rw [this]
    exact clip11_real (cos_bounds hR).1 (cos_bounds hR).2
  have hv : (⟨R 2 1 - R 1 2, R 0 2 - R 2 0, R 1 0 - R 0 1⟩ : V3 ℝ) = scale3 2 (sinAxis R) := by
    ext <;> simp [scale3, sinAxis] <;> ring
  have hq : Num.sqrt (Num.lit (1 / 4) : ℝ) = 1 / 2 := by
    simp only [Num.sqrt_real, Num.lit_real]
    rw [show (((1 / 4 : ℚ)) : ℝ) = (1 / 2) ^ 2 by norm_num]
    exact Real.sqrt_sq (by norm_num)
  have hs : (scale3 2 (sinAxis R)).norm * Num.sqrt (Num.lit (1 / 4) : ℝ) = len3 (sinAxis R) := by
    rw [V3.norm_real, len3_scale, hq]; norm_num; ring
  unfold rodriguesLogOrth
  simp only [hc, hv, hs]
  have hlit : (Num.lit (1 / 100000) : ℝ) = 1 / 100000 := by simp
  have h0 : (Num.lit 0 : ℝ) = 0 := by simp
  simp only [Num.lt_real, hlit, h0, Trig.acos_real, V3.norm_real, V3.smul_real]
  split
  · split
    · simp [V3.zero, zero3]
    · rfl
  · rename_i hge
    rw [scale3_scale3]
    congr 1
    simp only [Num.lit_real]
    have : len3 (sinAxis R) ≠ 0 := by
      intro e; rw [e] at hge; norm_num at hge
    push_cast
    field_simp

theorem axisMat_sinAxis (u : V3 ℝ) (c s : ℝ) (hu : inner3 u u = 1) :
    sinAxis (axisMat u c s) = scale3 s u ∧ cosOf (axisMat u c s) = c := by
  simp only [inner3] at hu
  refine ⟨?_, ?_⟩
  · ext <;> simp [sinAxis, axisMat, scale3] <;> ring
  · simp [cosOf, axisMat]
    linear_combination (1 - c) / 2 * hu

theorem rodriguesLog_rot {svd : Svd3 ℝ} {R u v : Mat 3 3 ℝ} {s : Fin 3 → ℝ} (hR : IsRotation R)
    (hsvd : svd R = .ok (u, s, v)) (h : SvdSpec R u s v) : rodriguesLog svd R = .ok (rodriguesLogOrth R) := by
  unfold rodriguesLog
  rw [hsvd]
  simp only [ok_bind, pure_eq_ok, svd_rotation hR h]

/-- **C52.** Vector to matrix to vector: `r` comes back, whenever `|r| ≤ π` and `sin |r|` is at least
the tolerance 1e-5; also for the zero vector. -/
theorem C52_log_exp (svd : Svd3 ℝ) (r : V3 ℝ) (u v : Mat 3 3 ℝ) (s : Fin 3 → ℝ)
    (hsvd : svd (rodriguesExp r) = .ok (u, s, v)) (hspec : SvdSpec (rodriguesExp r) u s v)
    (hr : r = zero3 ∨ (len3 r ≤ Real.pi ∧ 1 / 100000 ≤ Real.sin (len3 r))) :
    rodriguesLog svd (rodriguesExp r) = .ok r := by
  rw [rodriguesLog_rot (C51_rotation r) hsvd hspec, logOrth_eq (C51_rotation r)]
  rcases hr with rfl | ⟨hpi, hsin⟩
  · have : rodriguesExp zero3 = 1 := rodriguesExp_small _ (by
      rw [len3_eq_zero.mpr rfl]; exact eps_pos)
    rw [this]
    have hw : sinAxis (1 : Mat 3 3 ℝ) = zero3 := by simp [sinAxis, zero3]
    have hc : cosOf (1 : Mat 3 3 ℝ) = 1 := by norm_num [cosOf]
    rw [hw, hc, len3_eq_zero.mpr rfl, if_pos (by norm_num), if_pos one_pos]
  · have hle : 1 / 100000 ≤ len3 r := le_trans hsin (Real.sin_le (len3_nonneg r))
    have heps : eps ≤ len3 r := by
      have : (eps : ℝ) ≤ 1 / 100000 := by simp [eps]; norm_num
      linarith
    have hp : 0 < len3 r := lt_of_lt_of_le eps_pos heps
    have hu := unit_inv_scale hp
    obtain ⟨h1, h2⟩ := axisMat_sinAxis (scale3 (len3 r)⁻¹ r) (Real.cos (len3 r)) (Real.sin (len3 r)) hu
    have hsp : 0 < Real.sin (len3 r) := by linarith
    have hlen : len3 (scale3 (Real.sin (len3 r)) (scale3 (len3 r)⁻¹ r)) = Real.sin (len3 r) := by
      rw [len3_scale, len3_scale, abs_of_pos hsp, abs_of_pos (inv_pos.mpr hp)]
      field_simp
    rw [rodriguesExp_big r heps, h1, h2, hlen, if_neg (by linarith), Real.arccos_cos hp.le hpi, scale3_scale3, scale3_scale3]
    have : len3 r / Real.sin (len3 r) * Real.sin (len3 r) * (len3 r)⁻¹ = 1 := by field_simp
    congr 1
    rw [this, scale3_one]

/-- **C52.** Below the tolerance the vector is lost: the zero vector comes back. -/
theorem C52_log_lost (svd : Svd3 ℝ) (r : V3 ℝ) (u v : Mat 3 3 ℝ) (s : Fin 3 → ℝ)
    (hsvd : svd (rodriguesExp r) = .ok (u, s, v)) (hspec : SvdSpec (rodriguesExp r) u s v)
    (hr : len3 r < 1 / 100000) : rodriguesLog svd (rodriguesExp r) = .ok zero3 := by
  rw [rodriguesLog_rot (C51_rotation r) hsvd hspec, logOrth_eq (C51_rotation r)]
  by_cases h : len3 r < eps
  · rw [rodriguesExp_small _ h]
    have hw : sinAxis (1 : Mat 3 3 ℝ) = zero3 := by simp [sinAxis, zero3]
    have hc : cosOf (1 : Mat 3 3 ℝ) = 1 := by norm_num [cosOf]
    rw [hw, hc, len3_eq_zero.mpr rfl, if_pos (by norm_num), if_pos one_pos]
  · rw [not_lt] at h
    have hp : 0 < len3 r := lt_of_lt_of_le eps_pos h
    have hu := unit_inv_scale hp
    obtain ⟨h1, h2⟩ := axisMat_sinAxis (scale3 (len3 r)⁻¹ r) (Real.cos (len3 r)) (Real.sin (len3 r)) hu
    have hpi := Real.pi_gt_three
    have hsp : 0 < Real.sin (len3 r) := Real.sin_pos_of_pos_of_lt_pi hp (by linarith)
    have hcp : 0 < Real.cos (len3 r) := Real.cos_pos_of_mem_Ioo ⟨by linarith, by linarith⟩
    have hlen : len3 (scale3 (Real.sin (len3 r)) (scale3 (len3 r)⁻¹ r)) = Real.sin (len3 r) := by
      rw [len3_scale, len3_scale, abs_of_pos hsp, abs_of_pos (inv_pos.mpr hp)]
      field_simp
    have := Real.sin_le hp.le
    rw [rodriguesExp_big r h, h1, h2, hlen, if_pos (by linarith), if_pos hcp]

/-- **C52.** Matrix to vector to matrix: a rotation whose angle has sine at least 1e-5 comes back. -/
theorem C52_exp_log (svd : Svd3 ℝ) (R u v : Mat 3 3 ℝ) (s : Fin 3 → ℝ) (hR : IsRotation R)
    (hsvd : svd R = .ok (u, s, v)) (hspec : SvdSpec R u s v)
    (hbig : 1 / 100000 ≤ len3 (sinAxis R)) : asRotationMatrix svd (.mat R) = .ok R := by
  unfold asRotationMatrix
  simp only
  rw [rodriguesLog_rot hR hsvd hspec]
  simp only [ok_bind, pure_eq_ok]
  congr 1
  rw [logOrth_eq hR, if_neg (by linarith)]
  obtain ⟨hb1, hb2⟩ := cos_bounds hR
  have hlp : 0 < len3 (sinAxis R) := by linarith
  have hsq := cos_sin_sq hR
  have hth : 0 < Real.arccos (cosOf R) := by
    rw [Real.arccos_pos]
    rcases hb2.lt_or_eq with h | h
    · exact h
    · rw [h, inner3_self] at hsq
      nlinarith
  have hlen : len3 (scale3 (Real.arccos (cosOf R) / len3 (sinAxis R)) (sinAxis R)) = Real.arccos (cosOf R) := by
    rw [len3_scale, abs_of_pos (by positivity)]
    field_simp
  have hge : eps ≤ Real.arccos (cosOf R) := by
    have h1 : (eps : ℝ) ≤ 1 / 100000 := by simp [eps]; norm_num
    have h2 := Real.sin_le hth.le
    rw [← sinAxis_len hR] at h2
    linarith
  rw [rodriguesExp_big _ (by rw [hlen]; exact hge), hlen, scale3_scale3, Real.cos_arccos hb1 hb2, ← sinAxis_len hR]
  have hk : (Real.arccos (cosOf R))⁻¹ * (Real.arccos (cosOf R) / len3 (sinAxis R)) = (len3 (sinAxis R))⁻¹ := by field_simp
  rw [hk]
  obtain ⟨e00, e11, e22, e01, e02, e12⟩ := rot_entries hR
  rw [inner3_self] at hsq
  have hc1 : 1 + cosOf R ≠ 0 := by
    intro h
    have : cosOf R = -1 := by linarith
    rw [this] at hsq
    nlinarith
  have hl2 : len3 (sinAxis R) ^ 2 = (1 - cosOf R) * (1 + cosOf R) := by rw [hsq]; ring
  have hcne : 1 - cosOf R ≠ 0 := by
    intro h; rw [h, zero_mul] at hl2
    nlinarith
  have hl : len3 (sinAxis R) ≠ 0 := hlp.ne'
  -- products of components of the unit axis
  have hpq : ∀ a b e : ℝ, (1 + cosOf R) * e = a * b →
      (1 - cosOf R) * ((len3 (sinAxis R))⁻¹ * a * ((len3 (sinAxis R))⁻¹ * b)) = e := by
    intro a b e h
    have : (1 - cosOf R) * ((len3 (sinAxis R))⁻¹ * a * ((len3 (sinAxis R))⁻¹ * b)) =
        (1 - cosOf R) * (a * b) / len3 (sinAxis R) ^ 2 := by field_simp
    rw [this, hl2, ← h]
    field_simp
  have hlin : ∀ a : ℝ, len3 (sinAxis R) * ((len3 (sinAxis R))⁻¹ * a) = a := by
    intro a; field_simp
  have x00 := hpq _ _ _ (show (1 + cosOf R) * (R 0 0 - cosOf R) = (sinAxis R).x * (sinAxis R).x by rw [e00]; ring)
  have x11 := hpq _ _ _ (show (1 + cosOf R) * (R 1 1 - cosOf R) = (sinAxis R).y * (sinAxis R).y by rw [e11]; ring)
  have x22 := hpq _ _ _ (show (1 + cosOf R) * (R 2 2 - cosOf R) = (sinAxis R).z * (sinAxis R).z by rw [e22]; ring)
  have x01 := hpq _ _ _ e01
  have x02 := hpq _ _ _ e02
  have x12 := hpq _ _ _ e12
  have x10 := hpq _ _ _ (show _ = (sinAxis R).y * (sinAxis R).x by rw [mul_comm (sinAxis R).y]; exact e01)
  have x20 := hpq _ _ _ (show _ = (sinAxis R).z * (sinAxis R).x by rw [mul_comm (sinAxis R).z]; exact e02)
  have x21 := hpq _ _ _ (show _ = (sinAxis R).z * (sinAxis R).y by rw [mul_comm (sinAxis R).z]; exact e12)
  ext i j
  fin_cases i <;> fin_cases j <;> simp only [axisMat, scale3, Fin.zero_eta, Fin.mk_one, Fin.reduceFinMk, Matrix.of_apply,
      Matrix.cons_val_zero, Matrix.cons_val_one, Matrix.cons_val, hlin]
  · rw [x00]; ring
  · rw [x01]; simp only [sinAxis]; ring
  · rw [x02]; simp only [sinAxis]; ring
  · rw [x10]; simp only [sinAxis]; ring
  · rw [x11]; ring
  · rw [x12]; simp only [sinAxis]; ring
  · rw [x20]; simp only [sinAxis]; ring
  · rw [x21]; simp only [sinAxis]; ring
  · rw [x22]; ring

/-- **C52.** Rotations whose angle is below 90° and has sine below 1e-5 are replaced by the identity. -/
theorem C52_small_angle (svd : Svd3 ℝ) (R u v : Mat 3 3 ℝ) (s : Fin 3 → ℝ) (hR : IsRotation R)
    (hsvd : svd R = .ok (u, s, v)) (hspec : SvdSpec R u s v)
    (hsmall : len3 (sinAxis R) < 1 / 100000) (hc : 0 < cosOf R) : asRotationMatrix svd (.mat R) = .ok 1 := by
  unfold asRotationMatrix
  simp only
  rw [rodriguesLog_rot hR hsvd hspec]
  simp only [ok_bind, pure_eq_ok]
  congr 1
  rw [logOrth_eq hR, if_pos hsmall, if_pos hc, rodriguesExp_small]
  rw [len3_eq_zero.mpr rfl]; exact eps_pos

/-! Half turns. -/

theorem halfTurnComp_real (d : ℝ) : halfTurnComp d = Real.sqrt ((d + 1) / 2) := by
  unfold halfTurnComp npMax npIsNan
  have : (d + Num.lit 1) * Num.lit (1 / 2) = (d + 1) / 2 := by simp; ring
  rw [this]
  rw [if_neg (by simp), if_neg (by simp), if_neg]
  · rfl
  · rw [Num.lt_real]
    simp only [Num.lit_real, Num.sqrt_real, Rat.cast_zero]
    exact not_lt.mpr (Real.sqrt_nonneg _)

/-- choosing the signs of the square roots from the signs of the products -/
theorem sign_choice (p00 p11 p22 p01 p02 p12 x y z : ℝ) (hx : 0 ≤ x) (hy : 0 ≤ y) (hz : 0 ≤ z)
    (hx2 : x * x = p00) (hy2 : y * y = p11) (hz2 : z * z = p22)
    (h01 : p01 ^ 2 = p00 * p11) (h02 : p02 ^ 2 = p00 * p22) (h12 : p12 ^ 2 = p11 * p22)
    (hmix : p00 * p12 = p01 * p02) (ry rz rz' : ℝ) (hry : ry = if p01 < 0 then -y else y)
    (hrz : rz = if p02 < 0 then -z else z)
    (hrz' : rz' = if (|x| < |ry| ∧ |x| < |rz|) ∧ ¬ (0 < p12 ↔ 0 < ry * rz) then -rz else rz) :
    x * ry = p01 ∧ x * rz' = p02 ∧ ry * rz' = p12 ∧ ry * ry = p11 ∧ rz' * rz' = p22 := by
  have ryy : ry * ry = p11 := by rw [hry]; split <;> linarith
  have rzz : rz * rz = p22 := by rw [hrz]; split <;> linarith
  have key : ∀ p a b : ℝ, 0 ≤ a → 0 ≤ b → p ^ 2 = (a * a) * (b * b) → a * (if p < 0 then -b else b) = p := by
    intro p a b ha hb h
    have hab : 0 ≤ a * b := mul_nonneg ha hb
    split
    · rename_i hp
      have : (a * b) ^ 2 = (-p) ^ 2 := by linear_combination -h
      have := (pow_left_inj₀ hab (by linarith) two_ne_zero).mp this
      linarith
    · rename_i hp
      have : (a * b) ^ 2 = p ^ 2 := by linear_combination -h
      exact (pow_left_inj₀ hab (by linarith) two_ne_zero).mp this
  have e01 : x * ry = p01 := by rw [hry]; exact key _ _ _ hx hy (by rw [hx2, hy2]; exact h01)
  have e02 : x * rz = p02 := by rw [hrz]; exact key _ _ _ hx hz (by rw [hx2, hz2]; exact h02)
  rcases hx.lt_or_eq with hxp | hx0
  · -- the signs are already right
    have e12 : ry * rz = p12 := by
      have h00 : p00 ≠ 0 := by rw [← hx2]; positivity
      apply mul_left_cancel₀ h00
      rw [hmix, ← e01, ← e02, ← hx2]; ring
    have : rz' = rz := by
      rw [hrz', if_neg]
      rintro ⟨-, h⟩
      exact h (by rw [e12])
    rw [this]
    exact ⟨e01, e02, e12, ryy, rzz⟩
  · have hp01 : p01 = 0 := by rw [← e01, ← hx0, zero_mul]
    have hp02 : p02 = 0 := by rw [← e02, ← hx0, zero_mul]
    have ry' : ry = y := by rw [hry, hp01, if_neg (lt_irrefl _)]
    have rz0 : rz = z := by rw [hrz, hp02, if_neg (lt_irrefl _)]
    rw [ry', rz0, ← hx0] at hrz'
    rw [ry', ← hx0]
    have hyz : 0 ≤ y * z := mul_nonneg hy hz
    have hsq : p12 ^ 2 = (y * z) ^ 2 := by rw [h12, ← hy2, ← hz2]; ring
    have habs : |p12| = y * z := by
      rw [← abs_of_nonneg hyz]; exact (sq_eq_sq_iff_abs_eq_abs _ _).mp hsq
    simp only [abs_zero, abs_pos] at hrz'
    refine ⟨by rw [hp01]; ring, by rw [hp02]; ring, ?_, hy2, ?_⟩
    · rw [hrz']
      split
      · rename_i h
        obtain ⟨⟨hy0, hz0⟩, hne⟩ := h
        have hpos : 0 < y * z := lt_of_le_of_ne hyz (Ne.symm (mul_ne_zero hy0 hz0))
        have hn : ¬ 0 < p12 := fun h' => hne ⟨fun _ => hpos, fun _ => h'⟩
        rw [abs_of_nonpos (not_lt.mp hn)] at habs
        linarith
      · rename_i h
        by_cases h0 : y * z = 0
        · rw [h0] at habs ⊢
          exact (abs_eq_zero.mp habs).symm
        · have hy0 : y ≠ 0 := left_ne_zero_of_mul h0
          have hz0 : z ≠ 0 := right_ne_zero_of_mul h0
          have hpos : 0 < y * z := lt_of_le_of_ne hyz (Ne.symm h0)
          have : 0 < p12 := by
            by_contra hn
            exact h ⟨⟨hy0, hz0⟩, fun hiff => hn (hiff.mpr hpos)⟩
          rw [abs_of_pos this] at habs
          exact habs.symm
    · rw [hrz']; split <;> linarith

theorem half_turn_entries {R : Mat 3 3 ℝ} (hR : IsRotation R) (hc : cosOf R = -1) :
    (R 2 1 = R 1 2 ∧ R 2 0 = R 0 2 ∧ R 1 0 = R 0 1) ∧ R 0 0 + R 1 1 + R 2 2 = -1 ∧
    (0 ≤ (R 0 0 + 1) / 2 ∧ 0 ≤ (R 1 1 + 1) / 2 ∧ 0 ≤ (R 2 2 + 1) / 2) ∧
    (R 0 1 / 2) ^ 2 = (R 0 0 + 1) / 2 * ((R 1 1 + 1) / 2) ∧
    (R 0 2 / 2) ^ 2 = (R 0 0 + 1) / 2 * ((R 2 2 + 1) / 2) ∧
    (R 1 2 / 2) ^ 2 = (R 1 1 + 1) / 2 * ((R 2 2 + 1) / 2) ∧
    (R 0 0 + 1) / 2 * (R 1 2 / 2) = R 0 1 / 2 * (R 0 2 / 2) := by
  have hw : sinAxis R = zero3 := by
    rw [← inner3_self_eq_zero, cos_sin_sq hR, hc]; norm_num
  have s21 : R 2 1 = R 1 2 := by have := congrArg V3.x hw; simp [sinAxis, zero3] at this; linarith
  have s02 : R 2 0 = R 0 2 := by have := congrArg V3.y hw; simp [sinAxis, zero3] at this; linarith
  have s10 : R 1 0 = R 0 1 := by have := congrArg V3.z hw; simp [sinAxis, zero3] at this; linarith
  have htr : R 0 0 + R 1 1 + R 2 2 = -1 := by unfold cosOf at hc; linarith
  have hadj : R.transpose = R.adjugate := by
    have h1 : R * R.adjugate = 1 := by rw [Matrix.mul_adjugate, hR.2, one_smul]
    calc R.transpose = R.transpose * (R * R.adjugate) := by rw [h1, Matrix.mul_one]
      _ = R.adjugate := by rw [← Matrix.mul_assoc, hR.1, Matrix.one_mul]
  rw [Matrix.adjugate_fin_three] at hadj
  have ha : ∀ i j, R.transpose i j = _ := fun i j => congrFun (congrFun hadj i) j
  have hcc : ∀ i j, (R.transpose * R) i j = (1 : Mat 3 3 ℝ) i j := fun i j => by rw [hR.1]
  simp only [Matrix.mul_apply, Fin.sum_univ_three, Matrix.transpose_apply] at ha hcc
  have a00 := ha 0 0; have a11 := ha 1 1; have a22 := ha 2 2
  have a12 := ha 1 2
  have c00 := hcc 0 0; have c11 := hcc 1 1; have c22 := hcc 2 2
  simp [s21, s02, s10] at a00 a11 a22 a12 c00 c11 c22
  clear ha hcc hadj hw hc hR
  refine ⟨⟨s21, s02, s10⟩, htr, ?_⟩
  generalize R 0 0 = m00 at *
  generalize R 0 1 = m01 at *
  generalize R 0 2 = m02 at *
  generalize R 1 1 = m11 at *
  generalize R 1 2 = m12 at *
  generalize R 2 2 = m22 at *
  clear s21 s02 s10
  refine ⟨⟨?_, ?_, ?_⟩, ?_, ?_, ?_, ?_⟩
  · nlinarith [sq_nonneg m01, sq_nonneg m02, sq_nonneg (m00 + 1)]
  · nlinarith [sq_nonneg m01, sq_nonneg m12, sq_nonneg (m11 + 1)]
  · nlinarith [sq_nonneg m02, sq_nonneg m12, sq_nonneg (m22 + 1)]
  all_goals linarith

theorem halfTurnAxis_spec {R : Mat 3 3 ℝ} (hR : IsRotation R) (hc : cosOf R = -1) :
    inner3 (halfTurnAxis R) (halfTurnAxis R) = 1 ∧ axisMat (halfTurnAxis R) (-1) 0 = R := by
  obtain ⟨⟨s21, s02, s10⟩, htr, ⟨n00, n11, n22⟩, q01, q02, q12, qm⟩ := half_turn_entries hR hc
  obtain ⟨ax, hax⟩ : ∃ ax, ax = Real.sqrt ((R 0 0 + 1) / 2) := ⟨_, rfl⟩
  obtain ⟨ay, hay⟩ : ∃ ay, ay = if R 0 1 < 0 then -Real.sqrt ((R 1 1 + 1) / 2) else Real.sqrt ((R 1 1 + 1) / 2) := ⟨_, rfl⟩
  obtain ⟨az, haz⟩ : ∃ az, az = if R 0 2 < 0 then -Real.sqrt ((R 2 2 + 1) / 2) else Real.sqrt ((R 2 2 + 1) / 2) := ⟨_, rfl⟩
  obtain ⟨az', haz'⟩ : ∃ az', az' = if (|ax| < |ay| ∧ |ax| < |az|) ∧ ¬ (0 < R 1 2 ↔ 0 < ay * az) then -az else az := ⟨_, rfl⟩
  have haxis : halfTurnAxis R = ⟨ax, ay, az'⟩ := by
    unfold halfTurnAxis
    have hb : ∀ (p q : ℝ), (¬ Num.lt 0 p = Num.lt 0 q) ↔ ¬ (0 < p ↔ 0 < q) := by
      intro p q
      rw [← Num.lt_real, ← Num.lt_real, Bool.eq_iff_iff]
    simp only [halfTurnComp_real, npAbs_real', Num.lt_real, Bool.and_eq_true, bne_iff_ne, ne_eq, Num.lit_real, Rat.cast_zero,
      hb, ← hax, ← hay, ← haz, ← haz']
  have neg_half : ∀ t : ℝ, t / 2 < 0 ↔ t < 0 := fun t => ⟨fun h => by linarith, fun h => by linarith⟩
  have pos_half : ∀ t : ℝ, 0 < t / 2 ↔ 0 < t := fun t => ⟨fun h => by linarith, fun h => by linarith⟩
  have e00 : ax * ax = (R 0 0 + 1) / 2 := by rw [hax]; exact Real.mul_self_sqrt n00
  obtain ⟨e01, e02, e12, e11, e22⟩ := sign_choice ((R 0 0 + 1) / 2) ((R 1 1 + 1) / 2) ((R 2 2 + 1) / 2) (R 0 1 / 2) (R 0 2 / 2) (R 1 2 / 2)
    ax (Real.sqrt ((R 1 1 + 1) / 2)) (Real.sqrt ((R 2 2 + 1) / 2)) (by rw [hax]; exact Real.sqrt_nonneg _) (Real.sqrt_nonneg _) (Real.sqrt_nonneg _)
    e00 (Real.mul_self_sqrt n11) (Real.mul_self_sqrt n22) q01 q02 q12 qm ay az az'
    (by simp only [neg_half]; exact hay) (by simp only [neg_half]; exact haz) (by simp only [pos_half]; exact haz')
  clear hax hay haz haz' q01 q02 q12 qm n00 n11 n22 neg_half pos_half
  rw [haxis]
  refine ⟨?_, ?_⟩
  · simp only [inner3]; linear_combination e00 + e11 + e22 + htr / 2
  · ext i j
    fin_cases i <;> fin_cases j <;> simp [axisMat]
    · linear_combination 2 * e00
    · linear_combination 2 * e01
    · linear_combination 2 * e02
    · rw [s10]; linear_combination 2 * e01
    · linear_combination 2 * e11
    · linear_combination 2 * e12
    · rw [s02]; linear_combination 2 * e02
    · rw [s21]; linear_combination 2 * e12
    · linear_combination 2 * e22

/-- **C52.** A half turn comes back exactly: the axis is recovered from the diagonal and the signs. -/
theorem C52_half_turn (svd : Svd3 ℝ) (R u v : Mat 3 3 ℝ) (s : Fin 3 → ℝ) (hR : IsRotation R)
    (hsvd : svd R = .ok (u, s, v)) (hspec : SvdSpec R u s v) (hc : cosOf R = -1) :
    asRotationMatrix svd (.mat R) = .ok R ∧
    ∃ a, len3 a = 1 ∧ rodriguesLog svd R = .ok (scale3 Real.pi a) ∧ act R a = a := by
  obtain ⟨hunit, hmat⟩ := halfTurnAxis_spec hR hc
  have hw : sinAxis R = zero3 := by
    rw [← inner3_self_eq_zero, cos_sin_sq hR, hc]; norm_num
  have hl1 : len3 (halfTurnAxis R) = 1 := by
    have h := hunit
    rw [inner3_self] at h
    have := len3_nonneg (halfTurnAxis R)
    nlinarith
  have hlog : rodriguesLogOrth R = scale3 Real.pi (halfTurnAxis R) := by
    rw [logOrth_eq hR, hw, len3_eq_zero.mpr rfl, hc, if_pos (by norm_num), if_neg (by norm_num), hl1, Real.arccos_neg_one, div_one]
  have hlen : len3 (scale3 Real.pi (halfTurnAxis R)) = Real.pi := by
    rw [len3_scale, hl1, abs_of_pos Real.pi_pos, mul_one]
  refine ⟨?_, halfTurnAxis R, hl1, ?_, ?_⟩
  · unfold asRotationMatrix
    simp only
    rw [rodriguesLog_rot hR hsvd hspec]
    simp only [ok_bind, pure_eq_ok]
    congr 1
    have hpi := Real.pi_gt_three
    have heps : (eps : ℝ) ≤ Real.pi := by
      have : (eps : ℝ) ≤ 1 := by simp [eps]; norm_num
      linarith
    rw [hlog, rodriguesExp_big _ (by rw [hlen]; exact heps), hlen, Real.cos_pi, Real.sin_pi, scale3_scale3,
      inv_mul_cancel₀ Real.pi_pos.ne', scale3_one, hmat]
  · rw [rodriguesLog_rot hR hsvd hspec, hlog]
  · generalize halfTurnAxis R = a at *
    rw [← hmat, axisMat_act, hunit]
    ext <;> simp [scale3] <;> ring

/-- every rotation has a decomposition of the promised kind -/
theorem svd_of_rotation {R : Mat 3 3 ℝ} (hR : IsRotation R) : SvdSpec R R (fun _ => 1) 1 where
  left := hR.1
  right := by simp
  nonneg _ := zero_le_one
  sorted _ _ _ := le_rfl
  factor := by
    have : Matrix.diagonal (fun _ : Fin 3 => (1 : ℝ)) = 1 := Matrix.diagonal_one
    rw [this]; simp

/-- a rotation by one radian is recovered -/
example : rodriguesLog (fun R => .ok (R, fun _ => 1, 1)) (rodriguesExp (⟨0, 1, 0⟩ : V3 ℝ)) = .ok ⟨0, 1, 0⟩ := by
  have hl : len3 ⟨0, 1, 0⟩ = 1 := by simp [len3]
  refine C52_log_exp _ _ _ _ _ rfl (svd_of_rotation (C51_rotation _)) (Or.inr ?_)
  rw [hl]
  have hpi := Real.pi_gt_three
  refine ⟨by linarith, ?_⟩
  have := Real.sin_gt_sub_cube (x := 1) one_pos
  linarith

/-- **C52.** Witness of the loss: a rotation by 1e-6 about x is not the identity, and becomes it. -/
theorem C52_loss_witness : ∃ R : Mat 3 3 ℝ, IsRotation R ∧ R ≠ 1 ∧
    asRotationMatrix (fun R => .ok (R, fun _ => 1, 1)) (.mat R) = .ok 1 := by
  have ht : len3 ⟨1 / 1000000, 0, 0⟩ = 1 / 1000000 := by
    unfold len3
    simp only
    rw [show ((1 : ℝ) / 1000000) ^ 2 + 0 ^ 2 + 0 ^ 2 = (1 / 1000000) ^ 2 by ring]
    exact Real.sqrt_sq (by norm_num)
  have heps : eps ≤ len3 ⟨1 / 1000000, 0, 0⟩ := by rw [ht]; simp [eps]; norm_num
  have hrot := C51_rotation ⟨1 / 1000000, 0, 0⟩
  have hp : (0 : ℝ) < 1 / 1000000 := by norm_num
  have hpi := Real.pi_gt_three
  have hs : 0 < Real.sin (1 / 1000000) := Real.sin_pos_of_pos_of_lt_pi hp (by linarith)
  have hs' : Real.sin (1 / 1000000) ≤ 1 / 1000000 := Real.sin_le hp.le
  have hcp : 0 < Real.cos (1 / 1000000) := Real.cos_pos_of_mem_Ioo ⟨by linarith, by linarith⟩
  have hu := unit_inv_scale (lt_of_lt_of_le eps_pos heps)
  obtain ⟨h1, h2⟩ := axisMat_sinAxis _ (Real.cos (len3 ⟨1 / 1000000, 0, 0⟩)) (Real.sin (len3 ⟨1 / 1000000, 0, 0⟩)) hu
  rw [← rodriguesExp_big _ heps] at h1 h2
  have hlen : len3 (sinAxis (rodriguesExp ⟨1 / 1000000, 0, 0⟩)) = Real.sin (1 / 1000000) := by
    rw [h1, len3_scale, len3_scale, ht, abs_of_pos hs]; norm_num
  refine ⟨_, hrot, ?_, C52_small_angle _ _ _ _ _ hrot rfl (svd_of_rotation hrot) ?_ ?_⟩
  · intro h
    have hw : sinAxis (1 : Mat 3 3 ℝ) = zero3 := by simp [sinAxis, zero3]
    rw [h, hw, len3_eq_zero.mpr rfl] at hlen
    linarith
  · rw [hlen]; linarith
  · rw [h2, ht]; exact hcp

/-- **C52.** Close to a half turn the result is only approximate: a turn by π - 1e-6 about x comes
back as a turn about a tilted axis. -/
theorem C52_near_half_turn : ∃ R R' : Mat 3 3 ℝ, IsRotation R ∧
    asRotationMatrix (fun R => .ok (R, fun _ => 1, 1)) (.mat R) = .ok R' ∧ R' ≠ R := by
  have hpi := Real.pi_gt_three
  obtain ⟨t, ht⟩ : ∃ t, t = Real.pi - 1 / 1000000 := ⟨_, rfl⟩
  have hs : Real.sin t = Real.sin (1 / 1000000) := by rw [ht, Real.sin_pi_sub]
  have hc : Real.cos t = -Real.cos (1 / 1000000) := by rw [ht, Real.cos_pi_sub]
  have hsp : 0 < Real.sin t := Real.sin_pos_of_pos_of_lt_pi (by linarith) (by linarith)
  have hsl : Real.sin t < 1 / 100000 := by
    rw [hs]
    have := Real.sin_le (x := 1 / 1000000) (by norm_num)
    linarith
  have hcn : Real.cos t < 0 := by
    rw [hc]
    have : 0 < Real.cos (1 / 1000000) := Real.cos_pos_of_mem_Ioo ⟨by linarith, by linarith⟩
    linarith
  have hc1 : 0 < Real.cos t + 1 := by
    have h1 := Real.neg_one_le_cos t
    rcases h1.lt_or_eq with h | h
    · linarith
    · have := Real.sin_sq_add_cos_sq t
      rw [← h] at this
      nlinarith
  have hR := rotX_rot t
  obtain ⟨R, hRdef⟩ : ∃ R : Mat 3 3 ℝ, R = !![1, 0, 0; 0, Real.cos t, -Real.sin t; 0, Real.sin t, Real.cos t] := ⟨_, rfl⟩
  rw [← hRdef] at hR
  have hw : sinAxis R = ⟨Real.sin t, 0, 0⟩ := by
    rw [hRdef]
    ext <;> simp [sinAxis]
  have hcos : cosOf R = Real.cos t := by
    rw [hRdef]; simp [cosOf]; ring
  have hlw : len3 (sinAxis R) = Real.sin t := by
    rw [hw]
    unfold len3
    simp only
    rw [show Real.sin t ^ 2 + 0 ^ 2 + 0 ^ 2 = Real.sin t ^ 2 by ring]
    exact Real.sqrt_sq hsp.le
  obtain ⟨e, he⟩ : ∃ e, e = Real.sqrt ((Real.cos t + 1) / 2) := ⟨_, rfl⟩
  have hep : 0 < e := by rw [he]; exact Real.sqrt_pos.mpr (by linarith)
  have hel : e < 1 := by
    rw [he, Real.sqrt_lt' one_pos]
    linarith
  have ha : halfTurnAxis R = ⟨1, e, e⟩ := by
    unfold halfTurnAxis
    have h00 : halfTurnComp (R 0 0) = 1 := by
      rw [halfTurnComp_real, hRdef]; simp
    have h11 : halfTurnComp (R 1 1) = e := by
      rw [halfTurnComp_real, hRdef, he]; simp
    have h22 : halfTurnComp (R 2 2) = e := by
      rw [halfTurnComp_real, hRdef, he]; simp
    have h01 : R 0 1 = 0 := by rw [hRdef]; simp
    have h02 : R 0 2 = 0 := by rw [hRdef]; simp
    simp only [h00, h11, h22, h01, h02]
    have z0 : ¬ Num.lt (0 : ℝ) (Num.lit 0) = true := by simp
    have z1 : Num.lt (npAbs (1 : ℝ)) (npAbs e) = false := by
      rw [npAbs_real', npAbs_real', abs_one, abs_of_pos hep, Bool.eq_false_iff, ne_eq, Num.lt_real]
      linarith
    rw [if_neg z0, z1]
    rfl
  have hlog : rodriguesLogOrth R = scale3 (Real.arccos (Real.cos t) / len3 ⟨1, e, e⟩) ⟨1, e, e⟩ := by
    rw [logOrth_eq hR, hlw, hcos, if_pos hsl, if_neg (by linarith), ha]
  refine ⟨R, rodriguesExp (rodriguesLogOrth R), hR, ?_, ?_⟩
  · unfold asRotationMatrix
    simp only
    rw [rodriguesLog_rot hR rfl (svd_of_rotation hR)]
    rfl
  · intro heq
    have hax := C51_axis (rodriguesLogOrth R)
    rw [heq, hlog, act_scale] at hax
    obtain ⟨k, hk⟩ : ∃ k, k = Real.arccos (Real.cos t) / len3 ⟨1, e, e⟩ := ⟨_, rfl⟩
    have hkp : 0 < k := by
      rw [hk]
      apply div_pos
      · rw [Real.arccos_pos]; linarith
      · apply len3_pos
        simp [zero3]
    rw [← hk] at hax
    have hy := congrArg V3.y hax
    rw [act_eq, hRdef] at hy
    simp [scale3] at hy
    rcases hy with hy | hy
    · nlinarith [mul_pos hsp hep]
    · linarith

end Blmath.Props
