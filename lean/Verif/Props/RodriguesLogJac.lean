import Verif.Props.RodriguesJac
import Mathlib.Analysis.SpecialFunctions.Trigonometric.InverseDeriv

/-!
Property C76: the Jacobian of `rodrigues` of a matrix.
-/

namespace Blmath.Props
open Blmath.Geometry Blmath.Spec

/-- the components of a 3-vector -/
def comp3 (v : V3 ℝ) : Fin 3 → ℝ := ![v.x, v.y, v.z]

/-- trace -/
def trace3 (D : Mat 3 3 ℝ) : ℝ := D 0 0 + D 1 1 + D 2 2

theorem sum9 (f : Fin 9 → ℝ) : ∑ p, f p = f 0 + f 1 + f 2 + f 3 + f 4 + f 5 + f 6 + f 7 + f 8 := by
  simp [Fin.sum_univ_succ]; ring

theorem logJac_dir {R : Mat 3 3 ℝ} (hR : IsRotation R) (h : 1 / 100000 ≤ len3 (sinAxis R)) (D : Mat 3 3 ℝ) (k : Fin 3) :
    ∑ p, rodriguesLogJacOrth R p k * flatten9 D p =
      Real.arccos (cosOf R) / len3 (sinAxis R) * comp3 (sinAxis D) k +
      comp3 (sinAxis R) k * ((Real.arccos (cosOf R) * cosOf R / len3 (sinAxis R) ^ 3 - 1 / len3 (sinAxis R) ^ 2) *
        (trace3 D / 2)) := by
  have hc : clip11 ((R 0 0 + R 1 1 + R 2 2 - Num.lit 1) * Num.lit (1 / 2)) = cosOf R := by
    have : (R 0 0 + R 1 1 + R 2 2 - Num.lit 1) * Num.lit (1 / 2) = cosOf R := by
      simp [cosOf]; ring
    rw [this]
    exact clip11_real (cos_bounds hR).1 (cos_bounds hR).2
  have hv : (⟨R 2 1 - R 1 2, R 0 2 - R 2 0, R 1 0 - R 0 1⟩ : V3 ℝ) = scale3 2 (sinAxis R) := by
    ext <;> simp [scale3, sinAxis] <;> ring
  have hq : Num.sqrt (Num.lit (1 / 4) : ℝ) = 1 / 2 := by
    simp only [Num.sqrt_real, Num.lit_real]
    rw [show (((1 / 4 : ℚ)) : ℝ) = (1 / 2) ^ 2 by norm_num]
    exact Real.sqrt_sq (by norm_num)
  have hs : (scale3 2 (sinAxis R)).norm * Num.sqrt (Num.lit (1 / 4) : ℝ) = len3 (sinAxis R) := by
    rw [V3.norm_real, len3_scale, hq]; norm_num; ring
  have hlit : (Num.lit (1 / 100000) : ℝ) = 1 / 100000 := by simp
  unfold rodriguesLogJacOrth
  simp only [hc, hv, hs]
  rw [if_neg (by rw [Num.lt_real, hlit]; linarith)]
  simp only [Trig.acos_real, Mat.mul_real, Matrix.of_apply]
  obtain ⟨w, hw⟩ : ∃ w, w = sinAxis R := ⟨_, rfl⟩
  obtain ⟨s, hs'⟩ : ∃ s, s = len3 w := ⟨_, rfl⟩
  rw [← hw, ← hs'] at h ⊢
  have hs0 : s ≠ 0 := by intro e; rw [e] at h; norm_num at h
  generalize Real.arccos (cosOf R) = th
  generalize cosOf R = c
  rw [sum9]
  fin_cases k <;>
  · simp [Matrix.mul_apply, Fin.sum_univ_succ, domegadvar2, dvar2dvar, dvardR, transposed9, flatten9, comp3, sinAxis, trace3, scale3]
    field_simp
    ring

theorem comp3_sinAxis_deriv {R : ℝ → Mat 3 3 ℝ} {D : Mat 3 3 ℝ} {t0 : ℝ}
    (hD : ∀ i j, HasDerivAt (fun t => R t i j) (D i j) t0) (k : Fin 3) :
    HasDerivAt (fun t => comp3 (sinAxis (R t)) k) (comp3 (sinAxis D) k) t0 := by
  fin_cases k <;> simp only [comp3, sinAxis] <;> simp
  · exact ((hD 2 1).sub (hD 1 2)).div_const 2
  · exact ((hD 0 2).sub (hD 2 0)).div_const 2
  · exact ((hD 1 0).sub (hD 0 1)).div_const 2

theorem cosOf_deriv {R : ℝ → Mat 3 3 ℝ} {D : Mat 3 3 ℝ} {t0 : ℝ}
    (hD : ∀ i j, HasDerivAt (fun t => R t i j) (D i j) t0) :
    HasDerivAt (fun t => cosOf (R t)) (trace3 D / 2) t0 :=
  (((((hD 0 0).add (hD 1 1)).add (hD 2 2)).sub_const 1).div_const 2)

theorem comp3_scale3 (a : ℝ) (v : V3 ℝ) (k : Fin 3) : comp3 (scale3 a v) k = a * comp3 v k := by
  fin_cases k <;> simp [comp3, scale3]

/-- **C76.** Along every differentiable path of rotations, the rotation vectors computed by `rodrigues` have the
derivative that the Jacobian gives (the rows of the Jacobian belong to the entries of the matrix, row by row), wherever
the sine of the angle is more than the tolerance 1e-5. -/
theorem C76_jacobian (svd : Svd3 ℝ) (R : ℝ → Mat 3 3 ℝ) (hR : ∀ t, IsRotation (R t))
    (hsvd : ∀ t, ∃ u s v, svd (R t) = .ok (u, s, v) ∧ SvdSpec (R t) u s v) (D : Mat 3 3 ℝ) (t0 : ℝ)
    (hD : ∀ i j, HasDerivAt (fun t => R t i j) (D i j) t0) (hs : 1 / 100000 < len3 (sinAxis (R t0))) :
    ∃ (L : ℝ → V3 ℝ) (J : Mat 9 3 ℝ), (∀ t, rodrigues svd (.mat (R t)) = .ok (.vec (L t))) ∧
      rodriguesJac svd (.mat (R t0)) = .ok (.vec (L t0) J) ∧
      ∀ k, HasDerivAt (fun t => comp3 (L t) k) (∑ p, J p k * flatten9 D p) t0 := by
  refine ⟨fun t => rodriguesLogOrth (R t), rodriguesLogJacOrth (R t0), ?_, ?_, ?_⟩
  · intro t
    obtain ⟨u, s, v, h1, h2⟩ := hsvd t
    unfold rodrigues
    simp only [rodriguesLog_rot (hR t) h1 h2, ok_bind, pure_eq_ok]
  · obtain ⟨u, s, v, h1, h2⟩ := hsvd t0
    unfold rodriguesJac
    simp only [h1, ok_bind, pure_eq_ok, svd_rotation (hR t0) h2]
  · intro k
    rw [logJac_dir (hR t0) hs.le]
    have dw := comp3_sinAxis_deriv hD k
    have dc := cosOf_deriv hD
    have hsq := cos_sin_sq (hR t0)
    rw [inner3_self] at hsq
    have hlen : ∀ t, len3 (sinAxis (R t)) = Real.sqrt (1 - cosOf (R t) ^ 2) := by
      intro t
      rw [← cos_sin_sq (hR t), inner3_self, Real.sqrt_sq (len3_nonneg _)]
    have hpos : 0 < len3 (sinAxis (R t0)) := by linarith [show (0 : ℝ) < 1 / 100000 by norm_num]
    have hne : 1 - cosOf (R t0) ^ 2 ≠ 0 := by rw [← hsq]; positivity
    have hc1 : cosOf (R t0) ≠ -1 := by intro e; rw [e] at hne; norm_num at hne
    have hc2 : cosOf (R t0) ≠ 1 := by intro e; rw [e] at hne; norm_num at hne
    have dth := (Real.hasDerivAt_arccos hc1 hc2).comp t0 dc
    have dlen := ((dc.pow 2).const_sub 1).sqrt hne
    have hcont : ContinuousAt (fun t => len3 (sinAxis (R t))) t0 := by
      have : (fun t => len3 (sinAxis (R t))) = fun t => Real.sqrt (1 - cosOf (R t) ^ 2) := funext hlen
      rw [this]; exact dlen.continuousAt
    have hnear : ∀ᶠ t in nhds t0, 1 / 100000 < len3 (sinAxis (R t)) := hcont.eventually (lt_mem_nhds hs)
    have hne' : Real.sqrt (1 - cosOf (R t0) ^ 2) ≠ 0 := by rw [← hlen]; exact hpos.ne'
    have d := (dth.div dlen hne').mul dw
    refine HasDerivAt.congr_deriv (d.congr_of_eventuallyEq ?_) ?_
    · filter_upwards [hnear] with t ht
      rw [logOrth_eq (hR t), if_neg (not_lt.mpr (le_of_lt ht)), comp3_scale3, hlen t]
      rfl
    · simp only [Function.comp_apply, Pi.div_apply, ← hlen t0, Pi.pow_apply]
      have hl2 : 1 - cosOf (R t0) ^ 2 = len3 (sinAxis (R t0)) ^ 2 := by rw [hsq]
      generalize len3 (sinAxis (R t0)) = s at *
      generalize Real.arccos (cosOf (R t0)) = th at *
      generalize cosOf (R t0) = c at *
      push_cast
      field_simp
      ring

theorem axis_unit (r : Fin 3 → ℝ) (hp : 0 < len3 (vec r)) :
    ((len3 (vec r))⁻¹ * r 0) ^ 2 + ((len3 (vec r))⁻¹ * r 1) ^ 2 + ((len3 (vec r))⁻¹ * r 2) ^ 2 = 1 := by
  have h := len3_sq r
  generalize len3 (vec r) = t at *
  field_simp
  linarith

theorem expJac_sinAxis (t : ℝ) (u : Fin 3 → ℝ) (j k : Fin 3) :
    comp3 (sinAxis (Matrix.of fun i l : Fin 3 => expJac t u j (⟨i * 3 + l, by omega⟩ : Fin 9))) k =
      Real.cos t * u j * u k + Real.sin t * t⁻¹ * ((1 : Mat 3 3 ℝ) j k - u j * u k) := by
  simp only [sinAxis, Matrix.of_apply, expJac, flatten9_at]
  fin_cases j <;> fin_cases k <;>
    simp [comp3, expJac, flatten9, drrt, dSkew, crossMat, outer, Mat.ofRows, vec] <;> ring

theorem expJac_trace (t : ℝ) (u : Fin 3 → ℝ) (hu : u 0 ^ 2 + u 1 ^ 2 + u 2 ^ 2 = 1) (j : Fin 3) :
    trace3 (Matrix.of fun i l : Fin 3 => expJac t u j (⟨i * 3 + l, by omega⟩ : Fin 9)) = -2 * Real.sin t * u j := by
  simp only [trace3, Matrix.of_apply, expJac, flatten9_at]
  fin_cases j <;>
    simp [drrt, dSkew, crossMat, outer, Mat.ofRows, vec]
  · linear_combination (Real.sin t - 2 * (1 - Real.cos t) * t⁻¹) * u 0 * hu
  · linear_combination (Real.sin t - 2 * (1 - Real.cos t) * t⁻¹) * u 1 * hu
  · linear_combination (Real.sin t - 2 * (1 - Real.cos t) * t⁻¹) * u 2 * hu

/-- **C76.** The two Jacobians are inverse to each other: from a rotation vector of length at most π, whose sine is at
least the tolerance, to the matrix and back. -/
theorem C76_inverse (r : Fin 3 → ℝ) (hpi : len3 (vec r) ≤ Real.pi) (hsin : 1 / 100000 ≤ Real.sin (len3 (vec r))) :
    rodriguesExpJac (vec r) * rodriguesLogJacOrth (rodriguesExp (vec r)) = 1 := by
  have hle : 1 / 100000 ≤ len3 (vec r) := le_trans hsin (Real.sin_le (len3_nonneg _))
  have heps : eps ≤ len3 (vec r) := by
    have : (eps : ℝ) ≤ 1 / 100000 := by simp [eps]; norm_num
    linarith
  have hp : 0 < len3 (vec r) := lt_of_lt_of_le eps_pos heps
  have hsp : 0 < Real.sin (len3 (vec r)) := by linarith
  have hu := unit_inv_scale hp
  obtain ⟨h1, h2⟩ := axisMat_sinAxis (scale3 (len3 (vec r))⁻¹ (vec r)) (Real.cos (len3 (vec r))) (Real.sin (len3 (vec r))) hu
  rw [← rodriguesExp_big _ heps] at h1 h2
  have hlen : len3 (scale3 (Real.sin (len3 (vec r))) (scale3 (len3 (vec r))⁻¹ (vec r))) = Real.sin (len3 (vec r)) := by
    rw [len3_scale, len3_scale, abs_of_pos hsp, abs_of_pos (inv_pos.mpr hp)]
    field_simp
  have hun := axis_unit r hp
  ext j k
  have hdir := logJac_dir (C51_rotation (vec r)) (by rw [h1, hlen]; exact hsin)
    (Matrix.of fun i l : Fin 3 => rodriguesExpJac (vec r) j (⟨i * 3 + l, by omega⟩ : Fin 9)) k
  have hflat : ∀ p : Fin 9, flatten9 (Matrix.of fun i l : Fin 3 => rodriguesExpJac (vec r) j (⟨i * 3 + l, by omega⟩ : Fin 9)) p =
      rodriguesExpJac (vec r) j p := by
    intro p; fin_cases p <;> rfl
  simp only [hflat] at hdir
  rw [Matrix.mul_apply]
  rw [show ∑ p, rodriguesExpJac (vec r) j p * rodriguesLogJacOrth (rodriguesExp (vec r)) p k =
    ∑ p, rodriguesLogJacOrth (rodriguesExp (vec r)) p k * rodriguesExpJac (vec r) j p from
      Finset.sum_congr rfl fun p _ => mul_comm _ _, hdir, h1, h2, hlen, Real.arccos_cos hp.le hpi, rodriguesExpJac_big r heps]
  obtain ⟨u, hu'⟩ : ∃ u : Fin 3 → ℝ, u = fun j => (len3 (vec r))⁻¹ * r j := ⟨_, rfl⟩
  have hsc : scale3 (len3 (vec r))⁻¹ (vec r) = vec u := by rw [hu']; rfl
  rw [hsc, ← hu']
  have hun' : u 0 ^ 2 + u 1 ^ 2 + u 2 ^ 2 = 1 := by rw [hu']; exact hun
  clear hdir hflat h1 h2 hlen hu hun hsc hu'
  rw [expJac_sinAxis, expJac_trace _ _ hun', comp3_scale3]
  have hcomp : comp3 (vec u) k = u k := by fin_cases k <;> rfl
  rw [hcomp]
  generalize len3 (vec r) = t at *
  generalize Real.sin t = s at *
  generalize Real.cos t = c at *
  field_simp
  ring

theorem logJac_flat {R : Mat 3 3 ℝ} (hR : IsRotation R) (h : len3 (sinAxis R) < 1 / 100000) :
    rodriguesLogJacOrth R = if 0 < cosOf R then logJacSmall else 0 := by
  have hc : clip11 ((R 0 0 + R 1 1 + R 2 2 - Num.lit 1) * Num.lit (1 / 2)) = cosOf R := by
    have : (R 0 0 + R 1 1 + R 2 2 - Num.lit 1) * Num.lit (1 / 2) = cosOf R := by
      simp [cosOf]; ring
    rw [this]
    exact clip11_real (cos_bounds hR).1 (cos_bounds hR).2
  have hv : (⟨R 2 1 - R 1 2, R 0 2 - R 2 0, R 1 0 - R 0 1⟩ : V3 ℝ) = scale3 2 (sinAxis R) := by
    ext <;> simp [scale3, sinAxis] <;> ring
  have hq : Num.sqrt (Num.lit (1 / 4) : ℝ) = 1 / 2 := by
    simp only [Num.sqrt_real, Num.lit_real]
    rw [show (((1 / 4 : ℚ)) : ℝ) = (1 / 2) ^ 2 by norm_num]
    exact Real.sqrt_sq (by norm_num)
  have hs : (scale3 2 (sinAxis R)).norm * Num.sqrt (Num.lit (1 / 4) : ℝ) = len3 (sinAxis R) := by
    rw [V3.norm_real, len3_scale, hq]; norm_num; ring
  have hlit : (Num.lit (1 / 100000) : ℝ) = 1 / 100000 := by simp
  have h0 : (Num.lit 0 : ℝ) = 0 := by simp
  unfold rodriguesLogJacOrth
  simp only [hc, hv, hs]
  rw [if_pos (by rw [Num.lt_real, hlit]; exact h)]
  simp only [Num.lt_real, h0]
  rfl

/-- **C76.** Near the identity, where the sine is below the tolerance, the Jacobian is that at the identity: it is
inverse to the Jacobian of the other direction at the zero vector, -/
theorem C76_identity : rodriguesExpJac (vec 0) * rodriguesLogJacOrth (1 : Mat 3 3 ℝ) = 1 := by
  have h0 : len3 (vec 0) = 0 := by simp [len3, vec]
  have hj : rodriguesExpJac (vec 0) = (expJacSmall : Mat 3 9 ℝ) := by
    unfold rodriguesExpJac
    rw [V3.norm_real, if_pos (by rw [h0]; simpa using eps_pos)]
  have hw : sinAxis (1 : Mat 3 3 ℝ) = zero3 := by simp [sinAxis, zero3]
  have hc : cosOf (1 : Mat 3 3 ℝ) = 1 := by norm_num [cosOf]
  rw [hj, logJac_flat IsRotation.one (by rw [hw, len3_eq_zero.mpr rfl]; norm_num), hc, if_pos one_pos]
  ext j k
  rw [Matrix.mul_apply, sum9]
  fin_cases j <;> fin_cases k <;> simp [expJacSmall, logJacSmall] <;> norm_num

/-- **C76.** and up to five times the angle at other rotations that close to the identity. -/
theorem C76_small (r : Fin 3 → ℝ) (heps : eps ≤ len3 (vec r)) (h1 : len3 (vec r) ≤ 1)
    (hsin : Real.sin (len3 (vec r)) < 1 / 100000) (j k : Fin 3) :
    |(rodriguesExpJac (vec r) * rodriguesLogJacOrth (rodriguesExp (vec r))) j k - (1 : Mat 3 3 ℝ) j k| ≤
      5 * len3 (vec r) := by
  have hp : 0 < len3 (vec r) := lt_of_lt_of_le eps_pos heps
  have hpi := Real.pi_gt_three
  have hsp : 0 < Real.sin (len3 (vec r)) := Real.sin_pos_of_pos_of_lt_pi hp (by linarith)
  have hcp : 0 < Real.cos (len3 (vec r)) := Real.cos_pos_of_mem_Ioo ⟨by linarith, by linarith⟩
  have hu := unit_inv_scale hp
  obtain ⟨e1, e2⟩ := axisMat_sinAxis (scale3 (len3 (vec r))⁻¹ (vec r)) (Real.cos (len3 (vec r))) (Real.sin (len3 (vec r))) hu
  rw [← rodriguesExp_big _ heps] at e1 e2
  have hlen : len3 (scale3 (Real.sin (len3 (vec r))) (scale3 (len3 (vec r))⁻¹ (vec r))) = Real.sin (len3 (vec r)) := by
    rw [len3_scale, len3_scale, abs_of_pos hsp, abs_of_pos (inv_pos.mpr hp)]
    field_simp
  rw [logJac_flat (C51_rotation _) (by rw [e1, hlen]; exact hsin), e2, if_pos hcp, rodriguesExpJac_big r heps]
  have near := expJac_near r hp h1 j
  generalize expJac (len3 (vec r)) (fun j => (len3 (vec r))⁻¹ * r j) = J at near
  generalize len3 (vec r) = t at *
  have near' : ∀ p, -(5 * t) ≤ dSkew j p - J j p ∧ dSkew j p - J j p ≤ 5 * t := fun p => abs_le.mp (near p)
  have n1 := near' 1
  have n2 := near' 2
  have n3 := near' 3
  have n5 := near' 5
  have n6 := near' 6
  have n7 := near' 7
  rw [Matrix.mul_apply, sum9, abs_le]
  fin_cases j <;> fin_cases k <;>
  · simp [dSkew, logJacSmall] at n1 n2 n3 n5 n6 n7 ⊢
    constructor <;> linarith

/-- **C76.** At half turns, and rotations within the tolerance of one, the Jacobian is 0. -/
theorem C76_half_turn {R : Mat 3 3 ℝ} (hR : IsRotation R) (h : len3 (sinAxis R) < 1 / 100000) (hc : cosOf R ≤ 0) :
    rodriguesLogJacOrth R = 0 := by
  rw [logJac_flat hR h, if_neg (not_lt.mpr hc)]

/-- the half turn about the axis at angle `t` in the plane of x and y -/
noncomputable def halfTurns (t : ℝ) : Mat 3 3 ℝ := axisMat ⟨Real.cos t, Real.sin t, 0⟩ (-1) 0

/-- **C76.** That is not the derivative: along these half turns the computed vectors move with speed π. -/
theorem C76_half_turn_wrong : (∀ t, IsRotation (halfTurns t)) ∧ rodriguesLogJacOrth (halfTurns 0) = 0 ∧
    (∃ D : Mat 3 3 ℝ, ∀ i j, HasDerivAt (fun t => halfTurns t i j) (D i j) 0) ∧
    HasDerivAt (fun t => comp3 (rodriguesLogOrth (halfTurns t)) 1) Real.pi 0 := by
  have hu : ∀ t, inner3 ⟨Real.cos t, Real.sin t, 0⟩ ⟨Real.cos t, Real.sin t, 0⟩ = 1 := by
    intro t
    simp only [inner3]
    linear_combination Real.sin_sq_add_cos_sq t
  have hrot : ∀ t, IsRotation (halfTurns t) := fun t => axisMat_rot _ _ _ (hu t) (by norm_num)
  have hsc : ∀ t, sinAxis (halfTurns t) = zero3 ∧ cosOf (halfTurns t) = -1 := by
    intro t
    obtain ⟨h1, h2⟩ := axisMat_sinAxis ⟨Real.cos t, Real.sin t, 0⟩ (-1) 0 (hu t)
    exact ⟨by rw [halfTurns, h1]; simp [scale3, zero3], h2⟩
  refine ⟨hrot, C76_half_turn (hrot 0) ?_ ?_, ?_, ?_⟩
  · rw [(hsc 0).1, len3_eq_zero.mpr rfl]; norm_num
  · rw [(hsc 0).2]; norm_num
  · have hd : ∀ i j, DifferentiableAt ℝ (fun t => halfTurns t i j) 0 := by
      intro i j
      fin_cases i <;> fin_cases j <;> simp [halfTurns, axisMat]
    exact ⟨fun i j => deriv (fun t => halfTurns t i j) 0, fun i j => (hd i j).hasDerivAt⟩
  · have hlog : ∀ t, 0 < Real.cos t → comp3 (rodriguesLogOrth (halfTurns t)) 1 = Real.pi * Real.sin t := by
      intro t ht
      obtain ⟨h1, h2⟩ := halfTurnAxis_spec (hrot t) (hsc t).2
      have hx : 0 ≤ (halfTurnAxis (halfTurns t)).x := by
        simp only [halfTurnAxis, halfTurnComp_real]
        exact Real.sqrt_nonneg _
      have hl : len3 (halfTurnAxis (halfTurns t)) = 1 := by
        have h := h1
        rw [inner3_self] at h
        have := len3_nonneg (halfTurnAxis (halfTurns t))
        nlinarith
      rw [logOrth_eq (hrot t), (hsc t).1, (hsc t).2, len3_eq_zero.mpr rfl, if_pos (by norm_num), if_neg (by norm_num), hl,
        Real.arccos_neg_one, div_one]
      generalize halfTurnAxis (halfTurns t) = a at *
      have e00 := congrFun (congrFun h2 0) 0
      have e01 := congrFun (congrFun h2 0) 1
      simp [axisMat, halfTurns] at e00 e01
      have hax : a.x = Real.cos t := by nlinarith
      have hay : a.y = Real.sin t := by
        rw [hax] at e01
        have : Real.cos t * a.y = Real.cos t * Real.sin t := by linarith
        exact mul_left_cancel₀ ht.ne' this
      simp [comp3, scale3, hay]
    have hd : HasDerivAt (fun t => Real.pi * Real.sin t) Real.pi 0 := by
      simpa using (Real.hasDerivAt_sin 0).const_mul Real.pi
    refine hd.congr_of_eventuallyEq ?_
    have : ∀ᶠ t in nhds (0 : ℝ), 0 < Real.cos t :=
      Real.continuous_cos.continuousAt.eventually_const_lt (by rw [Real.cos_zero]; exact one_pos)
    exact this.mono fun t ht => hlog t ht

/-- **C76.** A matrix gives the vector and the 9×3 Jacobian, a vector the matrix and the 3×9 Jacobian, other shapes
are rejected; asking for the Jacobian does not change the first result. -/
theorem C76_results {α : Type} [Num α] [Trig α] (svd : Svd3 α) :
    rodriguesJac svd .other = raise .GenericException ∧
    (∀ r, rodriguesJac svd (.vec r) = .ok (.mat (rodriguesExp r) (rodriguesExpJac r))) ∧
    (∀ m, (rodriguesJac svd (.mat m)).map (fun x => match x with | .mat m _ => RotArg.mat m | .vec r _ => RotArg.vec r) =
      rodrigues svd (.mat m)) ∧
    ∀ m u v s, svd m = .ok (u, s, v) → rodriguesJac svd (.mat m) =
      .ok (.vec (rodriguesLogOrth (Mat.mul u v)) (rodriguesLogJacOrth (Mat.mul u v))) := by
  refine ⟨rfl, fun _ => rfl, ?_, ?_⟩
  · intro m
    unfold rodriguesJac rodrigues rodriguesLog
    dsimp only
    rcases svd m with e | ⟨u, s, v⟩ <;> rfl
  · intro m u v s h
    simp only [rodriguesJac, h]
    rfl

/-- turning about the x axis -/
noncomputable def turns (t : ℝ) : Mat 3 3 ℝ := axisMat ⟨1, 0, 0⟩ (Real.cos t) (Real.sin t)

/-- the hypotheses of `C76_jacobian` hold along the turns about the x axis, at the angle 1 -/
example : (∀ t, IsRotation (turns t)) ∧
    (∀ t, ∃ u s v, (fun m => .ok (m, fun _ => 1, 1) : Svd3 ℝ) (turns t) = .ok (u, s, v) ∧ SvdSpec (turns t) u s v) ∧
    (∃ D : Mat 3 3 ℝ, ∀ i j, HasDerivAt (fun t => turns t i j) (D i j) 1) ∧ 1 / 100000 < len3 (sinAxis (turns 1)) := by
  have hu : inner3 (⟨1, 0, 0⟩ : V3 ℝ) ⟨1, 0, 0⟩ = 1 := by norm_num [inner3]
  have hrot : ∀ t, IsRotation (turns t) := fun t => axisMat_rot _ _ _ hu (by
    linear_combination Real.sin_sq_add_cos_sq t)
  refine ⟨hrot, fun t => ⟨_, _, _, rfl, svd_of_rotation (hrot t)⟩, ?_, ?_⟩
  · have hd : ∀ i j, DifferentiableAt ℝ (fun t => turns t i j) 1 := by
      intro i j
      fin_cases i <;> fin_cases j <;> simp [turns, axisMat]
    exact ⟨fun i j => deriv (fun t => turns t i j) 1, fun i j => (hd i j).hasDerivAt⟩
  · have hl : len3 (⟨1, 0, 0⟩ : V3 ℝ) = 1 := by
      have h := hu
      rw [inner3_self] at h
      have := len3_nonneg (⟨1, 0, 0⟩ : V3 ℝ)
      nlinarith
    have h1 : (1 : ℝ) - 1 ^ 3 / 6 < Real.sin 1 := Real.sin_gt_sub_cube one_pos
    rw [turns, (axisMat_sinAxis _ _ _ hu).1, len3_scale, hl, mul_one]
    refine lt_of_lt_of_le ?_ (le_abs_self _)
    linarith

/-- those of `C76_inverse` and of `C76_small` hold at (1, 0, 0) and at (10⁻⁶, 0, 0) -/
example : (len3 (vec ![1, 0, 0]) ≤ Real.pi ∧ 1 / 100000 ≤ Real.sin (len3 (vec ![1, 0, 0]))) ∧
    eps ≤ len3 (vec ![1 / 1000000, 0, 0]) ∧ len3 (vec ![1 / 1000000, 0, 0]) ≤ 1 ∧
    Real.sin (len3 (vec ![1 / 1000000, 0, 0])) < 1 / 100000 := by
  have h1 : len3 (vec ![1, 0, 0]) = 1 := by simp [len3, vec]
  have h2 : len3 (vec ![1 / 1000000, 0, 0]) = 1 / 1000000 := by
    simp [len3, vec]
  have h3 : (1 : ℝ) - 1 ^ 3 / 6 < Real.sin 1 := Real.sin_gt_sub_cube one_pos
  rw [h1, h2]
  refine ⟨⟨by linarith [Real.pi_gt_three], by linarith⟩, by norm_num [eps], by norm_num, ?_⟩
  have := Real.sin_le (show (0 : ℝ) ≤ 1 / 1000000 by norm_num)
  linarith

end Blmath.Props
