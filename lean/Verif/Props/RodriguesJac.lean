import Verif.Props.RodriguesExp
import Verif.Model.RodriguesJac
import Mathlib.Analysis.SpecialFunctions.Sqrt
import Mathlib.Analysis.SpecialFunctions.Trigonometric.Deriv

/-!
Property C75: the Jacobian of `rodrigues` of a vector.
-/

namespace Blmath.Props
open Blmath.Geometry Blmath.Spec

/-- coordinate `j` -/
noncomputable abbrev pr (j : Fin 3) : (Fin 3 → ℝ) →L[ℝ] ℝ := ContinuousLinearMap.proj j

theorem pr_deriv (j : Fin 3) (r : Fin 3 → ℝ) : HasFDerivAt (fun x : Fin 3 → ℝ => x j) (pr j) r := (pr j).hasFDerivAt

theorem len3_deriv (r : Fin 3 → ℝ) (h : len3 (vec r) ≠ 0) :
    HasFDerivAt (fun x => len3 (vec x)) ((len3 (vec r))⁻¹ • (r 0 • pr 0 + r 1 • pr 1 + r 2 • pr 2)) r := by
  have hs := len3_sq r
  have hne : r 0 ^ 2 + r 1 ^ 2 + r 2 ^ 2 ≠ 0 := by rw [← hs]; exact pow_ne_zero 2 h
  have d := (((pr_deriv 0 r).pow 2).add ((pr_deriv 1 r).pow 2)).add ((pr_deriv 2 r).pow 2)
  have d2 := d.sqrt hne
  refine HasFDerivAt.congr_fderiv (f := fun x => len3 (vec x)) d2 ?_
  ext x
  have e : Real.sqrt ((((fun x : Fin 3 → ℝ => x 0 ^ 2) + fun x : Fin 3 → ℝ => x 1 ^ 2) + fun x : Fin 3 → ℝ => x 2 ^ 2) r) = len3 (vec r) := rfl
  simp only [e, ContinuousLinearMap.smul_apply, ContinuousLinearMap.add_apply, smul_eq_mul, ContinuousLinearMap.proj_apply]
  field_simp
  ring

theorem crossMat_linear (i k : Fin 3) (r : Fin 3 → ℝ) :
    HasFDerivAt (fun x => crossMat x i k)
      (∑ j, (dSkew j (⟨i * 3 + k, by omega⟩ : Fin 9) : ℝ) • pr j) r := by
  have e : (fun x => crossMat x i k) = (∑ j, (dSkew j (⟨i * 3 + k, by omega⟩ : Fin 9) : ℝ) • pr j : (Fin 3 → ℝ) →L[ℝ] ℝ) := by
    funext x
    fin_cases i <;> fin_cases k <;> simp [crossMat, dSkew, Fin.sum_univ_three]
  rw [e]
  exact ContinuousLinearMap.hasFDerivAt _

theorem flatten9_at (m : Mat 3 3 ℝ) (i k : Fin 3) : flatten9 m ⟨i * 3 + k, by omega⟩ = m i k := by
  fin_cases i <;> fin_cases k <;> rfl

/-- the derivative of the rotation matrix with respect to the rotation vector, in terms of angle and unit axis -/
noncomputable def expJac (t : ℝ) (u : Fin 3 → ℝ) : Mat 3 9 ℝ := Matrix.of fun j p =>
  -Real.sin t * u j * flatten9 1 p
    + (Real.sin t - 2 * (1 - Real.cos t) * t⁻¹) * u j * flatten9 (outer (vec u)) p
    + (1 - Real.cos t) * t⁻¹ * drrt (vec u) j p
    + (Real.cos t - Real.sin t * t⁻¹) * u j * flatten9 (crossMat u) p
    + Real.sin t * t⁻¹ * dSkew j p

theorem rodriguesExpJac_big (r : Fin 3 → ℝ) (h : eps ≤ len3 (vec r)) :
    rodriguesExpJac (vec r) = expJac (len3 (vec r)) (fun j => (len3 (vec r))⁻¹ * r j) := by
  have hp : 0 < len3 (vec r) := lt_of_lt_of_le eps_pos h
  have hi : itheta (len3 (vec r)) = (len3 (vec r))⁻¹ := by
    unfold itheta
    rw [if_neg (by simpa using hp.ne')]
    simp
  unfold rodriguesExpJac
  rw [V3.norm_real, if_neg (by simpa using h)]
  simp only [hi, Mat.eye_real, V3.smul_real, Trig.cos_real, Trig.sin_real]
  obtain ⟨t, ht⟩ : ∃ t, t = len3 (vec r) := ⟨_, rfl⟩
  simp only [← ht]
  have hv : scale3 t⁻¹ (vec r) = vec fun j => t⁻¹ * r j := rfl
  have hk : skew (vec fun j => t⁻¹ * r j) = crossMat fun j => t⁻¹ * r j := by
    ext i k; fin_cases i <;> fin_cases k <;> simp [skew, crossMat, vec]
  ext j p
  simp only [expJac, Matrix.of_apply, hv, hk]
  fin_cases j <;> simp [vec]

theorem rotMap_jac (r : Fin 3 → ℝ) (hp : 0 < len3 (vec r)) :
    HasJacobian39 rotMap (expJac (len3 (vec r)) (fun j => (len3 (vec r))⁻¹ * r j)) r := by
  intro i k
  have dl := len3_deriv r hp.ne'
  have dcos := (Real.hasDerivAt_cos (len3 (vec r))).comp_hasFDerivAt r dl
  have dsin := (Real.hasDerivAt_sin (len3 (vec r))).comp_hasFDerivAt r dl
  have dinv := (hasDerivAt_inv hp.ne').comp_hasFDerivAt r dl
  have dU := (dinv.pow 2).mul ((pr_deriv i r).mul (pr_deriv k r))
  have dK := crossMat_linear i k r
  have d := ((dcos.mul (dU.const_sub ((1 : Mat 3 3 ℝ) i k))).add dU).add ((dsin.mul dinv).mul dK)
  have hnear : ∀ᶠ x in nhds r, len3 (vec x) ≠ 0 := dl.continuousAt.eventually_ne hp.ne'
  refine HasFDerivAt.congr_fderiv (d.congr_of_eventuallyEq ?_) ?_
  · filter_upwards [hnear] with x hx
    have := congrFun (congrFun (rotMap_formula x hx) i) k
    rw [this]
    simp only [Matrix.add_apply, Matrix.smul_apply, Matrix.sub_apply, unitSq, Matrix.of_apply, smul_eq_mul]
    rfl
  · simp only [Function.comp_apply, Pi.mul_apply]
    obtain ⟨t, ht⟩ : ∃ t, t = len3 (vec r) := ⟨_, rfl⟩
    simp only [← ht] at hp ⊢
    have hp' := hp.ne'
    clear dcos dsin dinv dU dK d hnear dl ht
    ext x
    simp only [Fin.sum_univ_three, expJac, Matrix.of_apply, flatten9_at]
    fin_cases i <;> fin_cases k <;>
    · simp [Fin.sum_univ_three, dSkew, drrt, outer, skew, Mat.ofRows, scale3, crossMat]
      simp only [vec]
      field_simp
      ring

/-- **C75.** For `|r| ≥ eps` the matrix returned with `rodrigues(r)` consists of the partial derivatives of the
entries of the rotation matrix, the matrix exponential of C74. -/
theorem C75_jacobian (r : Fin 3 → ℝ) (h : eps ≤ len3 (vec r)) :
    HasJacobian39 rotMap (rodriguesExpJac (vec r)) r := by
  rw [rodriguesExpJac_big r h]
  exact rotMap_jac r (lt_of_lt_of_le eps_pos h)

/-- **C75.** For `|r| > eps` they are the partial derivatives of the function computed by `rodrigues` itself (which
jumps to the identity at `|r| = eps`). -/
theorem C75_jacobian_code (r : Fin 3 → ℝ) (h : eps < len3 (vec r)) :
    HasJacobian39 (fun x => rodriguesExp (vec x)) (rodriguesExpJac (vec r)) r := by
  intro i k
  refine (C75_jacobian r h.le i k).congr_of_eventuallyEq ?_
  have hc : ContinuousAt (fun x => len3 (vec x)) r := (len3_deriv r (eps_pos.trans h).ne').continuousAt
  filter_upwards [hc.eventually (lt_mem_nhds h)] with x hx
  rw [C74_exp x (le_of_lt hx)]

section
attribute [local instance] Matrix.linftyOpNormedRing Matrix.linftyOpNormedAlgebra

/-- **C75.** At 0 the matrix returned is the derivative, too. -/
theorem C75_zero : HasJacobian39 rotMap (rodriguesExpJac (vec 0)) 0 := by
  intro i k
  have h0 : len3 (vec 0) = 0 := by simp [len3, vec]
  have hj : rodriguesExpJac (vec 0) = (expJacSmall : Mat 3 9 ℝ) := by
    unfold rodriguesExpJac
    rw [V3.norm_real, if_pos (by rw [h0]; simpa using eps_pos)]
  rw [hj]
  have hc : crossMat 0 = 0 := by ext i k; fin_cases i <;> fin_cases k <;> simp [crossMat]
  let L : (Fin 3 → ℝ) →ₗ[ℝ] Matrix (Fin 3) (Fin 3) ℝ :=
    { toFun := crossMat
      map_add' := fun a b => by
        ext i k; fin_cases i <;> fin_cases k <;> simp [crossMat] <;> ring
      map_smul' := fun t a => by
        ext i k; fin_cases i <;> fin_cases k <;> simp [crossMat] }
  have dL : HasFDerivAt crossMat L.toContinuousLinearMap 0 := L.toContinuousLinearMap.hasFDerivAt
  have de : HasFDerivAt (NormedSpace.exp : Matrix (Fin 3) (Fin 3) ℝ → _)
      (1 : Matrix (Fin 3) (Fin 3) ℝ →L[ℝ] Matrix (Fin 3) (Fin 3) ℝ) (crossMat 0) := by
    rw [hc]; exact hasFDerivAt_exp_zero
  have d := de.comp (0 : Fin 3 → ℝ) dL
  let E : Matrix (Fin 3) (Fin 3) ℝ →ₗ[ℝ] ℝ := Matrix.entryLinearMap ℝ ℝ i k
  have dE := (E.toContinuousLinearMap.hasFDerivAt (x := NormedSpace.exp (crossMat 0))).comp (0 : Fin 3 → ℝ) d
  refine HasFDerivAt.congr_fderiv (f := fun x => rotMap x i k) dE ?_
  ext x
  have e : crossMat x i k = ∑ j, (expJacSmall j (⟨i * 3 + k, by omega⟩ : Fin 9) : ℝ) * x j := by
    fin_cases i <;> fin_cases k <;> simp [crossMat, expJacSmall, Fin.sum_univ_three]
  refine Eq.trans (b := crossMat x i k) rfl ?_
  rw [e]
  simp
end

theorem abs_add5 (a b c d e : ℝ) : |a + b + c + d + e| ≤ |a| + |b| + |c| + |d| + |e| :=
  (abs_add_le _ _).trans (add_le_add_left ((abs_add_le _ _).trans (add_le_add_left ((abs_add_le _ _).trans
    (add_le_add_left (abs_add_le _ _) _)) _)) _)

/-- for vectors of length at most 1 the derivative at the vector and at 0 are close -/
theorem expJac_near (r : Fin 3 → ℝ) (hp : 0 < len3 (vec r)) (ht1 : len3 (vec r) ≤ 1) (j : Fin 3) (p : Fin 9) :
    |dSkew j p - expJac (len3 (vec r)) (fun j => (len3 (vec r))⁻¹ * r j) j p| ≤ 5 * len3 (vec r) := by
  obtain ⟨u, hu⟩ : ∃ u : Fin 3 → ℝ, u = fun j => (len3 (vec r))⁻¹ * r j := ⟨_, rfl⟩
  have hub : ∀ j, |u j| ≤ 1 := by
    intro j
    rw [hu]
    simp only [abs_mul, abs_inv, abs_of_pos hp]
    rw [← div_eq_inv_mul, div_le_one hp]
    exact abs_le_len3 r j
  rw [← hu]
  generalize len3 (vec r) = t at hp ht1
  have hs1 : |Real.sin t| ≤ t := (Real.abs_sin_le_abs).trans (abs_of_pos hp).le
  have hc := Real.one_sub_sq_div_two_le_cos (x := t)
  have hc1 := Real.cos_le_one t
  have hs2 := Real.sin_gt_sub_cube hp
  have hs3 : Real.sin t ≤ t := Real.sin_le hp.le
  obtain ⟨q, hq⟩ : ∃ q, q = Real.sin t * t⁻¹ := ⟨_, rfl⟩
  have hqs : Real.sin t = q * t := by rw [hq]; field_simp
  obtain ⟨w, hw⟩ : ∃ w, w = (1 - Real.cos t) * t⁻¹ := ⟨_, rfl⟩
  have hwc : 1 - Real.cos t = w * t := by rw [hw]; field_simp
  have hq1 : q ≤ 1 := by
    by_contra hcon; rw [not_le] at hcon; nlinarith
  have hq2 : 1 - t ^ 2 / 4 ≤ q := by
    by_contra hcon; rw [not_le] at hcon; nlinarith
  have hw0 : 0 ≤ w := by rw [hw]; exact mul_nonneg (by linarith) (by positivity)
  have hw1 : w ≤ t / 2 := by
    by_contra hcon; rw [not_le] at hcon; nlinarith
  have hk : ∀ a b : ℝ, |a| ≤ 1 → |b| ≤ 1 → |a * b| ≤ 1 := by
    intro a b ha hb
    rw [abs_mul]
    exact mul_le_one₀ ha (abs_nonneg _) hb
  have f1 : |flatten9 (1 : Mat 3 3 ℝ) p| ≤ 1 := by
    unfold flatten9
    rw [Matrix.one_apply]
    split_ifs <;> simp
  have f2 : |flatten9 (outer (vec u)) p| ≤ 1 := by
    unfold flatten9
    have : ∀ i k : Fin 3, |outer (vec u) i k| ≤ 1 := by
      intro i k
      fin_cases i <;> fin_cases k <;> simp [outer, Mat.ofRows, vec, -abs_mul, hk, hub]
    exact this _ _
  have f3 : |drrt (vec u) j p| ≤ 2 := by
    have h2 : ∀ i, |u i + u i| ≤ 2 := fun i => (abs_add_le _ _).trans (by have := hub i; linarith)
    have h3 : ∀ i, |u i| ≤ 2 := fun i => (hub i).trans (by norm_num)
    fin_cases j <;> fin_cases p <;> simp [drrt, vec, h2, h3]
  have f4 : |flatten9 (crossMat u) p| ≤ 1 := by
    unfold flatten9
    have : ∀ i k : Fin 3, |crossMat u i k| ≤ 1 := by
      intro i k
      fin_cases i <;> fin_cases k <;> simp [crossMat, hub]
    exact this _ _
  have f5 : |(dSkew j p : ℝ)| ≤ 1 := by
    fin_cases j <;> fin_cases p <;> simp [dSkew]
  have e : dSkew j p - expJac t u j p = Real.sin t * (u j * flatten9 1 p)
      + (2 * w - Real.sin t) * (u j * flatten9 (outer (vec u)) p) + -w * drrt (vec u) j p
      + (q - Real.cos t) * (u j * flatten9 (crossMat u) p) + (1 - q) * dSkew j p := by
    simp only [expJac, Matrix.of_apply, hq, hw]; ring
  rw [e]
  refine (abs_add5 _ _ _ _ _).trans ?_
  have b : ∀ x y X Y : ℝ, |x| ≤ X → |y| ≤ Y → |x * y| ≤ X * Y := by
    intro x y X Y hx hy
    rw [abs_mul]
    exact mul_le_mul hx hy (abs_nonneg _) ((abs_nonneg _).trans hx)
  have g1 := b _ _ _ _ hs1 (hk _ _ (hub j) f1)
  have g2 := b (2 * w - Real.sin t) _ (2 * t) _ (by
    have := abs_le.mp hs1
    rw [abs_le]; constructor <;> linarith) (hk _ _ (hub j) f2)
  have g3 := b (-w) _ (t / 2) _ (by rw [abs_neg, abs_of_nonneg hw0]; exact hw1) f3
  have g4 := b (q - Real.cos t) _ (t ^ 2 * (3 / 4)) _ (by
    rw [abs_le]; constructor <;> nlinarith) (hk _ _ (hub j) f4)
  have g5 := b (1 - q) _ (t ^ 2 / 4) _ (by
    rw [abs_of_nonneg (by linarith)]; linarith) f5
  nlinarith

/-- **C75.** For other vectors shorter than `eps` the derivative at 0 is returned; it differs from the derivative at the
vector by at most five times the length. -/
theorem C75_small (r : Fin 3 → ℝ) (h : len3 (vec r) < eps) (hr : r ≠ 0) :
    ∃ J, HasJacobian39 rotMap J r ∧ ∀ j p, |rodriguesExpJac (vec r) j p - J j p| ≤ 5 * len3 (vec r) := by
  have h0 : len3 (vec r) ≠ 0 := by
    intro h0
    apply hr
    funext j
    have := abs_le_len3 r j
    rw [h0] at this
    exact abs_nonpos_iff.mp this
  have hp : 0 < len3 (vec r) := lt_of_le_of_ne (Real.sqrt_nonneg _) (Ne.symm h0)
  refine ⟨_, rotMap_jac r hp, ?_⟩
  have hj : rodriguesExpJac (vec r) = (dSkew : Mat 3 9 ℝ) := by
    unfold rodriguesExpJac
    rw [V3.norm_real, if_pos (by simpa using h)]
    rfl
  intro j p
  rw [hj]
  have he : (eps : ℝ) ≤ 1 := by norm_num [eps]
  exact expJac_near r hp (by linarith) j p

/-- the hypotheses are met by vectors that are not special -/
example : eps < len3 (vec ![1, 2, 2]) := by
  have : len3 (vec ![1, 2, 2]) = 3 := by
    have e : (9 : ℝ) = 3 ^ 2 := by norm_num
    simp [len3, vec]
    norm_num
    rw [e, Real.sqrt_sq (by norm_num)]
  rw [this]; norm_num [eps]

end Blmath.Props
