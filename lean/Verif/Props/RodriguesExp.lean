import Verif.Props.Rodrigues
import Verif.Spec.RotationMap
import Mathlib.Analysis.SpecialFunctions.Trigonometric.Series

/-!
Property C74: `rodrigues` of a vector is a matrix exponential.
-/

namespace Blmath.Props
open Blmath.Geometry Blmath.Spec

/-- a coordinate triple as a 3-vector -/
def vec (r : Fin 3 → ℝ) : V3 ℝ := ⟨r 0, r 1, r 2⟩

/-- the unit vector of a nonzero triple times its transpose -/
noncomputable def unitSq (r : Fin 3 → ℝ) : Mat 3 3 ℝ := Matrix.of fun i k => (len3 (vec r))⁻¹ ^ 2 * (r i * r k)

theorem len3_sq (r : Fin 3 → ℝ) : len3 (vec r) ^ 2 = r 0 ^ 2 + r 1 ^ 2 + r 2 ^ 2 :=
  Real.sq_sqrt (by positivity)

theorem crossMat_sq (r : Fin 3 → ℝ) (h : len3 (vec r) ≠ 0) :
    crossMat r ^ 2 = (-(len3 (vec r) ^ 2)) • (1 - unitSq r) := by
  have hs := len3_sq r
  obtain ⟨t, ht⟩ : ∃ t, t = len3 (vec r) := ⟨_, rfl⟩
  rw [← ht] at hs h
  ext i k
  rw [pow_two]
  fin_cases i <;> fin_cases k <;>
    simp [crossMat, Matrix.mul_apply, Fin.sum_univ_three, unitSq, ← ht] <;> field_simp <;> nlinarith

theorem unitSq_idem (r : Fin 3 → ℝ) (h : len3 (vec r) ≠ 0) : unitSq r * unitSq r = unitSq r := by
  have hs := len3_sq r
  obtain ⟨t, ht⟩ : ∃ t, t = len3 (vec r) := ⟨_, rfl⟩
  rw [← ht] at hs h
  ext i k
  simp only [Matrix.mul_apply, Fin.sum_univ_three, unitSq, Matrix.of_apply, ← ht]
  field_simp
  linear_combination (-(r i * r k)) * hs

theorem cross_unitSq (r : Fin 3 → ℝ) : crossMat r * unitSq r = 0 := by
  ext i k
  fin_cases i <;>
    simp [crossMat, Matrix.mul_apply, Fin.sum_univ_three, unitSq] <;> ring

theorem crossMat_even (r : Fin 3 → ℝ) (h : len3 (vec r) ≠ 0) (k : ℕ) :
    crossMat r ^ (2 * k) =
      ((-1) ^ k * len3 (vec r) ^ (2 * k)) • (1 - unitSq r) + if k = 0 then unitSq r else 0 := by
  induction k with
  | zero => simp
  | succ k ih =>
    rw [show 2 * (k + 1) = 2 + 2 * k by ring, pow_add, ih, crossMat_sq r h, if_neg (Nat.succ_ne_zero k)]
    have hu := unitSq_idem r h
    have h1 : (1 - unitSq r) * (1 - unitSq r) = 1 - unitSq r := by
      rw [sub_mul, mul_sub, mul_sub, hu]; simp
    have h2 : (1 - unitSq r) * unitSq r = 0 := by
      rw [sub_mul, hu]; simp
    rw [mul_add, smul_mul_smul_comm, h1]
    have h3 : (-(len3 (vec r) ^ 2)) • (1 - unitSq r) * (if k = 0 then unitSq r else 0) = 0 := by
      split_ifs
      · rw [smul_mul_assoc, h2, smul_zero]
      · simp
    rw [h3]
    congr 2
    ring

theorem crossMat_odd (r : Fin 3 → ℝ) (h : len3 (vec r) ≠ 0) (k : ℕ) :
    crossMat r ^ (2 * k + 1) = ((-1) ^ k * len3 (vec r) ^ (2 * k)) • crossMat r := by
  rw [pow_succ', crossMat_even r h, mul_add, mul_smul_comm, mul_sub, cross_unitSq]
  split_ifs <;> simp [cross_unitSq]

section
attribute [local instance] Matrix.linftyOpNormedRing Matrix.linftyOpNormedAlgebra

theorem rotMap_formula (r : Fin 3 → ℝ) (h : len3 (vec r) ≠ 0) :
    rotMap r = Real.cos (len3 (vec r)) • (1 - unitSq r) + unitSq r +
      (Real.sin (len3 (vec r)) * (len3 (vec r))⁻¹) • crossMat r := by
  have key := NormedSpace.exp_series_hasSum_exp' (𝕂 := ℝ) (crossMat r)
  refine key.unique ?_
  have he : HasSum (fun k : ℕ => ((Nat.factorial (2 * k) : ℝ)⁻¹) • crossMat r ^ (2 * k))
      (Real.cos (len3 (vec r)) • (1 - unitSq r) + unitSq r) := by
    have h1 := (Real.hasSum_cos (len3 (vec r))).smul_const (1 - unitSq r)
    have h2 : HasSum (fun k : ℕ => if k = 0 then unitSq r else 0) (unitSq r) := by
      simpa using hasSum_ite_eq (0 : ℕ) (unitSq r)
    convert h1.add h2 using 2 with k
    rw [crossMat_even r h, smul_add, smul_smul]
    congr 1
    · congr 1
      rw [div_eq_mul_inv]; ring
    · split_ifs with hk
      · subst hk; simp
      · simp
  have ho : HasSum (fun k : ℕ => ((Nat.factorial (2 * k + 1) : ℝ)⁻¹) • crossMat r ^ (2 * k + 1))
      ((Real.sin (len3 (vec r)) * (len3 (vec r))⁻¹) • crossMat r) := by
    convert ((Real.hasSum_sin (len3 (vec r))).mul_right (len3 (vec r))⁻¹).smul_const (crossMat r) using 2 with k
    rw [crossMat_odd r h, smul_smul]
    congr 1
    field_simp
    ring
  exact he.even_add_odd ho
end

/-- **C74.** `rodrigues(r)` is the matrix exponential of the cross product with `r`: the rotation flow of the angular
velocity `r` at time 1. -/
theorem C74_exp (r : Fin 3 → ℝ) (h : eps ≤ len3 (vec r)) : rodriguesExp (vec r) = rotMap r := by
  have hp : len3 (vec r) ≠ 0 := (lt_of_lt_of_le eps_pos h).ne'
  rw [rodriguesExp_big _ h, rotMap_formula r hp]
  ext i k
  fin_cases i <;> fin_cases k <;>
    simp [axisMat, unitSq, crossMat, scale3] <;> simp [vec] <;> ring

/-- **C74.** The same at 0. -/
theorem C74_zero : rodriguesExp (vec 0) = rotMap 0 := by
  have h0 : len3 (vec 0) = 0 := by simp [len3, vec]
  rw [rodriguesExp_small _ (by rw [h0]; exact eps_pos)]
  have : crossMat 0 = 0 := by ext i k; fin_cases i <;> fin_cases k <;> simp [crossMat]
  rw [rotMap, this, NormedSpace.exp_zero]

theorem abs_le_len3 (r : Fin 3 → ℝ) (i : Fin 3) : |r i| ≤ len3 (vec r) := by
  refine Real.abs_le_sqrt ?_
  fin_cases i <;> simp only [vec] <;> simp <;> nlinarith [sq_nonneg (r 0), sq_nonneg (r 1), sq_nonneg (r 2)]

theorem unitSq_bound (r : Fin 3 → ℝ) (h : 0 < len3 (vec r)) (i k : Fin 3) :
    |unitSq r i k| ≤ 1 ∧ |(1 - unitSq r) i k| ≤ 1 := by
  have h1 : |unitSq r i k| ≤ 1 := by
    simp only [unitSq, Matrix.of_apply]
    rw [abs_mul, abs_mul, abs_of_nonneg (by positivity), inv_pow, ← div_eq_inv_mul, div_le_one (by positivity), pow_two]
    exact mul_le_mul (abs_le_len3 r i) (abs_le_len3 r k) (abs_nonneg _) h.le
  refine ⟨h1, ?_⟩
  by_cases hik : i = k
  · subst hik
    have h0 : 0 ≤ unitSq r i i := by
      simp only [unitSq, Matrix.of_apply]
      exact mul_nonneg (by positivity) (mul_self_nonneg _)
    rw [abs_of_nonneg h0] at h1
    rw [Matrix.sub_apply, Matrix.one_apply_eq, abs_of_nonneg (by linarith)]
    linarith
  · rw [Matrix.sub_apply, Matrix.one_apply_ne hik, zero_sub, abs_neg]; exact h1

theorem crossMat_bound (r : Fin 3 → ℝ) (i k : Fin 3) : |crossMat r i k| ≤ len3 (vec r) := by
  have h0 := abs_le_len3 r 0
  have h1 := abs_le_len3 r 1
  have h2 := abs_le_len3 r 2
  have hn : 0 ≤ len3 (vec r) := (abs_nonneg _).trans h0
  fin_cases i <;> fin_cases k <;> simp [crossMat, h0, h1, h2, hn]

/-- a rotation by a small angle is near the identity -/
theorem one_sub_rotMap (r : Fin 3 → ℝ) (h : len3 (vec r) ≤ 1) (i k : Fin 3) :
    |(1 : Mat 3 3 ℝ) i k - rotMap r i k| ≤ 2 * len3 (vec r) := by
  by_cases h0 : len3 (vec r) = 0
  · have hr : r = 0 := by
      funext j
      have := abs_le_len3 r j
      rw [h0] at this
      exact abs_nonpos_iff.mp this
    subst hr
    have : rodriguesExp (vec 0) = 1 := rodriguesExp_small _ (by rw [h0]; exact eps_pos)
    rw [← C74_zero, this, h0]; simp
  · have hp : 0 < len3 (vec r) := lt_of_le_of_ne (Real.sqrt_nonneg _) (Ne.symm h0)
    rw [rotMap_formula r h0]
    have hc := Real.one_sub_sq_div_two_le_cos (x := len3 (vec r))
    have hc1 := Real.cos_le_one (len3 (vec r))
    have hs : |Real.sin (len3 (vec r))| ≤ len3 (vec r) :=
      (Real.abs_sin_le_abs).trans (abs_of_pos hp).le
    obtain ⟨-, hu⟩ := unitSq_bound r hp i k
    have hk := crossMat_bound r i k
    have e : (1 : Mat 3 3 ℝ) i k - (Real.cos (len3 (vec r)) • (1 - unitSq r) + unitSq r +
        (Real.sin (len3 (vec r)) * (len3 (vec r))⁻¹) • crossMat r) i k =
        (1 - Real.cos (len3 (vec r))) * (1 - unitSq r) i k -
          Real.sin (len3 (vec r)) * ((len3 (vec r))⁻¹ * crossMat r i k) := by
      simp only [Matrix.add_apply, Matrix.smul_apply, smul_eq_mul, Matrix.sub_apply]; ring
    rw [e]
    refine (abs_sub _ _).trans ?_
    rw [abs_mul, abs_mul, abs_mul, abs_inv, abs_of_pos hp]
    have b1 : |1 - Real.cos (len3 (vec r))| ≤ len3 (vec r) := by
      rw [abs_of_nonneg (by linarith)]; nlinarith
    have b2 : (len3 (vec r))⁻¹ * |crossMat r i k| ≤ 1 := by
      rw [← div_eq_inv_mul, div_le_one hp]; exact hk
    have c1 := mul_le_mul b1 hu (abs_nonneg _) hp.le
    have c2 := mul_le_mul hs b2 (by positivity) hp.le
    linarith

/-- **C74.** For other vectors shorter than `eps` the identity is returned, which is wrong by no more than twice the
length in each entry. -/
theorem C74_small (r : Fin 3 → ℝ) (h : len3 (vec r) < eps) (i k : Fin 3) :
    |rodriguesExp (vec r) i k - rotMap r i k| ≤ 2 * len3 (vec r) := by
  have he : (eps : ℝ) ≤ 1 := by norm_num [eps]
  rw [rodriguesExp_small _ h]
  exact one_sub_rotMap r (by linarith) i k

/-- the rotations of the specification are orthogonal -/
theorem rotMap_orth (r : Fin 3 → ℝ) : (rotMap r).transpose * rotMap r = 1 := by
  have ht : (crossMat r).transpose = -crossMat r := by
    ext i k; fin_cases i <;> fin_cases k <;> simp [crossMat]
  rw [rotMap, ← Matrix.exp_transpose, ht, ← Matrix.exp_add_of_commute (-crossMat r) (crossMat r) ((Commute.refl (crossMat r)).neg_left), neg_add_cancel,
    NormedSpace.exp_zero]

/-- **C74.** Rotation vectors in the same direction compose by addition (the matrix exponential turns sums of commuting
matrices into products). -/
theorem C74_compose (r : Fin 3 → ℝ) (a b : ℝ) (ha : eps ≤ len3 (vec (a • r))) (hb : eps ≤ len3 (vec (b • r)))
    (hab : eps ≤ len3 (vec ((a + b) • r))) :
    rodriguesExp (vec ((a + b) • r)) = rodriguesExp (vec (a • r)) * rodriguesExp (vec (b • r)) := by
  have hl : ∀ t : ℝ, crossMat (t • r) = t • crossMat r := by
    intro t; ext i k; fin_cases i <;> fin_cases k <;> simp [crossMat]
  rw [C74_exp _ ha, C74_exp _ hb, C74_exp _ hab, rotMap, rotMap, rotMap, hl, hl, hl, add_smul,
    Matrix.exp_add_of_commute _ _ (((Commute.refl _).smul_left _).smul_right _)]

/-- Non-vacuity of `C74_exp`, `C74_compose`: turns by one and by two radians about x. -/
example : ∃ (r : Fin 3 → ℝ) (a b : ℝ), eps ≤ len3 (vec (a • r)) ∧ eps ≤ len3 (vec (b • r)) ∧
    eps ≤ len3 (vec ((a + b) • r)) ∧ rodriguesExp (vec (a • r)) ≠ 1 := by
  refine ⟨![1, 0, 0], 1, 2, ?_, ?_, ?_, ?_⟩
  · simp [vec, len3, eps]; norm_num
  · simp [vec, len3, eps]; norm_num
  · simp [vec, len3, eps]; apply Real.le_sqrt_of_sq_le; norm_num
  · intro h
    have hv : vec ((1 : ℝ) • ![1, 0, 0]) = ⟨1, 0, 0⟩ := by simp [vec]
    rw [hv] at h
    have h1 : len3 (⟨1, 0, 0⟩ : V3 ℝ) = 1 := by simp [len3]
    have h2 := C51_angle ⟨1, 0, 0⟩ ⟨0, 1, 0⟩ (by rw [h1]; norm_num [eps]) (by simp [inner3])
    rw [h, act_one, h1] at h2
    have h3 := congrArg V3.z h2
    simp [scale3, cross3] at h3
    have := Real.sin_pos_of_pos_of_lt_pi one_pos (by linarith [Real.pi_gt_three])
    linarith

end Blmath.Props
