import Verif.Spec.Geom
import Verif.Model.Vx
import Mathlib.Tactic.FieldSimp
import Mathlib.Tactic.Positivity
import Mathlib.Tactic.Linarith
import Mathlib.Tactic.LinearCombination

/-!
Lemmas about real 3-vectors.
-/

namespace Blmath
open Blmath.Spec

namespace V3

theorem dot_real (a b : V3 ℝ) : V3.dot a b = inner3 a b := rfl
theorem cross_real (a b : V3 ℝ) : V3.cross a b = cross3 a b := rfl
theorem norm_real (a : V3 ℝ) : V3.norm a = len3 a := by
  unfold V3.norm len3 V3.dot
  simp only [Num.sqrt_real]
  congr 1
  ring
theorem smul_real (k : ℝ) (a : V3 ℝ) : V3.smul k a = scale3 k a := rfl
theorem sub_real (a b : V3 ℝ) : a - b = vec3 b a := rfl

end V3

theorem inner3_comm (a b : V3 ℝ) : inner3 a b = inner3 b a := by unfold inner3; ring

theorem len3_nonneg (a : V3 ℝ) : 0 ≤ len3 a := Real.sqrt_nonneg _

theorem sumsq_nonneg (a : V3 ℝ) : 0 ≤ a.x ^ 2 + a.y ^ 2 + a.z ^ 2 := by positivity

theorem len3_sq (a : V3 ℝ) : len3 a ^ 2 = a.x ^ 2 + a.y ^ 2 + a.z ^ 2 :=
  Real.sq_sqrt (sumsq_nonneg a)

theorem len3_mul_self (a : V3 ℝ) : len3 a * len3 a = inner3 a a := by
  rw [← pow_two, len3_sq]; unfold inner3; ring

theorem inner3_self (a : V3 ℝ) : inner3 a a = len3 a ^ 2 := by rw [pow_two, len3_mul_self]

theorem inner3_self_nonneg (a : V3 ℝ) : 0 ≤ inner3 a a := by rw [inner3_self]; positivity

theorem inner3_self_eq_zero {a : V3 ℝ} : inner3 a a = 0 ↔ a = zero3 := by
  constructor
  · intro h
    unfold inner3 at h
    have hx := mul_self_nonneg a.x
    have hy := mul_self_nonneg a.y
    have hz := mul_self_nonneg a.z
    ext
    · show a.x = 0
      exact mul_self_eq_zero.mp (by linarith)
    · show a.y = 0
      exact mul_self_eq_zero.mp (by linarith)
    · show a.z = 0
      exact mul_self_eq_zero.mp (by linarith)
  · rintro rfl
    simp [inner3, zero3]

theorem len3_eq_zero {a : V3 ℝ} : len3 a = 0 ↔ a = zero3 := by
  rw [← inner3_self_eq_zero, inner3_self]
  simp

theorem len3_pos {a : V3 ℝ} (h : a ≠ zero3) : 0 < len3 a :=
  lt_of_le_of_ne (len3_nonneg a) fun h' => h (len3_eq_zero.mp h'.symm)

theorem len3_pos_iff {a : V3 ℝ} : 0 < len3 a ↔ a ≠ zero3 :=
  ⟨fun h h' => by rw [len3_eq_zero.mpr h'] at h; exact lt_irrefl _ h, len3_pos⟩

/-- Lagrange's identity -/
theorem lagrange3 (a b : V3 ℝ) :
    inner3 (cross3 a b) (cross3 a b) = inner3 a a * inner3 b b - inner3 a b ^ 2 := by
  simp only [inner3, cross3]; ring

/-- Cauchy-Schwarz -/
theorem inner3_sq_le (a b : V3 ℝ) : inner3 a b ^ 2 ≤ inner3 a a * inner3 b b := by
  have := inner3_self_nonneg (cross3 a b)
  rw [lagrange3] at this
  linarith

theorem abs_inner3_le (a b : V3 ℝ) : |inner3 a b| ≤ len3 a * len3 b := by
  apply abs_le_of_sq_le_sq _ (mul_nonneg (len3_nonneg a) (len3_nonneg b))
  rw [mul_pow, ← inner3_self, ← inner3_self]
  exact inner3_sq_le a b

theorem len3_scale (k : ℝ) (a : V3 ℝ) : len3 (scale3 k a) = |k| * len3 a := by
  unfold len3 scale3
  rw [← Real.sqrt_sq_eq_abs, ← Real.sqrt_mul (sq_nonneg k)]
  congr 1
  ring

theorem scale3_scale3 (a b : ℝ) (v : V3 ℝ) : scale3 a (scale3 b v) = scale3 (a * b) v := by
  ext <;> simp [scale3] <;> ring

@[simp] theorem scale3_one (v : V3 ℝ) : scale3 1 v = v := by
  ext <;> simp [scale3]

theorem inner3_scale_left (k : ℝ) (a b : V3 ℝ) : inner3 (scale3 k a) b = k * inner3 a b := by
  simp [inner3, scale3]; ring
theorem inner3_scale_right (k : ℝ) (a b : V3 ℝ) : inner3 a (scale3 k b) = k * inner3 a b := by
  simp [inner3, scale3]; ring

theorem cross3_self (a : V3 ℝ) : cross3 a a = zero3 := by
  ext <;> simp [cross3, zero3] <;> ring
theorem inner3_cross_left (a b : V3 ℝ) : inner3 (cross3 a b) a = 0 := by
  simp only [inner3, cross3]; ring
theorem inner3_cross_right (a b : V3 ℝ) : inner3 (cross3 a b) b = 0 := by
  simp only [inner3, cross3]; ring

theorem dist3_eq_zero {a b : V3 ℝ} : dist3 a b = 0 ↔ a = b := by
  unfold dist3
  rw [len3_eq_zero]
  constructor
  · intro h
    have hx := congrArg V3.x h
    have hy := congrArg V3.y h
    have hz := congrArg V3.z h
    simp only [vec3, zero3] at hx hy hz
    ext <;> linarith
  · rintro rfl
    simp [vec3, zero3]

theorem dist3_comm (a b : V3 ℝ) : dist3 a b = dist3 b a := by
  unfold dist3 len3 vec3
  congr 1
  ring

namespace Vx

theorem normalize3_real (v : V3 ℝ) : normalize3 v = scale3 (len3 v)⁻¹ v := by
  unfold normalize3
  rw [V3.norm_real]
  ext <;> simp [scale3, inv_mul_eq_div]

theorem len3_normalize3 {v : V3 ℝ} (h : v ≠ zero3) : len3 (normalize3 v) = 1 := by
  have := len3_pos h
  rw [normalize3_real, len3_scale, abs_of_pos (inv_pos.mpr this), inv_mul_cancel₀ this.ne']

theorem proj3_real (v onto : V3 ℝ) :
    proj3 v onto = scale3 (inner3 v onto / inner3 onto onto) onto := by
  unfold proj3
  rw [V3.smul_real, V3.dot_real, normalize3_real, inner3_scale_right, scale3_scale3,
    ← len3_mul_self]
  congr 1
  by_cases h : len3 onto = 0
  · simp [h]
  · field_simp

end Vx
end Blmath
