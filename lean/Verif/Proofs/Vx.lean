import Verif.Model.Vx
import Verif.Spec.Vec
import Verif.Base.Fl
import Mathlib.Tactic.Linarith
import Mathlib.Tactic.FieldSimp
import Mathlib.Tactic.Positivity
import Mathlib.Tactic.Ring

/-!
Lemmas about vectors as lists.
-/

namespace Blmath.Vx
open Blmath.Spec Blmath.Fl

theorem sumL_real (xs : List ℝ) : sumL xs = xs.sum := by
  induction xs with
  | nil => simp [sumL]
  | cons x xs ih => simp [sumL, ih]

theorem dotL_real (xs ys : List ℝ) : dotL xs ys = rdot xs ys := by
  unfold dotL rdot; rw [sumL_real]

theorem normL_real (xs : List ℝ) : normL xs = rnorm xs := by
  unfold normL rnorm; rw [dotL_real]; rfl

theorem sumL_fin (xs : List ℝ) : sumL (xs.map fin) = fin xs.sum := by
  induction xs with
  | nil => simp [sumL]
  | cons x xs ih => simp [sumL, ih]

theorem dotL_fin (xs ys : List ℝ) : dotL (xs.map fin) (ys.map fin) = fin (rdot xs ys) := by
  unfold dotL rdot
  rw [← sumL_fin, List.zipWith_map, List.map_zipWith]
  rfl

theorem rdot_self_nonneg (xs : List ℝ) : 0 ≤ rdot xs xs := by
  induction xs with
  | nil => simp [rdot]
  | cons x xs ih =>
    simp only [rdot, List.zipWith_cons_cons, List.sum_cons] at *
    have := mul_self_nonneg x
    linarith

theorem rdot_self_eq_zero {xs : List ℝ} (h : rdot xs xs = 0) : ∀ x ∈ xs, x = 0 := by
  induction xs with
  | nil => simp
  | cons x xs ih =>
    have h1 := mul_self_nonneg x
    have h2 := rdot_self_nonneg xs
    simp only [rdot, List.zipWith_cons_cons, List.sum_cons] at *
    intro y hy
    rcases List.mem_cons.mp hy with rfl | hy
    · have : y * y = 0 := by linarith
      simpa using this
    · exact ih (by linarith) y hy

theorem rdot_self_pos {xs : List ℝ} (h : RNonzero xs) : 0 < rdot xs xs := by
  rcases (rdot_self_nonneg xs).lt_or_eq with h' | h'
  · exact h'
  · obtain ⟨x, hx, hne⟩ := h
    exact absurd (rdot_self_eq_zero h'.symm x hx) hne

theorem rnorm_pos {xs : List ℝ} (h : RNonzero xs) : 0 < rnorm xs :=
  Real.sqrt_pos.mpr (rdot_self_pos h)

theorem rnorm_mul_self (xs : List ℝ) : rnorm xs * rnorm xs = rdot xs xs :=
  Real.mul_self_sqrt (rdot_self_nonneg xs)

theorem rdot_comm (xs ys : List ℝ) : rdot xs ys = rdot ys xs := by
  induction xs generalizing ys with
  | nil => simp [rdot]
  | cons x xs ih => cases ys with
    | nil => simp [rdot]
    | cons y ys =>
      have := ih ys
      simp only [rdot, List.zipWith_cons_cons, List.sum_cons] at *
      rw [this]; ring

theorem rdot_scale_right (k : ℝ) (xs ys : List ℝ) : rdot xs (rscale k ys) = k * rdot xs ys := by
  induction xs generalizing ys with
  | nil => simp [rdot]
  | cons x xs ih => cases ys with
    | nil => simp [rdot, rscale]
    | cons y ys =>
      have := ih ys
      simp only [rdot, rscale, List.map_cons, List.zipWith_cons_cons, List.sum_cons] at *
      rw [this]; ring

theorem rdot_scale_left (k : ℝ) (xs ys : List ℝ) : rdot (rscale k xs) ys = k * rdot xs ys := by
  rw [rdot_comm, rdot_scale_right, rdot_comm]

theorem rdot_sub_left (xs ys zs : List ℝ) (h : xs.length = ys.length) :
    rdot (rsub xs ys) zs = rdot xs zs - rdot ys zs := by
  induction xs generalizing ys zs with
  | nil => cases ys with
    | nil => simp [rdot, rsub]
    | cons => simp at h
  | cons x xs ih => cases ys with
    | nil => simp at h
    | cons y ys => cases zs with
      | nil => simp [rdot]
      | cons z zs =>
        have := ih ys zs (by simpa using h)
        simp only [rdot, rsub, List.zipWith_cons_cons, List.sum_cons] at *
        rw [this]; ring

theorem rdot_sub_right (xs ys zs : List ℝ) (h : ys.length = zs.length) :
    rdot xs (rsub ys zs) = rdot xs ys - rdot xs zs := by
  rw [rdot_comm, rdot_sub_left _ _ _ h, rdot_comm ys, rdot_comm zs]

theorem rscale_rscale (a b : ℝ) (xs : List ℝ) : rscale a (rscale b xs) = rscale (a * b) xs := by
  simp [rscale, List.map_map, Function.comp_def, mul_assoc]

@[simp] theorem length_rscale (a : ℝ) (xs : List ℝ) : (rscale a xs).length = xs.length := by
  simp [rscale]

theorem normalizeVec_real (xs : List ℝ) : normalizeVec xs = rscale (rnorm xs)⁻¹ xs := by
  unfold normalizeVec rscale
  rw [normL_real]
  apply List.map_congr_left
  intro x _
  rw [inv_mul_eq_div]

/-- The projection coefficient. -/
theorem projVec_real (xs onto : List ℝ) (hl : xs.length = onto.length) :
    projVec xs onto = .ok (rscale (rdot xs onto / rdot onto onto) onto) := by
  unfold projVec sprojVec
  simp only [hl, if_true, ok_bind, pure_eq_ok, dotL_real, normalizeVec_real, rdot_scale_right]
  congr 1
  show rscale _ (rscale _ onto) = _
  rw [rscale_rscale, ← rnorm_mul_self onto]
  congr 1
  by_cases h : rnorm onto = 0
  · simp [h]
  · field_simp

theorem projRow_real (xs onto : List ℝ) :
    (normalizeVec onto).map (dotL xs (normalizeVec onto) * ·) =
      rscale (rdot xs onto / rdot onto onto) onto := by
  simp only [dotL_real, normalizeVec_real, rdot_scale_right]
  show rscale _ (rscale _ onto) = _
  rw [rscale_rscale, ← rnorm_mul_self onto]
  congr 1
  by_cases h : rnorm onto = 0
  · simp [h]
  · field_simp

theorem normalizeVec_fin (xs : List ℝ) (h : RNonzero xs) :
    normalizeVec (xs.map fin) = (rscale (rnorm xs)⁻¹ xs).map fin := by
  have hN := rnorm_pos h
  unfold normalizeVec normL rscale
  rw [dotL_fin, sqrt_fin _ (rdot_self_nonneg xs)]
  simp only [List.map_map]
  apply List.map_congr_left
  intro x _
  simp only [Function.comp_def]
  change fin x / fin (rnorm xs) = _
  rw [div_fin _ _ hN.ne', inv_mul_eq_div]

theorem rnorm_scale (k : ℝ) (hk : 0 ≤ k) (xs : List ℝ) : rnorm (rscale k xs) = k * rnorm xs := by
  unfold rnorm
  rw [rdot_scale_right, rdot_scale_left, ← mul_assoc, Real.sqrt_mul (mul_self_nonneg k),
    Real.sqrt_mul_self hk]

theorem radd_rsub (xs ps : List ℝ) (h : xs.length = ps.length) : radd ps (rsub xs ps) = xs := by
  induction xs generalizing ps with
  | nil => cases ps <;> simp_all [radd, rsub]
  | cons x xs ih => cases ps with
    | nil => simp at h
    | cons p ps =>
      have := ih ps (by simpa using h)
      simp only [radd, rsub, List.zipWith_cons_cons] at *
      rw [this]; simp

theorem rsub_zero (xs : List ℝ) (onto : List ℝ) (h : xs.length = onto.length) :
    rsub xs (rscale 0 onto) = xs := by
  induction xs generalizing onto with
  | nil => simp [rsub]
  | cons x xs ih => cases onto with
    | nil => simp at h
    | cons o onto =>
      have := ih onto (by simpa using h)
      simp only [rsub, rscale, List.map_cons, List.zipWith_cons_cons] at *
      rw [this]; simp

end Blmath.Vx
