import Verif.Model.RigidTransform
import Verif.Spec.Rigid
import Verif.Spec.Svd
import Verif.Proofs.Rotation
import Verif.Proofs.Svd
import Verif.Props.Rotation
import Verif.Props.FitPlane
import Mathlib.LinearAlgebra.Matrix.Trace
import Mathlib.LinearAlgebra.Matrix.PosDef
import Mathlib.Analysis.Matrix.PosDef
import Mathlib.Data.Real.StarOrdered

/-!
Properties C58 and C59: least squares rotations and rigid motions.
-/

namespace Blmath.Props
open Blmath.Geometry Blmath.Spec

/-! ### arrays -/

theorem cols_eq {a : Grid ℝ} {ps : List (V3 ℝ)} (h : HasColumns a ps) : a.cols = ps := by
  apply List.ext_getElem?
  intro j
  unfold Grid.cols
  rw [List.getElem?_map]
  by_cases hj : j < ps.length
  · rw [List.getElem?_range (by rw [h.2.1]; exact hj), List.getElem?_eq_getElem hj, Option.map_some]
    exact congrArg some (h.2.2 j _ (List.getElem?_eq_getElem hj)).symm
  · rw [List.getElem?_eq_none (by simpa [h.2.1] using hj), List.getElem?_eq_none (by omega)]; rfl

theorem cols3_eq {a : Grid ℝ} {ps : List (V3 ℝ)} (h : HasColumns a ps) : a.cols3 = .ok ps := by
  unfold Grid.cols3
  rw [if_pos h.1, cols_eq h]

theorem given_eq {a : Grid ℝ} {ps : List (V3 ℝ)} (h : Given a ps) : a.fixShape.cols3 = .ok ps := by
  rcases h with h | ⟨hl, h⟩
  · unfold Grid.fixShape
    rw [if_neg (by simp [h.1])]
    exact cols3_eq h
  · unfold Grid.fixShape
    rw [if_pos (by rw [h.2.1]; exact hl), if_pos h.1]
    exact cols3_eq ⟨h.1, h.2.1, h.2.2⟩

/-! ### traces -/

theorem trace_outer (R : Mat 3 3 ℝ) : ∀ ps qs : List (V3 ℝ), ps.length = qs.length →
    Matrix.trace (R * outerSum ps qs) = (List.zipWith (fun p q => inner3 (act R p) q) ps qs).sum
  | [], [], _ => by
    simp [outerSum, Matrix.trace, Matrix.mul_apply]
  | p :: ps, q :: qs, h => by
    have ih := trace_outer R ps qs (by simpa using h)
    rw [outerSum, Mat.add_real, Matrix.mul_add, Matrix.trace_add, ih, List.zipWith_cons_cons, List.sum_cons]
    congr 1
    simp [Matrix.trace, Matrix.mul_apply, Fin.sum_univ_three, act_eq, inner3]
    ring
  | [], q :: qs, h => by simp at h
  | p :: ps, [], h => by simp at h

/-- the sum of the squared lengths -/
noncomputable def sqLens : List (V3 ℝ) → ℝ
  | [] => 0
  | p :: ps => inner3 p p + sqLens ps

theorem orth_inner {R : Mat 3 3 ℝ} (h : R.transpose * R = 1) (v : V3 ℝ) : inner3 (act R v) (act R v) = inner3 v v := by
  have e : ∀ i j, (R.transpose * R) i j = (1 : Mat 3 3 ℝ) i j := fun i j => by rw [h]
  simp only [Matrix.mul_apply, Fin.sum_univ_three, Matrix.transpose_apply] at e
  have e00 := e 0 0; have e01 := e 0 1; have e02 := e 0 2
  have e11 := e 1 1; have e12 := e 1 2; have e22 := e 2 2
  simp at e00 e01 e02 e11 e12 e22
  rw [act_eq]
  simp only [inner3]
  linear_combination v.x * v.x * e00 + v.y * v.y * e11 + v.z * v.z * e22 + 2 * v.x * v.y * e01 + 2 * v.x * v.z * e02 + 2 * v.y * v.z * e12

theorem residual_trace {R : Mat 3 3 ℝ} (hR : R.transpose * R = 1) : ∀ ps qs : List (V3 ℝ), ps.length = qs.length →
    sqResid (act R) ps qs = sqLens ps + sqLens qs - 2 * Matrix.trace (R * outerSum ps qs) := by
  intro ps qs h
  rw [trace_outer R ps qs h]
  induction ps generalizing qs with
  | nil =>
    cases qs with
    | nil => simp [sqResid, sqLens]
    | cons q qs => simp at h
  | cons p ps ih =>
    cases qs with
    | nil => simp at h
    | cons q qs =>
      have := ih qs (by simpa using h)
      rw [sqResid, sqLens, sqLens, List.zipWith_cons_cons, List.sum_cons, this]
      have h1 := orth_inner hR p
      have h2 : dist3 (act R p) q ^ 2 = inner3 (act R p) (act R p) + inner3 q q - 2 * inner3 (act R p) q := by
        unfold dist3
        rw [← inner3_self]
        simp only [inner3, vec3]; ring
      rw [h2, h1]; ring

theorem residual_move (R : Mat 3 3 ℝ) (T a b : V3 ℝ) : ∀ ps qs : List (V3 ℝ), ps.length = qs.length →
    sqResid (move R T) ps qs = sqResid (act R) (ps.map (· - a)) (qs.map (· - b)) +
      2 * inner3 (vec3 b (move R T a)) (sum3 ((ps.map (· - a)).map (act R)) - sum3 (qs.map (· - b))) +
      ps.length * inner3 (vec3 b (move R T a)) (vec3 b (move R T a))
  | [], [], _ => by simp [sqResid, sum3, inner3, zero3]
  | p :: ps, q :: qs, h => by
    have ih := residual_move R T a b ps qs (by simpa using h)
    simp only [sqResid, List.map_cons, sum3, List.length_cons]
    rw [ih]
    have h2 : dist3 (move R T p) q ^ 2 = inner3 (vec3 (move R T p) q) (vec3 (move R T p) q) := by
      unfold dist3; rw [← inner3_self]
    have h3 : dist3 (act R (p - a)) (q - b) ^ 2 = inner3 (vec3 (act R (p - a)) (q - b)) (vec3 (act R (p - a)) (q - b)) := by
      unfold dist3; rw [← inner3_self]
    rw [h2, h3]
    push_cast
    simp only [inner3, vec3, move, act_eq, V3.sub_x, V3.sub_y, V3.sub_z]
    ring
  | [], q :: qs, h => by simp at h
  | p :: ps, [], h => by simp at h

theorem sum3_centred {ps : List (V3 ℝ)} (h : ps ≠ []) : sum3 (ps.map (· - centroid ps)) = zero3 := by
  have hl : (ps.length : ℝ) ≠ 0 := by simpa using h
  have e : (ps.map (· - centroid ps)) = ps.map (· + scale3 (-1) (centroid ps)) := by
    congr 1; funext p; ext <;> simp [scale3] <;> ring
  rw [e, sum3_map_add]
  ext <;> simp [scale3, centroid, zero3] <;> field_simp <;> ring

/-- with centred points the translation only adds to the sqResid -/
theorem residual_centred {R : Mat 3 3 ℝ} {T : V3 ℝ} {ps qs : List (V3 ℝ)} (hl : ps.length = qs.length) (hp : ps ≠ []) :
    sqResid (move R T) ps qs = sqResid (act R) (ps.map (· - centroid ps)) (qs.map (· - centroid qs)) +
      ps.length * len3 (vec3 (centroid qs) (move R T (centroid ps))) ^ 2 := by
  have hq : qs ≠ [] := by rintro rfl; simp at hl; exact hp hl
  rw [residual_move R T (centroid ps) (centroid qs) ps qs hl, sum3_map_act, sum3_centred hp, sum3_centred hq, ← inner3_self]
  simp [inner3, act_eq, zero3]

/-! ### orthogonal matrices and singular values -/

theorem orth_diag_le {W : Mat 3 3 ℝ} (h : W.transpose * W = 1) (i : Fin 3) : W i i ≤ 1 := by
  have e := congrFun (congrFun h i) i
  simp only [Matrix.mul_apply, Fin.sum_univ_three, Matrix.transpose_apply, Matrix.one_apply_eq] at e
  fin_cases i <;> simp at e ⊢ <;> nlinarith [mul_self_nonneg (W 0 0), mul_self_nonneg (W 1 1), mul_self_nonneg (W 2 2),
    mul_self_nonneg (W 0 1), mul_self_nonneg (W 0 2), mul_self_nonneg (W 1 0), mul_self_nonneg (W 1 2), mul_self_nonneg (W 2 0), mul_self_nonneg (W 2 1)]

theorem orth_mul {A B : Mat 3 3 ℝ} (hA : A.transpose * A = 1) (hB : B.transpose * B = 1) : (A * B).transpose * (A * B) = 1 := by
  rw [Matrix.transpose_mul, Matrix.mul_assoc, ← Matrix.mul_assoc A.transpose, hA, Matrix.one_mul, hB]

theorem orth_tr {A : Mat 3 3 ℝ} (hA : A.transpose * A = 1) : A.transpose.transpose * A.transpose = 1 := by
  rw [Matrix.transpose_transpose]; exact mul_eq_one_comm.mp hA

theorem orth_det {A : Mat 3 3 ℝ} (hA : A.transpose * A = 1) : A.det = 1 ∨ A.det = -1 := by
  have := congrArg Matrix.det hA
  rw [Matrix.det_mul, Matrix.det_transpose, Matrix.det_one] at this
  exact mul_self_eq_one_iff.mp this

theorem trace_svd {c u v : Mat 3 3 ℝ} {s : Fin 3 → ℝ} (h : SvdSpec c u s v) (R : Mat 3 3 ℝ) :
    Matrix.trace (R * c) = (v * R * u) 0 0 * s 0 + (v * R * u) 1 1 * s 1 + (v * R * u) 2 2 * s 2 := by
  have : Matrix.trace (R * c) = Matrix.trace (v * R * u * Matrix.diagonal s) := by
    rw [h.factor, ← Matrix.mul_assoc, Matrix.trace_mul_comm, ← Matrix.mul_assoc, ← Matrix.mul_assoc]
  rw [this]
  simp [Matrix.trace, Fin.sum_univ_three, Matrix.mul_diagonal]

/-- no orthogonal matrix has a trace larger than the sum of the singular values -/
theorem trace_le {c u v : Mat 3 3 ℝ} {s : Fin 3 → ℝ} (h : SvdSpec c u s v) {R : Mat 3 3 ℝ} (hR : R.transpose * R = 1) :
    Matrix.trace (R * c) ≤ s 0 + s 1 + s 2 := by
  rw [trace_svd h]
  have hW := orth_mul (orth_mul h.right hR) h.left
  have h0 := mul_le_mul_of_nonneg_right (orth_diag_le hW 0) (h.nonneg 0)
  have h1 := mul_le_mul_of_nonneg_right (orth_diag_le hW 1) (h.nonneg 1)
  have h2 := mul_le_mul_of_nonneg_right (orth_diag_le hW 2) (h.nonneg 2)
  linarith

/-- the trace of a rotation is at least -1 -/
theorem rot_trace {M : Mat 3 3 ℝ} (h : IsRotation M) : -1 ≤ M 0 0 + M 1 1 + M 2 2 := by
  have hd := h.2
  have e : ∀ i j, (M.transpose * M) i j = (1 : Mat 3 3 ℝ) i j := fun i j => by rw [h.1]
  have f : ∀ i j, (M * M.transpose) i j = (1 : Mat 3 3 ℝ) i j := fun i j => by rw [h.mul_transpose]
  simp only [Matrix.mul_apply, Fin.sum_univ_three, Matrix.transpose_apply] at e f
  have e00 := e 0 0; have e01 := e 0 1; have e02 := e 0 2
  have e11 := e 1 1; have e12 := e 1 2; have e22 := e 2 2
  simp at e00 e01 e02 e11 e12 e22
  rw [Matrix.det_fin_three] at hd
  -- the diagonal of the cofactor matrix is the diagonal
  have c0 : M 0 0 = M 1 1 * M 2 2 - M 1 2 * M 2 1 := by
    linear_combination (-M 0 0) * hd + (M 1 1 * M 2 2 - M 1 2 * M 2 1) * e00 + (M 1 2 * M 2 0 - M 1 0 * M 2 2) * e01 + (M 1 0 * M 2 1 - M 1 1 * M 2 0) * e02
  have c1 : M 1 1 = M 0 0 * M 2 2 - M 0 2 * M 2 0 := by
    linear_combination (-M 1 1) * hd + (M 0 0 * M 2 2 - M 0 2 * M 2 0) * e11 + (M 0 2 * M 2 1 - M 0 1 * M 2 2) * e01 + (M 0 1 * M 2 0 - M 0 0 * M 2 1) * e12
  have c2 : M 2 2 = M 0 0 * M 1 1 - M 0 1 * M 1 0 := by
    linear_combination (-M 2 2) * hd + (M 0 0 * M 1 1 - M 0 1 * M 1 0) * e22 + (M 0 1 * M 1 2 - M 0 2 * M 1 1) * e02 + (M 0 2 * M 1 0 - M 0 0 * M 1 2) * e12
  have key : (1 + (M 0 0 + M 1 1 + M 2 2)) * (3 - (M 0 0 + M 1 1 + M 2 2)) =
      (M 2 1 - M 1 2) ^ 2 + (M 0 2 - M 2 0) ^ 2 + (M 1 0 - M 0 1) ^ 2 := by
    linear_combination -(e00 + e11 + e22) + 2 * c0 + 2 * c1 + 2 * c2
  have d0 := orth_diag_le h.1 0
  have d1 := orth_diag_le h.1 1
  have d2 := orth_diag_le h.1 2
  by_contra hc
  push Not at hc
  nlinarith [sq_nonneg (M 2 1 - M 1 2), sq_nonneg (M 0 2 - M 2 0), sq_nonneg (M 1 0 - M 0 1)]

/-- the bound for matrices of the other orientation -/
theorem trace_le_flip {c u v : Mat 3 3 ℝ} {s : Fin 3 → ℝ} (h : SvdSpec c u s v) {R : Mat 3 3 ℝ} (hR : R.transpose * R = 1)
    (hd : (v * R * u).det = -1) : Matrix.trace (R * c) ≤ s 0 + s 1 - s 2 := by
  rw [trace_svd h]
  have hW := orth_mul (orth_mul h.right hR) h.left
  obtain ⟨W, hWe⟩ : ∃ W, W = v * R * u := ⟨_, rfl⟩
  rw [← hWe] at hW hd ⊢
  have hM : IsRotation (-W) := by
    refine ⟨by rw [Matrix.transpose_neg, neg_mul_neg]; exact hW, ?_⟩
    rw [Matrix.det_neg, hd]; norm_num
  have ht := rot_trace hM
  simp only [Matrix.neg_apply] at ht
  have d0 := orth_diag_le hW 0
  have d1 := orth_diag_le hW 1
  have s01 := h.sorted 0 1 (by decide)
  have s12 := h.sorted 1 2 (by decide)
  have s2 := h.nonneg 2
  nlinarith [mul_le_mul_of_nonneg_left d0 (sub_nonneg.mpr s01), mul_le_mul_of_nonneg_left (add_le_add d0 d1) (sub_nonneg.mpr s12),
    mul_le_mul_of_nonneg_left ht s2]

theorem det33_real (R : Mat 3 3 ℝ) : det33 R = R.det := by
  rw [Matrix.det_fin_three]; simp only [det33]; ring

theorem flipLast_real (v : Mat 3 3 ℝ) : flipLast v = v * Matrix.diagonal ![1, 1, -1] := by
  ext i j
  rw [Matrix.mul_diagonal]
  fin_cases j <;> simp [flipLast]

theorem anyZero_real (s : Fin 3 → ℝ) : anyZero s = true ↔ s 0 = 0 ∨ s 1 = 0 ∨ s 2 = 0 := by
  simp [anyZero, or_assoc]

theorem flip_orth : (Matrix.diagonal ![1, 1, -1] : Mat 3 3 ℝ).transpose * Matrix.diagonal ![1, 1, -1] = 1 := by
  rw [Matrix.diagonal_transpose, Matrix.diagonal_mul_diagonal]
  ext i j
  fin_cases i <;> fin_cases j <;> simp [Matrix.diagonal_apply, Matrix.one_apply]

theorem flip_det : (Matrix.diagonal ![1, 1, -1] : Mat 3 3 ℝ).det = -1 := by
  rw [Matrix.det_diagonal]; simp [Fin.prod_univ_three]

/-- both candidates: orthogonal, and their traces -/
theorem candidates {c u v : Mat 3 3 ℝ} {s : Fin 3 → ℝ} (h : SvdSpec c u s v) :
    ((v.transpose * u.transpose).transpose * (v.transpose * u.transpose) = 1 ∧
      Matrix.trace (v.transpose * u.transpose * c) = s 0 + s 1 + s 2) ∧
    ((v.transpose * Matrix.diagonal ![1, 1, -1] * u.transpose).transpose * (v.transpose * Matrix.diagonal ![1, 1, -1] * u.transpose) = 1 ∧
      Matrix.trace (v.transpose * Matrix.diagonal ![1, 1, -1] * u.transpose * c) = s 0 + s 1 - s 2 ∧
      (v.transpose * Matrix.diagonal ![1, 1, -1] * u.transpose).det = -(v.transpose * u.transpose).det) := by
  have hv : v * v.transpose = 1 := mul_eq_one_comm.mp h.right
  refine ⟨⟨orth_mul (orth_tr h.right) (orth_tr h.left), ?_⟩, orth_mul (orth_mul (orth_tr h.right) flip_orth) (orth_tr h.left), ?_, ?_⟩
  · rw [trace_svd h]
    have : v * (v.transpose * u.transpose) * u = 1 := by
      rw [← Matrix.mul_assoc, hv, Matrix.one_mul, h.left]
    rw [this]; simp
  · rw [trace_svd h]
    have : v * (v.transpose * Matrix.diagonal ![1, 1, -1] * u.transpose) * u = Matrix.diagonal ![1, 1, -1] := by
      rw [← Matrix.mul_assoc, ← Matrix.mul_assoc, hv, Matrix.one_mul, Matrix.mul_assoc, h.left, Matrix.mul_one]
    rw [this]; simp; ring
  · rw [Matrix.det_mul, Matrix.det_mul, flip_det, Matrix.det_mul]; ring

theorem svd_det {c u v : Mat 3 3 ℝ} {s : Fin 3 → ℝ} (h : SvdSpec c u s v) :
    c.det = (v.transpose * u.transpose).det * (s 0 * s 1 * s 2) := by
  rw [h.factor, Matrix.det_mul, Matrix.det_mul, Matrix.det_diagonal, Matrix.det_mul, Matrix.det_transpose, Matrix.det_transpose, Fin.prod_univ_three]
  ring

/-- the fitted rotation of `find_rigid_transform`, for any SVD -/
theorem fitRotation_spec {svd : Svd3 ℝ} {c u v : Mat 3 3 ℝ} {s : Fin 3 → ℝ} (hs : svd c = .ok (u, s, v)) (h : SvdSpec c u s v) :
    (c.det < 0 → fitRotation svd c = .error .ValueError) ∧
    (0 ≤ c.det → ∃ R, fitRotation svd c = .ok R ∧ IsRotation R ∧
      ∀ R' : Mat 3 3 ℝ, R'.transpose * R' = 1 → Matrix.trace (R' * c) ≤ Matrix.trace (R * c)) := by
  obtain ⟨⟨ho, ht⟩, ho', ht', hd'⟩ := candidates h
  have hdc := svd_det h
  have hprod : 0 ≤ s 0 * s 1 * s 2 := mul_nonneg (mul_nonneg (h.nonneg 0) (h.nonneg 1)) (h.nonneg 2)
  have hz : (s 0 = 0 ∨ s 1 = 0 ∨ s 2 = 0) ↔ s 0 * s 1 * s 2 = 0 := by
    rw [mul_eq_zero, mul_eq_zero, or_assoc]
  have hcall : fitRotation svd c = if (v.transpose * u.transpose).det < 0 then
      (if s 0 * s 1 * s 2 = 0 then .ok (v.transpose * Matrix.diagonal ![1, 1, -1] * u.transpose) else .error .ValueError)
      else .ok (v.transpose * u.transpose) := by
    unfold fitRotation
    rw [hs]
    simp only [ok_bind, det33_real, Mat.mul_real, Mat.tr_eq, flipLast_real, Num.lt_real, Num.lit_real, pure_eq_ok, Rat.cast_zero]
    by_cases hn : (v.transpose * u.transpose).det < 0
    · rw [if_pos (by simpa using hn), if_pos hn]
      by_cases hzz : s 0 * s 1 * s 2 = 0
      · rw [if_pos ((anyZero_real s).mpr (hz.mpr hzz)), if_pos hzz]
      · rw [if_neg (fun hc => hzz (hz.mp ((anyZero_real s).mp hc))), if_neg hzz]
    · rw [if_neg (by simpa using hn), if_neg hn]
  rw [hcall]
  constructor
  · intro hc
    rw [hdc] at hc
    have hn : (v.transpose * u.transpose).det < 0 := by
      by_contra hcon
      exact absurd hc (not_lt.mpr (mul_nonneg (not_lt.mp hcon) hprod))
    rw [if_pos hn, if_neg (fun h0 => by rw [h0, mul_zero] at hc; exact lt_irrefl _ hc)]
  · intro hc
    by_cases hn : (v.transpose * u.transpose).det < 0
    · have h0 : s 0 * s 1 * s 2 = 0 := by
        rw [hdc] at hc
        by_contra h0
        exact absurd hc (not_le.mpr (mul_neg_of_neg_of_pos hn (lt_of_le_of_ne hprod (Ne.symm h0))))
      rw [if_pos hn, if_pos h0]
      refine ⟨_, rfl, ⟨ho', ?_⟩, ?_⟩
      · rw [hd']
        rcases orth_det ho with h1 | h1
        · rw [h1] at hn; norm_num at hn
        · rw [h1]; norm_num
      · intro R' hR'
        rw [ht']
        have h2 : s 2 = 0 := by
          have s01 := h.sorted 0 1 (by decide)
          have s12 := h.sorted 1 2 (by decide)
          have := h.nonneg 2
          rcases hz.mpr h0 with h0 | h0 | h0
          · linarith
          · linarith
          · exact h0
        have := trace_le h hR'
        linarith
    · rw [if_neg hn]
      refine ⟨_, rfl, ⟨ho, ?_⟩, ?_⟩
      · rcases orth_det ho with h1 | h1
        · exact h1
        · rw [h1] at hn; norm_num at hn
      · intro R' hR'
        rw [ht]; exact trace_le h hR'

theorem crossCov_eq {ps qs : List (V3 ℝ)} (h : ps.length = qs.length) :
    outerSum (ps.map (· - centroid ps)) (qs.map (· - centroid qs)) = crossCov ps qs := by
  unfold crossCov
  generalize centroid ps = a
  generalize centroid qs = b
  induction ps generalizing qs with
  | nil => simp [outerSum]; rfl
  | cons p ps ih =>
    cases qs with
    | nil => simp at h
    | cons q qs =>
      simp only [List.map_cons, outerSum, List.zip_cons_cons, List.sum_cons, Mat.add_real]
      rw [ih (by simpa using h)]
      congr 1
      ext i j
      fin_cases i <;> fin_cases j <;> simp [Matrix.vecMulVec_apply]

theorem find_eq {svd : Svd3 ℝ} {a b : Grid ℝ} {ps qs : List (V3 ℝ)} (ha : Given a ps) (hb : Given b qs) (hl : ps.length = qs.length) :
    findRigidTransform svd a b = (fitRotation svd (crossCov ps qs) >>= fun R =>
      .ok (R, centroid qs - act R (centroid ps))) := by
  unfold findRigidTransform
  rw [given_eq ha, given_eq hb]
  simp only [ok_bind, dotT, List.length_map, if_pos hl, meanPts_real, crossCov_eq hl, app_real, pure_eq_ok]

/-- **C58.** For at least one point and equally many on both sides, whatever singular value
decomposition is used: ValueError is raised exactly when the determinant of the cross-covariance matrix is
negative; otherwise the result is a proper rotation with a translation, and no rigid motion, even with a
reflection, has a smaller sum of squared distances. -/
theorem C58_optimal (svd : Svd3 ℝ) (hsvd : ∀ c, ∃ u s v, svd c = .ok (u, s, v) ∧ SvdSpec c u s v) (a b : Grid ℝ)
    (ps qs : List (V3 ℝ)) (ha : Given a ps) (hb : Given b qs) (hl : ps.length = qs.length) (hp : ps ≠ []) :
    ((crossCov ps qs).det < 0 → findRigidTransform svd a b = .error .ValueError) ∧
    (0 ≤ (crossCov ps qs).det → ∃ R T, findRigidTransform svd a b = .ok (R, T) ∧ IsRotation R ∧
      ∀ (R' : Matrix (Fin 3) (Fin 3) ℝ) T', R'.transpose * R' = 1 → sqResid (move R T) ps qs ≤ sqResid (move R' T') ps qs) := by
  obtain ⟨u, s, v, hs, hS⟩ := hsvd (crossCov ps qs)
  obtain ⟨h1, h2⟩ := fitRotation_spec hs hS
  rw [find_eq ha hb hl]
  constructor
  · intro hd; rw [h1 hd]; rfl
  · intro hd
    obtain ⟨R, hR, hrot, hbest⟩ := h2 hd
    refine ⟨R, centroid qs - act R (centroid ps), by rw [hR]; rfl, hrot, ?_⟩
    intro R' T' hR'
    have hl' : (ps.map (· - centroid ps)).length = (qs.map (· - centroid qs)).length := by simpa using hl
    rw [residual_centred hl hp, residual_centred hl hp, residual_trace hrot.1 _ _ hl', residual_trace hR' _ _ hl', crossCov_eq hl]
    have h0 : vec3 (centroid qs) (move R (centroid qs - act R (centroid ps)) (centroid ps)) = zero3 := by
      ext <;> simp [vec3, move, zero3]
    have h0' : len3 zero3 = 0 := len3_eq_zero.mpr rfl
    rw [h0, h0']
    have h3 : 0 ≤ (ps.length : ℝ) * len3 (vec3 (centroid qs) (move R' T' (centroid ps))) ^ 2 := by positivity
    have h4 := hbest R' hR'
    linarith

/-! ### exact recovery -/

theorem sqResid_nonneg (f : V3 ℝ → V3 ℝ) : ∀ ps qs, 0 ≤ sqResid f ps qs
  | [], _ => by simp [sqResid]
  | _ :: _, [] => by simp [sqResid]
  | p :: ps, q :: qs => by
    have := sqResid_nonneg f ps qs
    rw [sqResid]; positivity

theorem sqResid_zero {f g : V3 ℝ → V3 ℝ} : ∀ ps, sqResid f ps (ps.map g) = 0 ↔ ∀ p ∈ ps, f p = g p
  | [] => by simp [sqResid]
  | p :: ps => by
    have ih := sqResid_zero (f := f) (g := g) ps
    have h1 := sqResid_nonneg f ps (ps.map g)
    rw [List.map_cons, sqResid]
    constructor
    · intro h
      have h2 : dist3 (f p) (g p) ^ 2 = 0 := le_antisymm (by linarith) (sq_nonneg _)
      have h3 : sqResid f ps (ps.map g) = 0 := le_antisymm (by linarith [sq_nonneg (dist3 (f p) (g p))]) h1
      intro q hq
      rcases List.mem_cons.mp hq with rfl | hq
      · exact dist3_eq_zero.mp (pow_eq_zero_iff two_ne_zero |>.mp h2)
      · exact ih.mp h3 q hq
    · intro h
      rw [ih.mpr (fun q hq => h q (List.mem_cons_of_mem _ hq)), dist3_eq_zero.mpr (h p List.mem_cons_self)]
      norm_num

/-- a matrix of inner products has no negative determinant -/
theorem gram_det (ps : List (V3 ℝ)) : 0 ≤ (outerSum ps ps).det := by
  have : (outerSum ps ps).PosSemidef := by
    induction ps with
    | nil =>
      have : (outerSum [] [] : Mat 3 3 ℝ) = 0 := by ext i j; simp [outerSum]
      rw [this]; exact Matrix.PosSemidef.zero
    | cons p ps ih =>
      rw [outerSum, Mat.add_real]
      refine Matrix.PosSemidef.add ?_ ih
      have := Matrix.posSemidef_vecMulVec_self_star (R := ℝ) ![p.x, p.y, p.z]
      convert this using 1
      ext i j
      fin_cases i <;> fin_cases j <;> simp [Matrix.vecMulVec_apply]
  exact this.det_nonneg

theorem outer_act (R : Mat 3 3 ℝ) (ps : List (V3 ℝ)) : outerSum ps (ps.map (act R)) = outerSum ps ps * R.transpose := by
  induction ps with
  | nil => ext i j; simp [outerSum, Matrix.mul_apply]
  | cons p ps ih =>
    rw [List.map_cons, outerSum, outerSum, ih, Mat.add_real, Mat.add_real, Matrix.add_mul]
    congr 1
    ext i j
    fin_cases i <;> fin_cases j <;> simp [Matrix.mul_apply, Fin.sum_univ_three, act_eq] <;> ring

theorem move_eq_add (R : Mat 3 3 ℝ) (T p : V3 ℝ) : move R T p = act R p + T := rfl

theorem centroid_move {R : Mat 3 3 ℝ} {T : V3 ℝ} {ps : List (V3 ℝ)} (h : ps ≠ []) :
    centroid (ps.map (move R T)) = move R T (centroid ps) := by
  have hl : (ps.length : ℝ) ≠ 0 := by simpa using h
  have e : ps.map (move R T) = (ps.map (act R)).map (· + T) := by rw [List.map_map]; rfl
  rw [e]
  unfold centroid
  rw [sum3_map_add, sum3_map_act, List.length_map, List.length_map, move_eq_add, act_scale]
  ext <;> simp [scale3] <;> field_simp

/-- two rotations that agree on two independent vectors are equal -/
theorem rot_unique {R R' : Mat 3 3 ℝ} (hR : IsRotation R) (hR' : IsRotation R') {x y : V3 ℝ} (h : cross3 x y ≠ zero3)
    (hx : act R x = act R' x) (hy : act R y = act R' y) : R = R' := by
  have hc : ∀ {A : Mat 3 3 ℝ}, IsRotation A → act A (cross3 x y) = cross3 (act A x) (act A y) := by
    intro A hA
    -- compare inner products with all images
    obtain ⟨t, ht⟩ : ∃ t, t = vec3 (act A (cross3 x y)) (cross3 (act A x) (act A y)) := ⟨_, rfl⟩
    have key : ∀ w, inner3 (cross3 (act A x) (act A y)) (act A w) = inner3 (act A (cross3 x y)) (act A w) := by
      intro w
      rw [hA.inner]
      have : inner3 (cross3 (act A x) (act A y)) (act A w) = A.det * inner3 (cross3 x y) w := by
        simp only [inner3, cross3, act_eq, Matrix.det_fin_three]; ring
      rw [this, hA.2, one_mul]
    have k1 := key (act A.transpose t)
    rw [hA.act_forth] at k1
    have : inner3 t t = 0 := by
      have e : inner3 t t = inner3 (cross3 (act A x) (act A y)) t - inner3 (act A (cross3 x y)) t := by
        conv_lhs => rw [ht]
        rw [ht]
        simp only [inner3, vec3]; ring
      rw [e, k1, sub_self]
    have hz := inner3_self_eq_zero.mp this
    have hh : dist3 (act A (cross3 x y)) (cross3 (act A x) (act A y)) = 0 := by
      unfold dist3; rw [← ht, hz]; exact len3_eq_zero.mpr rfl
    exact dist3_eq_zero.mp hh
  apply act_ext
  intro w
  have hd : det3 x y (cross3 x y) ≠ 0 := fun h0 => h (inner3_self_eq_zero.mp h0)
  obtain ⟨a, b, c, rfl⟩ := comb_of_det hd w
  rw [act_comb, act_comb, hx, hy, hc hR, hc hR', hx, hy]

/-- **C58.** If the second points are the images of the first under a rigid motion, that motion is
recovered: nothing is raised, the points are mapped exactly, and the rotation and translation found are those
of the motion, if three of the points are not on a line. -/
theorem C58_recover (svd : Svd3 ℝ) (hsvd : ∀ c, ∃ u s v, svd c = .ok (u, s, v) ∧ SvdSpec c u s v) (a b : Grid ℝ)
    (ps : List (V3 ℝ)) (R0 : Matrix (Fin 3) (Fin 3) ℝ) (T0 : V3 ℝ) (h0 : IsRotation R0)
    (ha : Given a ps) (hb : Given b (ps.map (move R0 T0))) (hp : ps ≠ []) :
    ∃ R T, findRigidTransform svd a b = .ok (R, T) ∧ IsRotation R ∧ (∀ p ∈ ps, move R T p = move R0 T0 p) ∧
      (Spread ps → R = R0 ∧ T = T0) := by
  have hl : ps.length = (ps.map (move R0 T0)).length := by simp
  have hdet : 0 ≤ (crossCov ps (ps.map (move R0 T0))).det := by
    rw [← crossCov_eq hl]
    have e : (ps.map (move R0 T0)).map (· - centroid (ps.map (move R0 T0))) = (ps.map (· - centroid ps)).map (act R0) := by
      rw [centroid_move hp, List.map_map, List.map_map]
      congr 1; funext p
      simp only [Function.comp_def, move, act_eq]
      ext <;> simp <;> ring
    rw [e, outer_act, Matrix.det_mul, Matrix.det_transpose, h0.2, mul_one]
    exact gram_det _
  obtain ⟨R, T, hcall, hR, hmin⟩ := (C58_optimal svd hsvd a b ps _ ha hb hl hp).2 hdet
  have hz : sqResid (move R T) ps (ps.map (move R0 T0)) = 0 := by
    have := hmin R0 T0 h0.1
    rw [(sqResid_zero (f := move R0 T0) (g := move R0 T0) ps).mpr (fun _ _ => rfl)] at this
    exact le_antisymm this (sqResid_nonneg _ _ _)
  have hex := (sqResid_zero ps).mp hz
  refine ⟨R, T, hcall, hR, hex, ?_⟩
  rintro ⟨p, hp, q, hq, r, hr, hc⟩
  have hv : ∀ x ∈ ps, act R (vec3 p x) = act R0 (vec3 p x) := by
    intro x hx
    have h1 := hex x hx
    have h2 := hex p hp
    have e : ∀ (A : Mat 3 3 ℝ) (t : V3 ℝ), act A (vec3 p x) = vec3 (move A t p) (move A t x) := by
      intro A t
      simp only [act_eq, vec3, move]
      ext <;> simp only <;> ring
    rw [e R T, e R0 T0, h1, h2]
  have hRR := rot_unique hR h0 hc (hv q hq) (hv r hr)
  refine ⟨hRR, ?_⟩
  have h2 := hex p hp
  rw [hRR] at h2
  have hx := congrArg V3.x h2; have hy := congrArg V3.y h2; have hz := congrArg V3.z h2
  simp only [move] at hx hy hz
  ext <;> linarith

/-- **C58.** Arrays with neither three rows nor three columns: AssertionError.  Different numbers of
points: ValueError. -/
theorem C58_errors (svd : Svd3 ℝ) (a b : Grid ℝ) :
    (a.m ≠ 3 → a.n ≠ 3 → findRigidTransform svd a b = .error .AssertionError) ∧
    (∀ ps, Given a ps → b.m ≠ 3 → b.n ≠ 3 → findRigidTransform svd a b = .error .AssertionError) ∧
    (∀ ps qs, Given a ps → Given b qs → ps.length ≠ qs.length → findRigidTransform svd a b = .error .ValueError) := by
  have hbad : ∀ g : Grid ℝ, g.m ≠ 3 → g.n ≠ 3 → g.fixShape.cols3 = .error .AssertionError := by
    intro g h1 h2
    unfold Grid.fixShape
    rw [if_pos h1, if_neg h2]
    unfold Grid.cols3
    rw [if_neg h1]
  refine ⟨?_, ?_, ?_⟩
  · intro h1 h2
    unfold findRigidTransform
    rw [hbad a h1 h2]; rfl
  · intro ps ha h1 h2
    unfold findRigidTransform
    rw [given_eq ha, hbad b h1 h2]; rfl
  · intro ps qs ha hb hl
    unfold findRigidTransform
    rw [given_eq ha, given_eq hb]
    simp only [ok_bind, dotT, List.length_map, if_neg hl, error_bind]

/-- **C58.** A 3×3 array is read by columns.  Witness: three points, given as rows, moved by (0, 0, 1); this
motion is not what is found. -/
theorem C58_square (svd : Svd3 ℝ) (hsvd : ∀ c, ∃ u s v, svd c = .ok (u, s, v) ∧ SvdSpec c u s v) :
    ∃ (a b : Grid ℝ) (ps : List (V3 ℝ)), HasRows a ps ∧ HasRows b (ps.map (move 1 ⟨0, 0, 1⟩)) ∧ Spread ps ∧
      findRigidTransform svd a b ≠ .ok (1, ⟨0, 0, 1⟩) := by
  refine ⟨⟨3, 3, fun i j => if i = 1 ∧ j = 0 ∨ i = 2 ∧ j = 1 then 1 else 0⟩,
    ⟨3, 3, fun i j => if i = 1 ∧ j = 0 ∨ i = 2 ∧ j = 1 ∨ j = 2 then 1 else 0⟩, [⟨0, 0, 0⟩, ⟨1, 0, 0⟩, ⟨0, 1, 0⟩], ?_, ?_, ?_, ?_⟩
  · refine ⟨rfl, rfl, ?_⟩
    intro i p hi
    match i with
    | 0 => simp at hi; subst hi; simp
    | 1 => simp at hi; subst hi; simp
    | 2 => simp at hi; subst hi; simp
    | i + 3 => simp at hi
  · refine ⟨rfl, rfl, ?_⟩
    intro i p hi
    match i with
    | 0 => simp [move] at hi; subst hi; simp
    | 1 => simp [move] at hi; subst hi; simp
    | 2 => simp [move] at hi; subst hi; simp
    | i + 3 => simp at hi
  · exact ⟨⟨0, 0, 0⟩, by simp, ⟨1, 0, 0⟩, by simp, ⟨0, 1, 0⟩, by simp, by simp [cross3, vec3, zero3]⟩
  · intro hc
    have ha : Given ⟨3, 3, fun i j => if i = 1 ∧ j = 0 ∨ i = 2 ∧ j = 1 then (1 : ℝ) else 0⟩ [⟨0, 1, 0⟩, ⟨0, 0, 1⟩, ⟨0, 0, 0⟩] := by
      refine .inl ⟨rfl, rfl, ?_⟩
      intro i p hi
      match i with
      | 0 => simp at hi; subst hi; simp
      | 1 => simp at hi; subst hi; simp
      | 2 => simp at hi; subst hi; simp
      | i + 3 => simp at hi
    have hb : Given ⟨3, 3, fun i j => if i = 1 ∧ j = 0 ∨ i = 2 ∧ j = 1 ∨ j = 2 then (1 : ℝ) else 0⟩ [⟨0, 1, 0⟩, ⟨0, 0, 1⟩, ⟨1, 1, 1⟩] := by
      refine .inl ⟨rfl, rfl, ?_⟩
      intro i p hi
      match i with
      | 0 => simp at hi; subst hi; simp
      | 1 => simp at hi; subst hi; simp
      | 2 => simp at hi; subst hi; simp
      | i + 3 => simp at hi
    obtain ⟨h1, h2⟩ := C58_optimal svd hsvd _ _ _ _ ha hb rfl (by simp)
    rcases lt_or_ge (crossCov [⟨0, 1, 0⟩, ⟨0, 0, 1⟩, ⟨0, 0, 0⟩] [⟨0, 1, 0⟩, ⟨0, 0, 1⟩, ⟨1, 1, 1⟩]).det 0 with hd | hd
    · rw [h1 hd] at hc; cases hc
    · obtain ⟨R, T, h3, -, hmin⟩ := h2 hd
      rw [hc] at h3
      injection h3 with h3
      injection h3 with hR hT
      subst hR hT
      have := hmin 1 ⟨1 / 3, 1 / 3, 1 / 3⟩ (by simp)
      simp only [sqResid, dist3, move, act_one, len3_sq, vec3] at this
      norm_num at this

/-! ### C59 -/

/-- the fitted rotation of `find_rigid_rotation`, for any SVD -/
theorem fitRotation'_spec {svd : Svd3 ℝ} {c u v : Mat 3 3 ℝ} {s : Fin 3 → ℝ} (hs : svd c = .ok (u, s, v)) (h : SvdSpec c u s v) :
    ∃ R, fitRotation' svd c = .ok R ∧ IsRotation R ∧
      ∀ R' : Mat 3 3 ℝ, IsRotation R' → Matrix.trace (R' * c) ≤ Matrix.trace (R * c) := by
  obtain ⟨⟨ho, ht⟩, ho', ht', hd'⟩ := candidates h
  have hcall : fitRotation' svd c = if (v.transpose * u.transpose).det < 0 then
      .ok (v.transpose * Matrix.diagonal ![1, 1, -1] * u.transpose) else .ok (v.transpose * u.transpose) := by
    unfold fitRotation'
    rw [hs]
    simp only [ok_bind, det33_real, Mat.mul_real, Mat.tr_eq, flipLast_real, Num.lt_real, Num.lit_real, pure_eq_ok, Rat.cast_zero]
  rw [hcall]
  by_cases hn : (v.transpose * u.transpose).det < 0
  · rw [if_pos hn]
    have hm1 : (v.transpose * u.transpose).det = -1 := by
      rcases orth_det ho with h1 | h1
      · rw [h1] at hn; norm_num at hn
      · exact h1
    refine ⟨_, rfl, ⟨ho', by rw [hd', hm1]; norm_num⟩, ?_⟩
    intro R' hR'
    rw [ht']
    apply trace_le_flip h hR'.1
    rw [Matrix.det_mul, Matrix.det_mul, hR'.2, mul_one, ← hm1, Matrix.det_mul, Matrix.det_transpose, Matrix.det_transpose]
  · rw [if_neg hn]
    have hm1 : (v.transpose * u.transpose).det = 1 := by
      rcases orth_det ho with h1 | h1
      · exact h1
      · rw [h1] at hn; norm_num at hn
    refine ⟨_, rfl, ⟨ho, hm1⟩, ?_⟩
    intro R' hR'
    rw [ht]; exact trace_le h hR'.1

theorem addCross_many {ps qs : List (V3 ℝ)} (h : ps.length ≠ 1) : addCross ps qs = .ok (ps, qs) := by
  match ps with
  | [] => rfl
  | [p] => simp at h
  | p :: p' :: ps => rfl

/-- **C59.** For any number of points other than one, whatever singular value decomposition is used: a
proper rotation, and no rotation has a smaller sum of squared distances. -/
theorem C59_optimal (svd : Svd3 ℝ) (hsvd : ∀ c, ∃ u s v, svd c = .ok (u, s, v) ∧ SvdSpec c u s v) (a b : Grid ℝ)
    (ps qs : List (V3 ℝ)) (ha : HasColumns a ps) (hb : HasColumns b qs) (hl : ps.length = qs.length) (h1 : ps.length ≠ 1) :
    ∃ R, findRigidRotation svd a b false = .ok R ∧ IsRotation R ∧
      ∀ R', IsRotation R' → sqResid (act R) ps qs ≤ sqResid (act R') ps qs := by
  obtain ⟨u, s, v, hs, hS⟩ := hsvd (outerSum ps qs)
  obtain ⟨R, hR, hrot, hbest⟩ := fitRotation'_spec hs hS
  refine ⟨R, ?_, hrot, ?_⟩
  · unfold findRigidRotation
    rw [cols3_eq ha, cols3_eq hb]
    simp only [ok_bind, addCross_many h1, dotT, if_pos hl, hR, pure_eq_ok]
    rfl
  · intro R' hR'
    rw [residual_trace hrot.1 _ _ hl, residual_trace hR'.1 _ _ hl]
    have := hbest R' hR'
    linarith

/-- there is a rotation that takes one direction to another and keeps their cross product -/
theorem rot_exists {u w : V3 ℝ} (hu : len3 u = 1) (hw : len3 w = 1) :
    ∃ R : Mat 3 3 ℝ, IsRotation R ∧ act R u = w ∧ act R (cross3 u w) = cross3 u w := by
  have huu : inner3 u u = 1 := by rw [inner3_self, hu]; norm_num
  have hww : inner3 w w = 1 := by rw [inner3_self, hw]; norm_num
  -- a unit vector orthogonal to both
  obtain ⟨k, hk, hku, hkw, hkc⟩ : ∃ k : V3 ℝ, inner3 k k = 1 ∧ inner3 k u = 0 ∧ inner3 k w = 0 ∧
      ∃ t, cross3 u w = scale3 t k := by
    by_cases hc : cross3 u w = zero3
    · -- parallel: any vector orthogonal to u
      obtain ⟨y, hy⟩ : ∃ y : V3 ℝ, cross3 u y ≠ zero3 := by
        by_contra hcon
        push Not at hcon
        have h1 := hcon ⟨1, 0, 0⟩
        have h2 := hcon ⟨0, 1, 0⟩
        simp [cross3, zero3] at h1 h2
        have : inner3 u u = 0 := by simp only [inner3]; rw [h1.1, h1.2, h2.2]; ring
        rw [huu] at this; norm_num at this
      have hl := len3_pos hy
      refine ⟨scale3 (len3 (cross3 u y))⁻¹ (cross3 u y), ?_, ?_, ?_, 0, ?_⟩
      · rw [inner3_self, len3_scale, abs_of_pos (inv_pos.mpr hl), inv_mul_cancel₀ hl.ne']; norm_num
      · rw [inner3_scale_left, inner3_cross_left, mul_zero]
      · rw [inner3_scale_left]
        -- w is a multiple of u
        have : inner3 (cross3 u y) w = 0 := by
          have e : inner3 (cross3 u y) w = -inner3 (cross3 u w) y := by simp only [inner3, cross3]; ring
          rw [e, hc]; simp [inner3, zero3]
        rw [this, mul_zero]
      · rw [hc]; ext <;> simp [scale3, zero3]
    · have hl := len3_pos hc
      refine ⟨scale3 (len3 (cross3 u w))⁻¹ (cross3 u w), ?_, ?_, ?_, len3 (cross3 u w), ?_⟩
      · rw [inner3_self, len3_scale, abs_of_pos (inv_pos.mpr hl), inv_mul_cancel₀ hl.ne']; norm_num
      · rw [inner3_scale_left, inner3_cross_left, mul_zero]
      · rw [inner3_scale_left, inner3_cross_right, mul_zero]
      · rw [scale3_scale3, mul_inv_cancel₀ hl.ne', scale3_one]
  have frame : ∀ x : V3 ℝ, inner3 x x = 1 → inner3 k x = 0 → IsRotation (Mat.ofRows x (cross3 k x) k) := by
    intro x hx hkx
    apply isRotation_ofRows hx _ hk
    · simp only [inner3, cross3]; ring
    · simp only [inner3, cross3]; ring
    · rw [inner3_comm]; exact hkx
    · have : det3 x (cross3 k x) k = inner3 k k * inner3 x x - inner3 k x ^ 2 := by simp only [det3, inner3, cross3]; ring
      rw [this, hk, hx, hkx]; norm_num
    · have : inner3 (cross3 k x) (cross3 k x) = inner3 k k * inner3 x x - inner3 k x ^ 2 := by simp only [inner3, cross3]; ring
      rw [this, hk, hx, hkx]; norm_num
  have hA := frame u huu hku
  have hB := frame w hww hkw
  have e1 : ∀ x : V3 ℝ, inner3 x x = 1 → inner3 k x = 0 → act (Mat.ofRows x (cross3 k x) k) x = ⟨1, 0, 0⟩ := by
    intro x hx hkx
    rw [act_eq]
    simp only [inner3] at hx hkx
    ext
    · simp [Mat.ofRows]; linarith
    · simp [Mat.ofRows, cross3]; ring
    · simp [Mat.ofRows]; linarith
  have e2 : ∀ x : V3 ℝ, inner3 k x = 0 → act (Mat.ofRows x (cross3 k x) k) k = ⟨0, 0, 1⟩ := by
    intro x hkx
    rw [act_eq]
    simp only [inner3] at hkx hk
    ext
    · simp [Mat.ofRows]; linarith
    · simp [Mat.ofRows, cross3]; ring
    · simp [Mat.ofRows]; linarith
  refine ⟨(Mat.ofRows w (cross3 k w) k).transpose * Mat.ofRows u (cross3 k u) k, hB.transpose.mul hA, ?_, ?_⟩
  · rw [act_mul, e1 u huu hku, ← e1 w hww hkw, hB.act_back]
  · obtain ⟨t, ht⟩ := hkc
    rw [ht, act_scale, act_mul, e2 u hku, ← e2 w hkw, hB.act_back]

/-- equality in the Cauchy-Schwarz inequality -/
theorem inner_max {x q : V3 ℝ} (hq : q ≠ zero3) (h : len3 x * len3 q ≤ inner3 x q) : x = scale3 (len3 x / len3 q) q := by
  have hl := len3_pos hq
  have e : dist3 x (scale3 (len3 x / len3 q) q) ^ 2 = 2 * len3 x / len3 q * (len3 x * len3 q - inner3 x q) := by
    have : dist3 x (scale3 (len3 x / len3 q) q) ^ 2 = inner3 x x + (len3 x / len3 q) ^ 2 * inner3 q q - 2 * (len3 x / len3 q) * inner3 x q := by
      unfold dist3; rw [← inner3_self]; simp only [inner3, vec3, scale3]; ring
    rw [this, inner3_self, inner3_self]
    field_simp
    ring
  have h2 : 0 ≤ 2 * len3 x / len3 q := by have := len3_nonneg x; positivity
  have h3 : dist3 x (scale3 (len3 x / len3 q) q) ^ 2 = 0 := by
    refine le_antisymm ?_ (sq_nonneg _)
    rw [e]; exact mul_nonpos_of_nonneg_of_nonpos h2 (by linarith)
  exact dist3_eq_zero.mp (pow_eq_zero_iff two_ne_zero |>.mp h3)

theorem single_fit {svd : Svd3 ℝ} (hsvd : ∀ c, ∃ u s v, svd c = .ok (u, s, v) ∧ SvdSpec c u s v) (p q : V3 ℝ) :
    ∃ R, fitRotation' svd (outerSum [p, cross3 p q] [q, cross3 p q]) = .ok R ∧ IsRotation R ∧
      (p ≠ zero3 → q ≠ zero3 → act R p = scale3 (len3 p / len3 q) q ∧ act R (cross3 p q) = cross3 p q) := by
  obtain ⟨u, s, v, hs, hS⟩ := hsvd (outerSum [p, cross3 p q] [q, cross3 p q])
  obtain ⟨R, hR, hrot, hbest⟩ := fitRotation'_spec hs hS
  refine ⟨R, hR, hrot, ?_⟩
  intro hp hq
  have hlp := len3_pos hp
  have hlq := len3_pos hq
  obtain ⟨R0, h0, h1, h2⟩ := rot_exists (u := scale3 (len3 p)⁻¹ p) (w := scale3 (len3 q)⁻¹ q)
    (by rw [len3_scale, abs_of_pos (inv_pos.mpr hlp), inv_mul_cancel₀ hlp.ne'])
    (by rw [len3_scale, abs_of_pos (inv_pos.mpr hlq), inv_mul_cancel₀ hlq.ne'])
  have a1 : act R0 p = scale3 (len3 p / len3 q) q := by
    have : p = scale3 (len3 p) (scale3 (len3 p)⁻¹ p) := by rw [scale3_scale3, mul_inv_cancel₀ hlp.ne', scale3_one]
    conv_lhs => rw [this]
    rw [act_scale, h1, scale3_scale3]; rfl
  have a2 : act R0 (cross3 p q) = cross3 p q := by
    have : cross3 p q = scale3 (len3 p * len3 q) (cross3 (scale3 (len3 p)⁻¹ p) (scale3 (len3 q)⁻¹ q)) := by
      ext <;> simp [scale3, cross3] <;> field_simp
    rw [this, act_scale, h2]
  have hb := hbest R0 h0
  rw [trace_outer R0 [p, cross3 p q] [q, cross3 p q] rfl, trace_outer R [p, cross3 p q] [q, cross3 p q] rfl] at hb
  simp only [List.zipWith_cons_cons, List.zipWith_nil_right, List.sum_cons, List.sum_nil, add_zero] at hb
  rw [a1, a2, inner3_scale_left, inner3_self, inner3_self] at hb
  have c1 := le_trans (le_abs_self _) (abs_inner3_le (act R p) q)
  have c2 := le_trans (le_abs_self _) (abs_inner3_le (act R (cross3 p q)) (cross3 p q))
  rw [hrot.len] at c1 c2
  have e1 : len3 p / len3 q * len3 q ^ 2 = len3 p * len3 q := by field_simp
  rw [e1] at hb
  refine ⟨?_, ?_⟩
  · have := inner_max (x := act R p) hq (by rw [hrot.len]; nlinarith)
    rwa [hrot.len] at this
  · by_cases hc : cross3 p q = zero3
    · rw [hc]; ext <;> simp [act_eq, zero3]
    · have := inner_max (x := act R (cross3 p q)) hc (by rw [hrot.len]; nlinarith)
      rwa [hrot.len, div_self (len3_pos hc).ne', scale3_one] at this

/-- **C59.** One pair of vectors: a proper rotation, which turns the first vector onto the direction of the
second about their cross product, if neither is zero. -/
theorem C59_single (svd : Svd3 ℝ) (hsvd : ∀ c, ∃ u s v, svd c = .ok (u, s, v) ∧ SvdSpec c u s v) (a b : Grid ℝ)
    (p q : V3 ℝ) (ha : HasColumns a [p]) (hb : HasColumns b [q]) :
    ∃ R, findRigidRotation svd a b false = .ok R ∧ IsRotation R ∧
      (p ≠ zero3 → q ≠ zero3 → act R p = scale3 (len3 p / len3 q) q ∧ act R (cross3 p q) = cross3 p q) := by
  obtain ⟨R, hR, h1, h2⟩ := single_fit hsvd p q
  refine ⟨R, ?_, h1, h2⟩
  unfold findRigidRotation
  rw [cols3_eq ha, cols3_eq hb]
  have hd : dotT [p, V3.cross p q] [q, V3.cross p q] = .ok (outerSum [p, cross3 p q] [q, cross3 p q]) := rfl
  simp only [ok_bind, addCross, hd, hR, pure_eq_ok]
  rfl

theorem sumSq_real (ps : List (V3 ℝ)) : sumSq ps = sqLens ps := by
  induction ps with
  | nil => simp [sumSq, sqLens]
  | cons p ps ih => rw [sumSq, sqLens, ih]; rfl

/-- **C59.** With scaling allowed and any number of points other than one, not all zero, the result is the rotation
found without scaling times the quotient of the norms of the two arrays; the same errors are raised. -/
theorem C59_factor (svd : Svd3 ℝ) (a b : Grid ℝ) (ps qs : List (V3 ℝ)) (ha : HasColumns a ps) (hb : HasColumns b qs)
    (h1 : ps.length ≠ 1) (_hz : ∃ p ∈ ps, p ≠ zero3) :
    (∀ R, findRigidRotation svd a b false = .ok R → findRigidRotation svd a b true =
      .ok ((Real.sqrt (qs.map fun q => len3 q ^ 2).sum / Real.sqrt (ps.map fun p => len3 p ^ 2).sum) • R)) ∧
    (∀ e, findRigidRotation svd a b false = .error e → findRigidRotation svd a b true = .error e) := by
  have hs : ∀ l : List (V3 ℝ), sumSq l = (l.map fun p => len3 p ^ 2).sum := by
    intro l
    induction l with
    | nil => simp [sumSq]
    | cons p l ih => rw [sumSq, ih, List.map_cons, List.sum_cons, ← inner3_self]; rfl
  have hc : addCross ps qs = .ok (ps, qs) := by
    unfold addCross
    split
    · simp at h1
    · rfl
  unfold findRigidRotation
  rw [cols3_eq ha, cols3_eq hb]
  simp only [ok_bind, hc]
  cases dotT ps qs with
  | error e => simp
  | ok c =>
    simp only [ok_bind]
    cases fitRotation' svd c with
    | error e => simp
    | ok R =>
      simp only [ok_bind, if_true, Bool.false_eq_true, if_false, pure_eq_ok, Except.ok.injEq, hs, Num.sqrt_real,
        Mat.smul_real]
      refine ⟨?_, ?_⟩
      · rintro _ rfl; rfl
      · intro e he; cases he

/-- **C59.** With scaling allowed, for any number of points other than one, a similarity with a positive factor is
recovered: all points are mapped exactly. -/
theorem C59_scaling (svd : Svd3 ℝ) (hsvd : ∀ c, ∃ u s v, svd c = .ok (u, s, v) ∧ SvdSpec c u s v) (a b : Grid ℝ)
    (ps : List (V3 ℝ)) (k : ℝ) (hk : 0 < k) (R0 : Matrix (Fin 3) (Fin 3) ℝ) (h0 : IsRotation R0)
    (ha : HasColumns a ps) (hb : HasColumns b (ps.map fun p => scale3 k (act R0 p))) (h1 : ps.length ≠ 1) :
    ∃ M, findRigidRotation svd a b true = .ok M ∧ (∀ p ∈ ps, act M p = scale3 k (act R0 p)) ∧
      ((∃ p ∈ ps, p ≠ zero3) → ∃ R, IsRotation R ∧ M = k • R) := by
  obtain ⟨qs, hqs⟩ : ∃ qs, qs = ps.map fun p => scale3 k (act R0 p) := ⟨_, rfl⟩
  rw [← hqs] at hb
  have hl : ps.length = qs.length := by rw [hqs]; simp
  obtain ⟨u, s, v, hs, hS⟩ := hsvd (outerSum ps qs)
  obtain ⟨R, hR, hrot, hbest⟩ := fitRotation'_spec hs hS
  have hsq : sqLens qs = k ^ 2 * sqLens ps := by
    rw [hqs]
    clear hR hS hs hbest hl ha h1 hb hqs
    induction ps with
    | nil => simp [sqLens]
    | cons p ps ih =>
      simp only [List.map_cons, sqLens]
      rw [ih, inner3_scale_left, inner3_scale_right, h0.inner]; ring
  -- all points agree
  have hnn : ∀ l : List (V3 ℝ), 0 ≤ sqLens l := by
    intro l
    induction l with
    | nil => exact le_refl _
    | cons p l ih => rw [sqLens]; exact add_nonneg (inner3_self_nonneg p) ih
  have hex : ∀ p ∈ ps, act R p = act R0 p := by
    have hb0 := hbest R0 h0
    rw [trace_outer _ _ _ hl, trace_outer _ _ _ hl, hqs] at hb0
    clear hR hS hs hbest hl ha h1 hb hsq hqs
    have key : ∀ l : List (V3 ℝ), (List.zipWith (fun p q => inner3 (act R p) q) l (l.map fun p => scale3 k (act R0 p))).sum ≤
        (List.zipWith (fun p q => inner3 (act R0 p) q) l (l.map fun p => scale3 k (act R0 p))).sum ∧
        ((List.zipWith (fun p q => inner3 (act R0 p) q) l (l.map fun p => scale3 k (act R0 p))).sum ≤
          (List.zipWith (fun p q => inner3 (act R p) q) l (l.map fun p => scale3 k (act R0 p))).sum → ∀ p ∈ l, act R p = act R0 p) := by
      intro l
      induction l with
      | nil => simp
      | cons p l ih =>
        have hp : inner3 (act R p) (act R0 p) ≤ inner3 (act R0 p) (act R0 p) := by
          have := le_trans (le_abs_self _) (abs_inner3_le (act R p) (act R0 p))
          rw [hrot.len, h0.len] at this
          rw [inner3_self, h0.len, pow_two]; exact this
        have hp' := mul_le_mul_of_nonneg_left hp hk.le
        simp only [List.map_cons, List.zipWith_cons_cons, List.sum_cons, inner3_scale_right]
        refine ⟨by linarith [ih.1], ?_⟩
        intro h r hr
        rcases List.mem_cons.mp hr with rfl | hr
        · have heq : inner3 (act R0 r) (act R0 r) ≤ inner3 (act R r) (act R0 r) := by
            have : k * inner3 (act R0 r) (act R0 r) ≤ k * inner3 (act R r) (act R0 r) := by linarith [ih.1]
            exact le_of_mul_le_mul_left this hk
          have e : dist3 (act R r) (act R0 r) ^ 2 = 2 * (inner3 (act R0 r) (act R0 r) - inner3 (act R r) (act R0 r)) := by
            have h5 : dist3 (act R r) (act R0 r) ^ 2 = inner3 (act R r) (act R r) + inner3 (act R0 r) (act R0 r) - 2 * inner3 (act R r) (act R0 r) := by
              unfold dist3; rw [← inner3_self]; simp only [inner3, vec3]; ring
            rw [h5, hrot.inner, h0.inner]; ring
          have : dist3 (act R r) (act R0 r) ^ 2 = 0 := le_antisymm (by linarith) (sq_nonneg _)
          exact dist3_eq_zero.mp (pow_eq_zero_iff two_ne_zero |>.mp this)
        · exact ih.2 (by linarith) r hr
    exact (key ps).2 hb0
  refine ⟨(Real.sqrt (sqLens qs) / Real.sqrt (sqLens ps)) • R, ?_, ?_, ?_⟩
  · unfold findRigidRotation
    rw [cols3_eq ha, cols3_eq hb]
    simp only [ok_bind, addCross_many h1, dotT, if_pos hl, hR, pure_eq_ok, sumSq_real]
    rfl
  · intro p hp
    have hact : ∀ (t : ℝ), act (t • R) p = scale3 t (act R p) := by
      intro t; simp only [act_eq, scale3, Matrix.smul_apply, smul_eq_mul]; ext <;> simp only <;> ring
    rw [hact, hex p hp]
    by_cases hz : sqLens ps = 0
    · have hall : ∀ l : List (V3 ℝ), sqLens l = 0 → ∀ p ∈ l, p = zero3 := by
        intro l
        induction l with
        | nil => intro _ p hp; simp at hp
        | cons r l ih =>
          intro hl p hp
          rw [sqLens] at hl
          have h5 := inner3_self_nonneg r
          have h6 := hnn l
          rcases List.mem_cons.mp hp with rfl | hp
          · exact inner3_self_eq_zero.mp (by linarith)
          · exact ih (by linarith) p hp
      rw [hall ps hz p hp]
      ext <;> simp [act_eq, zero3, scale3]
    · have hpos : 0 < sqLens ps := lt_of_le_of_ne (hnn ps) (Ne.symm hz)
      have : Real.sqrt (sqLens qs) / Real.sqrt (sqLens ps) = k := by
        rw [hsq, Real.sqrt_mul (sq_nonneg k), Real.sqrt_sq hk.le, mul_div_assoc, div_self (Real.sqrt_pos.mpr hpos).ne', mul_one]
      rw [this]
  · rintro ⟨p, hp, hp0⟩
    refine ⟨R, hrot, ?_⟩
    have hpos : 0 < sqLens ps := by
      have : ∀ l : List (V3 ℝ), p ∈ l → inner3 p p ≤ sqLens l := by
        intro l
        induction l with
        | nil => intro h; simp at h
        | cons r l ih =>
          intro h
          rw [sqLens]
          rcases List.mem_cons.mp h with rfl | h
          · linarith [hnn l]
          · linarith [ih h, inner3_self_nonneg r]
      refine lt_of_lt_of_le ?_ (this ps hp)
      rw [inner3_self]; have := len3_pos hp0; positivity
    have : Real.sqrt (sqLens qs) / Real.sqrt (sqLens ps) = k := by
      rw [hsq, Real.sqrt_mul (sq_nonneg k), Real.sqrt_sq hk.le, mul_div_assoc, div_self (Real.sqrt_pos.mpr hpos).ne', mul_one]
    rw [this]

/-- **C59.** One pair of nonzero vectors with scaling allowed: the first is mapped to a positive multiple of
the second, but to the second itself only if they are parallel or equally long, since the norms are taken
after the cross product has been added to both sides. -/
theorem C59_single_scaled (svd : Svd3 ℝ) (hsvd : ∀ c, ∃ u s v, svd c = .ok (u, s, v) ∧ SvdSpec c u s v) (a b : Grid ℝ)
    (p q : V3 ℝ) (ha : HasColumns a [p]) (hb : HasColumns b [q]) (hp : p ≠ zero3) (hq : q ≠ zero3) :
    ∃ M, findRigidRotation svd a b true = .ok M ∧ (∃ t, 0 < t ∧ act M p = scale3 t q) ∧
      (act M p = q ↔ cross3 p q = zero3 ∨ len3 p = len3 q) := by
  obtain ⟨R, hR, h1, h2⟩ := single_fit hsvd p q
  obtain ⟨h2, -⟩ := h2 hp hq
  have hlp := len3_pos hp
  have hlq := len3_pos hq
  obtain ⟨x, hx⟩ : ∃ x, x = inner3 (cross3 p q) (cross3 p q) := ⟨_, rfl⟩
  have hx0 : 0 ≤ x := hx ▸ inner3_self_nonneg _
  obtain ⟨t, ht⟩ : ∃ t, t = Real.sqrt (len3 q ^ 2 + x) / Real.sqrt (len3 p ^ 2 + x) := ⟨_, rfl⟩
  have ht0 : 0 < t := by rw [ht]; positivity
  have hact : act (t • R) p = scale3 (t * (len3 p / len3 q)) q := by
    have : act (t • R) p = scale3 t (act R p) := by
      simp only [act_eq, scale3, Matrix.smul_apply, smul_eq_mul]; ext <;> simp only <;> ring
    rw [this, h2, scale3_scale3]
  refine ⟨t • R, ?_, ⟨t * (len3 p / len3 q), by positivity, hact⟩, ?_⟩
  · unfold findRigidRotation
    rw [cols3_eq ha, cols3_eq hb]
    have hd : dotT [p, V3.cross p q] [q, V3.cross p q] = .ok (outerSum [p, cross3 p q] [q, cross3 p q]) := rfl
    simp only [ok_bind, addCross, hd, hR, pure_eq_ok, sumSq_real, sqLens, add_zero]
    rw [if_pos trivial]
    have e : V3.cross p q = cross3 p q := rfl
    rw [e, ← hx, inner3_self, inner3_self, Mat.smul_real, Num.sqrt_real, Num.sqrt_real, ← ht]
  · rw [hact]
    have h3 : scale3 (t * (len3 p / len3 q)) q = q ↔ t * (len3 p / len3 q) = 1 := by
      constructor
      · intro h
        have := congrArg len3 h
        rw [len3_scale, abs_of_pos (by positivity)] at this
        exact (mul_eq_right₀ hlq.ne').mp this
      · intro h; rw [h, scale3_one]
    rw [h3]
    have h4 : t * (len3 p / len3 q) = 1 ↔ t ^ 2 * len3 p ^ 2 = len3 q ^ 2 := by
      constructor
      · intro h
        have : t * len3 p = len3 q := by field_simp at h; linarith
        rw [← mul_pow, this]
      · intro h
        rw [← mul_pow] at h
        have := (pow_left_inj₀ (by positivity) hlq.le two_ne_zero).mp h
        field_simp; linarith
    have h5 : t ^ 2 = (len3 q ^ 2 + x) / (len3 p ^ 2 + x) := by
      rw [ht, div_pow, Real.sq_sqrt (by positivity), Real.sq_sqrt (by positivity)]
    have h6 : (cross3 p q = zero3) ↔ x = 0 := by rw [hx]; exact inner3_self_eq_zero.symm
    rw [h4, h5, h6]
    have h7 : len3 p = len3 q ↔ len3 p ^ 2 = len3 q ^ 2 := (pow_left_inj₀ hlp.le hlq.le two_ne_zero).symm
    rw [h7]
    have hpp : 0 < len3 p ^ 2 + x := by positivity
    rw [div_mul_eq_mul_div, div_eq_iff hpp.ne']
    constructor
    · intro h
      have : x * (len3 p ^ 2 - len3 q ^ 2) = 0 := by linarith
      rcases mul_eq_zero.mp this with h | h
      · exact .inl h
      · exact .inr (by linarith)
    · rintro (h | h)
      · rw [h]; ring
      · rw [h]; ring

/-- **C59.** Witness: the x axis and twice the y axis. -/
theorem C59_scaling_violation (svd : Svd3 ℝ) (hsvd : ∀ c, ∃ u s v, svd c = .ok (u, s, v) ∧ SvdSpec c u s v) :
    ∃ M, findRigidRotation svd ⟨3, 1, fun i _ => if i = 0 then 1 else 0⟩ ⟨3, 1, fun i _ => if i = 1 then 2 else 0⟩ true = .ok M ∧
      act M ⟨1, 0, 0⟩ ≠ ⟨0, 2, 0⟩ := by
  obtain ⟨M, h1, -, h2⟩ := C59_single_scaled svd hsvd ⟨3, 1, fun i _ => if i = 0 then 1 else 0⟩ ⟨3, 1, fun i _ => if i = 1 then 2 else 0⟩
    ⟨1, 0, 0⟩ ⟨0, 2, 0⟩
    ⟨rfl, rfl, fun j p h => by match j with | 0 => (simp at h; subst h; simp) | j + 1 => simp at h⟩
    ⟨rfl, rfl, fun j p h => by match j with | 0 => (simp at h; subst h; simp) | j + 1 => simp at h⟩
    (by simp [zero3]) (by simp [zero3])
  refine ⟨M, h1, fun h => ?_⟩
  rcases h2.mp h with h | h
  · simp [cross3, zero3] at h
  · have := congrArg (· ^ 2) h
    simp only [len3_sq] at this
    norm_num at this

/-- **C59.** Other shapes: AssertionError unless both arrays have three rows; ValueError for different
numbers of columns. -/
theorem C59_errors (svd : Svd3 ℝ) (a b : Grid ℝ) (sc : Bool) :
    (a.m ≠ 3 → findRigidRotation svd a b sc = .error .AssertionError) ∧
    (a.m = 3 → b.m ≠ 3 → findRigidRotation svd a b sc = .error .AssertionError) ∧
    (∀ ps qs, HasColumns a ps → HasColumns b qs → ps.length ≠ qs.length → findRigidRotation svd a b sc = .error .ValueError) := by
  have hbad : ∀ g : Grid ℝ, g.m ≠ 3 → g.cols3 = .error .AssertionError := by
    intro g h1
    unfold Grid.cols3
    rw [if_neg h1]
  refine ⟨?_, ?_, ?_⟩
  · intro h
    unfold findRigidRotation
    rw [hbad a h]; rfl
  · intro h1 h2
    unfold findRigidRotation
    rw [hbad b h2]
    unfold Grid.cols3
    rw [if_pos h1]; rfl
  · intro ps qs ha hb hl
    unfold findRigidRotation
    rw [cols3_eq ha, cols3_eq hb]
    by_cases h1 : ps.length = 1
    · obtain ⟨p, rfl⟩ := List.length_eq_one_iff.mp h1
      have : addCross [p] qs = .error .ValueError := by
        match qs with
        | [] => rfl
        | [q] => simp at hl
        | q :: q' :: qs => rfl
      simp only [ok_bind, this, error_bind]
    · simp only [ok_bind, addCross_many h1, dotT, if_neg hl, error_bind]

/-- non-vacuity: the contract of the singular value decomposition can be met for all matrices -/
theorem C58_satisfiable : ∃ svd : Svd3 ℝ, ∀ c, ∃ u s v, svd c = .ok (u, s, v) ∧ SvdSpec c u s v :=
  ⟨fun c => .ok ((svd_exists c).choose, (svd_exists c).choose_spec.choose, (svd_exists c).choose_spec.choose_spec.choose),
    fun c => ⟨_, _, _, rfl, (svd_exists c).choose_spec.choose_spec.choose_spec⟩⟩

/-- non-vacuity of `C58_recover`: four points given as rows and, moved, as columns -/
example : ∃ (a b : Grid ℝ) (ps : List (V3 ℝ)), ps ≠ [] ∧ Given a ps ∧ Given b (ps.map (move 1 ⟨1, 2, 3⟩)) ∧ Spread ps := by
  refine ⟨⟨4, 3, fun i j => if i = j + 1 then 1 else 0⟩, ⟨3, 4, fun i j => i + 1 + if j = i + 1 then 1 else 0⟩,
    [⟨0, 0, 0⟩, ⟨1, 0, 0⟩, ⟨0, 1, 0⟩, ⟨0, 0, 1⟩], by simp, .inr ⟨by simp, rfl, rfl, ?_⟩, .inl ⟨rfl, rfl, ?_⟩,
    ⟨0, 0, 0⟩, by simp, ⟨1, 0, 0⟩, by simp, ⟨0, 1, 0⟩, by simp, by simp [cross3, vec3, zero3]⟩
  · intro i p hi
    match i with
    | 0 => simp at hi; subst hi; simp
    | 1 => simp at hi; subst hi; simp
    | 2 => simp at hi; subst hi; simp
    | 3 => simp at hi; subst hi; simp
    | i + 4 => simp at hi
  · intro i p hi
    match i with
    | 0 => simp [move] at hi; subst hi; norm_num
    | 1 => simp [move] at hi; subst hi; norm_num
    | 2 => simp [move] at hi; subst hi; norm_num
    | 3 => simp [move] at hi; subst hi; norm_num
    | i + 4 => simp at hi

end Blmath.Props
