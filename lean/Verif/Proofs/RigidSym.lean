import Verif.Props.RigidTransform
import Mathlib.LinearAlgebra.Matrix.Rank

/-!
Lemmas for `Props/RigidSym.lean`: the fitted rotation as the only one with the largest trace.
-/

namespace Blmath.Proofs.RS
open Blmath Blmath.Geometry Blmath.Spec Blmath.Proofs Blmath.Props

/-- a rotation with the largest trace of `R c` -/
def Top (c R : Mat 3 3 ℝ) : Prop := IsRotation R ∧ ∀ R', IsRotation R' → Matrix.trace (R' * c) ≤ Matrix.trace (R * c)

theorem second_pos {c u v : Mat 3 3 ℝ} {s : Fin 3 → ℝ} (h : SvdSpec c u s v) (hr : 2 ≤ c.rank) : 0 < s 1 := by
  by_contra hn
  have h1 : s 1 = 0 := le_antisymm (not_lt.mp hn) (h.nonneg 1)
  have h2 : s 2 = 0 := le_antisymm (by rw [← h1]; exact h.sorted 1 2 (by decide)) (h.nonneg 2)
  have : c.rank ≤ 1 := by
    rw [h.factor]
    refine (Matrix.rank_mul_le_left _ _).trans ((Matrix.rank_mul_le_right _ _).trans ?_)
    rw [Matrix.rank_diagonal, Fintype.card_le_one_iff_subsingleton]
    have only : ∀ i, s i ≠ 0 → i = 0 := by
      intro i hi
      match i with
      | 0 => rfl
      | 1 => exact absurd h1 hi
      | 2 => exact absurd h2 hi
    constructor
    rintro ⟨i, hi⟩ ⟨j, hj⟩
    exact Subtype.ext ((only i hi).trans (only j hj).symm)
  omega

/-- an orthogonal matrix with two ones on the diagonal -/
theorem two_ones {W : Mat 3 3 ℝ} (h : W.transpose * W = 1) (h0 : W 0 0 = 1) (h1 : W 1 1 = 1) :
    W = Matrix.diagonal ![1, 1, W.det] := by
  have h' : W * W.transpose = 1 := mul_eq_one_comm.mp h
  have e : ∀ i j, (W.transpose * W) i j = (1 : Mat 3 3 ℝ) i j := fun i j => by rw [h]
  have f : ∀ i j, (W * W.transpose) i j = (1 : Mat 3 3 ℝ) i j := fun i j => by rw [h']
  simp only [Matrix.mul_apply, Fin.sum_univ_three, Matrix.transpose_apply] at e f
  have e00 := e 0 0; have e11 := e 1 1; have f00 := f 0 0; have f11 := f 1 1
  simp only [Matrix.one_apply_eq, h0, h1] at e00 e11 f00 f11
  have w10 : W 1 0 = 0 := by nlinarith [mul_self_nonneg (W 1 0), mul_self_nonneg (W 2 0)]
  have w20 : W 2 0 = 0 := by nlinarith [mul_self_nonneg (W 1 0), mul_self_nonneg (W 2 0)]
  have w01 : W 0 1 = 0 := by nlinarith [mul_self_nonneg (W 0 1), mul_self_nonneg (W 0 2)]
  have w02 : W 0 2 = 0 := by nlinarith [mul_self_nonneg (W 0 1), mul_self_nonneg (W 0 2)]
  have w21 : W 2 1 = 0 := by nlinarith [mul_self_nonneg (W 0 1), mul_self_nonneg (W 2 1)]
  have w12 : W 1 2 = 0 := by nlinarith [mul_self_nonneg (W 1 0), mul_self_nonneg (W 1 2)]
  have d : W.det = W 2 2 := by
    rw [Matrix.det_fin_three, h0, h1, w10, w20, w01, w02, w21, w12]; ring
  ext i j
  fin_cases i <;> fin_cases j <;> simp [h0, h1, w10, w20, w01, w02, w21, w12, d]

/-- the largest trace is the sum of the singular values -/
theorem top_trace {c u v : Mat 3 3 ℝ} {s : Fin 3 → ℝ} (h : SvdSpec c u s v) (hd : 0 ≤ c.det) {R : Mat 3 3 ℝ} (hR : Top c R) :
    Matrix.trace (R * c) = s 0 + s 1 + s 2 := by
  refine le_antisymm (trace_le h hR.1.1) ?_
  obtain ⟨R0, -, hr, hb⟩ := (fitRotation_spec (svd := fun _ => .ok (u, s, v)) rfl h).2 hd
  obtain ⟨⟨ho, ht⟩, -⟩ := candidates h
  calc s 0 + s 1 + s 2 = _ := ht.symm
    _ ≤ _ := hb _ ho
    _ ≤ _ := hR.2 _ hr

theorem top_unique {c u v : Mat 3 3 ℝ} {s : Fin 3 → ℝ} (h : SvdSpec c u s v) (hd : 0 ≤ c.det) (hr : 2 ≤ c.rank)
    {R R' : Mat 3 3 ℝ} (hR : Top c R) (hR' : Top c R') : R = R' := by
  have s1 := second_pos h hr
  have s0 : 0 < s 0 := lt_of_lt_of_le s1 (h.sorted 0 1 (by decide))
  have key : ∀ {Q : Mat 3 3 ℝ}, Top c Q → v * Q * u = Matrix.diagonal ![1, 1, v.det * u.det] := by
    intro Q hQ
    have ht := top_trace h hd hQ
    rw [trace_svd h] at ht
    have hW := orth_mul (orth_mul h.right hQ.1.1) h.left
    have a0 := mul_le_mul_of_nonneg_right (orth_diag_le hW 0) (h.nonneg 0)
    have a1 := mul_le_mul_of_nonneg_right (orth_diag_le hW 1) (h.nonneg 1)
    have a2 := mul_le_mul_of_nonneg_right (orth_diag_le hW 2) (h.nonneg 2)
    have b0 : (v * Q * u) 0 0 = 1 := by
      have : ((v * Q * u) 0 0 - 1) * s 0 = 0 := by linarith
      rcases mul_eq_zero.mp this with h | h <;> linarith
    have b1 : (v * Q * u) 1 1 = 1 := by
      have : ((v * Q * u) 1 1 - 1) * s 1 = 0 := by linarith
      rcases mul_eq_zero.mp this with h | h <;> linarith
    have := two_ones hW b0 b1
    rw [Matrix.det_mul, Matrix.det_mul, hQ.1.2, mul_one] at this
    exact this
  have e : v * R * u = v * R' * u := by rw [key hR, key hR']
  have hu : u * u.transpose = 1 := mul_eq_one_comm.mp h.left
  have e2 : v.transpose * (v * R * u) * u.transpose = v.transpose * (v * R' * u) * u.transpose := by rw [e]
  have c1 : ∀ Q : Mat 3 3 ℝ, v.transpose * (v * Q * u) * u.transpose = Q := by
    intro Q
    rw [Matrix.mul_assoc, Matrix.mul_assoc (v * Q) u, hu, Matrix.mul_one, ← Matrix.mul_assoc, h.right, Matrix.one_mul]
  rw [c1, c1] at e2
  exact e2

/-! ### residuals and traces -/

theorem moments_eq {ps qs : List (V3 ℝ)} (h : ps.length = qs.length) : outerSum ps qs = moments ps qs := by
  unfold moments
  induction ps generalizing qs with
  | nil => ext i j; simp [outerSum]
  | cons p ps ih =>
    cases qs with
    | nil => simp at h
    | cons q qs =>
      rw [outerSum, ih (by simpa using h), List.zip_cons_cons, List.map_cons, List.sum_cons, Mat.add_real]
      congr 1
      ext i j
      fin_cases i <;> fin_cases j <;> simp [Matrix.vecMulVec]

theorem best_rotation_iff {ps qs : List (V3 ℝ)} (h : ps.length = qs.length) (R : Mat 3 3 ℝ) :
    BestRotation R ps qs ↔ Top (moments ps qs) R := by
  unfold BestRotation Top
  refine and_congr_right fun hR => ?_
  refine forall_congr' fun R' => forall_congr' fun hR' => ?_
  rw [residual_trace hR.1 ps qs h, residual_trace hR'.1 ps qs h, moments_eq h]
  constructor <;> intro h <;> linarith

theorem best_motion_iff {ps qs : List (V3 ℝ)} (h : ps.length = qs.length) (hp : ps ≠ []) (R : Mat 3 3 ℝ) (T : V3 ℝ) :
    BestMotion R T ps qs ↔ Top (crossCov ps qs) R ∧ T = centroid qs - act R (centroid ps) := by
  have hl : (0 : ℝ) < ps.length := by
    have := List.length_pos_iff.mpr hp
    exact_mod_cast this
  have hc : (ps.map (· - centroid ps)).length = (qs.map (· - centroid qs)).length := by simpa using h
  have res : ∀ {Q : Mat 3 3 ℝ}, IsRotation Q → ∀ S, sqResid (move Q S) ps qs =
      sqLens (ps.map (· - centroid ps)) + sqLens (qs.map (· - centroid qs)) - 2 * Matrix.trace (Q * crossCov ps qs) +
        ps.length * len3 (vec3 (centroid qs) (move Q S (centroid ps))) ^ 2 := by
    intro Q hQ S
    rw [residual_centred h hp, residual_trace hQ.1 _ _ hc, crossCov_eq h]
  have zero : ∀ Q : Mat 3 3 ℝ, len3 (vec3 (centroid qs) (move Q (centroid qs - act Q (centroid ps)) (centroid ps))) = 0 := by
    intro Q
    rw [len3_eq_zero]
    ext <;> simp [vec3, move, zero3]
  constructor
  · rintro ⟨hR, hb⟩
    have hT : T = centroid qs - act R (centroid ps) := by
      have := hb R (centroid qs - act R (centroid ps)) hR
      rw [res hR, res hR, zero] at this
      have h0 : len3 (vec3 (centroid qs) (move R T (centroid ps))) ^ 2 ≤ 0 := by
        by_contra hn
        have := mul_pos hl (not_le.mp hn)
        linarith
      have h1 : len3 (vec3 (centroid qs) (move R T (centroid ps))) = 0 := by
        have := le_antisymm h0 (sq_nonneg _)
        exact pow_eq_zero_iff (two_ne_zero) |>.mp this
      rw [len3_eq_zero] at h1
      have hx := congrArg V3.x h1; have hy := congrArg V3.y h1; have hz := congrArg V3.z h1
      simp only [vec3, move, zero3] at hx hy hz
      ext <;> simp <;> linarith
    refine ⟨⟨hR, fun R' hR' => ?_⟩, hT⟩
    have := hb R' (centroid qs - act R' (centroid ps)) hR'
    rw [res hR, res hR', hT, zero, zero] at this
    linarith
  · rintro ⟨⟨hR, hb⟩, rfl⟩
    refine ⟨hR, fun R' T' hR' => ?_⟩
    rw [res hR, res hR', zero]
    have h1 := hb R' hR'
    have h2 : 0 ≤ (ps.length : ℝ) * len3 (vec3 (centroid qs) (move R' T' (centroid ps))) ^ 2 := by positivity
    linarith

/-! ### moved matrices -/

theorem top_moved {A B c : Mat 3 3 ℝ} (hA : A.transpose * A = 1) (hB : B.transpose * B = 1) (hAB : A.det = B.det) {k : ℝ}
    (hk : 0 < k) {R : Mat 3 3 ℝ} : Top (k • (A * c * B.transpose)) R ↔ Top c (B.transpose * R * A) := by
  have hA' : A * A.transpose = 1 := mul_eq_one_comm.mp hA
  have hB' : B * B.transpose = 1 := mul_eq_one_comm.mp hB
  have hdd : A.det * B.det = 1 := by
    rcases orth_det hA with h | h <;> rw [← hAB, h] <;> norm_num
  have tr : ∀ Q : Mat 3 3 ℝ, Matrix.trace (Q * (k • (A * c * B.transpose))) = k * Matrix.trace (B.transpose * Q * A * c) := by
    intro Q
    rw [Matrix.mul_smul, Matrix.trace_smul, smul_eq_mul]
    congr 1
    rw [← Matrix.mul_assoc, Matrix.trace_mul_comm, ← Matrix.mul_assoc, ← Matrix.mul_assoc]
  have rot : ∀ Q : Mat 3 3 ℝ, IsRotation Q → IsRotation (B.transpose * Q * A) := by
    intro Q hQ
    refine ⟨orth_mul (orth_mul (orth_tr hB) hQ.1) hA, ?_⟩
    rw [Matrix.det_mul, Matrix.det_mul, Matrix.det_transpose, hQ.2, mul_one, mul_comm]; exact hdd
  have rot' : ∀ Q : Mat 3 3 ℝ, IsRotation Q → IsRotation (B * Q * A.transpose) := by
    intro Q hQ
    refine ⟨orth_mul (orth_mul hB hQ.1) (orth_tr hA), ?_⟩
    rw [Matrix.det_mul, Matrix.det_mul, Matrix.det_transpose, hQ.2, mul_one, mul_comm]; exact hdd
  have back : ∀ Q : Mat 3 3 ℝ, B * (B.transpose * Q * A) * A.transpose = Q := by
    intro Q
    rw [Matrix.mul_assoc, Matrix.mul_assoc (B.transpose * Q), hA', Matrix.mul_one, ← Matrix.mul_assoc, hB', Matrix.one_mul]
  have forth : ∀ Q : Mat 3 3 ℝ, B.transpose * (B * Q * A.transpose) * A = Q := by
    intro Q
    rw [Matrix.mul_assoc, Matrix.mul_assoc (B * Q), hA, Matrix.mul_one, ← Matrix.mul_assoc, hB, Matrix.one_mul]
  constructor
  · rintro ⟨hR, hb⟩
    refine ⟨rot R hR, fun Q hQ => ?_⟩
    have := hb _ (rot' Q hQ)
    rw [tr, tr, forth] at this
    exact le_of_mul_le_mul_left this hk
  · rintro ⟨hR, hb⟩
    refine ⟨by rw [← back R]; exact rot' _ hR, fun Q hQ => ?_⟩
    rw [tr, tr]
    exact mul_le_mul_of_nonneg_left (hb _ (rot Q hQ)) hk.le

theorem top_transpose {c R : Mat 3 3 ℝ} : Top c.transpose R ↔ Top c R.transpose := by
  have tr : ∀ Q : Mat 3 3 ℝ, Matrix.trace (Q * c.transpose) = Matrix.trace (Q.transpose * c) := by
    intro Q
    rw [← Matrix.trace_transpose, Matrix.transpose_mul, Matrix.transpose_transpose, Matrix.trace_mul_comm]
  have rot : ∀ Q : Mat 3 3 ℝ, IsRotation Q → IsRotation Q.transpose := by
    intro Q hQ
    exact ⟨orth_tr hQ.1, by rw [Matrix.det_transpose]; exact hQ.2⟩
  constructor
  · rintro ⟨hR, hb⟩
    refine ⟨rot R hR, fun Q hQ => ?_⟩
    have := hb _ (rot Q hQ)
    rwa [tr, tr, Matrix.transpose_transpose] at this
  · rintro ⟨hR, hb⟩
    refine ⟨by rw [← Matrix.transpose_transpose R]; exact rot _ hR, fun Q hQ => ?_⟩
    rw [tr, tr]
    exact hb _ (rot Q hQ)

theorem outer_moved (M N : Mat 3 3 ℝ) : ∀ ps qs : List (V3 ℝ), ps.length = qs.length →
    outerSum (ps.map (act M)) (qs.map (act N)) = M * outerSum ps qs * N.transpose
  | [], [], _ => by ext i j; simp [outerSum, Matrix.mul_apply]
  | p :: ps, q :: qs, h => by
    rw [List.map_cons, List.map_cons, outerSum, outerSum, outer_moved M N ps qs (by simpa using h), Mat.add_real, Mat.add_real,
      Matrix.mul_add, Matrix.add_mul]
    congr 1
    ext i j
    fin_cases i <;> fin_cases j <;> simp [Matrix.mul_apply, Fin.sum_univ_three, act_eq] <;> ring
  | [], q :: qs, h => by simp at h
  | p :: ps, [], h => by simp at h

theorem centred_move (M : Mat 3 3 ℝ) (s : V3 ℝ) {ps : List (V3 ℝ)} (h : ps ≠ []) :
    (ps.map (move M s)).map (· - centroid (ps.map (move M s))) = (ps.map (· - centroid ps)).map (act M) := by
  rw [centroid_move h, List.map_map, List.map_map]
  apply List.map_congr_left
  intro p _
  ext <;> simp [move, act_eq] <;> ring

theorem crossCov_moved (M N : Mat 3 3 ℝ) (s t : V3 ℝ) {ps qs : List (V3 ℝ)} (h : ps.length = qs.length) (hp : ps ≠ []) :
    crossCov (ps.map (move M s)) (qs.map (move N t)) = M * crossCov ps qs * N.transpose := by
  have hq : qs ≠ [] := by rintro rfl; simp at h; exact hp h
  rw [← crossCov_eq (by simpa using h), centred_move M s hp, centred_move N t hq, outer_moved M N _ _ (by simpa using h),
    crossCov_eq h]

theorem outer_swap : ∀ ps qs : List (V3 ℝ), ps.length = qs.length → outerSum qs ps = (outerSum ps qs).transpose
  | [], [], _ => by ext i j; simp [outerSum]
  | p :: ps, q :: qs, h => by
    rw [outerSum, outerSum, outer_swap ps qs (by simpa using h), Mat.add_real, Mat.add_real, Matrix.transpose_add]
    congr 1
    ext i j
    fin_cases i <;> fin_cases j <;> simp [mul_comm]
  | [], q :: qs, h => by simp at h
  | p :: ps, [], h => by simp at h

theorem crossCov_swap {ps qs : List (V3 ℝ)} (h : ps.length = qs.length) : crossCov qs ps = (crossCov ps qs).transpose := by
  rw [← crossCov_eq h, ← crossCov_eq h.symm, outer_swap _ _ (by simpa using h)]

/-! ### the fitted rotations -/

theorem fit_top {svd : Svd3 ℝ} (hsvd : ∀ c, ∃ u s v, svd c = .ok (u, s, v) ∧ SvdSpec c u s v) {c : Mat 3 3 ℝ} (hd : 0 ≤ c.det) :
    ∃ R, fitRotation svd c = .ok R ∧ Top c R := by
  obtain ⟨u, s, v, hs, hS⟩ := hsvd c
  obtain ⟨R, h1, h2, h3⟩ := (fitRotation_spec hs hS).2 hd
  exact ⟨R, h1, h2, fun R' h => h3 R' h.1⟩

theorem fit_error {svd : Svd3 ℝ} (hsvd : ∀ c, ∃ u s v, svd c = .ok (u, s, v) ∧ SvdSpec c u s v) {c : Mat 3 3 ℝ} (hd : c.det < 0) :
    fitRotation svd c = .error .ValueError := by
  obtain ⟨u, s, v, hs, hS⟩ := hsvd c
  exact (fitRotation_spec hs hS).1 hd

theorem fit'_top {svd : Svd3 ℝ} (hsvd : ∀ c, ∃ u s v, svd c = .ok (u, s, v) ∧ SvdSpec c u s v) (c : Mat 3 3 ℝ) :
    ∃ R, fitRotation' svd c = .ok R ∧ Top c R := by
  obtain ⟨u, s, v, hs, hS⟩ := hsvd c
  obtain ⟨R, h1, h2, h3⟩ := fitRotation'_spec hs hS
  exact ⟨R, h1, h2, h3⟩

end Blmath.Proofs.RS
