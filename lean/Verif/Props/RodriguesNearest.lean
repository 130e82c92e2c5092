import Verif.Props.RodriguesNear
import Verif.Props.RigidTransform

/-!
Property C77: `rodrigues` and `as_rotation_matrix` of 3×3 matrices that are not rotations.
-/

namespace Blmath.Props
open Blmath.Geometry Blmath.Spec

/-- the square of the Frobenius distance of two matrices -/
noncomputable def frobSq (A B : Matrix (Fin 3) (Fin 3) ℝ) : ℝ := ∑ i, ∑ j, (A i j - B i j) ^ 2

theorem frobSq_orth {R : Mat 3 3 ℝ} (hR : R.transpose * R = 1) (A : Mat 3 3 ℝ) :
    frobSq R A = 3 + frobSq 0 A - 2 * Matrix.trace (R.transpose * A) := by
  have e : ∀ i, (R.transpose * R) i i = (1 : Mat 3 3 ℝ) i i := fun i => by rw [hR]
  simp only [Matrix.mul_apply, Fin.sum_univ_three, Matrix.transpose_apply, Matrix.one_apply_eq] at e
  have e0 := e 0; have e1 := e 1; have e2 := e 2
  simp only [frobSq, Matrix.trace, Matrix.diag, Matrix.mul_apply, Fin.sum_univ_three, Matrix.transpose_apply, Matrix.zero_apply]
  linear_combination e0 + e1 + e2

theorem orth_one {W : Mat 3 3 ℝ} (hW : W.transpose * W = 1) (h0 : W 0 0 = 1) (h1 : W 1 1 = 1) (h2 : W 2 2 = 1) : W = 1 := by
  have e : ∀ i, (W.transpose * W) i i = (1 : Mat 3 3 ℝ) i i := fun i => by rw [hW]
  simp only [Matrix.mul_apply, Fin.sum_univ_three, Matrix.transpose_apply, Matrix.one_apply_eq] at e
  have e0 := e 0; have e1 := e 1; have e2 := e 2
  rw [h0] at e0; rw [h1] at e1; rw [h2] at e2
  have z : ∀ a b : ℝ, a * a + b * b = 0 → a = 0 ∧ b = 0 := by
    intro a b h
    have := mul_self_nonneg a
    have := mul_self_nonneg b
    exact ⟨mul_self_eq_zero.mp (by linarith), mul_self_eq_zero.mp (by linarith)⟩
  obtain ⟨a1, a2⟩ := z (W 1 0) (W 2 0) (by linarith)
  obtain ⟨b1, b2⟩ := z (W 0 1) (W 2 1) (by linarith)
  obtain ⟨c1, c2⟩ := z (W 0 2) (W 1 2) (by linarith)
  ext i j
  fin_cases i <;> fin_cases j <;> simp [h0, h1, h2, a1, a2, b1, b2, c1, c2]

/-- the orthogonal factor of an invertible matrix is the nearest orthogonal matrix -/
theorem uv_nearest_orth {A u v : Mat 3 3 ℝ} {s : Fin 3 → ℝ} (h : SvdSpec A u s v) (hd : A.det ≠ 0) :
    (u * v).transpose * (u * v) = 1 ∧ 0 < A.det * (u * v).det ∧
      ∀ Q : Mat 3 3 ℝ, Q.transpose * Q = 1 → Q ≠ u * v → frobSq (u * v) A < frobSq Q A := by
  have hu : u * u.transpose = 1 := mul_eq_one_comm.mp h.left
  have horth : (u * v).transpose * (u * v) = 1 := orth_mul h.left h.right
  have hdet := svd_det h
  have hprod : 0 ≤ s 0 * s 1 * s 2 := mul_nonneg (mul_nonneg (h.nonneg 0) (h.nonneg 1)) (h.nonneg 2)
  have hdd : (v.transpose * u.transpose).det = (u * v).det := by
    rw [← Matrix.transpose_mul, Matrix.det_transpose]
  rw [hdd] at hdet
  have hspos : 0 < s 0 * s 1 * s 2 := by
    rcases hprod.lt_or_eq with hp | hp
    · exact hp
    · rw [← hp, mul_zero] at hdet; exact absurd hdet hd
  have s2 : 0 < s 2 := by
    rcases (h.nonneg 2).lt_or_eq with hp | hp
    · exact hp
    · rw [← hp, mul_zero] at hspos; exact absurd hspos (lt_irrefl _)
  have s1 : 0 < s 1 := lt_of_lt_of_le s2 (h.sorted 1 2 (by decide))
  have s0 : 0 < s 0 := lt_of_lt_of_le s1 (h.sorted 0 1 (by decide))
  refine ⟨horth, ?_, ?_⟩
  · rw [hdet, mul_right_comm]
    rcases orth_det horth with h1 | h1 <;> rw [h1] <;> linarith
  · intro Q hQ hne
    rw [frobSq_orth horth, frobSq_orth hQ]
    have t1 : Matrix.trace ((u * v).transpose * A) = s 0 + s 1 + s 2 := by
      rw [Matrix.transpose_mul]; exact (candidates h).1.2
    have t2 : Matrix.trace (Q.transpose * A) < s 0 + s 1 + s 2 := by
      rw [trace_svd h]
      have hW := orth_mul (orth_mul h.right (orth_tr hQ)) h.left
      have w0 := orth_diag_le hW 0
      have w1 := orth_diag_le hW 1
      have w2 := orth_diag_le hW 2
      by_contra hcon
      rw [not_lt] at hcon
      have k0 := mul_nonneg (sub_nonneg.mpr w0) s0.le
      have k1 := mul_nonneg (sub_nonneg.mpr w1) s1.le
      have k2 := mul_nonneg (sub_nonneg.mpr w2) s2.le
      have one : v * Q.transpose * u = 1 := by
        apply orth_one hW
        · have : (1 - (v * Q.transpose * u) 0 0) * s 0 = 0 := by linarith
          rcases mul_eq_zero.mp this with hz | hz <;> linarith
        · have : (1 - (v * Q.transpose * u) 1 1) * s 1 = 0 := by linarith
          rcases mul_eq_zero.mp this with hz | hz <;> linarith
        · have : (1 - (v * Q.transpose * u) 2 2) * s 2 = 0 := by linarith
          rcases mul_eq_zero.mp this with hz | hz <;> linarith
      apply hne
      have hq : Q.transpose = v.transpose * u.transpose := by
        calc Q.transpose = (v.transpose * v) * Q.transpose * (u * u.transpose) := by rw [h.right, hu]; simp
          _ = v.transpose * (v * Q.transpose * u) * u.transpose := by simp only [Matrix.mul_assoc]
          _ = _ := by rw [one, Matrix.mul_one]
      rw [← Matrix.transpose_transpose Q, hq, ← Matrix.transpose_mul, Matrix.transpose_transpose]
    linarith

/-- the orthogonal factor of an invertible matrix does not depend on the decomposition -/
theorem uv_unique {A u v u' v' : Mat 3 3 ℝ} {s s' : Fin 3 → ℝ} (h : SvdSpec A u s v) (h' : SvdSpec A u' s' v')
    (hd : A.det ≠ 0) : u * v = u' * v' := by
  obtain ⟨o1, _, m1⟩ := uv_nearest_orth h hd
  obtain ⟨o2, _, m2⟩ := uv_nearest_orth h' hd
  by_contra hne
  exact lt_asymm (m2 _ o1 hne) (m1 _ o2 (Ne.symm hne))

/-- the orthogonal factor of a matrix of positive determinant -/
theorem uv_nearest {A u v : Mat 3 3 ℝ} {s : Fin 3 → ℝ} (h : SvdSpec A u s v) (hd : 0 < A.det) :
    IsRotation (u * v) ∧ ∀ Q, IsRotation Q → Q ≠ u * v → frobSq (u * v) A < frobSq Q A := by
  obtain ⟨h1, h2, h3⟩ := uv_nearest_orth h hd.ne'
  refine ⟨⟨h1, ?_⟩, fun Q hQ hne => h3 Q hQ.1 hne⟩
  rcases orth_det h1 with e | e
  · exact e
  · rw [e] at h2; linarith

/-- both functions see a matrix only through its orthogonal factor -/
theorem asRot_factor {svd : Svd3 ℝ} {A u v : Mat 3 3 ℝ} {s : Fin 3 → ℝ} (hsvd : svd A = .ok (u, s, v)) :
    rodriguesLog svd A = .ok (rodriguesLogOrth (u * v)) ∧
    asRotationMatrix svd (.mat A) = .ok (rodriguesExp (rodriguesLogOrth (u * v))) := by
  have h : rodriguesLog svd A = .ok (rodriguesLogOrth (u * v)) := by
    unfold rodriguesLog
    rw [hsvd]
    simp only [ok_bind, pure_eq_ok, Mat.mul_real]
  refine ⟨h, ?_⟩
  unfold asRotationMatrix
  simp only
  rw [h]
  simp only [ok_bind, pure_eq_ok]

/-- **C77.** A 3×3 matrix of positive determinant has exactly one nearest rotation; `rodrigues` gives the rotation
vector of that one, whatever decomposition the SVD returns, and `as_rotation_matrix` gives the rotation itself where
the sine of its angle is at least 1e-5 or the angle is 0 or π, otherwise one within 1/100 of it. -/
theorem C77_nearest (A : Mat 3 3 ℝ) (hd : 0 < A.det) :
    ∃ Q, IsRotation Q ∧ (∀ Q', IsRotation Q' → Q' ≠ Q → frobSq Q A < frobSq Q' A) ∧
      ∀ (svd : Svd3 ℝ) (u v : Mat 3 3 ℝ) (s : Fin 3 → ℝ), svd A = .ok (u, s, v) → SvdSpec A u s v →
        rodriguesLog svd A = rodriguesLog (fun R => .ok (R, fun _ => 1, 1)) Q ∧
        ∃ R', asRotationMatrix svd (.mat A) = .ok R' ∧ IsRotation R' ∧ (∀ i j, |R' i j - Q i j| ≤ 1 / 100) ∧
          (1 / 100000 ≤ len3 (sinAxis Q) ∨ Q = 1 ∨ cosOf Q = -1 → R' = Q) := by
  obtain ⟨u0, s0, v0, h0⟩ := svd_exists A
  obtain ⟨hQ, hmin⟩ := uv_nearest h0 hd
  refine ⟨u0 * v0, hQ, hmin, fun svd u v s hsvd hspec => ?_⟩
  have huv : u * v = u0 * v0 := uv_unique hspec h0 hd.ne'
  obtain ⟨f1, f2⟩ := asRot_factor hsvd
  obtain ⟨g1, g2⟩ := asRot_factor (svd := fun R => .ok (R, fun _ => 1, 1)) (A := u0 * v0) rfl
  rw [Matrix.mul_one] at g1 g2
  rw [huv] at f1 f2
  refine ⟨by rw [f1, g1], ?_⟩
  obtain ⟨R', h1, h2, h3, h4⟩ := C52_always (fun R => .ok (R, fun _ => 1, 1)) _ _ _ _ hQ rfl (svd_of_rotation hQ)
  refine ⟨R', by rw [f2, ← g2, h1], h2, h3, ?_⟩
  have inj : ∀ {X : Mat 3 3 ℝ}, asRotationMatrix (fun R => .ok (R, fun _ => 1, 1)) (.mat (u0 * v0)) = .ok X → R' = X := by
    intro X hX
    rw [h1] at hX
    exact Except.ok.inj hX
  rintro (hb | hb | hb)
  · exact inj (C52_exp_log _ _ _ _ _ hQ rfl (svd_of_rotation hQ) hb)
  · have e1 : sinAxis (1 : Mat 3 3 ℝ) = zero3 := by simp [sinAxis, zero3]
    have := C52_small_angle (fun R => .ok (R, fun _ => 1, 1)) _ _ _ _ hQ rfl (svd_of_rotation hQ)
      (by rw [hb, e1, len3_eq_zero.mpr rfl]; norm_num) (by rw [hb]; norm_num [cosOf])
    rw [inj this, hb]
  · exact inj (C52_half_turn _ _ _ _ _ hQ rfl (svd_of_rotation hQ) hb).1

theorem clip11_low {x : ℝ} (h : x ≤ 0) : clip11 x = max (-1) x := by
  rcases le_total (-1) x with h1 | h1
  · rw [clip11_real h1 (by linarith), max_eq_right h1]
  · rw [max_eq_left h1]
    have a : npMax x (Num.lit (-1)) = -1 := by
      unfold npMax npIsNan
      simp only [Num.lit_real]
      rw [if_neg (by simp), if_neg (by simp)]
      by_cases h2 : x < -1
      · rw [if_pos (by simpa using h2)]; norm_num
      · rw [if_neg (by simpa using h2)]; linarith
    unfold clip11
    rw [a]
    unfold npMin npIsNan
    simp only [Num.lit_real]
    rw [if_neg (by simp), if_neg (by simp), if_neg (by norm_num)]

theorem cosOf_neg (R : Mat 3 3 ℝ) : cosOf (-R) = -1 - cosOf R := by
  simp only [cosOf, Matrix.neg_apply]; ring

theorem sinAxis_neg (R : Mat 3 3 ℝ) : sinAxis (-R) = scale3 (-1) (sinAxis R) := by
  ext <;> simp [sinAxis, scale3] <;> ring

/-- what `rodrigues` computes from the negative of a rotation -/
theorem logOrth_neg {R : Mat 3 3 ℝ} (hR : IsRotation R) : rodriguesLogOrth (-R) =
    if len3 (sinAxis R) < 1 / 100000 then
      scale3 (Real.arccos (max (-1) (-1 - cosOf R)) / len3 (halfTurnAxis (-R))) (halfTurnAxis (-R))
    else scale3 (Real.arccos (max (-1) (-1 - cosOf R)) / len3 (sinAxis R)) (scale3 (-1) (sinAxis R)) := by
  have hb := cos_bounds hR
  have hc : clip11 (((-R) 0 0 + (-R) 1 1 + (-R) 2 2 - Num.lit 1) * Num.lit (1 / 2)) = max (-1) (-1 - cosOf R) := by
    have : ((-R) 0 0 + (-R) 1 1 + (-R) 2 2 - Num.lit 1) * Num.lit (1 / 2) = -1 - cosOf R := by
      rw [← cosOf_neg]; simp [cosOf]; ring
    rw [this]
    exact clip11_low (by linarith)
  have hv : (⟨(-R) 2 1 - (-R) 1 2, (-R) 0 2 - (-R) 2 0, (-R) 1 0 - (-R) 0 1⟩ : V3 ℝ) =
      scale3 2 (scale3 (-1) (sinAxis R)) := by
    ext <;> simp [scale3, sinAxis] <;> ring
  have hq : Num.sqrt (Num.lit (1 / 4) : ℝ) = 1 / 2 := by
    simp only [Num.sqrt_real, Num.lit_real]
    rw [show (((1 / 4 : ℚ)) : ℝ) = (1 / 2) ^ 2 by norm_num]
    exact Real.sqrt_sq (by norm_num)
  have hs : (scale3 2 (scale3 (-1) (sinAxis R))).norm * Num.sqrt (Num.lit (1 / 4) : ℝ) = len3 (sinAxis R) := by
    rw [V3.norm_real, len3_scale, len3_scale, hq]; norm_num; ring
  unfold rodriguesLogOrth
  simp only [hc, hv, hs]
  have hlit : (Num.lit (1 / 100000) : ℝ) = 1 / 100000 := by simp
  have h0 : (Num.lit 0 : ℝ) = 0 := by simp
  have hm : ¬ 0 < max (-1) (-1 - cosOf R) := not_lt.mpr (max_le (by norm_num) (by linarith))
  simp only [Num.lt_real, hlit, h0, Trig.acos_real, V3.norm_real, V3.smul_real]
  rw [if_neg hm]
  split
  · rfl
  · rename_i hge
    rw [scale3_scale3]
    congr 1
    simp only [Num.lit_real]
    have : len3 (sinAxis R) ≠ 0 := by
      intro e; rw [e] at hge; norm_num at hge
    field_simp
    norm_num
    ring

/-- the rotation of a vector along `w` of length `θ ≥ π/2` -/
theorem exp_along {w : V3 ℝ} (hw : 0 < len3 w) {θ : ℝ} (hθ : Real.pi / 2 ≤ θ) :
    rodriguesExp (scale3 (θ / len3 w) w) = axisMat (scale3 (len3 w)⁻¹ w) (Real.cos θ) (Real.sin θ) := by
  have hpi := Real.pi_gt_three
  have hlen : len3 (scale3 (θ / len3 w) w) = θ := by
    rw [len3_scale, abs_of_pos (by apply div_pos _ hw; linarith)]
    field_simp
  have he : eps ≤ (1 : ℝ) := by simp [eps]; norm_num
  rw [rodriguesExp_big _ (by rw [hlen]; linarith), hlen, scale3_scale3]
  congr 2
  have : θ ≠ 0 := by linarith
  field_simp

theorem halfTurnAxis_ne {R : Mat 3 3 ℝ} (hR : IsRotation R) (h1 : R ≠ 1) : 0 < len3 (halfTurnAxis (-R)) := by
  by_contra hcon
  have hz := len3_eq_zero.mp (le_antisymm (not_lt.mp hcon) (len3_nonneg _))
  obtain ⟨ax, ay, az, az', e1, e2, e3, e4, e5⟩ := halfTurnAxis_real (-R)
  rw [e5] at hz
  have zx : ax = 0 := congrArg V3.x hz
  have zy : ay = 0 := congrArg V3.y hz
  have zz : az' = 0 := congrArg V3.z hz
  have zz' : az = 0 := by
    rw [e4] at zz
    split at zz <;> linarith
  have key : ∀ i, Real.sqrt (((-R) i i + 1) / 2) = 0 → R i i = 1 := by
    intro i h
    have h2 := (Real.sqrt_eq_zero').mp h
    have h3 := orth_diag_le hR.1 i
    rw [Matrix.neg_apply] at h2
    linarith
  apply h1
  apply orth_one hR.1 (key 0 (e1 ▸ zx)) (key 1 ?_) (key 2 ?_)
  · rw [e2] at zy
    split at zy <;> linarith
  · rw [e3] at zz'
    split at zz' <;> linarith

/-- **C77, negative determinant.** Such a matrix has exactly one nearest orthogonal matrix, the negative of a rotation
`R`, and the answer comes from that one, whatever decomposition the SVD returns.  If `R` is not the identity, it is a
rotation whose angle has the cosine `max(-1, -1 - cos)` with the cosine of the angle of `R`: never less than a quarter
turn, and a half turn if the angle of `R` is at most a quarter turn.  Where the sine is at least 1e-5 it turns about the
same axis, in the opposite sense. -/
theorem C77_negative (A : Mat 3 3 ℝ) (hd : A.det < 0) :
    ∃ R, IsRotation R ∧ (∀ Q : Mat 3 3 ℝ, Q.transpose * Q = 1 → Q ≠ -R → frobSq (-R) A < frobSq Q A) ∧
      ∀ (svd : Svd3 ℝ) (u v : Mat 3 3 ℝ) (s : Fin 3 → ℝ), svd A = .ok (u, s, v) → SvdSpec A u s v → R ≠ 1 →
        ∃ R', asRotationMatrix svd (.mat A) = .ok R' ∧ IsRotation R' ∧
          cosOf R' = max (-1) (-1 - cosOf R) ∧
          (1 / 100000 ≤ len3 (sinAxis R) → act R' (sinAxis R) = sinAxis R ∧
            ∃ k ≤ 0, sinAxis R' = scale3 k (sinAxis R)) := by
  obtain ⟨u0, s0, v0, h0⟩ := svd_exists A
  obtain ⟨o0, d0, m0⟩ := uv_nearest_orth h0 hd.ne
  have hR : IsRotation (-(u0 * v0)) := by
    refine ⟨by rw [Matrix.transpose_neg, neg_mul_neg]; exact o0, ?_⟩
    rw [Matrix.det_neg]
    rcases orth_det o0 with e | e
    · rw [e] at d0; linarith
    · rw [e]; norm_num
  refine ⟨-(u0 * v0), hR, by rw [neg_neg]; exact m0, fun svd u v s hsvd hspec hne => ?_⟩
  have huv : u * v = u0 * v0 := uv_unique hspec h0 hd.ne
  obtain ⟨_, f2⟩ := asRot_factor hsvd
  rw [huv] at f2
  refine ⟨_, f2, C51_rotation _, ?_⟩
  have hlog := logOrth_neg hR
  rw [neg_neg] at hlog
  have hax := halfTurnAxis_ne hR hne
  rw [neg_neg] at hax
  generalize -(u0 * v0) = R at hR hlog hne
  have hb := cos_bounds hR
  have hm1 : -1 ≤ max (-1) (-1 - cosOf R) := le_max_left _ _
  have hm2 : max (-1) (-1 - cosOf R) ≤ 0 := max_le (by norm_num) (by linarith)
  have hth : Real.pi / 2 ≤ Real.arccos (max (-1) (-1 - cosOf R)) := by
    rw [← Real.arccos_zero]; exact Real.arccos_le_arccos hm2
  have hcos := Real.cos_arccos hm1 (hm2.trans zero_le_one)
  rw [hlog]
  split
  · rename_i hs
    refine ⟨?_, fun h => absurd hs (not_lt.mpr h)⟩
    rw [exp_along hax hth, (axisMat_sinAxis _ _ _ (unit_inv_scale hax)).2, hcos]
  · rename_i hs
    have hp : 0 < len3 (sinAxis R) := by linarith
    have hl : len3 (scale3 (-1) (sinAxis R)) = len3 (sinAxis R) := by rw [len3_scale]; norm_num
    have e := exp_along (w := scale3 (-1) (sinAxis R)) (by rw [hl]; exact hp) hth
    rw [hl] at e
    have hu := unit_inv_scale (r := scale3 (-1) (sinAxis R)) (by rw [hl]; exact hp)
    rw [hl] at hu
    refine ⟨?_, fun _ => ⟨?_, ?_⟩⟩
    · rw [e, (axisMat_sinAxis _ _ _ hu).2, hcos]
    · have hf := C51_axis (scale3 (Real.arccos (max (-1) (-1 - cosOf R)) / len3 (sinAxis R)) (scale3 (-1) (sinAxis R)))
      rw [scale3_scale3] at hf ⊢
      have hk : Real.arccos (max (-1) (-1 - cosOf R)) / len3 (sinAxis R) * -1 ≠ 0 := by
        have hpi := Real.pi_pos
        have : 0 < Real.arccos (max (-1) (-1 - cosOf R)) / len3 (sinAxis R) := div_pos (by linarith) hp
        linarith
      generalize Real.arccos (max (-1) (-1 - cosOf R)) / len3 (sinAxis R) * -1 = k at hf hk
      generalize rodriguesExp (scale3 k (sinAxis R)) = M at hf
      rw [act_scale] at hf
      have h := congrArg (scale3 k⁻¹) hf
      rw [scale3_scale3, scale3_scale3, inv_mul_cancel₀ hk] at h
      simp only [scale3, one_mul] at h
      exact h
    · rw [e, (axisMat_sinAxis _ _ _ hu).1, scale3_scale3, scale3_scale3]
      refine ⟨_, ?_, rfl⟩
      have := Real.sin_nonneg_of_nonneg_of_le_pi (Real.arccos_nonneg (max (-1) (-1 - cosOf R))) (Real.arccos_le_pi _)
      have : 0 ≤ (len3 (sinAxis R))⁻¹ := inv_nonneg.mpr hp.le
      nlinarith

/-- a matrix of negative determinant: the negative of a quarter turn about z comes back as a half turn about z -/
example (svd : Svd3 ℝ) (u v : Mat 3 3 ℝ) (s : Fin 3 → ℝ)
    (hsvd : svd (-(axisMat ⟨0, 0, 1⟩ 0 1)) = .ok (u, s, v)) (hspec : SvdSpec (-(axisMat ⟨0, 0, 1⟩ 0 1)) u s v) :
    ∃ R', asRotationMatrix svd (.mat (-(axisMat ⟨0, 0, 1⟩ 0 1))) = .ok R' ∧ IsRotation R' ∧ cosOf R' = -1 ∧
      act R' ⟨0, 0, 1⟩ = ⟨0, 0, 1⟩ := by
  have hu : inner3 (⟨0, 0, 1⟩ : V3 ℝ) ⟨0, 0, 1⟩ = 1 := by norm_num [inner3]
  have hq : IsRotation (axisMat ⟨0, 0, 1⟩ 0 1) := axisMat_rot _ _ _ hu (by norm_num)
  obtain ⟨q1, q2⟩ := axisMat_sinAxis ⟨0, 0, 1⟩ 0 1 hu
  obtain ⟨R, hR, hmin, h⟩ := C77_negative (-(axisMat ⟨0, 0, 1⟩ 0 1)) (by rw [Matrix.det_neg, hq.2]; norm_num)
  have e : R = axisMat ⟨0, 0, 1⟩ 0 1 := by
    by_contra hne
    have h1 := hmin (-(axisMat ⟨0, 0, 1⟩ 0 1)) (by rw [Matrix.transpose_neg, neg_mul_neg]; exact hq.1)
      (fun hc => hne (neg_injective hc).symm)
    have h2 : frobSq (-(axisMat ⟨0, 0, 1⟩ 0 1)) (-(axisMat ⟨0, 0, 1⟩ 0 1)) = 0 := by simp [frobSq]
    have h3 : 0 ≤ frobSq (-R) (-(axisMat ⟨0, 0, 1⟩ 0 1)) :=
      Finset.sum_nonneg fun i _ => Finset.sum_nonneg fun j _ => sq_nonneg _
    linarith
  obtain ⟨R', g1, g2, g3, g4⟩ := h svd u v s hsvd hspec (by
    rw [e]; intro hc
    have := congrFun (congrFun hc 0) 0
    simp [axisMat] at this)
  have hs : sinAxis R = ⟨0, 0, 1⟩ := by rw [e, q1]; simp [scale3]
  rw [e, q2] at g3
  obtain ⟨g5, -⟩ := g4 (by rw [hs]; unfold len3; norm_num)
  rw [hs] at g5
  exact ⟨R', g1, g2, by rw [g3]; norm_num, g5⟩

/-- the mirror image in the xy plane -/
def mirrorZ : Mat 3 3 ℝ := Matrix.diagonal ![1, 1, -1]

theorem mirrorZ_entries : mirrorZ 0 0 = 1 ∧ mirrorZ 1 1 = 1 ∧ mirrorZ 2 2 = -1 ∧ mirrorZ 0 1 = 0 ∧ mirrorZ 0 2 = 0 ∧
    mirrorZ 1 0 = 0 ∧ mirrorZ 1 2 = 0 ∧ mirrorZ 2 0 = 0 ∧ mirrorZ 2 1 = 0 := by
  simp [mirrorZ]

/-- the mirror image is taken for a quarter turn about (1, 1, 0) -/
theorem mirrorZ_result : rodriguesExp (rodriguesLogOrth mirrorZ) = axisMat (scale3 (Real.sqrt 2)⁻¹ ⟨1, 1, 0⟩) 0 1 := by
  obtain ⟨h00, h11, h22, h01, h02, h10, h12, h20, h21⟩ := mirrorZ_entries
  have hpi := Real.pi_gt_three
  have ha : halfTurnAxis mirrorZ = ⟨1, 1, 0⟩ := by
    obtain ⟨ax, ay, az, az', e1, e2, e3, e4, e5⟩ := halfTurnAxis_real mirrorZ
    rw [h00] at e1
    rw [h01, h11] at e2
    rw [h02, h22] at e3
    norm_num at e1 e2 e3
    rw [e1, e2, e3, if_neg (by rintro ⟨⟨h, _⟩, _⟩; exact lt_irrefl _ h)] at e4
    rw [e5, e1, e2, e4]
  have hl : len3 (⟨1, 1, 0⟩ : V3 ℝ) = Real.sqrt 2 := by
    unfold len3; norm_num
  have h2 : 0 < Real.sqrt 2 := Real.sqrt_pos.mpr (by norm_num)
  have hlog : rodriguesLogOrth mirrorZ = scale3 (Real.pi / 2 / Real.sqrt 2) ⟨1, 1, 0⟩ := by
    unfold rodriguesLogOrth
    simp only [ha, h00, h11, h22, h01, h02, h10, h12, h20, h21, V3.norm_real, hl, sub_zero]
    have hz : len3 (⟨0, 0, 0⟩ : V3 ℝ) = 0 := len3_eq_zero.mpr rfl
    have hc : clip11 ((1 + 1 + -1 - Num.lit 1) * Num.lit (1 / 2) : ℝ) = 0 := by
      have : ((1 + 1 + -1 - Num.lit 1) * Num.lit (1 / 2) : ℝ) = 0 := by norm_num
      rw [this]; exact clip11_real (by norm_num) (by norm_num)
    rw [hz, hc, if_pos (by norm_num), if_neg (by norm_num)]
    simp [V3.smul_real]
  have hlen : len3 (rodriguesLogOrth mirrorZ) = Real.pi / 2 := by
    rw [hlog, len3_scale, hl, abs_of_pos (by positivity)]
    field_simp
  rw [rodriguesExp_big _ (by rw [hlen]; have : eps ≤ (1 : ℝ) := (by simp [eps]; norm_num); linarith), hlen,
    Real.cos_pi_div_two, Real.sin_pi_div_two, hlog]
  congr 1
  ext <;> simp only [scale3] <;> field_simp

theorem mirror_svd (a b c : ℝ) (h1 : b ≤ a) (h2 : c ≤ b) (h3 : 0 ≤ c) :
    SvdSpec (Matrix.diagonal ![a, b, -c]) 1 ![a, b, c] mirrorZ := by
  refine ⟨by simp, ?_, ?_, ?_, ?_⟩
  · rw [mirrorZ]; exact flip_orth
  · intro i; fin_cases i <;> simp <;> linarith
  · intro i j hij
    fin_cases i <;> fin_cases j <;> simp at hij ⊢ <;> linarith
  · rw [Matrix.one_mul, mirrorZ, Matrix.diagonal_mul_diagonal]
    congr 1
    funext i; fin_cases i <;> simp

/-- **C77, negative determinant.** The sign of the determinant is not looked at: for every SVD, the matrix
diag(3, 2, -1) comes back as a quarter turn about (1, 1, 0), which is farther from it than the identity. -/
theorem C77_reflection (svd : Svd3 ℝ) (u v : Mat 3 3 ℝ) (s : Fin 3 → ℝ)
    (hsvd : svd (Matrix.diagonal ![3, 2, -1]) = .ok (u, s, v)) (hspec : SvdSpec (Matrix.diagonal ![3, 2, -1]) u s v) :
    ∃ R', asRotationMatrix svd (.mat (Matrix.diagonal ![3, 2, -1])) = .ok R' ∧ IsRotation R' ∧
      act R' ⟨1, 1, 0⟩ = ⟨1, 1, 0⟩ ∧ act R' ⟨1, -1, 0⟩ = ⟨0, 0, -Real.sqrt 2⟩ ∧
      frobSq 1 (Matrix.diagonal ![3, 2, -1]) < frobSq R' (Matrix.diagonal ![3, 2, -1]) := by
  have huv : u * v = 1 * mirrorZ := by
    refine uv_unique hspec (mirror_svd 3 2 1 (by norm_num) (by norm_num) (by norm_num)) ?_
    rw [Matrix.det_diagonal, Fin.prod_univ_three]; simp
  rw [Matrix.one_mul] at huv
  obtain ⟨_, f2⟩ := asRot_factor hsvd
  rw [huv] at f2
  have hrot := C51_rotation (rodriguesLogOrth mirrorZ)
  refine ⟨_, f2, hrot, ?_⟩
  rw [mirrorZ_result] at hrot ⊢
  have h2 : 0 < Real.sqrt 2 := Real.sqrt_pos.mpr (by norm_num)
  have h22 : Real.sqrt 2 * Real.sqrt 2 = 2 := Real.mul_self_sqrt (by norm_num)
  have hi : (Real.sqrt 2)⁻¹ * (Real.sqrt 2)⁻¹ = 1 / 2 := by
    rw [← mul_inv, h22]; norm_num
  have hi2 : (Real.sqrt 2)⁻¹ + (Real.sqrt 2)⁻¹ = Real.sqrt 2 := by
    field_simp; linarith
  refine ⟨?_, ?_, ?_⟩
  · rw [act_eq]
    ext <;> simp [axisMat, scale3, hi] <;> norm_num
  · rw [act_eq]
    ext <;> simp [axisMat, scale3, hi] <;> linarith
  · rw [frobSq_orth (by simp), frobSq_orth hrot.1]
    simp [Matrix.trace, Fin.sum_univ_three, Matrix.mul_apply, axisMat, scale3, hi, Matrix.diagonal_apply]
    norm_num

/-- **C77, singular matrices.** The result then depends on the signs the SVD chooses: diag(2, 1, 0) comes back as the
identity or as a quarter turn, for two decompositions that both meet the contract. -/
theorem C77_singular_ambiguous : ∃ (A R₁ R₂ : Mat 3 3 ℝ) (svd₁ svd₂ : Svd3 ℝ),
    (∃ u s v, svd₁ A = .ok (u, s, v) ∧ SvdSpec A u s v) ∧ (∃ u s v, svd₂ A = .ok (u, s, v) ∧ SvdSpec A u s v) ∧
    asRotationMatrix svd₁ (.mat A) = .ok R₁ ∧ asRotationMatrix svd₂ (.mat A) = .ok R₂ ∧ R₁ ≠ R₂ := by
  have hA : (Matrix.diagonal ![2, 1, -0] : Mat 3 3 ℝ) = Matrix.diagonal ![2, 1, 0] := by rw [neg_zero]
  have k1 : SvdSpec (Matrix.diagonal ![2, 1, 0]) 1 ![2, 1, 0] (1 : Mat 3 3 ℝ) := by
    refine ⟨by simp, by simp, ?_, ?_, by simp⟩
    · intro i; fin_cases i <;> simp
    · intro i j hij
      fin_cases i <;> fin_cases j <;> simp at hij ⊢
  have k2 := mirror_svd 2 1 0 (by norm_num) (by norm_num) le_rfl
  rw [hA] at k2
  refine ⟨Matrix.diagonal ![2, 1, 0], 1, axisMat (scale3 (Real.sqrt 2)⁻¹ ⟨1, 1, 0⟩) 0 1, fun _ => .ok (1, ![2, 1, 0], 1),
    fun _ => .ok (1, ![2, 1, 0], mirrorZ), ⟨_, _, _, rfl, k1⟩, ⟨_, _, _, rfl, k2⟩, ?_, ?_, ?_⟩
  · obtain ⟨_, f2⟩ := asRot_factor (svd := fun _ => .ok (1, ![2, 1, 0], 1)) (A := Matrix.diagonal ![2, 1, 0]) rfl
    rw [f2, Matrix.one_mul]
    obtain ⟨_, g2⟩ := asRot_factor (svd := fun R => .ok (R, fun _ => 1, 1)) (A := 1) rfl
    rw [Matrix.one_mul] at g2
    have hQ : IsRotation (1 : Mat 3 3 ℝ) := ⟨by simp, by simp⟩
    have e1 : sinAxis (1 : Mat 3 3 ℝ) = zero3 := by simp [sinAxis, zero3]
    rw [← g2]
    exact C52_small_angle (fun R => .ok (R, fun _ => 1, 1)) _ _ _ _ hQ rfl (svd_of_rotation hQ)
      (by rw [e1, len3_eq_zero.mpr rfl]; norm_num) (by norm_num [cosOf])
  · obtain ⟨_, f2⟩ := asRot_factor (svd := fun _ => .ok (1, ![2, 1, 0], mirrorZ)) (A := Matrix.diagonal ![2, 1, 0]) rfl
    rw [f2, Matrix.one_mul, mirrorZ_result]
  · intro h
    have := congrFun (congrFun h 2) 2
    simp [axisMat, scale3] at this

/-- `-1` of size 3×3, in floats -/
noncomputable def minusEye : Mat 3 3 Fl := Matrix.of fun i j => if i = j then .fin (-1) else .fin 0

/-- **C77, point reflection.** The negative of the identity (and every matrix with that orthogonal factor) gives NaN: the
axis computed has length 0. -/
theorem C77_point_reflection (svd : Svd3 Fl) (A u v : Mat 3 3 Fl) (s : Fin 3 → Fl) (hsvd : svd A = .ok (u, s, v))
    (huv : Mat.mul u v = minusEye) :
    rodriguesLog svd A = .ok ⟨.nan, .nan, .nan⟩ ∧ asRotationMatrix svd (.mat A) = .ok (Matrix.of fun _ _ => .nan) := by
  have hdia : ∀ i, minusEye i i = Fl.fin (-1) := by intro i; simp [minusEye]
  have hoff : ∀ i j, i ≠ j → minusEye i j = Fl.fin 0 := by intro i j h; simp [minusEye, h]
  have h01 := hoff 0 1 (by decide)
  have h02 := hoff 0 2 (by decide)
  have h10 := hoff 1 0 (by decide)
  have h12 := hoff 1 2 (by decide)
  have h20 := hoff 2 0 (by decide)
  have h21 := hoff 2 1 (by decide)
  have isn : ∀ r : ℝ, npIsNan (Fl.fin r) = false := by
    intro r
    have : Num.eq (Fl.fin r) (Fl.fin r) = true := (Fl.eq_fin r r).mpr rfl
    simp [npIsNan, this]
  have hcomp : halfTurnComp (Fl.fin (-1)) = Fl.fin 0 := by
    unfold halfTurnComp
    have : (Fl.fin (-1) + Num.lit 1) * Num.lit (1 / 2) = Fl.fin 0 := by simp
    rw [this, Fl.sqrt_fin _ le_rfl, Real.sqrt_zero]
    simp [npMax, isn]
  have haxis : halfTurnAxis minusEye = ⟨.fin 0, .fin 0, .fin 0⟩ := by
    unfold halfTurnAxis
    simp only [hdia, hcomp, h01, h02, h12]
    have z0 : ¬ Num.lt (Fl.fin 0) (Num.lit 0) = true := by simp
    have z1 : Num.lt (npAbs (Fl.fin 0)) (npAbs (Fl.fin 0)) = false := by
      rw [Bool.eq_false_iff]; unfold npAbs; rw [if_neg z0]; simp
    rw [if_neg z0, z1]
    rfl
  have hnorm : (⟨.fin 0, .fin 0, .fin 0⟩ : V3 Fl).norm = .fin 0 := by
    unfold V3.norm V3.dot
    simp only [Fl.mul_fin, Fl.add_fin]
    rw [Fl.sqrt_fin _ (by norm_num)]
    norm_num
  have hc : clip11 ((Fl.fin (-1) + Fl.fin (-1) + Fl.fin (-1) - Num.lit 1) * Num.lit (1 / 2)) = Fl.fin (-1) := by
    have e : (Fl.fin (-1) + Fl.fin (-1) + Fl.fin (-1) - Num.lit 1) * Num.lit (1 / 2) = Fl.fin (-2) := by
      simp; norm_num
    rw [e]
    have l1 : Num.lt (Fl.fin (-2)) (Fl.fin (-1)) = true := (Fl.lt_fin _ _).mpr (by norm_num)
    have l2 : Num.lt (Fl.fin 1) (Fl.fin (-1)) = false := by
      rw [Bool.eq_false_iff]; intro h; have := (Fl.lt_fin _ _).mp h; norm_num at this
    have e1 : (Num.lit (-1) : Fl) = Fl.fin (-1) := by simp
    have e2 : (Num.lit 1 : Fl) = Fl.fin 1 := by simp
    simp [clip11, npMin, npMax, isn, e1, e2, l1, l2]
  have hlog : rodriguesLogOrth minusEye = ⟨.nan, .nan, .nan⟩ := by
    unfold rodriguesLogOrth
    simp only [hdia, h01, h02, h10, h12, h20, h21, hc, haxis, Fl.sub_fin, sub_zero, hnorm]
    have hq : (Num.sqrt (Num.lit (1 / 4)) : Fl) = Fl.fin (Real.sqrt (1 / 4)) := by
      rw [Fl.lit_fl, Fl.sqrt_fin _ (by norm_num)]; norm_num
    rw [if_pos (by rw [hq]; simp), if_neg (by simp), Fl.acos_fin _ le_rfl (by norm_num), Real.arccos_neg_one, Fl.div_fin_zero _ Real.pi_ne_zero]
    have : Fl.infOf Real.pi = Fl.pinf := by simp [Fl.infOf, Real.pi_pos]
    rw [this]
    have hm : (Fl.pinf * Fl.fin 0 : Fl) = Fl.nan := by
      show Fl.mul _ _ = _
      simp [Fl.mul]
    simp [V3.smul, hm]
  have h1 : rodriguesLog svd A = .ok ⟨.nan, .nan, .nan⟩ := by
    unfold rodriguesLog
    rw [hsvd]
    simp only [ok_bind, pure_eq_ok, huv, hlog]
  refine ⟨h1, ?_⟩
  unfold asRotationMatrix
  simp only
  rw [h1]
  simp only [ok_bind, pure_eq_ok]
  unfold rodriguesExp
  have hn : (⟨.nan, .nan, .nan⟩ : V3 Fl).norm = .nan := by simp [V3.norm, V3.dot]
  have hcn : Trig.cos Fl.nan = Fl.nan := rfl
  have hsn : Trig.sin Fl.nan = Fl.nan := rfl
  simp only [hn, hcn, hsn]
  rw [if_neg (by simp)]
  refine congrArg Except.ok ?_
  ext i j
  simp [Mat.add, Mat.smul, Matrix.of_apply]

/-- an SVD with that orthogonal factor: `u = -1`, `v = 1` -/
example : Mat.mul minusEye (Mat.eye 3) = minusEye := by
  ext i j
  fin_cases i <;> fin_cases j <;> simp [Mat.mul, Mat.eye, minusEye, sumFin]

end Blmath.Props
