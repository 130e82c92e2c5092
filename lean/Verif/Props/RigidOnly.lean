import Verif.Props.RigidSym

/-!
C145: the set of all best rotations and motions, and when what find_rigid_transform and find_rigid_rotation return depends on the
singular value decomposition.
-/

namespace Blmath.Props
open Blmath Blmath.Geometry Blmath.Spec Blmath.Proofs Blmath.Proofs.RS

namespace RO

/-- the sign of the decomposition -/
noncomputable def sgn (u v : Mat 3 3 ℝ) : ℝ := u.det * v.det

theorem sgn_eq (u v : Mat 3 3 ℝ) : (v.transpose * u.transpose).det = sgn u v := by
  rw [Matrix.det_mul, Matrix.det_transpose, Matrix.det_transpose, sgn, mul_comm]

theorem sgn_cases {c u v : Mat 3 3 ℝ} {s : Fin 3 → ℝ} (h : SvdSpec c u s v) : sgn u v = 1 ∨ sgn u v = -1 := by
  rw [← sgn_eq]; exact orth_det (candidates h).1.1

/-- the rotation of a decomposition -/
noncomputable def fitted (u v : Mat 3 3 ℝ) : Mat 3 3 ℝ := v.transpose * Matrix.diagonal ![1, 1, sgn u v] * u.transpose

theorem diag_one : (Matrix.diagonal ![1, 1, 1] : Mat 3 3 ℝ) = 1 := by
  ext i j
  fin_cases i <;> fin_cases j <;> simp [Matrix.diagonal_apply, Matrix.one_apply]

theorem fitted_spec {c u v : Mat 3 3 ℝ} {s : Fin 3 → ℝ} (h : SvdSpec c u s v) :
    IsRotation (fitted u v) ∧ Matrix.trace (fitted u v * c) = s 0 + s 1 + sgn u v * s 2 := by
  obtain ⟨⟨ho, ht⟩, ho', ht', hd'⟩ := candidates h
  rcases sgn_cases h with e | e
  · rw [fitted, e, diag_one, Matrix.mul_one, one_mul]
    exact ⟨⟨ho, by rw [sgn_eq, e]⟩, ht⟩
  · rw [fitted, e]
    exact ⟨⟨ho', by rw [hd', sgn_eq, e]; norm_num⟩, by rw [ht']; ring⟩

theorem trace_bound {c u v : Mat 3 3 ℝ} {s : Fin 3 → ℝ} (h : SvdSpec c u s v) {R : Mat 3 3 ℝ} (hR : IsRotation R) :
    Matrix.trace (R * c) ≤ s 0 + s 1 + sgn u v * s 2 := by
  rcases sgn_cases h with e | e
  · rw [e, one_mul]; exact trace_le h hR.1
  · have := trace_le_flip h hR.1 (by rw [Matrix.det_mul, Matrix.det_mul, hR.2, mul_one, mul_comm]; exact e)
    rw [e]; linarith

theorem top_iff {c u v : Mat 3 3 ℝ} {s : Fin 3 → ℝ} (h : SvdSpec c u s v) (R : Mat 3 3 ℝ) :
    Top c R ↔ IsRotation R ∧ Matrix.trace (R * c) = s 0 + s 1 + sgn u v * s 2 := by
  obtain ⟨f1, f2⟩ := fitted_spec h
  constructor
  · rintro ⟨hR, hb⟩
    exact ⟨hR, le_antisymm (trace_bound h hR) (f2 ▸ hb _ f1)⟩
  · rintro ⟨hR, ht⟩
    exact ⟨hR, fun R' hR' => by rw [ht]; exact trace_bound h hR'⟩

theorem rot_mul {A B : Mat 3 3 ℝ} (hA : IsRotation A) (hB : IsRotation B) : IsRotation (A * B) :=
  ⟨orth_mul hA.1 hB.1, by rw [Matrix.det_mul, hA.2, hB.2, mul_one]⟩

theorem half (a b c : ℝ) (ha : a * a = 1) (hb : b * b = 1) (hc : c * c = 1) (hd : a * b * c = 1) :
    IsRotation (Matrix.diagonal ![a, b, c]) := by
  refine ⟨?_, by rw [Matrix.det_diagonal, Fin.prod_univ_three]; simpa using hd⟩
  rw [Matrix.diagonal_transpose, Matrix.diagonal_mul_diagonal]
  ext i j
  fin_cases i <;> fin_cases j <;> simp [Matrix.diagonal_apply, Matrix.one_apply, ha, hb, hc]

/-- four times the squares of the vector part of the quaternion -/
theorem quat {M : Mat 3 3 ℝ} (h : IsRotation M) :
    0 ≤ 1 + M 0 0 - M 1 1 - M 2 2 ∧ 0 ≤ 1 + M 1 1 - M 0 0 - M 2 2 ∧ 0 ≤ 1 + M 2 2 - M 0 0 - M 1 1 := by
  have a := rot_trace (rot_mul h (half 1 (-1) (-1) (by norm_num) (by norm_num) (by norm_num) (by norm_num)))
  have b := rot_trace (rot_mul h (half (-1) 1 (-1) (by norm_num) (by norm_num) (by norm_num) (by norm_num)))
  have c := rot_trace (rot_mul h (half (-1) (-1) 1 (by norm_num) (by norm_num) (by norm_num) (by norm_num)))
  simp only [Matrix.mul_diagonal] at a b c
  simp at a b c
  refine ⟨?_, ?_, ?_⟩ <;> linarith

/-- the defect of a rotation from the largest trace -/
theorem defect {c u v : Mat 3 3 ℝ} {s : Fin 3 → ℝ} (h : SvdSpec c u s v) {R : Mat 3 3 ℝ} (hR : IsRotation R) :
    ∃ x0 x1 x2 : ℝ, 0 ≤ x0 ∧ 0 ≤ x1 ∧ 0 ≤ x2 ∧
      2 * (s 0 + s 1 + sgn u v * s 2 - Matrix.trace (R * c)) =
        x0 * (s 1 + sgn u v * s 2) + x1 * (s 0 + sgn u v * s 2) + x2 * (s 0 + s 1) ∧
      2 * (1 - (v * R * u) 0 0) = x1 + x2 ∧ 2 * (1 - (v * R * u) 1 1) = x0 + x2 := by
  obtain ⟨e, he⟩ : ∃ e, e = sgn u v := ⟨_, rfl⟩
  have e2 : e * e = 1 := by rcases sgn_cases h with h | h <;> rw [he, h] <;> norm_num
  have hW := orth_mul (orth_mul h.right hR.1) h.left
  have hdW : (v * R * u).det = e := by rw [Matrix.det_mul, Matrix.det_mul, hR.2, mul_one, mul_comm, he]; rfl
  obtain ⟨W, hWe⟩ : ∃ W, W = v * R * u := ⟨_, rfl⟩
  rw [← hWe] at hW hdW
  have hM : IsRotation (Matrix.diagonal ![1, 1, e] * W) := by
    refine ⟨orth_mul ?_ hW, ?_⟩
    · rw [Matrix.diagonal_transpose, Matrix.diagonal_mul_diagonal]
      ext i j
      fin_cases i <;> fin_cases j <;> simp [Matrix.diagonal_apply, Matrix.one_apply, e2]
    · rw [Matrix.det_mul, Matrix.det_diagonal, hdW, Fin.prod_univ_three]; simpa using e2
  have q := quat hM
  simp only [Matrix.diagonal_mul] at q
  simp at q
  refine ⟨1 + W 0 0 - W 1 1 - e * W 2 2, 1 + W 1 1 - W 0 0 - e * W 2 2, 1 + e * W 2 2 - W 0 0 - W 1 1, by linarith [q.1], by linarith [q.2.1],
    by linarith [q.2.2], ?_, ?_, ?_⟩
  · rw [trace_svd h, ← hWe, ← he]
    linear_combination (2 * W 2 2 * s 2) * e2
  · rw [← hWe]; ring
  · rw [← hWe]; ring

theorem low {c u v : Mat 3 3 ℝ} {s : Fin 3 → ℝ} (h : SvdSpec c u s v) : 0 ≤ s 1 + sgn u v * s 2 := by
  have := h.sorted 1 2 (by decide)
  have := h.nonneg 2
  have := h.nonneg 1
  rcases sgn_cases h with e | e <;> rw [e] <;> linarith

theorem back {c u v : Mat 3 3 ℝ} {s : Fin 3 → ℝ} (h : SvdSpec c u s v) {R W : Mat 3 3 ℝ} (e : v * R * u = W) :
    R = v.transpose * W * u.transpose := by
  have hu : u * u.transpose = 1 := mul_eq_one_comm.mp h.left
  rw [← e, Matrix.mul_assoc, Matrix.mul_assoc (v * R) u, hu, Matrix.mul_one, ← Matrix.mul_assoc, h.right, Matrix.one_mul]

/-- one best rotation -/
theorem only {c u v : Mat 3 3 ℝ} {s : Fin 3 → ℝ} (h : SvdSpec c u s v) (hp : 0 < s 1 + sgn u v * s 2) (R : Mat 3 3 ℝ) :
    Top c R ↔ R = fitted u v := by
  rw [top_iff h]
  constructor
  · rintro ⟨hR, ht⟩
    obtain ⟨x0, x1, x2, h0, h1, h2, hd, d0, d1⟩ := defect h hR
    rw [ht, sub_self, mul_zero] at hd
    have s01 := h.sorted 0 1 (by decide)
    have s12 := h.sorted 1 2 (by decide)
    have n2 := h.nonneg 2
    have p1 : 0 < s 0 + sgn u v * s 2 := by linarith
    have p2 : 0 < s 0 + s 1 := by
      rcases sgn_cases h with e | e <;> rw [e] at hp <;> linarith
    have m0 := mul_nonneg h0 hp.le
    have m1 := mul_nonneg h1 p1.le
    have m2 := mul_nonneg h2 p2.le
    have z0 : x0 = 0 := (mul_eq_zero.mp (by linarith : x0 * (s 1 + sgn u v * s 2) = 0)).resolve_right hp.ne'
    have z1 : x1 = 0 := (mul_eq_zero.mp (by linarith : x1 * (s 0 + sgn u v * s 2) = 0)).resolve_right p1.ne'
    have z2 : x2 = 0 := (mul_eq_zero.mp (by linarith : x2 * (s 0 + s 1) = 0)).resolve_right p2.ne'
    have hW := orth_mul (orth_mul h.right hR.1) h.left
    have := two_ones hW (by linarith) (by linarith)
    have dW : (v * R * u).det = sgn u v := by rw [Matrix.det_mul, Matrix.det_mul, hR.2, mul_one, mul_comm]; rfl
    rw [dW] at this
    exact back h this
  · rintro rfl
    exact fitted_spec h

/-- a row, as a vector -/
def rowAt (v : Mat 3 3 ℝ) (i : Fin 3) : V3 ℝ := ⟨v i 0, v i 1, v i 2⟩

/-- an orthogonal matrix with a one in its upper left corner -/
theorem one_one {W : Mat 3 3 ℝ} (h : W.transpose * W = 1) (h0 : W 0 0 = 1) : W 1 0 = 0 ∧ W 2 0 = 0 := by
  have e : (W.transpose * W) 0 0 = (1 : Mat 3 3 ℝ) 0 0 := by rw [h]
  simp only [Matrix.mul_apply, Fin.sum_univ_three, Matrix.transpose_apply, Matrix.one_apply_eq, h0] at e
  constructor <;> nlinarith [mul_self_nonneg (W 1 0), mul_self_nonneg (W 2 0)]

/-- the first direction goes to the first direction exactly if the corner is one -/
theorem corner {c u v : Mat 3 3 ℝ} {s : Fin 3 → ℝ} (h : SvdSpec c u s v) {R : Mat 3 3 ℝ} (hR : IsRotation R) :
    (v * R * u) 0 0 = 1 ↔ act R (column u 0) = rowAt v 0 := by
  have hv : v * v.transpose = 1 := mul_eq_one_comm.mp h.right
  have hW := orth_mul (orth_mul h.right hR.1) h.left
  have cu : column u 0 = act u ⟨1, 0, 0⟩ := by rw [act_eq]; ext <;> simp [column]
  have rv : rowAt v 0 = act v.transpose ⟨1, 0, 0⟩ := by rw [act_eq]; ext <;> simp [rowAt]
  constructor
  · intro h0
    obtain ⟨a, b⟩ := one_one hW h0
    have : act (v * R * u) ⟨1, 0, 0⟩ = ⟨1, 0, 0⟩ := by rw [act_eq]; ext <;> simp [h0, a, b]
    rw [rv, ← this, ← act_mul, cu, ← act_mul, Matrix.mul_assoc v, ← Matrix.mul_assoc, h.right, Matrix.one_mul]
  · intro e
    have : act (v * R * u) ⟨1, 0, 0⟩ = ⟨1, 0, 0⟩ := by
      rw [act_mul, act_mul, ← cu, e, rv, ← act_mul, hv, act_one]
    rw [act_eq] at this
    have := congrArg V3.x this
    simpa using this

/-- all turns about one axis are best -/
theorem axis {c u v : Mat 3 3 ℝ} {s : Fin 3 → ℝ} (h : SvdSpec c u s v) (hz : s 1 + sgn u v * s 2 = 0) (hlt : s 1 < s 0) (R : Mat 3 3 ℝ) :
    Top c R ↔ IsRotation R ∧ act R (column u 0) = rowAt v 0 := by
  rw [top_iff h]
  refine and_congr_right fun hR => ?_
  rw [← corner h hR]
  obtain ⟨x0, x1, x2, h0, h1, h2, hd, d0, d1⟩ := defect h hR
  have n1 := h.nonneg 1
  have n2 := h.nonneg 2
  have s01 := h.sorted 0 1 (by decide)
  have s12 := h.sorted 1 2 (by decide)
  rw [hz, mul_zero, zero_add] at hd
  have q : sgn u v * s 2 = -s 1 := by linarith
  rw [q] at hd ⊢
  constructor
  · intro ht
    rw [ht, sub_self, mul_zero] at hd
    have p2 : 0 < s 0 + s 1 := by linarith
    have m1 := mul_nonneg h1 (by linarith : 0 ≤ s 0 + -s 1)
    have m2 := mul_nonneg h2 p2.le
    have z2 : x2 = 0 := (mul_eq_zero.mp (by linarith : x2 * (s 0 + s 1) = 0)).resolve_right p2.ne'
    have z1 : x1 = 0 := (mul_eq_zero.mp (by linarith : x1 * (s 0 + -s 1) = 0)).resolve_right (by linarith)
    linarith
  · intro hw
    have : x1 + x2 = 0 := by rw [← d0, hw]; ring
    have z1 : x1 = 0 := by linarith
    have z2 : x2 = 0 := by linarith
    rw [z1, z2] at hd
    linarith

/-- no cross-covariance at all -/
theorem none {c u v : Mat 3 3 ℝ} {s : Fin 3 → ℝ} (h : SvdSpec c u s v) (hz : s 0 = 0) (R : Mat 3 3 ℝ) : Top c R ↔ IsRotation R := by
  have s01 := h.sorted 0 1 (by decide)
  have s12 := h.sorted 1 2 (by decide)
  have n1 := h.nonneg 1
  have n2 := h.nonneg 2
  have z1 : s 1 = 0 := by linarith
  have z2 : s 2 = 0 := by linarith
  rw [top_iff h, trace_svd h, hz, z1, z2]
  simp

/-- the same matrix decomposed in another way, with another rotation -/
theorem other {c u v : Mat 3 3 ℝ} {s : Fin 3 → ℝ} (h : SvdSpec c u s v) (hz : s 1 + sgn u v * s 2 = 0) :
    ∃ u' v', SvdSpec c u' s v' ∧ fitted u' v' ≠ fitted u v := by
  have n1 := h.nonneg 1
  have n2 := h.nonneg 2
  have s12 := h.sorted 1 2 (by decide)
  have key : ∀ A : Mat 3 3 ℝ, v.transpose * A * u.transpose = fitted u v → A = Matrix.diagonal ![1, 1, sgn u v] := by
    intro A hA
    have hv : v * v.transpose = 1 := mul_eq_one_comm.mp h.right
    have e : ∀ X : Mat 3 3 ℝ, v * (v.transpose * X * u.transpose) * u = X := by
      intro X
      rw [← Matrix.mul_assoc, ← Matrix.mul_assoc, hv, Matrix.one_mul, Matrix.mul_assoc, h.left, Matrix.mul_one]
    rw [← e A, hA, fitted, e]
  by_cases h1 : s 1 = 0
  · have h2 : s 2 = 0 := by linarith
    have hH := half 1 (-1) (-1) (by norm_num) (by norm_num) (by norm_num) (by norm_num)
    have hsg : sgn (u * Matrix.diagonal ![1, -1, -1]) v = sgn u v := by rw [sgn, Matrix.det_mul, hH.2, mul_one]; rfl
    refine ⟨u * Matrix.diagonal ![1, -1, -1], v, ⟨orth_mul h.left hH.1, h.right, h.nonneg, h.sorted, ?_⟩, fun e => ?_⟩
    · have : Matrix.diagonal ![1, -1, -1] * Matrix.diagonal s = Matrix.diagonal s := by
        rw [Matrix.diagonal_mul_diagonal]
        congr 1
        funext i
        match i with
        | 0 => simp
        | 1 => simp [h1]
        | 2 => simp [h2]
      rw [Matrix.mul_assoc u (Matrix.diagonal ![1, -1, -1]), this]
      exact h.factor
    · rw [fitted, hsg, Matrix.transpose_mul, ← Matrix.mul_assoc, Matrix.diagonal_transpose, Matrix.mul_assoc v.transpose,
        Matrix.diagonal_mul_diagonal] at e
      have := congrFun (congrFun (key _ e) 1) 1
      simp at this
      norm_num at this
  · have hm : sgn u v = -1 := by
      rcases sgn_cases h with e | e
      · rw [e] at hz; exfalso; apply h1; linarith
      · exact e
    have h2 : s 2 = s 1 := by rw [hm] at hz; linarith
    obtain ⟨G, hG⟩ : ∃ G : Mat 3 3 ℝ, G = !![1, 0, 0; 0, 0, -1; 0, 1, 0] := ⟨_, rfl⟩
    have g1 : G.transpose * G = 1 := by
      subst hG
      ext i j
      fin_cases i <;> fin_cases j <;> simp [Matrix.mul_apply, Fin.sum_univ_three]
    have gd : G.det = 1 := by subst hG; simp [Matrix.det_fin_three]
    have hsg : sgn (u * G) (G.transpose * v) = sgn u v := by
      rw [sgn, Matrix.det_mul, Matrix.det_mul, Matrix.det_transpose, gd, mul_one, one_mul]; rfl
    refine ⟨u * G, G.transpose * v, ⟨orth_mul h.left g1, orth_mul (orth_tr g1) h.right, h.nonneg, h.sorted, ?_⟩, fun e => ?_⟩
    · have : G * Matrix.diagonal s * G.transpose = Matrix.diagonal s := by
        subst hG
        ext i j
        rw [Matrix.mul_apply, Fin.sum_univ_three]
        simp only [Matrix.mul_diagonal, Matrix.transpose_apply]
        fin_cases i <;> fin_cases j <;> simp [h2]
      rw [h.factor]
      nth_rewrite 1 [← this]
      simp only [Matrix.mul_assoc]
    · rw [fitted, hsg, Matrix.transpose_mul, Matrix.transpose_mul, Matrix.transpose_transpose] at e
      have e' : v.transpose * (G * Matrix.diagonal ![1, 1, sgn u v] * G.transpose) * u.transpose = fitted u v := by
        rw [← e]; simp only [Matrix.mul_assoc]
      have := congrFun (congrFun (key _ e') 1) 1
      subst hG
      rw [hm, Matrix.mul_apply, Fin.sum_univ_three] at this
      simp only [Matrix.mul_diagonal, Matrix.transpose_apply] at this
      simp at this
      norm_num at this

theorem unique_iff {c u v : Mat 3 3 ℝ} {s : Fin 3 → ℝ} (h : SvdSpec c u s v) :
    (∃ R, ∀ R', Top c R' ↔ R' = R) ↔ 0 < s 1 + sgn u v * s 2 := by
  constructor
  · rintro ⟨R, hR⟩
    by_contra hn
    have hz : s 1 + sgn u v * s 2 = 0 := le_antisymm (not_lt.mp hn) (low h)
    obtain ⟨u', v', h', hne⟩ := other h hz
    have a := (hR _).mp ((top_iff h _).mpr (fitted_spec h))
    have b := (hR _).mp ((top_iff h' _).mpr (fitted_spec h'))
    exact hne (b.trans a.symm)
  · intro hp
    exact ⟨_, only h hp⟩

theorem rank_iff {c u v : Mat 3 3 ℝ} {s : Fin 3 → ℝ} (h : SvdSpec c u s v) (hd : 0 ≤ c.det) :
    0 < s 1 + sgn u v * s 2 ↔ 2 ≤ c.rank := by
  have n1 := h.nonneg 1
  have n2 := h.nonneg 2
  have s12 := h.sorted 1 2 (by decide)
  have s01 := h.sorted 0 1 (by decide)
  constructor
  · intro hp
    have p1 : 0 < s 1 := by
      rcases sgn_cases h with e | e <;> rw [e] at hp <;> linarith
    have hu : IsUnit u := IsUnit.of_mul_eq_one_right _ h.left
    have hv : IsUnit v := IsUnit.of_mul_eq_one_right _ h.right
    rw [h.factor, Matrix.rank_mul_eq_left_of_isUnit_det _ _ ((Matrix.isUnit_iff_isUnit_det _).mp hv),
      Matrix.rank_mul_eq_right_of_isUnit_det _ _ ((Matrix.isUnit_iff_isUnit_det _).mp hu), Matrix.rank_diagonal]
    refine Fintype.one_lt_card_iff.mpr ⟨⟨0, ?_⟩, ⟨1, p1.ne'⟩, ?_⟩
    · linarith
    · intro e
      have := congrArg Subtype.val e
      simp at this
  · intro hr
    have p1 := second_pos h hr
    rcases sgn_cases h with e | e
    · rw [e]; linarith
    · have := svd_det h
      rw [sgn_eq, e] at this
      have z : s 2 = 0 := by
        by_contra hne
        have p2 : 0 < s 2 := lt_of_le_of_ne n2 (Ne.symm hne)
        have p0 : 0 < s 0 := lt_of_lt_of_le p1 s01
        have := mul_pos (mul_pos p0 p1) p2
        linarith
      rw [z]; linarith

/-- what is computed -/
theorem value' {svd : Svd3 ℝ} {c u v : Mat 3 3 ℝ} {s : Fin 3 → ℝ} (hs : svd c = .ok (u, s, v)) (h : SvdSpec c u s v) :
    fitRotation' svd c = .ok (fitted u v) := by
  unfold fitRotation'
  rw [hs]
  simp only [ok_bind, det33_real, Mat.mul_real, Mat.tr_eq, flipLast_real, Num.lt_real, Num.lit_real, pure_eq_ok, Rat.cast_zero, sgn_eq, fitted]
  rcases sgn_cases h with e | e
  · rw [e, if_neg (by norm_num), diag_one, Matrix.mul_one]
  · rw [e, if_pos (by norm_num)]

theorem value {svd : Svd3 ℝ} {c u v : Mat 3 3 ℝ} {s : Fin 3 → ℝ} (hs : svd c = .ok (u, s, v)) (h : SvdSpec c u s v) (hd : 0 ≤ c.det) :
    fitRotation svd c = .ok (fitted u v) := by
  unfold fitRotation
  rw [hs]
  simp only [ok_bind, det33_real, Mat.mul_real, Mat.tr_eq, flipLast_real, Num.lt_real, Num.lit_real, pure_eq_ok, Rat.cast_zero, sgn_eq, fitted]
  rcases sgn_cases h with e | e
  · rw [e, if_neg (by norm_num), diag_one, Matrix.mul_one]
  · rw [e, if_pos (by norm_num)]
    have := svd_det h
    rw [sgn_eq, e] at this
    have hprod : 0 ≤ s 0 * s 1 * s 2 := mul_nonneg (mul_nonneg (h.nonneg 0) (h.nonneg 1)) (h.nonneg 2)
    have z : s 0 * s 1 * s 2 = 0 := by linarith
    rw [if_pos ((anyZero_real s).mpr (by simpa [mul_eq_zero, or_assoc] using z))]

/-- a decomposition that is used for one matrix, in a routine correct for all -/
theorem routine {c u v : Mat 3 3 ℝ} {s : Fin 3 → ℝ} (h : SvdSpec c u s v) :
    ∃ svd : Svd3 ℝ, (∀ c, ∃ u s v, svd c = .ok (u, s, v) ∧ SvdSpec c u s v) ∧ svd c = .ok (u, s, v) := by
  classical
  obtain ⟨svd, hsvd⟩ := C58_satisfiable
  refine ⟨Function.update svd c (.ok (u, s, v)), fun x => ?_, Function.update_self ..⟩
  by_cases hx : x = c
  · subst hx
    exact ⟨u, s, v, Function.update_self .., h⟩
  · rw [Function.update_of_ne hx]
    exact hsvd x

/-- a rotation other than the identity about an axis through a point -/
theorem turnAbout (p d : V3 ℝ) (hd : d ≠ zero3) : ∃ H T, IsRotation H ∧ H ≠ 1 ∧ ∀ q, cross3 d (vec3 p q) = zero3 → move H T q = q := by
  obtain ⟨n, hn⟩ : ∃ n, n = inner3 d d := ⟨_, rfl⟩
  have hn0 : n ≠ 0 := by
    rw [hn, inner3_self]
    exact pow_ne_zero 2 fun h => hd (len3_eq_zero.mp h)
  have hn' : d.x * d.x + d.y * d.y + d.z * d.z = n := hn.symm
  obtain ⟨H, hH⟩ : ∃ H : Mat 3 3 ℝ, H = !![2 * (d.x * d.x) / n - 1, 2 * (d.x * d.y) / n, 2 * (d.x * d.z) / n;
      2 * (d.y * d.x) / n, 2 * (d.y * d.y) / n - 1, 2 * (d.y * d.z) / n; 2 * (d.z * d.x) / n, 2 * (d.z * d.y) / n, 2 * (d.z * d.z) / n - 1] :=
    ⟨_, rfl⟩
  have hrot : IsRotation H := by
    subst hH
    refine ⟨?_, ?_⟩
    · ext i j
      fin_cases i <;> fin_cases j <;> simp [Matrix.mul_apply, Fin.sum_univ_three] <;> field_simp <;> rw [← hn'] <;> ring
    · rw [Matrix.det_fin_three]
      simp
      field_simp
      rw [← hn']
      ring
  have htr : H 0 0 + H 1 1 + H 2 2 = -1 := by
    subst hH
    simp
    field_simp
    rw [← hn']
    ring
  refine ⟨H, p - act H p, hrot, ?_, fun q hq => ?_⟩
  · rintro rfl
    norm_num at htr
  · have hx := congrArg V3.x hq; have hy := congrArg V3.y hq; have hz := congrArg V3.z hq
    simp only [cross3, vec3, zero3] at hx hy hz
    subst hH
    simp only [move, act_eq]
    ext <;> simp <;> field_simp <;> rw [← hn']
    · linear_combination 2 * d.y * hz - 2 * d.z * hy
    · linear_combination 2 * d.z * hx - 2 * d.x * hz
    · linear_combination 2 * d.x * hy - 2 * d.y * hx

theorem resid_congr {f g : V3 ℝ → V3 ℝ} : ∀ ps qs : List (V3 ℝ), (∀ p ∈ ps, ∀ q ∈ qs, dist3 (f p) q = dist3 (g p) q) → sqResid f ps qs = sqResid g ps qs
  | [], _, _ => by simp [sqResid]
  | _ :: _, [], _ => by simp [sqResid]
  | p :: ps, q :: qs, h => by
    rw [sqResid, sqResid, h p List.mem_cons_self q List.mem_cons_self,
      resid_congr ps qs fun p hp q hq => h p (List.mem_cons_of_mem _ hp) q (List.mem_cons_of_mem _ hq)]

theorem onLine {ps : List (V3 ℝ)} (h : ¬ Spread ps) : ∃ H T, IsRotation H ∧ H ≠ 1 ∧ ∀ q ∈ ps, move H T q = q := by
  cases ps with
  | nil =>
    obtain ⟨H, T, h1, h2, -⟩ := turnAbout zero3 ⟨1, 0, 0⟩ (by simp [zero3])
    exact ⟨H, T, h1, h2, by simp⟩
  | cons p ps =>
    by_cases hall : ∀ q ∈ p :: ps, q = p
    · obtain ⟨H, T, h1, h2, h3⟩ := turnAbout p ⟨1, 0, 0⟩ (by simp [zero3])
      exact ⟨H, T, h1, h2, fun q hq => h3 q (by rw [hall q hq]; simp [vec3, cross3, zero3])⟩
    · push Not at hall
      obtain ⟨r, hr, hne⟩ := hall
      obtain ⟨H, T, h1, h2, h3⟩ := turnAbout p (vec3 p r) (by
        intro h0
        apply hne
        have hx := congrArg V3.x h0; have hy := congrArg V3.y h0; have hz := congrArg V3.z h0
        simp only [vec3, zero3] at hx hy hz
        ext <;> linarith)
      refine ⟨H, T, h1, h2, fun q hq => h3 q ?_⟩
      by_contra hc
      exact h ⟨p, List.mem_cons_self, r, hr, q, hq, hc⟩

end RO

open RO

/-- **C145.** All best rotations, from any singular value decomposition `u diag(s) v` of the matrix of moments with
`e = det u det v`.  If `s₁ + e s₂` is positive there is only one; if it is zero and `s₁ < s₀`, they are the rotations that turn the first
column of `u` to the first row of `v`; if all is zero, all rotations.  `s₁ + e s₂` is never negative. -/
theorem C145_set (ps qs : List (V3 ℝ)) (hl : ps.length = qs.length) (u : Mat 3 3 ℝ) (s : Fin 3 → ℝ) (v : Mat 3 3 ℝ)
    (h : SvdSpec (moments ps qs) u s v) :
    0 ≤ s 1 + u.det * v.det * s 2 ∧
    ((∃ R, ∀ R', BestRotation R' ps qs ↔ R' = R) ↔ 0 < s 1 + u.det * v.det * s 2) ∧
    (s 1 + u.det * v.det * s 2 = 0 → s 1 < s 0 →
      ∀ R, BestRotation R ps qs ↔ IsRotation R ∧ act R ⟨u 0 0, u 1 0, u 2 0⟩ = ⟨v 0 0, v 0 1, v 0 2⟩) ∧
    (s 0 = 0 → ∀ R, BestRotation R ps qs ↔ IsRotation R) := by
  simp only [best_rotation_iff hl]
  exact ⟨low h, unique_iff h, axis h, none h⟩

/-- **C145.** The same for motions, with the cross-covariance matrix. -/
theorem C145_motions (ps qs : List (V3 ℝ)) (hl : ps.length = qs.length) (hp : ps ≠ []) (u : Mat 3 3 ℝ) (s : Fin 3 → ℝ) (v : Mat 3 3 ℝ)
    (h : SvdSpec (crossCov ps qs) u s v) :
    ((∃ R T, ∀ R' T', BestMotion R' T' ps qs ↔ R' = R ∧ T' = T) ↔ 0 < s 1 + u.det * v.det * s 2) ∧
    (s 1 + u.det * v.det * s 2 = 0 → s 1 < s 0 → ∀ R T, BestMotion R T ps qs ↔
      IsRotation R ∧ act R ⟨u 0 0, u 1 0, u 2 0⟩ = ⟨v 0 0, v 0 1, v 0 2⟩ ∧ move R T (centroid ps) = centroid qs) ∧
    (s 0 = 0 → ∀ R T, BestMotion R T ps qs ↔ IsRotation R ∧ move R T (centroid ps) = centroid qs) := by
  have mv : ∀ (R : Mat 3 3 ℝ) (T : V3 ℝ), T = centroid qs - act R (centroid ps) ↔ move R T (centroid ps) = centroid qs := by
    intro R T
    rw [move_eq_add]
    constructor
    · rintro rfl
      ext <;> simp
    · intro e
      rw [← e]
      ext <;> simp
  refine ⟨?_, fun hz hlt R T => ?_, fun hz R T => ?_⟩
  · simp only [best_motion_iff hl hp]
    refine Iff.trans ⟨?_, ?_⟩ (unique_iff h)
    · rintro ⟨R, T, hR⟩
      refine ⟨R, fun R' => ⟨fun ht => ((hR R' _).mp ⟨ht, rfl⟩).1, ?_⟩⟩
      rintro rfl
      exact ((hR R' T).mpr ⟨rfl, rfl⟩).1
    · rintro ⟨R, hR⟩
      refine ⟨R, centroid qs - act R (centroid ps), fun R' T' => ?_⟩
      rw [hR]
      constructor
      · rintro ⟨rfl, rfl⟩; exact ⟨rfl, rfl⟩
      · rintro ⟨rfl, rfl⟩; exact ⟨rfl, rfl⟩
  · rw [best_motion_iff hl hp, mv, axis h hz hlt, and_assoc]; rfl
  · rw [best_motion_iff hl hp, mv, none h hz]

/-- **C145.** `find_rigid_transform`, where it does not raise: the result is the same with all correct singular value decompositions exactly if the
best motion is the only one, and exactly if the rank of the cross-covariance matrix is at least two. -/
theorem C145_transform (a b : Grid ℝ) (ps qs : List (V3 ℝ)) (ha : Given a ps) (hb : Given b qs) (hl : ps.length = qs.length) (hp : ps ≠ [])
    (hd : 0 ≤ (crossCov ps qs).det) :
    ((∃ R T, ∀ R' T', BestMotion R' T' ps qs ↔ R' = R ∧ T' = T) ↔ 2 ≤ (crossCov ps qs).rank) ∧
    ((∀ svd svd' : Svd3 ℝ, (∀ c, ∃ u s v, svd c = .ok (u, s, v) ∧ SvdSpec c u s v) → (∀ c, ∃ u s v, svd' c = .ok (u, s, v) ∧ SvdSpec c u s v) →
      findRigidTransform svd a b = findRigidTransform svd' a b) ↔ 2 ≤ (crossCov ps qs).rank) := by
  obtain ⟨svd0, h0⟩ := C58_satisfiable
  obtain ⟨u, s, v, -, h⟩ := h0 (crossCov ps qs)
  rw [← rank_iff h hd]
  refine ⟨(C145_motions ps qs hl hp u s v h).1, ?_, ?_⟩
  · intro hall
    by_contra hn
    obtain ⟨u', v', h', hne⟩ := other h (le_antisymm (not_lt.mp hn) (low h))
    obtain ⟨f, hf, fe⟩ := routine h
    obtain ⟨g, hg, ge⟩ := routine h'
    have := hall f g hf hg
    rw [find_eq ha hb hl, find_eq ha hb hl, value fe h hd, value ge h' hd] at this
    simp only [ok_bind, Except.ok.injEq, Prod.mk.injEq] at this
    exact hne this.1.symm
  · intro hp1 f g hf hg
    obtain ⟨R, h1, h2⟩ := fit_top hf hd
    obtain ⟨R', h1', h2'⟩ := fit_top hg hd
    rw [find_eq ha hb hl, find_eq ha hb hl, h1, h1', (only h hp1 R).mp h2, (only h hp1 R').mp h2']

/-- **C145.** `find_rigid_rotation`: the result is the same with all correct singular value decompositions exactly if the best rotation is the only
one. -/
theorem C145_rotation (a b : Grid ℝ) (ps qs : List (V3 ℝ)) (ha : HasColumns a ps) (hb : HasColumns b qs) (hl : ps.length = qs.length)
    (h1 : ps.length ≠ 1) :
    (∀ svd svd' : Svd3 ℝ, (∀ c, ∃ u s v, svd c = .ok (u, s, v) ∧ SvdSpec c u s v) → (∀ c, ∃ u s v, svd' c = .ok (u, s, v) ∧ SvdSpec c u s v) →
      findRigidRotation svd a b false = findRigidRotation svd' a b false) ↔ ∃ R, ∀ R', BestRotation R' ps qs ↔ R' = R := by
  obtain ⟨svd0, h0⟩ := C58_satisfiable
  obtain ⟨u, s, v, -, h⟩ := h0 (moments ps qs)
  have call : ∀ svd : Svd3 ℝ, findRigidRotation svd a b false = fitRotation' svd (moments ps qs) := by
    intro svd
    unfold findRigidRotation
    rw [cols3_eq ha, cols3_eq hb]
    simp only [ok_bind, addCross_many h1, dotT, if_pos hl, moments_eq hl]
    cases fitRotation' svd (moments ps qs) <;> rfl
  simp only [call]
  rw [(C145_set ps qs hl u s v h).2.1]
  constructor
  · intro hall
    by_contra hn
    obtain ⟨u', v', h', hne⟩ := other h (le_antisymm (not_lt.mp hn) (low h))
    obtain ⟨f, hf, fe⟩ := routine h
    obtain ⟨g, hg, ge⟩ := routine h'
    have := hall f g hf hg
    rw [value' fe h, value' ge h'] at this
    injection this with this
    exact hne this.symm
  · intro hp1 f g hf hg
    obtain ⟨R, h1, h2⟩ := fit'_top hf (moments ps qs)
    obtain ⟨R', h1', h2'⟩ := fit'_top hg (moments ps qs)
    rw [h1, h1', (only h hp1 R).mp h2, (only h hp1 R').mp h2']

/-- **C145.** If the points of one side all lie on a line, the best motion is never the only one. -/
theorem C145_line (ps qs : List (V3 ℝ)) (h : ¬ Spread ps ∨ ¬ Spread qs) (R : Mat 3 3 ℝ) (T : V3 ℝ) (hR : BestMotion R T ps qs) :
    ∃ R' T', R' ≠ R ∧ BestMotion R' T' ps qs := by
  rcases h with h | h
  · obtain ⟨H, S, h1, h2, h3⟩ := onLine h
    refine ⟨R * H, act R S + T, ?_, rot_mul hR.1 h1, fun R' T' hR' => ?_⟩
    · intro e
      apply h2
      have := congrArg (fun X => R.transpose * X) e
      simpa only [← Matrix.mul_assoc, hR.1.1, Matrix.one_mul] using this
    · have : sqResid (move (R * H) (act R S + T)) ps qs = sqResid (move R T) ps qs := by
        refine resid_congr ps qs fun p hp q _ => ?_
        have e : move (R * H) (act R S + T) p = move R T (move H S p) := by
          rw [move_eq_add, move_eq_add, move_eq_add, act_mul, act_add]
          ext <;> simp <;> ring
        rw [e, h3 p hp]
      rw [this]
      exact hR.2 R' T' hR'
  · obtain ⟨H, S, h1, h2, h3⟩ := onLine h
    refine ⟨H * R, act H T + S, ?_, rot_mul h1 hR.1, fun R' T' hR' => ?_⟩
    · intro e
      apply h2
      have := congrArg (fun X => X * R.transpose) e
      have hr : R * R.transpose = 1 := mul_eq_one_comm.mp hR.1.1
      simpa only [Matrix.mul_assoc, hr, Matrix.mul_one] using this
    · have : sqResid (move (H * R) (act H T + S)) ps qs = sqResid (move R T) ps qs := by
        refine resid_congr ps qs fun p _ q hq => ?_
        have e : move (H * R) (act H T + S) p = move H S (move R T p) := by
          rw [move_eq_add, move_eq_add, move_eq_add, act_mul, act_add]
          ext <;> simp <;> ring
        have l : vec3 (move H S (move R T p)) (move H S q) = act H (vec3 (move R T p) q) := by
          obtain ⟨x, hx⟩ : ∃ x, x = move R T p := ⟨_, rfl⟩
          rw [← hx, move_eq_add, move_eq_add]
          simp only [act_eq, vec3]
          ext <;> simp <;> ring
        have l2 : len3 (act H (vec3 (move R T p) q)) ^ 2 = len3 (vec3 (move R T p) q) ^ 2 := by
          rw [← inner3_self, ← inner3_self, orth_inner h1.1]
        have l3 := (pow_left_inj₀ (len3_nonneg _) (len3_nonneg _) two_ne_zero).mp l2
        rw [e]
        calc dist3 (move H S (move R T p)) q = dist3 (move H S (move R T p)) (move H S q) := by rw [h3 q hq]
          _ = _ := by rw [dist3, l, l3]; rfl
      rw [this]
      exact hR.2 R' T' hR'

/-- non-vacuity: four points off a plane and their copies have one best motion, the identity; two points and their copies have more than one,
and `find_rigid_transform` returns different ones with different correct decompositions, all without any residual -/
theorem C145_witness :
    (∃ a, Given a [⟨0, 0, 0⟩, ⟨1, 0, 0⟩, ⟨0, 1, 0⟩, ⟨0, 0, 1⟩] ∧
      ∀ R T, BestMotion R T [⟨0, 0, 0⟩, ⟨1, 0, 0⟩, ⟨0, 1, 0⟩, ⟨0, 0, 1⟩] [⟨0, 0, 0⟩, ⟨1, 0, 0⟩, ⟨0, 1, 0⟩, ⟨0, 0, 1⟩] ↔ R = 1 ∧ T = zero3) ∧
    ∃ (a : Grid ℝ) (svd svd' : Svd3 ℝ) (R R' : Mat 3 3 ℝ) (T T' : V3 ℝ), Given a [⟨0, 0, 0⟩, ⟨1, 0, 0⟩] ∧
      (∀ c, ∃ u s v, svd c = .ok (u, s, v) ∧ SvdSpec c u s v) ∧ (∀ c, ∃ u s v, svd' c = .ok (u, s, v) ∧ SvdSpec c u s v) ∧
      findRigidTransform svd a a = .ok (R, T) ∧ findRigidTransform svd' a a = .ok (R', T') ∧ R ≠ R' ∧
      sqResid (move R T) [⟨0, 0, 0⟩, ⟨1, 0, 0⟩] [⟨0, 0, 0⟩, ⟨1, 0, 0⟩] = 0 ∧ sqResid (move R' T') [⟨0, 0, 0⟩, ⟨1, 0, 0⟩] [⟨0, 0, 0⟩, ⟨1, 0, 0⟩] = 0 := by
  have one : IsRotation (1 : Mat 3 3 ℝ) := ⟨by simp, by simp⟩
  have idm : ∀ p, move 1 zero3 p = p := by intro p; rw [move_eq_add, act_one]; ext <;> simp [zero3]
  constructor
  · refine ⟨⟨3, 4, fun i j => if j = i + 1 then 1 else 0⟩, .inl ⟨rfl, rfl, fun j p hj => ?_⟩, fun R T => ?_⟩
    · match j with
      | 0 => simp at hj; simp [← hj]
      | 1 => simp at hj; simp [← hj]
      | 2 => simp at hj; simp [← hj]
      | 3 => simp at hj; simp [← hj]
      | j + 4 => simp at hj
    · obtain ⟨ps, hps⟩ : ∃ ps : List (V3 ℝ), ps = [⟨0, 0, 0⟩, ⟨1, 0, 0⟩, ⟨0, 1, 0⟩, ⟨0, 0, 1⟩] := ⟨_, rfl⟩
      rw [← hps]
      have z : sqResid (move 1 zero3) ps ps = 0 := by
        have := (sqResid_zero (f := move 1 zero3) (g := id) ps).mpr fun p _ => idm p
        simpa using this
      constructor
      · rintro ⟨hR, hb⟩
        have h1 := hb 1 zero3 one
        rw [z] at h1
        have h2 : sqResid (move R T) ps (ps.map id) = 0 := by
          rw [List.map_id]; exact le_antisymm h1 (sqResid_nonneg _ _ _)
        have h3 := sqResid_zero ps |>.mp h2
        have f0 := h3 ⟨0, 0, 0⟩ (by simp [hps])
        have fx := h3 ⟨1, 0, 0⟩ (by simp [hps])
        have fy := h3 ⟨0, 1, 0⟩ (by simp [hps])
        simp only [move_eq_add, id] at f0 fx fy
        have hT : T = zero3 := by
          rw [act_eq] at f0
          have hx := congrArg V3.x f0; have hy := congrArg V3.y f0; have hz := congrArg V3.z f0
          simp at hx hy hz
          ext <;> simp [zero3, hx, hy, hz]
        have ad : ∀ x : V3 ℝ, x + zero3 = x := by intro x; ext <;> simp [zero3]
        rw [hT, ad] at fx fy
        refine ⟨rot_unique hR one (x := ⟨1, 0, 0⟩) (y := ⟨0, 1, 0⟩) (by simp [cross3, zero3]) (by rw [fx, act_one]) (by rw [fy, act_one]), hT⟩
      · rintro ⟨rfl, rfl⟩
        exact ⟨one, fun R' T' _ => by rw [z]; exact sqResid_nonneg _ _ _⟩
  · obtain ⟨ps, hps⟩ : ∃ ps : List (V3 ℝ), ps = [⟨0, 0, 0⟩, ⟨1, 0, 0⟩] := ⟨_, rfl⟩
    rw [← hps]
    have ha : Given ⟨3, 2, fun i j => if j = 1 ∧ i = 0 then 1 else 0⟩ ps := by
      refine .inl ⟨rfl, by rw [hps]; rfl, fun j p hj => ?_⟩
      rw [hps] at hj
      match j with
      | 0 => simp at hj; simp [← hj]
      | 1 => simp at hj; simp [← hj]
      | j + 2 => simp at hj
    have hne : ps ≠ [] := by simp [hps]
    have hsp : ¬ Spread ps := by
      rintro ⟨p, hp, q, hq, r, hr, h⟩
      apply h
      simp only [hps, List.mem_cons, List.not_mem_nil, or_false] at hp hq hr
      rcases hp with rfl | rfl <;> rcases hq with rfl | rfl <;> rcases hr with rfl | rfl <;> simp [cross3, vec3, zero3]
    have z : sqResid (move 1 zero3) ps ps = 0 := by
      have := (sqResid_zero (f := move 1 zero3) (g := id) ps).mpr fun p _ => idm p
      simpa using this
    have hd : 0 ≤ (crossCov ps ps).det := by rw [← crossCov_eq rfl]; exact gram_det _
    obtain ⟨h1, h2⟩ := C145_transform _ _ ps ps ha ha rfl hne hd
    have hn : ¬ 2 ≤ (crossCov ps ps).rank := by
      intro hr
      obtain ⟨R, T, hu⟩ := h1.mpr hr
      obtain ⟨R', T', hne', hb⟩ := C145_line ps ps (.inl hsp) R T ((hu R T).mpr ⟨rfl, rfl⟩)
      exact hne' ((hu _ _).mp hb).1
    rw [← h2] at hn
    push Not at hn
    obtain ⟨f, g, hf, hg, hfg⟩ := hn
    obtain ⟨R, T, e1, r1, b1⟩ := (C58_optimal f hf _ _ ps ps ha ha rfl hne).2 hd
    obtain ⟨R', T', e2, r2, b2⟩ := (C58_optimal g hg _ _ ps ps ha ha rfl hne).2 hd
    refine ⟨_, f, g, R, R', T, T', ha, hf, hg, e1, e2, ?_, ?_, ?_⟩
    · rintro rfl
      apply hfg
      rw [e1, e2]
      have t1 := ((best_motion_iff rfl hne _ _).mp ⟨r1, fun R' T' h => b1 R' T' h.1⟩).2
      have t2 := ((best_motion_iff rfl hne _ _).mp ⟨r2, fun R' T' h => b2 R' T' h.1⟩).2
      rw [t1, t2]
    · exact le_antisymm (z ▸ b1 1 zero3 one.1) (sqResid_nonneg _ _ _)
    · exact le_antisymm (z ▸ b2 1 zero3 one.1) (sqResid_nonneg _ _ _)

end Blmath.Props
