import Verif.Proofs.RigidSym

/-!
C118: what find_rigid_transform and find_rigid_rotation return for moved, mirrored, scaled, exchanged and reordered points.
-/

namespace Blmath.Props
open Blmath Blmath.Geometry Blmath.Spec Blmath.Proofs Blmath.Proofs.RS

/-- **C118.** When the fit is unique.  If the cross-covariance matrix has rank at least two and no negative determinant, the
motion found is the only best one; if the same holds for the matrix of moments, the best rotation is the only one. -/
theorem C118_unique (svd : Svd3 ℝ) (hsvd : ∀ c, ∃ u s v, svd c = .ok (u, s, v) ∧ SvdSpec c u s v) (a b : Grid ℝ)
    (ps qs : List (V3 ℝ)) (hl : ps.length = qs.length) :
    (Given a ps → Given b qs → ps ≠ [] → 0 ≤ (crossCov ps qs).det → 2 ≤ (crossCov ps qs).rank →
      ∃ R T, findRigidTransform svd a b = .ok (R, T) ∧ ∀ R' T', BestMotion R' T' ps qs ↔ R' = R ∧ T' = T) ∧
    (HasColumns a ps → HasColumns b qs → ps.length ≠ 1 → 0 ≤ (moments ps qs).det → 2 ≤ (moments ps qs).rank →
      ∃ R, findRigidRotation svd a b false = .ok R ∧ ∀ R', BestRotation R' ps qs ↔ R' = R) := by
  constructor
  · intro ha hb hp hd hr
    obtain ⟨u, s, v, hs, hS⟩ := hsvd (crossCov ps qs)
    obtain ⟨R, h1, h2⟩ := fit_top hsvd hd
    refine ⟨R, centroid qs - act R (centroid ps), by rw [find_eq ha hb hl, h1]; rfl, fun R' T' => ?_⟩
    rw [best_motion_iff hl hp]
    constructor
    · rintro ⟨h, rfl⟩
      obtain rfl := top_unique hS hd hr h h2
      exact ⟨rfl, rfl⟩
    · rintro ⟨rfl, rfl⟩
      exact ⟨h2, rfl⟩
  · intro ha hb h1 hd hr
    obtain ⟨u, s, v, hs, hS⟩ := hsvd (moments ps qs)
    obtain ⟨R, e1, e2⟩ := fit'_top hsvd (moments ps qs)
    refine ⟨R, ?_, fun R' => ?_⟩
    · unfold findRigidRotation
      rw [cols3_eq ha, cols3_eq hb]
      simp only [ok_bind, addCross_many h1, dotT, if_pos hl, moments_eq hl, e1]
      rfl
    · rw [best_rotation_iff hl]
      exact ⟨fun h => top_unique hS hd hr h e2, fun h => h ▸ e2⟩

namespace RS

/-- what is fitted to a unique optimum -/
theorem find_best (svd : Svd3 ℝ) (hsvd : ∀ c, ∃ u s v, svd c = .ok (u, s, v) ∧ SvdSpec c u s v) {a b : Grid ℝ}
    {ps qs : List (V3 ℝ)} (ha : Given a ps) (hb : Given b qs) (hl : ps.length = qs.length) (hp : ps ≠ [])
    (hd : 0 ≤ (crossCov ps qs).det) {R : Mat 3 3 ℝ} {T : V3 ℝ} (hu : ∀ R' T', BestMotion R' T' ps qs → R' = R ∧ T' = T) :
    findRigidTransform svd a b = .ok (R, T) := by
  obtain ⟨R', h1, h2⟩ := fit_top hsvd hd
  obtain ⟨rfl, rfl⟩ := hu R' _ ((best_motion_iff hl hp _ _).mpr ⟨h2, rfl⟩)
  rw [find_eq ha hb hl, h1]; rfl

theorem rotation_best (svd : Svd3 ℝ) (hsvd : ∀ c, ∃ u s v, svd c = .ok (u, s, v) ∧ SvdSpec c u s v) {a b : Grid ℝ}
    {ps qs : List (V3 ℝ)} (ha : HasColumns a ps) (hb : HasColumns b qs) (hl : ps.length = qs.length) (h1 : ps.length ≠ 1)
    {R : Mat 3 3 ℝ} (hu : ∀ R', BestRotation R' ps qs → R' = R) : findRigidRotation svd a b false = .ok R := by
  obtain ⟨R', e1, e2⟩ := fit'_top hsvd (moments ps qs)
  obtain rfl := hu R' ((best_rotation_iff hl _).mpr e2)
  unfold findRigidRotation
  rw [cols3_eq ha, cols3_eq hb]
  simp only [ok_bind, addCross_many h1, dotT, if_pos hl, moments_eq hl, e1]
  rfl

theorem act_smul (k : ℝ) (M : Mat 3 3 ℝ) (v : V3 ℝ) : act (k • M) v = scale3 k (act M v) := by
  ext <;> simp [act_eq, scale3] <;> ring

theorem act_mul (M N : Mat 3 3 ℝ) (v : V3 ℝ) : act (M * N) v = act M (act N v) := by
  ext <;> simp [act_eq, Matrix.mul_apply, Fin.sum_univ_three] <;> ring

end RS
open RS

/-- **C118.** Both point sets placed elsewhere: `p ↦ k A p + s` and `q ↦ m B q + t` with positive factors and orthogonal
matrices, both rotations or both mirrorings.  ValueError is raised for both or for neither; if the best motion is unique, the
rotation found is `B R Aᵀ`, and if `k = m`, the motion found is the one found before, in the new coordinates. -/
theorem C118_moved (svd : Svd3 ℝ) (hsvd : ∀ c, ∃ u s v, svd c = .ok (u, s, v) ∧ SvdSpec c u s v) (a b a' b' : Grid ℝ)
    (ps qs : List (V3 ℝ)) (hl : ps.length = qs.length) (hp : ps ≠ []) (A B : Matrix (Fin 3) (Fin 3) ℝ)
    (hA : A.transpose * A = 1) (hB : B.transpose * B = 1) (hAB : A.det = B.det) (k m : ℝ) (hk : 0 < k) (hm : 0 < m) (s t : V3 ℝ)
    (ha : Given a ps) (hb : Given b qs) (ha' : Given a' (ps.map (move (k • A) s))) (hb' : Given b' (qs.map (move (m • B) t))) :
    ((crossCov ps qs).det < 0 →
      findRigidTransform svd a b = .error .ValueError ∧ findRigidTransform svd a' b' = .error .ValueError) ∧
    (0 ≤ (crossCov ps qs).det → ∀ R T, (∀ R' T', BestMotion R' T' ps qs → R' = R ∧ T' = T) →
      findRigidTransform svd a b = .ok (R, T) ∧
      ∃ T', findRigidTransform svd a' b' = .ok (B * R * A.transpose, T') ∧
        (k = m → ∀ x, move (B * R * A.transpose) T' (move (k • A) s x) = move (m • B) t (move R T x))) := by
  have hl' : (ps.map (move (k • A) s)).length = (qs.map (move (m • B) t)).length := by simpa using hl
  have hp' : ps.map (move (k • A) s) ≠ [] := by simpa using hp
  have hq : qs ≠ [] := by rintro rfl; simp at hl; exact hp hl
  have hc : crossCov (ps.map (move (k • A) s)) (qs.map (move (m • B) t)) = (k * m) • (A * crossCov ps qs * B.transpose) := by
    rw [crossCov_moved _ _ _ _ hl hp, Matrix.smul_mul, Matrix.smul_mul, Matrix.transpose_smul, Matrix.mul_smul, smul_smul]
  have hkm : 0 < k * m := mul_pos hk hm
  have hdd : A.det * B.det = 1 := by
    rcases orth_det hA with h | h <;> rw [← hAB, h] <;> norm_num
  have hdet : (crossCov (ps.map (move (k • A) s)) (qs.map (move (m • B) t))).det = (k * m) ^ 3 * (crossCov ps qs).det := by
    rw [hc, Matrix.det_smul, Matrix.det_mul, Matrix.det_mul, Matrix.det_transpose, Fintype.card_fin]
    linear_combination (k * m) ^ 3 * (crossCov ps qs).det * hdd
  have hA' : A * A.transpose = 1 := mul_eq_one_comm.mp hA
  have hB' : B * B.transpose = 1 := mul_eq_one_comm.mp hB
  constructor
  · intro hd
    refine ⟨by rw [find_eq ha hb hl, fit_error hsvd hd]; rfl, ?_⟩
    rw [find_eq ha' hb' hl', fit_error hsvd (by rw [hdet]; exact mul_neg_of_pos_of_neg (by positivity) hd)]; rfl
  · intro hd R T hu
    refine ⟨find_best svd hsvd ha hb hl hp hd hu, _,
      find_best svd hsvd ha' hb' hl' hp' (by rw [hdet]; positivity) (T := centroid (qs.map (move (m • B) t)) -
        act (B * R * A.transpose) (centroid (ps.map (move (k • A) s)))) ?_, ?_⟩
    · intro R' T' hb
      rw [best_motion_iff hl' hp', hc, top_moved hA hB hAB hkm] at hb
      obtain ⟨h1, rfl⟩ := hb
      obtain ⟨h2, -⟩ := hu _ _ ((best_motion_iff hl hp _ _).mpr ⟨h1, rfl⟩)
      have : R' = B * R * A.transpose := by
        rw [← h2, Matrix.mul_assoc, Matrix.mul_assoc (B.transpose * R'), hA', Matrix.mul_one, ← Matrix.mul_assoc, hB',
          Matrix.one_mul]
      rw [this]; exact ⟨rfl, rfl⟩
    · rintro rfl x
      obtain ⟨R₁, -, ht⟩ := fit_top hsvd hd
      obtain ⟨rfl, hT⟩ := hu R₁ _ ((best_motion_iff hl hp _ _).mpr ⟨ht, rfl⟩)
      have e : ∀ y : V3 ℝ, act (B * R₁ * A.transpose) (act (k • A) y) = act (k • B) (act R₁ y) := by
        intro y
        rw [← act_mul, ← act_mul, Matrix.mul_smul, Matrix.mul_assoc, hA, Matrix.mul_one, Matrix.smul_mul]
      rw [centroid_move hp, centroid_move hq, ← hT]
      simp only [move_eq_add]
      have lin : ∀ (M : Mat 3 3 ℝ) (x y : V3 ℝ), act M (x + y) = act M x + act M y := by
        intro M x y; ext <;> simp [act_eq] <;> ring
      have lin' : ∀ (M : Mat 3 3 ℝ) (x y : V3 ℝ), act M (x - y) = act M x - act M y := by
        intro M x y; ext <;> simp [act_eq] <;> ring
      simp only [lin, lin', e]
      ext <;> simp <;> ring

/-- **C118.** With the two point sets exchanged the inverse motion is found, and ValueError raised for both or neither. -/
theorem C118_swapped (svd : Svd3 ℝ) (hsvd : ∀ c, ∃ u s v, svd c = .ok (u, s, v) ∧ SvdSpec c u s v) (a b : Grid ℝ)
    (ps qs : List (V3 ℝ)) (hl : ps.length = qs.length) (hp : ps ≠ []) (ha : Given a ps) (hb : Given b qs) :
    ((crossCov ps qs).det < 0 →
      findRigidTransform svd a b = .error .ValueError ∧ findRigidTransform svd b a = .error .ValueError) ∧
    (0 ≤ (crossCov ps qs).det → ∀ R T, (∀ R' T', BestMotion R' T' ps qs → R' = R ∧ T' = T) →
      findRigidTransform svd a b = .ok (R, T) ∧
      ∃ T', findRigidTransform svd b a = .ok (R.transpose, T') ∧
        (∀ x, move R.transpose T' (move R T x) = x) ∧ ∀ x, move R T (move R.transpose T' x) = x) := by
  have hq : qs ≠ [] := by rintro rfl; simp at hl; exact hp hl
  have hdet : (crossCov qs ps).det = (crossCov ps qs).det := by rw [crossCov_swap hl, Matrix.det_transpose]
  constructor
  · intro hd
    exact ⟨by rw [find_eq ha hb hl, fit_error hsvd hd]; rfl,
      by rw [find_eq hb ha hl.symm, fit_error hsvd (by rw [hdet]; exact hd)]; rfl⟩
  · intro hd R T hu
    obtain ⟨R₁, -, ht⟩ := fit_top hsvd hd
    obtain ⟨rfl, hT⟩ := hu R₁ _ ((best_motion_iff hl hp _ _).mpr ⟨ht, rfl⟩)
    refine ⟨find_best svd hsvd ha hb hl hp hd hu, _,
      find_best svd hsvd hb ha hl.symm hq (by rw [hdet]; exact hd) (T := centroid ps - act R₁.transpose (centroid qs)) ?_, ?_, ?_⟩
    · intro R' T' hb
      rw [best_motion_iff hl.symm hq, crossCov_swap hl, top_transpose] at hb
      obtain ⟨h1, rfl⟩ := hb
      obtain ⟨h2, -⟩ := hu _ _ ((best_motion_iff hl hp _ _).mpr ⟨h1, rfl⟩)
      have : R' = R₁.transpose := by rw [← h2, Matrix.transpose_transpose]
      rw [this]; exact ⟨rfl, rfl⟩
    all_goals
      intro x
      have lin : ∀ (M : Mat 3 3 ℝ) (x y : V3 ℝ), act M (x + y) = act M x + act M y := by
        intro M x y; ext <;> simp [act_eq] <;> ring
      have lin' : ∀ (M : Mat 3 3 ℝ) (x y : V3 ℝ), act M (x - y) = act M x - act M y := by
        intro M x y; ext <;> simp [act_eq] <;> ring
      have one : ∀ y : V3 ℝ, act 1 y = y := by intro y; ext <;> simp [act_eq]
      have hR := ht.1.1
      have hR' : R₁ * R₁.transpose = 1 := mul_eq_one_comm.mp hR
      simp only [move_eq_add, ← hT, lin, lin', ← act_mul, hR, hR', one]
      ext <;> simp <;> ring

/-- **C118.** The order of the pairs does not matter, whatever the singular value decomposition does. -/
theorem C118_order (svd : Svd3 ℝ) (a b a' b' : Grid ℝ) (ps qs ps' qs' : List (V3 ℝ)) (hl : ps.length = qs.length)
    (hl' : ps'.length = qs'.length) (hperm : (ps.zip qs).Perm (ps'.zip qs')) :
    (Given a ps → Given b qs → Given a' ps' → Given b' qs' → findRigidTransform svd a' b' = findRigidTransform svd a b) ∧
    ∀ sc, HasColumns a ps → HasColumns b qs → HasColumns a' ps' → HasColumns b' qs' →
      findRigidRotation svd a' b' sc = findRigidRotation svd a b sc := by
  have h1 : ps.Perm ps' := by
    have := hperm.map Prod.fst
    rwa [List.map_fst_zip hl.le, List.map_fst_zip hl'.le] at this
  have h2 : qs.Perm qs' := by
    have := hperm.map Prod.snd
    rwa [List.map_snd_zip hl.ge, List.map_snd_zip hl'.ge] at this
  have sum : ∀ {l l' : List (V3 ℝ)}, l.Perm l' → sum3 l = sum3 l' := by
    intro l l' h
    induction h with
    | nil => rfl
    | cons x _ ih => rw [sum3, sum3, ih]
    | swap x y l => simp only [sum3]; ext <;> simp <;> ring
    | trans _ _ i1 i2 => rw [i1, i2]
  have cen : ∀ {l l' : List (V3 ℝ)}, l.Perm l' → centroid l = centroid l' := by
    intro l l' h
    unfold centroid
    rw [sum h, h.length_eq]
  constructor
  · intro ha hb ha' hb'
    have hc : crossCov ps qs = crossCov ps' qs' := by
      unfold crossCov
      rw [cen h1, cen h2]
      exact (hperm.map _).sum_eq
    rw [find_eq ha hb hl, find_eq ha' hb' hl', hc, cen h1, cen h2]
  · intro sc ha hb ha' hb'
    have hm : moments ps qs = moments ps' qs' := (hperm.map _).sum_eq
    have hsq : ∀ {l l' : List (V3 ℝ)}, l.Perm l' → sumSq l = sumSq l' := by
      intro l l' h
      induction h with
      | nil => rfl
      | cons x _ ih => rw [sumSq, sumSq, ih]
      | swap x y l => simp only [sumSq]; ring
      | trans _ _ i1 i2 => rw [i1, i2]
    by_cases hone : ps.length = 1
    · obtain ⟨p, rfl⟩ := List.length_eq_one_iff.mp hone
      obtain ⟨q, rfl⟩ := List.length_eq_one_iff.mp (hl ▸ hone)
      rw [List.perm_singleton.mp h1.symm] at ha'
      rw [List.perm_singleton.mp h2.symm] at hb'
      unfold findRigidRotation
      rw [cols3_eq ha, cols3_eq hb, cols3_eq ha', cols3_eq hb']
    · have hone' : ps'.length ≠ 1 := by rw [← h1.length_eq]; exact hone
      unfold findRigidRotation
      rw [cols3_eq ha, cols3_eq hb, cols3_eq ha', cols3_eq hb']
      simp only [ok_bind, addCross_many hone, addCross_many hone', dotT, if_pos hl, if_pos hl', moments_eq hl, moments_eq hl', hm,
        hsq h1, hsq h2]

/-- **C118.** `find_rigid_rotation` of turned, mirrored and scaled points: if the best rotation is unique, `B R Aᵀ`, and with
scaling allowed the factor `m / k` besides. -/
theorem C118_rotation_moved (svd : Svd3 ℝ) (hsvd : ∀ c, ∃ u s v, svd c = .ok (u, s, v) ∧ SvdSpec c u s v) (a b a' b' : Grid ℝ)
    (ps qs : List (V3 ℝ)) (hl : ps.length = qs.length) (h1 : ps.length ≠ 1) (hz : ∃ p ∈ ps, p ≠ zero3)
    (A B : Matrix (Fin 3) (Fin 3) ℝ)
    (hA : A.transpose * A = 1) (hB : B.transpose * B = 1) (hAB : A.det = B.det) (k m : ℝ) (hk : 0 < k) (hm : 0 < m)
    (ha : HasColumns a ps) (hb : HasColumns b qs) (ha' : HasColumns a' (ps.map (act (k • A))))
    (hb' : HasColumns b' (qs.map (act (m • B)))) (R : Matrix (Fin 3) (Fin 3) ℝ) (hu : ∀ R', BestRotation R' ps qs → R' = R) :
    findRigidRotation svd a b false = .ok R ∧ findRigidRotation svd a' b' false = .ok (B * R * A.transpose) ∧
    ∃ M, findRigidRotation svd a b true = .ok M ∧ findRigidRotation svd a' b' true = .ok ((m / k) • (B * M * A.transpose)) := by
  have hl' : (ps.map (act (k • A))).length = (qs.map (act (m • B))).length := by simpa using hl
  have h1' : (ps.map (act (k • A))).length ≠ 1 := by simpa using h1
  have hA' : A * A.transpose = 1 := mul_eq_one_comm.mp hA
  have hB' : B * B.transpose = 1 := mul_eq_one_comm.mp hB
  have hkm : 0 < k * m := mul_pos hk hm
  have hc : moments (ps.map (act (k • A))) (qs.map (act (m • B))) = (k * m) • (A * moments ps qs * B.transpose) := by
    rw [← moments_eq hl', outer_moved _ _ _ _ hl, moments_eq hl, Matrix.smul_mul, Matrix.smul_mul, Matrix.transpose_smul,
      Matrix.mul_smul, smul_smul]
  have f1 := rotation_best svd hsvd ha hb hl h1 hu
  have f2 : findRigidRotation svd a' b' false = .ok (B * R * A.transpose) := by
    refine rotation_best svd hsvd ha' hb' hl' h1' ?_
    intro R' hb
    rw [best_rotation_iff hl', hc, top_moved hA hB hAB hkm] at hb
    have h2 := hu _ ((best_rotation_iff hl _).mpr hb)
    rw [← h2, Matrix.mul_assoc, Matrix.mul_assoc (B.transpose * R'), hA', Matrix.mul_one, ← Matrix.mul_assoc, hB', Matrix.one_mul]
  have len : ∀ {A : Mat 3 3 ℝ} {k : ℝ}, A.transpose * A = 1 → 0 < k → ∀ l : List (V3 ℝ),
      ((l.map (act (k • A))).map fun p => len3 p ^ 2).sum = k ^ 2 * (l.map fun p => len3 p ^ 2).sum := by
    intro A k hA hk l
    rw [List.map_map, ← List.sum_map_mul_left]
    congr 1
    apply List.map_congr_left
    intro p _
    simp only [Function.comp_apply]
    rw [act_smul, len3_scale, ← inner3_self p, mul_pow, ← inner3_self (act A p), orth_inner hA, sq_abs]
  refine ⟨f1, f2, _, (C59_factor svd a b ps qs ha hb h1 hz).1 R f1, ?_⟩
  have hz' : ∃ p ∈ ps.map (act (k • A)), p ≠ zero3 := by
    obtain ⟨p, hp, hpz⟩ := hz
    refine ⟨_, List.mem_map.mpr ⟨p, hp, rfl⟩, fun h => hpz ?_⟩
    rw [← len3_eq_zero] at h ⊢
    rw [act_smul, len3_scale] at h
    have h0 : len3 (act A p) = 0 := by
      rcases mul_eq_zero.mp h with h | h
      · exact absurd (abs_eq_zero.mp h) hk.ne'
      · exact h
    have : len3 p ^ 2 = 0 := by rw [← inner3_self, ← orth_inner hA, inner3_self, h0]; norm_num
    exact pow_eq_zero_iff two_ne_zero |>.mp this
  rw [(C59_factor svd a' b' _ _ ha' hb' h1' hz').1 _ f2, len hA hk, len hB hm, Real.sqrt_mul (by positivity),
    Real.sqrt_mul (by positivity), Real.sqrt_sq hk.le, Real.sqrt_sq hm.le, Matrix.mul_smul, Matrix.smul_mul, smul_smul]
  congr 2
  rw [mul_div_mul_comm]

/-- **C118.** `find_rigid_rotation` with the point sets exchanged: the inverse rotation, and with scaling allowed the inverse
matrix. -/
theorem C118_rotation_swapped (svd : Svd3 ℝ) (hsvd : ∀ c, ∃ u s v, svd c = .ok (u, s, v) ∧ SvdSpec c u s v) (a b : Grid ℝ)
    (ps qs : List (V3 ℝ)) (hl : ps.length = qs.length) (h1 : ps.length ≠ 1) (hz : ∃ p ∈ ps, p ≠ zero3) (hz' : ∃ q ∈ qs, q ≠ zero3)
    (ha : HasColumns a ps) (hb : HasColumns b qs) (R : Matrix (Fin 3) (Fin 3) ℝ) (hu : ∀ R', BestRotation R' ps qs → R' = R) :
    findRigidRotation svd a b false = .ok R ∧ findRigidRotation svd b a false = .ok R.transpose ∧
    ∃ M M', findRigidRotation svd a b true = .ok M ∧ findRigidRotation svd b a true = .ok M' ∧ M' * M = 1 ∧ M * M' = 1 := by
  have h1' : qs.length ≠ 1 := by rw [← hl]; exact h1
  have hc : moments qs ps = (moments ps qs).transpose := by
    rw [← moments_eq hl, ← moments_eq hl.symm, outer_swap _ _ hl]
  have f1 := rotation_best svd hsvd ha hb hl h1 hu
  have f2 : findRigidRotation svd b a false = .ok R.transpose := by
    refine rotation_best svd hsvd hb ha hl.symm h1' ?_
    intro R' h
    rw [best_rotation_iff hl.symm, hc, top_transpose] at h
    rw [← hu _ ((best_rotation_iff hl _).mpr h), Matrix.transpose_transpose]
  obtain ⟨R₁, -, ht⟩ := fit'_top hsvd (moments ps qs)
  obtain rfl := hu R₁ ((best_rotation_iff hl _).mpr ht)
  have hR := ht.1.1
  have pos : ∀ {l : List (V3 ℝ)}, (∃ p ∈ l, p ≠ zero3) → 0 < Real.sqrt (l.map fun p => len3 p ^ 2).sum := by
    rintro l ⟨p, hp, hpz⟩
    apply Real.sqrt_pos.mpr
    have h2 : len3 p ^ 2 ≤ (l.map fun p => len3 p ^ 2).sum :=
      List.single_le_sum (by intro x hx; obtain ⟨y, _, rfl⟩ := List.mem_map.mp hx; positivity) _ (List.mem_map.mpr ⟨p, hp, rfl⟩)
    have := len3_pos hpz
    have : 0 < len3 p ^ 2 := by positivity
    linarith
  have p1 := pos hz
  have p2 := pos hz'
  refine ⟨f1, f2, _, _, (C59_factor svd a b ps qs ha hb h1 hz).1 _ f1, (C59_factor svd b a qs ps hb ha h1' hz').1 _ f2, ?_⟩
  have inv : (Real.sqrt (ps.map fun p => len3 p ^ 2).sum / Real.sqrt (qs.map fun p => len3 p ^ 2).sum) *
      (Real.sqrt (qs.map fun p => len3 p ^ 2).sum / Real.sqrt (ps.map fun p => len3 p ^ 2).sum) = 1 := by
    field_simp
  constructor
  · rw [Matrix.smul_mul, Matrix.mul_smul, smul_smul, hR, inv, one_smul]
  · rw [Matrix.smul_mul, Matrix.mul_smul, smul_smul, mul_comm, inv, one_smul, mul_eq_one_comm.mp hR]

/-- the four points of the example below -/
def cross4 (d : ℝ) : List (V3 ℝ) := [⟨1, 0, d⟩, ⟨-1, 0, d⟩, ⟨0, 1, -d⟩, ⟨0, -1, -d⟩]

namespace RS

theorem cross4_cov (d e : ℝ) : crossCov (cross4 d) (cross4 e) = Matrix.diagonal ![2, 2, 4 * d * e] := by
  have c : ∀ x, centroid (cross4 x) = zero3 := by
    intro x; ext <;> simp [centroid, cross4, sum3, zero3, scale3]
  unfold crossCov
  rw [c, c]
  ext i j
  fin_cases i <;> fin_cases j <;> simp only [cross4, zero3, List.zip_cons_cons, List.zip_nil_right, List.map_cons, List.map_nil, List.sum_cons,
      List.sum_nil, Matrix.add_apply, Matrix.vecMulVec_apply] <;> simp <;> ring

end RS

/-- **C118.** Points in a plane are at the edge of what is accepted: four points that nearly lie in a plane, each moved by an
amount as small as one likes, make `find_rigid_transform` raise ValueError, although leaving them where they are fits up to
that amount.  Without any displacement the identity is found. -/
theorem C118_fragile (svd : Svd3 ℝ) (hsvd : ∀ c, ∃ u s v, svd c = .ok (u, s, v) ∧ SvdSpec c u s v) (d : ℝ) (hd : 0 < d)
    (a b o : Grid ℝ) (ha : Given a (cross4 d)) (hb : Given b (cross4 (-d))) (ho : Given o (cross4 0)) :
    findRigidTransform svd a b = .error .ValueError ∧ findRigidTransform svd o o = .ok (1, zero3) ∧
    sqResid (move 1 zero3) (cross4 d) (cross4 (-d)) = 16 * d ^ 2 := by
  refine ⟨?_, ?_, ?_⟩
  · refine (C58_optimal svd hsvd a b _ _ ha hb rfl (by simp [cross4])).1 ?_
    rw [cross4_cov, Matrix.det_diagonal, Fin.prod_univ_three]
    simp
    nlinarith
  · obtain ⟨R, T, h1, -, -, h2⟩ := C58_recover svd hsvd o o (cross4 0) 1 zero3 ⟨by simp, by simp⟩ ho
      (by
        have : (cross4 0).map (move 1 zero3) = cross4 0 := by
          simp [cross4, move, act_eq, zero3]
        rw [this]; exact ho) (by simp [cross4])
    obtain ⟨rfl, rfl⟩ := h2 ⟨⟨1, 0, 0⟩, by simp [cross4], ⟨-1, 0, 0⟩, by simp [cross4], ⟨0, 1, 0⟩, by simp [cross4], by
      simp [cross3, vec3, zero3, V3.ext_iff]; norm_num⟩
    exact h1
  · have e : ∀ x y z w : ℝ, dist3 (move 1 zero3 ⟨x, y, z⟩) ⟨x, y, w⟩ ^ 2 = (z - w) ^ 2 := by
      intro x y z w
      unfold dist3
      rw [← inner3_self]
      simp [inner3, vec3, move, act_eq, zero3]; ring
    simp only [cross4, sqResid, e]
    ring

/-- the hypotheses of `C118_unique` are met by the points of a cross -/
example : (crossCov (cross4 0) (cross4 0)).det = 0 ∧ 2 ≤ (crossCov (cross4 0) (cross4 0)).rank := by
  rw [cross4_cov]
  refine ⟨by rw [Matrix.det_diagonal]; simp [Fin.prod_univ_three], ?_⟩
  rw [Matrix.rank_diagonal]
  have : Function.Injective (fun i : Fin 2 => (⟨i.castSucc, by fin_cases i <;> simp⟩ :
      {i : Fin 3 // (![2, 2, 4 * 0 * 0] : Fin 3 → ℝ) i ≠ 0})) := by
    intro i j h
    simpa using h
  simpa using Fintype.card_le_of_injective _ this

/-- an array with these points as columns -/
example (d : ℝ) : HasColumns ⟨3, 4, fun i j => if i = 0 then (if j = 0 then 1 else if j = 1 then -1 else 0)
    else if i = 1 then (if j = 2 then 1 else if j = 3 then -1 else 0) else if j < 2 then d else -d⟩ (cross4 d) := by
  refine ⟨rfl, rfl, fun j p h => ?_⟩
  rcases j with _ | _ | _ | _ | j <;> simp [cross4] at h <;> subst h <;> simp

end Blmath.Props
