import Verif.Props.Rodrigues

/-!
Property C56: rotating points to the x-z plane.
-/

namespace Blmath.Props
open Blmath.Geometry Blmath.Spec

/-- the unit vector along +y -/
def ey : V3 ℝ := ⟨0, 1, 0⟩

/-- the rotation used by the code for the unit normal `n` -/
noncomputable def xzAxis (n : V3 ℝ) : V3 ℝ :=
  if min |Real.arccos n.y - Real.pi| |Real.arccos n.y| < 1 / 100000 then ⟨1, 0, 0⟩
  else scale3 (len3 (cross3 n ey))⁻¹ (cross3 n ey)

theorem pyMin_real (a b : ℝ) : pyMin a b = min a b := by
  unfold pyMin
  by_cases h : b < a
  · rw [if_pos (by simpa using h), min_eq_right h.le]
  · rw [if_neg (by simpa using h), min_eq_left (not_lt.mp h)]

theorem len3_ex : len3 ⟨1, 0, 0⟩ = 1 := by simp [len3]

/-- the code, for a normal given as a list or tuple -/
theorem rotateToXz_seq (pca : List (V3 ℝ) → PyM (V3 ℝ)) (cv : V3 ℝ → Mat 3 3 ℝ) (ps : List (V3 ℝ)) (hps : ps ≠ [])
    (n : V3 ℝ) :
    rotateToXzPlane pca cv (some ps) (.seq n) =
      if 1 / 100000 < len3 (centroid ps) then
        .ok ((translation ps none).1.map (act (cv (scale3 (Real.arccos n.y) (xzAxis n)))),
          cv (scale3 (Real.arccos n.y) (xzAxis n)), some (translation ps none).2)
      else .ok (ps.map (act (cv (scale3 (Real.arccos n.y) (xzAxis n)))),
          cv (scale3 (Real.arccos n.y) (xzAxis n)), none) := by
  have hl : ps.length ≠ 0 := by simpa using hps
  unfold rotateToXzPlane
  simp only [if_neg hl, pure_eq_ok, ok_bind]
  have hdot : V3.dot (⟨Num.lit 0, Num.lit 1, Num.lit 0⟩ : V3 ℝ) n = n.y := by simp [V3.dot]
  have hax : (V3.sdiv (if Num.lt (pyMin (npAbs (Trig.acos n.y - Trig.pi)) (npAbs (Trig.acos n.y))) (Num.lit (1 / 100000)) = true then
          (⟨Num.lit 1, Num.lit 0, Num.lit 0⟩ : V3 ℝ) else V3.cross n ⟨Num.lit 0, Num.lit 1, Num.lit 0⟩)
        (V3.norm (if Num.lt (pyMin (npAbs (Trig.acos n.y - Trig.pi)) (npAbs (Trig.acos n.y))) (Num.lit (1 / 100000)) = true then
          (⟨Num.lit 1, Num.lit 0, Num.lit 0⟩ : V3 ℝ) else V3.cross n ⟨Num.lit 0, Num.lit 1, Num.lit 0⟩))) = xzAxis n := by
    have hlit : (Num.lit (1 / 100000) : ℝ) = 1 / 100000 := by simp
    have hs : ∀ v : V3 ℝ, V3.sdiv v v.norm = scale3 (len3 v)⁻¹ v := fun v => Vx.normalize3_real v
    have e1 : (⟨Num.lit 1, Num.lit 0, Num.lit 0⟩ : V3 ℝ) = ⟨1, 0, 0⟩ := by simp
    have e2 : (⟨Num.lit 0, Num.lit 1, Num.lit 0⟩ : V3 ℝ) = ey := by simp [ey]
    rw [hs, pyMin_real, npAbs_real', npAbs_real', hlit, e1, e2]
    simp only [Num.lt_real, Trig.acos_real, Trig.pi_real, V3.cross_real]
    unfold xzAxis
    split
    · rw [len3_ex]; simp
    · rfl
  have hcond : Num.lt (Num.lit (1 / 100000)) (meanPts ps).norm = true ↔ 1 / 100000 < len3 (centroid ps) := by
    rw [meanPts_real, V3.norm_real, Num.lt_real]; simp
  have happ : ∀ R : Mat 3 3 ℝ, Mat.app R = act R := fun R => funext (app_real R)
  simp only [hdot, hax, happ, V3.smul_real]
  simp only [Trig.acos_real]
  by_cases h : 1 / 100000 < len3 (centroid ps)
  · rw [if_pos (hcond.mpr h), if_pos h]
  · rw [if_neg (fun h' => h (hcond.mp h')), if_neg h]

theorem unit_y_bounds {n : V3 ℝ} (hn : len3 n = 1) : -1 ≤ n.y ∧ n.y ≤ 1 ∧ n.x ^ 2 + n.z ^ 2 = 1 - n.y ^ 2 := by
  have h := len3_sq n
  rw [hn] at h
  refine ⟨?_, ?_, by linarith⟩ <;> nlinarith [sq_nonneg n.x, sq_nonneg n.z]

/-- away from ±y the normal goes exactly to +y -/
theorem xz_exact {cv : V3 ℝ → Mat 3 3 ℝ} (hcv : RotationVectorSpec cv) {n : V3 ℝ} (hn : len3 n = 1)
    (hbig : 1 / 100000 ≤ min |Real.arccos n.y - Real.pi| |Real.arccos n.y|) :
    act (cv (scale3 (Real.arccos n.y) (xzAxis n))) n = ey := by
  obtain ⟨h1, h2, h3⟩ := unit_y_bounds hn
  have hax : xzAxis n = scale3 (len3 (cross3 n ey))⁻¹ (cross3 n ey) := by
    unfold xzAxis; rw [if_neg (not_lt.mpr hbig)]
  have hth : 0 < Real.arccos n.y := by
    have h0 := Real.arccos_nonneg n.y
    have : (1 : ℝ) / 100000 ≤ |Real.arccos n.y| := le_trans hbig (min_le_right _ _)
    rw [abs_of_nonneg h0] at this
    linarith
  have hpi : Real.arccos n.y ≤ Real.pi := Real.arccos_le_pi _
  have hlp : Real.arccos n.y < Real.pi := by
    have : (1 : ℝ) / 100000 ≤ |Real.arccos n.y - Real.pi| := le_trans hbig (min_le_left _ _)
    rw [abs_of_nonpos (by linarith)] at this
    linarith
  have hsin := Real.sin_pos_of_pos_of_lt_pi hth hlp
  have hlen : len3 (cross3 n ey) = Real.sin (Real.arccos n.y) := by
    rw [Real.sin_arccos]
    unfold len3
    congr 1
    simp only [cross3, ey]
    linarith
  have hlu : len3 (xzAxis n) = 1 := by
    rw [hax, len3_scale, hlen, abs_of_pos (inv_pos.mpr hsin)]
    exact inv_mul_cancel₀ hsin.ne'
  have hlv : len3 (scale3 (Real.arccos n.y) (xzAxis n)) = Real.arccos n.y := by
    rw [len3_scale, hlu, abs_of_pos hth, mul_one]
  have hne : scale3 (Real.arccos n.y) (xzAxis n) ≠ zero3 := by
    intro h; rw [h, len3_eq_zero.mpr rfl] at hlv; linarith
  have hperp : inner3 (scale3 (Real.arccos n.y) (xzAxis n)) n = 0 := by
    rw [hax, inner3_scale_left, inner3_scale_left, inner3_cross_left]; ring
  rw [hcv.angle _ _ hne hperp, hlv, Real.cos_arccos h1 h2, scale3_scale3, inv_mul_cancel₀ hth.ne', scale3_one, hax, hlen]
  ext <;> simp only [along, scale3, cross3, ey] <;> field_simp
  · ring
  · linear_combination h3
  · ring

/-- the rotation about x by the angle `t ≥ 0` -/
theorem cv_turnX {cv : V3 ℝ → Mat 3 3 ℝ} (hcv : RotationVectorSpec cv) (t : ℝ) (ht : 0 ≤ t) (w : V3 ℝ) :
    act (cv (scale3 t ⟨1, 0, 0⟩)) w = turnX t w := by
  rcases ht.eq_or_lt with rfl | ht
  · have : scale3 0 ⟨1, 0, 0⟩ = zero3 := by simp [scale3, zero3]
    rw [this, hcv.zero, act_one]
    ext <;> simp [turnX]
  · have hl : len3 (scale3 t ⟨1, 0, 0⟩) = t := by rw [len3_scale, len3_ex, abs_of_pos ht, mul_one]
    have hne : scale3 t ⟨1, 0, 0⟩ ≠ zero3 := by
      intro h; rw [h, len3_eq_zero.mpr rfl] at hl; linarith
    have e : w = scale3 (w.x / t) (scale3 t ⟨1, 0, 0⟩) + ⟨0, w.y, w.z⟩ := by
      ext <;> simp [scale3]
      field_simp
    conv_lhs => rw [e]
    rw [act_add, act_scale, hcv.axis, hcv.angle _ _ hne (by simp [inner3, scale3]), hl]
    ext <;> simp [scale3, along, cross3, turnX] <;> field_simp <;> ring

/-- near ±y the normal goes to +y within 2e-5 -/
theorem xz_near {cv : V3 ℝ → Mat 3 3 ℝ} (hcv : RotationVectorSpec cv) {n : V3 ℝ} (hn : len3 n = 1)
    (hsmall : min |Real.arccos n.y - Real.pi| |Real.arccos n.y| < 1 / 100000) :
    dist3 (act (cv (scale3 (Real.arccos n.y) (xzAxis n))) n) ey ≤ 2 / 100000 := by
  obtain ⟨h1, h2, h3⟩ := unit_y_bounds hn
  have hax : xzAxis n = ⟨1, 0, 0⟩ := by
    unfold xzAxis; rw [if_pos hsmall]
  rw [hax, cv_turnX hcv _ (Real.arccos_nonneg _)]
  have hs0 : 0 ≤ Real.sin (Real.arccos n.y) := Real.sin_nonneg_of_nonneg_of_le_pi (Real.arccos_nonneg _) (Real.arccos_le_pi _)
  have hs1 : Real.sin (Real.arccos n.y) ≤ 1 / 100000 := by
    rcases min_lt_iff.mp hsmall with h | h
    · rw [abs_of_nonpos (by linarith [Real.arccos_le_pi n.y])] at h
      rw [← Real.sin_pi_sub]
      have := Real.sin_le (x := Real.pi - Real.arccos n.y) (by linarith [Real.arccos_le_pi n.y])
      linarith
    · rw [abs_of_nonneg (Real.arccos_nonneg _)] at h
      have := Real.sin_le (Real.arccos_nonneg n.y)
      linarith
  have hss : Real.sin (Real.arccos n.y) ^ 2 = 1 - n.y ^ 2 := by
    rw [Real.sin_arccos, Real.sq_sqrt]
    nlinarith [sq_nonneg n.x, sq_nonneg n.z]
  obtain ⟨s, hsdef⟩ : ∃ s, s = Real.sin (Real.arccos n.y) := ⟨_, rfl⟩
  rw [← hsdef] at hs0 hs1 hss
  have hz : |n.z| ≤ s := by
    apply abs_le_of_sq_le_sq _ hs0
    nlinarith [sq_nonneg n.x]
  have hd : dist3 (turnX (Real.arccos n.y) n) ey ^ 2 ≤ (2 * s) ^ 2 := by
    unfold dist3
    rw [len3_sq]
    simp only [vec3, turnX, ey, Real.cos_arccos h1 h2, ← hsdef]
    nlinarith [abs_le.mp hz |>.1, abs_le.mp hz |>.2, mul_le_mul_of_nonneg_left (abs_le.mp hz).2 hs0]
  have h2s : dist3 (turnX (Real.arccos n.y) n) ey ≤ 2 * s :=
    (pow_le_pow_iff_left₀ (len3_nonneg _) (by linarith) two_ne_zero).mp hd
  linarith

/-- exactly ±y also goes to +y -/
theorem xz_pole {cv : V3 ℝ → Mat 3 3 ℝ} (hcv : RotationVectorSpec cv) {n : V3 ℝ} (hn : n = ey ∨ n = ⟨0, -1, 0⟩) :
    act (cv (scale3 (Real.arccos n.y) (xzAxis n))) n = ey := by
  have hax : xzAxis n = ⟨1, 0, 0⟩ := by
    unfold xzAxis
    rw [if_pos]
    rcases hn with rfl | rfl
    · simp [ey]
    · simp
  rw [hax, cv_turnX hcv _ (Real.arccos_nonneg _)]
  rcases hn with rfl | rfl
  · ext <;> simp [turnX, ey]
  · ext <;> simp [turnX, ey]

/-- the contract of `cv2.Rodrigues` can be met -/
theorem rotationVectorSpec_sat : ∃ f, RotationVectorSpec f := by
  classical
  refine ⟨fun v => if v = zero3 then 1 else axisMat (scale3 (len3 v)⁻¹ v) (Real.cos (len3 v)) (Real.sin (len3 v)), ?_, ?_, ?_, ?_⟩
  · intro v
    split
    · exact IsRotation.one
    · rename_i h
      exact axisMat_rot _ _ _ (unit_inv_scale (len3_pos h)) (by rw [add_comm]; exact Real.sin_sq_add_cos_sq _)
  · simp
  · intro v
    split
    · exact act_one v
    · rename_i h
      have hp := len3_pos h
      rw [axisMat_act, inner3_scale_left, ← len3_mul_self]
      ext <;> simp [scale3, cross3] <;> field_simp <;> ring
  · intro v w hv hw
    simp only [if_neg hv]
    rw [axisMat_act, inner3_scale_left, hw]
    ext <;> simp [scale3, along]

/-- **C56.** For a unit normal given as a list or tuple: the result consists of a proper rotation `R`
and the rotated points.  The points are first centred if their centroid is farther than 1e-5 from the
origin.  `R` takes the normal to +y: exactly, except that it may be off by up to 2e-5 when the normal
is within 1e-5 radians of the y axis without lying on it. -/
theorem C56_rotate (pca : List (V3 ℝ) → PyM (V3 ℝ)) (cv : V3 ℝ → Mat 3 3 ℝ) (hcv : RotationVectorSpec cv)
    (ps : List (V3 ℝ)) (hps : ps ≠ []) (n : V3 ℝ) (hn : len3 n = 1) :
    ∃ R p0, rotateToXzPlane pca cv (some ps) (.seq n) =
        .ok (ps.map (fun p => act R (p + p0.getD zero3)), R, p0) ∧
      IsRotation R ∧
      p0 = (if 1 / 100000 < len3 (centroid ps) then some (scale3 (-1) (centroid ps)) else none) ∧
      dist3 (act R n) ey ≤ 2 / 100000 ∧
      (1 / 100000 ≤ min |Real.arccos n.y - Real.pi| |Real.arccos n.y| ∨ n = ey ∨ n = ⟨0, -1, 0⟩ → act R n = ey) := by
  refine ⟨cv (scale3 (Real.arccos n.y) (xzAxis n)), if 1 / 100000 < len3 (centroid ps) then some (scale3 (-1) (centroid ps)) else none,
    ?_, hcv.rotation _, rfl, ?_, ?_⟩
  · rw [rotateToXz_seq pca cv ps hps n]
    have hc := (C48_centered ps hps).1
    split
    · rw [hc]
      have : (translation ps none).1 = ps.map (· + scale3 (-1) (centroid ps)) := by rw [← hc]; rfl
      rw [this, List.map_map]
      rfl
    · have : ∀ p : V3 ℝ, p + (none : Option (V3 ℝ)).getD zero3 = p := by
        intro p; ext <;> simp [zero3]
      simp only [this]
  · by_cases h : min |Real.arccos n.y - Real.pi| |Real.arccos n.y| < 1 / 100000
    · exact xz_near hcv hn h
    · rw [xz_exact hcv hn (not_lt.mp h), dist3_eq_zero.mpr rfl]; norm_num
  · rintro (h | h)
    · exact xz_exact hcv hn h
    · exact xz_pole hcv h

/-- **C56.** Consequences: points of a plane perpendicular to the normal land at a constant height;
the centroid lands within 1e-5 of the origin; and undoing the rotation and the shift recovers the
points. -/
theorem C56_consequences (pca : List (V3 ℝ) → PyM (V3 ℝ)) (cv : V3 ℝ → Mat 3 3 ℝ) (hcv : RotationVectorSpec cv)
    (ps : List (V3 ℝ)) (hps : ps ≠ []) (n : V3 ℝ) (hn : len3 n = 1) (rs : List (V3 ℝ)) (R : Mat 3 3 ℝ) (p0 : Option (V3 ℝ))
    (h : rotateToXzPlane pca cv (some ps) (.seq n) = .ok (rs, R, p0)) :
    (act R n = ey → ∀ d, (∀ p ∈ ps, inner3 n p = d) → ∃ e, ∀ r ∈ rs, r.y = e) ∧
    len3 (centroid rs) ≤ 1 / 100000 ∧
    rs.map (fun r => vec3 (p0.getD zero3) (act R.transpose r)) = ps := by
  obtain ⟨R', p0', h', hR, hp0, -, -⟩ := C56_rotate pca cv hcv ps hps n hn
  rw [h] at h'
  injection h' with h'
  injection h' with hrs h'
  injection h' with hRR hpp
  subst hRR hpp hrs
  refine ⟨?_, ?_, ?_⟩
  · intro hRn d hd
    refine ⟨d + inner3 n (p0.getD zero3), ?_⟩
    intro r hr
    obtain ⟨p, hp, rfl⟩ := List.mem_map.mp hr
    have hy : ∀ v : V3 ℝ, v.y = inner3 ey v := by intro v; simp [inner3, ey]
    rw [hy, ← hRn, hR.inner, ← hd p hp]
    simp [inner3]; ring
  · have hl : (ps.length : ℝ) ≠ 0 := by simpa using hps
    have hcent : centroid (ps.map fun p => act R (p + p0.getD zero3)) = act R (centroid ps + p0.getD zero3) := by
      have e : (ps.map fun p => act R (p + p0.getD zero3)) = (ps.map (· + p0.getD zero3)).map (act R) := by
        rw [List.map_map]; rfl
      unfold centroid
      rw [e, sum3_map_act, List.length_map, List.length_map, sum3_map_add, ← act_scale]
      congr 1
      ext <;> simp [scale3] <;> field_simp
    rw [hcent, hR.len, hp0]
    split
    · have : centroid ps + (some (scale3 (-1) (centroid ps))).getD zero3 = zero3 := by
        ext <;> simp [scale3, zero3]
      rw [this, len3_eq_zero.mpr rfl]; norm_num
    · rename_i hle
      have : centroid ps + (none : Option (V3 ℝ)).getD zero3 = centroid ps := by
        ext <;> simp [zero3]
      rw [this]; exact not_lt.mp hle
  · rw [List.map_map]
    conv_rhs => rw [← List.map_id ps]
    apply List.map_congr_left
    intro p _
    simp only [Function.comp_def, hR.act_back]
    ext <;> simp [vec3]

/-- non-vacuity: two points with centroid (1/2, 1, 4), normal +z -/
example (pca : List (V3 ℝ) → PyM (V3 ℝ)) : ∃ cv rs R p0, RotationVectorSpec cv ∧
    rotateToXzPlane pca cv (some [⟨1, 2, 3⟩, ⟨0, 0, 5⟩]) (.seq ⟨0, 0, 1⟩) = .ok (rs, R, some p0) ∧
    act R ⟨0, 0, 1⟩ = ey ∧ p0 = ⟨-(1 / 2), -1, -4⟩ := by
  obtain ⟨cv, hcv⟩ := rotationVectorSpec_sat
  have hn : len3 ⟨0, 0, 1⟩ = 1 := by simp [len3]
  obtain ⟨R, p0, h, -, hp, -, hx⟩ := C56_rotate pca cv hcv [⟨1, 2, 3⟩, ⟨0, 0, 5⟩] (by simp) ⟨0, 0, 1⟩ hn
  have hc : centroid [⟨1, 2, 3⟩, ⟨0, 0, 5⟩] = ⟨1 / 2, 1, 4⟩ := by
    ext <;> simp [centroid, sum3, scale3, zero3] <;> norm_num
  rw [hc, if_pos] at hp
  · subst hp
    refine ⟨cv, _, R, _, hcv, h, hx (.inl ?_), ?_⟩
    · have hpi := Real.pi_gt_three
      simp only [Real.arccos_zero]
      rw [abs_of_pos (a := Real.pi / 2) (by linarith), abs_of_neg (by linarith)]
      apply le_min <;> linarith
    · ext <;> simp [scale3]
  · have h4 : (4 : ℝ) ≤ len3 ⟨1 / 2, 1, 4⟩ := by
      unfold len3
      apply Real.le_sqrt_of_sq_le
      norm_num
    linarith

/-- **C56.** Without a normal the (normalised) last principal component of the points is used. -/
theorem C56_estimate (pca : List (V3 ℝ) → PyM (V3 ℝ)) (cv : V3 ℝ → Mat 3 3 ℝ) (ps : List (V3 ℝ)) (n : V3 ℝ)
    (hp : pca ps = .ok n) :
    rotateToXzPlane pca cv (some ps) .none = rotateToXzPlane pca cv (some ps) (.seq (scale3 (len3 n)⁻¹ n)) := by
  have hs : V3.sdiv n n.norm = scale3 (len3 n)⁻¹ n := Vx.normalize3_real n
  unfold rotateToXzPlane estimateNormal
  simp only [hp, ok_bind, pure_eq_ok, hs]

/-- **C56.** No points: ValueError.  A normal given as an array: ValueError (its truth value is
ambiguous). -/
theorem C56_errors {α : Type} [Num α] [Trig α] (pca : List (V3 α) → PyM (V3 α)) (cv : V3 α → Mat 3 3 α) (ps : List (V3 α)) (n : V3 α)
    (na : NormalArg α) :
    rotateToXzPlane pca cv none na = .error .ValueError ∧
    rotateToXzPlane pca cv (some []) na = .error .ValueError ∧
    rotateToXzPlane pca cv (some ps) (.array n) = .error .ValueError := by
  refine ⟨rfl, rfl, ?_⟩
  unfold rotateToXzPlane
  simp only
  split
  · rfl
  · rfl

/-- **C56.** Witness that near the y axis the normal is not taken to +y exactly: whatever the points. -/
theorem C56_near_witness : ∃ n : V3 ℝ, len3 n = 1 ∧ ∀ pca cv, RotationVectorSpec cv → ∀ ps, ps ≠ [] →
    ∃ rs R p0, rotateToXzPlane pca cv (some ps) (.seq n) = .ok (rs, R, p0) ∧ act R n ≠ ey := by
  have hp : (0 : ℝ) < 1 / 1000000 := by norm_num
  have hpi := Real.pi_gt_three
  have hs : 0 < Real.sin (1 / 1000000) := Real.sin_pos_of_pos_of_lt_pi hp (by linarith)
  have hn : len3 ⟨Real.sin (1 / 1000000), Real.cos (1 / 1000000), 0⟩ = 1 := by
    unfold len3
    simp only
    rw [show Real.sin (1 / 1000000) ^ 2 + Real.cos (1 / 1000000) ^ 2 + 0 ^ 2 = 1 by
      have := Real.sin_sq_add_cos_sq (1 / 1000000); linarith]
    exact Real.sqrt_one
  refine ⟨⟨Real.sin (1 / 1000000), Real.cos (1 / 1000000), 0⟩, hn, ?_⟩
  intro pca cv hcv ps hps
  have key : act (cv (scale3 (Real.arccos (Real.cos (1 / 1000000)))
      (xzAxis ⟨Real.sin (1 / 1000000), Real.cos (1 / 1000000), 0⟩)))
      ⟨Real.sin (1 / 1000000), Real.cos (1 / 1000000), 0⟩ ≠ ey := by
    intro h
    have hac : Real.arccos (Real.cos (1 / 1000000)) = 1 / 1000000 := Real.arccos_cos hp.le (by linarith)
    have hax : xzAxis ⟨Real.sin (1 / 1000000), Real.cos (1 / 1000000), 0⟩ = ⟨1, 0, 0⟩ := by
      unfold xzAxis
      rw [if_pos]
      simp only [hac]
      apply min_lt_of_right_lt
      rw [abs_of_pos hp]; norm_num
    rw [hax, cv_turnX hcv _ (Real.arccos_nonneg _)] at h
    have hx := congrArg V3.x h
    simp only [turnX, ey] at hx
    linarith
  rw [rotateToXz_seq pca cv ps hps]
  split_ifs
  · exact ⟨_, _, _, rfl, key⟩
  · exact ⟨_, _, _, rfl, key⟩

end Blmath.Props
