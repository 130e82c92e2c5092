import Verif.Proofs.Rotation
import Mathlib.Tactic.NormNum

/-!
Properties C48 (translation), C49 (rotation_from_up_and_look) and C50 (euler).
-/

namespace Blmath.Props
open Blmath.Geometry Blmath.Spec

/-! C48 -/

/-- **C48.** With a factor, every point is shifted by it, in order, and the factor is returned. -/
theorem C48_given {α : Type} [Num α] (ps : List (V3 α)) (t : V3 α) :
    translation ps (some t) = (ps.map (· + t), t) := rfl

/-- **C48.** Without a factor the image of a nonempty list has its centroid at the origin; the factor
returned is minus the old centroid, and shifting back by its negative recovers the points. -/
theorem C48_centered (ps : List (V3 ℝ)) (h : ps ≠ []) :
    (translation ps none).2 = scale3 (-1) (centroid ps) ∧
    centroid (translation ps none).1 = zero3 ∧
    (translation (translation ps none).1 (some (-(translation ps none).2))).1 = ps := by
  have hl : (ps.length : ℝ) ≠ 0 := by
    simpa using h
  have h1 : (translation ps none).2 = scale3 (-1) (centroid ps) := by
    show -(meanPts ps) = _
    rw [meanPts_real]
    ext <;> simp [scale3]
  have h2 : (translation ps none).1 = ps.map (· + scale3 (-1) (centroid ps)) := by
    rw [← h1]; rfl
  refine ⟨h1, ?_, ?_⟩
  · rw [h2]
    unfold centroid
    rw [sum3_map_add]
    ext <;> simp [scale3, zero3, centroid] <;> field_simp <;> simp
  · rw [h1, h2]
    show (ps.map _).map _ = ps
    rw [List.map_map]
    conv_rhs => rw [← List.map_id ps]
    apply List.map_congr_left
    intro p _
    ext <;> simp

/-- shifting preserves the differences of the points -/
theorem C48_rigid (ps : List (V3 ℝ)) (t : Option (V3 ℝ)) (i j : ℕ) (p q p' q' : V3 ℝ)
    (hp : ps[i]? = some p) (hq : ps[j]? = some q)
    (hp' : (translation ps t).1[i]? = some p') (hq' : (translation ps t).1[j]? = some q') :
    vec3 p' q' = vec3 p q := by
  simp only [translation, List.getElem?_map, hp, hq, Option.map_some, Option.some.injEq] at hp' hq'
  rw [← hp', ← hq']
  ext <;> simp [vec3]

example : (translation [(⟨1, 2, 3⟩ : V3 ℝ), ⟨3, 2, 1⟩] none).2 = ⟨-2, -2, -2⟩ := by
  rw [(C48_centered _ (by simp)).1]
  simp [centroid, sum3, scale3, zero3]
  norm_num

/-! C49 -/

theorem rot_up_look_aux (up look : V3 ℝ) (h : cross3 up look ≠ zero3) :
    ∃ x y z : V3 ℝ, rotationFromUpAndLook up look = .ok (Mat.ofRows x y z) ∧
      y = scale3 (len3 up)⁻¹ up ∧
      (∃ k > 0, z = scale3 k (vec3 (scale3 (inner3 look up / inner3 up up) up) look)) ∧ x = cross3 y z ∧
      inner3 y y = 1 ∧ inner3 z z = 1 ∧ inner3 y z = 0 ∧ 0 < inner3 z look := by
  have hu : up ≠ zero3 := by
    rintro rfl; apply h; ext <;> simp [cross3, zero3]
  have hl : look ≠ zero3 := by
    rintro rfl; apply h; ext <;> simp [cross3, zero3]
  have hup := len3_pos hu
  have hy1 : inner3 (scale3 (len3 up)⁻¹ up) (scale3 (len3 up)⁻¹ up) = 1 := by
    rw [inner3_scale_left, inner3_scale_right, ← len3_mul_self]; field_simp
  have hw : V3.smul (look.dot (V3.sdiv up up.norm)) (V3.sdiv up up.norm) = scale3 (inner3 look up / inner3 up up) up := by
    rw [← Vx.proj3_real]; rfl
  obtain ⟨w, hwdef⟩ : ∃ w, w = vec3 (scale3 (inner3 look up / inner3 up up) up) look := ⟨_, rfl⟩
  have hiu : inner3 up up ≠ 0 := fun e => hu (inner3_self_eq_zero.mp e)
  have hwu : inner3 w up = 0 := by
    rw [hwdef]
    have : inner3 (vec3 (scale3 (inner3 look up / inner3 up up) up) look) up =
        inner3 look up - inner3 look up / inner3 up up * inner3 up up := by
      simp only [inner3, vec3, scale3]; ring
    rw [this]; field_simp; ring
  have hwne : w ≠ zero3 := by
    intro e
    apply h
    have e' : look = scale3 (inner3 look up / inner3 up up) up := by
      rw [hwdef] at e
      have hx := congrArg V3.x e
      have hy := congrArg V3.y e
      have hz := congrArg V3.z e
      simp only [vec3, zero3] at hx hy hz
      ext <;> linarith
    rw [e']
    ext <;> simp [cross3, scale3, zero3] <;> ring
  have hwpos := len3_pos hwne
  have hwl : inner3 w look = inner3 w w := by
    have : inner3 w w = inner3 w look - inner3 look up / inner3 up up * inner3 w up := by
      rw [hwdef]; simp only [inner3, vec3, scale3]; ring
    rw [this, hwu]; ring
  refine ⟨_, scale3 (len3 up)⁻¹ up, scale3 (len3 w)⁻¹ w, ?_, rfl, ⟨(len3 w)⁻¹, by positivity, by rw [hwdef]⟩, rfl, hy1, ?_, ?_, ?_⟩
  · unfold rotationFromUpAndLook
    have e1 : ¬ Num.eq up.norm (Num.lit 0 : ℝ) = true := by
      rw [V3.norm_real]; simp [hup.ne']
    have e2 : ¬ Num.eq look.norm (Num.lit 0 : ℝ) = true := by
      rw [V3.norm_real]; simp [(len3_pos hl).ne']
    rw [if_neg e1, if_neg e2]
    simp only [hw]
    have hz : look - scale3 (inner3 look up / inner3 up up) up = w := by rw [hwdef]; rfl
    rw [hz]
    have e3 : ¬ Num.eq w.norm (Num.lit 0 : ℝ) = true := by
      rw [V3.norm_real]; simp [hwpos.ne']
    rw [if_neg e3]
    have hs : ∀ v : V3 ℝ, V3.sdiv v v.norm = scale3 (len3 v)⁻¹ v := fun v => Vx.normalize3_real v
    rw [hs, hs]
    rfl
  · rw [inner3_scale_left, inner3_scale_right, ← len3_mul_self]; field_simp
  · rw [inner3_scale_left, inner3_scale_right, inner3_comm, hwu]; ring
  · rw [inner3_scale_left, hwl, ← len3_mul_self]; positivity

/-- **C49.** For directions that are not collinear the result is a proper rotation; it takes `up` to
the +y axis and `look` into the half plane x = 0, z > 0, at height `look · up / |up|`. -/
theorem C49_rotation (up look : V3 ℝ) (h : cross3 up look ≠ zero3) :
    ∃ R, rotationFromUpAndLook up look = .ok R ∧ IsRotation R ∧
      act R up = ⟨0, len3 up, 0⟩ ∧
      (act R look).x = 0 ∧ (act R look).y = inner3 look up / len3 up ∧ 0 < (act R look).z := by
  obtain ⟨x, y, z, hR, hy, ⟨k, hk, hz⟩, hx, hyy, hzz, hyz, hpos⟩ := rot_up_look_aux up look h
  have hu : up ≠ zero3 := by
    rintro rfl; apply h; ext <;> simp [cross3, zero3]
  have hup := len3_pos hu
  have hyu : up = scale3 (len3 up) y := by
    rw [hy, scale3_scale3, mul_inv_cancel₀ hup.ne', scale3_one]
  have hxx : inner3 x x = 1 := by rw [hx, lagrange3, hyy, hzz, hyz]; ring
  have hxy : inner3 x y = 0 := by rw [hx]; exact inner3_cross_left y z
  have hxz : inner3 x z = 0 := by rw [hx]; exact inner3_cross_right y z
  have hd : det3 x y z = 1 := by
    have : det3 x y z = inner3 x (cross3 y z) := by simp only [det3, inner3, cross3]; ring
    rw [this, ← hx, hxx]
  have act_rows : ∀ v, act (Mat.ofRows x y z) v = ⟨inner3 x v, inner3 y v, inner3 z v⟩ := by
    intro v
    rw [act_eq]
    simp [Mat.ofRows, inner3]
  have hxl : inner3 x look = 0 := by
    rw [hx, hz, hy]
    simp only [inner3, cross3, scale3, vec3]; ring
  refine ⟨_, hR, isRotation_ofRows hxx hyy hzz hxy hyz hxz hd, ?_, ?_, ?_, ?_⟩
  · rw [act_rows]
    have h1 : inner3 x up = 0 := by rw [hyu, inner3_scale_right, hxy, mul_zero]
    have h2 : inner3 y up = len3 up := by rw [hy, inner3_scale_left, ← len3_mul_self]; field_simp
    have h3 : inner3 z up = 0 := by rw [hyu, inner3_scale_right, inner3_comm, hyz, mul_zero]
    rw [h1, h2, h3]
  · rw [act_rows]; exact hxl
  · rw [act_rows]
    show inner3 y look = _
    rw [hy, inner3_scale_left, inner3_comm]; field_simp
  · rw [act_rows]; exact hpos

/-- **C49.** If `up` and `look` are perpendicular, `look` goes to the +z axis. -/
theorem C49_perpendicular (up look : V3 ℝ) (h : cross3 up look ≠ zero3) (hp : inner3 look up = 0) :
    ∃ R, rotationFromUpAndLook up look = .ok R ∧ act R look = ⟨0, 0, len3 look⟩ := by
  obtain ⟨R, hR, hrot, -, hx, hy, hz⟩ := C49_rotation up look h
  refine ⟨R, hR, ?_⟩
  have hl := hrot.len look
  rw [hp, zero_div] at hy
  have : len3 (act R look) = (act R look).z := by
    unfold len3
    rw [hx, hy]
    simp [Real.sqrt_sq hz.le]
  ext
  · exact hx
  · exact hy
  · rw [← this, hl]

/-- **C49.** Zero or collinear directions raise ValueError. -/
theorem C49_errors (up look : V3 ℝ) (h : cross3 up look = zero3) :
    rotationFromUpAndLook up look = .error .ValueError := by
  unfold rotationFromUpAndLook
  by_cases hu : up = zero3
  · rw [if_pos]
    rw [V3.norm_real, Num.eq_real, len3_eq_zero.mpr hu]; simp
  · have hup := len3_pos hu
    rw [if_neg (by rw [V3.norm_real]; simp [hup.ne'])]
    split
    · rfl
    · have hz : look - V3.smul (look.dot (V3.sdiv up up.norm)) (V3.sdiv up up.norm) = zero3 := by
        have hw : V3.smul (look.dot (V3.sdiv up up.norm)) (V3.sdiv up up.norm) = scale3 (inner3 look up / inner3 up up) up := by
          rw [← Vx.proj3_real]; rfl
        rw [hw]
        have hiu : inner3 up up ≠ 0 := fun e => hu (inner3_self_eq_zero.mp e)
        have hx := congrArg V3.x h
        have hy := congrArg V3.y h
        have hz := congrArg V3.z h
        simp only [cross3, zero3] at hx hy hz
        ext <;> simp only [V3.sub_x, V3.sub_y, V3.sub_z, scale3, zero3] <;> field_simp <;> simp only [inner3]
        · linear_combination (-up.y) * hz + up.z * hy
        · linear_combination up.x * hz - up.z * hx
        · linear_combination (-up.x) * hy + up.y * hx
      simp only [hz]
      rw [if_pos]
      rw [V3.norm_real, Num.eq_real, len3_eq_zero.mpr rfl]; simp

/-- **C49.** Only the directions matter. -/
theorem C49_directions (up look : V3 ℝ) (a b : ℝ) (ha : 0 < a) (hb : 0 < b) :
    rotationFromUpAndLook (scale3 a up) (scale3 b look) = rotationFromUpAndLook up look := by
  by_cases h : cross3 up look = zero3
  · rw [C49_errors _ _ h, C49_errors]
    have hx := congrArg V3.x h
    have hy := congrArg V3.y h
    have hz := congrArg V3.z h
    simp only [cross3, zero3] at hx hy hz
    ext <;> simp only [cross3, scale3, zero3]
    · linear_combination a * b * hx
    · linear_combination a * b * hy
    · linear_combination a * b * hz
  · have h' : cross3 (scale3 a up) (scale3 b look) ≠ zero3 := by
      intro e
      apply h
      have hx := congrArg V3.x e
      have hy := congrArg V3.y e
      have hz := congrArg V3.z e
      simp only [cross3, zero3, scale3] at hx hy hz
      have hab : a * b ≠ 0 := by positivity
      ext <;> simp only [cross3, zero3] <;> apply mul_left_cancel₀ hab
      · linear_combination hx
      · linear_combination hy
      · linear_combination hz
    obtain ⟨x, y, z, hR, hy, ⟨k, hk, hz⟩, hx, -, hzz, -, hpos⟩ := rot_up_look_aux up look h
    obtain ⟨x', y', z', hR', hy', ⟨k', hk', hz'⟩, hx', -, hzz', -, hpos'⟩ := rot_up_look_aux _ _ h'
    have hu : up ≠ zero3 := by
      rintro rfl; apply h; ext <;> simp [cross3, zero3]
    have hup := len3_pos hu
    have hiu : inner3 up up ≠ 0 := fun e => hu (inner3_self_eq_zero.mp e)
    have ey : y' = y := by
      rw [hy, hy', len3_scale, scale3_scale3, abs_of_pos ha]
      congr 1
      field_simp
    obtain ⟨w, hw⟩ : ∃ w, w = vec3 (scale3 (inner3 look up / inner3 up up) up) look := ⟨_, rfl⟩
    have hw' : vec3 (scale3 (inner3 (scale3 b look) (scale3 a up) / inner3 (scale3 a up) (scale3 a up)) (scale3 a up)) (scale3 b look) = scale3 b w := by
      rw [hw, inner3_scale_left, inner3_scale_right, inner3_scale_left, inner3_scale_right, scale3_scale3]
      have : b * (a * inner3 look up) / (a * (a * inner3 up up)) * a = b * (inner3 look up / inner3 up up) := by field_simp
      rw [this]
      ext <;> simp only [vec3, scale3] <;> ring
    rw [hw', scale3_scale3] at hz'
    rw [← hw] at hz
    have ez : z' = z := by
      rw [hz, hz']
      rw [hz, inner3_scale_left, inner3_scale_right] at hzz
      rw [hz', inner3_scale_left, inner3_scale_right] at hzz'
      have hww : inner3 w w ≠ 0 := by
        intro e; rw [e] at hzz; simp at hzz
      have hsq : (k' * b) ^ 2 = k ^ 2 := by
        apply mul_right_cancel₀ hww
        linear_combination hzz' - hzz
      have : k' * b = k := (pow_left_inj₀ (by positivity) hk.le two_ne_zero).mp hsq
      rw [this]
    rw [hR, hR', hx, hx', ey, ez]

example : cross3 (⟨0, 1, 0⟩ : V3 ℝ) ⟨-1, 0, 0⟩ ≠ zero3 := by
  simp [cross3, zero3]

/-! C50 -/

/-- the angles in radians, each with its axis -/
noncomputable def eulerPairs (xyz : List ℝ) (order : List Char) (units : String) : List (ℝ × Char) :=
  (if units = "deg" then xyz.map (· * (Real.pi / 180)) else xyz).zip order

theorem eulerStep_act (R : Mat 3 3 ℝ) (ta : ℝ × Char) (v : V3 ℝ) :
    act (eulerStep R ta) v = turn ta.2 ta.1 (act R v) := by
  obtain ⟨t, a⟩ := ta
  unfold eulerStep turn
  simp only [Mat.mul_real, Trig.cos_real, Trig.sin_real, Num.lit_real]
  by_cases hx : a = 'x'
  · subst hx
    simp only [if_true, show ('x' : Char) ≠ 'y' by decide, show ('x' : Char) ≠ 'z' by decide, if_false]
    rw [act_mul, act_eq]
    simp [turnX]
    ring
  · by_cases hy : a = 'y'
    · subst hy
      simp only [if_true, show ('y' : Char) ≠ 'x' by decide, show ('y' : Char) ≠ 'z' by decide, if_false]
      rw [act_mul, act_eq]
      simp [turnY]
    · by_cases hz : a = 'z'
      · subst hz
        simp only [if_true, show ('z' : Char) ≠ 'x' by decide, show ('z' : Char) ≠ 'y' by decide, if_false]
        rw [act_mul, act_eq]
        simp [turnZ]
        ring
      · simp only [if_neg hx, if_neg hy, if_neg hz]

theorem rotX_rot (t : ℝ) : IsRotation !![1, 0, 0; 0, Real.cos t, -Real.sin t; 0, Real.sin t, Real.cos t] := by
  have hcs := Real.sin_sq_add_cos_sq t
  refine ⟨?_, ?_⟩
  · ext i j
    fin_cases i <;> fin_cases j <;> simp [Matrix.mul_apply, Fin.sum_univ_three] <;> linarith
  · rw [Matrix.det_fin_three]; simp; linarith

theorem rotY_rot (t : ℝ) : IsRotation !![Real.cos t, 0, Real.sin t; 0, 1, 0; -Real.sin t, 0, Real.cos t] := by
  have hcs := Real.sin_sq_add_cos_sq t
  refine ⟨?_, ?_⟩
  · ext i j
    fin_cases i <;> fin_cases j <;> simp [Matrix.mul_apply, Fin.sum_univ_three] <;> linarith
  · rw [Matrix.det_fin_three]; simp; linarith

theorem rotZ_rot (t : ℝ) : IsRotation !![Real.cos t, -Real.sin t, 0; Real.sin t, Real.cos t, 0; 0, 0, 1] := by
  have hcs := Real.sin_sq_add_cos_sq t
  refine ⟨?_, ?_⟩
  · ext i j
    fin_cases i <;> fin_cases j <;> simp [Matrix.mul_apply, Fin.sum_univ_three] <;> linarith
  · rw [Matrix.det_fin_three]; simp; linarith

theorem eulerStep_rot (R : Mat 3 3 ℝ) (ta : ℝ × Char) (hR : IsRotation R) : IsRotation (eulerStep R ta) := by
  obtain ⟨t, a⟩ := ta
  unfold eulerStep
  simp only [Mat.mul_real, Trig.cos_real, Trig.sin_real, Num.lit_real, Rat.cast_one, Rat.cast_zero]
  by_cases hx : a = 'x'
  · subst hx
    simp only [if_true, show ('x' : Char) ≠ 'y' by decide, show ('x' : Char) ≠ 'z' by decide, if_false]
    exact (rotX_rot t).mul hR
  · by_cases hy : a = 'y'
    · subst hy
      simp only [if_true, show ('y' : Char) ≠ 'x' by decide, show ('y' : Char) ≠ 'z' by decide, if_false]
      exact (rotY_rot t).mul hR
    · by_cases hz : a = 'z'
      · subst hz
        simp only [if_true, show ('z' : Char) ≠ 'x' by decide, show ('z' : Char) ≠ 'y' by decide, if_false]
        exact (rotZ_rot t).mul hR
      · simpa only [if_neg hx, if_neg hy, if_neg hz] using hR

theorem foldl_eulerStep (l : List (ℝ × Char)) (R : Mat 3 3 ℝ) (hR : IsRotation R) :
    IsRotation (l.foldl eulerStep R) ∧ ∀ v, act (l.foldl eulerStep R) v = turns l (act R v) := by
  induction l generalizing R with
  | nil => exact ⟨hR, fun v => rfl⟩
  | cons ta l ih =>
    obtain ⟨h1, h2⟩ := ih (eulerStep R ta) (eulerStep_rot R ta hR)
    refine ⟨h1, fun v => ?_⟩
    rw [List.foldl_cons, h2, eulerStep_act]
    rfl

theorem euler_eq (xyz : Angles ℝ) (order units : String) :
    euler xyz order units = (eulerPairs xyz.toList order.toList units).foldl eulerStep 1 := by
  unfold euler eulerPairs
  rw [Mat.eye_real]
  simp

/-- **C50.** Whatever the angles, the order and the units, the matrix is a proper rotation, and it
performs the elementary turns one after the other, the first listed first. -/
theorem C50_rotation (xyz : Angles ℝ) (order units : String) :
    IsRotation (euler xyz order units) ∧
    ∀ v, act (euler xyz order units) v = turns (eulerPairs xyz.toList order.toList units) v := by
  rw [euler_eq]
  have h := foldl_eulerStep (eulerPairs xyz.toList order.toList units) 1 IsRotation.one
  exact ⟨h.1, fun v => by rw [h.2, act_one]⟩

/-- **C50.** Angles or axes beyond the shorter of the two are ignored; a number means a one-element
list; every unit other than "deg" means radians; 180 degrees are π radians. -/
theorem C50_arguments (xyz extra : List ℝ) (order more units : String) (x : ℝ) :
    (order.toList.length = xyz.length → euler (.many (xyz ++ extra)) order units = euler (.many xyz) order units) ∧
    (order.toList.length = xyz.length → euler (.many xyz) (order ++ more) units = euler (.many xyz) order units) ∧
    euler (.one x) order units = euler (.many [x]) order units ∧
    (units ≠ "deg" → euler (.many xyz) order units = euler (.many xyz) order "rad") ∧
    euler (.many xyz) order "deg" = euler (.many (xyz.map (· * Real.pi / 180))) order "rad" := by
  refine ⟨fun h => ?_, fun h => ?_, rfl, fun h => ?_, ?_⟩
  · rw [euler_eq, euler_eq]
    unfold eulerPairs Angles.toList
    simp only
    congr 1
    split
    · rw [List.map_append]
      conv_lhs => rw [← List.append_nil order.toList]
      rw [List.zip_append (by simpa using h.symm)]
      simp
    · conv_lhs => rw [← List.append_nil order.toList]
      rw [List.zip_append h.symm]
      simp
  · rw [euler_eq, euler_eq]
    unfold eulerPairs Angles.toList
    simp only [String.toList_append]
    congr 1
    split
    · conv_lhs => rw [← List.append_nil (List.map _ xyz)]
      rw [List.zip_append (by simpa using h.symm)]
      simp
    · conv_lhs => rw [← List.append_nil xyz]
      rw [List.zip_append h.symm]
      simp
  · simp [euler, h]
  · simp [euler, Angles.toList, mul_div_assoc]

theorem turn_turn (a : Char) (t : ℝ) (v : V3 ℝ) : turn a (-t) (turn a t v) = v := by
  have hcs := Real.sin_sq_add_cos_sq t
  unfold turn
  split_ifs
  · ext <;> simp [turnX]
    · linear_combination v.y * hcs
    · linear_combination v.z * hcs
  · ext <;> simp [turnY]
    · linear_combination v.x * hcs
    · linear_combination v.z * hcs
  · ext <;> simp [turnZ]
    · linear_combination v.x * hcs
    · linear_combination v.y * hcs
  · rfl

theorem turns_append (l₁ l₂ : List (ℝ × Char)) (v : V3 ℝ) : turns (l₁ ++ l₂) v = turns l₂ (turns l₁ v) := by
  induction l₁ generalizing v with
  | nil => rfl
  | cons a l ih => exact ih _

theorem turns_inverse (l : List (ℝ × Char)) (v : V3 ℝ) :
    turns (l.reverse.map fun ta => (-ta.1, ta.2)) (turns l v) = v := by
  induction l generalizing v with
  | nil => rfl
  | cons a l ih =>
    simp only [List.reverse_cons, List.map_append, turns_append, List.map_cons, List.map_nil]
    show turn a.2 (-a.1) (turns _ (turns l (turn a.2 a.1 v))) = v
    rw [ih, turn_turn]

/-- **C50.** Negated angles in reverse order give the inverse, which is the transpose. -/
theorem C50_inverse (xyz : List ℝ) (order order' units : String) (h : order.toList.length = xyz.length)
    (ho : order'.toList = order.toList.reverse) :
    euler (.many (xyz.reverse.map (-·))) order' units * euler (.many xyz) order units = 1 ∧
    euler (.many (xyz.reverse.map (-·))) order' units = (euler (.many xyz) order units).transpose := by
  have key : euler (.many (xyz.reverse.map (-·))) order' units * euler (.many xyz) order units = 1 := by
    apply act_ext
    intro v
    rw [act_mul, (C50_rotation _ _ _).2, (C50_rotation _ _ _).2, act_one]
    have : eulerPairs (Angles.many (xyz.reverse.map (-·))).toList order'.toList units =
        (eulerPairs (Angles.many xyz).toList order.toList units).reverse.map fun ta => (-ta.1, ta.2) := by
      unfold eulerPairs Angles.toList
      simp only [ho]
      have hz : ∀ ys : List ℝ, order.toList.length = ys.length →
          (ys.reverse.map (-·)).zip order.toList.reverse = (ys.zip order.toList).reverse.map fun ta => (-ta.1, ta.2) := by
        intro ys hys
        have hr : (ys.zip order.toList).reverse = ys.reverse.zip order.toList.reverse := by
          show List.reverse (List.zipWith Prod.mk ys order.toList) = List.zipWith Prod.mk ys.reverse order.toList.reverse
          rw [List.reverse_zipWith hys.symm]
        rw [hr]
        conv_lhs => rw [← List.map_id order.toList.reverse]
        rw [List.zip_map]
        rfl
      split
      · rw [← hz _ (by simpa using h)]
        simp [List.map_map, Function.comp_def, List.map_reverse]
      · exact hz _ h
    rw [this, turns_inverse]
  refine ⟨key, ?_⟩
  have hrot := (C50_rotation (.many xyz) order units).1
  calc _ = euler (.many (xyz.reverse.map (-·))) order' units * (euler (.many xyz) order units * (euler (.many xyz) order units).transpose) := by
        rw [hrot.mul_transpose, Matrix.mul_one]
    _ = _ := by rw [← Matrix.mul_assoc, key, Matrix.one_mul]

/-- a quarter turn about z takes x to y -/
example : act (euler (.many [(90 : ℝ)]) "z" "deg") ⟨1, 0, 0⟩ = ⟨0, 1, 0⟩ := by
  rw [(C50_rotation _ _ _).2]
  have : (90 : ℝ) * (Real.pi / 180) = Real.pi / 2 := by ring
  simp [eulerPairs, Angles.toList, turns, turn, turnZ, this]

end Blmath.Props
