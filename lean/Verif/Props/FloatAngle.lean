import Verif.Props.FloatError
import Verif.Props.Vx
import Mathlib.Analysis.Real.Pi.Bounds
import Mathlib.Analysis.SpecialFunctions.Trigonometric.Bounds

/-!
Property C87: the angle of two vectors in rounded arithmetic.
-/

namespace Blmath.Props
open Blmath.Spec Blmath.Vx
variable {rnd : ℝ → ℝ} {u : ℝ}

/-- the inverse cosine is Hölder continuous with exponent 1/2 -/
theorem arccos_holder {x y : ℝ} (hx : -1 ≤ x ∧ x ≤ 1) (hy : -1 ≤ y ∧ y ≤ 1) :
    |Real.arccos x - Real.arccos y| ≤ Real.pi * Real.sqrt (|x - y| / 2) := by
  wlog hxy : x ≤ y generalizing x y
  · rw [abs_sub_comm, abs_sub_comm x y]
    exact this hy hx (le_of_not_ge hxy)
  have ha := Real.cos_arccos hx.1 hx.2
  have hb := Real.cos_arccos hy.1 hy.2
  have hba : Real.arccos y ≤ Real.arccos x := Real.arccos_le_arccos hxy
  have b0 := Real.arccos_nonneg y
  have a1 := Real.arccos_le_pi x
  generalize Real.arccos x = a at *
  generalize Real.arccos y = b at *
  have hpi := Real.pi_pos
  have e1 : y - x = 2 * Real.sin ((a + b) / 2) * Real.sin ((a - b) / 2) := by
    rw [← ha, ← hb, Real.cos_sub_cos b a, show (b + a) / 2 = (a + b) / 2 by ring, show (b - a) / 2 = -((a - b) / 2) by ring, Real.sin_neg]
    ring
  have e2 : Real.sin ((a - b) / 2) ≤ Real.sin ((a + b) / 2) := by
    have : Real.sin ((a + b) / 2) - Real.sin ((a - b) / 2) = 2 * Real.sin (b / 2) * Real.cos (a / 2) := by
      rw [Real.sin_sub_sin]; congr 3 <;> ring
    have s := Real.sin_nonneg_of_nonneg_of_le_pi (x := b / 2) (by linarith) (by linarith)
    have c := Real.cos_nonneg_of_neg_pi_div_two_le_of_le (x := a / 2) (by linarith) (by linarith)
    have := mul_nonneg s c
    linarith
  have e3 : 2 / Real.pi * ((a - b) / 2) ≤ Real.sin ((a - b) / 2) := Real.mul_le_sin (by linarith) (by linarith)
  have e4 : 0 ≤ 2 / Real.pi * ((a - b) / 2) := mul_nonneg (by positivity) (by linarith)
  have e5 : 2 * ((a - b) / Real.pi) ^ 2 ≤ y - x := by
    have h1 := mul_le_mul e3 e3 e4 (e4.trans e3)
    have h2 := mul_le_mul_of_nonneg_right e2 (e4.trans e3)
    have : 2 / Real.pi * ((a - b) / 2) * (2 / Real.pi * ((a - b) / 2)) = ((a - b) / Real.pi) ^ 2 := by ring
    rw [this] at h1
    rw [e1]; linarith
  rw [abs_of_nonneg (by linarith), abs_sub_comm, abs_of_nonneg (by linarith)]
  have e6 : (a - b) / Real.pi ≤ Real.sqrt ((y - x) / 2) := by
    apply Real.le_sqrt_of_sq_le; linarith
  rw [div_le_iff₀ hpi] at e6
  linarith

theorem clip_rd (h : Rounding rnd u) (x : Rd rnd) {y e : ℝ} (hy : -1 ≤ y ∧ y ≤ 1) (hx : |x.val - y| ≤ e) :
    (-1 ≤ (clip x).val ∧ (clip x).val ≤ 1) ∧ |(clip x).val - y| ≤ e := by
  have ho : (Num.lit 1 : Rd rnd).val = 1 := by rw [Rd.val_lit]; push_cast; exact h.one
  have hm : (Num.lit (-1) : Rd rnd).val = -1 := by
    rw [Rd.val_lit]; push_cast; simpa using h.int (-1) (by norm_num)
  unfold clip
  simp only [Rd.lt_iff, ho]
  rw [abs_le] at hx
  split
  · rw [if_neg (by rw [ho, hm]; norm_num), ho, abs_le]
    refine ⟨by norm_num, ?_, ?_⟩ <;> linarith [hx.1, hx.2]
  · split
    · rw [hm, abs_le] at *
      refine ⟨by norm_num, ?_, ?_⟩ <;> linarith [hx.1, hx.2]
    · rw [hm] at *
      rw [abs_le]
      refine ⟨⟨?_, ?_⟩, hx⟩ <;> linarith

theorem angle_cos_bounds (v w : V3 ℝ) (hv : v ≠ zero3) (hw : w ≠ zero3) :
    -1 ≤ inner3 v w / (len3 v * len3 w) ∧ inner3 v w / (len3 v * len3 w) ≤ 1 := by
  have hp := mul_pos (len3_pos hv) (len3_pos hw)
  have := abs_terms_le v w
  have h2 : |inner3 v w| ≤ len3 v * len3 w := by
    refine le_trans ?_ this
    unfold inner3
    exact abs_add_three _ _ _
  rw [abs_le] at h2
  constructor
  · rw [le_div_iff₀ hp]; linarith [h2.1]
  · rw [div_le_iff₀ hp]; linarith [h2.2]

/-- the inner product of the normalised vectors -/
theorem cos_rd (h : Rounding rnd u) (hu : 11 * u < 1) (v w : V3 (Rd rnd)) (hv : Rd.vec v ≠ zero3) (hw : Rd.vec w ≠ zero3) :
    |((normalize3 v).dot (normalize3 w)).val - inner3 (Rd.vec v) (Rd.vec w) / (len3 (Rd.vec v) * len3 (Rd.vec w))| ≤ gam u 11 := by
  have l1 := h.lt_one
  have lv := len3_pos hv
  have lw := len3_pos hw
  obtain ⟨t1, t2, t3, k1, k2, k3, e⟩ := dot_rd h (normalize3 v) (normalize3 w)
  obtain ⟨a1, m1, f1⟩ := normalize3_factor h v v.x
  obtain ⟨a2, m2, f2⟩ := normalize3_factor h v v.y
  obtain ⟨a3, m3, f3⟩ := normalize3_factor h v v.z
  obtain ⟨b1, n1, g1⟩ := normalize3_factor h w w.x
  obtain ⟨b2, n2, g2⟩ := normalize3_factor h w w.y
  obtain ⟨b3, n3, g3⟩ := normalize3_factor h w w.z
  have c1 := factor_err (x := v.x.val / len3 (Rd.vec v) * (w.x.val / len3 (Rd.vec w))) (k := 11) h (by push_cast; linarith)
    ((m1.mul l1 n1).mul l1 k1)
  have c2 := factor_err (x := v.y.val / len3 (Rd.vec v) * (w.y.val / len3 (Rd.vec w))) (k := 11) h (by push_cast; linarith)
    ((m2.mul l1 n2).mul l1 k2)
  have c3 := factor_err (x := v.z.val / len3 (Rd.vec v) * (w.z.val / len3 (Rd.vec w))) (k := 11) h (by push_cast; linarith)
    (((m3.mul l1 n3).mul l1 k3).mono h.nonneg l1 (by norm_num))
  have hg := gam_nonneg (k := 11) h.nonneg (by push_cast; linarith)
  have ht : |v.x.val / len3 (Rd.vec v) * (w.x.val / len3 (Rd.vec w))| + |v.y.val / len3 (Rd.vec v) * (w.y.val / len3 (Rd.vec w))| +
      |v.z.val / len3 (Rd.vec v) * (w.z.val / len3 (Rd.vec w))| ≤ 1 := by
    have := abs_terms_le (Rd.vec v) (Rd.vec w)
    have hc : ∀ p q : ℝ, |p / len3 (Rd.vec v) * (q / len3 (Rd.vec w))| = |p * q| / (len3 (Rd.vec v) * len3 (Rd.vec w)) := by
      intro p q
      rw [div_mul_div_comm, abs_div, abs_of_pos (mul_pos lv lw)]
    rw [hc, hc, hc, ← add_div, ← add_div, div_le_one (mul_pos lv lw)]
    exact this
  have hsum := mul_le_mul_of_nonneg_left ht hg
  have e1 : (normalize3 v).x = v.x / v.norm := rfl
  have e2 : (normalize3 v).y = v.y / v.norm := rfl
  have e3 : (normalize3 v).z = v.z / v.norm := rfl
  have e4 : (normalize3 w).x = w.x / w.norm := rfl
  have e5 : (normalize3 w).y = w.y / w.norm := rfl
  have e6 : (normalize3 w).z = w.z / w.norm := rfl
  rw [e, e1, e2, e3, e4, e5, e6, f1, f2, f3, g1, g2, g3]
  have ei : inner3 (Rd.vec v) (Rd.vec w) / (len3 (Rd.vec v) * len3 (Rd.vec w)) =
      v.x.val / len3 (Rd.vec v) * (w.x.val / len3 (Rd.vec w)) + v.y.val / len3 (Rd.vec v) * (w.y.val / len3 (Rd.vec w)) +
      v.z.val / len3 (Rd.vec v) * (w.z.val / len3 (Rd.vec w)) := by
    simp only [inner3, Rd.vec_x, Rd.vec_y, Rd.vec_z]; field_simp
  rw [ei]
  generalize v.x.val / len3 (Rd.vec v) = vx at *
  generalize v.y.val / len3 (Rd.vec v) = vy at *
  generalize v.z.val / len3 (Rd.vec v) = vz at *
  generalize w.x.val / len3 (Rd.vec w) = wx at *
  generalize w.y.val / len3 (Rd.vec w) = wy at *
  generalize w.z.val / len3 (Rd.vec w) = wz at *
  have e7 : vx * a1 * (wx * b1) * t1 + vy * a2 * (wy * b2) * t2 + vz * a3 * (wz * b3) * t3 - (vx * wx + vy * wy + vz * wz) =
      (vx * wx * (a1 * b1 * t1) - vx * wx) + (vy * wy * (a2 * b2 * t2) - vy * wy) + (vz * wz * (a3 * b3 * t3) - vz * wz) := by ring
  rw [e7]
  refine (abs_add_three _ _ _).trans ?_
  linarith

/-- the exact angle in degrees -/
noncomputable def degreesBetween (v w : V3 ℝ) : ℝ := Real.arccos (inner3 v w / (len3 v * len3 w)) * (180 / Real.pi)

/-- **C87.** The angle in rounded arithmetic is right up to `180 (gam u 4 + sqrt (gam u 11 / 2))` degrees, whatever the
vectors. -/
theorem C87_error (h : Rounding rnd u) (hu : 11 * u < 1) (v w : V3 (Rd rnd)) (hv : Rd.vec v ≠ zero3) (hw : Rd.vec w ≠ zero3) :
    |(angle v w).val - degreesBetween (Rd.vec v) (Rd.vec w)| ≤ 180 * (gam u 4 + Real.sqrt (gam u 11 / 2)) := by
  have l1 := h.lt_one
  have hpi := Real.pi_pos
  have hc := cos_rd h hu v w hv hw
  have hb := angle_cos_bounds _ _ hv hw
  obtain ⟨hcl, hce⟩ := clip_rd h _ hb hc
  obtain ⟨c, ec⟩ : ∃ c, c = (clip ((normalize3 v).dot (normalize3 w))).val := ⟨_, rfl⟩
  rw [← ec] at hcl hce
  have h1 := arccos_holder hcl hb
  have h2 : |Real.arccos c - Real.arccos (inner3 (Rd.vec v) (Rd.vec w) / (len3 (Rd.vec v) * len3 (Rd.vec w)))| ≤
      Real.pi * Real.sqrt (gam u 11 / 2) :=
    h1.trans (mul_le_mul_of_nonneg_left (Real.sqrt_le_sqrt (by linarith)) hpi.le)
  have h180 : (Num.lit 180 : Rd rnd).val = 180 := by rw [Rd.val_lit]; simpa using h.int 180 (by norm_num)
  have hval : (angle v w).val = rnd (rnd (Real.arccos c) * rnd (180 / rnd Real.pi)) := by
    rw [ec]
    show rnd (rnd _ * rnd ((Num.lit 180 : Rd rnd).val / rnd Real.pi)) = _
    rw [h180]
  obtain ⟨d1, n1, e1⟩ := h.factor (Real.arccos c)
  obtain ⟨d2, n2, e2⟩ := h.factor Real.pi
  obtain ⟨d3, n3, e3⟩ := h.factor (180 / (Real.pi * d2))
  obtain ⟨d4, n4, e4⟩ := h.factor (Real.arccos c * d1 * (180 / (Real.pi * d2) * d3))
  have hd2 := n2.pos l1
  have hv' : (angle v w).val = Real.arccos c * (180 / Real.pi) * (d1 / d2 * d3 * d4) := by
    rw [hval, e1, e2, e3, e4]; field_simp
  have f := factor_err (x := Real.arccos c * (180 / Real.pi)) (k := 4) h (by push_cast; linarith [h.nonneg])
    (((n1.div l1 n2).mul l1 n3).mul l1 n4)
  rw [← hv'] at f
  have a0 := Real.arccos_nonneg c
  have a1 := Real.arccos_le_pi c
  have hA : |Real.arccos c * (180 / Real.pi)| ≤ 180 := by
    rw [abs_of_nonneg (mul_nonneg a0 (by positivity)), mul_div_assoc', div_le_iff₀ hpi]
    linarith
  have g4 := gam_nonneg (k := 4) h.nonneg (by push_cast; linarith [h.nonneg])
  have f' := f.trans (mul_le_mul_of_nonneg_left hA g4)
  have h3 : |Real.arccos c * (180 / Real.pi) - degreesBetween (Rd.vec v) (Rd.vec w)| ≤ 180 * Real.sqrt (gam u 11 / 2) := by
    unfold degreesBetween
    rw [← sub_mul, abs_mul, abs_of_pos (by positivity : 0 < 180 / Real.pi), mul_div_assoc', div_le_iff₀ hpi]
    linarith
  calc _ = |((angle v w).val - Real.arccos c * (180 / Real.pi)) + (Real.arccos c * (180 / Real.pi) - degreesBetween (Rd.vec v) (Rd.vec w))| := by
        congr 1; ring
    _ ≤ _ := abs_add_le _ _
    _ ≤ _ := by linarith

/-- **C87.** In doubles: at most 5 millionths of a degree. -/
theorem C87_doubles (v w : V3 (Rd rnd53)) (hv : Rd.vec v ≠ zero3) (hw : Rd.vec w ≠ zero3) :
    |(angle v w).val - degreesBetween (Rd.vec v) (Rd.vec w)| ≤ 5 / 1000000 := by
  refine (C87_error rounding_rnd53 (by norm_num) v w hv hw).trans ?_
  have g4 : gam (1 / 2 ^ 53) 4 ≤ 1 / 10 ^ 15 := by norm_num [gam]
  have g11 : Real.sqrt (gam (1 / 2 ^ 53) 11 / 2) ≤ 25 / 10 ^ 9 := by
    apply Real.sqrt_le_iff.mpr
    norm_num [gam]
  norm_num at g4 g11 ⊢
  linarith

/-- **C87.** In doubles the angle is between 0 and 180, both included, whatever the vectors. -/
theorem C87_range (v w : V3 (Rd rnd53)) : 0 ≤ (angle v w).val ∧ (angle v w).val ≤ 180 := by
  have h := rounding_rnd53
  have p1 := Real.pi_gt_d20
  have p2 := Real.pi_lt_d20
  have hpi : rnd53 Real.pi = 7074237752028440 * (2 : ℝ) ^ (-51 : ℤ) := by
    rw [rnd53_eval Real.pi 7074237752028440 (-51)]
    · norm_num
    · norm_num; linarith
    · norm_num; linarith
    · norm_num [abs_lt] at p1 p2 ⊢
      constructor <;> linarith
  have hq : rnd53 (180 / (7074237752028440 * (2 : ℝ) ^ (-51 : ℤ))) = 8063664102031864 * (2 : ℝ) ^ (-47 : ℤ) := by
    rw [rnd53_eval _ 8063664102031864 (-47) (by norm_num) (by norm_num) (by norm_num [abs_lt])]
    norm_num
  have hr : rnd53 (7074237752028440 * (2 : ℝ) ^ (-51 : ℤ) * (8063664102031864 * (2 : ℝ) ^ (-47 : ℤ))) = 180 := by
    rw [rnd53_eval _ (180 * 2 ^ 45) (-45) (by norm_num) (by norm_num) (by norm_num [abs_lt])]
    norm_num
  have h180 : (Num.lit 180 : Rd rnd53).val = 180 := by rw [Rd.val_lit]; simpa using h.int 180 (by norm_num)
  obtain ⟨c, ec⟩ : ∃ c, c = (clip ((normalize3 v).dot (normalize3 w))).val := ⟨_, rfl⟩
  have hval : (angle v w).val = rnd53 (rnd53 (Real.arccos c) * (8063664102031864 * (2 : ℝ) ^ (-47 : ℤ))) := by
    rw [ec, ← hq, ← hpi]
    show rnd53 (rnd53 _ * rnd53 ((Num.lit 180 : Rd rnd53).val / rnd53 Real.pi)) = _
    rw [h180]
  have a0 : 0 ≤ rnd53 (Real.arccos c) := (h.nonneg_iff _).mpr (Real.arccos_nonneg c)
  have a1 : rnd53 (Real.arccos c) ≤ rnd53 Real.pi := h.mono (Real.arccos_le_pi c)
  rw [hval]
  constructor
  · rw [h.nonneg_iff]; positivity
  · rw [← hr, ← hpi]
    exact h.mono (mul_le_mul_of_nonneg_right a1 (by positivity))

/-- **C87.** Small angles are lost: in doubles the angle between (1, 0, 0) and (1, 2^-28, 0) is 0. -/
theorem C87_lost : rnd53 (1 / 2 ^ 28) = 1 / 2 ^ 28 ∧
    (angle (⟨⟨1⟩, ⟨1 / 2 ^ 28⟩, ⟨0⟩⟩ : V3 (Rd rnd53)) ⟨⟨1⟩, ⟨0⟩, ⟨0⟩⟩).val = 0 ∧
    0 < degreesBetween ⟨1, 1 / 2 ^ 28, 0⟩ ⟨1, 0, 0⟩ := by
  have h := rounding_rnd53
  have z : rnd53 0 = 0 := h.zero
  have o : rnd53 1 = 1 := h.one
  have g : rnd53 (1 / 2 ^ 28) = 1 / 2 ^ 28 := by
    have := rnd53_grid 1 (-28) (by norm_num); norm_num at this ⊢; exact this
  have g2 : rnd53 (1 / 2 ^ 28 * (1 / 2 ^ 28)) = 1 / 2 ^ 56 := by
    have := rnd53_grid 1 (-56) (by norm_num); norm_num at this ⊢; exact this
  have g3 : rnd53 (1 + 1 / 2 ^ 56) = 1 := by
    rw [rnd53_eval _ 4503599627370496 (-52) (by norm_num) (by norm_num) (by norm_num [abs_lt])]; norm_num
  have hp : (0 : ℝ) < 1 / 2 ^ 28 := by norm_num
  refine ⟨g, ?_, ?_⟩
  · generalize (1 : ℝ) / 2 ^ 28 = s at *
    have n1 : normalize3 (⟨⟨1⟩, ⟨s⟩, ⟨0⟩⟩ : V3 (Rd rnd53)) = ⟨⟨1⟩, ⟨s⟩, ⟨0⟩⟩ := by
      ext <;> simp only [normalize3, V3.sdiv, V3.norm, V3.dot, Rd.val_div, Rd.val_sqrt, Rd.val_add, Rd.val_mul, mul_one, mul_zero, z, o, g2,
        g3, add_zero, Real.sqrt_one, div_one, g]
    have n2 : normalize3 (⟨⟨1⟩, ⟨0⟩, ⟨0⟩⟩ : V3 (Rd rnd53)) = ⟨⟨1⟩, ⟨0⟩, ⟨0⟩⟩ := by
      ext <;> simp [normalize3, V3.sdiv, V3.norm, V3.dot, z, o]
    have d : V3.dot (⟨⟨1⟩, ⟨s⟩, ⟨0⟩⟩ : V3 (Rd rnd53)) ⟨⟨1⟩, ⟨0⟩, ⟨0⟩⟩ = ⟨1⟩ := by
      apply Rd.ext; simp [V3.dot, z, o]
    have ho : (Num.lit 1 : Rd rnd53).val = 1 := by rw [Rd.val_lit]; push_cast; exact o
    have hm : (Num.lit (-1) : Rd rnd53).val = -1 := by
      rw [Rd.val_lit]; push_cast; simpa using h.int (-1) (by norm_num)
    have c : clip (⟨1⟩ : Rd rnd53) = ⟨1⟩ := by
      unfold clip
      have n : ¬ (Num.lt (Num.lit 1) (⟨1⟩ : Rd rnd53) = true) := by rw [Rd.lt_iff, ho]; norm_num
      simp only [if_neg n]
      rw [if_neg (by rw [Rd.lt_iff, hm]; norm_num)]
    unfold angle
    rw [n1, n2, d]
    simp only [c]
    show rnd53 (rnd53 (Real.arccos 1) * _) = 0
    rw [Real.arccos_one, z, zero_mul, z]
  · unfold degreesBetween
    have hpi := Real.pi_pos
    apply mul_pos _ (by positivity)
    rw [Real.arccos_pos]
    have h2 : len3 ⟨1, 0, 0⟩ = 1 := by simp [len3]
    have h3 : 1 < len3 ⟨1, 1 / 2 ^ 28, 0⟩ := by
      unfold len3
      rw [show (1 : ℝ) = Real.sqrt 1 by simp]
      apply Real.sqrt_lt_sqrt <;> norm_num
    have h4 : inner3 ⟨1, 1 / 2 ^ 28, 0⟩ ⟨1, 0, 0⟩ = 1 := by norm_num [inner3]
    rw [h2, h4, mul_one, div_lt_one (by linarith)]
    exact h3

/-- Non-vacuity of `C87_error`. -/
example : Rd.vec (⟨⟨1⟩, ⟨0⟩, ⟨0⟩⟩ : V3 (Rd rnd53)) ≠ zero3 ∧ 11 * ((1 : ℝ) / 2 ^ 53) < 1 := by
  constructor
  · intro h
    have := congrArg V3.x h
    simp [zero3] at this
  · norm_num

end Blmath.Props
