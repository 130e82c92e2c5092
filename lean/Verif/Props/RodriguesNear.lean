import Verif.Props.Rodrigues

/-!
Property C52, continued: how far `as_rotation_matrix` can be off near half turns, and everywhere.
-/

namespace Blmath.Props
open Blmath.Geometry Blmath.Spec

/-- the axis computed near half turns, in plain arithmetic -/
theorem halfTurnAxis_real (R : Mat 3 3 ℝ) : ∃ ax ay az az' : ℝ,
    ax = Real.sqrt ((R 0 0 + 1) / 2) ∧
    ay = (if R 0 1 < 0 then -Real.sqrt ((R 1 1 + 1) / 2) else Real.sqrt ((R 1 1 + 1) / 2)) ∧
    az = (if R 0 2 < 0 then -Real.sqrt ((R 2 2 + 1) / 2) else Real.sqrt ((R 2 2 + 1) / 2)) ∧
    az' = (if (|ax| < |ay| ∧ |ax| < |az|) ∧ ¬ (0 < R 1 2 ↔ 0 < ay * az) then -az else az) ∧
    halfTurnAxis R = ⟨ax, ay, az'⟩ := by
  refine ⟨_, _, _, _, rfl, rfl, rfl, rfl, ?_⟩
  unfold halfTurnAxis
  have hb : ∀ (p q : ℝ), (¬ Num.lt 0 p = Num.lt 0 q) ↔ ¬ (0 < p ↔ 0 < q) := by
    intro p q
    rw [← Num.lt_real, ← Num.lt_real, Bool.eq_iff_iff]
  simp only [halfTurnComp_real, npAbs_real', Num.lt_real, Bool.and_eq_true, bne_iff_ne, ne_eq, Num.lit_real, Rat.cast_zero, hb]

/-- a rotation with nonzero sine, from its axis and angle -/
theorem rot_axis_form {R : Mat 3 3 ℝ} (hR : IsRotation R) (hlp : 0 < len3 (sinAxis R)) :
    axisMat (scale3 (len3 (sinAxis R))⁻¹ (sinAxis R)) (cosOf R) (len3 (sinAxis R)) = R := by
  have hsq := cos_sin_sq hR
  obtain ⟨e00, e11, e22, e01, e02, e12⟩ := rot_entries hR
  rw [inner3_self] at hsq
  have hc1 : 1 + cosOf R ≠ 0 := by
    intro h
    have : cosOf R = -1 := by linarith
    rw [this] at hsq
    nlinarith
  have hl2 : len3 (sinAxis R) ^ 2 = (1 - cosOf R) * (1 + cosOf R) := by rw [hsq]; ring
  have hcne : 1 - cosOf R ≠ 0 := by
    intro h; rw [h, zero_mul] at hl2
    nlinarith
  have hl : len3 (sinAxis R) ≠ 0 := hlp.ne'
  have hpq : ∀ a b e : ℝ, (1 + cosOf R) * e = a * b →
      (1 - cosOf R) * ((len3 (sinAxis R))⁻¹ * a * ((len3 (sinAxis R))⁻¹ * b)) = e := by
    intro a b e h
    have : (1 - cosOf R) * ((len3 (sinAxis R))⁻¹ * a * ((len3 (sinAxis R))⁻¹ * b)) =
        (1 - cosOf R) * (a * b) / len3 (sinAxis R) ^ 2 := by field_simp
    rw [this, hl2, ← h]
    field_simp
  have hlin : ∀ a : ℝ, len3 (sinAxis R) * ((len3 (sinAxis R))⁻¹ * a) = a := by
    intro a; field_simp
  have x00 := hpq _ _ _ (show (1 + cosOf R) * (R 0 0 - cosOf R) = (sinAxis R).x * (sinAxis R).x by rw [e00]; ring)
  have x11 := hpq _ _ _ (show (1 + cosOf R) * (R 1 1 - cosOf R) = (sinAxis R).y * (sinAxis R).y by rw [e11]; ring)
  have x22 := hpq _ _ _ (show (1 + cosOf R) * (R 2 2 - cosOf R) = (sinAxis R).z * (sinAxis R).z by rw [e22]; ring)
  have x01 := hpq _ _ _ e01
  have x02 := hpq _ _ _ e02
  have x12 := hpq _ _ _ e12
  have x10 := hpq _ _ _ (show _ = (sinAxis R).y * (sinAxis R).x by rw [mul_comm (sinAxis R).y]; exact e01)
  have x20 := hpq _ _ _ (show _ = (sinAxis R).z * (sinAxis R).x by rw [mul_comm (sinAxis R).z]; exact e02)
  have x21 := hpq _ _ _ (show _ = (sinAxis R).z * (sinAxis R).y by rw [mul_comm (sinAxis R).z]; exact e12)
  ext i j
  fin_cases i <;> fin_cases j <;> simp only [axisMat, scale3, Fin.zero_eta, Fin.mk_one, Fin.reduceFinMk, Matrix.of_apply,
      Matrix.cons_val_zero, Matrix.cons_val_one, Matrix.cons_val, hlin]
  · rw [x00]; ring
  · rw [x01]; simp only [sinAxis]; ring
  · rw [x02]; simp only [sinAxis]; ring
  · rw [x10]; simp only [sinAxis]; ring
  · rw [x11]; ring
  · rw [x12]; simp only [sinAxis]; ring
  · rw [x20]; simp only [sinAxis]; ring
  · rw [x21]; simp only [sinAxis]; ring
  · rw [x22]; ring

/-- a rotation by at least a quarter turn has an axis -/
theorem rot_axis_exists {R : Mat 3 3 ℝ} (hR : IsRotation R) (hc : cosOf R ≤ 0) :
    ∃ n, inner3 n n = 1 ∧ R = axisMat n (cosOf R) (len3 (sinAxis R)) := by
  rcases (len3_nonneg (sinAxis R)).lt_or_eq with h | h
  · exact ⟨_, unit_inv_scale h, (rot_axis_form hR h).symm⟩
  · have h1 : cosOf R = -1 := by
      have := cos_sin_sq hR
      rw [inner3_self, ← h] at this
      have h2 := (cos_bounds hR).1
      nlinarith
    obtain ⟨h2, h3⟩ := halfTurnAxis_spec hR h1
    exact ⟨_, h2, by rw [h1, ← h]; exact h3.symm⟩

/-- where the product of two components of the computed axis has the wrong sign, the product was small -/
theorem wrong_small (n0 n1 n2 m0 m1 m2 m2' p12 q Q : ℝ) (hm : n0 ≠ 0 → m0 ≠ 0)
    (hm1 : |m0| < |m1| ↔ |n0| < |n1|) (hm2 : |m0| < |m2| ↔ |n0| < |n2|)
    (h01 : m0 * m1 * (n0 * n1) < 0 → |n0 * n1| ≤ q) (h02 : m0 * m2 * (n0 * n2) < 0 → |n0 * n2| ≤ q)
    (h12 : (0 < p12 ∧ n1 * n2 < 0) ∨ (p12 ≤ 0 ∧ 0 < n1 * n2) → |n1 * n2| ≤ q)
    (hm2' : m2' = if (|m0| < |m1| ∧ |m0| < |m2|) ∧ ¬ (0 < p12 ↔ 0 < m1 * m2) then -m2 else m2)
    (hq : q ≤ Q) (hQ : q ≤ Q ^ 2) (hQ0 : 0 ≤ Q) (b0 : |n0| ≤ 1) (b1 : |n1| ≤ 1) (b2 : |n2| ≤ 1) :
    (m0 * m1 * (n0 * n1) < 0 → |n0 * n1| ≤ Q) ∧ (m0 * m2' * (n0 * n2) < 0 → |n0 * n2| ≤ Q) ∧
      (m1 * m2' * (n1 * n2) < 0 → |n1 * n2| ≤ Q) := by
  have mono : ∀ a b c : ℝ, |a| ≤ |b| → |b * c| ≤ q → |a * c| ≤ q := by
    intro a b c h1 h2
    rw [abs_mul] at h2 ⊢
    exact (mul_le_mul_of_nonneg_right h1 (abs_nonneg _)).trans h2
  have root : ∀ a b c : ℝ, |a| ≤ |b| → |c| ≤ 1 → |b * a| ≤ q → |a * c| ≤ Q := by
    intro a b c h1 hc h2
    rw [abs_mul] at h2 ⊢
    have h3 : |a| ^ 2 ≤ Q ^ 2 := by nlinarith [abs_nonneg a]
    have h4 : |a| ≤ Q := by
      have := abs_le_of_sq_le_sq h3 hQ0
      rwa [abs_abs] at this
    calc |a| * |c| ≤ |a| * 1 := mul_le_mul_of_nonneg_left hc (abs_nonneg _)
      _ ≤ Q := by linarith
  refine ⟨fun h => (h01 h).trans hq, ?_⟩
  by_cases hf : (|m0| < |m1| ∧ |m0| < |m2|) ∧ ¬ (0 < p12 ↔ 0 < m1 * m2)
  · rw [if_pos hf] at hm2'
    subst hm2'
    obtain ⟨⟨f1, f2⟩, f3⟩ := hf
    have g1 := hm1.mp f1
    have g2 := hm2.mp f2
    have hm12 : m1 * m2 ≠ 0 := by
      apply mul_ne_zero
      · rintro rfl; rw [abs_zero] at f1; exact absurd f1 (not_lt.mpr (abs_nonneg _))
      · rintro rfl; rw [abs_zero] at f2; exact absurd f2 (not_lt.mpr (abs_nonneg _))
    have w12 : m1 * -m2 * (n1 * n2) < 0 → |n1 * n2| ≤ q := by
      intro h
      apply h12
      by_cases hp : 0 < p12
      · left
        refine ⟨hp, ?_⟩
        have : ¬ 0 < m1 * m2 := fun h' => f3 ⟨fun _ => h', fun _ => hp⟩
        have : m1 * m2 < 0 := lt_of_le_of_ne (not_lt.mp this) hm12
        by_contra hn
        rw [not_lt] at hn
        nlinarith
      · right
        refine ⟨not_lt.mp hp, ?_⟩
        have : 0 < m1 * m2 := by
          by_contra h'
          exact f3 ⟨fun h'' => absurd h'' hp, fun h'' => absurd h'' h'⟩
        by_contra hn
        rw [not_lt] at hn
        nlinarith
    refine ⟨?_, fun h => (w12 h).trans hq⟩
    intro h
    by_cases h' : m1 * -m2 * (n1 * n2) < 0
    · exact (mono n0 n1 n2 g1.le (w12 h')).trans hq
    · have hwrong : m0 * m1 * (n0 * n1) < 0 := by
        have h3 : 0 < m1 * -m2 * (n1 * n2) := by
          refine lt_of_le_of_ne (not_lt.mp h') (Ne.symm ?_)
          have hn1 : n1 ≠ 0 := by rintro rfl; rw [abs_zero] at g1; exact absurd g1 (not_lt.mpr (abs_nonneg _))
          have hn2 : n2 ≠ 0 := by rintro rfl; rw [abs_zero] at g2; exact absurd g2 (not_lt.mpr (abs_nonneg _))
          exact mul_ne_zero (by rw [mul_neg]; exact neg_ne_zero.mpr hm12) (mul_ne_zero hn1 hn2)
        by_contra hc
        rw [not_lt] at hc
        have e : (m0 * -m2 * (n0 * n2)) * (m1 * -m2 * (n1 * n2)) = (m2 * n2) ^ 2 * (m0 * m1 * (n0 * n1)) := by ring
        have l : (m0 * -m2 * (n0 * n2)) * (m1 * -m2 * (n1 * n2)) < 0 := mul_neg_of_neg_of_pos h h3
        rw [e] at l
        exact absurd l (not_lt.mpr (mul_nonneg (sq_nonneg _) hc))
      have := h01 hwrong
      rw [mul_comm] at this
      exact root n0 n1 n2 g1.le b2 this
  · rw [if_neg hf] at hm2'
    subst hm2'
    refine ⟨fun h => (h02 h).trans hq, ?_⟩
    intro h
    have hn12 : n1 * n2 ≠ 0 := by rintro h0; rw [h0, mul_zero] at h; exact lt_irrefl _ h
    by_cases hs : 0 < p12 ↔ 0 < m1 * m2'
    · refine (h12 ?_).trans hq
      by_cases hp : 0 < p12
      · left
        have := hs.mp hp
        refine ⟨hp, ?_⟩
        by_contra hn
        rw [not_lt] at hn
        nlinarith
      · right
        have : ¬ 0 < m1 * m2' := fun h' => hp (hs.mpr h')
        refine ⟨not_lt.mp hp, ?_⟩
        by_contra hn
        rw [not_lt] at hn this
        nlinarith
    · have hlt : ¬ (|n0| < |n1| ∧ |n0| < |n2|) := fun h' => hf ⟨⟨hm1.mpr h'.1, hm2.mpr h'.2⟩, hs⟩
      have hn1 : n1 ≠ 0 := left_ne_zero_of_mul hn12
      have hn2 : n2 ≠ 0 := right_ne_zero_of_mul hn12
      have hor : |n1| ≤ |n0| ∨ |n2| ≤ |n0| := by
        by_contra hc
        push_neg at hc
        exact hlt hc
      have hn0 : n0 ≠ 0 := by
        rintro rfl
        rw [abs_zero] at hor
        rcases hor with h' | h'
        · exact hn1 (abs_nonpos_iff.mp h')
        · exact hn2 (abs_nonpos_iff.mp h')
      have hm0 := hm hn0
      have hw : m0 * m1 * (n0 * n1) < 0 ∨ m0 * m2' * (n0 * n2) < 0 := by
        by_contra hc
        push_neg at hc
        have e : (m0 * m1 * (n0 * n1)) * (m0 * m2' * (n0 * n2)) = (m0 * n0) ^ 2 * (m1 * m2' * (n1 * n2)) := by ring
        have l := mul_nonneg hc.1 hc.2
        rw [e] at l
        have : 0 < (m0 * n0) ^ 2 := by positivity
        nlinarith
      rcases hor with ho | ho <;> rcases hw with hw | hw
      · exact root n1 n0 n2 ho b2 (h01 hw)
      · exact (mono n1 n0 n2 ho (h02 hw)).trans hq
      · rw [mul_comm n1 n2]
        exact (mono n2 n0 n1 ho (h01 hw)).trans hq
      · rw [mul_comm n1 n2]
        exact root n2 n0 n1 ho b1 (h02 hw)

/-- the size of a product of components of the computed axis -/
theorem prod_size (a b x y e s : ℝ) (he : 0 ≤ e) (he2 : 2 * e ≤ s ^ 2) (hs : 0 ≤ s) (hs1 : s ≤ 1) (a2 : a ^ 2 ≤ 1) (b2 : b ^ 2 ≤ 1)
    (hx : x ^ 2 = a ^ 2 + e * (1 - a ^ 2)) (hy : y ^ 2 = b ^ 2 + e * (1 - b ^ 2)) :
    |a * b| ≤ |x * y| ∧ |x * y| ≤ |a * b| + s ∧ |x * y| ≤ 1 := by
  have he1 : e ≤ 1 / 2 := by nlinarith
  have a0 := sq_nonneg a
  have b0 := sq_nonneg b
  have x2 : x ^ 2 ≤ 1 := by nlinarith
  have y2 : y ^ 2 ≤ 1 := by nlinarith
  have hsq : |x * y| ^ 2 = (a ^ 2 + e * (1 - a ^ 2)) * (b ^ 2 + e * (1 - b ^ 2)) := by
    rw [sq_abs, mul_pow, hx, hy]
  have hN : |a * b| ^ 2 = a ^ 2 * b ^ 2 := by rw [sq_abs, mul_pow]
  have ea : 0 ≤ e * (1 - a ^ 2) := mul_nonneg he (by linarith)
  have eb : 0 ≤ e * (1 - b ^ 2) := mul_nonneg he (by linarith)
  refine ⟨?_, ?_, ?_⟩
  · refine (abs_le_of_sq_le_sq' ?_ (abs_nonneg _)).2
    rw [hsq, hN]
    exact mul_le_mul (by linarith) (by linarith) b0 (by linarith)
  · refine (abs_le_of_sq_le_sq' ?_ (by positivity)).2
    obtain ⟨A, hA⟩ : ∃ A, A = a ^ 2 := ⟨_, rfl⟩
    obtain ⟨B, hB⟩ : ∃ B, B = b ^ 2 := ⟨_, rfl⟩
    obtain ⟨N, hNN⟩ : ∃ N, N = |a * b| := ⟨_, rfl⟩
    have N0 : 0 ≤ N := by rw [hNN]; exact abs_nonneg _
    rw [← hNN, ← hA, ← hB] at hN
    rw [hsq, ← hA, ← hB, ← hNN]
    rw [← hA] at a2 a0
    rw [← hB] at b2 b0
    have h1 : A * (1 - B) + B * (1 - A) ≤ 1 := by nlinarith
    have h2 : (1 - A) * (1 - B) ≤ 1 := by nlinarith
    have h3 : e * (A * (1 - B) + B * (1 - A)) ≤ e * 1 := mul_le_mul_of_nonneg_left h1 he
    have h4 : e * e * ((1 - A) * (1 - B)) ≤ e * e * 1 := mul_le_mul_of_nonneg_left h2 (by positivity)
    have h5 : 0 ≤ N * s := by positivity
    have h6 : (A + e * (1 - A)) * (B + e * (1 - B)) =
        N ^ 2 + e * (A * (1 - B) + B * (1 - A)) + e * e * ((1 - A) * (1 - B)) := by
      rw [hN]; ring
    have h7 : e * e ≤ e := by nlinarith
    rw [h6, add_sq]
    linarith
  · refine (abs_le_of_sq_le_sq' ?_ zero_le_one).2
    rw [sq_abs, mul_pow, one_pow]
    exact mul_le_one₀ x2 (sq_nonneg y) y2

theorem abs_sub_same {p r : ℝ} (h : 0 ≤ p * r) : |p - r| = |(|p| - |r|)| := by
  rcases lt_trichotomy p 0 with h1 | h1 | h1
  · have h2 : r ≤ 0 := by by_contra hc; rw [not_le] at hc; nlinarith
    rw [abs_of_neg h1, abs_of_nonpos h2, ← abs_neg]; congr 1; ring
  · rw [h1]; simp
  · have h2 : 0 ≤ r := by by_contra hc; rw [not_le] at hc; nlinarith
    rw [abs_of_pos h1, abs_of_nonneg h2]

/-- products of components of the computed axis against those of the true one -/
theorem prod_err (a b x y e s Q : ℝ) (he : 0 ≤ e) (he2 : 2 * e ≤ s ^ 2) (hs : 0 ≤ s) (hs1 : s ≤ 1) (a2 : a ^ 2 ≤ 1) (b2 : b ^ 2 ≤ 1)
    (hx : x ^ 2 = a ^ 2 + e * (1 - a ^ 2)) (hy : y ^ 2 = b ^ 2 + e * (1 - b ^ 2)) (hQ : 0 ≤ Q)
    (hw : x * y * (a * b) < 0 → |a * b| ≤ Q) : |x * y / (1 + 2 * e) - a * b| ≤ 2 * Q + s + s ^ 2 := by
  obtain ⟨low, up, hxy⟩ := prod_size a b x y e s he he2 hs hs1 a2 b2 hx hy
  clear hx hy a2 b2
  generalize x * y = p at *
  generalize a * b = r at *
  have d : |p - r| ≤ 2 * Q + s := by
    by_cases h : p * r < 0
    · have h1 := hw h
      have h2 := abs_sub p r
      linarith
    · rw [not_lt] at h
      rw [abs_sub_same h, abs_of_nonneg (by linarith)]
      linarith
  have hne : 1 + 2 * e ≠ 0 := by positivity
  have e1 : p / (1 + 2 * e) - r = (p - r) - p * (2 * e / (1 + 2 * e)) := by
    field_simp
    ring
  have h0 : 0 ≤ 2 * e / (1 + 2 * e) := by positivity
  have h1 : 2 * e / (1 + 2 * e) ≤ s ^ 2 := by
    rw [div_le_iff₀ (by positivity)]
    have := mul_nonneg he (sq_nonneg s)
    linarith
  have h2 : |p| * (2 * e / (1 + 2 * e)) ≤ 1 * s ^ 2 := mul_le_mul hxy h1 h0 zero_le_one
  rw [e1]
  refine (abs_sub _ _).trans ?_
  rw [abs_mul, abs_of_nonneg h0]
  linarith

/-- a sign taken from an off-diagonal entry is wrong only for small products -/
theorem entry_small (c s p k r : ℝ) (hs0 : 0 ≤ s) (hs : s < 1 / 100000) (hc : 1 + c ≤ s ^ 2) (hk : |k| ≤ 1)
    (hr : r = (1 - c) * p + s * k) (h : (r ≤ 0 ∧ 0 ≤ p) ∨ (0 ≤ r ∧ p ≤ 0)) : |p| ≤ 51 / 10000000 := by
  obtain ⟨k1, k2⟩ := abs_le.mp hk
  have hs2 : s ^ 2 ≤ 1 / 10000000000 := by nlinarith
  have hc2 : 199 / 100 + 8 / 1000 ≤ 1 - c := by linarith
  have sk : s * k ≤ s := by nlinarith
  have sk' : -s ≤ s * k := by nlinarith
  rw [abs_le]
  rcases h with ⟨h1, h2⟩ | ⟨h1, h2⟩
  · refine ⟨by linarith, ?_⟩
    by_contra hn
    rw [not_le] at hn
    nlinarith
  · refine ⟨?_, by linarith⟩
    by_contra hn
    rw [not_le] at hn
    nlinarith

theorem axisMat_near {n m : V3 ℝ} {c s B : ℝ} (hc0 : -1 ≤ c) (hc : c ≤ 0) (hs : 0 ≤ s)
    (hn : inner3 n n = 1) (hm : inner3 m m = 1)
    (h : |m.x * m.x - n.x * n.x| ≤ B ∧ |m.y * m.y - n.y * n.y| ≤ B ∧ |m.z * m.z - n.z * n.z| ≤ B ∧
      |m.x * m.y - n.x * n.y| ≤ B ∧ |m.x * m.z - n.x * n.z| ≤ B ∧ |m.y * m.z - n.y * n.z| ≤ B) (i j : Fin 3) :
    |axisMat m c s i j - axisMat n c s i j| ≤ 2 * B + 2 * s := by
  obtain ⟨h1, h2, h3, h4, h5, h6⟩ := h
  have comp : ∀ w : V3 ℝ, inner3 w w = 1 → |w.x| ≤ 1 ∧ |w.y| ≤ 1 ∧ |w.z| ≤ 1 := by
    intro w hw
    simp only [inner3] at hw
    refine ⟨?_, ?_, ?_⟩ <;> (rw [← sq_le_one_iff_abs_le_one]; nlinarith [sq_nonneg w.x, sq_nonneg w.y, sq_nonneg w.z])
  obtain ⟨m1, m2, m3⟩ := comp m hm
  obtain ⟨n1, n2, n3⟩ := comp n hn
  have hB : 0 ≤ B := (abs_nonneg _).trans h1
  have main : ∀ p k l : ℝ, |p| ≤ B → |k| ≤ 1 → |l| ≤ 1 → |(1 - c) * p + s * (k - l)| ≤ 2 * B + 2 * s := by
    intro p k l hp hk hl
    have e1 : |(1 - c) * p| ≤ 2 * B := by
      rw [abs_mul, abs_of_nonneg (by linarith)]
      exact mul_le_mul (by linarith) hp (abs_nonneg _) (by norm_num)
    have e2 : |s * (k - l)| ≤ 2 * s := by
      rw [abs_mul, abs_of_nonneg hs]
      have := abs_sub k l
      nlinarith
    exact (abs_add_le _ _).trans (by linarith)
  fin_cases i <;> fin_cases j <;> simp only [axisMat, Fin.zero_eta, Fin.mk_one, Fin.reduceFinMk, Matrix.of_apply,
      Matrix.cons_val_zero, Matrix.cons_val_one, Matrix.cons_val]
  · have := main _ 0 0 h1 (by simp) (by simp)
    convert this using 2; ring
  · have := main _ _ _ h4 n3 m3
    convert this using 2; ring
  · have := main _ _ _ h5 m2 n2
    convert this using 2; ring
  · have := main _ _ _ h4 m3 n3
    convert this using 2; ring
  · have := main _ 0 0 h2 (by simp) (by simp)
    convert this using 2; ring
  · have := main _ _ _ h6 n1 m1
    convert this using 2; ring
  · have := main _ _ _ h5 n2 m2
    convert this using 2; ring
  · have := main _ _ _ h6 m1 n1
    convert this using 2; ring
  · have := main _ 0 0 h3 (by simp) (by simp)
    convert this using 2; ring

theorem cmp_size {e : ℝ} (he1 : 0 < 1 - e) (a b x y : ℝ) (h1 : x ^ 2 = a ^ 2 + e * (1 - a ^ 2))
    (h2 : y ^ 2 = b ^ 2 + e * (1 - b ^ 2)) : |x| < |y| ↔ |a| < |b| := by
  rw [← sq_lt_sq, ← sq_lt_sq, h1, h2]
  have : b ^ 2 + e * (1 - b ^ 2) - (a ^ 2 + e * (1 - a ^ 2)) = (1 - e) * (b ^ 2 - a ^ 2) := by ring
  constructor
  · intro h
    have h3 : 0 < (1 - e) * (b ^ 2 - a ^ 2) := by rw [← this]; linarith
    have := (mul_pos_iff_of_pos_left he1).mp h3
    linarith
  · intro h
    have : 0 < (1 - e) * (b ^ 2 - a ^ 2) := mul_pos he1 (by linarith)
    linarith

theorem sgn_small {c s ax : ℝ} (hs0 : 0 ≤ s) (hs : s < 1 / 100000) (hc : 1 + c ≤ s ^ 2) (ax0 : 0 ≤ ax) (r p k y : ℝ)
    (hk : |k| ≤ 1) (hr : r = (1 - c) * p + s * k) (hy : 0 ≤ y) (h : ax * (if r < 0 then -y else y) * p < 0) :
    |p| ≤ 51 / 10000000 := by
  refine entry_small c s p k r hs0 hs hc hk hr ?_
  have hxy := mul_nonneg ax0 hy
  split_ifs at h with hr0
  · left
    refine ⟨hr0.le, ?_⟩
    by_contra hp
    have := mul_nonneg hxy (neg_nonneg.mpr (not_le.mp hp).le)
    linarith
  · right
    refine ⟨not_lt.mp hr0, ?_⟩
    by_contra hp
    have := mul_nonneg hxy (not_le.mp hp).le
    linarith

/-- the computed axis near half turns, against the true one -/
theorem halfTurnAxis_near {R : Mat 3 3 ℝ} (hR : IsRotation R) (hs : len3 (sinAxis R) < 1 / 100000) (hc : cosOf R ≤ 0) :
    ∃ n, inner3 n n = 1 ∧ R = axisMat n (cosOf R) (len3 (sinAxis R)) ∧ 0 < len3 (halfTurnAxis R) ∧
      ∀ i j, |axisMat (scale3 (len3 (halfTurnAxis R))⁻¹ (halfTurnAxis R)) (cosOf R) (len3 (sinAxis R)) i j - R i j| ≤ 1 / 100 := by
  obtain ⟨n, hn, hRn⟩ := rot_axis_exists hR hc
  have hcs := cos_sin_sq hR
  rw [inner3_self] at hcs
  have hc0 := (cos_bounds hR).1
  have hs0 := len3_nonneg (sinAxis R)
  generalize len3 (sinAxis R) = s at *
  generalize cosOf R = c at *
  obtain ⟨ax, ay, az, az', e1, e2, e3, e4, e5⟩ := halfTurnAxis_real R
  refine ⟨n, hn, hRn, ?_⟩
  rw [e5]
  obtain ⟨e, he⟩ : ∃ e, e = (1 + c) / 2 := ⟨_, rfl⟩
  have he0 : 0 ≤ e := by rw [he]; linarith
  have he2 : 2 * e ≤ s ^ 2 := by rw [he]; nlinarith
  have hs2 : s ^ 2 ≤ 1 / 10000000000 := by nlinarith
  have hn' : n.x ^ 2 + n.y ^ 2 + n.z ^ 2 = 1 := by rw [← hn]; simp only [inner3]; ring
  have nx := sq_nonneg n.x
  have ny := sq_nonneg n.y
  have nz := sq_nonneg n.z
  have nx1 : n.x ^ 2 ≤ 1 := by linarith
  have ny1 : n.y ^ 2 ≤ 1 := by linarith
  have nz1 : n.z ^ 2 ≤ 1 := by linarith
  have r00 : (R 0 0 + 1) / 2 = n.x ^ 2 + e * (1 - n.x ^ 2) := by rw [hRn, he]; simp [axisMat]; ring
  have r11 : (R 1 1 + 1) / 2 = n.y ^ 2 + e * (1 - n.y ^ 2) := by rw [hRn, he]; simp [axisMat]; ring
  have r22 : (R 2 2 + 1) / 2 = n.z ^ 2 + e * (1 - n.z ^ 2) := by rw [hRn, he]; simp [axisMat]; ring
  have r01 : R 0 1 = (1 - c) * (n.x * n.y) + s * -n.z := by rw [hRn]; simp [axisMat]; ring
  have r02 : R 0 2 = (1 - c) * (n.x * n.z) + s * n.y := by rw [hRn]; simp [axisMat]
  have r12 : R 1 2 = (1 - c) * (n.y * n.z) + s * -n.x := by rw [hRn]; simp [axisMat]; ring
  have p0 : 0 ≤ n.x ^ 2 + e * (1 - n.x ^ 2) := add_nonneg nx (mul_nonneg he0 (by linarith))
  have p1 : 0 ≤ n.y ^ 2 + e * (1 - n.y ^ 2) := add_nonneg ny (mul_nonneg he0 (by linarith))
  have p2 : 0 ≤ n.z ^ 2 + e * (1 - n.z ^ 2) := add_nonneg nz (mul_nonneg he0 (by linarith))
  have m0 : ax ^ 2 = n.x ^ 2 + e * (1 - n.x ^ 2) := by rw [e1, r00]; exact Real.sq_sqrt p0
  have m1 : ay ^ 2 = n.y ^ 2 + e * (1 - n.y ^ 2) := by
    rw [e2, r11]; split_ifs
    · rw [neg_sq]; exact Real.sq_sqrt p1
    · exact Real.sq_sqrt p1
  have m2 : az ^ 2 = n.z ^ 2 + e * (1 - n.z ^ 2) := by
    rw [e3, r22]; split_ifs
    · rw [neg_sq]; exact Real.sq_sqrt p2
    · exact Real.sq_sqrt p2
  have m2' : az' ^ 2 = n.z ^ 2 + e * (1 - n.z ^ 2) := by
    rw [e4]; split_ifs
    · rw [neg_sq, m2]
    · exact m2
  have bx : |n.x| ≤ 1 := by rwa [← sq_le_one_iff_abs_le_one]
  have hby : |n.y| ≤ 1 := by rwa [← sq_le_one_iff_abs_le_one]
  have bz : |n.z| ≤ 1 := by rwa [← sq_le_one_iff_abs_le_one]
  have he1 : 0 < 1 - e := by linarith
  have ax0 : 0 ≤ ax := by rw [e1]; exact Real.sqrt_nonneg _
  have cmp := cmp_size he1
  have sgn := sgn_small hs0 hs (show 1 + c ≤ s ^ 2 by linarith) ax0
  obtain ⟨w1, w2, w3⟩ := wrong_small n.x n.y n.z ax ay az az' (R 1 2) (51 / 10000000) (23 / 10000)
    (by
      intro h h0
      rw [h0] at m0
      have : 0 < n.x ^ 2 := by positivity
      have := mul_nonneg he0 (show 0 ≤ 1 - n.x ^ 2 by linarith)
      linarith)
    (cmp _ _ _ _ m0 m1) (cmp _ _ _ _ m0 m2)
    (by rw [e2]; exact sgn _ _ _ _ (by rwa [abs_neg]) r01 (Real.sqrt_nonneg _))
    (by rw [e3]; exact sgn _ _ _ _ hby r02 (Real.sqrt_nonneg _))
    (by
      intro h
      refine entry_small c s _ _ _ hs0 hs (by linarith) (by rwa [abs_neg]) r12 ?_
      rcases h with ⟨h1, h2⟩ | ⟨h1, h2⟩
      · exact Or.inr ⟨h1.le, h2.le⟩
      · exact Or.inl ⟨h1, h2.le⟩)
    e4 (by norm_num) (by norm_num) (by norm_num) bx hby bz
  have hlen : ax ^ 2 + ay ^ 2 + az' ^ 2 = 1 + 2 * e := by
    rw [m0, m1, m2']
    linear_combination (1 - e) * hn'
  obtain ⟨L, hL⟩ : ∃ L, L = len3 (⟨ax, ay, az'⟩ : V3 ℝ) := ⟨_, rfl⟩
  have hL2 : L ^ 2 = 1 + 2 * e := by
    rw [hL, len3, Real.sq_sqrt (by positivity)]; exact hlen
  have hLp : 0 < L := by
    rcases (len3_nonneg (⟨ax, ay, az'⟩ : V3 ℝ)).lt_or_eq with h | h
    · rwa [hL]
    · rw [← hL] at h; rw [← h] at hL2; nlinarith
  rw [← hL]
  refine ⟨hLp, fun i j => ?_⟩
  have hdiv : ∀ x y : ℝ, L⁻¹ * x * (L⁻¹ * y) = x * y / (1 + 2 * e) := by
    intro x y; rw [← hL2]; field_simp
  have hB : (23 : ℝ) / 10000 ≥ 0 := by norm_num
  have hs1 : s ≤ 1 := by linarith
  have E := fun (a b x y : ℝ) (ha : a ^ 2 ≤ 1) (hb : b ^ 2 ≤ 1) (hx) (hy) (hw) => prod_err a b x y e s (23 / 10000) he0 he2 hs0 hs1 ha hb hx hy hB hw
  have nw : ∀ x a : ℝ, x * x * (a * a) < 0 → |a * a| ≤ 23 / 10000 := by
    intro x a h
    have := mul_nonneg (mul_self_nonneg x) (mul_self_nonneg a)
    linarith
  rw [hRn]
  refine (axisMat_near (B := 2 * (23 / 10000) + s + s ^ 2) hc0 hc hs0 hn ?_ ?_ i j).trans ?_
  · simp only [inner3, scale3, hdiv]
    rw [← add_div, ← add_div, div_eq_one_iff_eq (by positivity), ← hlen]; ring
  · simp only [scale3, hdiv]
    exact ⟨E _ _ _ _ nx1 nx1 m0 m0 (nw _ _), E _ _ _ _ ny1 ny1 m1 m1 (nw _ _), E _ _ _ _ nz1 nz1 m2' m2' (nw _ _),
      E _ _ _ _ nx1 ny1 m0 m1 w1, E _ _ _ _ nx1 nz1 m0 m2' w2, E _ _ _ _ ny1 nz1 m1 m2' w3⟩
  · linarith

/-- what `as_rotation_matrix` makes of a rotation near a half turn -/
theorem near_result (svd : Svd3 ℝ) (R u v : Mat 3 3 ℝ) (s : Fin 3 → ℝ) (hR : IsRotation R)
    (hsvd : svd R = .ok (u, s, v)) (hspec : SvdSpec R u s v)
    (hsmall : len3 (sinAxis R) < 1 / 100000) (hc : cosOf R ≤ 0) (hlp : 0 < len3 (halfTurnAxis R)) :
    asRotationMatrix svd (.mat R) =
      .ok (axisMat (scale3 (len3 (halfTurnAxis R))⁻¹ (halfTurnAxis R)) (cosOf R) (len3 (sinAxis R))) ∧
    IsRotation (axisMat (scale3 (len3 (halfTurnAxis R))⁻¹ (halfTurnAxis R)) (cosOf R) (len3 (sinAxis R))) := by
  have hpi := Real.pi_gt_three
  have hang : Real.pi / 2 ≤ Real.arccos (cosOf R) := by
    rw [Real.arccos_eq_pi_div_two_sub_arcsin]
    have := Real.arcsin_nonpos.mpr hc
    linarith
  have hb := cos_bounds hR
  have hcs := cos_sin_sq hR
  rw [inner3_self] at hcs
  have hsin : Real.sin (Real.arccos (cosOf R)) = len3 (sinAxis R) := by
    rw [Real.sin_arccos, ← hcs, Real.sqrt_sq (len3_nonneg _)]
  obtain ⟨r, hr⟩ : ∃ r, r = scale3 (Real.arccos (cosOf R) / len3 (halfTurnAxis R)) (halfTurnAxis R) := ⟨_, rfl⟩
  have hap : 0 < Real.arccos (cosOf R) := by linarith
  have hlr : len3 r = Real.arccos (cosOf R) := by
    rw [hr, len3_scale, abs_of_pos (by positivity)]
    field_simp
  have hexp : rodriguesExp r = axisMat (scale3 (len3 (halfTurnAxis R))⁻¹ (halfTurnAxis R)) (cosOf R) (len3 (sinAxis R)) := by
    rw [rodriguesExp_big r (by rw [hlr]; have : eps ≤ (1 : ℝ) := (by simp [eps]; norm_num); linarith), hlr,
      Real.cos_arccos hb.1 hb.2, hsin]
    congr 1
    rw [hr]
    ext <;> simp only [scale3] <;> field_simp
  rw [← hexp]
  refine ⟨?_, C51_rotation r⟩
  unfold asRotationMatrix
  simp only
  rw [rodriguesLog_rot hR hsvd hspec]
  simp only [ok_bind, pure_eq_ok]
  rw [logOrth_eq hR, if_pos hsmall, if_neg (by linarith), ← hr]

/-- **C52.** Near half turns `as_rotation_matrix` may change the rotation, but every entry of the result is within
1/100 of the entry given, and the result is a rotation. -/
theorem C52_near (svd : Svd3 ℝ) (R u v : Mat 3 3 ℝ) (s : Fin 3 → ℝ) (hR : IsRotation R)
    (hsvd : svd R = .ok (u, s, v)) (hspec : SvdSpec R u s v)
    (hsmall : len3 (sinAxis R) < 1 / 100000) (hc : cosOf R ≤ 0) :
    ∃ R', asRotationMatrix svd (.mat R) = .ok R' ∧ IsRotation R' ∧ ∀ i j, |R' i j - R i j| ≤ 1 / 100 := by
  obtain ⟨n, hn, hRn, hlp, hnear⟩ := halfTurnAxis_near hR hsmall hc
  obtain ⟨h1, h2⟩ := near_result svd R u v s hR hsvd hspec hsmall hc hlp
  exact ⟨_, h1, h2, hnear⟩

/-- rotations by a small angle are close to the identity -/
theorem small_near_one {R : Mat 3 3 ℝ} (hR : IsRotation R) (hs : len3 (sinAxis R) < 1 / 100000) (hc : 0 < cosOf R)
    (i j : Fin 3) : |(1 : Mat 3 3 ℝ) i j - R i j| ≤ 2 / 100000 := by
  have hcs := cos_sin_sq hR
  have hb := cos_bounds hR
  rw [inner3_self] at hcs
  obtain ⟨n, hn, hRn⟩ : ∃ n, inner3 n n = 1 ∧ R = axisMat n (cosOf R) (len3 (sinAxis R)) := by
    rcases (len3_nonneg (sinAxis R)).lt_or_eq with h | h
    · exact ⟨_, unit_inv_scale h, (rot_axis_form hR h).symm⟩
    · have h1 : cosOf R = 1 := by rw [← h] at hcs; nlinarith
      refine ⟨⟨1, 0, 0⟩, by simp [inner3], ?_⟩
      rw [h1, ← h]
      obtain ⟨e00, e11, e22, e01, e02, e12⟩ := rot_entries hR
      have hz : sinAxis R = zero3 := len3_eq_zero.mp h.symm
      rw [h1, hz] at e00 e11 e22
      rw [h1, hz] at e01 e02 e12
      have z1 := congrArg V3.x hz
      have z2 := congrArg V3.y hz
      have z3 := congrArg V3.z hz
      simp only [sinAxis, zero3] at z1 z2 z3 e00 e11 e22 e01 e02 e12
      ext i j
      fin_cases i <;> fin_cases j <;> simp [axisMat] <;> nlinarith
  have hs0 := len3_nonneg (sinAxis R)
  generalize len3 (sinAxis R) = s at *
  generalize cosOf R = c at *
  have h1c : 1 - c ≤ s ^ 2 := by nlinarith
  have hn' : n.x ^ 2 + n.y ^ 2 + n.z ^ 2 = 1 := by rw [← hn]; simp only [inner3]; ring
  have nx := sq_nonneg n.x
  have ny := sq_nonneg n.y
  have nz := sq_nonneg n.z
  have hs2 : s ^ 2 ≤ 1 / 100000 := by nlinarith
  have main : ∀ p k : ℝ, |p| ≤ 1 → |k| ≤ 1 → |(1 - c) * p + s * k| ≤ 2 / 100000 := by
    intro p k hp hk
    have e1 : |(1 - c) * p| ≤ (1 - c) * 1 := by
      rw [abs_mul, abs_of_nonneg (by linarith)]
      exact mul_le_mul_of_nonneg_left hp (by linarith)
    have e2 : |s * k| ≤ s * 1 := by
      rw [abs_mul, abs_of_nonneg hs0]
      exact mul_le_mul_of_nonneg_left hk hs0
    exact (abs_add_le _ _).trans (by linarith)
  have bx : |n.x| ≤ 1 := by rw [← sq_le_one_iff_abs_le_one]; linarith
  have hby : |n.y| ≤ 1 := by rw [← sq_le_one_iff_abs_le_one]; linarith
  have bz : |n.z| ≤ 1 := by rw [← sq_le_one_iff_abs_le_one]; linarith
  have mul1 : ∀ a b : ℝ, |a| ≤ 1 → |b| ≤ 1 → |a * b| ≤ 1 := by
    intro a b ha hb
    rw [abs_mul]; exact mul_le_one₀ ha (abs_nonneg _) hb
  have dia : ∀ a : ℝ, |a| ≤ 1 → |1 - a * a| ≤ 1 := by
    intro a ha
    have := mul1 a a ha ha
    have h0 := mul_self_nonneg a
    rw [abs_of_nonneg h0] at this
    rw [abs_le]; constructor <;> linarith
  have neg1 : ∀ a : ℝ, |a| ≤ 1 → |(-a)| ≤ 1 := by intro a ha; rwa [abs_neg]
  rw [hRn]
  fin_cases i <;> fin_cases j <;> simp only [axisMat, Fin.zero_eta, Fin.mk_one, Fin.reduceFinMk, Matrix.of_apply,
      Matrix.cons_val_zero, Matrix.cons_val_one, Matrix.cons_val, Matrix.one_apply, Fin.reduceEq, if_true, if_false, zero_ne_one, one_ne_zero]
  · convert main _ 0 (dia _ bx) (by simp) using 2; ring
  · convert main _ _ (neg1 _ (mul1 _ _ bx hby)) bz using 2; ring
  · convert main _ _ (neg1 _ (mul1 _ _ bx bz)) (neg1 _ hby) using 2; ring
  · convert main _ _ (neg1 _ (mul1 _ _ hby bx)) (neg1 _ bz) using 2; ring
  · convert main _ 0 (dia _ hby) (by simp) using 2; ring
  · convert main _ _ (neg1 _ (mul1 _ _ hby bz)) bx using 2; ring
  · convert main _ _ (neg1 _ (mul1 _ _ bz bx)) hby using 2; ring
  · convert main _ _ (neg1 _ (mul1 _ _ bz hby)) (neg1 _ bx) using 2; ring
  · convert main _ 0 (dia _ bz) (by simp) using 2; ring

/-- **C52.** Every rotation matrix goes through `as_rotation_matrix`, and comes back as a rotation each entry of
which is within 1/100 of the one given (within 2e-5 for rotations by less than a quarter turn). -/
theorem C52_always (svd : Svd3 ℝ) (R u v : Mat 3 3 ℝ) (s : Fin 3 → ℝ) (hR : IsRotation R)
    (hsvd : svd R = .ok (u, s, v)) (hspec : SvdSpec R u s v) :
    ∃ R', asRotationMatrix svd (.mat R) = .ok R' ∧ IsRotation R' ∧ (∀ i j, |R' i j - R i j| ≤ 1 / 100) ∧
      (1 < R 0 0 + R 1 1 + R 2 2 → ∀ i j, |R' i j - R i j| ≤ 2 / 100000) := by
  by_cases h : 1 / 100000 ≤ len3 (sinAxis R)
  · refine ⟨R, C52_exp_log svd R u v s hR hsvd hspec h, hR, ?_, ?_⟩ <;> intros <;> simp <;> norm_num
  · rw [not_le] at h
    by_cases hc : 0 < cosOf R
    · have hn := small_near_one hR h hc
      refine ⟨1, C52_small_angle svd R u v s hR hsvd hspec h hc, ⟨by simp, by simp⟩, fun i j => (hn i j).trans (by norm_num), fun _ => hn⟩
    · rw [not_lt] at hc
      obtain ⟨R', h1, h2, h3⟩ := C52_near svd R u v s hR hsvd hspec h hc
      refine ⟨R', h1, h2, h3, fun ht => ?_⟩
      unfold cosOf at hc
      linarith

/-- **C52.** The bound is nearly attained: a rotation just short of a half turn, an entry of which is changed by
more than 69/10000, from above 0.0039 to below -0.003. The matrix meets the hypotheses of `C52_near`. -/
theorem C52_near_large : ∃ R R' : Mat 3 3 ℝ, IsRotation R ∧
    asRotationMatrix (fun R => .ok (R, fun _ => 1, 1)) (.mat R) = .ok R' ∧ R' 1 2 < -3 / 1000 ∧ 39 / 10000 < R 1 2 := by
  obtain ⟨R, hRd⟩ : ∃ R : Mat 3 3 ℝ, R = !![-99999999997599 / 100000800002401, -180000000 / 100000800002401, 400001960000 / 100000800002401; 1780000000 / 100000800002401, -99999999997599 / 100000800002401, 399998040000 / 100000800002401; 399998040000 / 100000800002401, 400001960000 / 100000800002401, 99999200002401 / 100000800002401] := ⟨_, rfl⟩
  have h00 : R 0 0 = -99999999997599 / 100000800002401 := by rw [hRd]; simp
  have h11 : R 1 1 = -99999999997599 / 100000800002401 := by rw [hRd]; simp
  have h22 : R 2 2 = 99999200002401 / 100000800002401 := by rw [hRd]; simp
  have h01 : R 0 1 = -180000000 / 100000800002401 := by rw [hRd]; simp
  have h02 : R 0 2 = 400001960000 / 100000800002401 := by rw [hRd]; simp
  have h12 : R 1 2 = 399998040000 / 100000800002401 := by rw [hRd]; simp
  have h10 : R 1 0 = 1780000000 / 100000800002401 := by rw [hRd]; simp
  have h20 : R 2 0 = 399998040000 / 100000800002401 := by rw [hRd]; simp
  have h21 : R 2 1 = 400001960000 / 100000800002401 := by rw [hRd]; simp
  have hR : IsRotation R := by
    constructor
    · ext i j
      fin_cases i <;> fin_cases j <;>
        simp only [Fin.zero_eta, Fin.mk_one, Fin.reduceFinMk, Matrix.mul_apply, Fin.sum_univ_three, Matrix.transpose_apply,
          h00, h01, h02, h10, h11, h12, h20, h21, h22, Matrix.one_apply, Fin.reduceEq, if_true, if_false] <;> norm_num
    · rw [Matrix.det_fin_three, h00, h01, h02, h10, h11, h12, h20, h21, h22]
      norm_num
  have hc : cosOf R = ((-99999999997599 / 100000800002401) + (-99999999997599 / 100000800002401) + (99999200002401 / 100000800002401) - 1) / 2 := by rw [cosOf, h00, h11, h22]
  have hs : len3 (sinAxis R) < 1 / 100000 := by
    rw [len3, Real.sqrt_lt' (by norm_num)]
    simp only [sinAxis, h01, h02, h12, h10, h20, h21]
    norm_num
  have hc0 : cosOf R ≤ 0 := by rw [hc]; norm_num
  obtain ⟨ax, ay, az, az', e1, e2, e3, e4, e5⟩ := halfTurnAxis_real R
  rw [if_pos (by rw [h01]; norm_num)] at e2
  rw [if_neg (by rw [h02]; norm_num)] at e3
  have hxy : ay = -ax := by rw [e1, e2, h00, h11]
  rw [if_neg (by
    rintro ⟨⟨h, _⟩, _⟩
    rw [hxy, abs_neg] at h
    exact lt_irrefl _ h)] at e4
  obtain ⟨n, hn, hRn, hlp, hnear⟩ := halfTurnAxis_near hR hs hc0
  obtain ⟨r1, r2⟩ := near_result (fun R => .ok (R, fun _ => 1, 1)) R _ _ _ hR rfl (svd_of_rotation hR) hs hc0 hlp
  refine ⟨R, _, hR, r1, ?_, by rw [h12]; norm_num⟩
  rw [e5, e4]
  rw [e5, e4] at hlp
  have ax2 : ax ^ 2 = (-99999999997599 / 100000800002401 + 1) / 2 := by rw [e1, h00]; exact Real.sq_sqrt (by norm_num)
  have az2 : az ^ 2 = (99999200002401 / 100000800002401 + 1) / 2 := by rw [e3, h22]; exact Real.sq_sqrt (by norm_num)
  have ax0 : 0 ≤ ax := by rw [e1]; exact Real.sqrt_nonneg _
  have az0 : 0 ≤ az := by rw [e3]; exact Real.sqrt_nonneg _
  have hxl : 19 / 10000 ≤ ax := by
    refine le_of_sq_le_sq ?_ ax0
    rw [ax2]; norm_num
  have hzl : 99 / 100 ≤ az := by
    refine le_of_sq_le_sq ?_ az0
    rw [az2]; norm_num
  have hl2 : len3 (⟨ax, ay, az⟩ : V3 ℝ) ^ 2 ≤ 101 / 100 := by
    rw [len3, Real.sq_sqrt (by positivity), hxy, neg_sq]
    simp only
    rw [ax2, az2]; norm_num
  generalize len3 (⟨ax, ay, az⟩ : V3 ℝ) = L at *
  have hs0 := len3_nonneg (sinAxis R)
  generalize len3 (sinAxis R) = s at *
  have hc1 : 19 / 10 ≤ 1 - cosOf R := by rw [hc]; norm_num
  generalize cosOf R = c at *
  simp only [axisMat, scale3, Matrix.of_apply, Matrix.cons_val, Matrix.cons_val_one]
  rw [hxy]
  have q1 : L⁻¹ * -ax * (L⁻¹ * az) = -(ax * az / L ^ 2) := by field_simp
  have q2 : 18 / 10000 ≤ ax * az / L ^ 2 := by
    rw [le_div_iff₀ (by positivity)]
    nlinarith
  have q3 : 0 ≤ s * (L⁻¹ * ax) := by positivity
  rw [q1]
  nlinarith

end Blmath.Props
