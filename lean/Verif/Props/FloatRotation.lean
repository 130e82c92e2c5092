import Verif.Props.FloatError
import Verif.Props.RodriguesExp

/-!
Property C85: the rotation matrix of a vector in rounded arithmetic.
-/

namespace Blmath.Props
open Blmath.Spec Blmath.Geometry
variable {rnd : ℝ → ℝ} {u : ℝ}

/-- the coordinates of a rounded vector -/
def coords (r : V3 (Rd rnd)) : Fin 3 → ℝ := ![r.x.val, r.y.val, r.z.val]

theorem vec_coords (r : V3 (Rd rnd)) : vec (coords r) = Rd.vec r := rfl

/-- one entry: every term with its error factor -/
theorem rot_entry (h : Rounding rnd u) (hu : 16 * u < 1) (θ δ o p k κ t s : ℝ) (hδ : 0 ≤ δ) (ht : Near u 11 t) (hs : Near u 5 s)
    (ho : o = p * t) (hk : k = κ * s) :
    |rnd (rnd (rnd (rnd (Real.cos θ) * δ) + rnd (rnd (1 - rnd (Real.cos θ)) * o)) + rnd (rnd (Real.sin θ) * k)) -
      (Real.cos θ * δ + (1 - Real.cos θ) * p + Real.sin θ * κ)| ≤ gam u 16 * (δ + 2 * |p| + |κ|) := by
  have l1 := h.lt_one
  have hu' : ((16 : ℕ) : ℝ) * u < 1 := by push_cast; linarith
  obtain ⟨C, hC⟩ : ∃ C, C = Real.cos θ := ⟨_, rfl⟩
  obtain ⟨S, hS⟩ : ∃ S, S = Real.sin θ := ⟨_, rfl⟩
  have hc1 : |C| ≤ 1 := by rw [hC]; exact Real.abs_cos_le_one θ
  have hs1 : |S| ≤ 1 := by rw [hS]; exact Real.abs_sin_le_one θ
  rw [← hC, ← hS, ho, hk]
  obtain ⟨d1, n1, e1⟩ := h.factor C
  rw [e1]
  obtain ⟨d2, n2, e2⟩ := h.factor (C * d1 * δ)
  rw [e2]
  obtain ⟨d3, n3, e3⟩ := h.factor (1 - C * d1)
  rw [e3]
  obtain ⟨d4, n4, e4⟩ := h.factor ((1 - C * d1) * d3 * (p * t))
  rw [e4]
  obtain ⟨d5, n5, e5⟩ := h.factor (C * d1 * δ * d2 + (1 - C * d1) * d3 * (p * t) * d4)
  rw [e5]
  obtain ⟨d6, n6, e6⟩ := h.factor S
  rw [e6]
  obtain ⟨d7, n7, e7⟩ := h.factor (S * d6 * (κ * s))
  rw [e7]
  obtain ⟨d8, n8, e8⟩ := h.factor ((C * d1 * δ * d2 + (1 - C * d1) * d3 * (p * t) * d4) * d5 + S * d6 * (κ * s) * d7)
  rw [e8]
  have m1 : Near u 16 (d1 * d2 * d5 * d8) :=
    (((n1.mul l1 n2).mul l1 n5).mul l1 n8).mono h.nonneg l1 (by norm_num)
  have m2 : Near u 16 (t * d3 * d4 * d5 * d8) :=
    ((((ht.mul l1 n3).mul l1 n4).mul l1 n5).mul l1 n8).mono h.nonneg l1 (by norm_num)
  have m3 : Near u 16 (t * d3 * d4 * d5 * d8 * d1) :=
    (((((ht.mul l1 n3).mul l1 n4).mul l1 n5).mul l1 n8).mul l1 n1).mono h.nonneg l1 (by norm_num)
  have m4 : Near u 16 (s * d6 * d7 * d8) :=
    (((hs.mul l1 n6).mul l1 n7).mul l1 n8).mono h.nonneg l1 (by norm_num)
  have f1 := factor_err (x := C * δ) h hu' m1
  have f2 := factor_err (x := p) h hu' m2
  have f3 := factor_err (x := C * p) h hu' m3
  have f4 := factor_err (x := S * κ) h hu' m4
  have g := gam_nonneg (k := 16) h.nonneg hu'
  have a1 : |C * δ| ≤ δ := by
    rw [abs_mul, abs_of_nonneg hδ]; exact mul_le_of_le_one_left hδ hc1
  have a3 : |C * p| ≤ |p| := by rw [abs_mul]; exact mul_le_of_le_one_left (abs_nonneg _) hc1
  have a4 : |S * κ| ≤ |κ| := by rw [abs_mul]; exact mul_le_of_le_one_left (abs_nonneg _) hs1
  have b1 := f1.trans (mul_le_mul_of_nonneg_left a1 g)
  have b3 := f3.trans (mul_le_mul_of_nonneg_left a3 g)
  have b4 := f4.trans (mul_le_mul_of_nonneg_left a4 g)
  have e : ((C * d1 * δ * d2 + (1 - C * d1) * d3 * (p * t) * d4) * d5 + S * d6 * (κ * s) * d7) * d8 -
      (C * δ + (1 - C) * p + S * κ) =
      (C * δ * (d1 * d2 * d5 * d8) - C * δ) + (p * (t * d3 * d4 * d5 * d8) - p) -
      (C * p * (t * d3 * d4 * d5 * d8 * d1) - C * p) + (S * κ * (s * d6 * d7 * d8) - S * κ) := by ring
  have e' : gam u 16 * (δ + 2 * |p| + |κ|) = gam u 16 * δ + gam u 16 * |p| + gam u 16 * |p| + gam u 16 * |κ| := by ring
  rw [e, e']
  clear e e' e1 e2 e3 e4 e5 e6 e7 e8 m1 m2 m3 m4 a1 a3 a4 f1 f3 f4
  generalize C * δ * (d1 * d2 * d5 * d8) - C * δ = A at *
  generalize p * (t * d3 * d4 * d5 * d8) - p = B at *
  generalize C * p * (t * d3 * d4 * d5 * d8 * d1) - C * p = D at *
  generalize S * κ * (s * d6 * d7 * d8) - S * κ = E at *
  rw [abs_le] at b1 f2 b3 b4 ⊢
  constructor <;> linarith [b1.1, b1.2, f2.1, f2.2, b3.1, b3.2, b4.1, b4.2]

theorem axis_rd (h : Rounding rnd u) (r : V3 (Rd rnd)) (c : Rd rnd) (hp : r.norm.val ≠ 0) :
    ∃ t, Near u 5 t ∧ (itheta r.norm * c).val = (len3 (Rd.vec r))⁻¹ * c.val * t := by
  obtain ⟨t, ht, e⟩ := norm_rd h r
  have hz : (Num.lit 0 : Rd rnd).val = 0 := by rw [Rd.val_lit]; push_cast; exact h.zero
  have ho : (Num.lit 1 : Rd rnd).val = 1 := by rw [Rd.val_lit]; push_cast; exact h.one
  have hi : itheta r.norm = Num.lit 1 / r.norm := by
    unfold itheta
    rw [if_neg]
    rw [Rd.eq_iff, hz]; exact hp
  obtain ⟨d, hd, ed⟩ := h.factor (1 / (len3 (Rd.vec r) * t))
  obtain ⟨d', hd', ed'⟩ := h.factor (1 / (len3 (Rd.vec r) * t) * d * c.val)
  refine ⟨t⁻¹ * d * d', ((ht.inv h.lt_one).mul h.lt_one hd).mul h.lt_one hd', ?_⟩
  rw [hi, Rd.val_mul, Rd.val_div, ho, e, ed, ed', one_div, mul_inv]
  ring

theorem mul_rd (h : Rounding rnd u) {a b x y s t : ℝ} {k l : ℕ} (hs : Near u k s) (ht : Near u l t) (ha : a = x * s) (hb : b = y * t) :
    ∃ r, Near u (k + l + 1) r ∧ rnd (a * b) = x * y * r := by
  obtain ⟨d, hd, ed⟩ := h.factor (a * b)
  exact ⟨s * t * d, (hs.mul h.lt_one ht).mul h.lt_one hd, by rw [ed, ha, hb]; ring⟩

/-- the formula with the computed angle -/
theorem rot_formula (h : Rounding rnd u) (hu : 16 * u < 1) (r : V3 (Rd rnd)) (hb : (eps : Rd rnd).val ≤ r.norm.val) (i k : Fin 3) :
    |(rodriguesExp r i k).val - (Real.cos r.norm.val * (1 : Mat 3 3 ℝ) i k + (1 - Real.cos r.norm.val) * unitSq (coords r) i k +
      Real.sin r.norm.val * ((len3 (Rd.vec r))⁻¹ * crossMat (coords r) i k))| ≤
      gam u 16 * ((1 : Mat 3 3 ℝ) i k + 2 * |unitSq (coords r) i k| + |(len3 (Rd.vec r))⁻¹ * crossMat (coords r) i k|) := by
  have hz : (Num.lit 0 : Rd rnd).val = 0 := by rw [Rd.val_lit]; push_cast; exact h.zero
  have ho : (Num.lit 1 : Rd rnd).val = 1 := by rw [Rd.val_lit]; push_cast; exact h.one
  have he : 0 < (eps : Rd rnd).val := by
    unfold eps
    rw [Rd.val_lit, h.pos_iff]; norm_num
  have hp : r.norm.val ≠ 0 := by linarith
  have hlt : ¬ Num.lt r.norm (eps : Rd rnd) = true := by rw [Rd.lt_iff]; linarith
  obtain ⟨a, na, ea⟩ := axis_rd h r r.x hp
  obtain ⟨b, nb, eb⟩ := axis_rd h r r.y hp
  obtain ⟨c, nc, ec⟩ := axis_rd h r r.z hp
  have hneg : ∀ {x y t : ℝ}, x = y * t → -x = -y * t := by intro x y t e; rw [e]; ring
  have h0 : ∃ t, Near u 5 t ∧ (0 : ℝ) = (len3 (Rd.vec r))⁻¹ * 0 * t := ⟨1, near_one h 5, by ring⟩
  unfold rodriguesExp
  simp only [if_neg hlt]
  have hou : ∀ i k : Fin 3, ∃ t, Near u 11 t ∧ (outer (V3.smul (itheta r.norm) r) i k).val = unitSq (coords r) i k * t := by
    intro i k
    have g : ∀ {x y s t : ℝ} {p q : Rd rnd}, Near u 5 s → Near u 5 t → p.val = (len3 (Rd.vec r))⁻¹ * x * s →
        q.val = (len3 (Rd.vec r))⁻¹ * y * t → ∃ w, Near u 11 w ∧ (p * q).val = (len3 (Rd.vec r))⁻¹ ^ 2 * (x * y) * w := by
      intro x y s t p q hs ht ep eq
      obtain ⟨w, hw, e⟩ := mul_rd h hs ht ep eq
      exact ⟨w, hw, by rw [Rd.val_mul, e]; ring⟩
    fin_cases i <;> fin_cases k
    · exact g na na ea ea
    · exact g na nb ea eb
    · exact g na nc ea ec
    · exact g nb na eb ea
    · exact g nb nb eb eb
    · exact g nb nc eb ec
    · exact g nc na ec ea
    · exact g nc nb ec eb
    · exact g nc nc ec ec
  have hsk : ∀ i k : Fin 3, ∃ t, Near u 5 t ∧ (skew (V3.smul (itheta r.norm) r) i k).val =
      (len3 (Rd.vec r))⁻¹ * crossMat (coords r) i k * t := by
    intro i k
    have gn : ∀ {x s : ℝ} {p : Rd rnd}, Near u 5 s → p.val = (len3 (Rd.vec r))⁻¹ * x * s →
        ∃ w, Near u 5 w ∧ (-p).val = (len3 (Rd.vec r))⁻¹ * (-x) * w := by
      intro x s p hs ep
      exact ⟨s, hs, by rw [Rd.val_neg, ep]; ring⟩
    have gz : ∃ t, Near u 5 t ∧ (Num.lit 0 : Rd rnd).val = (len3 (Rd.vec r))⁻¹ * 0 * t := by rw [hz]; exact h0
    fin_cases i <;> fin_cases k
    · exact gz
    · exact gn nc ec
    · exact ⟨b, nb, eb⟩
    · exact ⟨c, nc, ec⟩
    · exact gz
    · exact gn na ea
    · exact gn nb eb
    · exact ⟨a, na, ea⟩
    · exact gz
  obtain ⟨t, ht, et⟩ := hou i k
  obtain ⟨s, hs, es⟩ := hsk i k
  have hδ : (Mat.eye 3 i k : Rd rnd).val = (1 : Mat 3 3 ℝ) i k := by
    simp only [Mat.eye, Matrix.of_apply, Matrix.one_apply]
    split
    · exact ho
    · exact hz
  have key := rot_entry h hu r.norm.val ((1 : Mat 3 3 ℝ) i k) _ _ _ _ t s (by rw [Matrix.one_apply]; split <;> norm_num) ht hs et es
  convert key using 3
  simp only [Mat.add, Mat.smul, Matrix.of_apply, Rd.val_add, Rd.val_mul, Rd.val_sub, ho, hδ]
  rfl

/-- **C85.** If the computed length is at least the machine epsilon, the matrix computed from `r` differs from the rotation
by the angle |r| about r by at most `3 gam u 16 + 2 gam u 3 |r|` in each entry. -/
theorem C85_matrix (h : Rounding rnd u) (hu : 16 * u < 1) (r : V3 (Rd rnd)) (hb : (eps : Rd rnd).val ≤ r.norm.val) (i k : Fin 3) :
    |(rodriguesExp r i k).val - rotMap (coords r) i k| ≤ 3 * gam u 16 + 2 * gam u 3 * len3 (Rd.vec r) := by
  have he : 0 < (eps : Rd rnd).val := by
    unfold eps
    rw [Rd.val_lit, h.pos_iff]; norm_num
  obtain ⟨t, ht, e⟩ := norm_rd h r
  have htp := ht.pos h.lt_one
  have hp : 0 < len3 (Rd.vec r) := by
    by_contra hc
    have : len3 (Rd.vec r) = 0 := le_antisymm (not_lt.mp hc) (len3_nonneg _)
    rw [this, zero_mul] at e
    linarith
  have h1 := rot_formula h hu r hb i k
  rw [rotMap_formula (coords r) (by rw [vec_coords]; exact hp.ne')]
  obtain ⟨p1, p2⟩ := unitSq_bound (coords r) (by rw [vec_coords]; exact hp) i k
  have p3 : |(len3 (Rd.vec r))⁻¹ * crossMat (coords r) i k| ≤ 1 := by
    rw [abs_mul, abs_inv, abs_of_pos hp, ← div_eq_inv_mul, div_le_one hp]
    exact crossMat_bound (coords r) i k
  have hsum : (1 : Mat 3 3 ℝ) i k + 2 * |unitSq (coords r) i k| + |(len3 (Rd.vec r))⁻¹ * crossMat (coords r) i k| ≤ 3 := by
    by_cases hik : i = k
    · subst hik
      have : crossMat (coords r) i i = 0 := by fin_cases i <;> simp [crossMat]
      rw [this, mul_zero, abs_zero, Matrix.one_apply_eq]; linarith
    · rw [Matrix.one_apply_ne hik]; linarith
  have g16 := gam_nonneg (k := 16) h.nonneg (by push_cast; linarith)
  have h2 := h1.trans (mul_le_mul_of_nonneg_left hsum g16)
  have hθ : |r.norm.val - len3 (Rd.vec r)| ≤ gam u 3 * len3 (Rd.vec r) := by
    have := factor_err (x := len3 (Rd.vec r)) h (by push_cast; linarith [h.nonneg]) ht
    rwa [abs_of_pos hp, ← e] at this
  have hcos : |Real.cos r.norm.val - Real.cos (len3 (Rd.vec r))| ≤ gam u 3 * len3 (Rd.vec r) :=
    (Real.abs_cos_sub_cos_le _ _).trans hθ
  have hsin : |Real.sin r.norm.val - Real.sin (len3 (Rd.vec r))| ≤ gam u 3 * len3 (Rd.vec r) :=
    (Real.abs_sin_sub_sin_le _ _).trans hθ
  have q1 : |(Real.cos r.norm.val - Real.cos (len3 (Rd.vec r))) * ((1 : Mat 3 3 ℝ) - unitSq (coords r)) i k| ≤
      gam u 3 * len3 (Rd.vec r) := by
    rw [abs_mul]
    calc _ ≤ gam u 3 * len3 (Rd.vec r) * 1 := mul_le_mul hcos p2 (abs_nonneg _) ((abs_nonneg _).trans hcos)
      _ = _ := mul_one _
  have q2 : |(Real.sin r.norm.val - Real.sin (len3 (Rd.vec r))) * ((len3 (Rd.vec r))⁻¹ * crossMat (coords r) i k)| ≤
      gam u 3 * len3 (Rd.vec r) := by
    rw [abs_mul]
    calc _ ≤ gam u 3 * len3 (Rd.vec r) * 1 := mul_le_mul hsin p3 (abs_nonneg _) ((abs_nonneg _).trans hsin)
      _ = _ := mul_one _
  simp only [Matrix.add_apply, Matrix.smul_apply, smul_eq_mul, vec_coords]
  rw [Matrix.sub_apply] at q1 ⊢
  rw [abs_le] at h2 q1 q2 ⊢
  constructor <;> nlinarith [h2.1, h2.2, q1.1, q1.2, q2.1, q2.2]

/-- **C85.** If the computed length is below the machine epsilon, the result is the identity, without rounding; it differs from the
rotation by at most twice the length in each entry. -/
theorem C85_small (h : Rounding rnd u) (hu : 4 * u < 1) (r : V3 (Rd rnd)) (hb : r.norm.val < (eps : Rd rnd).val) (i k : Fin 3) :
    (rodriguesExp r i k).val = (1 : Matrix (Fin 3) (Fin 3) ℝ) i k ∧ (1 - 3 * u) * len3 (Rd.vec r) < 1 / 2 ^ 52 ∧
    |(rodriguesExp r i k).val - rotMap (coords r) i k| ≤ 2 * len3 (Rd.vec r) := by
  have he : (eps : Rd rnd).val = 1 / 2 ^ 52 := by
    have := h.grid 1 (-52) (by norm_num)
    unfold eps
    rw [Rd.val_lit]
    norm_num at this ⊢
    exact this
  have hz : (Num.lit 0 : Rd rnd).val = 0 := by rw [Rd.val_lit]; push_cast; exact h.zero
  have ho : (Num.lit 1 : Rd rnd).val = 1 := by rw [Rd.val_lit]; push_cast; exact h.one
  have h1 : (rodriguesExp r i k).val = (1 : Matrix (Fin 3) (Fin 3) ℝ) i k := by
    unfold rodriguesExp
    rw [if_pos (by rw [Rd.lt_iff]; exact hb)]
    simp only [Mat.eye, Matrix.of_apply, Matrix.one_apply]
    split
    · exact ho
    · exact hz
  obtain ⟨t, ht, e⟩ := norm_rd h r
  have hl := len3_nonneg (Rd.vec r)
  have ht1 : 1 - 3 * u ≤ t := by
    have := one_add_mul_le_pow (a := -u) (by linarith [h.lt_one]) 3
    push_cast at this
    have h3 := ht.1
    rw [show 1 - u = 1 + -u by ring] at h3
    linarith
  have h2 : (1 - 3 * u) * len3 (Rd.vec r) < 1 / 2 ^ 52 := by
    have := mul_le_mul_of_nonneg_left ht1 hl
    rw [e, he] at hb
    linarith
  have h3 : len3 (Rd.vec r) ≤ 1 := by
    have : (1 / 4 : ℝ) * len3 (Rd.vec r) ≤ (1 - 3 * u) * len3 (Rd.vec r) := mul_le_mul_of_nonneg_right (by linarith) hl
    norm_num at h2
    linarith
  refine ⟨h1, h2, ?_⟩
  rw [h1]
  exact one_sub_rotMap (coords r) h3 i k

/-- **C85.** In the arithmetic of doubles, for every vector: each entry is right up to `(49 + 7 |r|) / 2^53`. -/
theorem C85_doubles (r : V3 (Rd rnd53)) (i k : Fin 3) :
    |(rodriguesExp r i k).val - rotMap (coords r) i k| ≤ (49 + 7 * len3 (Rd.vec r)) / 2 ^ 53 := by
  have hl := len3_nonneg (Rd.vec r)
  rcases lt_or_ge r.norm.val (eps : Rd rnd53).val with hb | hb
  · obtain ⟨-, h2, h3⟩ := C85_small rounding_rnd53 (by norm_num) r hb i k
    refine h3.trans ?_
    norm_num at h2 ⊢
    linarith
  · refine (C85_matrix rounding_rnd53 (by norm_num) r hb i k).trans ?_
    have g1 : gam (1 / 2 ^ 53) 16 ≤ 49 / 3 / 2 ^ 53 := by norm_num [gam]
    have g2 : gam (1 / 2 ^ 53) 3 ≤ 7 / 2 / 2 ^ 53 := by norm_num [gam]
    have := mul_le_mul_of_nonneg_right g2 hl
    rw [add_div]
    norm_num at g1 this ⊢
    linarith

/-- **C85.** The computed matrix is orthogonal up to the same kind of error: its columns have inner products 0 and 1 up to
`3 (2 e + e^2)` with the error `e` above. -/
theorem C85_orthogonal (r : V3 (Rd rnd53)) (i k : Fin 3) :
    |∑ j, (rodriguesExp r j i).val * (rodriguesExp r j k).val - (1 : Matrix (Fin 3) (Fin 3) ℝ) i k| ≤
      3 * (2 * ((49 + 7 * len3 (Rd.vec r)) / 2 ^ 53) + ((49 + 7 * len3 (Rd.vec r)) / 2 ^ 53) ^ 2) := by
  obtain ⟨E, hE⟩ : ∃ E, E = (49 + 7 * len3 (Rd.vec r)) / 2 ^ 53 := ⟨_, rfl⟩
  have hd : ∀ i k, |(rodriguesExp r i k).val - rotMap (coords r) i k| ≤ E := by
    intro i k; rw [hE]; exact C85_doubles r i k
  rw [← hE]
  have ho := rotMap_orth (coords r)
  obtain ⟨Q, hQ⟩ : ∃ Q, Q = rotMap (coords r) := ⟨_, rfl⟩
  rw [← hQ] at ho hd
  have hb : ∀ i k, |Q i k| ≤ 1 := by
    intro i k
    have := congrFun (congrFun ho k) k
    rw [Matrix.mul_apply, Matrix.one_apply_eq] at this
    simp only [Matrix.transpose_apply] at this
    rw [← sq_le_one_iff_abs_le_one, ← this, pow_two]
    exact Finset.single_le_sum (f := fun j => Q j k * Q j k) (fun j _ => mul_self_nonneg _) (Finset.mem_univ i)
  have hik := congrFun (congrFun ho i) k
  rw [Matrix.mul_apply] at hik
  simp only [Matrix.transpose_apply] at hik
  rw [← hik, ← Finset.sum_sub_distrib]
  have hE0 : 0 ≤ E := (abs_nonneg _).trans (hd 0 0)
  calc _ ≤ ∑ j : Fin 3, |(rodriguesExp r j i).val * (rodriguesExp r j k).val - Q j i * Q j k| := Finset.abs_sum_le_sum_abs _ _
    _ ≤ ∑ _j : Fin 3, (2 * E + E ^ 2) := by
      refine Finset.sum_le_sum fun j _ => ?_
      have e : (rodriguesExp r j i).val * (rodriguesExp r j k).val - Q j i * Q j k =
          ((rodriguesExp r j i).val - Q j i) * ((rodriguesExp r j k).val - Q j k) +
          ((rodriguesExp r j i).val - Q j i) * Q j k + Q j i * ((rodriguesExp r j k).val - Q j k) := by ring
      rw [e]
      refine (abs_add_three _ _ _).trans ?_
      rw [abs_mul, abs_mul, abs_mul]
      have m1 := mul_le_mul (hd j i) (hd j k) (abs_nonneg _) hE0
      have m2 := mul_le_mul (hd j i) (hb j k) (abs_nonneg _) hE0
      have m3 := mul_le_mul (hb j i) (hd j k) (abs_nonneg _) zero_le_one
      nlinarith
    _ = _ := by simp; ring

/-- Non-vacuity: both cases occur in doubles. -/
example : (∃ r : V3 (Rd rnd53), (eps : Rd rnd53).val ≤ r.norm.val) ∧ ∃ r : V3 (Rd rnd53), r.norm.val < (eps : Rd rnd53).val := by
  have h0 : rnd53 0 = 0 := rounding_rnd53.zero
  have h1 : rnd53 1 = 1 := rounding_rnd53.one
  have he : (eps : Rd rnd53).val = 1 / 2 ^ 52 := by
    have := rounding_rnd53.grid 1 (-52) (by norm_num)
    unfold eps
    rw [Rd.val_lit]
    norm_num at this ⊢
    exact this
  refine ⟨⟨⟨⟨1⟩, ⟨0⟩, ⟨0⟩⟩, ?_⟩, ⟨⟨0⟩, ⟨0⟩, ⟨0⟩⟩, ?_⟩ <;> rw [he] <;> norm_num [V3.norm, V3.dot, h0, h1]

end Blmath.Props
