import Verif.Spec.FloatError

/-!
Error factors: `Near u k t` says that `t` is a product of at most `k` factors `1 + δ` with `|δ| ≤ u`, or their inverses,
as far as its size is concerned.
-/

namespace Blmath.Spec

/-- `(1 - u)^k ≤ t ≤ (1 - u)^(-k)` -/
def Near (u : ℝ) (k : ℕ) (t : ℝ) : Prop := (1 - u) ^ k ≤ t ∧ t * (1 - u) ^ k ≤ 1

namespace Near
variable {u : ℝ} {k l : ℕ} {s t : ℝ}

theorem one : Near u 0 1 := by simp [Near]

theorem pos (hu : u < 1) (h : Near u k t) : 0 < t := lt_of_lt_of_le (pow_pos (by linarith) k) h.1

theorem mono (h0 : 0 ≤ u) (hu : u < 1) (hkl : k ≤ l) (h : Near u k t) : Near u l t := by
  have hp := h.pos hu
  have h1 : (1 - u) ^ l ≤ (1 - u) ^ k := pow_le_pow_of_le_one (by linarith) (by linarith) hkl
  exact ⟨h1.trans h.1, (mul_le_mul_of_nonneg_left h1 hp.le).trans h.2⟩

theorem mul (hu : u < 1) (hs : Near u k s) (ht : Near u l t) : Near u (k + l) (s * t) := by
  have h1 : 0 < (1 - u) ^ k := pow_pos (by linarith) k
  have h2 : 0 < (1 - u) ^ l := pow_pos (by linarith) l
  have hsp := hs.pos hu
  have htp := ht.pos hu
  constructor
  · rw [pow_add]; exact mul_le_mul hs.1 ht.1 h2.le hsp.le
  · rw [pow_add, show s * t * ((1 - u) ^ k * (1 - u) ^ l) = (s * (1 - u) ^ k) * (t * (1 - u) ^ l) by ring]
    calc _ ≤ 1 * 1 := mul_le_mul hs.2 ht.2 (by positivity) (by norm_num)
      _ = 1 := by norm_num

theorem inv (hu : u < 1) (h : Near u k t) : Near u k t⁻¹ := by
  have h1 : 0 < (1 - u) ^ k := pow_pos (by linarith) k
  have hp := h.pos hu
  constructor
  · rw [le_inv_comm₀ h1 hp, le_inv_comm₀ hp h1, ← one_div, le_div_iff₀ hp, mul_comm]; exact h.2
  · rw [inv_mul_le_iff₀ hp]; simpa using h.1

theorem div (hu : u < 1) (hs : Near u k s) (ht : Near u l t) : Near u (k + l) (s / t) := by
  rw [div_eq_mul_inv]; exact hs.mul hu (ht.inv hu)

theorem sqrt (hu : u < 1) (h : Near u (2 * k) t) : Near u k (Real.sqrt t) := by
  have h1 : 0 < (1 - u) ^ k := pow_pos (by linarith) k
  have hp := h.pos hu
  have h2 : (1 - u) ^ (2 * k) = ((1 - u) ^ k) ^ 2 := by rw [mul_comm, pow_mul]
  constructor
  · apply Real.le_sqrt_of_sq_le; rw [← h2]; exact h.1
  · have h3 : Real.sqrt (t * ((1 - u) ^ k) ^ 2) = Real.sqrt t * (1 - u) ^ k := by
      rw [Real.sqrt_mul hp.le, Real.sqrt_sq h1.le]
    rw [← h3, ← h2]
    exact (Real.sqrt_le_one.mpr h.2)

/-- a mean of error factors with non-negative weights -/
theorem add (ha : 0 ≤ s) {b x y : ℝ} (hb : 0 ≤ b) (hx : Near u k x) (hy : Near u k y) :
    ∃ t, Near u k t ∧ s * x + b * y = (s + b) * t := by
  rcases (add_nonneg ha hb).lt_or_eq with h | h
  · refine ⟨(s * x + b * y) / (s + b), ⟨?_, ?_⟩, by field_simp⟩
    · rw [le_div_iff₀ h]
      have := mul_le_mul_of_nonneg_left hx.1 ha
      have := mul_le_mul_of_nonneg_left hy.1 hb
      linarith
    · rw [div_mul_eq_mul_div, div_le_one h]
      have := mul_le_mul_of_nonneg_left hx.2 ha
      have := mul_le_mul_of_nonneg_left hy.2 hb
      linarith
  · have h1 : s = 0 := by linarith
    have h2 : b = 0 := by linarith
    exact ⟨x, hx, by rw [h1, h2]; ring⟩

theorem gam_bound (h0 : 0 ≤ u) (hk : k * u < 1) (hu : u < 1) (h : Near u k t) : |t - 1| ≤ gam u k := by
  have hb : 1 - k * u ≤ (1 - u) ^ k := by
    have := one_add_mul_le_pow (a := -u) (by linarith) k
    rw [show 1 - k * u = 1 + k * -u by ring, show 1 - u = 1 + -u by ring]; exact this
  have hp := h.pos hu
  have hd : 0 < 1 - k * u := by linarith
  unfold gam
  rw [abs_le]
  constructor
  · have h1 : k * u ≤ k * u / (1 - k * u) := by
      rw [le_div_iff₀ hd]
      have : 0 ≤ k * u := by positivity
      nlinarith
    linarith [h.1]
  · rw [le_div_iff₀ hd]
    have : t * (1 - k * u) ≤ 1 := (mul_le_mul_of_nonneg_left hb hp.le).trans h.2
    linarith

/-- one rounding -/
theorem of_abs (h1 : u < 1) (h : |t - 1| ≤ u) : Near u 1 t := by
  rw [abs_le] at h
  constructor
  · simp; linarith
  · simp
    nlinarith
end Near

variable {rnd : ℝ → ℝ} {u : ℝ}

/-- a rounding multiplies by an error factor -/
theorem Rounding.factor (h : Rounding rnd u) (x : ℝ) : ∃ t, Near u 1 t ∧ rnd x = x * t := by
  by_cases hx : x = 0
  · refine ⟨1, Near.of_abs h.lt_one (by simpa using h.nonneg), ?_⟩
    have := h.err x
    rw [hx] at this ⊢
    simp at this
    rw [this]; ring
  · refine ⟨rnd x / x, Near.of_abs h.lt_one ?_, by field_simp⟩
    have := h.err x
    rw [show rnd x / x - 1 = (rnd x - x) / x by field_simp, abs_div, div_le_iff₀ (abs_pos.mpr hx)]
    exact this

theorem Rounding.int (h : Rounding rnd u) (k : ℤ) (hk : |k| ≤ 2 ^ 53) : rnd k = k := by simpa using h.grid k 0 hk

theorem Rounding.zero (h : Rounding rnd u) : rnd 0 = 0 := by simpa using h.int 0 (by norm_num)
theorem Rounding.one (h : Rounding rnd u) : rnd 1 = 1 := by simpa using h.int 1 (by norm_num)

theorem Rounding.nonneg_iff (h : Rounding rnd u) (x : ℝ) : 0 ≤ rnd x ↔ 0 ≤ x := by
  obtain ⟨t, ht, e⟩ := h.factor x
  rw [e]
  have := ht.pos h.lt_one
  constructor
  · intro hh; by_contra hc; push Not at hc; nlinarith
  · intro hh; positivity

theorem Rounding.pos_iff (h : Rounding rnd u) (x : ℝ) : 0 < rnd x ↔ 0 < x := by
  obtain ⟨t, ht, e⟩ := h.factor x
  rw [e]
  have := ht.pos h.lt_one
  constructor
  · intro hh; by_contra hc; push Not at hc; nlinarith
  · intro hh; positivity

theorem gam_nonneg {k : ℕ} (h0 : 0 ≤ u) (hk : k * u < 1) : 0 ≤ gam u k := by
  unfold gam; apply div_nonneg (by positivity); linarith

theorem gam_mono {k l : ℕ} (h0 : 0 ≤ u) (hl : l * u < 1) (h : k ≤ l) : gam u k ≤ gam u l := by
  unfold gam
  have h1 : (k : ℝ) * u ≤ l * u := mul_le_mul_of_nonneg_right (by exact_mod_cast h) h0
  apply div_le_div₀ (by positivity) h1 (by linarith) (by linarith)

end Blmath.Spec
