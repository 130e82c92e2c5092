import Verif.Spec.FloatError

/-!
Lemmas on rounded arithmetic: binary rounding satisfies the contract; error factors.
-/

namespace Blmath.Spec

/-! ### rounding to 53 bits -/

theorem nearestEven_int (k : ℤ) : nearestEven k = k := by
  unfold nearestEven
  rw [Int.fract_intCast]
  norm_num

theorem nearestEven_near (y : ℝ) : |(nearestEven y : ℝ) - y| ≤ 1 / 2 := by
  unfold nearestEven
  split
  · rename_i h
    have := Int.floor_add_fract y
    rw [h] at this
    split <;> push_cast <;> rw [abs_le] <;> constructor <;> linarith
  · rw [abs_sub_comm]; exact abs_sub_round y

theorem nearestEven_mono : Monotone nearestEven := by
  intro x y h
  by_contra hc
  push Not at hc
  have h1 := abs_le.mp (nearestEven_near x)
  have h2 := abs_le.mp (nearestEven_near y)
  have h3 : (nearestEven y : ℝ) + 1 ≤ nearestEven x := by exact_mod_cast hc
  have : x = y := by linarith [h1.1, h1.2, h2.1, h2.2]
  rw [this] at hc
  exact lt_irrefl _ hc

theorem nearestEven_neg (y : ℝ) : nearestEven (-y) = -nearestEven y := by
  have hf := Int.floor_add_fract y
  by_cases h : Int.fract y = 1 / 2
  · have h2 : Int.fract (-y) = 1 / 2 := by
      rw [Int.fract_neg (by rw [h]; norm_num), h]; norm_num
    have h3 : ⌊-y⌋ = -⌊y⌋ - 1 := by
      rw [Int.floor_eq_iff]; push_cast; rw [h] at hf; constructor <;> linarith
    unfold nearestEven
    rw [if_pos h, if_pos h2, h3]
    by_cases he : Even ⌊y⌋
    · have : ¬ Even (-⌊y⌋ - 1) := by
        rw [Int.not_even_iff_odd]
        exact (he.neg).sub_odd odd_one
      rw [if_pos he, if_neg this]; ring
    · have : Even (-⌊y⌋ - 1) := by
        rw [Int.not_even_iff_odd] at he
        exact (he.neg).sub_odd odd_one
      rw [if_neg he, if_pos this]; ring
  · have h2 : Int.fract (-y) ≠ 1 / 2 := by
      intro hc
      apply h
      by_cases h0 : Int.fract y = 0
      · exfalso
        rw [← neg_neg y] at h0
        have : Int.fract (-y) = 0 := by
          have := Int.fract_neg_eq_zero (x := -y)
          exact this.mp h0
        rw [this] at hc; norm_num at hc
      · rw [Int.fract_neg h0] at hc; linarith
    unfold nearestEven
    rw [if_neg h, if_neg h2]
    rw [round_eq_iff]
    have h1 := (round_eq_iff (x := y) (n := round y)).mp rfl
    obtain ⟨h1, h3⟩ := h1
    push_cast
    constructor
    · linarith
    · rcases h1.lt_or_eq with h1 | h1
      · linarith
      · exfalso
        apply h
        have : y = (round y - 1 : ℤ) + 1 / 2 := by push_cast; linarith
        rw [this, Int.fract_intCast_add]
        rw [Int.fract_eq_iff]; exact ⟨by norm_num, by norm_num, 0, by norm_num⟩

theorem ulp_pos (x : ℝ) : 0 < ulp x := by unfold ulp; positivity

theorem ulp_neg (x : ℝ) : ulp (-x) = ulp x := by unfold ulp; rw [abs_neg]

theorem rnd53_zero : rnd53 0 = 0 := by simp [rnd53]

theorem rnd53_neg (x : ℝ) : rnd53 (-x) = -rnd53 x := by
  unfold rnd53
  by_cases h : x = 0
  · simp [h]
  · rw [if_neg h, if_neg (neg_ne_zero.mpr h), ulp_neg, neg_div, nearestEven_neg]; push_cast; ring

theorem two_zpow_log_le {x : ℝ} (h : x ≠ 0) : (2 : ℝ) ^ Int.log 2 |x| ≤ |x| := by
  have := Int.zpow_log_le_self (b := 2) (r := |x|) (by norm_num) (abs_pos.mpr h)
  exact_mod_cast this

theorem lt_two_zpow_log (x : ℝ) : |x| < (2 : ℝ) ^ (Int.log 2 |x| + 1) := by
  have := Int.lt_zpow_succ_log_self (b := 2) (by norm_num) |x|
  exact_mod_cast this

theorem zpow_52 (e : ℤ) : (2 : ℝ) ^ e = 2 ^ 52 * (2 : ℝ) ^ (e - 52) := by
  rw [show (2 : ℝ) ^ 52 = (2 : ℝ) ^ (52 : ℤ) by norm_cast, ← zpow_add₀ (by norm_num)]
  congr 1; ring

theorem zpow_53 (e : ℤ) : (2 : ℝ) ^ (e + 1) = 2 ^ 53 * (2 : ℝ) ^ (e - 52) := by
  rw [zpow_52, show e + 1 - 52 = (e - 52) + 1 by ring, zpow_add_one₀ (by norm_num)]; ring

theorem rnd53_err (x : ℝ) : |rnd53 x - x| ≤ (1 / 2 ^ 53) * |x| := by
  unfold rnd53
  by_cases h : x = 0
  · simp [h]
  rw [if_neg h]
  have hu := ulp_pos x
  have h1 := nearestEven_near (x / ulp x)
  have h2 : (nearestEven (x / ulp x) : ℝ) * ulp x - x = (nearestEven (x / ulp x) - x / ulp x) * ulp x := by
    field_simp
  rw [h2, abs_mul, abs_of_pos hu]
  have h3 := two_zpow_log_le h
  rw [zpow_52] at h3
  change 2 ^ 52 * ulp x ≤ |x| at h3
  have h4 : |(nearestEven (x / ulp x) : ℝ) - x / ulp x| * ulp x ≤ 1 / 2 * ulp x := mul_le_mul_of_nonneg_right h1 hu.le
  have : (2 : ℝ) ^ 53 = 2 * 2 ^ 52 := by norm_num
  rw [this]
  have h5 : ulp x ≤ 1 / 2 ^ 52 * |x| := by
    rw [one_div, inv_mul_eq_div, le_div_iff₀ (by positivity)]; linarith
  calc _ ≤ 1 / 2 * ulp x := h4
    _ ≤ 1 / 2 * (1 / 2 ^ 52 * |x|) := by linarith
    _ = _ := by field_simp

/-- the rounding of a positive number stays between the powers of two around it -/
theorem rnd53_binade {x : ℝ} (h : 0 < x) : (2 : ℝ) ^ Int.log 2 x ≤ rnd53 x ∧ rnd53 x ≤ (2 : ℝ) ^ (Int.log 2 x + 1) := by
  have hu := ulp_pos x
  have hl := two_zpow_log_le h.ne'
  have hh := lt_two_zpow_log x
  have e1 := zpow_52 (Int.log 2 |x|)
  have e2 := zpow_53 (Int.log 2 |x|)
  rw [abs_of_pos h] at hl hh e1 e2
  have hux : ulp x = (2 : ℝ) ^ (Int.log 2 x - 52) := by unfold ulp; rw [abs_of_pos h]
  rw [← hux] at e1 e2
  unfold rnd53
  rw [if_neg h.ne', e1, e2]
  rw [e1] at hl; rw [e2] at hh
  have h1 : ((2 ^ 52 : ℤ) : ℝ) ≤ x / ulp x := by rw [le_div_iff₀ hu]; norm_num at hl ⊢; exact hl
  have h2 : x / ulp x ≤ ((2 ^ 53 : ℤ) : ℝ) := by rw [div_le_iff₀ hu]; norm_num at hh ⊢; exact hh.le
  have h3 := nearestEven_mono h1
  have h4 := nearestEven_mono h2
  rw [nearestEven_int] at h3 h4
  constructor
  · apply mul_le_mul_of_nonneg_right _ hu.le
    exact_mod_cast h3
  · apply mul_le_mul_of_nonneg_right _ hu.le
    exact_mod_cast h4

theorem rnd53_mono_pos {x y : ℝ} (hx : 0 < x) (h : x ≤ y) : rnd53 x ≤ rnd53 y := by
  have hy := lt_of_lt_of_le hx h
  rcases (Int.log_mono_right (b := 2) hx h).lt_or_eq with hl | hl
  · calc rnd53 x ≤ _ := (rnd53_binade hx).2
      _ ≤ (2 : ℝ) ^ Int.log 2 y := zpow_le_zpow_right₀ (by norm_num) hl
      _ ≤ _ := (rnd53_binade hy).1
  · have hu : ulp x = ulp y := by unfold ulp; rw [abs_of_pos hx, abs_of_pos hy, hl]
    have hp := ulp_pos y
    unfold rnd53
    rw [if_neg hx.ne', if_neg hy.ne', hu]
    apply mul_le_mul_of_nonneg_right _ hp.le
    exact_mod_cast nearestEven_mono (div_le_div_of_nonneg_right h hp.le)

theorem rnd53_pos {x : ℝ} (h : 0 < x) : 0 < rnd53 x := lt_of_lt_of_le (by positivity) (rnd53_binade h).1

theorem rnd53_mono : Monotone rnd53 := by
  intro x y h
  rcases lt_trichotomy 0 x with hx | hx | hx
  · exact rnd53_mono_pos hx h
  · rw [← hx, rnd53_zero]
    rcases (hx.le.trans h).lt_or_eq with hy | hy
    · exact (rnd53_pos hy).le
    · rw [← hy, rnd53_zero]
  · have hx' : 0 < rnd53 (-x) := rnd53_pos (by linarith)
    rw [rnd53_neg] at hx'
    rcases lt_trichotomy 0 y with hy | hy | hy
    · linarith [rnd53_pos hy]
    · rw [← hy, rnd53_zero]; linarith
    · have := rnd53_mono_pos (x := -y) (y := -x) (by linarith) (by linarith)
      rw [rnd53_neg, rnd53_neg] at this; linarith

/-- multiples of a power of two by integers up to 2^53 are not changed -/
theorem rnd53_grid (k m : ℤ) (hk : |k| ≤ 2 ^ 53) : rnd53 (k * (2 : ℝ) ^ m) = k * (2 : ℝ) ^ m := by
  by_cases h0 : k = 0
  · simp [h0, rnd53_zero]
  have hk0 : (k : ℝ) ≠ 0 := by exact_mod_cast h0
  obtain ⟨x, hx⟩ : ∃ x, x = k * (2 : ℝ) ^ m := ⟨_, rfl⟩
  have hx0 : x ≠ 0 := by rw [hx]; positivity
  rw [← hx]
  unfold rnd53
  rw [if_neg hx0]
  have hu := ulp_pos x
  suffices h : ∃ j : ℤ, x / ulp x = j by
    obtain ⟨j, hj⟩ := h
    rw [hj, nearestEven_int, ← hj]; field_simp
  obtain ⟨e, he⟩ : ∃ e, e = Int.log 2 |x| := ⟨_, rfl⟩
  have hue : ulp x = (2 : ℝ) ^ (e - 52) := by rw [he]; rfl
  by_cases hm : e - 52 ≤ m
  · refine ⟨k * 2 ^ (m - (e - 52)).toNat, ?_⟩
    rw [hue, hx, mul_div_assoc, ← zpow_sub₀ (by norm_num)]
    push_cast
    congr 1
    rw [← zpow_natCast]
    congr 1
    rw [Int.toNat_of_nonneg (by linarith)]
  · have hl := two_zpow_log_le hx0
    rw [← he] at hl
    have ha : |x| = |(k : ℝ)| * 2 ^ m := by rw [hx, abs_mul, abs_of_pos (by positivity : (0 : ℝ) < 2 ^ m)]
    have hk' : |(k : ℝ)| ≤ 2 ^ 53 := by exact_mod_cast hk
    have hle : (2 : ℝ) ^ e ≤ 2 ^ (53 + m) := by
      rw [zpow_add₀ (by norm_num)]
      calc _ ≤ |x| := hl
        _ = |(k : ℝ)| * 2 ^ m := ha
        _ ≤ 2 ^ (53 : ℤ) * 2 ^ m := by
          apply mul_le_mul_of_nonneg_right _ (by positivity)
          exact_mod_cast hk
    have he2 : e ≤ 53 + m := by
      by_contra hc
      push Not at hc
      have := zpow_lt_zpow_right₀ (a := (2 : ℝ)) (by norm_num) hc
      linarith
    have hem : e = 53 + m := by omega
    have hkeq : |(k : ℝ)| = 2 ^ 53 := by
      apply le_antisymm hk'
      rw [hem, zpow_add₀ (by norm_num), ha] at hl
      have := le_of_mul_le_mul_right hl (by positivity)
      exact_mod_cast this
    have hki : |k| = 2 ^ 53 := by exact_mod_cast hkeq
    have hq : (2 : ℝ) ^ (e - 52) = 2 * 2 ^ m := by
      rw [hem, show 53 + m - 52 = m + 1 by ring, zpow_add_one₀ (by norm_num)]; ring
    rcases abs_choice k with hc | hc
    · refine ⟨2 ^ 52, ?_⟩
      have : (k : ℝ) = 2 ^ 53 := by rw [hc] at hki; exact_mod_cast hki
      rw [hue, hq, hx, this]; field_simp; norm_num
    · refine ⟨-2 ^ 52, ?_⟩
      have : (k : ℝ) = -2 ^ 53 := by
        rw [hc] at hki
        have : k = -2 ^ 53 := by omega
        exact_mod_cast this
      rw [hue, hq, hx, this]; push_cast; field_simp; norm_num

theorem rnd53_idem (x : ℝ) : rnd53 (rnd53 x) = rnd53 x := by
  by_cases h : x = 0
  · rw [h, rnd53_zero, rnd53_zero]
  have hv : rnd53 x = nearestEven (x / ulp x) * (2 : ℝ) ^ (Int.log 2 |x| - 52) := by unfold rnd53; rw [if_neg h]; rfl
  rw [hv]
  apply rnd53_grid
  have hu := ulp_pos x
  have h1 : |x / ulp x| ≤ 2 ^ 53 := by
    rw [abs_div, abs_of_pos hu, div_le_iff₀ hu]
    have := lt_two_zpow_log x
    rw [zpow_53] at this
    exact this.le
  rw [abs_le] at h1
  have h2 := nearestEven_mono (show ((-2 ^ 53 : ℤ) : ℝ) ≤ x / ulp x by norm_num at h1 ⊢; exact h1.1)
  have h3 := nearestEven_mono (show x / ulp x ≤ ((2 ^ 53 : ℤ) : ℝ) by norm_num at h1 ⊢; exact h1.2)
  rw [nearestEven_int] at h2 h3
  rw [abs_le]
  exact ⟨h2, h3⟩

/-- Rounding to 53 bits meets the contract. -/
theorem rounding_rnd53 : Rounding rnd53 (1 / 2 ^ 53) where
  nonneg := by positivity
  lt_one := by norm_num
  err := rnd53_err
  mono := rnd53_mono
  idem := rnd53_idem
  grid := rnd53_grid

/-- the value of `rnd53`: the integer multiple of the spacing that is nearest -/
theorem rnd53_eval (x : ℝ) (k m : ℤ) (h1 : (2 : ℝ) ^ (m + 52) ≤ x) (h2 : x < (2 : ℝ) ^ (m + 53))
    (h3 : |x - k * (2 : ℝ) ^ m| < (2 : ℝ) ^ m / 2) : rnd53 x = k * (2 : ℝ) ^ m := by
  have hp : 0 < x := lt_of_lt_of_le (by positivity) h1
  have hl : Int.log 2 |x| = m + 52 := by
    rw [abs_of_pos hp]
    apply le_antisymm
    · have : Int.log 2 x < m + 53 := (Int.lt_zpow_iff_log_lt (b := 2) (by norm_num) hp).mp (by exact_mod_cast h2)
      omega
    · exact (Int.zpow_le_iff_le_log (b := 2) (by norm_num) hp).mp (by exact_mod_cast h1)
  have hu : ulp x = (2 : ℝ) ^ m := by unfold ulp; rw [hl]; congr 1; ring
  have hm : (0 : ℝ) < 2 ^ m := by positivity
  unfold rnd53
  rw [if_neg hp.ne', hu]
  congr 2
  have h4 : |x / 2 ^ m - k| < 1 / 2 := by
    rw [show x / 2 ^ m - k = (x - k * 2 ^ m) / 2 ^ m by field_simp, abs_div, abs_of_pos hm, div_lt_iff₀ hm]
    linarith
  obtain ⟨y, hy⟩ : ∃ y, y = x / (2 : ℝ) ^ m := ⟨_, rfl⟩
  rw [← hy] at h4 ⊢
  have hr : round y = k := by
    rw [round_eq, Int.floor_eq_iff]
    rw [abs_lt] at h4
    constructor <;> linarith [h4.1, h4.2]
  unfold nearestEven
  rw [if_neg, hr]
  intro hf
  have : y = ⌊y⌋ + 1 / 2 := by rw [← hf]; exact (Int.floor_add_fract y).symm
  rw [abs_lt] at h4
  have a1 : (⌊y⌋ : ℝ) < k := by linarith [h4.2, h4.1]
  have a2 : (k : ℝ) < ⌊y⌋ + 1 := by linarith [h4.2, h4.1]
  have b1 : ⌊y⌋ < k := by exact_mod_cast a1
  have b2 : k < ⌊y⌋ + 1 := by exact_mod_cast a2
  omega

end Blmath.Spec
