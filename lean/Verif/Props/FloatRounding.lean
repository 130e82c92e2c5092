import Verif.Proofs.RoundEval
import Verif.Proofs.RdOps
import Verif.Proofs.Rounding
import Mathlib.Tactic.NormNum
import Mathlib.Tactic.Positivity

/-!
Property C108: `round_to` and `prettify` in doubles.  The docstring of `round_to` promises numbers like 3.9 in the place of
3.9000000000000004; when that is so, and when it is not.
-/

namespace Blmath.Props
open Blmath Blmath.Units Blmath.Spec Blmath.Proofs

namespace FRo

/-- the relative error of one rounding -/
noncomputable abbrev u53 : ℝ := 1 / 2 ^ 53

/-- a number that rounding leaves alone and that is at least 2^52 in size is an integer -/
theorem int_of_big {x : ℝ} (hx : rnd53 x = x) (hb : 2 ^ 52 ≤ |x|) : ∃ k : ℤ, x = k := by
  have h0 : x ≠ 0 := by
    rintro rfl
    rw [abs_zero] at hb
    norm_num at hb
  have hl : (52 : ℤ) ≤ Int.log 2 |x| := by
    apply (Int.zpow_le_iff_le_log (b := 2) (by norm_num) (abs_pos.mpr h0)).mp
    exact_mod_cast hb
  obtain ⟨j, hj⟩ := Int.eq_ofNat_of_zero_le (sub_nonneg.mpr hl)
  refine ⟨nearestEven (x / ulp x) * 2 ^ j, ?_⟩
  have h1 : rnd53 x = nearestEven (x / ulp x) * ulp x := by rw [rnd53, if_neg h0]
  rw [hx] at h1
  have h2 : ulp x = 2 ^ j := by
    rw [ulp, hj]
    simp
  push_cast
  rw [← h2]
  exact h1

theorem roundFrom_rd (ver : PyVer) {x : ℝ} (hx : rnd53 x = x) :
    RoundsTo ver x (roundFrom ver (⟨x⟩ : Rd rnd53) ⌊x⌋) := by
  have key : roundFrom ver (⟨x⟩ : Rd rnd53) ⌊x⌋ = roundFrom ver x ⌊x⌋ := by
    unfold roundFrom ofInt
    simp only [Rd.eq_iff, Rd.lt_iff, Rd.val_lit, Num.eq_real, Num.lt_real, Num.lit_real]
    by_cases hi : x = ⌊x⌋
    · have c : (((⌊x⌋ : ℤ) : ℚ) : ℝ) = x := by push_cast; exact hi.symm
      rw [c, hx, if_pos rfl, if_pos rfl]
    · have hs : |x| < 2 ^ 52 := by
        by_contra h
        obtain ⟨k, hk⟩ := int_of_big hx (not_lt.mp h)
        apply hi
        rw [hk, Int.floor_intCast]
      have hs' := abs_lt.mp hs
      have hf1 : (⌊x⌋ : ℤ) < 2 ^ 52 := by
        apply Int.floor_lt.mpr
        have := hs'.2
        push_cast
        linarith
      have hf0 : -2 ^ 52 ≤ (⌊x⌋ : ℤ) := by
        apply Int.le_floor.mpr
        have := hs'.1
        push_cast
        linarith
      have e1 : rnd53 (((⌊x⌋ : ℤ) : ℚ) : ℝ) = ⌊x⌋ := by
        have := rnd53_grid ⌊x⌋ 0 (by rw [abs_le]; constructor <;> omega)
        simpa using this
      have e2 : rnd53 (((((⌊x⌋ : ℤ) : ℚ) + 1 / 2 : ℚ)) : ℝ) = ⌊x⌋ + 1 / 2 := by
        have := rnd53_grid (2 * ⌊x⌋ + 1) (-1) (by rw [abs_le]; constructor <;> omega)
        push_cast at this ⊢
        rw [show (2 * (⌊x⌋ : ℝ) + 1) * 2 ^ (-1 : ℤ) = ⌊x⌋ + 1 / 2 by rw [zpow_neg_one]; ring] at this
        exact this
      rw [e1, e2]
      have e3 : rnd53 (((0 : ℚ)) : ℝ) = ((0 : ℚ) : ℝ) := by rw [Rat.cast_zero, rnd53_zero]
      rw [e3]
      push_cast
      rfl
  rw [key]
  exact roundFrom_spec ver x

end FRo
open FRo

/-- C108.  What `round_to` computes in doubles: the quotient, rounded, is rounded to the nearest integer exactly (ties by
version); the integer is divided by the rounded reciprocal. -/
theorem C108_rule (ver : PyVer) (x d : Rd rnd53) :
    (d.val = 0 → roundTo ver x d = .error .ZeroDivisionError) ∧
    (d.val ≠ 0 → ∃ n : ℤ, RoundsTo ver (rnd53 (x.val / d.val)) n ∧
      roundTo ver x d = .ok ⟨rnd53 (rnd53 n / rnd53 (1 / d.val))⟩) := by
  constructor
  · intro h
    have : Num.eq d (Num.lit 0) = true := by rw [Rd.eq_iff, h]; simp [rnd53_zero]
    simp [roundTo, pyDiv, this]
  · intro h
    have e1 : Num.eq d (Num.lit 0) = false := by
      rw [Bool.eq_false_iff, Ne, Rd.eq_iff]
      simpa [rnd53_zero] using h
    have one : rnd53 1 = 1 := rounding_rnd53.one
    have h1 : rnd53 (1 / d.val) ≠ 0 := by
      obtain ⟨t, ht, e⟩ := rounding_rnd53.factor (1 / d.val)
      rw [e]
      exact mul_ne_zero (one_div_ne_zero h) (ht.pos rounding_rnd53.lt_one).ne'
    have e2 : Num.eq ((Num.lit 1 : Rd rnd53) / d) (Num.lit 0) = false := by
      rw [Bool.eq_false_iff, Ne, Rd.eq_iff]
      simpa [rnd53_zero, one] using h1
    refine ⟨_, roundFrom_rd ver (rnd53_idem _), ?_⟩
    simp only [roundTo, pyDiv, e1, e2, Bool.false_eq_true, if_false, ok_bind, pyRound, Num.floor]
    congr 1
    apply Rd.ext
    simp [ofInt, one]
    rfl

/-- C108.  `round_to` in doubles keeps the order of its arguments and the sign, for every increment. -/
theorem C108_order (ver : PyVer) (x y d : Rd rnd53) (hd : 0 < d.val) :
    ∃ rx ry rn : Rd rnd53, roundTo ver x d = .ok rx ∧ roundTo ver y d = .ok ry ∧ roundTo ver (-x) d = .ok rn ∧
      (x.val ≤ y.val → rx.val ≤ ry.val) ∧ rn.val = -rx.val := by
  obtain ⟨n, hn, en⟩ := (C108_rule ver x d).2 hd.ne'
  obtain ⟨m, hm, em⟩ := (C108_rule ver y d).2 hd.ne'
  obtain ⟨k, hk, ek⟩ := (C108_rule ver (-x) d).2 hd.ne'
  have hr : 0 < rnd53 (1 / d.val) := (rounding_rnd53.pos_iff _).mpr (by positivity)
  refine ⟨_, _, _, en, em, ek, fun hxy => ?_, ?_⟩
  · apply rnd53_mono
    apply div_le_div_of_nonneg_right _ hr.le
    apply rnd53_mono
    have := RoundsTo.mono hn hm (rnd53_mono (div_le_div_of_nonneg_right hxy hd.le))
    exact_mod_cast this
  · have e : k = -n := by
      apply RoundsTo.unique hk
      have := RoundsTo.neg hn
      rwa [← rnd53_neg, ← neg_div] at this
    show rnd53 _ = -rnd53 _
    rw [e, Int.cast_neg, rnd53_neg, neg_div, rnd53_neg]

namespace FRo

theorem gam_small {k : ℕ} (hk : k ≤ 4) : gam u53 k ≤ (k + 1 / 64) / 2 ^ 53 := by
  unfold gam u53
  have h1 : (k : ℝ) ≤ 4 := by exact_mod_cast hk
  have h0 : (0 : ℝ) ≤ k := Nat.cast_nonneg k
  rw [div_le_div_iff₀ (by norm_num; linarith) (by positivity)]
  have : k = 0 ∨ k = 1 ∨ k = 2 ∨ k = 3 ∨ k = 4 := by omega
  rcases this with rfl | rfl | rfl | rfl | rfl <;> norm_num

/-- the double that stands for `1/m` -/
noncomputable def recip (m : ℕ) : Rd rnd53 := Num.lit (1 / (m : ℚ))

theorem recip_val (m : ℕ) : (recip m).val = rnd53 (1 / (m : ℝ)) := by
  show rnd53 _ = _
  push_cast
  rfl

theorem recip_pos {m : ℕ} (hm : 0 < m) : 0 < (recip m).val := by
  rw [recip_val]
  have : (0 : ℝ) < m := by exact_mod_cast hm
  exact (rounding_rnd53.pos_iff _).mpr (by positivity)

/-- the quotient by `1/m` -/
theorem quot_near {m : ℕ} (hm : 0 < m) (x : ℝ) : ∃ t, Near u53 2 t ∧ rnd53 (x / (recip m).val) = x * m * t := by
  obtain ⟨t1, h1, e1⟩ := rounding_rnd53.factor (1 / (m : ℝ))
  obtain ⟨t2, h2, e2⟩ := rounding_rnd53.factor (x / (recip m).val)
  have hm' : (m : ℝ) ≠ 0 := by exact_mod_cast hm.ne'
  have ht1 := (h1.pos rounding_rnd53.lt_one).ne'
  refine ⟨t2 / t1, h2.div rounding_rnd53.lt_one h1, ?_⟩
  rw [e2, recip_val, e1]
  field_simp

theorem near_abs {k : ℕ} (hk : k ≤ 4) {t : ℝ} (h : Near u53 k t) : |t - 1| ≤ (k + 1 / 64) / 2 ^ 53 := by
  refine le_trans (h.gam_bound rounding_rnd53.nonneg ?_ rounding_rnd53.lt_one) (gam_small hk)
  have : (k : ℝ) ≤ 4 := by exact_mod_cast hk
  norm_num
  linarith

end FRo

/-- C108.  Increments `1/m` whose reciprocal comes out as `m` in doubles: the result is the double nearest to a multiple
`n/m`, the one written in decimals if `m` divides a power of ten.  The multiple is within half an increment of the
argument, but for three roundings; multiples come back unchanged, so rounding twice is rounding once. -/
theorem C108_decimal (ver : PyVer) {m : ℕ} (hm : 0 < m) (hr : rnd53 (1 / (recip m).val) = m) (x : Rd rnd53)
    (hx : |x.val| * m ≤ 2 ^ 49) :
    ∃ n : ℤ, roundTo ver x (recip m) = .ok ⟨rnd53 (n / m)⟩ ∧ |(n : ℝ) / m - x.val| ≤ 1 / (2 * m) + 3 / 2 ^ 53 * |x.val| ∧
      roundTo ver ⟨rnd53 (n / m)⟩ (recip m) = .ok ⟨rnd53 (n / m)⟩ ∧
      (∀ k : ℤ, |k| ≤ 2 ^ 50 → x.val = rnd53 (k / m) → n = k) := by
  have hm0 : (0 : ℝ) < m := by exact_mod_cast hm
  have fix : ∀ (k : ℤ) (y : Rd rnd53) (j : ℤ), |k| ≤ 2 ^ 50 → y.val = rnd53 (k / m) →
      RoundsTo ver (rnd53 (y.val / (recip m).val)) j → j = k := by
    intro k y j hk hy hj
    obtain ⟨t, ht, e⟩ := quot_near hm y.val
    obtain ⟨s, hs, e'⟩ := rounding_rnd53.factor ((k : ℝ) / m)
    have h3 : rnd53 (y.val / (recip m).val) = k * (s * t) := by
      rw [e, hy, e']; field_simp
    rw [h3] at hj
    have hst := near_abs (k := 1 + 2) (by norm_num) (hs.mul rounding_rnd53.lt_one ht)
    have hk' : |(k : ℝ)| ≤ 2 ^ 50 := by exact_mod_cast hk
    have h4 : |(k : ℝ) * (s * t) - k| < 1 / 2 := by
      rw [show (k : ℝ) * (s * t) - k = k * (s * t - 1) by ring, abs_mul]
      calc |(k : ℝ)| * |s * t - 1| ≤ 2 ^ 50 * (((1 + 2 : ℕ) + 1 / 64) / 2 ^ 53) :=
            mul_le_mul hk' hst (abs_nonneg _) (by positivity)
        _ < 1 / 2 := by norm_num
    have h5 : |(j : ℝ) - k| < 1 := by
      have := abs_sub_le (j : ℝ) (k * (s * t)) k
      have h6 := hj.1
      rw [abs_sub_comm] at h6
      linarith
    have h7 : |j - k| < 1 := by exact_mod_cast h5
    rw [Int.abs_lt_one_iff] at h7
    omega
  have val : ∀ (y : Rd rnd53) (j : ℤ), |j| ≤ 2 ^ 53 → RoundsTo ver (rnd53 (y.val / (recip m).val)) j →
      roundTo ver y (recip m) = .ok ⟨rnd53 (j / m)⟩ := by
    intro y j hj hy
    obtain ⟨n, hn, e⟩ := (C108_rule ver y (recip m)).2 (recip_pos hm).ne'
    rw [e, RoundsTo.unique hn hy, hr, rounding_rnd53.int j hj]
  obtain ⟨n, hn, -⟩ := (C108_rule ver x (recip m)).2 (recip_pos hm).ne'
  obtain ⟨t, ht, e⟩ := quot_near hm x.val
  have hn1 := hn.1
  rw [e] at hn1
  have hte := near_abs (k := 2) (by norm_num) ht
  have hxm : |x.val * m| ≤ 2 ^ 49 := by rwa [abs_mul, abs_of_pos hm0]
  have hd : |x.val * m * t - x.val * m| ≤ |x.val * m| * (3 / 2 ^ 53) := by
    rw [show x.val * m * t - x.val * m = x.val * m * (t - 1) by ring, abs_mul]
    apply mul_le_mul_of_nonneg_left _ (abs_nonneg _)
    refine hte.trans ?_
    norm_num
  have hnx : |(n : ℝ) - x.val * m| ≤ 1 / 2 + |x.val * m| * (3 / 2 ^ 53) := by
    have := abs_sub_le (n : ℝ) (x.val * m * t) (x.val * m)
    rw [abs_sub_comm] at hn1
    linarith
  have hnb : |n| ≤ 2 ^ 50 := by
    have h1 : |(n : ℝ)| ≤ 2 ^ 50 := by
      have h2 := abs_sub_abs_le_abs_sub (n : ℝ) (x.val * m)
      have h3 : |x.val * m| * (3 / 2 ^ 53) ≤ 2 ^ 49 * (3 / 2 ^ 53) := mul_le_mul_of_nonneg_right hxm (by positivity)
      have h4 : (2 : ℝ) ^ 49 * (3 / 2 ^ 53) = 3 / 16 := by norm_num
      have h5 : (2 : ℝ) ^ 50 = 2 * 2 ^ 49 := by norm_num
      have h6 : (1 : ℝ) ≤ 2 ^ 49 := by norm_num
      rw [h4] at h3
      rw [h5]
      generalize (2 : ℝ) ^ 49 = B at *
      linarith
    exact_mod_cast h1
  have hnb' : |n| ≤ 2 ^ 53 := hnb.trans (by norm_num)
  refine ⟨n, val x n hnb' hn, ?_, ?_, fun k hk hxk => fix k x n hk hxk hn⟩
  · have h1 : (n : ℝ) / m - x.val = ((n : ℝ) - x.val * m) / m := by field_simp
    rw [h1, abs_div, abs_of_pos hm0, div_le_iff₀ hm0]
    refine hnx.trans (le_of_eq ?_)
    rw [abs_mul, abs_of_pos hm0]
    field_simp
  · obtain ⟨j, hj, -⟩ := (C108_rule ver ⟨rnd53 (n / m)⟩ (recip m)).2 (recip_pos hm).ne'
    have := fix n ⟨rnd53 (n / m)⟩ j hnb rfl hj
    rw [this] at hj
    exact val _ n hnb' hj

/-- C108.  For any increment: the result is a multiple of it, but for three roundings. -/
theorem C108_multiple (ver : PyVer) (x d : Rd rnd53) (hd : d.val ≠ 0) :
    ∃ (n : ℤ) (r : Rd rnd53), roundTo ver x d = .ok r ∧ |r.val - n * d.val| ≤ 4 / 2 ^ 53 * |n * d.val| ∧
      |n * d.val - x.val| ≤ |d.val| / 2 + 2 / 2 ^ 53 * |x.val| := by
  obtain ⟨n, hn, e⟩ := (C108_rule ver x d).2 hd
  refine ⟨n, _, e, ?_, ?_⟩
  · obtain ⟨t1, h1, e1⟩ := rounding_rnd53.factor (n : ℝ)
    obtain ⟨t2, h2, e2⟩ := rounding_rnd53.factor (1 / d.val)
    obtain ⟨t3, h3, e3⟩ := rounding_rnd53.factor (rnd53 n / rnd53 (1 / d.val))
    have h2' := (h2.pos rounding_rnd53.lt_one).ne'
    have : rnd53 (rnd53 n / rnd53 (1 / d.val)) - n * d.val = n * d.val * (t1 / t2 * t3 - 1) := by
      rw [e3, e1, e2]; field_simp
    show |rnd53 _ - _| ≤ _
    rw [this, abs_mul, mul_comm]
    apply mul_le_mul_of_nonneg_right _ (abs_nonneg _)
    refine (near_abs (k := 1 + 1 + 1) (by norm_num) ((h1.div rounding_rnd53.lt_one h2).mul rounding_rnd53.lt_one h3)).trans ?_
    norm_num
  · obtain ⟨t, ht, et⟩ := rounding_rnd53.factor (x.val / d.val)
    have h1 := hn.1
    rw [et, abs_sub_comm] at h1
    have h2 := near_abs (k := 1) (by norm_num) ht
    have h3 : (n : ℝ) * d.val - x.val = (n - x.val / d.val * t) * d.val + x.val * (t - 1) := by field_simp; ring
    rw [h3]
    refine (abs_add_le _ _).trans ?_
    rw [abs_mul, abs_mul]
    have h4 : |(n : ℝ) - x.val / d.val * t| * |d.val| ≤ 1 / 2 * |d.val| := mul_le_mul_of_nonneg_right h1 (abs_nonneg _)
    have h5 : |x.val| * |t - 1| ≤ |x.val| * (2 / 2 ^ 53) :=
      mul_le_mul_of_nonneg_left (h2.trans (by norm_num)) (abs_nonneg _)
    linarith

namespace FRo

/-- the reciprocal of `1/m`, in rationals -/
theorem recip_exact {m : ℕ} (h : rndQ (1 / rndQ (1 / (m : ℚ))) = m) : rnd53 (1 / (recip m).val) = m := by
  rw [recip_val]
  have e1 : (1 : ℝ) / m = ((1 / (m : ℚ) : ℚ) : ℝ) := by push_cast; rfl
  rw [e1, rnd53_rat]
  have e2 : (1 : ℝ) / (rndQ (1 / (m : ℚ)) : ℝ) = ((1 / rndQ (1 / (m : ℚ)) : ℚ) : ℝ) := by push_cast; rfl
  rw [e2, rnd53_rat, h]
  push_cast
  rfl

end FRo

/-- C108.  The increments of `prettify`: 1, 1/2, 1/4, 1/10 by default, `10^-p` for a precision `p`.  Their reciprocals
come out exactly, but for the precisions 5, 9 and 15 (up to 17). -/
theorem C108_increments :
    (∀ m ∈ [1, 2, 4, 10], rnd53 (1 / (recip m).val) = m) ∧
    (∀ p ∈ [0, 1, 2, 3, 4, 6, 7, 8, 10, 11, 12, 13, 14, 16, 17], rnd53 (1 / (recip (10 ^ p)).val) = (10 ^ p : ℕ)) ∧
    (∀ p ∈ [5, 9, 15], rnd53 (1 / (recip (10 ^ p)).val) ≠ (10 ^ p : ℕ)) := by
  refine ⟨fun m hm => recip_exact ?_, fun p hp => recip_exact ?_, fun p hp => ?_⟩
  · revert m; decide +kernel
  · revert p; decide +kernel
  · have key : ∀ p ∈ [5, 9, 15], rndQ (1 / rndQ (1 / ((10 ^ p : ℕ) : ℚ))) ≠ (10 ^ p : ℕ) := by decide +kernel
    intro h
    apply key p hp
    rw [recip_val] at h
    have e1 : (1 : ℝ) / (10 ^ p : ℕ) = ((1 / ((10 ^ p : ℕ) : ℚ) : ℚ) : ℝ) := by push_cast; rfl
    rw [e1, rnd53_rat] at h
    have e2 : (1 : ℝ) / (rndQ (1 / ((10 ^ p : ℕ) : ℚ)) : ℝ) = ((1 / rndQ (1 / ((10 ^ p : ℕ) : ℚ)) : ℚ) : ℝ) := by push_cast; rfl
    rw [e2, rnd53_rat] at h
    exact_mod_cast h

/-- C108.  `prettify` with a precision whose reciprocal is exact: both numbers are the doubles nearest to decimals with
that many places. -/
theorem C108_prettify (ver : PyVer) {p : ℕ} (hr : rnd53 (1 / (recip (10 ^ p)).val) = (10 ^ p : ℕ)) (value : Rd rnd53)
    (units : Option String) {v w : Rd rnd53} {s t : Option String}
    (h1 : convertToSystemDefault (some value) units "metric" = .ok (some v, s))
    (h2 : convertToSystemDefault (some value) units "united_states" = .ok (some w, t))
    (hv : |v.val| * 10 ^ p ≤ 2 ^ 49) (hw : |w.val| * 10 ^ p ≤ 2 ^ 49) :
    ∃ n k : ℤ, prettify ver (some value) units (some (p : ℤ)) =
        .ok ((⟨rnd53 (n / 10 ^ p)⟩, s), (⟨rnd53 (k / 10 ^ p)⟩, t)) ∧
      |(n : ℝ) / 10 ^ p - v.val| ≤ 1 / (2 * 10 ^ p) + 3 / 2 ^ 53 * |v.val| ∧
      |(k : ℝ) / 10 ^ p - w.val| ≤ 1 / (2 * 10 ^ p) + 3 / 2 ^ 53 * |w.val| := by
  have hm : 0 < 10 ^ p := by positivity
  obtain ⟨n, en, bn, -⟩ := C108_decimal ver hm hr v (by push_cast; exact hv)
  obtain ⟨k, ek, bk, -⟩ := C108_decimal ver hm hr w (by push_cast; exact hw)
  push_cast at en bn ek bk
  refine ⟨n, k, ?_, bn, bk⟩
  have hi : ∀ o : Option String, (increment o (some (p : ℤ)) : Rd rnd53) = recip (10 ^ p) := by
    intro o
    simp [increment, recip]
  simp only [prettify, h1, h2, ok_bind, roundValue, hi, en, ek, pure_eq_ok]

namespace FRo

/-- `round_to` of rational numbers by calculation -/
theorem roundTo_calc (ver : PyVer) {m : ℕ} (hm : 0 < m) (a : ℚ) (n : ℤ)
    (h : |rndQ (rndQ a / rndQ (1 / (m : ℚ))) - n| < 1 / 2) :
    roundTo ver (Num.lit a) (recip m) =
      .ok (⟨(rndQ (rndQ n / rndQ (1 / rndQ (1 / (m : ℚ)))) : ℚ)⟩ : Rd rnd53) := by
  have er : (recip m).val = (rndQ (1 / (m : ℚ)) : ℝ) := by
    rw [← rnd53_rat]; rfl
  obtain ⟨k, hk, e⟩ := (C108_rule ver (Num.lit a) (recip m)).2 (recip_pos hm).ne'
  have e1 : rnd53 ((Num.lit a : Rd rnd53).val / (recip m).val) = (rndQ (rndQ a / rndQ (1 / (m : ℚ))) : ℝ) := by
    rw [er, Rd.val_lit, rnd53_rat, ← Rat.cast_div, rnd53_rat]
  rw [e1] at hk
  have h1 : |((rndQ (rndQ a / rndQ (1 / (m : ℚ))) : ℚ) : ℝ) - n| < 1 / 2 := by
    have := (Rat.cast_lt (K := ℝ)).mpr h
    push_cast at this
    exact this
  have h2 := hk.1
  have h3 : |(k : ℝ) - n| < 1 := by
    have := abs_sub_le (k : ℝ) (rndQ (rndQ a / rndQ (1 / (m : ℚ)))) n
    rw [abs_sub_comm] at h2
    linarith
  have h4 : |k - n| < 1 := by exact_mod_cast h3
  rw [Int.abs_lt_one_iff, sub_eq_zero] at h4
  rw [e, h4]
  congr 1
  apply Rd.ext
  show rnd53 _ = _
  rw [er, show (n : ℝ) = ((n : ℚ) : ℝ) by push_cast; rfl, rnd53_rat,
    show (1 : ℝ) / (rndQ (1 / (m : ℚ)) : ℝ) = ((1 / rndQ (1 / (m : ℚ)) : ℚ) : ℝ) by push_cast; rfl, rnd53_rat,
    ← Rat.cast_div, rnd53_rat]

end FRo

/-- C108.  With the precision 5 the promise of the docstring is broken: rounding 0.00003 to the nearest 0.00001 gives
0.000030000000000000004, and so does `prettify` with 0.00003 degrees.  Multiplying the integer by the increment, which the
docstring warns of, misses 3.9 when rounding to the nearest 0.1; the formula used gives 3.9. -/
theorem C108_broken (ver : PyVer) :
    (∃ r : Rd rnd53, roundTo ver (Num.lit (3 / 10 ^ 5)) (recip (10 ^ 5)) = .ok r ∧ rnd53 (3 / 10 ^ 5) < r.val) ∧
    (∃ r : Rd rnd53, prettify ver (some (Num.lit (3 / 10 ^ 5))) (some "deg") (some 5) =
      .ok ((r, some "deg"), (r, some "deg")) ∧ rnd53 (3 / 10 ^ 5) < r.val) ∧
    roundTo ver (Num.lit (39 / 10)) (recip 10) = .ok (Num.lit (39 / 10) : Rd rnd53) ∧
    rnd53 (39 * rnd53 (1 / 10)) ≠ rnd53 (39 / 10) := by
  have h5 := roundTo_calc ver (m := 10 ^ 5) (by norm_num) (3 / 10 ^ 5) 3 (by decide +kernel)
  have lt : rnd53 (3 / 10 ^ 5) <
      ((rndQ (rndQ (3 : ℤ) / rndQ (1 / rndQ (1 / ((10 ^ 5 : ℕ) : ℚ)))) : ℚ) : ℝ) := by
    rw [show (3 / 10 ^ 5 : ℝ) = ((3 / 10 ^ 5 : ℚ) : ℝ) by push_cast; rfl, rnd53_rat]
    apply (Rat.cast_lt (K := ℝ)).mpr
    decide +kernel
  refine ⟨⟨_, h5, lt⟩, ⟨_, ?_, lt⟩, ?_, ?_⟩
  · have hc : ∀ sys ∈ ["metric", "united_states"],
        convertToSystemDefault (some (Num.lit (3 / 10 ^ 5) : Rd rnd53)) (some "deg") sys =
          .ok (some (Num.lit (3 / 10 ^ 5)), some "deg") := by
      have e : (Num.lit (3 / 10 ^ 5) : Rd rnd53) * Num.lit 1 = Num.lit (3 / 10 ^ 5) := by
        apply Rd.ext
        simp [rnd53_idem, rounding_rnd53.one]
      have c : unitsClass (Rd rnd53) (some "deg") = .ok (some "angle") := by
        simp [unitsClass, lookup, table, Dict.get?, blank]
      intro sys hs
      simp only [List.mem_cons, List.not_mem_nil, or_false] at hs
      rcases hs with rfl | rfl <;>
        simp [convertToSystemDefault, convertToDefault, c, defaultUnits, defaultTable, Dict.get?, Dict.update, Dict.set, convert, factor, e, blank]
    have hi : (increment (some "deg") (some 5) : Rd rnd53) = recip (10 ^ 5) := by
      simp only [increment, recip]
      norm_num
    simp only [prettify, hc "metric" (by simp), hc "united_states" (by simp), ok_bind, roundValue, hi, h5, pure_eq_ok]
  · rw [roundTo_calc ver (m := 10) (by norm_num) (39 / 10) 39 (by decide +kernel)]
    congr 1
    apply Rd.ext
    rw [Rd.val_lit, rnd53_rat]
    refine congrArg (fun q : ℚ => (q : ℝ)) ?_
    decide +kernel
  · rw [show (1 / 10 : ℝ) = ((1 / 10 : ℚ) : ℝ) by push_cast; rfl, rnd53_rat,
      show (39 / 10 : ℝ) = ((39 / 10 : ℚ) : ℝ) by push_cast; rfl, rnd53_rat,
      show (39 : ℝ) * (rndQ (1 / 10) : ℝ) = ((39 * rndQ (1 / 10) : ℚ) : ℝ) by push_cast; rfl, rnd53_rat]
    intro h
    exact absurd (Rat.cast_injective h) (by decide +kernel)

/-- C108, not vacuous: `C108_decimal` applied to 2.34 and the nearest 0.1; `C108_multiple` and `C108_order` ask for a
positive increment only. -/
theorem C108_decimal_witness :
    rnd53 (1 / (recip 10).val) = (10 : ℕ) ∧ |(Num.lit (234 / 100) : Rd rnd53).val| * (10 : ℕ) ≤ 2 ^ 49 ∧
    roundTo .py3 (Num.lit (234 / 100)) (recip 10) = .ok (Num.lit (23 / 10) : Rd rnd53) := by
  refine ⟨C108_increments.1 10 (by simp), ?_, ?_⟩
  · rw [Rd.val_lit, rnd53_rat]
    have : |rndQ (234 / 100)| * (10 : ℕ) ≤ 2 ^ 49 := by decide +kernel
    have := (Rat.cast_le (K := ℝ)).mpr this
    push_cast at this ⊢
    exact this
  · rw [roundTo_calc .py3 (m := 10) (by norm_num) (234 / 100) 23 (by decide +kernel)]
    congr 1
    apply Rd.ext
    rw [Rd.val_lit, rnd53_rat]
    refine congrArg (fun q : ℚ => (q : ℝ)) ?_
    decide +kernel

end Blmath.Props
