import Verif.Props.FloatRange

/-!
Property C106: the model `F64` rounds as IEEE 754 prescribes.
-/

namespace Blmath.Props
open Blmath.Geometry Blmath.Spec Blmath.Proofs

namespace FM

/-- the finite numbers of IEEE binary64 -/
def Binary64 (x : ℚ) : Prop := ∃ m e : ℤ, |m| < 2 ^ 53 ∧ -1074 ≤ e ∧ e ≤ 971 ∧ x = m * (2 : ℚ) ^ e

theorem abs_nearestEven (y : ℝ) : |(nearestEven y : ℝ) - y| = min (Int.fract y) (1 - Int.fract y) := by
  unfold nearestEven
  split_ifs with h1 h2
  · have : y = ⌊y⌋ + 1 / 2 := by rw [← h1, Int.floor_add_fract]
    rw [h1, show ((⌊y⌋ : ℤ) : ℝ) - y = -(1 / 2) by linarith]
    norm_num
  · have : y = ⌊y⌋ + 1 / 2 := by rw [← h1, Int.floor_add_fract]
    push_cast
    rw [h1, show ((⌊y⌋ : ℤ) : ℝ) + 1 - y = 1 / 2 by linarith]
    norm_num
  · rw [abs_sub_comm, abs_sub_round_eq_min]

theorem near_int (y : ℝ) (n : ℤ) : |(nearestEven y : ℝ) - y| ≤ |(n : ℝ) - y| := by
  rw [abs_nearestEven, ← abs_sub_round_eq_min, abs_sub_comm (n : ℝ)]
  exact round_le y n

theorem tie_int (y : ℝ) (n : ℤ) (h : |(n : ℝ) - y| = |(nearestEven y : ℝ) - y|) (hne : n ≠ nearestEven y) :
    _root_.Even (nearestEven y) ∧ |(n : ℝ) - nearestEven y| = 1 := by
  have hd := abs_nearestEven y
  have hN := hd ▸ h
  have f0 := Int.fract_nonneg y
  have f1 := Int.fract_lt_one y
  have hmin : min (Int.fract y) (1 - Int.fract y) ≤ 1 / 2 := by
    rcases le_total (Int.fract y) (1 / 2) with h | h
    · exact (min_le_left _ _).trans h
    · exact (min_le_right _ _).trans (by linarith)
  have hge : (1 : ℝ) ≤ |(n : ℝ) - nearestEven y| := by
    have : 1 ≤ |n - nearestEven y| := Int.one_le_abs (sub_ne_zero.mpr hne)
    exact_mod_cast this
  have htri : |(n : ℝ) - nearestEven y| ≤ |(n : ℝ) - y| + |(nearestEven y : ℝ) - y| := by
    have := abs_sub_le (n : ℝ) y (nearestEven y)
    rwa [abs_sub_comm y] at this
  have heq : |(n : ℝ) - nearestEven y| = 1 := by
    apply le_antisymm _ hge
    rw [hd, hN] at htri
    linarith
  refine ⟨?_, heq⟩
  have hhalf : Int.fract y = 1 / 2 := by
    rw [hd, hN] at htri
    have h2 : 1 / 2 ≤ min (Int.fract y) (1 - Int.fract y) := by linarith
    have := le_min_iff.mp h2
    linarith [this.1, this.2]
  unfold nearestEven
  rw [if_pos hhalf]
  split_ifs with hp
  · first | exact hp | exact Int.even_iff.mpr hp
  · first | exact Int.even_add_one.mpr hp | exact Int.even_add_one.mpr (fun h => hp (Int.even_iff.mp h))

/-- `rnd53` rounds to a nearest number of at most 53 bits, in a tie to one with an even significand -/
theorem nearest53 (x : ℝ) {m e : ℤ} (hm : |m| < 2 ^ 53) :
    |rnd53 x - x| ≤ |m * (2 : ℝ) ^ e - x| ∧ (|m * (2 : ℝ) ^ e - x| = |rnd53 x - x| → m * (2 : ℝ) ^ e ≠ rnd53 x →
      ∃ N k : ℤ, rnd53 x = N * (2 : ℝ) ^ k ∧ _root_.Even N ∧ |m * (2 : ℝ) ^ e - rnd53 x| = 2 ^ k) := by
  by_cases hx : x = 0
  · subst hx
    rw [rnd53_zero]
    refine ⟨by simp [abs_nonneg, mul_nonneg, zpow_nonneg], fun h hne => absurd ?_ hne⟩
    simpa using h
  have hr : rnd53 x = nearestEven (x / ulp x) * ulp x := by rw [rnd53, if_neg hx]
  obtain ⟨L, hL⟩ : ∃ L, L = Int.log 2 |x| := ⟨_, rfl⟩
  have hu : ulp x = (2 : ℝ) ^ (L - 52) := by rw [ulp, hL]
  have hup : 0 < ulp x := by rw [hu]; positivity
  have hlow : (2 : ℝ) ^ L ≤ |x| := by
    rw [hL]; exact Int.zpow_log_le_self (b := 2) (by norm_num) (abs_pos.mpr hx)
  have hscale : ∀ n : ℤ, |(n : ℝ) * ulp x - x| = |(n : ℝ) - x / ulp x| * ulp x := fun n => by
    rw [← abs_of_pos hup, ← abs_mul, abs_of_pos hup, sub_mul, div_mul_cancel₀ _ hup.ne']
  by_cases he : L - 52 ≤ e
  · obtain ⟨j, hj⟩ := Int.eq_ofNat_of_zero_le (sub_nonneg.mpr he)
    have hd : (m : ℝ) * (2 : ℝ) ^ e = ((m * 2 ^ j : ℤ) : ℝ) * ulp x := by
      rw [hu, show e = (j : ℤ) + (L - 52) by omega, zpow_add₀ (by norm_num), zpow_natCast]
      push_cast; ring
    rw [hd, hr, hscale, hscale]
    refine ⟨mul_le_mul_of_nonneg_right (near_int _ _) hup.le, fun h hne => ?_⟩
    have h' := mul_right_cancel₀ hup.ne' h
    have hne' : (m * 2 ^ j : ℤ) ≠ nearestEven (x / ulp x) := fun e => hne (by rw [e])
    obtain ⟨h1, h2⟩ := tie_int _ _ h' hne'
    refine ⟨_, L - 52, by rw [hu], h1, ?_⟩
    rw [← sub_mul, abs_mul, h2, one_mul, abs_of_pos hup, hu]
  · have hd : |(m : ℝ) * (2 : ℝ) ^ e| < 2 ^ L := by
      rw [abs_mul, abs_of_pos (by positivity : (0 : ℝ) < 2 ^ e)]
      have h1 : |(m : ℝ)| < 2 ^ 53 := by exact_mod_cast hm
      calc |(m : ℝ)| * 2 ^ e < 2 ^ 53 * 2 ^ e := mul_lt_mul_of_pos_right h1 (by positivity)
        _ = (2 : ℝ) ^ (53 + e) := by rw [zpow_add₀ (by norm_num)]; norm_num
        _ ≤ 2 ^ L := zpow_le_zpow_right₀ (by norm_num) (by omega)
    have hlt : |rnd53 x - x| < |m * (2 : ℝ) ^ e - x| := by
      have key : ∃ n : ℤ, |(n : ℝ) * ulp x - x| = |x| - 2 ^ L := by
        have hp : (2 : ℝ) ^ 52 * ulp x = 2 ^ L := by
          rw [hu, ← zpow_natCast, ← zpow_add₀ (by norm_num)]; congr 1; push_cast; ring
        rcases lt_or_gt_of_ne hx with h | h
        · refine ⟨-2 ^ 52, ?_⟩
          have e1 : ((-2 ^ 52 : ℤ) : ℝ) * ulp x = -2 ^ L := by rw [← hp]; push_cast; ring
          rw [abs_of_neg h] at hlow ⊢
          rw [e1, abs_of_nonneg (by linarith)]; ring
        · refine ⟨2 ^ 52, ?_⟩
          have e1 : ((2 ^ 52 : ℤ) : ℝ) * ulp x = 2 ^ L := by rw [← hp]; push_cast; ring
          rw [abs_of_pos h] at hlow ⊢
          rw [e1, abs_of_nonpos (by linarith)]; ring
      obtain ⟨n, hn⟩ := key
      have h1 : |rnd53 x - x| ≤ |(n : ℝ) * ulp x - x| := by
        rw [hr, hscale, hscale]; exact mul_le_mul_of_nonneg_right (near_int _ _) hup.le
      have h2 : |x| - |m * (2 : ℝ) ^ e| ≤ |m * (2 : ℝ) ^ e - x| := by
        have := abs_sub_abs_le_abs_sub x (m * (2 : ℝ) ^ e)
        rwa [abs_sub_comm x] at this
      linarith
    exact ⟨hlt.le, fun h => absurd h hlt.ne'⟩

/-- rounded numbers have at most 53 bits -/
theorem rnd53_form {x : ℝ} {E F : ℤ} (hx : x ≠ 0) (hE : (2 : ℝ) ^ E ≤ |x|) (hF : |rnd53 x| < (2 : ℝ) ^ F) :
    ∃ m e : ℤ, |m| < 2 ^ 53 ∧ E - 52 ≤ e ∧ e < F - 52 ∧ rnd53 x = m * (2 : ℝ) ^ e := by
  obtain ⟨L, hL⟩ : ∃ L, L = Int.log 2 |x| := ⟨_, rfl⟩
  have hu : ulp x = (2 : ℝ) ^ (L - 52) := by rw [ulp, hL]
  have hr : rnd53 x = nearestEven (x / ulp x) * (2 : ℝ) ^ (L - 52) := by rw [rnd53, if_neg hx, hu]
  have hxp := abs_pos.mpr hx
  have hlow : (2 : ℝ) ^ L ≤ |x| := by rw [hL]; exact Int.zpow_log_le_self (b := 2) (by norm_num) hxp
  have hhigh : |x| < (2 : ℝ) ^ (L + 1) := by rw [hL]; exact Int.lt_zpow_succ_log_self (b := 2) (by norm_num) _
  have hEL : E ≤ L := by rw [hL]; exact (Int.zpow_le_iff_le_log (b := 2) (by norm_num) hxp).mp hE
  have pw : ∀ k : ℤ, rnd53 ((2 : ℝ) ^ k) = 2 ^ k := fun k => by
    have := rnd53_grid 1 k (by norm_num)
    rwa [Int.cast_one, one_mul] at this
  have ha : |rnd53 x| = rnd53 |x| := by
    rcases lt_or_gt_of_ne hx with h | h
    · rw [abs_of_neg h, rnd53_neg, abs_of_nonpos]
      have := rnd53_mono h.le
      rwa [rnd53_zero] at this
    · rw [abs_of_pos h, abs_of_nonneg]
      have := rnd53_mono h.le
      rwa [rnd53_zero] at this
  have h1 : (2 : ℝ) ^ L ≤ |rnd53 x| := by rw [ha]; have := rnd53_mono hlow; rwa [pw] at this
  have h2 : |rnd53 x| ≤ (2 : ℝ) ^ (L + 1) := by rw [ha]; have := rnd53_mono hhigh.le; rwa [pw] at this
  have hN : |nearestEven (x / ulp x)| ≤ 2 ^ 53 := by
    rw [hr, abs_mul, abs_of_pos (by positivity : (0 : ℝ) < 2 ^ (L - 52))] at h2
    have h3 : |(nearestEven (x / ulp x) : ℝ)| ≤ 2 ^ 53 := by
      rw [show L + 1 = 53 + (L - 52) by ring, zpow_add₀ (by norm_num)] at h2
      have := le_of_mul_le_mul_right h2 (by positivity)
      exact_mod_cast this
    exact_mod_cast h3
  have hLF : L < F := (zpow_lt_zpow_iff_right₀ (by norm_num : (1 : ℝ) < 2)).mp (h1.trans_lt hF)
  rcases lt_or_eq_of_le hN with hN | hN
  · exact ⟨_, L - 52, hN, by omega, by omega, hr⟩
  · have hL2 : (2 : ℝ) ^ (L + 1) = |rnd53 x| := by
      rw [hr, abs_mul, abs_of_pos (by positivity : (0 : ℝ) < 2 ^ (L - 52)), ← Int.cast_abs, hN,
        show L + 1 = 53 + (L - 52) by ring, zpow_add₀ (by norm_num)]
      norm_num
    have hLF2 : L + 1 < F := (zpow_lt_zpow_iff_right₀ (by norm_num : (1 : ℝ) < 2)).mp (hL2 ▸ hF)
    rcases (abs_eq (by positivity)).mp hN with h | h
    · refine ⟨2 ^ 52, L - 51, by norm_num, by omega, by omega, ?_⟩
      rw [hr, h, show L - 51 = 1 + (L - 52) by ring, zpow_add₀ (by norm_num)]
      push_cast; norm_num; ring
    · refine ⟨-2 ^ 52, L - 51, by norm_num, by omega, by omega, ?_⟩
      rw [hr, h, show L - 51 = 1 + (L - 52) by ring, zpow_add₀ (by norm_num)]
      push_cast; norm_num; ring

/-- what rounding to nearest, ties to even, means for the number `x` rounded to `r` -/
def Nearest (x : ℝ) (r : ℚ) : Prop :=
  Binary64 r ∧ ∀ d, Binary64 d → |(r : ℝ) - x| ≤ |(d : ℝ) - x| ∧
    (|(d : ℝ) - x| = |(r : ℝ) - x| → d ≠ r → ∃ N k : ℤ, (r : ℝ) = N * (2 : ℝ) ^ k ∧ _root_.Even N ∧ |(d : ℝ) - r| = 2 ^ k)

theorem nearest_rndQ {x : ℝ} {r : ℚ} (hr : rnd53 x = r) (hb : Binary64 r) : Nearest x r := by
  refine ⟨hb, ?_⟩
  rintro d ⟨m, e, hm, _, _, rfl⟩
  have := nearest53 x (e := e) hm
  rw [hr] at this
  push_cast
  refine ⟨this.1, fun h hne => this.2 h fun h' => hne ?_⟩
  have h2 : (((m : ℚ) * (2 : ℚ) ^ e : ℚ) : ℝ) = r := by push_cast; exact h'
  exact_mod_cast h2

theorem nearest_sub {q : ℚ} (hq : |q| < 1 / 2 ^ 1022) : Nearest q ((nearestEvenQ (q * 2 ^ 1074) : ℚ) / 2 ^ 1074) := by
  obtain ⟨N, hN⟩ : ∃ N, N = nearestEvenQ (q * 2 ^ 1074) := ⟨_, rfl⟩
  have hN' : N = nearestEven ((q : ℝ) * 2 ^ 1074) := by rw [hN, ← nearestEven_cast]; push_cast; rfl
  have hp : (0 : ℝ) < 2 ^ 1074 := by positivity
  have hpz : (2 : ℝ) ^ (-1074 : ℤ) = 1 / 2 ^ 1074 := by rw [zpow_neg, one_div]; rfl
  have hsc : ∀ n : ℤ, |(n : ℝ) / 2 ^ 1074 - q| = |(n : ℝ) - q * 2 ^ 1074| / 2 ^ 1074 := fun n => by
    rw [← abs_of_pos hp, ← abs_div, abs_of_pos hp, sub_div, mul_div_cancel_right₀ _ hp.ne']
  rw [← hN]
  constructor
  · refine ⟨N, -1074, ?_, le_rfl, by norm_num, ?_⟩
    · have h1 := near_int ((q : ℝ) * 2 ^ 1074) 0
      rw [← hN'] at h1
      have h2 : |(q : ℝ) * 2 ^ 1074| < 2 ^ 52 := by
        rw [abs_mul, abs_of_pos hp]
        have : |(q : ℝ)| < 1 / 2 ^ 1022 := by
          have := (Rat.cast_lt (K := ℝ)).mpr hq
          push_cast at this
          exact this
        calc |(q : ℝ)| * 2 ^ 1074 < 1 / 2 ^ 1022 * 2 ^ 1074 := mul_lt_mul_of_pos_right this hp
          _ = 2 ^ 52 := by rw [show 1074 = 1022 + 52 from rfl, pow_add]; field_simp
      rw [Int.cast_zero, zero_sub, abs_neg] at h1
      have h3 : |(N : ℝ)| < 2 ^ 53 := by
        have := abs_sub_abs_le_abs_sub (N : ℝ) ((q : ℝ) * 2 ^ 1074)
        calc |(N : ℝ)| ≤ 2 * |(q : ℝ) * 2 ^ 1074| := by linarith
          _ < 2 * 2 ^ 52 := by linarith
          _ = 2 ^ 53 := by norm_num
      exact_mod_cast h3
    · rw [zpow_neg, ← div_eq_mul_inv]; rfl
  · rintro d ⟨m, e, hm, he, _, rfl⟩
    obtain ⟨j, hj⟩ := Int.eq_ofNat_of_zero_le (show 0 ≤ e + 1074 by omega)
    have hd : (((m : ℚ) * (2 : ℚ) ^ e : ℚ) : ℝ) = ((m * 2 ^ j : ℤ) : ℝ) / 2 ^ 1074 := by
      push_cast
      rw [show e = (j : ℤ) + -1074 by omega, zpow_add₀ (by norm_num), hpz, zpow_natCast]; ring
    have hr : (((N : ℚ) / 2 ^ 1074 : ℚ) : ℝ) = (N : ℝ) / 2 ^ 1074 := by push_cast; rfl
    rw [hd, hr, hsc, hsc, hN']
    refine ⟨div_le_div_of_nonneg_right (near_int _ _) hp.le, fun h hne => ?_⟩
    have h' : |((m * 2 ^ j : ℤ) : ℝ) - q * 2 ^ 1074| = |(nearestEven ((q : ℝ) * 2 ^ 1074) : ℝ) - q * 2 ^ 1074| := by
      have := (div_left_inj' hp.ne').mp h
      exact this
    have hne' : (m * 2 ^ j : ℤ) ≠ nearestEven ((q : ℝ) * 2 ^ 1074) := by
      intro h3
      apply hne
      have : (((m : ℚ) * (2 : ℚ) ^ e : ℚ) : ℝ) = (((N : ℚ) / 2 ^ 1074 : ℚ) : ℝ) := by rw [hd, hr, h3, hN']
      rw [Rat.cast_injective this, hN']
    obtain ⟨h1, h2⟩ := tie_int _ _ h' hne'
    refine ⟨_, -1074, by rw [hpz]; ring, h1, ?_⟩
    rw [← sub_div, abs_div, h2, abs_of_pos hp, hpz]

theorem half_bound (y : ℚ) : |(nearestEvenQ y : ℚ) - y| ≤ 1 / 2 := by
  have h := abs_nearestEven (y : ℝ)
  have f0 := Int.fract_nonneg (y : ℝ)
  have hmin : min (Int.fract (y : ℝ)) (1 - Int.fract (y : ℝ)) ≤ 1 / 2 := by
    rcases le_total (Int.fract (y : ℝ)) (1 / 2) with h | h
    · exact (min_le_left _ _).trans h
    · exact (min_le_right _ _).trans (by linarith)
  rw [nearestEven_cast] at h
  have h2 : |((nearestEvenQ y : ℤ) : ℝ) - y| ≤ 1 / 2 := h ▸ hmin
  have h3 : ((|(nearestEvenQ y : ℚ) - y| : ℚ) : ℝ) ≤ ((1 / 2 : ℚ) : ℝ) := by push_cast; exact h2
  exact_mod_cast h3

theorem sign_of {y : ℚ} {N : ℤ} (hh : |(N : ℚ) - y| ≤ 1 / 2) (hz : N ≠ 0) : (N : ℚ) < 0 ↔ y < 0 := by
  have h2 := abs_le.mp hh
  constructor
  · intro h
    have h1 : N ≤ -1 := by
      have : N < 0 := by exact_mod_cast h
      omega
    have h1' : (N : ℚ) ≤ -1 := by exact_mod_cast h1
    linarith [h2.1]
  · intro hy
    by_contra h
    push Not at h
    have h0 : 0 ≤ N := by exact_mod_cast h
    have h1 : 1 ≤ N := by omega
    have h1' : (1 : ℚ) ≤ N := by exact_mod_cast h1
    linarith [h2.2]

theorem cast_pow (k : ℕ) : ((2 ^ k : ℚ) : ℝ) = 2 ^ k := by push_cast; rfl

theorem half_max : rndQ (2 ^ 1024 - 2 ^ 970) = 2 ^ 1024 := by decide +kernel

theorem rnd53_abs (x : ℝ) : |rnd53 x| = rnd53 |x| := by
  rcases le_total x 0 with h | h
  · have := rnd53_mono h
    rw [rnd53_zero] at this
    rw [abs_of_nonpos h, rnd53_neg, abs_of_nonpos this]
  · have := rnd53_mono h
    rw [rnd53_zero] at this
    rw [abs_of_nonneg h, abs_of_nonneg this]

theorem overflow_iff (q : ℚ) : (2 : ℚ) ^ 1024 ≤ |rndQ q| ↔ (2 : ℚ) ^ 1024 - 2 ^ 970 ≤ |q| := by
  constructor
  · intro h
    by_contra hlt
    push Not at hlt
    have hR : (2 : ℝ) ^ 1024 ≤ rnd53 |(q : ℝ)| := by
      rw [← rnd53_abs, rnd53_rat]; exact_mod_cast h
    have hA : |(q : ℝ)| < 2 ^ 1024 - 2 ^ 970 := by exact_mod_cast hlt
    have hn := (nearest53 |(q : ℝ)| (m := 2 ^ 53 - 1) (e := 971) (by norm_num)).1
    have hD : (((2 ^ 53 - 1 : ℤ)) : ℝ) * (2 : ℝ) ^ (971 : ℤ) = 2 ^ 1024 - 2 ^ 971 := by
      rw [show (971 : ℤ) = ((971 : ℕ) : ℤ) from rfl, zpow_natCast, show (2 : ℝ) ^ 1024 = 2 ^ 53 * 2 ^ 971 by rw [← pow_add]]
      push_cast; ring
    rw [hD] at hn
    have h971 : (2 : ℝ) ^ 971 = 2 ^ 970 * 2 := pow_succ _ _
    have h970 : (0 : ℝ) < 2 ^ 970 := by positivity
    rw [h971] at hn
    generalize (2 : ℝ) ^ 1024 = T at *
    generalize (2 : ℝ) ^ 970 = t at *
    generalize |(q : ℝ)| = a at *
    have h1 := le_abs_self (rnd53 a - a)
    clear hD h971 h
    rcases le_total 0 (T - t * 2 - a) with h2 | h2
    · rw [abs_of_nonneg h2] at hn; linarith
    · rw [abs_of_nonpos h2] at hn; linarith
  · intro h
    have h1 : ((2 ^ 1024 - 2 ^ 970 : ℚ) : ℝ) ≤ |(q : ℝ)| := by exact_mod_cast h
    have h2 := rnd53_mono h1
    rw [rnd53_rat, half_max, ← rnd53_abs, rnd53_rat] at h2
    exact_mod_cast h2

end FM
open FM

/-- **C106.** `F64` rounds correctly: a finite result is a nearest number of IEEE binary64, in a tie the one with the even
significand; the result is infinite exactly from 2^1024 - 2^970 on; it is never NaN, and its sign is that of the number. -/
theorem C106_round (q : ℚ) :
    ((2 : ℚ) ^ 1024 - 2 ^ 970 ≤ |q| → F64.round q = .inf (decide (q < 0))) ∧
    (|q| < (2 : ℚ) ^ 1024 - 2 ^ 970 → ∃ r, (F64.round q).val? = some r ∧ Nearest q r ∧ (F64.round q).signBit = decide (q < 0) ∧
      (r = 0 ↔ ∃ s, F64.round q = .zero s)) := by
  have hbig : (1 : ℚ) / 2 ^ 1022 ≤ 2 ^ 1024 - 2 ^ 970 := by
    have h1 : (1 : ℚ) / 2 ^ 1022 ≤ 1 := by rw [div_le_one (by positivity)]; exact one_le_pow₀ (by norm_num)
    have h2 : (1 : ℚ) ≤ 2 ^ 970 := one_le_pow₀ (by norm_num)
    have h3 : (2 : ℚ) ^ 1024 = 2 ^ 54 * 2 ^ 970 := by rw [← pow_add]
    rw [h3]
    generalize (2 : ℚ) ^ 970 = t at h2 ⊢
    generalize (1 : ℚ) / 2 ^ 1022 = w at h1 ⊢
    norm_num
    linarith
  constructor
  · intro h
    unfold F64.round
    rw [if_neg (not_lt.mpr (hbig.trans h)), if_pos ((overflow_iff q).mpr h)]
  · intro h
    unfold F64.round
    by_cases hs : |q| < 1 / 2 ^ 1022
    · rw [if_pos hs]
      have hn := nearest_sub hs
      by_cases hz : nearestEvenQ (q * 2 ^ 1074) = 0
      · rw [if_pos hz]
        rw [hz, Int.cast_zero, zero_div] at hn
        exact ⟨0, rfl, hn, rfl, by simp⟩
      · rw [if_neg hz]
        refine ⟨_, rfl, hn, ?_, ?_⟩
        · have hh := half_bound (q * 2 ^ 1074)
          have hp : (0 : ℚ) < 2 ^ 1074 := by positivity
          show decide _ = decide _
          have e1 : q < 0 ↔ q * 2 ^ 1074 < 0 := by
            rw [← not_le, ← not_le, not_iff_not]
            exact ⟨fun h => mul_nonneg h hp.le, fun h => nonneg_of_mul_nonneg_left h hp⟩
          rw [decide_eq_decide, e1, div_lt_iff₀ hp, zero_mul, sign_of hh hz]
        · have hN : (nearestEvenQ (q * 2 ^ 1074) : ℚ) ≠ 0 := by exact_mod_cast hz
          have hp : (2 : ℚ) ^ 1074 ≠ 0 := by positivity
          simp [div_eq_zero_iff, hN]
    · rw [if_neg hs, if_neg (fun h' => absurd ((overflow_iff q).mp h') (not_le.mpr h))]
      push Not at hs
      have hq0 : (q : ℝ) ≠ 0 := by
        intro h0
        have h1 : q = 0 := by exact_mod_cast h0
        rw [h1, abs_zero] at hs
        exact absurd hs (not_le.mpr (by positivity))
      have hlow : (2 : ℝ) ^ (-1022 : ℤ) ≤ |(q : ℝ)| := by
        have := (Rat.cast_le (K := ℝ)).mpr hs
        push_cast at this
        rw [zpow_neg, ← one_div]; exact this
      have hhigh : |rnd53 (q : ℝ)| < (2 : ℝ) ^ (1024 : ℤ) := by
        rw [rnd53_rat]
        have h1 := mt (overflow_iff q).mp (not_le.mpr h)
        push Not at h1
        have := (Rat.cast_lt (K := ℝ)).mpr h1
        push_cast at this
        exact this
      obtain ⟨m, e, h1, h2, h3, h4⟩ := rnd53_form hq0 hlow hhigh
      have hb : Binary64 (rndQ q) := by
        refine ⟨m, e, h1, by omega, by omega, ?_⟩
        rw [rnd53_rat] at h4
        have : ((rndQ q : ℚ) : ℝ) = (((m : ℚ) * (2 : ℚ) ^ e : ℚ) : ℝ) := by push_cast; exact h4
        exact_mod_cast this
      have hne : rndQ q ≠ 0 := by
        have h5 := rnd53_abs_ge (m := 1022) (x := (q : ℝ)) (by rw [zpow_neg, ← one_div] at hlow; exact hlow)
        rw [rnd53_rat] at h5
        intro h0
        rw [h0, Rat.cast_zero, abs_zero] at h5
        exact absurd h5 (not_le.mpr (by positivity))
      refine ⟨rndQ q, rfl, nearest_rndQ (rnd53_rat q) hb, ?_, by simp [hne]⟩
      show decide _ = decide _
      rw [decide_eq_decide]
      constructor
      · intro h
        by_contra hq
        exact absurd h (not_lt.mpr (FR.rndQ_nonneg (not_lt.mp hq)))
      · intro hq
        refine lt_of_le_of_ne ?_ hne
        have h6 := rnd53_mono (show (q : ℝ) ≤ 0 by exact_mod_cast hq.le)
        rw [rnd53_zero, rnd53_rat] at h6
        exact_mod_cast h6

namespace FM

/-- `z` is the double IEEE 754 prescribes for an operation with the exact result `q` -/
def Rounds (q : ℚ) (z : F64) : Prop :=
  ((2 : ℚ) ^ 1024 - 2 ^ 970 ≤ |q| → z = .inf (decide (q < 0))) ∧
  (|q| < (2 : ℚ) ^ 1024 - 2 ^ 970 → ∃ r, z.val? = some r ∧ Nearest q r)

/-- `x` is a finite double with value `a` -/
def Double (x : F64) (a : ℚ) : Prop := x.val? = some a ∧ Binary64 a ∧ (a = 0 ↔ ∃ s, x = .zero s)

theorem rounds_round (q : ℚ) : Rounds q (F64.round q) :=
  ⟨(C106_round q).1, fun h => let ⟨r, h1, h2, _⟩ := (C106_round q).2 h; ⟨r, h1, h2⟩⟩

theorem binary64_lt {a : ℚ} (h : Binary64 a) : |a| < (2 : ℚ) ^ 1024 - 2 ^ 970 := by
  obtain ⟨m, e, hm, _, he, rfl⟩ := h
  have h1 : |(m : ℚ)| ≤ 2 ^ 53 - 1 := by
    have : |m| ≤ 2 ^ 53 - 1 := by omega
    exact_mod_cast this
  rw [abs_mul, abs_of_pos (by positivity : (0 : ℚ) < 2 ^ e)]
  have h2 : (2 : ℚ) ^ e ≤ 2 ^ (971 : ℤ) := zpow_le_zpow_right₀ (by norm_num) he
  calc |(m : ℚ)| * 2 ^ e ≤ (2 ^ 53 - 1) * 2 ^ (971 : ℤ) := mul_le_mul h1 h2 (by positivity) (by norm_num)
    _ = (2 ^ 53 - 1) * (2 * 2 ^ 970) := by
      rw [show (971 : ℤ) = 1 + 970 by norm_num, zpow_add₀ (by norm_num)]; rfl
    _ < 2 ^ 54 * 2 ^ 970 - 2 ^ 970 := by
      have : (0 : ℚ) < 2 ^ 970 := by positivity
      generalize (2 : ℚ) ^ 970 = t at this ⊢
      norm_num
      linarith
    _ = 2 ^ 1024 - 2 ^ 970 := by rw [← pow_add]

theorem nearest_self {a : ℚ} (h : Binary64 a) : Nearest a a := by
  refine ⟨h, fun d _ => ⟨by simp, fun he hne => absurd ?_ hne⟩⟩
  rw [sub_self, abs_zero, abs_eq_zero, sub_eq_zero] at he
  exact_mod_cast he

theorem rounds_self {x : F64} {a : ℚ} (h : Binary64 a) (hx : x.val? = some a) : Rounds a x :=
  ⟨fun h' => absurd h' (not_le.mpr (binary64_lt h)), fun _ => ⟨a, hx, nearest_self h⟩⟩

theorem binary64_neg {a : ℚ} (h : Binary64 a) : Binary64 (-a) := by
  obtain ⟨m, e, hm, h1, h2, rfl⟩ := h
  exact ⟨-m, e, by rwa [abs_neg], h1, h2, by push_cast; ring⟩

theorem binary64_zero : Binary64 0 := ⟨0, 0, by norm_num, by norm_num, by norm_num, by norm_num⟩

theorem double_neg {x : F64} {a : ℚ} (h : Double x a) : Double (F64.neg x) (-a) := by
  obtain ⟨h1, h2, h3⟩ := h
  cases x with
  | num q =>
    simp only [F64.val?, Option.some.injEq] at h1
    refine ⟨by simp [F64.neg, F64.val?, h1], binary64_neg h2, ?_⟩
    simp only [reduceCtorEq, exists_false, iff_false] at h3
    simp [F64.neg, h3]
  | zero s =>
    simp only [F64.val?, Option.some.injEq] at h1
    subst h1
    exact ⟨by simp [F64.neg, F64.val?], by simpa using h2, by simp [F64.neg]⟩
  | inf s => simp [F64.val?] at h1
  | nan => simp [F64.val?] at h1

theorem rounds_add {x y : F64} {a b : ℚ} (hx : Double x a) (hy : Double y b) : Rounds (a + b) (F64.add x y) := by
  obtain ⟨h1, h2, h3⟩ := hx
  obtain ⟨g1, g2, g3⟩ := hy
  cases x <;> cases y <;> simp only [F64.val?, Option.some.injEq, reduceCtorEq] at h1 g1 <;> subst h1 <;> subst g1
  · exact rounds_round _
  · rw [add_zero]; exact rounds_self h2 rfl
  · rw [zero_add]; exact rounds_self g2 rfl
  · rw [add_zero]; exact rounds_self h2 rfl

theorem rounds_mul {x y : F64} {a b : ℚ} (hx : Double x a) (hy : Double y b) : Rounds (a * b) (F64.mul x y) := by
  obtain ⟨h1, h2, h3⟩ := hx
  obtain ⟨g1, g2, g3⟩ := hy
  cases x <;> cases y <;> simp only [F64.val?, Option.some.injEq, reduceCtorEq] at h1 g1 <;> subst h1 <;> subst g1
  · exact rounds_round _
  · rw [mul_zero]; exact rounds_self g2 rfl
  · rw [zero_mul]; exact rounds_self h2 rfl
  · rw [mul_zero]; exact rounds_self h2 rfl

theorem rounds_div {x y : F64} {a b : ℚ} (hx : Double x a) (hy : Double y b) (hb : b ≠ 0) :
    Rounds (a / b) (F64.div x y) := by
  obtain ⟨h1, h2, h3⟩ := hx
  obtain ⟨g1, g2, g3⟩ := hy
  cases x <;> cases y <;> simp only [F64.val?, Option.some.injEq, reduceCtorEq] at h1 g1 <;> subst h1 <;> subst g1
  · exact rounds_round _
  · exact absurd rfl hb
  · rw [zero_div]; exact rounds_self h2 rfl
  · exact absurd rfl hb

theorem nearest_sqrt {q : ℚ} (h0 : 0 < q) (hb : Binary64 q) : Nearest (Real.sqrt q) (sqrtQ q) := by
  have hq0 : (0 : ℝ) < q := by exact_mod_cast h0
  have hs0 : Real.sqrt q ≠ 0 := (Real.sqrt_pos.mpr hq0).ne'
  have hsp : 0 ≤ Real.sqrt q := Real.sqrt_nonneg _
  have hlow : (2 : ℝ) ^ (-537 : ℤ) ≤ |Real.sqrt q| := by
    rw [abs_of_nonneg hsp]
    apply Real.le_sqrt_of_sq_le
    obtain ⟨m, e, hm, h1, h2, rfl⟩ := hb
    have hm1 : 1 ≤ m := by
      have hpe : (0 : ℚ) < 2 ^ e := by positivity
      have : (0 : ℚ) < m := (pos_iff_pos_of_mul_pos h0).mpr hpe
      have : 0 < m := by exact_mod_cast this
      omega
    have hm1' : (1 : ℝ) ≤ m := by exact_mod_cast hm1
    push_cast
    rw [← zpow_natCast, ← zpow_mul]
    calc (2 : ℝ) ^ ((-537 : ℤ) * ((2 : ℕ) : ℤ)) ≤ 2 ^ e := zpow_le_zpow_right₀ (by norm_num) (by norm_num; omega)
      _ ≤ m * 2 ^ e := le_mul_of_one_le_left (by positivity) hm1'
  have hle : |Real.sqrt q| ≤ 2 ^ 512 := by
    rw [abs_of_nonneg hsp, Real.sqrt_le_iff]
    refine ⟨by positivity, ?_⟩
    have h1 := binary64_lt hb
    rw [abs_of_pos h0] at h1
    have h2 : q < (2 : ℚ) ^ 1024 := h1.trans (sub_lt_self _ (by positivity))
    have h3 := (Rat.cast_lt (K := ℝ)).mpr h2
    push_cast at h3
    rw [← pow_mul]
    exact h3.le
  have hhigh : |rnd53 (Real.sqrt q)| < (2 : ℝ) ^ (1024 : ℤ) := by
    refine (rnd53_abs_le hle).trans_lt ?_
    rw [← zpow_natCast]
    exact zpow_lt_zpow_right₀ (by norm_num) (by norm_num)
  obtain ⟨m, e, h1, h2, h3, h4⟩ := rnd53_form hs0 hlow hhigh
  refine nearest_rndQ (rnd53_sqrt q) ⟨m, e, h1, by omega, by omega, ?_⟩
  rw [rnd53_sqrt] at h4
  have : ((sqrtQ q : ℚ) : ℝ) = (((m : ℚ) * (2 : ℚ) ^ e : ℚ) : ℝ) := by push_cast; exact h4
  exact Rat.cast_injective this

end FM
open FM

/-- every operation on finite doubles gives the double nearest to the exact result -/
theorem C106_operations {x y : F64} {a b : ℚ} (hx : Double x a) (hy : Double y b) :
    Rounds (a + b) (x + y) ∧ Rounds (a - b) (x - y) ∧ Rounds (a * b) (x * y) ∧
    (b ≠ 0 → Rounds (a / b) (x / y)) ∧ (0 ≤ a → ∃ r, (Num.sqrt x).val? = some r ∧ Nearest (Real.sqrt a) r) ∧
    (a < 0 → Num.sqrt x = .nan) ∧ (Num.lt x y = true ↔ a < b) ∧ (Num.le x y = true ↔ a ≤ b) ∧
    (Num.eq x y = true ↔ a = b) := by
  refine ⟨rounds_add hx hy, ?_, rounds_mul hx hy, rounds_div hx hy, ?_, ?_, ?_, ?_, ?_⟩
  · rw [sub_eq_add_neg]; show Rounds _ (F64.add x (F64.neg y)); exact rounds_add hx (double_neg hy)
  · intro h0
    obtain ⟨h1, h2, h3⟩ := hx
    cases x with
    | num q =>
      simp only [F64.val?, Option.some.injEq] at h1
      subst h1
      simp only [reduceCtorEq, exists_false, iff_false] at h3
      refine ⟨sqrtQ q, by simp [Num.sqrt, F64.sqrt, not_lt.mpr h0, F64.val?], ?_⟩
      exact nearest_sqrt (lt_of_le_of_ne h0 (Ne.symm h3)) h2
    | zero s =>
      simp only [F64.val?, Option.some.injEq] at h1
      subst h1
      refine ⟨0, rfl, ?_⟩
      have := nearest_self binary64_zero
      simpa using this
    | inf s => simp [F64.val?] at h1
    | nan => simp [F64.val?] at h1
  · intro h0
    obtain ⟨h1, h2, h3⟩ := hx
    cases x with
    | num q =>
      simp only [F64.val?, Option.some.injEq] at h1
      subst h1
      simp [Num.sqrt, F64.sqrt, h0]
    | zero s => simp [F64.val?] at h1; rw [← h1] at h0; exact absurd h0 (lt_irrefl _)
    | inf s => simp [F64.val?] at h1
    | nan => simp [F64.val?] at h1
  all_goals
    obtain ⟨h1, -, -⟩ := hx
    obtain ⟨g1, -, -⟩ := hy
    cases x <;> cases y <;> simp only [F64.val?, Option.some.injEq, reduceCtorEq] at h1 g1 <;> subst h1 <;> subst g1 <;>
      simp only [Num.lt, Num.le, Num.eq, F64.lt, F64.eq, F64.val?, Option.getD_some, Bool.or_eq_true, le_iff_lt_or_eq] <;>
      first | exact decide_eq_true_iff | exact or_congr decide_eq_true_iff decide_eq_true_iff

/-- NaN comes out of every operation it goes into, and compares false to everything -/
theorem C106_nan (x : F64) :
    x + F64.nan = .nan ∧ F64.nan + x = .nan ∧ x - F64.nan = .nan ∧ F64.nan - x = .nan ∧
    x * F64.nan = .nan ∧ F64.nan * x = .nan ∧ x / F64.nan = .nan ∧ F64.nan / x = .nan ∧
    Num.sqrt (.nan : F64) = .nan ∧ Num.lt x .nan = false ∧ Num.lt .nan x = false ∧ Num.le x .nan = false ∧
    Num.le .nan x = false ∧ Num.eq x .nan = false ∧ Num.eq .nan x = false := by
  cases x <;> exact ⟨rfl, rfl, rfl, rfl, rfl, rfl, rfl, rfl, rfl, rfl, rfl, rfl, rfl, rfl, rfl⟩

/-- 0.1 + 0.2, a sum that is no double; the operands are the doubles nearest to 1/10 and 2/10 -/
theorem C106_operations_witness :
    Double (.num (3602879701896397 / 2 ^ 55)) (3602879701896397 / 2 ^ 55) ∧
    Double (.num (3602879701896397 / 2 ^ 54)) (3602879701896397 / 2 ^ 54) ∧
    ¬ Binary64 (3602879701896397 / 2 ^ 55 + 3602879701896397 / 2 ^ 54) ∧
    F64.num (3602879701896397 / 2 ^ 55) + F64.num (3602879701896397 / 2 ^ 54) =
      .num (1351079888211149 / 2 ^ 52) := by
  refine ⟨⟨rfl, ⟨3602879701896397, -55, by norm_num, by norm_num, by norm_num, by norm_num⟩, by simp⟩,
    ⟨rfl, ⟨3602879701896397, -54, by norm_num, by norm_num, by norm_num, by norm_num⟩, by simp⟩, ?_, by decide +kernel⟩
  rintro ⟨m, e, hm, h1, h2, h⟩
  have h3 : (10808639105689191 : ℚ) = m * 2 ^ (e + 55) := by
    rw [zpow_add₀ (by norm_num), ← mul_assoc, ← h]; norm_num
  rcases le_or_gt 0 (e + 55) with he | he
  · obtain ⟨k, hk⟩ := Int.eq_ofNat_of_zero_le he
    rw [hk] at h3
    have h4 : (10808639105689191 : ℤ) = m * 2 ^ k := by
      simp only [Int.ofNat_eq_natCast, zpow_natCast] at h3
      exact_mod_cast h3
    rcases Nat.eq_zero_or_pos k with h5 | h5
    · rw [h5] at h4
      have := abs_lt.mp hm
      omega
    · obtain ⟨j, rfl⟩ := Nat.exists_eq_succ_of_ne_zero h5.ne'
      rw [pow_succ, ← mul_assoc] at h4
      omega
  · have hlt : (2 : ℚ) ^ (e + 55) ≤ 1 := zpow_le_one_of_nonpos₀ (by norm_num) he.le
    have hm' : (m : ℚ) ≤ 2 ^ 53 := by
      have := (abs_lt.mp hm).2.le
      exact_mod_cast this
    have hpos : (0 : ℚ) < 2 ^ (e + 55) := by positivity
    have : (m : ℚ) * 2 ^ (e + 55) ≤ 2 ^ 53 * 1 := by
      apply mul_le_mul hm' hlt hpos.le (by norm_num)
    rw [← h3] at this
    norm_num at this

end Blmath.Props
