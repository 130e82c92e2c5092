import Verif.Proofs.FloatError
import Mathlib.Analysis.Real.Pi.Bounds

/-!
Rounding of rational numbers to 53 bits by calculation: `rndQ` agrees with `rnd53` and can be evaluated.
-/

namespace Blmath.Proofs
open Blmath.Spec

/-- `nearestEven` on rational numbers -/
def nearestEvenQ (y : ℚ) : ℤ :=
  if Int.fract y = 1 / 2 then (if ⌊y⌋ % 2 = 0 then ⌊y⌋ else ⌊y⌋ + 1) else ⌊y + 1 / 2⌋

/-- `ulp` on rational numbers -/
def ulpQ (x : ℚ) : ℚ := (2 : ℚ) ^ (Int.log 2 |x| - 52)

/-- `rnd53` on rational numbers -/
def rndQ (x : ℚ) : ℚ := if x = 0 then 0 else nearestEvenQ (x / ulpQ x) * ulpQ x

theorem log_cast (x : ℚ) (hx : 0 < x) : Int.log 2 (x : ℝ) = Int.log 2 x := by
  have hx' : (0 : ℝ) < x := by exact_mod_cast hx
  apply le_antisymm
  · have h := (Int.zpow_le_iff_le_log (b := 2) (by norm_num) hx').mpr (le_refl (Int.log 2 (x : ℝ)))
    exact (Int.zpow_le_iff_le_log (b := 2) (by norm_num) hx).mp ((Rat.cast_le (K := ℝ)).mp (by push_cast at h ⊢; exact h))
  · have h := (Int.zpow_le_iff_le_log (b := 2) (by norm_num) hx).mpr (le_refl (Int.log 2 x))
    have h' := (Rat.cast_le (K := ℝ)).mpr h
    exact (Int.zpow_le_iff_le_log (b := 2) (by norm_num) hx').mp (by push_cast at h' ⊢; exact h')

theorem nearestEven_cast (y : ℚ) : nearestEven (y : ℝ) = nearestEvenQ y := by
  unfold nearestEven nearestEvenQ
  have hf : Int.fract (y : ℝ) = ((Int.fract y : ℚ) : ℝ) := by push_cast; rfl
  have hh : (Int.fract (y : ℝ) = 1 / 2) ↔ (Int.fract y = 1 / 2) := by
    rw [hf]
    constructor
    · intro h
      have : ((Int.fract y : ℚ) : ℝ) = ((1 / 2 : ℚ) : ℝ) := by rw [h]; norm_num
      exact Rat.cast_injective this
    · intro h; rw [h]; norm_num
  have h1 : ⌊(y : ℝ)⌋ = ⌊y⌋ := Rat.floor_cast y
  have h2 : round (y : ℝ) = ⌊y + 1 / 2⌋ := by
    rw [Rat.round_cast, round_eq]
  simp only [hh, h1, h2, Int.even_iff]

/-- rounding a rational number by calculation -/
theorem rnd53_rat (x : ℚ) : rnd53 (x : ℝ) = (rndQ x : ℝ) := by
  unfold rnd53 rndQ
  by_cases hx : x = 0
  · simp [hx]
  · have hu : ulp (x : ℝ) = ((ulpQ x : ℚ) : ℝ) := by
      unfold ulp ulpQ
      have : |(x : ℝ)| = ((|x| : ℚ) : ℝ) := by push_cast; rfl
      rw [this, log_cast _ (abs_pos.mpr hx)]
      push_cast; rfl
    rw [if_neg (by exact_mod_cast hx), if_neg hx, hu]
    have : (x : ℝ) / ((ulpQ x : ℚ) : ℝ) = ((x / ulpQ x : ℚ) : ℝ) := by push_cast; rfl
    rw [this, nearestEven_cast]
    push_cast; rfl

/-! ### square roots -/

/-- the integer part of the square root of `n`, bit by bit: at least `f`, less than `f + 2 ^ i` -/
def bitSqrt (n : ℕ) : ℕ → ℕ → ℕ
  | 0, f => f
  | i + 1, f => bitSqrt n i (if (f + 2 ^ i) * (f + 2 ^ i) ≤ n then f + 2 ^ i else f)

theorem bitSqrt_spec (n : ℕ) : ∀ i f : ℕ, f * f ≤ n → n < (f + 2 ^ i) * (f + 2 ^ i) →
    bitSqrt n i f * bitSqrt n i f ≤ n ∧ n < (bitSqrt n i f + 1) * (bitSqrt n i f + 1)
  | 0, f, h1, h2 => by simpa [bitSqrt] using ⟨h1, h2⟩
  | i + 1, f, h1, h2 => by
    unfold bitSqrt
    split
    · next h => exact bitSqrt_spec n i _ h (by rw [pow_succ] at h2; convert h2 using 2 <;> ring)
    · next h => exact bitSqrt_spec n i _ h1 (by omega)

/-- the integer nearest to the square root of `s`, ties to even, for `s < 4 ^ 53` -/
def nearestSqrtQ (s : ℚ) : ℤ :=
  let f : ℕ := bitSqrt ⌊s⌋.toNat 53 0
  if s = (f + 1 / 2) * (f + 1 / 2) then (if f % 2 = 0 then f else f + 1)
  else if s < (f + 1 / 2) * (f + 1 / 2) then f else f + 1

theorem nearestEven_sqrt (s : ℚ) (h0 : 0 ≤ s) (h1 : s < 4 ^ 53) : nearestEven (Real.sqrt s) = nearestSqrtQ s := by
  unfold nearestSqrtQ
  have hn0 : 0 ≤ ⌊s⌋ := Int.floor_nonneg.mpr h0
  have hn1 : ⌊s⌋ < 4 ^ 53 := Int.floor_lt.mpr (by push_cast; exact h1)
  obtain ⟨g1, g2⟩ := bitSqrt_spec ⌊s⌋.toNat 53 0 (by simp) (by
    have : ⌊s⌋.toNat < 4 ^ 53 := by omega
    calc _ < 4 ^ 53 := this
      _ = _ := by norm_num)
  generalize bitSqrt ⌊s⌋.toNat 53 0 = f at *
  have hf1 : ((f * f : ℕ) : ℚ) ≤ s := by
    have : ((f * f : ℕ) : ℤ) ≤ ⌊s⌋ := by omega
    exact_mod_cast Int.le_floor.mp this
  have hf2 : s < (((f + 1) * (f + 1) : ℕ) : ℚ) := by
    have : ⌊s⌋ < (((f + 1) * (f + 1) : ℕ) : ℤ) := by omega
    exact_mod_cast Int.floor_lt.mp this
  have hs0 : (0 : ℝ) ≤ s := by exact_mod_cast h0
  have k1 : (f : ℝ) ≤ Real.sqrt s := Real.le_sqrt_of_sq_le (by
    have : (((f * f : ℕ) : ℚ) : ℝ) ≤ s := by exact_mod_cast hf1
    push_cast at this; nlinarith)
  have k2 : Real.sqrt s < f + 1 := by
    rw [Real.sqrt_lt' (by positivity)]
    have : (s : ℝ) < ((((f + 1) * (f + 1) : ℕ) : ℚ) : ℝ) := by exact_mod_cast hf2
    push_cast at this; nlinarith
  have hfl : ⌊Real.sqrt s⌋ = (f : ℤ) := by rw [Int.floor_eq_iff]; push_cast; exact ⟨k1, k2⟩
  have hfr : Int.fract (Real.sqrt s) = Real.sqrt s - f := by rw [Int.fract, hfl]; norm_num
  have hlt : s < (f + 1 / 2) * (f + 1 / 2) ↔ Real.sqrt s < f + 1 / 2 := by
    rw [Real.sqrt_lt' (by positivity)]
    constructor
    · intro h
      have : (s : ℝ) < (((f + 1 / 2) * (f + 1 / 2) : ℚ) : ℝ) := by exact_mod_cast h
      push_cast at this; nlinarith
    · intro h
      have : (s : ℝ) < (((f + 1 / 2) * (f + 1 / 2) : ℚ) : ℝ) := by push_cast; nlinarith
      exact_mod_cast this
  have heq : s = (f + 1 / 2) * (f + 1 / 2) ↔ Real.sqrt s = f + 1 / 2 := by
    rw [Real.sqrt_eq_iff_mul_self_eq hs0 (by positivity)]
    constructor
    · intro h
      have : (s : ℝ) = (((f + 1 / 2) * (f + 1 / 2) : ℚ) : ℝ) := by exact_mod_cast h
      push_cast at this; linarith
    · intro h
      have : (s : ℝ) = (((f + 1 / 2) * (f + 1 / 2) : ℚ) : ℝ) := by push_cast; linarith
      exact_mod_cast this
  unfold nearestEven
  rw [hfr, hfl]
  simp only [heq, hlt]
  by_cases he : Real.sqrt s = f + 1 / 2
  · rw [if_pos (by rw [he]; ring), if_pos he]
    simp only [Int.even_iff]
    norm_cast
  · rw [if_neg (by intro h; exact he (by linarith)), if_neg he, round_eq]
    split
    · rw [Int.floor_eq_iff]; push_cast; constructor <;> linarith
    · next h =>
      have h := not_lt.mp h
      rw [Int.floor_eq_iff]; push_cast; constructor <;> linarith

/-- the square root of a rational number, rounded to 53 bits; zero for negative numbers, as `Real.sqrt` -/
def sqrtQ (q : ℚ) : ℚ :=
  if q ≤ 0 then 0
  else
    let m : ℤ := Int.log 2 q / 2 - 52
    nearestSqrtQ (q / ((2 : ℚ) ^ m * (2 : ℚ) ^ m)) * (2 : ℚ) ^ m

theorem rnd53_sqrt (q : ℚ) : rnd53 (Real.sqrt q) = (sqrtQ q : ℝ) := by
  unfold sqrtQ
  by_cases hq : q ≤ 0
  · rw [if_pos hq, Real.sqrt_eq_zero'.mpr (by exact_mod_cast hq)]; simp [rnd53]
  rw [if_neg hq]
  have hq := not_le.mp hq
  have hq' : (0 : ℝ) < q := by exact_mod_cast hq
  have hs := Real.sqrt_pos.mpr hq'
  obtain ⟨a, ha⟩ : ∃ a, a = Int.log 2 q / 2 := ⟨_, rfl⟩
  have l1 := (Int.zpow_le_iff_le_log (b := 2) (by norm_num) hq).mpr (show 2 * a ≤ Int.log 2 q by omega)
  have l2 := (Int.lt_zpow_iff_log_lt (b := 2) (by norm_num) hq).mpr (show Int.log 2 q < 2 * a + 2 by omega)
  push_cast at l1 l2
  have l1' : (2 : ℝ) ^ (2 * a) ≤ q := by
    have := (Rat.cast_le (K := ℝ)).mpr l1
    push_cast at this; exact this
  have l2' : (q : ℝ) < (2 : ℝ) ^ (2 * a + 2) := by
    have := (Rat.cast_lt (K := ℝ)).mpr l2
    push_cast at this; exact this
  have e1 : (2 : ℝ) ^ (2 * a) = (2 : ℝ) ^ a * (2 : ℝ) ^ a := by rw [← zpow_add₀ (by norm_num)]; congr 1; ring
  have e2 : (2 : ℝ) ^ (2 * a + 2) = (2 : ℝ) ^ (a + 1) * (2 : ℝ) ^ (a + 1) := by rw [← zpow_add₀ (by norm_num)]; congr 1; ring
  have s1 : (2 : ℝ) ^ a ≤ Real.sqrt q := Real.le_sqrt_of_sq_le (by rw [sq, ← e1]; exact l1')
  have s2 : Real.sqrt q < (2 : ℝ) ^ (a + 1) := by rw [Real.sqrt_lt' (by positivity), sq, ← e2]; exact l2'
  have hlog : Int.log 2 (Real.sqrt q) = a := by
    apply le_antisymm
    · have := (Int.lt_zpow_iff_log_lt (b := 2) (by norm_num) hs).mp (by push_cast; exact s2); omega
    · exact (Int.zpow_le_iff_le_log (b := 2) (by norm_num) hs).mp (by push_cast; exact s1)
  unfold rnd53
  rw [if_neg hs.ne']
  have hulp : ulp (Real.sqrt q) = (2 : ℝ) ^ (a - 52) := by unfold ulp; rw [abs_of_pos hs, hlog]
  rw [hulp, ← ha]
  have hdiv : Real.sqrt q / (2 : ℝ) ^ (a - 52) =
      Real.sqrt ((q / ((2 : ℚ) ^ (a - 52) * (2 : ℚ) ^ (a - 52)) : ℚ) : ℝ) := by
    push_cast
    rw [Real.sqrt_div' _ (by positivity), Real.sqrt_mul_self (by positivity)]
  rw [hdiv, nearestEven_sqrt]
  · push_cast; rfl
  · positivity
  · rw [div_lt_iff₀ (by positivity)]
    have : (4 : ℚ) ^ 53 * ((2 : ℚ) ^ (a - 52) * (2 : ℚ) ^ (a - 52)) = (2 : ℚ) ^ (2 * a + 2) := by
      rw [show (4 : ℚ) ^ 53 = (2 : ℚ) ^ (106 : ℤ) by norm_num, ← zpow_add₀ (by norm_num), ← zpow_add₀ (by norm_num)]
      congr 1; ring
    rw [this]; exact l2

example : sqrtQ 2 = 6369051672525773 / 2 ^ 52 := by decide +kernel
example : sqrtQ (1/4) = 1/2 := by decide +kernel
example : sqrtQ (rndQ (rndQ (1/10) * rndQ (1/10))) = rndQ (1/10) := by decide +kernel
/-! ### double precision by calculation -/

/-- rational numbers with every operation followed by `rndQ`: double precision arithmetic that can be evaluated.  The
elementary functions are not provided. -/
structure QD where
  val : ℚ
  deriving DecidableEq

/-- the double nearest to π -/
def piQ : ℚ := 884279719003555 / 2 ^ 48

instance : Num QD where
  add a b := ⟨rndQ (a.val + b.val)⟩
  sub a b := ⟨rndQ (a.val - b.val)⟩
  mul a b := ⟨rndQ (a.val * b.val)⟩
  div a b := ⟨rndQ (a.val / b.val)⟩
  neg a := ⟨-a.val⟩
  lit q := ⟨rndQ q⟩
  sqrt a := ⟨sqrtQ a.val⟩
  lt a b := decide (a.val < b.val)
  le a b := decide (a.val ≤ b.val)
  eq a b := decide (a.val = b.val)
  floor a := some ⌊a.val⌋

instance : Trig QD where
  pi := ⟨piQ⟩
  sin a := a
  cos a := a
  acos a := a

/-- the same number in `Rd rnd53` -/
noncomputable def QD.toRd (a : QD) : Rd rnd53 := ⟨(a.val : ℝ)⟩

@[simp] theorem QD.toRd_val (a : QD) : a.toRd.val = (a.val : ℝ) := rfl

theorem QD.toRd_lit (q : ℚ) : (Num.lit q : Rd rnd53) = (Num.lit q : QD).toRd := Rd.ext (rnd53_rat q)

theorem QD.toRd_add (a b : QD) : (a + b).toRd = a.toRd + b.toRd := by
  apply Rd.ext
  rw [Rd.val_add, toRd_val, toRd_val, toRd_val, ← Rat.cast_add, rnd53_rat]
  rfl

theorem QD.toRd_sub (a b : QD) : (a - b).toRd = a.toRd - b.toRd := by
  apply Rd.ext
  rw [Rd.val_sub, toRd_val, toRd_val, toRd_val, ← Rat.cast_sub, rnd53_rat]
  rfl

theorem QD.toRd_mul (a b : QD) : (a * b).toRd = a.toRd * b.toRd := by
  apply Rd.ext
  rw [Rd.val_mul, toRd_val, toRd_val, toRd_val, ← Rat.cast_mul, rnd53_rat]
  rfl

theorem QD.toRd_div (a b : QD) : (a / b).toRd = a.toRd / b.toRd := by
  apply Rd.ext
  rw [Rd.val_div, toRd_val, toRd_val, toRd_val, ← Rat.cast_div, rnd53_rat]
  rfl

theorem QD.toRd_neg (a : QD) : (-a).toRd = -a.toRd := by
  apply Rd.ext
  show (((-a.val : ℚ)) : ℝ) = -(a.val : ℝ)
  push_cast; rfl

theorem QD.toRd_sqrt (a : QD) : (Num.sqrt a).toRd = Num.sqrt a.toRd := by
  apply Rd.ext
  rw [Rd.val_sqrt, toRd_val, toRd_val, rnd53_sqrt]
  rfl

theorem QD.toRd_lt (a b : QD) : Num.lt a.toRd b.toRd = Num.lt a b := by
  rw [Bool.eq_iff_iff, Rd.lt_iff]
  show (a.val : ℝ) < b.val ↔ decide (a.val < b.val) = true
  simp

theorem QD.toRd_le (a b : QD) : Num.le a.toRd b.toRd = Num.le a b := by
  rw [Bool.eq_iff_iff, Rd.le_iff]
  show (a.val : ℝ) ≤ b.val ↔ decide (a.val ≤ b.val) = true
  simp

theorem QD.toRd_eq (a b : QD) : Num.eq a.toRd b.toRd = Num.eq a b := by
  rw [Bool.eq_iff_iff, Rd.eq_iff]
  show (a.val : ℝ) = b.val ↔ decide (a.val = b.val) = true
  simp

theorem QD.toRd_pi : (Trig.pi : Rd rnd53) = (Trig.pi : QD).toRd := by
  apply Rd.ext
  show rnd53 Real.pi = ((piQ : ℚ) : ℝ)
  have h1 := Real.pi_gt_d20
  have h2 := Real.pi_lt_d20
  rw [rnd53_eval Real.pi 7074237752028440 (-51)]
  · norm_num [piQ]
  · norm_num; linarith
  · norm_num; linarith
  · rw [abs_lt]; norm_num; constructor <;> linarith

example : rndQ (1 / 10) = 3602879701896397 / 2 ^ 55 := by decide +kernel
example : rndQ (-1 / 10) = -3602879701896397 / 2 ^ 55 := by decide +kernel
example : rndQ (2 ^ 53 + 1) = 2 ^ 53 := by decide +kernel

end Blmath.Proofs
