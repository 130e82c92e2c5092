import Verif.Base.Rd
import Mathlib.Data.Int.Log
import Mathlib.Algebra.Order.Round

/-!
Specification of rounded arithmetic: the standard model of floating-point error, and binary rounding with 53 significant
bits as its intended instance.
-/

namespace Blmath.Spec

/-- The contract of a rounding: relative error at most `u`, monotone, numbers already rounded stay, and integers up to
2^53 times powers of two are exact. -/
structure Rounding (rnd : ℝ → ℝ) (u : ℝ) : Prop where
  nonneg : 0 ≤ u
  lt_one : u < 1
  err : ∀ x, |rnd x - x| ≤ u * |x|
  mono : Monotone rnd
  idem : ∀ x, rnd (rnd x) = rnd x
  grid : ∀ k m : ℤ, |k| ≤ 2 ^ 53 → rnd (k * (2 : ℝ) ^ m) = k * (2 : ℝ) ^ m

/-- the usual bound for the error of `k` roundings in a row: `k·u / (1 - k·u)` -/
noncomputable def gam (u : ℝ) (k : ℕ) : ℝ := k * u / (1 - k * u)

/-- spacing of the numbers with 53 significant bits near `x` -/
noncomputable def ulp (x : ℝ) : ℝ := (2 : ℝ) ^ (Int.log 2 |x| - 52)

/-- the nearest integer, ties to even -/
noncomputable def nearestEven (y : ℝ) : ℤ :=
  if Int.fract y = 1 / 2 then (if Even ⌊y⌋ then ⌊y⌋ else ⌊y⌋ + 1) else round y

/-- rounding to the nearest number with 53 significant bits, ties to even: IEEE binary64, but for the range of the
exponent, which is unbounded here -/
noncomputable def rnd53 (x : ℝ) : ℝ := if x = 0 then 0 else nearestEven (x / ulp x) * ulp x

end Blmath.Spec
