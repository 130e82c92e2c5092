import Verif.Proofs.RoundEval

/-!
`F64`: IEEE 754 binary64 in full: 53 significant bits, exponents from -1022 to 1023, subnormal numbers, signed zeros,
infinities and NaN (one NaN; its sign and payload are not modelled), rounding to nearest with ties to even.  All
operations can be evaluated.

The other instances of `Num` leave some of this out: `ℝ` and `Fl` do not round, `Rd` and `QD` have no smallest and no
largest number.  `Verif/Props/FloatRange.lean` proves when the results agree.
-/

namespace Blmath
open Blmath.Proofs

/-- a double -/
inductive F64 where
  /-- a finite number other than zero -/
  | num (q : ℚ)
  | zero (neg : Bool)
  | inf (neg : Bool)
  | nan
  deriving DecidableEq

namespace F64

/-- the double nearest to a number, ties to even: a multiple of 2^-1074 below 2^-1022, an infinity if rounding to 53 bits
gives 2^1024 or more; a result of zero has the sign of the number (positive for zero itself) -/
def round (q : ℚ) : F64 :=
  if |q| < 1 / 2 ^ 1022 then
    (if nearestEvenQ (q * 2 ^ 1074) = 0 then zero (decide (q < 0)) else num (nearestEvenQ (q * 2 ^ 1074) / 2 ^ 1074))
  else if 2 ^ 1024 ≤ |rndQ q| then inf (decide (q < 0)) else num (rndQ q)

/-- is the sign bit set (false for NaN) -/
def signBit : F64 → Bool
  | num q => decide (q < 0)
  | zero s => s
  | inf s => s
  | nan => false

protected def neg : F64 → F64
  | num q => num (-q)
  | zero s => zero (!s)
  | inf s => inf (!s)
  | nan => nan

protected def add : F64 → F64 → F64
  | num a, num b => round (a + b)
  | num a, zero _ => num a
  | zero _, num b => num b
  | zero s, zero t => zero (s && t)
  | inf s, inf t => if s = t then inf s else nan
  | inf s, num _ => inf s
  | inf s, zero _ => inf s
  | num _, inf t => inf t
  | zero _, inf t => inf t
  | nan, _ => nan
  | _, nan => nan

protected def sub (a b : F64) : F64 := F64.add a (F64.neg b)

protected def mul (a b : F64) : F64 :=
  match a, b with
  | num x, num y => round (x * y)
  | nan, _ => nan
  | _, nan => nan
  | zero _, inf _ => nan
  | inf _, zero _ => nan
  | inf _, _ => inf (a.signBit ^^ b.signBit)
  | _, inf _ => inf (a.signBit ^^ b.signBit)
  | _, _ => zero (a.signBit ^^ b.signBit)

protected def div (a b : F64) : F64 :=
  match a, b with
  | num x, num y => round (x / y)
  | nan, _ => nan
  | _, nan => nan
  | zero _, zero _ => nan
  | inf _, inf _ => nan
  | inf _, _ => inf (a.signBit ^^ b.signBit)
  | _, zero _ => inf (a.signBit ^^ b.signBit)
  | _, _ => zero (a.signBit ^^ b.signBit)

protected def sqrt : F64 → F64
  | num q => if q < 0 then nan else num (sqrtQ q)
  | zero s => zero s
  | inf false => inf false
  | _ => nan

/-- the number of a finite double -/
def val? : F64 → Option ℚ
  | num q => some q
  | zero _ => some 0
  | _ => none

protected def lt : F64 → F64 → Bool
  | nan, _ => false
  | _, nan => false
  | inf s, inf t => s && !t
  | inf s, _ => s
  | _, inf t => !t
  | a, b => decide (a.val?.getD 0 < b.val?.getD 0)

protected def eq : F64 → F64 → Bool
  | nan, _ => false
  | _, nan => false
  | inf s, inf t => s == t
  | inf _, _ => false
  | _, inf _ => false
  | a, b => decide (a.val?.getD 0 = b.val?.getD 0)

instance : Num F64 where
  add := F64.add
  sub := F64.sub
  mul := F64.mul
  div := F64.div
  neg := F64.neg
  lit := round
  sqrt := F64.sqrt
  lt := F64.lt
  le a b := F64.lt a b || F64.eq a b
  eq := F64.eq
  floor a := a.val?.map fun q => ⌊q⌋

end F64
end Blmath
