import Verif.Spec.Rounding

/-!
Decimal text: what a number with six places looks like, and what it stands for.
-/

namespace Blmath.Spec

/-- the number a row of digits stands for -/
def readDec (t : List Char) : ℕ := t.foldl (fun a c => 10 * a + (c.toNat - 48)) 0

/-- `t` is `x` written with six places: a minus sign if `x` is negative, digits without superfluous zeros, a point, six
digits; together the number of millionths nearest to `|x|`, a tie going to the even one. -/
def SixPlaces (x : ℝ) (t : List Char) : Prop :=
  ∃ ip fp : List Char, t = (if x < 0 then ['-'] else []) ++ ip ++ '.' :: fp ∧ ip ≠ [] ∧ fp.length = 6 ∧
    (∀ c ∈ ip ++ fp, c.isDigit = true) ∧ (ip.head? = some '0' → ip = ['0']) ∧
    RoundsTo .py3 (|x| * 1000000) (readDec (ip ++ fp))

end Blmath.Spec
