import Verif.Base.Py
import Verif.Base.Num

/-!
Operations of the built-in Python `float` that differ from numpy's: division raises on a
zero divisor, and `round`, `//`, `int` go through the integer part.
-/

namespace Blmath
variable {α : Type} [Num α]

/-- `a / b` on Python floats: `ZeroDivisionError` on a zero divisor. -/
def pyDiv (a b : α) : PyM α :=
  if Num.eq b (Num.lit 0) then raise .ZeroDivisionError else .ok (a / b)

/-- the integer `n` as a float -/
def ofInt (n : ℤ) : α := Num.lit (n : ℚ)

/-- is neither NaN nor an infinity -/
def pyFinite (x : α) : Bool := (Num.floor x).isSome

/-- `a // b` on Python floats: exact-arithmetic reading of CPython's `float_floor_div`, which goes through `fmod`.  A
quotient that is not finite gives NaN; a finite number over an infinity of the other sign gives -1. -/
def pyFloorDiv (a b : α) : PyM α := do
  let q ← pyDiv a b
  if pyFinite a && !pyFinite b && (Num.lt a (Num.lit 0) && Num.lt (Num.lit 0) b || Num.lt (Num.lit 0) a && Num.lt b (Num.lit 0)) then
    .ok (ofInt (-1))
  else match Num.floor q with
    | some n => .ok (ofInt n)
    | none => .ok (q - q)

/-- `int(x)` on a Python float: truncation towards zero; NaN gives `ValueError`, infinities
`OverflowError`. -/
def pyInt (x : α) : PyM ℤ :=
  match Num.floor x with
  | some n => .ok (if Num.lt x (Num.lit 0) && !Num.eq x (ofInt n) then n + 1 else n)
  | none => if Num.eq x x then raise .OverflowError else raise .ValueError

/-- Integer nearest to a number whose floor is `f`: Python 2 rounds halves away from zero,
Python 3 rounds halves to even.  Only comparisons, with numbers that are exact in doubles: a double that is not an integer
is less than 2^52 in size. -/
def roundFrom (ver : PyVer) (x : α) (f : ℤ) : ℤ :=
  if Num.eq x (ofInt f) then f
  else if Num.lt x (Num.lit (f + 1 / 2)) then f
  else if Num.lt (Num.lit (f + 1 / 2)) x then f + 1
  else match ver with
    | .py2 => if Num.lt x (Num.lit 0) then f else f + 1
    | .py3 => if f % 2 = 0 then f else f + 1

/-- the built-in `round(x)` with one argument.  The result is used as a number by all
callers, so the Python 3 `int` is represented by the float of the same value. -/
def pyRound (ver : PyVer) (x : α) : PyM α :=
  match Num.floor x with
  | some f => .ok (ofInt (roundFrom ver x f))
  | none => match ver with
    | .py2 => .ok x
    | .py3 => if Num.eq x x then raise .OverflowError else raise .ValueError

/-- `abs(x)` -/
def pyAbs (x : α) : α := if Num.lt x (Num.lit 0) then -x else x

end Blmath
