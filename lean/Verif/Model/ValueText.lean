import Verif.Model.Value

/-!
Model of the text forms and the conversions of `blmath/value.py`: `__str__`, `__repr__`, `__unicode__`, `__int__`,
`__float__`, `__round__`.  Text is a list of characters.  Both versions of Python format and round the exact value of a
float; the result of `round` to some places, a float again, is taken as exact.
-/

namespace Blmath
variable {α : Type} [Num α] [Trig α]

/-- the decimal digits of a natural number, without leading zeros -/
def decimal (n : ℕ) : List Char := Nat.toDigits 10 n

/-- exactly `k` decimal digits, those of `n` modulo `10 ^ k` -/
def paddedDecimal : ℕ → ℕ → List Char
  | 0, _ => []
  | k + 1, n => paddedDecimal k (n / 10) ++ [Nat.digitChar (n % 10)]

/-- `'%f' % x`: six places, halves to even -/
def percentF (x : α) : List Char :=
  match Num.floor (pyAbs x * Num.lit 1000000) with
  | some f =>
    let k := (roundFrom .py3 (pyAbs x * Num.lit 1000000) f).toNat
    (if Num.lt x (Num.lit 0) then ['-'] else []) ++ decimal (k / 1000000) ++ '.' :: paddedDecimal 6 k
  | none => if Num.eq x x then (if Num.lt x (Num.lit 0) then "-inf".toList else "inf".toList) else "nan".toList

/-- the built-in `round(x, places)` of a float -/
def pyRoundPlaces (ver : PyVer) (x : α) (places : ℤ) : α :=
  let scale : α := Num.lit ((10 : ℚ) ^ places)
  match Num.floor (x * scale) with
  | some f => ofInt (roundFrom ver (x * scale) f) / scale
  | none => x

namespace Value

/-- `'%s' % units` -/
def unitText : Option String → List Char
  | none => "None".toList
  | some u => u.toList

/-- `__str__`, also `__unicode__`.  value.py:130-133 -/
def str (self : Value α) : List Char := percentF self.value ++ ' ' :: unitText self.units

/-- `__repr__`.  value.py:134-135 -/
def repr (self : Value α) : List Char := "<Value ".toList ++ percentF self.value ++ ' ' :: unitText self.units ++ ['>']

/-- `__float__`.  value.py:53-54 -/
def float (self : Value α) : α := self.value

/-- `__int__`.  value.py:55-56 -/
def int (self : Value α) : PyM ℤ := pyInt self.value

/-- what the built-in `round` gives for a Value: a Value, or a number -/
inductive Rounded (α : Type) where
  | val (v : Value α)
  | num (x : α)

/-- `__round__(places)`.  value.py:57-58, with the `round` of Python 3 -/
def roundMethod (self : Value α) (places : ℤ) : PyM (Value α) := make (some (pyRoundPlaces .py3 self.value places)) self.units

/-- the built-in `round(self, places)` or `round(self)`: Python 2 knows no `__round__` and takes `float(self)`; Python 3 calls
`__round__`, whose argument is required -/
def builtinRound (ver : PyVer) (self : Value α) (places : Option ℤ) : PyM (Rounded α) :=
  match ver, places with
  | .py2, some k => .ok (.num (pyRoundPlaces .py2 self.float k))
  | .py2, none => do
    let r ← pyRound .py2 self.float
    pure (.num r)
  | .py3, some k => do
    let v ← self.roundMethod k
    pure (.val v)
  | .py3, none => raise .TypeError

end Value
end Blmath
