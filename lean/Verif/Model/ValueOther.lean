import Verif.Model.Value

/-!
Operands of the operators of `blmath/value.py` other than numbers, Values and lists: `None` and text.

`float(text)` is a parameter (`read`: the number a text stands for, if any).  Text is a list of characters.  The number of
calls that may be open at a time is a parameter too; a call beyond it raises RecursionError (language; the interpreter
counts frames somewhat differently, which moves the limit but does not remove it).
-/

namespace Blmath
variable {α : Type} [Num α] [Trig α]

/-- objects that may meet a `Value` -/
inductive PyObj (α : Type) where
  | none
  | num (x : α)
  | text (s : List Char)
  | val (v : Value α)
  | list (xs : List (PyObj α))

namespace Value
open PyObj

/-- `float(x)` (language); a `Value` has `__float__`.  value.py:53-54 -/
def toFloat (read : List Char → Option α) : PyObj α → PyM α
  | .none => raise .TypeError
  | .num x => .ok x
  | .text s => match read s with
    | some x => .ok x
    | Option.none => raise .ValueError
  | .val v => .ok v.value
  | .list _ => raise .TypeError

/-- the `value` setter.  value.py:28-33 -/
def assignValue (read : List Char → Option α) (self : Value α) : PyObj α → PyM (Value α)
  | .none => raise .ValueError
  | x => do
    let f ← toFloat read x
    pure { self with value := f }

/-- `Value(value, units)`.  value.py:7-16 -/
def makeFrom (read : List Char → Option α) (x : PyObj α) (units : Option String) : PyM (Value α) :=
  match x with
  | .none => raise .ValueError
  | x => do
    let f ← toFloat read x
    make (some f) units

/-- `hasattr(x, '__iter__')` and the items: lists have it, text has it on Python 3 only.  value.py:78, 86, 93, 97 -/
def items (ver : PyVer) : PyObj α → Option (List (PyObj α))
  | .list xs => some xs
  | .text s => match ver with
    | .py2 => Option.none
    | .py3 => some (s.map fun c => .text [c])
  | _ => Option.none

/-- `float(self._comparable(other))`.  value.py:149-153 -/
def comparableObj (read : List Char → Option α) (self : Value α) : PyObj α → PyM α
  | .val o => do
    let c ← convert o self.units
    toFloat read (.val c)
  | x => toFloat read x

/-- `__mul__`, `__rmul__`.  A float times `None` or text is a TypeError.  value.py:74-83 -/
def mulObj (ver : PyVer) (self : Value α) : ℕ → PyObj α → PyM (PyObj α)
  | 0, _ => raise .RecursionError
  | d + 1, other => match other with
    | .val _ => raise .ValueError
    | other => match items ver other with
      | some xs => do
        let ys ← xs.mapM (mulObj ver self d)
        pure (.list ys)
      | Option.none => match other with
        | .num x => do
          let v ← make (some (self.value * x)) self.units
          pure (.val v)
        | _ => raise .TypeError

/-- `__add__`, `__radd__`.  value.py:85-90 -/
def addObj (ver : PyVer) (read : List Char → Option α) (self : Value α) : ℕ → PyObj α → PyM (PyObj α)
  | 0, _ => raise .RecursionError
  | d + 1, other => match items ver other with
    | some xs => do
      let ys ← xs.mapM (addObj ver read self d)
      pure (.list ys)
    | Option.none => do
      let c ← comparableObj read self other
      let v ← make (some (self.value + c)) self.units
      pure (.val v)

/-- `__sub__`.  value.py:92-95 -/
def subObj (ver : PyVer) (read : List Char → Option α) (self : Value α) : ℕ → PyObj α → PyM (PyObj α)
  | 0, _ => raise .RecursionError
  | d + 1, other => match items ver other with
    | some xs => do
      let ys ← xs.mapM (subObj ver read self d)
      pure (.list ys)
    | Option.none => do
      let c ← comparableObj read self other
      let v ← make (some (self.value - c)) self.units
      pure (.val v)

/-- `other - self`: a `Value` on the left uses its own `__sub__`, anything else leads to `__rsub__`.  value.py:96-99 -/
def rsubObj (ver : PyVer) (read : List Char → Option α) (self : Value α) : ℕ → PyObj α → PyM (PyObj α)
  | 0, _ => raise .RecursionError
  | d + 1, other => match other with
    | .val o => subObj ver read o (d + 1) (.val self)
    | other => match items ver other with
      | some xs => do
        let ys ← xs.mapM (rsubObj ver read self d)
        pure (.list ys)
      | Option.none => do
        let c ← comparableObj read self other
        let v ← make (some (c - self.value)) self.units
        pure (.val v)

/-- `__truediv__`, `__div__`; a float divided by anything but a number is a TypeError.  value.py:101-110 -/
def truedivObj (self : Value α) : PyObj α → PyM (Value α)
  | .val o => truediv self (.val o)
  | .num x => truediv self (.num x)
  | _ => raise .TypeError

/-- `__floordiv__`.  value.py:116-123 -/
def floordivObj (self : Value α) : PyObj α → PyM (Value α)
  | .val o => floordiv self (.val o)
  | .num x => floordiv self (.num x)
  | _ => raise .TypeError

/-- the six comparisons; `other == self` with `other` not a `Value` ends up here too (language: the reflected method).
value.py:157-168 -/
def compareObj (read : List Char → Option α) (c : Cmp) (self : Value α) (other : PyObj α) : PyM Bool := do
  let o ← comparableObj read self other
  pure (c.apply self.value o)

/-- `sum(xs)` (language): `0 + x1`, then `+ x2`, ...; the number 0 does not know `Value`s, so that `__radd__` runs first.
value.py:85-90 -/
def sumFrom (acc : Value α) : List (Value α) → PyM (Value α)
  | [] => .ok acc
  | x :: xs => do
    let r ← add acc (.val x)
    match r with
    | .val v => sumFrom v xs
    | _ => raise .TypeError

/-- `sum(xs)`: the number 0 without items.  value.py:85-90 -/
def sum : List (Value α) → PyM (Operand α)
  | [] => .ok (.num (Num.lit 0))
  | x :: xs => do
    let r ← add x (.num (Num.lit 0))
    match r with
    | .val v => do
      let w ← sumFrom v xs
      pure (.val w)
    | _ => raise .TypeError

/-- the loop of `max` (language): a later item replaces the best one so far if it is greater (`>`), that of `min` if it is
smaller (`<`).  value.py:161-164 -/
def bestFrom (c : Cmp) (best : Value α) : List (Value α) → PyM (Value α)
  | [] => .ok best
  | x :: xs => do
    let b ← compareOp c x (.val best)
    bestFrom c (if b then x else best) xs

/-- `max(xs)` with `c = .gt`, `min(xs)` with `c = .lt`; no items: ValueError.  value.py:161-164 -/
def best (c : Cmp) : List (Value α) → PyM (Value α)
  | [] => raise .ValueError
  | x :: xs => bestFrom c x xs

end Value
end Blmath
