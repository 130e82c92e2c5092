import Verif.Model.Units

/-!
Model of `blmath/value.py`.

`float(x)` on numbers is the identity here (all numbers are of the scalar type `α`).
Operands of the arithmetic methods are numbers, `Value`s, or (nested) iterables of those;
strings and other objects are not modelled.
-/

namespace Blmath
variable {α : Type} [Num α] [Trig α]

/-- An instance: `_val` and `_units`.  value.py:3-33 -/
structure Value (α : Type) where
  value : α
  units : Option String
  deriving DecidableEq

/-- What the operators accept and return. -/
inductive Operand (α : Type) where
  | num (x : α)
  | val (v : Value α)
  | list (xs : List (Operand α))

namespace Value
open Operand

/-- `Value(value, units)`.  value.py:7-16, 28-33 -/
def make (value : Option α) (units : Option String) : PyM (Value α) :=
  match value with
  | none => raise .ValueError
  | some v => match units with
    | none => .ok ⟨v, none⟩
    | some u => if (Units.allUnits α).contains u then .ok ⟨v, some u⟩ else raise .ValueError

/-- the `value` setter.  value.py:28-33 -/
def setValue (self : Value α) (v : Option α) : PyM (Value α) :=
  match v with
  | none => raise .ValueError
  | some x => .ok { self with value := x }

/-- the `units` setter: no validation.  value.py:21-23 -/
def setUnits (self : Value α) (u : Option String) : Value α := { self with units := u }

/-- `convert`.  value.py:35-41 -/
def convert (self : Value α) (to_ : Option String) : PyM (Value α) :=
  if to_ = self.units then .ok self
  else if self.units = none then raise .ValueError
  else do
    let r ← Units.convert (some self.value) self.units to_ none
    make r.1 r.2

/-- `convert_to_system_default`.  value.py:43-47.  A unitless value looks up the key `None`. -/
def convertToSystemDefault (self : Value α) (system : String) : PyM (Value α) := do
  let c ← Units.unitsClass α self.units
  let d ← Units.defaultUnits system []
  match c with
  | none => raise .KeyError
  | some c => match d.get? c with
    | none => raise .KeyError
    | some u => convert self (some u)

/-- `x.<name>` for a name that is not a regular attribute.  value.py:60-64 -/
def getattr (self : Value α) (name : String) : PyM (Value α) :=
  if (Units.allUnits α).contains name then convert self (some name) else raise .AttributeError

/-- `x[key]` for an integer key; value.py:66-72.  The two components have different types. -/
def getitem (self : Value α) (key : ℤ) : PyM (α ⊕ Option String) :=
  if key = 0 then .ok (.inl self.value)
  else if key = 1 then .ok (.inr self.units)
  else raise .KeyError

/-- Iteration over an object without `__iter__` (language): `__getitem__` is called with 0, 1, 2, ...; an IndexError ends
the iteration, any other exception goes through.  The relation holds between the first index and what collecting
everything from there on gives. -/
inductive IterFrom {β : Type} (get : ℤ → PyM β) : ℤ → PyM (List β) → Prop where
  | stop (i : ℤ) : get i = .error .IndexError → IterFrom get i (.ok [])
  | fail (i : ℤ) (e : PyErr) : get i = .error e → e ≠ .IndexError → IterFrom get i (.error e)
  | next (i : ℤ) (x : β) (r : PyM (List β)) : get i = .ok x → IterFrom get (i + 1) r → IterFrom get i (r.map (x :: ·))

/-- `a, b, ... = x` with `n` targets (language), from index `i` on: every target takes an item, then the iterator must be
exhausted -/
def unpackFrom {β : Type} (get : ℤ → PyM β) (i : ℤ) : ℕ → PyM (List β)
  | 0 => match get i with
    | .ok _ => raise .ValueError
    | .error .IndexError => .ok []
    | .error e => .error e
  | n + 1 => match get i with
    | .ok x => (unpackFrom get (i + 1) n).map (x :: ·)
    | .error .IndexError => raise .ValueError
    | .error e => .error e

mutual
/-- `__mul__` / `__rmul__`.  value.py:74-83 -/
def mul (self : Value α) : Operand α → PyM (Operand α)
  | .val _ => raise .ValueError
  | .list xs => do
    let ys ← mulList self xs
    pure (.list ys)
  | .num x => do
    let v ← make (some (self.value * x)) self.units
    pure (.val v)
/-- `[self * x for x in other]`.  value.py:79 -/
def mulList (self : Value α) : List (Operand α) → PyM (List (Operand α))
  | [] => .ok []
  | x :: xs => do
    let y ← mul self x
    let ys ← mulList self xs
    pure (y :: ys)
end

/-- `float(self._comparable(other))`.  value.py:88, 149-153.  `float(list)` is a `TypeError`. -/
def comparable (self : Value α) : Operand α → PyM α
  | .num x => .ok x
  | .val o => do
    let c ← convert o self.units
    pure c.value
  | .list _ => raise .TypeError

mutual
/-- `__add__` / `__radd__`.  value.py:85-90 -/
def add (self : Value α) : Operand α → PyM (Operand α)
  | .list xs => do
    let ys ← addList self xs
    pure (.list ys)
  | .num x => do
    let c ← comparable self (.num x)
    let v ← make (some (self.value + c)) self.units
    pure (.val v)
  | .val o => do
    let c ← comparable self (.val o)
    let v ← make (some (self.value + c)) self.units
    pure (.val v)
/-- `[self + x for x in other]`.  value.py:87 -/
def addList (self : Value α) : List (Operand α) → PyM (List (Operand α))
  | [] => .ok []
  | x :: xs => do
    let y ← add self x
    let ys ← addList self xs
    pure (y :: ys)
end

mutual
/-- `__sub__`.  value.py:92-95 -/
def sub (self : Value α) : Operand α → PyM (Operand α)
  | .list xs => do
    let ys ← subList self xs
    pure (.list ys)
  | .num x => do
    let c ← comparable self (.num x)
    let v ← make (some (self.value - c)) self.units
    pure (.val v)
  | .val o => do
    let c ← comparable self (.val o)
    let v ← make (some (self.value - c)) self.units
    pure (.val v)
/-- `[self - x for x in other]`.  value.py:94 -/
def subList (self : Value α) : List (Operand α) → PyM (List (Operand α))
  | [] => .ok []
  | x :: xs => do
    let y ← sub self x
    let ys ← subList self xs
    pure (y :: ys)
end

mutual
/-- `x - self` as evaluated by the interpreter: a number or a list has no matching `__sub__`, so
`__rsub__` (value.py:96-99) runs; a `Value` uses its own `__sub__`. -/
def rsub (self : Value α) : Operand α → PyM (Operand α)
  | .list xs => do
    let ys ← rsubList self xs
    pure (.list ys)
  | .num x => do
    let c ← comparable self (.num x)
    let v ← make (some (c - self.value)) self.units
    pure (.val v)
  | .val o => sub o (.val self)
/-- `[x - self for x in other]`.  value.py:98 -/
def rsubList (self : Value α) : List (Operand α) → PyM (List (Operand α))
  | [] => .ok []
  | x :: xs => do
    let y ← rsub self x
    let ys ← rsubList self xs
    pure (y :: ys)
end

/-- `__truediv__` / `__div__`.  value.py:101-110.  Only `ValueError` is caught (and re-raised). -/
def truediv (self : Value α) : Operand α → PyM (Value α)
  | .val o => do
    let c ← convert o self.units
    let q ← pyDiv self.value c.value
    make (some q) none
  | .num x => do
    let q ← pyDiv self.value x
    make (some q) self.units
  | .list _ => raise .TypeError

/-- `__rtruediv__`, `__rdiv__`, `__rfloordiv__`.  value.py:111-114, 124-125 -/
def rtruediv (_self : Value α) (_other : Operand α) : PyM (Value α) := raise .ValueError

/-- `__floordiv__`.  value.py:116-123 -/
def floordiv (self : Value α) : Operand α → PyM (Value α)
  | .val o => do
    let c ← convert o self.units
    let q ← pyFloorDiv self.value c.value
    make (some q) none
  | .num x => do
    let q ← pyFloorDiv self.value x
    make (some q) self.units
  | .list _ => raise .TypeError

/-- `__mod__` and `__pow__`.  value.py:127-130 -/
def modPow (_self : Value α) (_other : Operand α) : PyM (Value α) := raise .AttributeError

/-- `__pos__`.  value.py:132-133 -/
def pos (self : Value α) : PyM (Value α) := .ok self

/-- `__neg__`.  value.py:134-135 -/
def neg (self : Value α) : PyM (Value α) := make (some (-self.value)) self.units

/-- `__abs__`.  value.py:136-137 -/
def abs (self : Value α) : PyM (Value α) := make (some (pyAbs self.value)) self.units

/-- `bool(x)`: Python 2 uses `__nonzero__` (value.py:146-147); Python 3 finds neither
`__bool__` nor `__len__`, so every instance is true. -/
def truth (ver : PyVer) (self : Value α) : Bool :=
  match ver with
  | .py2 => !Num.eq self.value (Num.lit 0)
  | .py3 => true

/-- the rich comparisons -/
inductive Cmp where
  | eq | ne | lt | gt | le | ge
  deriving DecidableEq

/-- comparison of two floats -/
def Cmp.apply (c : Cmp) (a b : α) : Bool :=
  match c with
  | .eq => Num.eq a b
  | .ne => !Num.eq a b
  | .lt => Num.lt a b
  | .gt => Num.lt b a
  | .le => Num.le a b
  | .ge => Num.le b a

/-- `__eq__`, `__ne__`, `__lt__`, `__gt__`, `__le__`, `__ge__`.  value.py:157-168 -/
def compareOp (c : Cmp) (self : Value α) (other : Operand α) : PyM Bool := do
  let o ← comparable self other
  pure (c.apply self.value o)

/-- `round_to(value, nearest)` with a `Value` first argument (numerics/rounding.py:25-26).
`value / nearest` is a `Value`; the built-in `round` of Python 2 converts it with
`__float__`, that of Python 3 calls `__round__` (value.py:57-58) without its required argument. -/
def roundTo (ver : PyVer) (self : Value α) (nearest : α) : PyM α := do
  let reciprocal ← pyDiv (Num.lit 1) nearest
  let q ← truediv self (.num nearest)
  match ver with
  | .py2 => do
    let r ← pyRound .py2 q.value
    pyDiv r reciprocal
  | .py3 => raise .TypeError

/-- `convert_to_system_default(value, units)` of units.py:188-220 with a `Value` as the number:
`value * factor` is again a `Value` (with the *old* units), paired with the new unit. -/
def unitsConvertToSystemDefault (self : Value α) (units : Option String) (system : String) :
    PyM (Value α × Option String) := do
  let d ← Units.defaultUnits system []
  let c ← Units.unitsClass α units
  match c with
  | none => pure (self, units)
  | some c => match d.get? c with
    | none => raise .KeyError
    | some u => do
      let f ← Units.factor (α := α) units (some u) none
      let v ← make (some (self.value * f)) self.units
      pure (v, some u)

/-- the computation behind `prettified`: `units.prettify(self, self.units)`.
value.py:170-173, units.py:222-247 -/
def computePrettified (ver : PyVer) (self : Value α) :
    PyM ((α × Option String) × (α × Option String)) := do
  let a ← unitsConvertToSystemDefault self self.units "metric"
  let a' ← roundTo ver a.1 (Units.increment a.2 none)
  let b ← unitsConvertToSystemDefault self self.units "united_states"
  let b' ← roundTo ver b.1 (Units.increment b.2 none)
  pure ((a', a.2), (b', b.2))

end Value

/-- An instance together with the slot `cached_property` writes into on the first successful
read of `prettified`.  value.py:1, 170-173 -/
structure CachedValue (α : Type) where
  v : Value α
  cache : Option ((α × Option String) × (α × Option String))

/-- Reads and writes of one instance, as far as `prettified` is concerned. -/
inductive PrettyOp (α : Type) where
  | setValue (x : α)
  | setUnits (u : Option String)
  | readPretty

namespace CachedValue

/-- `x.prettified`.  value.py:170-173 with `cached_property`: an exception is not cached. -/
def readPretty (ver : PyVer) (o : CachedValue α) :
    PyM ((α × Option String) × (α × Option String)) × CachedValue α :=
  match o.cache with
  | some r => (.ok r, o)
  | none => match Value.computePrettified ver o.v with
    | .ok r => (.ok r, { o with cache := some r })
    | .error e => (.error e, o)

/-- one step of a history -/
def step (ver : PyVer) (o : CachedValue α) : PrettyOp α → CachedValue α
  | .setValue x => { o with v := { o.v with value := x } }
  | .setUnits u => { o with v := o.v.setUnits u }
  | .readPretty => (o.readPretty ver).2

/-- a history -/
def run (ver : PyVer) (o : CachedValue α) (ops : List (PrettyOp α)) : CachedValue α :=
  ops.foldl (step ver) o

end CachedValue
end Blmath
