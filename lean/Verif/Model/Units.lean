import Verif.Base.PyFloat
import Verif.Base.Dict

/-!
Model of `blmath/units.py` and `blmath/numerics/rounding.py`.

A unit name or unit class argument is `Option String` (`none` is Python's `None`).
Values are Python numbers; multiplication by a factor is the scalar `*`.
-/

namespace Blmath.Units
variable {α : Type} [Num α] [Trig α]

local notation "lit" => (Num.lit : ℚ → α)

/-- the unit table: name ↦ (class, factor to the class' base unit).
units.py:5-33.  Chained assignments `a = b = c = v` list the same tuple under each name. -/
def table : Dict String (String × α) :=
  let m : α := lit 1
  let kg : α := lit 1
  let deg : α := lit 1
  let sec : α := lit 1
  let min : α := sec * lit 60
  let hour : α := lit 60 * min
  let day : α := hour * lit 24
  [ -- units.py:8-14
    ("m", "length", m), ("meter", "length", m), ("meters", "length", m),
    ("mm", "length", m / lit 1000), ("millimeter", "length", m / lit 1000),
    ("millimeters", "length", m / lit 1000),
    ("cm", "length", m / lit 100), ("centimeter", "length", m / lit 100),
    ("centimeters", "length", m / lit 100),
    ("in", "length", lit 0.0254), ("inch", "length", lit 0.0254), ("inches", "length", lit 0.0254),
    ("ft", "length", lit 0.3048), ("foot", "length", lit 0.3048), ("feet", "length", lit 0.3048),
    ("fathoms", "length", lit 1.8288),
    ("cubits", "length", lit 0.4572),
    -- units.py:17-20
    ("kg", "weight", kg), ("kilograms", "weight", kg),
    ("g", "weight", kg / lit 1000), ("grams", "weight", kg / lit 1000),
    ("lbs", "weight", kg / lit 2.20462), ("pounds", "weight", kg / lit 2.20462),
    ("lb", "weight", kg / lit 2.20462),
    ("stone", "weight", kg / lit 0.157473),
    -- units.py:23-24
    ("deg", "angle", deg), ("degrees", "angle", deg),
    ("rad", "angle", deg * lit 180 / Trig.pi), ("radians", "angle", deg * lit 180 / Trig.pi),
    -- units.py:27-31
    ("sec", "time", sec), ("second", "time", sec), ("seconds", "time", sec),
    ("min", "time", min), ("minute", "time", min), ("minutes", "time", min),
    ("hr", "time", hour), ("hour", "time", hour), ("hours", "time", hour),
    ("day", "time", day), ("days", "time", day),
    ("yr", "time", day * lit 365.242), ("year", "time", day * lit 365.242),
    ("years", "time", day * lit 365.242),
    -- units.py:33
    ("hours_per_week", "time_rate", lit 1) ]

/-- `self._units[u]`; `None` and unknown names are missing keys.  units.py:67,129,146-150 -/
def lookup (u : Option String) : PyM (String × α) :=
  match u with
  | none => raise .KeyError
  | some s => match (table (α := α)).get? s with
    | some e => .ok e
    | none => raise .KeyError

/-- `all_units`.  units.py:41-46 -/
def allUnits (α : Type) [Num α] [Trig α] : List String := (table (α := α)).keys

/-- `x is None or not len(x)` / `x is None or x == ''`.  units.py:65,142 -/
def blank : Option String → Bool
  | none => true
  | some s => s == ""

/-- `all_units_classes`: the classes without repetition; the order, that of a Python set, is not modelled.
units.py:48-55 -/
def allUnitsClasses (α : Type) [Num α] [Trig α] : List String := ((table (α := α)).map fun e => e.2.1).dedup

/-- `units_class`.  units.py:57-67 -/
def unitsClass (α : Type) [Num α] [Trig α] (u : Option String) : PyM (Option String) :=
  if blank u then .ok none
  else do
    let e ← lookup (α := α) u
    pure (some e.1)

/-- `units_in_class`.  units.py:69-74 -/
def unitsInClass (α : Type) [Num α] [Trig α] (c : String) : List String :=
  ((table (α := α)).filter fun e => e.2.1 == c).map Prod.fst

/-- the properties `lengths`, `weights`, `angles`, `times` and `time_rates`.  units.py:76-109 -/
def lengths (α : Type) [Num α] [Trig α] : List String := unitsInClass α "length"
@[inherit_doc lengths] def weights (α : Type) [Num α] [Trig α] : List String := unitsInClass α "weight"
@[inherit_doc lengths] def angles (α : Type) [Num α] [Trig α] : List String := unitsInClass α "angle"
@[inherit_doc lengths] def times (α : Type) [Num α] [Trig α] : List String := unitsInClass α "time"
@[inherit_doc lengths] def timeRates (α : Type) [Num α] [Trig α] : List String := unitsInClass α "time_rate"

/-- `_default_units`.  units.py:35-38 -/
def defaultTable : Dict String (Dict String String) :=
  [ ("metric", [("length", "cm"), ("weight", "kg"), ("angle", "deg"), ("time", "yr"),
      ("time_rate", "hours_per_week")]),
    ("united_states", [("length", "in"), ("weight", "lb"), ("angle", "deg"), ("time", "yr"),
      ("time_rate", "hours_per_week")]) ]

/-- `default_units`.  units.py:111-121 -/
def defaultUnits (system : String) (exceptions : Dict String String) :
    PyM (Dict String String) :=
  match defaultTable.get? system with
  | none => raise .KeyError
  | some d => .ok (Dict.update (Dict.update [] d) exceptions)

/-- `raw`.  units.py:123-129 -/
def raw (u : Option String) : PyM α := do
  let e ← lookup u
  pure e.2

/-- `factor`.  units.py:131-150.  The final `/` divides Python floats. -/
def factor (from_ to_ unitsClass : Option String) : PyM α :=
  if blank from_ && blank to_ then .ok (lit 1)
  else if from_ = to_ then .ok (lit 1)
  else do
    let f ← lookup (α := α) from_
    let t ← lookup (α := α) to_
    if f.1 ≠ t.1 then raise .ValueError
    else if (!blank unitsClass) && unitsClass != some f.1 then raise .ValueError
    else pyDiv f.2 t.2

/-- `convert`.  units.py:152-173 -/
def convert (value : Option α) (from_ to_ unitsClass : Option String) :
    PyM (Option α × Option String) := do
  let f ← factor from_ to_ unitsClass
  match value with
  | none => pure (none, none)
  | some v => pure (some (v * f), to_)

/-- `convert_list`.  units.py:175-186 -/
def convertList (xs : List α) (from_ to_ : Option String) : PyM (List α) := do
  let f ← factor from_ to_ none
  pure (xs.map fun x => f * x)

/-- `convert_to_default`.  units.py:188-205 -/
def convertToDefault (value : Option α) (from_ : Option String) (defaults : Dict String String) :
    PyM (Option α × Option String) := do
  let c ← unitsClass α from_
  match c with
  | none => pure (value, from_)
  | some c =>
    match defaults.get? c with
    | none => raise .KeyError
    | some u => convert value from_ (some u) none

/-- `convert_to_system_default`.  units.py:208-220 -/
def convertToSystemDefault (value : Option α) (from_ : Option String) (system : String) :
    PyM (Option α × Option String) := do
  let d ← defaultUnits system []
  convertToDefault value from_ d

/-- `round_to` on Python floats.  numerics/rounding.py:25-26 -/
def roundTo (ver : PyVer) (value nearest : α) : PyM α := do
  let reciprocal ← pyDiv (lit 1) nearest
  let q ← pyDiv value nearest
  let r ← pyRound ver q
  pyDiv r reciprocal

/-- the built-in `round(x, p)`, which rounds the decimal expansion and leaves NaN and the infinities alone -/
def pyRoundDigits (ver : PyVer) (p : ℤ) (x : α) : α :=
  match Num.floor (x * lit ((10 : ℚ) ^ p)) with
  | some f => ofInt (roundFrom ver (x * lit ((10 : ℚ) ^ p)) f) / lit ((10 : ℚ) ^ p)
  | none => x

/-- `rounded_list`.  numerics/rounding.py:28-29 -/
def roundedList (ver : PyVer) (xs : List (Option α)) (precision : ℤ) : List (Option α) :=
  xs.map fun x => match x with
    | none => none
    | some x => some (pyRoundDigits ver precision x)

/-- the increment chosen by `prettify`.  units.py:240-244.
`10 ** precision` is exact here (no overflow for huge precisions). -/
def increment (units : Option String) (precision : Option ℤ) : α :=
  match precision with
  | some p => lit (1 / (10 : ℚ) ^ p)
  | none => match units with
    | some "cm" => lit 0.5
    | some "in" => lit 0.25
    | some "kg" => lit 0.5
    | some "lb" => lit 1.0
    | some "yr" => lit 1.0
    | _ => lit 0.1

/-- `round_value` inside `prettify`.  units.py:238-245.  `None / nearest` is a `TypeError`. -/
def roundValue (ver : PyVer) (precision : Option ℤ) (vu : Option α × Option String) :
    PyM (α × Option String) :=
  match vu.1 with
  | none => raise .TypeError
  | some v => do
    let r ← roundTo ver v (increment vu.2 precision)
    pure (r, vu.2)

/-- `prettify`.  units.py:222-247 -/
def prettify (ver : PyVer) (value : Option α) (units : Option String) (precision : Option ℤ) :
    PyM ((α × Option String) × (α × Option String)) := do
  let a ← convertToSystemDefault value units "metric"
  let a' ← roundValue ver precision a
  let b ← convertToSystemDefault value units "united_states"
  let b' ← roundValue ver precision b
  pure (a', b')

end Blmath.Units
