import Mathlib.Analysis.SpecialFunctions.Trigonometric.Basic

/-!
Specification vocabulary for units: what each unit name means physically, written down
independently of the code's table and of its helper functions.
-/

namespace Blmath.Spec

/-- A unit: its synonyms, the kind of quantity it measures, and its size in the base unit
of that kind (metre, kilogram, degree, second, hours per week). -/
structure UnitDef where
  names : List String
  cls : String
  size : ℝ

/-- The units of measurement the library documents, with their physical sizes. -/
noncomputable def unitDefs : List UnitDef := [
  ⟨["m", "meter", "meters"], "length", 1⟩,
  ⟨["mm", "millimeter", "millimeters"], "length", 0.001⟩,
  ⟨["cm", "centimeter", "centimeters"], "length", 0.01⟩,
  ⟨["in", "inch", "inches"], "length", 0.0254⟩,
  ⟨["ft", "foot", "feet"], "length", 12 * 0.0254⟩,
  ⟨["fathoms"], "length", 6 * 12 * 0.0254⟩,
  ⟨["cubits"], "length", 18 * 0.0254⟩,
  ⟨["kg", "kilograms"], "weight", 1⟩,
  ⟨["g", "grams"], "weight", 0.001⟩,
  ⟨["lbs", "pounds", "lb"], "weight", 1 / 2.20462⟩,
  ⟨["stone"], "weight", 1 / 0.157473⟩,
  ⟨["deg", "degrees"], "angle", 1⟩,
  ⟨["rad", "radians"], "angle", 180 / Real.pi⟩,
  ⟨["sec", "second", "seconds"], "time", 1⟩,
  ⟨["min", "minute", "minutes"], "time", 60⟩,
  ⟨["hr", "hour", "hours"], "time", 3600⟩,
  ⟨["day", "days"], "time", 86400⟩,
  ⟨["yr", "year", "years"], "time", 365.242 * 86400⟩,
  ⟨["hours_per_week"], "time_rate", 1⟩ ]

/-- the unit a name stands for, if any -/
noncomputable def unitOf (name : String) : Option UnitDef :=
  unitDefs.find? fun d => d.names.contains name

/-- `name` is the unit `U` -/
def UnitIs (name : String) (U : UnitDef) : Prop := unitOf name = some U

/-- `name` stands for no unit -/
def Unknown (name : String) : Prop := unitOf name = none

/-- the number `v` of units `U`, as a multiple of the base unit of its kind -/
def quantity (v : ℝ) (U : UnitDef) : ℝ := v * U.size

/-- the two unit systems and the unit each prescribes for a kind of quantity -/
def systemUnit (system cls : String) : Option String :=
  if system = "metric" ∨ system = "united_states" then
    if cls = "length" then some (if system = "metric" then "cm" else "in")
    else if cls = "weight" then some (if system = "metric" then "kg" else "lb")
    else if cls = "angle" then some "deg"
    else if cls = "time" then some "yr"
    else if cls = "time_rate" then some "hours_per_week"
    else none
  else none

/-- `x` is an integer multiple of `n` -/
def IsMultiple (x n : ℝ) : Prop := ∃ k : ℤ, x = k * n

end Blmath.Spec
