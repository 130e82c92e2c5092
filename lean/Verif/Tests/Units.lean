import Verif.Tests.Basic
import Verif.Model.Units

/-!
`blmath/test_units.py` and `blmath/numerics/test_rounding.py`, run on the models.
-/

namespace Blmath.Tests
open Blmath Units

/-- text and numbers as results of `convert` -/
def isPair (r : PyM (Option Float × Option String)) (x : Float) (u : String) (places : Int := 7) : Bool :=
  returns r fun t => (match t.1 with | some y => almost y x places | none => false) && t.2 == some u

def conv (x : Float) (a b : String) : PyM (Option Float × Option String) := convert (some x) (some a) (some b) none

-- test_all_units
#guard ["in", "cm", "deg", "years"].all fun u => (allUnits Float).contains u
#guard ["all_units", "factor", "convert"].all fun u => !(allUnits Float).contains u
-- test_all_units_classes
#guard (allUnitsClasses Float).length == 5 && ["length", "weight", "angle", "time", "time_rate"].all fun c => (allUnitsClasses Float).contains c
-- test_units_class
#guard [("cm", "length"), ("stone", "weight"), ("rad", "angle"), ("sec", "time")].all fun t => returns (unitsClass Float (some t.1)) (· == some t.2)
#guard returns (unitsClass Float (some "")) (· == none) && returns (unitsClass Float none) (· == none)
-- test_units_in_class, test_lengths, test_weights, test_angles, test_times, test_time_rates
#guard (unitsInClass Float "length").contains "m" && (lengths Float).contains "m" && (weights Float).contains "lb" &&
  (angles Float).contains "degrees" && (times Float).contains "sec" && (timeRates Float).contains "hours_per_week"
-- test_default_units
#guard returns (defaultUnits "metric" []) fun d => d == [("length", "cm"), ("weight", "kg"), ("angle", "deg"), ("time", "yr"), ("time_rate", "hours_per_week")]
-- test_raw
#guard returns (raw (α := Float) (some "m")) (· == 1.0) && returns (raw (α := Float) (some "mm")) (· == 0.001)
-- test_factor
#guard raises (factor (α := Float) (some "stone") (some "fathoms") none) .ValueError
#guard [(none, some ""), (some "", none), (none, none), (some "", some "")].all fun t => returns (factor (α := Float) t.1 t.2 none) (· == 1.0)
#guard returns (factor (α := Float) (some "in") (some "cm") none) (· == 2.54)
#guard returns (factor (α := Float) (some "year") (some "min") none) (almost · 525600 (-3))
#guard returns (factor (α := Float) (some "sec") (some "hr") (some "time")) (· == 1.0 / 3600)
#guard raises (factor (α := Float) (some "sec") (some "hr") (some "length")) .ValueError
-- test_convert
#guard returns (conv 25 "cm" "mm") fun t => t.1 == some 250 && t.2 == some "mm"
#guard returns (conv 180 "deg" "rad") fun t => t.1 == some (Trig.pi : Float) && t.2 == some "rad"
#guard isPair (conv (-10) "ft" "in") (-120) "in"
-- test_conversion_factors
#guard isPair (conv 25 "cm" "m") 0.25 "m"
#guard isPair (conv 25 "cm" "cm") 25 "cm"
#guard isPair (conv 25 "cm" "mm") 250 "mm"
#guard isPair (conv 25 "cm" "in") 9.8425197 "in"
#guard isPair (conv 25 "cm" "ft") 0.82021 "ft"
#guard isPair (conv 25 "cm" "fathoms") 0.136701662 "fathoms"
#guard isPair (conv 25 "cm" "cubits") 0.546806649 "cubits"
#guard isPair (conv 10 "kg" "kg") 10 "kg"
#guard isPair (conv 1 "kg" "g") 1000 "g"
#guard isPair (conv 10 "kg" "lbs") 22.0462 "lbs"
#guard isPair (conv 10 "kg" "stone") 1.57473 "stone"
#guard isPair (conv 90 "deg" "rad") ((Trig.pi : Float) / 2) "rad"
#guard isPair (conv 90 "deg" "deg") 90 "deg"
#guard isPair (conv 30 "min" "sec") (30 * 60) "sec"
#guard isPair (conv 30 "min" "minutes") 30 "minutes"
#guard isPair (conv 30 "min" "hours") 0.5 "hours"
#guard isPair (conv 2 "days" "min") (2 * 24 * 60) "min"
#guard isPair (conv 1 "years" "min") 525948.48 "min"
-- test_convert_list
#guard returns (convertList [10, 20, 30] (some "cm") (some "mm")) fun l => same l [100, 200, 300]
-- test_convert_to_system_default
#guard returns (convertToSystemDefault (some (10 : Float)) (some "mm") "metric") fun t => t.1 == some 1 && t.2 == some "cm"
#guard isPair (convertToSystemDefault (some 10) (some "mm") "united_states") 0.393701 "in" 6
#guard isPair (convertToSystemDefault (some 10) (some "stone") "united_states") 140 "lb" 0
#guard returns (convertToSystemDefault (some (10 : Float)) (some "") "metric") fun t => t.1 == some 10 && t.2 == some ""
-- test_prettify, for both versions of Python
def isPretty (v : PyVer) (x : Float) (u : String) (p : Option ℤ) (a b : Float) : Bool :=
  returns (prettify v (some x) (some u) p) fun t => t.1.1 == a && t.1.2 == some "cm" && t.2.1 == b && t.2.2 == some "in"
#guard [PyVer.py2, .py3].all fun v =>
  isPretty v 182.13992 "cm" none 182.0 71.75 && isPretty v 1821.3992 "mm" none 182.0 71.75 && isPretty v (-182.13992) "cm" none (-182.0) (-71.75) &&
  isPretty v 182.13992 "cm" (some 2) 182.14 71.71 && isPretty v 182.13992 "cm" (some 4) 182.1399 71.7086

end Blmath.Tests
