import Verif.Tests.Basic
import Verif.Model.Value
import Verif.Model.ValueText
import Verif.Model.Json

/-!
`blmath/test_value.py` and `blmath/numerics/test_rounding.py`, run on the models.
-/

namespace Blmath.Tests
open Blmath

/-- `Value(x, u)` -/
def v (x : Float) (u : String) : Value Float := ⟨x, some u⟩

/-- `Value(x, None)` -/
def v0 (x : Float) : Value Float := ⟨x, none⟩

/-- `a == b` -/
def eqv (a b : Value Float) : Bool := returns (Value.compareOp .eq a (.val b)) id

/-- a `Value` equal to `b` -/
def isV (r : PyM (Value Float)) (b : Value Float) : Bool := returns r fun a => eqv a b

/-- a `Value` equal to `b`, as a result of an operator -/
def isOp (r : PyM (Operand Float)) (b : Value Float) : Bool :=
  returns r fun o => match o with
    | .val a => eqv a b
    | _ => false

/-- a list of `Value`s equal to those of `bs` -/
def isOps (r : PyM (Operand Float)) (bs : List (Value Float)) : Bool :=
  returns r fun o => match o with
    | .list os => os.length == bs.length && (os.zip bs).all fun t => isOp (.ok t.1) t.2
    | _ => false

-- test_value_initializes_correctly, test_value_initializes_with_unitless_values
#guard raises (Value.make (some (13 : Float)) (some "mugglemeters")) .ValueError
#guard raises (Value.make (none : Option Float) (some "mugglemeters")) .ValueError
#guard raises (Value.make (none : Option Float) (some "mm")) .ValueError
#guard returns (Value.make (some (13 : Float)) (some "mm")) fun x => x.units == some "mm"
#guard returns (Value.make (some (1 : Float)) none) fun _ => true
-- test_exception_raised_if_value_is_nonsense
#guard raises (Value.setValue (v 0 "mm") none) .ValueError
-- test_conversions
def convertsTo (x : Value Float) (u : String) (y : Float) (places : Int := 7) : Bool :=
  returns (x.convert (some u)) fun r => almost r.value y places
#guard [("m", 0.25), ("cm", 25), ("mm", 250), ("in", 9.8425197), ("ft", 0.82021), ("fathoms", 0.136701662), ("cubits", 0.546806649)].all
  fun t => convertsTo (v 25 "cm") t.1 t.2
#guard [("kg", 1), ("g", 1000), ("lbs", 2.20462), ("stone", 0.157473)].all fun t => convertsTo (v 1 "kg") t.1 t.2
#guard [("rad", (Trig.pi : Float) / 2), ("deg", 90)].all fun t => convertsTo (v 90 "deg") t.1 t.2
#guard [("sec", 30 * 60), ("minutes", 30), ("hours", 0.5)].all fun t => convertsTo (v 30 "min") t.1 t.2
#guard convertsTo (v 2 "days") "min" (2 * 24 * 60) && convertsTo (v 1 "year") "min" 525948.48
-- test_value_does_not_convert_unitless_values
#guard raises ((v0 1).convert (some "kg")) .ValueError
-- test_behaves_like_tuple
#guard returns ((v 25 "cm").getitem 0) fun r => match r with | .inl y => almost y 25 | _ => false
#guard returns ((v 25 "cm").getitem 1) fun r => match r with | .inr y => y == some "cm" | _ => false
-- test_easy_conversion_properties
#guard [("m", 0.25), ("cm", 25), ("mm", 250)].all fun t => returns ((v 25 "cm").getattr t.1) fun r => almost r.value t.2
#guard raises ((v 25 "cm").getattr "mugglemeters") .AttributeError
-- test_comparison
#guard eqv (v 25 "cm") (v 25 "cm") && eqv (v 25 "cm") (v 250 "mm")
#guard returns (Value.compareOp .gt (v 25 "cm") (.val (v 240 "mm"))) id
#guard returns (Value.compareOp .lt (v 25 "cm") (.val (v 260 "mm"))) id
#guard returns (Value.compareOp .ne (v 25 "cm") (.val (v 260 "mm"))) id
#guard returns (Value.compareOp .eq (v 25 "cm") (.num 25)) id
-- test_multiplication
#guard isOp ((v 25 "cm").mul (.num 2)) (v 50 "cm")
#guard raises ((v 25 "cm").mul (.val (v 25 "cm"))) .ValueError
#guard isOps ((v 25 "cm").mul (.list [.num 1, .num 2, .num 3])) [v 25 "cm", v 50 "cm", v 75 "cm"]
-- test_addition_and_subtraction
#guard isOp ((v 25 "cm").add (.num 2)) (v 27 "cm") && isOp ((v 25 "cm").sub (.num 2)) (v 23 "cm") && isOp ((v 25 "cm").rsub (.num 2)) (v (-23) "cm")
#guard isOp ((v 25 "cm").add (.val (v 25 "cm"))) (v 50 "cm") && isOp ((v 25 "cm").add (.val (v 5 "mm"))) (v 255 "mm")
#guard isOps ((v 25 "cm").add (.list [.num 1, .num 2, .num 3])) [v 26 "cm", v 27 "cm", v 28 "cm"]
-- test_other_numeric_methods
#guard String.ofList (v 25 "cm").str == "25.000000 cm"
#guard isV ((v 25 "cm").truediv (.num 2)) (v 12.5 "cm")
#guard isV ((v 25 "cm").truediv (.val (v 1 "cm"))) (v0 25) && isV ((v 25 "cm").truediv (.val (v 1 "m"))) (v0 0.25)
#guard isV ((v 25 "cm").floordiv (.num 2)) (v 12 "cm")
#guard isV ((v 25 "cm").floordiv (.val (v 1 "cm"))) (v0 25) && isV ((v 25 "cm").floordiv (.val (v 1 "m"))) (v0 0)
#guard raises ((v 25 "cm").modPow (.num 2)) .AttributeError && raises ((v 25 "cm").rtruediv (.num 2)) .ValueError
#guard isV (v 25 "cm").pos (v 25 "cm") && isV (v 25 "cm").neg (v (-25) "cm") && isV (v (-25) "cm").abs (v 25 "cm")
-- test_cast
#guard (v 25 "cm").float == 25 && returns (v 25 "cm").int (· == 25) && returns (v 25.5 "cm").int (· == 25)
-- test_make_numpy_array_out_of_values: the sum of an object array adds from the left
#guard isOp ((List.range 9).foldl (fun a i => do
    let o ← a
    match o with
    | .val a => a.add (.val (v (Float.ofNat (i + 1)) "cm"))
    | _ => raise .TypeError) (.ok (.val (v 0 "cm")))) (v 45 "cm")

/-- Python 3; no strings or arrays as numbers -/
def env : Json.Env Float := ⟨.py3, fun _ => none, fun _ _ => raise .TypeError, fun _ _ => .ok (), fun _ => .ok ()⟩

/-- a decoded object is this `Value` -/
def isValue (b : Value Float) : Obj Float → Bool
  | .value a => a.units == b.units && a.value == b.value
  | _ => false

-- test_basic_serialization
#guard returns (Json.encode (.value (v 25 "cm"))) fun o => match o with
  | .dict [("__value__", .dict [("value", .num x), ("units", .str u)])] => x == 25.0 && u == "cm"
  | _ => false
#guard returns (Json.encode (.value (v 25 "cm")) >>= Json.decode env) (isValue (v 25 "cm"))
-- test_complex_serialization
#guard returns (Json.encode (.dict ((List.range 10).map fun i => (toString i, .value (v (Float.ofNat i) "cm")))) >>= Json.decode env) fun o => match o with
  | .dict kvs => kvs.length == 10 && (kvs.zip (List.range 10)).all fun t => t.1.1 == toString t.2 && isValue (v (Float.ofNat t.2) "cm") t.1.2
  | _ => false
-- test_loads
#guard returns (Json.encode (.dict [("__value__", .dict [("value", .num (25.0 : Float)), ("units", .str "cm")])]) >>= Json.decode env) (isValue (v 25 "cm"))
-- test_from_json
#guard returns (Json.fromJson env (.dict [("__value__", .dict [("value", .num (25.0 : Float)), ("units", .str "cm")])])) fun x => x.value == 25.0 && x.units == some "cm"

-- test_rounding.py, test_round_to
#guard [PyVer.py2, .py3].all fun ver => [(3.8721, 0.05, 3.85), (3.8721, 0.1, 3.9), (3.8721, 0.25, 3.75), (3.8721, 2.0, 4), (4, 0.33, 3.96)].all
  fun (t : Float × Float × Float) => returns (Units.roundTo ver t.1 t.2.1) (· == t.2.2)

end Blmath.Tests
