import Verif.Base.Num
import Verif.Base.Py
import Verif.Base.V3
import Verif.Base.Mat

/-!
The models in IEEE double precision, so that they can be run.  The modules in `Verif/Tests` run them on the inputs of the
repository's own tests and compare the results with what those tests expect (`#guard` fails the build otherwise).  These are
tests of the models, not proofs; no theorem depends on them.
-/

namespace Blmath.Tests

instance : Num Float where
  lit q := Float.ofInt q.num / Float.ofNat q.den
  sqrt := Float.sqrt
  lt a b := decide (a < b)
  le a b := decide (a ≤ b)
  eq a b := a == b
  floor a := if a.isNaN || a.isInf then none else some (a.floor.toInt64.toInt)

instance : Trig Float where
  pi := 3.141592653589793
  sin := Float.sin
  cos := Float.cos
  acos := Float.acos

/-- `assertAlmostEqual`: the difference, rounded to so many places, is zero -/
def almost (a b : Float) (places : Int := 7) : Bool :=
  a == b || decide (Float.abs (a - b) < 0.5 * (if places < 0 then Float.ofInt ((10 : Int) ^ places.natAbs) else 1 / Float.ofInt ((10 : Int) ^ places.natAbs)))

/-- the call returns a value with the property -/
def returns {β : Type} (x : PyM β) (p : β → Bool) : Bool :=
  match x with
  | .ok b => p b
  | .error _ => false

/-- the call raises the exception -/
def raises {β : Type} (x : PyM β) (e : PyErr) : Bool :=
  match x with
  | .ok _ => false
  | .error e' => e' == e

/-- the same numbers -/
def same (a b : List Float) : Bool := a.length == b.length && (a.zip b).all fun t => t.1 == t.2

/-- nearly the same numbers -/
def close (a b : List Float) (places : Int := 6) : Bool := a.length == b.length && (a.zip b).all fun t => almost t.1 t.2 places

/-- nearly the same points -/
def close3 (a b : V3 Float) (places : Int := 6) : Bool := close a.toList b.toList places

/-- a point -/
def pt (x y z : Float) : V3 Float := ⟨x, y, z⟩

end Blmath.Tests
