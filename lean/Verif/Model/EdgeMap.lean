import Verif.Base.Dict
import Verif.Base.Py

/-!
Model of the local class `EdgeMap` of `Plane.mesh_xsections`.  plane.py:283-315
-/

namespace Blmath.Geometry

/-- `EdgeMap`: two-level dictionary of positions, and the list of stored values.
plane.py:283-287 -/
structure EdgeMap (ν : Type) where
  d : Dict Nat (Dict Nat Nat)
  values : List ν

namespace EdgeMap
variable {ν : Type}

/-- `EdgeMap()`.  plane.py:285-287 -/
def empty : EdgeMap ν := ⟨[], []⟩

/-- `_order`.  plane.py:288-292 -/
def order (u v : Nat) : Nat × Nat := if u < v then (u, v) else (v, u)

/-- `add`.  plane.py:293-298 -/
def add (m : EdgeMap ν) (u v : Nat) (val : ν) : EdgeMap ν :=
  let (low, high) := order u v
  let d := if m.d.contains low then m.d else m.d.set low []
  let values := m.values ++ [val]
  let inner := match d.get? low with
    | some inner => inner
    | none => []
  ⟨d.set low (inner.set high (values.length - 1)), values⟩

/-- `contains`.  plane.py:299-303 -/
def contains (m : EdgeMap ν) (u v : Nat) : Bool :=
  let (low, high) := order u v
  match m.d.get? low with
  | some inner => inner.contains high
  | none => false

/-- `index`; `none` is Python's None.  plane.py:304-309 -/
def index (m : EdgeMap ν) (u v : Nat) : Option Nat :=
  let (low, high) := order u v
  match m.d.get? low with
  | some inner => inner.get? high
  | none => none

/-- `get`.  plane.py:310-315 -/
def get (m : EdgeMap ν) (u v : Nat) : PyM (Option ν) :=
  match m.index u v with
  | some ii => do
    let x ← pyIndex m.values (ii : Int)
    pure (some x)
  | none => .ok none

end EdgeMap
end Blmath.Geometry
