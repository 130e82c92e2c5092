import Verif.Spec.Units
import Verif.Model.Value

/-! What a `Value` means physically. -/

namespace Blmath.Spec

/-- The unit label `u` measures quantities of kind `k` (`none`: pure numbers), one of it being
`s` base units. -/
def Measures (u : Option String) (k : Option String) (s : ℝ) : Prop :=
  match u with
  | none => k = none ∧ s = 1
  | some n => ∃ U, UnitIs n U ∧ k = some U.cls ∧ s = U.size

/-- The value `v` denotes `q` base units of kind `k`. -/
def Denotes (v : Value ℝ) (k : Option String) (q : ℝ) : Prop :=
  ∃ s, Measures v.units k s ∧ q = v.value * s

/-- The label is `None` or one of the documented units. -/
def GoodUnits (u : Option String) : Prop := u = none ∨ ∃ n U, u = some n ∧ UnitIs n U

end Blmath.Spec
