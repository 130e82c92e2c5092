import Verif.Base.Py
import Mathlib.Data.Real.Basic
import Mathlib.Algebra.Group.Even
import Mathlib.Algebra.Order.Group.Abs

/-! Specification of rounding to the nearest integer. -/

namespace Blmath.Spec

/-- `k` is the integer nearest to `x`; a tie goes away from zero on Python 2 and to the even
neighbour on Python 3. -/
def RoundsTo (ver : PyVer) (x : ℝ) (k : ℤ) : Prop :=
  |x - k| ≤ 1 / 2 ∧
    (|x - k| = 1 / 2 → match ver with
      | .py2 => |x| < |(k : ℝ)|
      | .py3 => Even k)

end Blmath.Spec
