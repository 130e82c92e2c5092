import Verif.Base.V3
import Verif.Base.Fl
import Verif.Base.Rd
import Verif.Spec.Motion

/-!
Change of the unit of length: `s k x` is the number `x` in the new unit, if `x` is a length to the power `k`
(1 for lengths and coordinates, 2 for areas, 0 for ratios and unit vectors).
-/

namespace Blmath.Spec
open Blmath Blmath.Geometry
variable {α : Type} [Num α]

/-- every operation of the arithmetic gives exactly the result in the new unit -/
structure Rescaling (s : ℤ → α → α) : Prop where
  none : ∀ x, s 0 x = x
  add : ∀ k x y, s k x + s k y = s k (x + y)
  sub : ∀ k x y, s k x - s k y = s k (x - y)
  neg : ∀ k x, -s k x = s k (-x)
  mul : ∀ j k x y, s j x * s k y = s (j + k) (x * y)
  div : ∀ j k x y, s j x / s k y = s (j - k) (x / y)
  sqrt : ∀ k x, Num.sqrt (s (k + k) x) = s k (Num.sqrt x)
  lt : ∀ k x y, Num.lt (s k x) (s k y) = Num.lt x y
  le : ∀ k x y, Num.le (s k x) (s k y) = Num.le x y
  eq : ∀ k x y, Num.eq (s k x) (s k y) = Num.eq x y
  zero : ∀ k, s k (Num.lit 0) = Num.lit 0
  /-- what is neither positive nor negative nor zero (NaN) is the same in every unit -/
  other : ∀ k x, Num.lt (Num.lit 0) x = false → Num.lt x (Num.lit 0) = false → Num.eq x (Num.lit 0) = false → s k x = x

/-- a vector in the new unit -/
def inUnit (s : ℤ → α → α) (k : ℤ) (v : V3 α) : V3 α := ⟨s k v.x, s k v.y, s k v.z⟩

/-- a plane in the new unit: the normal has no unit -/
def Plane.inUnit (s : ℤ → α → α) (pl : Plane α) : Plane α := ⟨Spec.inUnit s 1 pl.r0, pl.n⟩

/-- exact numbers, any positive factor -/
noncomputable def byFactor (c : ℝ) (k : ℤ) (x : ℝ) : ℝ := c ^ k * x

/-- numbers with infinities and NaN, any positive factor -/
noncomputable def byFactorFl (c : ℝ) (k : ℤ) : Fl → Fl
  | .fin x => .fin (c ^ k * x)
  | x => x

/-- rounded numbers, a power of two -/
noncomputable def byPower {rnd : ℝ → ℝ} (m : ℤ) (k : ℤ) (x : Rd rnd) : Rd rnd := ⟨(2 : ℝ) ^ (m * k) * x.val⟩

/-- a rounding that treats all powers of two alike -/
def Binary (rnd : ℝ → ℝ) : Prop := ∀ (k : ℤ) (x : ℝ), rnd ((2 : ℝ) ^ k * x) = (2 : ℝ) ^ k * rnd x

end Blmath.Spec
