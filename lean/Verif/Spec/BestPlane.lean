import Verif.Spec.Fit

/-!
Best planes and when there is only one; moves of space that change all lengths by one factor.
-/

namespace Blmath.Spec
open Blmath.Geometry

/-- no plane has a smaller sum of squared distances from the points -/
def BestPlane (pl : Plane ℝ) (ps : List (V3 ℝ)) : Prop :=
  UnitNormal pl ∧ ∀ pl', UnitNormal pl' → sqDistSum pl ps ≤ sqDistSum pl' ps

/-- the same plane, facing the same way or the other way -/
def SamePlane (pl pl' : Plane ℝ) : Prop := (∀ q, height pl' q = height pl q) ∨ ∀ q, height pl' q = -height pl q

/-- all best planes are the same -/
def OneBest (ps : List (V3 ℝ)) : Prop := ∀ pl pl', BestPlane pl ps → BestPlane pl' ps → SamePlane pl pl'

/-- `p` turned or mirrored by `A`, times `k`, moved by `t` -/
def placed (k : ℝ) (A : Matrix (Fin 3) (Fin 3) ℝ) (t p : V3 ℝ) : V3 ℝ :=
  ⟨k * (act A p).x + t.x, k * (act A p).y + t.y, k * (act A p).z + t.z⟩

end Blmath.Spec
