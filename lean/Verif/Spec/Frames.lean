import Verif.Model.Composite
import Verif.Spec.Transform

/-!
Points carried from one state of a stack of transforms to another, and how near two points are.
-/

namespace Blmath.Spec
open Blmath.Geometry

/-- the transforms between state `i` and state `j`: those from the lower to the higher number -/
def stretch {β : Type} (ts : List β) (i j : ℕ) : List β := (ts.take (max i j)).drop (min i j)

/-- a point of state `i` in state `j`: through the transforms between, the first one first, or backwards with the stored inverses -/
def carried (ts : Composite ℝ) (i j : ℕ) (p : V3 ℝ) : V3 ℝ :=
  if j < i then (stretch ts i j).foldr (fun t q => affMap t.2 q) p else (stretch ts i j).foldl (fun q t => affMap t.1 q) p

/-- the coordinates differ by at most `c` times those of `s` -/
def Within (c : ℝ) (s a b : V3 ℝ) : Prop := |a.x - b.x| ≤ c * s.x ∧ |a.y - b.y| ≤ c * s.y ∧ |a.z - b.z| ≤ c * s.z

end Blmath.Spec
