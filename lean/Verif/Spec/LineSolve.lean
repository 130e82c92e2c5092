import Mathlib.Data.Real.Basic

/-!
Specification for C150: points and lines of the plane.
-/

namespace Blmath.Spec

/-- twice the area of the triangle `p`, `q`, `x`, with a sign: zero on the line through `p` and `q`, and the distance from that line times the distance of `p` and `q` -/
def turn2 (p q x : ℝ × ℝ) : ℝ := (q.1 - p.1) * (x.2 - p.2) - (q.2 - p.2) * (x.1 - p.1)

/-- the product of the directions of two lines: zero if they are parallel -/
def steer (p0 q0 p1 q1 : ℝ × ℝ) : ℝ := (q0.1 - p0.1) * (q1.2 - p1.2) - (q0.2 - p0.2) * (q1.1 - p1.1)

/-- no coordinate is larger than `k` -/
def Size2 (k : ℝ) (p : ℝ × ℝ) : Prop := |p.1| ≤ k ∧ |p.2| ≤ k

end Blmath.Spec
