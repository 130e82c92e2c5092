import Verif.Spec.Geom
import Verif.Spec.Vec

/-!
Convex hulls of finite sets of points, in the plane and in space.
-/

namespace Blmath.Spec

/-- nonnegative weights, one per point, adding up to 1 -/
def Weights (n : ℕ) (ws : List ℝ) : Prop := ws.length = n ∧ (∀ w ∈ ws, 0 ≤ w) ∧ ws.sum = 1

/-- `p` is a convex combination of the points -/
def InHull2 (qs : List (ℝ × ℝ)) (p : ℝ × ℝ) : Prop :=
  ∃ ws, Weights qs.length ws ∧ rdot ws (qs.map Prod.fst) = p.1 ∧ rdot ws (qs.map Prod.snd) = p.2

/-- `p` is a convex combination of the points -/
def InHull3 (qs : List (V3 ℝ)) (p : V3 ℝ) : Prop :=
  ∃ ws, Weights qs.length ws ∧ rdot ws (qs.map V3.x) = p.x ∧ rdot ws (qs.map V3.y) = p.y ∧
    rdot ws (qs.map V3.z) = p.z

/-- twice the signed area of the triangle `a b p`: positive if `p` is to the left of `a → b` -/
def area2 (a b p : ℝ × ℝ) : ℝ := (b.1 - a.1) * (p.2 - a.2) - (b.2 - a.2) * (p.1 - a.1)

/-- the cyclically consecutive pairs of a list -/
def cyclicPairs {γ : Type} (xs : List γ) : List (γ × γ) := xs.zip (xs.rotate 1)

/-- `qs` are the points of `ps` at the positions `idx` -/
def Picks {γ : Type} (ps : List γ) (idx : List ℕ) (qs : List γ) : Prop := qs.map some = idx.map (fun i => ps[i]?)

/-- `qs` are the corners of the convex hull of `ps`, counterclockwise: every point is a convex
combination of them, none of them is a convex combination of the others, and going round the list
all points lie on the left -/
structure IsHull2 (ps qs : List (ℝ × ℝ)) : Prop where
  covers : ∀ p ∈ ps, InHull2 qs p
  minimal : ∀ k q, qs[k]? = some q → ¬ InHull2 (qs.eraseIdx k) q
  leftTurns : ∀ e ∈ cyclicPairs qs, ∀ p ∈ ps, 0 ≤ area2 e.1 e.2 p

/-- what `ConvexHull(points).vertices` promises for 2-d points -/
structure HullSpec (ps : List (ℝ × ℝ)) (idx : List ℕ) : Prop where
  nonempty : idx ≠ []
  inRange : ∀ i ∈ idx, i < ps.length
  isHull : ∀ qs, Picks ps idx qs → IsHull2 ps qs

end Blmath.Spec
