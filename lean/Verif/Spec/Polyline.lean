import Verif.Spec.Geom
import Mathlib.Data.List.Rotate
import Mathlib.Algebra.BigOperators.Group.List.Basic

/-!
Polygonal chains, for stating the properties of `polyline.py`.
-/

namespace Blmath.Spec

/-- the edges of a chain of `n` vertices: each vertex to the next; a closed chain also joins the last
to the first -/
def chainEdges (n : ℕ) (closed : Bool) : List (ℕ × ℕ) :=
  if closed then (List.range n).map fun (i : ℕ) => (i, (i + 1) % n)
  else (List.range (n - 1)).map fun (i : ℕ) => (i, i + 1)

/-- the vertices in the order they are passed, the first one again at the end of a closed chain -/
def circuit {P : Type} (v : List P) (closed : Bool) : List P :=
  v ++ if closed then v.head?.toList else []

/-- the consecutive pairs of a list -/
def pairs {P : Type} : List P → List (P × P)
  | a :: b :: rest => (a, b) :: pairs (b :: rest)
  | _ => []

/-- the directed segments of a chain, in order -/
def chainSegs {P : Type} (v : List P) (closed : Bool) : List (P × P) := pairs (circuit v closed)

/-- length of a path through the given points -/
noncomputable def pathLength (v : List (V3 ℝ)) : ℝ := ((pairs v).map fun s => dist3 s.1 s.2).sum

end Blmath.Spec
