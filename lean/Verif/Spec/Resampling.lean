import Verif.Spec.Plane
import Verif.Spec.Polyline
import Mathlib.Logic.Relation

/-!
Chains of points with more points put on their segments.
-/

namespace Blmath.Spec
open Blmath

/-- one point of a segment is put between the ends of that segment; the closing segment of a closed chain is its last -/
inductive AddPoint : Bool → List (V3 ℝ) → List (V3 ℝ) → Prop
  | inner (closed : Bool) (pre : List (V3 ℝ)) (a b : V3 ℝ) (post : List (V3 ℝ)) (q : V3 ℝ) (h : OnSegment a b q) :
      AddPoint closed (pre ++ a :: b :: post) (pre ++ a :: q :: b :: post)
  | closing (u : List (V3 ℝ)) (a b q : V3 ℝ) (hb : u.head? = some b) (ha : u.getLast? = some a) (h : OnSegment a b q) :
      AddPoint true u (u ++ [q])

/-- any number of points of the segments is added -/
def Finer (closed : Bool) : List (V3 ℝ) → List (V3 ℝ) → Prop := Relation.ReflTransGen (AddPoint closed)

end Blmath.Spec
