import Verif.Spec.Chord

/-!
Vocabulary for planes passing through vertices of a mesh.
-/

namespace Blmath.Spec
open Blmath.Geometry

/-- the corner of the face listed first is on the plane, and the other two are strictly on opposite sides -/
def Pinched (pl : Plane ℝ) (vs : List (V3 ℝ)) (f : ℕ × ℕ × ℕ) : Prop :=
  (∃ a, vs[f.1]? = some a ∧ OnPlane pl a) ∧ Opposite pl vs f.2.1 f.2.2

/-- the face with its corners listed from the second one on -/
def turnFace (f : ℕ × ℕ × ℕ) : ℕ × ℕ × ℕ := (f.2.1, f.2.2, f.1)

/-- what is returned for a face: all it has in common with the plane, or, if it is pinched, its first corner only -/
def Piece (pl : Plane ℝ) (m : Mesh ℝ) (f : ℕ × ℕ × ℕ) (s : V3 ℝ × V3 ℝ) : Prop :=
  (¬ Pinched pl m.v f → Chord pl m f s) ∧ (Pinched pl m.v f → s.1 = s.2 ∧ m.v[f.1]? = some s.1)

/-- the polyline is not empty, and it is only marked as open if it ends in another point than it starts from -/
def WellEnded (v : List (V3 ℝ)) (closed : Bool) : Prop := v ≠ [] ∧ (closed = false → v.head? ≠ v.getLast?)

/-- where an open polyline may start or end: in a vertex of the mesh on the plane, or where the plane strictly crosses an edge that belongs to
one face only or to a pinched face -/
def LooseEnd (pl : Plane ℝ) (m : Mesh ℝ) (q : V3 ℝ) : Prop :=
  (q ∈ m.v ∧ OnPlane pl q) ∨ ∃ u v, Opposite pl m.v u v ∧ CrossPoint pl m (u, v) q ∧
    ((m.f.filter fun f => hasEdge f u v).length = 1 ∨ ∃ f ∈ m.f, hasEdge f u v = true ∧ Pinched pl m.v f)

/-- the polyline is open, and the point is the first or the last one of it -/
def OpenEnd (v : List (V3 ℝ)) (closed : Bool) (q : V3 ℝ) : Prop :=
  closed = false ∧ (v.head? = some q ∨ v.getLast? = some q)

/-- the plane strictly crosses an edge in this point that belongs to one face only -/
def BorderPoint (pl : Plane ℝ) (m : Mesh ℝ) (q : V3 ℝ) : Prop :=
  ∃ u v, Opposite pl m.v u v ∧ CrossPoint pl m (u, v) q ∧ (m.f.filter fun f => hasEdge f u v).length = 1

/-- no two edges of faces are crossed in the same point -/
def ApartCrossings (pl : Plane ℝ) (m : Mesh ℝ) : Prop :=
  ∀ e e' q, CrossedEdge pl m e → CrossedEdge pl m e' → CrossPoint pl m e q → CrossPoint pl m e' q → e = e'

end Blmath.Spec
