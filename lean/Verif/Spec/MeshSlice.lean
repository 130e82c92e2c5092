import Verif.Model.MeshSlice
import Verif.Spec.Plane

/-!
Vocabulary for mesh cross-sections.
-/

namespace Blmath.Spec
open Blmath.Geometry

/-- `u` is a corner of the face -/
def corner (f : ℕ × ℕ × ℕ) (u : ℕ) : Bool := decide (u = f.1 ∨ u = f.2.1 ∨ u = f.2.2)

/-- the face has the edge between `u` and `v` -/
def hasEdge (f : ℕ × ℕ × ℕ) (u v : ℕ) : Bool := decide (u ≠ v) && corner f u && corner f v

/-- the three corners are different -/
def ProperFace (f : ℕ × ℕ × ℕ) : Prop := f.1 ≠ f.2.1 ∧ f.2.1 ≠ f.2.2 ∧ f.1 ≠ f.2.2

/-- the two faces have the same corners -/
def SameCorners (f g : ℕ × ℕ × ℕ) : Prop := ∀ u, corner f u = corner g u

/-- the mesh vertices `u` and `v` are strictly on opposite sides of the plane -/
def Opposite (pl : Plane ℝ) (vs : List (V3 ℝ)) (u v : ℕ) : Prop :=
  ∃ a b, vs[u]? = some a ∧ vs[v]? = some b ∧ height pl a * height pl b < 0

/-- the segment between the mesh vertices `u` and `v` meets the plane but is not parallel to it -/
def Meets (pl : Plane ℝ) (vs : List (V3 ℝ)) (u v : ℕ) : Prop :=
  ∃ a b, vs[u]? = some a ∧ vs[v]? = some b ∧ height pl a ≠ height pl b ∧
    ¬ (0 < height pl a ∧ 0 < height pl b) ∧ ¬ (height pl a < 0 ∧ height pl b < 0)

/-- a mesh edge (smaller vertex number first) whose ends are on opposite sides of the plane -/
def CrossedEdge (pl : Plane ℝ) (m : Mesh ℝ) (e : ℕ × ℕ) : Prop :=
  e.1 < e.2 ∧ (∃ f ∈ m.f, hasEdge f e.1 e.2 = true) ∧ Opposite pl m.v e.1 e.2

/-- `q` is where the edge meets the plane -/
def CrossPoint (pl : Plane ℝ) (m : Mesh ℝ) (e : ℕ × ℕ) (q : V3 ℝ) : Prop :=
  ∃ a b, m.v[e.1]? = some a ∧ m.v[e.2]? = some b ∧ OnPlane pl q ∧ OnSegment a b q

/-- two different crossed edges of one face -/
def Linked (pl : Plane ℝ) (m : Mesh ℝ) (e e' : ℕ × ℕ) : Prop :=
  e ≠ e' ∧ CrossedEdge pl m e ∧ CrossedEdge pl m e' ∧
    ∃ f ∈ m.f, hasEdge f e.1 e.2 = true ∧ hasEdge f e'.1 e'.2 = true

/-- no edge belongs to more than two faces -/
def EdgeManifold (m : Mesh ℝ) : Prop := ∀ u v, (m.f.filter fun f => hasEdge f u v).length ≤ 2

/-- every edge of every face belongs to exactly two faces, which have different corners -/
def ClosedMesh (m : Mesh ℝ) : Prop :=
  (∀ f ∈ m.f, ∀ u v, hasEdge f u v = true → (m.f.filter fun f => hasEdge f u v).length = 2) ∧
  m.f.Pairwise fun f g => ¬ SameCorners f g

/-- all three corners are on the plane -/
def InPlane (pl : Plane ℝ) (vs : List (V3 ℝ)) (f : ℕ × ℕ × ℕ) : Prop :=
  ∀ u, corner f u = true → ∀ p, vs[u]? = some p → OnPlane pl p

/-- `d` is the average, over the points, of the distance to the nearest point of `S` -/
def AvgDist (S vs : List (V3 ℝ)) (d : ℝ) : Prop :=
  ∃ ds, List.Forall₂ (fun p d => IsLeast {x | ∃ q ∈ S, x = dist3 p q} d) vs ds ∧
    d = ds.sum / vs.length

end Blmath.Spec
