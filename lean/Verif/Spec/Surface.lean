import Verif.Spec.Geom

/-!
Triangulated surfaces, for stating the properties of generated solids.
-/

namespace Blmath.Spec

/-- the directed edges of the triangles -/
def directedEdges (faces : List (ℕ × ℕ × ℕ)) : List (ℕ × ℕ) :=
  faces.flatMap fun f => [(f.1, f.2.1), (f.2.1, f.2.2), (f.2.2, f.1)]

/-- every directed edge occurs exactly once, and so does its reverse -/
def Watertight (faces : List (ℕ × ℕ × ℕ)) : Prop :=
  (directedEdges faces).Nodup ∧ ∀ e ∈ directedEdges faces, e.1 ≠ e.2 ∧ (e.2, e.1) ∈ directedEdges faces

instance (faces : List (ℕ × ℕ × ℕ)) : Decidable (Watertight faces) := by
  unfold Watertight; infer_instance

/-- the corners of a face; `none` if an index is out of range -/
def corners (v : List (V3 ℝ)) (f : ℕ × ℕ × ℕ) : Option (V3 ℝ × V3 ℝ × V3 ℝ) := do
  let a ← v[f.1]?
  let b ← v[f.2.1]?
  let c ← v[f.2.2]?
  pure (a, b, c)

/-- six times the signed volume of the tetrahedron from the origin over a triangle -/
def tet6 (t : V3 ℝ × V3 ℝ × V3 ℝ) : ℝ := inner3 t.1 (cross3 t.2.1 t.2.2)

/-- signed volume enclosed by triangles (positive when their normals point outward) -/
noncomputable def signedVolume (ts : List (V3 ℝ × V3 ℝ × V3 ℝ)) : ℝ := (ts.map tet6).sum / 6

/-- `q` is not in front of the triangle: it is on the inner side of its plane -/
def Behind (t : V3 ℝ × V3 ℝ × V3 ℝ) (q : V3 ℝ) : Prop :=
  inner3 (cross3 (vec3 t.1 t.2.1) (vec3 t.1 t.2.2)) (vec3 t.1 q) ≤ 0

end Blmath.Spec
