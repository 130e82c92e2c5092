import Verif.Spec.Plane
import Verif.Model.MeshSlice
import Verif.Model.Polyline

/-!
Maps of space and what they carry: planes, meshes, sections, polylines.
-/

namespace Blmath.Spec
open Blmath.Geometry

/-- `g` keeps lines and the proportions along them, and no two points get the same image -/
structure Placement (g : V3 ℝ → V3 ℝ) : Prop where
  affine : ∀ a b t, g (along a t (vec3 a b)) = along (g a) t (vec3 (g a) (g b))
  injective : Function.Injective g

/-- `g` multiplies every distance by `c` -/
structure Similarity (g : V3 ℝ → V3 ℝ) (c : ℝ) : Prop where
  affine : ∀ a b t, g (along a t (vec3 a b)) = along (g a) t (vec3 (g a) (g b))
  pos : 0 < c
  dist : ∀ a b, dist3 (g a) (g b) = c * dist3 a b

/-- `pl'` is the image of `pl` under `g`, facing the same way: heights are multiplied by one positive factor -/
def Carries (g : V3 ℝ → V3 ℝ) (pl pl' : Plane ℝ) : Prop := ∃ s, 0 < s ∧ ∀ p, height pl' (g p) = s * height pl p

/-- the mesh with its vertices moved -/
def Mesh.image {α : Type} (g : V3 α → V3 α) (m : Mesh α) : Mesh α := ⟨m.v.map g, m.f⟩

/-- the section with its points moved -/
def Section.image {α : Type} (g : V3 α → V3 α) (s : Section α) : Section α := ⟨s.v.map g, s.closed⟩

/-- the polyline with its vertices moved -/
def Polyline.image {α : Type} (g : V3 α → V3 α) (p : Polyline α) : Polyline α := ⟨p.v.map (List.map g), p.closed, p.e⟩

end Blmath.Spec
