import Verif.Spec.Normals
import Verif.Spec.Surface

/-!
Closed surfaces given by arrays of vertices and faces, and what they enclose.
-/

namespace Blmath.Spec

/-- the faces as triples of numbers of vertices -/
def faceTriples {n m : ℕ} (g : Fin m → Fin 3 → Fin n) : List (ℕ × ℕ × ℕ) :=
  List.ofFn fun t => ((g t 0 : ℕ), (g t 1 : ℕ), (g t 2 : ℕ))

/-- a row as a point -/
def pointOf (r : Fin 3 → ℝ) : V3 ℝ := ⟨r 0, r 1, r 2⟩

/-- the signed volume enclosed by the faces -/
noncomputable def enclosed {n m : ℕ} (g : Fin m → Fin 3 → Fin n) (v : Fin n → Fin 3 → ℝ) : ℝ :=
  signedVolume (List.ofFn fun t => (pointOf (v (g t 0)), pointOf (v (g t 1)), pointOf (v (g t 2))))

/-- the vertices, with vertex `i` moved by `d` -/
def moveVertex {n : ℕ} (v : Fin n → Fin 3 → ℝ) (i : Fin n) (d : Fin 3 → ℝ) : Fin n → Fin 3 → ℝ :=
  fun j => if j = i then v j + d else v j

end Blmath.Spec
