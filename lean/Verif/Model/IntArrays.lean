import Verif.Model.GramSchmidt
import Verif.Model.Triangle
import Verif.Base.Fl

/-!
`blmath/numerics/linalg/gram_schmidt.py` and `blmath/geometry/barycentric.py` once more, for arrays of integers.
Integers are unbounded here (numpy's wrap around at 64 bits); the floats are `Fl`.
-/

namespace Blmath.Linalg
variable {n : ℕ}

/-- an array of rows: of integers, or of floats -/
inductive Rows (n : ℕ) where
  | ints (rows : List (Fin n → ℤ))
  | floats (rows : List (Fin n → Fl))

/-- a row of integers as a row of floats -/
def toFlRow (v : Fin n → ℤ) : Fin n → Fl := fun i => .fin (v i)

/-- `np.dot` of two integer vectors -/
def dotInt (u v : Fin n → ℤ) : ℤ := ∑ i, u i * v i

/-- `proj(u, v)` of integer vectors on Python 2, where `/` of numpy integers is floor division, and division by zero
gives 0.  gram_schmidt.py:52-56 -/
def projFloor (u v : Fin n → ℤ) : Fin n → ℤ :=
  let c := if dotInt u u = 0 then 0 else dotInt u v / dotInt u u
  fun i => c * u i

/-- the loop of `orthogonalize` on Python 2.  gram_schmidt.py:30-36 -/
def orthogonalizeFloorFrom (o : List (Fin n → ℤ)) : List (Fin n → ℤ) → List (Fin n → ℤ)
  | [] => o
  | vec :: rest =>
    let projCmp := (o.map fun u => projFloor u vec).foldl (fun s r i => s i + r i) (fun _ => 0)
    orthogonalizeFloorFrom (o ++ [fun i => vec i - projCmp i]) rest

/-- `orthogonalize` of an array of integers.  gram_schmidt.py:27-38.  On Python 3 the first row stays a row of integers
and all others become rows of floats (`/` is true division), so the array built at the end is one of floats unless
there is one row only; without rows `np.array([])` is an array of floats. -/
noncomputable def orthogonalizeInt (ver : PyVer) (v : List (Fin n → ℤ)) : Rows n :=
  match ver, v with
  | _, [] => .floats []
  | .py2, v => .ints (orthogonalizeFloorFrom [] v)
  | .py3, [r] => .ints [r]
  | .py3, v => .floats (orthogonalize (v.map toFlRow))

/-- `orthonormalize` of an array of integers.  gram_schmidt.py:40-50.  Dividing a row of integers in place by a float
is a TypeError (numpy 1.10 or later). -/
noncomputable def orthonormalizeInt (ver : PyVer) (v : List (Fin n → ℤ)) (indices : Option (List ℤ)) : PyM (Rows n) :=
  let indices := match indices with
    | none => (List.range v.length).map fun (i : ℕ) => (i : ℤ)
    | some is => is
  match orthogonalizeInt ver v with
  | .floats rows => do
    let r ← indices.foldlM unitAt rows
    pure (.floats r)
  | .ints rows => match indices with
    | [] => .ok (.ints rows)
    | i :: _ => do
      let _ ← rowIndex rows.length i
      raise .TypeError

end Blmath.Linalg

namespace Blmath.Geometry

/-- integer components as floats -/
def toFl3 (v : V3 ℤ) : V3 Fl := ⟨.fin v.x, .fin v.y, .fin v.z⟩

/-- `barycentric_coordinates_of_projection` with edges given as arrays of integers: `n` and `s` are integers then.
For stacks the replacement `np.spacing(1)` is stored in an array of integers, which makes it 0; for a single triangle
`s` is a scalar and is replaced by the float.  barycentric.py:25-43 -/
noncomputable def barycentricIntEdges (stacked : Bool) (p q : V3 Fl) (u v : V3 ℤ) : V3 Fl :=
  let n : V3 ℤ := ⟨u.y * v.z - u.z * v.y, u.z * v.x - u.x * v.z, u.x * v.y - u.y * v.x⟩
  let s : ℤ := n.x * n.x + n.y * n.y + n.z * n.z
  let s : Fl := if s = 0 then (if stacked then .fin 0 else spacing1) else .fin s
  let oneOver4ASquared := Num.lit 1 / s
  let w := p - q
  let b2 := V3.dot (V3.cross (toFl3 u) w) (toFl3 n) * oneOver4ASquared
  let b1 := V3.dot (V3.cross w (toFl3 v)) (toFl3 n) * oneOver4ASquared
  ⟨Num.lit 1 - b1 - b2, b1, b2⟩

end Blmath.Geometry
