import Verif.Base.V3
import Verif.Base.Py

/-!
Model of `blmath/numerics/linalg/gram_schmidt.py`, for arrays of floats: a list of rows of `n` entries.
-/

namespace Blmath.Linalg
variable {α : Type} [Num α] {n : ℕ}

/-- `np.dot` of two vectors -/
def dotRow (u v : Fin n → α) : α := sumFin fun i => u i * v i

/-- `proj(u, v)`.  gram_schmidt.py:52-56 -/
def proj (u v : Fin n → α) : Fin n → α :=
  let c := dotRow u v / dotRow u u
  fun i => c * u i

/-- the builtin `sum` of an array of rows: the rows are added, from the left, to 0.
gram_schmidt.py:33 -/
def pySumRows (rows : List (Fin n → α)) : Fin n → α :=
  rows.foldl (fun s r i => s i + r i) (fun _ => Num.lit 0)

/-- the loop over the remaining rows; `o` holds the rows produced so far.  gram_schmidt.py:30-36 -/
def orthogonalizeFrom (o : List (Fin n → α)) : List (Fin n → α) → List (Fin n → α)
  | [] => o
  | vec :: rest =>
    let projCmp := pySumRows (o.map fun u => proj u vec)
    orthogonalizeFrom (o ++ [fun i => vec i - projCmp i]) rest

/-- `orthogonalize`.  gram_schmidt.py:27-38 -/
def orthogonalize (v : List (Fin n → α)) : List (Fin n → α) := orthogonalizeFrom [] v

/-- the position meant by an integer index, or IndexError -/
def rowIndex (len : ℕ) (idx : ℤ) : PyM ℕ :=
  let j : ℤ := if idx < 0 then idx + len else idx
  if j < 0 then raise .IndexError
  else if j.toNat < len then .ok j.toNat else raise .IndexError

/-- `v /= np.linalg.norm(v)`.  gram_schmidt.py:48 -/
def unitRow (v : Fin n → α) : Fin n → α :=
  let c := Num.sqrt (dotRow v v)
  fun i => v i / c

/-- one pass of the loop: `res[idx]` is divided by its norm in place.  gram_schmidt.py:47-48 -/
def unitAt (res : List (Fin n → α)) (idx : ℤ) : PyM (List (Fin n → α)) := do
  let j ← rowIndex res.length idx
  pure (res.modify j unitRow)

/-- `orthonormalize`.  gram_schmidt.py:40-50 -/
def orthonormalize (v : List (Fin n → α)) (indices : Option (List ℤ)) : PyM (List (Fin n → α)) :=
  let indices := match indices with
    | none => (List.range v.length).map fun (i : ℕ) => (i : ℤ)
    | some is => is
  indices.foldlM unitAt (orthogonalize v)

end Blmath.Linalg
