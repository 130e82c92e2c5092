import Verif.Model.Lchol
import Mathlib.LinearAlgebra.Matrix.PosDef
import Mathlib.Data.Real.Basic

/-!
Matrices in compressed column format and their Cholesky factors.
-/

namespace Blmath.Spec
open Blmath.Linalg

/-- a well formed n×n matrix in compressed column format (there may be unused entries at the end) -/
structure CscValid (n : ℕ) (A : Csc ℝ) : Prop where
  nrow : A.nrow = n
  ncol : A.ncol = n
  indptr : A.indptr.length = n + 1
  first : A.indptr.head? = some 0
  sorted : A.indptr.Pairwise (· ≤ ·)
  data : A.data.length = A.indices.length
  last : ∀ p ∈ A.indptr, p ≤ A.indices.length
  bounds : ∀ i ∈ A.indices, i < n

/-- the matrix: the entry (i, j) is the sum of the values stored for row `i` among those of column `j` -/
noncomputable def cscDense (n : ℕ) (A : Csc ℝ) : Matrix (Fin n) (Fin n) ℝ := Matrix.of fun i j =>
  ∑ k ∈ Finset.Ico (A.indptr.getD j 0) (A.indptr.getD (j + 1) 0),
    if A.indices[k]? = some (i : ℕ) then A.data.getD k 0 else 0

/-- the matrix of a list of entries -/
noncomputable def entDense (m n : ℕ) (S : Entries ℝ) : Matrix (Fin m) (Fin n) ℝ := Matrix.of fun i j =>
  (S.entries.map fun t => if t.1 = (i : ℕ) ∧ t.2.1 = (j : ℕ) then t.2.2 else 0).sum

/-- the symmetric matrix with the lower triangle of `a` -/
def lowerSym {n : ℕ} (a : Matrix (Fin n) (Fin n) ℝ) : Matrix (Fin n) (Fin n) ℝ :=
  Matrix.of fun i j => if j ≤ i then a i j else a j i

/-- What CHOLMOD promises for a symmetric matrix given by its lower triangle: an ordering of the numbers; no failing
column exactly if the matrix is positive definite; then a lower triangular factor of the reordered matrix. -/
structure CholSpec (cholmod : Csc ℝ → CholResult ℝ) : Prop where
  perm : ∀ n A, CscValid n A → (cholmod A).perm.Perm (List.range n)
  valid : ∀ n A, CscValid n A → CscValid n (cholmod A).L
  minor : ∀ n A, CscValid n A → (cholmod A).minor ≤ n ∧
    ((cholmod A).minor = n ↔ (lowerSym (cscDense n A)).PosDef)
  lower : ∀ n A, CscValid n A → (cholmod A).minor = n → ∀ i j : Fin n, i < j → cscDense n (cholmod A).L i j = 0
  factor : ∀ n A, CscValid n A → (cholmod A).minor = n → ∀ a b i j : Fin n,
    (cholmod A).perm[(a : ℕ)]? = some (i : ℕ) → (cholmod A).perm[(b : ℕ)]? = some (j : ℕ) →
    lowerSym (cscDense n A) i j = (cscDense n (cholmod A).L * (cscDense n (cholmod A).L).transpose) a b

end Blmath.Spec
