import Verif.Base.Num
import Verif.Base.Py

/-!
Model of `blmath/numerics/linalg/lchol.py` and of the wrapper code in `cholmod.c`.  The CHOLMOD library (`analyze`,
`factorize`, `factor_to_sparse`) is a parameter.  Memory management of the C code and the
conversion of the index arrays to 64 bits, which does not change them, are in `LcholMemory`.
-/

namespace Blmath.Linalg
variable {α : Type} [Num α]

/-- a matrix in compressed column format: the entries of column `j` are those from `indptr[j]` to `indptr[j+1]` -/
structure Csc (α : Type) where
  nrow : ℕ
  ncol : ℕ
  indptr : List ℕ
  indices : List ℕ
  data : List α

/-- what CHOLMOD leaves behind: the factor, the first column at which the factorization failed (the number of columns,
if it did not), and the ordering -/
structure CholResult (α : Type) where
  L : Csc α
  minor : ℕ
  perm : List ℕ

/-- `sputil_trim`: only the first `k` columns are kept.  cholmod.c:28-59 -/
def sputilTrim (S : Csc α) (k : ℕ) : Csc α :=
  if k ≥ S.ncol then S
  else
    let p := S.indptr.take (k + 1)
    match p[k]? with
    | none => S
    | some nznew => { S with ncol := k, indptr := p, indices := S.indices.take nznew, data := S.data.take nznew }

/-- `lchol_c`: indices, indptr and data of the factor, a flag and the ordering.  cholmod.c:162-252 -/
def lcholC (cholmod : Csc α → CholResult α) (A : Csc α) : List ℕ × List ℕ × List α × ℕ × List ℕ :=
  let r := cholmod A
  let L := if r.minor < A.ncol then sputilTrim r.L r.minor else r.L
  (L.indices, L.indptr, L.data, if r.minor = A.ncol then 0 else r.minor + 1, r.perm)

/-- `csc_matrix((data, indices, indptr), shape=(m, n))` with the checks of scipy -/
def cscNew (data : List α) (indices indptr : List ℕ) (m n : ℕ) : PyM (Csc α) :=
  if indptr.length ≠ n + 1 then raise .ValueError
  else if indptr.head? ≠ some 0 then raise .ValueError
  else if indices.length ≠ data.length then raise .ValueError
  else if ∃ p ∈ indptr.getLast?, p > indices.length then raise .ValueError
  else .ok ⟨m, n, indptr, indices, data⟩

/-- a matrix given by its entries (row, column, value) -/
structure Entries (α : Type) where
  nrow : ℕ
  ncol : ℕ
  entries : List (ℕ × ℕ × α)

/-- `max(q)` -/
def pyMax (q : List ℕ) : PyM ℕ :=
  match q with
  | [] => raise .ValueError
  | a :: l => .ok (l.foldl max a)

/-- `lchol`.  lchol.py:1-17 -/
def lchol (cholmod : Csc α → CholResult α) (A : Csc α) : PyM (Csc α × ℕ × Entries α) := do
  let (lInd, lIptr, lData, lNonpsd, q) := lcholC cholmod A
  let L ← cscNew lData lInd lIptr A.nrow A.ncol
  let top ← pyMax q
  let S : Entries α := ⟨top + 1, q.length, (q.zip (List.range q.length)).map fun t => (t.1, t.2, Num.lit 1)⟩
  pure (L, lNonpsd, S)

end Blmath.Linalg
