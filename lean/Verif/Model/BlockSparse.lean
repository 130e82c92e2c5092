import Verif.Base.Mat
import Verif.Base.Py

/-!
Model of `blmath/numerics/linalg/static_block_sparse_matrix.py`.

A scipy sparse matrix of shape (m, n) is its list of stored entries (row, column, value); positions may
repeat, in which case the values add up, and stored values may be zero.  Conversions between the sparse
formats do not change the matrix, so `tocsr`, `tocsc` and `tocoo` are not tracked (in particular the result
of a product is stored here without zeros, scipy may keep some).
-/

namespace Blmath.Linalg
variable {α : Type} [Num α] {m n p k : ℕ}

/-- a sparse matrix -/
abbrev Coo (m n : ℕ) (α : Type) := List (Fin m × Fin n × α)

/-- the sum of a list, from the left -/
def sumList (l : List α) : α := l.foldl (· + ·) (Num.lit 0)

/-- `todense()`: repeated positions add up -/
def Coo.dense (M : Coo m n α) : Mat m n α :=
  Matrix.of fun i j => sumList ((M.filter fun t => t.1 = i ∧ t.2.1 = j).map fun t => t.2.2)

/-- `sp.sparse.coo_matrix(a)` of a dense array: its nonzero entries, row by row -/
def toCoo (a : Mat m n α) : Coo m n α :=
  (List.finRange m).flatMap fun i =>
    ((List.finRange n).filter fun j => ¬ Num.eq (a i j) (Num.lit 0)).map fun j => (i, j, a i j)

/-- `mask_sparse_matrix_by_rows`; an empty mask leaves no entries either way.
static_block_sparse_matrix.py:4-10 -/
def maskRows (M : Coo m n α) (mask : Fin m → Bool) : Coo m n α :=
  if (List.finRange m).any mask then M.filter fun t => mask t.1 else []

/-- `mask_sparse_matrix_by_columns`.  static_block_sparse_matrix.py:12-18 -/
def maskCols (M : Coo m n α) (mask : Fin n → Bool) : Coo m n α :=
  if (List.finRange n).any mask then M.filter fun t => mask t.2.1 else []

/-- `mask_sparse_matrix`.  static_block_sparse_matrix.py:20-27 -/
def maskBoth (M : Coo m n α) (rowMask : Fin m → Bool) (colMask : Fin n → Bool) : Coo m n α :=
  if ¬ (List.finRange n).any colMask then maskRows M rowMask
  else if ¬ (List.finRange m).any rowMask then maskCols M colMask
  else M.filter fun t => colMask t.2.1 && rowMask t.1

/-- `mask.nonzero()[0]` -/
def nonzero (mask : Fin m → Bool) : List (Fin m) := (List.finRange m).filter mask

/-- the rows of a matrix with the given numbers, in that order -/
def takeRows (a : Mat m n α) (idx : List (Fin m)) : Mat idx.length n α := Matrix.of fun i j => a (idx.get i) j
/-- the columns of a matrix with the given numbers, in that order -/
def takeCols (a : Mat m n α) (idx : List (Fin n)) : Mat m idx.length α := Matrix.of fun i j => a i (idx.get j)

/-- `StaticBlockSparseMatrix`, with the masks used.  static_block_sparse_matrix.py:29-115 -/
structure BlockSparse (m n : ℕ) (α : Type) where
  M : Coo m n α
  rs : Fin m → Bool
  cs : Fin n → Bool

/-- how many entries the csr format stores in row `i`: repeated positions are merged.
static_block_sparse_matrix.py:39 -/
def elementsPerRow (M : Coo m n α) (i : Fin m) : ℕ := ((M.filter fun t => t.1 = i).map fun t => t.2.1).dedup.length
/-- how many entries the csc format stores in column `j`.  static_block_sparse_matrix.py:45 -/
def elementsPerCol (M : Coo m n α) (j : Fin n) : ℕ := ((M.filter fun t => t.2.1 = j).map fun t => t.1).dedup.length

/-- a mask argument: None, an array of length 0, or an array of the right length (other lengths are not
modelled) -/
inductive MaskArg (m : ℕ) where
  | none
  | empty
  | given (mask : Fin m → Bool)

/-- the constructor; `threshold` is `sparsity_threshold`.  static_block_sparse_matrix.py:31-56 -/
def BlockSparse.new (M : Coo m n α) (rowArg : MaskArg m) (colArg : MaskArg n) (threshold : α) : BlockSparse m n α :=
  let t := threshold * Num.lit ((max m n : ℕ) : ℚ)
  { M := M
    rs := match rowArg with
      | .none => fun i => Num.lt (Num.lit (elementsPerRow M i : ℚ)) t
      | .empty => fun _ => true
      | .given mask => mask
    cs := match colArg with
      | .none => fun j => Num.lt (Num.lit (elementsPerCol M j : ℚ)) t
      | .empty => fun _ => true
      | .given mask => mask }

namespace BlockSparse
variable (B : BlockSparse m n α)

/-- row_density, column_density.  static_block_sparse_matrix.py:49, 54 -/
def rd (i : Fin m) : Bool := !B.rs i
def cd (j : Fin n) : Bool := !B.cs j
/-- index arrays.  static_block_sparse_matrix.py:50-51, 55-56 -/
def riS : List (Fin m) := nonzero B.rs
def riD : List (Fin m) := nonzero B.rd
def ciS : List (Fin n) := nonzero B.cs
def ciD : List (Fin n) := nonzero B.cd

/-- the sparse rows, in a matrix of full size.  static_block_sparse_matrix.py:61, 65 -/
def blockS : Coo m n α := maskRows B.M B.rs
/-- sparse rows and columns, in a matrix of full size.  static_block_sparse_matrix.py:62 -/
def blockSS : Coo m n α := maskCols B.blockS B.cs
/-- the dense columns of the sparse rows: all rows are kept if there are dense columns, else there are as many
as sparse rows.  static_block_sparse_matrix.py:64 -/
def blockSD : (r : ℕ) × Mat r B.ciD.length α :=
  if B.ciD.length ≠ 0 then ⟨m, takeCols (maskCols B.blockS B.cd).dense B.ciD⟩
  else ⟨B.riS.length, Matrix.of fun _ _ => Num.lit 0⟩
/-- the dense rows.  static_block_sparse_matrix.py:68-69 -/
def blockD : Mat B.riD.length n α := takeRows (maskRows B.M B.rd).dense B.riD
/-- static_block_sparse_matrix.py:70 -/
def blockDS : Mat B.riD.length B.ciS.length α := takeCols B.blockD B.ciS
/-- static_block_sparse_matrix.py:71 -/
def blockDD : Mat B.riD.length B.ciD.length α := takeCols B.blockD B.ciD
/-- static_block_sparse_matrix.py:73 -/
def sparseBlock : Mat B.riS.length B.ciS.length α := takeRows (takeCols B.blockSS.dense B.ciS) B.riS

/-- `a[:, idx] = b` -/
def setCols (a : Mat p m α) (idx : List (Fin m)) (b : Mat p idx.length α) : Mat p m α :=
  (List.finRange idx.length).foldl
    (fun a c => Matrix.of fun i j => if j = idx.get c then b i c else a i j) a

/-- `a[idx, :] = b` -/
def setRows (a : Mat m p α) (idx : List (Fin m)) (b : Mat idx.length p α) : Mat m p α :=
  (List.finRange idx.length).foldl
    (fun a c => Matrix.of fun i j => if i = idx.get c then b c j else a i j) a

/-- `MMT`.  static_block_sparse_matrix.py:117-133 -/
def MMT : Coo m m α :=
  if B.riD.length ≠ 0 ∧ B.ciD.length = 0 then
    let s := B.blockS.dense
    let ans := toCoo (s.mul s.tr)
    let ansSD := s.mul B.blockD.tr
    let ansD := setCols ansSD.tr B.riD (B.blockD.mul B.blockD.tr)
    let ansSD' : Coo m m α := (toCoo ansSD).map fun t => (t.1, B.riD.get t.2.1, t.2.2)
    let ansD' : Coo m m α := (toCoo ansD).map fun t => (B.riD.get t.1, t.2.1, t.2.2)
    ans ++ ansD' ++ ansSD'
  else toCoo (B.M.dense.mul B.M.dense.tr)

/-- `MTM`.  static_block_sparse_matrix.py:135-136 -/
def MTM : Coo n n α := toCoo (B.M.dense.tr.mul B.M.dense)

/-- the argument of `matvec`: a 1-d array or a 2-d array with any number of columns -/
inductive VecArg (n k : ℕ) (α : Type) where
  | flat (v : Fin n → α)
  | cols (v : Mat n k α)

/-- `b[rows] += x` for 2-d arrays: the numbers of rows must agree, or `x` has a single row -/
def addRows (b : Mat m k α) (rows : List (Fin m)) (x : (r : ℕ) × Mat r k α) : PyM (Mat m k α) :=
  if h : x.1 = rows.length then
    .ok (setRows b rows (Matrix.of fun i j => b (rows.get i) j + x.2 (i.cast h.symm) j))
  else if h : x.1 = 1 then
    .ok (setRows b rows (Matrix.of fun i j => b (rows.get i) j + x.2 (Fin.cast h.symm 0) j))
  else raise .ValueError

/-- `matvec`.  For a 1-d array the products with the `np.matrix` blocks are 2-d: line 140 fails for them if there
are dense columns, and line 141 fails always, because an assignment through a boolean mask only takes arrays
with at most one dimension.  static_block_sparse_matrix.py:138-142 -/
def matvec : VecArg n k α → PyM (Mat m k α)
  | .flat _ => raise .ValueError
  | .cols v => do
    let b := B.blockSS.dense.mul v
    let b ← addRows b B.riS ⟨B.blockSD.1, B.blockSD.2.mul (takeRows v B.ciD)⟩
    pure (setRows b B.riD ((B.blockDS.mul (takeRows v B.ciS)).add (B.blockDD.mul (takeRows v B.ciD))))

/-- `matmat`.  static_block_sparse_matrix.py:144-145 -/
def matmat (v : Mat n k α) : Mat m k α := B.M.dense.mul v

end BlockSparse

end Blmath.Linalg
