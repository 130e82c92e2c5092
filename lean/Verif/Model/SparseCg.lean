import Verif.Model.BlockSparse

/-!
Model of the preconditioner in `blmath/numerics/linalg/sparse_cg.py`.  `scipy.linalg.inv`,
`scipy.sparse.linalg.factorized` and `scipy.sparse.linalg.cg` are library routines; the first two are parameters,
the call of the third (line 32) is in `CgSolve.lean`.
-/

namespace Blmath.Linalg
variable {α : Type} [Num α] {n : ℕ}

/-- `B.sum(axis=0)`, where the stored values of `B` have been replaced by ones.  sparse_cg.py:16-18 -/
def storedInCol (A : Coo n n α) (j : Fin n) : α :=
  sumList ((A.filter fun t => t.2.1 = j).map fun t => Num.lit 0 * t.2.2 + Num.lit 1)

/-- the columns regarded as sparse.  sparse_cg.py:18 -/
def cgSparsity (A : Coo n n α) (j : Fin n) : Bool :=
  Num.lt (storedInCol A j) (Num.lit 1000) && Num.lt (Num.lit 0) (storedInCol A j)

/-- sparse_cg.py:19 -/
def cgBlocks (A : Coo n n α) : BlockSparse n n α :=
  BlockSparse.new A (.given (cgSparsity A)) (.given (cgSparsity A)) (Num.lit (1 / 20))

/-- `non_zero_columns`.  sparse_cg.py:20 -/
def nonZeroCols {r c : ℕ} (a : Mat r c α) (j : Fin c) : Bool := (List.finRange r).any fun i => !Num.eq (a i j) (Num.lit 0)

/-- `a[idx] = b` for 1-d arrays -/
def scatter {k : ℕ} (a : Fin n → α) (idx : Fin k → Fin n) (b : Fin k → α) : Fin n → α :=
  (List.finRange k).foldl (fun a c i => if i = idx c then b c else a i) a

/-- `A_inv_mult`, for a 1-d array, given the index lists and the two diagonal blocks.  sparse_cg.py:20-29 -/
def cgApply (inv : (k : ℕ) → Mat k k α → PyM (Mat k k α))
    (factorized : (k : ℕ) → Mat k k α → PyM ((Fin k → α) → Fin k → α)) (riS riD : List (Fin n))
    (blockDD : Mat riD.length riD.length α) (sparseBlock : Mat riS.length riS.length α) :
    PyM ((Fin n → α) → Fin n → α) := do
  let nz := nonzero (nonZeroCols blockDD)
  let corner : Mat nz.length nz.length α := takeCols (takeRows blockDD nz) nz
  let invCorner ← inv nz.length corner
  let solver ← factorized riS.length sparseBlock
  pure fun v =>
    let ansSparse := solver fun a => v (riS.get a)
    let ansDense := invCorner.mulVec fun a => v (riD.get (nz.get a))
    let ans := scatter (fun _ => Num.lit 0) (fun a => riS.get a) ansSparse
    scatter ans (fun a => riD.get (nz.get a)) ansDense

/-- the preconditioner: `A_inv_mult` for the blocks of `A`.  sparse_cg.py:16-29 -/
def cgPrecon (inv : (k : ℕ) → Mat k k α → PyM (Mat k k α))
    (factorized : (k : ℕ) → Mat k k α → PyM ((Fin k → α) → Fin k → α)) (A : Coo n n α) :
    PyM ((Fin n → α) → Fin n → α) :=
  let B := cgBlocks A
  cgApply inv factorized B.riS B.riD B.blockDD B.sparseBlock

end Blmath.Linalg
