import Verif.Model.SparseCg
import Verif.Model.ConjGrad

/-!
Model of `block_sparse_cg_solve` of `blmath/numerics/linalg/sparse_cg.py` as a whole, for a 1-d right hand side.
`scipy.sparse.linalg.cg` is modelled as the preconditioned conjugate gradient method of its Python source (scipy 1.11): it starts at
zero, looks at the residual at the beginning of each of at most `10 n` turns, and returns the approximation and
whether the residual was found small enough.  The test of the residual is a parameter, because it differs between versions of scipy.
-/

namespace Blmath.Linalg
variable {α : Type} [Num α] {n : ℕ}

/-- the direction: `z` at first, later corrected by the last one -/
def nextDirection (rho : α) (z : Fin n → α) : Option (α × (Fin n → α)) → Fin n → α
  | none => z
  | some (rhoPrev, p) => fun j => rho / rhoPrev * p j + z j

/-- the loop of `cg`; `prev` has the last `rho` and direction -/
def pcgLoop (matvec precon : (Fin n → α) → Fin n → α) (small : α → Bool) :
    ℕ → (x r : Fin n → α) → Option (α × (Fin n → α)) → (Fin n → α) × Bool
  | 0, x, _, _ => (x, false)
  | k + 1, x, r, prev =>
    if small (Num.sqrt (dotFn r r)) then (x, true)
    else
      let z := precon r
      let rho := dotFn r z
      let p := nextDirection rho z prev
      let q := matvec p
      let alpha := rho / dotFn p q
      pcgLoop matvec precon small k (fun j => x j + alpha * p j) (fun j => r j - alpha * q j) (some (rho, p))

/-- `scipy.sparse.linalg.cg(A, b, M=precon)`; `small norm_b norm_r` is the test of the residual -/
def pcg (matvec precon : (Fin n → α) → Fin n → α) (small : α → α → Bool) (b : Fin n → α) : (Fin n → α) × Bool :=
  let bnrm := Num.sqrt (dotFn b b)
  if Num.eq bnrm (Num.lit 0) then (b, true)
  else pcgLoop matvec precon (small bnrm) (10 * n) (fun _ => Num.lit 0) b none

/-- `block_sparse_cg_solve`: the second result of `cg`, whether it got there, is thrown away.  sparse_cg.py:1-32 -/
def blockSparseCgSolve (inv : (k : ℕ) → Mat k k α → PyM (Mat k k α))
    (factorized : (k : ℕ) → Mat k k α → PyM ((Fin k → α) → Fin k → α)) (small : α → α → Bool) (A : Coo n n α)
    (b : Fin n → α) : PyM (Fin n → α) := do
  let precon ← cgPrecon inv factorized A
  pure (pcg A.dense.mulVec precon small b).1

end Blmath.Linalg
