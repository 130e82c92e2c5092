import Verif.Model.BlockSparse

/-!
Model of `conjGradSolve` of `blmath/numerics/linalg/static_block_sparse_matrix.py`, for arrays of floats of rank 1 with
at least one entry.  `linOp` (lines 147-149) calls `LinearOperator` with a positional shape and the keyword `shape`, which
Python rejects with TypeError.
-/

namespace Blmath.Linalg
variable {α : Type} [Num α] {n : ℕ}

/-- `np.dot` of two arrays of rank 1 -/
def dotFn (a b : Fin n → α) : α := sumFin fun i => a i * b i

/-- the next value of `i` -/
def nextIndex : Option ℕ → ℕ
  | none => 0
  | some i => i + 1

/-- the loop, with `last` the value of `i`.  static_block_sparse_matrix.py:160-170 -/
def conjGradLoop (matvec : (Fin n → α) → PyM (Fin n → α)) (b : Fin n → α) (tol : α) :
    ℕ → Option ℕ → (x r s : Fin n → α) → PyM ((Fin n → α) × Option ℕ)
  | 0, last, x, _, _ => pure (x, last)
  | k + 1, last, x, r, s => do
    let i := nextIndex last
    let u ← matvec s
    let alpha := dotFn s r / dotFn s u
    let x : Fin n → α := fun j => x j + alpha * s j
    let ax ← matvec x
    let r : Fin n → α := fun j => b j - ax j
    if Num.lt (Num.sqrt (dotFn r r)) tol then pure (x, some i)
    else
      let beta := -dotFn r u / dotFn s u
      conjGradLoop matvec b tol k (some i) x r (fun j => r j + beta * s j)

/-- `maxiter if maxiter else n`, as the number of turns of `range`.  static_block_sparse_matrix.py:158 -/
def conjGradTurns (n : ℕ) : Option ℤ → ℕ
  | none => n
  | some k => if k = 0 then n else k.toNat

/-- everything after the choice of the start.  static_block_sparse_matrix.py:155-170 -/
def conjGradFrom (matvec : (Fin n → α) → PyM (Fin n → α)) (b x : Fin n → α) (tol : α) (maxiter : Option ℤ) :
    PyM ((Fin n → α) × Option ℕ) := do
  let ax ← matvec x
  let r : Fin n → α := fun j => b j - ax j
  conjGradLoop matvec b tol (conjGradTurns n maxiter) none x r r

/-- `bool(a)` of an array of rank 1: ValueError for two or more entries -/
def arrayTruth (a : Fin n → α) : PyM Bool :=
  match n, a with
  | 0, _ => .ok false
  | 1, a => .ok (!Num.eq (a 0) (Num.lit 0))
  | _ + 2, _ => raise .ValueError

/-- `np.zeros(b)` of an array of floats with at least one entry: floats are no shape -/
def zerosOfFloats (_b : Fin n → α) : PyM (Fin n → α) := raise .TypeError

/-- `conjGradSolve`, for any `matvec`.  static_block_sparse_matrix.py:151-170 -/
def conjGradSolveWith (matvec : (Fin n → α) → PyM (Fin n → α)) (b : Fin n → α) (x0 : Option (Fin n → α)) (tol : α)
    (maxiter : Option ℤ) : PyM ((Fin n → α) × Option ℕ) := do
  let x ← match x0 with
    | none => zerosOfFloats b
    | some v => do if ← arrayTruth v then pure v else zerosOfFloats b
  conjGradFrom matvec b x tol maxiter

/-- `conjGradSolve` with the method `matvec` of the class.  static_block_sparse_matrix.py:151-170 -/
def BlockSparse.conjGradSolve (B : BlockSparse n n α) (b : Fin n → α) (x0 : Option (Fin n → α)) (tol : α)
    (maxiter : Option ℤ) : PyM ((Fin n → α) × Option ℕ) :=
  conjGradSolveWith (fun v => do let r ← B.matvec (k := 1) (.flat v); pure fun i => r i 0) b x0 tol maxiter

/-- `linOp`.  static_block_sparse_matrix.py:147-149 -/
def BlockSparse.linOp (_B : BlockSparse n n α) : PyM Unit := raise .TypeError

end Blmath.Linalg
