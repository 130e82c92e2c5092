import Verif.Model.LineSolve
import Verif.Model.Isomorphism

/-!
`np.linalg.solve`, `np.linalg.inv`, `np.linalg.det` and `scipy.linalg.det` as LAPACK computes them: `getrf` (elimination with the largest entry of
the column as pivot) and `getrs`.

The order of the operations is that of the reference implementation of LAPACK and BLAS; all of its variants (`getf2`, `getrf2`, blocked `getrf`)
do the same operations on each entry in the same order.  Other libraries may add in another order, or combine a product and a sum in one rounding.
-/

namespace Blmath.Linalg
open Blmath.Geometry (sfmin)
variable {α : Type} [Num α] {n k : ℕ}

/-- `idamax`: the first index with the largest absolute value.  BLAS idamax -/
def idamax (f : Fin (n + 1) → α) : Fin (n + 1) :=
  (List.finRange (n + 1)).foldl (fun b i => if Num.lt (npAbs (f b)) (npAbs (f i)) then i else b) 0

/-- rows 0 and `p` exchanged.  LAPACK dlaswp -/
def laswp (p : Fin (n + 1)) (a : Mat (n + 1) k α) : Mat (n + 1) k α := Matrix.of fun i j => a (Equiv.swap 0 p i) j

/-- what the rows below the pivot are multiplied with.  LAPACK dgetf2 -/
def scal (a c : α) : α := if Num.lt (npAbs a) sfmin then c / a else c * (Num.lit 1 / a)

/-- the rows below the first, after subtracting multiples of the first.  LAPACK dgetf2 (dger), dgetrs (dtrsm) -/
def reduce (l : Fin n → α) (a : Mat (n + 1) k α) : Mat n k α := Matrix.of fun i j => a i.succ j - l i * a 0 j

/-- all columns but the first -/
def cols (a : Mat n (k + 1) α) : Mat n k α := Matrix.of fun i j => a i j.succ

/-- `b` minus the entries of `f`, the last one first.  LAPACK dgetrs (dtrsm) -/
def subAll (b : α) : {n : ℕ} → (Fin n → α) → α
  | 0, _ => b
  | _ + 1, f => subAll b (fun i => f i.succ) - f 0

/-- the first unknowns, once the others are known.  LAPACK dgetrs (dtrsm) -/
def backSubst (a : Mat (n + 1) (n + 1) α) (b : Mat (n + 1) k α) (x : Mat n k α) : Mat (n + 1) k α :=
  Matrix.of (Fin.cons (fun j => subAll (b 0 j) (fun i => a 0 i.succ * x i j) / a 0 0) fun i j => x i j)

/-- the multipliers for the rows below the first -/
def multipliers (a : Mat (n + 1) (n + 1) α) : Fin n → α := fun i => scal (a 0 0) (a i.succ 0)

/-- `a x = b` for each column of `b`; LinAlgError if a pivot is zero.  LAPACK dgesv -/
def gesv : {n : ℕ} → Mat n n α → Mat n k α → PyM (Mat n k α)
  | 0, _, b => .ok b
  | n + 1, a, b =>
    let p := idamax fun i => a i 0
    let a := laswp p a
    let b := laswp p b
    if Num.eq (a 0 0) (Num.lit 0) then raise .LinAlgError
    else
      let l := multipliers a
      (gesv (reduce l (cols a)) (reduce l b)).map (backSubst a b)

/-- `np.linalg.inv`: the columns of the identity are solved for.  numpy umath_linalg, LAPACK dgesv -/
def npInv (n : ℕ) (a : Mat n n α) : PyM (Mat n n α) := gesv a (Mat.eye n)

/-- the product of the pivots, each negated if its row was exchanged, times `acc`; zero if a pivot is zero.  LAPACK dgetrf -/
def detAcc (acc : α) : {n : ℕ} → Mat n n α → α
  | 0, _ => acc
  | n + 1, a =>
    let p := idamax fun i => a i 0
    let a := laswp p a
    if Num.eq (a 0 0) (Num.lit 0) then Num.lit 0
    else
      detAcc (acc * (if p = 0 then a 0 0 else -a 0 0)) (reduce (multipliers a) (cols a))

/-- `scipy.linalg.det`, and `np.linalg.det` before the sum of logarithms that newer versions take.  A zero pivot is reported, and gives zero, in
all of them. -/
def detLu (n : ℕ) (a : Mat n n α) : α := detAcc (Num.lit 1) a

end Blmath.Linalg
