import Verif.Base.V3
import Mathlib.Data.Matrix.Mul
import Mathlib.LinearAlgebra.Matrix.Notation
import Mathlib.Algebra.BigOperators.Fin

/-!
2-d numpy arrays of known shape, and the operations on them used by the transform and linear algebra
code.  The carrier is Mathlib's `Matrix (Fin m) (Fin n) α`; the operations only use `Num`.
-/

namespace Blmath

/-- a numpy array of shape `(m, n)` -/
abbrev Mat (m n : ℕ) (α : Type) := Matrix (Fin m) (Fin n) α

namespace Mat
variable {α : Type} [Num α] {m n p : ℕ}

/-- `np.dot` of two matrices -/
def mul (A : Mat m n α) (B : Mat n p α) : Mat m p α := Matrix.of fun i j => sumFin fun k => A i k * B k j
/-- `np.dot` of a matrix and a vector -/
def mulVec (A : Mat m n α) (v : Fin n → α) : Fin m → α := fun i => sumFin fun k => A i k * v k
/-- `A.T` -/
def tr (A : Mat m n α) : Mat n m α := Matrix.of fun i j => A j i
/-- `np.eye(n)` -/
def eye (n : ℕ) : Mat n n α := Matrix.of fun i j => if i = j then Num.lit 1 else Num.lit 0
/-- `A + B` -/
def add (A B : Mat m n α) : Mat m n α := Matrix.of fun i j => A i j + B i j
/-- `A - B` -/
def sub (A B : Mat m n α) : Mat m n α := Matrix.of fun i j => A i j - B i j
/-- scalar times matrix -/
def smul (s : α) (A : Mat m n α) : Mat m n α := Matrix.of fun i j => s * A i j
/-- `np.diag` of a vector -/
def diag (v : Fin n → α) : Mat n n α := Matrix.of fun i j => if i = j then v i else Num.lit 0
/-- `np.array([a, b, c])` of three 3-vectors -/
def ofRows (a b c : V3 α) : Mat 3 3 α := !![a.x, a.y, a.z; b.x, b.y, b.z; c.x, c.y, c.z]
/-- `np.dot` of a 3×3 matrix and a 3-vector -/
def app (A : Mat 3 3 α) (v : V3 α) : V3 α :=
  ⟨A 0 0 * v.x + A 0 1 * v.y + A 0 2 * v.z, A 1 0 * v.x + A 1 1 * v.y + A 1 2 * v.z,
    A 2 0 * v.x + A 2 1 * v.y + A 2 2 * v.z⟩
/-- the rows as lists -/
def rows (A : Mat m n α) : List (List α) := List.ofFn fun i => List.ofFn fun j => A i j

end Mat

theorem sumFin_eq_sum {n : ℕ} (f : Fin n → ℝ) : sumFin f = ∑ i, f i := by
  induction n with
  | zero => simp [sumFin]
  | succ n ih => simp [sumFin, ih, Fin.sum_univ_succ]

namespace Mat
variable {m n p : ℕ}

theorem mul_real (A : Mat m n ℝ) (B : Mat n p ℝ) : mul A B = A * B := by
  ext i j
  simp [mul, Matrix.mul_apply, sumFin_eq_sum]

theorem mulVec_real (A : Mat m n ℝ) (v : Fin n → ℝ) : mulVec A v = Matrix.mulVec A v := by
  ext i
  simp [mulVec, Matrix.mulVec, dotProduct, sumFin_eq_sum]

theorem tr_eq {α : Type} (A : Mat m n α) : tr A = A.transpose := rfl

theorem eye_real (n : ℕ) : (eye n : Mat n n ℝ) = 1 := by
  ext i j
  simp [eye, Matrix.one_apply]

theorem add_real (A B : Mat m n ℝ) : add A B = A + B := rfl
theorem sub_real (A B : Mat m n ℝ) : sub A B = A - B := rfl
theorem smul_real (s : ℝ) (A : Mat m n ℝ) : smul s A = s • A := rfl

theorem diag_real (v : Fin n → ℝ) : diag v = Matrix.diagonal v := by
  ext i j
  simp [diag, Matrix.diagonal_apply]

end Mat
end Blmath
