import Verif.Spec.Sparse
import Verif.Spec.Isomorphism
import Mathlib.LinearAlgebra.Matrix.ToLinearEquiv

/-!
The block diagonal part of a matrix, for a split of the columns into sparse and dense ones.
-/

namespace Blmath.Spec
variable {n : ℕ}

/-- how many entries are stored for column `j` -/
def stored (A : List (Fin n × Fin n × ℝ)) (j : Fin n) : ℕ := (A.filter fun t => t.2.1 = j).length

/-- a column with some, but fewer than 1000, stored entries -/
def SparseCol (A : List (Fin n × Fin n × ℝ)) (j : Fin n) : Prop := 0 < stored A j ∧ stored A j < 1000

/-- another column, with an entry that is not zero in one of the rows of these other numbers -/
def ActiveCol (A : List (Fin n × Fin n × ℝ)) (j : Fin n) : Prop :=
  ¬ SparseCol A j ∧ ∃ i, ¬ SparseCol A i ∧ cooMat A i j ≠ 0

open Classical in
/-- `x` solves the two diagonal blocks of the system for the right hand side `v`, and vanishes elsewhere -/
structure IsPrecon (A : List (Fin n × Fin n × ℝ)) (v x : Fin n → ℝ) : Prop where
  sparse : ∀ i, SparseCol A i → (∑ j, if SparseCol A j then cooMat A i j * x j else 0) = v i
  active : ∀ i, ActiveCol A i → (∑ j, if ActiveCol A j then cooMat A i j * x j else 0) = v i
  rest : ∀ i, ¬ SparseCol A i → ¬ ActiveCol A i → x i = 0

/-- what `factorized` promises: the solution of the system, or an error for a singular matrix -/
structure FactSpec (fact : (k : ℕ) → Matrix (Fin k) (Fin k) ℝ → PyM ((Fin k → ℝ) → Fin k → ℝ)) : Prop where
  solves : ∀ k a f, fact k a = .ok f → ∀ v, a.mulVec (f v) = v ∧ f (a.mulVec v) = v
  fails : ∀ k a e, fact k a = .error e → a.det = 0

end Blmath.Spec
