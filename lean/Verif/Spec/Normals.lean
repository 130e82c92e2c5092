import Verif.Model.Normals
import Verif.Spec.Lchol
import Mathlib.Analysis.Calculus.FDeriv.Pi
import Mathlib.LinearAlgebra.CrossProduct

/-!
Arrays with three columns, their derivatives, and normals of meshes.
-/

namespace Blmath.Spec
open scoped Matrix

/-- the numbers of an array with three columns, row by row -/
def flat {R : Type} {n : ℕ} (x : Fin n → Fin 3 → R) : List R := (List.ofFn x).flatMap List.ofFn

/-- the place of the entry (i, k) in that list -/
def idx {n : ℕ} (i : Fin n) (k : Fin 3) : Fin (n * 3) := ⟨i * 3 + k, by have := i.2; have := k.2; omega⟩

/-- `J` is the matrix of the derivative of `F` at `v`, the arrays being read row by row -/
def IsJacobian {n m : ℕ} (F : (Fin n → Fin 3 → ℝ) → (Fin m → Fin 3 → ℝ)) (J : Matrix (Fin (m * 3)) (Fin (n * 3)) ℝ)
    (v : Fin n → Fin 3 → ℝ) : Prop :=
  ∃ F' : (Fin n → Fin 3 → ℝ) →L[ℝ] (Fin m → Fin 3 → ℝ),
    (∀ x i k, F' x i k = ∑ j, ∑ l, J (idx i k) (idx j l) * x j l) ∧ HasFDerivAt F F' v

/-- the length of a row -/
noncomputable def rowLen (r : Fin 3 → ℝ) : ℝ := Real.sqrt (∑ k, r k ^ 2)

open Classical in
/-- each row divided by its length; rows of zeros stay -/
noncomputable def unitRows {n : ℕ} (x : Fin n → Fin 3 → ℝ) : Fin n → Fin 3 → ℝ := fun i k =>
  if x i = 0 then 0 else x i k / rowLen (x i)

/-- the cross products of the rows -/
def crossRows {n : ℕ} (a b : Fin n → Fin 3 → ℝ) : Fin n → Fin 3 → ℝ := fun i => a i ⨯₃ b i

/-- what a `CrossProduct` may keep: nothing, or what some earlier call left -/
inductive CrossReachable : Normals.CrossCache → Prop where
  | init : CrossReachable none
  | step {c c' : Normals.CrossCache} {ida idb obj : ℕ} {a b : List ℝ} {r : Option (Linalg.Csc ℝ)} :
      CrossReachable c → Normals.crossDr c ida idb a b obj = .ok (r, c') → CrossReachable c'

/-- the index `z` of a Python array of length `n` means place `i` -/
def PyRef {n : ℕ} (z : ℤ) (i : Fin n) : Prop := z = i ∨ z = (i : ℤ) - n

/-- the faces as an array of integers -/
def faceList {m : ℕ} (f : Fin m → Fin 3 → ℤ) : List (V3 ℤ) := List.ofFn fun t => ⟨f t 0, f t 1, f t 2⟩

/-- in each face, corner `a` minus corner `b` -/
def edgeMap {n m : ℕ} (g : Fin m → Fin 3 → Fin n) (a b : Fin 3) (v : Fin n → Fin 3 → ℝ) : Fin m → Fin 3 → ℝ :=
  fun t => v (g t a) - v (g t b)

/-- the normals of the faces, twice as long as the area -/
def faceNormals {n m : ℕ} (g : Fin m → Fin 3 → Fin n) (v : Fin n → Fin 3 → ℝ) : Fin m → Fin 3 → ℝ :=
  fun t => (v (g t 1) - v (g t 0)) ⨯₃ (v (g t 2) - v (g t 0))

/-- for each vertex, the sum of the normals of the faces around it, one for each corner at the vertex -/
def normalSum {n m : ℕ} (g : Fin m → Fin 3 → Fin n) (v : Fin n → Fin 3 → ℝ) : Fin n → Fin 3 → ℝ :=
  fun i => ∑ t, ∑ c, if g t c = i then faceNormals g v t else 0

/-- the number of corners at a vertex -/
def valence {n m : ℕ} (g : Fin m → Fin 3 → Fin n) (i : Fin n) : ℕ :=
  (Finset.univ.filter fun p : Fin m × Fin 3 => g p.1 p.2 = i).card

/-- the objects `VertNormals` that can arise by creation, assignments and evaluations; assignments to `normalized`
only if allowed -/
inductive VertReachable (allow : Bool) : Normals.VertObj ℝ → Prop where
  | new (v : Normals.VTerm ℝ) (f : List (V3 ℤ)) (b : Bool) : VertReachable allow { v := v, f := f, normalized := b }
  | setV {o : Normals.VertObj ℝ} (v : Normals.VTerm ℝ) : VertReachable allow o → VertReachable allow (o.set (.v v))
  | setF {o : Normals.VertObj ℝ} (f : List (V3 ℤ)) : VertReachable allow o → VertReachable allow (o.set (.f f))
  | setNormalized {o : Normals.VertObj ℝ} (b : Bool) : allow = true → VertReachable allow o →
      VertReachable allow (o.set (.normalized b))
  | read {o o' : Normals.VertObj ℝ} {r : List (V3 ℝ)} : VertReachable allow o → o.read = .ok (r, o') →
      VertReachable allow o'

end Blmath.Spec
