import Verif.Model.Isomorphism
import Verif.Spec.Isomorphism
import Mathlib.LinearAlgebra.Matrix.ToLinearEquiv
import Mathlib.LinearAlgebra.Matrix.Basis
import Mathlib.Tactic

/-!
C61: change of basis.
-/

namespace Blmath.Props
open Blmath.Linalg Blmath.Spec Blmath.Geometry
open scoped Matrix

/-- a square array -/
noncomputable def ofSquare {n : ℕ} (A : Matrix (Fin n) (Fin n) ℝ) : Grid ℝ :=
  ⟨n, n, fun i j => if h : i < n ∧ j < n then A ⟨i, h.1⟩ ⟨j, h.2⟩ else 0⟩

variable {det : (n : ℕ) → Mat n n ℝ → ℝ} {inv : (n : ℕ) → Mat n n ℝ → PyM (Mat n n ℝ)}

theorem square_ofSquare {n : ℕ} (A : Matrix (Fin n) (Fin n) ℝ) : square (ofSquare A).tr n = Aᵀ := by
  ext i j
  simp [square, Grid.tr, ofSquare]

theorem npDet_ofSquare (hd : DetSpec det) {n : ℕ} (A : Matrix (Fin n) (Fin n) ℝ) :
    npDet det (ofSquare A).tr = .ok A.det := by
  have : (ofSquare A).tr.m = (ofSquare A).tr.n := rfl
  rw [npDet, if_pos this]
  show Except.ok (det n (square (ofSquare A).tr n)) = _
  rw [square_ofSquare, hd, Matrix.det_transpose]

/-- the frame is a basis exactly if its determinant is not 0 -/
theorem frame_independent {n : ℕ} (A : Matrix (Fin n) (Fin n) ℝ) :
    LinearIndependent ℝ (fun i => A i) ↔ A.det ≠ 0 := by
  have := Matrix.linearIndependent_rows_iff_isUnit (A := A)
  rw [Matrix.isUnit_iff_isUnit_det, isUnit_iff_ne_zero] at this
  exact this

theorem iso_value (hd : DetSpec det) (hi : InvSpecAny inv) {n : ℕ} (A B : Matrix (Fin n) (Fin n) ℝ)
    (hA : A.det ≠ 0) (hB : B.det ≠ 0) :
    isomorphism det inv (ofSquare A) (ofSquare B) = .ok ((Aᵀ)⁻¹ * Bᵀ : Matrix (Fin n) (Fin n) ℝ) := by
  have h1 : ¬ (ofSquare A).m ≠ (ofSquare B).m := fun h => h rfl
  have h2 : ¬ (ofSquare A).tr.n ≠ (ofSquare B).tr.n := fun h => h rfl
  have hv : validateFrames det (ofSquare A) (ofSquare B) = .ok () := by
    rw [validateFrames, if_neg h1, if_neg h2, npDet_ofSquare hd, npDet_ofSquare hd]
    simp [hA, hB]
  rw [isomorphism, hv, ok_bind]
  show (inv n (square (ofSquare A).tr n) >>= fun i1 => pure (Mat.mul i1 (square (ofSquare B).tr n))) = _
  rw [square_ofSquare, square_ofSquare]
  cases hinv : inv n Aᵀ with
  | error e => exact absurd (by simpa using (hi.fails n _ _ hinv).1) hA
  | ok b =>
    rw [ok_bind, pure_eq_ok, Mat.mul_real, Matrix.inv_eq_right_inv (hi.inverse n _ _ hinv).1]
    rfl

/-- **C61** For two bases (the rows of the arrays) the result `X` is the one matrix with
`frame1ᵀ X = frame2ᵀ`: its `j`-th column holds the coordinates of the `j`-th vector of the second frame with
respect to the first. -/
theorem C61_coordinates (hd : DetSpec det) (hi : InvSpecAny inv) {n : ℕ} (A B : Matrix (Fin n) (Fin n) ℝ)
    (hA : LinearIndependent ℝ (fun i => A i)) (hB : LinearIndependent ℝ (fun i => B i)) :
    ∃ X : Matrix (Fin n) (Fin n) ℝ, isomorphism det inv (ofSquare A) (ofSquare B) = .ok X ∧
      Aᵀ * X = Bᵀ ∧ (∀ j, B j = ∑ i, X i j • A i) ∧ ∀ Y : Matrix (Fin n) (Fin n) ℝ, Aᵀ * Y = Bᵀ → Y = X := by
  rw [frame_independent] at hA hB
  have hu : IsUnit (Aᵀ).det := by rw [Matrix.det_transpose]; exact isUnit_iff_ne_zero.2 hA
  have hX : Aᵀ * ((Aᵀ)⁻¹ * Bᵀ) = Bᵀ := by rw [← Matrix.mul_assoc, Matrix.mul_nonsing_inv _ hu, Matrix.one_mul]
  refine ⟨_, iso_value hd hi A B hA hB, hX, ?_, ?_⟩
  · intro j
    funext k
    have := congrFun (congrFun hX k) j
    rw [Matrix.mul_apply, Matrix.transpose_apply] at this
    rw [← this, Finset.sum_apply]
    exact Finset.sum_congr rfl fun i _ => by rw [Matrix.transpose_apply]; simp [mul_comm]
  · intro Y hY
    rw [← hY, ← Matrix.mul_assoc, Matrix.nonsing_inv_mul _ hu, Matrix.one_mul]

/-- **C61** The identity for equal frames. -/
theorem C61_identity (hd : DetSpec det) (hi : InvSpecAny inv) {n : ℕ} (A : Matrix (Fin n) (Fin n) ℝ)
    (hA : LinearIndependent ℝ (fun i => A i)) :
    isomorphism det inv (ofSquare A) (ofSquare A) = .ok (1 : Matrix (Fin n) (Fin n) ℝ) := by
  obtain ⟨X, h, _, _, hu⟩ := C61_coordinates hd hi A A hA hA
  rw [h, ← hu 1 (Matrix.mul_one _)]

/-- **C61** Results multiply along a chain of frames. -/
theorem C61_chain (hd : DetSpec det) (hi : InvSpecAny inv) {n : ℕ} (A B C : Matrix (Fin n) (Fin n) ℝ)
    (hA : LinearIndependent ℝ (fun i => A i)) (hB : LinearIndependent ℝ (fun i => B i))
    (hC : LinearIndependent ℝ (fun i => C i)) :
    ∃ X Y : Matrix (Fin n) (Fin n) ℝ, isomorphism det inv (ofSquare A) (ofSquare B) = .ok X ∧
      isomorphism det inv (ofSquare B) (ofSquare C) = .ok Y ∧
      isomorphism det inv (ofSquare A) (ofSquare C) = .ok (X * Y) := by
  obtain ⟨X, h1, h1', _, _⟩ := C61_coordinates hd hi A B hA hB
  obtain ⟨Y, h2, h2', _, _⟩ := C61_coordinates hd hi B C hB hC
  obtain ⟨Z, h3, _, _, hu⟩ := C61_coordinates hd hi A C hA hC
  exact ⟨X, Y, h1, h2, by rw [h3, ← hu (X * Y) (by rw [← Matrix.mul_assoc, h1', h2'])]⟩

/-- **C61** The inverse when the frames are swapped. -/
theorem C61_swap (hd : DetSpec det) (hi : InvSpecAny inv) {n : ℕ} (A B : Matrix (Fin n) (Fin n) ℝ)
    (hA : LinearIndependent ℝ (fun i => A i)) (hB : LinearIndependent ℝ (fun i => B i)) :
    ∃ X Y : Matrix (Fin n) (Fin n) ℝ, isomorphism det inv (ofSquare A) (ofSquare B) = .ok X ∧
      isomorphism det inv (ofSquare B) (ofSquare A) = .ok Y ∧ X * Y = 1 ∧ Y * X = 1 := by
  obtain ⟨X, Y, h1, h2, h3⟩ := C61_chain hd hi A B A hA hB hA
  rw [C61_identity hd hi A hA] at h3
  have h : X * Y = 1 := (Except.ok.inj h3).symm
  exact ⟨X, Y, h1, h2, h, mul_eq_one_comm.1 h⟩

/-- **C61** What raises: frames of different lengths, frames that are not square (the first that is not) and
dependent frames (before the second frame is looked at, if it is the first). -/
theorem C61_errors (hd : DetSpec det) (f1 f2 : Grid ℝ) :
    (f1.m ≠ f2.m → isomorphism det inv f1 f2 = .error .DimensionalityError) ∧
    (f1.m = f2.m → f1.m ≠ f1.n → isomorphism det inv f1 f2 = .error .LinAlgError) ∧
    (∀ {n : ℕ} (A B : Matrix (Fin n) (Fin n) ℝ), ¬ LinearIndependent ℝ (fun i => A i) ∨
      ¬ LinearIndependent ℝ (fun i => B i) →
      isomorphism det inv (ofSquare A) (ofSquare B) = .error .LinearDependenceError) ∧
    (∀ {n : ℕ} (A : Matrix (Fin n) (Fin n) ℝ), f2.m = n → f2.n ≠ n →
      isomorphism det inv (ofSquare A) f2 =
        .error (open Classical in if LinearIndependent ℝ (fun i => A i) then .LinAlgError else .LinearDependenceError)) := by
  refine ⟨?_, ?_, ?_, ?_⟩
  · intro h
    rw [isomorphism, validateFrames, if_pos h]; rfl
  · intro h h'
    have h1 : ¬ f1.m ≠ f2.m := fun e => e h
    have h2 : ¬ f1.tr.n ≠ f2.tr.n := fun e => e h
    have h3 : ¬ f1.tr.m = f1.tr.n := fun e => h' e.symm
    rw [isomorphism, validateFrames, if_neg h1, if_neg h2, npDet, if_neg h3]; rfl
  · intro n A B h
    have h1 : ¬ (ofSquare A).m ≠ (ofSquare B).m := fun h => h rfl
    have h2 : ¬ (ofSquare A).tr.n ≠ (ofSquare B).tr.n := fun h => h rfl
    rw [frame_independent, frame_independent, not_not, not_not] at h
    have hv : validateFrames det (ofSquare A) (ofSquare B) = .error .LinearDependenceError := by
      rw [validateFrames, if_neg h1, if_neg h2, npDet_ofSquare hd, npDet_ofSquare hd]
      simp only [ok_bind, Num.eq_real, Num.lit_real]
      rcases h with h | h
      · simp [h]
      · by_cases hA : A.det = 0
        · simp [hA]
        · simp [hA, h]
    rw [isomorphism, hv, error_bind]
  · intro n A h h'
    have h1 : ¬ (ofSquare A).m ≠ f2.m := fun e => e h.symm
    have h2 : ¬ (ofSquare A).tr.n ≠ f2.tr.n := fun e => e h.symm
    have h3 : ¬ f2.tr.m = f2.tr.n := fun e => h' (e.trans h)
    have hv : validateFrames det (ofSquare A) f2 =
        .error (open Classical in if LinearIndependent ℝ (fun i => A i) then .LinAlgError else .LinearDependenceError) := by
      rw [validateFrames, if_neg h1, if_neg h2, npDet_ofSquare hd]
      simp only [ok_bind, Num.eq_real, Num.lit_real, npDet, if_neg h3]
      by_cases hA : A.det = 0
      · have hl : ¬ LinearIndependent ℝ (fun i => A i) := by rw [frame_independent]; simpa using hA
        simp [hA, hl]
      · have hl : LinearIndependent ℝ (fun i => A i) := by rw [frame_independent]; exact hA
        simp [hA, hl]
    rw [isomorphism, hv, error_bind]

/-- **C61** The docstring promises the operator that sends the first frame to the second, in Euclidean
coordinates, which is a matrix `L` with `L frame1ᵀ = frame2ᵀ`.  The result is that operator exactly if it
commutes with `frame1ᵀ`. -/
theorem C61_operator_iff (hd : DetSpec det) (hi : InvSpecAny inv) {n : ℕ} (A B : Matrix (Fin n) (Fin n) ℝ)
    (hA : LinearIndependent ℝ (fun i => A i)) (hB : LinearIndependent ℝ (fun i => B i)) :
    ∃ X : Matrix (Fin n) (Fin n) ℝ, isomorphism det inv (ofSquare A) (ofSquare B) = .ok X ∧
      ((∀ i, X *ᵥ A i = B i) ↔ X * Aᵀ = Aᵀ * X) := by
  obtain ⟨X, h, hX, _, _⟩ := C61_coordinates hd hi A B hA hB
  refine ⟨X, h, ?_⟩
  rw [hX]
  constructor
  · intro e
    ext k i
    have := congrFun (e i) k
    simpa [Matrix.mul_apply, Matrix.mulVec, dotProduct] using this
  · intro e i
    funext k
    have := congrFun (congrFun e k) i
    simpa [Matrix.mul_apply, Matrix.mulVec, dotProduct] using this

/-- **C61** A case where it is not: frames ((0, 1), (1, 0)) and ((1, 0), (0, 2)). -/
theorem C61_not_the_operator (hd : DetSpec det) (hi : InvSpecAny inv) :
    ∃ X : Matrix (Fin 2) (Fin 2) ℝ, isomorphism det inv (ofSquare !![0, 1; 1, 0]) (ofSquare !![1, 0; 0, 2]) = .ok X ∧
      X = !![0, 2; 1, 0] ∧ X *ᵥ ![0, 1] ≠ ![1, 0] := by
  obtain ⟨X, h, _, _, hu⟩ := C61_coordinates hd hi !![(0 : ℝ), 1; 1, 0] !![1, 0; 0, 2]
    ((frame_independent _).2 (by norm_num [Matrix.det_fin_two])) ((frame_independent _).2 (by norm_num [Matrix.det_fin_two]))
  have hX : !![0, 2; 1, 0] = X := hu _ (by ext i j; fin_cases i <;> fin_cases j <;> simp [Matrix.mul_apply])
  refine ⟨X, h, hX.symm, ?_⟩
  rw [← hX]
  intro e
  have := congrFun e 0
  norm_num [Matrix.mulVec, dotProduct, Fin.sum_univ_two] at this

/-- routines with these promises exist -/
theorem C61_satisfiable : DetSpec (fun _ a => a.det) ∧
    InvSpecAny (fun _ a => open Classical in if a.det = 0 then .error .LinAlgError else .ok a⁻¹) := by
  classical
  refine ⟨fun _ _ => rfl, ⟨?_, ?_⟩⟩
  · intro n a b h
    by_cases h0 : a.det = 0
    · simp [h0] at h
    · rw [if_neg h0] at h
      obtain rfl := Except.ok.inj h
      have hu := isUnit_iff_ne_zero.2 h0
      exact ⟨Matrix.mul_nonsing_inv _ hu, Matrix.nonsing_inv_mul _ hu⟩
  · intro n a e h
    by_cases h0 : a.det = 0
    · rw [if_pos h0] at h
      exact ⟨h0, (Except.error.inj h).symm⟩
    · simp [h0] at h

end Blmath.Props
