import Verif.Spec.Svd
import Mathlib.Analysis.Matrix.Spectrum
import Mathlib.Analysis.Matrix.PosDef
import Mathlib.Data.Fin.Tuple.Sort

/-!
Every square real matrix has a singular value decomposition, so the contract of `np.linalg.svd` can be
met for all inputs.
-/

namespace Blmath.Spec
open Matrix

theorem svd_exists {n : ℕ} (A : Matrix (Fin n) (Fin n) ℝ) : ∃ u s v, SvdSpec A u s v := by
  have hH : (A.transpose * A).IsHermitian := by
    unfold Matrix.IsHermitian
    rw [Matrix.conjTranspose_eq_transpose_of_trivial, Matrix.transpose_mul, Matrix.transpose_transpose]
  -- eigenvectors, sorted
  obtain ⟨σ, hσ⟩ : ∃ σ : Equiv.Perm (Fin n), σ = Tuple.sort (fun i => -hH.eigenvalues i) := ⟨_, rfl⟩
  have hmono : Monotone ((fun i => -hH.eigenvalues i) ∘ σ) := by rw [hσ]; exact Tuple.monotone_sort _
  obtain ⟨e, he⟩ : ∃ e : OrthonormalBasis (Fin n) ℝ (EuclideanSpace ℝ (Fin n)), e = hH.eigenvectorBasis.reindex σ.symm := ⟨_, rfl⟩
  obtain ⟨l, hl⟩ : ∃ l : Fin n → ℝ, l = fun i => hH.eigenvalues (σ i) := ⟨_, rfl⟩
  have heig : ∀ i, (A.transpose * A).mulVec (e i).ofLp = l i • (e i).ofLp := by
    intro i
    rw [he, hl]
    simp only [OrthonormalBasis.reindex_apply, Equiv.symm_symm]
    exact hH.mulVec_eigenvectorBasis (σ i)
  have hee : ∀ i j, (e i).ofLp ⬝ᵥ (e j).ofLp = if i = j then 1 else 0 := by
    intro i j
    have := orthonormal_iff_ite.mp e.orthonormal j i
    rw [EuclideanSpace.inner_eq_star_dotProduct] at this
    simp only [star_trivial] at this
    rw [this]
    simp only [eq_comm]
  have hAA : ∀ i j, (A.mulVec (e i).ofLp) ⬝ᵥ (A.mulVec (e j).ofLp) = if i = j then l j else 0 := by
    intro i j
    rw [Matrix.dotProduct_mulVec, ← Matrix.mulVec_transpose, Matrix.mulVec_mulVec, heig, smul_dotProduct, hee]
    split
    · rename_i h; rw [h]; simp
    · simp
  have hl0 : ∀ i, 0 ≤ l i := by
    intro i
    have := hAA i i
    rw [if_pos rfl] at this
    rw [← this]
    exact Finset.sum_nonneg fun k _ => mul_self_nonneg _
  -- the left vectors
  obtain ⟨w, hw⟩ : ∃ w : Fin n → EuclideanSpace ℝ (Fin n), w = fun i => WithLp.toLp 2 ((Real.sqrt (l i))⁻¹ • A.mulVec (e i).ofLp) := ⟨_, rfl⟩
  have hort : Orthonormal ℝ (Set.restrict {i | l i ≠ 0} w) := by
    rw [orthonormal_iff_ite]
    rintro ⟨i, hi⟩ ⟨j, hj⟩
    have e1 : ∀ i j, inner ℝ (w i) (w j) = (Real.sqrt (l j))⁻¹ * ((Real.sqrt (l i))⁻¹ * if j = i then l i else 0) := by
      intro i j
      rw [EuclideanSpace.inner_eq_star_dotProduct, hw]
      simp only [star_trivial, dotProduct_smul, smul_dotProduct, hAA, smul_eq_mul]
      ring
    change inner ℝ (w i) (w j) = _
    rw [e1]
    simp only [Subtype.mk.injEq]
    by_cases h : i = j
    · subst h
      simp only [if_true]
      have := Real.mul_self_sqrt (hl0 i)
      have h0 : Real.sqrt (l i) ≠ 0 := by rw [Real.sqrt_ne_zero (hl0 i)]; exact hi
      field_simp
      nlinarith
    · rw [if_neg h, if_neg (fun hc => h hc.symm)]; simp
  obtain ⟨f, hf⟩ := hort.exists_orthonormalBasis_extension_of_card_eq (by simp)
  have hff : ∀ i j, (f i).ofLp ⬝ᵥ (f j).ofLp = if i = j then 1 else 0 := by
    intro i j
    have := orthonormal_iff_ite.mp f.orthonormal j i
    rw [EuclideanSpace.inner_eq_star_dotProduct] at this
    simp only [star_trivial] at this
    rw [this]
    simp only [eq_comm]
  have hAe : ∀ i, A.mulVec (e i).ofLp = Real.sqrt (l i) • (f i).ofLp := by
    intro i
    by_cases h : l i = 0
    · have h2 := hAA i i
      rw [if_pos rfl, h] at h2
      rw [h, Real.sqrt_zero, zero_smul]
      exact dotProduct_self_eq_zero.mp h2
    · have h0 : Real.sqrt (l i) ≠ 0 := by rw [Real.sqrt_ne_zero (hl0 i)]; exact h
      rw [hf i h, hw]
      simp only
      rw [smul_smul, mul_inv_cancel₀ h0, one_smul]
  obtain ⟨V, hV⟩ : ∃ V : Matrix (Fin n) (Fin n) ℝ, V = Matrix.of fun i j => (e i).ofLp j := ⟨_, rfl⟩
  obtain ⟨U, hU⟩ : ∃ U : Matrix (Fin n) (Fin n) ℝ, U = Matrix.of fun i j => (f j).ofLp i := ⟨_, rfl⟩
  have hVV : V * V.transpose = 1 := by
    ext i j
    rw [hV, Matrix.mul_apply, Matrix.one_apply, ← hee i j]
    rfl
  have hUU : U.transpose * U = 1 := by
    ext i j
    rw [hU, Matrix.mul_apply, Matrix.one_apply, ← hff i j]
    rfl
  have hAV : A * V.transpose = U * Matrix.diagonal (fun i => Real.sqrt (l i)) := by
    ext i j
    rw [Matrix.mul_diagonal, hU, hV, Matrix.mul_apply]
    have := congrFun (hAe j) i
    simp only [Matrix.mulVec, dotProduct, Pi.smul_apply, smul_eq_mul] at this
    simp only [Matrix.transpose_apply, Matrix.of_apply]
    rw [this, mul_comm]
  refine ⟨U, fun i => Real.sqrt (l i), V, hUU, mul_eq_one_comm.mp hVV, fun i => Real.sqrt_nonneg _, ?_, ?_⟩
  · intro i j hij
    apply Real.sqrt_le_sqrt
    have := hmono hij
    simp only [Function.comp_apply, neg_le_neg_iff] at this
    rw [hl]; exact this
  · rw [← hAV, Matrix.mul_assoc, mul_eq_one_comm.mp hVV, Matrix.mul_one]

end Blmath.Spec
