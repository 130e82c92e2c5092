import Mathlib.LinearAlgebra.Matrix.PosDef
import Mathlib.Analysis.InnerProductSpace.PiL2
import Mathlib.Tactic.LinearCombination
import Mathlib.Tactic.FieldSimp
import Mathlib.LinearAlgebra.FiniteDimensional.Lemmas

/-!
Conjugate gradients in exact arithmetic, for a symmetric positive definite matrix.
-/

namespace Blmath.Cg
open Matrix
variable {n : ℕ}

/-- the sequence of residuals and directions, as long as no residual vanishes -/
structure Run (A : Matrix (Fin n) (Fin n) ℝ) (r s : ℕ → Fin n → ℝ) (α β : ℕ → ℝ) (K : ℕ) : Prop where
  start : s 0 = r 0
  resid : ∀ k < K, r (k + 1) = r k - α k • A *ᵥ s k
  direc : ∀ k < K, s (k + 1) = r (k + 1) + β k • s k
  step : ∀ k < K, α k = (s k ⬝ᵥ r k) / (s k ⬝ᵥ A *ᵥ s k)
  conj : ∀ k < K, β k = -(r (k + 1) ⬝ᵥ A *ᵥ s k) / (s k ⬝ᵥ A *ᵥ s k)
  nonz : ∀ k ≤ K, r k ≠ 0

variable {A : Matrix (Fin n) (Fin n) ℝ} {r s : ℕ → Fin n → ℝ} {α β : ℕ → ℝ} {K : ℕ}

theorem pos_of_ne {A : Matrix (Fin n) (Fin n) ℝ} (hA : A.PosDef) {v : Fin n → ℝ} (hv : v ≠ 0) : 0 < v ⬝ᵥ A *ᵥ v := by
  simpa using hA.dotProduct_mulVec_pos hv

theorem symm_dot {A : Matrix (Fin n) (Fin n) ℝ} (hA : A.PosDef) (v w : Fin n → ℝ) : v ⬝ᵥ A *ᵥ w = w ⬝ᵥ A *ᵥ v := by
  have h : Aᵀ = A := by
    have := hA.isHermitian.eq
    rwa [conjTranspose_eq_transpose_of_trivial] at this
  rw [Matrix.dotProduct_mulVec, ← Matrix.mulVec_transpose, h, dotProduct_comm]

theorem self_pos {v : Fin n → ℝ} (hv : v ≠ 0) : 0 < v ⬝ᵥ v := by
  have h : 0 ≤ v ⬝ᵥ v := Finset.sum_nonneg fun i _ => mul_self_nonneg _
  exact lt_of_le_of_ne h fun e => hv (dotProduct_self_eq_zero.1 e.symm)

/-- the usual relations -/
theorem Run.relations (hA : A.PosDef) (h : Run A r s α β K) : ∀ k ≤ K,
    r k ⬝ᵥ s k = r k ⬝ᵥ r k ∧ ∀ j < k, r k ⬝ᵥ s j = 0 ∧ r k ⬝ᵥ r j = 0 ∧ s k ⬝ᵥ A *ᵥ s j = 0 := by
  intro k
  induction k using Nat.strong_induction_on with
  | _ k ih =>
    intro hk
    match k with
    | 0 => exact ⟨by rw [h.start], fun j hj => absurd hj (Nat.not_lt_zero _)⟩
    | k + 1 =>
      have hkK : k < K := hk
      have pos : ∀ j ≤ k, 0 < s j ⬝ᵥ A *ᵥ s j := by
        intro j hj
        apply pos_of_ne hA
        intro e
        have h1 := (ih j (by omega) (by omega)).1
        rw [e, dotProduct_zero] at h1
        exact absurd h1 (self_pos (h.nonz j (by omega))).ne
      have hs : ∀ j ≤ k, r (k + 1) ⬝ᵥ s j = 0 := by
        intro j hj
        rw [h.resid k hkK, sub_dotProduct, smul_dotProduct, smul_eq_mul, dotProduct_comm (A *ᵥ s k)]
        rcases Nat.lt_or_eq_of_le hj with hj | rfl
        · have := (ih k (by omega) (by omega)).2 j hj
          rw [this.1, symm_dot hA, this.2.2]; ring
        · rw [h.step j hkK, dotProduct_comm (r j), div_mul_cancel₀ _ (pos j le_rfl).ne', sub_self]
      have hr : ∀ j ≤ k, r (k + 1) ⬝ᵥ r j = 0 := by
        intro j hj
        match j with
        | 0 => rw [← h.start]; exact hs 0 hj
        | j + 1 =>
          have e : r (j + 1) = s (j + 1) - β j • s j := by rw [h.direc j (by omega)]; simp
          rw [e, dotProduct_sub, dotProduct_smul, hs _ hj, hs j (by omega)]; simp
      have hd := h.direc k hkK
      refine ⟨?_, fun j hj => ⟨hs j (by omega), hr j (by omega), ?_⟩⟩
      · rw [hd, dotProduct_add, dotProduct_smul, hs k le_rfl]; simp
      · rw [hd, add_dotProduct, smul_dotProduct, smul_eq_mul]
        rcases Nat.lt_or_eq_of_le (Nat.le_of_lt_succ hj) with hj | rfl
        · rw [((ih k (by omega) (by omega)).2 j hj).2.2, mul_zero, add_zero]
          have e1 := congrArg (fun v => r (k + 1) ⬝ᵥ v) (h.resid j (by omega))
          simp only [dotProduct_sub, dotProduct_smul, smul_eq_mul] at e1
          rw [hr (j + 1) (by omega), hr j (by omega)] at e1
          have hα : α j ≠ 0 := by
            rw [h.step j (by omega), dotProduct_comm (s j) (r j), (ih j (by omega) (by omega)).1]
            exact div_ne_zero (self_pos (h.nonz j (by omega))).ne' (pos j (by omega)).ne'
          have : α j * (r (k + 1) ⬝ᵥ A *ᵥ s j) = 0 := by linarith
          exact (mul_eq_zero.1 this).resolve_left hα
        · rw [h.conj j hkK, div_mul_cancel₀ _ (pos j le_rfl).ne']; ring

/-- mutually orthogonal nonzero vectors are at most as many as the dimension -/
theorem orthogonal_card {k : ℕ} (v : Fin k → Fin n → ℝ) (h0 : ∀ i, v i ≠ 0) (h : ∀ i j, j < i → v i ⬝ᵥ v j = 0) : k ≤ n := by
  have h' : ∀ i j, i ≠ j → v i ⬝ᵥ v j = 0 := by
    intro i j hij
    rcases lt_or_gt_of_ne hij with e | e
    · rw [dotProduct_comm]; exact h j i e
    · exact h i j e
  have li : LinearIndependent ℝ v := by
    rw [Fintype.linearIndependent_iff]
    intro g hg i
    have := congrArg (fun w => v i ⬝ᵥ w) hg
    simp only [dotProduct_sum, dotProduct_smul, dotProduct_zero, smul_eq_mul] at this
    rw [Finset.sum_eq_single i (fun j _ hj => by rw [h' i j hj.symm, mul_zero]) (by simp)] at this
    exact (mul_eq_zero.1 this).resolve_right (self_pos (h0 i)).ne'
  simpa using li.fintype_card_le_finrank

/-- hence some residual vanishes after at most `n` steps -/
theorem Run.short (hA : A.PosDef) (h : Run A r s α β K) : K < n := by
  have := orthogonal_card (fun i : Fin (K + 1) => r i) (fun i => h.nonz i (by omega))
    (fun i j hij => ((h.relations hA i (by omega)).2 j hij).2.1)
  omega

/-- the directions are not zero -/
theorem Run.direction_pos (hA : A.PosDef) (h : Run A r s α β K) (k : ℕ) (hk : k ≤ K) : 0 < s k ⬝ᵥ A *ᵥ s k := by
  apply pos_of_ne hA
  intro e
  have h1 := (h.relations hA k hk).1
  rw [e, dotProduct_zero] at h1
  exact absurd h1 (self_pos (h.nonz k hk)).ne

/-! ### With a preconditioner -/

/-- the sequence of residuals and directions of the preconditioned method, in a subspace `W` -/
structure PRun (A : Matrix (Fin n) (Fin n) ℝ) (P : (Fin n → ℝ) → Fin n → ℝ) (W : Set (Fin n → ℝ)) (r p : ℕ → Fin n → ℝ)
    (K : ℕ) : Prop where
  start : p 0 = P (r 0)
  resid : ∀ k < K, r (k + 1) = r k - ((r k ⬝ᵥ P (r k)) / (p k ⬝ᵥ A *ᵥ p k)) • A *ᵥ p k
  direc : ∀ k < K, p (k + 1) = ((r (k + 1) ⬝ᵥ P (r (k + 1))) / (r k ⬝ᵥ P (r k))) • p k + P (r (k + 1))
  nonz : ∀ k ≤ K, r k ≠ 0
  memr : ∀ k ≤ K, r k ∈ W
  memp : ∀ k ≤ K, p k ∈ W

/-- symmetric and positive definite on `W` -/
structure SpdOn (W : Set (Fin n → ℝ)) (f : (Fin n → ℝ) → Fin n → ℝ) : Prop where
  symm : ∀ v ∈ W, ∀ w ∈ W, v ⬝ᵥ f w = w ⬝ᵥ f v
  pos : ∀ v ∈ W, v ≠ 0 → 0 < v ⬝ᵥ f v

theorem PRun.relations {P : (Fin n → ℝ) → Fin n → ℝ} {W : Set (Fin n → ℝ)} {p : ℕ → Fin n → ℝ} (hA : SpdOn W (A *ᵥ ·))
    (hP : SpdOn W P) (h : PRun A P W r p K) : ∀ k ≤ K,
    r k ⬝ᵥ p k = r k ⬝ᵥ P (r k) ∧ ∀ j < k, r k ⬝ᵥ p j = 0 ∧ r k ⬝ᵥ P (r j) = 0 ∧ p k ⬝ᵥ A *ᵥ p j = 0 := by
  intro k
  induction k using Nat.strong_induction_on with
  | _ k ih =>
    intro hk
    match k with
    | 0 => exact ⟨by rw [h.start], fun j hj => absurd hj (Nat.not_lt_zero _)⟩
    | k + 1 =>
      have hkK : k < K := hk
      have rpos : ∀ j ≤ k, 0 < r j ⬝ᵥ P (r j) := fun j hj => hP.pos _ (h.memr j (by omega)) (h.nonz j (by omega))
      have pos : ∀ j ≤ k, 0 < p j ⬝ᵥ A *ᵥ p j := by
        intro j hj
        apply hA.pos _ (h.memp j (by omega))
        intro e
        have h1 := (ih j (by omega) (by omega)).1
        rw [e, dotProduct_zero] at h1
        exact absurd h1 (rpos j hj).ne
      have hs : ∀ j ≤ k, r (k + 1) ⬝ᵥ p j = 0 := by
        intro j hj
        rw [h.resid k hkK, sub_dotProduct, smul_dotProduct, smul_eq_mul, dotProduct_comm (A *ᵥ p k)]
        rcases Nat.lt_or_eq_of_le hj with hj | rfl
        · have := (ih k (by omega) (by omega)).2 j hj
          rw [this.1, hA.symm _ (h.memp j (by omega)) _ (h.memp k (by omega)), this.2.2]; ring
        · rw [(ih j (by omega) (by omega)).1, div_mul_cancel₀ _ (pos j le_rfl).ne', sub_self]
      have hr : ∀ j ≤ k, r (k + 1) ⬝ᵥ P (r j) = 0 := by
        intro j hj
        match j with
        | 0 => rw [← h.start]; exact hs 0 hj
        | j + 1 =>
          have e : P (r (j + 1)) = p (j + 1) - ((r (j + 1) ⬝ᵥ P (r (j + 1))) / (r j ⬝ᵥ P (r j))) • p j := by
            rw [h.direc j (by omega)]; simp
          rw [e, dotProduct_sub, dotProduct_smul, hs _ hj, hs j (by omega)]; simp
      have hd := h.direc k hkK
      have hz : ∀ j ≤ k, P (r (k + 1)) ⬝ᵥ r j = 0 := by
        intro j hj
        rw [dotProduct_comm, hP.symm _ (h.memr j (by omega)) _ (h.memr _ hk)]
        exact hr j hj
      refine ⟨?_, fun j hj => ⟨hs j (by omega), hr j (by omega), ?_⟩⟩
      · rw [hd, dotProduct_add, dotProduct_smul, hs k le_rfl]; simp
      · rw [hd, add_dotProduct, smul_dotProduct, smul_eq_mul]
        have hj' : j ≤ k := by omega
        have e1 := congrArg (fun v => P (r (k + 1)) ⬝ᵥ v) (h.resid j (by omega))
        simp only [dotProduct_sub, dotProduct_smul, smul_eq_mul] at e1
        rw [hz j hj'] at e1
        have h1 := rpos j hj'
        have h2 := pos j hj'
        rcases Nat.lt_or_eq_of_le hj' with hj | rfl
        · rw [((ih k (by omega) (by omega)).2 j hj).2.2, mul_zero, zero_add]
          rw [hz (j + 1) (by omega)] at e1
          have : (r j ⬝ᵥ P (r j)) / (p j ⬝ᵥ A *ᵥ p j) * (P (r (k + 1)) ⬝ᵥ A *ᵥ p j) = 0 := by linarith
          exact (mul_eq_zero.1 this).resolve_left (div_pos h1 h2).ne'
        · rw [dotProduct_comm (P (r (j + 1)))  (r (j + 1))] at e1
          generalize r j ⬝ᵥ P (r j) = ρ at *
          generalize p j ⬝ᵥ A *ᵥ p j = γ at *
          generalize r (j + 1) ⬝ᵥ P (r (j + 1)) = ρ' at *
          rw [e1]
          field_simp
          ring

/-- vectors orthogonal for a symmetric positive form are at most as many as the dimension -/
theorem orthogonal_card_form {k : ℕ} {P : (Fin n → ℝ) → Fin n → ℝ} {W : Set (Fin n → ℝ)} (hP : SpdOn W P) (v : Fin k → Fin n → ℝ)
    (hW : ∀ i, v i ∈ W) (h0 : ∀ i, v i ≠ 0) (h : ∀ i j, j < i → v i ⬝ᵥ P (v j) = 0) : k ≤ n := by
  have h' : ∀ i j, i ≠ j → v i ⬝ᵥ P (v j) = 0 := by
    intro i j hij
    rcases lt_or_gt_of_ne hij with e | e
    · rw [hP.symm _ (hW _) _ (hW _)]; exact h j i e
    · exact h i j e
  have li : LinearIndependent ℝ v := by
    rw [Fintype.linearIndependent_iff]
    intro g hg i
    have := congrArg (fun w => w ⬝ᵥ P (v i)) hg
    simp only [sum_dotProduct, smul_dotProduct, zero_dotProduct, smul_eq_mul] at this
    rw [Finset.sum_eq_single i (fun j _ hj => by rw [h' j i hj, mul_zero]) (by simp)] at this
    exact (mul_eq_zero.1 this).resolve_right (hP.pos _ (hW i) (h0 i)).ne'
  simpa using li.fintype_card_le_finrank

theorem PRun.short {P : (Fin n → ℝ) → Fin n → ℝ} {W : Set (Fin n → ℝ)} {p : ℕ → Fin n → ℝ} (hA : SpdOn W (A *ᵥ ·))
    (hP : SpdOn W P) (h : PRun A P W r p K) : K < n := by
  have := orthogonal_card_form hP (fun i : Fin (K + 1) => r i) (fun i => h.memr i (by omega)) (fun i => h.nonz i (by omega))
    (fun i j hij => ((h.relations hA hP i (by omega)).2 j hij).2.1)
  omega

end Blmath.Cg
