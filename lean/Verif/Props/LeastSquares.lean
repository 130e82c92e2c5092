import Verif.Props.CgSolve
import Verif.Props.Lapack

/-!
Property C155: `block_sparse_cg_solve` on normal equations, with elimination in the place of the library routines, and how near its result is
to the least squares solution.
-/

namespace Blmath.Props
open Blmath.Linalg Blmath.Spec Blmath.Cg Matrix
variable {n m : ℕ}

namespace LS

/-- `factorized`, by elimination for each right hand side -/
noncomputable def fact (k : ℕ) (a : Matrix (Fin k) (Fin k) ℝ) : PyM ((Fin k → ℝ) → Fin k → ℝ) := do
  let _ ← npInv k a
  pure fun v => match gesv a (Matrix.of fun i (_ : Fin 1) => v i : Mat k 1 ℝ) with
    | .ok x => fun i => x i 0
    | .error _ => v

theorem fact_spec : FactSpec fact := by
  constructor
  · intro k a f h v
    cases e : npInv k a with
    | error x => rw [fact, e] at h; cases h
    | ok b =>
      have hdet : a.det ≠ 0 := by
        intro h0
        have := (C151_solve a (Mat.eye k)).2 h0
        rw [npInv, this] at e
        cases e
      have hf : f = fun v => match gesv a (Matrix.of fun i (_ : Fin 1) => v i : Mat k 1 ℝ) with
          | .ok x => fun i => x i 0
          | .error _ => v := by
        rw [fact, e] at h
        exact (Except.ok.inj h).symm
      have key : ∀ v, a *ᵥ f v = v := by
        intro v
        obtain ⟨x, h1, h2, -⟩ := (C151_solve a (Matrix.of fun i (_ : Fin 1) => v i)).1 hdet
        have hx : f v = fun i => x i 0 := by rw [hf]; simp only [h1]
        rw [hx]
        funext i
        have := congrFun (congrFun h2 i) 0
        rw [Matrix.mul_apply] at this
        exact this
      refine ⟨key v, ?_⟩
      have inj := Matrix.mulVec_injective_iff_isUnit.2 ((Matrix.isUnit_iff_isUnit_det a).2 (isUnit_iff_ne_zero.2 hdet))
      exact inj (key (a *ᵥ v))
  · intro k a e h
    cases e' : npInv k a with
    | error x => exact (C151_inv.fails k a x e').1
    | ok b => rw [fact, e'] at h; cases h

/-- the sum of squares -/
def ssq (r : Fin m → ℝ) : ℝ := ∑ i, r i ^ 2

theorem ssq_norm (r : Fin m → ℝ) : norm2 r ^ 2 = ssq r := Real.sq_sqrt (Finset.sum_nonneg fun _ _ => sq_nonneg _)
theorem n2_nonneg (r : Fin m → ℝ) : 0 ≤ norm2 r := Real.sqrt_nonneg _
theorem cauchy (v w : Fin m → ℝ) : v ⬝ᵥ w ≤ norm2 v * norm2 w := Real.sum_mul_le_sqrt_mul_sqrt _ _ _
theorem ssq_dot (v : Fin m → ℝ) : ssq v = v ⬝ᵥ v := Finset.sum_congr rfl fun _ _ => by ring
theorem norm_neg (v : Fin m → ℝ) : norm2 (-v) = norm2 v := by unfold norm2; simp

/-- Pythagoras at a solution of the normal equations -/
theorem pythagoras (J : Matrix (Fin m) (Fin n) ℝ) (r : Fin m → ℝ) (x z : Fin n → ℝ) (h : (Jᵀ * J) *ᵥ x = Jᵀ *ᵥ r) :
    ssq (r - J *ᵥ z) = ssq (r - J *ᵥ x) + ssq (J *ᵥ (z - x)) := by
  have h0 : (J *ᵥ (z - x)) ⬝ᵥ (r - J *ᵥ x) = 0 := by
    have e1 : Jᵀ *ᵥ (r - J *ᵥ x) = 0 := by rw [Matrix.mulVec_sub, Matrix.mulVec_mulVec, h, sub_self]
    rw [dotProduct_comm, Matrix.dotProduct_mulVec, ← Matrix.mulVec_transpose, e1, zero_dotProduct]
  have e : r - J *ᵥ z = (r - J *ᵥ x) - J *ᵥ (z - x) := by rw [Matrix.mulVec_sub]; abel
  rw [e, ssq_dot, ssq_dot (r - J *ᵥ x), ssq_dot (J *ᵥ (z - x))]
  generalize J *ᵥ (z - x) = p at h0 ⊢
  generalize r - J *ᵥ x = q at h0 ⊢
  rw [sub_dotProduct, dotProduct_sub, dotProduct_sub, h0, dotProduct_comm q p, h0]
  ring

end LS
open LS

/-- **C155.** `factorized` by elimination does what the properties of the solver assume. -/
theorem C155_factorized : FactSpec fact := fact_spec

/-- **C155.** The normal equations of a least squares problem `J x ≈ r`, with elimination in the place of `scipy.linalg.inv` and `factorized`: there is a
best `x` that vanishes at the zero columns of `J`, it is the only one, and what `block_sparse_cg_solve` returns is near it, and its sum of squares is
nearly the least.  `σ` is how much `J` stretches, at least, vectors that vanish at its zero columns. -/
theorem C155_least_squares (J : Matrix (Fin m) (Fin n) ℝ) (r : Fin m → ℝ) (A : Coo n n ℝ) (hJ : cooMat A = Jᵀ * J)
    (hst : ∀ j, (∀ i, J i j = 0) → stored A j = 0) {σ : ℝ} (h0 : 0 < σ)
    (hσ : ∀ v : Fin n → ℝ, (∀ j, (∀ i, J i j = 0) → v j = 0) → σ * norm2 v ≤ norm2 (J *ᵥ v)) :
    ∃ x y : Fin n → ℝ,
      (∀ z, ∑ i, (r i - (J *ᵥ x) i) ^ 2 ≤ ∑ i, (r i - (J *ᵥ z) i) ^ 2) ∧ (∀ j, (∀ i, J i j = 0) → x j = 0) ∧
      (∀ x' : Fin n → ℝ, (∀ j, (∀ i, J i j = 0) → x' j = 0) → (∀ z, ∑ i, (r i - (J *ᵥ x') i) ^ 2 ≤ ∑ i, (r i - (J *ᵥ z) i) ^ 2) → x' = x) ∧
      blockSparseCgSolve (fun k a => npInv k a) fact (fun s t => open Classical in decide (t < 1 / 100000 * s)) A (Jᵀ *ᵥ r) = .ok y ∧
      norm2 (y - x) ≤ norm2 (Jᵀ *ᵥ r) / (100000 * σ ^ 2) ∧
      ∑ i, (r i - (J *ᵥ y) i) ^ 2 ≤ ∑ i, (r i - (J *ᵥ x) i) ^ 2 + (norm2 (Jᵀ *ᵥ r) / (100000 * σ)) ^ 2 := by
  classical
  have hn0 : ∀ {k : ℕ} (v : Fin k → ℝ), norm2 v = 0 → v = 0 := by
    intro k v h
    have := ssq_norm v
    rw [h] at this
    have hs : ∑ i, v i ^ 2 = 0 := by unfold ssq at this; linarith
    funext i
    have := (Finset.sum_eq_zero_iff_of_nonneg (fun i _ => sq_nonneg (v i))).1 hs i (Finset.mem_univ _)
    simpa using this
  have hl : ∀ v : Fin n → ℝ, (∀ j, (∀ i, J i j = 0) → v j = 0) → J *ᵥ v = 0 → v = 0 := by
    intro v hv h
    have := hσ v hv
    rw [h] at this
    have e : norm2 (0 : Fin m → ℝ) = 0 := by simp [norm2]
    rw [e] at this
    exact hn0 v (le_antisymm (by nlinarith [n2_nonneg v]) (n2_nonneg v))
  have hA := C94_least_squares J A hJ hl hst
  have hz : ∀ j, ZeroCol (cooMat A) j ↔ ∀ i, J i j = 0 := by
    intro j
    rw [hJ]
    constructor
    · intro h i
      have := h j
      rw [Matrix.mul_apply] at this
      have := (Finset.sum_eq_zero_iff_of_nonneg (fun i _ => mul_self_nonneg (J i j))).1 this i (Finset.mem_univ _)
      exact mul_self_eq_zero.1 this
    · intro h i
      rw [Matrix.mul_apply]
      exact Finset.sum_eq_zero fun k _ => by rw [h k, mul_zero]
  have hb : ∀ j, ZeroCol (cooMat A) j → (Jᵀ *ᵥ r) j = 0 := by
    intro j hj
    have := (hz j).1 hj
    simp only [Matrix.mulVec, dotProduct, Matrix.transpose_apply]
    exact Finset.sum_eq_zero fun i _ => by rw [this i, zero_mul]
  have hres : ∀ y, residual (cooMat A) (Jᵀ *ᵥ r) y = norm2 (Jᵀ *ᵥ r - (Jᵀ * J) *ᵥ y) := by
    intro y
    rw [hJ]
    rfl
  obtain ⟨x, -, -, -, -, hx, hxl⟩ := C94_solves C151_inv C155_factorized A hA (Jᵀ *ᵥ r) hb (fun _ t => decide (t = 0)) (fun _ _ => by simp)
  obtain ⟨y, -, -, hy, -, hyr, hyl⟩ := C94_solves C151_inv C155_factorized A hA (Jᵀ *ᵥ r) hb (fun s t => decide (t < 1 / 100000 * s))
    (fun s hs => by simpa using hs)
  have hxs : (Jᵀ * J) *ᵥ x = Jᵀ *ᵥ r := by
    rcases hx with ⟨h1, h2⟩ | ⟨-, h2⟩
    · rw [h1, h2, Matrix.mulVec_zero]
    · have := of_decide_eq_true h2
      rw [hres] at this
      have := hn0 _ this
      exact (sub_eq_zero.1 this).symm
  have hyb : norm2 (Jᵀ *ᵥ r - (Jᵀ * J) *ᵥ y) ≤ norm2 (Jᵀ *ᵥ r) / 100000 := by
    rcases hyr with ⟨h1, h2⟩ | ⟨-, h2⟩
    · rw [h1, h2, Matrix.mulVec_zero, sub_zero]
      have e : norm2 (0 : Fin n → ℝ) = 0 := by simp [norm2]
      rw [e, zero_div]
    · have := of_decide_eq_true h2
      rw [hres] at this
      linarith
  have py := fun z => pythagoras J r x z hxs
  have live : ∀ j, (∀ i, J i j = 0) → (y - x) j = 0 := fun j hj => by
    rw [Pi.sub_apply, hyl j ((hz j).2 hj), hxl j ((hz j).2 hj), sub_zero]
  have s1 := hσ (y - x) live
  have s2 : norm2 (J *ᵥ (y - x)) ^ 2 ≤ norm2 (y - x) * norm2 (Jᵀ *ᵥ r - (Jᵀ * J) *ᵥ y) := by
    have e1 : norm2 (J *ᵥ (y - x)) ^ 2 = (y - x) ⬝ᵥ -(Jᵀ *ᵥ r - (Jᵀ * J) *ᵥ y) := by
      rw [ssq_norm, ssq_dot, Matrix.dotProduct_mulVec, ← Matrix.mulVec_transpose, Matrix.mulVec_mulVec, Matrix.mulVec_sub, hxs, dotProduct_comm]
      congr 1
      abel
    rw [e1]
    refine (cauchy _ _).trans (le_of_eq ?_)
    rw [LS.norm_neg]
  have nE := n2_nonneg (y - x)
  have nT := n2_nonneg (J *ᵥ (y - x))
  have nR := n2_nonneg (Jᵀ *ᵥ r - (Jᵀ * J) *ᵥ y)
  have hT : norm2 (J *ᵥ (y - x)) * σ ≤ norm2 (Jᵀ *ᵥ r - (Jᵀ * J) *ᵥ y) := by
    rcases nT.eq_or_lt with h | h
    · rw [← h, zero_mul]; exact nR
    · refine le_of_mul_le_mul_left ?_ h
      nlinarith [mul_le_mul_of_nonneg_right s1 nR]
  refine ⟨x, y, fun z => ?_, fun j hj => hxl j ((hz j).2 hj), fun x' hx' hmin => ?_, hy, ?_, ?_⟩
  · have := py z
    have h2 : 0 ≤ ssq (J *ᵥ (z - x)) := Finset.sum_nonneg fun _ _ => sq_nonneg _
    have : ssq (r - J *ᵥ x) ≤ ssq (r - J *ᵥ z) := by linarith
    exact this
  · have h1 : ssq (r - J *ᵥ x') ≤ ssq (r - J *ᵥ x) := hmin x
    have h2 : ssq (J *ᵥ (x' - x)) = 0 := le_antisymm (by linarith [py x']) (Finset.sum_nonneg fun _ _ => sq_nonneg _)
    have h3 : J *ᵥ (x' - x) = 0 := hn0 _ (by
      have := ssq_norm (J *ᵥ (x' - x))
      rw [h2] at this
      exact pow_eq_zero_iff two_ne_zero |>.1 this)
    refine sub_eq_zero.1 (hl _ (fun j hj => ?_) h3)
    rw [Pi.sub_apply, hx' j hj, hxl j ((hz j).2 hj), sub_zero]
  · rw [le_div_iff₀ (by positivity)]
    nlinarith [mul_le_mul_of_nonneg_right s1 h0.le]
  · have h1 : ssq (J *ᵥ (y - x)) ≤ (norm2 (Jᵀ *ᵥ r) / (100000 * σ)) ^ 2 := by
      rw [← ssq_norm]
      refine pow_le_pow_left₀ nT ?_ 2
      rw [le_div_iff₀ (by positivity)]
      linarith
    have : ssq (r - J *ᵥ y) ≤ ssq (r - J *ᵥ x) + (norm2 (Jᵀ *ᵥ r) / (100000 * σ)) ^ 2 := by linarith [py y]
    exact this

/-- Three equations with a column of zeros: the second unknown stays zero. -/
theorem C155_witness : ∃ y, blockSparseCgSolve (fun k a => npInv k a) fact (fun s t => open Classical in decide (t < 1 / 100000 * s))
      ([(0, 0, 1), (2, 2, 4)] : Coo 3 3 ℝ) ((!![1, 0, 0; 0, 0, 2; 0, 0, 0] : Matrix (Fin 3) (Fin 3) ℝ)ᵀ *ᵥ ![3, 4, 5]) = .ok y ∧
    ∃ x, norm2 (y - x) ≤ norm2 ((!![1, 0, 0; 0, 0, 2; 0, 0, 0] : Matrix (Fin 3) (Fin 3) ℝ)ᵀ *ᵥ ![3, 4, 5]) / 100000 ∧ x 1 = 0 := by
  have hM : cooMat ([(0, 0, 1), (2, 2, 4)] : Coo 3 3 ℝ) =
      (!![1, 0, 0; 0, 0, 2; 0, 0, 0] : Matrix (Fin 3) (Fin 3) ℝ)ᵀ * (!![1, 0, 0; 0, 0, 2; 0, 0, 0] : Matrix (Fin 3) (Fin 3) ℝ) := by
    ext i j
    fin_cases i <;> fin_cases j <;> simp [cooMat, Matrix.single_apply, Matrix.mul_apply, Fin.sum_univ_three] <;> norm_num
  obtain ⟨x, y, -, h2, -, h4, h5, -⟩ := C155_least_squares (!![1, 0, 0; 0, 0, 2; 0, 0, 0] : Matrix (Fin 3) (Fin 3) ℝ) ![3, 4, 5]
    ([(0, 0, 1), (2, 2, 4)] : Coo 3 3 ℝ) hM (by
      intro j hj
      fin_cases j
      · have := hj 0; simp at this
      · simp [stored]
      · have := hj 1; simp at this) (σ := 1) one_pos (by
      intro v hv
      have h1 : v 1 = 0 := hv 1 (by intro i; fin_cases i <;> simp)
      rw [one_mul]
      unfold norm2
      refine Real.sqrt_le_sqrt ?_
      simp [Fin.sum_univ_three, Matrix.mulVec, dotProduct, h1]
      nlinarith [sq_nonneg (v 2)])
  refine ⟨y, h4, x, ?_, h2 1 (by intro i; fin_cases i <;> simp)⟩
  norm_num at h5 ⊢
  exact h5

end Blmath.Props
