import Verif.Model.CgSolve
import Verif.Props.SparseCg
import Verif.Props.ConjGrad

/-!
C94: the block-sparse conjugate gradient solver as a whole.
-/

namespace Blmath.Props
open Blmath.Linalg Blmath.Spec Blmath.Cg Matrix
variable {n : ℕ}

/-- column `j` is zero -/
def ZeroCol (M : Matrix (Fin n) (Fin n) ℝ) (j : Fin n) : Prop := ∀ i, M i j = 0

/-- the matrices the solver is meant for: symmetric, and positive definite but for columns (and rows) of zeros, for which
nothing is stored -/
structure Solvable (A : Coo n n ℝ) : Prop where
  symm : ∀ i j, cooMat A i j = cooMat A j i
  pos : ∀ v : Fin n → ℝ, (∀ j, ZeroCol (cooMat A) j → v j = 0) → v ≠ 0 → 0 < v ⬝ᵥ cooMat A *ᵥ v
  unstored : ∀ j, ZeroCol (cooMat A) j → stored A j = 0

/-- vectors without entries at the zero columns -/
def Live (A : Coo n n ℝ) : Set (Fin n → ℝ) := {v | ∀ j, ZeroCol (cooMat A) j → v j = 0}

section
variable {A : Coo n n ℝ} (hA : Solvable A)
include hA

theorem Solvable.spd : SpdOn (Live A) (cooMat A *ᵥ ·) where
  symm v _ w _ := by
    have h : (cooMat A)ᵀ = cooMat A := by ext i j; exact hA.symm j i
    show v ⬝ᵥ cooMat A *ᵥ w = w ⬝ᵥ cooMat A *ᵥ v
    rw [Matrix.dotProduct_mulVec, ← Matrix.mulVec_transpose, h, dotProduct_comm]
  pos v hv h0 := hA.pos v hv h0

theorem Solvable.diag (j : Fin n) (hj : ¬ ZeroCol (cooMat A) j) : 0 < cooMat A j j := by
  have h := hA.pos (Pi.single j 1) (fun k hk => Pi.single_eq_of_ne (by rintro rfl; exact hj hk) _)
    (fun e => by have := congrFun e j; simp at this)
  simpa using h

/-- numbers are sparse, active, or of a column of zeros -/
theorem Solvable.kinds (j : Fin n) : (SparseCol A j ∧ ¬ ZeroCol (cooMat A) j) ∨
    (¬ SparseCol A j ∧ ActiveCol A j ∧ ¬ ZeroCol (cooMat A) j) ∨ (¬ SparseCol A j ∧ ¬ ActiveCol A j ∧ ZeroCol (cooMat A) j) := by
  by_cases hz : ZeroCol (cooMat A) j
  · have hs : ¬ SparseCol A j := fun h => by have := h.1; rw [hA.unstored j hz] at this; omega
    exact .inr (.inr ⟨hs, fun ⟨_, i, _, hi⟩ => hi (hz i), hz⟩)
  · by_cases hs : SparseCol A j
    · exact .inl ⟨hs, hz⟩
    · exact .inr (.inl ⟨hs, ⟨hs, j, hs, (hA.diag j hz).ne'⟩, hz⟩)

open Classical in
/-- solving the blocks: the right hand side is made of the two parts -/
theorem Solvable.precon_dot {v x : Fin n → ℝ} (h : IsPrecon A v x) {y : Fin n → ℝ} (hy : y ∈ Live A) :
    y ⬝ᵥ v = (fun i => if SparseCol A i then y i else 0) ⬝ᵥ cooMat A *ᵥ (fun j => if SparseCol A j then x j else 0) +
      (fun i => if SparseCol A i then 0 else y i) ⬝ᵥ cooMat A *ᵥ (fun j => if SparseCol A j then 0 else x j) := by
  simp only [dotProduct, ← Finset.sum_add_distrib]
  refine Finset.sum_congr rfl fun i _ => ?_
  rcases hA.kinds i with ⟨hs, -⟩ | ⟨hs, ha, -⟩ | ⟨hs, -, hz⟩
  · simp only [if_pos hs, zero_mul, add_zero, mulVec, dotProduct, mul_ite, mul_zero]
    rw [← h.sparse i hs]
  · simp only [if_neg hs, zero_mul, zero_add, mulVec, dotProduct]
    rw [← h.active i ha]
    congr 1
    refine Finset.sum_congr rfl fun j _ => ?_
    rcases hA.kinds j with ⟨hs', -⟩ | ⟨hs', ha', -⟩ | ⟨hs', ha', hz'⟩
    · rw [if_neg fun e : ActiveCol A j => e.1 hs', if_pos hs', mul_zero]
    · rw [if_pos ha', if_neg hs']
    · rw [if_neg ha', hz' i, zero_mul]
  · have := hy i hz
    simp [hs, this]

theorem Solvable.precon_live {v x : Fin n → ℝ} (h : IsPrecon A v x) : x ∈ Live A := by
  intro j hz
  rcases hA.kinds j with ⟨-, h'⟩ | ⟨-, -, h'⟩ | ⟨h1, h2, -⟩
  · exact absurd hz h'
  · exact absurd hz h'
  · exact h.rest j h1 h2

open Classical in
theorem Solvable.precon_pos {v x : Fin n → ℝ} (h : IsPrecon A v x) (hx : x ≠ 0) : 0 < x ⬝ᵥ v := by
  have hl := hA.precon_live h
  rw [hA.precon_dot h hl]
  have l1 : (fun i => if SparseCol A i then x i else 0) ∈ Live A := fun j hj => by simp [hl j hj]
  have l2 : (fun i => if SparseCol A i then 0 else x i) ∈ Live A := fun j hj => by simp [hl j hj]
  have nn : ∀ w ∈ Live A, 0 ≤ w ⬝ᵥ cooMat A *ᵥ w := by
    intro w hw
    by_cases e : w = 0
    · simp [e]
    · exact (hA.pos w hw e).le
  obtain ⟨i, hi⟩ := Function.ne_iff.1 hx
  by_cases hs : SparseCol A i
  · exact add_pos_of_pos_of_nonneg (hA.pos _ l1 fun e => hi (by simpa [hs] using congrFun e i)) (nn _ l2)
  · exact add_pos_of_nonneg_of_pos (nn _ l1) (hA.pos _ l2 fun e => hi (by simpa [hs] using congrFun e i))

open Classical in
theorem Solvable.precon_symm {v x w y : Fin n → ℝ} (h : IsPrecon A v x) (h' : IsPrecon A w y) : y ⬝ᵥ v = x ⬝ᵥ w := by
  have lx := hA.precon_live h
  have ly := hA.precon_live h'
  rw [hA.precon_dot h ly, hA.precon_dot h' lx]
  congr 1
  · exact hA.spd.symm _ (fun j hj => by simp [ly j hj]) _ (fun j hj => by simp [lx j hj])
  · exact hA.spd.symm _ (fun j hj => by simp [ly j hj]) _ (fun j hj => by simp [lx j hj])

/-- no solution of the blocks is zero unless the right hand side is -/
theorem Solvable.precon_ne {v x : Fin n → ℝ} (h : IsPrecon A v x) (hv : v ∈ Live A) (h0 : v ≠ 0) : x ≠ 0 := by
  rintro rfl
  apply h0
  funext i
  rcases hA.kinds i with ⟨hs, -⟩ | ⟨hs, ha, -⟩ | ⟨hs, -, hz⟩
  · rw [← h.sparse i hs]; simp
  · rw [← h.active i ha]; simp
  · exact hv i hz

end

section
variable {inv : (k : ℕ) → Mat k k ℝ → PyM (Mat k k ℝ)} {fact : (k : ℕ) → Mat k k ℝ → PyM ((Fin k → ℝ) → Fin k → ℝ)}

/-- C94.  For these matrices the preconditioner exists, and it is symmetric and positive definite on the vectors that
vanish at the columns of zeros, as the conjugate gradient method requires. -/
theorem C94_preconditioner (hi : InvSpecAny inv) (hf : FactSpec fact) (A : Coo n n ℝ) (hA : Solvable A) :
    ∃ P, cgPrecon inv fact A = .ok P ∧ (∀ v, P v ∈ Live A) ∧ SpdOn (Live A) P := by
  obtain ⟨P, hP⟩ := (C73_exists hi hf A).2 fun x hx => by
    by_contra h0
    have := hA.precon_pos hx h0
    simp at this
  have hs := fun v => (C73_solves hi hf A P hP v (P v)).1 rfl
  refine ⟨P, hP, fun v => hA.precon_live (hs v), ?_, ?_⟩
  · intro v hv w hw
    rw [dotProduct_comm v, dotProduct_comm w, hA.precon_symm (hs v) (hs w)]
  · intro v hv h0
    rw [dotProduct_comm]
    exact hA.precon_pos (hs v) (hA.precon_ne (hs v) hv h0)

/-! ### The loop -/

/-- approximation, residual and direction of the preconditioned method -/
noncomputable def pcgSeq (M : Matrix (Fin n) (Fin n) ℝ) (P : (Fin n → ℝ) → Fin n → ℝ) (b : Fin n → ℝ) :
    ℕ → (Fin n → ℝ) × (Fin n → ℝ) × (Fin n → ℝ)
  | 0 => (0, b, P b)
  | k + 1 =>
    let t := pcgSeq M P b k
    let a := (t.2.1 ⬝ᵥ P t.2.1) / (t.2.2 ⬝ᵥ M *ᵥ t.2.2)
    let r := t.2.1 - a • M *ᵥ t.2.2
    (t.1 + a • t.2.2, r, ((r ⬝ᵥ P r) / (t.2.1 ⬝ᵥ P t.2.1)) • t.2.2 + P r)

theorem pcgSeq_resid (M : Matrix (Fin n) (Fin n) ℝ) (P : (Fin n → ℝ) → Fin n → ℝ) (b : Fin n → ℝ) (k : ℕ) :
    (pcgSeq M P b k).2.1 = b - M *ᵥ (pcgSeq M P b k).1 := by
  induction k with
  | zero => simp [pcgSeq]
  | succ k ih =>
    have e : ∀ c : ℝ, b - M *ᵥ ((pcgSeq M P b k).1 + c • (pcgSeq M P b k).2.2) =
        (pcgSeq M P b k).2.1 - c • M *ᵥ (pcgSeq M P b k).2.2 := by
      intro c; rw [mulVec_add, mulVec_smul, ← sub_sub, ← ih]
    exact (e _).symm

noncomputable def pcgPrev (M : Matrix (Fin n) (Fin n) ℝ) (P : (Fin n → ℝ) → Fin n → ℝ) (b : Fin n → ℝ) :
    ℕ → Option (ℝ × (Fin n → ℝ))
  | 0 => none
  | k + 1 => some ((pcgSeq M P b k).2.1 ⬝ᵥ P (pcgSeq M P b k).2.1, (pcgSeq M P b k).2.2)

theorem pcg_loop_seq (M : Matrix (Fin n) (Fin n) ℝ) (P : (Fin n → ℝ) → Fin n → ℝ) (b : Fin n → ℝ) (small : ℝ → Bool)
    (fuel k : ℕ) :
    ∃ m, k ≤ m ∧ m ≤ k + fuel ∧ (∀ j, k ≤ j → j < m → small (residual M b (pcgSeq M P b j).1) = false) ∧
      ((m < k + fuel ∧ small (residual M b (pcgSeq M P b m).1) = true ∧
        pcgLoop (M *ᵥ ·) P small fuel (pcgSeq M P b k).1 (pcgSeq M P b k).2.1 (pcgPrev M P b k) = ((pcgSeq M P b m).1, true)) ∨
       (m = k + fuel ∧
        pcgLoop (M *ᵥ ·) P small fuel (pcgSeq M P b k).1 (pcgSeq M P b k).2.1 (pcgPrev M P b k) = ((pcgSeq M P b m).1, false))) := by
  induction fuel generalizing k with
  | zero => exact ⟨k, le_rfl, le_rfl, fun j h1 h2 => absurd h2 (by omega), .inr ⟨rfl, rfl⟩⟩
  | succ fuel ih =>
    have hn : Num.sqrt (dotFn (pcgSeq M P b k).2.1 (pcgSeq M P b k).2.1) = residual M b (pcgSeq M P b k).1 := by
      rw [dotFn_real, pcgSeq_resid, residual]
      show Real.sqrt _ = _
      congr 1
      simp [dotProduct, pow_two]
    cases hsm : small (residual M b (pcgSeq M P b k).1) with
    | true =>
      refine ⟨k, le_rfl, by omega, fun j h1 h2 => absurd h2 (by omega), .inl ⟨by omega, hsm, ?_⟩⟩
      rw [pcgLoop, hn, hsm, if_pos rfl]
    | false =>
      obtain ⟨m, h1, h2, h3, h4⟩ := ih (k + 1)
      have hp : nextDirection ((pcgSeq M P b k).2.1 ⬝ᵥ P (pcgSeq M P b k).2.1) (P (pcgSeq M P b k).2.1) (pcgPrev M P b k)
          = (pcgSeq M P b k).2.2 := by
        cases k with
        | zero => rfl
        | succ k => funext j; simp [pcgPrev, nextDirection, pcgSeq]
      have hl : pcgLoop (M *ᵥ ·) P small (fuel + 1) (pcgSeq M P b k).1 (pcgSeq M P b k).2.1 (pcgPrev M P b k) =
          pcgLoop (M *ᵥ ·) P small fuel (pcgSeq M P b (k + 1)).1 (pcgSeq M P b (k + 1)).2.1 (pcgPrev M P b (k + 1)) := by
        rw [pcgLoop, hn, hsm, if_neg (by simp)]
        simp only [dotFn_real, hp]
        rfl
      rw [hl]
      refine ⟨m, by omega, by omega, ?_, ?_⟩
      · intro j hj hj'
        rcases Nat.lt_or_eq_of_le hj with h | rfl
        · exact h3 j h hj'
        · exact hsm
      · rcases h4 with ⟨ha, hb, hc⟩ | ⟨ha, hb⟩
        · exact .inl ⟨by omega, hb, hc⟩
        · exact .inr ⟨by omega, hb⟩

theorem dense_mulVec (A : Coo n n ℝ) : A.dense.mulVec = (cooMat A *ᵥ ·) := by
  funext v
  rw [Mat.mulVec_real, dense_real]

/-- the residuals and directions stay where the preconditioner is positive -/
theorem pcg_live {A : Coo n n ℝ} (hA : Solvable A) {P : (Fin n → ℝ) → Fin n → ℝ} (hP : ∀ v, P v ∈ Live A) {b : Fin n → ℝ}
    (hb : b ∈ Live A) (k : ℕ) : (pcgSeq (cooMat A) P b k).1 ∈ Live A ∧ (pcgSeq (cooMat A) P b k).2.1 ∈ Live A ∧
      (pcgSeq (cooMat A) P b k).2.2 ∈ Live A := by
  have hM : ∀ v : Fin n → ℝ, cooMat A *ᵥ v ∈ Live A := by
    intro v j hj
    rw [Matrix.mulVec, dotProduct]
    exact Finset.sum_eq_zero fun i _ => by rw [hA.symm, hj i, zero_mul]
  have hl : ∀ (c d : ℝ) (v w : Fin n → ℝ), v ∈ Live A → w ∈ Live A → c • v + d • w ∈ Live A := by
    intro c d v w hv hw j hj
    simp [hv j hj, hw j hj]
  induction k with
  | zero => exact ⟨fun _ _ => rfl, hb, hP b⟩
  | succ k ih =>
    obtain ⟨h1, h2, h3⟩ := ih
    refine ⟨?_, ?_, ?_⟩
    · have := hl 1 (((pcgSeq (cooMat A) P b k).2.1 ⬝ᵥ P (pcgSeq (cooMat A) P b k).2.1) /
        ((pcgSeq (cooMat A) P b k).2.2 ⬝ᵥ cooMat A *ᵥ (pcgSeq (cooMat A) P b k).2.2)) _ _ h1 h3
      rwa [one_smul] at this
    · have := hl 1 (-(((pcgSeq (cooMat A) P b k).2.1 ⬝ᵥ P (pcgSeq (cooMat A) P b k).2.1) /
        ((pcgSeq (cooMat A) P b k).2.2 ⬝ᵥ cooMat A *ᵥ (pcgSeq (cooMat A) P b k).2.2))) _ _ h2 (hM (pcgSeq (cooMat A) P b k).2.2)
      rwa [one_smul, neg_smul, ← sub_eq_add_neg] at this
    · have := hl (((pcgSeq (cooMat A) P b (k + 1)).2.1 ⬝ᵥ P (pcgSeq (cooMat A) P b (k + 1)).2.1) /
        ((pcgSeq (cooMat A) P b k).2.1 ⬝ᵥ P (pcgSeq (cooMat A) P b k).2.1)) 1 _ _ h3 (hP (pcgSeq (cooMat A) P b (k + 1)).2.1)
      rwa [one_smul] at this

/-- the length of a vector -/
noncomputable def norm2 (v : Fin n → ℝ) : ℝ := Real.sqrt (∑ i, v i ^ 2)

/-- C94.  For these matrices and right hand sides that vanish at the columns of zeros, the solver returns a vector whose
residual passes the test, whatever the test is, as long as it accepts the residual zero: `cg` always gets there, so that nothing is
lost by throwing its flag away.  The result vanishes at the columns of zeros. -/
theorem C94_solves (hi : InvSpecAny inv) (hf : FactSpec fact) (A : Coo n n ℝ) (hA : Solvable A) (b : Fin n → ℝ)
    (hb : ∀ j, ZeroCol (cooMat A) j → b j = 0) (small : ℝ → ℝ → Bool) (hs : ∀ s, 0 < s → small s 0 = true) :
    ∃ y P, cgPrecon inv fact A = .ok P ∧ blockSparseCgSolve inv fact small A b = .ok y ∧
      pcg A.dense.mulVec P small b = (y, true) ∧
      (b = 0 ∧ y = 0 ∨ b ≠ 0 ∧ small (norm2 b) (residual (cooMat A) b y) = true) ∧
      ∀ j, ZeroCol (cooMat A) j → y j = 0 := by
  obtain ⟨P, hP, hPl, hPs⟩ := C94_preconditioner hi hf A hA
  suffices ∃ y, pcg A.dense.mulVec P small b = (y, true) ∧
      (b = 0 ∧ y = 0 ∨ b ≠ 0 ∧ small (norm2 b) (residual (cooMat A) b y) = true) ∧ y ∈ Live A by
    obtain ⟨y, h1, h2, h3⟩ := this
    exact ⟨y, P, hP, by simp [blockSparseCgSolve, hP, h1], h1, h2, h3⟩
  have hnb : Num.sqrt (dotFn b b) = norm2 b := by
    rw [dotFn_real]
    show Real.sqrt _ = Real.sqrt _
    simp [dotProduct, pow_two]
  have hn0 : norm2 b = 0 ↔ b = 0 := by
    rw [norm2, Real.sqrt_eq_zero (Finset.sum_nonneg fun i _ => sq_nonneg _), Finset.sum_eq_zero_iff_of_nonneg fun i _ => sq_nonneg _]
    simp [funext_iff]
  by_cases h0 : b = 0
  · refine ⟨b, ?_, .inl ⟨h0, h0⟩, hb⟩
    simp [pcg, hnb, hn0.2 h0]
  · have hpcg : pcg A.dense.mulVec P small b = pcgLoop (cooMat A *ᵥ ·) P (small (norm2 b)) (10 * n)
        (pcgSeq (cooMat A) P b 0).1 (pcgSeq (cooMat A) P b 0).2.1 (pcgPrev (cooMat A) P b 0) := by
      simp only [pcg, hnb, dense_mulVec]
      rw [if_neg (by simpa using fun e => h0 (hn0.1 e))]
      simp only [pcgSeq, pcgPrev]
      congr 1
      funext j
      simp
    have hnp : 0 < norm2 b := lt_of_le_of_ne (Real.sqrt_nonneg _) fun e => h0 (hn0.1 e.symm)
    obtain ⟨m, -, h2, h3, h4⟩ := pcg_loop_seq (cooMat A) P b (small (norm2 b)) (10 * n) 0
    have hnz : ∀ j < m, (pcgSeq (cooMat A) P b j).2.1 ≠ 0 := by
      intro j hj e
      have := h3 j (Nat.zero_le _) hj
      have hz : residual (cooMat A) b (pcgSeq (cooMat A) P b j).1 = 0 := by
        rw [pcgSeq_resid] at e
        have : ∀ i, b i - (cooMat A *ᵥ (pcgSeq (cooMat A) P b j).1) i = 0 := fun i => congrFun e i
        simp [residual, this]
      rw [hz, hs _ hnp] at this
      cases this
    have hlen : ∀ K < m, K < n := by
      intro K hK
      refine PRun.short (A := cooMat A) (P := P) (W := Live A) (r := fun k => (pcgSeq (cooMat A) P b k).2.1)
        (p := fun k => (pcgSeq (cooMat A) P b k).2.2) hA.spd hPs ⟨rfl, fun k _ => rfl, fun k _ => rfl, ?_, ?_, ?_⟩
      · exact fun k hk => hnz k (by omega)
      · exact fun k _ => (pcg_live hA hPl hb k).2.1
      · exact fun k _ => (pcg_live hA hPl hb k).2.2
    rw [hpcg]
    have hn : 0 < n := by
      rcases Nat.eq_zero_or_pos n with rfl | h
      · exact absurd (Subsingleton.elim _ _) h0
      · exact h
    rcases h4 with ⟨-, ha, hc⟩ | ⟨ha, -⟩
    · exact ⟨_, hc, .inr ⟨h0, ha⟩, (pcg_live hA hPl hb m).1⟩
    · exfalso
      have := hlen (m - 1) (by omega)
      omega

/-- C94.  With the test of scipy, relative tolerance 10⁻⁵: the residual is below a hundred thousandth of the right hand side. -/
theorem C94_tolerance (hi : InvSpecAny inv) (hf : FactSpec fact) (A : Coo n n ℝ) (hA : Solvable A) (b : Fin n → ℝ)
    (hb : ∀ j, ZeroCol (cooMat A) j → b j = 0) :
    ∃ y, blockSparseCgSolve inv fact (fun s t => open Classical in decide (t < 1 / 100000 * s)) A b = .ok y ∧
      (b ≠ 0 → residual (cooMat A) b y < norm2 b / 100000) ∧ (b = 0 → y = 0) := by
  obtain ⟨y, -, -, h, -, h2, -⟩ := C94_solves hi hf A hA b hb (fun s t => open Classical in decide (t < 1 / 100000 * s))
    (fun s hs => by simpa using hs)
  refine ⟨y, h, fun h0 => ?_, fun h0 => ?_⟩
  · rcases h2 with h2 | h2
    · exact absurd h2.1 h0
    · have := of_decide_eq_true h2.2; linarith
  · rcases h2 with h2 | h2
    · exact h2.2
    · exact absurd h0 h2.1

/-- C94.  The matrices `Jᵀ J` of least squares problems are of this sort, if the columns of `J` that are not zero are linearly
independent and nothing is stored for the others. -/
theorem C94_least_squares {m : ℕ} (J : Matrix (Fin m) (Fin n) ℝ) (A : Coo n n ℝ) (hJ : cooMat A = Jᵀ * J)
    (hl : ∀ v : Fin n → ℝ, (∀ j, (∀ i, J i j = 0) → v j = 0) → J *ᵥ v = 0 → v = 0)
    (hst : ∀ j, (∀ i, J i j = 0) → stored A j = 0) : Solvable A := by
  have hz : ∀ j, ZeroCol (cooMat A) j ↔ ∀ i, J i j = 0 := by
    intro j
    rw [hJ]
    constructor
    · intro h i
      have := h j
      rw [Matrix.mul_apply] at this
      have := (Finset.sum_eq_zero_iff_of_nonneg (fun i _ => mul_self_nonneg (J i j))).1 this i (Finset.mem_univ _)
      exact mul_self_eq_zero.1 this
    · intro h i
      rw [Matrix.mul_apply]
      exact Finset.sum_eq_zero fun k _ => by rw [h k, mul_zero]
  refine ⟨?_, ?_, fun j hj => hst j ((hz j).1 hj)⟩
  · intro i j
    rw [hJ, Matrix.mul_apply, Matrix.mul_apply]
    exact Finset.sum_congr rfl fun k _ => mul_comm _ _
  · intro v hv h0
    rw [hJ, ← Matrix.mulVec_mulVec, Matrix.dotProduct_mulVec, Matrix.vecMul_transpose]
    exact self_pos fun e => h0 (hl v (fun j hj => hv j ((hz j).2 hj)) e)

/-- C94.  A column of zeros for which up to 999 zeros are stored counts as sparse, and the solver raises. -/
theorem C94_stored_zeros (hi : InvSpecAny inv) (hf : FactSpec fact) (A : Coo n n ℝ) (j : Fin n) (hz : ZeroCol (cooMat A) j)
    (hs : SparseCol A j) (small : ℝ → ℝ → Bool) (b : Fin n → ℝ) : ∃ e, blockSparseCgSolve inv fact small A b = .error e := by
  cases h : cgPrecon inv fact A with
  | error e => exact ⟨e, by simp [blockSparseCgSolve, h]⟩
  | ok P =>
    exfalso
    have hx := (C73_exists hi hf A).1 ⟨P, h⟩ (Pi.single j 1) ⟨?_, ?_, ?_⟩
    · have := congrFun hx j
      simp at this
    · intro i _
      refine Finset.sum_eq_zero fun k _ => ?_
      split_ifs
      · by_cases e : k = j
        · subst e; rw [hz i, zero_mul]
        · rw [Pi.single_eq_of_ne e, mul_zero]
      · rfl
    · intro i _
      refine Finset.sum_eq_zero fun k _ => ?_
      split_ifs
      · by_cases e : k = j
        · subst e; rw [hz i, zero_mul]
        · rw [Pi.single_eq_of_ne e, mul_zero]
      · rfl
    · intro i h1 _
      exact Pi.single_eq_of_ne (by rintro rfl; exact h1 hs) _

/-- C94.  If there are no active columns, as when all columns have at most 999 entries, `inv` is called with an empty matrix.  Where
that is refused, the solver raises. -/
theorem C94_no_active {e : PyErr} (hi : ∀ k a, k = 0 → inv k a = .error e) (A : Coo n n ℝ) (ha : ∀ j, ¬ ActiveCol A j)
    (small : ℝ → ℝ → Bool) (b : Fin n → ℝ) : blockSparseCgSolve inv fact small A b = .error e := by
  have h0 : (nzIdx A).length = 0 := by
    by_contra h
    exact ha _ ((aIdx_mem A _).1 ⟨⟨0, Nat.pos_of_ne_zero h⟩, rfl⟩)
  rw [blockSparseCgSolve, cgPrecon_eq, hi _ _ h0]
  rfl

/-- Non-vacuity of C94: a matrix of three rows with a column of zeros. -/
example : Solvable ([(0, 0, 2), (0, 2, 1), (2, 0, 1), (2, 2, 2)] : Coo 3 3 ℝ) := by
  have hM : cooMat ([(0, 0, 2), (0, 2, 1), (2, 0, 1), (2, 2, 2)] : Coo 3 3 ℝ) = !![2, 0, 1; 0, 0, 0; 1, 0, 2] := by
    ext i j
    fin_cases i <;> fin_cases j <;> simp [cooMat_cons, cooMat_nil, Matrix.single_apply]
  refine ⟨?_, ?_, ?_⟩
  · intro i j
    rw [hM]
    fin_cases i <;> fin_cases j <;> rfl
  · intro v hv h0
    rw [hM] at hv ⊢
    have h1 : v 1 = 0 := hv 1 fun i => by fin_cases i <;> rfl
    have : v 0 ≠ 0 ∨ v 2 ≠ 0 := by
      by_contra h
      push Not at h
      exact h0 (by ext i; fin_cases i <;> simp [h, h1])
    simp [Matrix.mulVec, dotProduct, Fin.sum_univ_three, h1]
    rcases this with h | h <;> have := mul_self_pos.2 h <;> nlinarith [sq_nonneg (v 0 + v 2)]
  · intro j hj
    rw [hM] at hj
    fin_cases j
    · exact absurd (hj 0) (by simp)
    · simp [stored]
    · exact absurd (hj 0) (by simp)

end

end Blmath.Props
