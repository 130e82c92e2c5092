import Verif.Model.ConjGrad
import Verif.Proofs.ConjGrad
import Verif.Base.Fl

/-!
C93: the conjugate gradient solver of `StaticBlockSparseMatrix`.
-/

namespace Blmath.Props
open Blmath.Linalg Blmath.Cg Matrix
variable {n : ℕ}

/-- C93.  `conjGradSolve` never returns: without a start, or if the start is the single number zero, `np.zeros(b)` raises
TypeError; a start with two or more entries has no truth value; and the `matvec` of the class raises.  `linOp` raises as well. -/
theorem C93_never_returns {α : Type} [Num α] (B : BlockSparse n n α) (b : Fin n → α) (tol : α) (maxiter : Option ℤ) (hn : 0 < n) :
    B.conjGradSolve b none tol maxiter = .error .TypeError ∧
    (∀ x0 : Fin n → α, 2 ≤ n ∨ Num.eq (x0 ⟨0, hn⟩) (Num.lit 0) = false → B.conjGradSolve b (some x0) tol maxiter = .error .ValueError) ∧
    (∀ x0 : Fin n → α, n = 1 → Num.eq (x0 ⟨0, hn⟩) (Num.lit 0) = true → B.conjGradSolve b (some x0) tol maxiter = .error .TypeError) ∧
    B.linOp = .error .TypeError := by
  refine ⟨?_, ?_, ?_, rfl⟩
  · simp [BlockSparse.conjGradSolve, conjGradSolveWith, zerosOfFloats]
  · intro x0 h
    match n, hn, B, b, x0, h with
    | 1, hn, B, b, x0, h =>
      have h0 : Num.eq (x0 0) (Num.lit 0) = false := h.resolve_left (by omega)
      simp [BlockSparse.conjGradSolve, conjGradSolveWith, arrayTruth, h0, conjGradFrom, BlockSparse.matvec]
    | n + 2, hn, B, b, x0, h => simp [BlockSparse.conjGradSolve, conjGradSolveWith, arrayTruth]
  · intro x0 h1 h
    subst h1
    have h0 : Num.eq (x0 0) (Num.lit 0) = true := h
    simp [BlockSparse.conjGradSolve, conjGradSolveWith, arrayTruth, h0, zerosOfFloats]

/-! ### The algorithm itself, with a product that works -/

/-- the length of the residual `b - A x` -/
noncomputable def residual (A : Matrix (Fin n) (Fin n) ℝ) (b x : Fin n → ℝ) : ℝ := Real.sqrt (∑ i, (b i - (A *ᵥ x) i) ^ 2)

/-- the error of `x` in the energy norm, squared: `(z - x)ᵀ A (z - x)` where `A z = b` -/
def energy (A : Matrix (Fin n) (Fin n) ℝ) (z x : Fin n → ℝ) : ℝ := (z - x) ⬝ᵥ A *ᵥ (z - x)

/-- a product with `A` that raises nothing -/
def product (A : Matrix (Fin n) (Fin n) ℝ) (v : Fin n → ℝ) : PyM (Fin n → ℝ) := .ok (A *ᵥ v)

theorem dotFn_real (a b : Fin n → ℝ) : dotFn a b = a ⬝ᵥ b := by simp [dotFn, dotProduct, sumFin_eq_sum]

/-- one step: approximation, residual, direction -/
noncomputable def cgStep (A : Matrix (Fin n) (Fin n) ℝ) (b : Fin n → ℝ) (t : (Fin n → ℝ) × (Fin n → ℝ) × (Fin n → ℝ)) :
    (Fin n → ℝ) × (Fin n → ℝ) × (Fin n → ℝ) :=
  let s := t.2.2
  let u := A *ᵥ s
  let x := t.1 + ((s ⬝ᵥ t.2.1) / (s ⬝ᵥ u)) • s
  let r := b - A *ᵥ x
  (x, r, r + (-(r ⬝ᵥ u) / (s ⬝ᵥ u)) • s)

noncomputable def cgSeq (A : Matrix (Fin n) (Fin n) ℝ) (b x : Fin n → ℝ) : ℕ → (Fin n → ℝ) × (Fin n → ℝ) × (Fin n → ℝ)
  | 0 => (x, b - A *ᵥ x, b - A *ᵥ x)
  | k + 1 => cgStep A b (cgSeq A b x k)

def lastOf : ℕ → Option ℕ
  | 0 => none
  | k + 1 => some k

theorem cgSeq_resid (A : Matrix (Fin n) (Fin n) ℝ) (b x : Fin n → ℝ) (k : ℕ) :
    (cgSeq A b x k).2.1 = b - A *ᵥ (cgSeq A b x k).1 := by
  cases k <;> rfl

theorem sqrt_dot (A : Matrix (Fin n) (Fin n) ℝ) (b x : Fin n → ℝ) (k : ℕ) :
    Num.sqrt (dotFn (cgSeq A b x k).2.1 (cgSeq A b x k).2.1) = residual A b (cgSeq A b x k).1 := by
  rw [dotFn_real, cgSeq_resid, residual]
  show Real.sqrt _ = _
  congr 1
  simp [dotProduct, pow_two]

theorem loop_seq (A : Matrix (Fin n) (Fin n) ℝ) (b x : Fin n → ℝ) (tol : ℝ) (fuel k : ℕ) :
    ∃ m, k ≤ m ∧ m ≤ k + fuel ∧
      conjGradLoop (product A) b tol fuel (lastOf k) (cgSeq A b x k).1 (cgSeq A b x k).2.1 (cgSeq A b x k).2.2
        = .ok ((cgSeq A b x m).1, lastOf m) ∧
      (∀ j, k < j → j < m → tol ≤ residual A b (cgSeq A b x j).1) ∧
      ((k < m ∧ residual A b (cgSeq A b x m).1 < tol) ∨
        (m = k + fuel ∧ (k < m → tol ≤ residual A b (cgSeq A b x m).1))) := by
  induction fuel generalizing k with
  | zero =>
    exact ⟨k, le_rfl, le_rfl, rfl, fun j h1 h2 => absurd h2 (by omega), .inr ⟨rfl, fun h => absurd h (lt_irrefl _)⟩⟩
  | succ fuel ih =>
    have hi : nextIndex (lastOf k) = k := by cases k <;> rfl
    have hx : (fun j => (cgSeq A b x k).1 j + dotFn (cgSeq A b x k).2.2 (cgSeq A b x k).2.1 /
        dotFn (cgSeq A b x k).2.2 (A *ᵥ (cgSeq A b x k).2.2) * (cgSeq A b x k).2.2 j) = (cgSeq A b x (k + 1)).1 := by
      funext j; simp [cgSeq, cgStep, dotFn_real]
    have hr : (fun j => b j - (A *ᵥ (cgSeq A b x (k + 1)).1) j) = (cgSeq A b x (k + 1)).2.1 := by
      rw [cgSeq_resid]; rfl
    have hs : (fun j => b j - (A *ᵥ (cgSeq A b x (k + 1)).1) j + -dotFn (cgSeq A b x (k + 1)).2.1 (A *ᵥ (cgSeq A b x k).2.2) /
        dotFn (cgSeq A b x k).2.2 (A *ᵥ (cgSeq A b x k).2.2) * (cgSeq A b x k).2.2 j) = (cgSeq A b x (k + 1)).2.2 := by
      funext j
      rw [show b j - (A *ᵥ (cgSeq A b x (k + 1)).1) j = (cgSeq A b x (k + 1)).2.1 j from congrFun hr j]
      simp [cgSeq, cgStep, dotFn_real]
    rw [conjGradLoop]
    simp only [hi, product, ok_bind, pure_eq_ok]
    rw [hx, hr, hs]
    rw [sqrt_dot]
    by_cases hlt : residual A b (cgSeq A b x (k + 1)).1 < tol
    · refine ⟨k + 1, by omega, by omega, ?_, fun j h1 h2 => absurd h2 (by omega), .inl ⟨by omega, hlt⟩⟩
      rw [if_pos (by simpa using hlt)]
      rfl
    · obtain ⟨m, h1, h2, h3, h4, h5⟩ := ih (k + 1)
      refine ⟨m, by omega, by omega, ?_, ?_, ?_⟩
      · rw [if_neg (by simpa using hlt)]
        exact h3
      · intro j hj hj'
        rcases Nat.lt_or_eq_of_le (show k + 1 ≤ j from hj) with h | rfl
        · exact h4 j h hj'
        · exact not_lt.1 hlt
      · rcases h5 with ⟨h, h'⟩ | ⟨h, h'⟩
        · exact .inl ⟨by omega, h'⟩
        · refine .inr ⟨by omega, fun _ => ?_⟩
          rcases Nat.lt_or_eq_of_le h1 with e | e
          · exact h' e
          · rw [← e]; exact not_lt.1 hlt

theorem run_of_nonzero (A : Matrix (Fin n) (Fin n) ℝ) (b x : Fin n → ℝ) (K : ℕ) (h : ∀ k ≤ K, (cgSeq A b x k).2.1 ≠ 0) :
    Run A (fun k => (cgSeq A b x k).2.1) (fun k => (cgSeq A b x k).2.2)
      (fun k => ((cgSeq A b x k).2.2 ⬝ᵥ (cgSeq A b x k).2.1) / ((cgSeq A b x k).2.2 ⬝ᵥ A *ᵥ (cgSeq A b x k).2.2))
      (fun k => -((cgSeq A b x (k + 1)).2.1 ⬝ᵥ A *ᵥ (cgSeq A b x k).2.2) / ((cgSeq A b x k).2.2 ⬝ᵥ A *ᵥ (cgSeq A b x k).2.2)) K where
  start := rfl
  resid k _ := by
    simp only [cgSeq_resid A b x (k + 1)]
    rw [show (cgSeq A b x (k + 1)).1 = (cgSeq A b x k).1 + (((cgSeq A b x k).2.2 ⬝ᵥ (cgSeq A b x k).2.1) /
      ((cgSeq A b x k).2.2 ⬝ᵥ A *ᵥ (cgSeq A b x k).2.2)) • (cgSeq A b x k).2.2 from rfl]
    rw [mulVec_add, mulVec_smul, ← sub_sub, ← cgSeq_resid]
  direc k _ := rfl
  step k _ := rfl
  conj k _ := rfl
  nonz := h

theorem residual_ne {A : Matrix (Fin n) (Fin n) ℝ} {b x : Fin n → ℝ} {tol : ℝ} (ht : 0 < tol) {k : ℕ}
    (h : tol ≤ residual A b (cgSeq A b x k).1) : (cgSeq A b x k).2.1 ≠ 0 := by
  intro e
  rw [cgSeq_resid] at e
  have : residual A b (cgSeq A b x k).1 = 0 := by
    rw [residual]
    have : ∀ i, b i - (A *ᵥ (cgSeq A b x k).1) i = 0 := fun i => congrFun e i
    simp [this]
  linarith

/-- how `conjGradFrom` ends -/
theorem from_seq (A : Matrix (Fin n) (Fin n) ℝ) (b x : Fin n → ℝ) {tol : ℝ} (ht : 0 < tol) (maxiter : Option ℤ) (hx : A *ᵥ x ≠ b) :
    ∃ m ≤ conjGradTurns n maxiter, conjGradFrom (product A) b x tol maxiter = .ok ((cgSeq A b x m).1, lastOf m) ∧
      (∀ j < m, (cgSeq A b x j).2.1 ≠ 0) ∧
      ((0 < m ∧ residual A b (cgSeq A b x m).1 < tol) ∨ (m = conjGradTurns n maxiter ∧ (cgSeq A b x m).2.1 ≠ 0)) := by
  have h0 : (cgSeq A b x 0).2.1 ≠ 0 := fun e => hx (sub_eq_zero.1 (show b - A *ᵥ x = 0 from e)).symm
  obtain ⟨m, -, h2, h3, h4, h5⟩ := loop_seq A b x tol (conjGradTurns n maxiter) 0
  refine ⟨m, by omega, ?_, ?_, ?_⟩
  · rw [← h3]; rfl
  · intro j hj
    rcases Nat.eq_zero_or_pos j with rfl | h
    · exact h0
    · exact residual_ne ht (h4 j h hj)
  · rcases h5 with h | ⟨h, h'⟩
    · exact .inl h
    · refine .inr ⟨by omega, ?_⟩
      rcases Nat.eq_zero_or_pos m with rfl | hm
      · exact h0
      · exact residual_ne ht (h' hm)

/-- C93.  With a product that works, a symmetric positive definite matrix, a positive tolerance and a start that is not
already the solution, the method needs at most `n` steps to bring the residual below the tolerance, however small that is:
`maxiter` has to be absent, zero or at least `n`. -/
theorem C93_converges (A : Matrix (Fin n) (Fin n) ℝ) (hA : A.PosDef) (b x : Fin n → ℝ) {tol : ℝ} (ht : 0 < tol)
    (maxiter : Option ℤ) (hm : maxiter = none ∨ maxiter = some 0 ∨ ∃ k : ℤ, maxiter = some k ∧ (n : ℤ) ≤ k) (hx : A *ᵥ x ≠ b) :
    ∃ y i, conjGradFrom (product A) b x tol maxiter = .ok (y, some i) ∧ i < n ∧ residual A b y < tol := by
  have hturns : n ≤ conjGradTurns n maxiter := by
    rcases hm with rfl | rfl | ⟨k, rfl, hk⟩
    · exact le_rfl
    · simp [conjGradTurns]
    · simp only [conjGradTurns]; split_ifs <;> omega
  obtain ⟨m, h1, h2, h3, h4⟩ := from_seq A b x ht maxiter hx
  rcases h4 with ⟨hp, hr⟩ | ⟨hm, hr⟩
  · obtain ⟨i, rfl⟩ : ∃ i, m = i + 1 := ⟨m - 1, by omega⟩
    refine ⟨_, i, h2, ?_, hr⟩
    exact (run_of_nonzero A b x i fun k hk => h3 k (by omega)).short hA
  · have := (run_of_nonzero A b x m fun k hk => by
      rcases Nat.lt_or_eq_of_le hk with e | rfl
      · exact h3 k e
      · exact hr).short hA
    omega

theorem energy_step (A : Matrix (Fin n) (Fin n) ℝ) (hA : A.PosDef) (b x z : Fin n → ℝ) (hz : A *ᵥ z = b) (k : ℕ)
    (h : ∀ j ≤ k, (cgSeq A b x j).2.1 ≠ 0) :
    energy A z (cgSeq A b x (k + 1)).1 < energy A z (cgSeq A b x k).1 := by
  have hrun := run_of_nonzero A b x k h
  have hp := hrun.direction_pos hA k le_rfl
  have hrs := (hrun.relations hA k le_rfl).1
  have hr := self_pos (h k le_rfl)
  have hres : (cgSeq A b x k).2.1 = A *ᵥ (z - (cgSeq A b x k).1) := by rw [mulVec_sub, hz, cgSeq_resid]
  have hx : (cgSeq A b x (k + 1)).1 = (cgSeq A b x k).1 + (((cgSeq A b x k).2.2 ⬝ᵥ (cgSeq A b x k).2.1) /
      ((cgSeq A b x k).2.2 ⬝ᵥ A *ᵥ (cgSeq A b x k).2.2)) • (cgSeq A b x k).2.2 := rfl
  generalize (cgSeq A b x (k + 1)).1 = x' at *
  generalize (cgSeq A b x k).1 = x₀ at *
  generalize (cgSeq A b x k).2.1 = r at *
  generalize (cgSeq A b x k).2.2 = s at *
  subst hx
  have e : energy A z (x₀ + ((s ⬝ᵥ r) / (s ⬝ᵥ A *ᵥ s)) • s) = energy A z x₀ - (s ⬝ᵥ r) ^ 2 / (s ⬝ᵥ A *ᵥ s) := by
    rw [energy, ← sub_sub, mulVec_sub, mulVec_smul, ← hres, sub_dotProduct, dotProduct_sub, dotProduct_sub, smul_dotProduct,
      smul_dotProduct, dotProduct_smul, dotProduct_smul, symm_dot hA (z - x₀) s, ← hres, energy, ← hres]
    simp only [smul_eq_mul]
    field_simp
    ring
  rw [e]
  have : 0 < (s ⬝ᵥ r) ^ 2 / (s ⬝ᵥ A *ᵥ s) := by
    rw [dotProduct_comm s r, hrs]; positivity
  linarith

/-- C93.  Stopped after any number of steps the method has come closer to the solution `z`: the error in the energy norm
is smaller than at the start, if there was a step at all (with a negative `maxiter` there is none). -/
theorem C93_progress (A : Matrix (Fin n) (Fin n) ℝ) (hA : A.PosDef) (b x z : Fin n → ℝ) (hz : A *ᵥ z = b) {tol : ℝ} (ht : 0 < tol)
    (maxiter : Option ℤ) (hx : A *ᵥ x ≠ b) :
    ∃ y last, conjGradFrom (product A) b x tol maxiter = .ok (y, last) ∧
      ((∃ k < 0, maxiter = some k) ∧ y = x ∧ last = none ∨
        (∃ i, last = some i ∧ i < n ∧ ∀ k : ℤ, maxiter = some k → 0 < k → (i : ℤ) < k) ∧ energy A z y < energy A z x) := by
  obtain ⟨m, h1, h2, h3, h4⟩ := from_seq A b x ht maxiter hx
  refine ⟨_, _, h2, ?_⟩
  have hn : 0 < n := by
    rcases Nat.eq_zero_or_pos n with rfl | h
    · exact absurd (Subsingleton.elim _ _) hx
    · exact h
  rcases Nat.eq_zero_or_pos m with rfl | hm
  · left
    rcases h4 with ⟨h, -⟩ | ⟨h, -⟩
    · exact absurd h (lt_irrefl _)
    · refine ⟨?_, rfl, rfl⟩
      cases maxiter with
      | none => simp only [conjGradTurns] at h; omega
      | some k => simp only [conjGradTurns] at h; exact ⟨k, by split_ifs at h <;> omega, rfl⟩
  · right
    obtain ⟨i, rfl⟩ : ∃ i, m = i + 1 := ⟨m - 1, by omega⟩
    refine ⟨⟨i, rfl, (run_of_nonzero A b x i fun k hk => h3 k (by omega)).short hA, ?_⟩, ?_⟩
    · rintro k rfl hk
      simp only [conjGradTurns, hk.ne', if_false] at h1
      omega
    · have key : ∀ j ≤ i + 1, 0 < j → energy A z (cgSeq A b x j).1 < energy A z x := by
        intro j
        induction j with
        | zero => intro _ h; exact absurd h (lt_irrefl _)
        | succ j ih =>
          intro hj _
          have := energy_step A hA b x z hz j fun l hl => h3 l (by omega)
          rcases Nat.eq_zero_or_pos j with rfl | hp
          · exact this
          · exact this.trans (ih (by omega) hp)
      exact key (i + 1) le_rfl (by omega)

/-- Non-vacuity of C93: a system of two equations. -/
example : (!![2, 1; 1, 2] : Matrix (Fin 2) (Fin 2) ℝ).PosDef ∧
    (!![2, 1; 1, 2] : Matrix (Fin 2) (Fin 2) ℝ) *ᵥ ![0, 0] ≠ ![1, 0] := by
  constructor
  · refine Matrix.PosDef.of_dotProduct_mulVec_pos (by ext i j; fin_cases i <;> fin_cases j <;> simp) ?_
    intro v hv
    have : v 0 ≠ 0 ∨ v 1 ≠ 0 := by
      by_contra h
      push Not at h
      exact hv (by ext i; fin_cases i <;> simp [h])
    simp [Matrix.mulVec, dotProduct, Fin.sum_univ_two]
    rcases this with h | h <;> have := mul_self_pos.2 h <;> nlinarith [sq_nonneg (v 0 + v 1)]
  · intro h
    have := congrFun h 0
    simp at this

/-! ### The exact start -/

namespace FlNan
theorem add_left (a : Fl) : Fl.nan + a = Fl.nan := by show Fl.add _ _ = _; cases a <;> rfl
theorem add_right (a : Fl) : a + Fl.nan = Fl.nan := by show Fl.add _ _ = _; cases a <;> rfl
theorem sub_right (a : Fl) : a - Fl.nan = Fl.nan := by show Fl.add _ _ = _; cases a <;> rfl
theorem mul_left (a : Fl) : Fl.nan * a = Fl.nan := by show Fl.mul _ _ = _; cases a <;> rfl
theorem mul_right (a : Fl) : a * Fl.nan = Fl.nan := by show Fl.mul _ _ = _; cases a <;> rfl
theorem div_left (a : Fl) : Fl.nan / a = Fl.nan := by show Fl.div _ _ = _; cases a <;> rfl
theorem neg : -Fl.nan = Fl.nan := rfl
theorem sum {k : ℕ} (f : Fin k → Fl) (i : Fin k) (h : f i = .nan) : sumFin f = .nan := by
  induction k with
  | zero => exact i.elim0
  | succ k ih =>
    rw [sumFin]
    refine Fin.cases (motive := fun i => f i = .nan → _) (fun h => by rw [h, add_left]) (fun j h => ?_) i h
    rw [ih (fun i => f i.succ) j h, add_right]
end FlNan

theorem sumFin_zero {k : ℕ} (f : Fin k → Fl) (h : ∀ i, f i = .fin 0) : sumFin f = .fin 0 := by
  induction k with
  | zero => simp [sumFin]
  | succ k ih => rw [sumFin, h 0, ih _ fun i => h _, Fl.add_fin, add_zero]

theorem sumFin_finite {k : ℕ} (f : Fin k → Fl) (hf : ∀ i, (f i).IsFinite) : (sumFin f).IsFinite := by
  induction k with
  | zero => exact ⟨0, by simp [sumFin]⟩
  | succ k ih =>
    obtain ⟨a, ha⟩ := hf 0
    obtain ⟨c, hc⟩ := ih (fun i => f i.succ) fun i => hf _
    exact ⟨a + c, by simp only [sumFin, ha, hc, Fl.add_fin]⟩

/-- one turn of the loop from a direction whose step length is NaN, and then all others -/
theorem loop_nan (A : Mat n n Fl) (b : Fin n → Fl) (tol : Fl) (hn : 0 < n) (fuel : ℕ) (last : Option ℕ) (x r s : Fin n → Fl)
    (h : dotFn s r / dotFn s (Mat.mulVec A s) = .nan) :
    conjGradLoop (fun v => .ok (Mat.mulVec A v)) b tol (fuel + 1) last x r s = .ok (fun _ => .nan, some (nextIndex last + fuel)) := by
  induction fuel generalizing last x r s with
  | zero =>
    rw [conjGradLoop]
    simp only [ok_bind, h, FlNan.mul_left, FlNan.add_right]
    have hm : Mat.mulVec A (fun _ => Fl.nan) = fun _ => Fl.nan := by
      funext i; exact FlNan.sum _ ⟨0, hn⟩ (FlNan.mul_right _)
    rw [hm]
    simp only [FlNan.sub_right]
    have hd : ∀ v : Fin n → Fl, dotFn (fun _ => Fl.nan) v = Fl.nan := fun v => FlNan.sum _ ⟨0, hn⟩ (FlNan.mul_left _)
    rw [hd, show Num.lt (Num.sqrt Fl.nan) tol = false from by cases tol <;> rfl]
    rfl
  | succ fuel ih =>
    rw [conjGradLoop]
    simp only [ok_bind, h, FlNan.mul_left, FlNan.add_right]
    have hm : Mat.mulVec A (fun _ => Fl.nan) = fun _ => Fl.nan := by
      funext i; exact FlNan.sum _ ⟨0, hn⟩ (FlNan.mul_right _)
    rw [hm]
    simp only [FlNan.sub_right, FlNan.add_left]
    have hd : ∀ v : Fin n → Fl, dotFn (fun _ => Fl.nan) v = Fl.nan := fun v => FlNan.sum _ ⟨0, hn⟩ (FlNan.mul_left _)
    rw [hd, show Num.lt (Num.sqrt Fl.nan) tol = false from by cases tol <;> rfl]
    rw [if_neg (by simp), ih _ _ _ _ (by rw [hd, FlNan.div_left])]
    simp only [nextIndex]
    congr 3
    omega

/-- C93.  In floats, started at the exact solution the method divides zero by zero: the answer is NaN in all entries. -/
theorem C93_exact_start (A : Mat n n Fl) (hA : ∀ i j, (A i j).IsFinite) (x b : Fin n → Fl) (hx : ∀ i, (x i).IsFinite)
    (hb : Mat.mulVec A x = b) (tol : Fl) (maxiter : Option ℤ) (hn : 0 < n) (hm : ∀ k, maxiter = some k → 0 ≤ k) :
    conjGradFrom (fun v => .ok (Mat.mulVec A v)) b x tol maxiter
      = .ok (fun _ => .nan, some (conjGradTurns n maxiter - 1)) := by
  have hr : (fun j => b j - Mat.mulVec A x j) = fun _ => Fl.fin 0 := by
    funext j
    obtain ⟨c, hc⟩ : (Mat.mulVec A x j).IsFinite := by
      refine sumFin_finite _ fun k => ?_
      obtain ⟨p, hp⟩ := hA j k
      obtain ⟨q, hq⟩ := hx k
      exact ⟨p * q, by rw [hp, hq, Fl.mul_fin]⟩
    rw [← hb, hc, Fl.sub_fin, sub_self]
  have hz : Mat.mulVec A (fun _ => Fl.fin 0) = fun _ => Fl.fin 0 := by
    funext i
    refine sumFin_zero _ fun k => ?_
    obtain ⟨p, hp⟩ := hA i k
    rw [hp, Fl.mul_fin, mul_zero]
  have ht : 0 < conjGradTurns n maxiter := by
    cases maxiter with
    | none => exact hn
    | some k => have := hm k rfl; simp only [conjGradTurns]; split_ifs <;> omega
  obtain ⟨t, ht⟩ : ∃ t, conjGradTurns n maxiter = t + 1 := ⟨conjGradTurns n maxiter - 1, by omega⟩
  rw [conjGradFrom]
  simp only [ok_bind]
  rw [hr, ht, loop_nan A b tol hn]
  · simp [nextIndex]
  · rw [hz, show dotFn (fun _ : Fin n => Fl.fin 0) (fun _ => Fl.fin 0) = Fl.fin 0 from
      sumFin_zero _ fun i => by rw [Fl.mul_fin, mul_zero], Fl.div_zero_zero]

/-- Non-vacuity: the identity and the vector of ones. -/
example : ∃ x : Fin 2 → Fl, (∀ i, (x i).IsFinite) ∧ (∀ i j, ((Mat.eye 2 : Mat 2 2 Fl) i j).IsFinite) :=
  ⟨fun _ => .fin 1, fun _ => ⟨1, rfl⟩, fun i j => by fin_cases i <;> fin_cases j <;> exact ⟨_, rfl⟩⟩

end Blmath.Props
