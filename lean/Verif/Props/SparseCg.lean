import Verif.Model.SparseCg
import Verif.Spec.SparseCg
import Verif.Props.BlockSparse

/-!
C73: the preconditioner of the conjugate gradient solver.
-/

namespace Blmath.Props
open Blmath.Linalg Blmath.Spec
open scoped Matrix
variable {n : ℕ}

theorem scatter_miss {k : ℕ} (a : Fin n → ℝ) (idx : Fin k → Fin n) (b : Fin k → ℝ) (i : Fin n)
    (h : ∀ c, idx c ≠ i) : scatter a idx b i = a i := by
  have key : ∀ (l : List (Fin k)) (a : Fin n → ℝ),
      (l.foldl (fun a c i => if i = idx c then b c else a i) a : Fin n → ℝ) i = a i := by
    intro l
    induction l with
    | nil => intro a; rfl
    | cons d l ih => intro a; rw [List.foldl_cons, ih, if_neg fun e => h d e.symm]
  exact key _ a

theorem scatter_hit {k : ℕ} (a : Fin n → ℝ) (idx : Fin k → Fin n) (hi : Function.Injective idx) (b : Fin k → ℝ)
    (c : Fin k) : scatter a idx b (idx c) = b c := by
  have miss : ∀ (l : List (Fin k)) (a : Fin n → ℝ), c ∉ l →
      (l.foldl (fun a c i => if i = idx c then b c else a i) a : Fin n → ℝ) (idx c) = a (idx c) := by
    intro l
    induction l with
    | nil => intro a _; rfl
    | cons d l ih =>
      intro a hc
      rw [List.foldl_cons, ih _ fun e => hc (List.mem_cons_of_mem _ e), if_neg]
      intro e; exact hc (hi e ▸ List.mem_cons_self)
  have hit : ∀ (l : List (Fin k)) (a : Fin n → ℝ), c ∈ l →
      (l.foldl (fun a c i => if i = idx c then b c else a i) a : Fin n → ℝ) (idx c) = b c := by
    intro l
    induction l with
    | nil => intro a hc; simp at hc
    | cons d l ih =>
      intro a hc
      rw [List.foldl_cons]
      by_cases hl : c ∈ l
      · exact ih _ hl
      · obtain rfl : c = d := by rcases List.mem_cons.1 hc with e | e; exacts [e, absurd e hl]
        rw [miss l _ hl, if_pos rfl]
  exact hit _ a (List.mem_finRange c)

theorem cgSparsity_iff (A : Coo n n ℝ) (j : Fin n) : cgSparsity A j = true ↔ SparseCol A j := by
  have e : storedInCol A j = (stored A j : ℝ) := by
    rw [storedInCol, sumList_real, stored]
    simp
  simp only [cgSparsity, e, Bool.and_eq_true, Num.lt_real, Num.lit_real, SparseCol]
  norm_num
  tauto

/-- the numbers of the sparse columns, in order -/
noncomputable def sIdx (A : Coo n n ℝ) : List (Fin n) := nonzero (cgSparsity A)
/-- the other numbers -/
noncomputable def dIdx (A : Coo n n ℝ) : List (Fin n) := nonzero fun i => !cgSparsity A i
/-- the dense block -/
noncomputable def ddBlock (A : Coo n n ℝ) : Mat (dIdx A).length (dIdx A).length ℝ :=
  Matrix.of fun a b => cooMat A ((dIdx A).get a) ((dIdx A).get b)
/-- the numbers, among the dense ones, of the columns that are not zero -/
noncomputable def nzIdx (A : Coo n n ℝ) : List (Fin (dIdx A).length) := nonzero (nonZeroCols (ddBlock A))
/-- the numbers of the active columns -/
noncomputable def aIdx (A : Coo n n ℝ) (c : Fin (nzIdx A).length) : Fin n := (dIdx A).get ((nzIdx A).get c)
/-- the sparse block -/
noncomputable def ssBlock (A : Coo n n ℝ) : Mat (sIdx A).length (sIdx A).length ℝ :=
  Matrix.of fun a b => cooMat A ((sIdx A).get a) ((sIdx A).get b)
/-- the dense corner -/
noncomputable def corner (A : Coo n n ℝ) : Mat (nzIdx A).length (nzIdx A).length ℝ :=
  Matrix.of fun a b => cooMat A (aIdx A a) (aIdx A b)

variable {inv : (k : ℕ) → Mat k k ℝ → PyM (Mat k k ℝ)} {fact : (k : ℕ) → Mat k k ℝ → PyM ((Fin k → ℝ) → Fin k → ℝ)}

theorem cgPrecon_eq (A : Coo n n ℝ) : cgPrecon inv fact A = (do
    let invCorner ← inv (nzIdx A).length (corner A)
    let solver ← fact (sIdx A).length (ssBlock A)
    pure fun v => scatter (scatter (fun _ => 0) (fun a => (sIdx A).get a) (solver fun a => v ((sIdx A).get a)))
      (aIdx A) (Matrix.mulVec invCorner fun a => v (aIdx A a))) := by
  obtain ⟨_, _, _, _, _, _, hss, _, hdd, _⟩ := C62_blocks (cgBlocks A)
  have h1 : (cgBlocks A).blockDD = ddBlock A := by ext a b; exact hdd a b
  have h2 : (cgBlocks A).sparseBlock = ssBlock A := by ext a b; exact hss a b
  have h3 : cgPrecon inv fact A = cgApply inv fact (sIdx A) (dIdx A) (ddBlock A) (ssBlock A) := by
    rw [← h1, ← h2]; rfl
  rw [h3, cgApply]
  have e : ∀ (k : ℕ) (M : Mat k k ℝ) (w : Fin k → ℝ), Mat.mulVec M w = Matrix.mulVec M w := fun _ M w => Mat.mulVec_real M w
  simp only [e, Num.lit_real, Rat.cast_zero]
  rfl

theorem sIdx_mem (A : Coo n n ℝ) (i : Fin n) : (∃ a, (sIdx A).get a = i) ↔ SparseCol A i := by
  rw [← List.mem_iff_get, sIdx, mem_nonzero, cgSparsity_iff]

theorem dIdx_mem (A : Coo n n ℝ) (i : Fin n) : (∃ a, (dIdx A).get a = i) ↔ ¬ SparseCol A i := by
  rw [← List.mem_iff_get, dIdx, mem_nonzero, ← cgSparsity_iff]; simp

theorem aIdx_mem (A : Coo n n ℝ) (i : Fin n) : (∃ a, aIdx A a = i) ↔ ActiveCol A i := by
  have hnz : ∀ b, (∃ a, (nzIdx A).get a = b) ↔ ∃ c, ddBlock A c b ≠ 0 := by
    intro b
    rw [← List.mem_iff_get, nzIdx, mem_nonzero, nonZeroCols]
    simp [← Bool.not_eq_true]
  constructor
  · rintro ⟨a, rfl⟩
    obtain ⟨c, hc⟩ := (hnz _).1 ⟨a, rfl⟩
    exact ⟨(dIdx_mem A _).1 ⟨_, rfl⟩, _, (dIdx_mem A _).1 ⟨c, rfl⟩, hc⟩
  · rintro ⟨h1, j, h2, h3⟩
    obtain ⟨b, rfl⟩ := (dIdx_mem A _).2 h1
    obtain ⟨c, rfl⟩ := (dIdx_mem A _).2 h2
    obtain ⟨a, rfl⟩ := (hnz b).2 ⟨c, h3⟩
    exact ⟨a, rfl⟩

theorem sIdx_inj (A : Coo n n ℝ) : Function.Injective fun a => (sIdx A).get a :=
  (nodup_nonzero _).injective_get

theorem aIdx_inj (A : Coo n n ℝ) : Function.Injective (aIdx A) := by
  intro a b e
  exact (nodup_nonzero _ : (nzIdx A).Nodup).injective_get ((nodup_nonzero _ : (dIdx A).Nodup).injective_get e)

/-- a sum over the numbers hit by an index -/
theorem sum_index {k : ℕ} (idx : Fin k → Fin n) (hi : Function.Injective idx) (P : Fin n → Prop) [DecidablePred P]
    (hP : ∀ i, (∃ a, idx a = i) ↔ P i) (f : Fin n → ℝ) : (∑ a, f (idx a)) = ∑ i, if P i then f i else 0 := by
  rw [← Finset.sum_filter]
  refine Finset.sum_bij (fun a _ => idx a) ?_ ?_ ?_ ?_
  · intro a _; simpa using (hP _).1 ⟨a, rfl⟩
  · intro a _ b _ e; exact hi e
  · intro i hi
    obtain ⟨a, ha⟩ := (hP i).2 (by simpa using hi)
    exact ⟨a, Finset.mem_univ _, ha⟩
  · intro a _; rfl

theorem active_not_sparse (A : Coo n n ℝ) (i : Fin n) (h : ActiveCol A i) : ¬ SparseCol A i := h.1

/-- the conditions, in terms of the two blocks -/
theorem isPrecon_iff (A : Coo n n ℝ) (v x : Fin n → ℝ) : IsPrecon A v x ↔
    (Matrix.mulVec (ssBlock A) (fun a => x ((sIdx A).get a)) = fun a => v ((sIdx A).get a)) ∧
    (Matrix.mulVec (corner A) (fun a => x (aIdx A a)) = fun a => v (aIdx A a)) ∧
    ∀ i, ¬ SparseCol A i → ¬ ActiveCol A i → x i = 0 := by
  classical
  have e1 : ∀ a, Matrix.mulVec (ssBlock A) (fun a => x ((sIdx A).get a)) a =
      ∑ j, if SparseCol A j then cooMat A ((sIdx A).get a) j * x j else 0 := by
    intro a
    rw [← sum_index (fun a => (sIdx A).get a) (sIdx_inj A) (SparseCol A) (sIdx_mem A)
      (fun j => cooMat A ((sIdx A).get a) j * x j)]
    rfl
  have e2 : ∀ a, Matrix.mulVec (corner A) (fun a => x (aIdx A a)) a =
      ∑ j, if ActiveCol A j then cooMat A (aIdx A a) j * x j else 0 := by
    intro a
    rw [← sum_index (aIdx A) (aIdx_inj A) (ActiveCol A) (aIdx_mem A) (fun j => cooMat A (aIdx A a) j * x j)]
    rfl
  constructor
  · intro h
    refine ⟨?_, ?_, h.rest⟩
    · funext a; rw [e1]; convert h.sparse _ ((sIdx_mem A _).1 ⟨a, rfl⟩)
    · funext a; rw [e2]; convert h.active _ ((aIdx_mem A _).1 ⟨a, rfl⟩)
  · rintro ⟨h1, h2, h3⟩
    refine ⟨?_, ?_, h3⟩
    · intro i hi
      obtain ⟨a, rfl⟩ := (sIdx_mem A i).2 hi
      have := congrFun h1 a
      rw [e1] at this
      convert this
    · intro i hi
      obtain ⟨a, rfl⟩ := (aIdx_mem A i).2 hi
      have := congrFun h2 a
      rw [e2] at this
      convert this

/-- reading back what was written -/
theorem scatter_read (A : Coo n n ℝ) (s : Fin (sIdx A).length → ℝ) (d : Fin (nzIdx A).length → ℝ) :
    let x := scatter (scatter (fun _ => 0) (fun a => (sIdx A).get a) s) (aIdx A) d
    (∀ a, x ((sIdx A).get a) = s a) ∧ (∀ a, x (aIdx A a) = d a) ∧ ∀ i, ¬ SparseCol A i → ¬ ActiveCol A i → x i = 0 := by
  intro x
  refine ⟨?_, ?_, ?_⟩
  · intro a
    have hs := (sIdx_mem A _).1 ⟨a, rfl⟩
    show scatter _ _ _ _ = _
    rw [scatter_miss _ _ _ _ fun c e => active_not_sparse A _ ((aIdx_mem A _).1 ⟨c, e⟩) hs]
    exact scatter_hit _ _ (sIdx_inj A) s a
  · intro a; exact scatter_hit _ _ (aIdx_inj A) d a
  · intro i h1 h2
    show scatter _ _ _ _ = _
    rw [scatter_miss _ _ _ _ fun c e => h2 ((aIdx_mem A _).1 ⟨c, e⟩),
      scatter_miss _ _ _ _ fun c e => h1 ((sIdx_mem A _).1 ⟨c, e⟩)]

/-- **C73** The preconditioner solves the two diagonal blocks of the system: it maps `v` to the one vector that solves
the block of the sparse numbers and the block of the active ones (dense columns which do not vanish there), and
that is zero at all other numbers. -/
theorem C73_solves (hi : InvSpecAny inv) (hf : FactSpec fact) (A : Coo n n ℝ) (P : (Fin n → ℝ) → Fin n → ℝ)
    (h : cgPrecon inv fact A = .ok P) (v x : Fin n → ℝ) : P v = x ↔ IsPrecon A v x := by
  rw [cgPrecon_eq] at h
  obtain ⟨ic, hic, h⟩ := bind_eq_ok.1 h
  obtain ⟨f, hfa, h⟩ := bind_eq_ok.1 h
  obtain ⟨hi1, hi2⟩ := hi.inverse _ _ _ hic
  have hsol := hf.solves _ _ _ hfa
  have hP := congrFun (Except.ok.inj h) v
  rw [← hP, isPrecon_iff]
  obtain ⟨r1, r2, r3⟩ := scatter_read A (f fun a => v ((sIdx A).get a)) (Matrix.mulVec ic fun a => v (aIdx A a))
  constructor
  · rintro rfl
    refine ⟨?_, ?_, r3⟩
    · simp only [r1]; exact (hsol _).1
    · simp only [r2]
      rw [Matrix.mulVec_mulVec, hi1, Matrix.one_mulVec]
  · rintro ⟨h1, h2, h3⟩
    funext i
    show scatter _ _ _ i = x i
    by_cases hs : SparseCol A i
    · obtain ⟨a, rfl⟩ := (sIdx_mem A i).2 hs
      rw [r1, ← h1, (hsol _).2]
    · by_cases ha : ActiveCol A i
      · obtain ⟨a, rfl⟩ := (aIdx_mem A i).2 ha
        rw [r2, ← h2, Matrix.mulVec_mulVec, hi2, Matrix.one_mulVec]
      · rw [r3 i hs ha, h3 i hs ha]

/-- **C73** It is a linear map. -/
theorem C73_linear (hi : InvSpecAny inv) (hf : FactSpec fact) (A : Coo n n ℝ) (P : (Fin n → ℝ) → Fin n → ℝ)
    (h : cgPrecon inv fact A = .ok P) (c : ℝ) (v w : Fin n → ℝ) : P (c • v + w) = c • P v + P w := by
  rw [C73_solves hi hf A P h]
  obtain ⟨a1, a2, a3⟩ := (isPrecon_iff A _ _).1 ((C73_solves hi hf A P h v _).1 rfl)
  obtain ⟨b1, b2, b3⟩ := (isPrecon_iff A _ _).1 ((C73_solves hi hf A P h w _).1 rfl)
  rw [isPrecon_iff]
  refine ⟨?_, ?_, ?_⟩
  · have : (fun a => (c • P v + P w) ((sIdx A).get a)) =
        c • (fun a => P v ((sIdx A).get a)) + fun a => P w ((sIdx A).get a) := rfl
    rw [this, Matrix.mulVec_add, Matrix.mulVec_smul, a1, b1]; rfl
  · have : (fun a => (c • P v + P w) (aIdx A a)) = c • (fun a => P v (aIdx A a)) + fun a => P w (aIdx A a) := rfl
    rw [this, Matrix.mulVec_add, Matrix.mulVec_smul, a2, b2]; rfl
  · intro i h1 h2
    simp [a3 i h1 h2, b3 i h1 h2]

/-- **C73** It is the exact inverse of `A` when `A` has no entries between sparse and dense numbers and no dense column is
zero. -/
theorem C73_exact (hi : InvSpecAny inv) (hf : FactSpec fact) (A : Coo n n ℝ) (P : (Fin n → ℝ) → Fin n → ℝ)
    (h : cgPrecon inv fact A = .ok P)
    (hblock : ∀ i j, (SparseCol A i ∧ ¬ SparseCol A j ∨ ¬ SparseCol A i ∧ SparseCol A j) → cooMat A i j = 0)
    (hcol : ∀ j, ¬ SparseCol A j → ∃ i, cooMat A i j ≠ 0) (v : Fin n → ℝ) :
    cooMat A *ᵥ P v = v ∧ P (cooMat A *ᵥ v) = v := by
  classical
  have hact : ∀ j, ActiveCol A j ↔ ¬ SparseCol A j := by
    intro j
    refine ⟨fun h => h.1, fun hj => ⟨hj, ?_⟩⟩
    obtain ⟨i, hij⟩ := hcol j hj
    exact ⟨i, fun e => hij (hblock i j (Or.inl ⟨e, hj⟩)), hij⟩
  have key : ∀ v x : Fin n → ℝ, IsPrecon A v x ↔ cooMat A *ᵥ x = v := by
    intro v x
    have e1 : ∀ i, SparseCol A i → (cooMat A *ᵥ x) i = ∑ j, if SparseCol A j then cooMat A i j * x j else 0 := by
      intro i hi
      rw [Matrix.mulVec, dotProduct]
      refine Finset.sum_congr rfl fun j _ => ?_
      by_cases hj : SparseCol A j
      · simp [hj]
      · simp [hj, hblock i j (Or.inl ⟨hi, hj⟩)]
    have e2 : ∀ i, ¬ SparseCol A i → (cooMat A *ᵥ x) i = ∑ j, if ActiveCol A j then cooMat A i j * x j else 0 := by
      intro i hi
      rw [Matrix.mulVec, dotProduct]
      refine Finset.sum_congr rfl fun j _ => ?_
      by_cases hj : SparseCol A j
      · simp [hact, hj, hblock i j (Or.inr ⟨hi, hj⟩)]
      · simp [hact, hj]
    constructor
    · intro h
      funext i
      by_cases hi : SparseCol A i
      · rw [e1 i hi]; convert h.sparse i hi
      · rw [e2 i hi]; convert h.active i ((hact i).2 hi)
    · intro h
      refine ⟨?_, ?_, fun i h1 h2 => absurd ((hact i).2 h1) h2⟩
      · intro i hi; rw [← h, e1 i hi]
      · intro i hi; rw [← h, e2 i hi.1]
  exact ⟨(key v _).1 ((C73_solves hi hf A P h v _).1 rfl), (C73_solves hi hf A P h _ _).2 ((key _ _).2 rfl)⟩

/-- **C73** The preconditioner exists exactly if the two blocks determine the solution. -/
theorem C73_exists (hi : InvSpecAny inv) (hf : FactSpec fact) (A : Coo n n ℝ) :
    (∃ P, cgPrecon inv fact A = .ok P) ↔ ∀ x, IsPrecon A 0 x → x = 0 := by
  constructor
  · rintro ⟨P, h⟩ x hx
    have h0 : IsPrecon A 0 0 := by
      rw [isPrecon_iff]
      refine ⟨?_, ?_, fun _ _ _ => rfl⟩
      · exact Matrix.mulVec_zero _
      · exact Matrix.mulVec_zero _
    rw [← (C73_solves hi hf A P h 0 x).2 hx, (C73_solves hi hf A P h 0 0).2 h0]
  · intro hu
    have hcorner : (corner A).det ≠ 0 := by
      intro hd
      obtain ⟨d, hd0, hd⟩ := Matrix.exists_mulVec_eq_zero_iff.2 hd
      obtain ⟨r1, r2, r3⟩ := scatter_read A 0 d
      have hx := hu _ ((isPrecon_iff A 0 _).2 ⟨by
        simp only [r1]; exact Matrix.mulVec_zero _, by simp only [r2]; exact hd, r3⟩)
      apply hd0
      funext a
      rw [← r2 a, hx]; rfl
    have hss : (ssBlock A).det ≠ 0 := by
      intro hd
      obtain ⟨d, hd0, hd⟩ := Matrix.exists_mulVec_eq_zero_iff.2 hd
      obtain ⟨r1, r2, r3⟩ := scatter_read A d 0
      have hx := hu _ ((isPrecon_iff A 0 _).2 ⟨by
        simp only [r1]; exact hd, by simp only [r2]; exact Matrix.mulVec_zero _, r3⟩)
      apply hd0
      funext a
      rw [← r1 a, hx]; rfl
    rw [cgPrecon_eq]
    cases h1 : inv (nzIdx A).length (corner A) with
    | error e => exact absurd (hi.fails _ _ _ h1).1 hcorner
    | ok ic =>
      cases h2 : fact (sIdx A).length (ssBlock A) with
      | error e => exact absurd (hf.fails _ _ _ h2) hss
      | ok f => exact ⟨_, rfl⟩

/-- **C73** Routines with these promises exist. -/
theorem C73_satisfiable : FactSpec (fun k a => open Classical in
    if a.det = 0 then .error .GenericException else .ok fun v => a⁻¹ *ᵥ v) := by
  classical
  refine ⟨?_, ?_⟩
  · intro k a f h v
    by_cases h0 : a.det = 0
    · simp [h0] at h
    · rw [if_neg h0] at h
      obtain rfl := Except.ok.inj h
      have hu := isUnit_iff_ne_zero.2 h0
      exact ⟨by rw [Matrix.mulVec_mulVec, Matrix.mul_nonsing_inv _ hu, Matrix.one_mulVec],
        by simp only [Matrix.mulVec_mulVec, Matrix.nonsing_inv_mul _ hu, Matrix.one_mulVec]⟩
  · intro k a e h
    by_contra h0
    simp [h0] at h

/-- a 2×2 matrix whose second column is stored as 1000 entries, hence dense -/
def exampleA : Coo 2 2 ℝ := (0, 0, 2) :: List.replicate 1000 (1, 1, 1)

theorem exampleA_mat : cooMat exampleA = !![2, 0; 0, 1000] := by
  have h : cooMat (List.replicate 1000 ((1 : Fin 2), (1 : Fin 2), (1 : ℝ))) = (1000 : ℕ) • Matrix.single 1 1 1 := by
    rw [cooMat, List.map_replicate, List.sum_replicate]
  rw [exampleA, cooMat_cons, h]
  ext i j
  fin_cases i <;> fin_cases j <;> simp [Matrix.single]

theorem exampleA_sparse (j : Fin 2) : SparseCol exampleA j ↔ j = 0 := by
  have h0 : stored exampleA 0 = 1 := by
    rw [stored, exampleA, List.filter_cons_of_pos (by simp), List.filter_replicate_of_neg (by simp)]; rfl
  have h1 : stored exampleA 1 = 1000 := by
    rw [stored, exampleA, List.filter_cons_of_neg (by simp), List.filter_replicate_of_pos (by simp), List.length_replicate]
  fin_cases j
  · simp [SparseCol, h0]
  · simp [SparseCol, h1]

/-- the hypotheses of the theorems above can be met, with a sparse and a dense column -/
example (hi : InvSpecAny inv) (hf : FactSpec fact) : ∃ P, cgPrecon inv fact exampleA = .ok P ∧
    (∀ i j, (SparseCol exampleA i ∧ ¬ SparseCol exampleA j ∨ ¬ SparseCol exampleA i ∧ SparseCol exampleA j) →
      cooMat exampleA i j = 0) ∧
    (∀ j, ¬ SparseCol exampleA j → ∃ i, cooMat exampleA i j ≠ 0) ∧ P ![6, 5000] = ![3, 5] := by
  have h1 : ∀ i j, (SparseCol exampleA i ∧ ¬ SparseCol exampleA j ∨ ¬ SparseCol exampleA i ∧ SparseCol exampleA j) →
      cooMat exampleA i j = 0 := by
    intro i j
    rw [exampleA_mat, exampleA_sparse, exampleA_sparse]
    fin_cases i <;> fin_cases j <;> simp
  have h2 : ∀ j, ¬ SparseCol exampleA j → ∃ i, cooMat exampleA i j ≠ 0 := by
    intro j
    rw [exampleA_sparse, exampleA_mat]
    fin_cases j
    · simp
    · intro _; exact ⟨1, by simp⟩
  have hact : ActiveCol exampleA 1 :=
    ⟨by simp [exampleA_sparse], 1, by simp [exampleA_sparse], by rw [exampleA_mat]; simp⟩
  have hact0 : ¬ ActiveCol exampleA 0 := fun h => h.1 ((exampleA_sparse 0).2 rfl)
  obtain ⟨P, hP⟩ := (C73_exists hi hf exampleA).2 (by
    intro x hx
    have a := hx.sparse 0 ((exampleA_sparse 0).2 rfl)
    have b := hx.active 1 hact
    simp only [Fin.sum_univ_two, exampleA_sparse, exampleA_mat, hact, hact0] at a b
    funext i
    fin_cases i
    · simpa using a
    · simpa using b)
  refine ⟨P, hP, h1, h2, ?_⟩
  rw [← (C73_exact hi hf exampleA P hP h1 h2 ![3, 5]).2, exampleA_mat]
  congr 1
  funext i
  fin_cases i <;> norm_num [Matrix.mulVec, dotProduct, Fin.sum_univ_two]

end Blmath.Props
