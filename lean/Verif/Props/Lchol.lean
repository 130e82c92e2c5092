import Verif.Spec.Lchol
import Mathlib.Analysis.Matrix.LDL
import Mathlib.Tactic

/-!
C63: sparse Cholesky factors.
-/

namespace Blmath.Props
open Blmath.Linalg Blmath.Spec
open scoped Matrix
variable {n : ℕ}

theorem pyMax_le (q : List ℕ) (m : ℕ) (h : pyMax q = .ok m) : m ∈ q ∧ ∀ x ∈ q, x ≤ m := by
  cases q with
  | nil => cases h
  | cons a l =>
    have : ∀ (l : List ℕ) (a : ℕ), l.foldl max a ∈ a :: l ∧ ∀ x ∈ a :: l, x ≤ l.foldl max a := by
      intro l
      induction l with
      | nil => intro a; simp
      | cons b l ih =>
        intro a
        obtain ⟨h1, h2⟩ := ih (max a b)
        rw [List.foldl_cons]
        have hab := h2 (max a b) List.mem_cons_self
        refine ⟨?_, ?_⟩
        · rcases List.mem_cons.1 h1 with e | e
          · rcases max_choice a b with e' | e' <;> rw [e'] at e <;> simp [e, e']
          · exact List.mem_cons_of_mem _ (List.mem_cons_of_mem _ e)
        · intro x hx
          rcases List.mem_cons.1 hx with rfl | hx
          · exact le_trans (le_max_left _ _) hab
          · rcases List.mem_cons.1 hx with rfl | hx
            · exact le_trans (le_max_right _ _) hab
            · exact h2 x (List.mem_cons_of_mem _ hx)
    obtain rfl := Except.ok.inj h
    exact this l a

theorem pyMax_range (q : List ℕ) (hn : 0 < n) (hq : q.Perm (List.range n)) : pyMax q = .ok (n - 1) := by
  cases hm : pyMax q with
  | error e =>
    cases q with
    | nil => have := hq.length_eq; simp at this; omega
    | cons a l => cases hm
  | ok m =>
    obtain ⟨h1, h2⟩ := pyMax_le q m hm
    have h1' := List.mem_range.1 (hq.mem_iff.1 h1)
    have h2' := h2 (n - 1) (hq.mem_iff.2 (List.mem_range.2 (by omega)))
    congr 1; omega

theorem cscNew_valid (L : Csc ℝ) (h : CscValid n L) : cscNew L.data L.indices L.indptr n n = .ok L := by
  have h1 : ¬ L.indptr.length ≠ n + 1 := fun e => e h.indptr
  have h2 : ¬ L.indptr.head? ≠ some 0 := fun e => e h.first
  have h3 : ¬ L.indices.length ≠ L.data.length := fun e => e h.data.symm
  have h4 : ¬ ∃ p ∈ L.indptr.getLast?, p > L.indices.length := by
    rintro ⟨p, hp, hlt⟩
    have := h.last p (List.mem_of_getLast? hp)
    omega
  rw [cscNew, if_neg h1, if_neg h2, if_neg h3, if_neg h4]
  congr 1
  obtain ⟨a, b⟩ := And.intro h.nrow h.ncol
  cases L; simp_all

/-- the matrix returned for the ordering -/
def orderMatrix (q : List ℕ) (n : ℕ) : Entries ℝ :=
  ⟨n, n, (q.zip (List.range n)).map fun t => (t.1, t.2, 1)⟩

theorem orderMatrix_dense (q : List ℕ) (hl : q.length = n) (i j : Fin n) :
    entDense n n (orderMatrix q n) i j = if q[(j : ℕ)]? = some (i : ℕ) then 1 else 0 := by
  rw [entDense, Matrix.of_apply, orderMatrix, List.map_map]
  have key : ∀ (q : List ℕ) (s : ℕ), ((q.zip (List.range' s q.length)).map
      ((fun t : ℕ × ℕ × ℝ => if t.1 = i ∧ t.2.1 = (j : ℕ) then t.2.2 else 0) ∘ fun t => (t.1, t.2, 1))).sum =
      if s ≤ j ∧ q[(j : ℕ) - s]? = some (i : ℕ) then 1 else 0 := by
    intro q
    induction q with
    | nil => intro s; simp
    | cons a q ih =>
      intro s
      rw [List.length_cons, List.range'_succ, List.zip_cons_cons, List.map_cons, List.sum_cons, ih]
      simp only [Function.comp]
      by_cases h1 : s = j
      · have h3 : ¬ s + 1 ≤ (j : ℕ) := by omega
        have h4 : (j : ℕ) - s = 0 := by omega
        by_cases h2 : a = i
        · simp [h1, h2]
        · simp [h1, h2]
      · by_cases h5 : s ≤ j
        · obtain ⟨d, hd⟩ : ∃ d, (j : ℕ) - s = d + 1 := ⟨j - s - 1, by omega⟩
          have h6 : s + 1 ≤ (j : ℕ) := by omega
          have h7 : (j : ℕ) - (s + 1) = d := by omega
          simp [h1, h5, h6, hd, h7]
        · have h6 : ¬ s + 1 ≤ (j : ℕ) := by omega
          simp [h1, h5, h6]
  have := key q 0
  rw [← List.range_eq_range', hl] at this
  rw [this]; simp

/-- the ordering as a permutation of the numbers below `n` -/
theorem exists_perm (q : List ℕ) (hq : q.Perm (List.range n)) :
    ∃ σ : Equiv.Perm (Fin n), ∀ j : Fin n, q[(j : ℕ)]? = some (σ j : ℕ) := by
  have hl : q.length = n := by simpa using hq.length_eq
  have hb : ∀ j : Fin n, q[(j : ℕ)]'(by omega) < n := fun j => List.mem_range.1 (hq.mem_iff.1 (List.getElem_mem _))
  have hinj : Function.Injective (fun j : Fin n => (⟨q[(j : ℕ)]'(by omega), hb j⟩ : Fin n)) := by
    intro a b e
    have hnd : q.Nodup := hq.nodup_iff.2 List.nodup_range
    have := (hnd.getElem_inj_iff (hi := by omega) (hj := by omega)).1 (Fin.mk.inj e)
    exact Fin.ext this
  refine ⟨Equiv.ofBijective _ (Finite.injective_iff_bijective.1 hinj), fun j => ?_⟩
  simp only [Equiv.ofBijective_apply]
  exact List.getElem?_eq_getElem _

theorem lchol_posdef {cholmod : Csc ℝ → CholResult ℝ} (hc : CholSpec cholmod) (A : Csc ℝ) (hA : CscValid n A)
    (hm : (cholmod A).minor = n) (hn : 0 < n) :
    lchol cholmod A = .ok ((cholmod A).L, 0, orderMatrix (cholmod A).perm n) := by
  have hv := hc.valid n A hA
  have hp := hc.perm n A hA
  have hl : (cholmod A).perm.length = n := by simpa using hp.length_eq
  have h1 : ¬ (cholmod A).minor < A.ncol := by rw [hA.ncol, hm]; omega
  have h2 : (cholmod A).minor = A.ncol := by rw [hA.ncol, hm]
  rw [lchol, lcholC]
  simp only [if_neg h1, if_pos h2]
  rw [hA.nrow, hA.ncol, cscNew_valid _ hv, ok_bind, pyMax_range _ hn hp, ok_bind, pure_eq_ok, hl]
  congr 3
  rw [orderMatrix]
  congr 1
  · omega
  · simp

/-- **C63** For a matrix whose lower triangle is that of a positive definite symmetric matrix `B`, the result is
`(L, 0, S)`: `S` is a permutation matrix, `L` is lower triangular and `Sᵀ B S = L Lᵀ`. -/
theorem C63_factor {cholmod : Csc ℝ → CholResult ℝ} (hc : CholSpec cholmod) (A : Csc ℝ) (hA : CscValid n A) (hn : 0 < n)
    (hpd : (lowerSym (cscDense n A)).PosDef) :
    ∃ L S, lchol cholmod A = .ok (L, 0, S) ∧ CscValid n L ∧ S.nrow = n ∧ S.ncol = n ∧
      (∃ σ : Equiv.Perm (Fin n), entDense n n S = Matrix.of fun i j => if σ j = i then 1 else 0) ∧
      (∀ i j, i < j → cscDense n L i j = 0) ∧
      (entDense n n S)ᵀ * lowerSym (cscDense n A) * entDense n n S = cscDense n L * (cscDense n L)ᵀ := by
  have hm := (hc.minor n A hA).2.2 hpd
  have hp := hc.perm n A hA
  have hl : (cholmod A).perm.length = n := by simpa using hp.length_eq
  obtain ⟨σ, hσ⟩ := exists_perm _ hp
  have hS : entDense n n (orderMatrix (cholmod A).perm n) = Matrix.of fun i j => if σ j = i then 1 else 0 := by
    ext i j
    rw [orderMatrix_dense _ hl, hσ, Matrix.of_apply]
    simp [Fin.ext_iff]
  refine ⟨_, _, lchol_posdef hc A hA hm hn, hc.valid n A hA, rfl, rfl, ⟨σ, hS⟩, hc.lower n A hA hm, ?_⟩
  ext a b
  rw [← hc.factor n A hA hm a b (σ a) (σ b) (hσ a) (hσ b), hS]
  simp [Matrix.mul_apply, Finset.sum_ite_eq]

/-- **C63** In particular for a symmetric matrix: `Sᵀ A S = L Lᵀ`. -/
theorem C63_symmetric {cholmod : Csc ℝ → CholResult ℝ} (hc : CholSpec cholmod) (A : Csc ℝ) (hA : CscValid n A) (hn : 0 < n)
    (hpd : (cscDense n A).PosDef) :
    ∃ L S, lchol cholmod A = .ok (L, 0, S) ∧ (∀ i j, i < j → cscDense n L i j = 0) ∧
      (∃ σ : Equiv.Perm (Fin n), entDense n n S = Matrix.of fun i j => if σ j = i then 1 else 0) ∧
      (entDense n n S)ᵀ * cscDense n A * entDense n n S = cscDense n L * (cscDense n L)ᵀ := by
  have hs : lowerSym (cscDense n A) = cscDense n A := by
    ext i j
    rw [lowerSym, Matrix.of_apply]
    split
    · rfl
    · have := hpd.1.apply i j
      simpa using this
  obtain ⟨L, S, h1, _, _, _, h2, h3, h4⟩ := C63_factor hc A hA hn (by rw [hs]; exact hpd)
  exact ⟨L, S, h1, h3, h2, by rwa [hs] at h4⟩

theorem trim_length (S : Csc ℝ) (hS : CscValid n S) (k : ℕ) (hk : k < n) : (sputilTrim S k).indptr.length = k + 1 := by
  have h1 : ¬ k ≥ S.ncol := by rw [hS.ncol]; omega
  have hlen : k < (S.indptr.take (k + 1)).length := by rw [List.length_take, hS.indptr]; omega
  rw [sputilTrim, if_neg h1]
  simp only [List.getElem?_eq_getElem hlen]
  rw [List.length_take, hS.indptr]; omega

/-- **C63** For a matrix that is not positive definite the wrapper raises: the factor has lost columns and no longer fits the
shape. -/
theorem C63_not_posdef {cholmod : Csc ℝ → CholResult ℝ} (hc : CholSpec cholmod) (A : Csc ℝ) (hA : CscValid n A)
    (hpd : ¬ (lowerSym (cscDense n A)).PosDef) : lchol cholmod A = .error .ValueError := by
  obtain ⟨h1, h2⟩ := hc.minor n A hA
  have hlt : (cholmod A).minor < n := lt_of_le_of_ne h1 fun e => hpd (h2.1 e)
  have hlt' : (cholmod A).minor < A.ncol := by rw [hA.ncol]; exact hlt
  have hlen := trim_length _ (hc.valid n A hA) _ hlt
  rw [lchol, lcholC]
  simp only [if_pos hlt']
  have : (sputilTrim (cholmod A).L (cholmod A).minor).indptr.length ≠ A.ncol + 1 := by rw [hlen]; omega
  rw [cscNew, if_pos this]; rfl

/-- **C63** The C routine itself reports the failure: its flag is 0 exactly for positive definite matrices, and otherwise
the number of the first column that failed, counted from 1; the columns before it are those returned. -/
theorem C63_c_flag {cholmod : Csc ℝ → CholResult ℝ} (hc : CholSpec cholmod) (A : Csc ℝ) (hA : CscValid n A) :
    ((lcholC cholmod A).2.2.2.1 = 0 ↔ (lowerSym (cscDense n A)).PosDef) ∧
    (¬ (lowerSym (cscDense n A)).PosDef → (lcholC cholmod A).2.2.2.1 = (cholmod A).minor + 1 ∧
      (lcholC cholmod A).2.1.length = (cholmod A).minor + 1 ∧ (cholmod A).minor < n) := by
  obtain ⟨h1, h2⟩ := hc.minor n A hA
  have hf : (lcholC cholmod A).2.2.2.1 = if (cholmod A).minor = n then 0 else (cholmod A).minor + 1 := by
    rw [lcholC]; simp only [hA.ncol]
  constructor
  · rw [hf, ← h2]
    split
    · simpa using ‹_›
    · simpa using ‹_›
  · intro hpd
    have hlt : (cholmod A).minor < n := lt_of_le_of_ne h1 fun e => hpd (h2.1 e)
    refine ⟨by rw [hf, if_neg (by omega)], ?_, hlt⟩
    rw [lcholC]
    simp only [if_pos (show (cholmod A).minor < A.ncol by rw [hA.ncol]; exact hlt)]
    exact trim_length _ (hc.valid n A hA) _ hlt

/-- **C63** Hence the second value returned, which should tell whether the matrix is positive definite, is always 0. -/
theorem C63_flag {cholmod : Csc ℝ → CholResult ℝ} (hc : CholSpec cholmod) (A : Csc ℝ) (hA : CscValid n A) (hn : 0 < n) (L f S)
    (h : lchol cholmod A = .ok (L, f, S)) : f = 0 := by
  by_cases hpd : (lowerSym (cscDense n A)).PosDef
  · rw [lchol_posdef hc A hA ((hc.minor n A hA).2.2 hpd) hn] at h
    have := Except.ok.inj h
    exact (congrArg (fun t => t.2.1) this).symm
  · rw [C63_not_posdef hc A hA hpd] at h; cases h

/-- **C63** The empty matrix raises, although it is positive definite. -/
theorem C63_empty {cholmod : Csc ℝ → CholResult ℝ} (hc : CholSpec cholmod) (A : Csc ℝ) (hA : CscValid 0 A) :
    lchol cholmod A = .error .ValueError := by
  have hp : (cholmod A).perm = [] := by simpa using hc.perm 0 A hA
  have hm : (cholmod A).minor = 0 := by simpa using (hc.minor 0 A hA).1
  have h1 : ¬ (cholmod A).minor < A.ncol := by rw [hA.ncol]; omega
  rw [lchol, lcholC]
  simp only [if_neg h1]
  rw [hA.nrow, hA.ncol, cscNew_valid _ (hc.valid 0 A hA), ok_bind, hp]; rfl

/-- **C63** `sputil_trim` keeps the first `k` columns. -/
theorem C63_trim (S : Csc ℝ) (hS : CscValid n S) (k : ℕ) (hk : k < n) (i j : Fin n) (hj : (j : ℕ) < k) :
    (sputilTrim S k).ncol = k ∧ cscDense n (sputilTrim S k) i j = cscDense n S i j := by
  have h1 : ¬ k ≥ S.ncol := by rw [hS.ncol]; omega
  have hlen : k < (S.indptr.take (k + 1)).length := by rw [List.length_take, hS.indptr]; omega
  have hkl : k < S.indptr.length := by rw [hS.indptr]; omega
  rw [sputilTrim, if_neg h1]
  simp only [List.getElem?_eq_getElem hlen, List.getElem_take]
  refine ⟨trivial, ?_⟩
  simp only [cscDense, Matrix.of_apply]
  have g : ∀ t ≤ k, (S.indptr.take (k + 1)).getD t 0 = S.indptr.getD t 0 := by
    intro t ht
    simp [List.getD_eq_getElem?_getD, List.getElem?_take, Nat.lt_succ_iff.2 ht]
  rw [g j (by omega), g (j + 1) (by omega)]
  refine Finset.sum_congr rfl fun x hx => ?_
  have hx2 := (Finset.mem_Ico.1 hx).2
  have hjl : (j : ℕ) + 1 < S.indptr.length := by rw [hS.indptr]; omega
  have hle : S.indptr.getD (j + 1) 0 ≤ S.indptr[k] := by
    rw [List.getD_eq_getElem?_getD, List.getElem?_eq_getElem hjl, Option.getD_some]
    rcases Nat.lt_or_ge (j + 1) k with h | h
    · exact List.pairwise_iff_getElem.1 hS.sorted _ _ _ _ h
    · have : (j : ℕ) + 1 = k := by omega
      simp [this]
  have hxk : x < S.indptr[k] := lt_of_lt_of_le hx2 hle
  simp only [List.getElem?_take, List.getD_eq_getElem?_getD, hxk, if_true]

/-! ### the contract can be met -/

/-- every positive definite matrix has a lower triangular factor -/
theorem cholesky_exists (a : Matrix (Fin n) (Fin n) ℝ) (ha : a.PosDef) :
    ∃ L : Matrix (Fin n) (Fin n) ℝ, (∀ i j, i < j → L i j = 0) ∧ L * Lᵀ = a := by
  have hpd : (LDL.diag ha).PosDef := by
    rw [LDL.diag_eq_lowerInv_conj]
    have hinj : Function.Injective (LDL.lowerInv ha).vecMul := by
      have hu : IsUnit (LDL.lowerInv ha) := by
        rw [Matrix.isUnit_iff_isUnit_det]
        exact (Matrix.isUnit_iff_isUnit_det _).1 (isUnit_of_invertible _)
      exact Matrix.vecMul_injective_iff_isUnit.2 hu
    exact ha.mul_mul_conjTranspose_same hinj
  have hpos : ∀ i, 0 < LDL.diagEntries ha i := by
    intro i
    have := hpd.diag_pos (i := i)
    simpa [LDL.diag] using this
  have htri : Matrix.BlockTriangular (LDL.lower ha) OrderDual.toDual := by
    have h0 : Matrix.BlockTriangular (LDL.lowerInv ha) OrderDual.toDual := by
      intro i j hij
      exact LDL.lowerInv_triangular ha hij
    exact Matrix.blockTriangular_inv_of_blockTriangular h0
  refine ⟨LDL.lower ha * Matrix.diagonal fun i => Real.sqrt (LDL.diagEntries ha i), ?_, ?_⟩
  · intro i j hij
    rw [Matrix.mul_diagonal, htri hij, zero_mul]
  · rw [Matrix.transpose_mul, Matrix.diagonal_transpose]
    have hd : Matrix.diagonal (fun i => Real.sqrt (LDL.diagEntries ha i)) *
        Matrix.diagonal (fun i => Real.sqrt (LDL.diagEntries ha i)) = LDL.diag ha := by
      rw [Matrix.diagonal_mul_diagonal, LDL.diag]
      congr 1
      funext i
      exact Real.mul_self_sqrt (hpos i).le
    calc _ = LDL.lower ha * (Matrix.diagonal (fun i => Real.sqrt (LDL.diagEntries ha i)) *
        Matrix.diagonal (fun i => Real.sqrt (LDL.diagEntries ha i))) * (LDL.lower ha)ᵀ := by
          simp only [Matrix.mul_assoc]
      _ = a := by
          rw [hd]
          have := LDL.lower_conj_diag ha
          rwa [Matrix.conjTranspose_eq_transpose_of_trivial] at this

/-- all entries of a matrix, column by column -/
noncomputable def denseCsc (a : Matrix (Fin n) (Fin n) ℝ) : Csc ℝ where
  nrow := n
  ncol := n
  indptr := (List.range (n + 1)).map (· * n)
  indices := (List.range (n * n)).map (· % n)
  data := (List.range (n * n)).map fun k => if h : k % n < n ∧ k / n < n then a ⟨k % n, h.1⟩ ⟨k / n, h.2⟩ else 0

theorem denseCsc_valid (a : Matrix (Fin n) (Fin n) ℝ) : CscValid n (denseCsc a) := by
  refine ⟨rfl, rfl, by simp [denseCsc], by simp [denseCsc, List.range_succ_eq_map], ?_, by simp [denseCsc], ?_, ?_⟩
  · simp only [denseCsc, List.pairwise_map]
    exact (List.pairwise_lt_range (n := n + 1)).imp fun h => Nat.mul_le_mul_right _ h.le
  · intro p hp
    simp only [denseCsc, List.mem_map, List.mem_range] at hp
    obtain ⟨k, hk, rfl⟩ := hp
    simp only [denseCsc, List.length_map, List.length_range]
    exact Nat.mul_le_mul_right _ (by omega)
  · intro i hi
    simp only [denseCsc, List.mem_map, List.mem_range] at hi
    obtain ⟨k, hk, rfl⟩ := hi
    have : 0 < n := Nat.pos_of_ne_zero (by rintro rfl; simp at hk)
    exact Nat.mod_lt _ this

theorem denseCsc_dense (a : Matrix (Fin n) (Fin n) ℝ) : cscDense n (denseCsc a) = a := by
  ext i j
  have hi := i.2
  have hj := j.2
  have hn : 0 < n := by omega
  simp only [cscDense, Matrix.of_apply]
  have g : ∀ t ≤ n, (denseCsc a).indptr.getD t 0 = t * n := by
    intro t ht
    have : t < n + 1 := by omega
    simp [denseCsc, List.getD_eq_getElem?_getD, this]
  rw [g j (by omega), g (j + 1) (by omega)]
  have hlt : (j : ℕ) * n + i < n * n := by nlinarith
  rw [Finset.sum_eq_single ((j : ℕ) * n + i)]
  · have h1 : ((j : ℕ) * n + i) % n = i := by rw [Nat.mul_comm, Nat.mul_add_mod, Nat.mod_eq_of_lt hi]
    have h2 : ((j : ℕ) * n + i) / n = j := by
      rw [Nat.mul_comm, Nat.mul_add_div hn, Nat.div_eq_of_lt hi, add_zero]
    have e1 : (denseCsc a).indices[(j : ℕ) * n + i]? = some (i : ℕ) := by
      simp [denseCsc, hlt, h1]
    rw [if_pos e1]
    simp [denseCsc, List.getD_eq_getElem?_getD, hlt, h1, h2]
  · intro k hk hne
    rw [if_neg]
    intro e
    apply hne
    obtain ⟨k1, k2⟩ := Finset.mem_Ico.1 hk
    have hkn : k < n * n := by nlinarith
    simp [denseCsc, hkn] at e
    have h3 : k / n = j := by
      refine Nat.div_eq_of_lt_le k1 k2
    have := Nat.div_add_mod k n
    rw [h3, e] at this
    rw [← this, Nat.mul_comm]
  · intro h
    exfalso; apply h
    rw [Finset.mem_Ico]
    refine ⟨by omega, ?_⟩
    nlinarith

/-- **C63** A routine with the promises of CHOLMOD exists. -/
theorem C63_satisfiable : ∃ cholmod, CholSpec cholmod := by
  classical
  have h : ∀ A : Csc ℝ, ∃ r : CholResult ℝ, ∀ n, CscValid n A → r.perm = List.range n ∧ CscValid n r.L ∧ r.minor ≤ n ∧
      (r.minor = n ↔ (lowerSym (cscDense n A)).PosDef) ∧
      (r.minor = n → (∀ i j : Fin n, i < j → cscDense n r.L i j = 0) ∧
        lowerSym (cscDense n A) = cscDense n r.L * (cscDense n r.L)ᵀ) := by
    intro A
    obtain ⟨n, hn⟩ : ∃ n, n = A.ncol := ⟨_, rfl⟩
    by_cases hpd : (lowerSym (cscDense n A)).PosDef
    · obtain ⟨L, h1, h2⟩ := cholesky_exists _ hpd
      refine ⟨⟨denseCsc L, n, List.range n⟩, ?_⟩
      intro n' hv
      obtain rfl : n' = n := by rw [hn, hv.ncol]
      exact ⟨rfl, denseCsc_valid L, le_rfl, by simp [hpd], fun _ => by
        rw [denseCsc_dense]; exact ⟨h1, h2.symm⟩⟩
    · refine ⟨⟨denseCsc (0 : Matrix (Fin n) (Fin n) ℝ), n - 1, List.range n⟩, ?_⟩
      intro n' hv
      obtain rfl : n' = n := by rw [hn, hv.ncol]
      have hpos : 0 < n' := by
        rcases Nat.eq_zero_or_pos n' with h0 | h0
        · exfalso; apply hpd
          have he : IsEmpty (Fin n') := by rw [h0]; exact Fin.isEmpty
          rw [Matrix.posDef_iff_dotProduct_mulVec]
          refine ⟨by ext i; exact he.elim i, ?_⟩
          intro x hx
          exact absurd (funext fun i => he.elim i) hx
        · exact h0
      refine ⟨rfl, denseCsc_valid _, by simp, ?_, ?_⟩
      · simp only [hpd, iff_false]; omega
      · intro e; simp only at e; omega
  choose f hf using h
  refine ⟨f, ?_, ?_, ?_, ?_, ?_⟩
  · intro n A hA; rw [(hf A n hA).1]
  · intro n A hA; exact (hf A n hA).2.1
  · intro n A hA; exact ⟨(hf A n hA).2.2.1, (hf A n hA).2.2.2.1⟩
  · intro n A hA hm; exact ((hf A n hA).2.2.2.2 hm).1
  · intro n A hA hm a b i j hi hj
    have ha := a.2
    have hb := b.2
    rw [(hf A n hA).1] at hi hj
    simp at hi hj
    rw [((hf A n hA).2.2.2.2 hm).2, Fin.ext hi, Fin.ext hj]

/-- a matrix with the unused value 7 above the diagonal: its lower triangle is positive definite -/
example : CscValid 2 ⟨2, 2, [0, 2, 4], [0, 1, 0, 1], [2, 1, 7, 2]⟩ ∧
    (lowerSym (cscDense 2 ⟨2, 2, [0, 2, 4], [0, 1, 0, 1], [2, 1, 7, 2]⟩)).PosDef := by
  refine ⟨⟨rfl, rfl, rfl, rfl, by simp, rfl, by simp, by simp⟩, ?_⟩
  have h : lowerSym (cscDense 2 ⟨2, 2, [0, 2, 4], [0, 1, 0, 1], [2, 1, 7, 2]⟩) = !![2, 1; 1, 2] := by
    ext i j
    fin_cases i <;> fin_cases j <;> simp [lowerSym, cscDense, Finset.sum_Ico_eq_sum_range, Finset.sum_range_succ]
  rw [h, Matrix.posDef_iff_dotProduct_mulVec]
  refine ⟨by ext i j; fin_cases i <;> fin_cases j <;> simp, ?_⟩
  intro x hx
  simp [Matrix.mulVec, dotProduct, Fin.sum_univ_two]
  have : x 0 ≠ 0 ∨ x 1 ≠ 0 := by
    by_contra hc
    push Not at hc
    exact hx (funext fun i => by fin_cases i <;> simp [hc])
  have e : x 0 * (2 * x 0 + x 1) + x 1 * (x 0 + 2 * x 1) = x 0 ^ 2 + x 1 ^ 2 + (x 0 + x 1) ^ 2 := by ring
  rw [e]
  rcases this with h | h <;> positivity

end Blmath.Props
