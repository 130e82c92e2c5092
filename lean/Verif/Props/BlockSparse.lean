import Verif.Model.BlockSparse
import Verif.Spec.Sparse
import Mathlib.Tactic

/-!
C62: block sparse matrices.
-/

namespace Blmath.Props
open Blmath.Linalg Blmath.Spec
open scoped Matrix
variable {m n p k : ℕ}

theorem sumList_real (l : List ℝ) : sumList l = l.sum := by
  have key : ∀ (l : List ℝ) (s : ℝ), l.foldl (· + ·) s = s + l.sum := by
    intro l
    induction l with
    | nil => intro s; simp
    | cons a l ih => intro s; rw [List.foldl_cons, ih, List.sum_cons, add_assoc]
  rw [sumList, key]; simp

theorem cooMat_nil : cooMat ([] : List (Fin m × Fin n × ℝ)) = 0 := rfl

theorem cooMat_cons (t : Fin m × Fin n × ℝ) (M : List (Fin m × Fin n × ℝ)) :
    cooMat (t :: M) = Matrix.single t.1 t.2.1 t.2.2 + cooMat M := by simp [cooMat]

theorem cooMat_append (M N : List (Fin m × Fin n × ℝ)) : cooMat (M ++ N) = cooMat M + cooMat N := by
  simp [cooMat]

theorem dense_real (M : Coo m n ℝ) : M.dense = cooMat M := by
  ext i j
  simp only [Coo.dense, Matrix.of_apply, sumList_real]
  induction M with
  | nil => simp [cooMat]
  | cons t M ih =>
    rw [cooMat_cons, Matrix.add_apply, ← ih, Matrix.single_apply]
    by_cases h : t.1 = i ∧ t.2.1 = j
    · rw [List.filter_cons_of_pos (by simpa using h), List.map_cons, List.sum_cons, if_pos h]
    · rw [List.filter_cons_of_neg (by simpa using h), if_neg h, zero_add]

theorem cooMat_toCoo (a : Mat m n ℝ) : cooMat (toCoo a) = a := by
  have row : ∀ (i : Fin m) (l : List (Fin n)),
      cooMat ((l.filter fun j => ¬ Num.eq (a i j) (Num.lit 0)).map fun j => (i, j, a i j)) =
        (l.map fun j => Matrix.single i j (a i j)).sum := by
    intro i l
    induction l with
    | nil => rfl
    | cons j l ih =>
      by_cases h : a i j = 0
      · rw [List.filter_cons_of_neg (by simp [h]), ih]; simp [h]
      · rw [List.filter_cons_of_pos (by simp [h]), List.map_cons, cooMat_cons, ih]; simp
  have all : ∀ l : List (Fin m), cooMat (l.flatMap fun i =>
      ((List.finRange n).filter fun j => ¬ Num.eq (a i j) (Num.lit 0)).map fun j => (i, j, a i j)) =
        (l.map fun i => ((List.finRange n).map fun j => Matrix.single i j (a i j)).sum).sum := by
    intro l
    induction l with
    | nil => rfl
    | cons i l ih => rw [List.flatMap_cons, cooMat_append, ih, row]; simp
  rw [toCoo, all]
  conv_rhs => rw [Matrix.matrix_eq_sum_single a]
  rw [← List.ofFn_eq_map, List.sum_ofFn]
  refine Finset.sum_congr rfl fun i _ => ?_
  rw [← List.ofFn_eq_map, List.sum_ofFn]

theorem cooMat_filter_row (M : Coo m n ℝ) (mask : Fin m → Bool) (i : Fin m) (j : Fin n) :
    cooMat (M.filter fun t => mask t.1) i j = if mask i then cooMat M i j else 0 := by
  induction M with
  | nil => simp [cooMat]
  | cons t M ih =>
    rw [cooMat_cons, Matrix.add_apply, Matrix.single_apply]
    by_cases h : mask t.1
    · rw [List.filter_cons_of_pos (by simpa using h), cooMat_cons, Matrix.add_apply, ih, Matrix.single_apply]
      by_cases hi : t.1 = i
      · subst hi; simp [h]
      · simp [hi]
    · rw [List.filter_cons_of_neg (by simpa using h), ih]
      by_cases hi : t.1 = i
      · subst hi; simp [h]
      · simp [hi]

theorem cooMat_filter_col (M : Coo m n ℝ) (mask : Fin n → Bool) (i : Fin m) (j : Fin n) :
    cooMat (M.filter fun t => mask t.2.1) i j = if mask j then cooMat M i j else 0 := by
  induction M with
  | nil => simp [cooMat]
  | cons t M ih =>
    rw [cooMat_cons, Matrix.add_apply, Matrix.single_apply]
    by_cases h : mask t.2.1
    · rw [List.filter_cons_of_pos (by simpa using h), cooMat_cons, Matrix.add_apply, ih, Matrix.single_apply]
      by_cases hi : t.2.1 = j
      · subst hi; simp [h]
      · simp [hi]
    · rw [List.filter_cons_of_neg (by simpa using h), ih]
      by_cases hi : t.2.1 = j
      · subst hi; simp [h]
      · simp [hi]

theorem maskRows_real (M : Coo m n ℝ) (mask : Fin m → Bool) (i : Fin m) (j : Fin n) :
    cooMat (maskRows M mask) i j = if mask i then cooMat M i j else 0 := by
  rw [maskRows]
  split
  · exact cooMat_filter_row M mask i j
  · rename_i h
    have : mask i = false := by
      simpa using fun e => h (List.any_eq_true.2 ⟨i, List.mem_finRange i, e⟩)
    simp [this, cooMat]

theorem maskCols_real (M : Coo m n ℝ) (mask : Fin n → Bool) (i : Fin m) (j : Fin n) :
    cooMat (maskCols M mask) i j = if mask j then cooMat M i j else 0 := by
  rw [maskCols]
  split
  · exact cooMat_filter_col M mask i j
  · rename_i h
    have : mask j = false := by
      simpa using fun e => h (List.any_eq_true.2 ⟨j, List.mem_finRange j, e⟩)
    simp [this, cooMat]

theorem cooMat_mapCol (M : Coo m p ℝ) (f : Fin p → Fin n) (i : Fin m) (j : Fin n) :
    cooMat (M.map fun t => (t.1, f t.2.1, t.2.2)) i j = ∑ c, if f c = j then cooMat M i c else 0 := by
  induction M with
  | nil => simp [cooMat]
  | cons t M ih =>
    rw [List.map_cons, cooMat_cons, cooMat_cons, Matrix.add_apply, ih, Matrix.single_apply]
    simp only [Matrix.add_apply, Matrix.single_apply]
    rw [show (∑ c, if f c = j then (if t.1 = i ∧ t.2.1 = c then t.2.2 else 0) + cooMat M i c else 0) =
      (∑ c, if t.2.1 = c then (if t.1 = i ∧ f c = j then t.2.2 else 0) else 0) + ∑ c, if f c = j then cooMat M i c else 0 by
        rw [← Finset.sum_add_distrib]
        refine Finset.sum_congr rfl fun c _ => ?_
        by_cases h1 : f c = j <;> by_cases h2 : t.2.1 = c <;> by_cases h3 : t.1 = i <;> simp [h1, h2, h3]]
    rw [Finset.sum_ite_eq]; simp

theorem cooMat_mapRow (M : Coo p n ℝ) (f : Fin p → Fin m) (i : Fin m) (j : Fin n) :
    cooMat (M.map fun t => (f t.1, t.2.1, t.2.2)) i j = ∑ c, if f c = i then cooMat M c j else 0 := by
  induction M with
  | nil => simp [cooMat]
  | cons t M ih =>
    rw [List.map_cons, cooMat_cons, cooMat_cons, Matrix.add_apply, ih, Matrix.single_apply]
    simp only [Matrix.add_apply, Matrix.single_apply]
    rw [show (∑ c, if f c = i then (if t.1 = c ∧ t.2.1 = j then t.2.2 else 0) + cooMat M c j else 0) =
      (∑ c, if t.1 = c then (if f c = i ∧ t.2.1 = j then t.2.2 else 0) else 0) + ∑ c, if f c = i then cooMat M c j else 0 by
        rw [← Finset.sum_add_distrib]
        refine Finset.sum_congr rfl fun c _ => ?_
        by_cases h1 : f c = i <;> by_cases h2 : t.1 = c <;> by_cases h3 : t.2.1 = j <;> simp [h1, h2, h3]]
    rw [Finset.sum_ite_eq]; simp

theorem mem_nonzero (mask : Fin m → Bool) (i : Fin m) : i ∈ nonzero mask ↔ mask i = true := by
  simp [nonzero]

theorem nodup_nonzero (mask : Fin m → Bool) : (nonzero mask).Nodup := (List.nodup_finRange m).filter _

theorem get_nonzero (mask : Fin m → Bool) (a : Fin (nonzero mask).length) : mask ((nonzero mask).get a) = true :=
  (mem_nonzero mask _).1 (List.get_mem _ a)

theorem exists_get (mask : Fin m → Bool) (i : Fin m) (h : mask i = true) : ∃ a, (nonzero mask).get a = i :=
  List.mem_iff_get.1 ((mem_nonzero mask i).2 h)

theorem get_inj (idx : List (Fin m)) (h : idx.Nodup) (a b : Fin idx.length) (e : idx.get a = idx.get b) : a = b :=
  h.injective_get e

theorem sum_get_hit (idx : List (Fin m)) (h : idx.Nodup) (a : Fin idx.length) (f : Fin idx.length → ℝ) :
    (∑ c, if idx.get c = idx.get a then f c else 0) = f a := by
  rw [Finset.sum_eq_single a]
  · simp
  · intro b _ hb; rw [if_neg fun e => hb (get_inj idx h _ _ e)]
  · simp

theorem sum_get_miss (idx : List (Fin m)) (i : Fin m) (h : i ∉ idx) (f : Fin idx.length → ℝ) :
    (∑ c, if idx.get c = i then f c else 0) = 0 := by
  refine Finset.sum_eq_zero fun c _ => ?_
  rw [if_neg]
  rintro rfl
  exact h (List.get_mem _ c)

/-- a sum over all positions, split by a mask -/
theorem sum_split (mask : Fin m → Bool) (f : Fin m → ℝ) :
    ∑ i, f i = (∑ a, f ((nonzero mask).get a)) + ∑ a, f ((nonzero fun i => !mask i).get a) := by
  have one : ∀ mask : Fin m → Bool, (∑ a, f ((nonzero mask).get a)) = ∑ i, if mask i then f i else 0 := by
    intro mask
    rw [← Finset.sum_filter]
    refine Finset.sum_bij (fun a _ => (nonzero mask).get a) ?_ ?_ ?_ ?_
    · intro a _; simpa using get_nonzero mask a
    · intro a _ b _ e; exact get_inj _ (nodup_nonzero mask) a b e
    · intro i hi
      obtain ⟨a, ha⟩ := exists_get mask i (by simpa using hi)
      exact ⟨a, Finset.mem_univ _, ha⟩
    · intro a _; rfl
  rw [one, one, ← Finset.sum_add_distrib]
  refine Finset.sum_congr rfl fun i _ => ?_
  cases mask i <;> simp

theorem setCols_hit (a : Mat p m ℝ) (idx : List (Fin m)) (h : idx.Nodup) (b : Mat p idx.length ℝ) (i : Fin p)
    (c : Fin idx.length) : BlockSparse.setCols a idx b i (idx.get c) = b i c := by
  have miss : ∀ (l : List (Fin idx.length)) (a : Mat p m ℝ), c ∉ l →
      (l.foldl (fun a c => Matrix.of fun i j => if j = idx.get c then b i c else a i j) a : Mat p m ℝ) i (idx.get c) =
        a i (idx.get c) := by
    intro l
    induction l with
    | nil => intro a _; rfl
    | cons d l ih =>
      intro a hc
      rw [List.foldl_cons, ih _ fun e => hc (List.mem_cons_of_mem _ e), Matrix.of_apply, if_neg]
      intro e; exact hc (get_inj idx h _ _ e ▸ List.mem_cons_self)
  have hit : ∀ (l : List (Fin idx.length)) (a : Mat p m ℝ), c ∈ l →
      (l.foldl (fun a c => Matrix.of fun i j => if j = idx.get c then b i c else a i j) a : Mat p m ℝ) i (idx.get c) =
        b i c := by
    intro l
    induction l with
    | nil => intro a hc; simp at hc
    | cons d l ih =>
      intro a hc
      rw [List.foldl_cons]
      by_cases hl : c ∈ l
      · exact ih _ hl
      · obtain rfl : c = d := by rcases List.mem_cons.1 hc with e | e; exacts [e, absurd e hl]
        rw [miss l _ hl, Matrix.of_apply, if_pos rfl]
  exact hit _ a (List.mem_finRange c)

theorem setCols_miss (a : Mat p m ℝ) (idx : List (Fin m)) (b : Mat p idx.length ℝ) (i : Fin p)
    (j : Fin m) (h : j ∉ idx) : BlockSparse.setCols a idx b i j = a i j := by
  have key : ∀ (l : List (Fin idx.length)) (a : Mat p m ℝ),
      (l.foldl (fun a c => Matrix.of fun i j => if j = idx.get c then b i c else a i j) a : Mat p m ℝ) i j = a i j := by
    intro l
    induction l with
    | nil => intro a; rfl
    | cons d l ih =>
      intro a
      rw [List.foldl_cons, ih, Matrix.of_apply, if_neg]
      rintro rfl; exact h (List.get_mem _ d)
  exact key _ a

theorem setRows_eq (a : Mat m p ℝ) (idx : List (Fin m)) (b : Mat idx.length p ℝ) (i : Fin m) (j : Fin p) :
    BlockSparse.setRows a idx b i j = BlockSparse.setCols aᵀ idx bᵀ j i := by
  have key : ∀ (l : List (Fin idx.length)) (a : Mat m p ℝ) (a' : Mat p m ℝ), (∀ i j, a i j = a' j i) → ∀ i j,
      (l.foldl (fun a c => Matrix.of fun i j => if i = idx.get c then b c j else a i j) a : Mat m p ℝ) i j =
      (l.foldl (fun a c => Matrix.of fun i j => if j = idx.get c then bᵀ i c else a i j) a' : Mat p m ℝ) j i := by
    intro l
    induction l with
    | nil => intro a a' h i j; exact h i j
    | cons d l ih =>
      intro a a' h i j
      rw [List.foldl_cons, List.foldl_cons]
      refine ih _ _ (fun i j => ?_) i j
      simp only [Matrix.of_apply, Matrix.transpose_apply, h]
  exact key _ a aᵀ (fun _ _ => rfl) i j

theorem setRows_hit (a : Mat m p ℝ) (idx : List (Fin m)) (h : idx.Nodup) (b : Mat idx.length p ℝ) 
    (c : Fin idx.length) (j : Fin p) : BlockSparse.setRows a idx b (idx.get c) j = b c j := by
  rw [setRows_eq, setCols_hit _ _ h]; rfl

theorem setRows_miss (a : Mat m p ℝ) (idx : List (Fin m)) (b : Mat idx.length p ℝ) (i : Fin m)
    (j : Fin p) (h : i ∉ idx) : BlockSparse.setRows a idx b i j = a i j := by
  rw [setRows_eq, setCols_miss _ _ _ _ _ h]; rfl

section
variable (B : BlockSparse m n ℝ)

theorem riS_not_mem (i : Fin m) (h : B.rs i = true) : i ∉ B.riD := by
  intro e
  have := (mem_nonzero B.rd i).1 e
  simp [BlockSparse.rd, h] at this

theorem riD_not_mem (i : Fin m) (h : B.rs i = false) : i ∉ B.riS := by
  intro e
  have := (mem_nonzero B.rs i).1 e
  simp [h] at this

theorem riD_get (i : Fin m) (h : B.rs i = false) : ∃ a, B.riD.get a = i :=
  exists_get B.rd i (by simp [BlockSparse.rd, h])

theorem blockS_real (i : Fin m) (j : Fin n) : B.blockS.dense i j = if B.rs i then cooMat B.M i j else 0 := by
  rw [dense_real, BlockSparse.blockS, maskRows_real]

theorem blockD_real (a : Fin B.riD.length) (j : Fin n) : B.blockD a j = cooMat B.M (B.riD.get a) j := by
  have h : B.rd (B.riD.get a) = true := get_nonzero B.rd a
  rw [BlockSparse.blockD, takeRows, Matrix.of_apply, dense_real, maskRows_real, if_pos h]

/-- **C62** `MMT()` is `M Mᵀ`, for every matrix and all masks. -/
theorem C62_MMT : cooMat B.MMT = cooMat B.M * (cooMat B.M)ᵀ := by
  rw [BlockSparse.MMT]
  split
  · obtain ⟨s, hs⟩ : ∃ s, s = B.blockS.dense := ⟨_, rfl⟩
    have s_eq : ∀ i j, s i j = if B.rs i then cooMat B.M i j else 0 := fun i j => by rw [hs, blockS_real]
    have hnd : B.riD.Nodup := nodup_nonzero _
    simp only [cooMat_append, ← hs]
    ext i j
    rw [Matrix.add_apply, Matrix.add_apply, cooMat_toCoo, cooMat_mapRow, cooMat_mapCol, cooMat_toCoo, cooMat_toCoo]
    simp only [Mat.mul_real, Mat.tr_eq]
    rw [Matrix.mul_apply, Matrix.mul_apply]
    simp only [Matrix.transpose_apply]
    cases hi : B.rs i <;> cases hj : B.rs j
    · obtain ⟨a, rfl⟩ := riD_get B i hi
      obtain ⟨b, rfl⟩ := riD_get B j hj
      rw [sum_get_hit _ hnd, sum_get_hit _ hnd, setCols_hit _ _ hnd, Matrix.mul_apply, Matrix.mul_apply]
      simp only [s_eq, hi, hj, blockD_real, Matrix.transpose_apply]
      simp
    · obtain ⟨a, rfl⟩ := riD_get B i hi
      rw [sum_get_hit _ hnd, sum_get_miss _ _ (riS_not_mem B j hj), setCols_miss _ _ _ _ _ (riS_not_mem B j hj),
        Matrix.transpose_apply, Matrix.mul_apply]
      simp only [s_eq, hi, hj, blockD_real, Matrix.transpose_apply]
      simp [mul_comm]
    · obtain ⟨b, rfl⟩ := riD_get B j hj
      rw [sum_get_hit _ hnd, sum_get_miss _ _ (riS_not_mem B i hi), Matrix.mul_apply]
      simp only [s_eq, hi, hj, blockD_real, Matrix.transpose_apply]
      simp
    · rw [sum_get_miss _ _ (riS_not_mem B j hj), sum_get_miss _ _ (riS_not_mem B i hi)]
      simp [s_eq, hi, hj]
  · rw [cooMat_toCoo, Mat.mul_real, Mat.tr_eq, dense_real]

/-- **C62** `MTM()` is `Mᵀ M`. -/
theorem C62_MTM : cooMat B.MTM = (cooMat B.M)ᵀ * cooMat B.M := by
  rw [BlockSparse.MTM, cooMat_toCoo, Mat.mul_real, Mat.tr_eq, dense_real]

/-- **C62** `matmat` is the product. -/
theorem C62_matmat (v : Mat n k ℝ) : B.matmat v = cooMat B.M * v := by
  rw [BlockSparse.matmat, Mat.mul_real, dense_real]

/-- **C62** The blocks reassemble the matrix: every row number is in exactly one of the two row lists, every column
number in exactly one of the column lists, and the entry is found in the block selected by these.  The block of
the dense columns of the sparse rows has a row for every row of the matrix (zero for the dense rows). -/
theorem C62_blocks :
    (∀ i, (i ∈ B.riS ↔ B.rs i = true) ∧ (i ∈ B.riD ↔ B.rs i = false)) ∧
    (∀ j, (j ∈ B.ciS ↔ B.cs j = true) ∧ (j ∈ B.ciD ↔ B.cs j = false)) ∧
    B.riS.Nodup ∧ B.riD.Nodup ∧ B.ciS.Nodup ∧ B.ciD.Nodup ∧
    (∀ a b, B.sparseBlock a b = cooMat B.M (B.riS.get a) (B.ciS.get b)) ∧
    (∀ a b, B.blockDS a b = cooMat B.M (B.riD.get a) (B.ciS.get b)) ∧
    (∀ a b, B.blockDD a b = cooMat B.M (B.riD.get a) (B.ciD.get b)) ∧
    (B.ciD ≠ [] → B.blockSD =
      ⟨m, Matrix.of fun i b => if B.rs i then cooMat B.M i (B.ciD.get b) else 0⟩) := by
  refine ⟨?_, ?_, nodup_nonzero _, nodup_nonzero _, nodup_nonzero _, nodup_nonzero _, ?_, ?_, ?_, ?_⟩
  · intro i; exact ⟨mem_nonzero _ i, by rw [BlockSparse.riD, mem_nonzero]; simp [BlockSparse.rd]⟩
  · intro i; exact ⟨mem_nonzero _ i, by rw [BlockSparse.ciD, mem_nonzero]; simp [BlockSparse.cd]⟩
  · intro a b
    have h1 : B.rs (B.riS.get a) = true := get_nonzero B.rs a
    have h2 : B.cs (B.ciS.get b) = true := get_nonzero B.cs b
    rw [BlockSparse.sparseBlock, takeRows, Matrix.of_apply, takeCols, Matrix.of_apply, dense_real, BlockSparse.blockSS,
      maskCols_real, BlockSparse.blockS, maskRows_real, if_pos h1, if_pos h2]
  · intro a b; rw [BlockSparse.blockDS, takeCols, Matrix.of_apply, blockD_real]
  · intro a b; rw [BlockSparse.blockDD, takeCols, Matrix.of_apply, blockD_real]
  · intro h
    have hl : B.ciD.length ≠ 0 := by simpa using h
    rw [BlockSparse.blockSD, if_pos hl]
    congr 1
    ext i b
    have h2 : B.cd (B.ciD.get b) = true := get_nonzero B.cd b
    rw [takeCols, Matrix.of_apply, dense_real, maskCols_real, if_pos h2, BlockSparse.blockS, maskRows_real, Matrix.of_apply]


theorem addRows_same (b : Mat m k ℝ) (rows : List (Fin m)) (hn : rows.Nodup) (r : ℕ) (X : Mat r k ℝ)
    (h : r = rows.length) : ∃ b', BlockSparse.addRows b rows ⟨r, X⟩ = .ok b' ∧
      (∀ a c, b' (rows.get a) c = b (rows.get a) c + X (a.cast h.symm) c) ∧ ∀ i ∉ rows, ∀ c, b' i c = b i c := by
  subst h
  rw [BlockSparse.addRows, dif_pos rfl]
  refine ⟨_, rfl, ?_, ?_⟩
  · intro a c; rw [setRows_hit _ _ hn]; rfl
  · intro i hi c; rw [setRows_miss _ _ _ _ _ hi]

theorem get_all (mask : Fin m → Bool) (h : ∀ i, mask i = true) (e : m = (nonzero mask).length)
    (a : Fin (nonzero mask).length) : (nonzero mask).get a = a.cast e.symm := by
  have hl : nonzero mask = List.finRange m := List.filter_eq_self.2 fun i _ => h i
  ext
  simp [List.get_eq_getElem, hl]

theorem length_all (mask : Fin m → Bool) (h : ∀ i, mask i = true) : m = (nonzero mask).length := by
  have hl : nonzero mask = List.finRange m := List.filter_eq_self.2 fun i _ => h i
  rw [hl, List.length_finRange]

/-- what `matvec` ends with, given the sparse rows -/
theorem matvec_rest (v : Mat n k ℝ) (b : Mat m k ℝ)
    (hb : ∀ i c, B.rs i = true → b i c = (cooMat B.M * v) i c) :
    BlockSparse.setRows b B.riD ((B.blockDS.mul (takeRows v B.ciS)).add (B.blockDD.mul (takeRows v B.ciD))) =
      cooMat B.M * v := by
  obtain ⟨_, _, _, hnd, _, _, _, hds, hdd, _⟩ := C62_blocks B
  ext i c
  cases hi : B.rs i
  · obtain ⟨a, rfl⟩ := riD_get B i hi
    rw [setRows_hit _ _ hnd, Mat.add_real, Mat.mul_real, Mat.mul_real, Matrix.add_apply, Matrix.mul_apply,
      Matrix.mul_apply, Matrix.mul_apply, sum_split B.cs]
    congr 1
    · exact Finset.sum_congr rfl fun x _ => by rw [hds]; rfl
    · exact Finset.sum_congr rfl fun x _ => by rw [hdd]; rfl
  · rw [setRows_miss _ _ _ _ _ (riS_not_mem B i hi), hb i c hi]

theorem blockSS_real (i : Fin m) (j : Fin n) :
    B.blockSS.dense i j = if B.cs j then (if B.rs i then cooMat B.M i j else 0) else 0 := by
  rw [dense_real, BlockSparse.blockSS, maskCols_real, BlockSparse.blockS, maskRows_real]

/-- **C62** `matvec` of a 2-d array (of any number of columns) is the product `M v`, if there are no dense columns
or no dense rows or the matrix has a single row.  In all other cases it raises. -/
theorem C62_matvec (v : Mat n k ℝ) :
    B.matvec (.cols v) =
      (open Classical in if B.ciD = [] ∨ B.riD = [] ∨ m = 1 then .ok (cooMat B.M * v) else .error .ValueError) := by
  obtain ⟨hr, hc, hns, hnd, _, _, _, hds, hdd, hsd⟩ := C62_blocks B
  obtain ⟨b0, hb0⟩ : ∃ b0, b0 = B.blockSS.dense.mul v := ⟨_, rfl⟩
  have hb0' : ∀ i c, B.rs i = true → b0 i c = ∑ a, cooMat B.M i (B.ciS.get a) * v (B.ciS.get a) c := by
    intro i c hi
    rw [hb0, Mat.mul_real, Matrix.mul_apply, sum_split B.cs]
    have h2 : (∑ a, B.blockSS.dense i ((nonzero fun i => !B.cs i).get a) * v ((nonzero fun i => !B.cs i).get a) c) = 0 := by
      refine Finset.sum_eq_zero fun a _ => ?_
      have : B.cs ((nonzero fun i => !B.cs i).get a) = false := by
        simpa using get_nonzero (fun i => !B.cs i) a
      rw [blockSS_real, this]; simp
    rw [h2, add_zero]
    refine Finset.sum_congr rfl fun a _ => ?_
    have : B.cs ((nonzero B.cs).get a) = true := get_nonzero B.cs a
    rw [blockSS_real, this, hi]; rfl
  have hsplit : ∀ i c, (cooMat B.M * v) i c = (∑ a, cooMat B.M i (B.ciS.get a) * v (B.ciS.get a) c) +
      ∑ a, cooMat B.M i (B.ciD.get a) * v (B.ciD.get a) c := by
    intro i c; rw [Matrix.mul_apply, sum_split B.cs]; rfl
  rw [BlockSparse.matvec]
  simp only [← hb0]
  by_cases h0 : B.ciD = []
  · rw [if_pos (Or.inl h0)]
    have hl : ¬ B.ciD.length ≠ 0 := by simp [h0]
    rw [BlockSparse.blockSD, if_neg hl]
    obtain ⟨b', h1, h2, h3⟩ := addRows_same b0 B.riS hns B.riS.length
      (Mat.mul (Matrix.of fun _ _ => Num.lit 0 : Mat B.riS.length B.ciD.length ℝ) (takeRows v B.ciD)) rfl
    rw [h1, ok_bind, pure_eq_ok, matvec_rest]
    intro i c hi
    obtain ⟨a, ha⟩ : ∃ a, B.riS.get a = i := exists_get B.rs i hi
    have h2' := h2 a c
    rw [ha, hb0' i c hi, Mat.mul_real, Matrix.mul_apply] at h2'
    rw [hsplit, h2']
    congr 1
    have hem : IsEmpty (Fin B.ciD.length) := by rw [h0]; exact Fin.isEmpty
    rw [Finset.univ_eq_empty, Finset.sum_empty, Finset.sum_empty]
  · have hsd' := hsd h0
    obtain ⟨X, hX⟩ : ∃ X : Mat m B.ciD.length ℝ,
      X = Matrix.of fun i b => if B.rs i then cooMat B.M i (B.ciD.get b) else 0 := ⟨_, rfl⟩
    rw [hsd', ← hX]
    by_cases h1 : B.riD = []
    · rw [if_pos (Or.inr (Or.inl h1))]
      have hall : ∀ i, B.rs i = true := by
        intro i
        by_contra hi
        have := (hr i).2.2 (by simpa using hi)
        rw [h1] at this; simp at this
      have hlen : m = B.riS.length := length_all B.rs hall
      obtain ⟨b', e1, e2, e3⟩ := addRows_same b0 B.riS hns m (X.mul (takeRows v B.ciD)) hlen
      rw [e1, ok_bind, pure_eq_ok, matvec_rest]
      intro i c hi
      obtain ⟨a, ha⟩ : ∃ a, B.riS.get a = i := exists_get B.rs i hi
      have ha' : a.cast hlen.symm = i := by rw [← ha]; exact (get_all B.rs hall hlen a).symm
      have h2' := e2 a c
      rw [ha, ha', hb0' i c hi, Mat.mul_real, Matrix.mul_apply] at h2'
      rw [hsplit, h2']
      congr 1
      refine Finset.sum_congr rfl fun x _ => ?_
      rw [hX, Matrix.of_apply, if_pos hi]; rfl
    · obtain ⟨d, hd⟩ := List.exists_mem_of_ne_nil _ h1
      have hd' := (hr d).2.1 hd
      have hlt : B.riS.length < m := by
        have h1 : B.riS.length ≤ m := by
          have := List.length_filter_le B.rs (List.finRange m)
          rwa [List.length_finRange] at this
        refine lt_of_le_of_ne h1 fun e => ?_
        have hf : (List.finRange m).filter B.rs = List.finRange m :=
          List.filter_sublist.eq_of_length (by rw [List.length_finRange]; exact e)
        have := List.filter_eq_self.1 hf d (List.mem_finRange d)
        simp [hd'] at this
      by_cases hm : m = 1
      · rw [if_pos (Or.inr (Or.inr hm))]
        have hnil : B.riS = [] := List.eq_nil_of_length_eq_zero (by omega)
        have hne : ¬ m = B.riS.length := by omega
        rw [BlockSparse.addRows, dif_neg hne, dif_pos hm, ok_bind, pure_eq_ok, matvec_rest]
        intro i c hi
        have := (hr i).1.2 hi
        rw [hnil] at this; simp at this
      · rw [if_neg (by tauto)]
        have hne : ¬ m = B.riS.length := by omega
        rw [BlockSparse.addRows, dif_neg hne, dif_neg hm]
        rfl

/-- **C62** For a 1-d array `matvec` always raises. -/
theorem C62_matvec_flat (v : Fin n → ℝ) : B.matvec (k := k) (.flat v) = .error .ValueError := rfl

end

/-- **C62** The masks used: those given; everything counts as sparse for empty masks; without masks, the rows (columns)
with fewer stored entries than the threshold times the larger side. -/
theorem C62_masks (M : Coo m n ℝ) (r : MaskArg m) (c : MaskArg n) (t : ℝ) :
    (BlockSparse.new M r c t).M = M ∧
    (∀ f, r = .given f → (BlockSparse.new M r c t).rs = f) ∧ (∀ f, c = .given f → (BlockSparse.new M r c t).cs = f) ∧
    (r = .empty → ∀ i, (BlockSparse.new M r c t).rs i = true) ∧ (c = .empty → ∀ j, (BlockSparse.new M r c t).cs j = true) ∧
    (r = .none → ∀ i, (BlockSparse.new M r c t).rs i = true ↔
      (({j | ∃ x, (i, j, x) ∈ M} : Set (Fin n)).ncard : ℝ) < t * (max m n : ℕ)) ∧
    (c = .none → ∀ j, (BlockSparse.new M r c t).cs j = true ↔
      (({i | ∃ x, (i, j, x) ∈ M} : Set (Fin m)).ncard : ℝ) < t * (max m n : ℕ)) := by
  classical
  refine ⟨rfl, ?_, ?_, ?_, ?_, ?_, ?_⟩
  · rintro f rfl; rfl
  · rintro f rfl; rfl
  · rintro rfl i; rfl
  · rintro rfl i; rfl
  · rintro rfl i
    have e : elementsPerRow M i = ({j | ∃ x, (i, j, x) ∈ M} : Set (Fin n)).ncard := by
      rw [elementsPerRow, ← List.card_toFinset, ← Set.ncard_coe_finset]
      congr 1
      ext j
      simp only [Finset.mem_coe, List.mem_toFinset, List.mem_map, List.mem_filter, decide_eq_true_eq, Set.mem_setOf_eq]
      constructor
      · rintro ⟨⟨a, b, x⟩, ⟨h, rfl⟩, rfl⟩; exact ⟨x, h⟩
      · rintro ⟨x, h⟩; exact ⟨(i, j, x), ⟨h, rfl⟩, rfl⟩
    simp only [BlockSparse.new, Num.lt_real, Num.lit_real, ← e]
    norm_num
  · rintro rfl j
    have e : elementsPerCol M j = ({i | ∃ x, (i, j, x) ∈ M} : Set (Fin m)).ncard := by
      rw [elementsPerCol, ← List.card_toFinset, ← Set.ncard_coe_finset]
      congr 1
      ext i
      simp only [Finset.mem_coe, List.mem_toFinset, List.mem_map, List.mem_filter, decide_eq_true_eq, Set.mem_setOf_eq]
      constructor
      · rintro ⟨⟨a, b, x⟩, ⟨h, rfl⟩, rfl⟩; exact ⟨x, h⟩
      · rintro ⟨x, h⟩; exact ⟨(i, j, x), ⟨h, rfl⟩, rfl⟩
    simp only [BlockSparse.new, Num.lt_real, Num.lit_real, ← e]
    norm_num

/-- **C62** `mask_sparse_matrix` keeps the entries in selected rows and columns, except that a mask which selects
nothing does not count. -/
theorem C62_mask_both (M : Coo m n ℝ) (r : Fin m → Bool) (c : Fin n → Bool) (i : Fin m) (j : Fin n) :
    cooMat (maskBoth M r c) i j =
      if ((∃ j, c j) → c j) ∧ ((∃ i, r i) → r i) ∧ ((∃ j, c j) ∨ ∃ i, r i) then cooMat M i j else 0 := by
  rw [maskBoth]
  have hc : (List.finRange n).any c = true ↔ ∃ j, c j = true := by simp
  have hr : (List.finRange m).any r = true ↔ ∃ i, r i = true := by simp
  by_cases h1 : ∃ j, c j = true
  · rw [if_neg (not_not.2 (hc.2 h1))]
    by_cases h2 : ∃ i, r i = true
    · rw [if_neg (not_not.2 (hr.2 h2))]
      have e : (M.filter fun t => c t.2.1 && r t.1) = (M.filter fun t => c t.2.1).filter fun t => r t.1 := by
        rw [List.filter_filter]; congr 1; funext t; rw [Bool.and_comm]
      rw [e, cooMat_filter_row, cooMat_filter_col]
      simp only [h1, h2, true_or, and_true, forall_const]
      by_cases a : r i <;> by_cases b : c j <;> simp [a, b]
    · rw [if_pos (fun e => h2 (hr.1 e)), maskCols_real]
      simp only [h1, h2, true_or, and_true, forall_const, IsEmpty.forall_iff]
  · rw [if_pos (fun e => h1 (hc.1 e)), maskRows_real]
    by_cases h2 : ∃ i, r i = true
    · simp only [h1, h2, or_true, and_true, true_and, forall_const, IsEmpty.forall_iff]
    · have hi : r i = false := by simpa using fun e => h2 ⟨i, e⟩
      simp [h1, h2, hi]

/-- a matrix with a dense row, a repeated position and a stored zero -/
example : cooMat ((BlockSparse.new (m := 2) (n := 2) [(0, 0, 1), (0, 1, 2), (1, 1, 3), (1, 1, 4), (1, 0, 0)]
    (.given ![false, true]) .empty (0 : ℝ)).MMT) = !![5, 14; 14, 49] := by
  rw [C62_MMT]
  ext i j
  fin_cases i <;> fin_cases j <;> norm_num [BlockSparse.new, cooMat, Matrix.mul_apply, Fin.sum_univ_two, Matrix.single]

/-- `matvec` fails with a dense row and a dense column -/
example (v : Mat 2 1 ℝ) : (BlockSparse.new (m := 2) (n := 2) [(0, 0, 1), (0, 1, 2)] (.given ![false, true])
    (.given ![true, false]) (0 : ℝ)).matvec (.cols v) = .error .ValueError := by
  rw [C62_matvec, if_neg]
  rintro (h | h | h)
  · have : (1 : Fin 2) ∈ ([] : List (Fin 2)) := by
      rw [← h, BlockSparse.ciD, mem_nonzero]; rfl
    simp at this
  · have : (0 : Fin 2) ∈ ([] : List (Fin 2)) := by
      rw [← h, BlockSparse.riD, mem_nonzero]; rfl
    simp at this
  · omega

end Blmath.Props
