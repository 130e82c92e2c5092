import Verif.Spec.Normals
import Mathlib.Tactic

/-!
Lemmas about the layout of the matrices in `normals.py`.
-/

namespace Blmath.Normals
open Blmath.Linalg Blmath.Spec
variable {β γ : Type}

/-- component `c` -/
def comp (r : V3 β) (c : Fin 3) : β := ![r.x, r.y, r.z] c

@[simp] theorem comp_zero (r : V3 β) : comp r 0 = r.x := rfl
@[simp] theorem comp_one (r : V3 β) : comp r 1 = r.y := rfl
@[simp] theorem comp_two (r : V3 β) : comp r 2 = r.z := rfl

/-- the row of a function -/
def toV (f : Fin 3 → β) : V3 β := ⟨f 0, f 1, f 2⟩

@[simp] theorem comp_toV (f : Fin 3 → β) (c : Fin 3) : comp (toV f) c = f c := by
  fin_cases c <;> rfl

@[simp] theorem toV_x (f : Fin 3 → β) : (toV f).x = f 0 := rfl
@[simp] theorem toV_y (f : Fin 3 → β) : (toV f).y = f 1 := rfl
@[simp] theorem toV_z (f : Fin 3 → β) : (toV f).z = f 2 := rfl

theorem rows3_ravel3 (l : List (V3 β)) : rows3 (ravel3 l) = .ok l := by
  induction l with
  | nil => rfl
  | cons a l ih =>
    have : ravel3 (a :: l) = a.x :: a.y :: a.z :: ravel3 l := rfl
    rw [this, rows3, ih]
    rfl

theorem ravel3_length (l : List (V3 β)) : (ravel3 l).length = l.length * 3 := by
  induction l with
  | nil => rfl
  | cons a l ih =>
    have : ravel3 (a :: l) = a.x :: a.y :: a.z :: ravel3 l := rfl
    rw [this]
    simp [ih]; omega

theorem ravel3_get (l : List (V3 β)) (i : ℕ) (c : Fin 3) :
    (ravel3 l)[i * 3 + (c : ℕ)]? = l[i]?.map fun r => comp r c := by
  induction l generalizing i with
  | nil => simp [ravel3]
  | cons a l ih =>
    have : ravel3 (a :: l) = a.x :: a.y :: a.z :: ravel3 l := rfl
    rw [this]
    cases i with
    | zero => fin_cases c <;> simp
    | succ i =>
      have e : (i + 1) * 3 + (c : ℕ) = i * 3 + (c : ℕ) + 1 + 1 + 1 := by ring
      rw [e, List.getElem?_cons_succ, List.getElem?_cons_succ, List.getElem?_cons_succ, ih]
      simp

/-- only lists whose length is a multiple of three can be cut into rows -/
theorem rows3_eq_ok (l : List β) (r : List (V3 β)) : rows3 l = .ok r ↔ l = ravel3 r := by
  constructor
  · intro h
    induction l using rows3.induct generalizing r with
    | case1 => simp [rows3] at h; subst h; rfl
    | case2 a b c l ih =>
      rw [rows3] at h
      obtain ⟨r', hr', h⟩ := (bind_eq_ok ..).1 h
      simp at h
      subst h
      have := ih _ hr'
      rw [this]; rfl
    | case3 => simp_all [rows3, raise]
  · rintro rfl
    exact rows3_ravel3 r

theorem rows3_length_mod (l : List β) (h : l.length % 3 ≠ 0) : rows3 l = raise .ValueError := by
  induction l using rows3.induct with
  | case1 => simp at h
  | case2 a b c l ih =>
    rw [rows3, ih (by simp at h; omega)]; rfl
  | case3 => simp_all [rows3]

theorem flat_eq {n : ℕ} (x : Fin n → Fin 3 → β) : flat x = ravel3 (List.ofFn fun i => toV (x i)) := by
  have : (List.ofFn fun i => toV (x i)) = (List.ofFn x).map toV := by rw [List.map_ofFn]; rfl
  rw [flat, ravel3, this, List.flatMap_map]
  congr 1

theorem flat_length {n : ℕ} (x : Fin n → Fin 3 → β) : (flat x).length = n * 3 := by
  rw [flat_eq, ravel3_length, List.length_ofFn]

theorem rows3_flat {n : ℕ} (x : Fin n → Fin 3 → β) : rows3 (flat x) = .ok (List.ofFn fun i => toV (x i)) := by
  rw [flat_eq, rows3_ravel3]

theorem ravel3_map_ofFn {n : ℕ} (x : Fin n → Fin 3 → β) (g : V3 β → V3 γ) (y : Fin n → Fin 3 → γ)
    (h : ∀ i, g (toV (x i)) = toV (y i)) : ravel3 ((List.ofFn fun i => toV (x i)).map g) = flat y := by
  rw [flat_eq, List.map_ofFn]
  congr 2
  funext i
  exact h i

/-- every list of numbers whose length is a multiple of three is an array with three columns -/
theorem exists_flat (l : List β) (h : l.length % 3 = 0) : ∃ n, ∃ x : Fin n → Fin 3 → β, l = flat x := by
  induction l using rows3.induct with
  | case1 => exact ⟨0, fun i => i.elim0, rfl⟩
  | case2 a b c l ih =>
    obtain ⟨n, x, rfl⟩ := ih (by simp at h; omega)
    refine ⟨n + 1, Fin.cons ![a, b, c] x, ?_⟩
    rw [flat_eq, flat_eq, List.ofFn_succ]
    rfl
  | case3 l h1 h2 =>
    exfalso
    match l, h1, h2, h with
    | [], h1, _, _ => exact h1 rfl
    | [a], _, _, h => simp at h
    | [a, b], _, _, h => simp at h
    | a :: b :: c :: l, _, h2, _ => exact h2 a b c l rfl

theorem range_ravel3 (f : ℕ → β) (n : ℕ) :
    (List.range (n * 3)).map f = ravel3 ((List.range n).map fun i => ⟨f (i * 3), f (i * 3 + 1), f (i * 3 + 2)⟩) := by
  induction n with
  | zero => rfl
  | succ n ih =>
    have e : (n + 1) * 3 = n * 3 + 1 + 1 + 1 := by ring
    rw [e, List.range_succ, List.range_succ, List.range_succ]
    rw [List.range_succ (n := n)]
    simp only [List.map_append, List.append_assoc, ih]
    simp [ravel3]

theorem blockIndices_mul (n : ℕ) :
    blockIndices (n * 3) = .ok (ravel33 ((List.range n).map fun i =>
      tr33 ⟨⟨i * 3, i * 3, i * 3⟩, ⟨i * 3 + 1, i * 3 + 1, i * 3 + 1⟩, ⟨i * 3 + 2, i * 3 + 2, i * 3 + 2⟩⟩)) := by
  rw [blockIndices, range_ravel3, rows3_ravel3]
  simp [List.map_map, Function.comp_def]

theorem blockIndices_bad (m : ℕ) (h : m % 3 ≠ 0) : blockIndices m = raise .ValueError := by
  rw [blockIndices, rows3_length_mod _ (by simpa using h)]
  rfl

theorem ravel33_length (l : List (V3 (V3 β))) : (ravel33 l).length = l.length * 3 * 3 := by
  rw [ravel33, ravel3_length, ravel3_length]

theorem ravel33_get (l : List (V3 (V3 β))) (i : ℕ) (a b : Fin 3) :
    (ravel33 l)[(i * 3 + (a : ℕ)) * 3 + (b : ℕ)]? = l[i]?.map fun m => comp (comp m a) b := by
  rw [ravel33, ravel3_get, ravel3_get]
  simp [Option.map_map, Function.comp_def]

/-- the indices stored for an array with `n` rows -/
def idxList (n : ℕ) : List ℕ := ravel33 ((List.range n).map fun i =>
  tr33 ⟨⟨i * 3, i * 3, i * 3⟩, ⟨i * 3 + 1, i * 3 + 1, i * 3 + 1⟩, ⟨i * 3 + 2, i * 3 + 2, i * 3 + 2⟩⟩)

theorem idxList_length (n : ℕ) : (idxList n).length = n * 3 * 3 := by
  rw [idxList, ravel33_length]; simp

theorem idxList_get (n i : ℕ) (hi : i < n) (a b : Fin 3) :
    (idxList n)[(i * 3 + (a : ℕ)) * 3 + (b : ℕ)]? = some (i * 3 + (b : ℕ)) := by
  rw [idxList, ravel33_get]
  simp only [List.getElem?_map, List.getElem?_range hi, Option.map_some]
  fin_cases a <;> fin_cases b <;> rfl

theorem ravel3_mem (l : List (V3 β)) (x : β) (h : x ∈ ravel3 l) : ∃ r ∈ l, ∃ c, x = comp r c := by
  simp only [ravel3, List.mem_flatMap] at h
  obtain ⟨r, hr, hx⟩ := h
  refine ⟨r, hr, ?_⟩
  simp at hx
  rcases hx with rfl | rfl | rfl
  · exact ⟨0, rfl⟩
  · exact ⟨1, rfl⟩
  · exact ⟨2, rfl⟩

theorem idxList_lt (n x : ℕ) (h : x ∈ idxList n) : x < n * 3 := by
  obtain ⟨r, hr, c, rfl⟩ := ravel3_mem _ _ h
  obtain ⟨m, hm, d, rfl⟩ := ravel3_mem _ _ hr
  simp only [List.mem_map, List.mem_range] at hm
  obtain ⟨i, hi, rfl⟩ := hm
  fin_cases c <;> fin_cases d <;> simp [tr33] <;> omega

/-- the matrix built from `n` blocks -/
def blockCsc (n : ℕ) (data : List ℝ) : Csc ℝ := ⟨n * 3, n * 3, blockIndptr (n * 3), idxList n, data⟩

theorem blockCsc_valid (n : ℕ) (data : List ℝ) (h : data.length = n * 3 * 3) : CscValid (n * 3) (blockCsc n data) := by
  refine ⟨rfl, rfl, by simp [blockCsc, blockIndptr], by simp [blockCsc, blockIndptr, List.range_succ_eq_map], ?_, ?_, ?_, ?_⟩
  · simp only [blockCsc, blockIndptr, List.pairwise_map]
    exact (List.pairwise_lt_range (n := n * 3 + 1)).imp fun h => Nat.mul_le_mul_right _ h.le
  · simp [blockCsc, h, idxList_length]
  · intro p hp
    simp only [blockCsc, blockIndptr, List.mem_map, List.mem_range] at hp
    obtain ⟨k, hk, rfl⟩ := hp
    simp only [blockCsc, idxList_length]
    omega
  · exact fun i hi => idxList_lt n i hi

theorem cscNew_block {R : Type} [Num R] (n : ℕ) (data : List R) (h : data.length = n * 3 * 3) :
    cscNew data (idxList n) (blockIndptr (n * 3)) (n * 3) (n * 3) =
      .ok ⟨n * 3, n * 3, blockIndptr (n * 3), idxList n, data⟩ := by
  have h1 : (blockIndptr (n * 3)).length = n * 3 + 1 := by simp [blockIndptr]
  have h2 : (blockIndptr (n * 3)).head? = some 0 := by simp [blockIndptr, List.range_succ_eq_map]
  have h3 : ¬ ∃ p ∈ (blockIndptr (n * 3)).getLast?, p > (idxList n).length := by
    simp [blockIndptr, List.range_succ, idxList_length]
  rw [cscNew, if_neg (by simp [h1]), if_neg (by simp [h2]), if_neg (by simp [h, idxList_length]), if_neg h3]

theorem blockCsc_dense (n : ℕ) (B : Fin n → V3 (V3 ℝ)) (i j : Fin n) (k l : Fin 3) :
    cscDense (n * 3) (blockCsc n (ravel33 (List.ofFn B))) (idx i k) (idx j l) =
      if i = j then comp (comp (B j) l) k else 0 := by
  have hj := j.2
  have hl := l.2
  simp only [cscDense, Matrix.of_apply, blockCsc, idx]
  have g : ∀ t ≤ n * 3, (blockIndptr (n * 3)).getD t 0 = t * 3 := by
    intro t ht
    have : t < n * 3 + 1 := by omega
    simp [blockIndptr, List.getD_eq_getElem?_getD, this]
  rw [g _ (by omega), g _ (by omega), Finset.sum_Ico_eq_sum_range]
  have e3 : ((j : ℕ) * 3 + l + 1) * 3 - ((j : ℕ) * 3 + l) * 3 = 3 := by omega
  rw [e3, Finset.sum_range]
  have hd : ∀ t : Fin 3, (ravel33 (List.ofFn B)).getD (((j : ℕ) * 3 + l) * 3 + t) 0 = comp (comp (B j) l) t := by
    intro t
    rw [List.getD_eq_getElem?_getD, ravel33_get]
    simp
  have hi : ∀ t : Fin 3, ((idxList n)[((j : ℕ) * 3 + l) * 3 + (t : ℕ)]? = some ((i : ℕ) * 3 + k)) ↔ (i = j ∧ t = k) := by
    intro t
    have := t.2
    have := k.2
    rw [idxList_get n j hj, Option.some_inj, Fin.ext_iff, Fin.ext_iff]
    omega
  simp only [hd, hi]
  by_cases h : i = j
  · simp [h]
  · simp [h]

end Blmath.Normals
