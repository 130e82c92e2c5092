import Verif.Model.Matlab
import Verif.Spec.Lchol
import Mathlib.Tactic

/-!
C67: the functions with Matlab names.
-/

namespace Blmath.Props
open Blmath.Matlab Blmath.Spec Blmath.Linalg
variable {β γ : Type} {m n : ℕ}

theorem flatMap_get (f : Fin m → Fin n → β) (i : Fin m) (j : Fin n) :
    ((List.ofFn f).flatMap List.ofFn)[(i : ℕ) * n + (j : ℕ)]? = some (f i j) := by
  induction m with
  | zero => exact i.elim0
  | succ m ih =>
    rw [List.ofFn_succ, List.flatMap_cons]
    refine Fin.cases ?_ (fun i => ?_) i
    · rw [List.getElem?_append_left (by simp)]
      simp
    · rw [List.getElem?_append_right (by simp [Nat.succ_mul]; omega)]
      have e : ((i.succ : Fin (m + 1)) : ℕ) * n + (j : ℕ) - (List.ofFn (f 0)).length = (i : ℕ) * n + (j : ℕ) := by
        simp [Nat.succ_mul]; omega
      rw [e]
      exact ih (fun i => f i.succ) i

theorem ofFn_get (f : Fin m → Fin n → β) (i : Fin m) (j : Fin n) : (Matlab.ofFn m n f).get? i j = some (f i j) := by
  rw [Arr2.get?, Matlab.ofFn]
  simp only [j.2, if_true]
  exact flatMap_get f i j

theorem range_flatMap {F : ℕ → ℕ → Option β} (h : Fin m → Fin n → β) (hF : ∀ (i : Fin m) (j : Fin n), F i j = some (h i j)) :
    ((List.range m).flatMap fun i => (List.range n).filterMap (F i)) = (List.ofFn h).flatMap List.ofFn := by
  rw [← List.map_coe_finRange_eq_range (n := m), List.flatMap_map, List.ofFn_eq_map, List.flatMap_map]
  congr 1
  funext i
  rw [← List.map_coe_finRange_eq_range, List.filterMap_map, List.ofFn_eq_map, ← List.filterMap_eq_map]
  congr 1
  funext j
  exact hF i j

/-- **C67** `row` makes one row of the elements, `col` one column, in the same order. -/
theorem C67_row_col (x : List β) : (row x).nrow = 1 ∧ (row x).ncol = x.length ∧ (col x).nrow = x.length ∧
    (col x).ncol = 1 ∧ (∀ j (h : j < x.length), (row x).get? 0 j = some x[j]) ∧
    (∀ i (h : i < x.length), (col x).get? i 0 = some x[i]) := by
  refine ⟨rfl, rfl, rfl, rfl, ?_, ?_⟩
  · intro j h; simp [row, Arr2.get?, h]
  · intro i h; simp [col, Arr2.get?, h]

/-- how numpy finds an element after broadcasting -/
def bc {q : ℕ} (m : ℕ) (hq : q = m ∨ q = 1) (i : Fin m) : Fin q :=
  if h : q = 1 then ⟨0, by omega⟩ else ⟨i, by have := i.2; omega⟩

theorem match_some (op : β → β → γ) {x y : Option β} {u v : β} (hx : x = some u) (hy : y = some v) :
    (match (generalizing := false) x, y with | some p, some q => some (op p q) | _, _ => none) = some (op u v) := by
  subst hx hy; rfl

theorem elementwise_ok (op : β → β → γ) {m1 n1 m2 n2 M N : ℕ} (f : Fin m1 → Fin n1 → β) (g : Fin m2 → Fin n2 → β)
    (hm : bcast m1 m2 = some M) (hn : bcast n1 n2 = some N)
    (h1 : m1 = M ∨ m1 = 1) (h2 : n1 = N ∨ n1 = 1) (h3 : m2 = M ∨ m2 = 1) (h4 : n2 = N ∨ n2 = 1) :
    elementwise op (Matlab.ofFn m1 n1 f) (Matlab.ofFn m2 n2 g) =
      .ok (Matlab.ofFn M N fun i j => op (f (bc M h1 i) (bc N h2 j)) (g (bc M h3 i) (bc N h4 j))) := by
  have key : ∀ {q r : ℕ} (f : Fin q → Fin r → β) (hq : q = M ∨ q = 1) (hr : r = N ∨ r = 1) (i : Fin M) (j : Fin N),
      (Matlab.ofFn q r f).get? (if q = 1 then 0 else (i : ℕ)) (if r = 1 then 0 else (j : ℕ)) =
        some (f (bc M hq i) (bc N hr j)) := by
    intro q r f hq hr i j
    rw [← ofFn_get]
    congr 1
    · unfold bc; split <;> simp_all
    · unfold bc; split <;> simp_all
  rw [elementwise]
  simp only [Matlab.ofFn, hm, hn]
  congr 2
  apply range_flatMap
  intro i j
  have k1 := key f h1 h2 i j
  have k2 := key g h3 h4 i j
  exact match_some op k1 k2

/-- **C67** Two arrays of the same shape: element by element. -/
theorem C67_same_shape (op : β → β → γ) (f g : Fin m → Fin n → β) :
    bsxfun op (Matlab.ofFn m n f) (Matlab.ofFn m n g) = .ok (Matlab.ofFn m n fun i j => op (f i j) (g i j)) := by
  rw [bsxfun, if_pos (Or.inl (by rfl)), elementwise_ok op f g (by simp [bcast]) (by simp [bcast]) (.inl rfl) (.inl rfl)
    (.inl rfl) (.inl rfl)]
  have : ∀ {q : ℕ} (h : q = q ∨ q = 1) (i : Fin q), bc q h i = i := by
    intro q h i
    unfold bc
    split
    · apply Fin.ext; simp only; omega
    · rfl
  simp only [this]

/-- **C67** An array and one of its width with a single row, in either order: the row is repeated.  The same with a
single column. -/
theorem C67_single (op : β → β → γ) (f : Fin m → Fin n → β) (g : Fin n → β) (h : Fin m → β) :
    bsxfun op (Matlab.ofFn m n f) (Matlab.ofFn 1 n fun _ => g) = .ok (Matlab.ofFn m n fun i j => op (f i j) (g j)) ∧
    bsxfun op (Matlab.ofFn 1 n fun _ => g) (Matlab.ofFn m n f) = .ok (Matlab.ofFn m n fun i j => op (g j) (f i j)) ∧
    bsxfun op (Matlab.ofFn m n f) (Matlab.ofFn m 1 fun i _ => h i) = .ok (Matlab.ofFn m n fun i j => op (f i j) (h i)) ∧
    bsxfun op (Matlab.ofFn m 1 fun i _ => h i) (Matlab.ofFn m n f) = .ok (Matlab.ofFn m n fun i j => op (h i) (f i j)) := by
  have hid : ∀ {q : ℕ} (h : q = q ∨ q = 1) (i : Fin q), bc q h i = i := by
    intro q h i
    unfold bc
    split
    · apply Fin.ext; simp only; omega
    · rfl
  have hb : ∀ q : ℕ, bcast q q = some q := fun q => by simp [bcast]
  have hb1 : ∀ q : ℕ, bcast q 1 = some q := fun q => by unfold bcast; split <;> simp_all
  have hb2 : ∀ q : ℕ, bcast 1 q = some q := fun q => by unfold bcast; split <;> simp_all
  refine ⟨?_, ?_, ?_, ?_⟩
  · rw [bsxfun, if_pos (Or.inr (by rfl)), elementwise_ok op f _ (hb1 m) (hb n) (.inl rfl) (.inl rfl) (.inr rfl) (.inl rfl)]
    simp only [hid]
  · rw [bsxfun, if_pos (Or.inr (by rfl)), elementwise_ok op _ f (hb2 m) (hb n) (.inr rfl) (.inl rfl) (.inl rfl) (.inl rfl)]
    simp only [hid]
  · rw [bsxfun, if_pos (Or.inl (by rfl)), elementwise_ok op f _ (hb m) (hb1 n) (.inl rfl) (.inl rfl) (.inl rfl) (.inr rfl)]
    simp only [hid]
  · rw [bsxfun, if_pos (Or.inl (by rfl)), elementwise_ok op _ f (hb m) (hb2 n) (.inl rfl) (.inr rfl) (.inl rfl) (.inl rfl)]
    simp only [hid]

theorem tileRows_ofFn (f : Fin n → β) (k : ℕ) :
    tileRows (Matlab.ofFn 1 n fun _ => f) k = Matlab.ofFn k n fun _ => f := by
  simp only [tileRows, Matlab.ofFn, Nat.mul_one]
  congr 1
  have e : (List.ofFn fun _ : Fin k => f) = List.replicate k f := by simp
  rw [e, List.flatMap_replicate]
  simp

/-- **C67** A row and a column of more than one element: all combinations. -/
theorem C67_row_column (op : β → β → γ) (f : Fin n → β) (g : Fin m → β) (hm : 2 ≤ m) (hn : 2 ≤ n) :
    bsxfun op (Matlab.ofFn 1 n fun _ => f) (Matlab.ofFn m 1 fun i _ => g i) =
      .ok (Matlab.ofFn m n fun i j => op (f j) (g i)) := by
  have hid : ∀ {q : ℕ} (h : q = q ∨ q = 1) (i : Fin q), bc q h i = i := by
    intro q h i
    unfold bc
    split
    · apply Fin.ext; simp only; omega
    · rfl
  have e1 : (Matlab.ofFn 1 n fun _ => f).nrow = 1 := rfl
  have e2 : (Matlab.ofFn 1 n fun _ => f).ncol = n := rfl
  have e3 : (Matlab.ofFn m 1 fun i _ => g i).nrow = m := rfl
  have e4 : (Matlab.ofFn m 1 fun i _ => g i).ncol = 1 := rfl
  rw [bsxfun, e1, e2, e3, e4, if_neg (by omega), if_pos (by omega), if_pos rfl, tileRows_ofFn,
    elementwise_ok op _ _ (M := m) (N := n) (by simp [bcast]) (by unfold bcast; simp; omega)
      (.inl rfl) (.inl rfl) (.inl rfl) (.inr rfl)]
  simp only [hid]

/-- **C67** The other way round, a column and then a row, it always raises. -/
theorem C67_column_row (op : β → β → γ) (f : Fin n → β) (g : Fin m → β) (hm : 2 ≤ m) (hn : 2 ≤ n) :
    bsxfun op (Matlab.ofFn m 1 fun i _ => g i) (Matlab.ofFn 1 n fun _ => f) = raise .ValueError := by
  have e1 : (Matlab.ofFn 1 n fun _ => f).nrow = 1 := rfl
  have e2 : (Matlab.ofFn 1 n fun _ => f).ncol = n := rfl
  have e3 : (Matlab.ofFn m 1 fun i _ => g i).nrow = m := rfl
  have e4 : (Matlab.ofFn m 1 fun i _ => g i).ncol = 1 := rfl
  rw [bsxfun, e1, e2, e3, e4, if_neg (by omega), if_pos (by omega), if_neg (by omega)]

/-- **C67** Everything else raises: with the same number of rows but two different numbers of columns, none of them
one, ValueError; with both different, and one of the arrays neither a row nor a column, the generic exception, even for a
single number and an array. -/
theorem C67_other (op : β → β → γ) (a b : Arr2 β) :
    (a.nrow = b.nrow → a.ncol ≠ b.ncol → a.ncol ≠ 1 → b.ncol ≠ 1 → bsxfun op a b = raise .ValueError) ∧
    (a.ncol = b.ncol → a.nrow ≠ b.nrow → a.nrow ≠ 1 → b.nrow ≠ 1 → bsxfun op a b = raise .ValueError) ∧
    (a.nrow ≠ b.nrow → a.ncol ≠ b.ncol → (min a.nrow a.ncol ≠ 1 ∨ min b.nrow b.ncol ≠ 1) →
      bsxfun op a b = raise .GenericException) := by
  refine ⟨?_, ?_, ?_⟩
  · intro h1 h2 h3 h4
    rw [bsxfun, if_pos (.inl h1), elementwise]
    simp [bcast, h1, h2, h3, h4]
  · intro h1 h2 h3 h4
    rw [bsxfun, if_pos (.inr h1), elementwise]
    simp [bcast, h1, h2, h3, h4]
  · intro h1 h2 h3
    rw [bsxfun, if_neg (by tauto), if_neg (by tauto)]

/-- **C67** `sparse` with a shape: numbers at the same place add up; a place outside of the shape raises ValueError. -/
theorem C67_sparse {q : ℕ} (I J : Fin q → ℤ) (d : Fin q → ℝ) (m n : ℕ) :
    ((∀ t, 0 ≤ I t ∧ I t < m ∧ 0 ≤ J t ∧ J t < n) → ∃ A, sparse (List.ofFn I) (List.ofFn J) (List.ofFn d) (.both m n) = .ok A ∧
      A.nrow = m ∧ A.ncol = n ∧ ∀ i j, entDense m n A i j = ∑ t, if I t = (i : ℕ) ∧ J t = (j : ℕ) then d t else 0) ∧
    ((∃ t, ¬ (0 ≤ I t ∧ I t < m ∧ 0 ≤ J t ∧ J t < n)) →
      sparse (List.ofFn I) (List.ofFn J) (List.ofFn d) (.both m n) = raise .ValueError) := by
  have hz : (List.ofFn I).zip ((List.ofFn J).zip (List.ofFn d)) = List.ofFn fun t => (I t, J t, d t) := by
    apply List.ext_getElem
    · simp
    · intro t h1 h2; simp
  rw [sparse]
  simp only [List.length_ofFn, ne_eq, not_true_eq_false, if_false, hz, Normals.cscFromEntries]
  constructor
  · intro h
    rw [if_pos (by intro x hx; obtain ⟨t, rfl⟩ := List.mem_ofFn.1 hx; exact h t)]
    refine ⟨_, rfl, rfl, rfl, ?_⟩
    intro i j
    simp only [entDense, Matrix.of_apply, List.map_ofFn, List.sum_ofFn, Function.comp_apply]
    refine Finset.sum_congr rfl fun t _ => ?_
    obtain ⟨h1, -, h2, -⟩ := h t
    have : ((I t).toNat = (i : ℕ) ∧ (J t).toNat = (j : ℕ)) ↔ (I t = (i : ℕ) ∧ J t = (j : ℕ)) := by omega
    simp only [this]
  · rintro ⟨t, ht⟩
    rw [if_neg]
    intro hall
    exact ht (hall _ (List.mem_ofFn.2 ⟨t, rfl⟩))

theorem foldl_max_le (l : List ℤ) (z : ℤ) : z ≤ l.foldl max z ∧ (∀ x ∈ l, x ≤ l.foldl max z) ∧
    (l.foldl max z = z ∨ l.foldl max z ∈ l) := by
  induction l generalizing z with
  | nil => simp
  | cons a l ih =>
    obtain ⟨h1, h2, h3⟩ := ih (max z a)
    simp only [List.foldl_cons]
    refine ⟨by omega, ?_, ?_⟩
    · intro x hx
      rcases List.mem_cons.1 hx with rfl | hx
      · omega
      · exact h2 x hx
    · rcases h3 with h3 | h3
      · rw [h3]
        rcases max_choice z a with h | h
        · exact .inl h
        · right; rw [h]; simp
      · right; simp [h3]

/-- **C67** Without a shape the smallest one that fits is used; no elements raise ValueError. -/
theorem C67_sparse_shape {q : ℕ} (I J : Fin q → ℤ) (d : Fin q → ℝ) (h0 : ∀ t, 0 ≤ I t ∧ 0 ≤ J t) :
    (0 < q → ∃ m n, sparse (List.ofFn I) (List.ofFn J) (List.ofFn d) .none =
        sparse (List.ofFn I) (List.ofFn J) (List.ofFn d) (.both m n) ∧ (∀ t, I t < m ∧ J t < n) ∧
        (∃ t, I t + 1 = m) ∧ ∃ t, J t + 1 = n) ∧
    (q = 0 → sparse (List.ofFn I) (List.ofFn J) (List.ofFn d) .none = raise .ValueError) := by
  constructor
  · intro hq
    have key : ∀ K : Fin q → ℤ, (∀ t, 0 ≤ K t) → (∀ t, K t < ((((List.ofFn K).foldl max 0).toNat + 1 : ℕ) : ℤ)) ∧
        ∃ t, K t + 1 = ((((List.ofFn K).foldl max 0).toNat + 1 : ℕ) : ℤ) := by
      intro K hK
      obtain ⟨h1, h2, h3⟩ := foldl_max_le (List.ofFn K) 0
      constructor
      · intro t
        have := h2 _ (List.mem_ofFn.2 ⟨t, rfl⟩)
        omega
      · rcases h3 with h3 | h3
        · refine ⟨⟨0, hq⟩, ?_⟩
          have := h2 _ (List.mem_ofFn.2 ⟨⟨0, hq⟩, rfl⟩)
          have := hK ⟨0, hq⟩
          omega
        · obtain ⟨t, ht⟩ := List.mem_ofFn.1 h3
          exact ⟨t, by rw [ht]; omega⟩
    obtain ⟨a1, a2⟩ := key I fun t => (h0 t).1
    obtain ⟨b1, b2⟩ := key J fun t => (h0 t).2
    refine ⟨_, _, ?_, fun t => ⟨a1 t, b1 t⟩, a2, b2⟩
    have hne : ¬ List.ofFn I = [] := by
      intro h
      have := congrArg List.length h
      simp at this
      omega
    rw [sparse, sparse]
    simp [hne]
  · rintro rfl
    simp [sparse]

/-- **C67** `m` without `n` raises TypeError. -/
theorem C67_sparse_rows_only {q : ℕ} (I J : Fin q → ℤ) (d : Fin q → ℝ) (m : ℕ) :
    sparse (List.ofFn I) (List.ofFn J) (List.ofFn d) (.onlyRows m) = raise .TypeError := by
  simp [sparse]

/-- **C67** Arrays of different lengths raise ValueError. -/
theorem C67_sparse_lengths (i j : List ℤ) (d : List ℝ) :
    (i.length ≠ j.length → ∀ shape, sparse i j d shape = raise .ValueError) ∧
    (i.length = j.length → i.length ≠ d.length → sparse i j d .none = raise .ValueError ∧
      ∀ m n, sparse i j d (.both m n) = raise .ValueError) := by
  refine ⟨fun h shape => by simp [sparse, h], fun h h' => ⟨?_, fun m n => ?_⟩⟩
  · rw [h] at h'; simp [sparse, h, h']
  · rw [h] at h'; simp [sparse, h, h']

/-- two entries at the same place -/
example : ∃ A : Entries ℝ, sparse [1, 0, 1] [2, 0, 2] [5, 7, 6] .none = .ok A ∧ A.nrow = 2 ∧ A.ncol = 3 ∧
    entDense 2 3 A 1 2 = 11 := by
  refine ⟨_, rfl, rfl, rfl, ?_⟩
  simp [entDense]; norm_num

example : bsxfun (fun x y : ℤ => x * 10 + y) ⟨1, 2, [1, 2]⟩ ⟨3, 1, [5, 6, 7]⟩ = .ok ⟨3, 2, [15, 25, 16, 26, 17, 27]⟩ := by
  decide

end Blmath.Props
