import Verif.Props.NormalizedRows

/-!
C65: cross products of rows and their derivatives.
-/

namespace Blmath.Props
open Blmath.Linalg Blmath.Spec Blmath.Normals
open scoped Matrix
variable {n : ℕ}

theorem blockApp_skewA (a b : Fin 3 → ℝ) : blockApp (skewA (toV a)) (toV b) = toV (a ⨯₃ b) := by
  ext <;> simp [blockApp, skewA, V3.dot, cross_apply] <;> ring

/-- **C65** `CrossProduct` returns the cross products of the rows. -/
theorem C65_value (a b : Fin n → Fin 3 → ℝ) : crossR (flat a) (flat b) = .ok (flat (crossRows a b)) := by
  rw [crossR, rows3_flat, rows3_flat]
  simp only [ok_bind]
  rw [einsumMatvec, if_neg (by simp [flat_length]), rows3_flat, flat_eq]
  simp only [ok_bind, pure_eq_ok]
  congr 2
  apply List.ext_getElem
  · simp
  · intro i h1 h2
    simp [blockApp_skewA, crossRows]

/-- **C65** Arrays of different sizes raise ValueError, as do those that are not arrays of rows of three. -/
theorem C65_bad_shape (a b : List ℝ) (h : a.length ≠ b.length ∨ a.length % 3 ≠ 0) :
    crossR a b = raise .ValueError := by
  rw [crossR]
  by_cases ha : a.length % 3 ≠ 0
  · rw [rows3_length_mod _ ha]; rfl
  by_cases hb : b.length % 3 ≠ 0
  · rw [rows3_length_mod _ hb]
    cases h : rows3 a with
    | ok r => rfl
    | error e =>
      exfalso
      obtain ⟨n, x, rfl⟩ := exists_flat a (by omega)
      rw [rows3_flat] at h; cases h
  obtain ⟨n, x, rfl⟩ := exists_flat a (by omega)
  obtain ⟨m, y, rfl⟩ := exists_flat b (by omega)
  rw [flat_length, flat_length] at *
  rw [rows3_flat, rows3_flat]
  simp only [ok_bind]
  rw [einsumMatvec, if_pos]
  rw [flat_length]
  simp
  omega

/-- what is kept is either nothing or right for its size -/
theorem crossReachable_good {c : CrossCache} (h : CrossReachable c) :
    c = none ∨ ∃ n, c = some (idxList n, blockIndptr (n * 3)) := by
  have good : ∀ (c : CrossCache) (sz : ℕ) (p : List ℕ × List ℕ),
      (c = none ∨ ∃ n, c = some (idxList n, blockIndptr (n * 3))) → crossIndices c sz = .ok p →
      ∃ n, p = (idxList n, blockIndptr (n * 3)) := by
    intro c sz p hc hp
    have key : (do let i ← blockIndices sz; pure (i, blockIndptr sz)) = Except.ok p →
        ∃ n, p = (idxList n, blockIndptr (n * 3)) := by
      intro h
      by_cases hm : sz % 3 = 0
      · obtain ⟨n, rfl⟩ : ∃ n, sz = n * 3 := ⟨sz / 3, by omega⟩
        rw [blockIndices_mul] at h
        simp at h
        exact ⟨n, h.symm⟩
      · rw [blockIndices_bad _ hm] at h
        cases h
    rcases hc with rfl | ⟨n, rfl⟩
    · exact key hp
    · rw [crossIndices] at hp
      split at hp
      · exact key hp
      · exact ⟨n, (Except.ok.inj hp).symm⟩
  induction h with
  | init => exact .inl rfl
  | @step c c' ida idb obj a b r hc hs ih =>
    rw [crossDr] at hs
    obtain ⟨ra, -, hs⟩ := (bind_eq_ok ..).1 hs
    obtain ⟨rb, -, hs⟩ := (bind_eq_ok ..).1 hs
    split at hs
    · simp at hs
      rw [← hs.2]; exact ih
    · obtain ⟨p, hp, hs⟩ := (bind_eq_ok ..).1 hs
      obtain ⟨m, rfl⟩ := good _ _ _ ih hp
      split at hs
      · obtain ⟨q, hq, hs⟩ := (bind_eq_ok ..).1 hs
        simp at hs
        exact .inr ⟨m, hs.2.symm⟩
      · obtain ⟨q, hq, hs⟩ := (bind_eq_ok ..).1 hs
        simp at hs
        exact .inr ⟨m, hs.2.symm⟩

theorem crossIndices_eq {c : CrossCache} (h : CrossReachable c) (n : ℕ) :
    crossIndices c (n * 3) = .ok (idxList n, blockIndptr (n * 3)) := by
  rcases crossReachable_good h with rfl | ⟨m, rfl⟩
  · rw [crossIndices, blockIndices_mul]; rfl
  · rw [crossIndices]
    simp only [idxList_length]
    split
    · rw [blockIndices_mul]; rfl
    · have : m = n := by omega
      rw [this]

theorem neg_block (B : Fin n → V3 (V3 ℝ)) : (ravel33 (List.ofFn B)).map (fun x => -x) =
    ravel33 (List.ofFn fun i => (B i).map fun r => r.map fun x => -x) := by
  apply List.ext_getElem?
  intro t
  by_cases ht : t < n * 3 * 3
  · obtain ⟨i, a, b, rfl⟩ : ∃ i : ℕ, ∃ a b : Fin 3, t = (i * 3 + (a : ℕ)) * 3 + (b : ℕ) :=
      ⟨t / 3 / 3, ⟨t / 3 % 3, Nat.mod_lt _ (by norm_num)⟩, ⟨t % 3, Nat.mod_lt _ (by norm_num)⟩, by
        simp only; omega⟩
    rw [List.getElem?_map, ravel33_get, ravel33_get]
    have hi : i < n := by omega
    simp only [List.getElem?_ofFn, hi, dif_pos, Option.map_some]
    fin_cases a <;> fin_cases b <;> rfl
  · rw [List.getElem?_eq_none (by simp [ravel33_length]; omega), List.getElem?_eq_none (by simp [ravel33_length]; omega)]

theorem crossDr_a {c : CrossCache} (hc : CrossReachable c) (ida idb : ℕ) (a b : Fin n → Fin 3 → ℝ) :
    crossDr c ida idb (flat a) (flat b) ida =
      .ok (some (blockCsc n (ravel33 (List.ofFn fun i => (skewB (toV (b i))).map fun r => r.map fun x => -x))),
        some (idxList n, blockIndptr (n * 3))) := by
  have e : (List.ofFn fun i => skewB (toV (b i))) = (List.ofFn fun i => toV (b i)).map skewB := by
    rw [List.map_ofFn]; rfl
  rw [crossDr, rows3_flat, rows3_flat, flat_length, crossIndices_eq hc, ← neg_block, e]
  simp only [ok_bind, ne_eq, not_true_eq_false, false_and, if_false, if_true]
  rw [cscNew_block _ _ (by rw [ravel33_length]; simp)]
  rfl

theorem crossDr_b {c : CrossCache} (hc : CrossReachable c) (ida idb : ℕ) (hne : ida ≠ idb) (a b : Fin n → Fin 3 → ℝ) :
    crossDr c ida idb (flat a) (flat b) idb =
      .ok (some (blockCsc n (ravel33 (List.ofFn fun i => (skewA (toV (a i))).map fun r => r.map fun x => -x))),
        some (idxList n, blockIndptr (n * 3))) := by
  have e : (List.ofFn fun i => skewA (toV (a i))) = (List.ofFn fun i => toV (a i)).map skewA := by
    rw [List.map_ofFn]; rfl
  rw [crossDr, rows3_flat, rows3_flat, flat_length, crossIndices_eq hc, ← neg_block, e]
  simp only [ok_bind, ne_eq, not_true_eq_false, and_false, if_false, hne.symm]
  rw [cscNew_block _ _ (by rw [ravel33_length]; simp)]
  rfl

theorem blockSum (B : Fin n → V3 (V3 ℝ)) (i : Fin n) (k : Fin 3) (x : Fin n → Fin 3 → ℝ) :
    ∑ j, ∑ l, cscDense (n * 3) (blockCsc n (ravel33 (List.ofFn B))) (idx i k) (idx j l) * x j l =
      comp (comp (B i) 0) k * x i 0 + comp (comp (B i) 1) k * x i 1 + comp (comp (B i) 2) k * x i 2 := by
  rw [Finset.sum_eq_single i (by
      intro j _ hj
      apply Finset.sum_eq_zero
      intro l _
      rw [blockCsc_dense, if_neg (Ne.symm hj), zero_mul]) (by simp)]
  simp only [blockCsc_dense, if_true, Fin.sum_univ_three]

/-- **C65** The matrix returned for `a` is the derivative in the first argument, whatever calls came before. -/
theorem C65_jacobian_a {c : CrossCache} (hc : CrossReachable c) (ida idb : ℕ) (a b : Fin n → Fin 3 → ℝ) :
    ∃ J c', crossDr c ida idb (flat a) (flat b) ida = .ok (some J, c') ∧ CscValid (n * 3) J ∧
      (∀ i j k l, i ≠ j → cscDense (n * 3) J (idx i k) (idx j l) = 0) ∧
      IsJacobian (fun x => crossRows x b) (cscDense (n * 3) J) a := by
  refine ⟨_, _, crossDr_a hc ida idb a b, blockCsc_valid _ _ (by rw [ravel33_length]; simp),
    fun i j k l h => by rw [blockCsc_dense, if_neg h], isJacobian_of ?_⟩
  intro i k
  simp only [blockSum]
  have d := fun l => coord_deriv i l a
  fin_cases k
  · refine ⟨_, ((d 1).mul_const (b i 2)).sub ((d 2).mul_const (b i 1)) |>.congr_of_eventuallyEq
      (Filter.Eventually.of_forall fun x => ?_), fun x => ?_⟩
    · simp [crossRows, cross_apply]
    · simp [skewB, V3.map]; ring
  · refine ⟨_, ((d 2).mul_const (b i 0)).sub ((d 0).mul_const (b i 2)) |>.congr_of_eventuallyEq
      (Filter.Eventually.of_forall fun x => ?_), fun x => ?_⟩
    · simp [crossRows, cross_apply]
    · simp [skewB, V3.map]; ring
  · refine ⟨_, ((d 0).mul_const (b i 1)).sub ((d 1).mul_const (b i 0)) |>.congr_of_eventuallyEq
      (Filter.Eventually.of_forall fun x => ?_), fun x => ?_⟩
    · simp [crossRows, cross_apply]
    · simp [skewB, V3.map]; ring

/-- **C65** The matrix returned for `b` is the derivative in the second argument, if `a` and `b` are different
objects. -/
theorem C65_jacobian_b {c : CrossCache} (hc : CrossReachable c) (ida idb : ℕ) (hne : ida ≠ idb)
    (a b : Fin n → Fin 3 → ℝ) :
    ∃ J c', crossDr c ida idb (flat a) (flat b) idb = .ok (some J, c') ∧ CscValid (n * 3) J ∧
      (∀ i j k l, i ≠ j → cscDense (n * 3) J (idx i k) (idx j l) = 0) ∧
      IsJacobian (fun x => crossRows a x) (cscDense (n * 3) J) b := by
  refine ⟨_, _, crossDr_b hc ida idb hne a b, blockCsc_valid _ _ (by rw [ravel33_length]; simp),
    fun i j k l h => by rw [blockCsc_dense, if_neg h], isJacobian_of ?_⟩
  intro i k
  simp only [blockSum]
  have d := fun l => coord_deriv i l b
  fin_cases k
  · refine ⟨_, ((d 2).const_mul (a i 1)).sub ((d 1).const_mul (a i 2)) |>.congr_of_eventuallyEq
      (Filter.Eventually.of_forall fun x => ?_), fun x => ?_⟩
    · simp [crossRows, cross_apply]
    · simp [skewA, V3.map]; ring
  · refine ⟨_, ((d 0).const_mul (a i 2)).sub ((d 2).const_mul (a i 0)) |>.congr_of_eventuallyEq
      (Filter.Eventually.of_forall fun x => ?_), fun x => ?_⟩
    · simp [crossRows, cross_apply]
    · simp [skewA, V3.map]; ring
  · refine ⟨_, ((d 1).const_mul (a i 0)).sub ((d 0).const_mul (a i 1)) |>.congr_of_eventuallyEq
      (Filter.Eventually.of_forall fun x => ?_), fun x => ?_⟩
    · simp [crossRows, cross_apply]
    · simp [skewA, V3.map]; ring

/-- **C65** For any other object the answer is None, and nothing changes. -/
theorem C65_other (c : CrossCache) (ida idb obj : ℕ) (a b : Fin n → Fin 3 → ℝ) (h1 : obj ≠ ida) (h2 : obj ≠ idb) :
    crossDr c ida idb (flat a) (flat b) obj = .ok (none, c) := by
  rw [crossDr, rows3_flat, rows3_flat]
  simp [h1, h2]

/-- **C65** If both terms are the same object, the cross product is zero whatever its value, but the matrix returned
is that of the derivative in the first argument alone: it is wrong unless all rows are zero. -/
theorem C65_same_object {c : CrossCache} (hc : CrossReachable c) (ida : ℕ) (a : Fin n → Fin 3 → ℝ) (ha : a ≠ 0) :
    ∃ J c', crossDr c ida ida (flat a) (flat a) ida = .ok (some J, c') ∧
      ¬ IsJacobian (fun x => crossRows x x) (cscDense (n * 3) J) a := by
  refine ⟨_, _, crossDr_a hc ida ida a a, ?_⟩
  rintro ⟨F', h1, h2⟩
  have e : (fun x : Fin n → Fin 3 → ℝ => crossRows x x) = fun _ => 0 := by
    funext x i
    simp [crossRows]
  rw [e] at h2
  have h0 : F' = 0 := h2.unique (hasFDerivAt_const 0 a)
  apply ha
  funext i
  have key : ∀ (l k : Fin 3), comp (comp ((skewB (toV (a i))).map fun r => r.map fun x => -x) l) k = 0 := by
    intro l k
    have := h1 (fun _ => Pi.single l 1) i k
    rw [h0, blockSum] at this
    fin_cases l <;> simp at this <;> simpa using this.symm
  have k1 := key 0 1
  have k2 := key 0 2
  have k3 := key 1 2
  simp [skewB, V3.map] at k1 k2 k3
  funext k
  fin_cases k <;> simp [k1, k2, k3]

/-- the kept indices may come from arrays of another size -/
example : CrossReachable (some (idxList 2, blockIndptr (2 * 3))) :=
  .step .init (crossDr_a .init 0 1 (fun _ : Fin 2 => ![1, 2, 3]) (fun _ => ![4, 5, 6]))

example : crossRows (fun _ : Fin 1 => ![1, 2, 3]) (fun _ => ![4, 5, 7]) = fun _ => ![-1, 5, -3] := by
  funext i k
  fin_cases k <;> simp [crossRows, cross_apply] <;> norm_num

end Blmath.Props
