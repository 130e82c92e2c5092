import Verif.Proofs.MeshNormals
import Verif.Props.CrossProduct

/-!
C66: edges and normals of triangles and vertices.
-/

namespace Blmath.Props
open Blmath.Linalg Blmath.Spec Blmath.Normals
open scoped Matrix
variable {n m p : ℕ}

/-! ### edges -/

/-- **C66** `TriEdges` returns the differences of the chosen corners; negative numbers count from the end, as in
Python. -/
theorem C66_edges {f : Fin m → Fin 3 → ℤ} {g : Fin m → Fin 3 → Fin n} {cp cm : ℤ} {a b : Fin 3}
    (hp : PyRef cp a) (hm : PyRef cm b) (ha : ∀ t, PyRef (f t a) (g t a)) (hb : ∀ t, PyRef (f t b) (g t b))
    (v : Fin n → Fin 3 → ℝ) : edgesFor (flat v) (faceList f) cp cm = .ok (flat (edgeMap g a b v)) :=
  edgesFor_ok emb_id hp hm ha hb v

/-- **C66** A number of a vertex that does not exist raises IndexError. -/
theorem C66_edges_error {f : Fin m → Fin 3 → ℤ} {cp cm : ℤ} {a b : Fin 3} (hp : PyRef cp a) (hm : PyRef cm b)
    (v : Fin n → Fin 3 → ℝ)
    (h : ∃ t, (∀ i : Fin n, ¬ PyRef (f t a) i) ∨ (∀ i : Fin n, ¬ PyRef (f t b) i)) :
    edgesFor (flat v) (faceList f) cp cm = raise .IndexError := by
  have hc : ∀ (c : ℤ) (a : Fin 3), PyRef c a → corner ⟨0, 0, 0⟩ c = .ok 0 := fun c a h => corner_ref h (fun _ => 0)
  have hone : ∀ z : ℤ, (∃ y, pyIndex (List.ofFn fun i => toV (v i)) z = .ok y) ∨
      pyIndex (List.ofFn fun i => toV (v i)) z = .error .IndexError := by
    intro z
    by_cases hz : ∃ i : Fin n, PyRef z i
    · obtain ⟨i, hi⟩ := hz
      exact .inl ⟨_, pyIndex_ref hi _⟩
    · exact .inr (pyIndex_bad (fun i hi => hz ⟨i, hi⟩) _)
  have hbad : ∀ (c : ℤ) (a : Fin 3), PyRef c a → (∃ t, ∀ i : Fin n, ¬ PyRef (f t a) i) →
      ((faceList f).mapM fun t => do
        let i ← corner t c
        pyIndex (List.ofFn fun i => toV (v i)) i) = .error .IndexError := by
    intro c a hca ⟨t, ht⟩
    apply mapM_error
    · intro x hx
      simp only [faceList, List.mem_ofFn] at hx
      obtain ⟨t, rfl⟩ := hx
      rw [corner_ref hca (f t)]
      exact hone _
    · refine ⟨⟨f t 0, f t 1, f t 2⟩, List.mem_ofFn.2 ⟨t, rfl⟩, ?_⟩
      rw [corner_ref hca (f t)]
      exact pyIndex_bad ht _
  rw [edgesFor, rows3_flat]
  simp only [ok_bind]
  rw [hc _ _ hp, hc _ _ hm]
  simp only [ok_bind]
  by_cases h1 : ∃ t, ∀ i : Fin n, ¬ PyRef (f t a) i
  · rw [hbad _ _ hp h1]; rfl
  · have h2 : ∃ t, ∀ i : Fin n, ¬ PyRef (f t b) i := by
      obtain ⟨t, ht | ht⟩ := h
      · exact absurd ⟨t, ht⟩ h1
      · exact ⟨t, ht⟩
    push Not at h1
    choose ga hga using h1
    have hgood : ((faceList f).mapM fun t => do
        let i ← corner t cp
        pyIndex (List.ofFn fun i => toV (v i)) i) = .ok (List.ofFn fun t => toV (v (ga t))) := by
      apply mapM_ofFn_ok
      intro t
      rw [corner_ref hp (f t)]
      exact pyIndex_ref (hga t) _
    rw [hgood]
    simp only [ok_bind]
    rw [hbad _ _ hm h2]
    rfl

/-- **C66** A corner other than 0, 1, 2 (or -3, -2, -1) raises IndexError. -/
theorem C66_corner_error (v : Fin n → Fin 3 → ℝ) (f : List (V3 ℤ)) (cp cm : ℤ) (h : ∀ a : Fin 3, ¬ PyRef cp a) :
    edgesFor (flat v) f cp cm = raise .IndexError := by
  rw [edgesFor, rows3_flat]
  simp only [ok_bind]
  have := pyIndex_bad h (fun _ => (0 : ℤ))
  rw [show (List.ofFn fun _ : Fin 3 => (0 : ℤ)) = [0, 0, 0] by simp [List.ofFn_succ]] at this
  rw [corner, this]
  rfl

/-! ### derivatives of edges -/

theorem cornerMatrix_ok (W : Fin m → Fin n) : cornerMatrix (α := ℝ) (List.ofFn fun t => ((W t : ℕ) : ℤ)) (m * 3) (n * 3) =
    .ok ⟨m * 3, n * 3, flat fun t k => ((t : ℕ) * 3 + (k : ℕ), (W t : ℕ) * 3 + (k : ℕ), 1)⟩ := by
  have hw : ((List.ofFn fun t => ((W t : ℕ) : ℤ)).flatMap fun i => [i * 3, i * 3 + 1, i * 3 + 2]) =
      flat fun t k => ((W t : ℕ) : ℤ) * 3 + ((k : ℕ) : ℤ) := by
    rw [← flatMap_flat (fun t => ((W t : ℕ) : ℤ)) (fun z (k : Fin 3) => z * 3 + ((k : ℕ) : ℤ))]
    simp
  have hr : List.range (m * 3) = flat fun (t : Fin m) (k : Fin 3) => (t : ℕ) * 3 + (k : ℕ) := by
    have := range_flat id m
    rwa [List.map_id] at this
  rw [cornerMatrix]
  simp only [hw, flat_length, hr, flat_zip, flat_map]
  rw [cscFromEntries, if_pos]
  · simp only [flat_map]
    congr 3
    funext t k
    simp only [Num.lit_real, Rat.cast_one, Prod.mk.injEq, and_true]
    omega
  · intro x hx
    rw [flat_mem] at hx
    obtain ⟨t, k, rfl⟩ := hx
    have := t.2; have := k.2; have := (W t).2
    simp only
    omega

theorem entDense_flat {q : ℕ} (r c : Fin q → Fin 3 → ℕ) (w : Fin q → Fin 3 → ℝ) (i : Fin m) (j : Fin n) :
    entDense m n ⟨m, n, flat fun t k => (r t k, c t k, w t k)⟩ i j =
      ∑ t, ∑ k, if r t k = i ∧ c t k = j then w t k else 0 := by
  simp only [entDense, Matrix.of_apply, flat_map, flat_sum]

theorem entDense_append (A B : List (ℕ × ℕ × ℝ)) (i : Fin m) (j : Fin n) :
    entDense m n ⟨m, n, A ++ B⟩ i j = entDense m n ⟨m, n, A⟩ i j + entDense m n ⟨m, n, B⟩ i j := by
  simp [entDense]

theorem edgesDr_ok {f : Fin m → Fin 3 → ℤ} {g : Fin m → Fin 3 → Fin n} {cp cm : ℤ} {a b : Fin 3}
    (hp : PyRef cp a) (hm : PyRef cm b) (ha : ∀ t, f t a = (g t a : ℕ)) (hb : ∀ t, f t b = (g t b : ℕ))
    (v : Fin n → Fin 3 → ℝ) :
    edgesDr (flat v) (faceList f) cp cm = .ok ⟨m * 3, n * 3,
      (flat fun t k => ((t : ℕ) * 3 + (k : ℕ), (g t a : ℕ) * 3 + (k : ℕ), (1 : ℝ))) ++
      (flat fun t k => ((t : ℕ) * 3 + (k : ℕ), (g t b : ℕ) * 3 + (k : ℕ), (-1 : ℝ)))⟩ := by
  have hc : ∀ (c : ℤ) (a : Fin 3), PyRef c a → corner ⟨0, 0, 0⟩ c = .ok 0 := fun c a h => corner_ref h (fun _ => 0)
  have hmap : ∀ (c : ℤ) (a : Fin 3), PyRef c a → (∀ t, f t a = (g t a : ℕ)) →
      ((faceList f).mapM fun t => corner t c) = .ok (List.ofFn fun t => ((g t a : ℕ) : ℤ)) := by
    intro c a h h'
    apply mapM_ofFn_ok
    intro t
    rw [corner_ref h (f t), h']
  rw [edgesDr, hc _ _ hp, hc _ _ hm]
  simp only [ok_bind]
  rw [hmap _ _ hp ha, hmap _ _ hm hb]
  simp only [ok_bind]
  have hl : (faceList f).length = m := by simp [faceList]
  rw [hl, flat_length, cornerMatrix_ok, cornerMatrix_ok]
  simp only [ok_bind, pure_eq_ok, Entries.sub, flat_map]

/-- **C66** The matrix returned is that of the derivative of the edges (it does not depend on the vertices), if all
numbers are those of vertices. -/
theorem C66_edges_jacobian {f : Fin m → Fin 3 → ℤ} {g : Fin m → Fin 3 → Fin n} {cp cm : ℤ} {a b : Fin 3}
    (hp : PyRef cp a) (hm : PyRef cm b) (ha : ∀ t, f t a = (g t a : ℕ)) (hb : ∀ t, f t b = (g t b : ℕ))
    (v : Fin n → Fin 3 → ℝ) :
    ∃ J, edgesDr (flat v) (faceList f) cp cm = .ok J ∧ J.nrow = m * 3 ∧ J.ncol = n * 3 ∧
      IsJacobian (edgeMap g a b) (entDense (m * 3) (n * 3) J) v := by
  refine ⟨_, edgesDr_ok hp hm ha hb v, rfl, rfl, isJacobian_of ?_⟩
  intro i k
  refine ⟨coord (g i a) k - coord (g i b) k, (coord_deriv _ k v).sub (coord_deriv _ k v), ?_⟩
  intro x
  have key : ∀ (c : Fin 3) (w : ℝ) (j : Fin n) (l : Fin 3),
      entDense (m * 3) (n * 3) ⟨m * 3, n * 3, flat fun t k => ((t : ℕ) * 3 + (k : ℕ), (g t c : ℕ) * 3 + (k : ℕ), w)⟩
        (idx i k) (idx j l) = if g i c = j ∧ k = l then w else 0 := by
    intro c w j l
    rw [entDense_flat, Finset.sum_eq_single i, Finset.sum_eq_single k]
    · have : ((i : ℕ) * 3 + (k : ℕ) = (idx i k : ℕ) ∧ (g i c : ℕ) * 3 + (k : ℕ) = (idx j l : ℕ)) ↔ (g i c = j ∧ k = l) := by
        have hk := k.2; have hl := l.2
        simp only [idx, Fin.ext_iff, true_and]
        constructor
        · intro h; omega
        · rintro ⟨h1, h2⟩; omega
      simp only [this]
    · intro k' _ hk
      rw [if_neg]
      intro h
      apply hk
      have := h.1
      simp only [idx] at this
      apply Fin.ext; omega
    · simp
    · intro t _ ht
      apply Finset.sum_eq_zero
      intro k' _
      rw [if_neg]
      intro h
      apply ht
      have h1 := h.1
      have := k.2; have := k'.2
      simp only [idx] at h1
      apply Fin.ext; omega
    · simp
  simp only [entDense_append, key, add_mul, Finset.sum_add_distrib]
  have fin : ∀ (c : Fin 3) (w : ℝ), (∑ j, ∑ l, (if g i c = j ∧ k = l then w else 0) * x j l) = w * x (g i c) k := by
    intro c w
    rw [Finset.sum_eq_single (g i c), Finset.sum_eq_single k]
    · simp
    · intro l _ hl; simp [Ne.symm hl]
    · simp
    · intro j _ hj
      apply Finset.sum_eq_zero
      intro l _
      simp [Ne.symm hj]
    · simp
  rw [fin, fin]
  simp
  ring

/-- **C66** Negative numbers, though accepted for the value, raise ValueError here, as do those that are too large. -/
theorem C66_edges_jacobian_error {f : Fin m → Fin 3 → ℤ} {cp cm : ℤ} {a b : Fin 3} (hp : PyRef cp a) (hm : PyRef cm b)
    (v : Fin n → Fin 3 → ℝ) (h : ∃ t, f t a < 0 ∨ (n : ℤ) ≤ f t a ∨ f t b < 0 ∨ (n : ℤ) ≤ f t b) :
    edgesDr (flat v) (faceList f) cp cm = raise .ValueError := by
  have hc : ∀ (c : ℤ) (a : Fin 3), PyRef c a → corner ⟨0, 0, 0⟩ c = .ok 0 := fun c a h => corner_ref h (fun _ => 0)
  have hmap : ∀ (c : ℤ) (a : Fin 3), PyRef c a →
      ((faceList f).mapM fun t => corner t c) = .ok (List.ofFn fun t => f t a) := by
    intro c a h
    apply mapM_ofFn_ok
    intro t
    rw [corner_ref h (f t)]
  have hbad : ∀ w : Fin m → ℤ, (∃ t, w t < 0 ∨ (n : ℤ) ≤ w t) →
      cornerMatrix (α := ℝ) (List.ofFn w) (m * 3) (n * 3) = raise .ValueError := by
    intro w ⟨t, ht⟩
    have hw : ((List.ofFn w).flatMap fun i => [i * 3, i * 3 + 1, i * 3 + 2]) =
        flat fun t k => w t * 3 + ((k : ℕ) : ℤ) := by
      rw [← flatMap_flat w (fun z (k : Fin 3) => z * 3 + ((k : ℕ) : ℤ))]
      simp
    have hr : List.range (m * 3) = flat fun (t : Fin m) (k : Fin 3) => (t : ℕ) * 3 + (k : ℕ) := by
      have := range_flat id m
      rwa [List.map_id] at this
    rw [cornerMatrix]
    simp only [hw, flat_length, hr, flat_zip, flat_map]
    rw [cscFromEntries, if_neg]
    intro hall
    have := hall _ ((flat_mem _ _).2 ⟨t, 0, rfl⟩)
    simp at this
    omega
  have hl : (faceList f).length = m := by simp [faceList]
  rw [edgesDr, hc _ _ hp, hc _ _ hm]
  simp only [ok_bind]
  rw [hmap _ _ hp, hmap _ _ hm]
  simp only [ok_bind]
  rw [hl, flat_length]
  by_cases h1 : ∃ t, f t a < 0 ∨ (n : ℤ) ≤ f t a
  · rw [hbad _ h1]; rfl
  · have h2 : ∃ t, f t b < 0 ∨ (n : ℤ) ≤ f t b := by
      obtain ⟨t, ht⟩ := h
      exact ⟨t, by by_contra hn; exact h1 ⟨t, by tauto⟩⟩
    push Not at h1
    have e : (fun t => f t a) = fun t => (((⟨(f t a).toNat, by have := h1 t; omega⟩ : Fin n) : ℕ) : ℤ) := by
      funext t
      have := h1 t
      simp only
      omega
    rw [e, cornerMatrix_ok, hbad _ h2]
    rfl

/-! ### normals of faces -/

/-- **C66** `TriNormalsScaled` returns the cross products of two edges of each face. -/
theorem C66_face_normals {f : Fin m → Fin 3 → ℤ} {g : Fin m → Fin 3 → Fin n} (h : ∀ t c, PyRef (f t c) (g t c))
    (v : Fin n → Fin 3 → ℝ) : triNormalsScaled (flat v) (faceList f) = .ok (flat (faceNormals g v)) :=
  triNormalsScaled_ok emb_id h v

/-- **C66** They are at right angles to all the edges of the face, and as long as twice its area: the square of the
length is |e|²|e'|² - (e·e')² for the edges at the first corner. -/
theorem C66_face_normals_geometry (g : Fin m → Fin 3 → Fin n) (v : Fin n → Fin 3 → ℝ) (t : Fin m) :
    (∀ a b, (faceNormals g v t) ⬝ᵥ (edgeMap g a b v t) = 0) ∧
    (faceNormals g v t) ⬝ᵥ (faceNormals g v t) =
      (edgeMap g 1 0 v t ⬝ᵥ edgeMap g 1 0 v t) * (edgeMap g 2 0 v t ⬝ᵥ edgeMap g 2 0 v t) -
        (edgeMap g 1 0 v t ⬝ᵥ edgeMap g 2 0 v t) ^ 2 := by
  constructor
  · intro a b
    fin_cases a <;> fin_cases b <;>
      simp [faceNormals, edgeMap, cross_apply, dotProduct, Fin.sum_univ_three] <;> ring
  · simp [faceNormals, edgeMap, cross_apply, dotProduct, Fin.sum_univ_three]
    ring

/-- **C66** `TriNormals` returns these normals with length one, zero for degenerate faces. -/
theorem C66_unit_normals {f : Fin m → Fin 3 → ℤ} {g : Fin m → Fin 3 → Fin n} (h : ∀ t c, PyRef (f t c) (g t c))
    (v : Fin n → Fin 3 → ℝ) : triNormals (flat v) (faceList f) = .ok (flat (unitRows (faceNormals g v))) := by
  rw [triNormals, C66_face_normals h, ok_bind, C64_value]

theorem isJacobian_comp {F : (Fin m → Fin 3 → ℝ) → (Fin p → Fin 3 → ℝ)} {G : (Fin n → Fin 3 → ℝ) → (Fin m → Fin 3 → ℝ)}
    {JF JG} {v : Fin n → Fin 3 → ℝ} (hG : IsJacobian G JG v) (hF : IsJacobian F JF (G v)) :
    IsJacobian (fun x => F (G x)) (JF * JG) v := by
  obtain ⟨G', g1, g2⟩ := hG
  obtain ⟨F', f1, f2⟩ := hF
  refine ⟨F'.comp G', ?_, f2.comp v g2⟩
  intro x i k
  rw [ContinuousLinearMap.comp_apply, f1]
  simp only [g1, Matrix.mul_apply]
  have hsum : ∀ h : Fin (m * 3) → ℝ, ∑ q, h q = ∑ j, ∑ l, h (idx j l) := by
    intro h
    rw [← Fintype.sum_prod_type' (fun j l => h (idx j l))]
    refine (Fintype.sum_bijective (fun p : Fin m × Fin 3 => idx p.1 p.2) ?_ _ _ fun _ => rfl).symm
    constructor
    · rintro ⟨a, b⟩ ⟨c, d⟩ hab
      have hb := b.2; have hd := d.2
      simp only [idx, Fin.mk.injEq] at hab
      rw [Prod.mk.injEq]
      exact ⟨Fin.ext (by omega), Fin.ext (by omega)⟩
    · intro q
      have := q.2
      exact ⟨(⟨q / 3, by omega⟩, ⟨q % 3, by omega⟩), Fin.ext (by simp only [idx]; omega)⟩
  have hpair : ∀ {q : ℕ} (c : Fin q → Fin 3 → ℝ), ∑ j, ∑ l, c j l = ∑ p : Fin q × Fin 3, c p.1 p.2 :=
    fun c => (Fintype.sum_prod_type' c).symm
  simp only [hsum, hpair, Finset.sum_mul, Finset.mul_sum]
  rw [Finset.sum_comm]
  simp only [mul_assoc]

theorem isJacobian_cross {A B : (Fin n → Fin 3 → ℝ) → (Fin m → Fin 3 → ℝ)} {EA EB JA JB} {v : Fin n → Fin 3 → ℝ}
    (hA : IsJacobian A EA v) (hB : IsJacobian B EB v)
    (hJA : IsJacobian (fun x => crossRows x (B v)) JA (A v)) (hJB : IsJacobian (fun x => crossRows (A v) x) JB (B v)) :
    IsJacobian (fun x => crossRows (A x) (B x)) (JA * EA + JB * EB) v := by
  have h1 := isJacobian_comp hA hJA
  have h2 := isJacobian_comp hB hJB
  obtain ⟨D1, d1, d2⟩ := h1
  obtain ⟨D2, e1, e2⟩ := h2
  refine ⟨D1 + D2, ?_, ?_⟩
  · intro x i k
    rw [ContinuousLinearMap.add_apply, Pi.add_apply, Pi.add_apply, d1, e1]
    simp only [Matrix.add_apply, add_mul, Finset.sum_add_distrib]
  · obtain ⟨A', -, ha⟩ := hA
    obtain ⟨B', -, hb⟩ := hB
    have ca : ∀ i k, HasFDerivAt (fun x => A x i k) ((ContinuousLinearMap.proj k).comp
        ((ContinuousLinearMap.proj (R := ℝ) (φ := fun _ : Fin m => Fin 3 → ℝ) i).comp A')) v := fun i k =>
      hasFDerivAt_pi'.1 (hasFDerivAt_pi'.1 ha i) k
    have cb : ∀ i k, HasFDerivAt (fun x => B x i k) ((ContinuousLinearMap.proj k).comp
        ((ContinuousLinearMap.proj (R := ℝ) (φ := fun _ : Fin m => Fin 3 → ℝ) i).comp B')) v := fun i k =>
      hasFDerivAt_pi'.1 (hasFDerivAt_pi'.1 hb i) k
    have c1 : ∀ i k, HasFDerivAt (fun x => crossRows (A x) (B v) i k) ((ContinuousLinearMap.proj k).comp
        ((ContinuousLinearMap.proj (R := ℝ) (φ := fun _ : Fin m => Fin 3 → ℝ) i).comp D1)) v := fun i k =>
      hasFDerivAt_pi'.1 (hasFDerivAt_pi'.1 d2 i) k
    have c2 : ∀ i k, HasFDerivAt (fun x => crossRows (A v) (B x) i k) ((ContinuousLinearMap.proj k).comp
        ((ContinuousLinearMap.proj (R := ℝ) (φ := fun _ : Fin m => Fin 3 → ℝ) i).comp D2)) v := fun i k =>
      hasFDerivAt_pi'.1 (hasFDerivAt_pi'.1 e2 i) k
    have prod : ∀ i (k l k' l' : Fin 3), ∀ G1 G2 : (Fin n → Fin 3 → ℝ) →L[ℝ] ℝ,
        HasFDerivAt (fun x => A x i k * B v i l - A x i k' * B v i l') G1 v →
        HasFDerivAt (fun x => A v i k * B x i l - A v i k' * B x i l') G2 v →
        HasFDerivAt (fun x => A x i k * B x i l - A x i k' * B x i l') (G1 + G2) v := by
      intro i k l k' l' G1 G2 hG1 hG2
      have u1 := hG1.unique (((ca i k).mul_const (B v i l)).sub ((ca i k').mul_const (B v i l')))
      have u2 := hG2.unique (((cb i l).const_mul (A v i k)).sub ((cb i l').const_mul (A v i k')))
      have := ((ca i k).mul (cb i l)).sub ((ca i k').mul (cb i l'))
      refine this.congr_fderiv ?_
      rw [u1, u2]
      abel
    rw [hasFDerivAt_pi']
    intro i
    rw [hasFDerivAt_pi']
    intro k
    have g1 := c1 i k
    have g2 := c2 i k
    have split : ((ContinuousLinearMap.proj k).comp
        ((ContinuousLinearMap.proj (R := ℝ) (φ := fun _ : Fin m => Fin 3 → ℝ) i).comp (D1 + D2))) =
        ((ContinuousLinearMap.proj k).comp
          ((ContinuousLinearMap.proj (R := ℝ) (φ := fun _ : Fin m => Fin 3 → ℝ) i).comp D1)) +
        ((ContinuousLinearMap.proj k).comp
          ((ContinuousLinearMap.proj (R := ℝ) (φ := fun _ : Fin m => Fin 3 → ℝ) i).comp D2)) := by
      ext x; simp
    rw [split]
    fin_cases k
    · simp only [crossRows, cross_apply] at g1 g2 ⊢
      exact prod i 1 2 2 1 _ _ g1 g2
    · simp only [crossRows, cross_apply] at g1 g2 ⊢
      exact prod i 2 0 0 2 _ _ g1 g2
    · simp only [crossRows, cross_apply] at g1 g2 ⊢
      exact prod i 0 1 1 0 _ _ g1 g2

/-- **C66** The matrices returned by `CrossProduct` and `TriEdges`, multiplied and added as the chain rule says (this
is what chumpy does), are the derivative of the normals of the faces. -/
theorem C66_face_normals_jacobian {f : Fin m → Fin 3 → ℤ} {g : Fin m → Fin 3 → Fin n} (h : ∀ t c, f t c = (g t c : ℕ))
    {c : CrossCache} (hc : CrossReachable c) (ida idb : ℕ) (hne : ida ≠ idb) (v : Fin n → Fin 3 → ℝ) :
    ∃ EA EB JA JB c1 c2 a b, edgesDr (flat v) (faceList f) 1 0 = .ok EA ∧ edgesDr (flat v) (faceList f) 2 0 = .ok EB ∧
      edgesFor (flat v) (faceList f) 1 0 = .ok a ∧ edgesFor (flat v) (faceList f) 2 0 = .ok b ∧
      crossDr c ida idb a b ida = .ok (some JA, c1) ∧ crossDr c ida idb a b idb = .ok (some JB, c2) ∧
      IsJacobian (faceNormals g) (cscDense (m * 3) JA * entDense (m * 3) (n * 3) EA +
        cscDense (m * 3) JB * entDense (m * 3) (n * 3) EB) v := by
  have r0 : PyRef 0 (0 : Fin 3) := .inl rfl
  have r1 : PyRef 1 (1 : Fin 3) := .inl rfl
  have r2 : PyRef 2 (2 : Fin 3) := .inl rfl
  obtain ⟨EA, ha, -, -, hA⟩ := C66_edges_jacobian r1 r0 (fun t => h t 1) (fun t => h t 0) v
  obtain ⟨EB, hb, -, -, hB⟩ := C66_edges_jacobian r2 r0 (fun t => h t 2) (fun t => h t 0) v
  obtain ⟨JA, c1, h1, -, -, hJA⟩ := C65_jacobian_a hc ida idb (edgeMap g 1 0 v) (edgeMap g 2 0 v)
  obtain ⟨JB, c2, h2, -, -, hJB⟩ := C65_jacobian_b hc ida idb hne (edgeMap g 1 0 v) (edgeMap g 2 0 v)
  refine ⟨EA, EB, JA, JB, c1, c2, _, _, ha, hb, C66_edges r1 r0 (fun t => .inl (h t 1)) (fun t => .inl (h t 0)) v,
    C66_edges r2 r0 (fun t => .inl (h t 2)) (fun t => .inl (h t 0)) v, h1, h2, ?_⟩
  exact isJacobian_cross (A := edgeMap g 1 0) (B := edgeMap g 2 0) hA hB hJA hJB

/-! ### normals of vertices -/

theorem normalSum_apply (g : Fin m → Fin 3 → Fin n) (v : Fin n → Fin 3 → ℝ) (i : Fin n) (k : Fin 3) :
    normalSum g v i k = ∑ t, ∑ c, if g t c = i then faceNormals g v t k else 0 := by
  simp only [normalSum, Finset.sum_apply]
  refine Finset.sum_congr rfl fun t _ => Finset.sum_congr rfl fun c _ => ?_
  split <;> rfl

theorem entMulVec_one {α : Type} [Num α] {e : ℝ → α} (he : Emb e) (g : Fin m → Fin 3 → Fin n) (y : Fin m → Fin 3 → ℝ) :
    entMulVec ⟨n * 3, m * 3, fbvPart g 0 (fun _ => Num.lit 1) ++ fbvPart g 1 (fun _ => Num.lit 1) ++
      fbvPart g 2 (fun _ => Num.lit 1)⟩ (flat fun t k => e (y t k)) =
    .ok (flat fun i k => e (∑ t, ∑ c, if g t c = i then y t k else 0)) := by
  have h1 : (Num.lit 1 : α) = e 1 := by rw [he.lit]; simp
  rw [h1, entMulVec_fbv he g (fun _ => 1) y]
  simp only [one_mul]

/-- **C66** `VertNormals` with `normalized` returns, for each vertex, the sum of the normals of the faces around it,
divided by its length; zero if there are none. -/
theorem C66_vert_normals {f : Fin m → Fin 3 → ℤ} {g : Fin m → Fin 3 → Fin n} (h : ∀ t c, f t c = (g t c : ℕ))
    (v : Fin n → Fin 3 → ℝ) :
    vertNormals (flat v) (faceList f) true = .ok (flat (unitRows (normalSum g v))) := by
  rw [vertNormals, flat_length, facesByVertex_ok f g h, ok_bind,
    C66_face_normals (fun t c => .inl (h t c)) v, ok_bind, normalsOf, if_pos rfl]
  have := entMulVec_one emb_id g (faceNormals g v)
  simp only [id] at this
  rw [this, ok_bind]
  have e : (fun i k => ∑ t, ∑ c, if g t c = i then faceNormals g v t k else 0) = normalSum g v := by
    funext i k; rw [normalSum_apply]
  rw [e, C64_value]

/-- **C66** A face with a number that is negative or not that of a vertex raises ValueError. -/
theorem C66_vert_error (f : Fin m → Fin 3 → ℤ) (v : Fin n → Fin 3 → ℝ) (b : Bool)
    (h : ∃ t c, f t c < 0 ∨ (n : ℤ) ≤ f t c) : vertNormals (flat v) (faceList f) b = raise .ValueError := by
  obtain ⟨t, c, hb⟩ := h
  have hf : facesByVertex (α := ℝ) (n * 3) (faceList f) = raise .ValueError := by
    have h1 : ravel3 (faceList f) = flat f := by rw [flat_eq]; rfl
    have h2 : ((List.range m).flatMap fun (j : ℕ) => [(j : ℤ), j, j]) = flat fun (t : Fin m) _ => ((t : ℕ) : ℤ) := by
      have := flatMap_flat (fun t : Fin m => ((t : ℕ) : ℤ)) (fun z _ => z)
      rw [← this]
      have e2 : (List.ofFn fun t : Fin m => ((t : ℕ) : ℤ)) = (List.range m).map fun j : ℕ => (j : ℤ) := by
        rw [List.ofFn_eq_map, ← List.map_coe_finRange_eq_range, List.map_map]; rfl
      rw [e2, List.flatMap_map]
    rw [facesByVertex]
    simp only [show (faceList f).length = m by simp [faceList], h1, h2, flat_zip, flat_map]
    rw [cscFromEntries, if_neg]
    intro hall
    have := hall (f t c * 3 + 0, ((t : ℕ) : ℤ) * 3 + 0, Num.lit 1)
      (List.mem_append_left _ (List.mem_append_left _ ((flat_mem _ _).2 ⟨t, c, rfl⟩)))
    simp only at this
    omega
  rw [vertNormals, flat_length, hf]
  rfl

theorem valence_pos {g : Fin m → Fin 3 → Fin n} (t : Fin m) (c : Fin 3) : 0 < valence g (g t c) :=
  Finset.card_pos.2 ⟨(t, c), by simp⟩

theorem valence_eq (g : Fin m → Fin 3 → Fin n) (i : Fin n) :
    (∑ t, ∑ c, if g t c = i then (1 : ℝ) else 0) = valence g i := by
  rw [valence, Finset.card_filter, ← Fintype.sum_prod_type' (fun t c => if g t c = i then (1 : ℝ) else 0)]
  push_cast
  rfl

theorem vertMean_emb {α : Type} [Num α] {e : ℝ → α} (he : Emb e) {f : Fin m → Fin 3 → ℤ} {g : Fin m → Fin 3 → Fin n}
    (h : ∀ t c, f t c = (g t c : ℕ)) (v : Fin n → Fin 3 → ℝ) :
    vertNormals (flat fun i k => e (v i k)) (faceList f) false = .ok (flat fun i k =>
      e (1 / valence g i * normalSum g v i k) / e (Real.sqrt (rowLen (normalSum g v i) / valence g i))) := by
  have h1 : (Num.lit 1 : α) = e 1 := by rw [he.lit]; simp
  rw [vertNormals, flat_length, facesByVertex_ok f g h, ok_bind,
    triNormalsScaled_ok he (fun t c => .inl (h t c)) v, ok_bind, normalsOf, if_neg (by simp), meanNormals]
  have hrep : List.replicate (m * 3) (Num.lit 1 : α) = flat fun (_ : Fin m) (_ : Fin 3) => e 1 := by
    apply flat_ext
    · simp
    · intro i k
      have : (i : ℕ) * 3 + (k : ℕ) < m * 3 := by omega
      simp [this, h1]
  simp only [hrep]
  rw [entMulVec_one he g (fun _ _ => 1), ok_bind]
  simp only [valence_eq]
  have hscale : ∀ c : Fin 3, ((fbvPart g c fun _ => (Num.lit 1 : α)).filterMap fun t =>
      ((flat fun i (_ : Fin 3) => e (valence g i : ℝ))[t.1]?).map
        fun s => (t.1, t.2.1, Num.lit 1 / s * t.2.2)) = fbvPart g c fun i => e (1 / valence g i) := by
    intro c
    have e1 : ∀ w : Fin n → α, fbvPart g c w = (flat fun (t : Fin m) (k : Fin 3) => (t, k)).map
        fun p => ((g p.1 p.2 : ℕ) * 3 + (c : ℕ), (p.1 : ℕ) * 3 + (c : ℕ), w (g p.1 p.2)) := by
      intro w; rw [flat_map]; rfl
    rw [e1, e1, List.filterMap_map, ← List.filterMap_eq_map]
    congr 1
    funext p
    have hv : (valence g (g p.1 p.2) : ℝ) ≠ 0 := by
      have := valence_pos (g := g) p.1 p.2
      positivity
    simp only [Function.comp_apply]
    rw [flat_get]
    simp only [Option.map_some, h1, he.div _ _ hv, he.mul, mul_one]
  have s0 := hscale 0
  have s1 := hscale 1
  have s2 := hscale 2
  simp only [Fin.val_zero, Fin.val_one, Fin.val_two] at s0 s1 s2
  simp only [List.filterMap_append, s0, s1, s2]
  rw [entMulVec_fbv he g (fun i => 1 / valence g i) (faceNormals g v), ok_bind]
  simp only [← normalSum_apply]
  rw [rows3_flat, ok_bind, pure_eq_ok]
  congr 1
  rw [flat_eq, List.map_ofFn]
  congr 2
  funext i
  simp only [Function.comp_apply]
  have hd : V3.dot (toV fun k => e (1 / valence g i * normalSum g v i k))
      (toV fun k => e (1 / valence g i * normalSum g v i k)) =
      e (∑ k, (1 / valence g i * normalSum g v i k) ^ 2) := by
    simp only [V3.dot, toV_x, toV_y, toV_z, he.mul, he.add, Fin.sum_univ_three]
    congr 1; ring
  rw [hd, he.sqrt _ (Finset.sum_nonneg fun _ _ => sq_nonneg _), he.sqrt _ (Real.sqrt_nonneg _)]
  have hl : Real.sqrt (∑ k, (1 / valence g i * normalSum g v i k) ^ 2) = rowLen (normalSum g v i) / valence g i := by
    have : (∑ k, (1 / valence g i * normalSum g v i k) ^ 2) = (1 / (valence g i : ℝ)) ^ 2 * ∑ k, normalSum g v i k ^ 2 := by
      rw [Finset.mul_sum]
      exact Finset.sum_congr rfl fun k _ => by ring
    rw [this, Real.sqrt_mul (by positivity), Real.sqrt_sq (by positivity), rowLen]
    ring
  rw [hl]
  rfl

/-- **C66** Without `normalized` the result is the mean of the normals of the faces around the vertex, divided by
the square root of its length (so its length is the square root of that of the mean).  Vertices without faces, and
those at which the normals cancel, give NaN. -/
theorem C66_vert_mean {f : Fin m → Fin 3 → ℤ} {g : Fin m → Fin 3 → Fin n} (h : ∀ t c, f t c = (g t c : ℕ))
    (v : Fin n → Fin 3 → ℝ) :
    vertNormals (flat fun i k => Fl.fin (v i k)) (faceList f) false = .ok (flat fun i k =>
      if normalSum g v i = 0 then Fl.nan
      else Fl.fin (normalSum g v i k / valence g i / Real.sqrt (rowLen (normalSum g v i) / valence g i))) := by
  rw [vertMean_emb emb_fin h v]
  congr 2
  funext i k
  by_cases hz : normalSum g v i = 0
  · rw [if_pos hz]
    have : rowLen (normalSum g v i) = 0 := by simp [hz, rowLen]
    rw [this, hz]
    simp only [Pi.zero_apply, mul_zero, zero_div, Real.sqrt_zero, Fl.div_zero_zero]
  · rw [if_neg hz]
    have hval : 0 < valence g i := by
      by_contra hc
      apply hz
      funext k
      rw [normalSum_apply]
      refine Finset.sum_eq_zero fun t _ => Finset.sum_eq_zero fun c _ => if_neg fun hgi => hc ?_
      rw [← hgi]; exact valence_pos t c
    have hlen : 0 < rowLen (normalSum g v i) := Real.sqrt_pos.2 (sumsq_pos hz)
    have hne : Real.sqrt (rowLen (normalSum g v i) / valence g i) ≠ 0 :=
      (Real.sqrt_pos.2 (by positivity)).ne'
    rw [Fl.div_fin _ _ hne, one_div, inv_mul_eq_div]

theorem fbv_jacobian (g : Fin m → Fin 3 → Fin n) (y : Fin m → Fin 3 → ℝ) :
    IsJacobian (fun (y : Fin m → Fin 3 → ℝ) (i : Fin n) k => ∑ t, ∑ c, if g t c = i then y t k else 0)
      (entDense (n * 3) (m * 3) ⟨n * 3, m * 3, fbvPart g 0 (fun _ => Num.lit 1) ++ fbvPart g 1 (fun _ => Num.lit 1) ++
        fbvPart g 2 (fun _ => Num.lit 1)⟩) y := by
  apply isJacobian_of
  intro i k
  refine ⟨∑ t, ∑ c, if g t c = i then coord t k else 0, ?_, ?_⟩
  · refine HasFDerivAt.fun_sum fun t _ => HasFDerivAt.fun_sum fun c _ => ?_
    by_cases h : g t c = i
    · simp only [if_pos h]; exact coord_deriv t k y
    · simp only [if_neg h]; exact hasFDerivAt_const 0 y
  · intro x
    have part : ∀ (d l : Fin 3) (j : Fin m),
        entDense (n * 3) (m * 3) ⟨n * 3, m * 3, fbvPart g d (fun _ => (Num.lit 1 : ℝ))⟩ (idx i k) (idx j l) =
          if d = k ∧ d = l then ∑ c, if g j c = i then 1 else 0 else 0 := by
      intro d l j
      have hd := d.2; have hk := k.2; have hl := l.2
      rw [fbvPart, entDense_flat]
      by_cases h : d = k ∧ d = l
      · rw [if_pos h, Finset.sum_eq_single j]
        · refine Finset.sum_congr rfl fun c _ => ?_
          obtain ⟨rfl, rfl⟩ := h
          have : ((g j c : ℕ) * 3 + (d : ℕ) = (idx i d : ℕ) ∧ (j : ℕ) * 3 + (d : ℕ) = (idx j d : ℕ)) ↔ g j c = i := by
            simp only [idx, Fin.ext_iff, and_true]
            omega
          simp only [this, Num.lit_real, Rat.cast_one]
        · intro t _ ht
          refine Finset.sum_eq_zero fun c _ => if_neg ?_
          rintro ⟨-, h2⟩
          apply ht
          simp only [idx] at h2
          apply Fin.ext; omega
        · simp
      · rw [if_neg h]
        refine Finset.sum_eq_zero fun t _ => Finset.sum_eq_zero fun c _ => if_neg ?_
        rintro ⟨h1, h2⟩
        apply h
        simp only [idx] at h1 h2
        exact ⟨Fin.ext (by omega), Fin.ext (by omega)⟩
    have p0 := part 0
    have p1 := part 1
    have p2 := part 2
    simp only [Fin.val_zero, Fin.val_one, Fin.val_two] at p0 p1 p2
    simp only [entDense_append, p0, p1, p2]
    have : ∀ (j : Fin m) (l : Fin 3), ((if (0 : Fin 3) = k ∧ 0 = l then ∑ c, if g j c = i then (1 : ℝ) else 0 else 0) +
        (if (1 : Fin 3) = k ∧ 1 = l then ∑ c, if g j c = i then (1 : ℝ) else 0 else 0) +
        if (2 : Fin 3) = k ∧ 2 = l then ∑ c, if g j c = i then (1 : ℝ) else 0 else 0) =
        if k = l then ∑ c, if g j c = i then (1 : ℝ) else 0 else 0 := by
      intro j l
      fin_cases k <;> fin_cases l <;> simp
    simp only [this, ite_mul, zero_mul, Finset.sum_ite_eq, Finset.mem_univ, if_true]
    rw [ContinuousLinearMap.sum_apply]
    refine Finset.sum_congr rfl fun t _ => ?_
    rw [ContinuousLinearMap.sum_apply, Finset.sum_mul]
    refine Finset.sum_congr rfl fun c _ => ?_
    split <;> simp

/-- **C66** The matrices returned by `NormalizedNx3`, `CrossProduct` and `TriEdges` and the matrix of the faces around
the vertices, multiplied as the chain rule says, are the derivative of the normals of the vertices, if none of these
is zero. -/
theorem C66_vert_jacobian {f : Fin m → Fin 3 → ℤ} {g : Fin m → Fin 3 → Fin n} (h : ∀ t c, f t c = (g t c : ℕ))
    {c : CrossCache} (hc : CrossReachable c) (ida idb : ℕ) (hne : ida ≠ idb) (v : Fin n → Fin 3 → ℝ)
    (hv : ∀ i, normalSum g v i ≠ 0) :
    ∃ EA EB JA JB c1 c2 a b M JN, edgesDr (flat v) (faceList f) 1 0 = .ok EA ∧
      edgesDr (flat v) (faceList f) 2 0 = .ok EB ∧
      edgesFor (flat v) (faceList f) 1 0 = .ok a ∧ edgesFor (flat v) (faceList f) 2 0 = .ok b ∧
      crossDr c ida idb a b ida = .ok (some JA, c1) ∧ crossDr c ida idb a b idb = .ok (some JB, c2) ∧
      facesByVertex (flat v).length (faceList f) = .ok M ∧ normalizedDr (flat (normalSum g v)) = .ok JN ∧
      IsJacobian (fun x => unitRows (normalSum g x)) (cscDense (n * 3) JN * (entDense (n * 3) (m * 3) M *
        (cscDense (m * 3) JA * entDense (m * 3) (n * 3) EA + cscDense (m * 3) JB * entDense (m * 3) (n * 3) EB))) v := by
  obtain ⟨EA, EB, JA, JB, c1, c2, a, b, h1, h2, h3, h4, h5, h6, h7⟩ :=
    C66_face_normals_jacobian h hc ida idb hne v
  obtain ⟨JN, h8, h9⟩ := C64_jacobian _ hv
  refine ⟨EA, EB, JA, JB, c1, c2, a, b, _, JN, h1, h2, h3, h4, h5, h6, by rw [flat_length]; exact facesByVertex_ok f g h,
    h8, ?_⟩
  have e : (fun x => normalSum g x) = fun x => (fun (y : Fin m → Fin 3 → ℝ) (i : Fin n) k =>
      ∑ t, ∑ c, if g t c = i then y t k else 0) (faceNormals g x) := by
    funext x i k; rw [normalSum_apply]
  have h10 := isJacobian_comp h7 (fbv_jacobian g _)
  rw [← e] at h10
  exact isJacobian_comp h10 h9

/-! ### assignments -/

theorem facesByVertex_nrow {α : Type} [Num α] {size : ℕ} {f : List (V3 ℤ)} {A : Entries α}
    (h : facesByVertex size f = .ok A) : A.nrow = size := by
  rw [facesByVertex] at h
  simp only [cscFromEntries] at h
  split at h
  · cases h; rfl
  · cases h

/-- what is kept fits the faces, and the flag if it never changed -/
def VertInv (allow : Bool) (o : VertObj ℝ) : Prop :=
  ∀ k, o.kept = some k → facesByVertex k.1.nrow k.2.1 = .ok k.1 ∧ (o.fChanged = false → k.2.1 = o.f) ∧
    (allow = false → k.2.2 = o.normalized)

theorem onChanged_inv {allow : Bool} {o : VertObj ℝ} (hi : VertInv allow o) {k} (h : o.onChanged = .ok k) :
    facesByVertex k.1.nrow k.2.1 = .ok k.1 ∧ k.2.1 = o.f ∧ (allow = false → k.2.2 = o.normalized) := by
  have key : (do let fbv ← facesByVertex o.v.data.length o.f; pure (fbv, o.f, o.normalized)) = Except.ok k →
      facesByVertex k.1.nrow k.2.1 = .ok k.1 ∧ k.2.1 = o.f ∧ (allow = false → k.2.2 = o.normalized) := by
    intro h
    obtain ⟨fbv, h1, h2⟩ := (bind_eq_ok ..).1 h
    simp at h2
    subst h2
    refine ⟨?_, rfl, fun _ => rfl⟩
    simp only [facesByVertex_nrow h1, h1]
  rw [VertObj.onChanged] at h
  cases hk : o.kept with
  | none => rw [hk] at h; exact key h
  | some k' =>
    rw [hk] at h
    simp only at h
    split at h
    · rename_i hc
      cases h
      obtain ⟨h1, h2, h3⟩ := hi _ hk
      exact ⟨h1, h2 (by simpa using hc.1), h3⟩
    · exact key h

theorem reachable_inv {allow : Bool} {o : VertObj ℝ} (h : VertReachable allow o) : VertInv allow o := by
  induction h with
  | new v f b => intro k hk; cases hk
  | setV v _ ih => intro k hk; exact ih k hk
  | setF f _ ih =>
    intro k hk
    obtain ⟨h1, -, h3⟩ := ih k hk
    exact ⟨h1, (by intro h; cases h), h3⟩
  | setNormalized b ha _ ih =>
    intro k hk
    obtain ⟨h1, h2, -⟩ := ih k hk
    exact ⟨h1, h2, by intro h; rw [ha] at h; cases h⟩
  | read _ hr ih =>
    intro k hk
    rw [VertObj.read] at hr
    obtain ⟨k', h1, hr⟩ := (bind_eq_ok ..).1 hr
    obtain ⟨tns, -, hr⟩ := (bind_eq_ok ..).1 hr
    obtain ⟨nm, -, hr⟩ := (bind_eq_ok ..).1 hr
    obtain ⟨rows, -, hr⟩ := (bind_eq_ok ..).1 hr
    simp at hr
    obtain ⟨-, rfl⟩ := hr
    cases hk
    obtain ⟨a, b, c⟩ := onChanged_inv ih h1
    exact ⟨a, fun _ => b, c⟩

/-- the flag that an evaluation will use -/
theorem onChanged_cases {allow : Bool} {o : VertObj ℝ} (hi : VertInv allow o) (hs : o.v.data.length = o.v.shape0 * 3) :
    ∃ b, (allow = false → b = o.normalized) ∧
      o.onChanged = (do let fbv ← facesByVertex o.v.data.length o.f; pure (fbv, o.f, b)) := by
  rw [VertObj.onChanged]
  cases hk : o.kept with
  | none => exact ⟨o.normalized, fun _ => rfl, rfl⟩
  | some k =>
    simp only
    split
    · rename_i hc
      obtain ⟨h1, h2, h3⟩ := hi _ hk
      have h2' := h2 (by simpa using hc.1)
      refine ⟨k.2.2, h3, ?_⟩
      rw [hs, ← hc.2, ← h2', h1]
      rfl
    · exact ⟨o.normalized, fun _ => rfl, rfl⟩

/-- **C66** After any assignments and evaluations, an evaluation returns the normals of the current vertices (an
array with three columns) and the current faces; if `normalized` was never assigned, it is respected too. -/
theorem C66_current {allow : Bool} {o : VertObj ℝ} (h : VertReachable allow o) (hs : o.v.data.length = o.v.shape0 * 3) :
    ∃ b, (allow = false → b = o.normalized) ∧
      (do let r ← o.read; pure r.1) = (do let x ← vertNormals o.v.data o.f b; rows3 x) := by
  obtain ⟨b, hb, e⟩ := onChanged_cases (reachable_inv h) hs
  refine ⟨b, hb, ?_⟩
  rw [VertObj.read, e, vertNormals]
  cases facesByVertex (α := ℝ) o.v.data.length o.f with
  | error _ => rfl
  | ok fbv =>
    simp only [ok_bind, pure_eq_ok]
    cases triNormalsScaled o.v.data o.f with
    | error _ => rfl
    | ok tns =>
      simp only [ok_bind]
      cases normalsOf fbv tns b with
      | error _ => rfl
      | ok nm =>
        simp only [ok_bind]
        cases rows3 nm with
        | error _ => rfl
        | ok r => rfl

/-- **C66** Changing `normalized` after an evaluation has no effect: the next evaluation returns the same again. -/
theorem C66_normalized_ignored {o o' : VertObj ℝ} {r : List (V3 ℝ)} (h : VertReachable true o)
    (hs : o.v.data.length = o.v.shape0 * 3) (hr : o.read = .ok (r, o')) (b : Bool) :
    ∃ o'', (o'.set (.normalized b)).read = .ok (r, o'') := by
  rw [VertObj.read] at hr
  obtain ⟨k, h1, hr⟩ := (bind_eq_ok ..).1 hr
  obtain ⟨tns, h2, hr⟩ := (bind_eq_ok ..).1 hr
  obtain ⟨nm, h3, hr⟩ := (bind_eq_ok ..).1 hr
  obtain ⟨rows, h4, hr⟩ := (bind_eq_ok ..).1 hr
  simp at hr
  obtain ⟨rfl, rfl⟩ := hr
  have hn : k.1.nrow = o.v.shape0 * 3 := by
    obtain ⟨b', -, e⟩ := onChanged_cases (reachable_inv h) hs
    rw [e] at h1
    obtain ⟨fbv, h5, h6⟩ := (bind_eq_ok ..).1 h1
    simp at h6
    subst h6
    rw [← hs]
    exact facesByVertex_nrow h5
  have hk : (VertObj.set { o with fChanged := false, kept := some k } (.normalized b)).onChanged = .ok k := by
    simp [VertObj.onChanged, VertObj.set, hn]
  refine ⟨{ o with normalized := b, fChanged := false, kept := some k }, ?_⟩
  rw [VertObj.read, hk, ok_bind]
  simp only [VertObj.set]
  rw [h2, ok_bind, h3, ok_bind, h4, ok_bind]
  rfl

/-! ### a triangle -/

/-- a triangle in the plane -/
def tri1 : Fin 3 → Fin 3 → ℝ := ![![0, 0, 0], ![2, 0, 0], ![0, 2, 0]]
/-- its only face -/
def tri1f : Fin 1 → Fin 3 → Fin 3 := fun _ c => c

theorem tri1_normal (t : Fin 1) : faceNormals tri1f tri1 t = ![0, 0, 4] := by
  funext k
  fin_cases k <;> simp [faceNormals, tri1f, tri1, cross_apply] <;> norm_num

theorem tri1_sum (i : Fin 3) : normalSum tri1f tri1 i = ![0, 0, 4] := by
  funext k
  rw [normalSum_apply]
  simp [tri1_normal, tri1f]

theorem tri1_valence (i : Fin 3) : valence tri1f i = 1 := by
  fin_cases i <;> rfl

theorem tri1_len : rowLen ![0, 0, 4] = 4 := by
  rw [rowLen, Fin.sum_univ_three, show (![0, 0, 4] : Fin 3 → ℝ) 0 ^ 2 + (![0, 0, 4] : Fin 3 → ℝ) 1 ^ 2 +
    (![0, 0, 4] : Fin 3 → ℝ) 2 ^ 2 = 4 ^ 2 by simp]
  exact Real.sqrt_sq (by norm_num)

theorem tri1_ints : ∀ t c, (fun (_ : Fin 1) (c : Fin 3) => ((c : ℕ) : ℤ)) t c = (tri1f t c : ℕ) := fun _ _ => rfl

theorem tri1_true : vertNormals (flat tri1) (faceList fun (_ : Fin 1) (c : Fin 3) => ((c : ℕ) : ℤ)) true =
    .ok (flat fun _ : Fin 3 => ![0, 0, 1]) := by
  rw [C66_vert_normals tri1_ints]
  congr 2
  funext i k
  have hne : (![0, 0, 4] : Fin 3 → ℝ) ≠ 0 := by intro h; have := congrFun h 2; simp at this
  rw [unitRows, tri1_sum, if_neg hne, tri1_len]
  fin_cases k <;> simp

theorem tri1_false : vertNormals (flat tri1) (faceList fun (_ : Fin 1) (c : Fin 3) => ((c : ℕ) : ℤ)) false =
    .ok (flat fun _ : Fin 3 => ![0, 0, 2]) := by
  have := vertMean_emb emb_id tri1_ints tri1
  simp only [id] at this
  refine this.trans ?_
  congr 2
  funext i k
  have h4 : Real.sqrt 4 = 2 := by rw [show (4 : ℝ) = 2 ^ 2 by norm_num]; exact Real.sqrt_sq (by norm_num)
  rw [tri1_sum, tri1_valence, tri1_len]
  simp only [Nat.cast_one, div_one, h4]
  fin_cases k <;> simp; norm_num

/-- **C66** For a triangle: created with `normalized`, evaluated, then set to not normalized, the next evaluation still
returns unit vectors, whereas an object created that way returns vectors of length 2. -/
theorem C66_normalized_stale :
    ∃ o o1 o2 o3 : VertObj ℝ, ∃ r r' : List (V3 ℝ), VertReachable true o ∧ o.read = .ok (r, o1) ∧
      (o1.set (.normalized false)).read = .ok (r, o2) ∧
      ({ v := o.v, f := o.f, normalized := false } : VertObj ℝ).read = .ok (r', o3) ∧
      r = [⟨0, 0, 1⟩, ⟨0, 0, 1⟩, ⟨0, 0, 1⟩] ∧ r' = [⟨0, 0, 2⟩, ⟨0, 0, 2⟩, ⟨0, 0, 2⟩] := by
  obtain ⟨o, ho⟩ : ∃ o : VertObj ℝ, o = { v := ⟨flat tri1, 3⟩, f := faceList fun (_ : Fin 1) (c : Fin 3) => ((c : ℕ) : ℤ), normalized := true } := ⟨_, rfl⟩
  obtain ⟨p, hp⟩ : ∃ p : VertObj ℝ, p = { v := ⟨flat tri1, 3⟩, f := faceList fun (_ : Fin 1) (c : Fin 3) => ((c : ℕ) : ℤ), normalized := false } := ⟨_, rfl⟩
  have ro : VertReachable false o := by rw [ho]; exact .new _ _ _
  have ro' : VertReachable true o := by rw [ho]; exact .new _ _ _
  have rp : VertReachable false p := by rw [hp]; exact .new _ _ _
  have so : o.v.data.length = o.v.shape0 * 3 := by rw [ho]; exact flat_length _
  have sp : p.v.data.length = p.v.shape0 * 3 := by rw [hp]; exact flat_length _
  obtain ⟨b, hb, e⟩ := C66_current ro so
  obtain ⟨b', hb', e'⟩ := C66_current rp sp
  rw [hb rfl] at e
  rw [hb' rfl] at e'
  have v1 : (do let x ← vertNormals o.v.data o.f o.normalized; rows3 x) = .ok (List.ofFn fun _ : Fin 3 => toV ![0, 0, 1]) := by
    rw [ho, tri1_true, ok_bind, rows3_flat]
  have v2 : (do let x ← vertNormals p.v.data p.f p.normalized; rows3 x) = .ok (List.ofFn fun _ : Fin 3 => toV ![0, 0, 2]) := by
    rw [hp, tri1_false, ok_bind, rows3_flat]
  rw [v1] at e
  rw [v2] at e'
  obtain ⟨⟨r, o1⟩, h1, h2⟩ := (bind_eq_ok ..).1 e
  obtain ⟨⟨r', o3⟩, h3, h4⟩ := (bind_eq_ok ..).1 e'
  simp at h2 h4
  obtain ⟨o2, h5⟩ := C66_normalized_ignored ro' so h1 false
  refine ⟨o, o1, o2, o3, r, r', ro', h1, h5, ?_, ?_, ?_⟩
  · rw [← h3, hp, ho]
  · rw [h2]; simp [toV]
  · rw [h4]; simp [toV]

/-- the triangle meets the hypothesis of C66_vert_jacobian -/
example : ∀ i, normalSum tri1f tri1 i ≠ 0 := by
  intro i h
  rw [tri1_sum] at h
  have := congrFun h 2
  simp at this

/-- negative numbers: Python's -1 is the last vertex -/
example : PyRef (-1) (2 : Fin 3) := .inr rfl

end Blmath.Props
