import Verif.Spec.MovedMesh
import Verif.Props.MeshNormals
import Mathlib.LinearAlgebra.Matrix.Adjugate
import Mathlib.LinearAlgebra.Matrix.NonsingularInverse

/-!
Property C146: the normals of a mesh moved, scaled, mirrored or sheared, and of a mesh listed in another order.
-/

namespace Blmath.Props
open Blmath.Linalg Blmath.Spec Blmath.Normals
open scoped Matrix
variable {n m : ℕ} {f : Fin m → Fin 3 → ℤ} {g : Fin m → Fin 3 → Fin n}

namespace MM

theorem cross_map (A : Matrix (Fin 3) (Fin 3) ℝ) (a b : Fin 3 → ℝ) : (A *ᵥ a) ⨯₃ (A *ᵥ b) = cofactors A *ᵥ (a ⨯₃ b) := by
  funext k
  fin_cases k <;>
    simp [cross_apply, cofactors, Matrix.mulVec, dotProduct, Fin.sum_univ_three] <;> ring

theorem face_map (g : Fin m → Fin 3 → Fin n) (A : Matrix (Fin 3) (Fin 3) ℝ) (t : Fin 3 → ℝ) (v : Fin n → Fin 3 → ℝ) (j : Fin m) :
    faceNormals g (mapRows A t v) j = cofactors A *ᵥ faceNormals g v j := by
  have h : ∀ x y : Fin 3 → ℝ, A *ᵥ x + t - (A *ᵥ y + t) = A *ᵥ (x - y) := by
    intro x y
    rw [Matrix.mulVec_sub]
    abel
  simp only [faceNormals, mapRows, h, cross_map]

theorem sum_map (g : Fin m → Fin 3 → Fin n) (A : Matrix (Fin 3) (Fin 3) ℝ) (t : Fin 3 → ℝ) (v : Fin n → Fin 3 → ℝ) (i : Fin n) :
    normalSum g (mapRows A t v) i = cofactors A *ᵥ normalSum g v i := by
  have h : ∀ x : Fin 3 → ℝ, cofactors A *ᵥ x = Matrix.mulVecLin (cofactors A) x := fun _ => rfl
  simp only [normalSum, face_map, h, map_sum]
  refine Finset.sum_congr rfl fun j _ => Finset.sum_congr rfl fun c _ => ?_
  split <;> simp

theorem cof_adj (A : Matrix (Fin 3) (Fin 3) ℝ) : cofactors A = A.adjugateᵀ := by
  rw [Matrix.adjugate_fin_three]
  ext i j
  fin_cases i <;> fin_cases j <;> simp [cofactors] <;> ring

theorem keeps {Q : Matrix (Fin 3) (Fin 3) ℝ} (h : KeepsLengths Q) : Qᵀ * Q = 1 := by
  ext i j
  have := h (Pi.single i 1) (Pi.single j 1)
  simpa [Matrix.mul_apply, dotProduct, Matrix.one_apply, Pi.single_apply, eq_comm] using this

theorem det_sq {Q : Matrix (Fin 3) (Fin 3) ℝ} (h : KeepsLengths Q) : Q.det * Q.det = 1 := by
  have := congrArg Matrix.det (keeps h)
  rwa [Matrix.det_mul, Matrix.det_transpose, Matrix.det_one] at this

theorem cof_keeps {Q : Matrix (Fin 3) (Fin 3) ℝ} (h : KeepsLengths Q) (k : ℝ) : cofactors (k • Q) = (k ^ 2 * Q.det) • Q := by
  have hr : Q * Qᵀ = 1 := mul_eq_one_comm.mp (keeps h)
  have e : Q.adjugate = Q.det • Qᵀ := by
    calc Q.adjugate = Q.adjugate * (Q * Qᵀ) := by rw [hr, mul_one]
      _ = Q.det • Qᵀ := by rw [← mul_assoc, Matrix.adjugate_mul, Matrix.smul_mul, one_mul]
  rw [cof_adj, Matrix.adjugate_smul, e]
  simp [smul_smul]

theorem len_eq (x : Fin 3 → ℝ) : rowLen x = Real.sqrt (x ⬝ᵥ x) := by
  rw [rowLen, dotProduct]
  congr 1
  exact Finset.sum_congr rfl fun k _ => by ring

theorem len_keeps {Q : Matrix (Fin 3) (Fin 3) ℝ} (h : KeepsLengths Q) (c : ℝ) (x : Fin 3 → ℝ) : rowLen (c • Q *ᵥ x) = |c| * rowLen x := by
  rw [len_eq, len_eq, smul_dotProduct, dotProduct_smul, h, smul_eq_mul, smul_eq_mul, ← mul_assoc, ← sq,
    Real.sqrt_mul (sq_nonneg c), Real.sqrt_sq_eq_abs]

theorem len_smul (c : ℝ) (x : Fin 3 → ℝ) : rowLen (c • x) = |c| * rowLen x := by
  have := len_keeps (Q := 1) (fun x y => by simp) c x
  simpa using this

theorem len_pos {x : Fin 3 → ℝ} (h : x ≠ 0) : 0 < rowLen x := by
  rw [len_eq]
  exact Real.sqrt_pos.mpr (lt_of_le_of_ne (Finset.sum_nonneg fun k _ => mul_self_nonneg _) fun e => h (dotProduct_self_eq_zero.mp e.symm))

theorem unit_row (x : Fin n → Fin 3 → ℝ) (i : Fin n) : unitRows x i = (rowLen (x i))⁻¹ • x i := by
  funext k
  by_cases h : x i = 0
  · rw [unitRows, if_pos h, h]; simp
  · rw [unitRows, if_neg h, Pi.smul_apply, smul_eq_mul, div_eq_inv_mul]

/-- a positive factor does not change the direction -/
theorem unit_smul {n : ℕ} (x : Fin n → Fin 3 → ℝ) (c : Fin n → ℝ) (hc : ∀ i, x i ≠ 0 → 0 < c i) : unitRows (fun i => c i • x i) = unitRows x := by
  funext i
  rw [unit_row, unit_row, len_smul]
  by_cases h : x i = 0
  · simp [h]
  · have := hc i h
    rw [abs_of_pos this, smul_smul]
    congr 1
    have := len_pos h
    field_simp

theorem unit_lin (B : Matrix (Fin 3) (Fin 3) ℝ) (x : Fin n → Fin 3 → ℝ) :
    unitRows (fun i => B *ᵥ unitRows x i) = unitRows fun i => B *ᵥ x i := by
  have : (fun i => B *ᵥ unitRows x i) = fun i => (rowLen (x i))⁻¹ • (B *ᵥ x i) := by
    funext i
    rw [unit_row, Matrix.mulVec_smul]
  rw [this]
  refine unit_smul _ _ fun i h => inv_pos.mpr (len_pos fun e => h ?_)
  rw [e, Matrix.mulVec_zero]

theorem unit_keeps {Q : Matrix (Fin 3) (Fin 3) ℝ} (h : KeepsLengths Q) {k : ℝ} (hk : k ≠ 0) (x : Fin n → Fin 3 → ℝ) :
    unitRows (fun i => ((k ^ 2 * Q.det) • Q) *ᵥ x i) = fun i => Q.det • Q *ᵥ unitRows x i := by
  funext i
  have hd : |Q.det| = 1 := by
    have := det_sq h
    rw [← abs_mul_abs_self] at this
    nlinarith [abs_nonneg Q.det]
  rw [unit_row, unit_row, Matrix.smul_mulVec, len_keeps h, Matrix.mulVec_smul, smul_smul, smul_smul, abs_mul, hd, mul_one, abs_of_nonneg (sq_nonneg k), mul_inv]
  congr 1
  have : k ^ 2 ≠ 0 := pow_ne_zero _ hk
  field_simp

end MM

open MM

/-- **C146** Under any linear map followed by a move, the rows of `TriNormalsScaled` are mapped by the matrix of cofactors;
those of `TriNormals` and of `VertNormals` too, after which they are given length one (zero if they became zero).  The
numbers of the vertices may be negative where the functions accept them. -/
theorem C146_mapped (A : Matrix (Fin 3) (Fin 3) ℝ) (d : Fin 3 → ℝ) (v : Fin n → Fin 3 → ℝ) :
    ((∀ t c, PyRef (f t c) (g t c)) → ∃ N U : Fin m → Fin 3 → ℝ,
      triNormalsScaled (flat v) (faceList f) = .ok (flat N) ∧
      triNormalsScaled (flat (mapRows A d v)) (faceList f) = .ok (flat fun t => cofactors A *ᵥ N t) ∧
      triNormals (flat v) (faceList f) = .ok (flat U) ∧
      triNormals (flat (mapRows A d v)) (faceList f) = .ok (flat (unitRows fun t => cofactors A *ᵥ U t))) ∧
    ((∀ t c, f t c = (g t c : ℕ)) → ∃ R : Fin n → Fin 3 → ℝ,
      vertNormals (flat v) (faceList f) true = .ok (flat R) ∧
      vertNormals (flat (mapRows A d v)) (faceList f) true = .ok (flat (unitRows fun i => cofactors A *ᵥ R i))) := by
  refine ⟨fun h => ⟨_, _, C66_face_normals h v, ?_, C66_unit_normals h v, ?_⟩, fun h => ⟨_, C66_vert_normals h v, ?_⟩⟩
  · rw [C66_face_normals h]
    congr 2
    funext t
    exact face_map ..
  · rw [C66_unit_normals h, unit_lin]
    congr 3
    funext t
    exact face_map ..
  · rw [C66_vert_normals h, unit_lin]
    congr 3
    funext t
    exact sum_map ..

open Classical in
/-- **C146** If the map turns or mirrors, times a factor `k` other than zero, and moves: `TriNormalsScaled` is turned along,
times `k²`, and in a mirror reversed; `TriNormals` and `VertNormals` are turned along (reversed in a mirror) and keep their
length whatever `k` is; without `normalized`, the rows of `VertNormals` get longer by `|k|`, and the same rows are NaN. -/
theorem C146_moved {Q : Matrix (Fin 3) (Fin 3) ℝ} (hQ : KeepsLengths Q) {k : ℝ} (hk : k ≠ 0) (d : Fin 3 → ℝ) (v : Fin n → Fin 3 → ℝ) :
    (Q.det = 1 ∨ Q.det = -1) ∧
    ((∀ t c, PyRef (f t c) (g t c)) → ∃ N U : Fin m → Fin 3 → ℝ,
      triNormalsScaled (flat v) (faceList f) = .ok (flat N) ∧
      triNormalsScaled (flat (mapRows (k • Q) d v)) (faceList f) = .ok (flat fun t => (k ^ 2 * Q.det) • Q *ᵥ N t) ∧
      triNormals (flat v) (faceList f) = .ok (flat U) ∧
      triNormals (flat (mapRows (k • Q) d v)) (faceList f) = .ok (flat fun t => Q.det • Q *ᵥ U t)) ∧
    ((∀ t c, f t c = (g t c : ℕ)) → ∃ (R S : Fin n → Fin 3 → ℝ) (bad : Fin n → Prop),
      vertNormals (flat v) (faceList f) true = .ok (flat R) ∧
      vertNormals (flat (mapRows (k • Q) d v)) (faceList f) true = .ok (flat fun i => Q.det • Q *ᵥ R i) ∧
      (vertNormals (flat fun i c => Fl.fin (v i c)) (faceList f) false = .ok (flat fun i c => if bad i then Fl.nan else Fl.fin (S i c))) ∧
      vertNormals (flat fun i c => Fl.fin (mapRows (k • Q) d v i c)) (faceList f) false =
        .ok (flat fun i c => if bad i then Fl.nan else Fl.fin ((|k| * Q.det) * (Q *ᵥ S i) c))) := by
  have hd : Q.det = 1 ∨ Q.det = -1 := mul_self_eq_one_iff.mp (det_sq hQ)
  have hd0 : Q.det ≠ 0 := by rcases hd with h | h <;> rw [h] <;> norm_num
  have hda : |Q.det| = 1 := by rcases hd with h | h <;> rw [h] <;> norm_num
  refine ⟨hd, fun h => ⟨_, _, C66_face_normals h v, ?_, C66_unit_normals h v, ?_⟩, fun h =>
    ⟨_, fun i c => normalSum g v i c / valence g i / Real.sqrt (rowLen (normalSum g v i) / valence g i), fun i => normalSum g v i = 0,
      C66_vert_normals h v, ?_, ?_, ?_⟩⟩
  · rw [C66_face_normals h]
    congr 2
    funext t
    rw [face_map, cof_keeps hQ, Matrix.smul_mulVec]
  · rw [C66_unit_normals h, ← unit_keeps hQ hk]
    congr 3
    funext t
    rw [face_map, cof_keeps hQ]
  · rw [C66_vert_normals h, ← unit_keeps hQ hk]
    congr 3
    funext t
    rw [sum_map, cof_keeps hQ]
  · rw [C66_vert_mean h]
    congr 2
    funext i c
    congr
  · rw [C66_vert_mean h]
    congr 2
    funext i c
    have e : normalSum g (mapRows (k • Q) d v) i = (k ^ 2 * Q.det) • Q *ᵥ normalSum g v i := by
      rw [sum_map, cof_keeps hQ, Matrix.smul_mulVec]
    have hc : |k ^ 2 * Q.det| = k ^ 2 := by rw [abs_mul, hda, mul_one, abs_of_nonneg (sq_nonneg k)]
    have hz : normalSum g (mapRows (k • Q) d v) i = 0 ↔ normalSum g v i = 0 := by
      constructor
      · intro h0
        by_contra hne
        have := len_pos hne
        have h1 := len_keeps hQ (k ^ 2 * Q.det) (normalSum g v i)
        rw [← e, h0, hc] at h1
        have h2 : rowLen (0 : Fin 3 → ℝ) = 0 := by rw [len_eq]; simp
        rw [h2] at h1
        have : 0 < k ^ 2 := by positivity
        nlinarith [mul_pos this (len_pos hne)]
      · intro h0
        rw [e, h0]; simp
    by_cases h0 : normalSum g v i = 0
    · rw [if_pos (hz.mpr h0), if_pos h0]
    · rw [if_neg (fun h' => h0 (hz.mp h')), if_neg h0]
      congr 1
      rw [e, len_keeps hQ, hc]
      have hs : Real.sqrt (k ^ 2 * rowLen (normalSum g v i) / valence g i) = |k| * Real.sqrt (rowLen (normalSum g v i) / valence g i) := by
        rw [mul_div_assoc, Real.sqrt_mul (sq_nonneg k), Real.sqrt_sq_eq_abs]
      have hm : (Q *ᵥ fun c => normalSum g v i c / valence g i / Real.sqrt (rowLen (normalSum g v i) / valence g i)) c =
          (Q *ᵥ normalSum g v i) c / valence g i / Real.sqrt (rowLen (normalSum g v i) / valence g i) := by
        simp only [Matrix.mulVec, dotProduct, Finset.sum_div]
        refine Finset.sum_congr rfl fun j _ => ?_
        ring
      rw [hs, hm, Pi.smul_apply, smul_eq_mul]
      have hka : |k| ≠ 0 := abs_ne_zero.mpr hk
      rw [← sq_abs k]
      rw [div_div, div_div]
      by_cases hw : (valence g i : ℝ) * Real.sqrt (rowLen (normalSum g v i) / valence g i) = 0
      · rw [hw]
        rw [show (valence g i : ℝ) * (|k| * Real.sqrt (rowLen (normalSum g v i) / valence g i)) =
          |k| * ((valence g i : ℝ) * Real.sqrt (rowLen (normalSum g v i) / valence g i)) by ring, hw]
        simp
      · rw [show (valence g i : ℝ) * (|k| * Real.sqrt (rowLen (normalSum g v i) / valence g i)) =
          |k| * ((valence g i : ℝ) * Real.sqrt (rowLen (normalSum g v i) / valence g i)) by ring]
        field_simp

namespace MM

theorem perm3 : ∀ ρ : Equiv.Perm (Fin 3), (ρ 0, ρ 1, ρ 2, (Equiv.Perm.sign ρ : ℤ)) ∈
    [((0 : Fin 3), (1 : Fin 3), (2 : Fin 3), (1 : ℤ)), (1, 2, 0, 1), (2, 0, 1, 1), (1, 0, 2, -1), (0, 2, 1, -1), (2, 1, 0, -1)] := by
  decide

theorem corners_perm (ρ : Equiv.Perm (Fin 3)) (x : Fin 3 → Fin 3 → ℝ) :
    (x (ρ 1) - x (ρ 0)) ⨯₃ (x (ρ 2) - x (ρ 0)) = ((Equiv.Perm.sign ρ : ℤ) : ℝ) • (x 1 - x 0) ⨯₃ (x 2 - x 0) := by
  have h := perm3 ρ
  simp only [List.mem_cons, Prod.mk.injEq, List.not_mem_nil, or_false] at h
  rcases h with ⟨h0, h1, h2, h3⟩ | ⟨h0, h1, h2, h3⟩ | ⟨h0, h1, h2, h3⟩ | ⟨h0, h1, h2, h3⟩ | ⟨h0, h1, h2, h3⟩ | ⟨h0, h1, h2, h3⟩ <;>
    rw [h0, h1, h2, h3] <;> funext k <;> fin_cases k <;> simp [cross_apply] <;> ring

/-- the faces listed in the order `σ`, each from the corners in the order `ρ`, the vertices in the order `τ` -/
def listed (σ : Equiv.Perm (Fin m)) (ρ : Fin m → Equiv.Perm (Fin 3)) (τ : Equiv.Perm (Fin n)) (g : Fin m → Fin 3 → Fin n) :
    Fin m → Fin 3 → Fin n := fun t c => τ.symm (g (σ t) (ρ t c))

variable {σ : Equiv.Perm (Fin m)} {ρ : Fin m → Equiv.Perm (Fin 3)} {τ : Equiv.Perm (Fin n)}

theorem face_listed (v : Fin n → Fin 3 → ℝ) (t : Fin m) :
    faceNormals (listed σ ρ τ g) (fun i => v (τ i)) t = ((Equiv.Perm.sign (ρ t) : ℤ) : ℝ) • faceNormals g v (σ t) := by
  rw [faceNormals]
  simp only [listed, Equiv.apply_symm_apply]
  exact corners_perm (ρ t) fun c => v (g (σ t) c)

theorem sum_listed {s : ℝ} (hs : ∀ t, ((Equiv.Perm.sign (ρ t) : ℤ) : ℝ) = s) (v : Fin n → Fin 3 → ℝ) (i : Fin n) :
    normalSum (listed σ ρ τ g) (fun i => v (τ i)) i = s • normalSum g v (τ i) := by
  simp only [normalSum, Finset.smul_sum]
  rw [← Equiv.sum_comp σ fun t => ∑ c, s • if g t c = τ i then faceNormals g v t else 0]
  refine Finset.sum_congr rfl fun t _ => ?_
  rw [← Equiv.sum_comp (ρ t) fun c => s • if g (σ t) c = τ i then faceNormals g v (σ t) else 0]
  refine Finset.sum_congr rfl fun c _ => ?_
  rw [face_listed, hs]
  have : listed σ ρ τ g t c = i ↔ g (σ t) (ρ t c) = τ i := by rw [listed, Equiv.symm_apply_eq]
  by_cases h : g (σ t) (ρ t c) = τ i
  · rw [if_pos (this.mpr h), if_pos h]
  · rw [if_neg (fun e => h (this.mp e)), if_neg h, smul_zero]

theorem valence_listed (i : Fin n) : valence (listed σ ρ τ g) i = valence g (τ i) := by
  have h := valence_eq (listed σ ρ τ g) i
  have h' := valence_eq g (τ i)
  rw [← Equiv.sum_comp σ] at h'
  have : (∑ t, ∑ c, if listed σ ρ τ g t c = i then (1 : ℝ) else 0) = ∑ t, ∑ c, if g (σ t) c = τ i then (1 : ℝ) else 0 := by
    refine Finset.sum_congr rfl fun t _ => ?_
    rw [← Equiv.sum_comp (ρ t) fun c => if g (σ t) c = τ i then (1 : ℝ) else 0]
    refine Finset.sum_congr rfl fun c _ => ?_
    have : listed σ ρ τ g t c = i ↔ g (σ t) (ρ t c) = τ i := by rw [listed, Equiv.symm_apply_eq]
    simp only [this]
  rw [this, h'] at h
  exact_mod_cast h.symm

theorem unit_sign {s : ℝ} (hs : s = 1 ∨ s = -1) (x : Fin n → Fin 3 → ℝ) : unitRows (fun i => s • x i) = fun i => s • unitRows x i := by
  funext i
  have : |s| = 1 := by rcases hs with h | h <;> rw [h] <;> norm_num
  rw [unit_row, unit_row, len_smul, this, one_mul, smul_comm]

end MM

/-- **C146** List the faces in any order `σ`, each from its corners in any order `ρ t`, and the vertices in any order `τ`, with
the numbers in the faces changed to match.  `TriNormalsScaled` and `TriNormals` have in row `t` the row `σ t` of before, reversed if
the corners of that face are listed the other way round.  If that is so for all faces or for none, row `i` of `VertNormals` is the
row `τ i` of before, reversed if the faces are; with `normalized` or without, where the same rows are NaN. -/
theorem C146_listed {f' : Fin m → Fin 3 → ℤ} (σ : Equiv.Perm (Fin m)) (ρ : Fin m → Equiv.Perm (Fin 3)) (τ : Equiv.Perm (Fin n))
    (v : Fin n → Fin 3 → ℝ) :
    ((∀ t c, PyRef (f t c) (g t c)) → (∀ t c, PyRef (f' t c) (τ.symm (g (σ t) (ρ t c)))) → ∃ N U : Fin m → Fin 3 → ℝ,
      triNormalsScaled (flat v) (faceList f) = .ok (flat N) ∧
      triNormalsScaled (flat fun i => v (τ i)) (faceList f') = .ok (flat fun t => ((Equiv.Perm.sign (ρ t) : ℤ) : ℝ) • N (σ t)) ∧
      triNormals (flat v) (faceList f) = .ok (flat U) ∧
      triNormals (flat fun i => v (τ i)) (faceList f') = .ok (flat fun t => ((Equiv.Perm.sign (ρ t) : ℤ) : ℝ) • U (σ t))) ∧
    ∀ s : ℝ, s = 1 ∨ s = -1 → (∀ t, ((Equiv.Perm.sign (ρ t) : ℤ) : ℝ) = s) →
      (∀ t c, f t c = (g t c : ℕ)) → (∀ t c, f' t c = ((τ.symm (g (σ t) (ρ t c)) : Fin n) : ℕ)) → ∃ (R : Fin n → Fin 3 → ℝ) (S : Fin n → Option (Fin 3 → ℝ)),
        vertNormals (flat v) (faceList f) true = .ok (flat R) ∧
        vertNormals (flat fun i => v (τ i)) (faceList f') true = .ok (flat fun i => s • R (τ i)) ∧
        vertNormals (flat fun i c => Fl.fin (v i c)) (faceList f) false = .ok (flat fun i c => (S i).elim Fl.nan fun r => Fl.fin (r c)) ∧
        vertNormals (flat fun i c => Fl.fin (v (τ i) c)) (faceList f') false =
          .ok (flat fun i c => (S (τ i)).elim Fl.nan fun r => Fl.fin (s * r c)) := by
  classical
  refine ⟨fun h h' => ⟨_, _, C66_face_normals h v, ?_, C66_unit_normals h v, ?_⟩, fun s hs hρ h h' => ?_⟩
  · rw [C66_face_normals (g := listed σ ρ τ g) h']
    congr 2
    funext t
    exact face_listed v t
  · rw [C66_unit_normals (g := listed σ ρ τ g) h']
    congr 2
    funext t
    have hsg : |((Equiv.Perm.sign (ρ t) : ℤ) : ℝ)| = 1 := by
      rcases Int.units_eq_one_or (Equiv.Perm.sign (ρ t)) with e | e <;> rw [e] <;> norm_num
    rw [unit_row, unit_row, face_listed, len_smul, hsg, one_mul, smul_comm]
  · refine ⟨_, fun i => if normalSum g v i = 0 then none else
      some fun c => normalSum g v i c / valence g i / Real.sqrt (rowLen (normalSum g v i) / valence g i), C66_vert_normals h v, ?_, ?_, ?_⟩
    · rw [C66_vert_normals (g := listed σ ρ τ g) h']
      congr 2
      have := unit_sign hs fun i => normalSum g v (τ i)
      have e : normalSum (listed σ ρ τ g) (fun i => v (τ i)) = fun i => s • normalSum g v (τ i) := by
        funext i
        exact sum_listed hρ v i
      rw [e, this]
      rfl
    · rw [C66_vert_mean h]
      congr 2
      funext i c
      beta_reduce
      by_cases h0 : normalSum g v i = 0
      · rw [if_pos h0, if_pos h0]; rfl
      · rw [if_neg h0, if_neg h0]; rfl
    · rw [C66_vert_mean (g := listed σ ρ τ g) h' fun i => v (τ i)]
      congr 2
      funext i c
      rw [sum_listed hρ v i, valence_listed]
      have hs0 : s ≠ 0 := by rcases hs with h | h <;> rw [h] <;> norm_num
      have hsa : |s| = 1 := by rcases hs with h | h <;> rw [h] <;> norm_num
      beta_reduce
      by_cases h0 : normalSum g v (τ i) = 0
      · rw [if_pos h0, if_pos (by rw [h0, smul_zero])]; rfl
      · rw [if_neg h0, if_neg (by rw [smul_eq_zero]; tauto)]
        simp only [Option.elim_some, len_smul, hsa, one_mul, Pi.smul_apply, smul_eq_mul, mul_div_assoc]

/-- **C146** Witness: the triangle (0,0,0), (2,0,0), (0,2,0), mirrored in the plane x = 0, times 3, moved by (1,1,1).  The mirror keeps
lengths and has determinant -1; `TriNormalsScaled` changes from (0,0,4) to (0,0,-36); `VertNormals` from (0,0,1) to (0,0,-1).  Listed
with two corners exchanged, the normal of the triangle is (0,0,-4). -/
theorem C146_witness : ∃ (f f' : Fin 1 → Fin 3 → ℤ) (g : Fin 1 → Fin 3 → Fin 3) (Q : Matrix (Fin 3) (Fin 3) ℝ) (d : Fin 3 → ℝ) (v : Fin 3 → Fin 3 → ℝ),
    (∀ t c, f t c = (g t c : ℕ)) ∧ (∀ t c, f' t c = (g t (Equiv.swap 1 2 c) : ℕ)) ∧ KeepsLengths Q ∧ Q.det = -1 ∧
    mapRows ((3 : ℝ) • Q) d v = ![![1, 1, 1], ![-5, 1, 1], ![1, 7, 1]] ∧
    triNormalsScaled (flat v) (faceList f) = .ok [0, 0, 4] ∧
    triNormalsScaled (flat (mapRows ((3 : ℝ) • Q) d v)) (faceList f) = .ok [0, 0, -36] ∧
    triNormalsScaled (flat v) (faceList f') = .ok [0, 0, -4] ∧
    vertNormals (flat v) (faceList f) true = .ok [0, 0, 1, 0, 0, 1, 0, 0, 1] ∧
    vertNormals (flat (mapRows ((3 : ℝ) • Q) d v)) (faceList f) true = .ok [0, 0, -1, 0, 0, -1, 0, 0, -1] := by
  have hQ : KeepsLengths !![-1, 0, 0; 0, 1, 0; 0, 0, 1] := by
    intro x y
    simp [Matrix.mulVec, dotProduct, Fin.sum_univ_three]
  have hd : (!![-1, 0, 0; 0, 1, 0; 0, 0, 1] : Matrix (Fin 3) (Fin 3) ℝ).det = -1 := by
    simp [Matrix.det_fin_three]
  have hf : ∀ t c, (fun (_ : Fin 1) (c : Fin 3) => ((c : ℕ) : ℤ)) t c = (tri1f t c : ℕ) := fun _ _ => rfl
  have hu : ∀ i, unitRows (normalSum tri1f tri1) i = ![0, 0, 1] := by
    intro i
    funext k
    have hne : (![0, 0, 4] : Fin 3 → ℝ) ≠ 0 := by intro h; have := congrFun h 2; simp at this
    rw [unitRows, tri1_sum, if_neg hne, tri1_len]
    fin_cases k <;> simp
  refine ⟨fun _ c => ((c : ℕ) : ℤ), fun _ c => ((Equiv.swap 1 2 c : Fin 3) : ℕ), tri1f, !![-1, 0, 0; 0, 1, 0; 0, 0, 1], ![1, 1, 1], tri1,
    hf, fun _ _ => rfl, hQ, hd, ?_, ?_, ?_, ?_, ?_, ?_⟩
  · funext i k
    fin_cases i <;> fin_cases k <;> simp [mapRows, tri1, Matrix.mulVec, dotProduct, Fin.sum_univ_three] <;> norm_num
  · rw [C66_face_normals (g := tri1f) (fun t c => .inl (hf t c))]
    simp [flat, tri1_normal]
  · rw [C66_face_normals (g := tri1f) (fun t c => .inl (hf t c))]
    have : ∀ t, faceNormals tri1f (mapRows ((3 : ℝ) • !![-1, 0, 0; 0, 1, 0; 0, 0, 1]) ![1, 1, 1] tri1) t = ![0, 0, -36] := by
      intro t
      rw [face_map, cof_keeps hQ, hd, tri1_normal]
      funext k
      fin_cases k <;> simp [Matrix.mulVec, dotProduct, Fin.sum_univ_three] <;> norm_num
    rw [show faceNormals tri1f (mapRows ((3 : ℝ) • !![-1, 0, 0; 0, 1, 0; 0, 0, 1]) ![1, 1, 1] tri1) = fun _ => ![0, 0, -36] from funext this]
    simp [flat]
  · have h := (C146_listed (f := fun (_ : Fin 1) (c : Fin 3) => ((c : ℕ) : ℤ)) (g := tri1f)
      (f' := fun (_ : Fin 1) (c : Fin 3) => (((Equiv.swap 1 2 c : Fin 3) : ℕ) : ℤ)) 1 (fun _ => Equiv.swap 1 2) 1 tri1).1
      (fun t c => .inl (hf t c)) (fun t c => .inl rfl)
    obtain ⟨N, U, h1, h2, -, -⟩ := h
    rw [C66_face_normals (g := tri1f) (fun t c => .inl (hf t c))] at h1
    have e : N = faceNormals tri1f tri1 := by
      have := Except.ok.inj h1
      funext i k
      have := congrArg (fun l => l[(i : ℕ) * 3 + (k : ℕ)]?) this
      simpa only [flat_get, Option.some.injEq] using this.symm
    refine h2.trans ?_
    rw [e, Equiv.Perm.sign_swap (by decide)]
    simp [flat, tri1_normal]
  · rw [C66_vert_normals hf]
    simp [flat, hu]
  · rw [C66_vert_normals hf]
    have : unitRows (normalSum tri1f (mapRows ((3 : ℝ) • !![-1, 0, 0; 0, 1, 0; 0, 0, 1]) ![1, 1, 1] tri1)) = fun _ => ![0, 0, -1] := by
      have e : normalSum tri1f (mapRows ((3 : ℝ) • !![-1, 0, 0; 0, 1, 0; 0, 0, 1]) ![1, 1, 1] tri1) =
          fun i => (((3 : ℝ) ^ 2 * (!![-1, 0, 0; 0, 1, 0; 0, 0, 1] : Matrix (Fin 3) (Fin 3) ℝ).det) • !![-1, 0, 0; 0, 1, 0; 0, 0, 1]) *ᵥ normalSum tri1f tri1 i := by
        funext i
        rw [sum_map, cof_keeps hQ]
      rw [e, unit_keeps hQ (by norm_num)]
      funext i k
      rw [hu, hd]
      fin_cases k <;> simp [Matrix.mulVec, dotProduct, Fin.sum_univ_three]
    rw [this]
    simp [flat]

end Blmath.Props
