import Verif.Spec.ClosedSurface
import Verif.Props.MeshNormals
import Verif.Props.Shapes
import Verif.Props.Triangle
import Mathlib.Analysis.Calculus.Deriv.Pow
import Mathlib.Analysis.Calculus.Deriv.Add

/-!
Property C142: the normals of a closed surface.
-/

namespace Blmath.Props
open Blmath.Linalg Blmath.Spec Blmath.Normals Blmath.Geometry
open scoped Matrix

namespace CS

/-! ### sums over the directed edges -/

theorem antisym_zero {L : List (ℕ × ℕ)} (hn : L.Nodup) (hs : ∀ e ∈ L, (e.2, e.1) ∈ L) {φ : ℕ → ℕ → ℝ} (hφ : ∀ a b, φ b a = -φ a b) :
    (L.map fun e => φ e.1 e.2).sum = 0 := by
  have hinj : Function.Injective (Prod.swap : ℕ × ℕ → ℕ × ℕ) := Prod.swap_injective
  have hp : (L.map Prod.swap).Perm L := by
    refine (List.perm_ext_iff_of_nodup (hn.map hinj) hn).mpr fun e => ?_
    rw [List.mem_map]
    constructor
    · rintro ⟨f, hf, rfl⟩
      exact hs f hf
    · intro he
      exact ⟨e.swap, hs e he, Prod.swap_swap e⟩
  have h1 := (hp.map fun e => φ e.1 e.2).sum_eq
  rw [List.map_map] at h1
  have h2 : (L.map ((fun e : ℕ × ℕ => φ e.1 e.2) ∘ Prod.swap)).sum = -(L.map fun e => φ e.1 e.2).sum := by
    have : ∀ l : List (ℕ × ℕ), (l.map ((fun e : ℕ × ℕ => φ e.1 e.2) ∘ Prod.swap)).sum = -(l.map fun e => φ e.1 e.2).sum := by
      intro l
      induction l with
      | nil => simp
      | cons e l ih =>
        rw [List.map_cons, List.sum_cons, ih, List.map_cons, List.sum_cons, Function.comp_apply, Prod.fst_swap, Prod.snd_swap, hφ]
        ring
    exact this L
  linarith

theorem edges_sum (φ : ℕ → ℕ → ℝ) (fs : List (ℕ × ℕ × ℕ)) : ((directedEdges fs).map fun e => φ e.1 e.2).sum =
    (fs.map fun f => φ f.1 f.2.1 + φ f.2.1 f.2.2 + φ f.2.2 f.1).sum := by
  induction fs with
  | nil => rfl
  | cons f fs ih =>
    have : directedEdges (f :: fs) = [(f.1, f.2.1), (f.2.1, f.2.2), (f.2.2, f.1)] ++ directedEdges fs := rfl
    rw [this, List.map_append, List.sum_append, ih]
    simp [add_assoc]

theorem watertight_sum {fs : List (ℕ × ℕ × ℕ)} (h : Watertight fs) {φ : ℕ → ℕ → ℝ} (hφ : ∀ a b, φ b a = -φ a b) :
    (fs.map fun f => φ f.1 f.2.1 + φ f.2.1 f.2.2 + φ f.2.2 f.1).sum = 0 := by
  rw [← edges_sum]
  exact antisym_zero h.1 (fun e he => (h.2 e he).2) hφ

variable {n m : ℕ} {g : Fin m → Fin 3 → Fin n}

theorem closed_sum (h : Watertight (faceTriples g)) {φ : Fin n → Fin n → ℝ} (hφ : ∀ a b, φ b a = -φ a b) :
    ∑ t, (φ (g t 0) (g t 1) + φ (g t 1) (g t 2) + φ (g t 2) (g t 0)) = 0 := by
  have := watertight_sum h (φ := fun a b => if ha : a < n then if hb : b < n then φ ⟨a, ha⟩ ⟨b, hb⟩ else 0 else 0) (by
    intro a b
    by_cases ha : a < n <;> by_cases hb : b < n <;> simp [ha, hb, hφ ⟨a, _⟩])
  rw [faceTriples, List.map_ofFn, List.sum_ofFn] at this
  simpa using this

theorem corners_ne (h : Watertight (faceTriples g)) (t : Fin m) : g t 0 ≠ g t 1 ∧ g t 1 ≠ g t 2 ∧ g t 2 ≠ g t 0 := by
  have hm : ∀ e ∈ [((g t 0 : ℕ), (g t 1 : ℕ)), ((g t 1 : ℕ), (g t 2 : ℕ)), ((g t 2 : ℕ), (g t 0 : ℕ))], e ∈ directedEdges (faceTriples g) := by
    intro e he
    refine List.mem_flatMap.mpr ⟨_, List.mem_ofFn.mpr ⟨t, rfl⟩, he⟩
  refine ⟨fun e => ?_, fun e => ?_, fun e => ?_⟩
  · exact (h.2 _ (hm ((g t 0 : ℕ), (g t 1 : ℕ)) (by simp))).1 (by rw [e])
  · exact (h.2 _ (hm ((g t 1 : ℕ), (g t 2 : ℕ)) (by simp))).1 (by rw [e])
  · exact (h.2 _ (hm ((g t 2 : ℕ), (g t 0 : ℕ)) (by simp))).1 (by rw [e])

/-- the normals around a vertex, taken with `d`, against the faces seen from the origin -/
theorem fan (h : Watertight (faceTriples g)) (v : Fin n → Fin 3 → ℝ) (i : Fin n) (d : Fin 3 → ℝ) :
    normalSum g v i ⬝ᵥ d = ∑ t, ((if g t 0 = i then d ⬝ᵥ (v (g t 1) ⨯₃ v (g t 2)) else 0) +
      (if g t 1 = i then d ⬝ᵥ (v (g t 2) ⨯₃ v (g t 0)) else 0) + (if g t 2 = i then d ⬝ᵥ (v (g t 0) ⨯₃ v (g t 1)) else 0)) := by
  have z := closed_sum h (φ := fun a b => ((if a = i then 1 else 0) + (if b = i then 1 else 0)) * (d ⬝ᵥ (v a ⨯₃ v b))) (by
    intro a b
    rw [← cross_anticomm, dotProduct_neg]
    ring)
  have e : normalSum g v i ⬝ᵥ d = ∑ t, ((if g t 0 = i then faceNormals g v t ⬝ᵥ d else 0) + (if g t 1 = i then faceNormals g v t ⬝ᵥ d else 0) +
      (if g t 2 = i then faceNormals g v t ⬝ᵥ d else 0)) := by
    simp only [normalSum, sum_dotProduct, Fin.sum_univ_three]
    refine Finset.sum_congr rfl fun t _ => ?_
    rw [add_dotProduct, add_dotProduct]
    congr 1
    · congr 1 <;> split <;> simp
    · split <;> simp
  rw [e, ← sub_eq_zero, ← Finset.sum_sub_distrib, ← z]
  refine Finset.sum_congr rfl fun t _ => ?_
  simp only [faceNormals, dotProduct, Fin.sum_univ_three, cross_apply, Pi.sub_apply, Matrix.cons_val_zero, Matrix.cons_val_one, Matrix.cons_val]
  split_ifs <;> ring

theorem tet6_eq (a b c : Fin 3 → ℝ) : tet6 (pointOf a, pointOf b, pointOf c) = a ⬝ᵥ (b ⨯₃ c) := by
  simp only [tet6, pointOf, inner3, cross3, dotProduct, Fin.sum_univ_three, cross_apply, Matrix.cons_val_zero, Matrix.cons_val_one, Matrix.cons_val]

theorem enclosed_eq (g : Fin m → Fin 3 → Fin n) (v : Fin n → Fin 3 → ℝ) : 6 * enclosed g v = ∑ t, v (g t 0) ⬝ᵥ (v (g t 1) ⨯₃ v (g t 2)) := by
  rw [enclosed, signedVolume, List.map_ofFn, List.sum_ofFn, mul_div_cancel₀ _ (by norm_num)]
  exact Finset.sum_congr rfl fun t _ => tet6_eq _ _ _

theorem sum_normals (h : Watertight (faceTriples g)) (v : Fin n → Fin 3 → ℝ) : ∑ t, faceNormals g v t = 0 := by
  funext k
  rw [Finset.sum_apply, Pi.zero_apply, ← closed_sum h (φ := fun a b => (v a ⨯₃ v b) k) (by
    intro a b; rw [← cross_anticomm]; rfl)]
  refine Finset.sum_congr rfl fun t _ => ?_
  fin_cases k <;>
    simp [faceNormals, cross_apply] <;> ring

theorem move_eq (h : Watertight (faceTriples g)) (v : Fin n → Fin 3 → ℝ) (i : Fin n) (d : Fin 3 → ℝ) :
    6 * enclosed g (moveVertex v i d) = 6 * enclosed g v + normalSum g v i ⬝ᵥ d := by
  rw [enclosed_eq, enclosed_eq, fan h, ← Finset.sum_add_distrib]
  refine Finset.sum_congr rfl fun t _ => ?_
  obtain ⟨h1, h2, h3⟩ := corners_ne h t
  by_cases e0 : g t 0 = i
  · have n1 : g t 1 ≠ i := fun e => h1 (e0.trans e.symm)
    have n2 : g t 2 ≠ i := fun e => h3 (e.trans e0.symm)
    simp only [moveVertex, if_pos e0, if_neg n1, if_neg n2, add_dotProduct, add_zero]
  · by_cases e1 : g t 1 = i
    · have n2 : g t 2 ≠ i := fun e => h2 (e1.trans e.symm)
      simp only [moveVertex, if_neg e0, if_pos e1, if_neg n2, add_zero, zero_add]
      simp only [dotProduct, Fin.sum_univ_three, cross_apply, Pi.add_apply, Matrix.cons_val_zero, Matrix.cons_val_one, Matrix.cons_val]
      ring
    · by_cases e2 : g t 2 = i
      · simp only [moveVertex, if_neg e0, if_neg e1, if_pos e2, zero_add]
        simp only [dotProduct, Fin.sum_univ_three, cross_apply, Pi.add_apply, Matrix.cons_val_zero, Matrix.cons_val_one, Matrix.cons_val]
        ring
      · simp only [moveVertex, if_neg e0, if_neg e1, if_neg e2, add_zero]

/-- the first term in the change of the volume -/
theorem linear (h : Watertight (faceTriples g)) (v w : Fin n → Fin 3 → ℝ) :
    ∑ i, normalSum g v i ⬝ᵥ w i = ∑ t, (w (g t 0) ⬝ᵥ (v (g t 1) ⨯₃ v (g t 2)) + w (g t 1) ⬝ᵥ (v (g t 2) ⨯₃ v (g t 0)) +
      w (g t 2) ⬝ᵥ (v (g t 0) ⨯₃ v (g t 1))) := by
  rw [Finset.sum_congr rfl fun i _ => fan h v i (w i), Finset.sum_comm]
  refine Finset.sum_congr rfl fun t _ => ?_
  rw [Finset.sum_add_distrib, Finset.sum_add_distrib]
  simp

theorem expand (g : Fin m → Fin 3 → Fin n) (v w : Fin n → Fin 3 → ℝ) : ∃ B C : ℝ, ∀ s : ℝ, 6 * enclosed g (v + s • w) =
    6 * enclosed g v + s * (∑ t, (w (g t 0) ⬝ᵥ (v (g t 1) ⨯₃ v (g t 2)) + w (g t 1) ⬝ᵥ (v (g t 2) ⨯₃ v (g t 0)) +
      w (g t 2) ⬝ᵥ (v (g t 0) ⨯₃ v (g t 1)))) + s ^ 2 * B + s ^ 3 * C := by
  refine ⟨∑ t, (v (g t 0) ⬝ᵥ (w (g t 1) ⨯₃ w (g t 2)) + v (g t 1) ⬝ᵥ (w (g t 2) ⨯₃ w (g t 0)) + v (g t 2) ⬝ᵥ (w (g t 0) ⨯₃ w (g t 1))),
    6 * enclosed g w, fun s => ?_⟩
  rw [enclosed_eq, enclosed_eq, enclosed_eq, Finset.mul_sum, Finset.mul_sum, Finset.mul_sum, ← Finset.sum_add_distrib, ← Finset.sum_add_distrib,
    ← Finset.sum_add_distrib]
  refine Finset.sum_congr rfl fun t _ => ?_
  simp only [dotProduct, Fin.sum_univ_three, cross_apply, Pi.add_apply, Pi.smul_apply, smul_eq_mul, Matrix.cons_val_zero, Matrix.cons_val_one,
    Matrix.cons_val]
  ring

end CS

open CS
variable {n m : ℕ} {f : Fin m → Fin 3 → ℤ} {g : Fin m → Fin 3 → Fin n}

/-- **C142.** The rows of `TriNormalsScaled` of a closed surface add up to zero. -/
theorem C142_sum (hf : ∀ t c, PyRef (f t c) (g t c)) (h : Watertight (faceTriples g)) (v : Fin n → Fin 3 → ℝ) :
    ∃ N : Fin m → Fin 3 → ℝ, triNormalsScaled (flat v) (faceList f) = .ok (flat N) ∧ ∑ t, N t = 0 :=
  ⟨_, C66_face_normals hf v, sum_normals h v⟩

/-- **C142.** Seen from any point at all, the faces enclose the same volume: a sixth of the sum of the rows of `TriNormalsScaled`, each times
a corner of its face seen from that point. -/
theorem C142_volume (hf : ∀ t c, PyRef (f t c) (g t c)) (h : Watertight (faceTriples g)) (v : Fin n → Fin 3 → ℝ) :
    ∃ N : Fin m → Fin 3 → ℝ, triNormalsScaled (flat v) (faceList f) = .ok (flat N) ∧
      ∀ (o : Fin 3 → ℝ) (c : Fin m → Fin 3), (∑ t, N t ⬝ᵥ (v (g t (c t)) - o)) / 6 = enclosed g v := by
  refine ⟨_, C66_face_normals hf v, fun o c => ?_⟩
  have e := enclosed_eq g v
  have : ∑ t, faceNormals g v t ⬝ᵥ (v (g t (c t)) - o) = ∑ t, v (g t 0) ⬝ᵥ (v (g t 1) ⨯₃ v (g t 2)) := by
    have z : ∑ t, faceNormals g v t ⬝ᵥ o = 0 := by rw [← sum_dotProduct, sum_normals h, zero_dotProduct]
    simp only [dotProduct_sub]
    rw [Finset.sum_sub_distrib, z, sub_zero]
    refine Finset.sum_congr rfl fun t _ => ?_
    obtain ⟨k, hk⟩ : ∃ k, c t = k := ⟨_, rfl⟩
    rw [hk]
    fin_cases k <;>
      simp [faceNormals, dotProduct, Fin.sum_univ_three, cross_apply] <;> ring
  rw [this, ← e]
  ring

/-- **C142.** Moving one vertex of a closed surface, however far, changes the enclosed volume by a sixth of the displacement times the sum of
the normals around the vertex.  `VertNormals` returns these sums, each divided by its length. -/
theorem C142_move (hf : ∀ t c, f t c = (g t c : ℕ)) (h : Watertight (faceTriples g)) (v : Fin n → Fin 3 → ℝ) :
    ∃ (vn : Fin n → Fin 3 → ℝ) (L : Fin n → ℝ), vertNormals (flat v) (faceList f) true = .ok (flat vn) ∧
      (∀ i, 0 ≤ L i ∧ (0 < L i → rowLen (vn i) = 1) ∧ (L i = 0 → vn i = 0)) ∧
      ∀ i d, enclosed g (moveVertex v i d) = enclosed g v + L i * (vn i ⬝ᵥ d) / 6 := by
  refine ⟨_, fun i => rowLen (normalSum g v i), C66_vert_normals hf v, fun i => ⟨Real.sqrt_nonneg _, fun hp => ?_, fun h0 => ?_⟩, fun i d => ?_⟩
  · refine (C64_unit _ i).1 fun h0 => ?_
    simp [h0, rowLen] at hp
  · refine (C64_unit _ i).2 ?_
    by_contra hne
    have := sumsq_pos hne
    have h0 : Real.sqrt (∑ k, normalSum g v i k ^ 2) = 0 := h0
    rw [Real.sqrt_eq_zero this.le] at h0
    linarith
  · have e := move_eq h v i d
    have : rowLen (normalSum g v i) * (unitRows (normalSum g v) i ⬝ᵥ d) = normalSum g v i ⬝ᵥ d := by
      by_cases h0 : normalSum g v i = 0
      · rw [(C64_unit _ i).2 h0, h0]; simp
      · have hp : rowLen (normalSum g v i) ≠ 0 := (Real.sqrt_pos.mpr (sumsq_pos h0)).ne'
        have eu : unitRows (normalSum g v) i = fun k => normalSum g v i k / rowLen (normalSum g v i) := by
          funext k; simp [unitRows, h0]
        rw [eu]
        simp only [dotProduct, Fin.sum_univ_three]
        field_simp
    rw [this]
    linarith

/-- **C142.** Among all moves of a vertex by at most `r`, the move by `r` along the row of `VertNormals` adds the most volume, and it is the only
one to do so if that row is not zero; a move at right angles to the row leaves the volume as it is. -/
theorem C142_steepest (hf : ∀ t c, f t c = (g t c : ℕ)) (h : Watertight (faceTriples g)) (v : Fin n → Fin 3 → ℝ) :
    ∃ vn : Fin n → Fin 3 → ℝ, vertNormals (flat v) (faceList f) true = .ok (flat vn) ∧
      (∀ i d r, rowLen d ≤ r → enclosed g (moveVertex v i d) ≤ enclosed g (moveVertex v i (r • vn i)) ∧
        (vn i ≠ 0 → enclosed g (moveVertex v i d) = enclosed g (moveVertex v i (r • vn i)) → d = r • vn i)) ∧
      ∀ i d, vn i ⬝ᵥ d = 0 → enclosed g (moveVertex v i d) = enclosed g v := by
  obtain ⟨vn, L, h1, h2, h3⟩ := C142_move hf h v
  refine ⟨vn, h1, fun i d r hd => ?_, fun i d hd => by rw [h3, hd]; ring⟩
  rw [h3, h3]
  obtain ⟨hL, hu, hz⟩ := h2 i
  rcases hL.lt_or_eq with hp | hp
  · have u1 := hu hp
    have u2 : ∑ k, vn i k ^ 2 = 1 := by rwa [rowLen, Real.sqrt_eq_one] at u1
    have d2 : ∑ k, d k ^ 2 ≤ r ^ 2 := by
      have h0 : 0 ≤ ∑ k, d k ^ 2 := Finset.sum_nonneg fun k _ => sq_nonneg _
      rw [← Real.sq_sqrt h0]
      exact pow_le_pow_left₀ (Real.sqrt_nonneg _) hd 2
    have r0 : 0 ≤ r := (Real.sqrt_nonneg _).trans hd
    rw [Fin.sum_univ_three] at u2 d2
    have e1 : vn i ⬝ᵥ d = vn i 0 * d 0 + vn i 1 * d 1 + vn i 2 * d 2 := by simp [dotProduct, Fin.sum_univ_three]
    have e2 : vn i ⬝ᵥ (r • vn i) = r := by
      simp only [dotProduct, Fin.sum_univ_three, Pi.smul_apply, smul_eq_mul]
      linear_combination r * u2
    have cs : (vn i ⬝ᵥ d) ^ 2 ≤ r ^ 2 := by
      have a0 := sq_nonneg (d 0 - (vn i ⬝ᵥ d) * vn i 0)
      have a1 := sq_nonneg (d 1 - (vn i ⬝ᵥ d) * vn i 1)
      have a2 := sq_nonneg (d 2 - (vn i ⬝ᵥ d) * vn i 2)
      have : (d 0 - (vn i ⬝ᵥ d) * vn i 0) ^ 2 + (d 1 - (vn i ⬝ᵥ d) * vn i 1) ^ 2 + (d 2 - (vn i ⬝ᵥ d) * vn i 2) ^ 2 =
          d 0 ^ 2 + d 1 ^ 2 + d 2 ^ 2 - (vn i ⬝ᵥ d) ^ 2 := by
        rw [e1]
        linear_combination (vn i 0 * d 0 + vn i 1 * d 1 + vn i 2 * d 2) ^ 2 * u2
      linarith
    have le := abs_le_of_sq_le_sq' cs r0
    refine ⟨?_, fun _ he => ?_⟩
    · rw [e2]
      have := mul_le_mul_of_nonneg_left le.2 hL
      linarith
    · rw [e2] at he
      have ee : vn i ⬝ᵥ d = r := by
        have : L i * (vn i ⬝ᵥ d) = L i * r := by linarith
        exact mul_left_cancel₀ hp.ne' this
      have hs : (d 0 - r * vn i 0) ^ 2 + (d 1 - r * vn i 1) ^ 2 + (d 2 - r * vn i 2) ^ 2 ≤ 0 := by
        have : (d 0 - r * vn i 0) ^ 2 + (d 1 - r * vn i 1) ^ 2 + (d 2 - r * vn i 2) ^ 2 =
            d 0 ^ 2 + d 1 ^ 2 + d 2 ^ 2 - 2 * r * (vn i 0 * d 0 + vn i 1 * d 1 + vn i 2 * d 2) + r ^ 2 := by
          linear_combination r ^ 2 * u2
        rw [this, ← e1, ee]
        linarith
      have a0 := sq_nonneg (d 0 - r * vn i 0)
      have a1 := sq_nonneg (d 1 - r * vn i 1)
      have a2 := sq_nonneg (d 2 - r * vn i 2)
      have z : ∀ x : ℝ, x ^ 2 = 0 → x = 0 := fun x hx => pow_eq_zero_iff (two_ne_zero) |>.mp hx
      have z0 := z (d 0 - r * vn i 0) (by linarith)
      have z1 := z (d 1 - r * vn i 1) (by linarith)
      have z2 := z (d 2 - r * vn i 2) (by linarith)
      funext k
      rw [Pi.smul_apply, smul_eq_mul]
      fin_cases k
      · exact sub_eq_zero.mp z0
      · exact sub_eq_zero.mp z1
      · exact sub_eq_zero.mp z2
  · rw [← hp]
    refine ⟨by simp, fun hne => absurd (hz hp.symm) hne⟩

/-- **C142.** The rows of `VertNormals`, each times the length of the sum it was divided by, are six times the gradient of the enclosed volume,
all vertices moving at once. -/
theorem C142_gradient (hf : ∀ t c, f t c = (g t c : ℕ)) (h : Watertight (faceTriples g)) (v : Fin n → Fin 3 → ℝ) :
    ∃ (vn : Fin n → Fin 3 → ℝ) (L : Fin n → ℝ), vertNormals (flat v) (faceList f) true = .ok (flat vn) ∧
      (∀ i, 0 ≤ L i ∧ (0 < L i → rowLen (vn i) = 1) ∧ (L i = 0 → vn i = 0)) ∧
      ∀ w : Fin n → Fin 3 → ℝ, HasDerivAt (fun s : ℝ => enclosed g (v + s • w)) ((∑ i, L i * (vn i ⬝ᵥ w i)) / 6) 0 := by
  obtain ⟨vn, L, h1, h2, h3⟩ := C142_move hf h v
  refine ⟨vn, L, h1, h2, fun w => ?_⟩
  have e1 : ∑ i, L i * (vn i ⬝ᵥ w i) = ∑ i, normalSum g v i ⬝ᵥ w i := by
    refine Finset.sum_congr rfl fun i _ => ?_
    have := h3 i (w i)
    have := move_eq h v i (w i)
    linarith
  obtain ⟨B, C, hx⟩ := expand g v w
  rw [← linear h] at hx
  have ef : (fun s : ℝ => enclosed g (v + s • w)) = fun s => enclosed g v + s * ((∑ i, normalSum g v i ⬝ᵥ w i) / 6) + s ^ 2 * (B / 6) +
      s ^ 3 * (C / 6) := by
    funext s
    have := hx s
    linarith
  rw [ef, e1]
  have d1 := (hasDerivAt_id (0 : ℝ)).mul_const ((∑ i, normalSum g v i ⬝ᵥ w i) / 6)
  have d2 := (hasDerivAt_pow 2 (0 : ℝ)).mul_const (B / 6)
  have d3 := (hasDerivAt_pow 3 (0 : ℝ)).mul_const (C / 6)
  have := ((d1.const_add (enclosed g v)).add d2).add d3
  refine HasDerivAt.congr_deriv this ?_
  norm_num

/-- **C142.** If no vertex is in front of a face, the plane through each vertex across its row of `VertNormals` has all vertices on one side;
those strictly behind some face at the vertex are strictly behind that plane. -/
theorem C142_supporting (hf : ∀ t c, f t c = (g t c : ℕ)) (v : Fin n → Fin 3 → ℝ)
    (hb : ∀ t q, Behind (pointOf (v (g t 0)), pointOf (v (g t 1)), pointOf (v (g t 2))) (pointOf (v q))) :
    ∃ vn : Fin n → Fin 3 → ℝ, vertNormals (flat v) (faceList f) true = .ok (flat vn) ∧ ∀ i q, vn i ⬝ᵥ (v q - v i) ≤ 0 ∧
      ((∃ t c, g t c = i ∧ inner3 (cross3 (vec3 (pointOf (v (g t 0))) (pointOf (v (g t 1)))) (vec3 (pointOf (v (g t 0))) (pointOf (v (g t 2)))))
        (vec3 (pointOf (v (g t 0))) (pointOf (v q))) < 0) → vn i ⬝ᵥ (v q - v i) < 0) := by
  refine ⟨_, C66_vert_normals hf v, fun i q => ?_⟩
  have er : ∀ t, inner3 (cross3 (vec3 (pointOf (v (g t 0))) (pointOf (v (g t 1)))) (vec3 (pointOf (v (g t 0))) (pointOf (v (g t 2)))))
      (vec3 (pointOf (v (g t 0))) (pointOf (v q))) = faceNormals g v t ⬝ᵥ (v q - v (g t 0)) := by
    intro t
    simp [faceNormals, inner3, cross3, vec3, pointOf, dotProduct, Fin.sum_univ_three, cross_apply]
    ring
  have ec : ∀ t c, faceNormals g v t ⬝ᵥ (v q - v (g t c)) = faceNormals g v t ⬝ᵥ (v q - v (g t 0)) := by
    intro t c
    fin_cases c <;> simp [faceNormals, dotProduct, Fin.sum_univ_three, cross_apply] <;> ring
  have es : normalSum g v i ⬝ᵥ (v q - v i) = ∑ p : Fin m × Fin 3, if g p.1 p.2 = i then faceNormals g v p.1 ⬝ᵥ (v q - v (g p.1 0)) else 0 := by
    rw [normalSum, sum_dotProduct, Fintype.sum_prod_type]
    refine Finset.sum_congr rfl fun t _ => ?_
    rw [sum_dotProduct]
    refine Finset.sum_congr rfl fun c _ => ?_
    by_cases hc : g t c = i
    · rw [if_pos hc, if_pos hc, ← ec t c, hc]
    · rw [if_neg hc, if_neg hc, zero_dotProduct]
  have hle : ∀ p ∈ (Finset.univ : Finset (Fin m × Fin 3)), (if g p.1 p.2 = i then faceNormals g v p.1 ⬝ᵥ (v q - v (g p.1 0)) else 0) ≤ 0 := by
    intro p _
    split
    · rw [← er]; exact hb p.1 q
    · exact le_refl 0
  have hs : normalSum g v i ⬝ᵥ (v q - v i) ≤ 0 := by rw [es]; exact Finset.sum_nonpos hle
  by_cases h0 : normalSum g v i = 0
  · rw [(C64_unit _ i).2 h0, zero_dotProduct]
    refine ⟨le_refl _, ?_⟩
    rintro ⟨t, c, hc, hlt⟩
    exfalso
    have : normalSum g v i ⬝ᵥ (v q - v i) < 0 := by
      rw [es]
      exact Finset.sum_neg' hle ⟨(t, c), Finset.mem_univ _, by rw [if_pos hc, ← er]; exact hlt⟩
    rw [h0, zero_dotProduct] at this
    exact lt_irrefl _ this
  · have hp : 0 < rowLen (normalSum g v i) := Real.sqrt_pos.mpr (sumsq_pos h0)
    have eu : unitRows (normalSum g v) i ⬝ᵥ (v q - v i) = normalSum g v i ⬝ᵥ (v q - v i) / rowLen (normalSum g v i) := by
      have eu : unitRows (normalSum g v) i = fun k => normalSum g v i k / rowLen (normalSum g v i) := by
        funext k; simp [unitRows, h0]
      rw [eu]
      simp only [dotProduct, Fin.sum_univ_three]
      ring
    rw [eu]
    refine ⟨div_nonpos_of_nonpos_of_nonneg hs hp.le, ?_⟩
    rintro ⟨t, c, hc, hlt⟩
    refine div_neg_of_neg_of_pos ?_ hp
    rw [es]
    exact Finset.sum_neg' hle ⟨(t, c), Finset.mem_univ _, by rw [if_pos hc, ← er]; exact hlt⟩

namespace CS

theorem index_getD {v : List (V3 ℝ)} {i : ℕ} {a : V3 ℝ} (h : pyIndex v (i : ℤ) = .ok a) : a = v.getD i zero3 := by
  rw [pyIndex_nat] at h
  rw [List.getD_eq_getElem?_getD]
  cases hv : v[i]? with
  | none => rw [hv] at h; cases h
  | some b => rw [hv] at h; cases h; rfl

theorem flatten_eq {v : List (V3 ℝ)} : ∀ {fs : List (ℕ × ℕ × ℕ)} {ts : List (V3 ℝ × V3 ℝ × V3 ℝ)}, flattenFaces v fs = .ok ts →
    ts = fs.map fun t => (v.getD t.1 zero3, v.getD t.2.1 zero3, v.getD t.2.2 zero3)
  | [], ts, h => by
    unfold flattenFaces at h
    simp [pure, Except.pure] at h
    simp [← h]
  | t :: fs, ts, h => by
    unfold flattenFaces at h
    rw [List.mapM_cons] at h
    cases h1 : pyIndex v (t.1 : ℤ) with
    | error e => rw [h1] at h; cases h
    | ok a =>
      cases h2 : pyIndex v (t.2.1 : ℤ) with
      | error e => rw [h1, h2] at h; cases h
      | ok b =>
        cases h3 : pyIndex v (t.2.2 : ℤ) with
        | error e => rw [h1, h2, h3] at h; cases h
        | ok c =>
          cases h4 : flattenFaces v fs with
          | error e => unfold flattenFaces at h4; rw [h1, h2, h3, h4] at h; cases h
          | ok rs =>
            have := flatten_eq h4
            unfold flattenFaces at h4
            rw [h1, h2, h3, h4] at h
            cases h
            rw [List.map_cons, ← this, ← index_getD h1, ← index_getD h2, ← index_getD h3]

end CS

/-- **C142.** The same for the stack of triangles of a closed surface: the results of `surface_normal(triangles, normalize=False)` add up to
zero, and with the corners, seen from any point, they give six times the enclosed volume. -/
theorem C142_surface_normals {v : List (V3 ℝ)} {fs : List (ℕ × ℕ × ℕ)} {ts : List (V3 ℝ × V3 ℝ × V3 ℝ)} (h : flattenFaces v fs = .ok ts)
    (hw : Watertight fs) : ((surfaceNormals ts false).map V3.x).sum = 0 ∧ ((surfaceNormals ts false).map V3.y).sum = 0 ∧
      ((surfaceNormals ts false).map V3.z).sum = 0 ∧
      ∀ o, ((ts.zip (surfaceNormals ts false)).map fun p => inner3 p.2 (vec3 o p.1.1)).sum / 6 = signedVolume ts := by
  obtain rfl := flatten_eq h
  set P : ℕ → V3 ℝ := fun i => v.getD i zero3 with hP
  have key : ∀ (F : V3 ℝ → ℝ), (∀ a b : V3 ℝ, F (cross3 b a) = -F (cross3 a b)) →
      (∀ a b c : V3 ℝ, F (surfaceNormal a b c false) = F (cross3 a b) + F (cross3 b c) + F (cross3 c a)) →
      ((surfaceNormals (fs.map fun t => (P t.1, P t.2.1, P t.2.2)) false).map F).sum = 0 := by
    intro F hF hN
    rw [surfaceNormals, List.map_map, List.map_map, ← watertight_sum hw (φ := fun a b => F (cross3 (P a) (P b))) fun a b => hF _ _]
    congr 1
    refine List.map_congr_left fun t _ => ?_
    exact hN _ _ _
  have kx := key V3.x (fun a b => by simp only [cross3]; ring) (fun a b c => by
    simp only [cross3, surfaceNormal, V3.cross]; simp; ring)
  have ky := key V3.y (fun a b => by simp only [cross3]; ring) (fun a b c => by
    simp only [cross3, surfaceNormal, V3.cross]; simp; ring)
  have kz := key V3.z (fun a b => by simp only [cross3]; ring) (fun a b c => by
    simp only [cross3, surfaceNormal, V3.cross]; simp; ring)
  refine ⟨kx, ky, kz, fun o => ?_⟩
  have ko := key (fun a => inner3 a o) (fun a b => by simp only [cross3, inner3]; ring) (fun a b c => by
    simp only [cross3, inner3, surfaceNormal, V3.cross]; simp; ring)
  rw [signedVolume]
  congr 1
  have gen : ∀ l : List (V3 ℝ × V3 ℝ × V3 ℝ), ((l.zip (surfaceNormals l false)).map fun p => inner3 p.2 (vec3 o p.1.1)).sum =
      (l.map tet6).sum - ((surfaceNormals l false).map fun a => inner3 a o).sum := by
    intro l
    induction l with
    | nil => simp [surfaceNormals]
    | cons t l ih =>
      have e : surfaceNormals (t :: l) false = surfaceNormal t.1 t.2.1 t.2.2 false :: surfaceNormals l false := rfl
      rw [e, List.zip_cons_cons, List.map_cons, List.sum_cons, List.map_cons, List.sum_cons, List.map_cons, List.sum_cons, ih]
      simp only [tet6, cross3, inner3, surfaceNormal, V3.cross, vec3]
      simp
      ring
  rw [gen, ko, sub_zero]

/-- **C142.** The shapes of the library: the normals of the faces of a rectangular prism add up to zero, and so do those of a triangular prism;
with the corners, seen from any point, they give six times its volume. -/
theorem C142_shapes (diag : ℕ → Bool) (o s : V3 ℝ) {p1 p2 p3 : V3 ℝ} {pl : Plane ℝ} (hpl : Plane.fromPoints p1 p2 p3 = .ok pl) (height : ℝ) :
    (∃ ts, flattenFaces (createRectangularPrism diag o s).1 (createRectangularPrism diag o s).2 = .ok ts ∧
      ((surfaceNormals ts false).map V3.x).sum = 0 ∧ ((surfaceNormals ts false).map V3.y).sum = 0 ∧
      ((surfaceNormals ts false).map V3.z).sum = 0 ∧
      ∀ q, ((ts.zip (surfaceNormals ts false)).map fun p => inner3 p.2 (vec3 q p.1.1)).sum / 6 = s.x * s.y * s.z) ∧
    ∃ sh, createTriangularPrism p1 p2 p3 height = .ok sh ∧ ∃ ts, flattenFaces sh.1 sh.2 = .ok ts ∧
      ((surfaceNormals ts false).map V3.x).sum = 0 ∧ ((surfaceNormals ts false).map V3.y).sum = 0 ∧
      ((surfaceNormals ts false).map V3.z).sum = 0 ∧
      ∀ q, ((ts.zip (surfaceNormals ts false)).map fun p => inner3 p.2 (vec3 q p.1.1)).sum / 6 =
        len3 (cross3 (vec3 p1 p2) (vec3 p1 p3)) / 2 * height := by
  constructor
  · obtain ⟨ts, h1, -, h2, -⟩ := C47_prism_volume diag o s
    obtain ⟨a, b, c, d⟩ := C142_surface_normals h1 (C47_prism_watertight diag o s)
    exact ⟨ts, h1, a, b, c, fun q => (d q).trans h2⟩
  · obtain ⟨sv, -, h0, ts, h1, h2, -⟩ := C47_tri_prism p1 p2 p3 height pl hpl
    obtain ⟨a, b, c, d⟩ := C142_surface_normals h1 C47_tri_watertight
    exact ⟨_, h0, ts, h1, a, b, c, fun q => (d q).trans h2⟩

/-- A tetrahedron of volume 1/6: moving its top up by one doubles the volume, moving it sideways leaves it. -/
theorem C142_witness : ∃ (f : Fin 4 → Fin 3 → ℤ) (g : Fin 4 → Fin 3 → Fin 4) (v : Fin 4 → Fin 3 → ℝ), (∀ t c, f t c = (g t c : ℕ)) ∧
    Watertight (faceTriples g) ∧ enclosed g v = 1 / 6 ∧ enclosed g (moveVertex v 3 ![0, 0, 1]) = 1 / 3 ∧
    enclosed g (moveVertex v 3 ![5, 7, 0]) = 1 / 6 ∧
    (∀ t q, Behind (pointOf (v (g t 0)), pointOf (v (g t 1)), pointOf (v (g t 2))) (pointOf (v q))) ∧
    vertNormals (flat v) (faceList f) true = .ok (flat (unitRows (normalSum g v))) ∧ normalSum g v 3 = ![0, 0, 1] := by
  refine ⟨![![0, 2, 1], ![0, 1, 3], ![0, 3, 2], ![1, 2, 3]], ![![0, 2, 1], ![0, 1, 3], ![0, 3, 2], ![1, 2, 3]],
    ![![0, 0, 0], ![1, 0, 0], ![0, 1, 0], ![0, 0, 1]], ?_, ?_, ?_, ?_, ?_, ?_, ?_, ?_⟩
  · decide
  · decide
  · simp [enclosed, signedVolume, List.ofFn_succ, tet6, pointOf, inner3, cross3] <;> norm_num
  · simp [enclosed, signedVolume, List.ofFn_succ, tet6, pointOf, inner3, cross3, moveVertex] <;> norm_num
  · simp [enclosed, signedVolume, List.ofFn_succ, tet6, pointOf, inner3, cross3, moveVertex] <;> norm_num
  · intro t q
    fin_cases t <;> fin_cases q <;> simp [Behind, pointOf, inner3, cross3, vec3] <;> norm_num
  · exact C66_vert_normals (by decide) _
  · funext k
    fin_cases k <;> simp [normalSum, faceNormals, Fin.sum_univ_four, Fin.sum_univ_three, cross_apply] <;> norm_num

end Blmath.Props
