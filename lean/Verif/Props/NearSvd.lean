import Verif.Spec.NearSvd
import Verif.Props.RigidOnly
import Mathlib.Topology.Order.IntermediateValue
import Mathlib.Topology.Instances.Matrix

/-!
Property C156: fitted rotations and motions when the singular value decomposition is only nearly right.
-/

namespace Blmath.Props
open Blmath.Geometry Blmath.Spec
open scoped Matrix

namespace NS

theorem sqE_nonneg (M : Mat 3 3 ℝ) : 0 ≤ sqEntries M := Finset.sum_nonneg fun _ _ => Finset.sum_nonneg fun _ _ => sq_nonneg _

/-- the inequality of Cauchy for matrices -/
theorem trace_sq (M E : Mat 3 3 ℝ) : Matrix.trace (M * E) ^ 2 ≤ sqEntries M * sqEntries E := by
  have h := Finset.sum_mul_sq_le_sq_mul_sq (Finset.univ : Finset (Fin 3 × Fin 3)) (fun x => M x.1 x.2) (fun x => E x.2 x.1)
  have e1 : Matrix.trace (M * E) = ∑ x : Fin 3 × Fin 3, M x.1 x.2 * E x.2 x.1 := by
    rw [Fintype.sum_prod_type]; rfl
  have e2 : sqEntries M = ∑ x : Fin 3 × Fin 3, M x.1 x.2 ^ 2 := by rw [Fintype.sum_prod_type]; rfl
  have e3 : sqEntries E = ∑ x : Fin 3 × Fin 3, E x.2 x.1 ^ 2 := by
    rw [Fintype.sum_prod_type, Finset.sum_comm]; rfl
  rw [e1, e2, e3]
  exact h

theorem trace_near (M E : Mat 3 3 ℝ) {δ : ℝ} (hδ : 0 ≤ δ) (h : sqEntries E ≤ δ ^ 2) : Matrix.trace (M * E) ≤ √(sqEntries M) * δ := by
  have h1 := trace_sq M E
  have h2 : Matrix.trace (M * E) ^ 2 ≤ (√(sqEntries M) * δ) ^ 2 := by
    rw [mul_pow, Real.sq_sqrt (sqE_nonneg M)]
    exact h1.trans (mul_le_mul_of_nonneg_left h (sqE_nonneg M))
  exact le_of_sq_le_sq h2 (by positivity)
where
  le_of_sq_le_sq {a b : ℝ} (h : a ^ 2 ≤ b ^ 2) (hb : 0 ≤ b) : a ≤ b := (abs_le_of_sq_le_sq' h hb).2

/-- what is best for a nearby matrix is nearly best -/
theorem near_best {c c' R R' : Mat 3 3 ℝ} {δ : ℝ} (hδ : 0 ≤ δ) (h : sqEntries (c' - c) ≤ δ ^ 2)
    (hb : Matrix.trace (R' * c') ≤ Matrix.trace (R * c')) :
    Matrix.trace (R' * c) ≤ Matrix.trace (R * c) + √(sqEntries (R - R')) * δ := by
  have h1 := trace_near (R - R') (c' - c) hδ h
  rw [Matrix.sub_mul, Matrix.mul_sub, Matrix.mul_sub, Matrix.trace_sub, Matrix.trace_sub, Matrix.trace_sub] at h1
  linarith

theorem orth_sq {R : Mat 3 3 ℝ} (h : R.transpose * R = 1) : sqEntries R = 3 := by
  have e : ∀ j, (R.transpose * R) j j = 1 := fun j => by rw [h]; simp
  simp only [Matrix.mul_apply, Matrix.transpose_apply] at e
  have : sqEntries R = ∑ j, ∑ i, R i j * R i j := by
    unfold sqEntries
    rw [Finset.sum_comm]
    exact Finset.sum_congr rfl fun _ _ => Finset.sum_congr rfl fun _ _ => by ring
  rw [this, Finset.sum_congr rfl fun j _ => e j]
  simp

theorem orth_apart {R R' : Mat 3 3 ℝ} (h : R.transpose * R = 1) (h' : R'.transpose * R' = 1) : √(sqEntries (R - R')) ≤ 2 * √3 := by
  have h1 : sqEntries (R - R') ≤ 2 * sqEntries R + 2 * sqEntries R' := by
    unfold sqEntries
    simp only [Finset.mul_sum, ← Finset.sum_add_distrib]
    exact Finset.sum_le_sum fun i _ => Finset.sum_le_sum fun j _ => by
      rw [Matrix.sub_apply]; nlinarith [sq_nonneg (R i j + R' i j)]
  rw [orth_sq h, orth_sq h'] at h1
  have : 2 * √3 = √12 := by
    rw [show (12 : ℝ) = 2 ^ 2 * 3 by norm_num, Real.sqrt_mul (by norm_num), Real.sqrt_sq (by norm_num)]
  rw [this]
  exact Real.sqrt_le_sqrt (by linarith)

/-- `find_rigid_transform` with the decomposition of a nearby matrix -/
theorem fit_near {svd : Svd3 ℝ} {c u v : Mat 3 3 ℝ} {s : Fin 3 → ℝ} {c' : Mat 3 3 ℝ} (hs : svd c = .ok (u, s, v)) (h : SvdSpec c' u s v) :
    (c'.det < 0 → fitRotation svd c = .error .ValueError) ∧
    (0 ≤ c'.det → ∃ R, fitRotation svd c = .ok R ∧ IsRotation R ∧
      ∀ R' : Mat 3 3 ℝ, R'.transpose * R' = 1 → Matrix.trace (R' * c') ≤ Matrix.trace (R * c')) :=
  fitRotation_spec (svd := fun _ => svd c) hs h

theorem fit_near' {svd : Svd3 ℝ} {c u v : Mat 3 3 ℝ} {s : Fin 3 → ℝ} {c' : Mat 3 3 ℝ} (hs : svd c = .ok (u, s, v)) (h : SvdSpec c' u s v) :
    ∃ R, fitRotation' svd c = .ok R ∧ IsRotation R ∧
      ∀ R' : Mat 3 3 ℝ, IsRotation R' → Matrix.trace (R' * c') ≤ Matrix.trace (R * c') :=
  fitRotation'_spec (svd := fun _ => svd c) hs h

/-- the sign of the determinant is kept by small changes -/
theorem det_keeps {c c' : Mat 3 3 ℝ} {σ δ : ℝ} (hδ : 0 ≤ δ) (hσ : δ < σ)
    (hc : ∀ w : Fin 3 → ℝ, σ ^ 2 * ∑ i, w i ^ 2 ≤ ∑ i, (c *ᵥ w) i ^ 2) (h : sqEntries (c' - c) ≤ δ ^ 2) : 0 < c.det * c'.det := by
  have hn : ∀ t : ℝ, 0 ≤ t → t ≤ 1 → (c + t • (c' - c)).det ≠ 0 := by
    intro t h0 h1 hd
    obtain ⟨w, hw, hz⟩ := Matrix.exists_mulVec_eq_zero_iff.mpr hd
    have hp : 0 < ∑ i, w i ^ 2 := by
      refine lt_of_le_of_ne (Finset.sum_nonneg fun _ _ => sq_nonneg _) fun e => hw ?_
      funext i
      have := (Finset.sum_eq_zero_iff_of_nonneg (fun i _ => sq_nonneg (w i))).1 e.symm i (Finset.mem_univ _)
      simpa using this
    have e : c *ᵥ w = -(t • ((c' - c) *ᵥ w)) := by
      rw [Matrix.add_mulVec, Matrix.smul_mulVec] at hz
      exact eq_neg_of_add_eq_zero_left hz
    have h2 : ∑ i, ((c' - c) *ᵥ w) i ^ 2 ≤ δ ^ 2 * ∑ i, w i ^ 2 := by
      refine le_trans ?_ (mul_le_mul_of_nonneg_right h hp.le)
      unfold sqEntries
      rw [Finset.sum_mul]
      exact Finset.sum_le_sum fun i _ => Finset.sum_mul_sq_le_sq_mul_sq Finset.univ (fun j => (c' - c) i j) w
    have h3 : ∑ i, (c *ᵥ w) i ^ 2 = t ^ 2 * ∑ i, ((c' - c) *ᵥ w) i ^ 2 := by
      rw [e, Finset.mul_sum]
      exact Finset.sum_congr rfl fun i _ => by simp only [Pi.neg_apply, Pi.smul_apply, smul_eq_mul]; ring
    have h4 := hc w
    rw [h3] at h4
    have h5 : 0 ≤ ∑ i, ((c' - c) *ᵥ w) i ^ 2 := Finset.sum_nonneg fun _ _ => sq_nonneg _
    have h6 : t ^ 2 ≤ 1 := by nlinarith
    have h7 : δ ^ 2 < σ ^ 2 := by nlinarith
    nlinarith [mul_lt_mul_of_pos_right h7 hp]
  have hcont : Continuous fun t : ℝ => (c + t • (c' - c)).det := by fun_prop
  have h0 := hn 0 le_rfl zero_le_one
  have h1 := hn 1 zero_le_one le_rfl
  have e0 : c + (0 : ℝ) • (c' - c) = c := by simp
  have e1 : c + (1 : ℝ) • (c' - c) = c' := by simp
  rw [e0] at h0
  rw [e1] at h1
  by_contra hneg
  have hlt : c.det * c'.det < 0 := lt_of_le_of_ne (not_lt.mp hneg) (mul_ne_zero h0 h1)
  have hz : ∃ t ∈ Set.Icc (0 : ℝ) 1, (c + t • (c' - c)).det = 0 := by
    rcases mul_neg_iff.mp hlt with ⟨ha, hb⟩ | ⟨ha, hb⟩
    · have := intermediate_value_Icc' (zero_le_one (α := ℝ)) hcont.continuousOn
      simp only [e0, e1] at this
      obtain ⟨t, ht, e⟩ := this ⟨hb.le, ha.le⟩
      exact ⟨t, ht, e⟩
    · have := intermediate_value_Icc (zero_le_one (α := ℝ)) hcont.continuousOn
      simp only [e0, e1] at this
      obtain ⟨t, ht, e⟩ := this ⟨ha.le, hb.le⟩
      exact ⟨t, ht, e⟩
  obtain ⟨t, ht, e⟩ := hz
  exact hn t ht.1 ht.2 e

theorem resid_rows (A B : Mat 3 3 ℝ) (l : List (V3 ℝ)) : sqResid (act A) l (l.map (act B)) =
    (l.map fun p => inner3 ⟨(A - B) 0 0, (A - B) 0 1, (A - B) 0 2⟩ p ^ 2).sum + (l.map fun p => inner3 ⟨(A - B) 1 0, (A - B) 1 1, (A - B) 1 2⟩ p ^ 2).sum +
    (l.map fun p => inner3 ⟨(A - B) 2 0, (A - B) 2 1, (A - B) 2 2⟩ p ^ 2).sum := by
  induction l with
  | nil => simp [sqResid]
  | cons p l ih =>
    rw [List.map_cons, sqResid, ih]
    simp only [List.map_cons, List.sum_cons]
    have : dist3 (act A p) (act B p) ^ 2 = inner3 (vec3 (act A p) (act B p)) (vec3 (act A p) (act B p)) := by
      unfold dist3; rw [← inner3_self]
    rw [this]
    simp only [inner3, vec3, act_eq, Matrix.sub_apply]
    ring

/-- the sum of the squares of the distances between two images of the same points -/
theorem resid_images (A B : Mat 3 3 ℝ) {σ : ℝ} : ∀ l : List (V3 ℝ), (∀ w : V3 ℝ, σ * inner3 w w ≤ (l.map fun p => inner3 w p ^ 2).sum) →
    σ * sqEntries (A - B) ≤ sqResid (act A) l (l.map (act B)) := by
  intro l h
  rw [resid_rows]
  have h0 := h ⟨(A - B) 0 0, (A - B) 0 1, (A - B) 0 2⟩
  have h1 := h ⟨(A - B) 1 0, (A - B) 1 1, (A - B) 1 2⟩
  have h2 := h ⟨(A - B) 2 0, (A - B) 2 1, (A - B) 2 2⟩
  have : sqEntries (A - B) = inner3 ⟨(A - B) 0 0, (A - B) 0 1, (A - B) 0 2⟩ ⟨(A - B) 0 0, (A - B) 0 1, (A - B) 0 2⟩ +
      inner3 ⟨(A - B) 1 0, (A - B) 1 1, (A - B) 1 2⟩ ⟨(A - B) 1 0, (A - B) 1 1, (A - B) 1 2⟩ +
      inner3 ⟨(A - B) 2 0, (A - B) 2 1, (A - B) 2 2⟩ ⟨(A - B) 2 0, (A - B) 2 1, (A - B) 2 2⟩ := by
    simp only [sqEntries, Fin.sum_univ_three, inner3]; ring
  rw [this]
  linarith

/-- points that extend in all directions: the rotation found is near the one that moved them -/
theorem fit_close {l : List (V3 ℝ)} {R R0 c' : Mat 3 3 ℝ} {σ δ : ℝ} (h0 : 0 < σ) (hδ : 0 ≤ δ) (hl : ∀ w : V3 ℝ, σ * inner3 w w ≤ (l.map fun p => inner3 w p ^ 2).sum)
    (hR : R.transpose * R = 1) (hR0 : R0.transpose * R0 = 1) (hc : sqEntries (c' - outerSum l (l.map (act R0))) ≤ δ ^ 2)
    (hb : Matrix.trace (R0 * c') ≤ Matrix.trace (R * c')) : √(sqEntries (R - R0)) ≤ 2 * δ / σ := by
  have h1 := near_best hδ hc hb
  have hlen : l.length = (l.map (act R0)).length := by simp
  have h2 := residual_trace hR l _ hlen
  have h3 := residual_trace hR0 l _ hlen
  rw [(sqResid_zero (f := act R0) (g := act R0) l).mpr fun _ _ => rfl] at h3
  have h4 := resid_images R R0 l hl
  have h5 := Real.sq_sqrt (sqE_nonneg (R - R0))
  rw [le_div_iff₀ h0]
  rcases (Real.sqrt_nonneg (sqEntries (R - R0))).eq_or_lt with e | hp
  · rw [← e, zero_mul]; positivity
  · have h6 : σ * √(sqEntries (R - R0)) ^ 2 ≤ 2 * (√(sqEntries (R - R0)) * δ) := by
      rw [h5]; linarith
    have h7 : √(sqEntries (R - R0)) * (√(sqEntries (R - R0)) * σ) ≤ √(sqEntries (R - R0)) * (2 * δ) := by nlinarith
    exact le_of_mul_le_mul_left h7 hp

/-- matrices that are near move vectors to near places -/
theorem act_near (A B : Mat 3 3 ℝ) (w : V3 ℝ) : dist3 (act A w) (act B w) ≤ √(sqEntries (A - B)) * len3 w := by
  have h : dist3 (act A w) (act B w) ^ 2 ≤ (√(sqEntries (A - B)) * len3 w) ^ 2 := by
    rw [mul_pow, Real.sq_sqrt (sqE_nonneg _), ← inner3_self]
    unfold dist3
    rw [← inner3_self]
    have key : ∀ a b c x y z : ℝ, (a * x + b * y + c * z) ^ 2 ≤ (a ^ 2 + b ^ 2 + c ^ 2) * (x ^ 2 + y ^ 2 + z ^ 2) := by
      intro a b c x y z
      nlinarith [sq_nonneg (a * y - b * x), sq_nonneg (a * z - c * x), sq_nonneg (b * z - c * y)]
    have k0 := key ((A - B) 0 0) ((A - B) 0 1) ((A - B) 0 2) w.x w.y w.z
    have k1 := key ((A - B) 1 0) ((A - B) 1 1) ((A - B) 1 2) w.x w.y w.z
    have k2 := key ((A - B) 2 0) ((A - B) 2 1) ((A - B) 2 2) w.x w.y w.z
    simp only [inner3, vec3, act_eq, sqEntries, Fin.sum_univ_three, Matrix.sub_apply] at k0 k1 k2 ⊢
    linarith
  exact (abs_le_of_sq_le_sq' h (mul_nonneg (Real.sqrt_nonneg _) (len3_nonneg _))).2

/-- the matrix of points that extend in all directions stretches every vector -/
theorem wide_stretch {l : List (V3 ℝ)} {σ : ℝ} (h0 : 0 < σ) (hl : ∀ w : V3 ℝ, σ * inner3 w w ≤ (l.map fun p => inner3 w p ^ 2).sum) (w : Fin 3 → ℝ) :
    σ ^ 2 * ∑ i, w i ^ 2 ≤ ∑ i, (outerSum l l *ᵥ w) i ^ 2 := by
  have e : ∀ l : List (V3 ℝ), ∑ i, w i * (outerSum l l *ᵥ w) i = (l.map fun p => inner3 ⟨w 0, w 1, w 2⟩ p ^ 2).sum := by
    intro l
    induction l with
    | nil => simp [outerSum, Matrix.mulVec, dotProduct]
    | cons p l ih =>
      rw [outerSum, Mat.add_real, Matrix.add_mulVec, List.map_cons, List.sum_cons, ← ih]
      simp only [Pi.add_apply, mul_add, Finset.sum_add_distrib]
      congr 1
      simp [Matrix.mulVec, dotProduct, Fin.sum_univ_three, inner3]
      ring
  have h1 := hl ⟨w 0, w 1, w 2⟩
  rw [← e] at h1
  have h2 : inner3 ⟨w 0, w 1, w 2⟩ ⟨w 0, w 1, w 2⟩ = ∑ i, w i ^ 2 := by simp only [inner3, Fin.sum_univ_three]; ring
  rw [h2] at h1
  have h3 := Finset.sum_mul_sq_le_sq_mul_sq Finset.univ w (outerSum l l *ᵥ w)
  have hp : 0 ≤ ∑ i, w i ^ 2 := Finset.sum_nonneg fun _ _ => sq_nonneg _
  rcases hp.eq_or_lt with e' | hp'
  · rw [← e', mul_zero]; exact Finset.sum_nonneg fun _ _ => sq_nonneg _
  · have h4 : (σ * ∑ i, w i ^ 2) ^ 2 ≤ (∑ i, w i ^ 2) * ∑ i, (outerSum l l *ᵥ w) i ^ 2 :=
      le_trans (pow_le_pow_left₀ (by positivity) h1 2) h3
    have h5 : (∑ i, w i ^ 2) * (σ ^ 2 * ∑ i, w i ^ 2) ≤ (∑ i, w i ^ 2) * ∑ i, (outerSum l l *ᵥ w) i ^ 2 := by nlinarith
    exact le_of_mul_le_mul_left h5 hp'

theorem orth_vec {A : Mat 3 3 ℝ} (h : A.transpose * A = 1) (w : Fin 3 → ℝ) : ∑ i, (A *ᵥ w) i ^ 2 = ∑ i, w i ^ 2 := by
  have e : ∀ {v : Fin 3 → ℝ}, ∑ i, v i ^ 2 = dotProduct v v := by intro v; exact Finset.sum_congr rfl fun _ _ => by ring
  rw [e, e, Matrix.dotProduct_mulVec, ← Matrix.mulVec_transpose, Matrix.mulVec_mulVec, h, Matrix.one_mulVec]

/-- the determinant stays positive for points moved by a rotation -/
theorem moved_det {l : List (V3 ℝ)} {R0 c' : Mat 3 3 ℝ} {σ δ : ℝ} (hδ : 0 ≤ δ) (hσ : δ < σ) (hl : ∀ w : V3 ℝ, σ * inner3 w w ≤ (l.map fun p => inner3 w p ^ 2).sum)
    (hR0 : IsRotation R0) (hc : sqEntries (c' - outerSum l (l.map (act R0))) ≤ δ ^ 2) : 0 < c'.det := by
  have h0 : 0 < σ := lt_of_le_of_lt hδ hσ
  have h1 := det_keeps (c := outerSum l (l.map (act R0))) hδ hσ (fun w => by
    rw [outer_act, ← Matrix.mulVec_mulVec]
    have := wide_stretch h0 hl (R0.transpose *ᵥ w)
    rw [orth_vec (orth_tr hR0.1)] at this
    exact this) hc
  rw [outer_act, Matrix.det_mul, Matrix.det_transpose, hR0.2, mul_one] at h1
  exact pos_of_mul_pos_of_nonneg h1 (gram_det l)
where
  pos_of_mul_pos_of_nonneg {a b : ℝ} (h : 0 < a * b) (ha : 0 ≤ a) : 0 < b := by
    rcases ha.eq_or_lt with e | hp
    · rw [← e, zero_mul] at h; exact absurd h (lt_irrefl _)
    · exact (mul_pos_iff_of_pos_left hp).mp h

/-- the singular values raised a little and the last column turned round: the decomposition of a nearby matrix with negative determinant -/
theorem flat_svd {c : Mat 3 3 ℝ} (hd : c.det = 0) {δ : ℝ} (hδ : 0 < δ) :
    ∃ u s v c', SvdSpec c' u s v ∧ sqEntries (c' - c) ≤ δ ^ 2 ∧ c'.det < 0 := by
  obtain ⟨u, s, v, h⟩ := svd_exists c
  have h2 : s 2 = 0 := by
    have h1 := svd_det h
    rw [hd] at h1
    have hn : (v.transpose * u.transpose).det ≠ 0 := by
      rcases orth_det (candidates h).1.1 with e | e <;> rw [e] <;> norm_num
    have h3 : s 0 * s 1 * s 2 = 0 := (mul_eq_zero.mp h1.symm).resolve_left hn
    have s01 := h.sorted 0 1 (by decide)
    have s12 := h.sorted 1 2 (by decide)
    have := h.nonneg 2
    rcases mul_eq_zero.mp h3 with h3 | h3
    · rcases mul_eq_zero.mp h3 with h3 | h3 <;> linarith
    · exact h3
  obtain ⟨u', hu', hc, hdet⟩ : ∃ u' : Mat 3 3 ℝ, u'.transpose * u' = 1 ∧ u' * Matrix.diagonal s * v = c ∧ (u' * v).det = -1 := by
    have huv : (u * v).det = 1 ∨ (u * v).det = -1 := orth_det (orth_mul h.left h.right)
    rcases huv with e | e
    · refine ⟨u * Matrix.diagonal ![1, 1, -1], orth_mul h.left flip_orth, ?_, ?_⟩
      · have : (Matrix.diagonal ![1, 1, -1] : Mat 3 3 ℝ) * Matrix.diagonal s = Matrix.diagonal s := by
          rw [Matrix.diagonal_mul_diagonal]
          congr 1
          funext i
          fin_cases i <;> simp [h2]
        rw [Matrix.mul_assoc u, this, ← h.factor]
      · rw [Matrix.det_mul, Matrix.det_mul, flip_det]
        rw [Matrix.det_mul] at e
        linarith
    · exact ⟨u, h.left, h.factor.symm, e⟩
  refine ⟨u', fun i => s i + δ / 2, v, u' * Matrix.diagonal (fun i => s i + δ / 2) * v, ⟨hu', h.right, fun i => by have := h.nonneg i; positivity,
    fun i j hij => by have := h.sorted i j hij; linarith, rfl⟩, ?_, ?_⟩
  · have e : u' * Matrix.diagonal (fun i => s i + δ / 2) * v - c = (δ / 2) • (u' * v) := by
      have : (Matrix.diagonal (fun i => s i + δ / 2) : Mat 3 3 ℝ) = Matrix.diagonal s + (δ / 2) • (1 : Mat 3 3 ℝ) := by
        rw [Matrix.smul_one_eq_diagonal, Matrix.diagonal_add]
      rw [this, Matrix.mul_add, Matrix.add_mul, hc, Matrix.mul_smul, Matrix.mul_one, Matrix.smul_mul, add_sub_cancel_left]
    have e2 : sqEntries ((δ / 2) • (u' * v)) = (δ / 2) ^ 2 * sqEntries (u' * v) := by
      unfold sqEntries
      simp only [Matrix.smul_apply, smul_eq_mul, mul_pow, Finset.mul_sum]
    rw [e, e2, orth_sq (orth_mul hu' h.right)]
    nlinarith
  · have : (u' * Matrix.diagonal (fun i => s i + δ / 2) * v).det = (u' * v).det * ∏ i, (s i + δ / 2) := by
      rw [Matrix.det_mul, Matrix.det_mul, Matrix.det_diagonal, Matrix.det_mul]; ring
    rw [this, hdet]
    have : 0 < ∏ i, (s i + δ / 2) := Finset.prod_pos fun i _ => by have := h.nonneg i; positivity
    linarith

/-- the moments about the centroids of moved points -/
theorem moved_cov {ps : List (V3 ℝ)} {R0 : Mat 3 3 ℝ} {T0 : V3 ℝ} (hp : ps ≠ []) :
    crossCov ps (ps.map (move R0 T0)) = outerSum (ps.map (· - centroid ps)) ((ps.map (· - centroid ps)).map (act R0)) := by
  rw [← crossCov_eq (by simp)]
  congr 1
  rw [centroid_move hp, List.map_map, List.map_map]
  congr 1; funext p
  simp only [Function.comp_def, move, act_eq]
  ext <;> simp <;> ring

theorem wide_centred {σ : ℝ} {o : V3 ℝ} {ps : List (V3 ℝ)} (h : Wide σ o ps) (w : V3 ℝ) :
    σ * inner3 w w ≤ ((ps.map (· - o)).map fun p => inner3 w p ^ 2).sum := by
  rw [List.map_map]
  exact h w

theorem wide_origin {σ : ℝ} {ps : List (V3 ℝ)} (h : Wide σ zero3 ps) (w : V3 ℝ) : σ * inner3 w w ≤ (ps.map fun p => inner3 w p ^ 2).sum := by
  have := h w
  simpa [vec3, zero3] using this

/-- half of the squared distance of two rotations shows in any plane -/
theorem rot_half {R R0 : Mat 3 3 ℝ} (hR : IsRotation R) (h0 : IsRotation R0) {m : V3 ℝ} (hm : inner3 m m = 1) :
    2 * inner3 (act (R - R0) m) (act (R - R0) m) ≤ sqEntries (R - R0) := by
  have hm' : m.x * m.x + m.y * m.y + m.z * m.z = 1 := hm
  obtain ⟨D, hD⟩ : ∃ D : Mat 3 3 ℝ, D = !![2 * m.x * m.x - 1, 2 * m.x * m.y, 2 * m.x * m.z; 2 * m.y * m.x, 2 * m.y * m.y - 1, 2 * m.y * m.z;
      2 * m.z * m.x, 2 * m.z * m.y, 2 * m.z * m.z - 1] := ⟨_, rfl⟩
  have rD : IsRotation D := by
    constructor
    · ext i j
      rw [hD, Matrix.mul_apply, Fin.sum_univ_three]
      fin_cases i <;> fin_cases j <;> simp
      · linear_combination 4 * m.x * m.x * hm'
      · linear_combination 4 * m.x * m.y * hm'
      · linear_combination 4 * m.x * m.z * hm'
      · linear_combination 4 * m.y * m.x * hm'
      · linear_combination 4 * m.y * m.y * hm'
      · linear_combination 4 * m.y * m.z * hm'
      · linear_combination 4 * m.z * m.x * hm'
      · linear_combination 4 * m.z * m.y * hm'
      · linear_combination 4 * m.z * m.z * hm'
    · rw [hD, Matrix.det_fin_three]
      simp
      linear_combination 2 * hm'
  have rQ : IsRotation (D * (R0.transpose * R)) := by
    refine ⟨orth_mul rD.1 (orth_mul (orth_tr h0.1) hR.1), ?_⟩
    rw [Matrix.det_mul, Matrix.det_mul, Matrix.det_transpose, rD.2, h0.2, hR.2]; norm_num
  have ht := rot_trace rQ
  have e1 : (D * (R0.transpose * R)) 0 0 + (D * (R0.transpose * R)) 1 1 + (D * (R0.transpose * R)) 2 2 =
      2 * inner3 (act R m) (act R0 m) - ∑ i, ∑ j, R i j * R0 i j := by
    rw [hD]
    simp only [Matrix.mul_apply, Fin.sum_univ_three, act_eq, inner3, Matrix.transpose_apply]
    simp
    ring
  have e2 : sqEntries (R - R0) = sqEntries R + sqEntries R0 - 2 * ∑ i, ∑ j, R i j * R0 i j := by
    simp only [sqEntries, Fin.sum_univ_three, Matrix.sub_apply]; ring
  have e3 : inner3 (act (R - R0) m) (act (R - R0) m) = inner3 (act R m) (act R m) + inner3 (act R0 m) (act R0 m) - 2 * inner3 (act R m) (act R0 m) := by
    simp only [act_eq, inner3, Matrix.sub_apply]; ring
  rw [orth_sq hR.1, orth_sq h0.1] at e2
  rw [orth_inner hR.1, orth_inner h0.1, hm] at e3
  rw [e1] at ht
  rw [e2, e3]
  linarith

/-- the same as `resid_images`, for points on a plane and rotations -/
theorem flat_images {A B : Mat 3 3 ℝ} (hA : IsRotation A) (hB : IsRotation B) {m : V3 ℝ} (hm : inner3 m m = 1) {σ : ℝ} (h0 : 0 ≤ σ) (l : List (V3 ℝ))
    (hon : ∀ p ∈ l, inner3 m p = 0) (h : ∀ w : V3 ℝ, inner3 w m = 0 → σ * inner3 w w ≤ (l.map fun p => inner3 w p ^ 2).sum) :
    σ / 2 * sqEntries (A - B) ≤ sqResid (act A) l (l.map (act B)) := by
  have row : ∀ w : V3 ℝ, σ * (inner3 w w - inner3 w m ^ 2) ≤ (l.map fun p => inner3 w p ^ 2).sum := by
    intro w
    have h1 := h (w + scale3 (-inner3 w m) m) (by
      have : inner3 (w + scale3 (-inner3 w m) m) m = inner3 w m - inner3 w m * inner3 m m := by simp [inner3, scale3]; ring
      rw [this, hm]; ring)
    have h2 : inner3 (w + scale3 (-inner3 w m) m) (w + scale3 (-inner3 w m) m) = inner3 w w - inner3 w m ^ 2 := by
      have : inner3 (w + scale3 (-inner3 w m) m) (w + scale3 (-inner3 w m) m) =
          inner3 w w - 2 * inner3 w m * inner3 w m + inner3 w m ^ 2 * inner3 m m := by simp [inner3, scale3]; ring
      rw [this, hm]; ring
    rw [h2] at h1
    refine h1.trans (le_of_eq ?_)
    congr 1
    refine List.map_congr_left fun p hp => ?_
    have : inner3 (w + scale3 (-inner3 w m) m) p = inner3 w p - inner3 w m * inner3 m p := by simp [inner3, scale3]; ring
    rw [this, hon p hp, mul_zero, sub_zero]
  have e := resid_rows A B l
  rw [e]
  have r0 := row ⟨(A - B) 0 0, (A - B) 0 1, (A - B) 0 2⟩
  have r1 := row ⟨(A - B) 1 0, (A - B) 1 1, (A - B) 1 2⟩
  have r2 := row ⟨(A - B) 2 0, (A - B) 2 1, (A - B) 2 2⟩
  have hh := mul_le_mul_of_nonneg_left (rot_half hA hB hm) h0
  have e4 : σ * sqEntries (A - B) - σ * inner3 (act (A - B) m) (act (A - B) m) =
      σ * (inner3 (⟨(A - B) 0 0, (A - B) 0 1, (A - B) 0 2⟩ : V3 ℝ) ⟨(A - B) 0 0, (A - B) 0 1, (A - B) 0 2⟩ - inner3 ⟨(A - B) 0 0, (A - B) 0 1, (A - B) 0 2⟩ m ^ 2) +
      σ * (inner3 (⟨(A - B) 1 0, (A - B) 1 1, (A - B) 1 2⟩ : V3 ℝ) ⟨(A - B) 1 0, (A - B) 1 1, (A - B) 1 2⟩ - inner3 ⟨(A - B) 1 0, (A - B) 1 1, (A - B) 1 2⟩ m ^ 2) +
      σ * (inner3 (⟨(A - B) 2 0, (A - B) 2 1, (A - B) 2 2⟩ : V3 ℝ) ⟨(A - B) 2 0, (A - B) 2 1, (A - B) 2 2⟩ - inner3 ⟨(A - B) 2 0, (A - B) 2 1, (A - B) 2 2⟩ m ^ 2) := by
    simp only [sqEntries, Fin.sum_univ_three, act_eq, inner3]; ring
  linarith

/-- points on a plane that extend in it: the rotation found is near the one that moved them -/
theorem flat_close {l : List (V3 ℝ)} {R R0 c' : Mat 3 3 ℝ} {σ δ : ℝ} (h0 : 0 < σ) (hδ : 0 ≤ δ) {m : V3 ℝ} (hm : inner3 m m = 1)
    (hon : ∀ p ∈ l, inner3 m p = 0) (hl : ∀ w : V3 ℝ, inner3 w m = 0 → σ * inner3 w w ≤ (l.map fun p => inner3 w p ^ 2).sum)
    (hR : IsRotation R) (hR0 : IsRotation R0) (hc : sqEntries (c' - outerSum l (l.map (act R0))) ≤ δ ^ 2)
    (hb : Matrix.trace (R0 * c') ≤ Matrix.trace (R * c')) : √(sqEntries (R - R0)) ≤ 4 * δ / σ := by
  have h4 := flat_images hR hR0 hm h0.le l hon hl
  have h1 := near_best hδ hc hb
  have hlen : l.length = (l.map (act R0)).length := by simp
  have h2 := residual_trace hR.1 l _ hlen
  have h3 := residual_trace hR0.1 l _ hlen
  rw [(sqResid_zero (f := act R0) (g := act R0) l).mpr fun _ _ => rfl] at h3
  have h5 := Real.sq_sqrt (sqE_nonneg (R - R0))
  rw [le_div_iff₀ h0]
  rcases (Real.sqrt_nonneg (sqEntries (R - R0))).eq_or_lt with e | hp
  · rw [← e, zero_mul]; positivity
  · have h6 : σ / 2 * √(sqEntries (R - R0)) ^ 2 ≤ 2 * (√(sqEntries (R - R0)) * δ) := by
      rw [h5]; linarith
    have h7 : √(sqEntries (R - R0)) * (√(sqEntries (R - R0)) * σ) ≤ √(sqEntries (R - R0)) * (4 * δ) := by nlinarith
    exact le_of_mul_le_mul_left h7 hp

end NS
open NS

/-- **C156.** `find_rigid_transform` with the decomposition of a matrix that differs from the cross-covariance matrix by at most `δ`: it raises ValueError
only if that nearby matrix has a negative determinant; otherwise the result is a rotation and a translation, and no motion, not even with a reflection,
has a sum of squared distances that is smaller by more than `4 √3 δ`. -/
theorem C156_transform (svd : Svd3 ℝ) (a b : Grid ℝ) (ps qs : List (V3 ℝ)) (ha : Given a ps) (hb : Given b qs) (hl : ps.length = qs.length) (hp : ps ≠ [])
    {δ : ℝ} (hδ : 0 ≤ δ) (hsvd : ∃ u s v, svd (crossCov ps qs) = .ok (u, s, v) ∧ NearSvd δ (crossCov ps qs) u s v) :
    (findRigidTransform svd a b = .error .ValueError ∧ ∃ c', sqEntries (c' - crossCov ps qs) ≤ δ ^ 2 ∧ c'.det < 0) ∨
    ∃ R T, findRigidTransform svd a b = .ok (R, T) ∧ IsRotation R ∧
      ∀ (R' : Matrix (Fin 3) (Fin 3) ℝ) T', R'.transpose * R' = 1 → sqResid (move R T) ps qs ≤ sqResid (move R' T') ps qs + 4 * √3 * δ := by
  obtain ⟨u, s, v, hs, c', hc, hS⟩ := hsvd
  obtain ⟨h1, h2⟩ := fit_near hs hS
  rw [find_eq ha hb hl]
  by_cases hd : c'.det < 0
  · exact .inl ⟨by rw [h1 hd]; rfl, c', hc, hd⟩
  · obtain ⟨R, hR, hrot, hbest⟩ := h2 (not_lt.mp hd)
    refine .inr ⟨R, centroid qs - act R (centroid ps), by rw [hR]; rfl, hrot, ?_⟩
    intro R' T' hR'
    have hl' : (ps.map (· - centroid ps)).length = (qs.map (· - centroid qs)).length := by simpa using hl
    rw [residual_centred hl hp, residual_centred hl hp, residual_trace hrot.1 _ _ hl', residual_trace hR' _ _ hl', crossCov_eq hl]
    have h0 : vec3 (centroid qs) (move R (centroid qs - act R (centroid ps)) (centroid ps)) = zero3 := by
      ext <;> simp [vec3, move, zero3]
    have h0' : len3 zero3 = 0 := len3_eq_zero.mpr rfl
    rw [h0, h0']
    have h3 : 0 ≤ (ps.length : ℝ) * len3 (vec3 (centroid qs) (move R' T' (centroid ps))) ^ 2 := by positivity
    have h4 := near_best hδ hc (hbest R' hR')
    have h5 := mul_le_mul_of_nonneg_right (orth_apart hrot.1 hR') hδ
    linarith

/-- **C156.** If the cross-covariance matrix stretches every vector by more than `δ`, whether ValueError is raised is decided by the sign of its
determinant, as with an exact decomposition. -/
theorem C156_sign (svd : Svd3 ℝ) (a b : Grid ℝ) (ps qs : List (V3 ℝ)) (ha : Given a ps) (hb : Given b qs) (hl : ps.length = qs.length)
    {σ δ : ℝ} (hδ : 0 ≤ δ) (hσ : δ < σ) (hc : ∀ w : Fin 3 → ℝ, σ ^ 2 * ∑ i, w i ^ 2 ≤ ∑ i, (crossCov ps qs *ᵥ w) i ^ 2)
    (hsvd : ∃ u s v, svd (crossCov ps qs) = .ok (u, s, v) ∧ NearSvd δ (crossCov ps qs) u s v) :
    (crossCov ps qs).det ≠ 0 ∧ ((crossCov ps qs).det < 0 → findRigidTransform svd a b = .error .ValueError) ∧
    (0 < (crossCov ps qs).det → ∃ R T, findRigidTransform svd a b = .ok (R, T)) := by
  obtain ⟨u, s, v, hs, c', hc', hS⟩ := hsvd
  obtain ⟨h1, h2⟩ := fit_near hs hS
  have hk := det_keeps hδ hσ hc hc'
  rw [find_eq ha hb hl]
  refine ⟨fun h0 => by rw [h0, zero_mul] at hk; exact lt_irrefl _ hk, fun hd => ?_, fun hd => ?_⟩
  · rw [h1 (by by_contra hn; nlinarith [mul_nonneg (not_lt.mp hn) (neg_nonneg.mpr hd.le)])]; rfl
  · obtain ⟨R, hR, -, -⟩ := h2 (by by_contra hn; nlinarith [mul_neg_of_pos_of_neg hd (not_le.mp hn)])
    exact ⟨R, _, by rw [hR]; rfl⟩

/-- **C156.** Points that were moved rigidly and extend in all directions, more than `δ`: nothing is raised, and the rotation and the motion found are
near those that moved the points, in proportion to `δ`. -/
theorem C156_moved (svd : Svd3 ℝ) (a b : Grid ℝ) (ps : List (V3 ℝ)) (R0 : Matrix (Fin 3) (Fin 3) ℝ) (T0 : V3 ℝ) (h0 : IsRotation R0)
    (ha : Given a ps) (hb : Given b (ps.map (move R0 T0))) (hp : ps ≠ []) {σ δ : ℝ} (hδ : 0 ≤ δ) (hσ : δ < σ) (hw : Wide σ (centroid ps) ps)
    (hsvd : ∃ u s v, svd (crossCov ps (ps.map (move R0 T0))) = .ok (u, s, v) ∧ NearSvd δ (crossCov ps (ps.map (move R0 T0))) u s v) :
    ∃ R T, findRigidTransform svd a b = .ok (R, T) ∧ IsRotation R ∧
      (∀ w, dist3 (act R w) (act R0 w) ≤ 2 * δ / σ * len3 w) ∧
      ∀ x, dist3 (move R T x) (move R0 T0 x) ≤ 2 * δ / σ * dist3 (centroid ps) x := by
  obtain ⟨u, s, v, hs, c', hc', hS⟩ := hsvd
  have hc := hc'
  rw [moved_cov hp] at hc
  have hd := moved_det hδ hσ (wide_centred hw) h0 hc
  obtain ⟨R, hR, hrot, hbest⟩ := (fit_near hs hS).2 hd.le
  have hclose := fit_close (lt_of_le_of_lt hδ hσ) hδ (wide_centred hw) hrot.1 h0.1 hc (hbest R0 h0.1)
  have hvec : ∀ w, dist3 (act R w) (act R0 w) ≤ 2 * δ / σ * len3 w := fun w =>
    (act_near R R0 w).trans (mul_le_mul_of_nonneg_right hclose (len3_nonneg w))
  refine ⟨R, _, by rw [find_eq ha hb (by simp), hR]; rfl, hrot, hvec, fun x => ?_⟩
  have := hvec (vec3 (centroid ps) x)
  refine le_trans (le_of_eq ?_) this
  rw [centroid_move hp]
  unfold dist3
  congr 1
  simp only [vec3, move, act_eq]
  ext <;> simp <;> ring

/-- **C156.** Points on a plane or a line, or whenever the cross-covariance matrix is singular: however small `δ` is, there is a routine that
returns the decomposition of a matrix within `δ` for every matrix, and with which `find_rigid_transform` raises ValueError: the test `s == 0` is for exact
numbers. -/
theorem C156_flat (a b : Grid ℝ) (ps qs : List (V3 ℝ)) (ha : Given a ps) (hb : Given b qs) (hl : ps.length = qs.length)
    (hd : (crossCov ps qs).det = 0) {δ : ℝ} (hδ : 0 < δ) :
    ∃ svd : Svd3 ℝ, (∀ c, ∃ u s v, svd c = .ok (u, s, v) ∧ NearSvd δ c u s v) ∧ findRigidTransform svd a b = .error .ValueError := by
  classical
  obtain ⟨svd0, h0⟩ := C58_satisfiable
  obtain ⟨u, s, v, c', hS, hc, hn⟩ := flat_svd hd hδ
  let svd : Svd3 ℝ := fun c => if c = crossCov ps qs then .ok (u, s, v) else svd0 c
  have hat : svd (crossCov ps qs) = .ok (u, s, v) := if_pos rfl
  refine ⟨svd, fun c => ?_, ?_⟩
  · by_cases e : c = crossCov ps qs
    · subst e
      exact ⟨u, s, v, hat, c', hc, hS⟩
    · obtain ⟨u1, s1, v1, e1, hS1⟩ := h0 c
      refine ⟨u1, s1, v1, (if_neg e).trans e1, c, ?_, hS1⟩
      rw [sub_self]
      have : sqEntries 0 = 0 := by simp [sqEntries]
      rw [this]; positivity
  · rw [find_eq ha hb hl, (fit_near hat hS).1 hn]; rfl

/-- **C156.** `find_rigid_rotation` never raises: the result is a rotation, and no rotation has a sum of squared distances that is smaller by more than
`4 √3 δ`. -/
theorem C156_rotation (svd : Svd3 ℝ) (a b : Grid ℝ) (ps qs : List (V3 ℝ)) (ha : HasColumns a ps) (hb : HasColumns b qs) (hl : ps.length = qs.length)
    (h1 : ps.length ≠ 1) {δ : ℝ} (hδ : 0 ≤ δ) (hsvd : ∃ u s v, svd (moments ps qs) = .ok (u, s, v) ∧ NearSvd δ (moments ps qs) u s v) :
    ∃ R, findRigidRotation svd a b false = .ok R ∧ IsRotation R ∧
      ∀ R', IsRotation R' → sqResid (act R) ps qs ≤ sqResid (act R') ps qs + 4 * √3 * δ := by
  obtain ⟨u, s, v, hs, c', hc, hS⟩ := hsvd
  obtain ⟨R, hR, hrot, hbest⟩ := fit_near' hs hS
  refine ⟨R, ?_, hrot, fun R' hR' => ?_⟩
  · unfold findRigidRotation
    rw [cols3_eq ha, cols3_eq hb]
    simp only [ok_bind, addCross_many h1, dotT, if_pos hl, Proofs.RS.moments_eq hl, hR]
    rfl
  · rw [residual_trace hrot.1 _ _ hl, residual_trace hR'.1 _ _ hl, Proofs.RS.moments_eq hl]
    have h4 := near_best hδ hc (hbest R' hR')
    have h5 := mul_le_mul_of_nonneg_right (orth_apart hrot.1 hR'.1) hδ
    linarith

/-- **C156.** Points turned about the origin that extend from it in all directions: the rotation found is near the one that turned them. -/
theorem C156_turned (svd : Svd3 ℝ) (a b : Grid ℝ) (ps : List (V3 ℝ)) (R0 : Matrix (Fin 3) (Fin 3) ℝ) (h0 : IsRotation R0)
    (ha : HasColumns a ps) (hb : HasColumns b (ps.map (act R0))) (h1 : ps.length ≠ 1) {σ δ : ℝ} (hδ : 0 ≤ δ) (hσ : 0 < σ) (hw : Wide σ zero3 ps)
    (hsvd : ∃ u s v, svd (moments ps (ps.map (act R0))) = .ok (u, s, v) ∧ NearSvd δ (moments ps (ps.map (act R0))) u s v) :
    ∃ R, findRigidRotation svd a b false = .ok R ∧ IsRotation R ∧ ∀ w, dist3 (act R w) (act R0 w) ≤ 2 * δ / σ * len3 w := by
  obtain ⟨u, s, v, hs, c', hc, hS⟩ := hsvd
  obtain ⟨R, hR, hrot, hbest⟩ := fit_near' hs hS
  have hl : ps.length = (ps.map (act R0)).length := by simp
  refine ⟨R, ?_, hrot, fun w => ?_⟩
  · unfold findRigidRotation
    rw [cols3_eq ha, cols3_eq hb]
    simp only [ok_bind, addCross_many h1, dotT, if_pos hl, Proofs.RS.moments_eq hl, hR]
    rfl
  · rw [← Proofs.RS.moments_eq hl] at hc
    have hclose := fit_close hσ hδ (wide_origin hw) hrot.1 h0.1 hc (hbest R0 h0)
    exact (act_near R R0 w).trans (mul_le_mul_of_nonneg_right hclose (len3_nonneg w))

/-- **C156.** Points on a plane through the origin that extend in it, turned about the origin: `find_rigid_rotation` finds a rotation near the one that
turned them. -/
theorem C156_flat_turned (svd : Svd3 ℝ) (a b : Grid ℝ) (ps : List (V3 ℝ)) (R0 : Matrix (Fin 3) (Fin 3) ℝ) (h0 : IsRotation R0)
    (ha : HasColumns a ps) (hb : HasColumns b (ps.map (act R0))) (h1 : ps.length ≠ 1) {σ δ : ℝ} (hδ : 0 ≤ δ) (hσ : 0 < σ)
    {m : V3 ℝ} (hm : len3 m = 1) (hon : ∀ p ∈ ps, inner3 m p = 0)
    (hw : ∀ w, inner3 w m = 0 → σ * inner3 w w ≤ (ps.map fun p => inner3 w p ^ 2).sum)
    (hsvd : ∃ u s v, svd (moments ps (ps.map (act R0))) = .ok (u, s, v) ∧ NearSvd δ (moments ps (ps.map (act R0))) u s v) :
    ∃ R, findRigidRotation svd a b false = .ok R ∧ IsRotation R ∧ ∀ w, dist3 (act R w) (act R0 w) ≤ 4 * δ / σ * len3 w := by
  obtain ⟨u, s, v, hs, c', hc, hS⟩ := hsvd
  obtain ⟨R, hR, hrot, hbest⟩ := fit_near' hs hS
  have hl : ps.length = (ps.map (act R0)).length := by simp
  refine ⟨R, ?_, hrot, fun w => ?_⟩
  · unfold findRigidRotation
    rw [cols3_eq ha, cols3_eq hb]
    simp only [ok_bind, addCross_many h1, dotT, if_pos hl, Proofs.RS.moments_eq hl, hR]
    rfl
  · rw [← Proofs.RS.moments_eq hl] at hc
    have hclose := flat_close hσ hδ (by rw [inner3_self, hm]; norm_num) hon hw hrot h0 hc (hbest R0 h0)
    exact (act_near R R0 w).trans (mul_le_mul_of_nonneg_right hclose (len3_nonneg w))

/-- **C156.** Points on a plane that extend in it, moved rigidly: if `find_rigid_transform` does not raise, the motion found is near the one that moved
them. -/
theorem C156_flat_moved (svd : Svd3 ℝ) (a b : Grid ℝ) (ps : List (V3 ℝ)) (R0 : Matrix (Fin 3) (Fin 3) ℝ) (T0 : V3 ℝ) (h0 : IsRotation R0)
    (ha : Given a ps) (hb : Given b (ps.map (move R0 T0))) (hp : ps ≠ []) {σ δ : ℝ} (hδ : 0 ≤ δ) (hσ : 0 < σ)
    {m : V3 ℝ} (hm : len3 m = 1) (hon : ∀ p ∈ ps, inner3 m (vec3 (centroid ps) p) = 0)
    (hw : ∀ w, inner3 w m = 0 → σ * inner3 w w ≤ (ps.map fun p => inner3 w (vec3 (centroid ps) p) ^ 2).sum)
    (hsvd : ∃ u s v, svd (crossCov ps (ps.map (move R0 T0))) = .ok (u, s, v) ∧ NearSvd δ (crossCov ps (ps.map (move R0 T0))) u s v) :
    findRigidTransform svd a b = .error .ValueError ∨
    ∃ R T, findRigidTransform svd a b = .ok (R, T) ∧ IsRotation R ∧
      (∀ w, dist3 (act R w) (act R0 w) ≤ 4 * δ / σ * len3 w) ∧
      ∀ x, dist3 (move R T x) (move R0 T0 x) ≤ 4 * δ / σ * dist3 (centroid ps) x := by
  obtain ⟨u, s, v, hs, c', hc', hS⟩ := hsvd
  have hc := hc'
  rw [moved_cov hp] at hc
  obtain ⟨f1, f2⟩ := fit_near hs hS
  by_cases hd : c'.det < 0
  · left
    rw [find_eq ha hb (by simp), f1 hd]; rfl
  · right
    obtain ⟨R, hR, hrot, hbest⟩ := f2 (not_lt.mp hd)
    have hclose := flat_close (l := ps.map (· - centroid ps)) hσ hδ (by rw [inner3_self, hm]; norm_num)
      (fun p hp => by
        obtain ⟨q, hq, rfl⟩ := List.mem_map.mp hp
        exact hon q hq)
      (fun w h => by rw [List.map_map]; exact hw w h) hrot h0 hc (hbest R0 h0.1)
    have hvec : ∀ w, dist3 (act R w) (act R0 w) ≤ 4 * δ / σ * len3 w := fun w =>
      (act_near R R0 w).trans (mul_le_mul_of_nonneg_right hclose (len3_nonneg w))
    refine ⟨R, _, by rw [find_eq ha hb (by simp), hR]; rfl, hrot, hvec, fun x => ?_⟩
    have := hvec (vec3 (centroid ps) x)
    refine le_trans (le_of_eq ?_) this
    rw [centroid_move hp]
    unfold dist3
    congr 1
    simp only [vec3, move, act_eq]
    ext <;> simp <;> ring

/-- **C156.** Non-vacuity: a tetrahedron, turned by a quarter and shifted; and the corners of a square, for which an arbitrarily small inaccuracy
makes `find_rigid_transform` raise although the points did not move at all. -/
theorem C156_witness :
    (∃ (a b : Grid ℝ) (R0 : Matrix (Fin 3) (Fin 3) ℝ) (svd : Svd3 ℝ), IsRotation R0 ∧ Given a [⟨0, 0, 0⟩, ⟨1, 0, 0⟩, ⟨0, 1, 0⟩, ⟨0, 0, 1⟩] ∧
      Given b ([⟨0, 0, 0⟩, ⟨1, 0, 0⟩, ⟨0, 1, 0⟩, ⟨0, 0, 1⟩].map (move R0 ⟨1, 2, 3⟩)) ∧
      Wide (1 / 4) (centroid [⟨0, 0, 0⟩, ⟨1, 0, 0⟩, ⟨0, 1, 0⟩, ⟨0, 0, 1⟩]) [⟨0, 0, 0⟩, ⟨1, 0, 0⟩, ⟨0, 1, 0⟩, ⟨0, 0, 1⟩] ∧
      ∀ c, ∃ u s v, svd c = .ok (u, s, v) ∧ NearSvd (1 / 1000) c u s v) ∧
    ∃ a : Grid ℝ, Given a [⟨0, 0, 0⟩, ⟨1, 0, 0⟩, ⟨1, 1, 0⟩, ⟨0, 1, 0⟩] ∧
      ∀ δ : ℝ, 0 < δ → ∃ svd : Svd3 ℝ, (∀ c, ∃ u s v, svd c = .ok (u, s, v) ∧ NearSvd δ c u s v) ∧ findRigidTransform svd a a = .error .ValueError := by
  constructor
  · obtain ⟨svd, h⟩ := C58_satisfiable
    refine ⟨⟨3, 4, fun i j => if j = i + 1 then 1 else 0⟩,
      ⟨3, 4, fun i j => (i + 1 : ℝ) + if i = 0 ∧ j = 2 then -1 else if (i = 1 ∧ j = 1) ∨ (i = 2 ∧ j = 3) then 1 else 0⟩,
      !![0, -1, 0; 1, 0, 0; 0, 0, 1], svd, ⟨?_, ?_⟩, .inl ⟨rfl, rfl, fun j p hj => ?_⟩, .inl ⟨rfl, rfl, fun j p hj => ?_⟩, fun w => ?_, fun c => ?_⟩
    · ext i j
      fin_cases i <;> fin_cases j <;> simp [Matrix.mul_apply, Fin.sum_univ_three]
    · simp [Matrix.det_fin_three]
    · match j with
      | 0 => simp at hj; simp [← hj]
      | 1 => simp at hj; simp [← hj]
      | 2 => simp at hj; simp [← hj]
      | 3 => simp at hj; simp [← hj]
      | j + 4 => simp at hj
    · match j with
      | 0 => simp at hj; simp [← hj, move, act_eq]; norm_num
      | 1 => simp at hj; simp [← hj, move, act_eq]; norm_num
      | 2 => simp at hj; simp [← hj, move, act_eq]; norm_num
      | 3 => simp at hj; simp [← hj, move, act_eq]; norm_num
      | j + 4 => simp at hj
    · simp [inner3, vec3, centroid, sum3, scale3, zero3]
      nlinarith [sq_nonneg (w.x - w.y), sq_nonneg (w.y - w.z), sq_nonneg (w.x - w.z)]
    · obtain ⟨u, s, v, e, hS⟩ := h c
      refine ⟨u, s, v, e, c, ?_, hS⟩
      rw [sub_self]
      have : sqEntries 0 = 0 := by simp [sqEntries]
      rw [this]; positivity
  · have hg : Given ⟨3, 4, fun i j => if (i = 0 ∧ (j = 1 ∨ j = 2)) ∨ (i = 1 ∧ (j = 2 ∨ j = 3)) then 1 else 0⟩
        [⟨0, 0, 0⟩, ⟨1, 0, 0⟩, ⟨1, 1, 0⟩, ⟨0, 1, 0⟩] := by
      refine .inl ⟨rfl, rfl, fun j p hj => ?_⟩
      match j with
      | 0 => simp at hj; simp [← hj]
      | 1 => simp at hj; simp [← hj]
      | 2 => simp at hj; simp [← hj]
      | 3 => simp at hj; simp [← hj]
      | j + 4 => simp at hj
    refine ⟨_, hg, fun δ hδ => C156_flat _ _ _ _ hg hg rfl ?_ hδ⟩
    rw [← crossCov_eq rfl, Matrix.det_fin_three]
    simp [outerSum, Mat.add_real, centroid, sum3, scale3, zero3, Matrix.vecHead, Matrix.vecTail]

/-- **C156.** Non-vacuity of the theorems about flat points: the corners of a square about the origin, which is also their centroid. -/
theorem C156_flat_witness : ∃ a : Grid ℝ, HasColumns a [⟨1, 1, 0⟩, ⟨-1, 1, 0⟩, ⟨-1, -1, 0⟩, ⟨1, -1, 0⟩] ∧ len3 (⟨0, 0, 1⟩ : V3 ℝ) = 1 ∧
    centroid [⟨1, 1, 0⟩, ⟨-1, 1, 0⟩, ⟨-1, -1, 0⟩, ⟨1, -1, 0⟩] = zero3 ∧
    (∀ p ∈ [(⟨1, 1, 0⟩ : V3 ℝ), ⟨-1, 1, 0⟩, ⟨-1, -1, 0⟩, ⟨1, -1, 0⟩], inner3 ⟨0, 0, 1⟩ p = 0) ∧
    ∀ w : V3 ℝ, inner3 w ⟨0, 0, 1⟩ = 0 → 4 * inner3 w w ≤ ([(⟨1, 1, 0⟩ : V3 ℝ), ⟨-1, 1, 0⟩, ⟨-1, -1, 0⟩, ⟨1, -1, 0⟩].map fun p => inner3 w p ^ 2).sum := by
  refine ⟨⟨3, 4, fun i j => if i = 2 then 0 else if (i = 0 ∧ (j = 1 ∨ j = 2)) ∨ (i = 1 ∧ (j = 2 ∨ j = 3)) then -1 else 1⟩, ⟨rfl, rfl, fun j p hj => ?_⟩, ?_, ?_, ?_, ?_⟩
  · match j with
    | 0 => simp at hj; simp [← hj]
    | 1 => simp at hj; simp [← hj]
    | 2 => simp at hj; simp [← hj]
    | 3 => simp at hj; simp [← hj]
    | j + 4 => simp at hj
  · rw [← Real.sqrt_sq (len3_nonneg _), ← inner3_self]
    simp [inner3]
  · ext <;> simp [centroid, sum3, scale3, zero3]
  · intro p hp
    simp only [List.mem_cons, List.not_mem_nil, or_false] at hp
    rcases hp with rfl | rfl | rfl | rfl <;> simp [inner3]
  · intro w h
    simp [inner3] at h
    simp [inner3, h]
    nlinarith

end Blmath.Props
