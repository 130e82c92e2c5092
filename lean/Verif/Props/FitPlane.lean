import Verif.Model.FitPlane
import Verif.Spec.Fit
import Verif.Proofs.Rotation
import Verif.Props.Plane
import Mathlib.Analysis.Matrix.Spectrum

/-!
Property C32: least squares planes.
-/

namespace Blmath.Props
open Blmath.Geometry Blmath.Spec

/-! ### sums -/

theorem sqDist_shift (n r c : V3 ℝ) (ps : List (V3 ℝ)) :
    sqDistSum ⟨r, n⟩ ps = sqDistSum ⟨c, n⟩ ps + 2 * inner3 (vec3 r c) n * (inner3 (sum3 ps) n - ps.length * inner3 c n) +
      ps.length * inner3 (vec3 r c) n ^ 2 := by
  induction ps with
  | nil => simp [sqDistSum, sum3, zero3, inner3]
  | cons p ps ih =>
    simp only [sqDistSum, ih, sum3, List.length_cons, height, inner3, vec3]
    push_cast
    ring

theorem sum3_centroid {ps : List (V3 ℝ)} (h : ps ≠ []) (n : V3 ℝ) : inner3 (sum3 ps) n = ps.length * inner3 (centroid ps) n := by
  have hl : (ps.length : ℝ) ≠ 0 := by simpa using h
  simp only [centroid, scale3, inner3]
  field_simp

theorem quad_sum (n c : V3 ℝ) (ps : List (V3 ℝ)) :
    sqDistSum ⟨c, n⟩ ps =
      n.x * n.x * sumOver (fun p => (p.x - c.x) * (p.x - c.x)) ps + n.x * n.y * sumOver (fun p => (p.x - c.x) * (p.y - c.y)) ps +
      n.x * n.z * sumOver (fun p => (p.x - c.x) * (p.z - c.z)) ps + n.y * n.x * sumOver (fun p => (p.y - c.y) * (p.x - c.x)) ps +
      n.y * n.y * sumOver (fun p => (p.y - c.y) * (p.y - c.y)) ps + n.y * n.z * sumOver (fun p => (p.y - c.y) * (p.z - c.z)) ps +
      n.z * n.x * sumOver (fun p => (p.z - c.z) * (p.x - c.x)) ps + n.z * n.y * sumOver (fun p => (p.z - c.z) * (p.y - c.y)) ps +
      n.z * n.z * sumOver (fun p => (p.z - c.z) * (p.z - c.z)) ps := by
  induction ps with
  | nil => simp [sqDistSum, sumOver]
  | cons p ps ih =>
    simp only [sqDistSum, ih, sumOver, height, inner3, vec3]
    ring

theorem cov_quad {ps : List (V3 ℝ)} (h : 2 ≤ ps.length) (n : V3 ℝ) :
    sqDistSum ⟨centroid ps, n⟩ ps = ((ps.length : ℝ) - 1) * inner3 n (act (covMat ps) n) := by
  have hl : (ps.length : ℝ) - 1 ≠ 0 := by
    have : (2 : ℝ) ≤ ps.length := by exact_mod_cast h
    intro h0; linarith
  rw [quad_sum, act_eq]
  simp only [covMat, meanPts_real, Num.lit_real, inner3]
  simp
  field_simp
  ring

theorem sumOver_comm (f g : V3 ℝ → ℝ) (ps : List (V3 ℝ)) : sumOver (fun p => f p * g p) ps = sumOver (fun p => g p * f p) ps := by
  congr 1; funext p; ring

theorem cov_symm (ps : List (V3 ℝ)) : (covMat ps).transpose = covMat ps := by
  ext i j
  fin_cases i <;> fin_cases j <;> simp [covMat, Matrix.transpose_apply] <;> left <;> congr 1 <;> funext p <;> ring

/-! ### symmetric matrices -/

theorem act_symm {A : Mat 3 3 ℝ} (hA : A.transpose = A) (u v : V3 ℝ) : inner3 (act A u) v = inner3 u (act A v) := by
  have e : ∀ i j, A i j = A j i := fun i j => congrFun (congrFun hA.symm i) j
  have e01 := e 0 1; have e02 := e 0 2; have e12 := e 1 2
  simp only [act_eq, inner3]
  rw [e01, e02, e12]; ring

theorem act_comb {A : Mat 3 3 ℝ} (a b c : ℝ) (u v w : V3 ℝ) :
    act A (scale3 a u + scale3 b v + scale3 c w) = scale3 a (act A u) + scale3 b (act A v) + scale3 c (act A w) := by
  rw [act_add, act_add, act_scale, act_scale, act_scale]

theorem eig_orth {A : Mat 3 3 ℝ} (hA : A.transpose = A) {u v : V3 ℝ} {a b : ℝ} (hu : act A u = scale3 a u) (hv : act A v = scale3 b v) :
    (a - b) * inner3 u v = 0 := by
  have := act_symm hA u v
  rw [hu, hv] at this
  simp only [inner3, scale3] at *
  linarith

/-- every vector is a combination of three independent ones -/
theorem comb_of_det {u v w : V3 ℝ} (h : det3 u v w ≠ 0) (t : V3 ℝ) :
    ∃ a b c, t = scale3 a u + scale3 b v + scale3 c w := by
  refine ⟨det3 t v w / det3 u v w, det3 u t w / det3 u v w, det3 u v t / det3 u v w, ?_⟩
  obtain ⟨D, hD⟩ : ∃ D, D = det3 u v w := ⟨_, rfl⟩
  rw [← hD] at h ⊢
  have key : scale3 D t = scale3 (det3 t v w) u + scale3 (det3 u t w) v + scale3 (det3 u v t) w := by
    rw [hD]
    ext <;> simp [scale3, det3, inner3, cross3] <;> ring
  have hx := congrArg V3.x key; have hy := congrArg V3.y key; have hz := congrArg V3.z key
  simp only [scale3, V3.add_x, V3.add_y, V3.add_z] at hx hy hz
  ext <;> simp only [scale3, V3.add_x, V3.add_y, V3.add_z] <;> field_simp <;> linarith

/-- the smallest eigenvalue bounds the quadratic form from below -/
theorem quad_min {A : Mat 3 3 ℝ} (hA : A.transpose = A) {u v w : V3 ℝ} {a b c : ℝ} (hu : act A u = scale3 a u)
    (hv : act A v = scale3 b v) (hw : act A w = scale3 c w) (hd : det3 u v w ≠ 0) (hab : b ≤ a) (hbc : c ≤ b) (t : V3 ℝ) :
    c * inner3 t t ≤ inner3 t (act A t) := by
  obtain ⟨x, y, z, rfl⟩ := comb_of_det hd t
  rw [act_comb, hu, hv, hw]
  have h1 := eig_orth hA hu hv
  have h2 := eig_orth hA hu hw
  have h3 := eig_orth hA hv hw
  obtain ⟨p, hp⟩ : ∃ p, p = inner3 u v := ⟨_, rfl⟩
  obtain ⟨q, hq⟩ : ∃ q, q = inner3 u w := ⟨_, rfl⟩
  obtain ⟨r, hr⟩ : ∃ r, r = inner3 v w := ⟨_, rfl⟩
  have nu : 0 ≤ inner3 u u := by simp only [inner3]; nlinarith [mul_self_nonneg u.x, mul_self_nonneg u.y, mul_self_nonneg u.z]
  have nv : 0 ≤ inner3 v v := by simp only [inner3]; nlinarith [mul_self_nonneg v.x, mul_self_nonneg v.y, mul_self_nonneg v.z]
  have key : inner3 (scale3 x u + scale3 y v + scale3 z w) (scale3 x (scale3 a u) + scale3 y (scale3 b v) + scale3 z (scale3 c w)) -
      c * inner3 (scale3 x u + scale3 y v + scale3 z w) (scale3 x u + scale3 y v + scale3 z w) =
      (a - c) * x ^ 2 * inner3 u u + ((a - c) + (b - c)) * x * y * p + (b - c) * y ^ 2 * inner3 v v +
        x * z * ((a - c) * q) + y * z * ((b - c) * r) := by
    rw [hp, hq, hr]
    simp [inner3, scale3]; ring
  rw [← hp] at h1
  rw [← hq] at h2
  rw [← hr] at h3
  rw [h2, h3] at key
  have : 0 ≤ (a - c) * x ^ 2 * inner3 u u + ((a - c) + (b - c)) * x * y * p + (b - c) * y ^ 2 * inner3 v v := by
    rcases mul_eq_zero.mp h1 with h | h
    · have hab' : a = b := by linarith
      have hs : 0 ≤ inner3 (scale3 x u + scale3 y v) (scale3 x u + scale3 y v) := by
        simp only [inner3]
        nlinarith [mul_self_nonneg (scale3 x u + scale3 y v).x, mul_self_nonneg (scale3 x u + scale3 y v).y, mul_self_nonneg (scale3 x u + scale3 y v).z]
      have e : inner3 (scale3 x u + scale3 y v) (scale3 x u + scale3 y v) = x ^ 2 * inner3 u u + 2 * x * y * p + y ^ 2 * inner3 v v := by
        rw [hp]; simp [inner3, scale3]; ring
      rw [e] at hs
      have := mul_nonneg (sub_nonneg.mpr hbc) hs
      rw [hab']
      linarith
    · rw [h]
      have h4 := mul_nonneg (mul_nonneg (sub_nonneg.mpr (hbc.trans hab)) (sq_nonneg x)) nu
      have h5 := mul_nonneg (mul_nonneg (sub_nonneg.mpr hbc) (sq_nonneg y)) nv
      linarith
  linarith

/-- the cross product of the first two eigenvectors is an eigenvector for the third eigenvalue -/
theorem cross_eig {A : Mat 3 3 ℝ} (hA : A.transpose = A) {u v w : V3 ℝ} {a b c : ℝ} (hu : act A u = scale3 a u)
    (hv : act A v = scale3 b v) (hw : act A w = scale3 c w) (hd : det3 u v w ≠ 0) :
    act A (cross3 u v) = scale3 c (cross3 u v) := by
  obtain ⟨t, ht⟩ : ∃ t, t = act A (cross3 u v) + scale3 (-c) (cross3 u v) := ⟨_, rfl⟩
  have cu : inner3 (cross3 u v) u = 0 := by simp only [inner3, cross3]; ring
  have cv : inner3 (cross3 u v) v = 0 := by simp only [inner3, cross3]; ring
  have lin : ∀ s, inner3 t s = inner3 (cross3 u v) (act A s) - c * inner3 (cross3 u v) s := by
    intro s
    rw [ht, ← act_symm hA]
    simp [inner3, scale3]; ring
  have lin2 : ∀ (k : ℝ) (s : V3 ℝ), inner3 (cross3 u v) (scale3 k s) = k * inner3 (cross3 u v) s := by
    intro k s; simp only [inner3, scale3]; ring
  have hz : ∀ s, inner3 t s = 0 := by
    intro s
    obtain ⟨x, y, z, rfl⟩ := comb_of_det hd s
    have : inner3 t (scale3 x u + scale3 y v + scale3 z w) = x * inner3 t u + y * inner3 t v + z * inner3 t w := by
      simp [inner3, scale3]; ring
    rw [this, lin u, lin v, lin w, hu, hv, hw, lin2, lin2, lin2, cu, cv]
    ring
  have h0 := hz t
  have : t = zero3 := by
    simp only [inner3] at h0
    ext <;> simp only [zero3] <;> nlinarith [mul_self_nonneg t.x, mul_self_nonneg t.y, mul_self_nonneg t.z]
  rw [this] at ht
  have hx := congrArg V3.x ht; have hy := congrArg V3.y ht; have hz := congrArg V3.z ht
  simp [zero3, scale3] at hx hy hz
  ext <;> simp only [scale3] <;> linarith

/-! ### C32 -/

theorem argsort_three {w : Fin 3 → ℝ} {l : List (Fin 3)} (h : IsArgsort w l) :
    ∃ i j k, l = [k, j, i] ∧ w k ≤ w j ∧ w j ≤ w i ∧ (∀ v : Mat 3 3 ℝ, v.det ≠ 0 → det3 (column v i) (column v j) (column v k) ≠ 0) := by
  obtain ⟨hp, hs⟩ := h
  have hl := hp.length_eq
  obtain ⟨k, j, i, rfl⟩ := List.length_eq_three.mp hl
  simp only [List.pairwise_cons, List.mem_cons, List.not_mem_nil, or_false, forall_eq_or_imp, forall_eq] at hs
  refine ⟨i, j, k, rfl, hs.1.1, hs.2.1, ?_⟩
  intro v hv
  have hnd := hp.nodup_iff.mpr (by decide)
  rw [Matrix.det_fin_three] at hv
  simp only [List.nodup_cons, List.mem_cons, List.not_mem_nil, or_false, not_or] at hnd
  obtain ⟨⟨h1, h2⟩, h3, -⟩ := hnd
  simp only [det3, inner3, cross3, column]
  fin_cases i <;> fin_cases j <;> fin_cases k <;> simp at h1 h2 h3 <;> simp <;> intro hc <;> apply hv <;> linarith

theorem column_eq (v : Mat 3 3 ℝ) (i : Fin 3) : colAt v i = column v i := rfl

/-- **C32.** For at least two points and any correct routine for eigenvectors of symmetric matrices and
for sorting: either the plane found passes through the centroid and no plane at all has a smaller sum of
squared distances from the points; or the eigenvectors found are not orthogonal (possible only for
equal eigenvalues), and ValueError is raised. -/
theorem C32_fit (eig : Mat 3 3 ℝ → PyM ((Fin 3 → ℝ) × Mat 3 3 ℝ)) (argsort : (Fin 3 → ℝ) → List (Fin 3))
    (hs : ∀ w, IsArgsort w (argsort w)) (ps : List (V3 ℝ)) (hp : 2 ≤ ps.length)
    (heig : ∀ A : Mat 3 3 ℝ, A.transpose = A → ∃ w v, eig A = .ok (w, v) ∧ EigSpec A w v) :
    (∃ pl, Plane.fitFromPoints eig argsort ps = .ok pl ∧ pl.r0 = centroid ps ∧ UnitNormal pl ∧
      ∀ pl', UnitNormal pl' → sqDistSum pl ps ≤ sqDistSum pl' ps) ∨
    (Plane.fitFromPoints eig argsort ps = .error .ValueError ∧
      ∃ A w v i j, eig A = .ok (w, v) ∧ i ≠ j ∧ w i = w j ∧ inner3 (column v i) (column v j) ≠ 0) := by
  have hne : ps ≠ [] := by rintro rfl; simp at hp
  have hA := cov_symm ps
  obtain ⟨w, v, he, hE⟩ := heig _ hA
  obtain ⟨i, j, k, hl, hkj, hji, hdet⟩ := argsort_three (hs w)
  have hd := hdet v hE.independent
  have hcall : Plane.fitFromPoints eig argsort ps = Plane.mk' (centroid ps) (cross3 (column v i) (column v j)) := by
    unfold Plane.fitFromPoints
    rw [if_neg (by omega), he]
    simp only [ok_bind, hl, List.reverse_cons, List.reverse_nil, List.nil_append, List.cons_append]
    have h0 : pyIndex [i, j, k] 0 = .ok i := rfl
    have h1 : pyIndex [i, j, k] 1 = .ok j := rfl
    rw [h0, h1]
    simp only [ok_bind, meanPts_real]
    rfl
  have hcr := cross_eig hA (hE.eigen i) (hE.eigen j) (hE.eigen k) hd
  rw [hcall]
  obtain ⟨h1, h2, h3⟩ := C21_construct (centroid ps) (cross3 (column v i) (column v j))
  rcases h3 with ⟨pl, hpl⟩ | herr
  · left
    obtain ⟨hr, hu, c, hc, hn⟩ := h1 pl hpl
    refine ⟨pl, hpl, hr, hu, ?_⟩
    intro pl' hu'
    have hn1 : inner3 pl.n pl.n = 1 := by rw [inner3_self]; rw [show len3 pl.n = 1 from hu]; norm_num
    have hn2 : inner3 pl'.n pl'.n = 1 := by rw [inner3_self]; rw [show len3 pl'.n = 1 from hu']; norm_num
    have e1 : sqDistSum pl ps = ((ps.length : ℝ) - 1) * w k := by
      have : pl = ⟨centroid ps, pl.n⟩ := Plane.ext hr rfl
      rw [this, cov_quad hp]
      have hact : act (covMat ps) pl.n = scale3 (w k) pl.n := by
        have : pl.n = scale3 c (cross3 (column v i) (column v j)) := hn
        rw [this, act_scale, hcr]
        simp only [scale3]; ext <;> simp only <;> ring
      rw [hact]
      have : inner3 pl.n (scale3 (w k) pl.n) = w k * inner3 pl.n pl.n := by simp only [inner3, scale3]; ring
      rw [this, hn1, mul_one]
    have e2 := sqDist_shift pl'.n pl'.r0 (centroid ps) ps
    rw [sum3_centroid hne, sub_self, mul_zero, add_zero, cov_quad hp] at e2
    have e3 := quad_min hA (hE.eigen i) (hE.eigen j) (hE.eigen k) hd hji hkj pl'.n
    rw [hn2, mul_one] at e3
    have hl1 : (0 : ℝ) ≤ (ps.length : ℝ) - 1 := by
      have : (2 : ℝ) ≤ ps.length := by exact_mod_cast hp
      linarith
    have e4 := mul_le_mul_of_nonneg_left e3 hl1
    have e5 : 0 ≤ (ps.length : ℝ) * inner3 (vec3 pl'.r0 (centroid ps)) pl'.n ^ 2 := by positivity
    have : sqDistSum pl' ps = sqDistSum ⟨pl'.r0, pl'.n⟩ ps := rfl
    rw [this, e2, e1]
    linarith
  · right
    have hno : inner3 (column v i) (column v j) ≠ 0 := by
      intro h0
      have hl1 : len3 (cross3 (column v i) (column v j)) = 1 := by
        have hi := hE.unit i
        have hj := hE.unit j
        have e : len3 (cross3 (column v i) (column v j)) ^ 2 = 1 := by
          have lag : inner3 (cross3 (column v i) (column v j)) (cross3 (column v i) (column v j)) =
              inner3 (column v i) (column v i) * inner3 (column v j) (column v j) - inner3 (column v i) (column v j) ^ 2 := by
            simp only [inner3, cross3]; ring
          rw [inner3_self, inner3_self, inner3_self, hi, hj, h0] at lag
          rw [lag]; norm_num
        exact (pow_left_inj₀ (len3_nonneg _) zero_le_one two_ne_zero).mp (by rw [e]; norm_num)
      have := not_almostZero_unit hl1
      rw [Plane.mk', this] at herr
      simp at herr
    refine ⟨herr, _, w, v, i, j, he, ?_, ?_, ?_⟩
    · rintro rfl
      apply hd
      simp only [det3, inner3, cross3]; ring
    · by_contra hw
      rcases mul_eq_zero.mp (eig_orth hA (hE.eigen i) (hE.eigen j)) with h | h
      · exact hw (by linarith)
      · exact hno h
    · exact hno

/-- **C32.** Points of one plane: the plane found contains all of them. -/
theorem C32_planar (eig : Mat 3 3 ℝ → PyM ((Fin 3 → ℝ) × Mat 3 3 ℝ)) (argsort : (Fin 3 → ℝ) → List (Fin 3))
    (hs : ∀ w, IsArgsort w (argsort w)) (ps : List (V3 ℝ)) (hp : 2 ≤ ps.length)
    (heig : ∀ A : Mat 3 3 ℝ, A.transpose = A → ∃ w v, eig A = .ok (w, v) ∧ EigSpec A w v)
    (pl0 : Plane ℝ) (h0 : UnitNormal pl0) (hon : ∀ p ∈ ps, OnPlane pl0 p) (pl : Plane ℝ)
    (h : Plane.fitFromPoints eig argsort ps = .ok pl) : ∀ p ∈ ps, OnPlane pl p := by
  rcases C32_fit eig argsort hs ps hp heig with ⟨pl', h', -, -, hmin⟩ | ⟨h', -⟩
  · rw [h] at h'
    injection h' with h'
    subst h'
    have hz : ∀ l : List (V3 ℝ), (∀ p ∈ l, OnPlane pl0 p) → sqDistSum pl0 l = 0 := by
      intro l
      induction l with
      | nil => intro _; rfl
      | cons p l ih =>
        intro hl
        have h1 : height pl0 p = 0 := hl p List.mem_cons_self
        rw [sqDistSum, ih (fun q hq => hl q (List.mem_cons_of_mem _ hq)), h1]; norm_num
    have hpos : ∀ l : List (V3 ℝ), 0 ≤ sqDistSum pl l := by
      intro l
      induction l with
      | nil => exact le_refl _
      | cons p l ih => rw [sqDistSum]; positivity
    have hle := hmin pl0 h0
    rw [hz ps hon] at hle
    have : ∀ l : List (V3 ℝ), sqDistSum pl l ≤ 0 → ∀ p ∈ l, OnPlane pl p := by
      intro l
      induction l with
      | nil => intro _ p hp; simp at hp
      | cons q l ih =>
        intro hl p hp
        rw [sqDistSum] at hl
        have h2 := hpos l
        have h3 := sq_nonneg (height pl q)
        rcases List.mem_cons.mp hp with rfl | hp
        · have h4 : height pl p ^ 2 = 0 := le_antisymm (by linarith) h3
          exact pow_eq_zero_iff two_ne_zero |>.mp h4
        · exact ih (by linarith) p hp
    exact this ps hle
  · rw [h] at h'; cases h'

/-- **C32.** Fewer than two points: LinAlgError. -/
theorem C32_few {α : Type} [Num α] (eig : Mat 3 3 α → PyM ((Fin 3 → α) × Mat 3 3 α)) (argsort : (Fin 3 → α) → List (Fin 3))
    (ps : List (V3 α)) (hp : ps.length < 2) : Plane.fitFromPoints eig argsort ps = .error .LinAlgError := by
  unfold Plane.fitFromPoints
  rw [if_pos (by omega)]

/-- non-vacuity: correct routines exist, also with orthogonal eigenvectors, so that the plane is found
for every list of two points or more -/
theorem C32_satisfiable : ∃ (eig : Mat 3 3 ℝ → PyM ((Fin 3 → ℝ) × Mat 3 3 ℝ)) (argsort : (Fin 3 → ℝ) → List (Fin 3)),
    (∀ w, IsArgsort w (argsort w)) ∧
    (∀ A : Mat 3 3 ℝ, A.transpose = A → ∃ w v, eig A = .ok (w, v) ∧ EigSpec A w v) ∧
    ∀ ps : List (V3 ℝ), 2 ≤ ps.length → ∃ pl, Plane.fitFromPoints eig argsort ps = .ok pl := by
  classical
  have hex : ∀ A : Mat 3 3 ℝ, A.transpose = A → ∃ (w : Fin 3 → ℝ) (v : Mat 3 3 ℝ), EigSpec A w v ∧ v.transpose * v = 1 := by
    intro A hA
    have hH : Matrix.IsHermitian A := by
      unfold Matrix.IsHermitian; rw [Matrix.conjTranspose_eq_transpose_of_trivial]; exact hA
    obtain ⟨v, hv⟩ : ∃ v : Mat 3 3 ℝ, v = (hH.eigenvectorUnitary : Matrix (Fin 3) (Fin 3) ℝ) := ⟨_, rfl⟩
    have h1 : v.transpose * v = 1 := by
      have := Matrix.mem_unitaryGroup_iff'.mp hH.eigenvectorUnitary.2
      rw [hv, ← this]
      rfl
    have hcol : ∀ i, Matrix.mulVec A (fun j => v j i) = hH.eigenvalues i • (fun j => v j i) := by
      intro i
      have := hH.mulVec_eigenvectorBasis i
      have e : (fun j => v j i) = (hH.eigenvectorBasis i).ofLp := by
        funext j; rw [hv]; exact hH.eigenvectorUnitary_apply j i
      rw [e]
      exact this
    refine ⟨hH.eigenvalues, v, ⟨?_, ?_, ?_⟩, h1⟩
    · intro i
      have h := hcol i
      have e : ![(column v i).x, (column v i).y, (column v i).z] = fun j => v j i := by
        funext j; fin_cases j <;> rfl
      unfold act
      rw [e, h]
      rfl
    · intro i
      have h := congrFun (congrFun h1 i) i
      simp only [Matrix.mul_apply, Fin.sum_univ_three, Matrix.transpose_apply, Matrix.one_apply_eq] at h
      have e : len3 (column v i) ^ 2 = 1 := by rw [len3_sq]; simp only [column]; linarith
      exact (pow_left_inj₀ (len3_nonneg _) zero_le_one two_ne_zero).mp (by rw [e]; norm_num)
    · intro hd
      have := congrArg Matrix.det h1
      rw [Matrix.det_mul, hd, mul_zero, Matrix.det_one] at this
      exact zero_ne_one this
  have hsort : ∀ w : Fin 3 → ℝ, ∃ l, IsArgsort w l := by
    intro w
    refine ⟨[0, 1, 2].insertionSort (fun i j => w i ≤ w j), List.perm_insertionSort _ _, ?_⟩
    have : Std.Total (fun i j => w i ≤ w j) := ⟨fun i j => le_total _ _⟩
    have : IsTrans (Fin 3) (fun i j => w i ≤ w j) := ⟨fun _ _ _ => le_trans⟩
    exact List.pairwise_insertionSort _ _
  have hE : ∀ A : Mat 3 3 ℝ, A.transpose = A → ∃ w v,
      (if h : A.transpose = A then .ok ((hex A h).choose, (hex A h).choose_spec.choose) else .error .LinAlgError :
        PyM ((Fin 3 → ℝ) × Mat 3 3 ℝ)) = .ok (w, v) ∧ EigSpec A w v :=
    fun A hA => ⟨_, _, dif_pos hA, (hex A hA).choose_spec.choose_spec.1⟩
  have hS : ∀ w, IsArgsort w ((fun w => (hsort w).choose) w) := fun w => (hsort w).choose_spec
  refine ⟨_, _, hS, hE, ?_⟩
  intro ps hp
  rcases C32_fit _ _ hS ps hp hE with ⟨pl, h, -⟩ | ⟨-, A, w, v, i, j, h, hij, -, hno⟩
  · exact ⟨pl, h⟩
  · exfalso
    split at h
    · rename_i hA
      injection h with h
      injection h with h1 h2
      have h3 := (hex A hA).choose_spec.choose_spec.2
      rw [h2] at h3
      apply hno
      have := congrFun (congrFun h3 i) j
      simp only [Matrix.mul_apply, Fin.sum_univ_three, Matrix.transpose_apply, Matrix.one_apply_ne hij] at this
      simp only [inner3, column]; linarith
    · cases h

end Blmath.Props
