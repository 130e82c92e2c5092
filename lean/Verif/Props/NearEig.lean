import Verif.Props.NearSvd

/-!
Property C157: planes fitted when the eigenvectors are only nearly right.
-/

namespace Blmath.Props
open Blmath.Geometry Blmath.Spec NS

namespace NE

theorem inner_act_near (A A' : Mat 3 3 ℝ) {δ : ℝ} (hδ : 0 ≤ δ) (h : sqEntries (A' - A) ≤ δ ^ 2) (s t : V3 ℝ) :
    |inner3 s (act A' t) - inner3 s (act A t)| ≤ δ * (len3 s * len3 t) := by
  have h1 := act_near A' A t
  have h2 : √(sqEntries (A' - A)) ≤ δ := Real.sqrt_le_left hδ h
  have h3 : inner3 s (act A' t) - inner3 s (act A t) = inner3 s (vec3 (act A t) (act A' t)) := by
    simp only [inner3, vec3]; ring
  have h4 : len3 (vec3 (act A t) (act A' t)) = dist3 (act A' t) (act A t) := by
    rw [dist3, len3, len3]; congr 1; simp only [vec3]; ring
  rw [h3]
  refine (abs_inner3_le s _).trans ?_
  rw [h4]
  calc len3 s * dist3 (act A' t) (act A t) ≤ len3 s * (δ * len3 t) :=
        mul_le_mul_of_nonneg_left (h1.trans (mul_le_mul_of_nonneg_right h2 (len3_nonneg t))) (len3_nonneg s)
    _ = δ * (len3 s * len3 t) := by ring
where
  Real.sqrt_le_left {a b : ℝ} (hb : 0 ≤ b) (h : a ≤ b ^ 2) : √a ≤ b := by
    rw [← Real.sqrt_sq hb]; exact Real.sqrt_le_sqrt h

/-- what the call does when the eigenvectors of some symmetric matrix are orthogonal -/
theorem call {eig : Mat 3 3 ℝ → PyM ((Fin 3 → ℝ) × Mat 3 3 ℝ)} {argsort : (Fin 3 → ℝ) → List (Fin 3)}
    (hs : ∀ w, IsArgsort w (argsort w)) {ps : List (V3 ℝ)} (hp : 2 ≤ ps.length) {w : Fin 3 → ℝ} {v A' : Mat 3 3 ℝ} (he : eig (covMat ps) = .ok (w, v))
    (hA : A'.transpose = A') (hE : EigSpec A' w v) (ho : v.transpose * v = 1) :
    ∃ pl x, Plane.fitFromPoints eig argsort ps = .ok pl ∧ pl.r0 = centroid ps ∧ UnitNormal pl ∧ act A' pl.n = scale3 x pl.n ∧
      ∀ t, x * inner3 t t ≤ inner3 t (act A' t) := by
  obtain ⟨i, j, k, hl, hkj, hji, hdet⟩ := argsort_three (hs w)
  have hd := hdet v hE.independent
  have hcall : Plane.fitFromPoints eig argsort ps = Plane.mk' (centroid ps) (cross3 (column v i) (column v j)) := by
    unfold Plane.fitFromPoints
    rw [if_neg (by omega), he]
    simp only [ok_bind, hl, List.reverse_cons, List.reverse_nil, List.nil_append, List.cons_append]
    have h0 : pyIndex [i, j, k] 0 = .ok i := rfl
    have h1 : pyIndex [i, j, k] 1 = .ok j := rfl
    rw [h0, h1]
    simp only [ok_bind, meanPts_real]
    rfl
  have hcr := cross_eig hA (hE.eigen i) (hE.eigen j) (hE.eigen k) hd
  have hij : i ≠ j := by
    rintro rfl
    apply hd
    simp only [det3, inner3, cross3]; ring
  have h0 : inner3 (column v i) (column v j) = 0 := by
    have := congrFun (congrFun ho i) j
    rw [Matrix.mul_apply, Matrix.one_apply_ne hij, Fin.sum_univ_three] at this
    simpa [inner3, column] using this
  have hl1 : len3 (cross3 (column v i) (column v j)) = 1 := by
    have e : len3 (cross3 (column v i) (column v j)) ^ 2 = 1 := by
      have lag : inner3 (cross3 (column v i) (column v j)) (cross3 (column v i) (column v j)) =
          inner3 (column v i) (column v i) * inner3 (column v j) (column v j) - inner3 (column v i) (column v j) ^ 2 := by
        simp only [inner3, cross3]; ring
      rw [inner3_self, inner3_self, inner3_self, hE.unit i, hE.unit j, h0] at lag
      rw [lag]; norm_num
    exact (pow_left_inj₀ (len3_nonneg _) zero_le_one two_ne_zero).mp (by rw [e]; norm_num)
  obtain ⟨h1, h2, h3⟩ := C21_construct (centroid ps) (cross3 (column v i) (column v j))
  rcases h3 with ⟨pl, hpl⟩ | herr
  · obtain ⟨hr, hu, c, hc, hn⟩ := h1 pl hpl
    refine ⟨pl, w k, hcall.trans hpl, hr, hu, ?_, quad_min hA (hE.eigen i) (hE.eigen j) (hE.eigen k) hd hji hkj⟩
    have : pl.n = scale3 c (cross3 (column v i) (column v j)) := hn
    rw [this, act_scale, hcr]
    simp only [scale3]; ext <;> simp only <;> ring
  · exfalso
    have := not_almostZero_unit hl1
    rw [Plane.mk', this] at herr
    simp at herr

/-- the centroid of points on a plane is on it -/
theorem centroid_on {pl : Plane ℝ} {ps : List (V3 ℝ)} (hp : ps ≠ []) (h : ∀ p ∈ ps, OnPlane pl p) : OnPlane pl (centroid ps) := by
  have e : ∀ l : List (V3 ℝ), (∀ p ∈ l, OnPlane pl p) → inner3 (sum3 l) pl.n = l.length * inner3 pl.r0 pl.n := by
    intro l
    induction l with
    | nil => intro _; simp [sum3, zero3, inner3]
    | cons p l ih =>
      intro hl
      have h1 := ih fun q hq => hl q (List.mem_cons_of_mem _ hq)
      have h2 := hl p List.mem_cons_self
      rw [OnPlane] at h2
      simp only [sum3, List.length_cons, inner3, vec3, V3.add_x, V3.add_y, V3.add_z] at h1 h2 ⊢
      push_cast
      linarith
  have h1 := e ps h
  rw [sum3_centroid hp] at h1
  have hl : (ps.length : ℝ) ≠ 0 := by simpa using hp
  have h2 := mul_left_cancel₀ hl h1
  rw [OnPlane]
  simp only [inner3, vec3] at h2 ⊢
  linarith

/-- the covariance matrix of points on a plane takes the normal to zero -/
theorem cov_normal {pl : Plane ℝ} {ps : List (V3 ℝ)} (hp : 2 ≤ ps.length) (h : ∀ p ∈ ps, OnPlane pl p) (y : V3 ℝ) :
    inner3 y (act (covMat ps) pl.n) = 0 := by
  have hne : ps ≠ [] := by rintro rfl; simp at hp
  have hc := centroid_on hne h
  have hN : (0 : ℝ) < (ps.length : ℝ) - 1 := by
    have : (2 : ℝ) ≤ ps.length := by exact_mod_cast hp
    linarith
  have e : ∀ (k : ℝ) (y : V3 ℝ) (l : List (V3 ℝ)), (∀ p ∈ l, OnPlane pl p) →
      sqDistSum ⟨centroid ps, y + scale3 k pl.n⟩ l = sqDistSum ⟨centroid ps, y⟩ l := by
    intro k y l
    induction l with
    | nil => intro _; rfl
    | cons p l ih =>
      intro hl
      have h2 := hl p List.mem_cons_self
      have h3 : inner3 (vec3 (centroid ps) p) pl.n = 0 := by
        rw [OnPlane] at h2 hc
        simp only [inner3, vec3] at h2 hc ⊢
        linarith
      rw [sqDistSum, sqDistSum, ih fun q hq => hl q (List.mem_cons_of_mem _ hq)]
      congr 2
      have : height ⟨centroid ps, y + scale3 k pl.n⟩ p = height ⟨centroid ps, y⟩ p + k * inner3 (vec3 (centroid ps) p) pl.n := by
        simp [height, inner3, vec3, scale3]; ring
      rw [this, h3, mul_zero, add_zero]
  have q1 := e 1 y ps h
  have q2 := e (-1) y ps h
  rw [cov_quad hp, cov_quad hp] at q1 q2
  have r1 := mul_left_cancel₀ hN.ne' q1
  have r2 := mul_left_cancel₀ hN.ne' q2
  have hsym := act_symm (cov_symm ps) y pl.n
  have x : ∀ k : ℝ, inner3 (y + scale3 k pl.n) (act (covMat ps) (y + scale3 k pl.n)) =
      inner3 y (act (covMat ps) y) + k * (inner3 y (act (covMat ps) pl.n) + inner3 (act (covMat ps) y) pl.n) + k ^ 2 * inner3 pl.n (act (covMat ps) pl.n) := by
    intro k
    rw [act_add, act_scale]
    simp [inner3, scale3]; ring
  rw [x] at r1 r2
  linarith

theorem sum_heights (o t : V3 ℝ) (l : List (V3 ℝ)) : (l.map fun p => inner3 t (vec3 o p) ^ 2).sum = sqDistSum ⟨o, t⟩ l := by
  induction l with
  | nil => rfl
  | cons p l ih =>
    rw [List.map_cons, List.sum_cons, ih, sqDistSum]
    congr 2
    simp only [height, inner3]; ring

end NE
open NE

/-- **C157.** `fit_from_points` with orthonormal eigenvectors of a symmetric matrix that differs from the covariance matrix by at most `δ`: the plane
goes through the centroid, and no plane has a sum of squared distances that is smaller by more than `2 δ (n - 1)`. -/
theorem C157_fit (eig : Mat 3 3 ℝ → PyM ((Fin 3 → ℝ) × Mat 3 3 ℝ)) (argsort : (Fin 3 → ℝ) → List (Fin 3))
    (hs : ∀ w, IsArgsort w (argsort w)) (ps : List (V3 ℝ)) (hp : 2 ≤ ps.length) {δ : ℝ} (hδ : 0 ≤ δ)
    (heig : ∃ w v, eig (covMat ps) = .ok (w, v) ∧ NearEig δ (covMat ps) w v) :
    ∃ pl, Plane.fitFromPoints eig argsort ps = .ok pl ∧ pl.r0 = centroid ps ∧ UnitNormal pl ∧
      ∀ pl', UnitNormal pl' → sqDistSum pl ps ≤ sqDistSum pl' ps + 2 * δ * ((ps.length : ℝ) - 1) := by
  obtain ⟨w, v, he, A', hA, hc, hE, ho⟩ := heig
  obtain ⟨pl, x, hcall, hr, hu, hx, hmin⟩ := call hs hp he hA hE ho
  refine ⟨pl, hcall, hr, hu, fun pl' hu' => ?_⟩
  have hne : ps ≠ [] := by rintro rfl; simp at hp
  have hN : (0 : ℝ) ≤ (ps.length : ℝ) - 1 := by
    have : (2 : ℝ) ≤ ps.length := by exact_mod_cast hp
    linarith
  have e1 : sqDistSum pl ps = ((ps.length : ℝ) - 1) * inner3 pl.n (act (covMat ps) pl.n) := by
    have : pl = ⟨centroid ps, pl.n⟩ := Plane.ext hr rfl
    rw [this, cov_quad hp]
  have e2 := sqDist_shift pl'.n pl'.r0 (centroid ps) ps
  rw [sum3_centroid hne, sub_self, mul_zero, add_zero, cov_quad hp] at e2
  have e5 : 0 ≤ (ps.length : ℝ) * inner3 (vec3 pl'.r0 (centroid ps)) pl'.n ^ 2 := by positivity
  have n1 := (abs_le.mp (inner_act_near (covMat ps) A' hδ hc pl.n pl.n)).1
  have n2 := (abs_le.mp (inner_act_near (covMat ps) A' hδ hc pl'.n pl'.n)).2
  rw [show len3 pl.n = 1 from hu] at n1
  rw [show len3 pl'.n = 1 from hu'] at n2
  have n3 := hmin pl'.n
  rw [unit_inner hu', mul_one] at n3
  have n4 : inner3 pl.n (act A' pl.n) = x := by
    rw [hx]
    have : inner3 pl.n (scale3 x pl.n) = x * inner3 pl.n pl.n := by simp only [inner3, scale3]; ring
    rw [this, unit_inner hu, mul_one]
  have n5 : inner3 pl.n (act (covMat ps) pl.n) ≤ inner3 pl'.n (act (covMat ps) pl'.n) + 2 * δ := by linarith
  have : sqDistSum pl' ps = sqDistSum ⟨pl'.r0, pl'.n⟩ ps := rfl
  rw [this, e2, e1]
  have := mul_le_mul_of_nonneg_left n5 hN
  linarith

/-- **C157.** Points that lie on a plane and extend in it, with variance at least `σ > δ` in each of its directions: the points of that plane are near
the plane found, and the two normals are nearly the same up to sign, in proportion to `δ`. -/
theorem C157_flat (eig : Mat 3 3 ℝ → PyM ((Fin 3 → ℝ) × Mat 3 3 ℝ)) (argsort : (Fin 3 → ℝ) → List (Fin 3))
    (hs : ∀ w, IsArgsort w (argsort w)) (ps : List (V3 ℝ)) (hp : 2 ≤ ps.length) {σ δ : ℝ} (hδ : 0 ≤ δ) (hσ : δ < σ)
    (heig : ∃ w v, eig (covMat ps) = .ok (w, v) ∧ NearEig δ (covMat ps) w v) (pl0 : Plane ℝ) (h0 : UnitNormal pl0) (hon : ∀ p ∈ ps, OnPlane pl0 p)
    (hw : ∀ t, inner3 t pl0.n = 0 → ((ps.length : ℝ) - 1) * σ * inner3 t t ≤ (ps.map fun p => inner3 t (vec3 (centroid ps) p) ^ 2).sum) :
    ∃ pl, Plane.fitFromPoints eig argsort ps = .ok pl ∧
      (∀ q, OnPlane pl0 q → |height pl q| ≤ δ / (σ - δ) * dist3 (centroid ps) q) ∧ 1 - (δ / (σ - δ)) ^ 2 ≤ inner3 pl.n pl0.n ^ 2 := by
  obtain ⟨w, v, he, A', hA, hc, hE, ho⟩ := heig
  obtain ⟨pl, x, hcall, hr, hu, hx, hmin⟩ := call hs hp he hA hE ho
  have hne : ps ≠ [] := by rintro rfl; simp at hp
  have hN : (0 : ℝ) < (ps.length : ℝ) - 1 := by
    have : (2 : ℝ) ≤ ps.length := by exact_mod_cast hp
    linarith
  have hm := unit_inner h0
  have hn := unit_inner hu
  obtain ⟨a, ha⟩ : ∃ a, a = inner3 pl.n pl0.n := ⟨_, rfl⟩
  obtain ⟨t, ht⟩ : ∃ t, t = pl.n + scale3 (-a) pl0.n := ⟨_, rfl⟩
  have htm : inner3 t pl0.n = 0 := by
    have : inner3 t pl0.n = inner3 pl.n pl0.n - a * inner3 pl0.n pl0.n := by rw [ht]; simp [inner3, scale3]; ring
    rw [this, hm, ha]; ring
  have htt : inner3 t t = 1 - a ^ 2 := by
    have : inner3 t t = inner3 pl.n pl.n - 2 * a * inner3 pl.n pl0.n + a ^ 2 * inner3 pl0.n pl0.n := by rw [ht]; simp [inner3, scale3]; ring
    rw [this, hm, hn, ← ha]; ring
  have htn : inner3 t pl.n = inner3 t t := by
    have : inner3 t pl.n = inner3 pl.n pl.n - a * inner3 pl.n pl0.n := by rw [ht]; simp [inner3, scale3]; ring
    rw [this, hn, htt, ← ha]; ring
  -- the smallest eigenvalue
  have hx1 : x ≤ δ := by
    have n2 := (abs_le.mp (inner_act_near (covMat ps) A' hδ hc pl0.n pl0.n)).2
    rw [show len3 pl0.n = 1 from h0, cov_normal hp hon] at n2
    have n3 := hmin pl0.n
    rw [hm, mul_one] at n3
    linarith
  have k1 : inner3 t (act A' pl.n) = x * inner3 t t := by
    rw [hx, ← htn]
    simp only [inner3, scale3]; ring
  have k2 : inner3 t (act (covMat ps) pl.n) = inner3 t (act (covMat ps) t) := by
    have e : pl.n = t + scale3 a pl0.n := by rw [ht]; ext <;> simp [scale3]
    conv_lhs => rw [e, act_add, act_scale]
    have := cov_normal hp hon t
    have e2 : inner3 t (act (covMat ps) t + scale3 a (act (covMat ps) pl0.n)) =
        inner3 t (act (covMat ps) t) + a * inner3 t (act (covMat ps) pl0.n) := by simp [inner3, scale3]; ring
    rw [e2, this, mul_zero, add_zero]
  have k3 : σ * inner3 t t ≤ inner3 t (act (covMat ps) t) := by
    have := hw t htm
    rw [sum_heights, cov_quad hp] at this
    have h' : ((ps.length : ℝ) - 1) * (σ * inner3 t t) ≤ ((ps.length : ℝ) - 1) * inner3 t (act (covMat ps) t) := by linarith
    exact le_of_mul_le_mul_left h' hN
  have k4 := (abs_le.mp (inner_act_near (covMat ps) A' hδ hc t pl.n)).1
  rw [show len3 pl.n = 1 from hu, mul_one, k1, k2] at k4
  have hts : inner3 t t = len3 t ^ 2 := inner3_self t
  have hpos : 0 < σ - δ := by linarith
  have hb : len3 t ≤ δ / (σ - δ) := by
    rw [le_div_iff₀ hpos]
    rcases (len3_nonneg t).eq_or_lt with e | hlt
    · rw [← e, zero_mul]; exact hδ
    · have h1 : (σ - δ) * inner3 t t ≤ δ * len3 t := by
        have := mul_le_mul_of_nonneg_right hx1 (hts ▸ sq_nonneg (len3 t) : 0 ≤ inner3 t t)
        linarith
      rw [hts] at h1
      have h2 : len3 t * (len3 t * (σ - δ)) ≤ len3 t * δ := by nlinarith
      exact le_of_mul_le_mul_left h2 hlt
  refine ⟨pl, hcall, fun q hq => ?_, ?_⟩
  · have hco := centroid_on hne hon
    have e : height pl q = inner3 t (vec3 (centroid ps) q) := by
      have h1 : inner3 (vec3 (centroid ps) q) pl0.n = 0 := by
        rw [OnPlane] at hq hco
        simp only [inner3, vec3] at hq hco ⊢
        linarith
      have h2 : inner3 t (vec3 (centroid ps) q) = inner3 (vec3 (centroid ps) q) pl.n - a * inner3 (vec3 (centroid ps) q) pl0.n := by
        rw [ht]; simp [inner3, scale3]; ring
      rw [h2, h1, mul_zero, sub_zero, height, hr]
    rw [e]
    exact (abs_inner3_le t _).trans (mul_le_mul_of_nonneg_right hb (len3_nonneg _))
  · have := pow_le_pow_left₀ (len3_nonneg t) hb 2
    rw [← hts, htt] at this
    rw [← ha]
    linarith

/-- **C157.** Non-vacuity: the corners of a square, with a smallest eigenvalue that is off by a thousandth. -/
theorem C157_witness : ∃ (eig : Mat 3 3 ℝ → PyM ((Fin 3 → ℝ) × Mat 3 3 ℝ)) (argsort : (Fin 3 → ℝ) → List (Fin 3)),
    (∀ w, IsArgsort w (argsort w)) ∧
    (∃ w v, eig (covMat [⟨0, 0, 0⟩, ⟨1, 0, 0⟩, ⟨1, 1, 0⟩, ⟨0, 1, 0⟩]) = .ok (w, v) ∧
      NearEig (1 / 1000) (covMat [⟨0, 0, 0⟩, ⟨1, 0, 0⟩, ⟨1, 1, 0⟩, ⟨0, 1, 0⟩]) w v ∧ ¬ EigSpec (covMat [⟨0, 0, 0⟩, ⟨1, 0, 0⟩, ⟨1, 1, 0⟩, ⟨0, 1, 0⟩]) w v) ∧
    UnitNormal ⟨⟨0, 0, 0⟩, ⟨0, 0, 1⟩⟩ ∧ (∀ p ∈ [(⟨0, 0, 0⟩ : V3 ℝ), ⟨1, 0, 0⟩, ⟨1, 1, 0⟩, ⟨0, 1, 0⟩], OnPlane ⟨⟨0, 0, 0⟩, ⟨0, 0, 1⟩⟩ p) ∧
    ∀ t : V3 ℝ, inner3 t ⟨0, 0, 1⟩ = 0 → (((4 : ℕ) : ℝ) - 1) * (1 / 3) * inner3 t t ≤
      ([(⟨0, 0, 0⟩ : V3 ℝ), ⟨1, 0, 0⟩, ⟨1, 1, 0⟩, ⟨0, 1, 0⟩].map fun p =>
        inner3 t (vec3 (centroid [⟨0, 0, 0⟩, ⟨1, 0, 0⟩, ⟨1, 1, 0⟩, ⟨0, 1, 0⟩]) p) ^ 2).sum := by
  obtain ⟨-, argsort, hs, -⟩ := C32_satisfiable
  have hcov : covMat [(⟨0, 0, 0⟩ : V3 ℝ), ⟨1, 0, 0⟩, ⟨1, 1, 0⟩, ⟨0, 1, 0⟩] = !![1 / 3, 0, 0; 0, 1 / 3, 0; 0, 0, 0] := by
    ext i j
    fin_cases i <;> fin_cases j <;> simp [covMat, sumOver, meanPts_real, centroid, sum3, scale3, zero3] <;> norm_num
  refine ⟨fun _ => .ok (![1 / 3, 1 / 3, 1 / 1000], 1), argsort, hs, ⟨_, _, rfl, ⟨!![1 / 3, 0, 0; 0, 1 / 3, 0; 0, 0, 1 / 1000], ?_, ?_, ⟨?_, ?_, ?_⟩, ?_⟩, ?_⟩,
    ?_, ?_, ?_⟩
  · ext i j
    fin_cases i <;> fin_cases j <;> simp
  · rw [hcov]
    simp [sqEntries, Fin.sum_univ_three]
  · intro i
    fin_cases i <;> rw [act_eq] <;> simp [column, scale3]
  · have e : ∀ v : V3 ℝ, inner3 v v = 1 → len3 v = 1 := fun v h => by rw [← Real.sqrt_sq (len3_nonneg v), ← inner3_self, h, Real.sqrt_one]
    have h0 : column (1 : Mat 3 3 ℝ) 0 = ⟨1, 0, 0⟩ := by ext <;> simp [column]
    have h1 : column (1 : Mat 3 3 ℝ) 1 = ⟨0, 1, 0⟩ := by ext <;> simp [column]
    have h2 : column (1 : Mat 3 3 ℝ) 2 = ⟨0, 0, 1⟩ := by ext <;> simp [column]
    refine Fin.forall_fin_succ.2 ⟨?_, Fin.forall_fin_succ.2 ⟨?_, Fin.forall_fin_succ.2 ⟨?_, fun i => i.elim0⟩⟩⟩
    · exact e _ (by rw [h0]; simp [inner3])
    · exact e _ (by rw [show (Fin.succ 0 : Fin 3) = 1 from rfl, h1]; simp [inner3])
    · exact e _ (by rw [show (Fin.succ (Fin.succ 0) : Fin 3) = 2 from rfl, h2]; simp [inner3])
  · simp
  · simp
  · intro h
    have := h.eigen 2
    rw [hcov, act_eq] at this
    simp [column, scale3] at this
  · show len3 _ = 1
    rw [← Real.sqrt_sq (len3_nonneg _), ← inner3_self]
    simp [inner3]
  · intro p hp
    simp only [List.mem_cons, List.not_mem_nil, or_false] at hp
    rcases hp with rfl | rfl | rfl | rfl <;> simp [OnPlane, inner3, vec3]
  · intro t ht
    simp [inner3] at ht
    simp [inner3, vec3, centroid, sum3, scale3, zero3, ht]
    nlinarith

end Blmath.Props
