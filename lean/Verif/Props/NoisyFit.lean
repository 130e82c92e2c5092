import Verif.Props.NearSvd
import Verif.Proofs.Polyline

/-!
Property C158: rigid fits of points that were moved and measured with errors.
-/

namespace Blmath.Props
open Blmath.Geometry Blmath.Spec NS

namespace NF

/-- the triangle inequality -/
theorem root_add (X Y : Mat 3 3 ℝ) : √(sqEntries (X + Y)) ≤ √(sqEntries X) + √(sqEntries Y) := by
  have h1 := trace_near X Y.transpose (Real.sqrt_nonneg (sqEntries Y)) (by
    rw [Real.sq_sqrt (sqE_nonneg Y)]
    refine le_of_eq ?_
    unfold sqEntries
    rw [Finset.sum_comm]
    rfl)
  have h2 : sqEntries (X + Y) = sqEntries X + sqEntries Y + 2 * Matrix.trace (X * Y.transpose) := by
    simp only [sqEntries, Fin.sum_univ_three, Matrix.trace, Matrix.diag_apply, Matrix.mul_apply, Matrix.transpose_apply, Matrix.add_apply]; ring
  have h3 : sqEntries (X + Y) ≤ (√(sqEntries X) + √(sqEntries Y)) ^ 2 := by
    rw [h2, add_sq, Real.sq_sqrt (sqE_nonneg X), Real.sq_sqrt (sqE_nonneg Y)]
    linarith
  rw [← Real.sqrt_sq (add_nonneg (Real.sqrt_nonneg (sqEntries X)) (Real.sqrt_nonneg (sqEntries Y)))]
  exact Real.sqrt_le_sqrt h3

theorem near_add {X Y : Mat 3 3 ℝ} {a b : ℝ} (ha : 0 ≤ a) (hb : 0 ≤ b) (hX : sqEntries X ≤ a ^ 2) (hY : sqEntries Y ≤ b ^ 2) : sqEntries (X + Y) ≤ (a + b) ^ 2 := by
  have h1 : √(sqEntries X) ≤ a := by rw [← Real.sqrt_sq ha]; exact Real.sqrt_le_sqrt hX
  have h2 : √(sqEntries Y) ≤ b := by rw [← Real.sqrt_sq hb]; exact Real.sqrt_le_sqrt hY
  rw [← Real.sq_sqrt (sqE_nonneg (X + Y))]
  exact pow_le_pow_left₀ (Real.sqrt_nonneg _) ((root_add X Y).trans (add_le_add h1 h2)) 2

theorem sqLens_nonneg : ∀ l, 0 ≤ sqLens l
  | [] => le_rfl
  | p :: l => by
    have := sqLens_nonneg l
    rw [sqLens, inner3_self]; positivity

theorem two_roots {a b x y : ℝ} (ha : 0 ≤ a) (hb : 0 ≤ b) (hx : 0 ≤ x) (hy : 0 ≤ y) : (√(a * b) + √(x * y)) ^ 2 ≤ (a + x) * (b + y) := by
  have h : 2 * (√(a * b) * √(x * y)) ≤ a * y + x * b := by
    rw [← Real.sqrt_mul (mul_nonneg ha hb)]
    have e : a * b * (x * y) ≤ ((a * y + x * b) / 2) ^ 2 := by nlinarith [sq_nonneg (a * y - x * b)]
    have := Real.sqrt_le_sqrt e
    rw [Real.sqrt_sq (by positivity)] at this
    linarith
  rw [add_sq, Real.sq_sqrt (mul_nonneg ha hb), Real.sq_sqrt (mul_nonneg hx hy)]
  linarith

/-- the products change by no more than the lengths and the errors allow -/
theorem outer_near : ∀ l L L' : List (V3 ℝ), l.length = L.length → l.length = L'.length →
    sqEntries (outerSum l L - outerSum l L') ≤ sqLens l * sqResid (fun p => p) L' L
  | [], [], [], _, _ => by simp [sqEntries, sqLens]
  | p :: l, q :: L, q' :: L', h, h' => by
    have ih := outer_near l L L' (by simpa using h) (by simpa using h')
    obtain ⟨P, hP⟩ : ∃ P : Mat 3 3 ℝ, P = !![p.x * (q.x - q'.x), p.x * (q.y - q'.y), p.x * (q.z - q'.z); p.y * (q.x - q'.x), p.y * (q.y - q'.y), p.y * (q.z - q'.z);
      p.z * (q.x - q'.x), p.z * (q.y - q'.y), p.z * (q.z - q'.z)] := ⟨_, rfl⟩
    have e : outerSum (p :: l) (q :: L) - outerSum (p :: l) (q' :: L') = (outerSum l L - outerSum l L') + P := by
      rw [outerSum, outerSum, Mat.add_real, Mat.add_real, hP]
      ext i j
      fin_cases i <;> fin_cases j <;> simp <;> ring
    have e2 : sqEntries P = inner3 p p * dist3 q' q ^ 2 := by
      unfold dist3
      rw [← inner3_self, hP]
      simp [sqEntries, Fin.sum_univ_three, inner3, vec3]; ring
    have hl := sqLens_nonneg l
    have hr := sqResid_nonneg (fun p => p) L' L
    have hpp : 0 ≤ inner3 p p := by rw [inner3_self]; positivity
    rw [e, sqLens, sqResid]
    have h1 : sqEntries (outerSum l L - outerSum l L') ≤ √(sqLens l * sqResid (fun p => p) L' L) ^ 2 := by
      rw [Real.sq_sqrt (mul_nonneg hl hr)]; exact ih
    have h2 : sqEntries P ≤ √(inner3 p p * dist3 q' q ^ 2) ^ 2 := by
      rw [Real.sq_sqrt (mul_nonneg hpp (sq_nonneg _))]; exact e2.le
    refine (near_add (Real.sqrt_nonneg _) (Real.sqrt_nonneg _) h1 h2).trans ?_
    have := two_roots hl hr hpp (sq_nonneg (dist3 q' q))
    linarith
  | [], q :: L, _, h, _ => by simp at h
  | [], [], q :: L', _, h => by simp at h
  | p :: l, [], _, h, _ => by simp at h
  | p :: l, q :: L, [], _, h => by simp at h

theorem resid_map (f : V3 ℝ → V3 ℝ) : ∀ ps qs, sqResid (fun p => p) (ps.map f) qs = sqResid f ps qs
  | [], _ => by simp [sqResid]
  | p :: ps, [] => by simp [sqResid]
  | p :: ps, q :: qs => by rw [List.map_cons, sqResid, sqResid, resid_map f ps qs]

/-- moving all of the second points changes the products only by the sum of the first -/
theorem outer_shift (k : V3 ℝ) : ∀ l L : List (V3 ℝ), l.length = L.length →
    outerSum l (L.map (· - k)) = outerSum l L - !![(sum3 l).x * k.x, (sum3 l).x * k.y, (sum3 l).x * k.z; (sum3 l).y * k.x, (sum3 l).y * k.y, (sum3 l).y * k.z;
      (sum3 l).z * k.x, (sum3 l).z * k.y, (sum3 l).z * k.z]
  | [], [], _ => by
    ext i j
    fin_cases i <;> fin_cases j <;> simp [outerSum, sum3, zero3, Matrix.vecHead, Matrix.vecTail]
  | p :: l, q :: L, h => by
    rw [List.map_cons, outerSum, outerSum, outer_shift k l L (by simpa using h), Mat.add_real, Mat.add_real]
    ext i j
    fin_cases i <;> fin_cases j <;> simp [sum3] <;> ring
  | [], q :: L, h => by simp at h
  | p :: l, [], h => by simp at h

theorem cov_plain {ps qs : List (V3 ℝ)} (hl : ps.length = qs.length) (hp : ps ≠ []) : crossCov ps qs = outerSum (ps.map (· - centroid ps)) qs := by
  rw [← crossCov_eq hl, outer_shift _ _ _ (by simpa using hl), sum3_centred hp]
  ext i j
  fin_cases i <;> fin_cases j <;> simp [zero3]

theorem lens_centred (o : V3 ℝ) (ps : List (V3 ℝ)) : sqLens (ps.map (· - o)) = (ps.map fun p => dist3 o p ^ 2).sum := by
  induction ps with
  | nil => rfl
  | cons p ps ih =>
    simp only [List.map_cons, sqLens, ih, List.sum_cons]
    congr 1
    unfold dist3
    rw [← inner3_self]
    rfl

/-- the cross-covariance matrix of measured points is near that of the moved ones -/
theorem cov_near {ps qs : List (V3 ℝ)} (hl : ps.length = qs.length) (hp : ps ≠ []) (R0 : Mat 3 3 ℝ) (T0 : V3 ℝ) :
    sqEntries (crossCov ps qs - crossCov ps (ps.map (move R0 T0))) ≤ (ps.map fun p => dist3 (centroid ps) p ^ 2).sum * sqResid (move R0 T0) ps qs := by
  rw [cov_plain hl hp, cov_plain (by simp) hp, ← lens_centred, ← resid_map]
  exact outer_near _ _ _ (by simpa using hl) (by simp)

/-- the centroids are as near as the mean error -/
theorem centroid_near {ps qs : List (V3 ℝ)} (hl : ps.length = qs.length) (hp : ps ≠ []) (R0 : Mat 3 3 ℝ) (T0 : V3 ℝ) :
    dist3 (centroid qs) (move R0 T0 (centroid ps)) ≤ √(sqResid (move R0 T0) ps qs / ps.length) := by
  have h := residual_centred (R := R0) (T := T0) hl hp
  have hn := sqResid_nonneg (act R0) (ps.map (· - centroid ps)) (qs.map (· - centroid qs))
  have hpos : (0 : ℝ) < ps.length := by exact_mod_cast List.length_pos_of_ne_nil hp
  apply Real.le_sqrt_of_sq_le
  rw [le_div_iff₀ hpos]
  unfold dist3
  linarith

end NF
open NF

/-- **C158.** Points that extend in all directions, and second points that are the first, moved by a rigid motion, up to errors; `r` is the sum of the
squared errors and `S` that of the distances from the centroid.  If `σ` is greater than `δ + √(S r)`, `find_rigid_transform`, with a decomposition within
`δ`, raises nothing, and finds a motion near the true one, in proportion to the errors. -/
theorem C158_transform (svd : Svd3 ℝ) (a b : Grid ℝ) (ps qs : List (V3 ℝ)) (hl : ps.length = qs.length) (hp : ps ≠ [])
    (R0 : Matrix (Fin 3) (Fin 3) ℝ) (T0 : V3 ℝ) (h0 : IsRotation R0) (ha : Given a ps) (hb : Given b qs) {σ δ ε : ℝ} (hδ : 0 ≤ δ)
    (hw : Wide σ (centroid ps) ps)
    (hε : ε = δ + √((ps.map fun p => dist3 (centroid ps) p ^ 2).sum * sqResid (move R0 T0) ps qs)) (hσ : ε < σ)
    (hsvd : ∃ u s v, svd (crossCov ps qs) = .ok (u, s, v) ∧ NearSvd δ (crossCov ps qs) u s v) :
    ∃ R T, findRigidTransform svd a b = .ok (R, T) ∧ IsRotation R ∧
      (∀ w, dist3 (act R w) (act R0 w) ≤ 2 * ε / σ * len3 w) ∧
      ∀ x, dist3 (move R T x) (move R0 T0 x) ≤ 2 * ε / σ * dist3 (centroid ps) x + √(sqResid (move R0 T0) ps qs / ps.length) := by
  obtain ⟨u, s, v, hs, c', hc', hS⟩ := hsvd
  have hS0 : 0 ≤ (ps.map fun p => dist3 (centroid ps) p ^ 2).sum := by rw [← lens_centred]; exact sqLens_nonneg _
  have hε0 : 0 ≤ ε := by rw [hε]; positivity
  have hc : sqEntries (c' - outerSum (ps.map (· - centroid ps)) ((ps.map (· - centroid ps)).map (act R0))) ≤ ε ^ 2 := by
    rw [← moved_cov (T0 := T0) hp, hε]
    have e : c' - crossCov ps (ps.map (move R0 T0)) = (c' - crossCov ps qs) + (crossCov ps qs - crossCov ps (ps.map (move R0 T0))) := by abel
    rw [e]
    refine near_add hδ (Real.sqrt_nonneg _) hc' ?_
    rw [Real.sq_sqrt (mul_nonneg hS0 (sqResid_nonneg _ _ _))]
    exact cov_near hl hp R0 T0
  have hd := moved_det hε0 hσ (wide_centred hw) h0 hc
  obtain ⟨R, hR, hrot, hbest⟩ := (fit_near hs hS).2 hd.le
  have hclose := fit_close (lt_of_le_of_lt hε0 hσ) hε0 (wide_centred hw) hrot.1 h0.1 hc (hbest R0 h0.1)
  have hvec : ∀ w, dist3 (act R w) (act R0 w) ≤ 2 * ε / σ * len3 w := fun w =>
    (act_near R R0 w).trans (mul_le_mul_of_nonneg_right hclose (len3_nonneg w))
  refine ⟨R, _, by rw [find_eq ha hb hl, hR]; rfl, hrot, hvec, fun x => ?_⟩
  have h1 := hvec (vec3 (centroid ps) x)
  have h2 := centroid_near hl hp R0 T0
  have e : vec3 (move R (centroid qs - act R (centroid ps)) x) (move R0 T0 x) =
      vec3 (act R (vec3 (centroid ps) x)) (act R0 (vec3 (centroid ps) x)) + vec3 (centroid qs) (move R0 T0 (centroid ps)) := by
    simp only [vec3, move, act_eq]
    ext <;> simp <;> ring
  have h3 : dist3 (move R (centroid qs - act R (centroid ps)) x) (move R0 T0 x) ≤
      dist3 (act R (vec3 (centroid ps) x)) (act R0 (vec3 (centroid ps) x)) + dist3 (centroid qs) (move R0 T0 (centroid ps)) := by
    unfold dist3
    rw [e]
    exact Proofs.len3_add_le _ _
  have h4 : len3 (vec3 (centroid ps) x) = dist3 (centroid ps) x := rfl
  rw [h4] at h1
  linarith

/-- **C158.** The same for `find_rigid_rotation`, of points that extend in all directions from the origin: it finds a rotation near the true one, in
proportion to the errors. -/
theorem C158_rotation (svd : Svd3 ℝ) (a b : Grid ℝ) (ps qs : List (V3 ℝ)) (hl : ps.length = qs.length) (h1 : ps.length ≠ 1)
    (R0 : Matrix (Fin 3) (Fin 3) ℝ) (h0 : IsRotation R0) (ha : HasColumns a ps) (hb : HasColumns b qs) {σ δ ε : ℝ} (hδ : 0 ≤ δ) (hσ : 0 < σ)
    (hw : Wide σ zero3 ps) (hε : ε = δ + √((ps.map fun p => len3 p ^ 2).sum * sqResid (act R0) ps qs))
    (hsvd : ∃ u s v, svd (moments ps qs) = .ok (u, s, v) ∧ NearSvd δ (moments ps qs) u s v) :
    ∃ R, findRigidRotation svd a b false = .ok R ∧ IsRotation R ∧ ∀ w, dist3 (act R w) (act R0 w) ≤ 2 * ε / σ * len3 w := by
  obtain ⟨u, s, v, hs, c', hc', hS⟩ := hsvd
  obtain ⟨R, hR, hrot, hbest⟩ := fit_near' hs hS
  have hlen : sqLens ps = (ps.map fun p => len3 p ^ 2).sum := by
    clear * -
    induction ps with
    | nil => rfl
    | cons p ps ih => rw [sqLens, ih, List.map_cons, List.sum_cons, inner3_self]
  have hS0 : 0 ≤ (ps.map fun p => len3 p ^ 2).sum := by rw [← hlen]; exact sqLens_nonneg _
  have hε0 : 0 ≤ ε := by rw [hε]; positivity
  have hc : sqEntries (c' - outerSum ps (ps.map (act R0))) ≤ ε ^ 2 := by
    rw [← Proofs.RS.moments_eq hl] at hc'
    have e : c' - outerSum ps (ps.map (act R0)) = (c' - outerSum ps qs) + (outerSum ps qs - outerSum ps (ps.map (act R0))) := by abel
    rw [e, hε]
    refine near_add hδ (Real.sqrt_nonneg _) hc' ?_
    rw [Real.sq_sqrt (mul_nonneg hS0 (sqResid_nonneg _ _ _)), ← hlen, ← resid_map]
    exact outer_near _ _ _ hl (by simp)
  refine ⟨R, ?_, hrot, fun w => ?_⟩
  · unfold findRigidRotation
    rw [cols3_eq ha, cols3_eq hb]
    simp only [ok_bind, addCross_many h1, dotT, if_pos hl, Proofs.RS.moments_eq hl, hR]
    rfl
  · have hclose := fit_close hσ hε0 (wide_origin hw) hrot.1 h0.1 hc (hbest R0 h0)
    exact (act_near R R0 w).trans (mul_le_mul_of_nonneg_right hclose (len3_nonneg w))

/-- **C158.** Non-vacuity: the corners of an octahedron, turned by a quarter, one of them measured a tenth too far out. -/
theorem C158_witness : ∃ (a b : Grid ℝ) (R0 : Matrix (Fin 3) (Fin 3) ℝ) (svd : Svd3 ℝ) (ps qs : List (V3 ℝ)), IsRotation R0 ∧ HasColumns a ps ∧ HasColumns b qs ∧
    ps.length = qs.length ∧ ps.length = 6 ∧ centroid ps = zero3 ∧ Wide 2 (centroid ps) ps ∧ 0 < sqResid (move R0 zero3) ps qs ∧
    0 + √((ps.map fun p => dist3 (centroid ps) p ^ 2).sum * sqResid (move R0 zero3) ps qs) < 2 ∧
    ∀ c, ∃ u s v, svd c = .ok (u, s, v) ∧ NearSvd 0 c u s v := by
  obtain ⟨svd, h⟩ := C58_satisfiable
  have hc : centroid [(⟨1, 0, 0⟩ : V3 ℝ), ⟨-1, 0, 0⟩, ⟨0, 1, 0⟩, ⟨0, -1, 0⟩, ⟨0, 0, 1⟩, ⟨0, 0, -1⟩] = zero3 := by
    ext <;> simp [centroid, sum3, scale3, zero3]
  have hr : sqResid (move !![0, -1, 0; 1, 0, 0; 0, 0, 1] zero3) [(⟨1, 0, 0⟩ : V3 ℝ), ⟨-1, 0, 0⟩, ⟨0, 1, 0⟩, ⟨0, -1, 0⟩, ⟨0, 0, 1⟩, ⟨0, 0, -1⟩]
      [⟨0, 11 / 10, 0⟩, ⟨0, -1, 0⟩, ⟨-1, 0, 0⟩, ⟨1, 0, 0⟩, ⟨0, 0, 1⟩, ⟨0, 0, -1⟩] = 1 / 100 := by
    simp only [sqResid, dist3, ← inner3_self]
    simp [inner3, vec3, move, act_eq, zero3]
    norm_num
  refine ⟨⟨3, 6, fun i j => if j = 2 * i then 1 else if j = 2 * i + 1 then -1 else 0⟩,
    ⟨3, 6, fun i j => if i = 1 ∧ j = 0 then 11 / 10 else if (i = 0 ∧ j = 3) ∨ (i = 2 ∧ j = 4) then 1 else if (i = 1 ∧ j = 1) ∨ (i = 0 ∧ j = 2) ∨ (i = 2 ∧ j = 5) then -1 else 0⟩,
    !![0, -1, 0; 1, 0, 0; 0, 0, 1], svd, [⟨1, 0, 0⟩, ⟨-1, 0, 0⟩, ⟨0, 1, 0⟩, ⟨0, -1, 0⟩, ⟨0, 0, 1⟩, ⟨0, 0, -1⟩],
    [⟨0, 11 / 10, 0⟩, ⟨0, -1, 0⟩, ⟨-1, 0, 0⟩, ⟨1, 0, 0⟩, ⟨0, 0, 1⟩, ⟨0, 0, -1⟩], ⟨?_, ?_⟩, ⟨rfl, rfl, fun j p hj => ?_⟩, ⟨rfl, rfl, fun j p hj => ?_⟩, rfl, rfl, hc,
    fun w => ?_, by rw [hr]; norm_num, ?_, fun c => ?_⟩
  · ext i j
    fin_cases i <;> fin_cases j <;> simp [Matrix.mul_apply, Fin.sum_univ_three]
  · simp [Matrix.det_fin_three]
  · match j with
    | 0 => simp at hj; simp [← hj]
    | 1 => simp at hj; simp [← hj]
    | 2 => simp at hj; simp [← hj]
    | 3 => simp at hj; simp [← hj]
    | 4 => simp at hj; simp [← hj]
    | 5 => simp at hj; simp [← hj]
    | j + 6 => simp at hj
  · match j with
    | 0 => simp at hj; simp [← hj]
    | 1 => simp at hj; simp [← hj]
    | 2 => simp at hj; simp [← hj]
    | 3 => simp at hj; simp [← hj]
    | 4 => simp at hj; simp [← hj]
    | 5 => simp at hj; simp [← hj]
    | j + 6 => simp at hj
  · rw [hc]
    simp [inner3, vec3, zero3]
    nlinarith
  · rw [hr, hc, zero_add, Real.sqrt_lt' (by norm_num)]
    simp only [List.map_cons, List.map_nil, List.sum_cons, List.sum_nil, dist3, ← inner3_self]
    simp [inner3, vec3, zero3]
    norm_num
  · obtain ⟨u, s, v, e, hS⟩ := h c
    refine ⟨u, s, v, e, c, ?_, hS⟩
    rw [sub_self]
    simp [sqEntries]

end Blmath.Props
