import Verif.Proofs.RdOps
import Verif.Proofs.FloatError
import Verif.Proofs.Plane
import Verif.Spec.FloatPlane

/-!
Properties C80 and C81: what the vector operations and planes compute in rounded arithmetic.

`rnd` is any rounding with relative error at most `u` (`Spec.Rounding`); binary rounding to 53 bits is one, with
`u = 2^-53` (`rounding_rnd53`).
-/

namespace Blmath.Props
open Blmath.Spec Blmath.Vx Blmath.Geometry
variable {rnd : ℝ → ℝ} {u : ℝ}

/-! ### C80: normalisation -/

theorem normalize3_factor (h : Rounding rnd u) (v : V3 (Rd rnd)) (c : Rd rnd) :
    ∃ t, Near u 4 t ∧ (c / v.norm).val = c.val / len3 (Rd.vec v) * t := by
  obtain ⟨t, ht, e⟩ := norm_rd h v
  obtain ⟨d, hd, ed⟩ := h.factor (c.val / v.norm.val)
  refine ⟨t⁻¹ * d, (ht.inv h.lt_one).mul h.lt_one hd, ?_⟩
  rw [Rd.val_div, ed, e, ← div_div, div_eq_mul_inv _ t]
  ring

theorem factor_err {k : ℕ} (h : Rounding rnd u) (hk : k * u < 1) {t x : ℝ} (ht : Near u k t) :
    |x * t - x| ≤ gam u k * |x| := by
  rw [show x * t - x = (t - 1) * x by ring, abs_mul]
  exact mul_le_mul_of_nonneg_right (ht.gam_bound h.nonneg hk h.lt_one) (abs_nonneg x)

/-- **C80.** The components of a normalised 3-vector have relative error at most `gam u 4`. -/
theorem C80_components (h : Rounding rnd u) (hu : 4 * u < 1) (v : V3 (Rd rnd)) (_hv : Rd.vec v ≠ zero3) :
    |(normalize3 v).x.val - v.x.val / len3 (Rd.vec v)| ≤ gam u 4 * |v.x.val / len3 (Rd.vec v)| ∧
    |(normalize3 v).y.val - v.y.val / len3 (Rd.vec v)| ≤ gam u 4 * |v.y.val / len3 (Rd.vec v)| ∧
    |(normalize3 v).z.val - v.z.val / len3 (Rd.vec v)| ≤ gam u 4 * |v.z.val / len3 (Rd.vec v)| := by
  have hu' : ((4 : ℕ) : ℝ) * u < 1 := by exact_mod_cast hu
  have key : ∀ c : Rd rnd, |(c / v.norm).val - c.val / len3 (Rd.vec v)| ≤ gam u 4 * |c.val / len3 (Rd.vec v)| := by
    intro c
    obtain ⟨t, ht, e⟩ := normalize3_factor h v c
    rw [e]
    exact factor_err h hu' ht
  exact ⟨key _, key _, key _⟩

theorem len_near {k : ℕ} {a b c t1 t2 t3 : ℝ} (h : Rounding rnd u) (h1 : Near u k t1) (h2 : Near u k t2) (h3 : Near u k t3) :
    ∃ t, Near u k t ∧ Real.sqrt ((a * t1) ^ 2 + (b * t2) ^ 2 + (c * t3) ^ 2) = Real.sqrt (a ^ 2 + b ^ 2 + c ^ 2) * t := by
  have sq : ∀ {t}, Near u k t → Near u (2 * k) (t ^ 2) := by
    intro t ht
    rw [pow_two, two_mul]; exact ht.mul h.lt_one ht
  obtain ⟨t4, h4, e4⟩ := Near.add (sq_nonneg a) (sq_nonneg b) (sq h1) (sq h2)
  obtain ⟨t5, h5, e5⟩ := Near.add (add_nonneg (sq_nonneg a) (sq_nonneg b)) (sq_nonneg c) h4 (sq h3)
  refine ⟨Real.sqrt t5, h5.sqrt h.lt_one, ?_⟩
  rw [← Real.sqrt_mul (by positivity), ← e5, ← e4]
  congr 1; ring

theorem normalize3_len (h : Rounding rnd u) (v : V3 (Rd rnd)) (hv : Rd.vec v ≠ zero3) :
    Near u 4 (len3 (Rd.vec (normalize3 v))) := by
  obtain ⟨t1, h1, e1⟩ := normalize3_factor h v v.x
  obtain ⟨t2, h2, e2⟩ := normalize3_factor h v v.y
  obtain ⟨t3, h3, e3⟩ := normalize3_factor h v v.z
  obtain ⟨t, ht, e⟩ := len_near (a := v.x.val / len3 (Rd.vec v)) (b := v.y.val / len3 (Rd.vec v))
    (c := v.z.val / len3 (Rd.vec v)) h h1 h2 h3
  have hp := len3_pos hv
  have h1' : (v.x.val / len3 (Rd.vec v)) ^ 2 + (v.y.val / len3 (Rd.vec v)) ^ 2 + (v.z.val / len3 (Rd.vec v)) ^ 2 = 1 := by
    have := len3_sq (Rd.vec v)
    simp only [Rd.vec_x, Rd.vec_y, Rd.vec_z] at this
    field_simp
    linarith
  rw [h1', Real.sqrt_one, one_mul] at e
  have : len3 (Rd.vec (normalize3 v)) = t := by
    rw [← e, ← e1, ← e2, ← e3]; rfl
  rw [this]; exact ht

/-- **C80.** The length of a normalised nonzero 3-vector is 1 up to `gam u 4`. -/
theorem C80_length (h : Rounding rnd u) (hu : 4 * u < 1) (v : V3 (Rd rnd)) (hv : Rd.vec v ≠ zero3) :
    |len3 (Rd.vec (normalize3 v)) - 1| ≤ gam u 4 :=
  (normalize3_len h v hv).gam_bound h.nonneg (by exact_mod_cast hu) h.lt_one

/-- **C80.** In any dimension: each component of a normalised vector has relative error at most `gam u (n / 2 + 3)`. -/
theorem C80_any_dimension (h : Rounding rnd u) (xs : List (Rd rnd)) (hu : ((xs.length / 2 + 3 : ℕ) : ℝ) * u < 1)
    (_hx : ∃ x ∈ xs, x.val ≠ 0) :
    (normalizeVec xs).length = xs.length ∧ ∀ (i : ℕ) (x y : Rd rnd), xs[i]? = some x → (normalizeVec xs)[i]? = some y →
      |y.val - x.val / rnorm (xs.map Rd.val)| ≤ gam u (xs.length / 2 + 3) * |x.val / rnorm (xs.map Rd.val)| := by
  refine ⟨by simp [normalizeVec], ?_⟩
  intro i x y hx hy
  unfold normalizeVec at hy
  rw [List.getElem?_map, hx] at hy
  simp only [Option.map_some, Option.some.injEq] at hy
  obtain ⟨t, ht, e⟩ := normL_rd h xs
  obtain ⟨d, hd, ed⟩ := h.factor (x.val / (normL xs).val)
  have hn : Near u (xs.length / 2 + 3) (t⁻¹ * d) :=
    Near.mul (k := xs.length / 2 + 2) (l := 1) h.lt_one (ht.inv h.lt_one) hd
  have : y.val = x.val / rnorm (xs.map Rd.val) * (t⁻¹ * d) := by
    rw [← hy, Rd.val_div, ed, e, ← div_div, div_eq_mul_inv _ t]; ring
  rw [this]
  exact factor_err h hu hn

theorem plane_near (h : Rounding rnd u) (p n : V3 (Rd rnd)) (pl : Plane (Rd rnd))
    (hpl : Plane.mk' p n = .ok pl) : pl.r0 = p ∧ Near u 4 (len3 (Rd.vec pl.n)) := by
  unfold Plane.mk' at hpl
  split at hpl
  · simp [raise] at hpl
  · rename_i hz
    injection hpl with hpl
    rw [← hpl]
    refine ⟨rfl, normalize3_len h n ?_⟩
    intro h0
    apply hz
    have hx : n.x.val = 0 := congrArg V3.x h0
    have hy : n.y.val = 0 := congrArg V3.y h0
    have hzz : n.z.val = 0 := congrArg V3.z h0
    have ha : 0 ≤ (defaultAtol : Rd rnd).val := by
      show 0 ≤ rnd _
      rw [h.nonneg_iff]; norm_num
    have key : ∀ c : Rd rnd, c.val = 0 → closeToZero c defaultAtol = true := by
      intro c hc
      unfold closeToZero npAbs
      rw [if_neg (by rw [Rd.lt_iff, hc, Rd.val_lit]; push_cast; rw [h.zero]; exact lt_irrefl _), Rd.le_iff, hc]
      exact ha
    unfold almostZero
    rw [key _ hx, key _ hy, key _ hzz]; rfl

/-- **C80.** The normal of a constructed plane has length 1 up to `gam u 4`. -/
theorem C80_plane (h : Rounding rnd u) (hu : 4 * u < 1) (p n : V3 (Rd rnd)) (pl : Plane (Rd rnd))
    (hpl : Plane.mk' p n = .ok pl) : pl.r0 = p ∧ |len3 (Rd.vec pl.n) - 1| ≤ gam u 4 :=
  ⟨(plane_near h p n pl hpl).1, (plane_near h p n pl hpl).2.gam_bound h.nonneg (by exact_mod_cast hu) h.lt_one⟩

/-! ### C81: signed distance -/

/-- **C81.** The signed distance has an error of at most `gam u 4` times the sum of the sizes of its terms. -/
theorem C81_distance (h : Rounding rnd u) (hu : 4 * u < 1) (pl : Plane (Rd rnd)) (p : V3 (Rd rnd)) :
    |(pl.signedDistance1 p).val - height (exactPlane pl) (Rd.vec p)| ≤ gam u 4 * termSize (exactPlane pl) (Rd.vec p) := by
  have hu' : ((4 : ℕ) : ℝ) * u < 1 := by exact_mod_cast hu
  obtain ⟨t1, t2, t3, h1, h2, h3, e⟩ := dot_rd h p pl.n
  obtain ⟨s1, s2, s3, k1, k2, k3, e'⟩ := dot_rd h pl.r0 pl.n
  obtain ⟨d, hd, ed⟩ := h.factor ((V3.dot p pl.n).val + -(V3.dot pl.r0 pl.n).val)
  have hval : (pl.signedDistance1 p).val = rnd ((V3.dot p pl.n).val + -(V3.dot pl.r0 pl.n).val) := rfl
  have f1 := factor_err (x := p.x.val * pl.n.x.val) h hu' (h1.mul h.lt_one hd)
  have f2 := factor_err (x := p.y.val * pl.n.y.val) h hu' (h2.mul h.lt_one hd)
  have f3 := factor_err (x := p.z.val * pl.n.z.val) h hu' ((h3.mul h.lt_one hd).mono h.nonneg h.lt_one (by norm_num : 3 ≤ 4))
  have g1 := factor_err (x := pl.r0.x.val * pl.n.x.val) h hu' (k1.mul h.lt_one hd)
  have g2 := factor_err (x := pl.r0.y.val * pl.n.y.val) h hu' (k2.mul h.lt_one hd)
  have g3 := factor_err (x := pl.r0.z.val * pl.n.z.val) h hu' ((k3.mul h.lt_one hd).mono h.nonneg h.lt_one (by norm_num : 3 ≤ 4))
  rw [hval, ed, e, e']
  simp only [termSize, height, exactPlane, inner3, vec3, Rd.vec_x, Rd.vec_y, Rd.vec_z]
  rw [abs_le] at *
  constructor <;> linarith [f1.1, f1.2, f2.1, f2.2, f3.1, f3.2, g1.1, g1.2, g2.1, g2.2, g3.1, g3.2]

/-- **C81.** A point farther from the plane than that error bound gets the correct sign. -/
theorem C81_sign (h : Rounding rnd u) (hu : 4 * u < 1) (pl : Plane (Rd rnd)) (p : V3 (Rd rnd))
    (hd : gam u 4 * termSize (exactPlane pl) (Rd.vec p) < |height (exactPlane pl) (Rd.vec p)|) :
    (npSign (pl.signedDistance1 p)).val = (if 0 < height (exactPlane pl) (Rd.vec p) then 1 else -1) := by
  have he := abs_le.mp (C81_distance h hu pl p)
  obtain ⟨s, hs⟩ : ∃ s, s = pl.signedDistance1 p := ⟨_, rfl⟩
  rw [← hs] at he ⊢
  have hz : (Num.lit 0 : Rd rnd).val = 0 := by rw [Rd.val_lit]; push_cast; exact h.zero
  have ho : (Num.lit 1 : Rd rnd).val = 1 := by rw [Rd.val_lit]; push_cast; exact h.one
  have hm : (Num.lit (-1) : Rd rnd).val = -1 := by
    rw [Rd.val_lit]; push_cast; simpa using h.int (-1) (by norm_num)
  unfold npSign
  by_cases hp : 0 < height (exactPlane pl) (Rd.vec p)
  · rw [abs_of_pos hp] at hd
    rw [if_pos hp, if_pos (by rw [Rd.lt_iff, hz]; linarith), ho]
  · push Not at hp
    rw [abs_of_nonpos hp] at hd
    rw [if_neg (not_lt.mpr hp), if_neg (by rw [Rd.lt_iff, hz]; linarith), if_pos (by rw [Rd.lt_iff, hz]; linarith), hm]

theorem abs_terms_le (a n : V3 ℝ) : |a.x * n.x| + |a.y * n.y| + |a.z * n.z| ≤ len3 a * len3 n := by
  have h := abs_inner3_le ⟨|a.x|, |a.y|, |a.z|⟩ ⟨|n.x|, |n.y|, |n.z|⟩
  have h2 : len3 ⟨|a.x|, |a.y|, |a.z|⟩ = len3 a := by simp [len3, sq_abs]
  have h3 : len3 ⟨|n.x|, |n.y|, |n.z|⟩ = len3 n := by simp [len3, sq_abs]
  rw [h2, h3] at h
  simp only [abs_mul]
  exact (le_abs_self _).trans h

theorem gam_add {j k : ℕ} (h0 : 0 ≤ u) (hu : ((j + k : ℕ) : ℝ) * u < 1) : (1 + gam u j) * (1 + gam u k) ≤ 1 + gam u (j + k) := by
  have hj : (j : ℝ) * u ≥ 0 := by positivity
  have hk : (k : ℝ) * u ≥ 0 := by positivity
  push_cast at hu
  have d1 : 0 < 1 - (j : ℝ) * u := by nlinarith
  have d2 : 0 < 1 - (k : ℝ) * u := by nlinarith
  have d3 : 0 < 1 - ((j : ℝ) + k) * u := by linarith
  have e : ∀ x : ℝ, 0 < 1 - x → 1 + x / (1 - x) = 1 / (1 - x) := by intro x hx; field_simp; ring
  unfold gam
  push_cast
  rw [e _ d1, e _ d2, e _ d3, div_mul_div_comm, one_mul]
  apply div_le_div_of_nonneg_left (by norm_num) d3
  nlinarith

theorem gam_add' {j k : ℕ} (h0 : 0 ≤ u) (hu : ((j + k : ℕ) : ℝ) * u < 1) : gam u j + gam u k ≤ gam u (j + k) := by
  have h := gam_add h0 hu
  push_cast at hu
  have hj : (j : ℝ) * u ≥ 0 := by positivity
  have hk : (k : ℝ) * u ≥ 0 := by positivity
  have := mul_nonneg (gam_nonneg (k := j) h0 (by nlinarith)) (gam_nonneg (k := k) h0 (by nlinarith))
  nlinarith

/-- **C81.** In terms of lengths, for a constructed plane: the error is at most `gam u 8` times the distances of the point
and of the reference point from the origin. -/
theorem C81_length (h : Rounding rnd u) (hu : 8 * u < 1) (r n p : V3 (Rd rnd)) (pl : Plane (Rd rnd))
    (hpl : Plane.mk' r n = .ok pl) :
    |(pl.signedDistance1 p).val - height (exactPlane pl) (Rd.vec p)| ≤ gam u 8 * (len3 (Rd.vec p) + len3 (Rd.vec r)) := by
  have h0 := h.nonneg
  have hu4 : 4 * u < 1 := by linarith
  have h1 := C81_distance h hu4 pl p
  obtain ⟨hr, hn⟩ := C80_plane h hu4 r n pl hpl
  have hT : termSize (exactPlane pl) (Rd.vec p) ≤ (len3 (Rd.vec p) + len3 (Rd.vec r)) * (1 + gam u 4) := by
    have a1 := abs_terms_le (Rd.vec p) (Rd.vec pl.n)
    have a2 := abs_terms_le (Rd.vec pl.r0) (Rd.vec pl.n)
    have hl : len3 (Rd.vec pl.n) ≤ 1 + gam u 4 := by linarith [(abs_le.mp hn).2]
    have := mul_le_mul_of_nonneg_left hl (add_nonneg (len3_nonneg (Rd.vec p)) (len3_nonneg (Rd.vec r)))
    rw [hr] at a2
    simp only [termSize, exactPlane]
    rw [hr]
    linarith
  have hg := gam_nonneg (k := 4) h0 (by exact_mod_cast hu4)
  have hL : 0 ≤ len3 (Rd.vec p) + len3 (Rd.vec r) := add_nonneg (len3_nonneg _) (len3_nonneg _)
  calc _ ≤ _ := h1
    _ ≤ gam u 4 * ((len3 (Rd.vec p) + len3 (Rd.vec r)) * (1 + gam u 4)) := mul_le_mul_of_nonneg_left hT hg
    _ = (gam u 4 * (1 + gam u 4)) * (len3 (Rd.vec p) + len3 (Rd.vec r)) := by ring
    _ ≤ _ := by
      apply mul_le_mul_of_nonneg_right _ hL
      have := gam_add (j := 4) (k := 4) h0 (by push_cast; linarith)
      nlinarith

/-- **C81.** The projection of a point lies on the plane up to `gam u 15` times the size of the terms. -/
theorem C81_project (h : Rounding rnd u) (hu : 15 * u < 1) (r n p : V3 (Rd rnd)) (pl : Plane (Rd rnd))
    (hpl : Plane.mk' r n = .ok pl) :
    |height (exactPlane pl) (Rd.vec (pl.projectPoint p))| ≤ gam u 15 * termSize (exactPlane pl) (Rd.vec p) := by
  have h0 := h.nonneg
  have h1 := h.lt_one
  have hd := C81_distance h (by linarith) pl p
  obtain ⟨s, hs⟩ : ∃ s, s = (pl.signedDistance1 p).val := ⟨_, rfl⟩
  obtain ⟨T, hT⟩ : ∃ T, T = termSize (exactPlane pl) (Rd.vec p) := ⟨_, rfl⟩
  obtain ⟨H, hH⟩ : ∃ H, H = height (exactPlane pl) (Rd.vec p) := ⟨_, rfl⟩
  rw [← hs, ← hT, ← hH] at hd
  have hL : Near u 8 (pl.n.x.val ^ 2 + pl.n.y.val ^ 2 + pl.n.z.val ^ 2) := by
    have hn : Near u 4 (len3 (Rd.vec pl.n)) := (plane_near h r n pl hpl).2
    have := hn.mul h1 hn
    rw [← pow_two, len3_sq] at this
    exact this
  obtain ⟨a1, ha1, ea1⟩ := h.factor (s * pl.n.x.val)
  obtain ⟨a2, ha2, ea2⟩ := h.factor (s * pl.n.y.val)
  obtain ⟨a3, ha3, ea3⟩ := h.factor (s * pl.n.z.val)
  obtain ⟨b1, hb1, eb1⟩ := h.factor (p.x.val - s * pl.n.x.val * a1)
  obtain ⟨b2, hb2, eb2⟩ := h.factor (p.y.val - s * pl.n.y.val * a2)
  obtain ⟨b3, hb3, eb3⟩ := h.factor (p.z.val - s * pl.n.z.val * a3)
  have hx : (pl.projectPoint p).x.val = (p.x.val - s * pl.n.x.val * a1) * b1 := by
    rw [← eb1, ← ea1, hs]; rfl
  have hy : (pl.projectPoint p).y.val = (p.y.val - s * pl.n.y.val * a2) * b2 := by
    rw [← eb2, ← ea2, hs]; rfl
  have hz : (pl.projectPoint p).z.val = (p.z.val - s * pl.n.z.val * a3) * b3 := by
    rw [← eb3, ← ea3, hs]; rfl
  obtain ⟨c1, hc1, ec1⟩ := Near.add (sq_nonneg pl.n.x.val) (sq_nonneg pl.n.y.val) (ha1.mul h1 hb1) (ha2.mul h1 hb2)
  obtain ⟨c2, hc2, ec2⟩ := Near.add (add_nonneg (sq_nonneg pl.n.x.val) (sq_nonneg pl.n.y.val)) (sq_nonneg pl.n.z.val) hc1
    (ha3.mul h1 hb3)
  have ht := hL.mul h1 hc2
  rw [← ec2, ← ec1] at ht
  obtain ⟨t, het⟩ : ∃ t, t = pl.n.x.val ^ 2 * (a1 * b1) + pl.n.y.val ^ 2 * (a2 * b2) + pl.n.z.val ^ 2 * (a3 * b3) := ⟨_, rfl⟩
  rw [← het] at ht
  have e : height (exactPlane pl) (Rd.vec (pl.projectPoint p)) = -(H * (t - 1)) - (s - H) * t
      + (p.x.val * pl.n.x.val * b1 - p.x.val * pl.n.x.val) + (p.y.val * pl.n.y.val * b2 - p.y.val * pl.n.y.val)
      + (p.z.val * pl.n.z.val * b3 - p.z.val * pl.n.z.val) := by
    have hH' : H = (p.x.val - pl.r0.x.val) * pl.n.x.val + (p.y.val - pl.r0.y.val) * pl.n.y.val +
      (p.z.val - pl.r0.z.val) * pl.n.z.val := hH
    simp only [height, exactPlane, inner3, vec3, Rd.vec_x, Rd.vec_y, Rd.vec_z, hx, hy, hz]
    rw [het, hH']
    ring
  have u1 : ((1 : ℕ) : ℝ) * u < 1 := by push_cast; linarith
  have u10 : ((10 : ℕ) : ℝ) * u < 1 := by push_cast; linarith
  have f1 := factor_err (x := p.x.val * pl.n.x.val) h u1 hb1
  have f2 := factor_err (x := p.y.val * pl.n.y.val) h u1 hb2
  have f3 := factor_err (x := p.z.val * pl.n.z.val) h u1 hb3
  have ht1 := ht.gam_bound h0 u10 h1
  have hHT : |H| ≤ T := by
    have hH' : H = p.x.val * pl.n.x.val + p.y.val * pl.n.y.val + p.z.val * pl.n.z.val
      - (pl.r0.x.val * pl.n.x.val + pl.r0.y.val * pl.n.y.val + pl.r0.z.val * pl.n.z.val) := by
      rw [hH]; simp only [height, exactPlane, inner3, vec3, Rd.vec_x, Rd.vec_y, Rd.vec_z]; ring
    rw [hH', hT]
    simp only [termSize, exactPlane, Rd.vec_x, Rd.vec_y, Rd.vec_z]
    refine (abs_sub _ _).trans (add_le_add ?_ ?_)
    · exact (abs_add_le _ _).trans (add_le_add (abs_add_le _ _) le_rfl)
    · exact (abs_add_le _ _).trans (add_le_add (abs_add_le _ _) le_rfl)
  have hsum : |p.x.val * pl.n.x.val| + |p.y.val * pl.n.y.val| + |p.z.val * pl.n.z.val| ≤ T := by
    rw [hT]
    simp only [termSize, exactPlane, Rd.vec_x, Rd.vec_y, Rd.vec_z]
    have := abs_nonneg (pl.r0.x.val * pl.n.x.val)
    have := abs_nonneg (pl.r0.y.val * pl.n.y.val)
    have := abs_nonneg (pl.r0.z.val * pl.n.z.val)
    linarith
  have hT0 : 0 ≤ T := (abs_nonneg H).trans hHT
  have g10 := gam_nonneg (k := 10) h0 u10
  have g4 := gam_nonneg (k := 4) h0 (by push_cast; linarith)
  have g1 := gam_nonneg (k := 1) h0 u1
  have p1 : |H * (t - 1)| ≤ T * gam u 10 := by
    rw [abs_mul]; exact mul_le_mul hHT ht1 (abs_nonneg _) hT0
  have htp : |t| ≤ 1 + gam u 10 := by
    have := abs_add_le (t - 1) 1
    rw [sub_add_cancel, abs_one] at this
    linarith
  have p2 : |(s - H) * t| ≤ gam u 4 * T * (1 + gam u 10) := by
    rw [abs_mul]; exact mul_le_mul hd htp (abs_nonneg _) (by positivity)
  have p3 := mul_le_mul_of_nonneg_left hsum g1
  have q1 := gam_add (j := 4) (k := 10) h0 (by push_cast; linarith)
  have q2 := gam_add' (j := 14) (k := 1) h0 (by push_cast; linarith)
  have q : gam u 10 + gam u 4 * (1 + gam u 10) + gam u 1 ≤ gam u 15 := by
    norm_num at q1 q2
    linarith
  have q' := mul_le_mul_of_nonneg_right q hT0
  rw [e, ← hT]
  rw [abs_le] at p1 p2 f1 f2 f3 ⊢
  constructor <;> linarith [p1.1, p1.2, p2.1, p2.2, f1.1, f1.2, f2.1, f2.2, f3.1, f3.2]

/-- **C81.** If all points of a stack are farther from the plane than the error bound, `points_in_front` selects exactly
those with positive (inverted: negative) distance. -/
theorem C81_front (h : Rounding rnd u) (hu : 4 * u < 1) (pl : Plane (Rd rnd)) (ps : List (V3 (Rd rnd)))
    (hd : ∀ p ∈ ps, gam u 4 * termSize (exactPlane pl) (Rd.vec p) < |height (exactPlane pl) (Rd.vec p)|) (inverted : Bool)
    (i : ℕ) (p : V3 (Rd rnd)) (hp : ps[i]? = some p) :
    i ∈ pl.indicesInFront ps inverted ↔
      (if inverted then height (exactPlane pl) (Rd.vec p) < 0 else 0 < height (exactPlane pl) (Rd.vec p)) := by
  have hmem : p ∈ ps := List.mem_of_getElem? hp
  have hs := C81_sign h hu pl p (hd p hmem)
  have hgt : height (exactPlane pl) (Rd.vec p) ≠ 0 := by
    intro h0
    have h1 := hd p hmem
    have h2 := abs_le.mp (C81_distance h hu pl p)
    rw [h0, abs_zero] at h1
    linarith [h2.1, h2.2]
  have hz : (Num.lit 0 : Rd rnd).val = 0 := by rw [Rd.val_lit]; push_cast; exact h.zero
  have hm : (pl.frontMask ps inverted)[i]? = some (if inverted then Num.le (npSign (pl.signedDistance1 p)) (Num.lit 0)
      else Num.le (Num.lit 0) (npSign (pl.signedDistance1 p))) := by
    simp [Plane.frontMask, Plane.sign, Plane.signedDistance, hp]
  unfold Plane.indicesInFront Plane.flatnonzero
  rw [mem_flatnonzeroFrom]
  simp only [Nat.zero_le, Nat.sub_zero, true_and, hm, Option.some.injEq]
  cases inverted
  · simp only [Bool.false_eq_true, if_false]
    rw [Rd.le_iff, hz, hs]
    by_cases hp : 0 < height (exactPlane pl) (Rd.vec p)
    · simp [hp]
    · simp [hp]
  · simp only [if_true]
    rw [Rd.le_iff, hz, hs]
    by_cases hp : 0 < height (exactPlane pl) (Rd.vec p)
    · rw [if_pos hp]; constructor <;> intro hc <;> linarith
    · simp [hp]; exact lt_of_le_of_ne (not_lt.mp hp) hgt

/-- Non-vacuity: rounding to 53 bits; the plane z = 0 and the point (0, 0, 5). -/
example : ∃ pl : Plane (Rd rnd53), Plane.mk' ⟨⟨0⟩, ⟨0⟩, ⟨0⟩⟩ ⟨⟨0⟩, ⟨0⟩, ⟨1⟩⟩ = .ok pl ∧ 15 * ((1 : ℝ) / 2 ^ 53) < 1 ∧
    gam (1 / 2 ^ 53) 4 * termSize (exactPlane pl) ⟨0, 0, 5⟩ < |height (exactPlane pl) ⟨0, 0, 5⟩| := by
  have h0 : rnd53 0 = 0 := rounding_rnd53.zero
  have h1 : rnd53 1 = 1 := rounding_rnd53.one
  have ha : (defaultAtol : Rd rnd53).val < 1 := by
    have := abs_le.mp (rnd53_err (1 / 100000000))
    show rnd53 _ < 1
    norm_num at this ⊢
    linarith [this.2]
  have hz : almostZero (⟨⟨0⟩, ⟨0⟩, ⟨1⟩⟩ : V3 (Rd rnd53)) defaultAtol = false := by
    have : closeToZero (⟨1⟩ : Rd rnd53) defaultAtol = false := by
      rw [Bool.eq_false_iff]
      unfold closeToZero npAbs
      rw [if_neg (by rw [Rd.lt_iff]; simp [h0]), ne_eq, Rd.le_iff]
      simpa using ha
    unfold almostZero
    rw [this]; simp
  have hn : normalize3 (⟨⟨0⟩, ⟨0⟩, ⟨1⟩⟩ : V3 (Rd rnd53)) = ⟨⟨0⟩, ⟨0⟩, ⟨1⟩⟩ := by
    ext <;> simp [normalize3, V3.sdiv, V3.norm, V3.dot, h0, h1]
  refine ⟨⟨⟨⟨0⟩, ⟨0⟩, ⟨0⟩⟩, ⟨⟨0⟩, ⟨0⟩, ⟨1⟩⟩⟩, ?_, by norm_num, ?_⟩
  · unfold Plane.mk'
    rw [hz, hn]; rfl
  · norm_num [gam, termSize, height, exactPlane, inner3, vec3, Rd.vec]

end Blmath.Props
