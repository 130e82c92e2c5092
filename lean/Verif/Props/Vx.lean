import Verif.Proofs.Vx
import Verif.Proofs.V3
import Mathlib.Analysis.SpecialFunctions.Trigonometric.Inverse

/-!
Properties C16 (normalize), C17 (projection and rejection), C18 (angles), C19 (homogeneous
padding), C20 (`reject_axis`), C71 (tolerance predicates).
-/

namespace Blmath.Props
open Blmath.Vx Blmath.Spec Blmath.Fl

/-! ### C16 -/

/-- **C16.** A vector with a nonzero component (any dimension) becomes a vector of length 1 that is
a positive multiple of it. -/
theorem C16_normalize (xs : List ℝ) (h : RNonzero xs) :
    ∃ ys : List ℝ, normalizeArr (.vec (xs.map fin)) = .ok (.vec (ys.map fin)) ∧
      rnorm ys = 1 ∧ ∃ c > 0, ys = rscale c xs := by
  have hN := rnorm_pos h
  refine ⟨rscale (rnorm xs)⁻¹ xs, ?_, ?_, (rnorm xs)⁻¹, inv_pos.mpr hN, rfl⟩
  · simp [normalizeArr, normalizeVec_fin xs h]
  · rw [rnorm_scale _ (inv_pos.mpr hN).le, inv_mul_cancel₀ hN.ne']

/-- **C16.** The zero vector gives NaN in every component. -/
theorem C16_zero (xs : List ℝ) (h : ¬ RNonzero xs) :
    normalizeArr (.vec (xs.map fin)) = .ok (.vec (xs.map fun _ => nan)) := by
  have h0 : ∀ x ∈ xs, x = 0 := by
    intro x hx
    by_contra hne
    exact h ⟨x, hx, hne⟩
  have hd : rdot xs xs = 0 := by
    clear h
    induction xs with
    | nil => simp [rdot]
    | cons x xs ih =>
      have h1 := ih (fun y hy => h0 y (by simp [hy]))
      have h2 := h0 x (by simp)
      simp only [rdot, List.zipWith_cons_cons, List.sum_cons] at *
      rw [h1, h2]; simp
  simp only [normalizeArr, normalizeVec, normL, dotL_fin, hd, List.map_map]
  congr 2
  apply List.map_congr_left
  intro x hx
  rw [sqrt_fin 0 le_rfl, Real.sqrt_zero]
  simp only [Function.comp_def, h0 x hx]
  exact Fl.div_zero_zero

/-- **C16.** A stack is treated row by row, in any arithmetic; other ranks raise ValueError. -/
theorem C16_stack {α : Type} [Num α] (n : ℕ) (rows : List (List α)) :
    (∃ rows', normalizeArr (.mat n rows) = .ok (.mat n rows') ∧
      List.Forall₂ (fun r r' => normalizeArr (.vec r) = .ok (.vec r')) rows rows') ∧
    ∀ k, normalizeArr (.other k : Arr α) = raise .ValueError := by
  refine ⟨⟨_, rfl, ?_⟩, fun _ => rfl⟩
  rw [List.forall₂_map_right_iff]
  exact List.forall₂_same.mpr fun _ _ => rfl

/-- **C16.** `magnitude` of a vector of any dimension is its Euclidean length, of a stack the lengths
of its rows; other ranks raise ValueError.  It is never negative, vanishes for the zero vector only,
and is multiplied by `|c|` when the vector is multiplied by `c`. -/
theorem C16_magnitude (xs : List ℝ) (n : ℕ) (rows : List (List ℝ)) :
    magnitude (.vec xs) = .ok (.inl (Real.sqrt ((xs.map fun x => x ^ 2).sum))) ∧
    magnitude (.mat n rows) = .ok (.inr (rows.map fun r => Real.sqrt ((r.map fun x => x ^ 2).sum))) ∧
    (∀ k, magnitude (.other k : Arr ℝ) = raise .ValueError) ∧
    ∃ m : ℝ, magnitude (.vec xs) = .ok (.inl m) ∧ 0 ≤ m ∧ (m = 0 ↔ ∀ x ∈ xs, x = 0) ∧
      ∀ c : ℝ, magnitude (.vec (xs.map (c * ·))) = .ok (.inl (|c| * m)) := by
  have key : ∀ r : List ℝ, normL r = Real.sqrt ((r.map fun x => x ^ 2).sum) := fun r => by
    rw [normL_real, rnorm, rdot]
    congr 1
    induction r with
    | nil => rfl
    | cons a r ih => simp only [List.zipWith_cons_cons, List.sum_cons, List.map_cons, ih, pow_two]
  refine ⟨by rw [magnitude, key], ?_, fun _ => rfl, rnorm xs, by rw [magnitude, normL_real],
    Real.sqrt_nonneg _, ⟨fun h => ?_, fun h => ?_⟩, fun c => ?_⟩
  · simp only [magnitude]
    congr 2
    exact List.map_congr_left fun r _ => key r
  · by_contra hc
    push Not at hc
    exact (rnorm_pos hc).ne' h
  · have : xs.map (fun x => x ^ 2) = xs.map fun _ => 0 := List.map_congr_left fun x hx => by simp [h x hx]
    rw [← normL_real, key, this]
    simp
  · rw [magnitude, normL_real]
    congr 2
    change rnorm (rscale c xs) = _
    unfold rnorm
    rw [rdot_scale_right, rdot_scale_left, ← mul_assoc, Real.sqrt_mul (mul_self_nonneg c),
      Real.sqrt_mul_self_eq_abs]

/-- non-vacuity: lengths of the rows of a stack, one of them zero -/
example : magnitude (.mat 2 [[3, 4], [0, 0]] : Arr ℝ) = .ok (.inr [5, 0]) := by
  rw [(C16_magnitude [] 2 _).2.1]
  norm_num
  rw [show (25 : ℝ) = 5 ^ 2 by norm_num, Real.sqrt_sq (by norm_num)]

/-- non-vacuity: a 4-dimensional vector with some zero components -/
example : RNonzero [0, 3, 0, -4] := ⟨3, by simp, by norm_num⟩

/-- The 3-vector `normalize` used by the geometry models is this one. -/
theorem C16_bridge (v : V3 ℝ) :
    normalizeArr (.vec v.toList) = .ok (.vec (normalize3 v).toList) := by
  simp only [normalizeArr, normalizeVec, V3.toList, normalize3, List.map_cons, List.map_nil]
  have : normL [v.x, v.y, v.z] = v.norm := by
    rw [normL_real, V3.norm_real, rnorm, len3]
    congr 1
    simp [rdot]; ring
  rw [this]
  rfl

/-! ### C17 -/

/-- **C17.** For a vector `xs` and a nonzero `onto` of the same dimension, `proj` and `reject`
return `p` and `r` with: `p + r = xs`; `p` a multiple of `onto`; `r` orthogonal to `onto`; both
idempotent; unchanged when `onto` is rescaled by any nonzero `k`; and `p` is the multiple of `onto`
closest to `xs`. -/
theorem C17_decompose (xs onto : List ℝ) (hl : xs.length = onto.length) (h : RNonzero onto) :
    ∃ p r : List ℝ, proj (.vec xs) onto = .ok (.vec p) ∧ reject (.vec xs) onto = .ok (.vec r) ∧
      p.length = xs.length ∧ r.length = xs.length ∧
      radd p r = xs ∧ (∃ c, p = rscale c onto) ∧ rdot r onto = 0 ∧
      proj (.vec p) onto = .ok (.vec p) ∧ reject (.vec r) onto = .ok (.vec r) ∧
      (∀ k ≠ 0, proj (.vec xs) (rscale k onto) = .ok (.vec p) ∧
        reject (.vec xs) (rscale k onto) = .ok (.vec r)) ∧
      ∀ k, rnorm (rsub xs p) ≤ rnorm (rsub xs (rscale k onto)) := by
  have hpos := rdot_self_pos h
  set c := rdot xs onto / rdot onto onto with hc
  have hpl : xs.length = (rscale c onto).length := by simpa using hl
  have hproj : ∀ ys : List ℝ, ys.length = onto.length →
      proj (.vec ys) onto = .ok (.vec (rscale (rdot ys onto / rdot onto onto) onto)) := by
    intro ys hy
    simp [proj, projVec_real ys onto hy]
  have hrej : ∀ ys : List ℝ, ys.length = onto.length →
      reject (.vec ys) onto =
        .ok (.vec (rsub ys (rscale (rdot ys onto / rdot onto onto) onto))) := by
    intro ys hy
    simp only [reject, hproj ys hy, ok_bind]
    rfl
  have horth : rdot (rsub xs (rscale c onto)) onto = 0 := by
    rw [rdot_sub_left _ _ _ hpl, rdot_scale_left, hc]
    field_simp
    ring
  refine ⟨rscale c onto, rsub xs (rscale c onto), hproj xs hl, hrej xs hl, by simp [hl],
    by simp [rsub, hl], radd_rsub _ _ hpl, ⟨c, rfl⟩, horth, ?_, ?_, ?_, ?_⟩
  · rw [hproj _ (by simp), rdot_scale_left, mul_div_assoc, div_self hpos.ne', mul_one]
  · rw [hrej _ (by simp [rsub, hl]), horth, zero_div, rsub_zero _ _ (by simp [rsub, hl])]
  · intro k hk
    have hlk : xs.length = (rscale k onto).length := by simpa using hl
    have e : rscale (rdot xs (rscale k onto) / rdot (rscale k onto) (rscale k onto))
        (rscale k onto) = rscale c onto := by
      rw [rscale_rscale, rdot_scale_right, rdot_scale_right, rdot_scale_left, hc]
      congr 1
      field_simp
    have hp : proj (.vec xs) (rscale k onto) = .ok (.vec (rscale c onto)) := by
      simp only [proj, projVec_real xs _ hlk, e, ok_bind, pure_eq_ok]
    refine ⟨hp, ?_⟩
    simp only [reject, hp, ok_bind]
    rfl
  · intro k
    unfold rnorm
    apply Real.sqrt_le_sqrt
    have hkl : xs.length = (rscale k onto).length := by simpa using hl
    have ex : ∀ t, xs.length = (rscale t onto).length →
        rdot (rsub xs (rscale t onto)) (rsub xs (rscale t onto)) =
          rdot xs xs - 2 * t * rdot xs onto + t ^ 2 * rdot onto onto := by
      intro t ht
      rw [rdot_sub_left _ _ _ ht, rdot_sub_right _ _ _ ht, rdot_sub_right _ _ _ ht,
        rdot_scale_left, rdot_scale_left, rdot_scale_right, rdot_scale_right, rdot_comm onto xs]
      ring
    rw [ex c hpl, ex k hkl]
    have hco : rdot xs onto = c * rdot onto onto := by rw [hc]; field_simp
    rw [hco]
    have := mul_nonneg (sq_nonneg (k - c)) hpos.le
    nlinarith [this]

/-- **C17.** Stacked inputs act row by row. -/
theorem C17_stack (rows : List (List ℝ)) (onto : List ℝ)
    (hr : ∀ r ∈ rows, r.length = onto.length) :
    (∃ rows', proj (.mat onto.length rows) onto = .ok (.mat onto.length rows') ∧
      List.Forall₂ (fun r r' => proj (.vec r) onto = .ok (.vec r')) rows rows') ∧
    (∃ rows', reject (.mat onto.length rows) onto = .ok (.mat onto.length rows') ∧
      List.Forall₂ (fun r r' => reject (.vec r) onto = .ok (.vec r')) rows rows') := by
  have hp : proj (.mat onto.length rows) onto = .ok (.mat onto.length (rows.map fun r =>
        (normalizeVec onto).map (dotL r (normalizeVec onto) * ·))) := by simp [proj]
  have hrow : ∀ r ∈ rows, proj (.vec r) onto = .ok (.vec ((normalizeVec onto).map
      (dotL r (normalizeVec onto) * ·))) := by
    intro r h
    simp [proj, projVec, sprojVec, hr r h]
  refine ⟨⟨_, hp, ?_⟩, ⟨_, by simp only [reject, hp, ok_bind]; rfl, ?_⟩⟩
  · rw [List.forall₂_map_right_iff]
    exact List.forall₂_same.mpr hrow
  · clear hp hr
    induction rows with
    | nil => simp
    | cons r rs ih =>
      simp only [List.map_cons, List.zipWith_cons_cons, List.forall₂_cons]
      refine ⟨?_, ih fun r' h' => hrow r' (by simp [h'])⟩
      simp only [reject, hrow r (by simp), ok_bind]
      rfl

/-- **C17.** Mismatched dimensions and other ranks raise ValueError. -/
theorem C17_errors {α : Type} [Num α] (xs onto : List α) (n k : ℕ) (rows : List (List α)) :
    (xs.length ≠ onto.length → proj (.vec xs) onto = raise .ValueError ∧
      reject (.vec xs) onto = raise .ValueError) ∧
    (n ≠ onto.length → proj (.mat n rows) onto = raise .ValueError ∧
      reject (.mat n rows) onto = raise .ValueError) ∧
    proj (.other k) onto = raise .ValueError ∧ reject (.other k) onto = raise .ValueError := by
  refine ⟨?_, ?_, rfl, rfl⟩
  · intro h; simp [reject, proj, projVec, sprojVec, h]
  · intro h; simp [reject, proj, h]

example : proj (.vec [(3 : ℝ), 4, 5]) [0, 2, 0] = .ok (.vec [0, 4, 0]) := by
  simp only [proj, projVec_real [3, 4, 5] [0, 2, 0] rfl, ok_bind, pure_eq_ok]
  norm_num [rscale, rdot]

/-- The 3-vector `proj` and `reject` used by the geometry models are these. -/
theorem C17_bridge (v onto : V3 ℝ) :
    proj (.vec v.toList) onto.toList = .ok (.vec (proj3 v onto).toList) ∧
    reject (.vec v.toList) onto.toList = .ok (.vec (reject3 v onto).toList) := by
  have hp : proj (.vec v.toList) onto.toList = .ok (.vec (proj3 v onto).toList) := by
    simp only [proj, projVec_real v.toList onto.toList rfl, ok_bind, pure_eq_ok, proj3_real]
    simp [V3.toList, rscale, rdot, scale3, inner3, add_assoc]
  refine ⟨hp, ?_⟩
  simp only [reject, hp, ok_bind]
  rfl

/-! ### C18 -/

theorem cosine_bounds (v1 v2 : V3 ℝ) (h1 : v1 ≠ zero3) (h2 : v2 ≠ zero3) :
    -1 ≤ inner3 v1 v2 / (len3 v1 * len3 v2) ∧ inner3 v1 v2 / (len3 v1 * len3 v2) ≤ 1 := by
  have hp := mul_pos (len3_pos h1) (len3_pos h2)
  have := abs_le.mp (abs_inner3_le v1 v2)
  refine ⟨?_, ?_⟩
  · rw [le_div_iff₀ hp]; linarith [this.1]
  · rw [div_le_one hp]; exact this.2

theorem angle_eq (v1 v2 : V3 ℝ) (h1 : v1 ≠ zero3) (h2 : v2 ≠ zero3) :
    angle v1 v2 = Real.arccos (inner3 v1 v2 / (len3 v1 * len3 v2)) * (180 / Real.pi) := by
  obtain ⟨hb1, hb2⟩ := cosine_bounds v1 v2 h1 h2
  have hd : V3.dot (normalize3 v1) (normalize3 v2) = inner3 v1 v2 / (len3 v1 * len3 v2) := by
    rw [V3.dot_real, normalize3_real, normalize3_real, inner3_scale_left, inner3_scale_right]
    have := (len3_pos h1).ne'
    have := (len3_pos h2).ne'
    field_simp
  unfold angle
  simp only [hd]
  have hclip : clip (inner3 v1 v2 / (len3 v1 * len3 v2)) = inner3 v1 v2 / (len3 v1 * len3 v2) := by
    unfold clip
    simp only [Num.lit_real, Num.lt_real]
    push_cast
    rw [if_neg (not_lt.mpr hb2), if_neg (not_lt.mpr hb1)]
  rw [hclip]
  simp

/-- **C18.** The angle lies in `[0, 180]`. -/
theorem C18_range (v1 v2 : V3 ℝ) (h1 : v1 ≠ zero3) (h2 : v2 ≠ zero3) :
    0 ≤ angle v1 v2 ∧ angle v1 v2 ≤ 180 := by
  rw [angle_eq v1 v2 h1 h2]
  have hpi := Real.pi_pos
  refine ⟨mul_nonneg (Real.arccos_nonneg _) (by positivity), ?_⟩
  have h := mul_le_mul_of_nonneg_right
    (Real.arccos_le_pi (inner3 v1 v2 / (len3 v1 * len3 v2))) (by positivity : 0 ≤ 180 / Real.pi)
  have e : Real.pi * (180 / Real.pi) = 180 := by field_simp
  linarith

/-- **C18.** `cos(angle)·|v1|·|v2| = v1·v2` (the angle being in degrees). -/
theorem C18_cos (v1 v2 : V3 ℝ) (h1 : v1 ≠ zero3) (h2 : v2 ≠ zero3) :
    Real.cos (angle v1 v2 * Real.pi / 180) * len3 v1 * len3 v2 = inner3 v1 v2 := by
  obtain ⟨hb1, hb2⟩ := cosine_bounds v1 v2 h1 h2
  have hpi := Real.pi_ne_zero
  have e : angle v1 v2 * Real.pi / 180 =
      Real.arccos (inner3 v1 v2 / (len3 v1 * len3 v2)) := by
    rw [angle_eq v1 v2 h1 h2]; field_simp
  rw [e, Real.cos_arccos hb1 hb2]
  have := (len3_pos h1).ne'
  have := (len3_pos h2).ne'
  field_simp

/-- **C18.** Symmetric, and invariant under positive scaling. -/
theorem C18_symm_scale (v1 v2 : V3 ℝ) (h1 : v1 ≠ zero3) (h2 : v2 ≠ zero3) (a b : ℝ) (ha : 0 < a)
    (hb : 0 < b) :
    angle v1 v2 = angle v2 v1 ∧ angle (scale3 a v1) (scale3 b v2) = angle v1 v2 := by
  have nz : ∀ (k : ℝ) (v : V3 ℝ), 0 < k → v ≠ zero3 → scale3 k v ≠ zero3 := by
    intro k v hk hv
    rw [← len3_pos_iff, len3_scale, abs_of_pos hk]
    exact mul_pos hk (len3_pos hv)
  refine ⟨?_, ?_⟩
  · rw [angle_eq v1 v2 h1 h2, angle_eq v2 v1 h2 h1, inner3_comm, mul_comm (len3 v1)]
  · rw [angle_eq _ _ (nz a v1 ha h1) (nz b v2 hb h2), angle_eq v1 v2 h1 h2, inner3_scale_left,
      inner3_scale_right, len3_scale, len3_scale, abs_of_pos ha, abs_of_pos hb]
    congr 2
    have := (len3_pos h1).ne'
    have := (len3_pos h2).ne'
    field_simp

/-- **C18.** 0 for parallel vectors, 180 for opposite ones. -/
theorem C18_parallel (v : V3 ℝ) (h : v ≠ zero3) (k : ℝ) (hk : 0 < k) :
    angle v (scale3 k v) = 0 ∧ angle v (scale3 (-k) v) = 180 := by
  have hl := len3_pos h
  have nz : ∀ t : ℝ, t ≠ 0 → scale3 t v ≠ zero3 := by
    intro t ht
    rw [← len3_pos_iff, len3_scale]
    exact mul_pos (abs_pos.mpr ht) hl
  refine ⟨?_, ?_⟩
  · rw [angle_eq _ _ h (nz k hk.ne'), inner3_scale_right, len3_scale, abs_of_pos hk,
      ← len3_mul_self]
    have : k * (len3 v * len3 v) / (len3 v * (k * len3 v)) = 1 := by field_simp
    rw [this, Real.arccos_one, zero_mul]
  · rw [angle_eq _ _ h (nz (-k) (by linarith)), inner3_scale_right, len3_scale, abs_neg,
      abs_of_pos hk, ← len3_mul_self]
    have : -k * (len3 v * len3 v) / (len3 v * (k * len3 v)) = -1 := by field_simp
    rw [this, Real.arccos_neg_one]
    have := Real.pi_ne_zero
    field_simp

/-- **C18.** 90 exactly for orthogonal vectors; acute exactly for a positive scalar product. -/
theorem C18_orthogonal (v1 v2 : V3 ℝ) (h1 : v1 ≠ zero3) (h2 : v2 ≠ zero3) :
    (angle v1 v2 = 90 ↔ inner3 v1 v2 = 0) ∧ (angle v1 v2 < 90 ↔ 0 < inner3 v1 v2) := by
  have hp := mul_pos (len3_pos h1) (len3_pos h2)
  have hpi := Real.pi_pos
  rw [angle_eq v1 v2 h1 h2]
  refine ⟨?_, ?_⟩
  · have e : Real.arccos (inner3 v1 v2 / (len3 v1 * len3 v2)) * (180 / Real.pi) = 90 ↔
        Real.arccos (inner3 v1 v2 / (len3 v1 * len3 v2)) = Real.pi / 2 := by
      constructor
      · intro h; field_simp at h; linarith
      · intro h; rw [h]; field_simp; norm_num
    rw [e, Real.arccos_eq_pi_div_two, div_eq_zero_iff]
    simp [hp.ne']
  · have e : Real.arccos (inner3 v1 v2 / (len3 v1 * len3 v2)) * (180 / Real.pi) < 90 ↔
        Real.arccos (inner3 v1 v2 / (len3 v1 * len3 v2)) < Real.pi / 2 := by
      rw [mul_div_assoc', div_lt_iff₀ hpi]
      constructor <;> intro h <;> linarith
    rw [e, Real.arccos_lt_pi_div_two]
    constructor
    · intro h; exact (div_pos_iff_of_pos_right hp).mp h
    · intro h; exact div_pos h hp

/-- **C18.** `signed_angle`: the unsigned angle with the sign of `(v1 × v2)·look`, collinear counting
as positive; hence in `[-180, 180]` with the unsigned angle as absolute value. -/
theorem C18_signed (v1 v2 look : V3 ℝ) (h1 : v1 ≠ zero3) (h2 : v2 ≠ zero3) :
    (0 ≤ inner3 (cross3 v1 v2) look → signedAngle v1 v2 look = angle v1 v2) ∧
    (inner3 (cross3 v1 v2) look < 0 → signedAngle v1 v2 look = -angle v1 v2) ∧
    |signedAngle v1 v2 look| = angle v1 v2 ∧
    -180 ≤ signedAngle v1 v2 look ∧ signedAngle v1 v2 look ≤ 180 := by
  obtain ⟨r1, r2⟩ := C18_range v1 v2 h1 h2
  have hpos : 0 ≤ inner3 (cross3 v1 v2) look → signedAngle v1 v2 look = angle v1 v2 := by
    intro h
    unfold signedAngle npSign
    rw [V3.cross_real, V3.dot_real]
    rcases h.lt_or_eq with h | h
    · simp [h]
    · simp [← h]
  have hneg : inner3 (cross3 v1 v2) look < 0 → signedAngle v1 v2 look = -angle v1 v2 := by
    intro h
    unfold signedAngle npSign
    rw [V3.cross_real, V3.dot_real]
    simp [h, not_lt.mpr h.le]
  refine ⟨hpos, hneg, ?_⟩
  rcases lt_or_ge (inner3 (cross3 v1 v2) look) 0 with h | h
  · rw [hneg h, abs_neg, abs_of_nonneg r1]
    exact ⟨rfl, by linarith, by linarith⟩
  · rw [hpos h, abs_of_nonneg r1]
    exact ⟨rfl, by linarith, by linarith⟩

/-- **C18.** Exchanging the vectors swaps the sign, unless `(v1 × v2)·look = 0`. -/
theorem C18_signed_swap (v1 v2 look : V3 ℝ) (h1 : v1 ≠ zero3) (h2 : v2 ≠ zero3) :
    (inner3 (cross3 v1 v2) look ≠ 0 → signedAngle v2 v1 look = -signedAngle v1 v2 look) ∧
    (inner3 (cross3 v1 v2) look = 0 → signedAngle v2 v1 look = signedAngle v1 v2 look) := by
  have e : inner3 (cross3 v2 v1) look = -inner3 (cross3 v1 v2) look := by
    simp only [inner3, cross3]; ring
  have hs := (C18_symm_scale v1 v2 h1 h2 1 1 one_pos one_pos).1
  obtain ⟨p1, n1, _⟩ := C18_signed v1 v2 look h1 h2
  obtain ⟨p2, n2, _⟩ := C18_signed v2 v1 look h2 h1
  refine ⟨?_, ?_⟩
  · intro h
    rcases lt_or_gt_of_ne h with h | h
    · rw [n1 h, p2 (by linarith), hs]; simp
    · rw [p1 h.le, n2 (by linarith), hs]
  · intro h
    rw [p1 h.ge, p2 (by linarith), hs]

/-- **C18.** The clipping of line 156 keeps every number inside the domain of `acos`, so rounding
can never make it raise; NaN passes through. -/
theorem C18_clip (d : Fl) :
    (d ≠ nan → ∃ r : ℝ, clip d = fin r ∧ -1 ≤ r ∧ r ≤ 1) ∧ (clip nan = nan) ∧
    (∀ r : ℝ, -1 ≤ r → r ≤ 1 → clip (fin r) = fin r) := by
  have hfin : ∀ r : ℝ, clip (fin r) = fin (max (min r 1) (-1)) := by
    intro r
    unfold clip
    simp only [Fl.lit_fl, Fl.lt_fin]
    push_cast
    rcases lt_or_ge 1 r with h | h
    · simp [h, h.le]
    · rw [if_neg (not_lt.mpr h), min_eq_left h]
      simp only [Fl.lt_fin]
      rcases lt_or_ge r (-1) with h' | h'
      · rw [if_pos h', max_eq_right h'.le]
      · rw [if_neg (not_lt.mpr h'), max_eq_left h']
  refine ⟨?_, by simp [clip], ?_⟩
  · intro h
    cases d with
    | fin r =>
      refine ⟨_, hfin r, le_max_right _ _, ?_⟩
      exact max_le (min_le_right _ _) (by norm_num)
    | pinf =>
      have : Num.lt (fin 1) pinf = true := rfl
      exact ⟨1, by simp [clip, this], by norm_num, le_rfl⟩
    | ninf =>
      have h1 : Num.lt (fin 1) ninf = false := rfl
      have h2 : Num.lt ninf (fin (-1)) = true := rfl
      exact ⟨-1, by simp [clip, h1, h2], le_rfl, by norm_num⟩
    | nan => exact absurd rfl h
  · intro r h1 h2
    rw [hfin, min_eq_left h2, max_eq_left h1]

/-- non-vacuity of the hypotheses used above -/
example : (⟨1, 2, 2⟩ : V3 ℝ) ≠ zero3 := by
  intro h; simpa [zero3] using congrArg V3.x h
example : inner3 (cross3 ⟨1, 0, 0⟩ ⟨0, 1, 0⟩) ⟨0, 0, -1⟩ < 0 := by norm_num [inner3, cross3]

/-! ### C19 -/

/-- **C19.** `unpad (pad_with_ones m) = m` for every n x 3 matrix (NaN entries included). -/
theorem C19_roundtrip (rows : List (List Fl)) (h : ∀ r ∈ rows, r.length = 3) :
    ∃ p, padWithOnes (.mat 3 rows) = .ok (.mat 4 p) ∧ unpad (.mat 4 p) = .ok (.mat 3 rows) ∧
      p = rows.map (· ++ [fin 1]) := by
  have h1 : (Num.lit 1 : Fl) = fin 1 := by simp
  refine ⟨rows.map (· ++ [fin 1]), by simp [padWithOnes], ?_, rfl⟩
  have hall : (rows.map (· ++ [fin 1])).all lastIsOne = true := by
    rw [List.all_eq_true]
    intro r hr
    obtain ⟨r', hr', rfl⟩ := List.mem_map.mp hr
    have : (r' ++ [fin 1])[3]? = some (fin 1) := by
      simp [List.getElem?_append_right, h r' hr']
    simp [lastIsOne, this]
  simp only [unpad, hall, if_true]
  simp only [ne_eq, not_true_eq_false, if_false, List.map_map]
  congr 2
  conv_rhs => rw [← List.map_id rows]
  apply List.map_congr_left
  intro r hr
  have := h r hr
  match r, this with
  | [a, b, c], _ => rfl

/-- **C19.** `unpad` succeeds exactly on 4-column matrices whose last column is all ones, and then
drops that column; every failure is a ValueError. -/
theorem C19_unpad (a : Arr Fl) :
    (∀ out, unpad a = .ok out ↔ ∃ rows, a = .mat 4 rows ∧ (∀ r ∈ rows, r[3]? = some (fin 1)) ∧
      out = .mat 3 (rows.map fun r => r.eraseIdx 3)) ∧
    ∀ e, unpad a = .error e → e = .ValueError := by
  have eq1 : ∀ w : Fl, (Num.eq w (Num.lit 1) = true) ↔ w = fin 1 := by
    intro w
    cases w with
    | fin x => simp
    | pinf => simp only [reduceCtorEq, iff_false]; exact fun h => Bool.noConfusion h
    | ninf => simp only [reduceCtorEq, iff_false]; exact fun h => Bool.noConfusion h
    | nan => simp
  cases a with
  | vec xs => simp [unpad]
  | other k => simp [unpad]
  | mat n rows =>
    by_cases hn : n = 4
    case neg => simp [unpad, hn]
    subst hn
    have hall : rows.all lastIsOne = true ↔ ∀ r ∈ rows, r[3]? = some (fin 1) := by
      rw [List.all_eq_true]
      refine forall₂_congr fun r _ => ?_
      unfold lastIsOne
      cases r[3]? with
      | none => simp
      | some w => simp only [eq1, Option.some.injEq]
    by_cases hc : ∀ r ∈ rows, r[3]? = some (fin 1)
    · have := hall.mpr hc
      simp only [unpad, this, if_true]
      refine ⟨?_, by simp⟩
      intro out
      constructor
      · intro h; simp at h; exact ⟨rows, rfl, hc, h.symm⟩
      · rintro ⟨rows', h1, _, rfl⟩; cases h1; simp
    · have := mt hall.mp hc
      simp only [unpad, this]
      refine ⟨?_, by simp⟩
      intro out
      constructor
      · simp
      · rintro ⟨rows', h1, h2, rfl⟩; cases h1; exact absurd h2 hc

/-- **C19.** Wrong shapes raise ValueError. -/
theorem C19_shapes {α : Type} [Num α] (n : ℕ) (rows t : List (List α)) (xs : List α) (k : ℕ) (a : Arr α) :
    (n ≠ 3 → padWithOnes (.mat n rows) = raise .ValueError) ∧
    padWithOnes (.vec xs) = raise .ValueError ∧ padWithOnes (.other k : Arr α) = raise .ValueError ∧
    (n ≠ 3 → applyHomogeneous (.mat n rows) a = raise .ValueError) ∧
    applyHomogeneous (.vec xs) a = raise .ValueError ∧
    applyHomogeneous (.other k) a = raise .ValueError ∧
    (n ≠ 4 ∨ t.length ≠ 4 → applyHomogeneous (.mat 3 rows) (.mat n t) = raise .ValueError) := by
  refine ⟨fun h => by simp [padWithOnes, h], rfl, rfl, fun h => by simp [applyHomogeneous, h], rfl,
    rfl, ?_⟩
  intro h
  simp only [applyHomogeneous]
  rw [if_neg (by simp), if_pos h]

/-- row `r` of a matrix given by a 3-vector and a fourth entry -/
def row4 (a : V3 ℝ) (t : ℝ) : List ℝ := [a.x, a.y, a.z, t]

/-- **C19.** `apply_homogeneous` with matrix rows `(aᵢ | tᵢ)`: succeeds exactly when the weight
`a₃·p + t₃` is 1 for every vertex, raising ValueError otherwise, and maps `p` to
`(a₀·p + t₀, a₁·p + t₁, a₂·p + t₂)`. -/
theorem C19_apply (ps : List (V3 ℝ)) (a0 a1 a2 a3 : V3 ℝ) (t0 t1 t2 t3 : ℝ) :
    applyHomogeneous (.mat 3 (ps.map V3.toList))
        (.mat 4 [row4 a0 t0, row4 a1 t1, row4 a2 t2, row4 a3 t3]) =
      (open Classical in if ∀ p ∈ ps, inner3 a3 p + t3 = 1 then
        .ok (.mat 3 (ps.map fun p => [inner3 a0 p + t0, inner3 a1 p + t1, inner3 a2 p + t2]))
      else raise .ValueError) := by
  have hrow : ∀ p : V3 ℝ, ([row4 a0 t0, row4 a1 t1, row4 a2 t2, row4 a3 t3].map fun t =>
      dotL t (p.toList ++ [Num.lit 1])) =
      [inner3 a0 p + t0, inner3 a1 p + t1, inner3 a2 p + t2, inner3 a3 p + t3] := by
    intro p
    simp [dotL_real, rdot, row4, V3.toList, inner3, add_assoc]
  have hprows : (((ps.map V3.toList).map fun r => r ++ [Num.lit 1]).map fun r =>
      [row4 a0 t0, row4 a1 t1, row4 a2 t2, row4 a3 t3].map fun t => dotL t r) =
      ps.map fun p =>
        [inner3 a0 p + t0, inner3 a1 p + t1, inner3 a2 p + t2, inner3 a3 p + t3] := by
    rw [List.map_map, List.map_map]
    apply List.map_congr_left
    intro p _
    exact hrow p
  have hall : (ps.map fun p =>
      [inner3 a0 p + t0, inner3 a1 p + t1, inner3 a2 p + t2, inner3 a3 p + t3]).all
      lastIsOne = true ↔ ∀ p ∈ ps, inner3 a3 p + t3 = 1 := by
    simp [List.all_eq_true, lastIsOne]
  unfold applyHomogeneous
  simp only [ne_eq, not_true_eq_false, if_false, List.length_cons, List.length_nil, Nat.reduceAdd,
    or_self, padWithOnes, ok_bind, hprows, unpad]
  by_cases hc : ∀ p ∈ ps, inner3 a3 p + t3 = 1
  · rw [if_pos (hall.mpr hc), if_pos hc]
    simp [List.map_map, Function.comp_def]
  · rw [if_neg (mt hall.mp hc), if_neg hc]

/-- **C19.** An affine matrix `[A t; 0 1]` maps each row `p` to `A p + t`. -/
theorem C19_affine (ps : List (V3 ℝ)) (a0 a1 a2 : V3 ℝ) (t : V3 ℝ) :
    applyHomogeneous (.mat 3 (ps.map V3.toList))
        (.mat 4 [row4 a0 t.x, row4 a1 t.y, row4 a2 t.z, [0, 0, 0, 1]]) =
      .ok (.mat 3 (ps.map fun p => [inner3 a0 p + t.x, inner3 a1 p + t.y, inner3 a2 p + t.z])) := by
  have := C19_apply ps a0 a1 a2 zero3 t.x t.y t.z 1
  have h0 : ∀ p : V3 ℝ, inner3 zero3 p + 1 = 1 := by intro p; simp [inner3, zero3]
  rw [if_pos (fun p _ => h0 p)] at this
  exact this

/-! ### C20 -/

/-- **C20.** Not squashed, on a vector: `axis` may be any index of the vector, counted from the end
if negative; that component becomes 0 and all others are kept; otherwise IndexError. -/
theorem C20_keep {α : Type} [Num α] (xs : List α) (axis : ℤ) :
    (∀ i : ℕ, i < xs.length → (axis = i ∨ axis = (i : ℤ) - xs.length) →
      ∃ out, rejectAxis (.vec xs) axis false = .ok (.vec out) ∧ out.length = xs.length ∧
        out[i]? = some (Num.lit 0) ∧ ∀ j, j ≠ i → out[j]? = xs[j]?) ∧
    ((axis < -(xs.length : ℤ) ∨ (xs.length : ℤ) ≤ axis) →
      rejectAxis (.vec xs) axis false = raise .IndexError) := by
  refine ⟨?_, ?_⟩
  · intro i hi hax
    refine ⟨xs.set i (Num.lit 0), ?_, by simp, by simp [hi], ?_⟩
    · have hj : (if axis < 0 then axis + xs.length else axis) = (i : ℤ) := by
        rcases hax with h | h
        · rw [if_neg (by omega)]; exact h
        · rw [if_pos (by omega)]; omega
      have hb : ¬ ((i : ℤ) < 0 ∨ (xs.length : ℤ) ≤ (i : ℤ)) := by omega
      simp only [rejectAxis, zeroAt, hj, hb, if_false, Bool.false_eq_true, Int.toNat_natCast,
        ok_bind, pure_eq_ok]
    · intro j hj
      rw [List.getElem?_set_ne (Ne.symm hj)]
  · intro h
    have hb : (if axis < 0 then axis + xs.length else axis) < 0 ∨
        (xs.length : ℤ) ≤ (if axis < 0 then axis + xs.length else axis) := by
      split <;> omega
    simp only [rejectAxis, zeroAt, hb, if_true, Bool.false_eq_true, if_false, error_bind]

/-- **C20.** Squashed, on a 3-vector: drops exactly the chosen coordinate, keeping the order; any
other axis, negative ones included, raises ValueError. -/
theorem C20_squash {α : Type} [Num α] (x y z : α) (axis : ℤ) :
    rejectAxis (.vec [x, y, z]) 0 true = .ok (.vec [y, z]) ∧
    rejectAxis (.vec [x, y, z]) 1 true = .ok (.vec [x, z]) ∧
    rejectAxis (.vec [x, y, z]) 2 true = .ok (.vec [x, y]) ∧
    (axis < 0 ∨ 2 < axis → ∀ a : Arr α, rejectAxis a axis true = raise .ValueError) := by
  refine ⟨rfl, rfl, rfl, ?_⟩
  intro h a
  have h0 : axis ≠ 0 := by omega
  have h1 : axis ≠ 1 := by omega
  have h2 : axis ≠ 2 := by omega
  simp [rejectAxis, dimsToKeep, h0, h1, h2]

/-- **C20.** Without squash, on a 3-vector, this is the rejection from the basis vector. -/
theorem C20_is_rejection (x y z : ℝ) :
    rejectAxis (.vec [x, y, z]) 0 false = reject (.vec [x, y, z]) [1, 0, 0] ∧
    rejectAxis (.vec [x, y, z]) 1 false = reject (.vec [x, y, z]) [0, 1, 0] ∧
    rejectAxis (.vec [x, y, z]) 2 false = reject (.vec [x, y, z]) [0, 0, 1] := by
  have hz : (Num.lit 0 : ℝ) = 0 := by simp
  have h1 := projVec_real [x, y, z] [1, 0, 0] rfl
  have h2 := projVec_real [x, y, z] [0, 1, 0] rfl
  have h3 := projVec_real [x, y, z] [0, 0, 1] rfl
  refine ⟨?_, ?_, ?_⟩ <;>
    simp [rejectAxis, zeroAt, reject, proj, h1, h2, h3, rscale, rdot, subL, hz]

/-- **C20.** A stack of any number of columns, not squashed: row by row as for single vectors, negative axes included; an axis
outside the columns raises IndexError, also when there are no rows. -/
theorem C20_stack_any {α : Type} [Num α] (n : ℕ) (rows : List (List α)) (h : ∀ r ∈ rows, r.length = n) (axis : ℤ) :
    (-(n : ℤ) ≤ axis ∧ axis < n → ∃ rows', rejectAxis (.mat n rows) axis false = .ok (.mat n rows') ∧
      List.Forall₂ (fun r r' => rejectAxis (.vec r) axis false = .ok (.vec r')) rows rows') ∧
    (axis < -(n : ℤ) ∨ (n : ℤ) ≤ axis → rejectAxis (.mat n rows) axis false = .error .IndexError) := by
  constructor
  · rintro ⟨h1, h2⟩
    have hb : ¬ ((if axis < 0 then axis + (n : ℤ) else axis) < 0 ∨ (n : ℤ) ≤ (if axis < 0 then axis + (n : ℤ) else axis)) := by
      split <;> omega
    refine ⟨_, by simp only [rejectAxis, Bool.false_eq_true, if_false, if_neg hb]; rfl, ?_⟩
    rw [List.forall₂_map_right_iff]
    refine List.forall₂_same.mpr fun r hr => ?_
    simp only [rejectAxis, zeroAt, h r hr, Bool.false_eq_true, if_false, if_neg hb, ok_bind, pure_eq_ok]
  · intro h1
    have hb : (if axis < 0 then axis + (n : ℤ) else axis) < 0 ∨ (n : ℤ) ≤ (if axis < 0 then axis + (n : ℤ) else axis) := by
      split <;> omega
    simp only [rejectAxis, Bool.false_eq_true, if_false, if_pos hb]

/-- **C20.** Squashing takes the first three columns for the coordinates: with more columns the rest is dropped, with too few
it raises IndexError, also when there are no rows. -/
theorem C20_squash_columns {α : Type} [Num α] (n : ℕ) (rows : List (List α)) (h : ∀ r ∈ rows, r.length = n) :
    (3 ≤ n → ∃ rows', rejectAxis (.mat n rows) 1 true = .ok (.mat 2 rows') ∧
      List.Forall₂ (fun r r' => ∃ x y z t, r = x :: y :: z :: t ∧ r' = [x, z]) rows rows') ∧
    (n < 3 → rejectAxis (.mat n rows) 1 true = .error .IndexError) ∧
    (n < 2 → rejectAxis (.mat n rows) 2 true = .error .IndexError) := by
  have e1 : dimsToKeep 1 = .ok [0, 2] := rfl
  have e2 : dimsToKeep 2 = .ok [0, 1] := rfl
  refine ⟨?_, ?_, ?_⟩
  · intro hn
    have key : ∀ l : List (List α), (∀ r ∈ l, r.length = n) → ∃ l', (l.mapM fun r => takeDims r [0, 2]) = .ok l' ∧
        List.Forall₂ (fun r r' => ∃ x y z t, r = x :: y :: z :: t ∧ r' = [x, z]) l l' := by
      intro l
      induction l with
      | nil => intro _; exact ⟨[], rfl, .nil⟩
      | cons r l ih =>
        intro hl
        obtain ⟨l', e, hf⟩ := ih fun s hs => hl s (List.mem_cons_of_mem _ hs)
        have hr := hl r List.mem_cons_self
        rcases r with _ | ⟨x, _ | ⟨y, _ | ⟨z, t⟩⟩⟩
        · simp at hr; omega
        · simp at hr; omega
        · simp at hr; omega
        · refine ⟨[x, z] :: l', ?_, .cons ⟨x, y, z, t, rfl, rfl⟩ hf⟩
          have : takeDims (x :: y :: z :: t) [0, 2] = .ok [x, z] := by
            simp [takeDims, pyIndex]
          rw [List.mapM_cons, this, ok_bind, e, ok_bind]; rfl
    obtain ⟨l', e, hf⟩ := key rows h
    refine ⟨l', ?_, hf⟩
    have hd : ([0, 2] : List ℕ).all (· < n) = true := by simp; omega
    simp only [rejectAxis, e1, if_true, ok_bind, hd, e, pure_eq_ok]
  · intro hn
    have hd : ([0, 2] : List ℕ).all (· < n) = false := by simp; omega
    simp only [rejectAxis, e1, if_true, ok_bind, hd]
    rfl
  · intro hn
    have hd : ([0, 1] : List ℕ).all (· < n) = false := by simp; omega
    simp only [rejectAxis, e2, if_true, ok_bind, hd]
    rfl

/-- **C20.** Squashing a vector of any length: the first three entries are taken for the coordinates; a vector too short for the
coordinates kept raises IndexError.  Arrays of other ranks raise ValueError. -/
theorem C20_rank {α : Type} [Num α] (x y z : α) (t xs : List α) :
    rejectAxis (.vec (x :: y :: z :: t)) 0 true = .ok (.vec [y, z]) ∧
    rejectAxis (.vec (x :: y :: z :: t)) 1 true = .ok (.vec [x, z]) ∧
    rejectAxis (.vec (x :: y :: t)) 2 true = .ok (.vec [x, y]) ∧
    (xs.length < 3 → rejectAxis (.vec xs) 0 true = .error .IndexError ∧ rejectAxis (.vec xs) 1 true = .error .IndexError) ∧
    (xs.length < 2 → rejectAxis (.vec xs) 2 true = .error .IndexError) ∧
    ∀ k axis squash, rejectAxis (.other k : Arr α) axis squash = .error .ValueError := by
  have e0 : dimsToKeep 0 = .ok [1, 2] := rfl
  have e1 : dimsToKeep 1 = .ok [0, 2] := rfl
  have e2 : dimsToKeep 2 = .ok [0, 1] := rfl
  refine ⟨?_, ?_, ?_, ?_, ?_, ?_⟩
  · simp [rejectAxis, e0, takeDims, pyIndex]
  · simp [rejectAxis, e1, takeDims, pyIndex]
  · simp [rejectAxis, e2, takeDims, pyIndex]
  · intro h
    rcases xs with _ | ⟨a, _ | ⟨b, _ | ⟨c, t⟩⟩⟩
    · exact ⟨rfl, rfl⟩
    · exact ⟨rfl, rfl⟩
    · exact ⟨rfl, rfl⟩
    · simp at h; omega
  · intro h
    rcases xs with _ | ⟨a, _ | ⟨b, t⟩⟩
    · rfl
    · rfl
    · simp at h
  · intro k axis squash
    cases squash
    · rfl
    · simp only [rejectAxis, if_true, dimsToKeep]
      split_ifs <;> rfl

/-- **C20.** Stacks are treated row by row (three columns). -/
theorem C20_stack {α : Type} [Num α] (rows : List (List α)) (h : ∀ r ∈ rows, r.length = 3)
    (axis : ℤ) (h0 : 0 ≤ axis) (h2 : axis ≤ 2) :
    (∃ rows', rejectAxis (.mat 3 rows) axis false = .ok (.mat 3 rows') ∧
      List.Forall₂ (fun r r' => rejectAxis (.vec r) axis false = .ok (.vec r')) rows rows') ∧
    (∃ rows', rejectAxis (.mat 3 rows) axis true = .ok (.mat 2 rows') ∧
      List.Forall₂ (fun r r' => rejectAxis (.vec r) axis true = .ok (.vec r')) rows rows') := by
  have hax : axis = 0 ∨ axis = 1 ∨ axis = 2 := by omega
  refine ⟨⟨rows.map fun r => r.set axis.toNat (Num.lit 0), ?_, ?_⟩, ?_⟩
  · rcases hax with rfl | rfl | rfl <;> simp [rejectAxis]
  · rw [List.forall₂_map_right_iff]
    refine List.forall₂_same.mpr fun r hr => ?_
    have := h r hr
    rcases hax with rfl | rfl | rfl <;> simp [rejectAxis, zeroAt, this]
  · obtain ⟨dims, hd, hlt⟩ : ∃ dims, dimsToKeep axis = .ok dims ∧ ∀ d ∈ dims, d < 3 := by
      rcases hax with rfl | rfl | rfl
      · exact ⟨[1, 2], rfl, by simp⟩
      · exact ⟨[0, 2], rfl, by simp⟩
      · exact ⟨[0, 1], rfl, by simp⟩
    have hall : dims.all (· < 3) = true := by simpa [List.all_eq_true] using hlt
    have htake : ∀ r ∈ rows, ∃ r', takeDims r dims = .ok r' := by
      intro r hr
      have := h r hr
      match r, this with
      | [a, b, c], _ =>
        rcases hax with rfl | rfl | rfl <;> injection hd with hd <;> subst hd <;> exact ⟨_, rfl⟩
    have hmap : ∀ rs : List (List α), (∀ r ∈ rs, ∃ r', takeDims r dims = .ok r') →
        ∃ rs', rs.mapM (fun r => takeDims r dims) = .ok rs' ∧
          List.Forall₂ (fun r r' => takeDims r dims = .ok r') rs rs' := by
      intro rs
      induction rs with
      | nil => intro _; exact ⟨[], rfl, by simp⟩
      | cons r rs ih =>
        intro hh
        obtain ⟨r', hr'⟩ := hh r (by simp)
        obtain ⟨rs', h1, h2⟩ := ih fun q hq => hh q (by simp [hq])
        exact ⟨r' :: rs', by simp [List.mapM_cons, hr', h1], by simp [hr', h2]⟩
    obtain ⟨rs', h1, h2⟩ := hmap rows htake
    refine ⟨rs', ?_, ?_⟩
    · simp only [rejectAxis, if_true, hd, ok_bind, hall, h1, pure_eq_ok]
    · refine h2.imp fun r r' hr => ?_
      simp only [rejectAxis, if_true, hd, ok_bind, hr, pure_eq_ok]

example : rejectAxis (.vec [(1 : ℝ), 2, 3]) (-1) false = .ok (.vec [1, 2, 0]) := by
  simp [rejectAxis, zeroAt]

/-! ### C71 -/

theorem npAbs_real (x : ℝ) : npAbs x = |x| := by
  unfold npAbs
  simp only [Num.lt_real, Num.lit_real]
  push_cast
  split
  · rename_i h; rw [abs_of_neg h]
  · rename_i h; rw [abs_of_nonneg (not_lt.mp h)]

/-- **C71.** `almost_zero` is true exactly when every component is within `atol` of 0. -/
theorem C71_almost_zero (v : V3 ℝ) (atol : ℝ) :
    almostZero v atol = true ↔ |v.x| ≤ atol ∧ |v.y| ≤ atol ∧ |v.z| ≤ atol := by
  simp [almostZero, closeToZero, npAbs_real, and_assoc]

/-- **C71.** `almost_collinear` is true exactly when `|v1 × v2| ≤ atol`. -/
theorem C71_almost_collinear (v1 v2 : V3 ℝ) (atol : ℝ) :
    almostCollinear v1 v2 atol = true ↔ len3 (cross3 v1 v2) ≤ atol := by
  simp [almostCollinear, closeToZero, npAbs_real, V3.norm_real, V3.cross_real,
    abs_of_nonneg (len3_nonneg _)]

/-- **C71.** It is symmetric, monotone in `atol`, and true for a vector and any multiple of it. -/
theorem C71_collinear_laws (v1 v2 : V3 ℝ) (atol atol' k : ℝ) :
    almostCollinear v1 v2 atol = almostCollinear v2 v1 atol ∧
    (atol ≤ atol' → almostCollinear v1 v2 atol = true → almostCollinear v1 v2 atol' = true) ∧
    (0 ≤ atol → almostCollinear v1 (scale3 k v1) atol = true ∧
      almostCollinear (scale3 k v1) v1 atol = true) := by
  have hsym : ∀ a b : V3 ℝ, len3 (cross3 a b) = len3 (cross3 b a) := by
    intro a b
    unfold len3 cross3
    congr 1
    ring
  have hz : ∀ a : V3 ℝ, len3 (cross3 a (scale3 k a)) = 0 := by
    intro a
    rw [len3_eq_zero]
    ext <;> simp [cross3, scale3, zero3] <;> ring
  refine ⟨?_, ?_, ?_⟩
  · rw [Bool.eq_iff_iff, C71_almost_collinear, C71_almost_collinear, hsym]
  · intro h
    rw [C71_almost_collinear, C71_almost_collinear]
    exact fun h' => h'.trans h
  · intro h
    rw [C71_almost_collinear, C71_almost_collinear, hsym (scale3 k v1), hz]
    exact ⟨h, h⟩

/-- **C71.** NaN components are never almost zero. -/
theorem C71_nan (y z : Fl) (atol : Fl) : almostZero ⟨nan, y, z⟩ atol = false := by
  simp [almostZero, closeToZero, npAbs]

example : almostCollinear (⟨1, 0, 0⟩ : V3 ℝ) ⟨0, 1, 0⟩ (1 / 2) = false := by
  rw [Bool.eq_false_iff, ne_eq, C71_almost_collinear]
  norm_num [len3, cross3]

end Blmath.Props
