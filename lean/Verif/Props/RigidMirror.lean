import Verif.Props.RigidOnly
import Verif.Props.Rodrigues

/-!
C145, the remaining case: three equal singular values and a decomposition that mirrors.
-/

namespace Blmath.Props
open Blmath Blmath.Geometry Blmath.Spec Blmath.Proofs Blmath.Proofs.RS

namespace RO

/-- `p` mirrored in the plane through the origin with unit normal `m` -/
noncomputable def mirrored (m p : V3 ℝ) : V3 ℝ := p - scale3 (2 * inner3 m p) m

theorem axis_mirror (m p : V3 ℝ) : act (-axisMat m (-1) 0) p = mirrored m p := by
  rw [act_eq]
  ext <;> simp [axisMat, mirrored, scale3, inner3] <;> ring

theorem keep_inner {A : Mat 3 3 ℝ} (h : A.transpose * A = 1) (v w : V3 ℝ) : inner3 (act A v) (act A w) = inner3 v w := by
  have e : ∀ i j, (A.transpose * A) i j = (1 : Mat 3 3 ℝ) i j := fun i j => by rw [h]
  simp only [Matrix.mul_apply, Matrix.transpose_apply, Fin.sum_univ_three] at e
  have e00 := e 0 0; have e01 := e 0 1; have e02 := e 0 2; have e11 := e 1 1; have e12 := e 1 2; have e22 := e 2 2
  simp at e00 e01 e02 e11 e12 e22
  simp only [act_eq, inner3]
  linear_combination v.x * w.x * e00 + (v.x * w.y + v.y * w.x) * e01 + (v.x * w.z + v.z * w.x) * e02 + v.y * w.y * e11 +
    (v.y * w.z + v.z * w.y) * e12 + v.z * w.z * e22

theorem take (A : Mat 3 3 ℝ) (v w : V3 ℝ) : act A (v - w) = act A v - act A w := by
  simp only [act_eq]
  ext <;> simp <;> ring

/-- with three equal singular values and a mirror in the decomposition: mirror in any plane, then apply `vᵀ uᵀ` -/
theorem mirror {c u v : Mat 3 3 ℝ} {s : Fin 3 → ℝ} (h : SvdSpec c u s v) (hz : s 1 + sgn u v * s 2 = 0) (he : s 1 = s 0) (hp : 0 < s 0)
    (R : Mat 3 3 ℝ) :
    Top c R ↔ ∃ m, inner3 m m = 1 ∧ ∀ p, act R p = act (v.transpose * u.transpose) (mirrored m p) := by
  have hm : sgn u v = -1 := by
    rcases sgn_cases h with e | e
    · rw [e] at hz
      have := h.nonneg 2
      linarith
    · exact e
  have h2 : s 2 = s 0 := by rw [hm] at hz; linarith
  have hu : u * u.transpose = 1 := mul_eq_one_comm.mp h.left
  have hv : v * v.transpose = 1 := mul_eq_one_comm.mp h.right
  have tr : ∀ R : Mat 3 3 ℝ, Matrix.trace (R * c) = s 0 + s 1 + sgn u v * s 2 ↔ (v * R * u) 0 0 + (v * R * u) 1 1 + (v * R * u) 2 2 = 1 := by
    intro R
    rw [trace_svd h, h2, he, hm]
    constructor
    · intro e
      have : s 0 * ((v * R * u) 0 0 + (v * R * u) 1 1 + (v * R * u) 2 2 - 1) = 0 := by linarith
      have := (mul_eq_zero.mp this).resolve_left hp.ne'
      linarith
    · intro e
      linear_combination s 0 * e
  rw [top_iff h, tr]
  constructor
  · rintro ⟨hR, ht⟩
    have hW := orth_mul (orth_mul h.right hR.1) h.left
    have dW : (v * R * u).det = -1 := by rw [Matrix.det_mul, Matrix.det_mul, hR.2, mul_one, mul_comm]; exact hm
    have hrot : IsRotation (-(v * R * u)) := by
      refine ⟨by rw [Matrix.transpose_neg, neg_mul_neg]; exact hW, ?_⟩
      rw [Matrix.det_neg, dW]
      norm_num
    obtain ⟨h1, h2⟩ := halfTurnAxis_spec hrot (by rw [cosOf]; simp only [Matrix.neg_apply]; linarith)
    obtain ⟨a, ha⟩ : ∃ a, a = halfTurnAxis (-(v * R * u)) := ⟨_, rfl⟩
    rw [← ha] at h1 h2
    refine ⟨act u a, ?_, fun p => ?_⟩
    · rw [← h1]
      exact keep_inner h.left _ _
    · have e : v * R * u = -axisMat a (-1) 0 := by rw [h2, neg_neg]
      have hb := back h e
      rw [hb, act_mul, act_mul, axis_mirror, act_mul]
      congr 1
      have hi : inner3 (act u a) p = inner3 a (act u.transpose p) := by
        rw [← keep_inner h.left a (act u.transpose p), ← act_mul, hu, act_one]
      rw [mirrored, mirrored, take, act_scale, hi, ← act_mul, h.left, act_one]
  · rintro ⟨m, hm1, hact⟩
    have hR : R = v.transpose * u.transpose * -axisMat m (-1) 0 := by
      apply act_ext
      intro p
      rw [hact, act_mul _ (-axisMat m (-1) 0), axis_mirror]
    have hA : IsRotation (axisMat m (-1) 0) := by
      simp only [inner3] at hm1
      refine ⟨?_, ?_⟩
      · ext i j
        fin_cases i <;> fin_cases j <;> simp [axisMat, Matrix.mul_apply, Fin.sum_univ_three]
        · linear_combination 4 * m.x * m.x * hm1
        · linear_combination 4 * m.x * m.y * hm1
        · linear_combination 4 * m.x * m.z * hm1
        · linear_combination 4 * m.x * m.y * hm1
        · linear_combination 4 * m.y * m.y * hm1
        · linear_combination 4 * m.y * m.z * hm1
        · linear_combination 4 * m.x * m.z * hm1
        · linear_combination 4 * m.y * m.z * hm1
        · linear_combination 4 * m.z * m.z * hm1
      · rw [Matrix.det_fin_three]
        simp [axisMat]
        linear_combination 2 * hm1
    have hO := (candidates h).1.1
    refine ⟨⟨?_, ?_⟩, ?_⟩
    · rw [hR]
      refine orth_mul hO ?_
      rw [Matrix.transpose_neg, neg_mul_neg]; exact hA.1
    · rw [hR, Matrix.det_mul, sgn_eq, hm, Matrix.det_neg, hA.2]
      norm_num
    · have : v * R * u = u.transpose * -axisMat m (-1) 0 * u := by
        rw [hR, ← Matrix.mul_assoc, ← Matrix.mul_assoc, hv, Matrix.one_mul]
      have ht : Matrix.trace (v * R * u) = 1 := by
        rw [this, Matrix.mul_assoc, Matrix.trace_mul_comm, Matrix.mul_assoc, hu, Matrix.mul_one]
        simp only [inner3] at hm1
        simp [Matrix.trace, Fin.sum_univ_three, axisMat]
        linarith
      rw [← ht]
      simp [Matrix.trace, Fin.sum_univ_three]

end RO

open RO

/-- **C145.** With `s₁ + e s₂ = 0` and all singular values equal and not zero, the best rotations are: mirror in any plane through the origin, then
apply `vᵀ uᵀ`.  With C145_set and C145_motions these are all cases. -/
theorem C145_equal (ps qs : List (V3 ℝ)) (hl : ps.length = qs.length) (u : Mat 3 3 ℝ) (s : Fin 3 → ℝ) (v : Mat 3 3 ℝ) :
    (SvdSpec (moments ps qs) u s v → s 1 + u.det * v.det * s 2 = 0 → s 1 = s 0 → 0 < s 0 → ∀ R, BestRotation R ps qs ↔
      ∃ m, inner3 m m = 1 ∧ ∀ p, act R p = act (v.transpose * u.transpose) (p - scale3 (2 * inner3 m p) m)) ∧
    (ps ≠ [] → SvdSpec (crossCov ps qs) u s v → s 1 + u.det * v.det * s 2 = 0 → s 1 = s 0 → 0 < s 0 → ∀ R T, BestMotion R T ps qs ↔
      (∃ m, inner3 m m = 1 ∧ ∀ p, act R p = act (v.transpose * u.transpose) (p - scale3 (2 * inner3 m p) m)) ∧
        move R T (centroid ps) = centroid qs) := by
  refine ⟨fun h hz he h0 R => ?_, fun hp h hz he h0 R T => ?_⟩
  · rw [best_rotation_iff hl]
    exact mirror h hz he h0 R
  · rw [best_motion_iff hl hp, mirror h hz he h0 R]
    refine and_congr Iff.rfl ?_
    rw [move_eq_add]
    constructor
    · rintro rfl
      ext <;> simp
    · intro e
      rw [← e]
      ext <;> simp

/-- **C145.** Witness: to the three unit vectors and their opposites the best rotations are exactly the half turns about all axes. -/
theorem C145_antipodes (R : Mat 3 3 ℝ) :
    BestRotation R [⟨1, 0, 0⟩, ⟨0, 1, 0⟩, ⟨0, 0, 1⟩] [⟨-1, 0, 0⟩, ⟨0, -1, 0⟩, ⟨0, 0, -1⟩] ↔
      ∃ m, inner3 m m = 1 ∧ ∀ p, act R p = scale3 (2 * inner3 m p) m - p := by
  have h : SvdSpec (moments [⟨1, 0, 0⟩, ⟨0, 1, 0⟩, ⟨0, 0, 1⟩] [⟨-1, 0, 0⟩, ⟨0, -1, 0⟩, ⟨0, 0, -1⟩]) 1 (fun _ => 1) (-1 : Mat 3 3 ℝ) := by
    refine ⟨by simp, by simp, fun _ => by norm_num, fun _ _ _ => le_refl _, ?_⟩
    ext i j
    fin_cases i <;> fin_cases j <;> simp [moments]
  have hd : (-1 : Mat 3 3 ℝ).det = -1 := by rw [Matrix.det_neg]; simp; norm_num
  rw [(C145_equal [⟨1, 0, 0⟩, ⟨0, 1, 0⟩, ⟨0, 0, 1⟩] [⟨-1, 0, 0⟩, ⟨0, -1, 0⟩, ⟨0, 0, -1⟩] rfl 1 (fun _ => 1) (-1)).1 h (by rw [hd]; simp) rfl (by norm_num) R]
  refine exists_congr fun m => and_congr_right fun _ => forall_congr' fun p => ?_
  have : act ((-1 : Mat 3 3 ℝ).transpose * (1 : Mat 3 3 ℝ).transpose) (p - scale3 (2 * inner3 m p) m) = scale3 (2 * inner3 m p) m - p := by
    rw [act_eq]
    ext <;> simp
  rw [this]

end Blmath.Props
