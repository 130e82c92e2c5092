import Verif.Props.FloatNormals
import Verif.Props.FloatLines
import Verif.Props.Rotation

/-!
Properties C110 and C111: the component of a vector along another and what remains (`proj`, `reject`), and
`rotation_from_up_and_look`, in rounded arithmetic.
-/

namespace Blmath.Props
open Blmath Blmath.Spec Blmath.Vx Blmath.Geometry Blmath.Proofs
variable {rnd : ℝ → ℝ} {u : ℝ}

namespace UL
open FN

/-- the component of `v` along `w` -/
noncomputable def comp (v w : V3 ℝ) : V3 ℝ := scale3 (inner3 v (dir w)) (dir w)

/-- what remains of `v` without its component along `w` -/
noncomputable def rest (v w : V3 ℝ) : V3 ℝ := vec3 (comp v w) v

/-! ### error calculus of vectors -/

theorem g_facts (h : Rounding rnd u) (hu : 40 * u ≤ 1) : 0 ≤ gam u 4 ∧ gam u 4 ≤ 1 / 9 ∧ gam u 1 ≤ gam u 4 / 4 ∧ u ≤ gam u 4 / 4 ∧
    gam u 2 ≤ gam u 4 / 2 ∧ gam u 3 ≤ 3 / 4 * gam u 4 := by
  have h0 := h.nonneg
  have key : ∀ k : ℕ, k ≤ 4 → gam u k ≤ (k : ℝ) / 4 * gam u 4 := by
    intro k hk
    have hk' : (k : ℝ) ≤ 4 := by exact_mod_cast hk
    have h1 : (k : ℝ) * u ≤ 4 * u := mul_le_mul_of_nonneg_right hk' h0
    unfold gam
    push_cast
    have e : (k : ℝ) / 4 * (4 * u / (1 - 4 * u)) = k * u / (1 - 4 * u) := by ring
    rw [e]
    exact div_le_div_of_nonneg_left (by positivity) (by linarith) (by linarith)
  have k1 := key 1 (by norm_num)
  have k2 := key 2 (by norm_num)
  have k3 := key 3 (by norm_num)
  push_cast at k1 k2 k3
  refine ⟨gam_nonneg h0 (by push_cast; linarith), ?_, by linarith, ?_, by linarith, by linarith⟩
  · unfold gam
    push_cast
    rw [div_le_iff₀ (by linarith)]
    linarith
  · refine le_trans ?_ (k1.trans_eq (by ring))
    unfold gam
    push_cast
    rw [le_div_iff₀ (by linarith)]
    nlinarith

theorem relVec_dist (h : Rounding rnd u) {k : ℕ} (hu : (k : ℝ) * u < 1) {f : V3 (Rd rnd)} {a : V3 ℝ} (hf : RelVec u k f a) :
    dist3 a (Rd.vec f) ≤ gam u k * len3 a := by
  have hg := gam_nonneg (k := k) h.nonneg hu
  have key : ∀ {x y : ℝ}, (∃ t, Near u k t ∧ y = x * t) → |y - x| ≤ gam u k * |x| := by
    rintro x y ⟨t, ht, rfl⟩
    have := ht.gam_bound h.nonneg hu h.lt_one
    rw [show x * t - x = (t - 1) * x by ring, abs_mul]
    exact mul_le_mul_of_nonneg_right this (abs_nonneg _)
  have e : len3 (scale3 (gam u k) ⟨|a.x|, |a.y|, |a.z|⟩) = gam u k * len3 a := by
    rw [len3_scale, abs_of_nonneg hg]
    simp [len3]
  rw [← e]
  exact len3_le_of_abs (key hf.1) (key hf.2.1) (key hf.2.2)

theorem dot_dist (h : Rounding rnd u) (hu : 3 * u < 1) (a b : V3 (Rd rnd)) :
    |(V3.dot a b).val - inner3 (Rd.vec a) (Rd.vec b)| ≤ gam u 3 * (len3 (Rd.vec a) * len3 (Rd.vec b)) := by
  have hu' : ((3 : ℕ) : ℝ) * u < 1 := by exact_mod_cast hu
  have hg := gam_nonneg (k := 3) h.nonneg hu'
  obtain ⟨t1, t2, t3, h1, h2, h3, e⟩ := dot_rd h a b
  have b1 := h1.gam_bound h.nonneg hu' h.lt_one
  have b2 := h2.gam_bound h.nonneg hu' h.lt_one
  have b3 := (h3.mono h.nonneg h.lt_one (by norm_num : 2 ≤ 3)).gam_bound h.nonneg hu' h.lt_one
  have c := abs_inner3_le ⟨|a.x.val|, |a.y.val|, |a.z.val|⟩ ⟨|b.x.val|, |b.y.val|, |b.z.val|⟩
  have ea : ∀ v : V3 (Rd rnd), len3 ⟨|v.x.val|, |v.y.val|, |v.z.val|⟩ = len3 (Rd.vec v) := fun v => by simp [len3]
  rw [ea, ea] at c
  have d := (le_abs_self _).trans c
  simp only [inner3] at d
  have e2 : (V3.dot a b).val - inner3 (Rd.vec a) (Rd.vec b) =
      (t1 - 1) * (a.x.val * b.x.val) + (t2 - 1) * (a.y.val * b.y.val) + (t3 - 1) * (a.z.val * b.z.val) := by
    rw [e]; simp only [inner3, Rd.vec_x, Rd.vec_y, Rd.vec_z]; ring
  have m : ∀ {t : ℝ} (p q : ℝ), |t - 1| ≤ gam u 3 → |(t - 1) * (p * q)| ≤ gam u 3 * (|p| * |q|) := by
    intro t p q ht
    rw [abs_mul, abs_mul]
    exact mul_le_mul_of_nonneg_right ht (by positivity)
  rw [e2]
  calc _ ≤ |(t1 - 1) * (a.x.val * b.x.val)| + |(t2 - 1) * (a.y.val * b.y.val)| + |(t3 - 1) * (a.z.val * b.z.val)| :=
        (abs_add_le _ _).trans (add_le_add_left (abs_add_le _ _) _)
    _ ≤ gam u 3 * (|a.x.val| * |b.x.val|) + gam u 3 * (|a.y.val| * |b.y.val|) + gam u 3 * (|a.z.val| * |b.z.val|) :=
        add_le_add (add_le_add (m _ _ b1) (m _ _ b2)) (m _ _ b3)
    _ = gam u 3 * (|a.x.val| * |b.x.val| + |a.y.val| * |b.y.val| + |a.z.val| * |b.z.val|) := by ring
    _ ≤ _ := mul_le_mul_of_nonneg_left d hg

theorem len3_dir {v : V3 ℝ} (hv : v ≠ zero3) : len3 (dir v) = 1 := by
  have := len3_pos hv
  rw [dir, len3_scale, abs_of_pos (by positivity), inv_mul_cancel₀ this.ne']

theorem len3_le_dist (a b : V3 ℝ) : len3 b ≤ len3 a + dist3 a b := by
  have := (abs_le.mp (abs_len_sub a b)).1
  linarith

theorem dist3_smul (a b : ℝ) (v : V3 ℝ) : dist3 (scale3 a v) (scale3 b v) = |b - a| * len3 v := by
  unfold dist3
  rw [← len3_scale]
  congr 1
  ext <;> simp [vec3, scale3] <;> ring

/-- the component along a direction nearly right -/
theorem comp_dist (v y w : V3 ℝ) (hy : len3 y = 1) :
    dist3 (scale3 (inner3 v y) y) (scale3 (inner3 v w) w) ≤ len3 v * dist3 y w * (len3 w + 1) := by
  have h1 : dist3 (scale3 (inner3 v w) y) (scale3 (inner3 v w) w) ≤ len3 v * len3 w * dist3 y w := by
    rw [dist3_scale]
    exact mul_le_mul_of_nonneg_right (abs_inner3_le _ _) (len3_nonneg _)
  have h2 : dist3 (scale3 (inner3 v y) y) (scale3 (inner3 v w) y) ≤ len3 v * dist3 y w := by
    rw [dist3_smul, hy, mul_one]
    have := abs_inner3_le v (vec3 y w)
    have e : inner3 v (vec3 y w) = inner3 v w - inner3 v y := by simp only [inner3, vec3]; ring
    rwa [e] at this
  have := dist3_triangle (scale3 (inner3 v y) y) (scale3 (inner3 v w) y) (scale3 (inner3 v w) w)
  linarith

theorem vec_ne {v : V3 (Rd rnd)} (h : Rounding rnd u) : Num.eq v.norm (Num.lit 0) = true ↔ Rd.vec v = zero3 := by
  obtain ⟨t, ht, e⟩ := norm_rd h v
  have tp := ht.pos h.lt_one
  rw [Rd.eq_iff, e, Rd.val_lit]
  push_cast
  rw [h.zero, mul_eq_zero, or_iff_left tp.ne', len3_eq_zero]

/-- the rounded component along `w` -/
theorem proj_dist (h : Rounding rnd u) (hu : 40 * u ≤ 1) (v w : V3 (Rd rnd)) (hw : Rd.vec w ≠ zero3) :
    dist3 (comp (Rd.vec v) (Rd.vec w)) (Rd.vec (proj3 v w)) ≤ 7 / 2 * gam u 4 * len3 (Rd.vec v) := by
  have h0 := h.nonneg
  obtain ⟨g0, g9, g1, -, -, g3⟩ := g_facts h hu
  have hy := len3_dir hw
  have d1 := normalize_dist h (by linarith) w hw
  have l1 := len3_le_dist (dir (Rd.vec w)) (Rd.vec (normalize3 w))
  have d2 := dot_dist h (by linarith) v (normalize3 w)
  have d3 := comp_dist (Rd.vec v) _ (Rd.vec (normalize3 w)) hy
  have d4 := relVec_dist h (k := 1) (by push_cast; linarith) (f := proj3 v w)
    (a := scale3 (V3.dot v (normalize3 w)).val (Rd.vec (normalize3 w))) ⟨h.factor _, h.factor _, h.factor _⟩
  rw [len3_scale] at d4
  have d5 := dist3_smul (inner3 (Rd.vec v) (Rd.vec (normalize3 w))) (V3.dot v (normalize3 w)).val (Rd.vec (normalize3 w))
  have c := abs_inner3_le (Rd.vec v) (Rd.vec (normalize3 w))
  have t1 := dist3_triangle (comp (Rd.vec v) (Rd.vec w)) (scale3 (inner3 (Rd.vec v) (Rd.vec (normalize3 w))) (Rd.vec (normalize3 w)))
    (Rd.vec (proj3 v w))
  have t2 := dist3_triangle (scale3 (inner3 (Rd.vec v) (Rd.vec (normalize3 w))) (Rd.vec (normalize3 w)))
    (scale3 (V3.dot v (normalize3 w)).val (Rd.vec (normalize3 w))) (Rd.vec (proj3 v w))
  have e : comp (Rd.vec v) (Rd.vec w) = scale3 (inner3 (Rd.vec v) (dir (Rd.vec w))) (dir (Rd.vec w)) := rfl
  rw [← e] at d3
  have hs : |(V3.dot v (normalize3 w)).val| ≤ |inner3 (Rd.vec v) (Rd.vec (normalize3 w))| +
      |(V3.dot v (normalize3 w)).val - inner3 (Rd.vec v) (Rd.vec (normalize3 w))| := by
    have := abs_add_le (inner3 (Rd.vec v) (Rd.vec (normalize3 w))) ((V3.dot v (normalize3 w)).val - inner3 (Rd.vec v) (Rd.vec (normalize3 w)))
    rwa [add_sub_cancel] at this
  rw [hy] at l1
  have hv := len3_nonneg (Rd.vec v)
  have hn := len3_nonneg (Rd.vec (normalize3 w))
  have sp := abs_nonneg (V3.dot v (normalize3 w)).val
  generalize dist3 (comp (Rd.vec v) (Rd.vec w)) (Rd.vec (proj3 v w)) = D at *
  generalize dist3 (dir (Rd.vec w)) (Rd.vec (normalize3 w)) = δ at *
  generalize dist3 (comp (Rd.vec v) (Rd.vec w)) _ = D1 at *
  generalize dist3 (scale3 (inner3 (Rd.vec v) (Rd.vec (normalize3 w))) (Rd.vec (normalize3 w))) (Rd.vec (proj3 v w)) = D2 at *
  generalize dist3 _ (Rd.vec (proj3 v w)) = D3 at *
  generalize dist3 _ (scale3 (V3.dot v (normalize3 w)).val (Rd.vec (normalize3 w))) = D4 at *
  generalize len3 (Rd.vec v) = L at *
  generalize len3 (Rd.vec (normalize3 w)) = N at *
  generalize |(V3.dot v (normalize3 w)).val - inner3 (Rd.vec v) (Rd.vec (normalize3 w))| = E at *
  generalize |(V3.dot v (normalize3 w)).val| = S at *
  generalize |inner3 (Rd.vec v) (Rd.vec (normalize3 w))| = I at *
  generalize gam u 4 = g at *
  generalize gam u 3 = g' at *
  generalize gam u 1 = g'' at *
  have N1 : N ≤ 10 / 9 := by linarith
  have hLN : L * N ≤ L * (10 / 9) := mul_le_mul_of_nonneg_left N1 hv
  have hLN0 : 0 ≤ L * N := mul_nonneg hv hn
  have gL : 0 ≤ g * L := mul_nonneg g0 hv
  have hE : E ≤ 5 / 6 * (g * L) := by
    have a1 : g' * (L * N) ≤ 3 / 4 * g * (L * N) := mul_le_mul_of_nonneg_right g3 hLN0
    have a2 : 3 / 4 * g * (L * N) ≤ 3 / 4 * g * (L * (10 / 9)) := mul_le_mul_of_nonneg_left hLN (by positivity)
    linarith
  have hS : S ≤ 6 / 5 * L + 1 / 100 * L := by
    have : g * L ≤ 1 / 9 * L := mul_le_mul_of_nonneg_right g9 hv
    linarith
  have hS0 : S * N ≤ 121 / 100 * L * (10 / 9) := mul_le_mul (by linarith) N1 hn (by positivity)
  have h4 : D4 ≤ 5 / 6 * (g * L) * (10 / 9) := by
    rw [d5]
    exact mul_le_mul hE N1 hn (by positivity)
  have h3 : D3 ≤ g / 4 * (121 / 100 * L * (10 / 9)) := by
    refine d4.trans ?_
    exact (mul_le_mul_of_nonneg_right g1 (mul_nonneg sp hn)).trans (mul_le_mul_of_nonneg_left hS0 (by positivity))
  have h1 : D1 ≤ L * g * (10 / 9 + 1) := by
    refine d3.trans ?_
    exact mul_le_mul (mul_le_mul_of_nonneg_left d1 hv) (by linarith) (by positivity) (by positivity)
  linarith

theorem inner_comp (v w : V3 ℝ) : inner3 (rest v w) (dir w) * len3 w = 0 := by
  by_cases hw : w = zero3
  · rw [len3_eq_zero.mpr hw, mul_zero]
  · have h1 : inner3 (dir w) (dir w) = 1 := by rw [inner3_self, len3_dir hw]; norm_num
    have e : inner3 (rest v w) (dir w) = inner3 v (dir w) - inner3 v (dir w) * inner3 (dir w) (dir w) := by
      simp only [rest, comp, vec3, scale3, inner3]; ring
    rw [e, h1]; ring

/-- what remains has the length of the vector times the sine of the angle -/
theorem rest_len (v w : V3 ℝ) (hw : w ≠ zero3) : len3 (rest v w) * len3 w = len3 (cross3 w v) := by
  have hp := len3_pos hw
  have hd := len3_dir hw
  have h1 : inner3 (dir w) (dir w) = 1 := by rw [inner3_self, hd]; norm_num
  have h2 : inner3 (rest v w) (rest v w) = inner3 v v - inner3 v (dir w) ^ 2 * (2 - inner3 (dir w) (dir w)) := by
    simp only [rest, comp, vec3, scale3, inner3]; ring
  have h3 : inner3 v (dir w) * len3 w = inner3 v w := by
    rw [dir, inner3_scale_right]; field_simp
  apply (sq_eq_sq₀ (mul_nonneg (len3_nonneg _) hp.le) (len3_nonneg _)).mp
  rw [mul_pow, ← inner3_self, h2, h1, ← inner3_self w, ← inner3_self (cross3 w v), lagrange3, inner3_self w, inner3_self v, inner3_comm w v, ← h3]
  ring

theorem rest_le (v w : V3 ℝ) (hw : w ≠ zero3) : len3 (rest v w) ≤ len3 v := by
  have hd := len3_dir hw
  have h1 : inner3 (dir w) (dir w) = 1 := by rw [inner3_self, hd]; norm_num
  have h2 : inner3 (rest v w) (rest v w) = inner3 v v - inner3 v (dir w) ^ 2 * (2 - inner3 (dir w) (dir w)) := by
    simp only [rest, comp, vec3, scale3, inner3]; ring
  rw [h1, inner3_self, inner3_self] at h2
  apply (sq_le_sq₀ (len3_nonneg _) (len3_nonneg _)).mp
  nlinarith [sq_nonneg (inner3 v (dir w))]

theorem reject_dist (h : Rounding rnd u) (hu : 40 * u ≤ 1) (v w : V3 (Rd rnd)) (hw : Rd.vec w ≠ zero3) :
    dist3 (rest (Rd.vec v) (Rd.vec w)) (Rd.vec (reject3 v w)) ≤ 4 * gam u 4 * len3 (Rd.vec v) := by
  have h0 := h.nonneg
  obtain ⟨g0, g9, g1, -, -, -⟩ := g_facts h hu
  have d1 := proj_dist h hu v w hw
  have d2 := relVec_dist h (k := 1) (by push_cast; linarith) (f := reject3 v w)
    (a := vec3 (Rd.vec (proj3 v w)) (Rd.vec v)) ⟨h.factor _, h.factor _, h.factor _⟩
  have d3 : dist3 (rest (Rd.vec v) (Rd.vec w)) (vec3 (Rd.vec (proj3 v w)) (Rd.vec v)) =
      dist3 (comp (Rd.vec v) (Rd.vec w)) (Rd.vec (proj3 v w)) := by
    rw [dist3_comm (comp _ _)]
    unfold dist3
    congr 1
    ext <;> simp only [rest, vec3] <;> ring
  have l := rest_le (Rd.vec v) _ hw
  have l2 := len3_le_dist (rest (Rd.vec v) (Rd.vec w)) (vec3 (Rd.vec (proj3 v w)) (Rd.vec v))
  have t := dist3_triangle (rest (Rd.vec v) (Rd.vec w)) (vec3 (Rd.vec (proj3 v w)) (Rd.vec v)) (Rd.vec (reject3 v w))
  rw [d3] at l2 t
  have hv := len3_nonneg (Rd.vec v)
  have gL : gam u 4 * len3 (Rd.vec v) ≤ 1 / 9 * len3 (Rd.vec v) := mul_le_mul_of_nonneg_right g9 hv
  have m1 : gam u 1 * len3 (vec3 (Rd.vec (proj3 v w)) (Rd.vec v)) ≤ gam u 4 / 4 * (2 * len3 (Rd.vec v)) :=
    mul_le_mul g1 (by linarith) (len3_nonneg _) (by positivity)
  linarith

/-- a coordinate axis -/
def OnAxis (w : V3 ℝ) : Prop := ∃ c : ℝ, c ≠ 0 ∧ rnd53 c = c ∧ (w = ⟨c, 0, 0⟩ ∨ w = ⟨0, c, 0⟩ ∨ w = ⟨0, 0, c⟩)

/-- the components are doubles -/
def Doubles (v : V3 ℝ) : Prop := rnd53 v.x = v.x ∧ rnd53 v.y = v.y ∧ rnd53 v.z = v.z

theorem rnd53_one : rnd53 1 = 1 := rounding_rnd53.one

theorem normalize_axis {w : V3 (Rd rnd53)} {c : ℝ} (h0 : c ≠ 0) (hc : rnd53 c = c)
    (hw : Rd.vec w = ⟨c, 0, 0⟩ ∨ Rd.vec w = ⟨0, c, 0⟩ ∨ Rd.vec w = ⟨0, 0, c⟩) :
    Rd.vec (normalize3 w) = dir (Rd.vec w) := by
  have hn : (V3.norm w).val = |c| := LI.unit_axis hc hw
  have hl : len3 (Rd.vec w) = |c| := by
    rcases hw with e | e | e <;> rw [e] <;> simp [len3, Real.sqrt_sq_eq_abs]
  have key : ∀ x : ℝ, x = c ∨ x = 0 → rnd53 (x / |c|) = |c|⁻¹ * x := by
    rintro x (rfl | rfl)
    · rcases lt_or_gt_of_ne h0 with hx | hx
      · rw [abs_of_neg hx, div_neg, div_self h0, rnd53_neg, rnd53_one]; field_simp
      · rw [abs_of_pos hx, div_self h0, rnd53_one]; field_simp
    · simp [rnd53_zero]
  have ex : ∀ d : Rd rnd53, (d / V3.norm w).val = rnd53 (d.val / |c|) := fun d => by rw [Rd.val_div, hn]
  have hx := congrArg V3.x (rfl : Rd.vec w = Rd.vec w)
  unfold dir
  rw [hl]
  have cs : (w.x.val = c ∨ w.x.val = 0) ∧ (w.y.val = c ∨ w.y.val = 0) ∧ (w.z.val = c ∨ w.z.val = 0) := by
    rcases hw with e | e | e <;> simp only [Rd.vec, V3.mk.injEq] at e <;> simp [e]
  ext
  · show (w.x / V3.norm w).val = _
    rw [ex, key _ cs.1]; rfl
  · show (w.y / V3.norm w).val = _
    rw [ex, key _ cs.2.1]; rfl
  · show (w.z / V3.norm w).val = _
    rw [ex, key _ cs.2.2]; rfl

theorem dir_axis {w : V3 ℝ} {c : ℝ} (h0 : c ≠ 0) (hw : w = ⟨c, 0, 0⟩ ∨ w = ⟨0, c, 0⟩ ∨ w = ⟨0, 0, c⟩) :
    ∃ s : ℝ, (s = 1 ∨ s = -1) ∧ (dir w = ⟨s, 0, 0⟩ ∨ dir w = ⟨0, s, 0⟩ ∨ dir w = ⟨0, 0, s⟩) := by
  have hl : len3 w = |c| := by
    rcases hw with e | e | e <;> rw [e] <;> simp [len3, Real.sqrt_sq_eq_abs]
  refine ⟨|c|⁻¹ * c, ?_, ?_⟩
  · rcases lt_or_gt_of_ne h0 with hx | hx
    · right; rw [abs_of_neg hx]; field_simp
    · left; rw [abs_of_pos hx]; field_simp
  · unfold dir
    rw [hl]
    rcases hw with rfl | rfl | rfl <;> simp [scale3]

theorem reject_axis {v w : V3 (Rd rnd53)} (hv : Doubles (Rd.vec v)) (hw : OnAxis (Rd.vec w)) :
    Rd.vec (proj3 v w) = comp (Rd.vec v) (Rd.vec w) ∧ Rd.vec (reject3 v w) = rest (Rd.vec v) (Rd.vec w) := by
  obtain ⟨c, h0, hc, hw⟩ := hw
  have hn := normalize_axis h0 hc hw
  obtain ⟨s, hs, hd⟩ := dir_axis h0 hw
  obtain ⟨h1, h2, h3⟩ := hv
  simp only [Rd.vec_x, Rd.vec_y, Rd.vec_z] at h1 h2 h3
  have hs' : ∀ x : ℝ, rnd53 x = x → rnd53 (x * s) = x * s := by
    intro x hx
    rcases hs with rfl | rfl
    · simpa using hx
    · rw [mul_neg_one, rnd53_neg, hx]
  have hss : ∀ x : ℝ, x * s * s = x := by
    intro x; rcases hs with rfl | rfl <;> ring
  have hp : Rd.vec (proj3 v w) = comp (Rd.vec v) (Rd.vec w) := by
    unfold comp proj3
    have e : ∀ i : Rd rnd53, (V3.dot v (normalize3 w) * i).val = rnd53 (rnd53 (rnd53 (rnd53 (v.x.val * (dir (Rd.vec w)).x) +
        rnd53 (v.y.val * (dir (Rd.vec w)).y)) + rnd53 (v.z.val * (dir (Rd.vec w)).z)) * i.val) := by
      intro i; rw [← hn]; rfl
    have n1 : (normalize3 w).x.val = (dir (Rd.vec w)).x := congrArg V3.x hn
    have n2 : (normalize3 w).y.val = (dir (Rd.vec w)).y := congrArg V3.y hn
    have n3 : (normalize3 w).z.val = (dir (Rd.vec w)).z := congrArg V3.z hn
    ext
    · show (V3.dot v (normalize3 w) * (normalize3 w).x).val = _
      rw [e, n1]
      rcases hd with e' | e' | e' <;> simp [e', scale3, inner3, rnd53_zero, hs' _ h1, hs' _ h2, hs' _ h3, hss, h1, h2, h3]
    · show (V3.dot v (normalize3 w) * (normalize3 w).y).val = _
      rw [e, n2]
      rcases hd with e' | e' | e' <;> simp [e', scale3, inner3, rnd53_zero, hs' _ h1, hs' _ h2, hs' _ h3, hss, h1, h2, h3]
    · show (V3.dot v (normalize3 w) * (normalize3 w).z).val = _
      rw [e, n3]
      rcases hd with e' | e' | e' <;> simp [e', scale3, inner3, rnd53_zero, hs' _ h1, hs' _ h2, hs' _ h3, hss, h1, h2, h3]
  refine ⟨hp, ?_⟩
  have p1 : (proj3 v w).x.val = _ := congrArg V3.x hp
  have p2 : (proj3 v w).y.val = _ := congrArg V3.y hp
  have p3 : (proj3 v w).z.val = _ := congrArg V3.z hp
  ext
  · show rnd53 (v.x.val - (proj3 v w).x.val) = _
    rw [p1]
    rcases hd with e' | e' | e' <;> simp [rest, comp, vec3, e', scale3, inner3, rnd53_zero, hss, h1, h2, h3]
  · show rnd53 (v.y.val - (proj3 v w).y.val) = _
    rw [p2]
    rcases hd with e' | e' | e' <;> simp [rest, comp, vec3, e', scale3, inner3, rnd53_zero, hss, h1, h2, h3]
  · show rnd53 (v.z.val - (proj3 v w).z.val) = _
    rw [p3]
    rcases hd with e' | e' | e' <;> simp [rest, comp, vec3, e', scale3, inner3, rnd53_zero, hss, h1, h2, h3]

theorem normalize_up (a : V3 QD) : normalize3 (LI.upQ a) = LI.upQ (normalize3 a) := by
  unfold normalize3
  rw [LI.norm_up, LI.sdiv_up]

theorem dot_up (a b : V3 QD) : V3.dot (LI.upQ a) (LI.upQ b) = (V3.dot a b).toRd := by
  simp [LI.upQ, V3.dot, QD.toRd_add, QD.toRd_mul]

theorem proj_up (a b : V3 QD) : proj3 (LI.upQ a) (LI.upQ b) = LI.upQ (proj3 a b) := by
  unfold proj3
  rw [normalize_up, dot_up, LI.smul_up]

theorem reject_up (a b : V3 QD) : reject3 (LI.upQ a) (LI.upQ b) = LI.upQ (reject3 a b) := by
  unfold reject3
  rw [proj_up, LI.sub_up]

theorem cross_bilin (a b c d : V3 ℝ) : dist3 (cross3 a b) (cross3 c d) ≤ dist3 a c * len3 d + len3 a * dist3 b d := by
  have e : vec3 (cross3 a b) (cross3 c d) = cross3 (vec3 a c) d + cross3 a (vec3 b d) := by
    ext <;> simp [vec3, cross3] <;> ring
  have le : ∀ p q : V3 ℝ, len3 (cross3 p q) ≤ len3 p * len3 q := by
    intro p q
    apply (sq_le_sq₀ (len3_nonneg _) (mul_nonneg (len3_nonneg _) (len3_nonneg _))).mp
    rw [mul_pow, ← inner3_self, lagrange3, inner3_self, inner3_self]
    nlinarith [sq_nonneg (inner3 p q)]
  unfold dist3
  rw [e]
  exact (len3_add_le _ _).trans (add_le_add (le _ _) (le _ _))

theorem inner_bilin (a b c d : V3 ℝ) : |inner3 c d - inner3 a b| ≤ dist3 a c * len3 d + len3 a * dist3 b d := by
  have e : inner3 c d - inner3 a b = inner3 (vec3 a c) d + inner3 a (vec3 b d) := by
    simp only [vec3, inner3]; ring
  rw [e]
  exact (abs_add_le _ _).trans (add_le_add (abs_inner3_le _ _) (abs_inner3_le _ _))

theorem cross_rest (v w : V3 ℝ) : cross3 w (rest v w) = cross3 w v := by
  ext <;> simp only [cross3, rest, comp, vec3, scale3, dir] <;> ring

theorem cross_dir (v w : V3 ℝ) (h : cross3 w v ≠ zero3) : cross3 (dir w) (dir (rest v w)) = dir (cross3 w v) := by
  have hw : w ≠ zero3 := by rintro rfl; apply h; ext <;> simp [cross3, zero3]
  have hl := rest_len v w hw
  have e : cross3 (dir w) (dir (rest v w)) = scale3 ((len3 (rest v w))⁻¹ * (len3 w)⁻¹) (cross3 w (rest v w)) := by
    ext <;> simp only [cross3, dir, scale3] <;> ring
  rw [e, cross_rest, dir, ← hl, mul_inv]

/-- the function with its intermediate values named -/
theorem upLook_eq (h : Rounding rnd u) (up look : V3 (Rd rnd)) : rotationFromUpAndLook up look =
    open Classical in if Rd.vec up = zero3 ∨ Rd.vec look = zero3 ∨ Rd.vec (reject3 look up) = zero3 then .error .ValueError
    else .ok (Mat.ofRows (V3.cross (normalize3 up) (normalize3 (reject3 look up))) (normalize3 up) (normalize3 (reject3 look up))) := by
  classical
  have e : rotationFromUpAndLook up look =
    if Num.eq up.norm (Num.lit 0) then raise .ValueError
    else if Num.eq look.norm (Num.lit 0) then raise .ValueError
    else if Num.eq (reject3 look up).norm (Num.lit 0) then raise .ValueError
    else .ok (Mat.ofRows (V3.cross (normalize3 up) (normalize3 (reject3 look up))) (normalize3 up) (normalize3 (reject3 look up))) := rfl
  rw [e]
  by_cases h1 : Rd.vec up = zero3
  · rw [if_pos ((vec_ne h).mpr h1), if_pos (.inl h1)]
  rw [if_neg (fun c => h1 ((vec_ne h).mp c))]
  by_cases h2 : Rd.vec look = zero3
  · rw [if_pos ((vec_ne h).mpr h2), if_pos (.inr (.inl h2))]
  rw [if_neg (fun c => h2 ((vec_ne h).mp c))]
  by_cases h3 : Rd.vec (reject3 look up) = zero3
  · rw [if_pos ((vec_ne h).mpr h3), if_pos (.inr (.inr h3))]
  rw [if_neg (fun c => h3 ((vec_ne h).mp c)), if_neg (by tauto)]

end UL
open UL FN

/-! ### C110: components -/

/-- **C110.** In any rounded arithmetic `proj v w` is the component of `v` along `w` up to `7/2·gam u 4` of the length of `v`; whatever
its length, it has the direction of `w` up to five roundings of each component. -/
theorem C110_proj (h : Rounding rnd u) (hu : 40 * u ≤ 1) (v w : V3 (Rd rnd)) (hw : Rd.vec w ≠ zero3) :
    dist3 (comp (Rd.vec v) (Rd.vec w)) (Rd.vec (proj3 v w)) ≤ 7 / 2 * gam u 4 * len3 (Rd.vec v) ∧
    ∃ s : ℝ, dist3 (scale3 s (dir (Rd.vec w))) (Rd.vec (proj3 v w)) ≤ gam u 5 * |s| := by
  refine ⟨proj_dist h hu v w hw, (V3.dot v (normalize3 w)).val, ?_⟩
  have h0 := h.nonneg
  have key : ∀ c : Rd rnd, ∃ t, Near u 5 t ∧ (V3.dot v (normalize3 w) * (c / w.norm)).val =
      (V3.dot v (normalize3 w)).val * ((len3 (Rd.vec w))⁻¹ * c.val) * t := by
    intro c
    obtain ⟨t, ht, e⟩ := normalize3_factor h w c
    obtain ⟨d, hd, ed⟩ := h.factor ((V3.dot v (normalize3 w)).val * (c / w.norm).val)
    refine ⟨t * d, ht.mul h.lt_one hd, ?_⟩
    rw [Rd.val_mul, ed, e]
    ring
  have := relVec_dist h (k := 5) (by push_cast; linarith) (f := proj3 v w) (a := scale3 (V3.dot v (normalize3 w)).val (dir (Rd.vec w)))
    ⟨key w.x, key w.y, key w.z⟩
  rwa [len3_scale, len3_dir hw, mul_one] at this

/-- **C110.** `reject v w` is what remains of `v` up to `4·gam u 4` of the length of `v`, and to that extent perpendicular to `w`. -/
theorem C110_reject (h : Rounding rnd u) (hu : 40 * u ≤ 1) (v w : V3 (Rd rnd)) (hw : Rd.vec w ≠ zero3) :
    dist3 (rest (Rd.vec v) (Rd.vec w)) (Rd.vec (reject3 v w)) ≤ 4 * gam u 4 * len3 (Rd.vec v) ∧
    |inner3 (Rd.vec (reject3 v w)) (Rd.vec w)| ≤ 4 * gam u 4 * (len3 (Rd.vec v) * len3 (Rd.vec w)) := by
  have hd := reject_dist h hu v w hw
  refine ⟨hd, ?_⟩
  have hp := len3_pos hw
  have c := abs_inner3_le (vec3 (rest (Rd.vec v) (Rd.vec w)) (Rd.vec (reject3 v w))) (Rd.vec w)
  have e0 : inner3 (rest (Rd.vec v) (Rd.vec w)) (Rd.vec w) = 0 := by
    have := (mul_eq_zero.mp (inner_comp (Rd.vec v) (Rd.vec w))).resolve_right hp.ne'
    rw [dir, inner3_scale_right] at this
    exact (mul_eq_zero.mp this).resolve_left (inv_ne_zero hp.ne')
  have e : inner3 (vec3 (rest (Rd.vec v) (Rd.vec w)) (Rd.vec (reject3 v w))) (Rd.vec w) = inner3 (Rd.vec (reject3 v w)) (Rd.vec w) := by
    have : inner3 (vec3 (rest (Rd.vec v) (Rd.vec w)) (Rd.vec (reject3 v w))) (Rd.vec w) =
        inner3 (Rd.vec (reject3 v w)) (Rd.vec w) - inner3 (rest (Rd.vec v) (Rd.vec w)) (Rd.vec w) := by
      simp only [vec3, inner3]; ring
    rw [this, e0, sub_zero]
  rw [e] at c
  refine c.trans ((mul_le_mul_of_nonneg_right hd hp.le).trans_eq (by ring))

/-- **C110.** Each component of `v` is the sum of those of `proj v w` and `reject v w` up to one rounding of the latter. -/
theorem C110_split (h : Rounding rnd u) (v w : V3 (Rd rnd)) :
    |(proj3 v w).x.val + (reject3 v w).x.val - v.x.val| ≤ u * |v.x.val - (proj3 v w).x.val| ∧
    |(proj3 v w).y.val + (reject3 v w).y.val - v.y.val| ≤ u * |v.y.val - (proj3 v w).y.val| ∧
    |(proj3 v w).z.val + (reject3 v w).z.val - v.z.val| ≤ u * |v.z.val - (proj3 v w).z.val| := by
  have key : ∀ a b : ℝ, |b + rnd (a - b) - a| ≤ u * |a - b| := by
    intro a b
    have := h.err (a - b)
    rwa [show rnd (a - b) - (a - b) = b + rnd (a - b) - a by ring] at this
  exact ⟨key _ _, key _ _, key _ _⟩

/-- **C110.** Along a coordinate axis both are exact in doubles: `proj` keeps one component and `reject` removes it. -/
theorem C110_axis (v w : V3 (Rd rnd53)) (hv : Doubles (Rd.vec v)) (hw : OnAxis (Rd.vec w)) :
    Rd.vec (proj3 v w) = comp (Rd.vec v) (Rd.vec w) ∧ Rd.vec (reject3 v w) = rest (Rd.vec v) (Rd.vec w) :=
  reject_axis hv hw

/-- **C110.** In doubles a vector rejected from itself need not vanish, and what is left over may be parallel to it. -/
theorem C110_left :
    let v : V3 (Rd rnd53) := LI.iv ⟨1, 1, 1⟩
    rest (Rd.vec v) (Rd.vec v) = zero3 ∧ reject3 v v = ⟨⟨-1 / 2 ^ 52⟩, ⟨-1 / 2 ^ 52⟩, ⟨-1 / 2 ^ 52⟩⟩ := by
  intro v
  constructor
  · have e : Rd.vec v = (⟨1, 1, 1⟩ : V3 ℝ) := by
      ext <;> simp [v, LI.iv]
    rw [e]
    have h3 : len3 (⟨1, 1, 1⟩ : V3 ℝ) ^ 2 = 3 := by rw [len3_sq]; norm_num
    have hp : len3 (⟨1, 1, 1⟩ : V3 ℝ) ≠ 0 := by intro c; rw [c] at h3; norm_num at h3
    ext <;> simp only [rest, comp, dir, vec3, scale3, inner3, zero3] <;> field_simp <;> rw [h3] <;> norm_num
  · have e : reject3 (LI.qv ⟨1, 1, 1⟩) (LI.qv ⟨1, 1, 1⟩) = (⟨⟨-1 / 2 ^ 52⟩, ⟨-1 / 2 ^ 52⟩, ⟨-1 / 2 ^ 52⟩⟩ : V3 QD) := by
      decide +kernel
    show reject3 (LI.iv _) (LI.iv _) = _
    rw [← LI.up_qv, reject_up, e]
    ext <;> simp [LI.upQ, QD.toRd]

/-! ### C111: `rotation_from_up_and_look` -/

/-- **C111.** In any rounded arithmetic zero vectors are rejected, always with `ValueError`, and otherwise only vectors for which the sine of the
angle between them is at most `4·gam u 4`. -/
theorem C111_errors (h : Rounding rnd u) (hu : 40 * u ≤ 1) (up look : V3 (Rd rnd)) :
    let U := Rd.vec up
    let L := Rd.vec look
    (U = zero3 ∨ L = zero3 → rotationFromUpAndLook up look = .error .ValueError) ∧
    (∀ e, rotationFromUpAndLook up look = .error e → e = .ValueError ∧ len3 (cross3 U L) ≤ 4 * gam u 4 * (len3 U * len3 L)) := by
  classical
  intro U L
  have he := upLook_eq h up look
  have g0 := (g_facts h hu).1
  constructor
  · intro hz
    rw [he, if_pos (by tauto)]
  · intro e hr
    rw [he] at hr
    split at hr
    · rename_i hc
      injection hr with hr
      refine ⟨hr.symm, ?_⟩
      have hUL := mul_nonneg (len3_nonneg U) (len3_nonneg L)
      by_cases hU : U = zero3
      · have : cross3 U L = zero3 := by rw [hU]; ext <;> simp [cross3, zero3]
        rw [len3_eq_zero.mpr this]; positivity
      by_cases hL : L = zero3
      · have : cross3 U L = zero3 := by rw [hL]; ext <;> simp [cross3, zero3]
        rw [len3_eq_zero.mpr this]; positivity
      have h3 : Rd.vec (reject3 look up) = zero3 := by tauto
      have d := reject_dist h hu look up hU
      rw [h3] at d
      have e1 : dist3 (rest L U) zero3 = len3 (rest L U) := by
        rw [dist3_comm]; unfold dist3; congr 1; ext <;> simp [vec3, zero3]
      have d' : len3 (rest L U) ≤ 4 * gam u 4 * len3 L := by rw [← e1]; exact d
      rw [← rest_len L U hU]
      exact (mul_le_mul_of_nonneg_right d' (len3_nonneg U)).trans_eq (by ring)
    · cases hr

/-- **C111.** The rows of an accepted result: `up` and `look` (straightened) have unit length up to `gam u 4`, the third row is perpendicular to them
up to `gam u 4`, the row of `up` has its direction up to `gam u 4`, and the distances of the others from the exact rows are at most `9·gam u 4` and
`11·gam u 4` over the sine of the angle between `up` and `look`. -/
theorem C111_rows (h : Rounding rnd u) (hu : 40 * u ≤ 1) (up look : V3 (Rd rnd)) (R : Mat 3 3 (Rd rnd))
    (hR : rotationFromUpAndLook up look = .ok R) :
    let U := Rd.vec up
    let L := Rd.vec look
    let g := gam u 4
    let S := len3 (cross3 U L)
    let B := len3 U * len3 L
    ∃ x y z : V3 (Rd rnd), R = Mat.ofRows x y z ∧
      |len3 (Rd.vec y) - 1| ≤ g ∧ |len3 (Rd.vec z) - 1| ≤ g ∧
      |inner3 (Rd.vec x) (Rd.vec y)| ≤ g ∧ |inner3 (Rd.vec x) (Rd.vec z)| ≤ g ∧
      dist3 (dir U) (Rd.vec y) ≤ g ∧
      dist3 (dir (rest L U)) (Rd.vec z) * S ≤ 9 * g * B ∧
      dist3 (dir (cross3 U L)) (Rd.vec x) * S ≤ 11 * g * B ∧
      |inner3 (Rd.vec y) (Rd.vec z)| * S ≤ 11 * g * B := by
  classical
  intro U L g S B
  have h0 := h.nonneg
  rw [upLook_eq h] at hR
  split at hR
  · cases hR
  rename_i hc
  simp only [not_or] at hc
  obtain ⟨hU, hL, hz⟩ := hc
  injection hR with hR
  obtain ⟨g0, g9, -, -, g2, -⟩ := g_facts h hu
  have hu4 : 4 * u < 1 := by linarith
  have ly := C80_length h hu4 up hU
  have lz := C80_length h hu4 (reject3 look up) hz
  have dy := normalize_dist h hu4 up hU
  have dz := normalize_dist h hu4 (reject3 look up) hz
  have dc := cross_dist h (k := 0) (l := 0) (by push_cast; linarith) (relVec_self (u := u) (normalize3 up)) (relVec_self (u := u) (normalize3 (reject3 look up)))
  obtain ⟨Y, hY⟩ : ∃ Y, Y = normalize3 up := ⟨_, rfl⟩
  obtain ⟨Z, hZ⟩ : ∃ Z, Z = normalize3 (reject3 look up) := ⟨_, rfl⟩
  rw [← hY, ← hZ] at hR
  rw [← hY] at ly dy dc
  rw [← hZ] at lz dz dc
  refine ⟨V3.cross Y Z, Y, Z, hR.symm, ly, lz, ?_⟩
  have hB : 0 ≤ B := mul_nonneg (len3_nonneg _) (len3_nonneg _)
  have hS0 : 0 ≤ S := len3_nonneg _
  have hSB : S ≤ B := by
    show len3 (cross3 U L) ≤ len3 U * len3 L
    rw [← rest_len L U hU, mul_comm]
    exact mul_le_mul_of_nonneg_left (rest_le L U hU) (len3_nonneg _)
  have Yb : len3 (Rd.vec Y) ≤ 10 / 9 := by linarith [(abs_le.mp ly).2]
  have Zb : len3 (Rd.vec Z) ≤ 10 / 9 := by linarith [(abs_le.mp lz).2]
  have Y0 := len3_nonneg (Rd.vec Y)
  have Z0 := len3_nonneg (Rd.vec Z)
  -- the rounding of the vector product
  have dx : dist3 (cross3 (Rd.vec Y) (Rd.vec Z)) (Rd.vec (V3.cross Y Z)) ≤ 8 / 9 * g := by
    have hs2 : Real.sqrt 2 ≤ 71 / 50 := by rw [Real.sqrt_le_left (by norm_num)]; norm_num
    have m : Real.sqrt 2 * (len3 (Rd.vec Y) * len3 (Rd.vec Z)) ≤ 71 / 50 * (10 / 9 * (10 / 9)) :=
      mul_le_mul hs2 (mul_le_mul Yb Zb Z0 (by norm_num)) (by positivity) (by norm_num)
    have m2 : gam u 2 * (Real.sqrt 2 * (len3 (Rd.vec Y) * len3 (Rd.vec Z))) ≤ g / 2 * (71 / 50 * (10 / 9 * (10 / 9))) :=
      mul_le_mul g2 m (by positivity) (by positivity)
    have : dist3 (cross3 (Rd.vec Y) (Rd.vec Z)) (Rd.vec (V3.cross Y Z)) ≤ gam u 2 * (Real.sqrt 2 * (len3 (Rd.vec Y) * len3 (Rd.vec Z))) := dc
    have hg : g = gam u 4 := rfl
    rw [← hg] at g0
    linarith
  have perp : ∀ q : V3 ℝ, inner3 (cross3 (Rd.vec Y) (Rd.vec Z)) q = 0 → len3 q ≤ 10 / 9 → |inner3 (Rd.vec (V3.cross Y Z)) q| ≤ g := by
    intro q hq lq
    have c := abs_inner3_le (vec3 (cross3 (Rd.vec Y) (Rd.vec Z)) (Rd.vec (V3.cross Y Z))) q
    have e : inner3 (vec3 (cross3 (Rd.vec Y) (Rd.vec Z)) (Rd.vec (V3.cross Y Z))) q =
        inner3 (Rd.vec (V3.cross Y Z)) q - inner3 (cross3 (Rd.vec Y) (Rd.vec Z)) q := by
      simp only [vec3, inner3]; ring
    rw [e, hq, sub_zero] at c
    have m : dist3 (cross3 (Rd.vec Y) (Rd.vec Z)) (Rd.vec (V3.cross Y Z)) * len3 q ≤ 8 / 9 * g * (10 / 9) :=
      mul_le_mul dx lq (len3_nonneg _) (by positivity)
    have c' : |inner3 (Rd.vec (V3.cross Y Z)) q| ≤ dist3 (cross3 (Rd.vec Y) (Rd.vec Z)) (Rd.vec (V3.cross Y Z)) * len3 q := c
    have hg0 : 0 ≤ g := g0
    linarith
  refine ⟨perp _ (inner3_cross_left _ _) Yb, perp _ (inner3_cross_right _ _) Zb, dy, ?_⟩
  by_cases hn : cross3 U L = zero3
  · have hS : S = 0 := len3_eq_zero.mpr hn
    rw [hS, mul_zero, mul_zero, mul_zero]
    have : 0 ≤ g * B := mul_nonneg g0 hB
    exact ⟨by linarith, by linarith, by linarith⟩
  have hrl := rest_len L U hU
  have hr0 : rest L U ≠ zero3 := by
    intro c
    rw [len3_eq_zero.mpr c, zero_mul] at hrl
    exact hn (len3_eq_zero.mp hrl.symm)
  have dr := reject_dist h hu look up hU
  have D1 := dir_dist (Rd.vec (reject3 look up)) (rest L U) hz hr0
  rw [dist3_comm, dist3_comm (Rd.vec (reject3 look up))] at D1
  have tz := dist3_triangle (dir (rest L U)) (dir (Rd.vec (reject3 look up))) (Rd.vec Z)
  have hDz : dist3 (dir (rest L U)) (Rd.vec Z) * len3 (rest L U) ≤ 9 * g * len3 L := by
    have a1 := mul_le_mul_of_nonneg_right tz (len3_nonneg (rest L U))
    have a2 := mul_le_mul dz (rest_le L U hU) (len3_nonneg _) g0
    have a3 : dist3 (rest L U) (Rd.vec (reject3 look up)) ≤ 4 * g * len3 L := dr
    have a4 : dist3 (dir (Rd.vec (reject3 look up))) (Rd.vec Z) * len3 (rest L U) ≤ g * len3 L := a2
    linarith
  have hz9 : dist3 (dir (rest L U)) (Rd.vec Z) * S ≤ 9 * g * B := by
    have := mul_le_mul_of_nonneg_right hDz (len3_nonneg U)
    rw [mul_assoc, hrl] at this
    exact this.trans_eq (by simp only [B]; ring)
  refine ⟨hz9, ?_, ?_⟩
  · have cb := cross_bilin (dir U) (dir (rest L U)) (Rd.vec Y) (Rd.vec Z)
    rw [cross_dir L U hn, len3_dir hU, one_mul] at cb
    have tx := dist3_triangle (dir (cross3 U L)) (cross3 (Rd.vec Y) (Rd.vec Z)) (Rd.vec (V3.cross Y Z))
    have my : dist3 (dir U) (Rd.vec Y) * len3 (Rd.vec Z) ≤ g * (10 / 9) := mul_le_mul dy Zb Z0 g0
    have hx : dist3 (dir (cross3 U L)) (Rd.vec (V3.cross Y Z)) ≤ 2 * g + dist3 (dir (rest L U)) (Rd.vec Z) := by
      have hg0 : 0 ≤ g := g0
      linarith
    have m := mul_le_mul_of_nonneg_right hx hS0
    have m2 : g * S ≤ g * B := mul_le_mul_of_nonneg_left hSB g0
    linarith
  · have ib := inner_bilin (dir U) (dir (rest L U)) (Rd.vec Y) (Rd.vec Z)
    have e0 : inner3 (dir U) (dir (rest L U)) = 0 := by
      have := (mul_eq_zero.mp (inner_comp L U)).resolve_right (len3_pos hU).ne'
      rw [inner3_comm]
      show inner3 (scale3 _ _) _ = 0
      rw [inner3_scale_left, this, mul_zero]
    rw [e0, sub_zero, len3_dir hU, one_mul] at ib
    have my : dist3 (dir U) (Rd.vec Y) * len3 (Rd.vec Z) ≤ g * (10 / 9) := mul_le_mul dy Zb Z0 g0
    have hx : |inner3 (Rd.vec Y) (Rd.vec Z)| ≤ 2 * g + dist3 (dir (rest L U)) (Rd.vec Z) := by
      have hg0 : 0 ≤ g := g0
      linarith
    have m := mul_le_mul_of_nonneg_right hx hS0
    have m2 : g * S ≤ g * B := mul_le_mul_of_nonneg_left hSB g0
    linarith

/-- **C111.** Every entry of an accepted result is within `11·gam u 4` over the sine of the angle of the entry of the exact rotation. -/
theorem C111_matrix (h : Rounding rnd u) (hu : 40 * u ≤ 1) (up look : V3 (Rd rnd)) (R : Mat 3 3 (Rd rnd))
    (hR : rotationFromUpAndLook up look = .ok R) (hn : cross3 (Rd.vec up) (Rd.vec look) ≠ zero3) :
    ∃ E : Mat 3 3 ℝ, rotationFromUpAndLook (Rd.vec up) (Rd.vec look) = .ok E ∧ IsRotation E ∧
      ∀ i j, |(R i j).val - E i j| * len3 (cross3 (Rd.vec up) (Rd.vec look)) ≤ 11 * gam u 4 * (len3 (Rd.vec up) * len3 (Rd.vec look)) := by
  obtain ⟨x, y, z, hRw, -, -, -, -, dy, dz, dx, -⟩ := C111_rows h hu up look R hR
  obtain ⟨E, hE, hrot, -⟩ := C49_rotation (Rd.vec up) (Rd.vec look) hn
  obtain ⟨x', y', z', hE', ey, ⟨k, hk, ez⟩, ex, -, zz, -, -⟩ := rot_up_look_aux (Rd.vec up) (Rd.vec look) hn
  have hU : Rd.vec up ≠ zero3 := by
    intro e; apply hn; rw [e]; ext <;> simp [cross3, zero3]
  have hup := len3_pos hU
  have er : vec3 (scale3 (inner3 (Rd.vec look) (Rd.vec up) / inner3 (Rd.vec up) (Rd.vec up)) (Rd.vec up)) (Rd.vec look) =
      rest (Rd.vec look) (Rd.vec up) := by
    unfold rest comp
    congr 1
    rw [dir, inner3_scale_right, scale3_scale3, inner3_self]
    congr 1
    field_simp
  rw [er] at ez
  have hr := rest_len (Rd.vec look) (Rd.vec up) hU
  have hr0 : 0 < len3 (rest (Rd.vec look) (Rd.vec up)) := by
    apply len3_pos
    intro c
    rw [len3_eq_zero.mpr c, zero_mul] at hr
    exact hn (len3_eq_zero.mp hr.symm)
  have ez' : z' = dir (rest (Rd.vec look) (Rd.vec up)) := by
    have hl : len3 z' = 1 := by
      have := zz
      rw [inner3_self] at this
      nlinarith [len3_nonneg z']
    rw [ez, len3_scale, abs_of_pos hk] at hl
    rw [ez, dir, eq_comm, inv_eq_of_mul_eq_one_left hl]
  have ey' : y' = dir (Rd.vec up) := ey
  have ex' : x' = dir (cross3 (Rd.vec up) (Rd.vec look)) := by rw [ex, ey', ez', cross_dir _ _ hn]
  have hEe : E = Mat.ofRows x' y' z' := by rw [hE] at hE'; injection hE'
  refine ⟨E, hE, hrot, ?_⟩
  rw [← ey'] at dy
  rw [← ez'] at dz
  rw [← ex'] at dx
  have g0 := (g_facts h hu).1
  have hS0 : 0 ≤ len3 (cross3 (Rd.vec up) (Rd.vec look)) := len3_nonneg _
  have hB : 0 ≤ len3 (Rd.vec up) * len3 (Rd.vec look) := mul_nonneg (len3_nonneg _) (len3_nonneg _)
  have hSB : len3 (cross3 (Rd.vec up) (Rd.vec look)) ≤ len3 (Rd.vec up) * len3 (Rd.vec look) := by
    rw [← hr, mul_comm]
    exact mul_le_mul_of_nonneg_left (rest_le _ _ hU) (len3_nonneg _)
  have dy' : dist3 y' (Rd.vec y) * len3 (cross3 (Rd.vec up) (Rd.vec look)) ≤ 11 * gam u 4 * (len3 (Rd.vec up) * len3 (Rd.vec look)) := by
    have := mul_le_mul dy hSB hS0 g0
    have p := mul_nonneg g0 hB
    linarith
  have dz' : dist3 z' (Rd.vec z) * len3 (cross3 (Rd.vec up) (Rd.vec look)) ≤ 11 * gam u 4 * (len3 (Rd.vec up) * len3 (Rd.vec look)) := by
    have p := mul_nonneg g0 hB
    linarith
  have co : ∀ (a : V3 ℝ) (b : V3 (Rd rnd)), |b.x.val - a.x| ≤ dist3 a (Rd.vec b) ∧ |b.y.val - a.y| ≤ dist3 a (Rd.vec b) ∧
      |b.z.val - a.z| ≤ dist3 a (Rd.vec b) := by
    intro a b
    unfold dist3 len3
    refine ⟨Real.abs_le_sqrt ?_, Real.abs_le_sqrt ?_, Real.abs_le_sqrt ?_⟩ <;> simp only [vec3, Rd.vec_x, Rd.vec_y, Rd.vec_z] <;>
      nlinarith [sq_nonneg (b.x.val - a.x), sq_nonneg (b.y.val - a.y), sq_nonneg (b.z.val - a.z)]
  have fin : ∀ {a d : ℝ}, |a| ≤ d → d * len3 (cross3 (Rd.vec up) (Rd.vec look)) ≤ 11 * gam u 4 * (len3 (Rd.vec up) * len3 (Rd.vec look)) →
      |a| * len3 (cross3 (Rd.vec up) (Rd.vec look)) ≤ 11 * gam u 4 * (len3 (Rd.vec up) * len3 (Rd.vec look)) :=
    fun h1 h2 => (mul_le_mul_of_nonneg_right h1 hS0).trans h2
  intro i j
  rw [hEe, hRw]
  fin_cases i <;> fin_cases j
  · exact fin (co x' x).1 dx
  · exact fin (co x' x).2.1 dx
  · exact fin (co x' x).2.2 dx
  · exact fin (co y' y).1 dy'
  · exact fin (co y' y).2.1 dy'
  · exact fin (co y' y).2.2 dy'
  · exact fin (co z' z).1 dz'
  · exact fin (co z' z).2.1 dz'
  · exact fin (co z' z).2.2 dz'

/-- **C111.** When `up` lies along a coordinate axis, the function is right in doubles: `ValueError` for exactly the vectors that are zero or collinear,
and otherwise rows that are exactly perpendicular, the row of `up` being exact. -/
theorem C111_axis (up look : V3 (Rd rnd53)) (hup : OnAxis (Rd.vec up)) (hl : Doubles (Rd.vec look)) :
    (cross3 (Rd.vec up) (Rd.vec look) = zero3 → rotationFromUpAndLook up look = .error .ValueError) ∧
    (cross3 (Rd.vec up) (Rd.vec look) ≠ zero3 → ∃ x y z : V3 (Rd rnd53), rotationFromUpAndLook up look = .ok (Mat.ofRows x y z) ∧
      Rd.vec y = dir (Rd.vec up) ∧ dist3 (dir (rest (Rd.vec look) (Rd.vec up))) (Rd.vec z) ≤ gam (1 / 2 ^ 53) 4 ∧
      Rd.vec x = cross3 (Rd.vec y) (Rd.vec z) ∧
      inner3 (Rd.vec x) (Rd.vec y) = 0 ∧ inner3 (Rd.vec x) (Rd.vec z) = 0 ∧ inner3 (Rd.vec y) (Rd.vec z) = 0 ∧
      len3 (Rd.vec x) = len3 (Rd.vec z)) := by
  classical
  obtain ⟨c, h0, hc, hw⟩ := id hup
  have hU : Rd.vec up ≠ zero3 := by
    rintro e
    rw [e] at hw
    simp [zero3, h0.symm] at hw
  have hrj := (reject_axis hl hup).2
  have hrl := rest_len (Rd.vec look) (Rd.vec up) hU
  have hUp := len3_pos hU
  rw [upLook_eq rounding_rnd53]
  constructor
  · intro hn
    rw [len3_eq_zero.mpr hn] at hrl
    have := len3_eq_zero.mp ((mul_eq_zero.mp hrl).resolve_right hUp.ne')
    rw [if_pos (.inr (.inr (by rw [hrj, this])))]
  · intro hn
    have hz : Rd.vec (reject3 look up) ≠ zero3 := by
      rw [hrj]
      intro e
      rw [len3_eq_zero.mpr e, zero_mul] at hrl
      exact hn (len3_eq_zero.mp hrl.symm)
    have hL : Rd.vec look ≠ zero3 := by
      intro e; apply hn; rw [e]; ext <;> simp [cross3, zero3]
    have hy := normalize_axis h0 hc hw
    have dz := normalize_dist rounding_rnd53 (by norm_num) (reject3 look up) hz
    rw [if_neg (by tauto)]
    refine ⟨_, _, _, rfl, hy, by rwa [hrj] at dz, ?_⟩
    obtain ⟨s, hs, hd⟩ := dir_axis h0 hw
    have e0 : inner3 (rest (Rd.vec look) (Rd.vec up)) (dir (Rd.vec up)) = 0 :=
      (mul_eq_zero.mp (inner_comp _ _)).resolve_right hUp.ne'
    obtain ⟨Z, hZ⟩ : ∃ Z, Z = normalize3 (reject3 look up) := ⟨_, rfl⟩
    obtain ⟨Y, hY⟩ : ∃ Y, Y = normalize3 up := ⟨_, rfl⟩
    -- the components of `Z` are doubles, and it is perpendicular to the axis
    have Zd : Doubles (Rd.vec Z) := by
      rw [hZ]; exact ⟨rnd53_idem _, rnd53_idem _, rnd53_idem _⟩
    have Z0 : inner3 (Rd.vec Z) (dir (Rd.vec up)) = 0 := by
      rw [← hrj] at e0
      have cz : ∀ q : Rd rnd53, q.val * s = 0 → (q / (reject3 look up).norm).val * s = 0 := by
        intro q hq
        have : q.val = 0 := (mul_eq_zero.mp hq).resolve_right (by rcases hs with rfl | rfl <;> norm_num)
        rw [Rd.val_div, this, zero_div, rnd53_zero, zero_mul]
      rw [hZ]
      rcases hd with e | e | e <;> rw [e] at e0 ⊢ <;> simp only [inner3, mul_zero, add_zero, zero_add, Rd.vec_x, Rd.vec_y, Rd.vec_z] at e0 ⊢ <;>
        exact cz _ e0
    have hx : Rd.vec (V3.cross Y Z) = cross3 (Rd.vec Y) (Rd.vec Z) := by
      have hy' : Rd.vec Y = dir (Rd.vec up) := by rw [hY]; exact hy
      obtain ⟨z1, z2, z3⟩ := Zd
      simp only [Rd.vec_x, Rd.vec_y, Rd.vec_z] at z1 z2 z3
      have hs' : ∀ x : ℝ, rnd53 x = x → rnd53 (s * x) = s * x := by
        intro x hx
        rcases hs with rfl | rfl
        · simpa using hx
        · rw [neg_one_mul, rnd53_neg, hx]
      rcases hd with e | e | e <;> rw [e] at hy' <;> simp only [Rd.vec, V3.mk.injEq] at hy' <;>
        ext <;> simp [V3.cross, cross3, hy', rnd53_zero, rnd53_neg, hs' _ z1, hs' _ z2, hs' _ z3]
    have hyz : inner3 (Rd.vec Y) (Rd.vec Z) = 0 := by
      rw [inner3_comm, hY, hy, ← Z0]
    have hYl : len3 (Rd.vec Y) = 1 := by rw [hY, hy, len3_dir hU]
    rw [← hY, ← hZ]
    refine ⟨hx, by rw [hx]; exact inner3_cross_left _ _, by rw [hx]; exact inner3_cross_right _ _, hyz, ?_⟩
    apply (sq_eq_sq₀ (len3_nonneg _) (len3_nonneg _)).mp
    rw [hx, ← inner3_self, lagrange3, hyz, inner3_self, inner3_self, hYl]
    ring

/-- **C111.** In doubles the test for collinear vectors misses most of them: here `up` and `look` are equal, and the result has a zero row or
two rows at a small angle. -/
theorem C111_collinear :
    (∃ y z : V3 (Rd rnd53), rotationFromUpAndLook (LI.iv ⟨1, 1, 1⟩) (LI.iv ⟨1, 1, 1⟩) = .ok (Mat.ofRows ⟨⟨0⟩, ⟨0⟩, ⟨0⟩⟩ y z) ∧ z = -y) ∧
    (∃ y z : V3 (Rd rnd53), rotationFromUpAndLook (LI.iv ⟨0, 1, 1⟩) (LI.iv ⟨0, 1, 1⟩) = .ok (Mat.ofRows ⟨⟨0⟩, ⟨0⟩, ⟨0⟩⟩ y z) ∧ z = y) ∧
    (∃ x y z : V3 (Rd rnd53), rotationFromUpAndLook (LI.iv ⟨0, 1, 3⟩) (LI.iv ⟨0, 1, 3⟩) = .ok (Mat.ofRows x y z) ∧
      (Rd.vec x).x < 1 / 3 ∧ 9 / 10 < inner3 (Rd.vec y) (Rd.vec z)) := by
  classical
  have ne : ∀ a : V3 ℤ, a ≠ ⟨0, 0, 0⟩ → Rd.vec (LI.iv a) ≠ zero3 := by
    intro a ha e
    apply ha
    have hx : (a.x : ℝ) = 0 := congrArg V3.x e
    have hy : (a.y : ℝ) = 0 := congrArg V3.y e
    have hz : (a.z : ℝ) = 0 := congrArg V3.z e
    ext
    · exact_mod_cast hx
    · exact_mod_cast hy
    · exact_mod_cast hz
  have val0 : ∀ q : QD, (q.val : ℝ) = 0 → q = ⟨0⟩ := by
    rintro ⟨q⟩ hq
    have : q = 0 := by exact_mod_cast hq
    rw [this]
  have neQ : ∀ a : V3 QD, a ≠ ⟨⟨0⟩, ⟨0⟩, ⟨0⟩⟩ → Rd.vec (LI.upQ a) ≠ zero3 := by
    intro a ha e
    apply ha
    have hx : (a.x.val : ℝ) = 0 := congrArg V3.x e
    have hy : (a.y.val : ℝ) = 0 := congrArg V3.y e
    have hz : (a.z.val : ℝ) = 0 := congrArg V3.z e
    ext
    · exact val0 _ hx
    · exact val0 _ hy
    · exact val0 _ hz
  have run : ∀ a : V3 ℤ, a ≠ ⟨0, 0, 0⟩ → reject3 (LI.qv a) (LI.qv a) ≠ ⟨⟨0⟩, ⟨0⟩, ⟨0⟩⟩ →
      rotationFromUpAndLook (LI.iv a) (LI.iv a) = .ok (Mat.ofRows
        (LI.upQ (V3.cross (normalize3 (LI.qv a)) (normalize3 (reject3 (LI.qv a) (LI.qv a)))))
        (LI.upQ (normalize3 (LI.qv a))) (LI.upQ (normalize3 (reject3 (LI.qv a) (LI.qv a))))) := by
    intro a ha hr
    have := neQ _ hr
    rw [upLook_eq rounding_rnd53, if_neg]
    · rw [← LI.up_qv, reject_up, normalize_up, normalize_up, LI.cross_up]
    · have h1 := ne a ha
      rw [← LI.up_qv, reject_up]
      rw [← LI.up_qv] at h1
      tauto
  have neg_up : ∀ a : V3 QD, LI.upQ (-a) = -LI.upQ a := by
    intro a; ext <;> simp [LI.upQ, QD.toRd_neg]
  have zero_up : LI.upQ ⟨⟨0⟩, ⟨0⟩, ⟨0⟩⟩ = ⟨⟨0⟩, ⟨0⟩, ⟨0⟩⟩ := by
    ext <;> simp [LI.upQ, QD.toRd]
  refine ⟨⟨LI.upQ (normalize3 (LI.qv ⟨1, 1, 1⟩)), LI.upQ (-normalize3 (LI.qv ⟨1, 1, 1⟩)), ?_, neg_up _⟩,
    ⟨LI.upQ (normalize3 (LI.qv ⟨0, 1, 1⟩)), LI.upQ (normalize3 (LI.qv ⟨0, 1, 1⟩)), ?_, rfl⟩,
    ⟨_, _, _, run ⟨0, 1, 3⟩ (by decide) (by decide +kernel), ?_, ?_⟩⟩
  · rw [run ⟨1, 1, 1⟩ (by decide) (by decide +kernel)]
    have e1 : V3.cross (normalize3 (LI.qv ⟨1, 1, 1⟩)) (normalize3 (reject3 (LI.qv ⟨1, 1, 1⟩) (LI.qv ⟨1, 1, 1⟩))) = ⟨⟨0⟩, ⟨0⟩, ⟨0⟩⟩ := by decide +kernel
    have e2 : normalize3 (reject3 (LI.qv ⟨1, 1, 1⟩) (LI.qv ⟨1, 1, 1⟩)) = -normalize3 (LI.qv ⟨1, 1, 1⟩) := by decide +kernel
    rw [e1, e2, zero_up]
  · rw [run ⟨0, 1, 1⟩ (by decide) (by decide +kernel)]
    have e1 : V3.cross (normalize3 (LI.qv ⟨0, 1, 1⟩)) (normalize3 (reject3 (LI.qv ⟨0, 1, 1⟩) (LI.qv ⟨0, 1, 1⟩))) = ⟨⟨0⟩, ⟨0⟩, ⟨0⟩⟩ := by decide +kernel
    have e2 : normalize3 (reject3 (LI.qv ⟨0, 1, 1⟩) (LI.qv ⟨0, 1, 1⟩)) = normalize3 (LI.qv ⟨0, 1, 1⟩) := by decide +kernel
    rw [e1, e2, zero_up]
  · have e : (V3.cross (normalize3 (LI.qv ⟨0, 1, 3⟩)) (normalize3 (reject3 (LI.qv ⟨0, 1, 3⟩) (LI.qv ⟨0, 1, 3⟩)))).x.val < 1 / 3 := by decide +kernel
    have := (Rat.cast_lt (K := ℝ)).mpr e
    push_cast at this
    exact this
  · have e : 9 / 10 < (normalize3 (LI.qv ⟨0, 1, 3⟩)).x.val * (normalize3 (reject3 (LI.qv ⟨0, 1, 3⟩) (LI.qv ⟨0, 1, 3⟩))).x.val +
        (normalize3 (LI.qv ⟨0, 1, 3⟩)).y.val * (normalize3 (reject3 (LI.qv ⟨0, 1, 3⟩) (LI.qv ⟨0, 1, 3⟩))).y.val +
        (normalize3 (LI.qv ⟨0, 1, 3⟩)).z.val * (normalize3 (reject3 (LI.qv ⟨0, 1, 3⟩) (LI.qv ⟨0, 1, 3⟩))).z.val := by decide +kernel
    have := (Rat.cast_lt (K := ℝ)).mpr e
    push_cast at this
    exact this

/-- **C110, C111.** The hypotheses are met in doubles: an axis, doubles, and two vectors which make a right angle. -/
theorem C111_witness : Rounding rnd53 (1 / 2 ^ 53) ∧ 40 * ((1 : ℝ) / 2 ^ 53) ≤ 1 ∧
    OnAxis (Rd.vec (LI.iv ⟨0, 3, 0⟩)) ∧ Doubles (Rd.vec (LI.iv ⟨1, 2, 5⟩)) ∧ cross3 (Rd.vec (LI.iv ⟨0, 3, 0⟩)) (Rd.vec (LI.iv ⟨1, 2, 5⟩)) ≠ zero3 ∧
    (∃ R, rotationFromUpAndLook (LI.iv ⟨1, 2, 2⟩) (LI.iv ⟨2, 1, -2⟩) = .ok R) ∧
    cross3 (Rd.vec (LI.iv ⟨1, 2, 2⟩)) (Rd.vec (LI.iv ⟨2, 1, -2⟩)) ≠ zero3 := by
  have i53 : ∀ n : ℤ, |n| ≤ 2 ^ 53 → rnd53 (n : ℝ) = n := fun n hn => rounding_rnd53.int n hn
  refine ⟨rounding_rnd53, by norm_num, ⟨3, by norm_num, by exact_mod_cast i53 3 (by norm_num), .inr (.inl ?_)⟩, ?_, ?_, ?_, ?_⟩
  · ext <;> simp [LI.iv]
  · exact ⟨i53 1 (by norm_num), i53 2 (by norm_num), i53 5 (by norm_num)⟩
  · intro e
    have := congrArg V3.x e
    norm_num [cross3, LI.iv, zero3] at this
  · cases hr : rotationFromUpAndLook (LI.iv ⟨1, 2, 2⟩) (LI.iv ⟨2, 1, -2⟩) with
    | ok R => exact ⟨R, rfl⟩
    | error e =>
      exfalso
      have := ((C111_errors rounding_rnd53 (by norm_num) _ _).2 e hr).2
      have l1 : len3 (Rd.vec (LI.iv ⟨1, 2, 2⟩)) = 3 := by
        unfold len3; rw [Real.sqrt_eq_iff_mul_self_eq (by positivity) (by norm_num)]; norm_num [LI.iv]
      have l2 : len3 (Rd.vec (LI.iv ⟨2, 1, -2⟩)) = 3 := by
        unfold len3; rw [Real.sqrt_eq_iff_mul_self_eq (by positivity) (by norm_num)]; norm_num [LI.iv]
      have l3 : len3 (cross3 (Rd.vec (LI.iv ⟨1, 2, 2⟩)) (Rd.vec (LI.iv ⟨2, 1, -2⟩))) = 9 := by
        unfold len3; rw [Real.sqrt_eq_iff_mul_self_eq (by positivity) (by norm_num)]; norm_num [LI.iv, cross3]
      rw [l1, l2, l3] at this
      have g := C100_doubles.1
      generalize gam (1 / 2 ^ 53) 4 = q at *
      norm_num at g
      linarith
  · intro e
    have := congrArg V3.x e
    norm_num [cross3, LI.iv, zero3] at this

end Blmath.Props
