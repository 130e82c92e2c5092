import Verif.Props.FloatError
import Verif.Model.Triangle
import Verif.Proofs.Polyline

/-!
Property C100: normals of triangles and planes through points in rounded arithmetic.
-/

namespace Blmath.Props
open Blmath.Spec Blmath.Vx Blmath.Geometry Blmath.Proofs
variable {rnd : ℝ → ℝ} {u : ℝ}

namespace FN

/-- the sizes of the two products in each component of a cross product -/
def crossSize (a b : V3 ℝ) : V3 ℝ :=
  ⟨|a.y * b.z| + |a.z * b.y|, |a.z * b.x| + |a.x * b.z|, |a.x * b.y| + |a.y * b.x|⟩

/-- the unit vector in the direction of `v` -/
noncomputable def dir (v : V3 ℝ) : V3 ℝ := scale3 (len3 v)⁻¹ v

/-- the components of `f` are those of `a` with `k` roundings -/
def RelVec (u : ℝ) (k : ℕ) (f : V3 (Rd rnd)) (a : V3 ℝ) : Prop :=
  (∃ t, Near u k t ∧ f.x.val = a.x * t) ∧ (∃ t, Near u k t ∧ f.y.val = a.y * t) ∧ (∃ t, Near u k t ∧ f.z.val = a.z * t)

theorem relVec_self (f : V3 (Rd rnd)) : RelVec u 0 f (Rd.vec f) :=
  ⟨⟨1, Near.one, (mul_one _).symm⟩, ⟨1, Near.one, (mul_one _).symm⟩, ⟨1, Near.one, (mul_one _).symm⟩⟩

theorem relVec_sub (h : Rounding rnd u) (p q : V3 (Rd rnd)) : RelVec u 1 (q - p) (vec3 (Rd.vec p) (Rd.vec q)) :=
  ⟨h.factor _, h.factor _, h.factor _⟩

/-- one component of a cross product -/
theorem component_err (h : Rounding rnd u) {k l : ℕ} (hu : ((k + l + 2 : ℕ) : ℝ) * u < 1) {f1 g2 f2 g1 : Rd rnd} {a1 b2 a2 b1 : ℝ}
    (h1 : ∃ t, Near u k t ∧ f1.val = a1 * t) (h2 : ∃ t, Near u l t ∧ g2.val = b2 * t)
    (h3 : ∃ t, Near u k t ∧ f2.val = a2 * t) (h4 : ∃ t, Near u l t ∧ g1.val = b1 * t) :
    |(f1 * g2 - f2 * g1).val - (a1 * b2 - a2 * b1)| ≤ gam u (k + l + 2) * (|a1 * b2| + |a2 * b1|) := by
  obtain ⟨t1, n1, e1⟩ := h1
  obtain ⟨t2, n2, e2⟩ := h2
  obtain ⟨t3, n3, e3⟩ := h3
  obtain ⟨t4, n4, e4⟩ := h4
  obtain ⟨s1, m1, r1⟩ := h.factor (f1.val * g2.val)
  obtain ⟨s2, m2, r2⟩ := h.factor (f2.val * g1.val)
  obtain ⟨d, hd, rd⟩ := h.factor (f1.val * g2.val * s1 - f2.val * g1.val * s2)
  have N1 : Near u (k + l + 2) (t1 * t2 * (s1 * d)) := (n1.mul h.lt_one n2).mul (l := 2) h.lt_one (m1.mul (l := 1) h.lt_one hd)
  have N2 : Near u (k + l + 2) (t3 * t4 * (s2 * d)) := (n3.mul h.lt_one n4).mul (l := 2) h.lt_one (m2.mul (l := 1) h.lt_one hd)
  have F1 := factor_err (x := a1 * b2) h hu N1
  have F2 := factor_err (x := a2 * b1) h hu N2
  have e : (f1 * g2 - f2 * g1).val = a1 * b2 * (t1 * t2 * (s1 * d)) - a2 * b1 * (t3 * t4 * (s2 * d)) := by
    rw [Rd.val_sub, Rd.val_mul, Rd.val_mul, r1, r2, rd, e1, e2, e3, e4]; ring
  rw [e]
  rw [abs_le] at *
  constructor <;> linarith [F1.1, F1.2, F2.1, F2.2]

theorem cross_err (h : Rounding rnd u) {k l : ℕ} (hu : ((k + l + 2 : ℕ) : ℝ) * u < 1) {f g : V3 (Rd rnd)} {a b : V3 ℝ}
    (hf : RelVec u k f a) (hg : RelVec u l g b) :
    |(V3.cross f g).x.val - (cross3 a b).x| ≤ gam u (k + l + 2) * (crossSize a b).x ∧
    |(V3.cross f g).y.val - (cross3 a b).y| ≤ gam u (k + l + 2) * (crossSize a b).y ∧
    |(V3.cross f g).z.val - (cross3 a b).z| ≤ gam u (k + l + 2) * (crossSize a b).z :=
  ⟨component_err h hu hf.2.1 hg.2.2 hf.2.2 hg.2.1, component_err h hu hf.2.2 hg.1 hf.1 hg.2.2, component_err h hu hf.1 hg.2.1 hf.2.1 hg.1⟩

theorem crossSize_len (a b : V3 ℝ) : len3 (crossSize a b) ≤ Real.sqrt 2 * (len3 a * len3 b) := by
  apply abs_le_of_sq_le_sq' _ (mul_nonneg (Real.sqrt_nonneg _) (mul_nonneg (len3_nonneg _) (len3_nonneg _))) |>.2
  rw [mul_pow, mul_pow, Real.sq_sqrt (by norm_num), len3_sq, len3_sq, len3_sq]
  simp only [crossSize, abs_mul]
  obtain ⟨a1, ha1⟩ : ∃ x, x = |a.x| := ⟨_, rfl⟩
  obtain ⟨a2, ha2⟩ : ∃ x, x = |a.y| := ⟨_, rfl⟩
  obtain ⟨a3, ha3⟩ : ∃ x, x = |a.z| := ⟨_, rfl⟩
  obtain ⟨b1, hb1⟩ : ∃ x, x = |b.x| := ⟨_, rfl⟩
  obtain ⟨b2, hb2⟩ : ∃ x, x = |b.y| := ⟨_, rfl⟩
  obtain ⟨b3, hb3⟩ : ∃ x, x = |b.z| := ⟨_, rfl⟩
  rw [← sq_abs a.x, ← sq_abs a.y, ← sq_abs a.z, ← sq_abs b.x, ← sq_abs b.y, ← sq_abs b.z, ← ha1, ← ha2, ← ha3, ← hb1, ← hb2, ← hb3]
  nlinarith [sq_nonneg (a1 * b2 - a2 * b1), sq_nonneg (a1 * b3 - a3 * b1), sq_nonneg (a2 * b3 - a3 * b2),
    sq_nonneg (a1 * b1), sq_nonneg (a2 * b2), sq_nonneg (a3 * b3)]

theorem len3_le_of_abs {a b : V3 ℝ} (hx : |a.x| ≤ b.x) (hy : |a.y| ≤ b.y) (hz : |a.z| ≤ b.z) : len3 a ≤ len3 b := by
  apply Real.sqrt_le_sqrt
  have s : ∀ {x y : ℝ}, |x| ≤ y → x ^ 2 ≤ y ^ 2 := fun h => sq_le_sq' (by linarith [(abs_le.mp h).1]) (abs_le.mp h).2
  linarith [s hx, s hy, s hz]

theorem cross_dist (h : Rounding rnd u) {k l : ℕ} (hu : ((k + l + 2 : ℕ) : ℝ) * u < 1) {f g : V3 (Rd rnd)} {a b : V3 ℝ}
    (hf : RelVec u k f a) (hg : RelVec u l g b) :
    dist3 (cross3 a b) (Rd.vec (V3.cross f g)) ≤ gam u (k + l + 2) * (Real.sqrt 2 * (len3 a * len3 b)) := by
  obtain ⟨hx, hy, hz⟩ := cross_err h hu hf hg
  have hg0 := gam_nonneg (k := k + l + 2) h.nonneg hu
  calc dist3 (cross3 a b) (Rd.vec (V3.cross f g)) ≤ len3 (scale3 (gam u (k + l + 2)) (crossSize a b)) := len3_le_of_abs hx hy hz
    _ = gam u (k + l + 2) * len3 (crossSize a b) := by rw [len3_scale, abs_of_nonneg hg0]
    _ ≤ _ := mul_le_mul_of_nonneg_left (crossSize_len a b) hg0

theorem dist3_scale (k : ℝ) (x y : V3 ℝ) : dist3 (scale3 k x) (scale3 k y) = |k| * dist3 x y := by
  unfold dist3
  rw [← len3_scale]
  congr 1
  ext <;> simp [vec3, scale3] <;> ring

theorem dist3_scale_self (k : ℝ) (x : V3 ℝ) : dist3 (scale3 k x) x = |1 - k| * len3 x := by
  unfold dist3
  rw [← len3_scale]
  congr 1
  ext <;> simp [vec3, scale3] <;> ring

theorem abs_len_sub (x y : V3 ℝ) : |len3 x - len3 y| ≤ dist3 x y := by
  have key : ∀ x y : V3 ℝ, len3 y ≤ len3 x + dist3 x y := by
    intro x y
    have := len3_add_le x (vec3 x y)
    have e : x + vec3 x y = y := by ext <;> simp [vec3]
    rwa [e] at this
  rw [abs_le]
  constructor
  · linarith [key x y]
  · have := key y x
    rw [dist3_comm] at this
    linarith

/-- directions are as near as the vectors are, in terms of the length of one of them -/
theorem dir_dist (x y : V3 ℝ) (hx : x ≠ zero3) (hy : y ≠ zero3) : dist3 (dir x) (dir y) * len3 y ≤ 2 * dist3 x y := by
  have px := len3_pos hx
  have py := len3_pos hy
  have e : dist3 (dir x) (dir y) * len3 y = dist3 (scale3 (len3 y / len3 x) x) y := by
    have := dist3_scale (len3 y) (dir x) (dir y)
    rw [abs_of_pos py] at this
    rw [mul_comm, ← this, dir, dir, scale3_scale3, scale3_scale3, mul_inv_cancel₀ py.ne', scale3_one, div_eq_mul_inv]
  rw [e]
  have h1 := dist3_triangle (scale3 (len3 y / len3 x) x) x y
  have h2 : dist3 (scale3 (len3 y / len3 x) x) x = |len3 x - len3 y| := by
    rw [dist3_scale_self]
    nth_rewrite 2 [← abs_of_pos px]
    rw [← abs_mul]
    congr 1
    field_simp
  have h3 := abs_len_sub x y
  linarith

theorem normalize_dist (h : Rounding rnd u) (hu : 4 * u < 1) (v : V3 (Rd rnd)) (hv : Rd.vec v ≠ zero3) :
    dist3 (dir (Rd.vec v)) (Rd.vec (normalize3 v)) ≤ gam u 4 := by
  obtain ⟨hx, hy, hz⟩ := C80_components h hu v hv
  have hp := len3_pos hv
  have hg := gam_nonneg (k := 4) h.nonneg (by exact_mod_cast hu)
  have e : ∀ c : ℝ, c / len3 (Rd.vec v) = (len3 (Rd.vec v))⁻¹ * c := fun c => by rw [div_eq_mul_inv, mul_comm]
  have hd : len3 (scale3 (gam u 4) ⟨|(dir (Rd.vec v)).x|, |(dir (Rd.vec v)).y|, |(dir (Rd.vec v)).z|⟩) = gam u 4 := by
    rw [len3_scale, abs_of_nonneg hg]
    have : len3 ⟨|(dir (Rd.vec v)).x|, |(dir (Rd.vec v)).y|, |(dir (Rd.vec v)).z|⟩ = len3 (dir (Rd.vec v)) := by simp [len3, sq_abs]
    rw [this, dir, len3_scale, abs_of_pos (inv_pos.mpr hp), inv_mul_cancel₀ hp.ne', mul_one]
  rw [e] at hx hy hz
  rw [← hd]
  exact len3_le_of_abs hx hy hz

/-- the direction of a computed normal -/
theorem unit_err (h : Rounding rnd u) {k l : ℕ} (hu : ((k + l + 2 : ℕ) : ℝ) * u < 1) (hk : k + l ≤ 2) (hu4 : 4 * u < 1)
    {f g : V3 (Rd rnd)} {a b : V3 ℝ} (hf : RelVec u k f a) (hg : RelVec u l g b) (h0 : Rd.vec (V3.cross f g) ≠ zero3) :
    dist3 (dir (cross3 a b)) (Rd.vec (normalize3 (V3.cross f g))) * len3 (cross3 a b) ≤ 4 * gam u 4 * (len3 a * len3 b) := by
  have hu4' : ((4 : ℕ) : ℝ) * u < 1 := by exact_mod_cast hu4
  have hg4 := gam_nonneg (k := 4) h.nonneg hu4'
  have hL : 0 ≤ len3 a * len3 b := mul_nonneg (len3_nonneg _) (len3_nonneg _)
  by_cases hn : cross3 a b = zero3
  · rw [hn, len3_eq_zero.mpr rfl, mul_zero]
    positivity
  have h1 := dir_dist (Rd.vec (V3.cross f g)) (cross3 a b) h0 hn
  have h2 := cross_dist h hu hf hg
  have h3 := normalize_dist h hu4 _ h0
  have h4 := dist3_triangle (dir (cross3 a b)) (dir (Rd.vec (V3.cross f g))) (Rd.vec (normalize3 (V3.cross f g)))
  have hN : len3 (cross3 a b) ≤ len3 a * len3 b := by
    apply abs_le_of_sq_le_sq' _ hL |>.2
    rw [← inner3_self, lagrange3, mul_pow, ← inner3_self, ← inner3_self]
    nlinarith [sq_nonneg (inner3 a b)]
  have hgm : gam u (k + l + 2) ≤ gam u 4 := gam_mono h.nonneg hu4' (by omega)
  have hs : Real.sqrt 2 ≤ 3 / 2 := by
    rw [Real.sqrt_le_left (by norm_num)]; norm_num
  have h5 : gam u (k + l + 2) * (Real.sqrt 2 * (len3 a * len3 b)) ≤ gam u 4 * (3 / 2 * (len3 a * len3 b)) := by
    apply mul_le_mul hgm _ (by positivity) hg4
    exact mul_le_mul_of_nonneg_right hs hL
  have hNn := len3_nonneg (cross3 a b)
  rw [dist3_comm (dir (cross3 a b)) (dir (Rd.vec (V3.cross f g)))] at h4
  rw [dist3_comm (Rd.vec (V3.cross f g)) (cross3 a b)] at h1
  calc dist3 (dir (cross3 a b)) (Rd.vec (normalize3 (V3.cross f g))) * len3 (cross3 a b)
      ≤ (dist3 (dir (Rd.vec (V3.cross f g))) (dir (cross3 a b)) + gam u 4) * len3 (cross3 a b) :=
        mul_le_mul_of_nonneg_right (by linarith) hNn
    _ = dist3 (dir (Rd.vec (V3.cross f g))) (dir (cross3 a b)) * len3 (cross3 a b) + gam u 4 * len3 (cross3 a b) := by ring
    _ ≤ 2 * (gam u 4 * (3 / 2 * (len3 a * len3 b))) + gam u 4 * (len3 a * len3 b) := by
        have := mul_le_mul_of_nonneg_left hN hg4
        linarith
    _ = _ := by ring

end FN
open FN

/-- **C100.** `surface_normal(..., normalize=False)`: each component is within `gam u 4` times the sizes of its two products of the true one;
the vector is within `gam u 4 * √2` times the product of the lengths of the two edges. -/
theorem C100_cross (h : Rounding rnd u) (hu : 4 * u < 1) (p1 p2 p3 : V3 (Rd rnd)) :
    let e1 := vec3 (Rd.vec p1) (Rd.vec p2)
    let e2 := vec3 (Rd.vec p1) (Rd.vec p3)
    let n := surfaceNormal p1 p2 p3 false
    |n.x.val - (cross3 e1 e2).x| ≤ gam u 4 * (crossSize e1 e2).x ∧
    |n.y.val - (cross3 e1 e2).y| ≤ gam u 4 * (crossSize e1 e2).y ∧
    |n.z.val - (cross3 e1 e2).z| ≤ gam u 4 * (crossSize e1 e2).z ∧
    dist3 (cross3 e1 e2) (Rd.vec n) ≤ gam u 4 * (Real.sqrt 2 * (len3 e1 * len3 e2)) := by
  intro e1 e2 n
  have hu' : ((1 + 1 + 2 : ℕ) : ℝ) * u < 1 := by exact_mod_cast hu
  obtain ⟨hx, hy, hz⟩ := cross_err h hu' (relVec_sub h p1 p2) (relVec_sub h p1 p3)
  exact ⟨hx, hy, hz, cross_dist h hu' (relVec_sub h p1 p2) (relVec_sub h p1 p3)⟩

/-- **C100.** `surface_normal`: if the computed normal is not zero, the unit normal is within `4 gam u 4 / sin` of the true direction, `sin`
being the sine of the angle at `p1`, that is the length of the cross product by the product of the lengths. -/
theorem C100_unit (h : Rounding rnd u) (hu : 4 * u < 1) (p1 p2 p3 : V3 (Rd rnd))
    (h0 : Rd.vec (surfaceNormal p1 p2 p3 false) ≠ zero3) :
    let e1 := vec3 (Rd.vec p1) (Rd.vec p2)
    let e2 := vec3 (Rd.vec p1) (Rd.vec p3)
    dist3 (dir (cross3 e1 e2)) (Rd.vec (surfaceNormal p1 p2 p3)) * len3 (cross3 e1 e2) ≤ 4 * gam u 4 * (len3 e1 * len3 e2) :=
  unit_err h (k := 1) (l := 1) (by exact_mod_cast hu) (by norm_num) hu (relVec_sub h p1 p2) (relVec_sub h p1 p3) h0

namespace FN

theorem mk'_ok {p n : V3 (Rd rnd)} {pl : Plane (Rd rnd)} (h : Rounding rnd u) (hpl : Plane.mk' p n = .ok pl) :
    pl = ⟨p, normalize3 n⟩ ∧ Rd.vec n ≠ zero3 := by
  have h2 := (plane_near h p n pl hpl).2.pos h.lt_one
  unfold Plane.mk' at hpl
  split at hpl
  · simp [raise] at hpl
  · injection hpl with hpl
    subst hpl
    refine ⟨rfl, ?_⟩
    intro h0
    have hx : n.x.val = 0 := congrArg V3.x h0
    have hy : n.y.val = 0 := congrArg V3.y h0
    have hz : n.z.val = 0 := congrArg V3.z h0
    have e : Rd.vec (normalize3 n) = zero3 := by
      ext
      · show rnd (n.x.val / _) = 0
        rw [hx, zero_div, h.zero]
      · show rnd (n.y.val / _) = 0
        rw [hy, zero_div, h.zero]
      · show rnd (n.z.val / _) = 0
        rw [hz, zero_div, h.zero]
    rw [e, len3_eq_zero.mpr rfl] at h2
    exact lt_irrefl _ h2

/-- a vector orthogonal to the true normal -/
theorem height_err {n N e : V3 ℝ} {B : ℝ} (hN : inner3 N e = 0) (h : dist3 (dir N) n * len3 N ≤ B) : |inner3 e n| * len3 N ≤ B * len3 e := by
  have h1 := abs_inner3_le e (vec3 (dir N) n)
  have h2 : inner3 e (vec3 (dir N) n) = inner3 e n := by
    have h3 : inner3 e (dir N) = 0 := by
      rw [dir, inner3_scale_right, inner3_comm, hN, mul_zero]
    have h4 : inner3 e (vec3 (dir N) n) = inner3 e n - inner3 e (dir N) := by simp only [inner3, vec3]; ring
    rw [h4, h3, sub_zero]
  rw [h2] at h1
  calc |inner3 e n| * len3 N ≤ (len3 e * dist3 (dir N) n) * len3 N := mul_le_mul_of_nonneg_right h1 (len3_nonneg _)
    _ = dist3 (dir N) n * len3 N * len3 e := by ring
    _ ≤ B * len3 e := mul_le_mul_of_nonneg_right h (len3_nonneg _)

end FN

/-- **C100.** `Plane.from_points`: the reference point is the first point; the normal is within `4 gam u 4 / sin` of the true direction; the
second and the third point are within `4 gam u 4 / sin` times their distance from the first one of the plane. -/
theorem C100_from_points (h : Rounding rnd u) (hu : 4 * u < 1) (p1 p2 p3 : V3 (Rd rnd)) (pl : Plane (Rd rnd))
    (hpl : Plane.fromPoints p1 p2 p3 = .ok pl) :
    let e1 := vec3 (Rd.vec p1) (Rd.vec p2)
    let e2 := vec3 (Rd.vec p1) (Rd.vec p3)
    let B := 4 * gam u 4 * (len3 e1 * len3 e2)
    pl.r0 = p1 ∧ dist3 (dir (cross3 e1 e2)) (Rd.vec pl.n) * len3 (cross3 e1 e2) ≤ B ∧
    height (exactPlane pl) (Rd.vec p1) = 0 ∧
    |height (exactPlane pl) (Rd.vec p2)| * len3 (cross3 e1 e2) ≤ B * len3 e1 ∧
    |height (exactPlane pl) (Rd.vec p3)| * len3 (cross3 e1 e2) ≤ B * len3 e2 := by
  intro e1 e2 B
  obtain ⟨rfl, h0⟩ := mk'_ok h hpl
  have key : dist3 (dir (cross3 e1 e2)) (Rd.vec (normalize3 (V3.cross (p2 - p1) (p3 - p1)))) * len3 (cross3 e1 e2) ≤ B :=
    unit_err h (k := 1) (l := 1) (by exact_mod_cast hu) (by norm_num) hu (relVec_sub h p1 p2) (relVec_sub h p1 p3) h0
  refine ⟨rfl, key, ?_, height_err (inner3_cross_left e1 e2) key, height_err (inner3_cross_right e1 e2) key⟩
  simp [height, exactPlane, inner3, vec3]

/-- **C100.** `Plane.from_points_and_vector`: the same, with the vector in the place of the second edge; the vector is parallel to the plane up
to the same angle. -/
theorem C100_from_points_and_vector (h : Rounding rnd u) (hu : 4 * u < 1) (p1 p2 v : V3 (Rd rnd)) (pl : Plane (Rd rnd))
    (hpl : Plane.fromPointsAndVector p1 p2 v = .ok pl) :
    let e1 := vec3 (Rd.vec p1) (Rd.vec p2)
    let e2 := Rd.vec v
    let B := 4 * gam u 4 * (len3 e1 * len3 e2)
    pl.r0 = p1 ∧ dist3 (dir (cross3 e1 e2)) (Rd.vec pl.n) * len3 (cross3 e1 e2) ≤ B ∧
    |height (exactPlane pl) (Rd.vec p2)| * len3 (cross3 e1 e2) ≤ B * len3 e1 ∧
    |inner3 e2 (Rd.vec pl.n)| * len3 (cross3 e1 e2) ≤ B * len3 e2 := by
  intro e1 e2 B
  obtain ⟨rfl, h0⟩ := mk'_ok h hpl
  have key : dist3 (dir (cross3 e1 e2)) (Rd.vec (normalize3 (V3.cross (p2 - p1) v))) * len3 (cross3 e1 e2) ≤ B :=
    unit_err h (k := 1) (l := 0) (by push_cast; nlinarith [h.nonneg]) (by norm_num) hu (relVec_sub h p1 p2) (relVec_self v) h0
  exact ⟨rfl, key, height_err (inner3_cross_left e1 e2) key, height_err (inner3_cross_right e1 e2) key⟩

/-- **C100.** As long as the sine is more than `4 gam u 4`, the normal points to the right side of the triangle. -/
theorem C100_side (h : Rounding rnd u) (hu : 4 * u < 1) (p1 p2 p3 : V3 (Rd rnd)) (pl : Plane (Rd rnd))
    (hpl : Plane.fromPoints p1 p2 p3 = .ok pl)
    (hs : let e1 := vec3 (Rd.vec p1) (Rd.vec p2)
      let e2 := vec3 (Rd.vec p1) (Rd.vec p3)
      4 * gam u 4 * (len3 e1 * len3 e2) < len3 (cross3 e1 e2)) :
    0 < inner3 (Rd.vec pl.n) (cross3 (vec3 (Rd.vec p1) (Rd.vec p2)) (vec3 (Rd.vec p1) (Rd.vec p3))) := by
  obtain ⟨_, key, _⟩ := C100_from_points h hu p1 p2 p3 pl hpl
  dsimp only at hs key
  generalize cross3 (vec3 (Rd.vec p1) (Rd.vec p2)) (vec3 (Rd.vec p1) (Rd.vec p3)) = N at *
  generalize 4 * gam u 4 * (len3 (vec3 (Rd.vec p1) (Rd.vec p2)) * len3 (vec3 (Rd.vec p1) (Rd.vec p3))) = B at *
  have hp : 0 < len3 N := by
    have : 0 ≤ dist3 (dir N) (Rd.vec pl.n) * len3 N := mul_nonneg (len3_nonneg _) (len3_nonneg _)
    linarith
  have h1 := (abs_le.mp (abs_inner3_le (vec3 (dir N) (Rd.vec pl.n)) N)).1
  have h2 : inner3 (vec3 (dir N) (Rd.vec pl.n)) N = inner3 (Rd.vec pl.n) N - inner3 (dir N) N := by simp only [inner3, vec3]; ring
  have h3 : inner3 (dir N) N = len3 N := by
    rw [dir, inner3_scale_left, inner3_self, pow_two, ← mul_assoc, inv_mul_cancel₀ hp.ne', one_mul]
  rw [h2, h3] at h1
  have : len3 (vec3 (dir N) (Rd.vec pl.n)) * len3 N < len3 N := lt_of_le_of_lt key hs
  linarith

/-- **C100.** The components of a computed cross product never have the wrong sign; at worst they are zero. -/
theorem C100_sign (h : Rounding rnd u) (a b : V3 (Rd rnd)) :
    let c := V3.cross a b
    let d := cross3 (Rd.vec a) (Rd.vec b)
    (0 ≤ d.x → 0 ≤ c.x.val) ∧ (0 ≤ d.y → 0 ≤ c.y.val) ∧ (0 ≤ d.z → 0 ≤ c.z.val) ∧
    (d.x ≤ 0 → c.x.val ≤ 0) ∧ (d.y ≤ 0 → c.y.val ≤ 0) ∧ (d.z ≤ 0 → c.z.val ≤ 0) := by
  have pos : ∀ f g k l : Rd rnd, 0 ≤ f.val * g.val - k.val * l.val → 0 ≤ (f * g - k * l).val := by
    intro f g k l hd
    rw [Rd.val_sub, h.nonneg_iff, Rd.val_mul, Rd.val_mul]
    linarith [h.mono (show k.val * l.val ≤ f.val * g.val by linarith)]
  have neg : ∀ f g k l : Rd rnd, f.val * g.val - k.val * l.val ≤ 0 → (f * g - k * l).val ≤ 0 := by
    intro f g k l hd
    rw [Rd.val_sub, Rd.val_mul, Rd.val_mul, ← h.zero]
    apply h.mono
    linarith [h.mono (show f.val * g.val ≤ k.val * l.val by linarith)]
  exact ⟨pos _ _ _ _, pos _ _ _ _, pos _ _ _ _, neg _ _ _ _, neg _ _ _ _, neg _ _ _ _⟩

/-- **C100.** If the coordinates are integers of size at most `2^24`, the normal (before normalisation) is exact. -/
theorem C100_integers (h : Rounding rnd u) (p1 p2 p3 : V3 (Rd rnd)) (q1 q2 q3 : V3 ℤ)
    (e1 : Rd.vec p1 = q1.map (fun k : ℤ => (k : ℝ))) (e2 : Rd.vec p2 = q2.map (fun k : ℤ => (k : ℝ))) (e3 : Rd.vec p3 = q3.map (fun k : ℤ => (k : ℝ)))
    (hq : ∀ q ∈ [q1, q2, q3], |q.x| ≤ 2 ^ 24 ∧ |q.y| ≤ 2 ^ 24 ∧ |q.z| ≤ 2 ^ 24) :
    Rd.vec (surfaceNormal p1 p2 p3 false) = cross3 (vec3 (Rd.vec p1) (Rd.vec p2)) (vec3 (Rd.vec p1) (Rd.vec p3)) := by
  obtain ⟨a1, a2, a3⟩ := hq q1 (by simp)
  obtain ⟨b1, b2, b3⟩ := hq q2 (by simp)
  obtain ⟨c1, c2, c3⟩ := hq q3 (by simp)
  have sub : ∀ (p q : Rd rnd) (k l : ℤ), p.val = k → q.val = l → |k| ≤ 2 ^ 24 → |l| ≤ 2 ^ 24 → (p - q).val = ((k - l : ℤ) : ℝ) ∧ |k - l| ≤ 2 ^ 25 := by
    intro p q k l hp hq hk hl
    have hkl : |k - l| ≤ 2 ^ 25 := by
      rw [abs_le] at *; constructor <;> omega
    refine ⟨?_, hkl⟩
    rw [Rd.val_sub, hp, hq, ← Int.cast_sub]
    exact h.int _ (hkl.trans (by norm_num))
  have comp : ∀ (f g k l : Rd rnd) (F G K L : ℤ), f.val = F ∧ |F| ≤ 2 ^ 25 → g.val = G ∧ |G| ≤ 2 ^ 25 → k.val = K ∧ |K| ≤ 2 ^ 25 →
      l.val = L ∧ |L| ≤ 2 ^ 25 → (f * g - k * l).val = F * G - K * L := by
    rintro f g k l F G K L ⟨hf, bF⟩ ⟨hg, bG⟩ ⟨hk, bK⟩ ⟨hl, bL⟩
    have m1 : |F * G| ≤ 2 ^ 50 := by
      rw [abs_mul]
      calc |F| * |G| ≤ 2 ^ 25 * 2 ^ 25 := mul_le_mul bF bG (abs_nonneg _) (by norm_num)
        _ = 2 ^ 50 := by norm_num
    have m2 : |K * L| ≤ 2 ^ 50 := by
      rw [abs_mul]
      calc |K| * |L| ≤ 2 ^ 25 * 2 ^ 25 := mul_le_mul bK bL (abs_nonneg _) (by norm_num)
        _ = 2 ^ 50 := by norm_num
    have m3 : |F * G - K * L| ≤ 2 ^ 53 := by
      generalize F * G = A at *
      generalize K * L = B at *
      rw [abs_le] at *; constructor <;> omega
    have r1 := h.int (F * G) (m1.trans (by norm_num))
    have r2 := h.int (K * L) (m2.trans (by norm_num))
    have r3 := h.int (F * G - K * L) m3
    push_cast at r1 r2 r3
    rw [Rd.val_sub, Rd.val_mul, Rd.val_mul, hf, hg, hk, hl, r1, r2, r3]
  have x1 : p1.x.val = q1.x := congrArg V3.x e1
  have y1 : p1.y.val = q1.y := congrArg V3.y e1
  have z1 : p1.z.val = q1.z := congrArg V3.z e1
  have x2 : p2.x.val = q2.x := congrArg V3.x e2
  have y2 : p2.y.val = q2.y := congrArg V3.y e2
  have z2 : p2.z.val = q2.z := congrArg V3.z e2
  have x3 : p3.x.val = q3.x := congrArg V3.x e3
  have y3 : p3.y.val = q3.y := congrArg V3.y e3
  have z3 : p3.z.val = q3.z := congrArg V3.z e3
  have fx := sub p2.x p1.x _ _ x2 x1 b1 a1
  have fy := sub p2.y p1.y _ _ y2 y1 b2 a2
  have fz := sub p2.z p1.z _ _ z2 z1 b3 a3
  have gx := sub p3.x p1.x _ _ x3 x1 c1 a1
  have gy := sub p3.y p1.y _ _ y3 y1 c2 a2
  have gz := sub p3.z p1.z _ _ z3 z1 c3 a3
  have rx := comp _ _ _ _ _ _ _ _ fy gz fz gy
  have ry := comp _ _ _ _ _ _ _ _ fz gx fx gz
  have rz := comp _ _ _ _ _ _ _ _ fx gy fy gx
  push_cast at rx ry rz
  rw [e1, e2, e3]
  ext
  · exact rx
  · exact ry
  · exact rz

namespace FN

theorem npAbs_rd (h : Rounding rnd u) (c : Rd rnd) : (npAbs c).val = |c.val| := by
  have hz : (Num.lit 0 : Rd rnd).val = 0 := by rw [Rd.val_lit]; push_cast; exact h.zero
  unfold npAbs
  by_cases hc : c.val < 0
  · rw [if_pos (by rw [Rd.lt_iff, hz]; exact hc), Rd.val_neg, abs_of_neg hc]
  · rw [if_neg (by rw [Rd.lt_iff, hz]; exact hc), abs_of_nonneg (not_lt.mp hc)]

theorem close_rd (h : Rounding rnd u) (c : Rd rnd) : closeToZero c defaultAtol = true ↔ |c.val| ≤ rnd (1 / 100000000) := by
  unfold closeToZero
  rw [Rd.le_iff, npAbs_rd h]
  show _ ≤ rnd _ ↔ _
  norm_num

theorem mk'_raises (h : Rounding rnd u) (p n : V3 (Rd rnd)) : (∃ err, Plane.mk' p n = .error err) ↔
    |n.x.val| ≤ rnd (1 / 100000000) ∧ |n.y.val| ≤ rnd (1 / 100000000) ∧ |n.z.val| ≤ rnd (1 / 100000000) := by
  rw [← close_rd h, ← close_rd h, ← close_rd h]
  unfold Plane.mk' almostZero
  split
  · rename_i hc
    simp only [Bool.and_eq_true, and_assoc] at hc
    exact ⟨fun _ => hc, fun _ => ⟨_, rfl⟩⟩
  · rename_i hc
    simp only [Bool.and_eq_true, and_assoc] at hc
    exact ⟨fun ⟨_, h⟩ => (by cases h), fun h => absurd h hc⟩

end FN

/-- **C100.** Which triangles are rejected: if `from_points` raises, each component of the true normal is at most the tolerance plus its error
bound; if it does not, some component is more than the tolerance less its error bound. -/
theorem C100_rejected (h : Rounding rnd u) (hu : 4 * u < 1) (p1 p2 p3 : V3 (Rd rnd)) :
    let e1 := vec3 (Rd.vec p1) (Rd.vec p2)
    let e2 := vec3 (Rd.vec p1) (Rd.vec p3)
    let tol := rnd (1 / 100000000)
    ((∃ err, Plane.fromPoints p1 p2 p3 = .error err) →
      |(cross3 e1 e2).x| ≤ tol + gam u 4 * (crossSize e1 e2).x ∧ |(cross3 e1 e2).y| ≤ tol + gam u 4 * (crossSize e1 e2).y ∧
      |(cross3 e1 e2).z| ≤ tol + gam u 4 * (crossSize e1 e2).z) ∧
    ((∃ pl, Plane.fromPoints p1 p2 p3 = .ok pl) →
      tol - gam u 4 * (crossSize e1 e2).x < |(cross3 e1 e2).x| ∨ tol - gam u 4 * (crossSize e1 e2).y < |(cross3 e1 e2).y| ∨
      tol - gam u 4 * (crossSize e1 e2).z < |(cross3 e1 e2).z|) := by
  intro e1 e2 tol
  obtain ⟨hx, hy, hz, _⟩ := C100_cross h hu p1 p2 p3
  have hr := mk'_raises h p1 (V3.cross (p2 - p1) (p3 - p1))
  have near : ∀ {a b e : ℝ}, |a - b| ≤ e → |b| ≤ |a| + e ∧ |a| ≤ |b| + e := by
    intro a b e hab
    have h1 := abs_sub_abs_le_abs_sub a b
    have h2 := abs_sub_abs_le_abs_sub b a
    rw [abs_sub_comm] at h2
    constructor <;> linarith
  refine ⟨fun he => ?_, fun ⟨pl, hpl⟩ => ?_⟩
  · obtain ⟨t1, t2, t3⟩ := hr.mp he
    exact ⟨by linarith [(near hx).1, show |(surfaceNormal p1 p2 p3 false).x.val| ≤ tol from t1],
      by linarith [(near hy).1, show |(surfaceNormal p1 p2 p3 false).y.val| ≤ tol from t2],
      by linarith [(near hz).1, show |(surfaceNormal p1 p2 p3 false).z.val| ≤ tol from t3]⟩
  · by_contra hcon
    push Not at hcon
    obtain ⟨t1, t2, t3⟩ := hcon
    have : ∃ err, Plane.mk' p1 (V3.cross (p2 - p1) (p3 - p1)) = .error err := by
      apply hr.mpr
      exact ⟨show |(surfaceNormal p1 p2 p3 false).x.val| ≤ tol by linarith [(near hx).2],
        show |(surfaceNormal p1 p2 p3 false).y.val| ≤ tol by linarith [(near hy).2],
        show |(surfaceNormal p1 p2 p3 false).z.val| ≤ tol by linarith [(near hz).2]⟩
    obtain ⟨err, he⟩ := this
    have hpl' : Plane.mk' p1 (V3.cross (p2 - p1) (p3 - p1)) = .ok pl := hpl
    rw [he] at hpl'
    cases hpl'

/-- **C100.** In doubles `gam u 4` is less than `4.5e-16`. -/
theorem C100_doubles : gam (1 / 2 ^ 53) 4 < 45 / 10 ^ 17 ∧ Rounding rnd53 (1 / 2 ^ 53) ∧ 4 * ((1 : ℝ) / 2 ^ 53) < 1 := by
  refine ⟨?_, rounding_rnd53, by norm_num⟩
  unfold gam
  norm_num

/-- **C100.** In doubles a proper triangle may get the zero vector for its normal, and so be rejected by `from_points`, although a component of
its true normal is more than the tolerance. -/
theorem C100_lost :
    let p1 : V3 (Rd rnd53) := ⟨⟨0⟩, ⟨0⟩, ⟨0⟩⟩
    let p2 : V3 (Rd rnd53) := ⟨⟨2 ^ 40 + 1 / 2 ^ 12⟩, ⟨2 ^ 40⟩, ⟨0⟩⟩
    let p3 : V3 (Rd rnd53) := ⟨⟨2 ^ 40 + 2 / 2 ^ 12⟩, ⟨2 ^ 40 + 1 / 2 ^ 12⟩, ⟨0⟩⟩
    (∀ p ∈ [p1, p2, p3], rnd53 p.x.val = p.x.val ∧ rnd53 p.y.val = p.y.val ∧ rnd53 p.z.val = p.z.val) ∧
    Rd.vec (surfaceNormal p1 p2 p3 false) = zero3 ∧
    Plane.fromPoints p1 p2 p3 = .error .ValueError ∧
    (cross3 (vec3 (Rd.vec p1) (Rd.vec p2)) (vec3 (Rd.vec p1) (Rd.vec p3))).z = 1 / 2 ^ 24 ∧
    rnd53 (1 / 100000000) < 1 / 2 ^ 24 := by
  intro p1 p2 p3
  have h := rounding_rnd53
  have z := h.zero
  have r1 : rnd53 (2 ^ 40 + 1 / 2 ^ 12) = 2 ^ 40 + 1 / 2 ^ 12 := by
    have := rnd53_grid (2 ^ 52 + 1) (-12) (by norm_num)
    norm_num at this ⊢
    exact this
  have r2 : rnd53 (2 ^ 40) = 2 ^ 40 := by
    have := rnd53_grid 1 40 (by norm_num)
    norm_num at this ⊢
    exact this
  have r3 : rnd53 (2 ^ 40 + 2 / 2 ^ 12) = 2 ^ 40 + 2 / 2 ^ 12 := by
    have := rnd53_grid (2 ^ 52 + 2) (-12) (by norm_num)
    norm_num at this ⊢
    exact this
  have m1 : rnd53 ((2 ^ 40 + 1 / 2 ^ 12) * (2 ^ 40 + 1 / 2 ^ 12)) = 2 ^ 80 + 2 * 2 ^ 28 := by
    rw [rnd53_eval _ (2 ^ 52 + 2) 28 (by norm_num) (by norm_num) (by norm_num [abs_lt])]
    norm_num
  have m2 : rnd53 (2 ^ 40 * (2 ^ 40 + 2 / 2 ^ 12)) = 2 ^ 80 + 2 * 2 ^ 28 := by
    rw [rnd53_eval _ (2 ^ 52 + 2) 28 (by norm_num) (by norm_num) (by norm_num [abs_lt])]
    norm_num
  have hn : Rd.vec (surfaceNormal p1 p2 p3 false) = zero3 := by
    ext
    · show rnd53 (rnd53 (rnd53 (2 ^ 40 - 0) * rnd53 (0 - 0)) - rnd53 (rnd53 (0 - 0) * rnd53 (2 ^ 40 + 1 / 2 ^ 12 - 0))) = 0
      simp only [sub_zero, z, zero_mul, mul_zero]
    · show rnd53 (rnd53 (rnd53 (0 - 0) * rnd53 (2 ^ 40 + 2 / 2 ^ 12 - 0)) - rnd53 (rnd53 (2 ^ 40 + 1 / 2 ^ 12 - 0) * rnd53 (0 - 0))) = 0
      simp only [sub_zero, z, zero_mul, mul_zero]
    · show rnd53 (rnd53 (rnd53 (2 ^ 40 + 1 / 2 ^ 12 - 0) * rnd53 (2 ^ 40 + 1 / 2 ^ 12 - 0)) -
        rnd53 (rnd53 (2 ^ 40 - 0) * rnd53 (2 ^ 40 + 2 / 2 ^ 12 - 0))) = 0
      simp only [sub_zero]
      rw [r1, r2, r3, m1, m2, sub_self, z]
  have htol : 0 ≤ rnd53 (1 / 100000000) := by rw [h.nonneg_iff]; norm_num
  refine ⟨?_, hn, ?_, ?_, ?_⟩
  · intro p hp
    simp only [List.mem_cons, List.not_mem_nil, or_false] at hp
    rcases hp with rfl | rfl | rfl
    · exact ⟨z, z, z⟩
    · exact ⟨r1, r2, z⟩
    · exact ⟨r3, r1, z⟩
  · have hx : (surfaceNormal p1 p2 p3 false).x.val = 0 := congrArg V3.x hn
    have hy : (surfaceNormal p1 p2 p3 false).y.val = 0 := congrArg V3.y hn
    have hz : (surfaceNormal p1 p2 p3 false).z.val = 0 := congrArg V3.z hn
    have : closeToZero (surfaceNormal p1 p2 p3 false).x defaultAtol = true ∧ closeToZero (surfaceNormal p1 p2 p3 false).y defaultAtol = true ∧
        closeToZero (surfaceNormal p1 p2 p3 false).z defaultAtol = true := by
      rw [close_rd h, close_rd h, close_rd h, hx, hy, hz, abs_zero]
      exact ⟨htol, htol, htol⟩
    show Plane.mk' p1 (surfaceNormal p1 p2 p3 false) = _
    unfold Plane.mk' almostZero
    rw [this.1, this.2.1, this.2.2]
    rfl
  · simp only [cross3, vec3, Rd.vec, p1, p2, p3]
    norm_num
  · have := (abs_le.mp (rnd53_err (1 / 100000000))).2
    norm_num at this ⊢
    linarith

/-- A plane that meets the hypotheses above: three points with integer coordinates. -/
theorem C100_witness :
    let p1 : V3 (Rd rnd53) := ⟨⟨1⟩, ⟨2⟩, ⟨3⟩⟩
    let p2 : V3 (Rd rnd53) := ⟨⟨4⟩, ⟨2⟩, ⟨3⟩⟩
    let p3 : V3 (Rd rnd53) := ⟨⟨1⟩, ⟨7⟩, ⟨3⟩⟩
    Rd.vec (surfaceNormal p1 p2 p3 false) = ⟨0, 0, 15⟩ ∧ (∃ pl, Plane.fromPoints p1 p2 p3 = .ok pl) := by
  intro p1 p2 p3
  have h := rounding_rnd53
  have hn : Rd.vec (surfaceNormal p1 p2 p3 false) = ⟨0, 0, 15⟩ := by
    rw [C100_integers h p1 p2 p3 ⟨1, 2, 3⟩ ⟨4, 2, 3⟩ ⟨1, 7, 3⟩ (by ext <;> simp [Rd.vec, V3.map, p1])
      (by ext <;> simp [Rd.vec, V3.map, p2]) (by ext <;> simp [Rd.vec, V3.map, p3])
      (by intro q hq; simp only [List.mem_cons, List.not_mem_nil, or_false] at hq; rcases hq with rfl | rfl | rfl <;> norm_num)]
    ext <;> norm_num [cross3, vec3, Rd.vec, p1, p2, p3]
  refine ⟨hn, ?_⟩
  by_contra hcon
  have : ∃ err, Plane.mk' p1 (surfaceNormal p1 p2 p3 false) = .error err := by
    cases hm : Plane.mk' p1 (surfaceNormal p1 p2 p3 false) with
    | error err => exact ⟨err, rfl⟩
    | ok pl => exact absurd ⟨pl, hm⟩ hcon
  have h3 := ((mk'_raises h _ _).mp this).2.2
  have hz : (surfaceNormal p1 p2 p3 false).z.val = 15 := congrArg V3.z hn
  rw [hz] at h3
  have := (abs_le.mp (rnd53_err (1 / 100000000))).2
  norm_num at this h3
  linarith

end Blmath.Props
