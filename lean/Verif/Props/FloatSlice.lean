import Verif.Props.FloatNormals
import Verif.Props.Plane

/-!
Property C101: where a segment meets a plane, in rounded arithmetic.
-/

namespace Blmath.Props
open Blmath.Spec Blmath.Vx Blmath.Geometry Blmath.Proofs
variable {rnd : ℝ → ℝ} {u : ℝ}

namespace FS

/-- `|rnd x| ≤ (1 + u)|x|` -/
theorem abs_rnd_le (h : Rounding rnd u) (x : ℝ) : |rnd x| ≤ (1 + u) * |x| := by
  have := h.err x
  have h2 := abs_sub_abs_le_abs_sub (rnd x) x
  linarith

theorem le_abs_rnd (h : Rounding rnd u) (x : ℝ) : (1 - u) * |x| ≤ |rnd x| := by
  have := h.err x
  rw [abs_sub_comm] at this
  have h2 := abs_sub_abs_le_abs_sub x (rnd x)
  linarith

theorem rnd_nonpos (h : Rounding rnd u) {x : ℝ} (hx : x ≤ 0) : rnd x ≤ 0 := by
  rw [← h.zero]; exact h.mono hx

theorem rnd_nonneg (h : Rounding rnd u) {x : ℝ} (hx : 0 ≤ x) : 0 ≤ rnd x := by
  rw [← h.zero]; exact h.mono hx

/-- one coordinate of a computed point stays between the coordinates of the two ends -/
theorem between (h : Rounding rnd u) {a b p : ℝ} (ha : rnd a = a) (hb : rnd b = b) (hp0 : 0 ≤ p) (hp : p * (1 + u) ^ 2 ≤ 1) :
    (a ≤ rnd (rnd (p * rnd (b - a)) + a) ∧ rnd (rnd (p * rnd (b - a)) + a) ≤ b) ∨
    (b ≤ rnd (rnd (p * rnd (b - a)) + a) ∧ rnd (rnd (p * rnd (b - a)) + a) ≤ a) := by
  have hu := h.nonneg
  have h1 := abs_rnd_le h (b - a)
  have h2 := abs_rnd_le h (p * rnd (b - a))
  rw [abs_mul, abs_of_nonneg hp0] at h2
  have h3 : |rnd (p * rnd (b - a))| ≤ |b - a| := by
    calc _ ≤ (1 + u) * (p * |rnd (b - a)|) := h2
      _ ≤ (1 + u) * (p * ((1 + u) * |b - a|)) := by gcongr
      _ = (p * (1 + u) ^ 2) * |b - a| := by ring
      _ ≤ 1 * |b - a| := by gcongr
      _ = _ := one_mul _
  rcases le_total a b with hab | hab
  · left
    have h4 : 0 ≤ rnd (p * rnd (b - a)) := rnd_nonneg h (mul_nonneg hp0 (rnd_nonneg h (by linarith)))
    rw [abs_of_nonneg h4, abs_of_nonneg (by linarith : 0 ≤ b - a)] at h3
    constructor
    · calc a = rnd a := ha.symm
        _ ≤ _ := h.mono (by linarith)
    · calc _ ≤ rnd b := h.mono (by linarith)
        _ = b := hb
  · right
    have h4 : rnd (p * rnd (b - a)) ≤ 0 := rnd_nonpos h (mul_nonpos_of_nonneg_of_nonpos hp0 (rnd_nonpos h (by linarith)))
    rw [abs_of_nonpos h4, abs_of_nonpos (by linarith : b - a ≤ 0)] at h3
    constructor
    · calc b = rnd b := hb.symm
        _ ≤ _ := h.mono (by linarith)
    · calc _ ≤ rnd a := h.mono (by linarith)
        _ = a := ha

/-- one coordinate of a computed point is near the exact one for the computed parameter -/
theorem coordinate_err (h : Rounding rnd u) {a b p M : ℝ} (ha : rnd a = a) (hb : rnd b = b) (hp0 : 0 ≤ p) (hp : p * (1 + u) ^ 2 ≤ 1)
    (haM : |a| ≤ M) (hbM : |b| ≤ M) : |rnd (rnd (p * rnd (b - a)) + a) - (a + p * (b - a))| ≤ 5 * u * M := by
  have hu := h.nonneg
  have hp1 : p * (1 + u) ≤ 1 := by nlinarith [mul_nonneg hp0 hu]
  have hp2 : p ≤ 1 := by nlinarith [mul_nonneg hp0 hu]
  have hd : |b - a| ≤ 2 * M := by have := abs_sub b a; linarith
  have e1 := h.err (b - a)
  have e2 := h.err (p * rnd (b - a))
  have e3 := h.err (rnd (p * rnd (b - a)) + a)
  have g1 : |p * rnd (b - a) - p * (b - a)| ≤ u * (2 * M) := by
    rw [← mul_sub, abs_mul, abs_of_nonneg hp0]
    calc p * |rnd (b - a) - (b - a)| ≤ 1 * (u * |b - a|) := by gcongr
      _ ≤ u * (2 * M) := by rw [one_mul]; gcongr
  have g2 : |rnd (p * rnd (b - a)) - p * rnd (b - a)| ≤ u * (2 * M) := by
    refine e2.trans ?_
    rw [abs_mul, abs_of_nonneg hp0]
    have := abs_rnd_le h (b - a)
    calc u * (p * |rnd (b - a)|) ≤ u * (p * ((1 + u) * |b - a|)) := by gcongr
      _ = u * ((p * (1 + u)) * |b - a|) := by ring
      _ ≤ u * (1 * (2 * M)) := by gcongr
      _ = _ := by ring
  have g3 : |rnd (rnd (p * rnd (b - a)) + a) - (rnd (p * rnd (b - a)) + a)| ≤ u * M := by
    refine e3.trans (mul_le_mul_of_nonneg_left ?_ hu)
    have h3 : |rnd (p * rnd (b - a))| ≤ |b - a| := by
      have h1 := abs_rnd_le h (b - a)
      have h2 := abs_rnd_le h (p * rnd (b - a))
      rw [abs_mul, abs_of_nonneg hp0] at h2
      calc _ ≤ (1 + u) * (p * |rnd (b - a)|) := h2
        _ ≤ (1 + u) * (p * ((1 + u) * |b - a|)) := by gcongr
        _ = (p * (1 + u) ^ 2) * |b - a| := by ring
        _ ≤ 1 * |b - a| := by gcongr
        _ = _ := one_mul _
    rw [abs_le] at haM hbM ⊢
    rcases le_total a b with hab | hab
    · have h4 : 0 ≤ rnd (p * rnd (b - a)) := rnd_nonneg h (mul_nonneg hp0 (rnd_nonneg h (by linarith)))
      rw [abs_of_nonneg h4, abs_of_nonneg (by linarith : 0 ≤ b - a)] at h3
      constructor <;> linarith
    · have h4 : rnd (p * rnd (b - a)) ≤ 0 := rnd_nonpos h (mul_nonpos_of_nonneg_of_nonpos hp0 (rnd_nonpos h (by linarith)))
      rw [abs_of_nonpos h4, abs_of_nonpos (by linarith : b - a ≤ 0)] at h3
      constructor <;> linarith
  rw [abs_le] at *
  constructor <;> linarith [g1.1, g1.2, g2.1, g2.2, g3.1, g3.2]

/-- a step `w` away from `b` leaves the interval between `a` and `b` -/
theorem past_a (h : Rounding rnd u) (hu : u ≤ 1 / 1000) {a b w M : ℝ} (hM : 0 < u * M) (haM : |a| ≤ M) (hw : 5 * (u * M) ≤ |w|)
    (hs : (w < 0 ∧ a ≤ b) ∨ (0 < w ∧ b ≤ a)) :
    (rnd (w + a) < a ∧ rnd (w + a) < b) ∨ (a < rnd (w + a) ∧ b < rnd (w + a)) := by
  have h0 := h.nonneg
  rcases hs with ⟨hw0, hab⟩ | ⟨hw0, hab⟩
  · left
    rw [abs_of_neg hw0] at hw
    have h1 : rnd (w + a) ≤ rnd (a - 5 * (u * M)) := h.mono (by linarith)
    have h2 := h.err (a - 5 * (u * M))
    have h3 : u * |a - 5 * (u * M)| ≤ u * (M + 5 * (u * M)) := by
      apply mul_le_mul_of_nonneg_left _ h0
      refine (abs_sub _ _).trans ?_
      rw [abs_of_pos (by linarith : 0 < 5 * (u * M))]
      linarith
    have h4 : u * (5 * (u * M)) ≤ 1 / 1000 * (5 * (u * M)) := by gcongr
    have h5 := (abs_le.mp h2).2
    constructor <;> nlinarith
  · right
    rw [abs_of_pos hw0] at hw
    have h1 : rnd (a + 5 * (u * M)) ≤ rnd (w + a) := h.mono (by linarith)
    have h2 := h.err (a + 5 * (u * M))
    have h3 : u * |a + 5 * (u * M)| ≤ u * (M + 5 * (u * M)) := by
      apply mul_le_mul_of_nonneg_left _ h0
      refine (abs_add_le _ _).trans ?_
      rw [abs_of_pos (by linarith : 0 < 5 * (u * M))]
      linarith
    have h4 : u * (5 * (u * M)) ≤ 1 / 1000 * (5 * (u * M)) := by gcongr
    have h5 := (abs_le.mp h2).1
    constructor <;> nlinarith

/-- a step `w` in the direction of `b`, longer than the way to `b`, leaves the interval between `a` and `b` -/
theorem past_b (h : Rounding rnd u) (hu : u ≤ 1 / 1000) {a b w M : ℝ} (hM : 0 < u * M) (hbM : |b| ≤ M) (hw : |b - a| + 2 * (u * M) ≤ |w|)
    (hs : (w < 0 ∧ b ≤ a) ∨ (0 < w ∧ a ≤ b)) :
    (rnd (w + a) < a ∧ rnd (w + a) < b) ∨ (a < rnd (w + a) ∧ b < rnd (w + a)) := by
  have h0 := h.nonneg
  rcases hs with ⟨hw0, hab⟩ | ⟨hw0, hab⟩
  · left
    rw [abs_of_neg hw0, abs_of_nonpos (by linarith)] at hw
    have h1 : rnd (w + a) ≤ rnd (b - 2 * (u * M)) := h.mono (by linarith)
    have h2 := h.err (b - 2 * (u * M))
    have h3 : u * |b - 2 * (u * M)| ≤ u * (M + 2 * (u * M)) := by
      apply mul_le_mul_of_nonneg_left _ h0
      refine (abs_sub _ _).trans ?_
      rw [abs_of_pos (by linarith : 0 < 2 * (u * M))]
      linarith
    have h4 : u * (2 * (u * M)) ≤ 1 / 1000 * (2 * (u * M)) := by gcongr
    have h5 := (abs_le.mp h2).2
    constructor <;> nlinarith
  · right
    rw [abs_of_pos hw0, abs_of_nonneg (by linarith)] at hw
    have h1 : rnd (b + 2 * (u * M)) ≤ rnd (w + a) := h.mono (by linarith)
    have h2 := h.err (b + 2 * (u * M))
    have h3 : u * |b + 2 * (u * M)| ≤ u * (M + 2 * (u * M)) := by
      apply mul_le_mul_of_nonneg_left _ h0
      refine (abs_add_le _ _).trans ?_
      rw [abs_of_pos (by linarith : 0 < 2 * (u * M))]
      linarith
    have h4 : u * (2 * (u * M)) ≤ 1 / 1000 * (2 * (u * M)) := by gcongr
    have h5 := (abs_le.mp h2).1
    constructor <;> nlinarith

/-- every coordinate is at most `M` in size -/
def Within (M : ℝ) (v : V3 ℝ) : Prop := |v.x| ≤ M ∧ |v.y| ≤ M ∧ |v.z| ≤ M

/-- every coordinate is a number of the rounded arithmetic -/
def Stored (v : V3 (Rd rnd)) : Prop := rnd v.x.val = v.x.val ∧ rnd v.y.val = v.y.val ∧ rnd v.z.val = v.z.val

/-- a point at least `100·u·M` away from the plane -/
def Clear (u M : ℝ) (pl : Plane (Rd rnd)) (v : V3 (Rd rnd)) : Prop := 100 * (u * M) ≤ |height (exactPlane pl) (Rd.vec v)|

theorem gam_four (h : Rounding rnd u) (hu : u ≤ 1 / 1000) : gam u 4 ≤ 402 / 100 * u := by
  have h0 := h.nonneg
  unfold gam
  rw [div_le_iff₀ (by push_cast; linarith)]
  push_cast
  nlinarith

/-- the dot product of a computed difference with the normal -/
theorem diff_dot (h : Rounding rnd u) (hu : u ≤ 1 / 1000) {M : ℝ} (p q n : V3 (Rd rnd)) (hp : Within M (Rd.vec p))
    (hq : Within M (Rd.vec q)) (hn : Within (5 / 4) (Rd.vec n)) :
    |(V3.dot (q - p) n).val - inner3 (vec3 (Rd.vec p) (Rd.vec q)) (Rd.vec n)| ≤ 31 * (u * M) := by
  have h0 := h.nonneg
  have hu' : ((4 : ℕ) : ℝ) * u < 1 := by push_cast; linarith
  obtain ⟨t1, t2, t3, h1, h2, h3, e⟩ := dot_rd h (q - p) n
  obtain ⟨d1, k1, e1⟩ := h.factor (q.x.val - p.x.val)
  obtain ⟨d2, k2, e2⟩ := h.factor (q.y.val - p.y.val)
  obtain ⟨d3, k3, e3⟩ := h.factor (q.z.val - p.z.val)
  have f1 := factor_err (x := (q.x.val - p.x.val) * n.x.val) h hu' (h1.mul h.lt_one k1)
  have f2 := factor_err (x := (q.y.val - p.y.val) * n.y.val) h hu' (h2.mul h.lt_one k2)
  have f3 := factor_err (x := (q.z.val - p.z.val) * n.z.val) h hu' ((h3.mul h.lt_one k3).mono h.nonneg h.lt_one (by norm_num : 3 ≤ 4))
  have hM : 0 ≤ M := (abs_nonneg _).trans hp.1
  have key : ∀ a b c : ℝ, |a| ≤ M → |b| ≤ M → |c| ≤ 5 / 4 → gam u 4 * |(b - a) * c| ≤ 402 / 100 * u * (2 * M * (5 / 4)) := by
    intro a b c ha hb hc
    have hd : |b - a| ≤ 2 * M := by have := abs_sub b a; linarith
    rw [abs_mul]
    have := gam_four h hu
    gcongr
  have g1 := key _ _ _ hp.1 hq.1 hn.1
  have g2 := key _ _ _ hp.2.1 hq.2.1 hn.2.1
  have g3 := key _ _ _ hp.2.2 hq.2.2 hn.2.2
  have v1 : (q - p).x.val = rnd (q.x.val - p.x.val) := rfl
  have v2 : (q - p).y.val = rnd (q.y.val - p.y.val) := rfl
  have v3 : (q - p).z.val = rnd (q.z.val - p.z.val) := rfl
  rw [e, v1, v2, v3, e1, e2, e3]
  simp only [inner3, vec3, Rd.vec_x, Rd.vec_y, Rd.vec_z] at *
  have hUM : 0 ≤ u * M := mul_nonneg h0 hM
  rw [abs_le] at *
  constructor <;> linarith [f1.1, f1.2, f2.1, f2.2, f3.1, f3.2]

/-- the denominator in terms of the largest coordinate of the ray -/
theorem denom_le (h : Rounding rnd u) (hu : u ≤ 1 / 1000) {R : ℝ} (r n : V3 (Rd rnd)) (hr : Within R (Rd.vec r))
    (hn : Within (5 / 4) (Rd.vec n)) : |(V3.dot r n).val| ≤ 19 / 5 * R := by
  have h0 := h.nonneg
  have hu' : ((4 : ℕ) : ℝ) * u < 1 := by push_cast; linarith
  obtain ⟨t1, t2, t3, h1, h2, h3, e⟩ := dot_rd h r n
  have f1 := factor_err (x := r.x.val * n.x.val) h hu' (h1.mono h.nonneg h.lt_one (by norm_num : 3 ≤ 4))
  have f2 := factor_err (x := r.y.val * n.y.val) h hu' (h2.mono h.nonneg h.lt_one (by norm_num : 3 ≤ 4))
  have f3 := factor_err (x := r.z.val * n.z.val) h hu' (h3.mono h.nonneg h.lt_one (by norm_num : 2 ≤ 4))
  have hR : 0 ≤ R := (abs_nonneg _).trans hr.1
  have key : ∀ a c : ℝ, |a| ≤ R → |c| ≤ 5 / 4 → |a * c| ≤ 5 / 4 * R ∧ gam u 4 * |a * c| ≤ 402 / 100 * (1 / 1000) * (R * (5 / 4)) := by
    intro a c ha hc
    have := gam_four h hu
    rw [abs_mul]
    refine ⟨by nlinarith [abs_nonneg a, abs_nonneg c], ?_⟩
    gcongr
    linarith
  obtain ⟨a1, g1⟩ := key _ _ hr.1 hn.1
  obtain ⟨a2, g2⟩ := key _ _ hr.2.1 hn.2.1
  obtain ⟨a3, g3⟩ := key _ _ hr.2.2 hn.2.2
  rw [e]
  simp only [Rd.vec_x, Rd.vec_y, Rd.vec_z] at *
  rw [abs_le] at *
  constructor <;> linarith [f1.1, f1.2, f2.1, f2.2, f3.1, f3.2, a1.1, a1.2, a2.1, a2.2, a3.1, a3.2]

theorem height_le {M : ℝ} {pl : Plane ℝ} {q : V3 ℝ} (hq : Within M q) (hr : Within M pl.r0) (hn : Within (5 / 4) pl.n) :
    |height pl q| ≤ 15 / 2 * M := by
  have key : ∀ a b c : ℝ, |a| ≤ M → |b| ≤ M → |c| ≤ 5 / 4 → |(b - a) * c| ≤ 5 / 2 * M := by
    intro a b c ha hb hc
    have hM : 0 ≤ M := (abs_nonneg _).trans ha
    have hd : |b - a| ≤ 2 * M := by have := abs_sub b a; linarith
    rw [abs_mul]
    nlinarith [abs_nonneg (b - a), abs_nonneg c]
  have g1 := key _ _ _ hr.1 hq.1 hn.1
  have g2 := key _ _ _ hr.2.1 hq.2.1 hn.2.1
  have g3 := key _ _ _ hr.2.2 hq.2.2 hn.2.2
  simp only [height, inner3, vec3]
  rw [abs_le] at *
  constructor <;> linarith [g1.1, g1.2, g2.1, g2.2, g3.1, g3.2]

/-- the parameter computed for a segment with ends on opposite sides -/
theorem parameter (h : Rounding rnd u) (hu : u ≤ 1 / 1000) {M A B num den : ℝ} (hM : 0 ≤ M)
    (hA : 100 * (u * M) ≤ A) (hB : 100 * (u * M) ≤ B) (hA' : A ≤ 15 / 2 * M) (hd0 : den ≠ 0)
    (hnum : |num - A| ≤ 31 * (u * M)) (hden : |den - (A + B)| ≤ 31 * (u * M)) :
    0 ≤ rnd (num / den) ∧ rnd (num / den) * (1 + u) ^ 2 ≤ 1 ∧ |rnd (num / den) * (A + B) - A| ≤ 71 * (u * M) := by
  have h0 := h.nonneg
  have hU : 0 ≤ u * M := mul_nonneg h0 hM
  have hn := abs_le.mp hnum
  have hd := abs_le.mp hden
  have hdp : 0 < den := lt_of_le_of_ne (by linarith [hd.1]) hd0.symm
  have hn0 : 0 ≤ num := by linarith [hn.1]
  have hx0 : 0 ≤ num / den := div_nonneg hn0 hdp.le
  have huU : u * (u * M) ≤ 1 / 1000 * (u * M) := by gcongr
  have hnm : u * num ≤ 8 * (u * M) := by
    calc u * num ≤ u * (15 / 2 * M + 31 * (u * M)) := by apply mul_le_mul_of_nonneg_left _ h0; linarith [hn.2]
      _ ≤ _ := by nlinarith
  have hcube : (1 + u) ^ 3 ≤ 1 + 301 / 100 * u := by
    have c1 : u * u ≤ 1 / 1000 * u := by gcongr
    have c2 : u * u * u ≤ 1 / 1000 * u * (1 / 1000) := by gcongr
    linarith [show (1 + u) ^ 3 = 1 + 3 * u + 3 * (u * u) + u * u * u by ring]
  have hle : (1 + u) ^ 3 * num ≤ den := by
    calc (1 + u) ^ 3 * num ≤ (1 + 301 / 100 * u) * num := by gcongr
      _ = num + 301 / 100 * (u * num) := by ring
      _ ≤ den := by linarith [hn.2, hd.1]
  have hp0 := rnd_nonneg h hx0
  have hp1 := abs_rnd_le h (num / den)
  rw [abs_of_nonneg hp0, abs_of_nonneg hx0] at hp1
  have hq : rnd (num / den) * (1 + u) ^ 2 ≤ 1 := by
    calc rnd (num / den) * (1 + u) ^ 2 ≤ (1 + u) * (num / den) * (1 + u) ^ 2 := by gcongr
      _ = ((1 + u) ^ 3 * num) / den := by ring
      _ ≤ 1 := by rw [div_le_one hdp]; exact hle
  refine ⟨hp0, hq, ?_⟩
  have hp2 : rnd (num / den) ≤ 1 := by nlinarith [mul_nonneg hp0 h0]
  have he : |rnd (num / den) - num / den| * den ≤ 8 * (u * M) := by
    have := h.err (num / den)
    rw [abs_of_nonneg hx0] at this
    calc _ ≤ u * (num / den) * den := by gcongr
      _ = u * num := by field_simp
      _ ≤ _ := hnm
  have e1 : |(rnd (num / den) - num / den) * den| ≤ 8 * (u * M) := by rw [abs_mul, abs_of_pos hdp]; exact he
  have e2 : |rnd (num / den) * (den - (A + B))| ≤ 31 * (u * M) := by
    rw [abs_mul, abs_of_nonneg hp0]
    calc _ ≤ 1 * (31 * (u * M)) := by gcongr
      _ = _ := one_mul _
  have e3 : rnd (num / den) * (A + B) - A = (rnd (num / den) - num / den) * den - rnd (num / den) * (den - (A + B)) + (num - A) := by
    field_simp
    ring
  rw [e3]
  rw [abs_le] at *
  constructor <;> linarith [e1.1, e1.2, e2.1, e2.2]

theorem outOfBounds_iff (q a b : V3 (Rd rnd)) : Plane.outOfBounds q a b = true ↔
    ((a.x.val < q.x.val ∧ b.x.val < q.x.val) ∨ (a.y.val < q.y.val ∧ b.y.val < q.y.val) ∨ (a.z.val < q.z.val ∧ b.z.val < q.z.val)) ∨
    ((q.x.val < a.x.val ∧ q.x.val < b.x.val) ∨ (q.y.val < a.y.val ∧ q.y.val < b.y.val) ∨ (q.z.val < a.z.val ∧ q.z.val < b.z.val)) := by
  simp only [Plane.outOfBounds, Plane.beyond, Plane.below, Bool.or_eq_true, Bool.and_eq_true, Rd.lt_iff]
  tauto

theorem height_at (pl : Plane ℝ) (a b : V3 ℝ) (t : ℝ) :
    height pl (along a t (vec3 a b)) = height pl a + t * (height pl b - height pl a) := by
  simp only [height, inner3, vec3, along]
  ring

theorem height_near {pl : Plane ℝ} {c q : V3 ℝ} {e k : ℝ} (hn : Within (5 / 4) pl.n) (hd : Within e (vec3 c q)) (hc : |height pl c| ≤ k) :
    |height pl q| ≤ k + 15 / 4 * e := by
  have key : ∀ a c : ℝ, |a| ≤ e → |c| ≤ 5 / 4 → |a * c| ≤ 5 / 4 * e := by
    intro a c ha hc
    rw [abs_mul]
    nlinarith [abs_nonneg a, abs_nonneg c]
  have g1 := key _ _ hd.1 hn.1
  have g2 := key _ _ hd.2.1 hn.2.1
  have g3 := key _ _ hd.2.2 hn.2.2
  have : height pl q = height pl c + ((vec3 c q).x * pl.n.x + (vec3 c q).y * pl.n.y + (vec3 c q).z * pl.n.z) := by
    simp only [height, inner3, vec3]
    ring
  rw [this]
  rw [abs_le] at *
  constructor <;> linarith [g1.1, g1.2, g2.1, g2.2, g3.1, g3.2]

/-- a computed step that leaves the interval between the ends: backwards, or too far -/
theorem escapes (h : Rounding rnd u) (hu : u ≤ 1 / 1000) {a b M num den : ℝ} (hU : 0 < u * M) (haM : |a| ≤ M) (hbM : |b| ≤ M)
    (hd0 : den ≠ 0) (hR : |den| ≤ 19 / 5 * |rnd (b - a)|)
    (hcase : (num / den < 0 ∧ 69 * (u * M) ≤ |num|) ∨ (0 < num / den ∧ |den| + 38 * (u * M) ≤ |num|)) :
    (rnd (rnd (rnd (num / den) * rnd (b - a)) + a) < a ∧ rnd (rnd (rnd (num / den) * rnd (b - a)) + a) < b) ∨
    (a < rnd (rnd (rnd (num / den) * rnd (b - a)) + a) ∧ b < rnd (rnd (rnd (num / den) * rnd (b - a)) + a)) := by
  have h0 := h.nonneg
  have hdp : 0 < |den| := abs_pos.mpr hd0
  have hRp : 0 < |rnd (b - a)| := by linarith
  have hray : rnd (b - a) ≠ 0 := abs_pos.mp hRp
  have hx : |num / den| * |den| = |num| := by rw [abs_div]; field_simp
  have w1 := le_abs_rnd h (num / den)
  have w2 := le_abs_rnd h (rnd (num / den) * rnd (b - a))
  rw [abs_mul] at w2
  have hw : (1 - 2 * u) * (|num / den| * |rnd (b - a)|) ≤ |rnd (rnd (num / den) * rnd (b - a))| := by
    have hpos : 0 ≤ |num / den| * |rnd (b - a)| := by positivity
    have h1u : 0 ≤ 1 - u := by linarith
    calc (1 - 2 * u) * (|num / den| * |rnd (b - a)|) ≤ (1 - u) ^ 2 * (|num / den| * |rnd (b - a)|) := by
          apply mul_le_mul_of_nonneg_right _ hpos
          nlinarith
      _ = (1 - u) * ((1 - u) * |num / den| * |rnd (b - a)|) := by ring
      _ ≤ (1 - u) * (|rnd (num / den)| * |rnd (b - a)|) := by gcongr
      _ ≤ _ := w2
  have hdle : |b - a| ≤ 2 * M := by have := abs_sub b a; linarith
  have hrr := h.err (b - a)
  have hRM : |rnd (b - a)| ≤ 201 / 100 * M := by
    have := abs_rnd_le h (b - a)
    have hM : 0 ≤ M := (abs_nonneg _).trans haM
    nlinarith
  have hue : u * |b - a| ≤ 2 * (u * M) := by
    calc u * |b - a| ≤ u * (2 * M) := by gcongr
      _ = _ := by ring
  have huU : u * (u * M) ≤ 1 / 1000 * (u * M) := by gcongr
  rcases hcase with ⟨hs, hn⟩ | ⟨hs, hn⟩
  · have hq : 18 * (u * M) ≤ |num / den| * |rnd (b - a)| := by
      have : |num| ≤ 19 / 5 * (|num / den| * |rnd (b - a)|) := by
        calc |num| = |num / den| * |den| := hx.symm
          _ ≤ |num / den| * (19 / 5 * |rnd (b - a)|) := by gcongr
          _ = _ := by ring
      linarith
    have hw5 : 5 * (u * M) ≤ |rnd (rnd (num / den) * rnd (b - a))| := by
      refine le_trans ?_ hw
      calc 5 * (u * M) ≤ (1 - 2 * u) * (18 * (u * M)) := by linarith
        _ ≤ _ := by
          apply mul_le_mul_of_nonneg_left hq
          linarith
    have hwne : rnd (rnd (num / den) * rnd (b - a)) ≠ 0 := abs_pos.mp (by linarith)
    have hp : rnd (num / den) ≤ 0 := rnd_nonpos h hs.le
    refine past_a h hu hU haM hw5 ?_
    rcases lt_or_gt_of_ne hray with hr | hr
    · right
      refine ⟨lt_of_le_of_ne (rnd_nonneg h (mul_nonneg_of_nonpos_of_nonpos hp hr.le)) hwne.symm, ?_⟩
      by_contra hc
      exact absurd (rnd_nonneg h (by linarith : 0 ≤ b - a)) (not_le.mpr hr)
    · left
      refine ⟨lt_of_le_of_ne (rnd_nonpos h (mul_nonpos_of_nonpos_of_nonneg hp hr.le)) hwne, ?_⟩
      by_contra hc
      exact absurd (rnd_nonpos h (by linarith : b - a ≤ 0)) (not_le.mpr hr)
  · have hq : |rnd (b - a)| + 10 * (u * M) ≤ |num / den| * |rnd (b - a)| := by
      have h1 : 38 * (u * M) ≤ (|num / den| - 1) * |den| := by linarith
      have h2 : 0 ≤ |num / den| - 1 := by
        by_contra hc
        push Not at hc
        have := mul_neg_of_neg_of_pos hc hdp
        linarith
      have h3 : (|num / den| - 1) * |den| ≤ (|num / den| - 1) * (19 / 5 * |rnd (b - a)|) := by gcongr
      linarith
    have hwb : |b - a| + 2 * (u * M) ≤ |rnd (rnd (num / den) * rnd (b - a))| := by
      refine le_trans ?_ hw
      have h1 : (1 - 2 * u) * (|rnd (b - a)| + 10 * (u * M)) ≤ (1 - 2 * u) * (|num / den| * |rnd (b - a)|) :=
        mul_le_mul_of_nonneg_left hq (by linarith)
      refine le_trans ?_ h1
      have h2 : |b - a| ≤ |rnd (b - a)| + 2 * (u * M) := by
        have := abs_sub_abs_le_abs_sub (b - a) (rnd (b - a))
        rw [abs_sub_comm (b - a)] at this
        linarith
      have h3 : u * |rnd (b - a)| ≤ 201 / 100 * (u * M) := by
        calc u * |rnd (b - a)| ≤ u * (201 / 100 * M) := by gcongr
          _ = _ := by ring
      linarith
    have hwne : rnd (rnd (num / den) * rnd (b - a)) ≠ 0 := abs_pos.mp (by linarith [abs_nonneg (b - a)])
    have hp : 0 ≤ rnd (num / den) := rnd_nonneg h hs.le
    refine past_b h hu hU hbM hwb ?_
    rcases lt_or_gt_of_ne hray with hr | hr
    · left
      refine ⟨lt_of_le_of_ne (rnd_nonpos h (mul_nonpos_of_nonneg_of_nonpos hp hr.le)) hwne, ?_⟩
      by_contra hc
      exact absurd (rnd_nonneg h (by linarith : 0 ≤ b - a)) (not_le.mpr hr)
    · right
      refine ⟨lt_of_le_of_ne (rnd_nonneg h (mul_nonneg hp hr.le)) hwne.symm, ?_⟩
      by_contra hc
      exact absurd (rnd_nonpos h (by linarith : b - a ≤ 0)) (not_le.mpr hr)

/-- one of the coordinates is the largest -/
theorem largest (v : V3 ℝ) : Within |v.x| v ∨ Within |v.y| v ∨ Within |v.z| v := by
  unfold Within
  rcases le_total |v.x| |v.y| with h1 | h1
  · rcases le_total |v.y| |v.z| with h2 | h2
    · exact Or.inr (Or.inr ⟨h1.trans h2, h2, le_rfl⟩)
    · exact Or.inr (Or.inl ⟨h1, le_rfl, h2⟩)
  · rcases le_total |v.x| |v.z| with h2 | h2
    · exact Or.inr (Or.inr ⟨h2, h1.trans h2, le_rfl⟩)
    · exact Or.inl ⟨le_rfl, h1, h2⟩

/-- numerator and denominator for ends on one side -/
theorem same_side {U A B num den : ℝ} (hU : 0 < U) (hA : 100 * U ≤ A) (hB : 100 * U ≤ B) (hd0 : den ≠ 0)
    (hnum : |num + A| ≤ 31 * U) (hden : |den - (B - A)| ≤ 31 * U) :
    (num / den < 0 ∧ 69 * U ≤ |num|) ∨ (0 < num / den ∧ |den| + 38 * U ≤ |num|) := by
  have hn := abs_le.mp hnum
  have hd := abs_le.mp hden
  have hneg : num < 0 := by linarith [hn.2]
  rw [abs_of_neg hneg]
  rcases lt_or_gt_of_ne hd0 with hdn | hdp
  · right
    rw [abs_of_neg hdn]
    exact ⟨div_pos_of_neg_of_neg hneg hdn, by linarith [hn.1, hn.2, hd.1, hd.2]⟩
  · left
    exact ⟨div_neg_of_neg_of_pos hneg hdp, by linarith [hn.1, hn.2]⟩

end FS
open FS

/-- **C101.** Ends on opposite sides, both at least `100·u·M` away from the plane: the point is found.  It lies in the box
spanned by the ends, its coordinates are within `5·u·M` of a point of the segment, and it is within `90·u·M` of the plane. -/
theorem C101_found (h : Rounding rnd u) (hu0 : 0 < u) (hu : u ≤ 1 / 1000) {M : ℝ} (hM : 0 < M) (pl : Plane (Rd rnd)) (a b : V3 (Rd rnd))
    (hr : Within M (Rd.vec pl.r0)) (hn : Within (5 / 4) (Rd.vec pl.n)) (ha : Within M (Rd.vec a)) (hb : Within M (Rd.vec b))
    (sa : Stored a) (sb : Stored b) (ca : Clear u M pl a) (cb : Clear u M pl b)
    (hopp : height (exactPlane pl) (Rd.vec a) * height (exactPlane pl) (Rd.vec b) < 0) :
    ∃ q t, pl.lineSegmentXsection a b = some q ∧ Stored q ∧ 0 ≤ t ∧ t ≤ 1 ∧
      Within (5 * (u * M)) (vec3 (along (Rd.vec a) t (vec3 (Rd.vec a) (Rd.vec b))) (Rd.vec q)) ∧
      |height (exactPlane pl) (along (Rd.vec a) t (vec3 (Rd.vec a) (Rd.vec b)))| ≤ 71 * (u * M) ∧
      |height (exactPlane pl) (Rd.vec q)| ≤ 90 * (u * M) := by
  have hU : 0 < u * M := mul_pos hu0 hM
  obtain ⟨num, hnumE⟩ : ∃ x, x = (V3.dot (pl.r0 - a) pl.n).val := ⟨_, rfl⟩
  obtain ⟨den, hdenE⟩ : ∃ x, x = (V3.dot (b - a) pl.n).val := ⟨_, rfl⟩
  have e1 := diff_dot h hu a pl.r0 pl.n ha hr hn
  have e2 := diff_dot h hu a b pl.n ha hb hn
  have x1 : inner3 (vec3 (Rd.vec a) (Rd.vec pl.r0)) (Rd.vec pl.n) = -height (exactPlane pl) (Rd.vec a) := by
    simp only [height, inner3, vec3, exactPlane]; ring
  have x2 : inner3 (vec3 (Rd.vec a) (Rd.vec b)) (Rd.vec pl.n) = height (exactPlane pl) (Rd.vec b) - height (exactPlane pl) (Rd.vec a) := by
    simp only [height, inner3, vec3, exactPlane]; ring
  rw [← hnumE, x1] at e1
  rw [← hdenE, x2] at e2
  have hA' := height_le (pl := exactPlane pl) ha hr hn
  unfold Clear at ca cb
  have hden : den ≠ 0 := by
    intro hz
    rw [hz] at e2
    rcases mul_neg_iff.mp hopp with ⟨p1, p2⟩ | ⟨p1, p2⟩
    · rw [abs_of_pos p1] at ca
      rw [abs_of_neg p2] at cb
      linarith [(abs_le.mp e2).1, (abs_le.mp e2).2]
    · rw [abs_of_neg p1] at ca
      rw [abs_of_pos p2] at cb
      linarith [(abs_le.mp e2).1, (abs_le.mp e2).2]
  have hpar : 0 ≤ rnd (num / den) ∧ rnd (num / den) * (1 + u) ^ 2 ≤ 1 ∧
      |height (exactPlane pl) (Rd.vec a) + rnd (num / den) * (height (exactPlane pl) (Rd.vec b) - height (exactPlane pl) (Rd.vec a))| ≤ 71 * (u * M) := by
    generalize height (exactPlane pl) (Rd.vec a) = A at *
    generalize height (exactPlane pl) (Rd.vec b) = B at *
    rcases mul_neg_iff.mp hopp with ⟨p1, p2⟩ | ⟨p1, p2⟩
    · rw [abs_of_pos p1] at ca hA'
      rw [abs_of_neg p2] at cb
      obtain ⟨k1, k2, k3⟩ := parameter h hu (num := -num) (den := -den) hM.le ca cb hA' (neg_ne_zero.mpr hden)
        (by rw [← abs_neg]; convert e1 using 2; ring) (by rw [← abs_neg]; convert e2 using 2; ring)
      rw [neg_div_neg_eq] at k1 k2 k3
      refine ⟨k1, k2, ?_⟩
      rw [← abs_neg]; convert k3 using 2; ring
    · rw [abs_of_neg p1] at ca hA'
      rw [abs_of_pos p2] at cb
      obtain ⟨k1, k2, k3⟩ := parameter h hu (num := num) (den := den) hM.le ca cb hA' hden
        e1 (by convert e2 using 2; ring)
      refine ⟨k1, k2, ?_⟩
      convert k3 using 2; ring
  obtain ⟨p0, p1, p2⟩ := hpar
  obtain ⟨q, hq⟩ : ∃ q, q = V3.smul (V3.dot (pl.r0 - a) pl.n / V3.dot (b - a) pl.n) (b - a) + a := ⟨_, rfl⟩
  have hline : pl.lineXsection a (b - a) = some q := by
    have hz : (Num.lit 0 : Rd rnd).val = 0 := by rw [Rd.val_lit]; push_cast; exact h.zero
    have : Num.eq (V3.dot (b - a) pl.n) (Num.lit 0) = false := by
      rw [Bool.eq_false_iff]
      intro hc
      rw [Rd.eq_iff, hz, ← hdenE] at hc
      exact hden hc
    unfold Plane.lineXsection Plane.normal Plane.referencePoint
    simp only [this, hq]
    rfl
  have qx : q.x.val = rnd (rnd (rnd (num / den) * rnd (b.x.val - a.x.val)) + a.x.val) := by rw [hq, hnumE, hdenE]; rfl
  have qy : q.y.val = rnd (rnd (rnd (num / den) * rnd (b.y.val - a.y.val)) + a.y.val) := by rw [hq, hnumE, hdenE]; rfl
  have qz : q.z.val = rnd (rnd (rnd (num / den) * rnd (b.z.val - a.z.val)) + a.z.val) := by rw [hq, hnumE, hdenE]; rfl
  have bx := between h sa.1 sb.1 p0 p1
  have byy := between h sa.2.1 sb.2.1 p0 p1
  have bz := between h sa.2.2 sb.2.2 p0 p1
  have cx := coordinate_err h sa.1 sb.1 p0 p1 ha.1 hb.1
  have cy := coordinate_err h sa.2.1 sb.2.1 p0 p1 ha.2.1 hb.2.1
  have cz := coordinate_err h sa.2.2 sb.2.2 p0 p1 ha.2.2 hb.2.2
  have hs : Stored q := ⟨by rw [qx, h.idem], by rw [qy, h.idem], by rw [qz, h.idem]⟩
  rw [← qx] at bx cx
  rw [← qy] at byy cy
  rw [← qz] at bz cz
  have hin : Plane.outOfBounds q a b = false := by
    rw [Bool.eq_false_iff]
    intro hc
    rw [outOfBounds_iff] at hc
    rcases hc with (hc | hc | hc) | (hc | hc | hc)
    · rcases bx with k | k <;> linarith [hc.1, hc.2, k.1, k.2]
    · rcases byy with k | k <;> linarith [hc.1, hc.2, k.1, k.2]
    · rcases bz with k | k <;> linarith [hc.1, hc.2, k.1, k.2]
    · rcases bx with k | k <;> linarith [hc.1, hc.2, k.1, k.2]
    · rcases byy with k | k <;> linarith [hc.1, hc.2, k.1, k.2]
    · rcases bz with k | k <;> linarith [hc.1, hc.2, k.1, k.2]
  have hp2 : rnd (num / den) ≤ 1 := by nlinarith [mul_nonneg p0 h.nonneg]
  have hw : Within (5 * (u * M)) (vec3 (along (Rd.vec a) (rnd (num / den)) (vec3 (Rd.vec a) (Rd.vec b))) (Rd.vec q)) := by
    refine ⟨?_, ?_, ?_⟩
    · rw [← mul_assoc]; exact cx
    · rw [← mul_assoc]; exact cy
    · rw [← mul_assoc]; exact cz
  have hc : |height (exactPlane pl) (along (Rd.vec a) (rnd (num / den)) (vec3 (Rd.vec a) (Rd.vec b)))| ≤ 71 * (u * M) := by
    rw [height_at]; exact p2
  refine ⟨q, rnd (num / den), ?_, hs, p0, hp2, hw, hc, ?_⟩
  · unfold Plane.lineSegmentXsection
    rw [hline]
    simp [hin]
  · have := height_near (pl := exactPlane pl) hn hw hc
    linarith

/-- **C101.** Ends on the same side, both at least `100·u·M` away from the plane: no point is found. -/
theorem C101_none (h : Rounding rnd u) (hu0 : 0 < u) (hu : u ≤ 1 / 1000) {M : ℝ} (hM : 0 < M) (pl : Plane (Rd rnd)) (a b : V3 (Rd rnd))
    (hr : Within M (Rd.vec pl.r0)) (hn : Within (5 / 4) (Rd.vec pl.n)) (ha : Within M (Rd.vec a)) (hb : Within M (Rd.vec b))
    (ca : Clear u M pl a) (cb : Clear u M pl b)
    (hsame : 0 < height (exactPlane pl) (Rd.vec a) * height (exactPlane pl) (Rd.vec b)) :
    pl.lineSegmentXsection a b = none := by
  have hU : 0 < u * M := mul_pos hu0 hM
  obtain ⟨num, hnumE⟩ : ∃ x, x = (V3.dot (pl.r0 - a) pl.n).val := ⟨_, rfl⟩
  obtain ⟨den, hdenE⟩ : ∃ x, x = (V3.dot (b - a) pl.n).val := ⟨_, rfl⟩
  have e1 := diff_dot h hu a pl.r0 pl.n ha hr hn
  have e2 := diff_dot h hu a b pl.n ha hb hn
  have x1 : inner3 (vec3 (Rd.vec a) (Rd.vec pl.r0)) (Rd.vec pl.n) = -height (exactPlane pl) (Rd.vec a) := by
    simp only [height, inner3, vec3, exactPlane]; ring
  have x2 : inner3 (vec3 (Rd.vec a) (Rd.vec b)) (Rd.vec pl.n) = height (exactPlane pl) (Rd.vec b) - height (exactPlane pl) (Rd.vec a) := by
    simp only [height, inner3, vec3, exactPlane]; ring
  rw [← hnumE, x1, sub_neg_eq_add] at e1
  rw [← hdenE, x2] at e2
  unfold Clear at ca cb
  have hz : (Num.lit 0 : Rd rnd).val = 0 := by rw [Rd.val_lit]; push_cast; exact h.zero
  by_cases hd0 : den = 0
  · have : Num.eq (V3.dot (b - a) pl.n) (Num.lit 0) = true := by rw [Rd.eq_iff, hz, ← hdenE]; exact hd0
    unfold Plane.lineSegmentXsection Plane.lineXsection Plane.normal Plane.referencePoint
    simp only [this]
    rfl
  have hcase : (num / den < 0 ∧ 69 * (u * M) ≤ |num|) ∨ (0 < num / den ∧ |den| + 38 * (u * M) ≤ |num|) := by
    generalize height (exactPlane pl) (Rd.vec a) = A at *
    generalize height (exactPlane pl) (Rd.vec b) = B at *
    rcases pos_and_pos_or_neg_and_neg_of_mul_pos hsame with ⟨p1, p2⟩ | ⟨p1, p2⟩
    · rw [abs_of_pos p1] at ca
      rw [abs_of_pos p2] at cb
      exact same_side hU ca cb hd0 e1 e2
    · rw [abs_of_neg p1] at ca
      rw [abs_of_neg p2] at cb
      have := same_side (num := -num) (den := -den) hU ca cb (neg_ne_zero.mpr hd0)
        (by rw [← abs_neg]; convert e1 using 2; ring) (by rw [← abs_neg]; convert e2 using 2; ring)
      rwa [neg_div_neg_eq, abs_neg, abs_neg] at this
  obtain ⟨q, hq⟩ : ∃ q, q = V3.smul (V3.dot (pl.r0 - a) pl.n / V3.dot (b - a) pl.n) (b - a) + a := ⟨_, rfl⟩
  have hline : pl.lineXsection a (b - a) = some q := by
    have : Num.eq (V3.dot (b - a) pl.n) (Num.lit 0) = false := by
      rw [Bool.eq_false_iff]
      intro hc
      rw [Rd.eq_iff, hz, ← hdenE] at hc
      exact hd0 hc
    unfold Plane.lineXsection Plane.normal Plane.referencePoint
    simp only [this, hq]
    rfl
  have qx : q.x.val = rnd (rnd (rnd (num / den) * rnd (b.x.val - a.x.val)) + a.x.val) := by rw [hq, hnumE, hdenE]; rfl
  have qy : q.y.val = rnd (rnd (rnd (num / den) * rnd (b.y.val - a.y.val)) + a.y.val) := by rw [hq, hnumE, hdenE]; rfl
  have qz : q.z.val = rnd (rnd (rnd (num / den) * rnd (b.z.val - a.z.val)) + a.z.val) := by rw [hq, hnumE, hdenE]; rfl
  have key : ∀ R, Within R (Rd.vec (b - a)) → |den| ≤ 19 / 5 * R := by
    intro R hR
    rw [hdenE]
    exact denom_le h hu (b - a) pl.n hR hn
  have out : Plane.outOfBounds q a b = true := by
    rw [outOfBounds_iff, qx, qy, qz]
    have hmax := largest (Rd.vec (b - a))
    rcases hmax with hm | hm | hm
    · rcases escapes h hu hU ha.1 hb.1 hd0 (key _ hm) hcase with k | k
      · exact Or.inr (Or.inl k)
      · exact Or.inl (Or.inl k)
    · rcases escapes h hu hU ha.2.1 hb.2.1 hd0 (key _ hm) hcase with k | k
      · exact Or.inr (Or.inr (Or.inl k))
      · exact Or.inl (Or.inr (Or.inl k))
    · rcases escapes h hu hU ha.2.2 hb.2.2 hd0 (key _ hm) hcase with k | k
      · exact Or.inr (Or.inr (Or.inr k))
      · exact Or.inl (Or.inr (Or.inr k))
  unfold Plane.lineSegmentXsection
  rw [hline]
  simp [out]

/-- **C101.** The vectorised version marks exactly the segments with ends on opposite sides. -/
theorem C101_row (h : Rounding rnd u) (hu0 : 0 < u) (hu : u ≤ 1 / 1000) {M : ℝ} (hM : 0 < M) (pl : Plane (Rd rnd)) (a b : V3 (Rd rnd))
    (hr : Within M (Rd.vec pl.r0)) (hn : Within (5 / 4) (Rd.vec pl.n)) (ha : Within M (Rd.vec a)) (hb : Within M (Rd.vec b))
    (sa : Stored a) (sb : Stored b) (ca : Clear u M pl a) (cb : Clear u M pl b) :
    ((pl.lineSegmentXsectionsRow a b).2 = true ↔
      height (exactPlane pl) (Rd.vec a) * height (exactPlane pl) (Rd.vec b) < 0) := by
  have hU : 0 < u * M := mul_pos hu0 hM
  have hrow := (C27_any_arithmetic pl a b).2
  have ne : ∀ x : ℝ, 100 * (u * M) ≤ |x| → x ≠ 0 := fun x hx => abs_pos.mp (by linarith)
  have hne := mul_ne_zero (ne _ ca) (ne _ cb)
  constructor
  · intro hv
    by_contra hc
    rw [if_pos hv, C101_none h hu0 hu hM pl a b hr hn ha hb ca cb (lt_of_le_of_ne (not_lt.mp hc) hne.symm)] at hrow
    cases hrow
  · intro ho
    obtain ⟨q, t, hq, _⟩ := C101_found h hu0 hu hM pl a b hr hn ha hb sa sb ca cb ho
    by_contra hc
    rw [if_neg hc, hq] at hrow
    cases hrow

/-- **C101.** How far the computed point is from the exact crossing point: `5·u·M` in every coordinate, and `71·u·M`
divided by the slope of the height along the segment. -/
theorem C101_crossing (h : Rounding rnd u) (hu0 : 0 < u) (hu : u ≤ 1 / 1000) {M : ℝ} (hM : 0 < M) (pl : Plane (Rd rnd)) (a b : V3 (Rd rnd))
    (hr : Within M (Rd.vec pl.r0)) (hn : Within (5 / 4) (Rd.vec pl.n)) (ha : Within M (Rd.vec a)) (hb : Within M (Rd.vec b))
    (sa : Stored a) (sb : Stored b) (ca : Clear u M pl a) (cb : Clear u M pl b)
    (hopp : height (exactPlane pl) (Rd.vec a) * height (exactPlane pl) (Rd.vec b) < 0)
    (c : V3 ℝ) (hc : OnPlane (exactPlane pl) c) (hseg : OnSegment (Rd.vec a) (Rd.vec b) c) :
    ∃ q, pl.lineSegmentXsection a b = some q ∧
      let k := 71 * (u * M) / |height (exactPlane pl) (Rd.vec b) - height (exactPlane pl) (Rd.vec a)|
      |q.x.val - c.x| ≤ 5 * (u * M) + k * |b.x.val - a.x.val| ∧
      |q.y.val - c.y| ≤ 5 * (u * M) + k * |b.y.val - a.y.val| ∧
      |q.z.val - c.z| ≤ 5 * (u * M) + k * |b.z.val - a.z.val| := by
  obtain ⟨q, t, hq, _, _, _, hw, ht, _⟩ := C101_found h hu0 hu hM pl a b hr hn ha hb sa sb ca cb hopp
  refine ⟨q, hq, ?_⟩
  intro k
  obtain ⟨s, _, _, rfl⟩ := hseg
  have hs : height (exactPlane pl) (along (Rd.vec a) s (vec3 (Rd.vec a) (Rd.vec b))) = 0 := hc
  rw [height_at] at hs ht
  have hne : height (exactPlane pl) (Rd.vec b) - height (exactPlane pl) (Rd.vec a) ≠ 0 := by
    intro h0
    have : height (exactPlane pl) (Rd.vec b) = height (exactPlane pl) (Rd.vec a) := by linarith
    rw [this] at hopp
    nlinarith [mul_self_nonneg (height (exactPlane pl) (Rd.vec a))]
  have hk : |t - s| ≤ k := by
    show |t - s| ≤ 71 * (u * M) / _
    rw [le_div_iff₀ (abs_pos.mpr hne), ← abs_mul]
    have e : (t - s) * (height (exactPlane pl) (Rd.vec b) - height (exactPlane pl) (Rd.vec a)) =
        height (exactPlane pl) (Rd.vec a) + t * (height (exactPlane pl) (Rd.vec b) - height (exactPlane pl) (Rd.vec a)) := by
      linear_combination -hs
    rw [e]
    exact ht
  have key : ∀ x y z : ℝ, |z - (x + t * (y - x))| ≤ 5 * (u * M) → |z - (x + s * (y - x))| ≤ 5 * (u * M) + k * |y - x| := by
    intro x y z hz
    have h1 : |(t - s) * (y - x)| ≤ k * |y - x| := by rw [abs_mul]; gcongr
    have h2 : z - (x + s * (y - x)) = (z - (x + t * (y - x))) + (t - s) * (y - x) := by ring
    rw [h2]
    exact (abs_add_le _ _).trans (by linarith)
  exact ⟨key _ _ _ hw.1, key _ _ _ hw.2.1, key _ _ _ hw.2.2⟩

/-- **C101.** The hypothesis on the normal holds for every constructed plane. -/
theorem C101_constructed (h : Rounding rnd u) (hu : u ≤ 1 / 1000) (p n : V3 (Rd rnd)) (pl : Plane (Rd rnd))
    (hpl : Plane.mk' p n = .ok pl) : pl.r0 = p ∧ Within (5 / 4) (Rd.vec pl.n) := by
  obtain ⟨h1, h2⟩ := C80_plane h (by linarith) p n pl hpl
  refine ⟨h1, ?_⟩
  have hg := gam_four h hu
  have hl : len3 (Rd.vec pl.n) ≤ 5 / 4 := by linarith [(abs_le.mp h2).2]
  have key : ∀ x : ℝ, x ^ 2 ≤ len3 (Rd.vec pl.n) ^ 2 → |x| ≤ 5 / 4 := by
    intro x hx
    exact (abs_le_of_sq_le_sq' hx (len3_nonneg _) |> abs_le.mpr).trans hl
  rw [len3_sq] at key
  exact ⟨key _ (by nlinarith [sq_nonneg (Rd.vec pl.n).y, sq_nonneg (Rd.vec pl.n).z]),
    key _ (by nlinarith [sq_nonneg (Rd.vec pl.n).x, sq_nonneg (Rd.vec pl.n).z]),
    key _ (by nlinarith [sq_nonneg (Rd.vec pl.n).x, sq_nonneg (Rd.vec pl.n).y])⟩

/-- **C101.** However near to the plane the ends are: a returned point lies in the box spanned by them. -/
theorem C101_box (pl : Plane (Rd rnd)) (a b q : V3 (Rd rnd)) (hq : pl.lineSegmentXsection a b = some q) :
    (min a.x.val b.x.val ≤ q.x.val ∧ q.x.val ≤ max a.x.val b.x.val) ∧
    (min a.y.val b.y.val ≤ q.y.val ∧ q.y.val ≤ max a.y.val b.y.val) ∧
    (min a.z.val b.z.val ≤ q.z.val ∧ q.z.val ≤ max a.z.val b.z.val) := by
  have hin : ¬ Plane.outOfBounds q a b = true := by
    unfold Plane.lineSegmentXsection at hq
    split at hq
    · split at hq
      · cases hq
      · rename_i h; injection hq with hq; rwa [← hq]
    · cases hq
  rw [outOfBounds_iff] at hin
  push Not at hin
  obtain ⟨⟨h1, h2, h3⟩, h4, h5, h6⟩ := hin
  have key : ∀ x y z : ℝ, (x < z → z ≤ y) → (z < x → y ≤ z) → min x y ≤ z ∧ z ≤ max x y := by
    intro x y z k1 k2
    constructor
    · rw [min_le_iff]
      by_contra hc
      push Not at hc
      exact absurd (k2 hc.1) (not_le.mpr hc.2)
    · rw [le_max_iff]
      by_contra hc
      push Not at hc
      exact absurd (k1 hc.1) (not_le.mpr hc.2)
  exact ⟨key _ _ _ h1 h4, key _ _ _ h2 h5, key _ _ _ h3 h6⟩

/-- **C101, what does not hold.** Nearer to the plane the point may be missed: two double-precision points strictly on
opposite sides of the plane `x = 0`, and `line_segment_xsection` returns None.  (The difference of the `y` coordinates is
rounded up, and the computed point is above both ends.) -/
theorem C101_missed :
    let pl : Plane (Rd rnd53) := ⟨⟨⟨0⟩, ⟨0⟩, ⟨0⟩⟩, ⟨⟨1⟩, ⟨0⟩, ⟨0⟩⟩⟩
    let a : V3 (Rd rnd53) := ⟨⟨-1⟩, ⟨-1⟩, ⟨0⟩⟩
    let b : V3 (Rd rnd53) := ⟨⟨1 / 2 ^ 60⟩, ⟨3 / 2 ^ 54⟩, ⟨0⟩⟩
    Stored a ∧ Stored b ∧ height (exactPlane pl) (Rd.vec a) < 0 ∧ 0 < height (exactPlane pl) (Rd.vec b) ∧
    pl.lineSegmentXsection a b = none := by
  intro pl a b
  have h := rounding_rnd53
  have z := h.zero
  have o := h.one
  have m1 : rnd53 (-1) = -1 := by simpa using h.int (-1) (by norm_num)
  have r1 : rnd53 (1 / 2 ^ 60) = 1 / 2 ^ 60 := by
    have := rnd53_grid 1 (-60) (by norm_num)
    norm_num at this ⊢
    exact this
  have r2 : rnd53 (3 / 2 ^ 54) = 3 / 2 ^ 54 := by
    have := rnd53_grid 3 (-54) (by norm_num)
    norm_num at this ⊢
    exact this
  have d1 : rnd53 (1 / 2 ^ 60 - -1) = 1 := by
    rw [rnd53_eval _ (2 ^ 52) (-52) (by norm_num) (by norm_num) (by norm_num [abs_lt])]
    norm_num
  have d2 : rnd53 (3 / 2 ^ 54 - -1) = 1 + 1 / 2 ^ 52 := by
    rw [rnd53_eval _ (2 ^ 52 + 1) (-52) (by norm_num) (by norm_num) (by norm_num [abs_lt])]
    norm_num
  have d3 : rnd53 (1 + 1 / 2 ^ 52) = 1 + 1 / 2 ^ 52 := by
    have := rnd53_grid (2 ^ 52 + 1) (-52) (by norm_num)
    norm_num at this ⊢
    exact this
  have d4 : rnd53 (1 + 1 / 2 ^ 52 + -1) = 1 / 2 ^ 52 := by
    have := rnd53_grid 1 (-52) (by norm_num)
    norm_num at this ⊢
    exact this
  have hden : (V3.dot (b - a) pl.n).val = 1 := by
    show rnd53 (rnd53 (rnd53 (rnd53 (1 / 2 ^ 60 - -1) * 1) + rnd53 (rnd53 (3 / 2 ^ 54 - -1) * 0)) + rnd53 (rnd53 (0 - 0) * 0)) = 1
    simp only [d1, mul_one, o, mul_zero, z, add_zero]
  have hnum : (V3.dot (pl.r0 - a) pl.n).val = 1 := by
    show rnd53 (rnd53 (rnd53 (rnd53 (0 - -1) * 1) + rnd53 (rnd53 (0 - -1) * 0)) + rnd53 (rnd53 (0 - 0) * 0)) = 1
    norm_num [o, z]
  have hz : (Num.lit 0 : Rd rnd53).val = 0 := by rw [Rd.val_lit]; push_cast; exact z
  have hne : Num.eq (V3.dot (b - a) pl.n) (Num.lit 0) = false := by
    rw [Bool.eq_false_iff]
    intro hc
    rw [Rd.eq_iff, hz, hden] at hc
    norm_num at hc
  refine ⟨⟨m1, m1, z⟩, ⟨r1, r2, z⟩, ?_, ?_, ?_⟩
  · norm_num [height, exactPlane, inner3, vec3, Rd.vec, pl, a]
  · norm_num [height, exactPlane, inner3, vec3, Rd.vec, pl, b]
  · unfold Plane.lineSegmentXsection Plane.lineXsection Plane.normal Plane.referencePoint
    simp only [hne]
    have : Plane.outOfBounds (V3.smul (V3.dot (pl.r0 - a) pl.n / V3.dot (b - a) pl.n) (b - a) + a) a b = true := by
      rw [outOfBounds_iff]
      left; right; left
      have e : (V3.smul (V3.dot (pl.r0 - a) pl.n / V3.dot (b - a) pl.n) (b - a) + a).y.val = 1 / 2 ^ 52 := by
        show rnd53 (rnd53 (rnd53 ((V3.dot (pl.r0 - a) pl.n).val / (V3.dot (b - a) pl.n).val) * rnd53 (3 / 2 ^ 54 - -1)) + -1) = _
        rw [hnum, hden, div_one, o, one_mul, d2, d3, d4]
      rw [e]
      show (-1 : ℝ) < 1 / 2 ^ 52 ∧ (3 / 2 ^ 54 : ℝ) < 1 / 2 ^ 52
      norm_num
    simp [this]

/-- A plane and a segment that meet the hypotheses above, in double precision. -/
theorem C101_witness :
    let pl : Plane (Rd rnd53) := ⟨⟨⟨0⟩, ⟨0⟩, ⟨0⟩⟩, ⟨⟨1⟩, ⟨0⟩, ⟨0⟩⟩⟩
    let a : V3 (Rd rnd53) := ⟨⟨-1⟩, ⟨-1⟩, ⟨0⟩⟩
    let b : V3 (Rd rnd53) := ⟨⟨1 / 2 ^ 40⟩, ⟨3⟩, ⟨2⟩⟩
    Rounding rnd53 (1 / 2 ^ 53) ∧ Within 3 (Rd.vec pl.r0) ∧ Within (5 / 4) (Rd.vec pl.n) ∧ Within 3 (Rd.vec a) ∧ Within 3 (Rd.vec b) ∧
    Stored a ∧ Stored b ∧ Clear (1 / 2 ^ 53) 3 pl a ∧ Clear (1 / 2 ^ 53) 3 pl b ∧
    height (exactPlane pl) (Rd.vec a) * height (exactPlane pl) (Rd.vec b) < 0 := by
  intro pl a b
  have h := rounding_rnd53
  have z := h.zero
  have m1 : rnd53 (-1) = -1 := by simpa using h.int (-1) (by norm_num)
  have m2 : rnd53 2 = 2 := by simpa using h.int 2 (by norm_num)
  have m3 : rnd53 3 = 3 := by simpa using h.int 3 (by norm_num)
  have r1 : rnd53 (1 / 2 ^ 40) = 1 / 2 ^ 40 := by
    have := rnd53_grid 1 (-40) (by norm_num)
    norm_num at this ⊢
    exact this
  refine ⟨by simpa using h, ?_, ?_, ?_, ?_, ⟨m1, m1, z⟩, ⟨r1, m3, m2⟩, ?_, ?_, ?_⟩
  · norm_num [Within, Rd.vec, pl]
  · norm_num [Within, Rd.vec, pl]
  · norm_num [Within, Rd.vec, a]
  · norm_num [Within, Rd.vec, b, abs_le]
  · norm_num [Clear, height, exactPlane, inner3, vec3, Rd.vec, pl, a]
  · norm_num [Clear, height, exactPlane, inner3, vec3, Rd.vec, pl, b, abs_of_pos]
  · norm_num [height, exactPlane, inner3, vec3, Rd.vec, pl, a, b]

end Blmath.Props
