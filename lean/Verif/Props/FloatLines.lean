import Verif.Proofs.RoundEval
import Verif.Proofs.RdOps
import Verif.Model.Segment
import Verif.Spec.Plane
import Mathlib.Tactic.NormNum
import Mathlib.Tactic.Positivity

/-!
Property C109: `line_intersect3` in doubles.  The side of `p0` on which the lines meet is found by comparing two rounded unit
vectors for equality.
-/

namespace Blmath.Props
open Blmath Blmath.Geometry Blmath.Spec Blmath.Proofs

namespace LI

/-! ### facts of rounding -/

/-- rounding commutes with powers of two -/
theorem rnd53_zpow (j : ℤ) (x : ℝ) : rnd53 ((2 : ℝ) ^ j * x) = (2 : ℝ) ^ j * rnd53 x := by
  have hj : (0 : ℝ) < (2 : ℝ) ^ j := by positivity
  by_cases h : x = 0
  · simp [h, rnd53_zero]
  have h2 : (2 : ℝ) ^ j * x ≠ 0 := mul_ne_zero hj.ne' h
  have hx := abs_pos.mpr h
  have hl : Int.log 2 |(2 : ℝ) ^ j * x| = j + Int.log 2 |x| := by
    have hx2 : 0 < |(2 : ℝ) ^ j * x| := abs_pos.mpr h2
    have e : |(2 : ℝ) ^ j * x| = (2 : ℝ) ^ j * |x| := by rw [abs_mul, abs_of_pos hj]
    apply le_antisymm
    · have : Int.log 2 |(2 : ℝ) ^ j * x| < j + Int.log 2 |x| + 1 := by
        apply (Int.lt_zpow_iff_log_lt (b := 2) (by norm_num) hx2).mp
        push_cast
        rw [e, add_assoc, zpow_add₀ (by norm_num)]
        exact mul_lt_mul_of_pos_left (lt_two_zpow_log x) hj
      omega
    · apply (Int.zpow_le_iff_le_log (b := 2) (by norm_num) hx2).mp
      push_cast
      rw [e, zpow_add₀ (by norm_num)]
      exact mul_le_mul_of_nonneg_left (two_zpow_log_le h) hj.le
  have hu : ulp ((2 : ℝ) ^ j * x) = (2 : ℝ) ^ j * ulp x := by
    unfold ulp
    rw [hl, ← zpow_add₀ (by norm_num)]
    congr 1; ring
  unfold rnd53
  rw [if_neg h, if_neg h2, hu, mul_div_mul_left _ _ hj.ne']
  ring

/-- the square root of the rounded square of a double is exact -/
theorem rnd53_sqrt_sq {x : ℝ} (hx : rnd53 x = x) : rnd53 (Real.sqrt (rnd53 (x * x))) = |x| := by
  wlog hp : 0 ≤ x generalizing x
  · have := this (x := -x) (by rw [rnd53_neg, hx]) (by linarith)
    rwa [neg_mul_neg, abs_neg] at this
  rcases hp.eq_or_lt with h0 | hp
  · rw [← h0]; simp [rnd53_zero]
  obtain ⟨e, he⟩ : ∃ e, e = Int.log 2 |x| := ⟨_, rfl⟩
  have hlo := two_zpow_log_le hp.ne'
  have hhi := lt_two_zpow_log x
  rw [← he, abs_of_pos hp] at hlo hhi
  have e1 := zpow_52 e
  have e2 := zpow_53 e
  obtain ⟨w, hw⟩ : ∃ w, w = (2 : ℝ) ^ (e - 52) := ⟨_, rfl⟩
  have hw0 : 0 < w := by rw [hw]; positivity
  have hm : x = nearestEven (x / ulp x) * w := by
    have : rnd53 x = nearestEven (x / ulp x) * ulp x := by rw [rnd53, if_neg hp.ne']
    rw [hx] at this
    have hu : ulp x = w := by rw [hw, he]; rfl
    rw [hu] at this ⊢
    exact this
  obtain ⟨m, hm'⟩ : ∃ m, m = nearestEven (x / ulp x) := ⟨_, rfl⟩
  rw [← hm'] at hm
  rw [← hw] at e1 e2
  rw [e1] at hlo
  rw [e2] at hhi
  have hmlt : m + 1 ≤ 2 ^ 53 := by
    have : (m : ℝ) * w < 2 ^ 53 * w := by rw [← hm]; exact hhi
    have := lt_of_mul_lt_mul_right this hw0.le
    have : m < 2 ^ 53 := by exact_mod_cast this
    omega
  have hmlt' : (m : ℝ) + 1 ≤ 2 ^ 53 := by exact_mod_cast hmlt
  have hxw : x + w ≤ 2 ^ 53 * w := by
    rw [hm]
    nlinarith
  obtain ⟨y, hy⟩ : ∃ y, y = rnd53 (x * x) := ⟨_, rfl⟩
  obtain ⟨r, hr⟩ : ∃ r, r = Real.sqrt y := ⟨_, rfl⟩
  rw [← hy, ← hr]
  have hyp : 0 < y := by rw [hy]; exact rnd53_pos (by positivity)
  have hrp : 0 < r := by rw [hr]; exact Real.sqrt_pos.mpr hyp
  have hrr : r * r = y := by rw [hr]; exact Real.mul_self_sqrt hyp.le
  have herr := rnd53_err (x * x)
  rw [← hy, abs_of_pos (by positivity : 0 < x * x), ← hrr] at herr
  have herr' := abs_le.mp herr
  have hge : 2 ^ 52 * w ≤ r := by
    have h1 : rnd53 ((2 : ℝ) ^ (2 * e)) ≤ y := by
      rw [hy]
      apply rnd53_mono
      have : (2 : ℝ) ^ (2 * e) = (2 ^ 52 * w) * (2 ^ 52 * w) := by
        rw [← e1, ← zpow_add₀ (by norm_num)]; congr 1; ring
      rw [this]
      exact mul_le_mul hlo hlo (by positivity) hp.le
    have h2 : rnd53 ((2 : ℝ) ^ (2 * e)) = (2 ^ 52 * w) * (2 ^ 52 * w) := by
      have := rnd53_grid 1 (2 * e) (by norm_num)
      simp only [Int.cast_one, one_mul] at this
      rw [this, ← e1, ← zpow_add₀ (by norm_num)]; congr 1; ring
    rw [h2, ← hrr] at h1
    exact (mul_self_le_mul_self_iff (by positivity) hrp.le).mpr h1
  -- the difference
  have hd : |r - x| < w / 2 := by
    have hA : |r - x| * (r + x) ≤ 1 / 2 ^ 53 * (x * x) := by
      rw [← abs_of_pos (by positivity : 0 < r + x), ← abs_mul]
      rw [show (r - x) * (r + x) = r * r - x * x by ring]
      exact herr
    have hrx : x * (1 - 1 / 2 ^ 53) ≤ r := by
      by_contra hc
      push Not at hc
      have : r * r < (x * (1 - 1 / 2 ^ 53)) * (x * (1 - 1 / 2 ^ 53)) := mul_self_lt_mul_self hrp.le hc
      nlinarith [mul_pos hp hp]
    have hB : |r - x| * (x * (2 - 1 / 2 ^ 53)) ≤ 1 / 2 ^ 53 * (x * x) := by
      refine le_trans (mul_le_mul_of_nonneg_left ?_ (abs_nonneg _)) hA
      linarith
    have hC : |r - x| * (2 - 1 / 2 ^ 53) ≤ 1 / 2 ^ 53 * x := by
      apply le_of_mul_le_mul_left _ hp
      linarith
    have hD : 1 / 2 ^ 53 * x ≤ w - 1 / 2 ^ 53 * w := by
      rw [div_mul_eq_mul_div, div_mul_eq_mul_div, div_le_iff₀ (by positivity), sub_mul, div_mul_cancel₀ _ (by positivity)]
      linarith
    have : |r - x| * (2 - 1 / 2 ^ 53) < w / 2 * (2 - 1 / 2 ^ 53) := by
      refine lt_of_le_of_lt (hC.trans hD) ?_
      have : 0 < 1 / 2 ^ 53 * w := by positivity
      linarith
    exact lt_of_mul_lt_mul_right this (by norm_num)
  rw [abs_of_pos hp]
  have := rnd53_eval r m (e - 52) (by rw [show e - 52 + 52 = e by ring, e1]; exact hge)
    (by
      rw [show e - 52 + 53 = e + 1 by ring, e2]
      have := (abs_lt.mp hd).2
      linarith) (by rw [← hw, ← hm]; exact hd)
  rw [this, ← hw, ← hm]

/-! ### specification -/

/-- a point with integer coordinates -/
def rv (p : V3 ℤ) : V3 ℝ := ⟨p.x, p.y, p.z⟩

/-- the same point in doubles -/
def iv (p : V3 ℤ) : V3 (Rd rnd53) := ⟨⟨p.x⟩, ⟨p.y⟩, ⟨p.z⟩⟩

/-- coordinates of size at most `2^24` -/
def SmallPt (p : V3 ℤ) : Prop := |p.x| ≤ 2 ^ 24 ∧ |p.y| ≤ 2 ^ 24 ∧ |p.z| ≤ 2 ^ 24

/-- `r` is `y` but for rounding: nine roundings of the offset `d` and one of the point -/
def Close (d y : V3 ℝ) (r : V3 (Rd rnd53)) : Prop :=
  |r.x.val - y.x| ≤ 9 / 2 ^ 53 * |d.x| + 1 / 2 ^ 53 * |y.x| ∧
  |r.y.val - y.y| ≤ 9 / 2 ^ 53 * |d.y| + 1 / 2 ^ 53 * |y.y| ∧
  |r.z.val - y.z| ≤ 9 / 2 ^ 53 * |d.z| + 1 / 2 ^ 53 * |y.z|

/-- the length of a vector as computed -/
noncomputable def rlen (v : V3 ℝ) : ℝ :=
  rnd53 (Real.sqrt (rnd53 (rnd53 (rnd53 (v.x * v.x) + rnd53 (v.y * v.y)) + rnd53 (v.z * v.z))))

/-- the computed unit vectors agree -/
def SameUnit (v w : V3 ℝ) : Prop :=
  rnd53 (v.x / rlen v) = rnd53 (w.x / rlen w) ∧ rnd53 (v.y / rlen v) = rnd53 (w.y / rlen w) ∧
    rnd53 (v.z / rlen v) = rnd53 (w.z / rlen w)

/-! ### integers are exact -/

theorem abs_int_le {n : ℤ} {b : ℤ} (h : |n| ≤ b) : -b ≤ n ∧ n ≤ b := abs_le.mp h

theorem rnd_int {n : ℤ} (h : |n| ≤ 2 ^ 53) : rnd53 (n : ℝ) = n := rounding_rnd53.int n h

/-- the difference of two points -/
def isub (p q : V3 ℤ) : V3 ℤ := ⟨p.x - q.x, p.y - q.y, p.z - q.z⟩

/-- the vector product -/
def icross (a b : V3 ℤ) : V3 ℤ := ⟨a.y * b.z - a.z * b.y, a.z * b.x - a.x * b.z, a.x * b.y - a.y * b.x⟩

/-- coordinates of size at most `b` -/
def Within (b : ℤ) (p : V3 ℤ) : Prop := |p.x| ≤ b ∧ |p.y| ≤ b ∧ |p.z| ≤ b

theorem sub_bound {a b : ℤ} {c : ℤ} (ha : |a| ≤ c) (hb : |b| ≤ c) : |a - b| ≤ 2 * c := by
  rw [abs_le] at *; constructor <;> omega

theorem isub_within {p q : V3 ℤ} {b : ℤ} (hp : Within b p) (hq : Within b q) : Within (2 * b) (isub p q) :=
  ⟨sub_bound hp.1 hq.1, sub_bound hp.2.1 hq.2.1, sub_bound hp.2.2 hq.2.2⟩

theorem mul_bound {a b c : ℤ} (ha : |a| ≤ c) (hb : |b| ≤ c) : |a * b| ≤ c * c := by
  rw [abs_mul]; exact mul_le_mul ha hb (abs_nonneg _) ((abs_nonneg _).trans ha)

theorem iv_sub {p q : V3 ℤ} (hp : SmallPt p) (hq : SmallPt q) : iv p - iv q = iv (isub p q) := by
  have h := isub_within (b := 2 ^ 24) hp hq
  unfold Within at h
  ext <;> simp only [V3.sub_x, V3.sub_y, V3.sub_z, Rd.val_sub, iv, isub] <;> rw [← Int.cast_sub] <;> apply rnd_int
  · exact h.1.trans (by norm_num)
  · exact h.2.1.trans (by norm_num)
  · exact h.2.2.trans (by norm_num)

theorem comp_cross {a b c d : ℤ} (ha : |a| ≤ 2 ^ 25) (hb : |b| ≤ 2 ^ 25) (hc : |c| ≤ 2 ^ 25) (hd : |d| ≤ 2 ^ 25) :
    rnd53 (rnd53 ((a : ℝ) * b) - rnd53 ((c : ℝ) * d)) = ((a * b - c * d : ℤ) : ℝ) := by
  have h1 := mul_bound ha hb
  have h2 := mul_bound hc hd
  rw [← Int.cast_mul, ← Int.cast_mul, rnd_int (h1.trans (by norm_num)), rnd_int (h2.trans (by norm_num)), ← Int.cast_sub,
    rnd_int ((sub_bound h1 h2).trans (by norm_num))]

theorem iv_cross {a b : V3 ℤ} (ha : Within (2 ^ 25) a) (hb : Within (2 ^ 25) b) : V3.cross (iv a) (iv b) = iv (icross a b) := by
  obtain ⟨a1, a2, a3⟩ := ha
  obtain ⟨b1, b2, b3⟩ := hb
  ext <;> simp only [V3.cross, Rd.val_sub, Rd.val_mul, iv, icross]
  · exact comp_cross a2 b3 a3 b2
  · exact comp_cross a3 b1 a1 b3
  · exact comp_cross a1 b2 a2 b1

theorem vec_iv (p : V3 ℤ) : Rd.vec (iv p) = rv p := rfl

theorem norm_iv (p : V3 ℤ) : (V3.norm (iv p)).val = rlen (rv p) := rfl

theorem rlen_near (p : V3 ℤ) : ∃ t, Near (1 / 2 ^ 53) 3 t ∧ rlen (rv p) = len3 (rv p) * t := by
  obtain ⟨t, ht, e⟩ := norm_rd rounding_rnd53 (iv p)
  exact ⟨t, ht, by rw [← norm_iv, e]; rfl⟩

theorem allEq3_iff (a b : V3 (Rd rnd53)) :
    allEq3 a b = true ↔ a.x.val = b.x.val ∧ a.y.val = b.y.val ∧ a.z.val = b.z.val := by
  simp [allEq3, and_assoc]

theorem allEq3_iv (p q : V3 ℤ) : allEq3 (iv p) (iv q) = true ↔ rv p = rv q := by
  rw [allEq3_iff, V3.ext_iff]
  rfl

theorem near_abs8 {t : ℝ} (h : Near (1 / 2 ^ 53) 8 t) : |t - 1| ≤ (8 + 1 / 64) / 2 ^ 53 := by
  refine le_trans (h.gam_bound (by norm_num) (by norm_num) (by norm_num)) ?_
  unfold gam
  norm_num

/-- one coordinate of the result -/
theorem coord_close {p d y l : ℝ} (hy : y = p + d) {t : ℝ} (ht : Near (1 / 2 ^ 53) 8 t) (hl : l = d * t) :
    |rnd53 (p + l) - y| ≤ 9 / 2 ^ 53 * |d| + 1 / 2 ^ 53 * |y| := by
  have h1 := rnd53_err (p + l)
  have h2 := near_abs8 ht
  have h3 : p + l - y = d * (t - 1) := by rw [hy, hl]; ring
  have h4 : |p + l - y| ≤ (8 + 1 / 64) / 2 ^ 53 * |d| := by
    rw [h3, abs_mul, mul_comm]
    exact mul_le_mul_of_nonneg_right h2 (abs_nonneg _)
  have h5 : |p + l| ≤ |y| + (8 + 1 / 64) / 2 ^ 53 * |d| := by
    have := abs_sub_abs_le_abs_sub (p + l) y
    linarith
  have h6 := abs_sub_le (rnd53 (p + l)) (p + l) y
  have h7 : 1 / 2 ^ 53 * |p + l| ≤ 1 / 2 ^ 53 * (|y| + (8 + 1 / 64) / 2 ^ 53 * |d|) :=
    mul_le_mul_of_nonneg_left h5 (by positivity)
  have h8 : (8 + 1 / 64) / 2 ^ 53 * |d| + 1 / 2 ^ 53 * ((8 + 1 / 64) / 2 ^ 53 * |d|) ≤ 9 / 2 ^ 53 * |d| := by
    rw [← mul_assoc, ← add_mul]
    exact mul_le_mul_of_nonneg_right (by norm_num) (abs_nonneg _)
  linarith

/-- lines that are not parallel have one point in common at most -/
theorem param_unique {p0 q0 p1 q1 : V3 ℝ} (hnp : cross3 (vec3 p0 q0) (vec3 p1 q1) ≠ zero3) (s t : ℝ)
    (ht : along p0 s (vec3 p0 q0) = along p1 t (vec3 p1 q1)) (s' t' : ℝ)
    (h : along p0 s' (vec3 p0 q0) = along p1 t' (vec3 p1 q1)) : s' = s := by
  have hx := congrArg V3.x ht
  have hy := congrArg V3.y ht
  have hz := congrArg V3.z ht
  have hx' := congrArg V3.x h
  have hy' := congrArg V3.y h
  have hz' := congrArg V3.z h
  simp only [along, vec3] at hx hy hz hx' hy' hz'
  by_contra hne
  have hne' : s' - s ≠ 0 := sub_ne_zero.mpr hne
  apply hnp
  ext <;> simp only [cross3, vec3, zero3] <;> apply mul_left_cancel₀ hne'
  · linear_combination (q1.z - p1.z) * (hy' - hy) - (q1.y - p1.y) * (hz' - hz)
  · linear_combination (q1.x - p1.x) * (hz' - hz) - (q1.z - p1.z) * (hx' - hx)
  · linear_combination (q1.y - p1.y) * (hx' - hx) - (q1.x - p1.x) * (hy' - hy)

theorem rv_inj {p q : V3 ℤ} : rv p = rv q ↔ p = q := by
  rw [V3.ext_iff, V3.ext_iff]
  simp [rv]

/-- everything but the sign -/
theorem meet (P0 Q0 P1 Q1 : V3 ℤ) (h0 : SmallPt P0) (h1 : SmallPt Q0) (h2 : SmallPt P1) (h3 : SmallPt Q1)
    (hnp : cross3 (vec3 (rv P0) (rv Q0)) (vec3 (rv P1) (rv Q1)) ≠ zero3) (s : ℝ) (hs : s ≠ 0)
    (hX : OnLine (rv P1) (vec3 (rv P1) (rv Q1)) (along (rv P0) s (vec3 (rv P0) (rv Q0)))) (hq : rv Q0 ≠ rv P1) :
    let H := cross3 (vec3 (rv Q1) (rv P1)) (vec3 (rv P1) (rv P0))
    let K := cross3 (vec3 (rv Q1) (rv P1)) (vec3 (rv Q0) (rv P0))
    H = scale3 s K ∧ K ≠ zero3 ∧ 0 < rlen H ∧ 0 < rlen K ∧
    ∃ r, lineIntersect3 (iv P0) (iv Q0) (iv P1) (iv Q1) = some r ∧
      ∀ σ : ℝ, ((σ = -1 ∧ SameUnit H K) ∨ (σ = 1 ∧ ¬ SameUnit H K)) →
        Close (scale3 s (vec3 (rv P0) (rv Q0))) (along (rv P0) (-σ * |s|) (vec3 (rv P0) (rv Q0))) r := by
  intro H K
  obtain ⟨t, ht⟩ := hX
  have hx := congrArg V3.x ht
  have hy := congrArg V3.y ht
  have hz := congrArg V3.z ht
  simp only [along, vec3] at hx hy hz
  have key := param_unique hnp s t ht
  have hp01 : ¬ rv P0 = rv P1 := fun h => hs (key 0 0 (by rw [h]; ext <;> simp [along])).symm
  have hp0q1 : ¬ rv P0 = rv Q1 := fun h => hs (key 0 1 (by rw [h]; ext <;> simp [along, vec3])).symm
  have hK : K ≠ zero3 := by
    intro h
    apply hnp
    have kx := congrArg V3.x h
    have ky := congrArg V3.y h
    have kz := congrArg V3.z h
    simp only [K, cross3, vec3, zero3] at kx ky kz
    ext <;> simp only [cross3, vec3, zero3] <;> linarith
  have hH : H = scale3 s K := by
    ext <;> simp only [H, K, cross3, vec3, scale3]
    · linear_combination ((rv P1).y - (rv Q1).y) * hz - ((rv P1).z - (rv Q1).z) * hy
    · linear_combination ((rv P1).z - (rv Q1).z) * hx - ((rv P1).x - (rv Q1).x) * hz
    · linear_combination ((rv P1).x - (rv Q1).x) * hy - ((rv P1).y - (rv Q1).y) * hx
  have wf := isub_within (b := 2 ^ 24) h2 h3
  have wg := isub_within (b := 2 ^ 24) h0 h2
  have we := isub_within (b := 2 ^ 24) h0 h1
  norm_num at wf wg we
  have eh : V3.cross (iv P1 - iv Q1) (iv P0 - iv P1) = iv (icross (isub P1 Q1) (isub P0 P1)) := by
    rw [iv_sub h2 h3, iv_sub h0 h2, iv_cross (by norm_num; exact wf) (by norm_num; exact wg)]
  have ek : V3.cross (iv P1 - iv Q1) (iv P0 - iv Q0) = iv (icross (isub P1 Q1) (isub P0 Q0)) := by
    rw [iv_sub h2 h3, iv_sub h0 h1, iv_cross (by norm_num; exact wf) (by norm_num; exact we)]
  have rh : rv (icross (isub P1 Q1) (isub P0 P1)) = H := by
    ext <;> simp [rv, icross, isub, H, cross3, vec3]
  have rk : rv (icross (isub P1 Q1) (isub P0 Q0)) = K := by
    ext <;> simp [rv, icross, isub, K, cross3, vec3]
  obtain ⟨th, nth, eth⟩ := rlen_near (icross (isub P1 Q1) (isub P0 P1))
  obtain ⟨tk, ntk, etk⟩ := rlen_near (icross (isub P1 Q1) (isub P0 Q0))
  have pth := nth.pos (by norm_num)
  have ptk := ntk.pos (by norm_num)
  rw [rh] at eth
  rw [rk] at etk
  have hlk := len3_pos hK
  have habs : 0 < |s| := abs_pos.mpr hs
  have hlh : len3 H = |s| * len3 K := by rw [hH]; exact len3_scale _ _
  have pH : 0 < rlen H := by rw [eth, hlh]; positivity
  have pK : 0 < rlen K := by rw [etk]; positivity
  refine ⟨hH, hK, pH, pK, ?_⟩
  have nh : (V3.norm (iv (icross (isub P1 Q1) (isub P0 P1)))).val = rlen H := by rw [norm_iv, rh]
  have nk : (V3.norm (iv (icross (isub P1 Q1) (isub P0 Q0)))).val = rlen K := by rw [norm_iv, rk]
  have hsame : allEq3 (V3.sdiv (iv (icross (isub P1 Q1) (isub P0 P1))) (V3.norm (iv (icross (isub P1 Q1) (isub P0 P1)))))
      (V3.sdiv (iv (icross (isub P1 Q1) (isub P0 Q0))) (V3.norm (iv (icross (isub P1 Q1) (isub P0 Q0))))) = true ↔
      SameUnit H K := by
    rw [allEq3_iff]
    simp only [V3.sdiv_x, V3.sdiv_y, V3.sdiv_z, Rd.val_div, nh, nk]
    rw [← rh, ← rk]
    rfl
  unfold lineIntersect3
  simp only [Bool.or_eq_true, allEq3_iv, hp01, hp0q1, hq, or_self, if_false, eh, ek, Rd.eq_iff, nh, nk, Rd.val_lit, Rat.cast_zero,
    rnd53_zero, pH.ne', pK.ne']
  refine ⟨_, rfl, ?_⟩
  -- the factor of every coordinate
  obtain ⟨tq, ntq, etq⟩ := rounding_rnd53.factor (rlen H / rlen K)
  have ratio : rnd53 (rlen H / rlen K) = |s| * (th / tk * tq) := by
    rw [etq, eth, etk, hlh]; field_simp
  have nr := (nth.div (by norm_num) ntk).mul (by norm_num) ntq
  have coord : ∀ (σ : ℝ) (c : ℝ), σ = -1 ∨ σ = 1 → ∃ t, Near (1 / 2 ^ 53) 8 t ∧
      rnd53 (rnd53 σ * rnd53 (rnd53 (rlen H / rlen K) * c)) = σ * |s| * c * t := by
    intro σ c hσ
    obtain ⟨tc, ntc, etc⟩ := rounding_rnd53.factor (rnd53 (rlen H / rlen K) * c)
    refine ⟨th / tk * tq * tc, nr.mul (by norm_num) ntc, ?_⟩
    have e : rnd53 (rnd53 σ * rnd53 (rnd53 (rlen H / rlen K) * c)) = σ * rnd53 (rnd53 (rlen H / rlen K) * c) := by
      rcases hσ with rfl | rfl
      · rw [show rnd53 (-1) = -1 by rw [rnd53_neg, rounding_rnd53.one], neg_one_mul, rnd53_neg, rnd53_idem]
      · rw [rounding_rnd53.one, one_mul, rnd53_idem]
    rw [e, etc, ratio]; ring
  have fin : ∀ σ : ℝ, σ = -1 ∨ σ = 1 → ∀ r : V3 (Rd rnd53), r = iv P0 + V3.smul ⟨rnd53 σ⟩ (V3.smul
      (V3.norm (iv (icross (isub P1 Q1) (isub P0 P1))) / V3.norm (iv (icross (isub P1 Q1) (isub P0 Q0)))) (iv P0 - iv Q0)) →
      Close (scale3 s (vec3 (rv P0) (rv Q0))) (along (rv P0) (-σ * |s|) (vec3 (rv P0) (rv Q0))) r := by
    intro σ hσ r hr
    have hab : ∀ c : ℝ, |σ * |s| * -c| = |s * c| := by
      intro c
      rcases hσ with rfl | rfl <;> simp [abs_mul]
    rw [hr, iv_sub h0 h1]
    refine ⟨?_, ?_, ?_⟩
    · obtain ⟨t, nt, et⟩ := coord σ ((P0.x - Q0.x : ℤ) : ℝ) hσ
      have := coord_close (p := P0.x) (d := σ * |s| * -((Q0.x : ℝ) - P0.x)) (y := P0.x + -σ * |s| * ((Q0.x : ℝ) - P0.x)) (by ring) nt
        (et.trans (by push_cast; ring))
      rw [hab, ← nh, ← nk] at this
      exact this
    · obtain ⟨t, nt, et⟩ := coord σ ((P0.y - Q0.y : ℤ) : ℝ) hσ
      have := coord_close (p := P0.y) (d := σ * |s| * -((Q0.y : ℝ) - P0.y)) (y := P0.y + -σ * |s| * ((Q0.y : ℝ) - P0.y)) (by ring) nt
        (et.trans (by push_cast; ring))
      rw [hab, ← nh, ← nk] at this
      exact this
    · obtain ⟨t, nt, et⟩ := coord σ ((P0.z - Q0.z : ℤ) : ℝ) hσ
      have := coord_close (p := P0.z) (d := σ * |s| * -((Q0.z : ℝ) - P0.z)) (y := P0.z + -σ * |s| * ((Q0.z : ℝ) - P0.z)) (by ring) nt
        (et.trans (by push_cast; ring))
      rw [hab, ← nh, ← nk] at this
      exact this
  intro σ hσ
  rcases hσ with ⟨rfl, h⟩ | ⟨rfl, h⟩
  · apply fin (-1) (Or.inl rfl)
    rw [if_pos (hsame.mpr h)]
    congr 2
    apply Rd.ext; simp
  · apply fin 1 (Or.inr rfl)
    rw [if_neg (fun hc => h (hsame.mp hc))]
    congr 2
    apply Rd.ext; simp

theorem rlen_scale (j : ℤ) (v : V3 ℝ) : rlen (scale3 ((2 : ℝ) ^ j) v) = (2 : ℝ) ^ j * rlen v := by
  have hj : (0 : ℝ) < (2 : ℝ) ^ j := by positivity
  have e : ∀ x : ℝ, rnd53 ((2 : ℝ) ^ j * x * ((2 : ℝ) ^ j * x)) = (2 : ℝ) ^ (j + j) * rnd53 (x * x) := by
    intro x
    rw [← rnd53_zpow, zpow_add₀ (by norm_num)]
    congr 1; ring
  unfold rlen
  simp only [scale3, e]
  rw [← mul_add, rnd53_zpow, ← mul_add, rnd53_zpow, Real.sqrt_mul (by positivity), zpow_add₀ (by norm_num),
    Real.sqrt_mul_self hj.le, rnd53_zpow]

theorem same_of_power (j : ℤ) (v : V3 ℝ) : SameUnit (scale3 ((2 : ℝ) ^ j) v) v := by
  have hj : (2 : ℝ) ^ j ≠ 0 := by positivity
  unfold SameUnit
  rw [rlen_scale]
  simp only [scale3, mul_div_mul_left _ _ hj, and_self]

/-- a vector along an axis -/
theorem unit_axis {c : ℝ} (hc : rnd53 c = c) {v : V3 ℝ} (hv : v = ⟨c, 0, 0⟩ ∨ v = ⟨0, c, 0⟩ ∨ v = ⟨0, 0, c⟩) :
    rlen v = |c| := by
  have hi : rnd53 (rnd53 (c * c)) = rnd53 (c * c) := rnd53_idem _
  rcases hv with rfl | rfl | rfl <;> simp [rlen, rnd53_zero, hi, rnd53_sqrt_sq hc]

/-- vectors of the same direction along an axis always agree -/
theorem axis_same {c s : ℝ} (hs : 0 < s) (hc : rnd53 c = c) (hsc : rnd53 (s * c) = s * c) {v : V3 ℝ}
    (hv : v = ⟨c, 0, 0⟩ ∨ v = ⟨0, c, 0⟩ ∨ v = ⟨0, 0, c⟩) : SameUnit (scale3 s v) v := by
  have e1 := unit_axis hc hv
  have e2 : rlen (scale3 s v) = |s * c| := by
    apply unit_axis hsc
    rcases hv with rfl | rfl | rfl <;> simp [scale3]
  unfold SameUnit
  rw [e1, e2, abs_mul, abs_of_pos hs]
  rcases hv with rfl | rfl | rfl <;> simp [scale3, mul_div_mul_left _ _ hs.ne']

theorem rep_cross {a b : V3 ℤ} (ha : Within (2 ^ 25) a) (hb : Within (2 ^ 25) b) :
    rnd53 (rv (icross a b)).x = (rv (icross a b)).x ∧ rnd53 (rv (icross a b)).y = (rv (icross a b)).y ∧
      rnd53 (rv (icross a b)).z = (rv (icross a b)).z := by
  obtain ⟨a1, a2, a3⟩ := ha
  obtain ⟨b1, b2, b3⟩ := hb
  simp only [rv, icross]
  rw [← comp_cross a2 b3 a3 b2, ← comp_cross a3 b1 a1 b3, ← comp_cross a1 b2 a2 b1]
  exact ⟨rnd53_idem _, rnd53_idem _, rnd53_idem _⟩

/-- vectors with opposite directions never agree -/
theorem not_same_neg {s : ℝ} (hs : s < 0) {v : V3 ℝ} (hv : v ≠ zero3) (h1 : 0 < rlen (scale3 s v)) (h2 : 0 < rlen v) :
    ¬ SameUnit (scale3 s v) v := by
  rintro ⟨a, b, c⟩
  have key : ∀ x : ℝ, rnd53 (s * x / rlen (scale3 s v)) = rnd53 (x / rlen v) → x = 0 := by
    intro x h
    rcases lt_trichotomy x 0 with hx | hx | hx
    · have e1 : 0 < rnd53 (s * x / rlen (scale3 s v)) := rnd53_pos (div_pos (mul_pos_of_neg_of_neg hs hx) h1)
      have e2 : 0 < rnd53 (-(x / rlen v)) := rnd53_pos (by rw [← neg_div]; exact div_pos (by linarith) h2)
      rw [rnd53_neg] at e2
      linarith
    · exact hx
    · have e1 : 0 < rnd53 (x / rlen v) := rnd53_pos (div_pos hx h2)
      have e2 : 0 < rnd53 (-(s * x / rlen (scale3 s v))) := rnd53_pos (by
        rw [← neg_div, ← neg_mul]; exact div_pos (mul_pos (by linarith) hx) h1)
      rw [rnd53_neg] at e2
      linarith
  apply hv
  ext
  · exact key _ a
  · exact key _ b
  · exact key _ c

theorem close_self {P : V3 ℤ} {d X : V3 ℝ} {r : V3 (Rd rnd53)} (h1 : r = iv P) (h2 : X = rv P) : Close d X r := by
  subst h1 h2
  refine ⟨?_, ?_, ?_⟩ <;> simp only [iv, rv, sub_self, abs_zero] <;> positivity

/-- vectors in doubles by calculation -/
noncomputable def upQ (p : V3 QD) : V3 (Rd rnd53) := ⟨p.x.toRd, p.y.toRd, p.z.toRd⟩

theorem upQ_ite (b : Bool) (x y : ℚ) : (if b = true then (Num.lit x : Rd rnd53) else Num.lit y) =
    (if b = true then (Num.lit x : QD) else Num.lit y).toRd := by
  cases b <;> simp [QD.toRd_lit]

theorem allEq3_up (a b : V3 QD) : allEq3 (upQ a) (upQ b) = allEq3 a b := by
  simp [allEq3, upQ, QD.toRd_eq]

theorem sub_up (a b : V3 QD) : upQ a - upQ b = upQ (a - b) := by
  ext <;> simp [upQ, ← QD.toRd_sub]

theorem add_up (a b : V3 QD) : upQ a + upQ b = upQ (a + b) := by
  ext <;> simp [upQ, ← QD.toRd_add]

theorem cross_up (a b : V3 QD) : V3.cross (upQ a) (upQ b) = upQ (V3.cross a b) := by
  ext <;> simp [upQ, V3.cross, ← QD.toRd_sub, ← QD.toRd_mul]

theorem norm_up (a : V3 QD) : V3.norm (upQ a) = (V3.norm a).toRd := by
  simp [upQ, V3.norm, V3.dot, QD.toRd_sqrt, QD.toRd_add, QD.toRd_mul]

theorem smul_up (c : QD) (a : V3 QD) : V3.smul c.toRd (upQ a) = upQ (V3.smul c a) := by
  ext <;> simp [upQ, ← QD.toRd_mul]

theorem sdiv_up (c : QD) (a : V3 QD) : V3.sdiv (upQ a) c.toRd = upQ (V3.sdiv a c) := by
  ext <;> simp [upQ, ← QD.toRd_div]

/-- `line_intersect3` by calculation -/
theorem lineIntersect3_up (p0 q0 p1 q1 : V3 QD) :
    lineIntersect3 (upQ p0) (upQ q0) (upQ p1) (upQ q1) = (lineIntersect3 p0 q0 p1 q1).map upQ := by
  unfold lineIntersect3
  simp only [allEq3_up, sub_up, cross_up, norm_up, sdiv_up, ← QD.toRd_div, smul_up, QD.toRd_lit, QD.toRd_eq]
  split
  · rfl
  split
  · rfl
  split
  · rfl
  · rw [← QD.toRd_lit, ← QD.toRd_lit, upQ_ite, smul_up, add_up]
    rfl

/-- integers in doubles by calculation -/
def qv (p : V3 ℤ) : V3 QD := ⟨⟨p.x⟩, ⟨p.y⟩, ⟨p.z⟩⟩

theorem up_qv (p : V3 ℤ) : upQ (qv p) = iv p := by
  ext <;> simp [upQ, qv, iv]

end LI
open LI

/-- C109.  Lines through points with integer coordinates (up to 2^24) that meet in a point `X` other than `p0`, at the
parameter `s` of the first line: the result is `X`, but for rounding, or the mirror image of `X` in `p0`.  It is `X` if `p0`
is between `X` and `q0`, or if `q0 = p1`.  Otherwise it is `X` exactly if two unit vectors agree in every bit: those of the
vector products, computed with rounding, of which one is a multiple of the other. -/
theorem C109_side (P0 Q0 P1 Q1 : V3 ℤ) (h0 : SmallPt P0) (h1 : SmallPt Q0) (h2 : SmallPt P1) (h3 : SmallPt Q1)
    (hnp : cross3 (vec3 (rv P0) (rv Q0)) (vec3 (rv P1) (rv Q1)) ≠ zero3) (s : ℝ) (hs : s ≠ 0) (X : V3 ℝ)
    (hX0 : X = along (rv P0) s (vec3 (rv P0) (rv Q0))) (hX1 : OnLine (rv P1) (vec3 (rv P1) (rv Q1)) X) :
    let H := cross3 (vec3 (rv Q1) (rv P1)) (vec3 (rv P1) (rv P0))
    let K := cross3 (vec3 (rv Q1) (rv P1)) (vec3 (rv Q0) (rv P0))
    let mirror := along (rv P0) (-1) (vec3 (rv P0) X)
    H = scale3 s K ∧ ∃ r, lineIntersect3 (iv P0) (iv Q0) (iv P1) (iv Q1) = some r ∧
      (s < 0 → Close (vec3 (rv P0) X) X r) ∧
      (Q0 = P1 → r = iv Q0 ∧ X = rv Q0) ∧
      (Q0 ≠ P1 → 0 < s → SameUnit H K → Close (vec3 (rv P0) X) X r) ∧
      (Q0 ≠ P1 → 0 < s → ¬ SameUnit H K → Close (vec3 (rv P0) X) mirror r) := by
  intro H K mirror
  have ev : vec3 (rv P0) X = scale3 s (vec3 (rv P0) (rv Q0)) := by
    rw [hX0]; ext <;> simp [vec3, scale3, along]
  by_cases hq : Q0 = P1
  · obtain ⟨t, ht⟩ := hX1
    have key := param_unique hnp s t (hX0.symm.trans ht)
    have hp01 : ¬ rv P0 = rv P1 := fun h => hs (key 0 0 (by rw [h]; ext <;> simp [along])).symm
    have hp0q1 : ¬ rv P0 = rv Q1 := fun h => hs (key 0 1 (by rw [h]; ext <;> simp [along, vec3])).symm
    have s1 : 1 = s := key 1 0 (by rw [hq]; ext <;> simp [along, vec3])
    have hXq : X = rv Q0 := by rw [hX0, ← s1]; ext <;> simp [along, vec3]
    refine ⟨?_, iv Q0, ?_, fun h => absurd h (by rw [← s1]; norm_num), fun _ => ⟨rfl, hXq⟩, fun h => absurd hq h,
      fun h => absurd hq h⟩
    · simp only [H, K, ← hq, ← s1]
      ext <;> simp [scale3]
    · unfold lineIntersect3
      simp [Bool.or_eq_true, allEq3_iv, hp01, hp0q1, hq]
  · rw [hX0] at hX1
    obtain ⟨hH, hK, pH, pK, r, hr, hc⟩ := meet P0 Q0 P1 Q1 h0 h1 h2 h3 hnp s hs hX1 (fun h => hq (rv_inj.mp h))
    have e1 : ∀ k : ℝ, k = s → along (rv P0) k (vec3 (rv P0) (rv Q0)) = X := by rintro k rfl; exact hX0.symm
    have e2 : ∀ k : ℝ, k = -s → along (rv P0) k (vec3 (rv P0) (rv Q0)) = mirror := by
      rintro k rfl
      simp only [mirror, ev]
      ext <;> simp [along, scale3]
    refine ⟨hH, r, hr, fun hneg => ?_, fun h => absurd h hq, fun _ hpos hsame => ?_, fun _ hpos hsame => ?_⟩
    · have hns : ¬ SameUnit H K := by
        have := not_same_neg (v := K) hneg hK (by rw [← hH]; exact pH) pK
        rwa [← hH] at this
      have := hc 1 (Or.inr ⟨rfl, hns⟩)
      rwa [e1 _ (by rw [abs_of_neg hneg]; ring), ← ev] at this
    · have := hc (-1) (Or.inl ⟨rfl, hsame⟩)
      rwa [e1 _ (by rw [abs_of_pos hpos]; ring), ← ev] at this
    · have := hc 1 (Or.inr ⟨rfl, hsame⟩)
      rwa [e2 _ (by rw [abs_of_pos hpos]; ring), ← ev] at this

/-- C109.  Lines in a plane parallel to two axes are intersected correctly, but for rounding. -/
theorem C109_plane (P0 Q0 P1 Q1 : V3 ℤ) (h0 : SmallPt P0) (h1 : SmallPt Q0) (h2 : SmallPt P1) (h3 : SmallPt Q1)
    (hpl : (Q0.x = P0.x ∧ P1.x = P0.x ∧ Q1.x = P0.x) ∨ (Q0.y = P0.y ∧ P1.y = P0.y ∧ Q1.y = P0.y) ∨
      (Q0.z = P0.z ∧ P1.z = P0.z ∧ Q1.z = P0.z))
    (hnp : cross3 (vec3 (rv P0) (rv Q0)) (vec3 (rv P1) (rv Q1)) ≠ zero3) (X : V3 ℝ) (hX : X ≠ rv P0)
    (hX0 : OnLine (rv P0) (vec3 (rv P0) (rv Q0)) X) (hX1 : OnLine (rv P1) (vec3 (rv P1) (rv Q1)) X) :
    ∃ r, lineIntersect3 (iv P0) (iv Q0) (iv P1) (iv Q1) = some r ∧ Close (vec3 (rv P0) X) X r := by
  obtain ⟨s, hs⟩ := hX0
  have hs0 : s ≠ 0 := by
    rintro rfl
    apply hX
    rw [hs]; ext <;> simp [along]
  obtain ⟨hH, r, hr, hneg, hq, hpos, -⟩ := C109_side P0 Q0 P1 Q1 h0 h1 h2 h3 hnp s hs0 X hs hX1
  refine ⟨r, hr, ?_⟩
  rcases lt_or_gt_of_ne hs0 with h | h
  · exact hneg h
  by_cases hqp : Q0 = P1
  · obtain ⟨e1, e2⟩ := hq hqp
    exact close_self e1 e2
  apply hpos hqp h
  have wf := isub_within (b := 2 ^ 24) h2 h3
  have wg := isub_within (b := 2 ^ 24) h0 h2
  have we := isub_within (b := 2 ^ 24) h0 h1
  norm_num at wf wg we
  have rH := rep_cross (a := isub P1 Q1) (b := isub P0 P1) (by norm_num; exact wf) (by norm_num; exact wg)
  have rK := rep_cross (a := isub P1 Q1) (b := isub P0 Q0) (by norm_num; exact wf) (by norm_num; exact we)
  have eH : rv (icross (isub P1 Q1) (isub P0 P1)) = cross3 (vec3 (rv Q1) (rv P1)) (vec3 (rv P1) (rv P0)) := by
    ext <;> simp [rv, icross, isub, cross3, vec3]
  have eK : rv (icross (isub P1 Q1) (isub P0 Q0)) = cross3 (vec3 (rv Q1) (rv P1)) (vec3 (rv Q0) (rv P0)) := by
    ext <;> simp [rv, icross, isub, cross3, vec3]
  rw [eH, hH] at rH
  rw [eK] at rK
  rw [hH]
  rcases hpl with ⟨a, b, c⟩ | ⟨a, b, c⟩ | ⟨a, b, c⟩
  · refine axis_same h rK.1 rH.1 (Or.inl ?_)
    ext <;> simp [cross3, vec3, rv, a, b, c]
  · refine axis_same h rK.2.1 rH.2.1 (Or.inr (Or.inl ?_))
    ext <;> simp [cross3, vec3, rv, a, b, c]
  · refine axis_same h rK.2.2 rH.2.2 (Or.inr (Or.inr ?_))
    ext <;> simp [cross3, vec3, rv, a, b, c]

/-- C109.  If the distance of `X` from `p0` is a power of two times the distance of `q0` from `p0`, for instance if `X` is
half way between `p0` and `q0`, the lines are intersected correctly, but for rounding. -/
theorem C109_power (P0 Q0 P1 Q1 : V3 ℤ) (h0 : SmallPt P0) (h1 : SmallPt Q0) (h2 : SmallPt P1) (h3 : SmallPt Q1)
    (hnp : cross3 (vec3 (rv P0) (rv Q0)) (vec3 (rv P1) (rv Q1)) ≠ zero3) (j : ℤ) (X : V3 ℝ)
    (hX0 : X = along (rv P0) ((2 : ℝ) ^ j) (vec3 (rv P0) (rv Q0))) (hX1 : OnLine (rv P1) (vec3 (rv P1) (rv Q1)) X) :
    ∃ r, lineIntersect3 (iv P0) (iv Q0) (iv P1) (iv Q1) = some r ∧ Close (vec3 (rv P0) X) X r := by
  have hp : (0 : ℝ) < (2 : ℝ) ^ j := by positivity
  obtain ⟨hH, r, hr, -, hq, hs, -⟩ := C109_side P0 Q0 P1 Q1 h0 h1 h2 h3 hnp _ hp.ne' X hX0 hX1
  refine ⟨r, hr, ?_⟩
  by_cases h : Q0 = P1
  · obtain ⟨e1, e2⟩ := hq h
    exact close_self e1 e2
  · exact hs h hp (by rw [hH]; exact same_of_power j _)

/-- C109.  The lines through (-4, -2, 4), (6, 3, -1) and (-1, 3, 1), (5, -1, 1) meet in (2, 1, 1); the result in doubles is
(-10, -5, 7), the mirror image in (-4, -2, 4). -/
theorem C109_wrong :
    let p0 : V3 ℤ := ⟨-4, -2, 4⟩; let q0 : V3 ℤ := ⟨6, 3, -1⟩
    let p1 : V3 ℤ := ⟨-1, 3, 1⟩; let q1 : V3 ℤ := ⟨5, -1, 1⟩
    OnSegment (rv p0) (rv q0) ⟨2, 1, 1⟩ ∧ OnSegment (rv p1) (rv q1) ⟨2, 1, 1⟩ ∧
    lineIntersect3 (iv p0) (iv q0) (iv p1) (iv q1) = some (iv ⟨-10, -5, 7⟩) := by
  refine ⟨⟨3 / 5, by norm_num, by norm_num, ?_⟩, ⟨1 / 2, by norm_num, by norm_num, ?_⟩, ?_⟩
  · ext <;> simp [along, vec3, rv] <;> norm_num
  · ext <;> simp [along, vec3, rv] <;> norm_num
  · have h : lineIntersect3 (qv ⟨-4, -2, 4⟩) (qv ⟨6, 3, -1⟩) (qv ⟨-1, 3, 1⟩) (qv ⟨5, -1, 1⟩) = some (qv ⟨-10, -5, 7⟩) := by
      decide +kernel
    rw [← up_qv, ← up_qv, ← up_qv, ← up_qv, ← up_qv, lineIntersect3_up, h]
    rfl

/-- C109, not vacuous: the lines of `C109_wrong` meet the hypotheses of `C109_side`, so their unit vectors differ; two lines
in the plane z = 7 that meet at a third of the way from `p0` to `q0`; two lines that meet half way. -/
theorem C109_witness :
    (let p0 : V3 ℤ := ⟨-4, -2, 4⟩; let q0 : V3 ℤ := ⟨6, 3, -1⟩; let p1 : V3 ℤ := ⟨-1, 3, 1⟩; let q1 : V3 ℤ := ⟨5, -1, 1⟩
      SmallPt p0 ∧ SmallPt q0 ∧ SmallPt p1 ∧ SmallPt q1 ∧ cross3 (vec3 (rv p0) (rv q0)) (vec3 (rv p1) (rv q1)) ≠ zero3 ∧
      (⟨2, 1, 1⟩ : V3 ℝ) = along (rv p0) (3 / 5) (vec3 (rv p0) (rv q0)) ∧ OnLine (rv p1) (vec3 (rv p1) (rv q1)) ⟨2, 1, 1⟩ ∧
      ¬ SameUnit (cross3 (vec3 (rv q1) (rv p1)) (vec3 (rv p1) (rv p0))) (cross3 (vec3 (rv q1) (rv p1)) (vec3 (rv q0) (rv p0)))) ∧
    (let p0 : V3 ℤ := ⟨0, 0, 7⟩; let q0 : V3 ℤ := ⟨3, 6, 7⟩; let p1 : V3 ℤ := ⟨0, 3, 7⟩; let q1 : V3 ℤ := ⟨2, 1, 7⟩
      SmallPt p0 ∧ SmallPt q0 ∧ SmallPt p1 ∧ SmallPt q1 ∧ cross3 (vec3 (rv p0) (rv q0)) (vec3 (rv p1) (rv q1)) ≠ zero3 ∧
      OnLine (rv p0) (vec3 (rv p0) (rv q0)) ⟨1, 2, 7⟩ ∧ OnLine (rv p1) (vec3 (rv p1) (rv q1)) ⟨1, 2, 7⟩) ∧
    (let p0 : V3 ℤ := ⟨0, 0, 0⟩; let q0 : V3 ℤ := ⟨2, 4, 6⟩; let p1 : V3 ℤ := ⟨0, 2, 4⟩; let q1 : V3 ℤ := ⟨3, 2, 1⟩
      SmallPt p0 ∧ SmallPt q0 ∧ SmallPt p1 ∧ SmallPt q1 ∧ cross3 (vec3 (rv p0) (rv q0)) (vec3 (rv p1) (rv q1)) ≠ zero3 ∧
      (⟨1, 2, 3⟩ : V3 ℝ) = along (rv p0) ((2 : ℝ) ^ (-1 : ℤ)) (vec3 (rv p0) (rv q0)) ∧
      OnLine (rv p1) (vec3 (rv p1) (rv q1)) ⟨1, 2, 3⟩) := by
  have ne : ∀ v : V3 ℝ, v.x ≠ 0 ∨ v.y ≠ 0 ∨ v.z ≠ 0 → v ≠ zero3 := by
    rintro v h rfl
    simp [zero3] at h
  refine ⟨?_, ?_, ?_⟩
  · intro p0 q0 p1 q1
    have h0 : SmallPt p0 := by norm_num [SmallPt, p0]
    have h1 : SmallPt q0 := by norm_num [SmallPt, q0]
    have h2 : SmallPt p1 := by norm_num [SmallPt, p1]
    have h3 : SmallPt q1 := by norm_num [SmallPt, q1]
    have hnp : cross3 (vec3 (rv p0) (rv q0)) (vec3 (rv p1) (rv q1)) ≠ zero3 := by
      apply ne; left; norm_num [cross3, vec3, rv, p0, q0, p1, q1]
    have hX0 : (⟨2, 1, 1⟩ : V3 ℝ) = along (rv p0) (3 / 5) (vec3 (rv p0) (rv q0)) := by
      ext <;> norm_num [along, vec3, rv, p0, q0]
    have hX1 : OnLine (rv p1) (vec3 (rv p1) (rv q1)) ⟨2, 1, 1⟩ := ⟨1 / 2, by ext <;> norm_num [along, vec3, rv, p1, q1]⟩
    refine ⟨h0, h1, h2, h3, hnp, hX0, hX1, fun hs => ?_⟩
    obtain ⟨-, r, hr, -, -, hpos, -⟩ := C109_side p0 q0 p1 q1 h0 h1 h2 h3 hnp (3 / 5) (by norm_num) _ hX0 hX1
    have := (hpos (by decide) (by norm_num) hs).1
    have hw := C109_wrong.2.2
    rw [hr] at hw
    rw [Option.some.inj hw] at this
    norm_num [iv, vec3, rv, p0] at this
  · intro p0 q0 p1 q1
    refine ⟨by norm_num [SmallPt, p0], by norm_num [SmallPt, q0], by norm_num [SmallPt, p1], by norm_num [SmallPt, q1], ?_,
      ⟨1 / 3, by ext <;> norm_num [along, vec3, rv, p0, q0]⟩, ⟨1 / 2, by ext <;> norm_num [along, vec3, rv, p1, q1]⟩⟩
    apply ne; right; right; norm_num [cross3, vec3, rv, p0, q0, p1, q1]
  · intro p0 q0 p1 q1
    refine ⟨by norm_num [SmallPt, p0], by norm_num [SmallPt, q0], by norm_num [SmallPt, p1], by norm_num [SmallPt, q1], ?_,
      by ext <;> norm_num [along, vec3, rv, p0, q0], ⟨1 / 3, by ext <;> norm_num [along, vec3, rv, p1, q1]⟩⟩
    apply ne; left; norm_num [cross3, vec3, rv, p0, q0, p1, q1]

end Blmath.Props
