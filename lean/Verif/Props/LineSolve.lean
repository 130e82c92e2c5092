import Verif.Model.LineSolve
import Verif.Spec.LineSolve
import Verif.Props.Segment
import Verif.Proofs.FloatError
import Verif.Base.F64
import Verif.Base.Rd

/-!
Property C150: `line_intersect` with the elimination that LAPACK does, in exact and in rounded arithmetic.
-/

namespace Blmath.Props
open Blmath.Geometry Blmath.Spec Blmath.Proofs Fl

namespace LU

theorem npAbs_fin (a : ℝ) : npAbs (fin a) = fin |a| := by
  unfold npAbs
  simp only [lit_fl, Rat.cast_zero, lt_fin, neg_fin]
  split
  · rw [abs_of_neg (by assumption)]
  · rw [abs_of_nonneg (by linarith)]

theorem eliminate_fin (a b c d r s : ℝ) (h : a = 0 → c = 0) :
    eliminate (fin a) (fin b) (fin c) (fin d) (fin r) (fin s) = solve2 (fin a) (fin b) (fin c) (fin d) (fin r) (fin s) := by
  classical
  rw [solve2_fin]
  unfold eliminate
  simp only [lit_fl, Rat.cast_zero, eq_fin, Rat.cast_one]
  by_cases ha : a = 0
  · simp [ha, h ha]
  · rw [if_neg ha, div_fin _ _ ha, div_fin _ _ ha]
    have hl : (if Num.lt (npAbs (fin a)) sfmin = true then fin (c / a) else fin c * fin (1 / a)) = fin (c / a) := by
      split
      · rfl
      · rw [mul_fin]; congr 1; ring
    rw [hl]
    simp only [mul_fin, sub_fin, eq_fin]
    have hu : d - c / a * b = (a * d - b * c) / a := by field_simp
    by_cases hd : a * d - b * c = 0
    · rw [if_pos (by rw [hu, hd, zero_div]), if_pos hd]
    · have hu' : d - c / a * b ≠ 0 := by rw [hu]; exact div_ne_zero hd ha
      rw [if_neg hu', if_neg hd, div_fin _ _ hu']
      simp only [mul_fin, sub_fin]
      rw [div_fin _ _ ha]
      have e2 : (s - c / a * r) / (d - c / a * b) = (a * s - r * c) / (a * d - b * c) := by
        rw [hu]; field_simp
      rw [e2]
      have e1 : (r - b * ((a * s - r * c) / (a * d - b * c))) / a = (r * d - b * s) / (a * d - b * c) := by
        field_simp; ring
      rw [e1]

theorem solve2_swap (a b c d r s : ℝ) :
    solve2 (fin c) (fin d) (fin a) (fin b) (fin s) (fin r) = solve2 (fin a) (fin b) (fin c) (fin d) (fin r) (fin s) := by
  classical
  rw [solve2_fin, solve2_fin]
  have e : c * b - d * a = -(a * d - b * c) := by ring
  rw [e]
  by_cases hd : a * d - b * c = 0
  · simp [hd]
  · rw [if_neg (neg_ne_zero.mpr hd), if_neg hd]
    have e1 : (s * b - d * r) / -(a * d - b * c) = (r * d - b * s) / (a * d - b * c) := by
      rw [div_neg, ← neg_div]; congr 1; ring
    have e2 : (c * r - s * a) / -(a * d - b * c) = (a * s - r * c) / (a * d - b * c) := by
      rw [div_neg, ← neg_div]; congr 1; ring
    rw [e1, e2]

theorem gesv2_fin (a b c d r s : ℝ) :
    gesv2 (fin a) (fin b) (fin c) (fin d) (fin r) (fin s) = solve2 (fin a) (fin b) (fin c) (fin d) (fin r) (fin s) := by
  unfold gesv2
  rw [npAbs_fin, npAbs_fin]
  simp only [lt_fin]
  split
  · rename_i h
    rw [eliminate_fin _ _ _ _ _ _ (fun hc => by rw [hc, abs_zero] at h; linarith [abs_nonneg a]), solve2_swap]
  · rename_i h
    exact eliminate_fin _ _ _ _ _ _ fun ha => by
      rw [ha, abs_zero, not_lt] at h
      exact abs_eq_zero.mp (le_antisymm h (abs_nonneg c))

end LU
open LU

/-- **C150.** In exact arithmetic LAPACK's elimination does what C42 takes for granted about `np.linalg.solve`. -/
theorem C150_exact (p0 q0 p1 q1 : ℝ × ℝ) :
    lineIntersectLu (fin p0.1, fin p0.2) (fin q0.1, fin q0.2) (fin p1.1, fin p1.2) (fin q1.1, fin q1.2) =
      lineIntersect (fin p0.1, fin p0.2) (fin q0.1, fin q0.2) (fin p1.1, fin p1.2) (fin q1.1, fin q1.2) := by
  unfold lineIntersectLu lineSolve lineIntersect
  simp only [sub_fin, mul_fin, neg_fin, gesv2_fin]
  rfl

namespace LU
variable {rnd : ℝ → ℝ} {u : ℝ}

theorem rel (h : Rounding rnd u) (x : ℝ) : ∃ t, |t| ≤ u ∧ rnd x = x * (1 + t) := by
  have e := h.err x
  by_cases hx : x = 0
  · subst hx
    rw [abs_zero, mul_zero] at e
    exact ⟨0, by rw [abs_zero]; exact h.nonneg, by have := abs_nonpos_iff.mp e; linarith⟩
  · refine ⟨(rnd x - x) / x, ?_, by field_simp; ring⟩
    rw [abs_div, div_le_iff₀ (abs_pos.mpr hx)]
    exact e

/-- what a product of two small changes adds up to -/
theorem two_le {u s t : ℝ} (hu : u ≤ 1 / 1000) (hs : |s| ≤ u) (ht : |t| ≤ u) : |(1 + s) * (1 + t) - 1| ≤ 2.001 * u := by
  have e : (1 + s) * (1 + t) - 1 = s + t + s * t := by ring
  rw [e]
  have h1 : |s * t| ≤ 0.001 * u := by
    rw [abs_mul]
    calc |s| * |t| ≤ u * u := mul_le_mul hs ht (abs_nonneg _) (le_trans (abs_nonneg _) hs)
      _ ≤ 0.001 * u := by nlinarith [le_trans (abs_nonneg _) hs]
  have := abs_add_le (s + t) (s * t)
  have := abs_add_le s t
  linarith

theorem three_le {u s t w : ℝ} (hu : u ≤ 1 / 1000) (hs : |s| ≤ u) (ht : |t| ≤ u) (hw : |w| ≤ u) :
    |(1 + s) * (1 + t) * (1 + w) - 1| ≤ 3.01 * u := by
  have h2 := two_le hu hs ht
  have e : (1 + s) * (1 + t) * (1 + w) - 1 = ((1 + s) * (1 + t) - 1) + w + ((1 + s) * (1 + t) - 1) * w := by ring
  have hu0 : 0 ≤ u := le_trans (abs_nonneg _) hs
  have h1 : |((1 + s) * (1 + t) - 1) * w| ≤ 0.003 * u := by
    rw [abs_mul]
    calc _ ≤ (2.001 * u) * u := mul_le_mul h2 hw (abs_nonneg _) (by linarith)
      _ ≤ 0.003 * u := by nlinarith
  rw [e]
  have := abs_add_le ((1 + s) * (1 + t) - 1 + w) (((1 + s) * (1 + t) - 1) * w)
  have := abs_add_le ((1 + s) * (1 + t) - 1) w
  linarith

theorem pos_of {u t : ℝ} (hu : u ≤ 1 / 1000) (ht : |t| ≤ u) : 0.999 ≤ 1 + t := by
  have := neg_abs_le t
  linarith

/-- the row with the pivot is solved well -/
theorem row_one {a b r x1 x2 s t w u : ℝ} (hu : u ≤ 1 / 1000) (hs : |s| ≤ u) (ht : |t| ≤ u) (hw : |w| ≤ u) (ha : a ≠ 0)
    (hx : x1 = (r - b * x2 * (1 + s)) * (1 + t) / a * (1 + w)) : |a * x1 + b * x2 - r| ≤ u * (3 * |a * x1| + |b * x2|) := by
  set T := r - b * x2 * (1 + s) with hT
  have hax : a * x1 = T * ((1 + t) * (1 + w)) := by rw [hx]; field_simp
  have hu0 : 0 ≤ u := le_trans (abs_nonneg _) hs
  have h2 := two_le hu ht hw
  have hp : 0.998 ≤ (1 + t) * (1 + w) := by nlinarith [pos_of hu ht, pos_of hu hw]
  have e : a * x1 + b * x2 - r = T * ((1 + t) * (1 + w) - 1) - b * x2 * s := by rw [hax, hT]; ring
  have hTle : 0.998 * |T| ≤ |a * x1| := by
    rw [hax, abs_mul, abs_of_pos (by linarith : 0 < (1 + t) * (1 + w))]
    nlinarith [abs_nonneg T]
  rw [e]
  have h3 : |T * ((1 + t) * (1 + w) - 1)| ≤ |T| * (2.001 * u) := by
    rw [abs_mul]; exact mul_le_mul_of_nonneg_left h2 (abs_nonneg _)
  have h4 : |b * x2 * s| ≤ |b * x2| * u := by rw [abs_mul]; exact mul_le_mul_of_nonneg_left hs (abs_nonneg _)
  have := abs_sub (T * ((1 + t) * (1 + w) - 1)) (b * x2 * s)
  have h5 : |T| * (2.001 * u) ≤ u * (3 * |a * x1|) := by nlinarith [abs_nonneg T]
  linarith

theorem mul_le_of {x y k l : ℝ} (hx : |x| ≤ k) (hy : |y| ≤ l) : |x * y| ≤ k * l := by
  rw [abs_mul]; exact mul_le_mul hx hy (abs_nonneg _) (le_trans (abs_nonneg _) hx)

/-- the other row is solved well too, because the pivot is the larger -/
theorem row_two {a b c d r s l w U v y x1 x2 t1 t2 t3 t4 t5 ε u E R X : ℝ} (hu : u ≤ 1 / 1000) (h0 : 0 ≤ u)
    (h1 : |t1| ≤ u) (h2 : |t2| ≤ u) (h3 : |t3| ≤ u) (h4 : |t4| ≤ u) (h5 : |t5| ≤ u) (hε : |ε| ≤ 2.001 * u)
    (ha : |a| ≤ E) (hb : |b| ≤ E) (hc : |c| ≤ E) (hd : |d| ≤ E) (hr : |r| ≤ R) (hX1 : |x1| ≤ X) (hX2 : |x2| ≤ X) (hl1 : |l| ≤ 1.01)
    (hl : l * a = c * (1 + ε)) (hw : w = l * b * (1 + t1)) (hU : U = (d - w) * (1 + t2)) (hU0 : U ≠ 0) (hv : v = l * r * (1 + t3))
    (hy : y = (s - v) * (1 + t4)) (hx2 : x2 = y / U * (1 + t5)) (hone : |a * x1 + b * x2 - r| ≤ u * (3 * |a * x1| + |b * x2|)) :
    |a * x1 + b * x2 - r| ≤ 4 * u * (E * X) ∧ |c * x1 + d * x2 - s| ≤ 14 * u * (E * X) + 2 * u * R := by
  have hE : 0 ≤ E := le_trans (abs_nonneg _) ha
  have hX : 0 ≤ X := le_trans (abs_nonneg _) hX1
  have hR : 0 ≤ R := le_trans (abs_nonneg _) hr
  have hEX : 0 ≤ E * X := mul_nonneg hE hX
  have huE : 0 ≤ u * (E * X) := mul_nonneg h0 hEX
  have one : |a * x1 + b * x2 - r| ≤ 4 * u * (E * X) := by
    have := mul_le_of ha hX1
    have := mul_le_of hb hX2
    nlinarith
  refine ⟨one, ?_⟩
  have hw' : |w| ≤ 1.02 * E := by
    have h6 : |1 + t1| ≤ 1.001 := by
      have := abs_add_le 1 t1
      rw [abs_one] at this
      linarith
    have := mul_le_of (mul_le_of hl1 hb) h6
    rw [hw]
    linarith
  have hdw : |d - w| ≤ 2.02 * E := by
    have := abs_sub d w
    linarith
  have hP := mul_le_of hdw hX2
  have hPQ : |(d - w) * x2 - (s - v)| ≤ 3.1 * u * |(d - w) * x2| := by
    have e : (d - w) * x2 * (1 + t2) = (s - v) * ((1 + t4) * (1 + t5)) := by
      have : U * x2 = y * (1 + t5) := by rw [hx2]; field_simp
      rw [hU, hy] at this
      linarith
    have hp : 0.998 ≤ (1 + t4) * (1 + t5) := by nlinarith [pos_of hu h4, pos_of hu h5]
    have e2 : ((d - w) * x2 - (s - v)) * ((1 + t4) * (1 + t5)) = (d - w) * x2 * (((1 + t4) * (1 + t5) - 1) - t2) := by linarith
    have hk : |((1 + t4) * (1 + t5) - 1) - t2| ≤ 3.001 * u := by
      have := abs_sub ((1 + t4) * (1 + t5) - 1) t2
      have := two_le hu h4 h5
      linarith
    have e3 : |(d - w) * x2 - (s - v)| * ((1 + t4) * (1 + t5)) = |(d - w) * x2| * |((1 + t4) * (1 + t5) - 1) - t2| := by
      rw [← abs_mul, ← e2, abs_mul, abs_of_pos (by linarith : 0 < (1 + t4) * (1 + t5))]
    have h7 : |(d - w) * x2| * |((1 + t4) * (1 + t5) - 1) - t2| ≤ |(d - w) * x2| * (3.001 * u) :=
      mul_le_mul_of_nonneg_left hk (abs_nonneg _)
    have h8 : |(d - w) * x2 - (s - v)| * 0.998 ≤ |(d - w) * x2 - (s - v)| * ((1 + t4) * (1 + t5)) :=
      mul_le_mul_of_nonneg_left hp (abs_nonneg _)
    have h9 : 0 ≤ u * |(d - w) * x2| := mul_nonneg h0 (abs_nonneg _)
    have h10 := h8.trans (e3.le.trans h7)
    generalize |(d - w) * x2 - (s - v)| = G at h10 ⊢
    generalize |(d - w) * x2| = P at h10 h9 ⊢
    have h11 : P * (3.001 * u) = 3.001 * (u * P) := by ring
    have h12 : 3.1 * u * P = 3.1 * (u * P) := by ring
    rw [h11] at h10
    rw [h12]
    linarith
  have e : c * x1 + d * x2 - s = (-(c * ε)) * x1 + l * (a * x1 + b * x2 - r) + ((d - w) * x2 - (s - v)) - l * r * t3 + l * b * t1 * x2 := by
    have : c * ε = l * a - c := by linarith
    rw [this, hv, hw]
    ring
  have q1 : |(-(c * ε)) * x1| ≤ E * (2.001 * u) * X := mul_le_of (by rw [abs_neg]; exact mul_le_of hc hε) hX1
  have q2 := mul_le_of hl1 one
  have q3 : |l * r * t3| ≤ 1.01 * R * u := mul_le_of (mul_le_of hl1 hr) h3
  have q4 : |l * b * t1 * x2| ≤ 1.01 * E * u * X := mul_le_of (mul_le_of (mul_le_of hl1 hb) h1) hX2
  have q5 : 3.1 * u * |(d - w) * x2| ≤ 3.1 * u * (2.02 * E * X) := mul_le_mul_of_nonneg_left hP (by linarith)
  have huR : 0 ≤ u * R := mul_nonneg h0 hR
  rw [e]
  have i1 := abs_add_le ((-(c * ε)) * x1 + l * (a * x1 + b * x2 - r) + ((d - w) * x2 - (s - v)) - l * r * t3) (l * b * t1 * x2)
  have i2 := abs_sub ((-(c * ε)) * x1 + l * (a * x1 + b * x2 - r) + ((d - w) * x2 - (s - v))) (l * r * t3)
  have i3 := abs_add_le ((-(c * ε)) * x1 + l * (a * x1 + b * x2 - r)) ((d - w) * x2 - (s - v))
  have i4 := abs_add_le ((-(c * ε)) * x1) (l * (a * x1 + b * x2 - r))
  have j1 : E * (2.001 * u) * X = 2.001 * (u * (E * X)) := by ring
  have j2 : 1.01 * (4 * u * (E * X)) = 4.04 * (u * (E * X)) := by ring
  have j3 : 1.01 * R * u = 1.01 * (u * R) := by ring
  have j4 : 1.01 * E * u * X = 1.01 * (u * (E * X)) := by ring
  have j5 : 3.1 * u * (2.02 * E * X) = 6.262 * (u * (E * X)) := by ring
  have j6 : 14 * u * (E * X) + 2 * u * R = 14 * (u * (E * X)) + 2 * (u * R) := by ring
  rw [j1] at q1
  rw [j2] at q2
  rw [j3] at q3
  rw [j4] at q4
  rw [j5] at q5
  rw [j6]
  linarith

theorem zero (h : Rounding rnd u) : rnd 0 = 0 := by simpa using h.grid 0 0 (by norm_num)

theorem one (h : Rounding rnd u) : rnd 1 = 1 := by simpa using h.grid 1 0 (by norm_num)

theorem npAbs_rd (h : Rounding rnd u) (c : Rd rnd) : (npAbs c).val = |c.val| := by
  unfold npAbs
  by_cases hc : c.val < 0
  · rw [if_pos (by rw [Rd.lt_iff, Rd.val_lit]; push_cast; rw [zero h]; exact hc), Rd.val_neg, abs_of_neg hc]
  · rw [if_neg (by rw [Rd.lt_iff, Rd.val_lit]; push_cast; rw [zero h]; exact hc), abs_of_nonneg (by linarith)]

/-- the multiplier, with its one or two roundings -/
theorem multiplier (h : Rounding rnd u) (hu : u ≤ 1 / 1000) (a c : Rd rnd) (ha : a.val ≠ 0) (hac : |c.val| ≤ |a.val|) :
    ∃ ε, |ε| ≤ 2.001 * u ∧ (if Num.lt (npAbs a) sfmin = true then c / a else c * (Num.lit 1 / a)).val * a.val = c.val * (1 + ε) ∧
      |(if Num.lt (npAbs a) sfmin = true then c / a else c * (Num.lit 1 / a)).val| ≤ 1.01 := by
  have key : ∃ ε, |ε| ≤ 2.001 * u ∧ (if Num.lt (npAbs a) sfmin = true then c / a else c * (Num.lit 1 / a)).val * a.val = c.val * (1 + ε) := by
    split
    · obtain ⟨t, ht, e⟩ := rel h (c.val / a.val)
      refine ⟨t, by linarith [h.nonneg], ?_⟩
      rw [Rd.val_div, e]
      field_simp
    · obtain ⟨t, ht, e⟩ := rel h (1 / a.val)
      obtain ⟨t', ht', e'⟩ := rel h (c.val * (1 / a.val * (1 + t)))
      refine ⟨(1 + t) * (1 + t') - 1, two_le hu ht ht', ?_⟩
      rw [Rd.val_mul, Rd.val_div, Rd.val_lit]
      push_cast
      rw [one h, e, e']
      field_simp
      ring
  obtain ⟨ε, hε, e⟩ := key
  refine ⟨ε, hε, e, ?_⟩
  have h1 := congrArg abs e
  rw [abs_mul, abs_mul] at h1
  have h2 : |1 + ε| ≤ 1.01 := by
    have := abs_add_le 1 ε
    rw [abs_one] at this
    linarith
  have h3 : |c.val| * |1 + ε| ≤ |a.val| * 1.01 := mul_le_mul hac h2 (abs_nonneg _) (abs_nonneg _)
  have hp := abs_pos.mpr ha
  nlinarith

theorem eliminate_ok (h : Rounding rnd u) (hu : u ≤ 1 / 1000) {a b c d r s : Rd rnd} {x : V2 (Rd rnd)} {E R X : ℝ}
    (hac : |c.val| ≤ |a.val|) (ha : |a.val| ≤ E) (hb : |b.val| ≤ E) (hc : |c.val| ≤ E) (hd : |d.val| ≤ E) (hr : |r.val| ≤ R)
    (hX1 : |x.1.val| ≤ X) (hX2 : |x.2.val| ≤ X) (hx : eliminate a b c d r s = .ok x) :
    |a.val * x.1.val + b.val * x.2.val - r.val| ≤ 4 * u * (E * X) ∧
      |c.val * x.1.val + d.val * x.2.val - s.val| ≤ 14 * u * (E * X) + 2 * u * R := by
  unfold eliminate at hx
  have z0 : (Num.lit 0 : Rd rnd).val = 0 := by rw [Rd.val_lit]; push_cast; exact zero h
  split at hx
  · cases hx
  · rename_i h1
    rw [Rd.eq_iff, z0] at h1
    obtain ⟨ε, hε, hl, hl1⟩ := multiplier h hu a c h1 hac
    dsimp only at hx
    set l := (if Num.lt (npAbs a) sfmin = true then c / a else c * (Num.lit 1 / a)) with hldef
    split at hx
    · cases hx
    · rename_i h2
      rw [Rd.eq_iff, z0] at h2
      have hx' := Except.ok.inj hx
      obtain ⟨t1, k1, e1⟩ := rel h (l.val * b.val)
      obtain ⟨t2, k2, e2⟩ := rel h (d.val - rnd (l.val * b.val))
      obtain ⟨t3, k3, e3⟩ := rel h (l.val * r.val)
      obtain ⟨t4, k4, e4⟩ := rel h (s.val - rnd (l.val * r.val))
      obtain ⟨t5, k5, e5⟩ := rel h (rnd (s.val - rnd (l.val * r.val)) / rnd (d.val - rnd (l.val * b.val)))
      have ex2 : x.2.val = rnd (rnd (s.val - rnd (l.val * r.val)) / rnd (d.val - rnd (l.val * b.val))) := by rw [← hx']; rfl
      obtain ⟨t6, k6, e6⟩ := rel h (b.val * x.2.val)
      obtain ⟨t7, k7, e7⟩ := rel h (r.val - rnd (b.val * x.2.val))
      obtain ⟨t8, k8, e8⟩ := rel h (rnd (r.val - rnd (b.val * x.2.val)) / a.val)
      have ex1 : x.1.val = rnd (rnd (r.val - rnd (b.val * x.2.val)) / a.val) := by rw [ex2, ← hx']; rfl
      have hone := row_one hu k6 k7 k8 h1 (by rw [ex1, e8, e7, e6] : x.1.val = (r.val - b.val * x.2.val * (1 + t6)) * (1 + t7) / a.val * (1 + t8))
      exact row_two hu h.nonneg k1 k2 k3 k4 k5 hε ha hb hc hd hr hX1 hX2 hl1 hl e1 e2 h2 e3 e4 (ex2.trans e5) hone

theorem eliminate_error (h : Rounding rnd u) (hu : u ≤ 1 / 1000) {a b c d r s : Rd rnd} {e : PyErr} {E : ℝ}
    (hac : |c.val| ≤ |a.val|) (hb : |b.val| ≤ E) (hc : |c.val| ≤ E) (he : eliminate a b c d r s = .error e) :
    e = .LinAlgError ∧ (a.val = 0 ∧ c.val = 0 ∨ |a.val * d.val - b.val * c.val| ≤ 3.1 * u * (E * E)) := by
  unfold eliminate at he
  have z0 : (Num.lit 0 : Rd rnd).val = 0 := by rw [Rd.val_lit]; push_cast; exact zero h
  split at he
  · rename_i h1
    rw [Rd.eq_iff, z0] at h1
    refine ⟨(Except.error.inj he).symm, Or.inl ⟨h1, ?_⟩⟩
    rw [h1, abs_zero] at hac
    exact abs_nonpos_iff.mp hac
  · rename_i h1
    rw [Rd.eq_iff, z0] at h1
    obtain ⟨ε, hε, hl, hl1⟩ := multiplier h hu a c h1 hac
    dsimp only at he
    set l := (if Num.lt (npAbs a) sfmin = true then c / a else c * (Num.lit 1 / a)) with hldef
    split at he
    · rename_i h2
      refine ⟨(Except.error.inj he).symm, Or.inr ?_⟩
      rw [Rd.eq_iff, z0, Rd.val_sub, Rd.val_mul] at h2
      obtain ⟨t1, k1, e1⟩ := rel h (l.val * b.val)
      obtain ⟨t2, k2, e2⟩ := rel h (d.val - rnd (l.val * b.val))
      have hd : d.val = l.val * b.val * (1 + t1) := by
        rw [e2] at h2
        rcases mul_eq_zero.mp h2 with h3 | h3
        · linarith
        · linarith [pos_of hu k2]
      have e3 : a.val * d.val - b.val * c.val = b.val * c.val * ((1 + ε) * (1 + t1) - 1) := by
        rw [hd]
        linear_combination b.val * (1 + t1) * hl
      have h4 : |(1 + ε) * (1 + t1) - 1| ≤ 3.1 * u := by
        have e4 : (1 + ε) * (1 + t1) - 1 = ε + t1 + ε * t1 := by ring
        have h5 := mul_le_of hε k1
        have := abs_add_le (ε + t1) (ε * t1)
        have := abs_add_le ε t1
        rw [e4]
        nlinarith [h.nonneg]
      rw [e3]
      have := mul_le_of (mul_le_of hb hc) h4
      linarith
    · cases he

theorem gesv2_ok (h : Rounding rnd u) (hu : u ≤ 1 / 1000) {a b c d r s : Rd rnd} {x : V2 (Rd rnd)} {E R X : ℝ}
    (ha : |a.val| ≤ E) (hb : |b.val| ≤ E) (hc : |c.val| ≤ E) (hd : |d.val| ≤ E) (hr : |r.val| ≤ R) (hs : |s.val| ≤ R)
    (hX1 : |x.1.val| ≤ X) (hX2 : |x.2.val| ≤ X) (hx : gesv2 a b c d r s = .ok x) :
    |a.val * x.1.val + b.val * x.2.val - r.val| ≤ 14 * u * (E * X) + 2 * u * R ∧
      |c.val * x.1.val + d.val * x.2.val - s.val| ≤ 14 * u * (E * X) + 2 * u * R := by
  have h1 : 0 ≤ u * (E * X) := mul_nonneg h.nonneg (mul_nonneg (le_trans (abs_nonneg _) ha) (le_trans (abs_nonneg _) hX1))
  have h2 : 0 ≤ u * R := mul_nonneg h.nonneg (le_trans (abs_nonneg _) hr)
  unfold gesv2 at hx
  split at hx
  · rename_i hp
    rw [Rd.lt_iff, npAbs_rd h, npAbs_rd h] at hp
    obtain ⟨g1, g2⟩ := eliminate_ok h hu hp.le hc hd ha hb hs hX1 hX2 hx
    exact ⟨g2, by linarith⟩
  · rename_i hp
    rw [Rd.lt_iff, npAbs_rd h, npAbs_rd h, not_lt] at hp
    obtain ⟨g1, g2⟩ := eliminate_ok h hu hp ha hb hc hd hr hX1 hX2 hx
    exact ⟨by linarith, g2⟩

theorem gesv2_error (h : Rounding rnd u) (hu : u ≤ 1 / 1000) {a b c d r s : Rd rnd} {e : PyErr} {E : ℝ}
    (ha : |a.val| ≤ E) (hb : |b.val| ≤ E) (hc : |c.val| ≤ E) (hd : |d.val| ≤ E) (he : gesv2 a b c d r s = .error e) :
    e = .LinAlgError ∧ (a.val = 0 ∧ c.val = 0 ∨ |a.val * d.val - b.val * c.val| ≤ 3.1 * u * (E * E)) := by
  unfold gesv2 at he
  split at he
  · rename_i hp
    rw [Rd.lt_iff, npAbs_rd h, npAbs_rd h] at hp
    obtain ⟨g, g'⟩ := eliminate_error h hu hp.le hd ha he
    refine ⟨g, g'.imp (fun k => ⟨k.2, k.1⟩) fun k => ?_⟩
    rw [abs_sub_comm] at k
    have e : a.val * d.val - b.val * c.val = d.val * a.val - c.val * b.val := by ring
    rwa [e]
  · rename_i hp
    rw [Rd.lt_iff, npAbs_rd h, npAbs_rd h, not_lt] at hp
    exact eliminate_error h hu hp hb hc he

end LU

namespace LU
variable {rnd : ℝ → ℝ} {u : ℝ}

/-- the point that two numbers stand for -/
def pt (p : V2 (Rd rnd)) : ℝ × ℝ := (p.1.val, p.2.val)

/-- the right hand side of a row -/
noncomputable def rhs (p q : V2 (Rd rnd)) : Rd rnd := p.2 * (q.1 - p.1) - (q.2 - p.2) * p.1

theorem grow {x k u t : ℝ} (hu : u ≤ 1 / 1000) (hx : |x| ≤ k) (ht : |t| ≤ u) : |x * (1 + t)| ≤ 1.001 * k := by
  have h1 : |1 + t| ≤ 1.001 := by
    have := abs_add_le 1 t
    rw [abs_one] at this
    linarith
  have := mul_le_of hx h1
  linarith

theorem diff_le (h : Rounding rnd u) (hu : u ≤ 1 / 1000) {p q : Rd rnd} {D : ℝ} (hd : |q.val - p.val| ≤ D) : |(q - p).val| ≤ 1.001 * D := by
  obtain ⟨t, ht, e⟩ := rel h (q.val - p.val)
  rw [Rd.val_sub, e]
  exact grow hu hd ht

theorem rhs_le (h : Rounding rnd u) (hu : u ≤ 1 / 1000) {p q : V2 (Rd rnd)} {D M : ℝ} (hp : Size2 M (pt p))
    (hd1 : |q.1.val - p.1.val| ≤ D) (hd2 : |q.2.val - p.2.val| ≤ D) : |(rhs p q).val| ≤ 2.01 * (M * D) := by
  have d1 := diff_le h hu hd1
  have d2 := diff_le h hu hd2
  obtain ⟨hp1, hp2⟩ := hp
  unfold rhs
  obtain ⟨t, ht, e⟩ := rel h (p.2.val * (q.1 - p.1).val)
  obtain ⟨t', ht', e'⟩ := rel h ((q.2 - p.2).val * p.1.val)
  obtain ⟨w, hw, ew⟩ := rel h (rnd (p.2.val * (q.1 - p.1).val) - rnd ((q.2 - p.2).val * p.1.val))
  rw [Rd.val_sub, Rd.val_mul, Rd.val_mul, ew, e, e']
  have g1 := grow hu (mul_le_of hp2 d1) ht
  have g2 := grow hu (mul_le_of d2 hp1) ht'
  have g3 := abs_sub (p.2.val * (q.1 - p.1).val * (1 + t)) ((q.2 - p.2).val * p.1.val * (1 + t'))
  have hM : 0 ≤ M := le_trans (abs_nonneg _) hp1
  have hD : 0 ≤ D := le_trans (abs_nonneg _) hd1
  have hMD := mul_nonneg hM hD
  have := grow hu (g3.trans (add_le_add g1 g2)) hw
  have j1 : 1.001 * (1.001 * (M * (1.001 * D)) + 1.001 * (1.001 * D * M)) = 2.006006002 * (M * D) := by ring
  rw [j1] at this
  linarith

/-- a row is the line it was made from, up to the roundings -/
theorem row_line (h : Rounding rnd u) (hu : u ≤ 1 / 1000) {p q x : V2 (Rd rnd)} {D M X : ℝ} (hp : Size2 M (pt p))
    (hd1 : |q.1.val - p.1.val| ≤ D) (hd2 : |q.2.val - p.2.val| ≤ D) (hx : Size2 X (pt x)) :
    |turn2 (pt p) (pt q) (pt x) - ((-(q.2 - p.2)).val * x.1.val + (q.1 - p.1).val * x.2.val - (rhs p q).val)| ≤ 2 * u * (D * X) + 6.02 * u * (M * D) := by
  obtain ⟨hp1, hp2⟩ := hp
  obtain ⟨hx1, hx2⟩ := hx
  simp only [pt] at hp1 hp2 hx1 hx2
  unfold rhs
  obtain ⟨s, hs, es⟩ := rel h (q.1.val - p.1.val)
  obtain ⟨s', hs', es'⟩ := rel h (q.2.val - p.2.val)
  obtain ⟨t, ht, e⟩ := rel h (p.2.val * (q.1 - p.1).val)
  obtain ⟨t', ht', e'⟩ := rel h ((q.2 - p.2).val * p.1.val)
  obtain ⟨w, hw, ew⟩ := rel h (rnd (p.2.val * (q.1 - p.1).val) - rnd ((q.2 - p.2).val * p.1.val))
  have er : (p.2 * (q.1 - p.1) - (q.2 - p.2) * p.1).val = (p.2.val * (q.1 - p.1).val * (1 + t) - (q.2 - p.2).val * p.1.val * (1 + t')) * (1 + w) := by
    rw [Rd.val_sub, Rd.val_mul, Rd.val_mul, ew, e, e']
  rw [er, Rd.val_neg, Rd.val_sub, Rd.val_sub, es, es']
  have key : turn2 (pt p) (pt q) (pt x) - (-((q.2.val - p.2.val) * (1 + s')) * x.1.val + (q.1.val - p.1.val) * (1 + s) * x.2.val -
        (p.2.val * ((q.1.val - p.1.val) * (1 + s)) * (1 + t) - (q.2.val - p.2.val) * (1 + s') * p.1.val * (1 + t')) * (1 + w)) =
      ((q.2.val - p.2.val) * x.1.val * s' - (q.1.val - p.1.val) * x.2.val * s) +
        (p.2.val * (q.1.val - p.1.val) * ((1 + s) * (1 + t) * (1 + w) - 1) - p.1.val * (q.2.val - p.2.val) * ((1 + s') * (1 + t') * (1 + w) - 1)) := by
    unfold turn2 pt
    ring
  rw [key]
  have g1 := mul_le_of (mul_le_of hd2 hx1) hs'
  have g2 := mul_le_of (mul_le_of hd1 hx2) hs
  have g3 := mul_le_of (mul_le_of hp2 hd1) (three_le hu hs ht hw)
  have g4 := mul_le_of (mul_le_of hp1 hd2) (three_le hu hs' ht' hw)
  refine (abs_add_le _ _).trans ((add_le_add (abs_sub _ _) (abs_sub _ _)).trans ?_)
  have j1 : 2 * u * (D * X) + 6.02 * u * (M * D) = (D * X * u + D * X * u) + (M * D * (3.01 * u) + M * D * (3.01 * u)) := by ring
  rw [j1]
  exact add_le_add (add_le_add g1 g2) (add_le_add g3 g4)

theorem steer_err (h : Rounding rnd u) (hu : u ≤ 1 / 1000) {p0 q0 p1 q1 : V2 (Rd rnd)} {D : ℝ}
    (a1 : |q0.1.val - p0.1.val| ≤ D) (a2 : |q0.2.val - p0.2.val| ≤ D) (b1 : |q1.1.val - p1.1.val| ≤ D) (b2 : |q1.2.val - p1.2.val| ≤ D) :
    |steer (pt p0) (pt q0) (pt p1) (pt q1) -
      ((-(q0.2 - p0.2)).val * (q1.1 - p1.1).val - (q0.1 - p0.1).val * (-(q1.2 - p1.2)).val)| ≤ 4.1 * u * (D * D) := by
  obtain ⟨s, hs, es⟩ := rel h (q0.1.val - p0.1.val)
  obtain ⟨s', hs', es'⟩ := rel h (q0.2.val - p0.2.val)
  obtain ⟨t, ht, et⟩ := rel h (q1.1.val - p1.1.val)
  obtain ⟨t', ht', et'⟩ := rel h (q1.2.val - p1.2.val)
  simp only [Rd.val_neg, Rd.val_sub]
  rw [es, es', et, et']
  have key : steer (pt p0) (pt q0) (pt p1) (pt q1) - (-((q0.2.val - p0.2.val) * (1 + s')) * ((q1.1.val - p1.1.val) * (1 + t)) -
        (q0.1.val - p0.1.val) * (1 + s) * -((q1.2.val - p1.2.val) * (1 + t'))) =
      (q0.2.val - p0.2.val) * (q1.1.val - p1.1.val) * ((1 + s') * (1 + t) - 1) -
        (q0.1.val - p0.1.val) * (q1.2.val - p1.2.val) * ((1 + s) * (1 + t') - 1) := by
    unfold steer pt
    ring
  rw [key]
  have g1 := mul_le_of (mul_le_of a2 b1) (two_le hu hs' ht)
  have g2 := mul_le_of (mul_le_of a1 b2) (two_le hu hs ht')
  refine (abs_sub _ _).trans ((add_le_add g1 g2).trans ?_)
  have : 0 ≤ u * (D * D) := mul_nonneg h.nonneg (mul_self_nonneg D)
  have j : D * D * (2.001 * u) + D * D * (2.001 * u) = 4.002 * (u * (D * D)) := by ring
  have j' : 4.1 * u * (D * D) = 4.1 * (u * (D * D)) := by ring
  rw [j, j']
  linarith

end LU

section
variable {rnd : ℝ → ℝ} {u : ℝ}

/-- **C150.** In rounded arithmetic, with LAPACK's elimination, a point returned by `line_intersect` lies on both lines up to the roundings,
whatever the angle between them: its distance from either line, times the distance of the two points the line is given by, is at most
`17·u·D·(X + M)`. -/
theorem C150_lines (h : Rounding rnd u) (hu : u ≤ 1 / 1000) {p0 q0 p1 q1 x : V2 (Rd rnd)} {D M X : ℝ}
    (m0 : Size2 M (pt p0)) (m1 : Size2 M (pt p1)) (d0 : Size2 D (pt q0 - pt p0)) (d1 : Size2 D (pt q1 - pt p1)) (hX : Size2 X (pt x))
    (hx : lineSolve p0 q0 p1 q1 = .ok x) :
    |turn2 (pt p0) (pt q0) (pt x)| ≤ 17 * u * D * (X + M) ∧ |turn2 (pt p1) (pt q1) (pt x)| ≤ 17 * u * D * (X + M) := by
  obtain ⟨a1, a2⟩ := d0
  obtain ⟨b1, b2⟩ := d1
  have hD : 0 ≤ D := le_trans (abs_nonneg _) a1
  have hXX : 0 ≤ X := le_trans (abs_nonneg _) hX.1
  have hM : 0 ≤ M := le_trans (abs_nonneg _) m0.1
  have uDX : 0 ≤ u * (D * X) := mul_nonneg h.nonneg (mul_nonneg hD hXX)
  have uMD : 0 ≤ u * (M * D) := mul_nonneg h.nonneg (mul_nonneg hM hD)
  obtain ⟨g0, g1⟩ := gesv2_ok h hu (E := 1.001 * D) (R := 2.01 * (M * D)) (X := X)
    (by rw [Rd.val_neg, abs_neg]; exact diff_le h hu a2) (diff_le h hu a1)
    (by rw [Rd.val_neg, abs_neg]; exact diff_le h hu b2) (diff_le h hu b1) (rhs_le h hu m0 a1 a2) (rhs_le h hu m1 b1 b2) hX.1 hX.2 hx
  have r0 := row_line h hu m0 a1 a2 hX
  have r1 := row_line h hu m1 b1 b2 hX
  have j1 : 14 * u * (1.001 * D * X) + 2 * u * (2.01 * (M * D)) = 14.014 * (u * (D * X)) + 4.02 * (u * (M * D)) := by ring
  have j2 : 2 * u * (D * X) + 6.02 * u * (M * D) = 2 * (u * (D * X)) + 6.02 * (u * (M * D)) := by ring
  have j3 : 17 * u * D * (X + M) = 17 * (u * (D * X)) + 17 * (u * (M * D)) := by ring
  rw [j1] at g0 g1
  rw [j2] at r0 r1
  rw [j3]
  constructor
  · have := abs_sub_abs_le_abs_sub (turn2 (pt p0) (pt q0) (pt x)) ((-(q0.2 - p0.2)).val * x.1.val + (q0.1 - p0.1).val * x.2.val - (rhs p0 q0).val)
    linarith
  · have := abs_sub_abs_le_abs_sub (turn2 (pt p1) (pt q1) (pt x)) ((-(q1.2 - p1.2)).val * x.1.val + (q1.1 - p1.1).val * x.2.val - (rhs p1 q1).val)
    linarith

/-- **C150.** An error is `LinAlgError`, and then the lines are nearly parallel. -/
theorem C150_error (h : Rounding rnd u) (hu : u ≤ 1 / 1000) {p0 q0 p1 q1 : V2 (Rd rnd)} {D : ℝ} {e : PyErr}
    (d0 : Size2 D (pt q0 - pt p0)) (d1 : Size2 D (pt q1 - pt p1)) (he : lineSolve p0 q0 p1 q1 = .error e) :
    e = .LinAlgError ∧ |steer (pt p0) (pt q0) (pt p1) (pt q1)| ≤ 8 * u * (D * D) := by
  obtain ⟨a1, a2⟩ := d0
  obtain ⟨b1, b2⟩ := d1
  have uDD : 0 ≤ u * (D * D) := mul_nonneg h.nonneg (mul_self_nonneg D)
  obtain ⟨g, g'⟩ := gesv2_error h hu (E := 1.001 * D)
    (by rw [Rd.val_neg, abs_neg]; exact diff_le h hu a2) (diff_le h hu a1)
    (by rw [Rd.val_neg, abs_neg]; exact diff_le h hu b2) (diff_le h hu b1) he
  refine ⟨g, ?_⟩
  have k := steer_err h hu a1 a2 b1 b2
  have j1 : 3.1 * u * (1.001 * D * (1.001 * D)) = 3.1062031 * (u * (D * D)) := by ring
  have j2 : 4.1 * u * (D * D) = 4.1 * (u * (D * D)) := by ring
  have j3 : 8 * u * (D * D) = 8 * (u * (D * D)) := by ring
  rw [j2] at k
  rw [j3]
  have g2 : |(-(q0.2 - p0.2)).val * (q1.1 - p1.1).val - (q0.1 - p0.1).val * (-(q1.2 - p1.2)).val| ≤ 3.1062031 * (u * (D * D)) := by
    rcases g' with ⟨z1, z2⟩ | g'
    · rw [z1, z2, zero_mul, mul_zero, sub_zero, abs_zero]; linarith
    · rwa [j1] at g'
  have := abs_sub_abs_le_abs_sub (steer (pt p0) (pt q0) (pt p1) (pt q1))
    ((-(q0.2 - p0.2)).val * (q1.1 - p1.1).val - (q0.1 - p0.1).val * (-(q1.2 - p1.2)).val)
  linarith

/-- **C150.** If the lines are not nearly parallel, `line_intersect` returns a point close to the one they have in common. -/
theorem C150_close (h : Rounding rnd u) (hu : u ≤ 1 / 1000) {p0 q0 p1 q1 : V2 (Rd rnd)} {D M N : ℝ} {P : ℝ × ℝ}
    (m0 : Size2 M (pt p0)) (m1 : Size2 M (pt p1)) (d0 : Size2 D (pt q0 - pt p0)) (d1 : Size2 D (pt q1 - pt p1)) (hN : Size2 N P)
    (on0 : turn2 (pt p0) (pt q0) P = 0) (on1 : turn2 (pt p1) (pt q1) P = 0)
    (hne : steer (pt p0) (pt q0) (pt p1) (pt q1) ≠ 0) (hbig : 70 * u * D ^ 2 ≤ |steer (pt p0) (pt q0) (pt p1) (pt q1)|) :
    ∃ x, lineSolve p0 q0 p1 q1 = .ok x ∧ lineIntersectLu p0 q0 p1 q1 = .ok x ∧
      Size2 (70 * u * D ^ 2 * (M + N) / |steer (pt p0) (pt q0) (pt p1) (pt q1)|) (pt x - P) := by
  have hpos := abs_pos.mpr hne
  have uDD : 0 ≤ u * D ^ 2 := mul_nonneg h.nonneg (sq_nonneg D)
  cases hs : lineSolve p0 q0 p1 q1 with
  | error e =>
    have := (C150_error h hu d0 d1 hs).2
    have j1 : 8 * u * (D * D) = 8 * (u * D ^ 2) := by ring
    have j2 : 70 * u * D ^ 2 = 70 * (u * D ^ 2) := by ring
    rw [j1] at this
    rw [j2] at hbig
    linarith
  | ok x =>
    refine ⟨x, rfl, by rw [lineIntersectLu, hs], ?_⟩
    set Δ := steer (pt p0) (pt q0) (pt p1) (pt q1) with hΔ
    set e : ℝ × ℝ := pt x - P with he
    set m := max |e.1| |e.2| with hm
    have hm0 : 0 ≤ m := le_trans (abs_nonneg _) (le_max_left _ _)
    have hD : 0 ≤ D := le_trans (abs_nonneg _) d0.1
    have hM : 0 ≤ M := le_trans (abs_nonneg _) m0.1
    have hNN : 0 ≤ N := le_trans (abs_nonneg _) hN.1
    have hX : Size2 (N + m) (pt x) := by
      constructor
      · have e1 : (pt x).1 = P.1 + e.1 := by rw [he]; simp
        rw [e1]
        exact (abs_add_le _ _).trans (add_le_add hN.1 (le_max_left _ _))
      · have e1 : (pt x).2 = P.2 + e.2 := by rw [he]; simp
        rw [e1]
        exact (abs_add_le _ _).trans (add_le_add hN.2 (le_max_right _ _))
    obtain ⟨k0, k1⟩ := C150_lines h hu m0 m1 d0 d1 hX hs
    have c1 : e.1 * Δ = (pt q1 - pt p1).1 * turn2 (pt p0) (pt q0) (pt x) - (pt q0 - pt p0).1 * turn2 (pt p1) (pt q1) (pt x) := by
      rw [hΔ, he]
      unfold turn2 at on0 on1 ⊢
      unfold steer
      simp only [Prod.fst_sub]
      linear_combination -((pt q1).1 - (pt p1).1) * on0 + ((pt q0).1 - (pt p0).1) * on1
    have c2 : e.2 * Δ = (pt q1 - pt p1).2 * turn2 (pt p0) (pt q0) (pt x) - (pt q0 - pt p0).2 * turn2 (pt p1) (pt q1) (pt x) := by
      rw [hΔ, he]
      unfold turn2 at on0 on1 ⊢
      unfold steer
      simp only [Prod.snd_sub]
      linear_combination -((pt q1).2 - (pt p1).2) * on0 + ((pt q0).2 - (pt p0).2) * on1
    have b1 : |e.1| * |Δ| ≤ 34 * (u * D ^ 2) * (N + m + M) := by
      rw [← abs_mul, c1]
      refine (abs_sub _ _).trans ((add_le_add (mul_le_of d1.1 k0) (mul_le_of d0.1 k1)).trans (le_of_eq ?_))
      ring
    have b2 : |e.2| * |Δ| ≤ 34 * (u * D ^ 2) * (N + m + M) := by
      rw [← abs_mul, c2]
      refine (abs_sub _ _).trans ((add_le_add (mul_le_of d1.2 k0) (mul_le_of d0.2 k1)).trans (le_of_eq ?_))
      ring
    have b : m * |Δ| ≤ 34 * (u * D ^ 2) * (N + m + M) := by
      rcases le_total |e.1| |e.2| with q | q
      · rw [hm, max_eq_right q] at *; exact b2
      · rw [hm, max_eq_left q] at *; exact b1
    have hmm : m ≤ 70 * u * D ^ 2 * (M + N) / |Δ| := by
      rw [le_div_iff₀ hpos]
      have h1 : 70 * (u * D ^ 2) * m ≤ |Δ| * m := mul_le_mul_of_nonneg_right (by linarith) hm0
      have h2 : 0 ≤ u * D ^ 2 * (M + N) := mul_nonneg uDD (by linarith)
      have j1 : 34 * (u * D ^ 2) * (N + m + M) = 34 * (u * D ^ 2 * (M + N)) + 34 * (u * D ^ 2 * m) := by ring
      have j2 : 70 * (u * D ^ 2) * m = 70 * (u * D ^ 2 * m) := by ring
      have j3 : 70 * u * D ^ 2 * (M + N) = 70 * (u * D ^ 2 * (M + N)) := by ring
      rw [j1] at b
      rw [j2, mul_comm |Δ| m] at h1
      rw [j3]
      linarith
    exact ⟨(le_max_left _ _).trans hmm, (le_max_right _ _).trans hmm⟩

/-- **C150.** The order of the two lines does not matter, digit for digit, unless their differences of `y` have the same size. -/
theorem C150_swap (h : Rounding rnd u) (p0 q0 p1 q1 : V2 (Rd rnd)) (hne : |rnd ((pt q0).2 - (pt p0).2)| ≠ |rnd ((pt q1).2 - (pt p1).2)|) :
    lineSolve p1 q1 p0 q0 = lineSolve p0 q0 p1 q1 := by
  have v : ∀ p q : V2 (Rd rnd), (npAbs (-(q.2 - p.2))).val = |rnd ((pt q).2 - (pt p).2)| := fun p q => by
    rw [npAbs_rd h, Rd.val_neg, abs_neg]; rfl
  unfold lineSolve gesv2
  dsimp only
  rcases lt_or_gt_of_ne hne with g | g
  · rw [if_neg (by rw [Rd.lt_iff, v, v]; exact not_lt.mpr g.le), if_pos (by rw [Rd.lt_iff, v, v]; exact g)]
  · rw [if_pos (by rw [Rd.lt_iff, v, v]; exact g), if_neg (by rw [Rd.lt_iff, v, v]; exact not_lt.mpr g.le)]

/-- **C150.** Two horizontal lines, or two vertical ones, always give `LinAlgError`. -/
theorem C150_axis (h : Rounding rnd u) {p0 q0 p1 q1 : V2 (Rd rnd)}
    (hl : (pt q0).2 = (pt p0).2 ∧ (pt q1).2 = (pt p1).2 ∨ (pt q0).1 = (pt p0).1 ∧ (pt q1).1 = (pt p1).1) :
    lineSolve p0 q0 p1 q1 = .error .LinAlgError := by
  have z0 : (Num.lit 0 : Rd rnd).val = 0 := by rw [Rd.val_lit]; push_cast; exact zero h
  have elim : ∀ a b c d r s : Rd rnd, (a.val = 0 ∨ b.val = 0 ∧ d.val = 0) → eliminate a b c d r s = .error .LinAlgError := by
    intro a b c d r s hz
    unfold eliminate
    by_cases ha : a.val = 0
    · rw [if_pos (by rw [Rd.eq_iff, z0, ha])]
    · obtain ⟨hb, hd⟩ := hz.resolve_left ha
      rw [if_neg (by rw [Rd.eq_iff, z0]; exact ha)]
      dsimp only
      rw [if_pos (by rw [Rd.eq_iff, z0, Rd.val_sub, Rd.val_mul, hb, hd, mul_zero, zero h, sub_zero, zero h])]
  have zd : ∀ p q : Rd rnd, q.val = p.val → (q - p).val = 0 := fun p q e => by rw [Rd.val_sub, e, sub_self, zero h]
  have zn : ∀ p q : Rd rnd, q.val = p.val → (-(q - p)).val = 0 := fun p q e => by rw [Rd.val_neg, zd p q e, neg_zero]
  unfold lineSolve gesv2
  dsimp only
  rcases hl with ⟨h0, h1⟩ | ⟨h0, h1⟩
  · split
    · exact elim _ _ _ _ _ _ (Or.inl (zn _ _ h1))
    · exact elim _ _ _ _ _ _ (Or.inl (zn _ _ h0))
  · split
    · exact elim _ _ _ _ _ _ (Or.inr ⟨zd _ _ h1, zd _ _ h0⟩)
    · exact elim _ _ _ _ _ _ (Or.inr ⟨zd _ _ h0, zd _ _ h1⟩)

namespace LU

/-- elimination with integers and a power of two as the pivot does not round until the pivots are known -/
theorem eliminate_int (h : Rounding rnd u) {a b c d r s : Rd rnd} {σ b' c' d' : ℤ} {k : ℕ} (hσ : σ = 1 ∨ σ = -1)
    (ha : a.val = σ * 2 ^ k) (hb : b.val = b') (hc : c.val = c') (hd : d.val = d')
    (sk : (2 : ℤ) ^ k ≤ 2 ^ 25) (sb : |b'| ≤ 2 ^ 25) (sc : |c'| ≤ 2 ^ 25) (sd : |d'| ≤ 2 ^ 25) :
    (eliminate a b c d r s = .error .LinAlgError ↔ a.val * d.val - b.val * c.val = 0) := by
  have z0 : (Num.lit 0 : Rd rnd).val = 0 := by rw [Rd.val_lit]; push_cast; exact zero h
  have hσ0 : (σ : ℝ) * σ = 1 := by rcases hσ with e | e <;> rw [e] <;> norm_num
  have hσa : |σ| = 1 := by rcases hσ with e | e <;> rw [e] <;> norm_num
  have hk : (2 : ℝ) ^ k ≠ 0 := by positivity
  have ha0 : a.val ≠ 0 := by
    rw [ha]
    refine mul_ne_zero (fun e => ?_) hk
    rw [e] at hσ0
    norm_num at hσ0
  have hinv : 1 / a.val = σ * (2 : ℝ) ^ (-(k : ℤ)) := by
    rw [ha, zpow_neg, zpow_natCast, div_eq_iff (ha ▸ ha0)]
    field_simp
    linear_combination -hσ0
  have hl : (if Num.lt (npAbs a) sfmin = true then c / a else c * (Num.lit 1 / a)).val = (c' * σ : ℤ) * (2 : ℝ) ^ (-(k : ℤ)) := by
    have g : rnd ((c' * σ : ℤ) * (2 : ℝ) ^ (-(k : ℤ))) = (c' * σ : ℤ) * (2 : ℝ) ^ (-(k : ℤ)) :=
      h.grid _ _ (by rw [abs_mul, hσa, mul_one]; linarith)
    split
    · rw [Rd.val_div, hc, div_eq_mul_one_div, hinv, ← g]
      congr 1
      push_cast
      ring
    · rw [Rd.val_mul, Rd.val_div, Rd.val_lit]
      push_cast
      rw [one h, hinv, h.grid σ _ (by rw [hσa]; norm_num), hc]
      push_cast at g
      rw [← g]
      congr 1
      ring
  unfold eliminate
  rw [if_neg (by rw [Rd.eq_iff, z0]; exact ha0)]
  dsimp only
  set l := (if Num.lt (npAbs a) sfmin = true then c / a else c * (Num.lit 1 / a)) with hldef
  have sbc : |c' * σ * b'| ≤ 2 ^ 50 := by
    rw [abs_mul, abs_mul, hσa, mul_one]
    calc |c'| * |b'| ≤ 2 ^ 25 * 2 ^ 25 := mul_le_mul sc sb (abs_nonneg _) (by norm_num)
      _ = 2 ^ 50 := by norm_num
  have sdk : |d' * 2 ^ k| ≤ 2 ^ 50 := by
    rw [abs_mul, abs_of_pos (by positivity : (0 : ℤ) < 2 ^ k)]
    calc |d'| * 2 ^ k ≤ 2 ^ 25 * 2 ^ 25 := mul_le_mul sd sk (by positivity) (by norm_num)
      _ = 2 ^ 50 := by norm_num
  have e1 : (l * b).val = (c' * σ * b' : ℤ) * (2 : ℝ) ^ (-(k : ℤ)) := by
    rw [Rd.val_mul, hl, hb]
    have g := h.grid (c' * σ * b') (-(k : ℤ)) (by linarith)
    rw [← g]
    congr 1
    push_cast
    ring
  have e2 : (d - l * b).val = (d' * 2 ^ k - c' * σ * b' : ℤ) * (2 : ℝ) ^ (-(k : ℤ)) := by
    rw [Rd.val_sub, e1, hd]
    have g := h.grid (d' * 2 ^ k - c' * σ * b') (-(k : ℤ)) (by have := abs_sub (d' * 2 ^ k) (c' * σ * b'); linarith)
    rw [← g]
    congr 1
    rw [zpow_neg, zpow_natCast]
    push_cast
    field_simp
  have hz : (2 : ℝ) ^ (-(k : ℤ)) ≠ 0 := by positivity
  have fin : a.val * d.val - b.val * c.val = σ * ((d' * 2 ^ k - c' * σ * b' : ℤ) : ℝ) := by
    rw [ha, hb, hc, hd]
    push_cast
    linear_combination (c' : ℝ) * b' * hσ0
  have hσne : (σ : ℝ) ≠ 0 := fun e => by rw [e] at hσ0; norm_num at hσ0
  by_cases hU : (d - l * b).val = 0
  · rw [if_pos (by rw [Rd.eq_iff, z0]; exact hU)]
    refine iff_of_true rfl ?_
    rw [e2] at hU
    rw [fin, (mul_eq_zero.mp hU).resolve_right hz, mul_zero]
  · rw [if_neg (by rw [Rd.eq_iff, z0]; exact hU)]
    refine iff_of_false (fun e => by cases e) fun e => hU ?_
    rw [fin] at e
    rw [e2, (mul_eq_zero.mp e).resolve_left hσne, zero_mul]

end LU

/-- **C150.** With integer coordinates of up to 24 bits, if the larger of the two differences of `y` is a power of two, parallel lines are told
from others exactly. -/
theorem C150_integer (h : Rounding rnd u) {p0 q0 p1 q1 : V2 (Rd rnd)} {x0 y0 x1 y1 : ℤ} {k : ℕ}
    (hx0 : (pt q0).1 - (pt p0).1 = x0) (hy0 : (pt q0).2 - (pt p0).2 = y0) (hx1 : (pt q1).1 - (pt p1).1 = x1) (hy1 : (pt q1).2 - (pt p1).2 = y1)
    (sx0 : |x0| ≤ 2 ^ 25) (sx1 : |x1| ≤ 2 ^ 25) (sk : (2 : ℤ) ^ k ≤ 2 ^ 25) (hk : max |y0| |y1| = 2 ^ k) :
    (lineSolve p0 q0 p1 q1 = .error .LinAlgError ↔ steer (pt p0) (pt q0) (pt p1) (pt q1) = 0) := by
  have int : ∀ i : ℤ, |i| ≤ 2 ^ 25 → rnd i = i := fun i hi => by simpa using h.grid i 0 (by linarith)
  have sy0 : |y0| ≤ 2 ^ 25 := (le_max_left _ _).trans (hk.le.trans sk)
  have sy1 : |y1| ≤ 2 ^ 25 := (le_max_right _ _).trans (hk.le.trans sk)
  have vx0 : (q0.1 - p0.1).val = x0 := by rw [Rd.val_sub]; exact (congrArg rnd hx0).trans (int _ sx0)
  have vx1 : (q1.1 - p1.1).val = x1 := by rw [Rd.val_sub]; exact (congrArg rnd hx1).trans (int _ sx1)
  have vy0 : (-(q0.2 - p0.2)).val = (-y0 : ℤ) := by
    rw [Rd.val_neg, Rd.val_sub]; push_cast; rw [neg_inj]; exact (congrArg rnd hy0).trans (int _ sy0)
  have vy1 : (-(q1.2 - p1.2)).val = (-y1 : ℤ) := by
    rw [Rd.val_neg, Rd.val_sub]; push_cast; rw [neg_inj]; exact (congrArg rnd hy1).trans (int _ sy1)
  have st : steer (pt p0) (pt q0) (pt p1) (pt q1) = x0 * y1 - y0 * x1 := by
    unfold steer; rw [hx0, hy0, hx1, hy1]
  have sgn : ∀ y : ℤ, |y| = 2 ^ k → ∃ σ : ℤ, (σ = 1 ∨ σ = -1) ∧ ((-y : ℤ) : ℝ) = σ * 2 ^ k := by
    intro y hy
    rcases abs_choice y with e | e
    · rw [e] at hy
      exact ⟨-1, Or.inr rfl, by rw [hy]; push_cast; ring⟩
    · rw [e] at hy
      exact ⟨1, Or.inl rfl, by rw [hy]; push_cast; ring⟩
  have big : (Num.lt (npAbs (-(q0.2 - p0.2))) (npAbs (-(q1.2 - p1.2))) = true) ↔ |y0| < |y1| := by
    rw [Rd.lt_iff, npAbs_rd h, npAbs_rd h, vy0, vy1]
    push_cast
    rw [abs_neg, abs_neg]
    exact_mod_cast Iff.rfl
  unfold lineSolve gesv2
  dsimp only
  rw [st]
  by_cases hb : |y0| < |y1|
  · rw [if_pos (big.mpr hb)]
    rw [max_eq_right hb.le] at hk
    obtain ⟨σ, hσ, e⟩ := sgn y1 hk
    rw [eliminate_int h hσ (vy1.trans e) vx1 vy0 vx0 sk sx1 (by rwa [abs_neg]) sx0, vy1, vx1, vy0, vx0]
    push_cast
    constructor <;> intro g <;> linear_combination -g
  · rw [if_neg fun g => hb (big.mp g)]
    rw [max_eq_left (not_lt.mp hb)] at hk
    obtain ⟨σ, hσ, e⟩ := sgn y0 hk
    rw [eliminate_int h hσ (vy0.trans e) vx0 vy1 vx1 sk sx0 (by rwa [abs_neg]) sx1, vy1, vx1, vy0, vx0]
    push_cast
    constructor <;> intro g <;> linear_combination g

end

/-- **C150.** Otherwise parallel lines may be missed: in IEEE doubles the diagonal through `(0, 0)` and `(1, 1)` and the line through `(0, 1)` and
`(49, 50)`, and two opposite sides of the parallelogram `(0, 0)`, `(1, 49)`, `(2, 49)`, `(1, 0)`, get a point in common, where C42 has NaN. -/
theorem C150_missed :
    lineIntersectLu ((.zero false, .zero false) : V2 F64) (.num 1, .num 1) (.zero false, .num 1) (.num 49, .num 50) =
      .ok (.num (-9007199254740992), .num (-9007199254740991)) ∧
    lineIntersectLu ((.zero false, .zero false) : V2 F64) (.num 1, .num 49) (.num 1, .zero false) (.num 2, .num 49) =
      .ok (.num (-9007199254740992), .num (-441352763482308608)) ∧
    Dependent2 (0, 0) (1, 1) (0, 1) (49, 50) ∧ Dependent2 (0, 0) (1, 49) (1, 0) (2, 49) := by
  refine ⟨?_, ?_, ⟨49, -1, by norm_num, by norm_num, by norm_num⟩, ⟨1, -1, by norm_num, by norm_num, by norm_num⟩⟩
  · decide +kernel
  · decide +kernel

namespace LU

/-- a point with integer coordinates -/
noncomputable def at2 (i j : ℤ) : V2 (Rd rnd53) := (⟨i⟩, ⟨j⟩)

end LU

/-- Two lines that meet in `(15/7, 5/7)`: `C150_close` applies, so does `C150_lines`, and in IEEE doubles this is the point; two parallel lines with
a difference of `y` that is a power of two, for `C150_integer` and `C150_error`. -/
theorem C150_witness :
    (∃ x, lineSolve (at2 0 0) (at2 3 1) (at2 0 5) (at2 1 3) = .ok x ∧ Size2 1 (pt x - (15 / 7, 5 / 7)) ∧ Size2 4 (pt x) ∧
      |turn2 (pt (at2 0 0)) (pt (at2 3 1)) (pt x)| ≤ 17 * (1 / 2 ^ 53) * 3 * (4 + 5)) ∧
    lineIntersectLu ((.zero false, .zero false) : V2 F64) (.num 3, .num 1) (.zero false, .num 5) (.num 1, .num 3) =
      .ok (.num (4825285315039817 / 2251799813685248), .num (6433713753386423 / 9007199254740992)) ∧
    lineSolve (at2 0 0) (at2 3 8) (at2 1 0) (at2 4 8) = .error .LinAlgError ∧
    lineSolve (at2 0 0) (at2 3 0) (at2 1 1) (at2 4 1) = .error .LinAlgError ∧
    lineIntersectLu ((.zero false, .zero false) : V2 F64) (.num 3, .num 8) (.num 1, .zero false) (.num 4, .num 8) = .ok (.nan, .nan) := by
  have hu : (1 : ℝ) / 2 ^ 53 ≤ 1 / 1000 := by norm_num
  have m0 : Size2 5 (pt (at2 0 0)) := by constructor <;> simp [pt, at2]
  have m1 : Size2 5 (pt (at2 0 5)) := by constructor <;> simp [pt, at2]
  have d0 : Size2 3 (pt (at2 3 1) - pt (at2 0 0)) := by constructor <;> simp [pt, at2]
  have d1 : Size2 3 (pt (at2 1 3) - pt (at2 0 5)) := by constructor <;> simp [pt, at2] <;> norm_num [abs_le]
  have st : steer (pt (at2 0 0)) (pt (at2 3 1)) (pt (at2 0 5)) (pt (at2 1 3)) = -7 := by simp [steer, pt, at2]; norm_num
  refine ⟨?_, by decide +kernel, ?_, ?_, by decide +kernel⟩
  · obtain ⟨x, hx, -, hc⟩ := C150_close (P := (15 / 7, 5 / 7)) (N := 3) rounding_rnd53 hu m0 m1 d0 d1 (by constructor <;> norm_num [abs_le])
      (by simp [turn2, pt, at2]; norm_num) (by simp [turn2, pt, at2]; norm_num) (by rw [st]; norm_num) (by rw [st]; norm_num)
    rw [st] at hc
    have hc1 : Size2 1 (pt x - (15 / 7, 5 / 7)) := ⟨hc.1.trans (by norm_num), hc.2.trans (by norm_num)⟩
    have hX : Size2 4 (pt x) := by
      obtain ⟨h1, h2⟩ := hc1
      rw [abs_le] at h1 h2
      simp only [Prod.fst_sub, Prod.snd_sub] at h1 h2
      constructor <;> rw [abs_le] <;> constructor <;> linarith
    exact ⟨x, hx, hc1, hX, (C150_lines rounding_rnd53 hu m0 m1 d0 d1 hX hx).1⟩
  · refine (C150_integer (x0 := 3) (y0 := 8) (x1 := 3) (y1 := 8) (k := 3) rounding_rnd53 ?_ ?_ ?_ ?_ ?_ ?_ ?_ ?_).mpr ?_
    · simp [pt, at2]
    · simp [pt, at2]
    · simp [pt, at2]; norm_num
    · simp [pt, at2]
    · norm_num
    · norm_num
    · norm_num
    · norm_num
    · simp [steer, pt, at2]; norm_num
  · exact C150_axis rounding_rnd53 (Or.inl ⟨by simp [pt, at2], by simp [pt, at2]⟩)

/-- Two lines with different differences of `y`, for `C150_swap`. -/
theorem C150_swap_witness :
    lineSolve (at2 0 5) (at2 1 3) (at2 0 0) (at2 3 1) = lineSolve (at2 0 0) (at2 3 1) (at2 0 5) (at2 1 3) := by
  refine C150_swap rounding_rnd53 _ _ _ _ ?_
  have e1 : (pt (at2 3 1)).2 - (pt (at2 0 0)).2 = ((1 : ℤ) : ℝ) * 2 ^ (0 : ℤ) := by simp [pt, at2]
  have e2 : (pt (at2 1 3)).2 - (pt (at2 0 5)).2 = ((-2 : ℤ) : ℝ) * 2 ^ (0 : ℤ) := by simp [pt, at2]; norm_num
  rw [e1, e2, rounding_rnd53.grid 1 0 (by norm_num), rounding_rnd53.grid (-2) 0 (by norm_num)]
  norm_num

end Blmath.Props
