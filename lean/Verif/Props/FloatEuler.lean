import Verif.Props.FloatUpLook
import Verif.Props.FloatNormals
import Verif.Props.Rotation
import Verif.Proofs.Appr
import Mathlib.Analysis.Real.Pi.Irrational

/-!
Property C119: Euler angles and centring in rounded arithmetic.
-/

namespace Blmath.Props
open Blmath.Spec Blmath.Geometry Blmath.Proofs
variable {rnd : ℝ → ℝ} {u : ℝ}

namespace FE

/-- a column of a computed matrix -/
def col (m : Mat 3 3 (Rd rnd)) (j : Fin 3) : V3 ℝ := ⟨(m 0 j).val, (m 1 j).val, (m 2 j).val⟩

/-- the axes of the coordinate system -/
def axis (j : Fin 3) : V3 ℝ := ⟨if j = 0 then 1 else 0, if j = 1 then 1 else 0, if j = 2 then 1 else 0⟩

/-- one of the three letters of axes -/
def known (a : Char) : Bool := a = 'x' || a = 'y' || a = 'z'

/-- the angles a call is given, in degrees or in radians, as real numbers with their axes -/
noncomputable def angles (xyz : List (Rd rnd)) (order : List Char) (units : String) : List (ℝ × Char) :=
  eulerPairs (xyz.map Rd.val) order units

theorem row (h : Rounding rnd u) (hu : 5 * u < 1) {m0 m1 m2 M0 M1 M2 s0 s1 s2 : ℝ} (x0 x1 x2 : ℝ) (n0 : Near u 1 s0) (n1 : Near u 1 s1)
    (n2 : Near u 1 s2) (e0 : m0 = M0 * s0) (e1 : m1 = M1 * s1) (e2 : m2 = M2 * s2) :
    |rnd (rnd (m0 * x0) + rnd (rnd (m1 * x1) + rnd (rnd (m2 * x2) + 0))) - (M0 * x0 + M1 * x1 + M2 * x2)| ≤
      gam u 5 * (|M0 * x0| + |M1 * x1| + |M2 * x2|) := by
  have l := h.lt_one
  have a0 : Appr u 2 (M0 * x0) |M0 * x0| (rnd (m0 * x0)) := by
    have := (Appr.single (M0 * x0) n0).round h
    rwa [show M0 * x0 * s0 = m0 * x0 by rw [e0]; ring] at this
  have a1 : Appr u 2 (M1 * x1) |M1 * x1| (rnd (m1 * x1)) := by
    have := (Appr.single (M1 * x1) n1).round h
    rwa [show M1 * x1 * s1 = m1 * x1 by rw [e1]; ring] at this
  have a2 : Appr u 2 (M2 * x2) |M2 * x2| (rnd (m2 * x2)) := by
    have := (Appr.single (M2 * x2) n2).round h
    rwa [show M2 * x2 * s2 = m2 * x2 by rw [e2]; ring] at this
  have b2 : Appr u 3 (M2 * x2) |M2 * x2| (rnd (rnd (m2 * x2) + 0)) := by
    rw [add_zero]; exact a2.round h
  have b1 := ((a1.mono h.nonneg l (by norm_num : 2 ≤ 3)).add b2).round h
  have b0 := ((a0.mono h.nonneg l (by norm_num : 2 ≤ 4)).add b1).round h
  have := b0.bound h.nonneg l (by push_cast; linarith)
  convert this using 2 <;> ring_nf

theorem near_size {g p q r c s a b d : ℝ} (hg : 0 ≤ g) (hp : 0 ≤ p) (hq : 0 ≤ q) (hr : 0 ≤ r) (hc : 0 ≤ c) (hs : 0 ≤ s) (hcs : c ^ 2 + s ^ 2 = 1)
    (ha : |a| ≤ g * p) (hb : |b| ≤ g * (c * q + s * r)) (hd : |d| ≤ g * (s * q + c * r)) :
    a ^ 2 + b ^ 2 + d ^ 2 ≤ (3 / 2 * g) ^ 2 * (p ^ 2 + q ^ 2 + r ^ 2) := by
  have ea : a ^ 2 ≤ g ^ 2 * p ^ 2 := by rw [← mul_pow, ← sq_abs a]; exact pow_le_pow_left₀ (abs_nonneg _) ha 2
  have eb : b ^ 2 ≤ g ^ 2 * (c * q + s * r) ^ 2 := by rw [← mul_pow, ← sq_abs b]; exact pow_le_pow_left₀ (abs_nonneg _) hb 2
  have ed : d ^ 2 ≤ g ^ 2 * (s * q + c * r) ^ 2 := by rw [← mul_pow, ← sq_abs d]; exact pow_le_pow_left₀ (abs_nonneg _) hd 2
  have f : (c * q + s * r) ^ 2 + (s * q + c * r) ^ 2 ≤ 2 * (q ^ 2 + r ^ 2) := by
    have i1 : (c * q + s * r) ^ 2 = (c ^ 2 + s ^ 2) * (q ^ 2 + r ^ 2) - (c * r - s * q) ^ 2 := by ring
    have i2 : (s * q + c * r) ^ 2 = (c ^ 2 + s ^ 2) * (q ^ 2 + r ^ 2) - (c * q - s * r) ^ 2 := by ring
    rw [i1, i2, hcs]
    linarith [sq_nonneg (c * r - s * q), sq_nonneg (c * q - s * r)]
  have f' := mul_le_mul_of_nonneg_left f (sq_nonneg g)
  have k : 0 ≤ g ^ 2 * (p ^ 2 + q ^ 2 + r ^ 2) := by positivity
  have k' : 0 ≤ g ^ 2 * p ^ 2 := by positivity
  have k'' : 0 ≤ g ^ 2 * (q ^ 2 + r ^ 2) := by positivity
  calc a ^ 2 + b ^ 2 + d ^ 2 ≤ g ^ 2 * p ^ 2 + g ^ 2 * (2 * (q ^ 2 + r ^ 2)) := by linarith
    _ ≤ (3 / 2 * g) ^ 2 * (p ^ 2 + q ^ 2 + r ^ 2) := by
      have : (3 / 2 * g) ^ 2 * (p ^ 2 + q ^ 2 + r ^ 2) = 9 / 4 * (g ^ 2 * p ^ 2) + 9 / 4 * (g ^ 2 * (q ^ 2 + r ^ 2)) := by ring
      rw [this]; linarith

theorem mul_entry (a b : Mat 3 3 (Rd rnd)) (i j : Fin 3) :
    (Mat.mul a b i j) = a i 0 * b 0 j + (a i 1 * b 1 j + (a i 2 * b 2 j + Num.lit 0)) := rfl

theorem lit0 (h : Rounding rnd u) : (Num.lit 0 : Rd rnd).val = 0 := by rw [Rd.val_lit]; push_cast; exact h.zero
theorem lit1 (h : Rounding rnd u) : (Num.lit 1 : Rd rnd).val = 1 := by rw [Rd.val_lit]; push_cast; exact h.one

theorem dist_le {a b : V3 ℝ} {k : ℝ} (hk : 0 ≤ k) (h : (b.x - a.x) ^ 2 + (b.y - a.y) ^ 2 + (b.z - a.z) ^ 2 ≤ k ^ 2) : dist3 a b ≤ k := by
  unfold dist3
  rw [← Real.sqrt_sq hk]
  exact Real.sqrt_le_sqrt h

/-- one turn by the angle as the computer has it -/
theorem step_err (h : Rounding rnd u) (hu : 5 * u < 1) (r : Mat 3 3 (Rd rnd)) (ta : Rd rnd × Char) (j : Fin 3) :
    dist3 (turn ta.2 ta.1.val (col r j)) (col (eulerStep r ta) j) ≤ 3 / 2 * gam u 5 * len3 (col r j) := by
  obtain ⟨t, a⟩ := ta
  have hg := gam_nonneg (k := 5) h.nonneg (by push_cast; linarith)
  have hk : 0 ≤ 3 / 2 * gam u 5 * len3 (col r j) := mul_nonneg (by linarith) (len3_nonneg _)
  obtain ⟨dc, nc, ec⟩ := h.factor (Real.cos t.val)
  obtain ⟨ds, ns, es⟩ := h.factor (Real.sin t.val)
  have hc : (Trig.cos t : Rd rnd).val = Real.cos t.val * dc := ec
  have hs : (Trig.sin t : Rd rnd).val = Real.sin t.val * ds := es
  have hs' : (-(Trig.sin t : Rd rnd)).val = -Real.sin t.val * ds := by rw [Rd.val_neg, hs]; ring
  have n1 : Near u 1 (1 : ℝ) := near_one h 1
  have z : (Num.lit 0 : Rd rnd).val = 0 * 1 := by rw [lit0 h]; ring
  have o : (Num.lit 1 : Rd rnd).val = 1 * 1 := by rw [lit1 h]; ring
  have hcs : |Real.cos t.val| ^ 2 + |Real.sin t.val| ^ 2 = 1 := by rw [sq_abs, sq_abs]; exact Real.cos_sq_add_sin_sq _
  have entry : ∀ (A : Mat 3 3 (Rd rnd)) (i : Fin 3), (Mat.mul A r i j).val =
      rnd (rnd ((A i 0).val * (r 0 j).val) + rnd (rnd ((A i 1).val * (r 1 j).val) + rnd (rnd ((A i 2).val * (r 2 j).val) + 0))) := by
    intro A i
    rw [mul_entry]
    simp only [Rd.val_add, Rd.val_mul, lit0 h]
  have fin : ∀ {v w : V3 ℝ}, (w.x - v.x) ^ 2 + (w.y - v.y) ^ 2 + (w.z - v.z) ^ 2 ≤
      (3 / 2 * gam u 5) ^ 2 * ((r 0 j).val ^ 2 + (r 1 j).val ^ 2 + (r 2 j).val ^ 2) → dist3 v w ≤ 3 / 2 * gam u 5 * len3 (col r j) := by
    intro v w hvw
    refine dist_le hk (hvw.trans (le_of_eq ?_))
    rw [mul_pow (3 / 2 * gam u 5) (len3 (col r j)), len3_sq]; rfl
  by_cases hx : a = 'x'
  · subst hx
    obtain ⟨A, hA⟩ : ∃ A : Mat 3 3 (Rd rnd), A = !![Num.lit 1, Num.lit 0, Num.lit 0; Num.lit 0, Trig.cos t, -Trig.sin t;
      Num.lit 0, Trig.sin t, Trig.cos t] := ⟨_, rfl⟩
    have b0 := row h hu (r 0 j).val (r 1 j).val (r 2 j).val n1 n1 n1 (show (A 0 0).val = _ by rw [hA]; exact o)
      (show (A 0 1).val = _ by rw [hA]; exact z) (show (A 0 2).val = _ by rw [hA]; exact z)
    have b1 := row h hu (r 0 j).val (r 1 j).val (r 2 j).val n1 nc ns (show (A 1 0).val = _ by rw [hA]; exact z)
      (show (A 1 1).val = _ by rw [hA]; exact hc) (show (A 1 2).val = _ by rw [hA]; exact hs')
    have b2 := row h hu (r 0 j).val (r 1 j).val (r 2 j).val n1 ns nc (show (A 2 0).val = _ by rw [hA]; exact z)
      (show (A 2 1).val = _ by rw [hA]; exact hs) (show (A 2 2).val = _ by rw [hA]; exact hc)
    rw [← entry] at b0 b1 b2
    simp only [zero_mul, one_mul, abs_zero, add_zero, zero_add, abs_mul, abs_neg] at b0 b1 b2
    have := near_size hg (abs_nonneg _) (abs_nonneg _) (abs_nonneg _) (abs_nonneg _) (abs_nonneg _) hcs b0 b1 b2
    simp only [sq_abs] at this
    apply fin
    simp only [eulerStep, turn, if_true, show ('x' : Char) ≠ 'y' by decide, show ('x' : Char) ≠ 'z' by decide, if_false, turnX, col, ← hA]
    refine le_of_eq_of_le ?_ this
    ring
  by_cases hy : a = 'y'
  · subst hy
    obtain ⟨A, hA⟩ : ∃ A : Mat 3 3 (Rd rnd), A = !![Trig.cos t, Num.lit 0, Trig.sin t; Num.lit 0, Num.lit 1, Num.lit 0;
      -Trig.sin t, Num.lit 0, Trig.cos t] := ⟨_, rfl⟩
    have b0 := row h hu (r 0 j).val (r 1 j).val (r 2 j).val nc n1 ns (show (A 0 0).val = _ by rw [hA]; exact hc)
      (show (A 0 1).val = _ by rw [hA]; exact z) (show (A 0 2).val = _ by rw [hA]; exact hs)
    have b1 := row h hu (r 0 j).val (r 1 j).val (r 2 j).val n1 n1 n1 (show (A 1 0).val = _ by rw [hA]; exact z)
      (show (A 1 1).val = _ by rw [hA]; exact o) (show (A 1 2).val = _ by rw [hA]; exact z)
    have b2 := row h hu (r 0 j).val (r 1 j).val (r 2 j).val ns n1 nc (show (A 2 0).val = _ by rw [hA]; exact hs')
      (show (A 2 1).val = _ by rw [hA]; exact z) (show (A 2 2).val = _ by rw [hA]; exact hc)
    rw [← entry] at b0 b1 b2
    simp only [zero_mul, one_mul, abs_zero, add_zero, zero_add, abs_mul, abs_neg] at b0 b1 b2
    have := near_size hg (abs_nonneg _) (abs_nonneg _) (abs_nonneg _) (abs_nonneg _) (abs_nonneg _) hcs b1 b0 b2
    simp only [sq_abs] at this
    apply fin
    simp only [eulerStep, turn, if_true, show ('y' : Char) ≠ 'x' by decide, show ('y' : Char) ≠ 'z' by decide, if_false, turnY, col, ← hA]
    refine le_of_eq_of_le ?_ (this.trans (le_of_eq ?_))
    · ring
    · ring
  by_cases hz : a = 'z'
  · subst hz
    obtain ⟨A, hA⟩ : ∃ A : Mat 3 3 (Rd rnd), A = !![Trig.cos t, -Trig.sin t, Num.lit 0; Trig.sin t, Trig.cos t, Num.lit 0;
      Num.lit 0, Num.lit 0, Num.lit 1] := ⟨_, rfl⟩
    have b0 := row h hu (r 0 j).val (r 1 j).val (r 2 j).val nc ns n1 (show (A 0 0).val = _ by rw [hA]; exact hc)
      (show (A 0 1).val = _ by rw [hA]; exact hs') (show (A 0 2).val = _ by rw [hA]; exact z)
    have b1 := row h hu (r 0 j).val (r 1 j).val (r 2 j).val ns nc n1 (show (A 1 0).val = _ by rw [hA]; exact hs)
      (show (A 1 1).val = _ by rw [hA]; exact hc) (show (A 1 2).val = _ by rw [hA]; exact z)
    have b2 := row h hu (r 0 j).val (r 1 j).val (r 2 j).val n1 n1 n1 (show (A 2 0).val = _ by rw [hA]; exact z)
      (show (A 2 1).val = _ by rw [hA]; exact z) (show (A 2 2).val = _ by rw [hA]; exact o)
    rw [← entry] at b0 b1 b2
    simp only [zero_mul, one_mul, abs_zero, add_zero, zero_add, abs_mul, abs_neg] at b0 b1 b2
    have := near_size hg (abs_nonneg _) (abs_nonneg _) (abs_nonneg _) (abs_nonneg _) (abs_nonneg _) hcs b2 b0 b1
    simp only [sq_abs] at this
    apply fin
    simp only [eulerStep, turn, if_true, show ('z' : Char) ≠ 'x' by decide, show ('z' : Char) ≠ 'y' by decide, if_false, turnZ, col, ← hA]
    refine le_of_eq_of_le ?_ (this.trans (le_of_eq ?_))
    · ring
    · ring
  · simp only [eulerStep, turn, if_neg hx, if_neg hy, if_neg hz]
    rw [dist3_eq_zero.mpr rfl]
    exact hk

theorem step_other (r : Mat 3 3 (Rd rnd)) (ta : Rd rnd × Char) (ha : known ta.2 = false) : eulerStep r ta = r ∧ ∀ t v, turn ta.2 t v = v := by
  simp only [known, Bool.or_eq_false_iff, decide_eq_false_iff_not] at ha
  obtain ⟨⟨hx, hy⟩, hz⟩ := ha
  refine ⟨?_, fun t v => ?_⟩
  · simp only [eulerStep, if_neg hx, if_neg hy, if_neg hz]
  · simp only [turn, if_neg hx, if_neg hy, if_neg hz]

/-- turning keeps distances -/
theorem turn_dist (a : Char) (t : ℝ) (v w : V3 ℝ) : dist3 (turn a t v) (turn a t w) = dist3 v w := by
  have hcs := Real.sin_sq_add_cos_sq t
  unfold dist3 len3
  congr 1
  unfold turn
  split_ifs <;> simp only [turnX, turnY, turnZ, vec3]
  · linear_combination ((w.y - v.y) ^ 2 + (w.z - v.z) ^ 2) * hcs
  · linear_combination ((w.x - v.x) ^ 2 + (w.z - v.z) ^ 2) * hcs
  · linear_combination ((w.x - v.x) ^ 2 + (w.y - v.y) ^ 2) * hcs

theorem turn_len (a : Char) (t : ℝ) (v : V3 ℝ) : len3 (turn a t v) = len3 v := by
  have hcs := Real.sin_sq_add_cos_sq t
  unfold len3
  congr 1
  unfold turn
  split_ifs <;> simp only [turnX, turnY, turnZ]
  · linear_combination (v.y ^ 2 + v.z ^ 2) * hcs
  · linear_combination (v.x ^ 2 + v.z ^ 2) * hcs
  · linear_combination (v.x ^ 2 + v.y ^ 2) * hcs

theorem turn_inner (a : Char) (t : ℝ) (v w : V3 ℝ) : inner3 (turn a t v) (turn a t w) = inner3 v w := by
  have hcs := Real.sin_sq_add_cos_sq t
  unfold turn inner3
  split_ifs <;> try simp only [turnX, turnY, turnZ]
  · linear_combination (v.y * w.y + v.z * w.z) * hcs
  · linear_combination (v.x * w.x + v.z * w.z) * hcs
  · linear_combination (v.x * w.x + v.y * w.y) * hcs

theorem turns_inner (l : List (ℝ × Char)) (v w : V3 ℝ) : inner3 (turns l v) (turns l w) = inner3 v w := by
  induction l generalizing v w with
  | nil => rfl
  | cons a l ih => rw [turns, turns, ih, turn_inner]

theorem turns_dist (l : List (ℝ × Char)) (v w : V3 ℝ) : dist3 (turns l v) (turns l w) = dist3 v w := by
  induction l generalizing v w with
  | nil => rfl
  | cons a l ih => rw [turns, turns, ih, turn_dist]

theorem chord (s t : ℝ) : (Real.cos t - Real.cos s) ^ 2 + (Real.sin t - Real.sin s) ^ 2 ≤ (t - s) ^ 2 := by
  have e : (Real.cos t - Real.cos s) ^ 2 + (Real.sin t - Real.sin s) ^ 2 = 2 - 2 * Real.cos (t - s) := by
    rw [Real.cos_sub]
    linear_combination Real.sin_sq_add_cos_sq t + Real.sin_sq_add_cos_sq s
  rw [e]
  linarith [Real.one_sub_sq_div_two_le_cos (x := t - s)]

/-- turning by a slightly different angle -/
theorem turn_angle (a : Char) (s t : ℝ) (v : V3 ℝ) : dist3 (turn a s v) (turn a t v) ≤ |t - s| * len3 v := by
  have hc := chord s t
  refine dist_le (mul_nonneg (abs_nonneg _) (len3_nonneg _)) ?_
  rw [mul_pow, len3_sq, sq_abs]
  have e : ∀ x y z : ℝ, ((Real.cos t - Real.cos s) ^ 2 + (Real.sin t - Real.sin s) ^ 2) * (y ^ 2 + z ^ 2) ≤ (t - s) ^ 2 * (x ^ 2 + y ^ 2 + z ^ 2) := by
    intro x y z
    calc _ ≤ (t - s) ^ 2 * (y ^ 2 + z ^ 2) := mul_le_mul_of_nonneg_right hc (by positivity)
      _ ≤ _ := mul_le_mul_of_nonneg_left (by linarith [sq_nonneg x]) (sq_nonneg _)
  unfold turn
  split_ifs <;> try simp only [turnX, turnY, turnZ]
  · refine le_of_eq_of_le ?_ (e v.x v.y v.z); ring
  · refine le_of_eq_of_le ?_ ((e v.y v.x v.z).trans (le_of_eq ?_)) <;> ring
  · refine le_of_eq_of_le ?_ ((e v.z v.x v.y).trans (le_of_eq ?_)) <;> ring
  · have : 0 ≤ (t - s) ^ 2 * (v.x ^ 2 + v.y ^ 2 + v.z ^ 2) := by positivity
    refine le_of_eq_of_le ?_ this
    ring

/-- the turns one after the other, by the angles as the computer has them -/
theorem fold_err (h : Rounding rnd u) (hu : 5 * u < 1) (l : List (Rd rnd × Char)) (r : Mat 3 3 (Rd rnd)) (j : Fin 3) (x : V3 ℝ) (hx : len3 x = 1) (E : ℝ)
    (hE : dist3 x (col r j) ≤ E) :
    1 + dist3 (turns (l.map fun ta => (ta.1.val, ta.2)) x) (col (l.foldl eulerStep r) j) ≤
      (1 + 3 / 2 * gam u 5) ^ (l.countP fun ta => known ta.2) * (1 + E) := by
  have hg := gam_nonneg (k := 5) h.nonneg (by push_cast; linarith)
  induction l generalizing r x E with
  | nil => simpa [turns] using hE
  | cons ta l ih =>
    rw [List.map_cons, turns, List.foldl_cons]
    by_cases hk : known ta.2 = true
    · rw [List.countP_cons_of_pos (by exact hk)]
      have h1 : dist3 (turn ta.2 ta.1.val x) (col (eulerStep r ta) j) ≤ (1 + 3 / 2 * gam u 5) * (1 + E) - 1 := by
        have s1 := dist3_triangle (turn ta.2 ta.1.val x) (turn ta.2 ta.1.val (col r j)) (col (eulerStep r ta) j)
        rw [turn_dist] at s1
        have s2 := step_err h hu r ta j
        have s3 := UL.len3_le_dist x (col r j)
        rw [hx] at s3
        have s4 : 3 / 2 * gam u 5 * len3 (col r j) ≤ 3 / 2 * gam u 5 * (1 + E) := mul_le_mul_of_nonneg_left (by linarith) (by linarith)
        linarith
      have := ih (eulerStep r ta) (turn ta.2 ta.1.val x) (by rw [turn_len, hx]) _ h1
      refine this.trans (le_of_eq ?_)
      ring
    · rw [List.countP_cons_of_neg (by exact hk)]
      obtain ⟨e1, e2⟩ := step_other r ta (by simpa using hk)
      rw [e1, e2]
      exact ih r x hx E hE

theorem turns_angles {δ : ℝ} (l : List ((ℝ × ℝ) × Char)) (hA : ∀ p ∈ l, |p.1.2 - p.1.1| ≤ δ * |p.1.1|) (v w : V3 ℝ) :
    dist3 (turns (l.map fun p => (p.1.1, p.2)) v) (turns (l.map fun p => (p.1.2, p.2)) w) ≤
      dist3 v w + δ * (l.map fun p => |p.1.1|).sum * len3 v := by
  induction l generalizing v w with
  | nil => simp [turns]
  | cons p l ih =>
    simp only [List.map_cons, turns, List.sum_cons]
    have h1 := ih (fun q hq => hA q (by simp [hq])) (turn p.2 p.1.1 v) (turn p.2 p.1.2 w)
    rw [turn_len] at h1
    have h2 := dist3_triangle (turn p.2 p.1.1 v) (turn p.2 p.1.2 v) (turn p.2 p.1.2 w)
    rw [turn_dist] at h2
    have h3 := turn_angle p.2 p.1.1 p.1.2 v
    have h4 := mul_le_mul_of_nonneg_right (hA p (by simp)) (len3_nonneg v)
    have e : δ * (|p.1.1| + (l.map fun p => |p.1.1|).sum) * len3 v = δ * |p.1.1| * len3 v + δ * (l.map fun p => |p.1.1|).sum * len3 v := by ring
    rw [e]
    linarith

/-- the angle in radians as computed -/
noncomputable def rad (d : Rd rnd) : Rd rnd := d * (Trig.pi / Num.lit 180)

theorem rad_err (h : Rounding rnd u) (hu : 3 * u < 1) (d : Rd rnd) :
    |(rad d).val - d.val * (Real.pi / 180)| ≤ gam u 3 * |d.val * (Real.pi / 180)| := by
  have h180 : rnd 180 = 180 := by simpa using h.grid 180 0 (by norm_num)
  have e : (rad d).val = rnd (d.val * rnd (rnd Real.pi / 180)) := by
    unfold rad
    rw [Rd.val_mul, Rd.val_div, Rd.val_lit]
    push_cast
    rw [h180]
    rfl
  obtain ⟨a, na, ea⟩ := h.factor Real.pi
  obtain ⟨b, nb, eb⟩ := h.factor (Real.pi * a / 180)
  obtain ⟨c, nc, ec⟩ := h.factor (d.val * (Real.pi * a / 180 * b))
  have := factor_err (x := d.val * (Real.pi / 180)) h (k := 3) (by push_cast; linarith) ((na.mul h.lt_one nb).mul h.lt_one nc)
  rw [e, ea, eb, ec]
  convert this using 2
  ring

theorem len_axis (j : Fin 3) : len3 (axis j) = 1 := by
  fin_cases j <;> simp [axis, len3]

theorem col_eye (h : Rounding rnd u) (j : Fin 3) : col (Mat.eye 3 : Mat 3 3 (Rd rnd)) j = axis j := by
  fin_cases j <;> simp [col, axis, Mat.eye, h.zero, h.one]

/-- how far off a column is, at most: `n` turns with axes x, y, z; with degrees, in addition the error of each angle -/
noncomputable def bound (u : ℝ) (xyz : List (Rd rnd)) (order : List Char) (units : String) : ℝ :=
  (1 + 3 / 2 * gam u 5) ^ ((angles xyz order units).countP fun ta => known ta.2) - 1 +
    if units = "deg" then gam u 3 * ((angles xyz order units).map fun ta => |ta.1|).sum else 0

theorem mulVec_axis (M : Matrix (Fin 3) (Fin 3) ℝ) (i j : Fin 3) : M.mulVec ![(axis j).x, (axis j).y, (axis j).z] i = M i j := by
  rw [Matrix.mulVec, dotProduct, Fin.sum_univ_three]
  match j with
  | 0 => simp [axis]
  | 1 => simp [axis]
  | 2 => simp [axis]

theorem coord_le (a b : V3 ℝ) : |b.x - a.x| ≤ dist3 a b ∧ |b.y - a.y| ≤ dist3 a b ∧ |b.z - a.z| ≤ dist3 a b := by
  unfold dist3 len3
  refine ⟨Real.abs_le_sqrt ?_, Real.abs_le_sqrt ?_, Real.abs_le_sqrt ?_⟩ <;> simp only [vec3] <;>
    linarith [sq_nonneg (b.x - a.x), sq_nonneg (b.y - a.y), sq_nonneg (b.z - a.z)]

end FE
open FE

/-- **C119.** Every column of the computed matrix is within `(1 + 3/2 gam u 5)ⁿ - 1` of the image of that axis under the turns, `n` the number of
turns about x, y or z; with degrees, `gam u 3` times the sum of the angles in radians is added. -/
theorem C119_columns (h : Rounding rnd u) (hu : 5 * u < 1) (xyz : Angles (Rd rnd)) (order units : String) (j : Fin 3) :
    dist3 (turns (angles xyz.toList order.toList units) (axis j)) (col (euler xyz order units) j) ≤ bound u xyz.toList order.toList units := by
  unfold bound
  by_cases hd : units = "deg"
  · have e1 : euler xyz order units = ((xyz.toList.map rad).zip order.toList).foldl eulerStep (Mat.eye 3) := by
      simp only [euler, if_pos hd]; rfl
    obtain ⟨l, hl⟩ : ∃ l, l = (xyz.toList.zip order.toList).map fun p => ((p.1.val * (Real.pi / 180), (rad p.1).val), p.2) := ⟨_, rfl⟩
    have e2 : angles xyz.toList order.toList units = l.map fun p => (p.1.1, p.2) := by
      rw [hl]
      simp only [angles, eulerPairs, if_pos hd, List.map_map, List.zip_map_left]
      rfl
    have e3 : ((xyz.toList.map rad).zip order.toList).map (fun ta => (ta.1.val, ta.2)) = l.map fun p => (p.1.2, p.2) := by
      rw [hl]
      simp only [List.zip_map_left, List.map_map]
      rfl
    have b1 := fold_err h hu ((xyz.toList.map rad).zip order.toList) (Mat.eye 3) j (axis j) (len_axis j) 0 (by rw [col_eye h, dist3_eq_zero.mpr rfl])
    have b2 := turns_angles (δ := gam u 3) l (by
      rw [hl]
      intro p hp
      obtain ⟨q, -, rfl⟩ := List.mem_map.1 hp
      exact rad_err h (by linarith [h.nonneg]) q.1) (axis j) (axis j)
    have e4 : ((xyz.toList.map rad).zip order.toList).countP (fun ta => known ta.2) = (angles xyz.toList order.toList units).countP fun ta => known ta.2 := by
      rw [e2, hl]
      simp only [List.zip_map_left, List.countP_map, List.map_map]
      rfl
    rw [e3, e4, add_zero, mul_one] at b1
    rw [len_axis, mul_one, dist3_eq_zero.mpr rfl, zero_add, ← e2] at b2
    rw [if_pos hd, e1]
    have b3 := dist3_triangle (turns (angles xyz.toList order.toList units) (axis j)) (turns (l.map fun p => (p.1.2, p.2)) (axis j))
      (col (((xyz.toList.map rad).zip order.toList).foldl eulerStep (Mat.eye 3)) j)
    have e5 : ((angles xyz.toList order.toList units).map fun ta => |ta.1|) = l.map fun p => |p.1.1| := by
      rw [e2, List.map_map]; rfl
    rw [e5]
    linarith
  · have e1 : euler xyz order units = (xyz.toList.zip order.toList).foldl eulerStep (Mat.eye 3) := by
      simp only [euler, if_neg hd]
    have e2 : angles xyz.toList order.toList units = (xyz.toList.zip order.toList).map fun p => (p.1.val, p.2) := by
      simp only [angles, eulerPairs, if_neg hd, List.zip_map_left]
      rfl
    have b1 := fold_err h hu (xyz.toList.zip order.toList) (Mat.eye 3) j (axis j) (len_axis j) 0 (by rw [col_eye h, dist3_eq_zero.mpr rfl])
    rw [if_neg hd, e1, e2, List.countP_map]
    rw [add_zero, mul_one] at b1
    simp only [Function.comp_def]
    linarith

/-- **C119.** So is every entry, compared with the matrix computed without rounding. -/
theorem C119_entries (h : Rounding rnd u) (hu : 5 * u < 1) (xyz : List (Rd rnd)) (order units : String) (i j : Fin 3) :
    |(euler (.many xyz) order units i j).val - euler (.many (xyz.map Rd.val)) order units i j| ≤ bound u xyz order.toList units := by
  have b := C119_columns h hu (.many xyz) order units j
  have e := (C50_rotation (.many (xyz.map Rd.val)) order units).2 (axis j)
  simp only [Angles.toList] at b e
  rw [angles, ← e] at b
  obtain ⟨cx, cy, cz⟩ := coord_le (act (euler (.many (xyz.map Rd.val)) order units) (axis j)) (col (euler (.many xyz) order units) j)
  simp only [act, mulVec_axis, col] at cx cy cz
  have b' := b
  simp only [act, mulVec_axis, col] at b'
  fin_cases i
  · exact cx.trans b'
  · exact cy.trans b'
  · exact cz.trans b'

/-- **C119.** The computed columns are nearly of length one and nearly perpendicular. -/
theorem C119_orthonormal (h : Rounding rnd u) (hu : 5 * u < 1) (xyz : Angles (Rd rnd)) (order units : String) (i j : Fin 3) :
    |len3 (col (euler xyz order units) j) - 1| ≤ bound u xyz.toList order.toList units ∧
    (i ≠ j → |inner3 (col (euler xyz order units) i) (col (euler xyz order units) j)| ≤
      2 * bound u xyz.toList order.toList units + bound u xyz.toList order.toList units ^ 2) := by
  obtain ⟨B, hB⟩ : ∃ B, B = bound u xyz.toList order.toList units := ⟨_, rfl⟩
  have bi := C119_columns h hu xyz order units i
  have bj := C119_columns h hu xyz order units j
  rw [← hB] at bi bj ⊢
  have lt : ∀ k, len3 (turns (angles xyz.toList order.toList units) (axis k)) = 1 := by
    intro k
    have : ∀ (l : List (ℝ × Char)) v, len3 (turns l v) = len3 v := by
      intro l
      induction l with
      | nil => intro v; rfl
      | cons a l ih => intro v; rw [turns, ih, turn_len]
    rw [this, len_axis]
  refine ⟨?_, fun hij => ?_⟩
  · have s1 := UL.len3_le_dist (turns (angles xyz.toList order.toList units) (axis j)) (col (euler xyz order units) j)
    have s2 := UL.len3_le_dist (col (euler xyz order units) j) (turns (angles xyz.toList order.toList units) (axis j))
    rw [dist3_comm] at s2
    rw [lt] at s1 s2
    rw [abs_le]; constructor <;> linarith
  · have h0 : inner3 (turns (angles xyz.toList order.toList units) (axis i)) (turns (angles xyz.toList order.toList units) (axis j)) = 0 := by
      rw [turns_inner]
      fin_cases i <;> fin_cases j <;> first | exact absurd rfl hij | simp [axis, inner3]
    obtain ⟨p, hp⟩ : ∃ p, p = turns (angles xyz.toList order.toList units) (axis i) := ⟨_, rfl⟩
    obtain ⟨q, hq⟩ : ∃ q, q = turns (angles xyz.toList order.toList units) (axis j) := ⟨_, rfl⟩
    have lp := lt i
    have lq := lt j
    rw [← hp] at h0 bi lp
    rw [← hq] at h0 bj lq
    generalize col (euler xyz order units) i = a at *
    generalize col (euler xyz order units) j = b at *
    have e : inner3 a b = inner3 p (vec3 q b) + inner3 (vec3 p a) q + inner3 (vec3 p a) (vec3 q b) := by
      simp only [inner3, vec3] at h0 ⊢
      linear_combination h0
    have c1 := abs_inner3_le p (vec3 q b)
    have c2 := abs_inner3_le (vec3 p a) q
    have c3 := abs_inner3_le (vec3 p a) (vec3 q b)
    change _ ≤ _ * dist3 q b at c1
    change _ ≤ dist3 p a * _ at c2
    change _ ≤ dist3 p a * dist3 q b at c3
    have n1 : 0 ≤ dist3 p a := len3_nonneg _
    have n2 : 0 ≤ dist3 q b := len3_nonneg _
    have c4 : dist3 p a * dist3 q b ≤ B * B := mul_le_mul bi bj n2 (n1.trans bi)
    rw [lp, one_mul] at c1
    rw [lq, mul_one] at c2
    rw [e, sq]
    refine (abs_add_three _ _ _).trans ?_
    linarith

/-- **C119.** In double precision, with angles in radians: after up to three turns every entry is within 2.6e-15. -/
theorem C119_double (xyz : List (Rd rnd53)) (order units : String) (hd : units ≠ "deg") (hn : xyz.length ≤ 3) (i j : Fin 3) :
    |(euler (.many xyz) order units i j).val - euler (.many (xyz.map Rd.val)) order units i j| ≤ 26 / 10 ^ 16 := by
  refine (C119_entries rounding_rnd53 (by norm_num) xyz order units i j).trans ?_
  unfold bound
  rw [if_neg hd, add_zero]
  have hg : 1 + 3 / 2 * gam (1 / 2 ^ 53) 5 ≤ 1 + 86 / 10 ^ 17 := by unfold gam; norm_num
  have hc : (angles xyz order.toList units).countP (fun ta => known ta.2) ≤ 3 := by
    refine (List.countP_le_length ..).trans ?_
    simp only [angles, eulerPairs, if_neg hd, List.length_zip, List.length_map]
    exact (min_le_left _ _).trans hn
  have h1 : (1 : ℝ) ≤ 1 + 3 / 2 * gam (1 / 2 ^ 53) 5 := by unfold gam; norm_num
  have := (pow_le_pow_right₀ h1 hc).trans (pow_le_pow_left₀ (by linarith) hg 3)
  norm_num at this ⊢
  linarith

namespace FE

theorem step_zero (h : Rounding rnd u) (r : Mat 3 3 (Rd rnd)) (hr : ∀ i j, (r i j).val = (1 : Matrix (Fin 3) (Fin 3) ℝ) i j) (t : Rd rnd) (ht : t.val = 0)
    (a : Char) (i j : Fin 3) : (eulerStep r (t, a) i j).val = (1 : Matrix (Fin 3) (Fin 3) ℝ) i j := by
  have hc : (Trig.cos t : Rd rnd).val = 1 := by show rnd (Real.cos t.val) = 1; rw [ht, Real.cos_zero, h.one]
  have hs : (Trig.sin t : Rd rnd).val = 0 := by show rnd (Real.sin t.val) = 0; rw [ht, Real.sin_zero, h.zero]
  have key : ∀ A : Mat 3 3 (Rd rnd), (∀ i j, (A i j).val = (1 : Matrix (Fin 3) (Fin 3) ℝ) i j) → ∀ i j, (Mat.mul A r i j).val = (1 : Matrix (Fin 3) (Fin 3) ℝ) i j := by
    intro A hA i j
    rw [mul_entry]
    simp only [Rd.val_add, Rd.val_mul, lit0 h, hA, hr, Matrix.one_apply]
    fin_cases i <;> fin_cases j <;> simp [h.zero, h.one]
  by_cases hx : a = 'x'
  · subst hx
    simp only [eulerStep, if_true, show ('x' : Char) ≠ 'y' by decide, show ('x' : Char) ≠ 'z' by decide, if_false]
    exact key _ (by intro i j; fin_cases i <;> fin_cases j <;> simp [hc, hs, h.zero, h.one]) i j
  by_cases hy : a = 'y'
  · subst hy
    simp only [eulerStep, if_true, show ('y' : Char) ≠ 'x' by decide, show ('y' : Char) ≠ 'z' by decide, if_false]
    exact key _ (by intro i j; fin_cases i <;> fin_cases j <;> simp [hc, hs, h.zero, h.one]) i j
  by_cases hz : a = 'z'
  · subst hz
    simp only [eulerStep, if_true, show ('z' : Char) ≠ 'x' by decide, show ('z' : Char) ≠ 'y' by decide, if_false]
    exact key _ (by intro i j; fin_cases i <;> fin_cases j <;> simp [hc, hs, h.zero, h.one]) i j
  simp only [eulerStep, if_neg hx, if_neg hy, if_neg hz]
  exact hr i j

theorem fold_zero (h : Rounding rnd u) (l : List (Rd rnd × Char)) (hl : ∀ p ∈ l, p.1.val = 0) (r : Mat 3 3 (Rd rnd))
    (hr : ∀ i j, (r i j).val = (1 : Matrix (Fin 3) (Fin 3) ℝ) i j) (i j : Fin 3) :
    (l.foldl eulerStep r i j).val = (1 : Matrix (Fin 3) (Fin 3) ℝ) i j := by
  induction l generalizing r with
  | nil => exact hr i j
  | cons p l ih => exact ih (fun q hq => hl q (by simp [hq])) _ (step_zero h r hr p.1 (hl p (by simp)) p.2)

end FE

/-- **C119.** Angles all zero give the identity, without rounding error. -/
theorem C119_zero (h : Rounding rnd u) (xyz : Angles (Rd rnd)) (h0 : ∀ x ∈ xyz.toList, x.val = 0) (order units : String) (i j : Fin 3) :
    (euler xyz order units i j).val = (1 : Matrix (Fin 3) (Fin 3) ℝ) i j := by
  have he : ∀ i j, ((Mat.eye 3 : Mat 3 3 (Rd rnd)) i j).val = (1 : Matrix (Fin 3) (Fin 3) ℝ) i j := by
    intro i j
    simp only [Mat.eye, Matrix.of_apply, Matrix.one_apply]
    split
    · exact lit1 h
    · exact lit0 h
  unfold euler
  refine fold_zero h _ (fun p hp => ?_) _ he i j
  have hm := (List.of_mem_zip hp).1
  split at hm
  · obtain ⟨x, hx, e⟩ := List.mem_map.1 hm
    rw [← e, Rd.val_mul, h0 x hx, zero_mul, h.zero]
  · exact h0 _ hm

/-- **C119.** With degrees no turn but the one by zero is made of zeros and ones in double precision: sine and cosine in the matrix
are nonzero about each axis, a quarter turn included, as the angle in radians is a rational number and not a multiple of π/2. -/
theorem C119_never_exact (d : Rd rnd53) (hd : d.val ≠ 0) :
    (euler (.one d) "x" "deg" 1 1).val ≠ 0 ∧ (euler (.one d) "x" "deg" 1 2).val ≠ 0 ∧
    (euler (.one d) "x" "deg" 2 1).val ≠ 0 ∧ (euler (.one d) "x" "deg" 2 2).val ≠ 0 ∧
    (euler (.one d) "y" "deg" 0 0).val ≠ 0 ∧ (euler (.one d) "y" "deg" 0 2).val ≠ 0 ∧
    (euler (.one d) "y" "deg" 2 0).val ≠ 0 ∧ (euler (.one d) "y" "deg" 2 2).val ≠ 0 ∧
    (euler (.one d) "z" "deg" 0 0).val ≠ 0 ∧ (euler (.one d) "z" "deg" 0 1).val ≠ 0 ∧
    (euler (.one d) "z" "deg" 1 0).val ≠ 0 ∧ (euler (.one d) "z" "deg" 1 1).val ≠ 0 := by
  have h := rounding_rnd53
  have ne : ∀ {x : ℝ}, x ≠ 0 → rnd53 x ≠ 0 := by
    intro x hx
    obtain ⟨t, ht, e⟩ := h.factor x
    rw [e]
    exact mul_ne_zero hx (ht.pos h.lt_one).ne'
  have hrat : ∃ q : ℚ, (rad d).val = q := by
    show ∃ q : ℚ, rnd53 _ = q
    generalize d.val * _ = x
    unfold rnd53
    split
    · exact ⟨0, by simp⟩
    · exact ⟨nearestEven (x / ulp x) * (2 : ℚ) ^ (Int.log 2 |x| - 52), by unfold ulp; push_cast; ring⟩
  have h180 : rnd53 180 = 180 := by simpa using h.grid 180 0 (by norm_num)
  have hne : (rad d).val ≠ 0 := by
    apply ne
    apply mul_ne_zero hd
    apply ne
    apply div_ne_zero
    · exact ne Real.pi_ne_zero
    · rw [Rd.val_lit]; push_cast; rw [h180]; norm_num
  obtain ⟨q, hq⟩ := hrat
  have hq0 : (q : ℝ) ≠ 0 := by rw [← hq]; exact hne
  have hs : Real.sin (rad d).val ≠ 0 := by
    rw [hq]
    intro e
    obtain ⟨n, hn⟩ := Real.sin_eq_zero_iff.mp e
    have hn0 : n ≠ 0 := by rintro rfl; simp at hn; exact hq0 hn.symm
    apply irrational_pi
    exact ⟨q / n, by push_cast; rw [← hn]; field_simp⟩
  have hc : Real.cos (rad d).val ≠ 0 := by
    rw [hq]
    intro e
    obtain ⟨k, hk⟩ := Real.cos_eq_zero_iff.mp e
    have hk0 : (2 * (k : ℝ) + 1) ≠ 0 := by
      intro e'
      have : (2 * k + 1 : ℤ) = 0 := by exact_mod_cast e'
      omega
    apply irrational_pi
    exact ⟨2 * q / (2 * k + 1), by push_cast; rw [hk]; field_simp⟩
  have hx : euler (.one d) "x" "deg" = eulerStep (Mat.eye 3) (rad d, 'x') := rfl
  have hy : euler (.one d) "y" "deg" = eulerStep (Mat.eye 3) (rad d, 'y') := rfl
  have hz : euler (.one d) "z" "deg" = eulerStep (Mat.eye 3) (rad d, 'z') := rfl
  have hcv : (Trig.cos (rad d) : Rd rnd53).val = rnd53 (Real.cos (rad d).val) := rfl
  have hsv : (Trig.sin (rad d) : Rd rnd53).val = rnd53 (Real.sin (rad d).val) := rfl
  have e0 : ∀ i j : Fin 3, ((Mat.eye 3 : Mat 3 3 (Rd rnd53)) i j).val = if i = j then 1 else 0 := by
    intro i j
    simp only [Mat.eye, Matrix.of_apply]
    split
    · exact lit1 h
    · exact lit0 h
  rw [hx, hy, hz]
  simp only [eulerStep, if_true, show ('x' : Char) ≠ 'y' by decide, show ('x' : Char) ≠ 'z' by decide, show ('y' : Char) ≠ 'x' by decide,
    show ('y' : Char) ≠ 'z' by decide, show ('z' : Char) ≠ 'x' by decide, show ('z' : Char) ≠ 'y' by decide, if_false]
  have nc := ne hc
  have ns := ne hs
  refine ⟨?_, ?_, ?_, ?_, ?_, ?_, ?_, ?_, ?_, ?_, ?_, ?_⟩ <;> rw [mul_entry] <;> simp only [Rd.val_add, Rd.val_mul, lit0 h, e0] <;>
    simp [h.zero, hcv, hsv, h.idem, nc, ns, ne]

namespace FE

/-- a coordinate -/
def coord (i : Fin 3) (v : V3 ℝ) : ℝ := ![v.x, v.y, v.z] i

/-- the mean of the absolute values of a coordinate -/
noncomputable def meanAbs (i : Fin 3) (ps : List (V3 (Rd rnd))) : ℝ := (ps.map fun p => |coord i (Rd.vec p)|).sum / ps.length

theorem coord_add (h : Rounding rnd u) (i : Fin 3) (p q : V3 (Rd rnd)) : coord i (Rd.vec (p + q)) = rnd (coord i (Rd.vec p) + coord i (Rd.vec q)) := by
  match i with
  | 0 => rfl
  | 1 => rfl
  | 2 => rfl

theorem coord_sum3 (i : Fin 3) (ps : List (V3 ℝ)) : coord i (sum3 ps) = (ps.map (coord i)).sum := by
  induction ps with
  | nil => match i with
    | 0 => rfl
    | 1 => rfl
    | 2 => rfl
  | cons p ps ih =>
    rw [List.map_cons, List.sum_cons, ← ih]
    match i with
    | 0 => rfl
    | 1 => rfl
    | 2 => rfl

theorem coord_centroid (i : Fin 3) (ps : List (V3 ℝ)) : coord i (centroid ps) = (ps.map (coord i)).sum / ps.length := by
  rw [← coord_sum3, div_eq_inv_mul]
  match i with
  | 0 => rfl
  | 1 => rfl
  | 2 => rfl

theorem sum_appr (h : Rounding rnd u) (i : Fin 3) (ps : List (V3 (Rd rnd))) :
    Appr u ps.length ((ps.map fun p => coord i (Rd.vec p)).sum) ((ps.map fun p => |coord i (Rd.vec p)|).sum) (coord i (Rd.vec (sumPts ps))) := by
  induction ps with
  | nil =>
    have e : coord i (Rd.vec (sumPts ([] : List (V3 (Rd rnd))))) = 0 := by
      match i with
      | 0 => exact lit0 h
      | 1 => exact lit0 h
      | 2 => exact lit0 h
    rw [e]
    exact Appr.zero
  | cons p ps ih =>
    rw [List.map_cons, List.sum_cons, List.map_cons, List.sum_cons, sumPts, coord_add h]
    exact ((Appr.exact h _).add ih).round h

theorem mean_appr (h : Rounding rnd u) (i : Fin 3) (ps : List (V3 (Rd rnd))) :
    Appr u (ps.length + 2) (coord i (centroid (ps.map Rd.vec))) (meanAbs i ps) (coord i (Rd.vec (meanPts ps))) := by
  have e : coord i (Rd.vec (meanPts ps)) = rnd (coord i (Rd.vec (sumPts ps)) / rnd ps.length) := by
    have : (Num.lit (ps.length : ℚ) : Rd rnd).val = rnd ps.length := by rw [Rd.val_lit]; push_cast; rfl
    rw [← this]
    match i with
    | 0 => rfl
    | 1 => rfl
    | 2 => rfl
  obtain ⟨d, nd, ed⟩ := h.factor (ps.length : ℝ)
  have a := (((sum_appr h i ps).scale (ps.length : ℝ)⁻¹).factor h.lt_one (nd.inv h.lt_one)).round h
  have hn : |((ps.length : ℝ))⁻¹| = (ps.length : ℝ)⁻¹ := abs_of_nonneg (by positivity)
  rw [hn, ← div_eq_inv_mul, ← div_eq_inv_mul] at a
  rw [coord_centroid, List.map_map, List.length_map, e, ed]
  convert a using 2
  · rfl
  · rfl
  · rw [div_mul_eq_div_div, div_eq_mul_inv (_ / _) d, div_eq_inv_mul]

theorem list_appr {β : Type} {k : ℕ} (X M Y : β → ℝ) (h : ∀ p, Appr u k (X p) (M p) (Y p)) (l : List β) :
    Appr u k (l.map X).sum (l.map M).sum (l.map Y).sum := by
  induction l with
  | nil => exact Appr.zero
  | cons p l ih => simpa using (h p).add ih

theorem coord_neg (i : Fin 3) (p : V3 (Rd rnd)) : coord i (Rd.vec (-p)) = -coord i (Rd.vec p) := by
  match i with
  | 0 => rfl
  | 1 => rfl
  | 2 => rfl

theorem sum_shift {β : Type} (f : β → ℝ) (c : ℝ) (l : List β) : (l.map fun p => f p + c).sum = (l.map f).sum + l.length * c := by
  induction l with
  | nil => simp
  | cons p l ih => simp [ih]; ring

end FE

/-- **C119.** `translation` of points without a factor: the shift is the mean, negated, up to `gam u (n + 2)` times the mean of the absolute
values; each point is shifted by the mean up to an error of the same kind, and the mean of the result is nearly zero. -/
theorem C119_centred (h : Rounding rnd u) (ps : List (V3 (Rd rnd))) (hu : ((ps.length + 3 : ℕ) : ℝ) * u < 1) (i : Fin 3) :
    |coord i (Rd.vec (translation ps none).2) - -coord i (centroid (ps.map Rd.vec))| ≤ gam u (ps.length + 2) * meanAbs i ps ∧
    (translation ps none).1.length = ps.length ∧
    (∀ k (hk : k < ps.length) (hk' : k < (translation ps none).1.length),
      |coord i (Rd.vec (translation ps none).1[k]) - (coord i (Rd.vec ps[k]) - coord i (centroid (ps.map Rd.vec)))| ≤
        gam u (ps.length + 3) * (|coord i (Rd.vec ps[k])| + meanAbs i ps)) ∧
    |coord i (centroid ((translation ps none).1.map Rd.vec))| ≤ 2 * gam u (ps.length + 3) * meanAbs i ps := by
  have m := (mean_appr h i ps).neg
  have e : (translation ps none).1 = ps.map fun p => p + -(meanPts ps) := rfl
  have a : ∀ p : V3 (Rd rnd), Appr u (ps.length + 3) (coord i (Rd.vec p) + -coord i (centroid (ps.map Rd.vec))) (|coord i (Rd.vec p)| + meanAbs i ps)
      (coord i (Rd.vec (p + -(meanPts ps)))) := by
    intro p
    rw [coord_add h, coord_neg]
    exact ((Appr.exact h _).add m).round h
  have hu2 : ((ps.length + 2 : ℕ) : ℝ) * u < 1 := by
    refine lt_of_le_of_lt (mul_le_mul_of_nonneg_right ?_ h.nonneg) hu
    push_cast; linarith
  refine ⟨?_, by rw [e, List.length_map], fun k hk hk' => ?_, ?_⟩
  · have := m.bound h.nonneg h.lt_one hu2
    rwa [← coord_neg] at this
  · simp only [e, List.getElem_map]
    have := (a ps[k]).bound h.nonneg h.lt_one hu
    rwa [← sub_eq_add_neg] at this
  · have b := (list_appr _ _ _ a ps).bound h.nonneg h.lt_one hu
    rw [sum_shift, sum_shift] at b
    rcases Nat.eq_zero_or_pos ps.length with h0 | h0
    · have : ps = [] := List.length_eq_zero_iff.mp h0
      subst this
      simp [coord_centroid, meanAbs, e]
    have hp : (0 : ℝ) < ps.length := by exact_mod_cast h0
    have e1 : (ps.map fun p => coord i (Rd.vec p)).sum + ps.length * -coord i (centroid (ps.map Rd.vec)) = 0 := by
      rw [coord_centroid, List.map_map, List.length_map]
      simp only [Function.comp_def]
      field_simp
      ring
    have e2 : (ps.map fun p => |coord i (Rd.vec p)|).sum = ps.length * meanAbs i ps := by
      unfold meanAbs; field_simp
    rw [e1, e2, sub_zero] at b
    rw [coord_centroid, e, List.map_map, List.map_map, List.length_map, List.length_map, abs_div, abs_of_pos hp, div_le_iff₀ hp]
    refine b.trans (le_of_eq ?_)
    ring

/-- **C119.** `translation` with a factor adds it with one rounding per coordinate and returns it. -/
theorem C119_shifted (h : Rounding rnd u) (ps : List (V3 (Rd rnd))) (f : V3 (Rd rnd)) :
    (translation ps (some f)).2 = f ∧ (translation ps (some f)).1.length = ps.length ∧
    ∀ i k (hk : k < ps.length) (hk' : k < (translation ps (some f)).1.length),
      coord i (Rd.vec (translation ps (some f)).1[k]) = rnd (coord i (Rd.vec ps[k]) + coord i (Rd.vec f)) := by
  refine ⟨rfl, by simp [translation], fun i k hk hk' => ?_⟩
  simp only [translation, List.getElem_map]
  exact coord_add h i _ _

/-! the theorems apply: a quarter turn about x and an eighth about z -/

example : (euler (.many [(⟨90⟩ : Rd rnd53), ⟨45⟩]) "xz" "deg" 1 1).val ≤
    euler (.many [(90 : ℝ), 45]) "xz" "deg" 1 1 + bound (1 / 2 ^ 53) [(⟨90⟩ : Rd rnd53), ⟨45⟩] ['x', 'z'] "deg" := by
  have := C119_entries rounding_rnd53 (by norm_num) [(⟨90⟩ : Rd rnd53), ⟨45⟩] "xz" "deg" 1 1
  rw [abs_le] at this
  have e : "xz".toList = ['x', 'z'] := rfl
  rw [e] at this
  simp only [List.map_cons, List.map_nil] at this
  linarith [this.2]

example : (euler (.one (⟨90⟩ : Rd rnd53)) "x" "deg" 1 1).val ≠ 0 := (C119_never_exact ⟨90⟩ (by norm_num)).1

example : (([⟨⟨1⟩, ⟨2⟩, ⟨3⟩⟩, ⟨⟨4⟩, ⟨5⟩, ⟨7⟩⟩] : List (V3 (Rd rnd53))).length + 3 : ℕ) * (1 / 2 ^ 53 : ℝ) < 1 := by norm_num

end Blmath.Props
