import Verif.Proofs.Units
import Verif.Spec.Rounding
import Mathlib.Tactic.Linarith
import Mathlib.Tactic.Ring
import Mathlib.Algebra.Order.Floor.Ring
import Mathlib.Algebra.Order.Ring.Abs
import Mathlib.Algebra.Ring.Int.Parity

namespace Blmath.Units
open Blmath.Spec

theorem roundFrom_spec (ver : PyVer) (x : ℝ) : RoundsTo ver x (roundFrom ver x ⌊x⌋) := by
  have h0 := Int.floor_le x
  have h1 := Int.lt_floor_add_one x
  set f := ⌊x⌋ with hf
  simp only [roundFrom, ofInt, Num.lt_real, Num.eq_real, Num.lit_real]
  push_cast
  by_cases hi : x = (f : ℝ)
  · rw [if_pos hi]
    refine ⟨by rw [hi, sub_self, abs_zero]; norm_num, fun he => ?_⟩
    rw [hi, sub_self, abs_zero] at he; norm_num at he
  rw [if_neg hi]
  by_cases ha : x < (f : ℝ) + 1 / 2
  · rw [if_pos ha]
    refine ⟨by rw [abs_of_nonneg (by linarith)]; linarith, fun he => ?_⟩
    rw [abs_of_nonneg (by linarith)] at he; linarith
  rw [if_neg ha]
  by_cases hb : (f : ℝ) + 1 / 2 < x
  · rw [if_pos hb]
    refine ⟨by push_cast; rw [abs_of_nonpos (by linarith)]; linarith, fun he => ?_⟩
    push_cast at he
    rw [abs_of_nonpos (by linarith)] at he; linarith
  rw [if_neg hb]
  have hx : x = f + 1 / 2 := by linarith
  cases ver with
  | py2 =>
    simp only
    by_cases hn : x < 0
    · rw [if_pos hn]
      refine ⟨by rw [abs_of_nonneg (by linarith)]; linarith, fun _ => ?_⟩
      rw [abs_of_neg hn, abs_of_neg (by linarith)]; linarith
    · rw [if_neg hn]
      refine ⟨by push_cast; rw [abs_of_nonpos (by linarith)]; linarith, fun _ => ?_⟩
      push_cast
      rw [abs_of_nonneg (by linarith), abs_of_nonneg (by linarith)]; linarith
  | py3 =>
    simp only
    by_cases hn : f % 2 = 0
    · rw [if_pos hn]
      exact ⟨by rw [abs_of_nonneg (by linarith)]; linarith, fun _ => Int.even_iff.mpr hn⟩
    · rw [if_neg hn]
      refine ⟨by push_cast; rw [abs_of_nonpos (by linarith)]; linarith, fun _ => ?_⟩
      rw [Int.even_iff]; omega

theorem RoundsTo.unique {ver : PyVer} {x : ℝ} {k k' : ℤ} (h : RoundsTo ver x k)
    (h' : RoundsTo ver x k') : k = k' := by
  wlog hlt : k < k' generalizing k k'
  · rcases lt_trichotomy k k' with h1 | h1 | h1
    · exact this h h' h1
    · exact h1
    · exact (this h' h h1).symm
  exfalso
  have e1 := abs_le.mp h.1
  have e2 := abs_le.mp h'.1
  have hk : (k : ℝ) + 1 ≤ k' := by exact_mod_cast hlt
  have hx : x = k + 1 / 2 := by linarith [e1.1, e1.2, e2.1, e2.2]
  have hk' : (k' : ℝ) = k + 1 := by linarith [e1.1, e1.2, e2.1, e2.2]
  have hk'' : k' = k + 1 := by exact_mod_cast hk'
  have t1 := h.2 (by rw [hx, abs_of_nonneg (by linarith)]; linarith)
  have t2 := h'.2 (by rw [hx, hk', abs_of_nonpos (by linarith)]; linarith)
  cases ver with
  | py2 =>
    simp only at t1 t2
    have s1 := sq_lt_sq.mpr t1
    have s2 := sq_lt_sq.mpr t2
    rw [hx] at s1 s2
    rw [hk'] at s2
    have b1 : (k : ℝ) < 0 := by nlinarith
    have b2 : (-1 : ℝ) < k := by nlinarith
    have b1' : k < 0 := by exact_mod_cast b1
    have b2' : -1 < k := by exact_mod_cast b2
    omega
  | py3 =>
    simp only at t1 t2
    rw [hk''] at t2
    rw [Int.even_iff] at t1 t2
    omega

theorem RoundsTo.neg {ver : PyVer} {x : ℝ} {k : ℤ} (h : RoundsTo ver x k) :
    RoundsTo ver (-x) (-k) := by
  have e : |(-x) - ((-k : ℤ) : ℝ)| = |x - k| := by
    rw [← abs_neg]; congr 1; push_cast; ring
  refine ⟨by rw [e]; exact h.1, fun he => ?_⟩
  have t := h.2 (by rw [← e]; exact he)
  cases ver with
  | py2 => simpa using t
  | py3 => simpa using t

theorem RoundsTo.mono {ver : PyVer} {x y : ℝ} {k l : ℤ} (hx : RoundsTo ver x k)
    (hy : RoundsTo ver y l) (hxy : x ≤ y) : k ≤ l := by
  by_contra hlt
  push Not at hlt
  have e1 := abs_le.mp hx.1
  have e2 := abs_le.mp hy.1
  have hk : (l : ℝ) + 1 ≤ k := by exact_mod_cast hlt
  have : x = y := by linarith [e1.1, e1.2, e2.1, e2.2]
  subst this
  have := RoundsTo.unique hx hy
  omega

theorem RoundsTo.intCast (ver : PyVer) (k : ℤ) : RoundsTo ver (k : ℝ) k := by
  refine ⟨by simp, fun h => ?_⟩
  simp at h

theorem roundTo_eq (ver : PyVer) (x n : ℝ) (hn : n ≠ 0) :
    ∃ k : ℤ, RoundsTo ver (x / n) k ∧ roundTo ver x n = .ok (k * n) := by
  refine ⟨_, roundFrom_spec ver (x / n), ?_⟩
  have h1 : (1 : ℝ) / n ≠ 0 := one_div_ne_zero hn
  have e1 : pyDiv ((Num.lit 1 : ℝ)) n = .ok (1 / n) := by
    rw [pyDiv_real hn]; simp
  simp only [roundTo, e1, pyDiv_real hn, ok_bind, pyRound, Num.floor_real, pyDiv_real h1]
  congr 1
  simp [ofInt]

end Blmath.Units
