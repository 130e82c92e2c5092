import Verif.Base.F64
import Verif.Proofs.RdOps
import Verif.Model.Plane

/-!
When IEEE arithmetic (`F64`) and rounding without limits of range (`Rd rnd53`) give the same: numbers that are multiples of
`1 / 2^e` and at most `2^f` in size, with `e` and `f` followed through the operations.
-/

namespace Blmath.Proofs
open Blmath.Spec

/-- a multiple of `1 / 2^e` -/
def Mult (e : ℕ) (x : ℝ) : Prop := ∃ k : ℤ, x = k / 2 ^ e

theorem Mult.mono {e e' : ℕ} {x : ℝ} (h : Mult e x) (he : e ≤ e') : Mult e' x := by
  obtain ⟨k, rfl⟩ := h
  refine ⟨k * 2 ^ (e' - e), ?_⟩
  have : (2 : ℝ) ^ e' = 2 ^ (e' - e) * 2 ^ e := by rw [← pow_add]; congr 1; omega
  rw [this]
  push_cast
  field_simp

theorem Mult.zero (e : ℕ) : Mult e 0 := ⟨0, by simp⟩

theorem Mult.add {e : ℕ} {x y : ℝ} (h : Mult e x) (h' : Mult e y) : Mult e (x + y) := by
  obtain ⟨k, rfl⟩ := h
  obtain ⟨l, rfl⟩ := h'
  exact ⟨k + l, by push_cast; ring⟩

theorem Mult.neg {e : ℕ} {x : ℝ} (h : Mult e x) : Mult e (-x) := by
  obtain ⟨k, rfl⟩ := h
  exact ⟨-k, by push_cast; ring⟩

theorem Mult.mul {e e' : ℕ} {x y : ℝ} (h : Mult e x) (h' : Mult e' y) : Mult (e + e') (x * y) := by
  obtain ⟨k, rfl⟩ := h
  obtain ⟨l, rfl⟩ := h'
  exact ⟨k * l, by push_cast; rw [pow_add]; field_simp⟩

theorem Mult.lower {e : ℕ} {x : ℝ} (h : Mult e x) (hx : x ≠ 0) : 1 / 2 ^ e ≤ |x| := by
  obtain ⟨k, rfl⟩ := h
  have hk : k ≠ 0 := by rintro rfl; simp at hx
  have h1 : (1 : ℝ) ≤ |(k : ℝ)| := by exact_mod_cast Int.one_le_abs hk
  rw [abs_div, abs_of_pos (show (0 : ℝ) < 2 ^ e by positivity)]
  exact div_le_div_of_nonneg_right h1 (by positivity)

theorem mult_of_zpow {e : ℕ} {N z : ℤ} (hz : -(e : ℤ) ≤ z) : Mult e (N * (2 : ℝ) ^ z) := by
  obtain ⟨n, hn⟩ : ∃ n : ℕ, z = n - e := ⟨(z + e).toNat, by omega⟩
  refine ⟨N * 2 ^ n, ?_⟩
  rw [hn, zpow_sub₀ (by norm_num), zpow_natCast, zpow_natCast]
  push_cast
  ring

theorem one_div_zpow (m : ℕ) : (1 : ℝ) / 2 ^ m = (2 : ℝ) ^ (-(m : ℤ)) := by rw [zpow_neg, zpow_natCast, one_div]

theorem log_ge {m : ℕ} {x : ℝ} (h : 1 / 2 ^ m ≤ |x|) : -(m : ℤ) ≤ Int.log 2 |x| := by
  have hx : 0 < |x| := lt_of_lt_of_le (by positivity) h
  rw [one_div_zpow] at h
  exact (Int.zpow_le_iff_le_log (b := 2) (by norm_num) hx).mp (by push_cast; exact h)

/-- rounding keeps multiples -/
theorem Mult.rnd {e : ℕ} {x : ℝ} (h : Mult e x) : Mult e (rnd53 x) := by
  by_cases hx : x = 0
  · rw [hx, rnd53_zero]; exact Mult.zero e
  by_cases hL : -(e : ℤ) ≤ Int.log 2 |x| - 52
  · have : rnd53 x = nearestEven (x / ulp x) * ulp x := by rw [rnd53, if_neg hx]
    rw [this]
    unfold ulp
    exact mult_of_zpow hL
  · have h' := h
    obtain ⟨k, hk⟩ := h
    have hlt := lt_two_zpow_log x
    have hle : (2 : ℝ) ^ (Int.log 2 |x| + 1) ≤ (2 : ℝ) ^ (52 - (e : ℤ)) := zpow_le_zpow_right₀ (by norm_num) (by omega)
    have hk2 : |(k : ℝ)| < 2 ^ 52 := by
      have h1 : |x| * 2 ^ e < 2 ^ 52 := by
        have h2 : (2 : ℝ) ^ (52 - (e : ℤ)) = 2 ^ 52 / 2 ^ e := by
          rw [zpow_sub₀ (by norm_num), zpow_natCast]; norm_num
        rw [h2] at hle
        have h3 := lt_of_lt_of_le hlt hle
        rwa [lt_div_iff₀ (by positivity)] at h3
      rw [hk, abs_div, abs_of_pos (show (0 : ℝ) < 2 ^ e by positivity), div_mul_cancel₀ _ (by positivity)] at h1
      exact h1
    have hk3 : |k| ≤ 2 ^ 53 := by
      have : |k| < 2 ^ 52 := by exact_mod_cast hk2
      linarith
    have hg := rnd53_grid k (-(e : ℤ)) hk3
    rw [zpow_neg, zpow_natCast, ← div_eq_mul_inv, ← hk] at hg
    rw [hg]
    exact h'

/-- a number of 53 bits that is not small is a multiple -/
theorem mult_of_stored {m : ℕ} {x : ℝ} (hs : rnd53 x = x) (h : 1 / 2 ^ m ≤ |x|) : Mult (m + 52) x := by
  have hx : x ≠ 0 := by
    rintro rfl
    have : (0 : ℝ) < 1 / 2 ^ m := by positivity
    rw [abs_zero] at h
    linarith
  have hL := log_ge h
  have : x = nearestEven (x / ulp x) * ulp x := by
    conv_lhs => rw [← hs, rnd53, if_neg hx]
  rw [this]
  unfold ulp
  exact mult_of_zpow (by push_cast; omega)

theorem rnd53_abs_le {f : ℕ} {x : ℝ} (h : |x| ≤ 2 ^ f) : |rnd53 x| ≤ 2 ^ f := by
  have e : rnd53 ((2 : ℝ) ^ f) = 2 ^ f := by
    have := rnd53_grid 1 (f : ℤ) (by norm_num)
    simpa using this
  rw [abs_le] at h ⊢
  constructor
  · have := rnd53_mono h.1
    rwa [rnd53_neg, e] at this
  · have := rnd53_mono h.2
    rwa [e] at this

theorem rnd53_abs_ge {m : ℕ} {x : ℝ} (h : 1 / 2 ^ m ≤ |x|) : 1 / 2 ^ m ≤ |rnd53 x| := by
  have e : rnd53 ((1 : ℝ) / 2 ^ m) = 1 / 2 ^ m := by
    have := rnd53_grid 1 (-(m : ℤ)) (by norm_num)
    rw [Int.cast_one, one_mul, ← one_div_zpow] at this
    exact this
  rcases le_or_gt 0 x with hx | hx
  · rw [abs_of_nonneg hx] at h
    have := rnd53_mono h
    rw [e] at this
    exact this.trans (le_abs_self _)
  · rw [abs_of_neg hx] at h
    have := rnd53_mono h
    rw [e, rnd53_neg] at this
    exact this.trans (neg_le_abs _)

theorem rnd53_abs_ge' {m : ℕ} {x : ℝ} (h : 2 ^ m ≤ |x|) : 2 ^ m ≤ |rnd53 x| := by
  have hp : rnd53 ((2 : ℝ) ^ m) = 2 ^ m := by
    have := rnd53_grid 1 m (by norm_num)
    rwa [zpow_natCast, Int.cast_one, one_mul] at this
  rcases le_abs.mp h with h | h
  · have := rnd53_mono h
    rw [hp] at this
    exact this.trans (le_abs_self _)
  · have := rnd53_mono h
    rw [hp, rnd53_neg] at this
    exact this.trans (neg_le_abs _)

theorem nearestEvenQ_int (k : ℤ) : nearestEvenQ (k : ℚ) = k := by
  have := nearestEven_cast (k : ℚ)
  rw [← this]
  push_cast
  exact nearestEven_int k

theorem rndQ_zero : rndQ 0 = 0 := by simp [rndQ]

/-- where rounding to a double is rounding to 53 bits -/
theorem round_val (q : ℚ) (h : 1 / 2 ^ 1022 ≤ |(q : ℝ)| ∨ Mult 1074 (q : ℝ)) (hb : |(q : ℝ)| ≤ 2 ^ 1023) :
    (F64.round q).val? = some (rndQ q) := by
  by_cases hs : |q| < 1 / 2 ^ 1022
  · have hs' : ¬ (1 / 2 ^ 1022 ≤ |(q : ℝ)|) := by
      rw [not_le]
      have := (Rat.cast_lt (K := ℝ)).mpr hs
      push_cast at this
      exact this
    obtain ⟨k, hk⟩ := h.resolve_left hs'
    have hq : q = k / 2 ^ 1074 := by
      have : ((q : ℚ) : ℝ) = ((k / 2 ^ 1074 : ℚ) : ℝ) := by rw [hk]; push_cast; rfl
      exact Rat.cast_injective this
    have hmul : q * 2 ^ 1074 = (k : ℚ) := by rw [hq]; field_simp
    have hr : rndQ q = q := by
      have : rnd53 ((q : ℚ) : ℝ) = q := by
        have hk2 : |k| ≤ 2 ^ 53 := by
          have h1 : |(k : ℚ)| < 2 ^ 53 := by
            rw [← hmul, abs_mul, abs_of_pos (show (0 : ℚ) < 2 ^ 1074 by positivity)]
            calc |q| * 2 ^ 1074 < 1 / 2 ^ 1022 * 2 ^ 1074 := mul_lt_mul_of_pos_right hs (by positivity)
              _ ≤ 2 ^ 53 := by
                rw [show (2 : ℚ) ^ 1074 = 2 ^ 52 * 2 ^ 1022 by rw [← pow_add]]
                rw [one_div, mul_comm, mul_assoc, mul_inv_cancel₀ (by positivity)]
                norm_num
          have : |k| < 2 ^ 53 := by exact_mod_cast h1
          exact this.le
        have := rnd53_grid k (-(1074 : ℤ)) hk2
        rw [show (k : ℝ) * (2 : ℝ) ^ (-(1074 : ℤ)) = q by
          rw [hk, zpow_neg, div_eq_mul_inv]; norm_cast] at this
        exact this
      rw [rnd53_rat] at this
      exact_mod_cast this
    unfold F64.round
    rw [if_pos hs, hmul, nearestEvenQ_int]
    split
    · next h0 => rw [hr, hq, h0]; simp [F64.val?]
    · rw [hr, hq]; rfl
  · unfold F64.round
    rw [if_neg hs, if_neg]
    · rfl
    · have h1 := rnd53_abs_le hb
      rw [rnd53_rat] at h1
      have h2 : |rndQ q| ≤ 2 ^ 1023 := by
        have : ((|rndQ q| : ℚ) : ℝ) ≤ ((2 ^ 1023 : ℚ) : ℝ) := by push_cast; exact h1
        exact_mod_cast this
      have h3 : (2 : ℚ) ^ 1023 < 2 ^ 1024 := pow_lt_pow_right₀ (by norm_num) (by norm_num)
      exact not_le.mpr (lt_of_le_of_lt h2 h3)

/-- The double `a` and the number `x` rounded without limits of range agree; it is a multiple of `1 / 2^e` and at most
`2^f` in size. -/
def Rep (e f : ℕ) (a : F64) (x : Rd rnd53) : Prop :=
  (∃ q : ℚ, a.val? = some q ∧ x.val = q) ∧ rnd53 x.val = x.val ∧ Mult e x.val ∧ |x.val| ≤ 2 ^ f

namespace Rep
variable {e f e' f' : ℕ} {a b : F64} {x y : Rd rnd53}

theorem mono (h : Rep e f a x) (he : e ≤ e') (hf : f ≤ f') : Rep e' f' a x := by
  obtain ⟨h1, h2, h3, h4⟩ := h
  exact ⟨h1, h2, h3.mono he, h4.trans (pow_le_pow_right₀ (by norm_num) hf)⟩

theorem of_round {q : ℚ} (h : 1 / 2 ^ 1022 ≤ |(q : ℝ)| ∨ Mult 1074 (q : ℝ)) (hf : f ≤ 1023) (hb : |(q : ℝ)| ≤ 2 ^ f)
    (hm : Mult e (rnd53 q)) : Rep e f (F64.round q) ⟨rnd53 q⟩ := by
  refine ⟨⟨rndQ q, round_val q h (hb.trans (pow_le_pow_right₀ (by norm_num) hf)), rnd53_rat q⟩, rnd53_idem _, hm, rnd53_abs_le hb⟩

theorem neg (h : Rep e f a x) : Rep e f (-a) (-x) := by
  obtain ⟨⟨q, h1, h1'⟩, h2, h3, h4⟩ := h
  refine ⟨⟨-q, ?_, by rw [Rd.val_neg, h1']; push_cast; rfl⟩, by rw [Rd.val_neg, rnd53_neg, h2], h3.neg, by rwa [Rd.val_neg, abs_neg]⟩
  show (F64.neg a).val? = _
  cases a <;> simp_all [F64.neg, F64.val?]
  rw [← h1]; norm_num

theorem add (h : Rep e f a x) (h' : Rep e' f' b y) (he : e ≤ 1074) (he' : e' ≤ 1074) (hf : max f f' + 1 ≤ 1023) :
    Rep (max e e') (max f f' + 1) (a + b) (x + y) := by
  obtain ⟨⟨q, h1, h1'⟩, h2, h3, h4⟩ := h
  obtain ⟨⟨r, g1, g1'⟩, g2, g3, g4⟩ := h'
  have hm : Mult (max e e') ((q + r : ℚ) : ℝ) := by
    push_cast; rw [← h1', ← g1']
    exact (h3.mono (le_max_left _ _)).add (g3.mono (le_max_right _ _))
  have hb : |((q + r : ℚ) : ℝ)| ≤ 2 ^ (max f f' + 1) := by
    push_cast; rw [← h1', ← g1', pow_succ]
    have k1 : (2 : ℝ) ^ f ≤ 2 ^ max f f' := pow_le_pow_right₀ (by norm_num) (le_max_left _ _)
    have k2 : (2 : ℝ) ^ f' ≤ 2 ^ max f f' := pow_le_pow_right₀ (by norm_num) (le_max_right _ _)
    have := abs_add_le x.val y.val
    linarith
  have key : Rep (max e e') (max f f' + 1) (F64.round (q + r)) (x + y) := by
    have := of_round (e := max e e') (Or.inr (hm.mono (by omega))) hf hb hm.rnd
    have e1 : (⟨rnd53 ((q + r : ℚ) : ℝ)⟩ : Rd rnd53) = x + y := by ext; rw [Rd.val_add, h1', g1']; push_cast; rfl
    rwa [e1] at this
  obtain ⟨⟨s, k1, k2⟩, k3, k4, k5⟩ := key
  refine ⟨⟨s, ?_, k2⟩, k3, k4, k5⟩
  have hrq : (s : ℝ) = rnd53 (q + r) := by rw [← k2, Rd.val_add, h1', g1']
  have hs1 : q = 0 → s = r := fun h0 => by
    rw [h0] at hrq; simp at hrq; rw [← g1', g2, g1'] at hrq; exact_mod_cast hrq
  have hs2 : r = 0 → s = q := fun h0 => by
    rw [h0] at hrq; simp at hrq; rw [← h1', h2, h1'] at hrq; exact_mod_cast hrq
  show (F64.add a b).val? = _
  cases a <;> cases b <;> simp_all [F64.val?, F64.add]

theorem sub (h : Rep e f a x) (h' : Rep e' f' b y) (he : e ≤ 1074) (he' : e' ≤ 1074) (hf : max f f' + 1 ≤ 1023) :
    Rep (max e e') (max f f' + 1) (a - b) (x - y) := by
  have := h.add h'.neg he he' hf
  have e1 : x + -y = x - y := by ext; simp [sub_eq_add_neg]
  rwa [e1] at this

theorem mul (h : Rep e f a x) (h' : Rep e' f' b y) (he : e + e' ≤ 1022) (hf : f + f' ≤ 1023) :
    Rep (e + e') (f + f') (a * b) (x * y) := by
  obtain ⟨⟨q, h1, h1'⟩, h2, h3, h4⟩ := h
  obtain ⟨⟨r, g1, g1'⟩, g2, g3, g4⟩ := h'
  have hm : Mult (e + e') ((q * r : ℚ) : ℝ) := by
    push_cast; rw [← h1', ← g1']
    exact h3.mul g3
  have hb : |((q * r : ℚ) : ℝ)| ≤ 2 ^ (f + f') := by
    push_cast; rw [← h1', ← g1', pow_add, abs_mul]
    exact mul_le_mul h4 g4 (abs_nonneg _) (by positivity)
  have key : Rep (e + e') (f + f') (F64.round (q * r)) (x * y) := by
    have := of_round (e := e + e') (Or.inr (hm.mono (by omega))) hf hb hm.rnd
    have e1 : (⟨rnd53 ((q * r : ℚ) : ℝ)⟩ : Rd rnd53) = x * y := by ext; rw [Rd.val_mul, h1', g1']; push_cast; rfl
    rwa [e1] at this
  obtain ⟨⟨s, k1, k2⟩, k3, k4, k5⟩ := key
  refine ⟨⟨s, ?_, k2⟩, k3, k4, k5⟩
  have hrq : (s : ℝ) = rnd53 (q * r) := by rw [← k2, Rd.val_mul, h1', g1']
  have hs0 : q * r = 0 → s = 0 := fun h0 => by
    have h0' : (q : ℝ) * r = 0 := by exact_mod_cast h0
    rw [h0', rnd53_zero] at hrq
    exact_mod_cast hrq
  show (F64.mul a b).val? = _
  cases a <;> cases b <;> simp_all [F64.val?, F64.mul]

theorem div (h : Rep e f a x) (h' : Rep e' f' b y) (hy : y.val ≠ 0) (he : e + f' ≤ 1022) (hf : f + e' ≤ 1023) :
    Rep (e + f' + 52) (f + e') (a / b) (x / y) := by
  obtain ⟨⟨q, h1, h1'⟩, h2, h3, h4⟩ := h
  obtain ⟨⟨r, g1, g1'⟩, g2, g3, g4⟩ := h'
  have hyp : 0 < |y.val| := abs_pos.mpr hy
  have hlow : q ≠ 0 → 1 / 2 ^ (e + f') ≤ |((q / r : ℚ) : ℝ)| := fun hq => by
    have hx : x.val ≠ 0 := by rw [h1']; exact_mod_cast hq
    push_cast; rw [← h1', ← g1', abs_div, pow_add, one_div, mul_inv, div_eq_mul_inv]
    refine mul_le_mul ?_ (inv_anti₀ hyp g4) (by positivity) (abs_nonneg _)
    have := h3.lower hx
    rwa [one_div] at this
  have hb : |((q / r : ℚ) : ℝ)| ≤ 2 ^ (f + e') := by
    push_cast; rw [← h1', ← g1', pow_add, abs_div, div_le_iff₀ hyp]
    have := g3.lower hy
    rw [div_le_iff₀ (by positivity)] at this
    calc |x.val| ≤ 2 ^ f * 1 := by rw [mul_one]; exact h4
      _ ≤ 2 ^ f * (|y.val| * 2 ^ e') := mul_le_mul_of_nonneg_left this (by positivity)
      _ = _ := by ring
  have hm : Mult (e + f' + 52) (rnd53 ((q / r : ℚ) : ℝ)) := by
    by_cases hq : q = 0
    · rw [hq]; simp [rnd53_zero, Mult.zero]
    · exact mult_of_stored (rnd53_idem _) (rnd53_abs_ge (hlow hq))
  have key : Rep (e + f' + 52) (f + e') (F64.round (q / r)) (x / y) := by
    have hor : 1 / 2 ^ 1022 ≤ |((q / r : ℚ) : ℝ)| ∨ Mult 1074 ((q / r : ℚ) : ℝ) := by
      by_cases hq : q = 0
      · right; rw [hq]; simp [Mult.zero]
      · left
        refine le_trans ?_ (hlow hq)
        rw [one_div, one_div]
        exact inv_anti₀ (by positivity) (pow_le_pow_right₀ (by norm_num) he)
    have := of_round (e := e + f' + 52) hor hf hb hm
    have e1 : (⟨rnd53 ((q / r : ℚ) : ℝ)⟩ : Rd rnd53) = x / y := by ext; rw [Rd.val_div, h1', g1']; push_cast; rfl
    rwa [e1] at this
  obtain ⟨⟨s, k1, k2⟩, k3, k4, k5⟩ := key
  refine ⟨⟨s, ?_, k2⟩, k3, k4, k5⟩
  have hrq : (s : ℝ) = rnd53 (q / r) := by rw [← k2, Rd.val_div, h1', g1']
  have hs0 : q = 0 → s = 0 := fun h0 => by
    rw [h0] at hrq
    simp [rnd53_zero] at hrq
    exact_mod_cast hrq
  have hr0 : r ≠ 0 := by rintro rfl; apply hy; rw [g1']; simp
  show (F64.div a b).val? = _
  cases a <;> cases b <;> simp_all [F64.val?, F64.div]

theorem sqrt {e f : ℕ} (h : Rep (2 * e) (2 * f) a x) (hx : 0 ≤ x.val) : Rep (e + 52) f (Num.sqrt a) (Num.sqrt x) := by
  obtain ⟨⟨q, h1, h1'⟩, h2, h3, h4⟩ := h
  have hv : (Num.sqrt x : Rd rnd53).val = (sqrtQ q : ℝ) := by rw [Rd.val_sqrt, h1', rnd53_sqrt]
  refine ⟨⟨sqrtQ q, ?_, hv⟩, rnd53_idem _, ?_, ?_⟩
  · have hq : ¬ q < 0 := by
      rw [not_lt]
      rw [h1'] at hx
      exact_mod_cast hx
    show (F64.sqrt a).val? = _
    cases a with
    | num r =>
      simp only [F64.val?, Option.some.injEq] at h1
      subst h1
      simp only [F64.sqrt, if_neg hq, F64.val?]
    | zero s =>
      simp only [F64.val?, Option.some.injEq] at h1
      subst h1
      simp [F64.sqrt, F64.val?, sqrtQ]
    | inf s => simp [F64.val?] at h1
    | nan => simp [F64.val?] at h1
  · by_cases h0 : x.val = 0
    · rw [Rd.val_sqrt, h0]; simp [rnd53_zero, Mult.zero]
    · refine mult_of_stored (rnd53_idem _) (rnd53_abs_ge ?_)
      rw [abs_of_nonneg (Real.sqrt_nonneg _)]
      apply Real.le_sqrt_of_sq_le
      have := h3.lower h0
      rw [abs_of_nonneg hx] at this
      rwa [div_pow, one_pow, ← pow_mul, mul_comm e 2]
  · refine rnd53_abs_le ?_
    rw [abs_of_nonneg (Real.sqrt_nonneg _), Real.sqrt_le_left (by positivity), ← pow_mul, mul_comm f 2]
    exact (le_abs_self _).trans h4

theorem lit {k : ℤ} (hk : |k| ≤ 2 ^ f) (hf : f ≤ 53) : Rep 0 f (Num.lit (k : ℚ)) (Num.lit (k : ℚ)) := by
  have hm : Mult 0 (((k : ℚ) : ℚ) : ℝ) := ⟨k, by simp⟩
  have hb : |(((k : ℚ) : ℚ) : ℝ)| ≤ 2 ^ f := by push_cast; exact_mod_cast hk
  exact of_round (Or.inr (hm.mono (by omega))) (by omega) hb hm.rnd

theorem val_eq (h : Rep e f a x) : ((a.val?.getD 0 : ℚ) : ℝ) = x.val := by
  obtain ⟨⟨q, h1, h1'⟩, _⟩ := h
  rw [h1, h1']; rfl

theorem fin (h : Rep e f a x) : (∃ q, a = .num q) ∨ ∃ s, a = .zero s := by
  obtain ⟨⟨q, h1, _⟩, _⟩ := h
  cases a <;> simp_all [F64.val?]

theorem lt (h : Rep e f a x) (h' : Rep e' f' b y) : Num.lt a b = Num.lt x y := by
  have e1 := h.val_eq
  have e2 := h'.val_eq
  rw [Bool.eq_iff_iff, Rd.lt_iff, ← e1, ← e2, Rat.cast_lt]
  show F64.lt a b = true ↔ _
  rcases h.fin with ⟨q, rfl⟩ | ⟨s, rfl⟩ <;> rcases h'.fin with ⟨r, rfl⟩ | ⟨t, rfl⟩ <;> simp [F64.lt]

theorem eq (h : Rep e f a x) (h' : Rep e' f' b y) : Num.eq a b = Num.eq x y := by
  have e1 := h.val_eq
  have e2 := h'.val_eq
  rw [Bool.eq_iff_iff, Rd.eq_iff, ← e1, ← e2, Rat.cast_inj]
  show F64.eq a b = true ↔ _
  rcases h.fin with ⟨q, rfl⟩ | ⟨s, rfl⟩ <;> rcases h'.fin with ⟨r, rfl⟩ | ⟨t, rfl⟩ <;> simp [F64.eq]

theorem le (h : Rep e f a x) (h' : Rep e' f' b y) : Num.le a b = Num.le x y := by
  have : Num.le a b = (Num.lt a b || Num.eq a b) := rfl
  rw [this, h.lt h', h.eq h', Bool.eq_iff_iff, Bool.or_eq_true, Rd.lt_iff, Rd.eq_iff, Rd.le_iff, le_iff_lt_or_eq]

theorem floor (h : Rep e f a x) : Num.floor a = Num.floor x := by
  obtain ⟨⟨q, h1, h1'⟩, _⟩ := h
  show a.val?.map (fun q => ⌊q⌋) = some ⌊x.val⌋
  rw [h1, h1', Rat.floor_cast]; rfl

/-- a literal of moderate size -/
theorem lit' {q : ℚ} {m f : ℕ} (h1 : 1 / 2 ^ m ≤ |(q : ℝ)|) (h2 : |(q : ℝ)| ≤ 2 ^ f) (hm : m ≤ 1022) (hf : f ≤ 1023) :
    Rep (m + 52) f (Num.lit q) (Num.lit q) := by
  refine of_round (Or.inl (le_trans ?_ h1)) hf h2 (mult_of_stored (rnd53_idem _) (rnd53_abs_ge h1))
  rw [one_div, one_div]
  exact inv_anti₀ (by positivity) (pow_le_pow_right₀ (by norm_num) hm)

theorem zero' : Rep 0 0 (Num.lit 0) (Num.lit 0) := by
  have := lit (k := 0) (f := 0) (by norm_num) (by norm_num)
  simpa using this

theorem tight (h : Rep e f a x) (hb : |x.val| ≤ 2 ^ f') : Rep e f' a x := ⟨h.1, h.2.1, h.2.2.1, hb⟩

theorem npAbs (h : Rep e f a x) : Rep e f (npAbs a) (npAbs x) := by
  unfold Blmath.npAbs
  rw [h.lt zero']
  split
  · exact h.neg
  · exact h

end Rep

/-- the same for 3-vectors -/
def RepV (e f : ℕ) (v : V3 F64) (w : V3 (Rd rnd53)) : Prop := Rep e f v.x w.x ∧ Rep e f v.y w.y ∧ Rep e f v.z w.z

namespace RepV
variable {e f e' f' : ℕ} {v v' : V3 F64} {w w' : V3 (Rd rnd53)}

theorem mono (h : RepV e f v w) (he : e ≤ e') (hf : f ≤ f') : RepV e' f' v w :=
  ⟨h.1.mono he hf, h.2.1.mono he hf, h.2.2.mono he hf⟩

theorem add (h : RepV e f v w) (h' : RepV e' f' v' w') (he : e ≤ 1074) (he' : e' ≤ 1074) (hf : max f f' + 1 ≤ 1023) :
    RepV (max e e') (max f f' + 1) (v + v') (w + w') :=
  ⟨h.1.add h'.1 he he' hf, h.2.1.add h'.2.1 he he' hf, h.2.2.add h'.2.2 he he' hf⟩

theorem sub (h : RepV e f v w) (h' : RepV e' f' v' w') (he : e ≤ 1074) (he' : e' ≤ 1074) (hf : max f f' + 1 ≤ 1023) :
    RepV (max e e') (max f f' + 1) (v - v') (w - w') :=
  ⟨h.1.sub h'.1 he he' hf, h.2.1.sub h'.2.1 he he' hf, h.2.2.sub h'.2.2 he he' hf⟩

theorem smul {a : F64} {x : Rd rnd53} (ha : Rep e f a x) (h' : RepV e' f' v' w') (he : e + e' ≤ 1022) (hf : f + f' ≤ 1023) :
    RepV (e + e') (f + f') (V3.smul a v') (V3.smul x w') :=
  ⟨ha.mul h'.1 he hf, ha.mul h'.2.1 he hf, ha.mul h'.2.2 he hf⟩

theorem sdiv {a : F64} {x : Rd rnd53} (h : RepV e f v w) (ha : Rep e' f' a x) (hx : x.val ≠ 0) (he : e + f' ≤ 1022)
    (hf : f + e' ≤ 1023) : RepV (e + f' + 52) (f + e') (V3.sdiv v a) (V3.sdiv w x) :=
  ⟨h.1.div ha hx he hf, h.2.1.div ha hx he hf, h.2.2.div ha hx he hf⟩

theorem dot (h : RepV e f v w) (h' : RepV e' f' v' w') (he : e + e' ≤ 1022) (hf : f + f' + 2 ≤ 1023) :
    Rep (e + e') (f + f' + 2) (V3.dot v v') (V3.dot w w') := by
  have m1 := h.1.mul h'.1 he (by omega)
  have m2 := h.2.1.mul h'.2.1 he (by omega)
  have m3 := h.2.2.mul h'.2.2 he (by omega)
  have a1 := m1.add m2 (by omega) (by omega) (by omega)
  exact (a1.add m3 (by omega) (by omega) (by omega)).mono (by omega) (by omega)

theorem cross (h : RepV e f v w) (h' : RepV e' f' v' w') (he : e + e' ≤ 1022) (hf : f + f' + 1 ≤ 1023) :
    RepV (e + e') (f + f' + 1) (V3.cross v v') (V3.cross w w') := by
  have key : ∀ {a b c d : F64} {x y z t : Rd rnd53}, Rep e f a x → Rep e' f' b y → Rep e f c z → Rep e' f' d t →
      Rep (e + e') (f + f' + 1) (a * b - c * d) (x * y - z * t) := fun h1 h2 h3 h4 =>
    ((h1.mul h2 he (by omega)).sub (h3.mul h4 he (by omega)) (by omega) (by omega) (by omega)).mono (by omega) (by omega)
  exact ⟨key h.2.1 h'.2.2 h.2.2 h'.2.1, key h.2.2 h'.1 h.1 h'.2.2, key h.1 h'.2.1 h.2.1 h'.1⟩

theorem norm (h : RepV e f v w) (he : 2 * e ≤ 1022) (hf : 2 * f + 2 ≤ 1023) : Rep (e + 52) (f + 1) (V3.norm v) (V3.norm w) := by
  have hd := h.dot h (by omega) (by omega)
  have hd : Rep (2 * e) (2 * (f + 1)) (V3.dot v v) (V3.dot w w) := hd.mono (by omega) (by omega)
  refine hd.sqrt ?_
  obtain ⟨t, ht, et⟩ := dot_self_rd rounding_rnd53 w
  rw [et]
  exact mul_nonneg (by positivity) (ht.pos rounding_rnd53.lt_one).le

theorem norm_ne (hw : Rd.vec w ≠ ⟨0, 0, 0⟩) : (V3.norm w).val ≠ 0 := by
  obtain ⟨t, ht, et⟩ := norm_rd rounding_rnd53 w
  rw [et]
  refine mul_ne_zero ?_ (ht.pos rounding_rnd53.lt_one).ne'
  unfold len3
  rw [Real.sqrt_ne_zero']
  by_contra hc
  apply hw
  have h1 := sq_nonneg (Rd.vec w).x
  have h2 := sq_nonneg (Rd.vec w).y
  have h3 := sq_nonneg (Rd.vec w).z
  ext
  · exact pow_eq_zero_iff (n := 2) (by norm_num) |>.mp (by linarith)
  · exact pow_eq_zero_iff (n := 2) (by norm_num) |>.mp (by linarith)
  · exact pow_eq_zero_iff (n := 2) (by norm_num) |>.mp (by linarith)

/-- a coordinate over the computed length is at most 2 -/
theorem quot_le (hw : Rd.vec w ≠ ⟨0, 0, 0⟩) {c : ℝ} (hc : |c| ≤ len3 (Rd.vec w)) : |rnd53 (c / (V3.norm w).val)| ≤ 2 ^ 1 := by
  apply rnd53_abs_le
  have hn := norm_ne hw
  obtain ⟨t, ht, et⟩ := norm_rd rounding_rnd53 w
  have hl := rounding_rnd53.lt_one
  have tp := ht.pos hl
  have g := ht.gam_bound (k := 3) rounding_rnd53.nonneg (by norm_num) hl
  have hg : gam (1 / 2 ^ 53) 3 ≤ 1 / 2 := by unfold gam; norm_num
  rw [abs_le] at g
  rw [et] at hn ⊢
  have hL : 0 < len3 (Rd.vec w) := lt_of_le_of_ne (Real.sqrt_nonneg _) (fun h => hn (by rw [← h, zero_mul]))
  rw [abs_div, abs_of_pos (mul_pos hL tp), div_le_iff₀ (mul_pos hL tp)]
  nlinarith

theorem abs_le_len (v : V3 ℝ) : |v.x| ≤ len3 v ∧ |v.y| ≤ len3 v ∧ |v.z| ≤ len3 v := by
  unfold len3
  refine ⟨?_, ?_, ?_⟩ <;> apply Real.abs_le_sqrt <;> nlinarith [sq_nonneg v.x, sq_nonneg v.y, sq_nonneg v.z]

theorem normalize (h : RepV e f v w) (hw : Rd.vec w ≠ ⟨0, 0, 0⟩) (he : 2 * e ≤ 1022) (hf : 2 * f + 2 ≤ 1023)
    (hef : e + f + 52 ≤ 1022) : RepV (e + f + 53) 1 (Vx.normalize3 v) (Vx.normalize3 w) := by
  have hn := h.norm he hf
  have hd := h.sdiv hn (norm_ne hw) (by omega) (by omega)
  have hl := abs_le_len (Rd.vec w)
  refine ⟨(hd.1.tight ?_).mono (by omega) le_rfl, (hd.2.1.tight ?_).mono (by omega) le_rfl, (hd.2.2.tight ?_).mono (by omega) le_rfl⟩
  · exact quot_le hw hl.1
  · exact quot_le hw hl.2.1
  · exact quot_le hw hl.2.2

end RepV
end Blmath.Proofs
