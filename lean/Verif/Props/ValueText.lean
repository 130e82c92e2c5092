import Verif.Model.ValueText
import Verif.Base.Fl
import Verif.Spec.ValueText
import Verif.Spec.Value
import Verif.Proofs.Rounding
import Verif.Proofs.Value
import Mathlib.Tactic

/-!
Property C88: how a Value is written, and its conversions to numbers.
-/

namespace Blmath.Props
open Blmath.Spec Blmath Blmath.Units Blmath.Value

theorem readDec_append (a b : List Char) : readDec (a ++ b) = readDec a * 10 ^ b.length + readDec b := by
  have key : ∀ (b : List Char) (i : ℕ), b.foldl (fun a c => 10 * a + (c.toNat - 48)) i =
      i * 10 ^ b.length + readDec b := by
    intro b
    induction b using List.reverseRecOn with
    | nil => intro i; simp [readDec]
    | append_singleton l c ih =>
      intro i
      have := ih 0
      rw [List.foldl_append, ih i]
      unfold readDec at this ⊢
      rw [List.foldl_append, this]
      simp only [List.foldl_cons, List.foldl_nil, List.length_append, List.length_singleton, pow_succ]
      ring
  rw [readDec, List.foldl_append, ← readDec, key]

theorem readDec_digit {n : ℕ} (h : n < 10) : readDec [Nat.digitChar n] = n := by
  simp only [readDec, List.foldl_cons, List.foldl_nil, mul_zero, zero_add]
  exact Nat.toNat_digitChar_sub_48_of_lt_ten h

theorem decimal_read (n : ℕ) : readDec (decimal n) = n := by
  induction n using Nat.strong_induction_on with
  | _ n ih =>
    rw [decimal, Nat.toDigits_eq_if (by norm_num)]
    split
    · exact readDec_digit ‹_›
    · rw [readDec_append, ← decimal, ih (n / 10) (by omega), readDec_digit (Nat.mod_lt _ (by norm_num))]
      simp; omega

theorem decimal_head (n : ℕ) (h : (decimal n).head? = some '0') : decimal n = ['0'] := by
  induction n using Nat.strong_induction_on with
  | _ n ih =>
    rw [decimal, Nat.toDigits_eq_if (by norm_num)] at *
    split at h
    · simp at h; subst h; simp
    · exfalso
      have hne : Nat.toDigits 10 (n / 10) ≠ [] := Nat.toDigits_ne_nil
      rw [List.head?_append_of_ne_nil _ hne] at h
      have e : decimal (n / 10) = ['0'] := ih (n / 10) (by omega) h
      have := decimal_read (n / 10)
      rw [e] at this
      simp [readDec] at this
      omega

theorem padded_length (k n : ℕ) : (paddedDecimal k n).length = k := by
  induction k generalizing n with
  | zero => rfl
  | succ k ih => simp [paddedDecimal, ih]

theorem padded_read (k n : ℕ) : readDec (paddedDecimal k n) = n % 10 ^ k := by
  induction k generalizing n with
  | zero => simp [paddedDecimal, readDec, Nat.mod_one]
  | succ k ih =>
    rw [paddedDecimal, readDec_append, ih, readDec_digit (Nat.mod_lt _ (by norm_num)), pow_succ, List.length_singleton, pow_one,
      mul_comm (10 ^ k) 10, Nat.mod_mul]
    ring

theorem padded_digit (k n : ℕ) : ∀ c ∈ paddedDecimal k n, c.isDigit = true := by
  induction k generalizing n with
  | zero => simp [paddedDecimal]
  | succ k ih =>
    intro c hc
    rw [paddedDecimal, List.mem_append, List.mem_singleton] at hc
    rcases hc with hc | rfl
    · exact ih _ c hc
    · rw [Nat.isDigit_digitChar]; simp; omega

theorem pyAbs_real (x : ℝ) : pyAbs x = |x| := by
  unfold pyAbs
  split
  · rename_i h; rw [Num.lt_real] at h; simp at h; rw [abs_of_neg h]
  · rename_i h; rw [Num.lt_real] at h; simp at h; rw [abs_of_nonneg h]

theorem percentF_spec (x : ℝ) : SixPlaces x (percentF x) := by
  have hr := roundFrom_spec .py3 (|x| * 1000000)
  have h0 : 0 ≤ roundFrom .py3 (|x| * 1000000) ⌊|x| * 1000000⌋ := by
    have h1 := Units.RoundsTo.intCast .py3 0
    exact Units.RoundsTo.mono h1 hr (by push_cast; positivity)
  obtain ⟨k, hk⟩ := Int.eq_ofNat_of_zero_le h0
  refine ⟨decimal (k / 1000000), paddedDecimal 6 k, ?_, Nat.toDigits_ne_nil, padded_length _ _, ?_, decimal_head _, ?_⟩
  · unfold percentF
    simp only [pyAbs_real, Num.floor_real, Num.lit_real, Num.lt_real]
    push_cast
    rw [hk]
    simp
  · intro c hc
    rcases List.mem_append.mp hc with h | h
    · exact Nat.isDigit_of_mem_toDigits (by norm_num) (by norm_num) h
    · exact padded_digit _ _ c h
  · rw [readDec_append, decimal_read, padded_read, padded_length]
    have : k / 1000000 * 10 ^ 6 + k % 10 ^ 6 = k := by omega
    rw [this]
    rw [hk] at hr
    exact hr

theorem six_no_space {x : ℝ} {t : List Char} (h : SixPlaces x t) : ' ' ∉ t := by
  obtain ⟨ip, fp, rfl, _, _, hd, _, _⟩ := h
  have : ∀ c ∈ ip ++ fp, c ≠ ' ' := by
    rintro c hc rfl
    exact absurd (hd _ hc) (by decide)
  intro hm
  simp only [List.mem_append, List.mem_cons] at hm this
  rcases hm with (hm | hm) | hm | hm
  · split at hm <;> simp at hm
  · exact this _ (Or.inl hm) rfl
  · exact absurd hm (by decide)
  · exact this _ (Or.inr hm) rfl

/-- a text standing for two numbers: they are within a millionth of each other -/
theorem six_near {x y : ℝ} {t : List Char} (hx : SixPlaces x t) (hy : SixPlaces y t) : |x - y| ≤ 1 / 1000000 := by
  obtain ⟨ip, fp, ex, hi, hl, hd, _, r1, _⟩ := hx
  obtain ⟨ip', fp', ey, hi', hl', hd', _, r2, _⟩ := hy
  have dm : ∀ {l : List Char} {s : List Char} (c), (∀ c ∈ l ++ s, c.isDigit = true) → l.head? = some c → c ≠ '-' := by
    intro l s c h e
    have : c ∈ l ++ s := List.mem_append_left _ (List.mem_of_head? e)
    rintro rfl
    exact absurd (h _ this) (by decide)
  have hsign : (x < 0 ↔ y < 0) ∧ ip ++ '.' :: fp = ip' ++ '.' :: fp' := by
    rw [ex] at ey
    obtain ⟨c, hc⟩ : ∃ c, ip.head? = some c := by
      cases ip with
      | nil => exact absurd rfl hi
      | cons a l => exact ⟨a, rfl⟩
    obtain ⟨c', hc'⟩ : ∃ c, ip'.head? = some c := by
      cases ip' with
      | nil => exact absurd rfl hi'
      | cons a l => exact ⟨a, rfl⟩
    have n1 := dm c hd hc
    have n2 := dm c' hd' hc'
    cases ip with
    | nil => exact absurd rfl hi
    | cons a l =>
      cases ip' with
      | nil => exact absurd rfl hi'
      | cons a' l' =>
        simp at hc hc'
        subst hc; subst hc'
        by_cases h1 : x < 0 <;> by_cases h2 : y < 0 <;> simp [h1, h2] at ey ⊢
        · exact ey
        · exact absurd ey.1.symm n2
        · exact absurd ey.1 n1
        · exact ey
  obtain ⟨hs, e⟩ := hsign
  have hlen : ip.length = ip'.length := by
    have := congrArg List.length e
    simp at this; omega
  obtain ⟨rfl, e2⟩ := List.append_inj e hlen
  obtain ⟨_, rfl⟩ := List.cons.inj e2
  generalize ((readDec (ip ++ fp) : ℤ) : ℝ) = k at *
  have h3 : |(|x| - |y|)| ≤ 1 / 1000000 := by
    rw [abs_le] at r1 r2 ⊢
    constructor <;> linarith [r1.1, r1.2, r2.1, r2.2]
  by_cases h1 : x < 0
  · have h2 := hs.mp h1
    rw [abs_of_neg h1, abs_of_neg h2] at h3
    rw [abs_sub_comm]
    convert h3 using 2; ring
  · have h2 : ¬ y < 0 := fun h => h1 (hs.mpr h)
    rw [abs_of_nonneg (not_lt.mp h1), abs_of_nonneg (not_lt.mp h2)] at h3
    exact h3

/-- **C88.** `str` writes the number with six places, a space, and the name of the unit (`None` without one); `repr` puts that
in `<Value …>`. -/
theorem C88_str (v : Value ℝ) : ∃ t, SixPlaces v.value t ∧ v.str = t ++ ' ' :: (v.units.getD "None").toList ∧
    v.repr = "<Value ".toList ++ v.str ++ ['>'] := by
  refine ⟨percentF v.value, percentF_spec _, ?_, ?_⟩
  · unfold Value.str Value.unitText
    cases v.units <;> rfl
  · unfold Value.repr Value.str
    simp only [List.append_assoc, List.cons_append]

/-- **C88.** Infinite values and NaN. -/
theorem C88_nonfinite (u : Option String) :
    (⟨.pinf, u⟩ : Value Fl).str = "inf".toList ++ ' ' :: (u.getD "None").toList ∧
    (⟨.ninf, u⟩ : Value Fl).str = "-inf".toList ++ ' ' :: (u.getD "None").toList ∧
    (⟨.nan, u⟩ : Value Fl).str = "nan".toList ++ ' ' :: (u.getD "None").toList := by
  have hfl : Num.floor (Fl.pinf * Num.lit 1000000 : Fl) = none := by
    show Num.floor (Fl.mul .pinf (.fin _)) = none
    simp only [Fl.mul, Fl.infOf]
    split_ifs <;> rfl
  refine ⟨?_, ?_, ?_⟩
  · unfold Value.str Value.unitText
    have hl : Num.lt Fl.pinf (Num.lit 0 : Fl) = false := rfl
    have hf : Num.floor (pyAbs Fl.pinf * Num.lit 1000000 : Fl) = none := by
      have : pyAbs Fl.pinf = Fl.pinf := by unfold pyAbs; rw [hl]; rfl
      rw [this]
      exact hfl
    have : percentF Fl.pinf = "inf".toList := by
      unfold percentF
      rw [hf]
      simp only [hl]
      rfl
    rw [this]; cases u <;> rfl
  · unfold Value.str Value.unitText
    have hl : Num.lt Fl.ninf (Num.lit 0 : Fl) = true := rfl
    have hf : Num.floor (pyAbs Fl.ninf * Num.lit 1000000 : Fl) = none := by
      have : pyAbs Fl.ninf = Fl.pinf := by unfold pyAbs; rw [hl]; rfl
      rw [this]
      exact hfl
    have : percentF Fl.ninf = "-inf".toList := by
      unfold percentF
      rw [hf]
      simp only [hl]
      rfl
    rw [this]; cases u <;> rfl
  · unfold Value.str Value.unitText
    have hl : Num.lt Fl.nan (Num.lit 0 : Fl) = false := rfl
    have hf : Num.floor (pyAbs Fl.nan * Num.lit 1000000 : Fl) = none := by
      have : pyAbs Fl.nan = Fl.nan := by unfold pyAbs; rw [hl]; rfl
      rw [this]
      rfl
    have : percentF Fl.nan = "nan".toList := by
      unfold percentF
      rw [hf]
      simp only [hl]
      rfl
    rw [this]; cases u <;> rfl

/-- **C88.** Values written alike have values within a millionth, and the same units unless one has been given the unit
"None" by assignment. -/
theorem C88_same_text (v w : Value ℝ) (h : v.str = w.str) :
    |v.value - w.value| ≤ 1 / 1000000 ∧ v.units.getD "None" = w.units.getD "None" := by
  obtain ⟨t, ht, e, _⟩ := C88_str v
  obtain ⟨t', ht', e', _⟩ := C88_str w
  rw [e, e'] at h
  have key : ∀ (a b r s : List Char), ' ' ∉ a → ' ' ∉ b → a ++ ' ' :: r = b ++ ' ' :: s → a = b ∧ r = s := by
    intro a
    induction a with
    | nil =>
      intro b r s _ hb e
      cases b with
      | nil => simpa using e
      | cons c b => simp at e; exact absurd e.1 (fun h => hb (by simp [← h]))
    | cons c a ih =>
      intro b r s ha hb e
      cases b with
      | nil => simp at e; exact absurd e.1 (fun h => ha (by simp [h]))
      | cons d b =>
        simp only [List.cons_append, List.cons.injEq] at e
        obtain ⟨h1, h2⟩ := ih b r s (fun h => ha (List.mem_cons_of_mem _ h)) (fun h => hb (List.mem_cons_of_mem _ h)) e.2
        exact ⟨by rw [e.1, h1], h2⟩
  obtain ⟨rfl, e2⟩ := key _ _ _ _ (six_no_space ht) (six_no_space ht') h
  exact ⟨six_near ht ht', String.toList_injective e2⟩

/-- **C88.** Values that went through the constructor and are written alike have the same units. -/
theorem C88_same_units (v w : Value ℝ) (x y : Option ℝ) (a b : Option String) (hv : Value.make x a = .ok v) (hw : Value.make y b = .ok w)
    (h : v.str = w.str) : v.units = w.units := by
  have key : ∀ (v : Value ℝ) (x : Option ℝ) (a : Option String), Value.make x a = .ok v → v.units ≠ some "None" := by
    intro v x a h e
    obtain ⟨hg, _, hu⟩ := make_ok h
    rw [← hu, e] at hg
    rcases hg with h | ⟨n, U, h, hU⟩
    · cases h
    · cases h
      revert hU
      simp [UnitIs, unitOf, unitDefs]
  have e := (C88_same_text v w h).2
  have n1 := key v x a hv
  have n2 := key w y b hw
  cases hu : v.units with
  | none =>
    cases hu' : w.units with
    | none => rfl
    | some u' => rw [hu, hu'] at e; simp at e; rw [hu', ← e] at n2; exact absurd rfl n2
  | some u =>
    cases hu' : w.units with
    | none => rw [hu, hu'] at e; simp at e; rw [hu, e] at n1; exact absurd rfl n1
    | some u' => rw [hu, hu'] at e; simp at e; rw [e]

/-- **C88.** A quantity below half a millionth of its unit is written as zero. -/
theorem C88_vanishes (v : Value ℝ) (h : |v.value| < 1 / 2000000) :
    v.str = (if v.value < 0 then ['-'] else []) ++ ['0', '.', '0', '0', '0', '0', '0', '0', ' '] ++ (v.units.getD "None").toList := by
  have hk : roundFrom .py3 (|v.value| * 1000000) ⌊|v.value| * 1000000⌋ = 0 := by
    apply Units.RoundsTo.unique (roundFrom_spec .py3 (|v.value| * 1000000))
    have : |(|v.value| * 1000000 - ((0 : ℤ) : ℝ))| < 1 / 2 := by
      rw [Int.cast_zero, sub_zero, abs_of_nonneg (by positivity)]; linarith
    exact ⟨this.le, fun e => absurd e this.ne⟩
  have hp : percentF v.value = (if v.value < 0 then ['-'] else []) ++ ['0', '.', '0', '0', '0', '0', '0', '0'] := by
    unfold percentF
    simp only [pyAbs_real, Num.floor_real, Num.lit_real, Num.lt_real]
    push_cast
    rw [hk]
    simp only [List.append_assoc]
    rfl
  have ht : v.str = percentF v.value ++ ' ' :: (v.units.getD "None").toList := by
    unfold Value.str Value.unitText
    cases v.units <;> rfl
  rw [ht, hp]
  simp only [List.append_assoc]
  rfl

/-- **C88.** `int` is the integer part, towards zero; `float` is the number itself. -/
theorem C88_int (v : Value ℝ) : v.float = v.value ∧
    ∃ k : ℤ, v.int = .ok k ∧ |(k : ℝ)| ≤ |v.value| ∧ |v.value| < |(k : ℝ)| + 1 ∧ 0 ≤ (k : ℝ) * v.value := by
  refine ⟨rfl, ?_⟩
  have f1 := Int.floor_le v.value
  have f2 := Int.lt_floor_add_one v.value
  unfold Value.int pyInt
  simp only [Num.floor_real, ofInt, Num.lit_real, Bool.and_eq_true, Num.lt_real, Bool.not_eq_true', Bool.eq_false_iff, ne_eq, Num.eq_real]
  refine ⟨_, rfl, ?_⟩
  push_cast
  split
  · rename_i h
    obtain ⟨h1, h2⟩ := h
    have h3 : (⌊v.value⌋ : ℝ) < v.value := lt_of_le_of_ne f1 (fun e => h2 e.symm)
    have h4 : ⌊v.value⌋ + 1 ≤ 0 := by
      have : ⌊v.value⌋ < 0 := Int.floor_lt.mpr (by simpa using h1)
      omega
    have h5 : ((⌊v.value⌋ + 1 : ℤ) : ℝ) ≤ 0 := by exact_mod_cast h4
    push_cast at h5 ⊢
    rw [abs_of_nonpos h5, abs_of_neg h1]
    refine ⟨by linarith, by linarith, mul_nonneg_of_nonpos_of_nonpos h5 h1.le⟩
  · rename_i h
    by_cases h1 : v.value < 0
    · have h2 : v.value = (⌊v.value⌋ : ℝ) := by
        by_contra h2; exact h ⟨h1, h2⟩
      rw [← h2]
      exact ⟨le_refl _, by linarith, mul_self_nonneg _⟩
    · have h1 := not_lt.mp h1
      have h2 : (0 : ℝ) ≤ (⌊v.value⌋ : ℝ) := by exact_mod_cast Int.floor_nonneg.mpr h1
      rw [abs_of_nonneg h2, abs_of_nonneg h1]
      exact ⟨f1, f2, mul_nonneg h2 h1⟩

/-- **C88.** `round(v, k)`: on Python 3 a Value with the same units and the nearest multiple of `10 ^ -k`; on Python 2 the bare
number, units lost; without `k` Python 3 raises TypeError. -/
theorem C88_round (v : Value ℝ) (x : Option ℝ) (a : Option String) (hv : Value.make x a = .ok v) (k : ℤ) :
    (∃ (w : Value ℝ) (m : ℤ), v.builtinRound .py3 (some k) = .ok (.val w) ∧ w.units = v.units ∧ w.value = m / 10 ^ k ∧
      RoundsTo .py3 (v.value * 10 ^ k) m) ∧
    (∃ m : ℤ, v.builtinRound .py2 (some k) = .ok (.num (m / 10 ^ k)) ∧ RoundsTo .py2 (v.value * 10 ^ k) m) ∧
    v.builtinRound .py3 none = .error .TypeError := by
  have hm : ∀ y : ℝ, Value.make (some y) v.units = .ok ⟨y, v.units⟩ := by
    intro y
    obtain ⟨hg, _, hu⟩ := make_ok hv
    exact make_good (hu ▸ hg) y
  have hp : ∀ ver, pyRoundPlaces ver v.value k = (roundFrom ver (v.value * 10 ^ k) ⌊v.value * 10 ^ k⌋ : ℤ) / (10 : ℝ) ^ k := by
    intro ver
    unfold pyRoundPlaces
    simp only [Num.lit_real, Num.floor_real, ofInt]
    push_cast
    rfl
  refine ⟨⟨⟨pyRoundPlaces .py3 v.value k, v.units⟩, _, ?_, rfl, hp .py3, roundFrom_spec _ _⟩, ⟨_, ?_, roundFrom_spec _ _⟩, rfl⟩
  · unfold Value.builtinRound Value.roundMethod
    simp only [hm, ok_bind, pure_eq_ok]
  · unfold Value.builtinRound
    simp only [Value.float, hp]

/-- **C88.** A Value whose units were set to something unknown cannot be rounded on Python 3. -/
theorem C88_round_unknown (v : Value ℝ) (u : String) (hu : v.units = some u) (hn : Unknown u) (k : ℤ) :
    v.builtinRound .py3 (some k) = .error .ValueError := by
  have : (Units.allUnits ℝ).contains u = false := by
    rw [← Bool.not_eq_true, List.contains_iff_mem, mem_allUnits]
    rintro ⟨U, hU⟩
    rw [Unknown, hU] at hn; cases hn
  unfold Value.builtinRound Value.roundMethod Value.make
  simp only [hu, this]; rfl

/-- Non-vacuity: minus twelve and a half centimetres. -/
example : (⟨-25 / 2, some "cm"⟩ : Value ℝ).str = "-12.500000 cm".toList ∧ (⟨-25 / 2, some "cm"⟩ : Value ℝ).int = .ok (-12) ∧
    Value.make (some (-25 / 2 : ℝ)) (some "cm") = .ok ⟨-25 / 2, some "cm"⟩ := by
  refine ⟨?_, ?_, ?_⟩
  · have hk : roundFrom .py3 (|(-25 / 2 : ℝ)| * 1000000) ⌊|(-25 / 2 : ℝ)| * 1000000⌋ = 12500000 := by
      apply Units.RoundsTo.unique (roundFrom_spec .py3 (|(-25 / 2 : ℝ)| * 1000000))
      have : |(-25 / 2 : ℝ)| * 1000000 = ((12500000 : ℤ) : ℝ) := by norm_num [abs_of_neg]
      rw [this]
      exact Units.RoundsTo.intCast .py3 _
    have hp : percentF (-25 / 2 : ℝ) = "-12.500000".toList := by
      unfold percentF
      simp only [pyAbs_real, Num.floor_real, Num.lit_real, Num.lt_real]
      push_cast
      rw [hk, if_pos (by norm_num)]
      rfl
    unfold Value.str
    rw [hp]
    rfl
  · unfold Value.int pyInt
    have : ⌊(-25 / 2 : ℝ)⌋ = -13 := by rw [Int.floor_eq_iff]; norm_num
    simp only [Num.floor_real, this, ofInt, Num.lit_real, Bool.and_eq_true, Num.lt_real, Bool.not_eq_true', Bool.eq_false_iff, ne_eq, Num.eq_real]
    rw [if_pos (by norm_num)]; norm_num
  · exact make_good (Or.inr ⟨"cm", _, rfl, rfl⟩) _

end Blmath.Props
