import Verif.Props.FloatRange
import Mathlib.Analysis.Real.Pi.Bounds

/-!
Property C106 for conversions of units: IEEE doubles with their limits of range (`F64`) give the numbers of rounding
without limits (`Rd rnd53`).
-/

namespace Blmath.Props
open Blmath.Geometry Blmath.Spec Blmath.Proofs Blmath.Units

namespace FRU
open FR

/-- `math.pi` -/
def pi64 : F64 := .num (884279719003555 / 2 ^ 48)

/-- `math.pi` is the double nearest to π -/
theorem pi64_nearest : rnd53 Real.pi = ((884279719003555 / 2 ^ 48 : ℚ) : ℝ) := by
  have hg := Real.pi_gt_d20
  have hl := Real.pi_lt_d20
  have hlog : Int.log 2 |Real.pi| = 1 := by
    rw [abs_of_pos Real.pi_pos]
    apply le_antisymm
    · rw [← Int.lt_add_one_iff]
      refine (Int.lt_zpow_iff_log_lt (b := 2) (by norm_num) Real.pi_pos).mp ?_
      norm_num
      linarith
    · refine (Int.zpow_le_iff_le_log (b := 2) (by norm_num) Real.pi_pos).mp ?_
      norm_num
      linarith
  have hulp : ulp Real.pi = 1 / 2 ^ 51 := by
    unfold ulp
    rw [hlog, one_div_zpow]
    norm_num
  have hn : nearestEven (Real.pi / ulp Real.pi) = 7074237752028440 := by
    rw [hulp]
    have h1 : (7074237752028440 : ℝ) - 1 / 3 < Real.pi / (1 / 2 ^ 51) := by
      rw [div_div_eq_mul_div, div_one]; norm_num; linarith
    have h2 : Real.pi / (1 / 2 ^ 51) < (7074237752028440 : ℝ) + 1 / 3 := by
      rw [div_div_eq_mul_div, div_one]; norm_num; linarith
    generalize Real.pi / (1 / 2 ^ 51) = t at h1 h2
    have hr : ⌊t + 1 / 2⌋ = 7074237752028440 := by
      rw [Int.floor_eq_iff]; push_cast; constructor <;> linarith
    unfold nearestEven
    rw [if_neg, round_eq, hr]
    intro h
    have ht : t = ⌊t⌋ + 1 / 2 := by rw [← h, Int.floor_add_fract]
    have : ⌊t + 1 / 2⌋ = ⌊t⌋ + 1 := by
      rw [Int.floor_eq_iff]; push_cast; constructor <;> linarith
    rw [this] at hr
    have h3 : (⌊t⌋ : ℝ) = 7074237752028439 := by
      have : ⌊t⌋ = 7074237752028439 := by omega
      rw [this]; norm_num
    linarith
  rw [rnd53, if_neg Real.pi_ne_zero, hn, hulp]
  norm_num

theorem pi_rep [Trig F64] (hpi : (Trig.pi : F64) = pi64) : Rep 52 2 (Trig.pi : F64) (Trig.pi : Rd rnd53) := by
  have hv : (Trig.pi : Rd rnd53).val = ((884279719003555 / 2 ^ 48 : ℚ) : ℝ) := pi64_nearest
  have hs : rnd53 ((884279719003555 / 2 ^ 48 : ℚ) : ℝ) = ((884279719003555 / 2 ^ 48 : ℚ) : ℝ) := by
    rw [← pi64_nearest, rounding_rnd53.idem]
  rw [hpi]
  refine ⟨⟨_, rfl, hv⟩, by rw [hv, hs], ?_, ?_⟩
  · rw [hv]
    exact mult_of_stored (m := 0) hs (by push_cast; rw [abs_of_pos (by norm_num)]; norm_num)
  · rw [hv]; push_cast; rw [abs_of_pos (by norm_num)]; norm_num

/-- table entries: same names, same classes, same numbers, not zero -/
def EntrySame (a : String × String × F64) (b : String × String × Rd rnd53) : Prop :=
  a.1 = b.1 ∧ a.2.1 = b.2.1 ∧ Rep 130 60 a.2.2 b.2.2 ∧ b.2.2.val ≠ 0

theorem table_same [Trig F64] (hpi : (Trig.pi : F64) = pi64) : List.Forall₂ EntrySame (table (α := F64)) (table (α := Rd rnd53)) := by
  have int : ∀ (k : ℤ) (f : ℕ), |k| ≤ 2 ^ f → f ≤ 53 → Rep 0 f (Num.lit (k : ℚ) : F64) (Num.lit (k : ℚ)) := fun k f => Rep.lit
  have i1 : Rep 0 0 (Num.lit 1 : F64) (Num.lit 1) := by simpa using int 1 0 (by norm_num) (by norm_num)
  have i60 : Rep 0 6 (Num.lit 60 : F64) (Num.lit 60) := by simpa using int 60 6 (by norm_num) (by norm_num)
  have i24 : Rep 0 6 (Num.lit 24 : F64) (Num.lit 24) := by simpa using int 24 6 (by norm_num) (by norm_num)
  have i180 : Rep 0 8 (Num.lit 180 : F64) (Num.lit 180) := by simpa using int 180 8 (by norm_num) (by norm_num)
  have ne : ∀ {a b : String} {A : UnitDef} (x : Rd rnd53), UnitIs a A → lookup (some a) = .ok (b, x) → x.val ≠ 0 := by
    intro a b A x ha hx
    obtain ⟨y, hy, t, ht, e⟩ := lookup_near rounding_rnd53 ha
    rw [hy] at hx
    injection hx with hx
    injection hx with _ hx
    rw [← hx, e]
    exact (mul_pos (size_pos ha) (ht.pos rounding_rnd53.lt_one)).ne'
  have vpos : ∀ q : ℚ, 0 < q → (Num.lit q : Rd rnd53).val ≠ 0 := fun q hq => by
    rw [Rd.val_lit]; exact (rnd53_pos (by exact_mod_cast hq)).ne'
  have kLit : ∀ q : ℚ, 1 / 64 ≤ q → q ≤ 1024 → Rep 58 10 (Num.lit q : F64) (Num.lit q) := fun q h1 h2 => by
    have h0 : (0 : ℚ) ≤ q := by linarith
    have c1 := (Rat.cast_le (K := ℝ)).mpr h1
    have c2 := (Rat.cast_le (K := ℝ)).mpr h2
    push_cast at c1 c2
    refine Rep.lit' (m := 6) ?_ ?_ (by norm_num) (by norm_num)
    · rw [abs_of_nonneg (by exact_mod_cast h0)]; norm_num; linarith
    · rw [abs_of_nonneg (by exact_mod_cast h0)]; norm_num; linarith
  have kDiv : ∀ q : ℚ, 1 / 64 ≤ q → q ≤ 1024 → Rep 130 60 (Num.lit 1 / Num.lit q : F64) (Num.lit 1 / Num.lit q) := fun q h1 h2 =>
    (i1.div (kLit q h1 h2) (vpos q (by linarith)) (by norm_num) (by norm_num)).mono (by norm_num) (by norm_num)
  have pip : (Trig.pi : Rd rnd53).val ≠ 0 := (rnd53_pos Real.pi_pos).ne'
  have kRad : Rep 130 60 (Num.lit 1 * Num.lit 180 / Trig.pi : F64) (Num.lit 1 * Num.lit 180 / Trig.pi) :=
    ((i1.mul i180 (by norm_num) (by norm_num)).div (pi_rep hpi) pip (by norm_num) (by norm_num)).mono (by norm_num) (by norm_num)
  have kMin := i1.mul i60 (by norm_num) (by norm_num)
  have kHour := i60.mul kMin (by norm_num) (by norm_num)
  have kDay := kHour.mul i24 (by norm_num) (by norm_num)
  have kYear := kDay.mul (kLit 365.242 (by norm_num) (by norm_num)) (by norm_num) (by norm_num)
  have nz : ∀ x ∈ (table (α := Rd rnd53)), x.2.2.val ≠ 0 := by
    have hall := table_near rounding_rnd53
    intro x hx
    obtain ⟨i, hi, rfl⟩ := List.mem_iff_getElem.mp hx
    have hlen := hall.length_eq
    have hn := List.forall₂_iff_get.mp hall |>.2 i hi (hlen ▸ hi)
    obtain ⟨-, -, t, ht, e⟩ := hn
    rw [List.get_eq_getElem] at e
    rw [e]
    refine (mul_pos ?_ (ht.pos rounding_rnd53.lt_one)).ne'
    have : ∀ y ∈ (table (α := ℝ)), 0 < y.2.2 := by
      intro y hy
      unfold table at hy
      simp only [List.mem_cons, List.not_mem_nil, or_false] at hy
      have := Real.pi_pos
      rcases hy with h | h | h | h | h | h | h | h | h | h | h | h | h | h | h | h | h | h | h | h | h | h | h | h | h | h | h | h | h |
        h | h | h | h | h | h | h | h | h | h | h | h | h | h | h <;> rw [h] <;> simp <;> try positivity
    exact this _ (List.getElem_mem _)
  have hrep : List.Forall₂ (fun a b => a.1 = b.1 ∧ a.2.1 = b.2.1 ∧ Rep 130 60 a.2.2 b.2.2) (table (α := F64)) (table (α := Rd rnd53)) := by
    unfold table
    repeat' first | exact List.Forall₂.nil | refine List.Forall₂.cons ⟨rfl, rfl, ?_⟩ ?_
    all_goals first
      | exact i1.mono (by norm_num) (by norm_num)
      | exact kDiv _ (by norm_num) (by norm_num)
      | exact (kLit _ (by norm_num) (by norm_num)).mono (by norm_num) (by norm_num)
      | exact kRad
      | exact kMin.mono (by norm_num) (by norm_num)
      | exact kHour.mono (by norm_num) (by norm_num)
      | exact kDay.mono (by norm_num) (by norm_num)
      | exact kYear.mono (by norm_num) (by norm_num)
  clear kRad kMin kHour kDay kYear kDiv kLit
  generalize table (α := F64) = T at hrep ⊢
  generalize table (α := Rd rnd53) = T' at hrep nz ⊢
  induction hrep with
  | nil => exact .nil
  | cons h _ ih => exact .cons ⟨h.1, h.2.1, h.2.2, nz _ (by simp)⟩ (ih fun x hx => nz x (by simp [hx]))

theorem get?_same (n : String) : ∀ (d : Dict String (String × F64)) (d' : Dict String (String × Rd rnd53)), List.Forall₂ EntrySame d d' →
    (Dict.get? d n = none ∧ Dict.get? d' n = none) ∨ ∃ c x y, Dict.get? d n = some (c, x) ∧ Dict.get? d' n = some (c, y) ∧
      Rep 130 60 x y ∧ y.val ≠ 0 := by
  intro d d' hd
  induction hd with
  | nil => left; simp
  | @cons a b l l' hab hl ih =>
    obtain ⟨ha, hc, ht⟩ := hab
    obtain ⟨an, ac, ax⟩ := a
    obtain ⟨bn, bc, bx⟩ := b
    simp only at ha hc ht
    subst ha; subst hc
    rw [Dict.get?_cons, Dict.get?_cons]
    by_cases hn : an = n
    · rw [if_pos hn, if_pos hn]
      exact Or.inr ⟨_, _, _, rfl, rfl, ht⟩
    · rw [if_neg hn, if_neg hn]
      exact ih

theorem lookup_same [Trig F64] (hpi : (Trig.pi : F64) = pi64) (n : Option String) :
    (lookup (α := F64) n = .error .KeyError ∧ lookup (α := Rd rnd53) n = .error .KeyError) ∨
    ∃ c x y, lookup (α := F64) n = .ok (c, x) ∧ lookup (α := Rd rnd53) n = .ok (c, y) ∧ Rep 130 60 x y ∧ y.val ≠ 0 := by
  cases n with
  | none => left; exact ⟨rfl, rfl⟩
  | some n =>
    unfold lookup
    rcases get?_same n _ _ (table_same hpi) with ⟨h1, h2⟩ | ⟨c, x, y, h1, h2, h3⟩
    · left; simp [h1, h2, raise]
    · right; exact ⟨c, x, y, by simp [h1], by simp [h2], h3⟩

theorem factor_same [Trig F64] (hpi : (Trig.pi : F64) = pi64) (a b c : Option String) :
    (∃ e, factor (α := F64) a b c = .error e ∧ factor (α := Rd rnd53) a b c = .error e) ∨
    ∃ x y, factor (α := F64) a b c = .ok x ∧ factor (α := Rd rnd53) a b c = .ok y ∧ Rep 250 200 x y := by
  have i1 : Rep 250 200 (Num.lit 1 : F64) (Num.lit 1) := by
    have := Rep.lit (k := 1) (f := 0) (by norm_num) (by norm_num)
    simpa using this.mono (by norm_num) (by norm_num)
  unfold factor
  by_cases h1 : (blank a && blank b) = true
  · rw [if_pos h1, if_pos h1]; exact Or.inr ⟨_, _, rfl, rfl, i1⟩
  rw [if_neg h1, if_neg h1]
  by_cases h2 : a = b
  · rw [if_pos h2, if_pos h2]; exact Or.inr ⟨_, _, rfl, rfl, i1⟩
  rw [if_neg h2, if_neg h2]
  rcases lookup_same hpi a with ⟨e1, e2⟩ | ⟨ca, x, y, e1, e2, hx, -⟩
  · rw [e1, e2]; exact Or.inl ⟨_, rfl, rfl⟩
  rcases lookup_same hpi b with ⟨k1, k2⟩ | ⟨cb, x', y', k1, k2, hx', hy'⟩
  · rw [e1, e2, k1, k2]; exact Or.inl ⟨_, rfl, rfl⟩
  rw [e1, e2, k1, k2]
  simp only [ok_bind]
  by_cases h3 : ca ≠ cb
  · rw [if_pos h3, if_pos h3]; exact Or.inl ⟨_, rfl, rfl⟩
  rw [if_neg h3, if_neg h3]
  by_cases h4 : (!blank c && c != some ca) = true
  · rw [if_pos h4, if_pos h4]; exact Or.inl ⟨_, rfl, rfl⟩
  rw [if_neg h4, if_neg h4]
  right
  have hz : ¬ Num.eq y' (Num.lit 0) = true := by rw [Rd.eq_iff, Rd.val_lit]; push_cast; rw [rnd53_zero]; exact hy'
  unfold pyDiv
  rw [hx'.eq Rep.zero', if_neg hz, if_neg hz]
  exact ⟨_, _, rfl, rfl, (hx.div hx' hy' (by norm_num) (by norm_num)).mono (by norm_num) (by norm_num)⟩

end FRU
open FR FRU

/-- **C106.** `math.pi`, a number of 53 bits, is π correctly rounded: the distance is less than half a unit in the last place. -/
theorem C106_pi : Same pi64 (Trig.pi : Rd rnd53) ∧ |Real.pi - ((884279719003555 / 2 ^ 48 : ℚ) : ℝ)| < 1 / 2 ^ 52 := by
  refine ⟨⟨_, rfl, pi64_nearest⟩, ?_⟩
  have hg := Real.pi_gt_d20
  have hl := Real.pi_lt_d20
  push_cast
  rw [abs_lt]
  constructor <;> norm_num <;> linarith

/-- **C106.** Factors and conversions between units, whatever the arguments, fail with the same error or give the same numbers. -/
theorem C106_units [Trig F64] (hpi : (Trig.pi : F64) = pi64) (a b c : Option String) (v : F64) (hv : Moderate v) :
    (∃ e, convert (some v) a b c = .error e ∧ convert (some (wide v)) a b c = .error e) ∨
    ∃ w w', convert (some v) a b c = .ok (some w, b) ∧ convert (some (wide v)) a b c = .ok (some w', b) ∧ Same w w' := by
  unfold convert
  rcases factor_same hpi a b c with ⟨e, h1, h2⟩ | ⟨x, y, h1, h2, h3⟩
  · rw [h1, h2]; exact Or.inl ⟨e, rfl, rfl⟩
  · rw [h1, h2]
    exact Or.inr ⟨_, _, rfl, rfl, same_of ((moderate_rep hv).mul h3 (by norm_num) (by norm_num))⟩

/-- **C106.** So a conversion of a moderate double between units of one kind has relative error at most `gam 2^-53 6`. -/
theorem C106_convert_error [Trig F64] (hpi : (Trig.pi : F64) = pi64) {a b : String} {A B : UnitDef} (ha : UnitIs a A) (hb : UnitIs b B)
    (hc : A.cls = B.cls) (v : F64) (q : ℚ) (hv : Moderate v) (hq : v.val? = some q) :
    ∃ (w : F64) (r : ℚ), convert (some v) (some a) (some b) none = .ok (some w, some b) ∧ w.val? = some r ∧
      |(r : ℝ) - q * A.size / B.size| ≤ gam (1 / 2 ^ 53) 6 * |q * A.size / B.size| := by
  obtain ⟨w', h1, h2⟩ := C82_convert rounding_rnd53 (by norm_num) ha hb hc (wide v)
  have hw : (wide v).val = q := by unfold wide; rw [hq]; rfl
  rcases C106_units hpi (some a) (some b) none v hv with ⟨e, _, e2⟩ | ⟨w, w'', e1, e2, r, h3, h4⟩
  · rw [e2] at h1; cases h1
  · rw [e2] at h1
    injection h1 with h1
    injection h1 with h1 _
    injection h1 with h1
    subst h1
    rw [h4, hw] at h2
    exact ⟨w, r, e1, h3, h2⟩

/-- **C106**, a case: 12.5 feet in inches. -/
theorem C106_units_witness : Moderate (.num (25 / 2)) ∧ (∃ A B, UnitIs "ft" A ∧ UnitIs "in" B ∧ A.cls = B.cls) ∧
    ∃ t : Trig F64, t.pi = pi64 :=
  ⟨⟨_, rfl, by decide +kernel, Or.inr ⟨by decide +kernel, by decide +kernel⟩⟩, ⟨_, _, rfl, rfl, rfl⟩, ⟨pi64, id, id, id⟩, rfl⟩

end Blmath.Props
