import Verif.Proofs.Value
import Verif.Proofs.Rounding
import Verif.Props.Units
import Verif.Spec.ValueHistory
import Verif.Model.Console
import Verif.Base.Fl

/-!
Properties C06–C10 and C69: `blmath/value.py`, `blmath/console.py`.
-/

namespace Blmath.Props
open Blmath Blmath.Value Blmath.Spec

/-! ### C06 -/

theorem measures_good {u k : Option String} {s : ℝ} (h : Measures u k s) : GoodUnits u :=
  (good_iff u).mpr ⟨k, s, h⟩

/-- C06.  Adding and subtracting Values of one kind, in any units: the result carries the left
operand's units and denotes the sum / difference of the physical quantities. -/
theorem C06_add_sub {a b : Value ℝ} {k : Option String} {qa qb : ℝ}
    (ha : Denotes a k qa) (hb : Denotes b k qb) :
    (∃ r, a.add (.val b) = .ok (.val r) ∧ r.units = a.units ∧ Denotes r k (qa + qb)) ∧
    (∃ r, a.sub (.val b) = .ok (.val r) ∧ r.units = a.units ∧ Denotes r k (qa - qb)) ∧
    (∃ r, a.rsub (.val b) = .ok (.val r) ∧ r.units = b.units ∧ Denotes r k (qb - qa)) := by
  obtain ⟨s, hs, rfl⟩ := ha
  obtain ⟨t, ht, rfl⟩ := hb
  have sp := measures_pos hs
  have tp := measures_pos ht
  refine ⟨⟨⟨a.value + b.value * t / s, a.units⟩, ?_, rfl, s, hs, ?_⟩,
    ⟨⟨a.value - b.value * t / s, a.units⟩, ?_, rfl, s, hs, ?_⟩,
    ⟨⟨b.value - a.value * s / t, b.units⟩, ?_, rfl, t, ht, ?_⟩⟩
  · simp [add, comparable, convert_same ht hs, make_good (measures_good hs)]
  · simp only; field_simp
  · simp [sub, comparable, convert_same ht hs, make_good (measures_good hs)]
  · simp only; field_simp
  · simp [rsub, sub, comparable, convert_same hs ht, make_good (measures_good ht)]
  · simp only; field_simp

/-- C06.  Scalars: added or subtracted they are read in the Value's own units; multiplication,
division, negation and absolute value act on the quantity; units never change. -/
theorem C06_scalar {a : Value ℝ} {k : Option String} {qa x qx : ℝ}
    (ha : Denotes a k qa) (hx : Denotes ⟨x, a.units⟩ k qx) :
    (∃ r, a.add (.num x) = .ok (.val r) ∧ r.units = a.units ∧ Denotes r k (qa + qx)) ∧
    (∃ r, a.sub (.num x) = .ok (.val r) ∧ r.units = a.units ∧ Denotes r k (qa - qx)) ∧
    (∃ r, a.rsub (.num x) = .ok (.val r) ∧ r.units = a.units ∧ Denotes r k (qx - qa)) ∧
    (∃ r, a.mul (.num x) = .ok (.val r) ∧ r.units = a.units ∧ Denotes r k (qa * x)) ∧
    (x ≠ 0 → ∃ r, a.truediv (.num x) = .ok r ∧ r.units = a.units ∧ Denotes r k (qa / x)) ∧
    (x = 0 → a.truediv (.num x) = .error .ZeroDivisionError) ∧
    (∃ r, a.neg = .ok r ∧ r.units = a.units ∧ Denotes r k (-qa)) ∧
    (∃ r, Value.abs a = .ok r ∧ r.units = a.units ∧ Denotes r k |qa|) ∧
    a.pos = .ok a := by
  obtain ⟨s, hs, rfl⟩ := ha
  obtain ⟨t, ht, rfl⟩ := hx
  obtain ⟨-, rfl⟩ := Measures.unique hs ht
  have sp := measures_pos hs
  have hg := measures_good hs
  refine ⟨⟨⟨a.value + x, a.units⟩, by simp [add, comparable, make_good hg], rfl, s, hs, by ring⟩,
    ⟨⟨a.value - x, a.units⟩, by simp [sub, comparable, make_good hg], rfl, s, hs, by ring⟩,
    ⟨⟨x - a.value, a.units⟩, by simp [rsub, comparable, make_good hg], rfl, s, hs, by ring⟩,
    ⟨⟨a.value * x, a.units⟩, by simp [mul, make_good hg], rfl, s, hs, by ring⟩, ?_, ?_,
    ⟨⟨-a.value, a.units⟩, by simp [neg, make_good hg], rfl, s, hs, by ring⟩, ?_, rfl⟩
  · intro h
    exact ⟨⟨a.value / x, a.units⟩, by simp [truediv, Units.pyDiv_real h, make_good hg], rfl, s,
      hs, by ring⟩
  · rintro rfl
    simp [truediv, Units.pyDiv_real_zero]
  · refine ⟨⟨pyAbs a.value, a.units⟩, by simp [Value.abs, make_good hg], rfl, s, hs, ?_⟩
    simp only [pyAbs, Num.lt_real, Num.lit_real, Rat.cast_zero]
    rw [abs_mul, abs_of_pos sp]
    split_ifs with h
    · rw [abs_of_neg h]
    · rw [abs_of_nonneg (not_lt.mp h)]

/-- the exception raised when the kinds of two Values differ: `KeyError` if only the left
operand is unitless, `ValueError` otherwise -/
def kindError (a : Value ℝ) : PyErr := if a.units = none then .KeyError else .ValueError

/-- C06.  Values of different kinds are never added or subtracted. -/
theorem C06_cross_kind {a b : Value ℝ} {k l : Option String} {qa qb : ℝ}
    (ha : Denotes a k qa) (hb : Denotes b l qb) (hkl : k ≠ l) :
    a.add (.val b) = .error (kindError a) ∧ a.sub (.val b) = .error (kindError a) ∧
    a.rsub (.val b) = .error (kindError b) := by
  obtain ⟨s, hs, rfl⟩ := ha
  obtain ⟨t, ht, rfl⟩ := hb
  simp [add, sub, rsub, comparable, convert_other ht hs hkl.symm, convert_other hs ht hkl,
    kindError]

/-- C06.  Operations with no meaningful unit always raise. -/
theorem C06_forbidden (a b : Value ℝ) (o : Operand ℝ) :
    a.mul (.val b) = .error .ValueError ∧ a.rtruediv o = .error .ValueError ∧
    a.modPow o = .error .AttributeError ∧
    (∀ xs, a.truediv (.list xs) = .error .TypeError) := by
  simp [mul, rtruediv, modPow, truediv]

/-- C06.  Iterables are handled elementwise, in order, for `+`, `-` (both sides) and `*`; the
first element that raises decides. -/
theorem C06_iterables (a : Value ℝ) (xs : List (Operand ℝ)) :
    a.add (.list xs) = (do let ys ← xs.mapM a.add; pure (.list ys)) ∧
    a.sub (.list xs) = (do let ys ← xs.mapM a.sub; pure (.list ys)) ∧
    a.rsub (.list xs) = (do let ys ← xs.mapM a.rsub; pure (.list ys)) ∧
    a.mul (.list xs) = (do let ys ← xs.mapM a.mul; pure (.list ys)) := by
  have h1 : ∀ xs, addList a xs = xs.mapM a.add := by
    intro xs; induction xs with
    | nil => simp [addList]
    | cons x xs ih => simp [addList, ih, List.mapM_cons]
  have h2 : ∀ xs, subList a xs = xs.mapM a.sub := by
    intro xs; induction xs with
    | nil => simp [subList]
    | cons x xs ih => simp [subList, ih, List.mapM_cons]
  have h3 : ∀ xs, rsubList a xs = xs.mapM a.rsub := by
    intro xs; induction xs with
    | nil => simp [rsubList]
    | cons x xs ih => simp [rsubList, ih, List.mapM_cons]
  have h4 : ∀ xs, mulList a xs = xs.mapM a.mul := by
    intro xs; induction xs with
    | nil => simp [mulList]
    | cons x xs ih => simp [mulList, ih, List.mapM_cons]
  simp [add, sub, rsub, mul, h1, h2, h3, h4]

/-- Non-vacuity of C06: one foot plus one inch. -/
example : Denotes ⟨1, some "ft"⟩ (some "length") 0.3048 ∧
    Denotes ⟨1, some "in"⟩ (some "length") 0.0254 := by
  refine ⟨⟨_, ⟨_, rfl, rfl, rfl⟩, ?_⟩, ⟨_, ⟨_, rfl, rfl, rfl⟩, ?_⟩⟩ <;> norm_num

/-- Non-vacuity of the cross-kind case. -/
example : Denotes ⟨1, some "kg"⟩ (some "weight") 1 ∧ Denotes ⟨2, none⟩ none 2 := by
  refine ⟨⟨_, ⟨_, rfl, rfl, rfl⟩, ?_⟩, ⟨_, ⟨rfl, rfl⟩, ?_⟩⟩ <;> norm_num

/-- C04, as a method of Value.  For a known unit and either system the result is in the system's unit for that kind and
denotes the same quantity.  Unitless Values, labels that are not units, and unknown systems raise KeyError. -/
theorem C04_value (v : Value ℝ) (system : String) :
    (∀ u U, v.units = some u → UnitIs u U → system = "metric" ∨ system = "united_states" →
      ∃ r t, systemUnit system U.cls = some t ∧ v.convertToSystemDefault system = .ok r ∧ r.units = some t ∧
        ∀ k q, Denotes v k q → Denotes r k q) ∧
    (v.units = none → v.convertToSystemDefault system = .error .KeyError) ∧
    (¬ GoodUnits v.units → v.convertToSystemDefault system = .error .KeyError) ∧
    (system ≠ "metric" → system ≠ "united_states" → v.convertToSystemDefault system = .error .KeyError) := by
  obtain ⟨x, w⟩ := v
  have hc : Units.unitsClass ℝ w = .ok none ∨ (∃ c, Units.unitsClass ℝ w = .ok (some c)) ∨
      Units.unitsClass ℝ w = .error .KeyError := by
    cases w with
    | none => left; simp [Units.unitsClass, Units.blank]
    | some u =>
      by_cases he : u = ""
      · subst he; left; simp [Units.unitsClass, Units.blank]
      · right
        cases h : unitOf u with
        | some U => left; exact ⟨U.cls, by simp [Units.unitsClass, Units.blank_unit h, Units.lookup_known h]⟩
        | none => right; simp [Units.unitsClass, Units.blank, he, Units.lookup_unknown (show Unknown u from h)]
  have hsys : system ≠ "metric" → system ≠ "united_states" → convertToSystemDefault (⟨x, w⟩ : Value ℝ) system = .error .KeyError := by
    intro h1 h2
    rcases hc with hc | ⟨c, hc⟩ | hc <;> simp [convertToSystemDefault, hc, (C04_default_units system []).1 h1 h2]
  have hnone : Units.unitsClass ℝ w = .ok none → convertToSystemDefault (⟨x, w⟩ : Value ℝ) system = .error .KeyError := by
    intro hn
    by_cases hs : system = "metric" ∨ system = "united_states"
    · obtain ⟨d, hd, -⟩ := (C04_default_units system []).2 hs
      simp [convertToSystemDefault, hn, hd]
    · exact hsys (fun h => hs (.inl h)) (fun h => hs (.inr h))
  refine ⟨?_, ?_, ?_, hsys⟩
  · rintro u U rfl hU hs
    obtain ⟨t, T, ht, hT, hcl⟩ := systemUnit_known hU hs
    obtain ⟨d, hd, hget⟩ := (C04_default_units system []).2 hs
    have h2 := hget U.cls
    simp only [List.reverse_nil, Dict.get?_nil] at h2
    rw [ht] at h2
    have hm : Measures (⟨x, some u⟩ : Value ℝ).units (some U.cls) U.size := ⟨U, hU, rfl, rfl⟩
    have hmt : Measures (some t) (some U.cls) T.size := ⟨T, hT, by rw [hcl], rfl⟩
    refine ⟨⟨x * U.size / T.size, some t⟩, t, ht, ?_, rfl, ?_⟩
    · simp only [convertToSystemDefault, Units.unitsClass, Units.blank_unit hU, Units.lookup_known hU, hd, h2, ok_bind, pure_eq_ok,
        Bool.false_eq_true, if_false]
      exact convert_same hm hmt
    · rintro k q ⟨s, hs', rfl⟩
      obtain ⟨rfl, rfl⟩ := Measures.unique hm hs'
      have := measures_pos hmt
      exact ⟨T.size, hmt, by simp only; field_simp⟩
  · rintro rfl
    exact hnone (by simp [Units.unitsClass, Units.blank])
  · intro hb
    cases w with
    | none => exact absurd (.inl rfl) hb
    | some u =>
      rcases hc with hc | ⟨c, hc⟩ | hc
      · exact hnone hc
      · exfalso
        cases h : unitOf u with
        | some U => exact hb (.inr ⟨u, U, rfl, h⟩)
        | none =>
          by_cases he : u = ""
          · subst he; simp [Units.unitsClass, Units.blank] at hc
          · simp [Units.unitsClass, Units.blank, he, Units.lookup_unknown (show Unknown u from h)] at hc
      · simp [convertToSystemDefault, hc]

/-- Non-vacuity: one foot in the units of the United States is a number of inches that denotes 0.3048 metres. -/
example : ∃ r, (⟨1, some "ft"⟩ : Value ℝ).convertToSystemDefault "united_states" = .ok r ∧ r.units = some "in" ∧
    Denotes r (some "length") 0.3048 := by
  obtain ⟨r, t, ht, hr, hu, hd⟩ := (C04_value ⟨1, some "ft"⟩ "united_states").1 "ft" _ rfl rfl (.inr rfl)
  have h1 : some "in" = some t := ht
  exact ⟨r, hr, hu.trans h1.symm, hd _ _ ⟨_, ⟨_, rfl, rfl, rfl⟩, by norm_num⟩⟩

/-! ### C07 -/

/-- the mathematical relation a comparison operator stands for -/
def cmpRel : Cmp → ℝ → ℝ → Prop
  | .eq => (· = ·)
  | .ne => (· ≠ ·)
  | .lt => (· < ·)
  | .gt => (· > ·)
  | .le => (· ≤ ·)
  | .ge => (· ≥ ·)

/-- C07.  Every comparison of two Values of one kind returns, and agrees with the comparison of
the physical quantities. -/
theorem C07_compare {a b : Value ℝ} {k : Option String} {qa qb : ℝ}
    (ha : Denotes a k qa) (hb : Denotes b k qb) (c : Cmp) :
    ∃ r, compareOp c a (.val b) = .ok r ∧ (r = true ↔ cmpRel c qa qb) := by
  obtain ⟨s, hs, rfl⟩ := ha
  obtain ⟨t, ht, rfl⟩ := hb
  have sp := measures_pos hs
  refine ⟨_, by simp [compareOp, comparable, convert_same ht hs]; rfl, ?_⟩
  cases c <;> simp only [Cmp.apply, cmpRel, Num.eq_real, Num.lt_real, Num.le_real,
    Bool.not_eq_true', Bool.eq_false_iff, ne_eq, gt_iff_lt, ge_iff_le]
  · exact eq_div_iff sp.ne'
  · exact not_congr (eq_div_iff sp.ne')
  · exact lt_div_iff₀ sp
  · exact div_lt_iff₀ sp
  · exact le_div_iff₀ sp
  · exact div_le_iff₀ sp

/-- C07.  Hence the comparisons form a total preorder across all units of a kind: exactly one of
`<`, `==`, `>`; `<=` is transitive and antisymmetric up to `==`; the six operators are
mutually consistent. -/
theorem C07_total_preorder {a b c : Value ℝ} {k : Option String} {qa qb qc : ℝ}
    (ha : Denotes a k qa) (hb : Denotes b k qb) (hc : Denotes c k qc) :
    -- trichotomy
    ((compareOp .lt a (.val b) = .ok true ∧ compareOp .eq a (.val b) = .ok false ∧
        compareOp .gt a (.val b) = .ok false) ∨
     (compareOp .lt a (.val b) = .ok false ∧ compareOp .eq a (.val b) = .ok true ∧
        compareOp .gt a (.val b) = .ok false) ∨
     (compareOp .lt a (.val b) = .ok false ∧ compareOp .eq a (.val b) = .ok false ∧
        compareOp .gt a (.val b) = .ok true)) ∧
    -- transitivity
    (compareOp .le a (.val b) = .ok true → compareOp .le b (.val c) = .ok true →
      compareOp .le a (.val c) = .ok true) ∧
    (compareOp .lt a (.val b) = .ok true → compareOp .lt b (.val c) = .ok true →
      compareOp .lt a (.val c) = .ok true) ∧
    (compareOp .eq a (.val b) = .ok true → compareOp .eq b (.val c) = .ok true →
      compareOp .eq a (.val c) = .ok true) ∧
    -- antisymmetry, symmetry, reflection
    (compareOp .le a (.val b) = .ok true → compareOp .le b (.val a) = .ok true →
      compareOp .eq a (.val b) = .ok true) ∧
    compareOp .eq a (.val b) = compareOp .eq b (.val a) ∧
    compareOp .lt a (.val b) = compareOp .gt b (.val a) ∧
    compareOp .le a (.val b) = compareOp .ge b (.val a) ∧
    compareOp .eq a (.val a) = .ok true := by
  have key : ∀ {x y : Value ℝ} {qx qy : ℝ}, Denotes x k qx → Denotes y k qy → ∀ (o : Cmp),
      compareOp o x (.val y) = .ok (open Classical in decide (cmpRel o qx qy)) := by
    intro x y qx qy hx hy o
    obtain ⟨r, hr, hi⟩ := C07_compare hx hy o
    rw [hr]
    congr 1
    by_cases h : cmpRel o qx qy
    · simp [h, hi.mpr h]
    · simp only [h, decide_false]
      exact Bool.eq_false_iff.mpr fun e => h (hi.mp e)
  simp only [key ha hb, key hb hc, key ha hc, key hb ha, key ha ha, Except.ok.injEq,
    decide_eq_true_eq, decide_eq_false_iff_not, decide_eq_decide]
  simp only [cmpRel]
  refine ⟨?_, fun h1 h2 => h1.trans h2, fun h1 h2 => lt_trans h1 h2, fun h1 h2 => h1.trans h2,
    fun h1 h2 => le_antisymm h1 h2, eq_comm, trivial, trivial, trivial⟩
  rcases lt_trichotomy qa qb with h | h | h
  · exact Or.inl ⟨h, h.ne, not_lt.mpr h.le⟩
  · exact Or.inr (Or.inl ⟨not_lt.mpr h.ge, h, not_lt.mpr h.le⟩)
  · exact Or.inr (Or.inr ⟨not_lt.mpr h.le, h.ne', h⟩)

/-- C07.  Values of different kinds are never compared (not even for equality); scalars are read
in the Value's own units; comparing with a list raises. -/
theorem C07_edges {a b : Value ℝ} {k l : Option String} {qa qb : ℝ}
    (ha : Denotes a k qa) (hb : Denotes b l qb) (hkl : k ≠ l) (c : Cmp) (x : ℝ)
    (xs : List (Operand ℝ)) :
    compareOp c a (.val b) = .error (kindError a) ∧
    (∃ r, compareOp c a (.num x) = .ok r ∧ (r = true ↔ cmpRel c a.value x)) ∧
    compareOp c a (.list xs) = .error .TypeError := by
  obtain ⟨s, hs, rfl⟩ := ha
  obtain ⟨t, ht, rfl⟩ := hb
  refine ⟨by simp [compareOp, comparable, convert_other ht hs hkl.symm, kindError],
    ⟨_, by simp [compareOp, comparable]; rfl, ?_⟩, by simp [compareOp, comparable]⟩
  cases c <;> simp [Cmp.apply, cmpRel, Bool.eq_false_iff]

/-! ### C08 -/

/-- C08.  The quotient of two Values of one kind is the unitless ratio of the quantities, and the
floor quotient its floor — so neither changes when an operand is re-expressed in other units. -/
theorem C08_ratio {a b : Value ℝ} {k : Option String} {qa qb : ℝ}
    (ha : Denotes a k qa) (hb : Denotes b k qb) :
    (qb ≠ 0 → a.truediv (.val b) = .ok ⟨qa / qb, none⟩ ∧
      a.floordiv (.val b) = .ok ⟨(⌊qa / qb⌋ : ℤ), none⟩) ∧
    (qb = 0 → a.truediv (.val b) = .error .ZeroDivisionError ∧
      a.floordiv (.val b) = .error .ZeroDivisionError) := by
  obtain ⟨s, hs, rfl⟩ := ha
  obtain ⟨t, ht, rfl⟩ := hb
  have sp := measures_pos hs
  constructor
  · intro h
    have h' : b.value * t / s ≠ 0 := div_ne_zero h sp.ne'
    have e : a.value / (b.value * t / s) = a.value * s / (b.value * t) := by
      rw [div_div_eq_mul_div]
    constructor
    · simp only [truediv, convert_same ht hs, ok_bind, Units.pyDiv_real h', e]
      rfl
    · simp only [floordiv, convert_same ht hs, ok_bind, pyFloorDiv, Units.pyDiv_real h', e,
        Num.floor_real, ofInt, pyFinite]
      simp [make]
  · intro h
    have h' : b.value * t / s = 0 := by rw [h, zero_div]
    simp [truediv, floordiv, pyFloorDiv, convert_same ht hs, h', Units.pyDiv_real_zero]

/-- C08.  Re-expressing either operand in any label of its kind leaves both quotients unchanged. -/
theorem C08_unit_invariant {a b : Value ℝ} {k u w : Option String} {qa qb su sw : ℝ}
    (ha : Denotes a k qa) (hb : Denotes b k qb) (hu : Measures u k su) (hw : Measures w k sw) :
    ∃ a' b', a.convert u = .ok a' ∧ b.convert w = .ok b' ∧
      a'.truediv (.val b') = a.truediv (.val b) ∧
      a'.floordiv (.val b') = a.floordiv (.val b) := by
  have ha0 := ha
  have hb0 := hb
  obtain ⟨s, hs, hqa⟩ := ha
  obtain ⟨t, ht, hqb⟩ := hb
  have up := measures_pos hu
  have wp := measures_pos hw
  have ha' : Denotes ⟨a.value * s / su, u⟩ k qa := ⟨su, hu, by simp only; rw [hqa]; field_simp⟩
  have hb' : Denotes ⟨b.value * t / sw, w⟩ k qb := ⟨sw, hw, by simp only; rw [hqb]; field_simp⟩
  refine ⟨_, _, convert_same hs hu, convert_same ht hw, ?_, ?_⟩
  · by_cases h : qb = 0
    · rw [((C08_ratio ha' hb').2 h).1, ((C08_ratio ha0 hb0).2 h).1]
    · rw [((C08_ratio ha' hb').1 h).1, ((C08_ratio ha0 hb0).1 h).1]
  · by_cases h : qb = 0
    · rw [((C08_ratio ha' hb').2 h).2, ((C08_ratio ha0 hb0).2 h).2]
    · rw [((C08_ratio ha' hb').1 h).2, ((C08_ratio ha0 hb0).1 h).2]

/-- C08.  The floor quotient by a number is taken in the Value's own units and keeps them, so it does depend on them: see
`C08_floor_number_units`. -/
theorem C08_floor_number (a : Value ℝ) (ha : GoodUnits a.units) (x : ℝ) :
    (x ≠ 0 → a.floordiv (.num x) = .ok ⟨(⌊a.value / x⌋ : ℤ), a.units⟩) ∧
    (x = 0 → a.floordiv (.num x) = .error .ZeroDivisionError) := by
  constructor
  · intro h
    simp [floordiv, pyFloorDiv, Units.pyDiv_real h, pyFinite, ofInt, make_good ha]
  · rintro rfl
    simp [floordiv, pyFloorDiv, Units.pyDiv_real_zero]

/-- C08.  One metre and a hundred centimetres are equal, but not after `// 3`. -/
theorem C08_floor_number_units :
    ∃ r s : Value ℝ, (⟨1, some "m"⟩ : Value ℝ).floordiv (.num 3) = .ok r ∧ (⟨100, some "cm"⟩ : Value ℝ).floordiv (.num 3) = .ok s ∧
      compareOp .eq ⟨1, some "m"⟩ (.val (⟨100, some "cm"⟩ : Value ℝ)) = .ok true ∧ compareOp .eq r (.val s) = .ok false := by
  have hm : ∀ x : ℝ, Denotes ⟨x, some "m"⟩ (some "length") x := fun x => ⟨_, ⟨_, rfl, rfl, rfl⟩, by norm_num⟩
  have hcm : ∀ x : ℝ, Denotes ⟨x, some "cm"⟩ (some "length") (x / 100) := fun x => ⟨_, ⟨_, rfl, rfl, rfl⟩, by norm_num; ring⟩
  refine ⟨_, _, (C08_floor_number ⟨1, some "m"⟩ (.inr ⟨_, _, rfl, rfl⟩) 3).1 (by norm_num),
    (C08_floor_number ⟨100, some "cm"⟩ (.inr ⟨_, _, rfl, rfl⟩) 3).1 (by norm_num), ?_, ?_⟩
  · obtain ⟨r, hr, hi⟩ := C07_compare (hm 1) (hcm 100) .eq
    rw [hr, hi.2 (by norm_num [cmpRel])]
  · obtain ⟨r, hr, hi⟩ := C07_compare (hm ((⌊(1 : ℝ) / 3⌋ : ℤ) : ℝ)) (hcm ((⌊(100 : ℝ) / 3⌋ : ℤ) : ℝ)) .eq
    rw [hr]
    have h1 : ⌊(1 : ℝ) / 3⌋ = 0 := by rw [Int.floor_eq_iff]; norm_num
    have h2 : ⌊(100 : ℝ) / 3⌋ = 33 := by rw [Int.floor_eq_iff]; norm_num
    cases r with
    | false => rfl
    | true => have := hi.1 rfl; rw [h1, h2] at this; norm_num [cmpRel] at this

/-- C08, with infinities and NaN.  Unitless Values of floats: over a nonzero number the floor quotient is the floor of the
quotient; a finite number over an infinity gives 0, or -1 if the signs differ; everything else is NaN. -/
theorem C08_floor_nonfinite (x y : ℝ) :
    (y ≠ 0 → (⟨.fin x, none⟩ : Value Fl).floordiv (.num (.fin y)) = .ok ⟨.fin ⌊x / y⌋, none⟩) ∧
    (⟨.fin x, none⟩ : Value Fl).floordiv (.num .pinf) = .ok ⟨.fin (if x < 0 then -1 else 0), none⟩ ∧
    (⟨.fin x, none⟩ : Value Fl).floordiv (.num .ninf) = .ok ⟨.fin (if 0 < x then -1 else 0), none⟩ ∧
    (∀ a b : Fl, b ≠ .fin 0 → ¬ a.IsFinite ∨ b = .nan → (⟨a, none⟩ : Value Fl).floordiv (.num b) = .ok ⟨.nan, none⟩) ∧
    (∀ a : Fl, (⟨a, none⟩ : Value Fl).floordiv (.num (.fin 0)) = .error .ZeroDivisionError) := by
  have key : ∀ a b : Fl, (⟨a, none⟩ : Value Fl).floordiv (.num b) = (pyFloorDiv a b).map fun q => ⟨q, none⟩ := by
    intro a b
    rw [floordiv]
    cases pyFloorDiv a b <;> simp [make, Except.map]
  have kz : ∀ a : Fl, pyFloorDiv a (.fin 0) = .error .ZeroDivisionError := by
    intro a
    simp [pyFloorDiv, pyDiv, Num.eq, Fl.eq]
  have kd : ∀ a b : Fl, b ≠ .fin 0 → pyDiv a b = .ok (Fl.div a b) := by
    intro a b hb
    have : Num.eq b (Num.lit 0 : Fl) = false := by
      cases b with
      | fin y => simp only [Num.eq, Fl.lit_fl, Fl.eq]; simpa using hb
      | _ => rfl
    simp only [pyDiv, this]; rfl
  refine ⟨?_, ?_, ?_, ?_, ?_⟩
  · intro hy
    rw [key, pyFloorDiv, kd _ _ (by simpa using hy)]
    simp [pyFinite, Num.floor, Fl.div, hy, ofInt, Except.map]
  · rw [key, pyFloorDiv, kd _ _ (by simp)]
    by_cases h : x < 0 <;> simp [pyFinite, Num.floor, Num.lt, Fl.lt, Fl.div, ofInt, Except.map, h]
  · rw [key, pyFloorDiv, kd _ _ (by simp)]
    by_cases h : 0 < x <;> simp [pyFinite, Num.floor, Num.lt, Fl.lt, Fl.div, ofInt, Except.map, h]
  · intro a b hb hab
    rw [key, pyFloorDiv, kd _ _ hb]
    have hs : ∀ r : Fl, Num.floor r = none → (r - r : Fl) = .nan := by
      intro r hr
      cases r with
      | fin r => cases hr
      | _ => rfl
    have hf : Num.floor (Fl.div a b) = none := by
      cases a with
      | fin x => rcases hab with h | rfl; exact absurd ⟨x, rfl⟩ h; rfl
      | nan => rfl
      | pinf =>
        cases b with
        | fin y =>
          have : y ≠ 0 := by simpa using hb
          simp only [Fl.div, this, if_false, Fl.infOf]; split_ifs <;> rfl
        | _ => rfl
      | ninf =>
        cases b with
        | fin y =>
          have : y ≠ 0 := by simpa using hb
          simp only [Fl.div, this, if_false, Fl.infOf]; split_ifs <;> rfl
        | _ => rfl
    have hg : (pyFinite a && !pyFinite b && (Num.lt a (Num.lit 0) && Num.lt (Num.lit 0) b ||
        Num.lt (Num.lit 0) a && Num.lt b (Num.lit 0))) = false := by
      rcases hab with h | rfl
      · cases a with
        | fin x => exact absurd ⟨x, rfl⟩ h
        | _ => rfl
      · cases a <;> simp [Num.lt, Fl.lt]
    simp only [ok_bind, hg, hf, hs _ hf, Bool.false_eq_true, if_false, Except.map]
  · intro a
    rw [key, kz]; rfl

/-- C08.  Incompatible operands raise. -/
theorem C08_cross_kind {a b : Value ℝ} {k l : Option String} {qa qb : ℝ}
    (ha : Denotes a k qa) (hb : Denotes b l qb) (hkl : k ≠ l) :
    a.truediv (.val b) = .error (kindError a) ∧ a.floordiv (.val b) = .error (kindError a) := by
  obtain ⟨s, hs, rfl⟩ := ha
  obtain ⟨t, ht, rfl⟩ := hb
  simp [truediv, floordiv, convert_other ht hs hkl.symm, kindError]

/-- Non-vacuity of C08: 1 ft against 6 in, i.e. 0.3048 over 0.1524. -/
example : Denotes ⟨1, some "ft"⟩ (some "length") 0.3048 ∧
    Denotes ⟨6, some "in"⟩ (some "length") 0.1524 ∧ (0.1524 : ℝ) ≠ 0 := by
  refine ⟨⟨_, ⟨_, rfl, rfl, rfl⟩, ?_⟩, ⟨_, ⟨_, rfl, rfl, rfl⟩, ?_⟩, ?_⟩ <;> norm_num

/-! ### C09 -/

mutual
theorem add_good (a : Value ℝ) : ∀ (x r : Operand ℝ), a.add x = .ok r →
    ∀ v ∈ valuesOf r, GoodUnits v.units
  | .num x, r, h => by
    simp only [add] at h
    obtain ⟨c, -, h⟩ := bind_eq_ok.mp h
    obtain ⟨w, hw, h⟩ := bind_eq_ok.mp h
    cases h
    obtain ⟨hg, -, hu⟩ := make_ok hw
    simpa [valuesOf, hu] using hg
  | .val x, r, h => by
    simp only [add] at h
    obtain ⟨c, -, h⟩ := bind_eq_ok.mp h
    obtain ⟨w, hw, h⟩ := bind_eq_ok.mp h
    cases h
    obtain ⟨hg, -, hu⟩ := make_ok hw
    simpa [valuesOf, hu] using hg
  | .list xs, r, h => by
    simp only [add] at h
    obtain ⟨ys, hys, h⟩ := bind_eq_ok.mp h
    cases h
    exact addList_good a xs ys hys
theorem addList_good (a : Value ℝ) : ∀ (xs ys : List (Operand ℝ)), addList a xs = .ok ys →
    ∀ v ∈ valuesOfList ys, GoodUnits v.units
  | [], ys, h => by cases h; simp [valuesOfList]
  | x :: xs, ys, h => by
    simp only [addList] at h
    obtain ⟨y, hy, h⟩ := bind_eq_ok.mp h
    obtain ⟨zs, hz, h⟩ := bind_eq_ok.mp h
    cases h
    intro v hv
    rcases List.mem_append.mp hv with hv | hv
    · exact add_good a x y hy v hv
    · exact addList_good a xs zs hz v hv
end

mutual
theorem sub_good (a : Value ℝ) : ∀ (x r : Operand ℝ), a.sub x = .ok r →
    ∀ v ∈ valuesOf r, GoodUnits v.units
  | .num x, r, h => by
    simp only [sub] at h
    obtain ⟨c, -, h⟩ := bind_eq_ok.mp h
    obtain ⟨w, hw, h⟩ := bind_eq_ok.mp h
    cases h
    obtain ⟨hg, -, hu⟩ := make_ok hw
    simpa [valuesOf, hu] using hg
  | .val x, r, h => by
    simp only [sub] at h
    obtain ⟨c, -, h⟩ := bind_eq_ok.mp h
    obtain ⟨w, hw, h⟩ := bind_eq_ok.mp h
    cases h
    obtain ⟨hg, -, hu⟩ := make_ok hw
    simpa [valuesOf, hu] using hg
  | .list xs, r, h => by
    simp only [sub] at h
    obtain ⟨ys, hys, h⟩ := bind_eq_ok.mp h
    cases h
    exact subList_good a xs ys hys
theorem subList_good (a : Value ℝ) : ∀ (xs ys : List (Operand ℝ)), subList a xs = .ok ys →
    ∀ v ∈ valuesOfList ys, GoodUnits v.units
  | [], ys, h => by cases h; simp [valuesOfList]
  | x :: xs, ys, h => by
    simp only [subList] at h
    obtain ⟨y, hy, h⟩ := bind_eq_ok.mp h
    obtain ⟨zs, hz, h⟩ := bind_eq_ok.mp h
    cases h
    intro v hv
    rcases List.mem_append.mp hv with hv | hv
    · exact sub_good a x y hy v hv
    · exact subList_good a xs zs hz v hv
end

mutual
theorem rsub_good (a : Value ℝ) : ∀ (x r : Operand ℝ), a.rsub x = .ok r →
    ∀ v ∈ valuesOf r, GoodUnits v.units
  | .num x, r, h => by
    simp only [rsub] at h
    obtain ⟨c, -, h⟩ := bind_eq_ok.mp h
    obtain ⟨w, hw, h⟩ := bind_eq_ok.mp h
    cases h
    obtain ⟨hg, -, hu⟩ := make_ok hw
    simpa [valuesOf, hu] using hg
  | .val x, r, h => by
    simp only [rsub] at h
    exact sub_good x _ r h
  | .list xs, r, h => by
    simp only [rsub] at h
    obtain ⟨ys, hys, h⟩ := bind_eq_ok.mp h
    cases h
    exact rsubList_good a xs ys hys
theorem rsubList_good (a : Value ℝ) : ∀ (xs ys : List (Operand ℝ)), rsubList a xs = .ok ys →
    ∀ v ∈ valuesOfList ys, GoodUnits v.units
  | [], ys, h => by cases h; simp [valuesOfList]
  | x :: xs, ys, h => by
    simp only [rsubList] at h
    obtain ⟨y, hy, h⟩ := bind_eq_ok.mp h
    obtain ⟨zs, hz, h⟩ := bind_eq_ok.mp h
    cases h
    intro v hv
    rcases List.mem_append.mp hv with hv | hv
    · exact rsub_good a x y hy v hv
    · exact rsubList_good a xs zs hz v hv
end

mutual
theorem mul_good (a : Value ℝ) : ∀ (x r : Operand ℝ), a.mul x = .ok r →
    ∀ v ∈ valuesOf r, GoodUnits v.units
  | .num x, r, h => by
    simp only [mul] at h
    obtain ⟨w, hw, h⟩ := bind_eq_ok.mp h
    cases h
    obtain ⟨hg, -, hu⟩ := make_ok hw
    simpa [valuesOf, hu] using hg
  | .val x, r, h => by
    simp [mul] at h
  | .list xs, r, h => by
    simp only [mul] at h
    obtain ⟨ys, hys, h⟩ := bind_eq_ok.mp h
    cases h
    exact mulList_good a xs ys hys
theorem mulList_good (a : Value ℝ) : ∀ (xs ys : List (Operand ℝ)), mulList a xs = .ok ys →
    ∀ v ∈ valuesOfList ys, GoodUnits v.units
  | [], ys, h => by cases h; simp [valuesOfList]
  | x :: xs, ys, h => by
    simp only [mulList] at h
    obtain ⟨y, hy, h⟩ := bind_eq_ok.mp h
    obtain ⟨zs, hz, h⟩ := bind_eq_ok.mp h
    cases h
    intro v hv
    rcases List.mem_append.mp hv with hv | hv
    · exact mul_good a x y hy v hv
    · exact mulList_good a xs zs hz v hv
end

theorem truediv_good (a : Value ℝ) (x : Operand ℝ) (r : Value ℝ) (h : a.truediv x = .ok r) :
    GoodUnits r.units := by
  cases x with
  | num x =>
    obtain ⟨q, -, h⟩ := bind_eq_ok.mp h
    obtain ⟨hg, -, hu⟩ := make_ok h
    rwa [hu]
  | val x =>
    obtain ⟨c, -, h⟩ := bind_eq_ok.mp h
    obtain ⟨q, -, h⟩ := bind_eq_ok.mp h
    obtain ⟨hg, -, hu⟩ := make_ok h
    rwa [hu]
  | list xs => cases h

theorem floordiv_good (a : Value ℝ) (x : Operand ℝ) (r : Value ℝ) (h : a.floordiv x = .ok r) :
    GoodUnits r.units := by
  cases x with
  | num x =>
    obtain ⟨q, -, h⟩ := bind_eq_ok.mp h
    obtain ⟨hg, -, hu⟩ := make_ok h
    rwa [hu]
  | val x =>
    obtain ⟨c, -, h⟩ := bind_eq_ok.mp h
    obtain ⟨q, -, h⟩ := bind_eq_ok.mp h
    obtain ⟨hg, -, hu⟩ := make_ok h
    rwa [hu]
  | list xs => cases h

theorem convert_units {a r : Value ℝ} {t : Option String} (h : a.convert t = .ok r) :
    r = a ∨ GoodUnits r.units := by
  unfold Value.convert at h
  split at h
  · cases h; exact .inl rfl
  · split at h
    · cases h
    · obtain ⟨x, -, h⟩ := bind_eq_ok.mp h
      obtain ⟨hg, -, hu⟩ := make_ok h
      right; rwa [hu]

theorem systemDefault_units {a : Value ℝ} {s : String} {r : Value ℝ}
    (h : a.convertToSystemDefault s = .ok r) : r = a ∨ GoodUnits r.units := by
  unfold Value.convertToSystemDefault at h
  obtain ⟨c, -, h⟩ := bind_eq_ok.mp h
  obtain ⟨d, -, h⟩ := bind_eq_ok.mp h
  cases c with
  | none => cases h
  | some c =>
    simp only at h
    cases hd : d.get? c with
    | none => rw [hd] at h; cases h
    | some u => rw [hd] at h; exact convert_units h

theorem mem_results {x : PyM (Operand ℝ)} {v : Value ℝ} (h : v ∈ results x) :
    ∃ r, x = .ok r ∧ v ∈ valuesOf r := by
  cases x with
  | ok r => exact ⟨r, rfl, h⟩
  | error e => cases h

theorem mem_result {x : PyM (Value ℝ)} {v : Value ℝ} (h : v ∈ result x) : x = .ok v := by
  cases x with
  | ok r => simp [result] at h; rw [h]
  | error e => cases h

theorem outputs_good {P : Option String → Prop} (hP : ∀ u, GoodUnits u → P u) {st : List (Value ℝ)}
    (hst : ∀ v ∈ st, P v.units) (c : Cmd) : ∀ v ∈ c.outputs st, P v.units := by
  intro v hv
  have old : ∀ {x : Value ℝ} {i : ℕ}, st[i]? = some x → (v = x ∨ GoodUnits v.units) → P v.units := by
    rintro x i hx (rfl | h)
    · exact hst _ (List.mem_of_getElem? hx)
    · exact hP _ h
  cases c with
  | new x u => exact hP _ ((make_ok (mem_result hv)).2.2 ▸ (make_ok (mem_result hv)).1)
  | assign i x => cases hv
  | assignUnits i u => cases hv
  | convert i u =>
    simp only [Cmd.outputs] at hv
    split at hv
    · rename_i x hx
      exact old hx (convert_units (mem_result hv))
    · cases hv
  | attr i n =>
    simp only [Cmd.outputs] at hv
    split at hv
    · rename_i x hx
      have := mem_result hv
      unfold getattr at this
      split at this
      · exact old hx (convert_units this)
      · cases this
    · cases hv
  | systemDefault i s =>
    simp only [Cmd.outputs] at hv
    split at hv
    · rename_i x hx
      exact old hx (systemDefault_units (mem_result hv))
    · cases hv
  | add i a =>
    simp only [Cmd.outputs] at hv
    split at hv
    · obtain ⟨r, hr, hv⟩ := mem_results hv; exact hP _ (add_good _ _ _ hr v hv)
    · cases hv
  | sub i a =>
    simp only [Cmd.outputs] at hv
    split at hv
    · obtain ⟨r, hr, hv⟩ := mem_results hv; exact hP _ (sub_good _ _ _ hr v hv)
    · cases hv
  | rsub i a =>
    simp only [Cmd.outputs] at hv
    split at hv
    · obtain ⟨r, hr, hv⟩ := mem_results hv; exact hP _ (rsub_good _ _ _ hr v hv)
    · cases hv
  | mul i a =>
    simp only [Cmd.outputs] at hv
    split at hv
    · obtain ⟨r, hr, hv⟩ := mem_results hv; exact hP _ (mul_good _ _ _ hr v hv)
    · cases hv
  | div i a =>
    simp only [Cmd.outputs] at hv
    split at hv
    · exact hP _ (truediv_good _ _ _ (mem_result hv))
    · cases hv
  | floordiv i a =>
    simp only [Cmd.outputs] at hv
    split at hv
    · exact hP _ (floordiv_good _ _ _ (mem_result hv))
    · cases hv
  | neg i =>
    simp only [Cmd.outputs] at hv
    split at hv
    · have := make_ok (mem_result hv); exact hP _ (this.2.2 ▸ this.1)
    · cases hv
  | abs i =>
    simp only [Cmd.outputs] at hv
    split at hv
    · have := make_ok (mem_result hv); exact hP _ (this.2.2 ▸ this.1)
    · cases hv
  | pos i =>
    simp only [Cmd.outputs] at hv
    split at hv
    · rename_i x hx
      have := mem_result hv
      cases this
      exact hst _ (List.mem_of_getElem? hx)
    · cases hv

theorem exec_good {P : Option String → Prop} (hP : ∀ u, GoodUnits u → P u) {st : List (Value ℝ)}
    (hst : ∀ v ∈ st, P v.units) (c : Cmd) (hc : ∀ u ∈ c.labels, P u) : ∀ v ∈ c.exec st, P v.units := by
  by_cases h : (∃ i x, c = .assign i x) ∨ ∃ i u, c = .assignUnits i u
  · rcases h with ⟨i, x, rfl⟩ | ⟨i, u, rfl⟩
    · simp only [Cmd.exec]
      cases hi : st[i]? with
      | none => exact hst
      | some y =>
        cases x with
        | none => exact hst
        | some x =>
          simp only [setValue]
          intro v hv
          rcases List.mem_or_eq_of_mem_set hv with hv | rfl
          · exact hst v hv
          · exact hst y (List.mem_of_getElem? hi)
    · simp only [Cmd.exec]
      cases hi : st[i]? with
      | none => exact hst
      | some y =>
        intro v hv
        rcases List.mem_or_eq_of_mem_set hv with hv | rfl
        · exact hst v hv
        · exact hc u (by simp [Cmd.labels])
  · have : c.exec st = st ++ c.outputs st := by
      cases c <;> first | rfl | exact absurd (.inl ⟨_, _, rfl⟩) h | exact absurd (.inr ⟨_, _, rfl⟩) h
    rw [this]
    intro v hv
    rcases List.mem_append.mp hv with hv | hv
    · exact hst v hv
    · exact outputs_good hP hst c v hv

/-- C09.  Every Value that any sequence of constructions, conversions, arithmetic and assignments of values and units
can produce is unitless, carries a documented unit, or carries a label that was assigned with the `units` setter
(which checks nothing, see `C09_setter`). -/
theorem C09_histories (cs : List Cmd) :
    ∀ v ∈ runCmds cs, GoodUnits v.units ∨ v.units ∈ cs.flatMap Cmd.labels := by
  suffices ∀ (P : Option String → Prop), (∀ u, GoodUnits u → P u) → ∀ (cs : List Cmd) (st : List (Value ℝ)),
      (∀ c ∈ cs, ∀ u ∈ c.labels, P u) → (∀ v ∈ st, P v.units) → ∀ v ∈ cs.foldl Cmd.exec st, P v.units from
    this (fun u => GoodUnits u ∨ u ∈ cs.flatMap Cmd.labels) (fun u => .inl) cs []
      (fun c hc u hu => .inr (List.mem_flatMap.2 ⟨c, hc, hu⟩)) (by simp)
  intro P hP cs
  induction cs with
  | nil => intro st _ h; exact h
  | cons c cs ih =>
    intro st hc h
    exact ih _ (fun c' h' => hc c' (List.mem_cons_of_mem _ h')) (exec_good hP h c (hc c (List.mem_cons_self ..)))

/-- C09.  In particular, without the setter all labels are good. -/
theorem C09_no_setter (cs : List Cmd) (h : ∀ c ∈ cs, ∀ i u, c ≠ .assignUnits i u) :
    ∀ v ∈ runCmds cs, GoodUnits v.units := by
  intro v hv
  rcases C09_histories cs v hv with hg | hl
  · exact hg
  · obtain ⟨c, hc, hu⟩ := List.mem_flatMap.1 hl
    cases c <;> simp only [Cmd.labels, List.not_mem_nil] at hu
    exact absurd rfl (h _ hc _ _)

/-- C09.  The constructor accepts exactly a number together with a good label, and stores both
unchanged. -/
theorem C09_constructor (x : Option ℝ) (u : Option String) :
    (∀ v, make x u = .ok v ↔ (GoodUnits u ∧ x = some v.value ∧ v.units = u)) ∧
    ((x = none ∨ ¬ GoodUnits u) → make x u = .error .ValueError) := by
  constructor
  · intro v
    refine ⟨make_ok, ?_⟩
    rintro ⟨hg, rfl, rfl⟩
    rw [make_good hg]
  · rintro (rfl | h)
    · rfl
    · cases x with
      | none => rfl
      | some x => exact make_bad h x

/-- C09.  The setter stores any label. -/
theorem C09_setter :
    ∃ (v : Value ℝ), make (some 1) (some "cm") = .ok v ∧
      ¬ GoodUnits (v.setUnits (some "furlong")).units := by
  refine ⟨⟨1, some "cm"⟩, make_good (Or.inr ⟨"cm", _, rfl, rfl⟩) 1, ?_⟩
  rintro (h | ⟨n, U, h, hU⟩)
  · cases h
  · cases h
    have : unitOf "furlong" = none := by simp [unitOf, unitDefs]
    rw [UnitIs, this] at hU; cases hU

/-- C09.  The `value` setter keeps the units and refuses `None`, as the constructor does. -/
theorem C09_value_setter (a : Value ℝ) (x : ℝ) :
    a.setValue (some x) = .ok ⟨x, a.units⟩ ∧ a.setValue none = .error .ValueError := ⟨rfl, rfl⟩

/-- C09.  A bad label never spreads through the operators that keep units: they raise
`ValueError` (the constructor re-validates). -/
theorem C09_bad_label_contained (a : Value ℝ) (ha : ¬ GoodUnits a.units) (x : ℝ) :
    a.add (.num x) = .error .ValueError ∧ a.sub (.num x) = .error .ValueError ∧
    a.rsub (.num x) = .error .ValueError ∧ a.mul (.num x) = .error .ValueError ∧
    (x ≠ 0 → a.truediv (.num x) = .error .ValueError) ∧
    a.neg = .error .ValueError ∧ Value.abs a = .error .ValueError := by
  refine ⟨?_, ?_, ?_, ?_, ?_, ?_, ?_⟩
  · simp [add, comparable, make_bad ha]
  · simp [sub, comparable, make_bad ha]
  · simp [rsub, comparable, make_bad ha]
  · simp [mul, make_bad ha]
  · intro h; simp [truediv, Units.pyDiv_real h, make_bad ha]
  · exact make_bad ha _
  · exact make_bad ha _

/-- C09.  Two Values, one of them (`a`) with a bad label other than the empty text: sums and differences raise whichever comes
first, and every comparison raises unless both carry that same label. -/
theorem C09_bad_label_values (a b : Value ℝ) (ha : ¬ GoodUnits a.units) (hne : a.units ≠ some "") :
    (∃ e, a.add (.val b) = .error e) ∧ (∃ e, a.sub (.val b) = .error e) ∧
    (∃ e, b.add (.val a) = .error e) ∧ (∃ e, b.sub (.val a) = .error e) ∧
    (a.units ≠ b.units → ∀ c, (∃ e, compareOp c a (.val b) = .error e) ∧ ∃ e, compareOp c b (.val a) = .error e) := by
  have hbad : ¬ ∃ n A, a.units = some n ∧ UnitIs n A := fun ⟨n, A, h, hA⟩ => ha (Or.inr ⟨n, A, h, hA⟩)
  have hnone : a.units ≠ none := fun h => ha (Or.inl h)
  have hblank : Units.blank a.units = false := by
    cases h : a.units with
    | none => exact absurd h hnone
    | some n =>
      have : n ≠ "" := fun e => hne (by rw [h, e])
      simp [Units.blank, this]
  have key : a.units ≠ b.units → (∃ e, a.comparable (.val b) = .error e) ∧ ∃ e, b.comparable (.val a) = .error e := by
    intro h
    constructor
    · have : ∃ e, b.convert a.units = .error e := by
        unfold Value.convert
        rw [if_neg h]
        split_ifs with hb
        · exact ⟨_, rfl⟩
        · have := ((C02_decision b.units a.units none).2 (by rw [hblank]; simp [Ne.symm h])).1 (Or.inr hbad)
          simp [Units.convert, this]
      obtain ⟨e, he⟩ := this
      exact ⟨e, by show (do let c ← b.convert a.units; pure c.value) = _; rw [he]; rfl⟩
    · have : ∃ e, a.convert b.units = .error e := by
        unfold Value.convert
        rw [if_neg (Ne.symm h), if_neg hnone]
        have := ((C02_decision a.units b.units none).2 (by rw [hblank]; simp [h])).1 (Or.inl hbad)
        simp [Units.convert, this]
      obtain ⟨e, he⟩ := this
      exact ⟨e, by show (do let c ← a.convert b.units; pure c.value) = _; rw [he]; rfl⟩
  have h1 : ∀ f : ℝ → ℝ, ∃ e, (do let o ← a.comparable (.val b); let v ← make (some (f o)) a.units; pure (Operand.val v)) = .error e := by
    intro f
    by_cases h : a.units = b.units
    · have : a.comparable (.val b) = .ok b.value := by
        show (do let c ← b.convert a.units; pure c.value) = _
        unfold Value.convert; rw [if_pos h]; rfl
      rw [this]; simp [make_bad ha]
    · obtain ⟨e, he⟩ := (key h).1
      exact ⟨e, by rw [he]; rfl⟩
  have h2 : ∀ f : ℝ → ℝ, ∃ e, (do let o ← b.comparable (.val a); let v ← make (some (f o)) b.units; pure (Operand.val v)) = .error e := by
    intro f
    by_cases h : a.units = b.units
    · have : b.comparable (.val a) = .ok a.value := by
        show (do let c ← a.convert b.units; pure c.value) = _
        unfold Value.convert; rw [if_pos h.symm]; rfl
      rw [this]; simp [make_bad (h ▸ ha)]
    · obtain ⟨e, he⟩ := (key h).2
      exact ⟨e, by rw [he]; rfl⟩
  refine ⟨?_, ?_, ?_, ?_, ?_⟩
  · simpa [add] using h1 (a.value + ·)
  · simpa [sub] using h1 (a.value - ·)
  · simpa [add] using h2 (b.value + ·)
  · simpa [sub] using h2 (b.value - ·)
  · intro h c
    obtain ⟨⟨e, he⟩, ⟨e', he'⟩⟩ := key h
    exact ⟨⟨e, by unfold compareOp; rw [he]; rfl⟩, ⟨e', by unfold compareOp; rw [he']; rfl⟩⟩

/-- C09.  Finding: the empty text, a bad label, converts to no units at all, though not back: such a Value can be added to a unitless
one, while the sum the other way round raises. -/
theorem C09_empty_label (x y : ℝ) :
    (⟨x, none⟩ : Value ℝ).add (.val ⟨y, some ""⟩) = .ok (.val ⟨x + y, none⟩) ∧
    (⟨y, some ""⟩ : Value ℝ).add (.val ⟨x, none⟩) = .error .ValueError ∧ ¬ GoodUnits (some "") := by
  refine ⟨?_, ?_, ?_⟩
  · simp [add, comparable, Value.convert, Units.convert, Units.factor, Units.blank, make]
  · simp [add, comparable, Value.convert]
  · rintro (h | ⟨n, U, h, hU⟩)
    · cases h
    · cases h
      exact Units.unit_ne_empty hU rfl
/-- C09.  `x.<unit>` is `convert`, anything that is not a unit name is an `AttributeError`, and
`x[0]`, `x[1]` are the only valid items. -/
theorem C09_attributes (a : Value ℝ) (n : String) (i : ℤ) :
    ((∃ U, UnitIs n U) → a.getattr n = a.convert (some n)) ∧
    ((¬ ∃ U, UnitIs n U) → a.getattr n = .error .AttributeError) ∧
    a.getitem 0 = .ok (.inl a.value) ∧ a.getitem 1 = .ok (.inr a.units) ∧
    (i ≠ 0 → i ≠ 1 → a.getitem i = .error .KeyError) := by
  refine ⟨fun h => ?_, fun h => ?_, rfl, rfl, fun h1 h2 => ?_⟩
  · have := (mem_allUnits n).mpr h
    simp [getattr, this]
  · have : n ∉ Units.allUnits ℝ := fun h' => h ((mem_allUnits n).mp h')
    simp [getattr, this]
  · simp [getitem, h1, h2]

/-- Non-vacuity of C09: a program that really produces a converted sum. -/
example : (⟨1 + 1 * 0.0254 / (12 * 0.0254), some "ft"⟩ : Value ℝ) ∈
    runCmds [.new (some 1) (some "ft"), .new (some 1) (some "in"), .add 0 (.ref 1)] := by
  have e1 : make (some (1 : ℝ)) (some "ft") = .ok ⟨1, some "ft"⟩ :=
    make_good (Or.inr ⟨"ft", _, rfl, rfl⟩) _
  have e2 : make (some (1 : ℝ)) (some "in") = .ok ⟨1, some "in"⟩ :=
    make_good (Or.inr ⟨"in", _, rfl, rfl⟩) _
  have e3 : convert (⟨1, some "in"⟩ : Value ℝ) (some "ft")
      = .ok ⟨1 * 0.0254 / (12 * 0.0254), some "ft"⟩ :=
    convert_same (k := some "length") ⟨_, rfl, rfl, rfl⟩ ⟨_, rfl, rfl, rfl⟩
  have e4 : make (some (1 + 1 * 0.0254 / (12 * 0.0254) : ℝ)) (some "ft") = .ok ⟨_, some "ft"⟩ :=
    make_good (Or.inr ⟨"ft", _, rfl, rfl⟩) _
  simp [runCmds, Cmd.exec, Cmd.outputs, e1, e2, result, Arg.resolve, add, comparable, e3,
    results, valuesOf]
  norm_num at e4 ⊢
  rw [e4]; simp [valuesOf]

/-! ### C10 -/

theorem prettify_value_py2 {v : Value ℝ} (hg : GoodUnits v.units) :
    computePrettified .py2 v = Units.prettify .py2 (some v.value) v.units none := by
  have conv : ∀ s, unitsConvertToSystemDefault v v.units s =
      (Units.convertToSystemDefault (some v.value) v.units s >>= fun r =>
        match r.1 with
        | some x => .ok (⟨x, v.units⟩, r.2)
        | none => .error .TypeError) := by
    intro s
    unfold unitsConvertToSystemDefault Units.convertToSystemDefault Units.convertToDefault
    cases Units.defaultUnits s [] with
    | error e => rfl
    | ok d =>
      simp only [ok_bind]
      cases Units.unitsClass ℝ v.units with
      | error e => rfl
      | ok c =>
        simp only [ok_bind]
        cases c with
        | none => rfl
        | some c =>
          simp only
          cases d.get? c with
          | none => rfl
          | some u =>
            simp only [Units.convert]
            cases Units.factor (α := ℝ) v.units (some u) none with
            | error e => rfl
            | ok f => simp [make_good hg]
  have rnd : ∀ (x n : ℝ), Value.roundTo .py2 ⟨x, v.units⟩ n = Units.roundTo .py2 x n := by
    intro x n
    unfold Value.roundTo Units.roundTo
    simp only [truediv]
    cases pyDiv (Num.lit 1) n with
    | error e => rfl
    | ok r =>
      simp only [ok_bind]
      cases pyDiv x n with
      | error e => rfl
      | ok q => simp [make_good hg]
  unfold computePrettified Units.prettify
  rw [conv, conv]
  cases Units.convertToSystemDefault (some v.value) v.units "metric" with
  | error e => rfl
  | ok a =>
    obtain ⟨x, u⟩ := a
    cases x with
    | none => rfl
    | some x =>
      simp only [ok_bind, rnd, Units.roundValue]
      cases Units.roundTo .py2 x (Units.increment u none) with
      | error e => rfl
      | ok m =>
        simp only [ok_bind, pure_eq_ok]
        cases Units.convertToSystemDefault (some v.value) v.units "united_states" with
        | error e => rfl
        | ok b =>
          obtain ⟨y, w⟩ := b
          cases y with
          | none => rfl
          | some y =>
            simp only [ok_bind, rnd]
            cases Units.roundTo .py2 y (Units.increment w none) with
            | error e => rfl
            | ok m => rfl

theorem prettify_returns (ver : PyVer) {u : Option String} (hg : GoodUnits u) (x : ℝ) :
    Returns (Units.prettify ver (some x) u none) := by
  rcases hg with rfl | ⟨n, U, rfl, hU⟩
  · have e : ∀ s, s = "metric" ∨ s = "united_states" →
      Units.convertToSystemDefault (some x) none s = .ok (some x, none) :=
      fun s hs => (C04_edges hs (some x)).1
    obtain ⟨k, -, hk⟩ := C12_round_to ver x (Units.increment none none)
      (by simp [Units.increment]; norm_num)
    refine ⟨((k * Units.increment none none, none), (k * Units.increment none none, none)), ?_⟩
    simp [Units.prettify, e "metric" (Or.inl rfl), e "united_states" (Or.inr rfl),
      Units.roundValue, hk]
  · obtain ⟨m, s, tm, ts, -, -, h, -⟩ := C05_prettify ver hU x none
    exact ⟨_, h⟩

theorem prettified_bad (ver : PyVer) {v : Value ℝ} (hb : ¬ GoodUnits v.units) :
    ∃ e, computePrettified ver v = .error e := by
  obtain ⟨x, u⟩ := v
  cases u with
  | none => exact absurd (.inl rfl) hb
  | some n =>
    have hun : Unknown n := by
      cases h : unitOf n with
      | none => exact h
      | some U => exact absurd (.inr ⟨n, U, rfl, h⟩) hb
    obtain ⟨d, hd, -⟩ := (C04_default_units "metric" []).2 (Or.inl rfl)
    by_cases hn : n = ""
    · subst hn
      have hi : Units.increment (α := ℝ) (some "") none ≠ 0 := (increment_pos "" none).ne'
      refine ⟨.ValueError, ?_⟩
      simp [computePrettified, unitsConvertToSystemDefault, hd, Units.unitsClass, Units.blank, Value.roundTo, truediv,
        Units.pyDiv_real hi, make_bad hb]
    · refine ⟨.KeyError, ?_⟩
      simp [computePrettified, unitsConvertToSystemDefault, hd, Units.unitsClass, Units.blank, hn, Units.lookup_unknown hun]

open Classical in
/-- the value and the units the instance had when `prettified` was first read with a good label (the current ones,
if never) -/
noncomputable def visible (x : ℝ) (u : Option String) : List (PrettyOp ℝ) → ℝ × Option String
  | [] => (x, u)
  | .setValue y :: ops => visible y u ops
  | .setUnits w :: ops => visible x w ops
  | .readPretty :: ops => if GoodUnits u then (x, u) else visible x u ops

/-- C10 on Python 2: after any history of reads and assignments, reading `prettified` gives `prettify` of the value and
units at the time of the *first* successful read.  Without one, it gives `prettify` of the present ones, and raises if
the label is bad. -/
theorem C10_prettified (v : Value ℝ) (ops : List (PrettyOp ℝ)) :
    (GoodUnits (visible v.value v.units ops).2 → ((CachedValue.run .py2 ⟨v, none⟩ ops).readPretty .py2).1
      = Units.prettify .py2 (some (visible v.value v.units ops).1) (visible v.value v.units ops).2 none) ∧
    (¬ GoodUnits (visible v.value v.units ops).2 →
      ∃ e, ((CachedValue.run .py2 ⟨v, none⟩ ops).readPretty .py2).1 = .error e) := by
  have cached : ∀ (ops : List (PrettyOp ℝ)) (o : CachedValue ℝ) r, o.cache = some r →
      ((CachedValue.run .py2 o ops).readPretty .py2).1 = .ok r := by
    intro ops
    induction ops with
    | nil => intro o r h; simp [CachedValue.run, CachedValue.readPretty, h]
    | cons op ops ih =>
      intro o r h
      have : (CachedValue.step .py2 o op).cache = some r := by
        cases op with
        | setValue x => exact h
        | setUnits x => exact h
        | readPretty => simp [CachedValue.step, CachedValue.readPretty, h]
      exact ih _ r this
  induction ops generalizing v with
  | nil =>
    simp only [CachedValue.run, List.foldl_nil, CachedValue.readPretty, visible]
    constructor
    · intro hg
      rw [prettify_value_py2 hg]
      cases Units.prettify .py2 (some v.value) v.units none <;> rfl
    · intro hb
      obtain ⟨e, he⟩ := prettified_bad .py2 hb
      exact ⟨e, by rw [he]⟩
  | cons op ops ih =>
    cases op with
    | setValue x => exact ih ⟨x, v.units⟩
    | setUnits w => exact ih ⟨v.value, w⟩
    | readPretty =>
      by_cases hg : GoodUnits v.units
      · simp only [visible, if_pos hg]
        refine ⟨fun _ => ?_, fun hb => absurd hg hb⟩
        obtain ⟨r, hr⟩ := prettify_returns .py2 hg v.value
        have e : CachedValue.step .py2 ⟨v, none⟩ .readPretty = ⟨v, some r⟩ := by
          simp [CachedValue.step, CachedValue.readPretty, prettify_value_py2 hg, hr]
        show ((CachedValue.run .py2 (CachedValue.step .py2 ⟨v, none⟩ .readPretty) ops).readPretty
          .py2).1 = _
        rw [e, cached ops _ r rfl]
        exact hr.symm
      · simp only [visible, if_neg hg]
        obtain ⟨e, he⟩ := prettified_bad .py2 hg
        have e : CachedValue.step .py2 ⟨v, none⟩ .readPretty = ⟨v, none⟩ := by
          simp [CachedValue.step, CachedValue.readPretty, he]
        have := ih v
        show (_ → ((CachedValue.run .py2 (CachedValue.step .py2 ⟨v, none⟩ .readPretty) ops).readPretty
          .py2).1 = _) ∧ (_ → ∃ e', ((CachedValue.run .py2 (CachedValue.step .py2 ⟨v, none⟩ .readPretty) ops).readPretty
          .py2).1 = _)
        rw [e]
        exact this

/-- C10.  It can be out of date: read, assign, read again — the second read still shows the first value. -/
theorem C10_stale :
    ∃ (v : Value ℝ) (ops : List (PrettyOp ℝ)), GoodUnits v.units ∧
      ((CachedValue.run .py2 ⟨v, none⟩ ops).readPretty .py2).1
        ≠ Units.prettify .py2 (some (CachedValue.run .py2 ⟨v, none⟩ ops).v.value) v.units none := by
  have hg : GoodUnits (some "cm") := Or.inr ⟨"cm", _, rfl, rfl⟩
  refine ⟨⟨1, some "cm"⟩, [.readPretty, .setValue 100], hg, ?_⟩
  have hv0 : visible 1 (some "cm") [.readPretty, .setValue 100] = (1, some "cm") := by
    simp [visible, hg]
  rw [(C10_prettified _ _).1 (by rw [hv0]; exact hg)]
  obtain ⟨m, s, tm, ts, Tm, Ts, e, htm, hTm, -, -, h⟩ :=
    C05_prettify .py2 (u := "cm") rfl 1 none
  obtain ⟨m', s', tm', ts', Tm', Ts', e', htm', hTm', -, -, h'⟩ :=
    C05_prettify .py2 (u := "cm") rfl 100 none
  have hv : (CachedValue.run .py2 ⟨⟨(1 : ℝ), some "cm"⟩, none⟩ [.readPretty, .setValue 100]).v.value
      = 100 := by
    simp [CachedValue.run, CachedValue.step]
  rw [hv, hv0]
  simp only
  rw [e, e']
  intro heq
  have hm : m = m' := by
    have := Except.ok.inj heq
    exact congrArg (fun r => r.1.1) this
  have t1 : tm = "cm" := by
    have : systemUnit "metric" "length" = some "cm" := rfl
    exact Option.some.inj (htm.symm.trans this)
  have t2 : tm' = "cm" := by
    have : systemUnit "metric" "length" = some "cm" := rfl
    exact Option.some.inj (htm'.symm.trans this)
  subst t1 t2
  have hT : Tm = ⟨["cm", "centimeter", "centimeters"], "length", 0.01⟩ := by
    exact Option.some.inj (hTm.symm.trans (rfl : unitOf "cm" = some _))
  have hT' : Tm' = ⟨["cm", "centimeter", "centimeters"], "length", 0.01⟩ := by
    exact Option.some.inj (hTm'.symm.trans (rfl : unitOf "cm" = some _))
  obtain ⟨i, hi, -, -, b⟩ := h m _ _ (Or.inl ⟨rfl, rfl, rfl⟩)
  obtain ⟨i', hi', -, -, b'⟩ := h' m' _ _ (Or.inl ⟨rfl, rfl, rfl⟩)
  simp [prettyIncrement] at hi hi'
  subst hi hi' hT hT' hm
  have b1 := abs_le.mp b
  have b2 := abs_le.mp b'
  norm_num [quantity] at b1 b2
  linarith [b1.1, b1.2, b2.1, b2.2]

theorem prettified_python3 {v : Value ℝ} (hg : GoodUnits v.units) :
    computePrettified .py3 v = .error .TypeError := by
  have inc : ∀ u, Units.increment (α := ℝ) u none ≠ 0 := by
    intro u
    cases u with
    | none => simp [Units.increment]; norm_num
    | some u => exact (increment_pos u none).ne'
  have key : ∀ x : ℝ, computePrettified .py3 ⟨x, v.units⟩ = .error .TypeError := by
    intro x
    have c1 : ∃ w u, unitsConvertToSystemDefault ⟨x, v.units⟩ v.units "metric"
        = .ok (⟨w, v.units⟩, u) := by
      rcases hg with h | ⟨n, U, h, hU⟩
      · rw [h]
        exact ⟨x, none, rfl⟩
      · obtain ⟨t, T, ht, hT, hc⟩ := systemUnit_known hU (system := "metric") (Or.inl rfl)
        obtain ⟨d, hd, hget⟩ := (C04_default_units "metric" []).2 (Or.inl rfl)
        have h2 := hget U.cls
        simp only [List.reverse_nil, Dict.get?_nil] at h2
        rw [ht] at h2
        refine ⟨x * (U.size / T.size), some t, ?_⟩
        rw [h]
        simp [unitsConvertToSystemDefault, hd, Units.unitsClass, Units.blank_unit hU,
          Units.lookup_known hU, h2, Units.factor_known hU hT hc.symm,
          make_good (Or.inr ⟨n, U, rfl, hU⟩)]
    obtain ⟨w, u, e⟩ := c1
    have hn := inc u
    simp [computePrettified, e, Value.roundTo, truediv, Units.pyDiv_real hn, make_good hg]
  exact key v.value

/-- C10 on Python 3: reading `prettified` always raises, whatever the history, `TypeError` with any good label,
although `prettify` of the plain number works (C05). -/
theorem C10_python3 (v : Value ℝ) (ops : List (PrettyOp ℝ)) :
    (∃ e, ((CachedValue.run .py3 ⟨v, none⟩ ops).readPretty .py3).1 = .error e) ∧
    (GoodUnits (CachedValue.run .py3 ⟨v, none⟩ ops).v.units →
      ((CachedValue.run .py3 ⟨v, none⟩ ops).readPretty .py3).1 = .error .TypeError) := by
  have fails : ∀ w : Value ℝ, ∃ e, computePrettified .py3 w = .error e := by
    intro w
    by_cases hg : GoodUnits w.units
    · exact ⟨_, prettified_python3 hg⟩
    · exact prettified_bad .py3 hg
  have inv : ∀ (ops : List (PrettyOp ℝ)) (o : CachedValue ℝ), o.cache = none →
      (CachedValue.run .py3 o ops).cache = none := by
    intro ops
    induction ops with
    | nil => intro o h; exact h
    | cons op ops ih =>
      intro o h
      refine ih _ ?_
      obtain ⟨w, c⟩ := o
      simp only at h
      subst h
      obtain ⟨e, he⟩ := fails w
      cases op <;> simp [CachedValue.step, CachedValue.readPretty, he]
  have hc := inv ops ⟨v, none⟩ rfl
  constructor
  · obtain ⟨e, he⟩ := fails (CachedValue.run .py3 ⟨v, none⟩ ops).v
    exact ⟨e, by simp [CachedValue.readPretty, hc, he]⟩
  · intro hg
    simp [CachedValue.readPretty, hc, prettified_python3 hg]

/-- C10.  When nothing is assigned after the first read, `prettified` is right (Python 2). -/
theorem C10_fresh (v : Value ℝ) (hg : GoodUnits v.units) (xs : List ℝ) (reads : ℕ) :
    ((CachedValue.run .py2 ⟨v, none⟩
        (xs.map .setValue ++ List.replicate reads .readPretty)).readPretty .py2).1
      = Units.prettify .py2 (some (xs.getLast?.getD v.value)) v.units none := by
  have : ∀ x, visible x v.units (xs.map .setValue ++ List.replicate reads .readPretty)
      = (xs.getLast?.getD x, v.units) := by
    induction xs with
    | nil =>
      intro x
      cases reads with
      | zero => rfl
      | succ n => simp [List.replicate_succ, visible, hg]
    | cons y ys ih =>
      intro x
      show visible y v.units (ys.map .setValue ++ List.replicate reads .readPretty) = _
      rw [ih]
      cases h : ys.getLast? with
      | none => simp [List.getLast?_cons, h]
      | some z => simp [List.getLast?_cons, h]
  rw [(C10_prettified v _).1 (by rw [this]; exact hg), this]

/-! ### C69 -/

/-- C69.  `input_value`, for any parser and any lines typed: with `allow_empty` the first line that
is empty or parses decides — empty gives `None`, a number `x` gives `Value(x, units)`;
without it empty lines are skipped too and `None` is never returned. -/
theorem C69_input_value (parse : String → Option ℝ) (u : Option String) (allowEmpty : Bool)
    (skipped : List String) (l : String) (rest : List String)
    (hs : ∀ s ∈ skipped, (s = "" ∧ allowEmpty = false) ∨ (s ≠ "" ∧ parse s = none)) :
    (l = "" → allowEmpty = true →
      Console.inputValue parse u allowEmpty (skipped ++ l :: rest) = some (.ok none)) ∧
    (∀ x, l ≠ "" → parse l = some x → GoodUnits u →
      Console.inputValue parse u allowEmpty (skipped ++ l :: rest)
        = some (.ok (some ⟨x, u⟩))) ∧
    (∀ x, l ≠ "" → parse l = some x → ¬ GoodUnits u →
      Console.inputValue parse u allowEmpty (skipped ++ l :: rest)
        = some (.error .ValueError)) ∧
    Console.inputValue parse u allowEmpty skipped = none := by
  have skip : ∀ d, (d = none ↔ allowEmpty = false) → ∀ t,
      Console.promptLoop parse d (skipped ++ t) = Console.promptLoop parse d t := by
    intro d hd t
    induction skipped with
    | nil => rfl
    | cons s ss ih =>
      have ih' := ih (fun s' h' => hs s' (List.mem_cons_of_mem _ h'))
      rcases hs s (List.mem_cons_self ..) with ⟨rfl, ha⟩ | ⟨h1, h2⟩
      · have := hd.mpr ha
        subst this
        simp [Console.promptLoop, ih']
      · simp [Console.promptLoop, h1, h2, ih']
  have fl : ∀ t, Console.inputFloat parse allowEmpty (skipped ++ t)
      = Console.inputFloat parse allowEmpty t := by
    intro t
    unfold Console.inputFloat
    cases allowEmpty with
    | true => simpa using skip (some none) (by simp) t
    | false => simpa using skip none (by simp) t
  refine ⟨fun h1 h2 => ?_, fun x h1 h2 hg => ?_, fun x h1 h2 hg => ?_, ?_⟩
  · subst h1 h2
    have : Console.inputFloat parse true ("" :: rest) = some none := by
      simp [Console.inputFloat, Console.promptLoop]
    simp [Console.inputValue, fl, this]
  · have : Console.inputFloat parse allowEmpty (l :: rest) = some (some x) := by
      cases allowEmpty <;> simp [Console.inputFloat, Console.promptLoop, h1, h2]
    simp [Console.inputValue, fl, this, make_good hg]
  · have : Console.inputFloat parse allowEmpty (l :: rest) = some (some x) := by
      cases allowEmpty <;> simp [Console.inputFloat, Console.promptLoop, h1, h2]
    simp [Console.inputValue, fl, this, make_bad hg]
  · have := fl []
    rw [List.append_nil] at this
    simp [Console.inputValue, this]
    cases allowEmpty <;> simp [Console.inputFloat, Console.promptLoop]

/-- C69.  `None` is returned only for an empty line with `allow_empty`. -/
theorem C69_none_only_if_allowed (parse : String → Option ℝ) (u : Option String)
    (allowEmpty : Bool) (lines : List String)
    (h : Console.inputValue parse u allowEmpty lines = some (.ok none)) :
    allowEmpty = true ∧ "" ∈ lines := by
  unfold Console.inputValue at h
  cases hf : Console.inputFloat parse allowEmpty lines with
  | none => rw [hf] at h; cases h
  | some r =>
    rw [hf] at h
    cases r with
    | some x =>
      simp only [Option.some.injEq] at h
      obtain ⟨v, -, h⟩ := bind_eq_ok.mp h
      cases h
    | none =>
      have key : ∀ d ls, Console.promptLoop parse d ls = some none → d = some none ∧ "" ∈ ls := by
        intro d ls
        induction ls with
        | nil => intro h; cases h
        | cons l ls ih =>
          intro h
          unfold Console.promptLoop at h
          split at h
          · rename_i hl
            subst hl
            cases d with
            | none => exact ⟨(ih h).1, by simp⟩
            | some d => simp only at h; exact ⟨h, by simp⟩
          · split at h
            · cases h
            · exact ⟨(ih h).1, List.mem_cons_of_mem _ (ih h).2⟩
      unfold Console.inputFloat at hf
      cases allowEmpty with
      | true => exact ⟨rfl, (key _ _ hf).2⟩
      | false => have := (key _ _ hf).1; cases this

example : Console.inputValue (α := ℝ) (fun s => if s = "3" then some 3 else none) (some "cm") true
    ["x", "3"] = some (.ok (some ⟨3, some "cm"⟩)) :=
  (C69_input_value _ (some "cm") true ["x"] "3" [] (by simp)).2.1 3 (by decide) (by simp)
    (Or.inr ⟨"cm", _, rfl, rfl⟩)

/-! ### C78 -/

/-- C78.  As a truth value on Python 2, a Value is true exactly if the quantity is not zero, in whatever units; on
Python 3 every Value is true, also one of zero. -/
theorem C78_truth {a : Value ℝ} {k : Option String} {q : ℝ} (ha : Denotes a k q) :
    (a.truth .py2 = true ↔ q ≠ 0) ∧ a.truth .py3 = true := by
  obtain ⟨s, hs, rfl⟩ := ha
  have := (measures_pos hs).ne'
  refine ⟨?_, rfl⟩
  simp [truth, this, Bool.eq_false_iff]

/-- C78.  The two versions disagree exactly on zero. -/
theorem C78_versions_differ {a : Value ℝ} {k : Option String} {q : ℝ} (ha : Denotes a k q) :
    a.truth .py2 ≠ a.truth .py3 ↔ q = 0 := by
  obtain ⟨h2, h3⟩ := C78_truth ha
  rw [h3, ne_eq, h2, not_not]

/-- Non-vacuity: 0 cm. -/
example : Denotes ⟨0, some "cm"⟩ (some "length") 0 := ⟨_, ⟨_, rfl, rfl, rfl⟩, by simp⟩

/-- C78.  Although `x[0]` and `x[1]` work, a Value cannot be iterated: `list(x)`, `tuple(x)`, `for ... in x` always end
with KeyError, as the item after the last raises KeyError in place of IndexError. -/
theorem C78_iteration (a : Value ℝ) (r : PyM (List (ℝ ⊕ Option String))) :
    IterFrom a.getitem 0 r ↔ r = .error .KeyError := by
  have g2 : a.getitem 2 = .error .KeyError := rfl
  constructor
  · intro h
    cases h with
    | stop _ h => exact absurd h (by simp [getitem])
    | fail _ _ h _ => exact absurd h (by simp [getitem])
    | next _ _ r' _ h1 =>
      cases h1 with
      | stop _ h => exact absurd h (by simp [getitem])
      | fail _ _ h _ => exact absurd h (by simp [getitem])
      | next _ _ r'' _ h2 =>
        cases h2 with
        | stop _ h => exact absurd h (by simp [getitem, raise])
        | fail _ e h _ =>
          have : e = .KeyError := by
            have h' := h.symm.trans (show a.getitem (0 + 1 + 1) = .error .KeyError from g2)
            exact Except.error.inj h'
          rw [this]; rfl
        | next _ _ _ h _ => exact absurd h (by simp [getitem, raise])
  · rintro rfl
    have h2 : IterFrom a.getitem (0 + 1 + 1) (.error .KeyError) := .fail _ _ g2 (by simp)
    have h1 : IterFrom a.getitem (0 + 1) _ := .next _ _ _ rfl h2
    exact IterFrom.next 0 (.inl a.value) _ rfl h1

/-- C78.  Nor can it be unpacked: `value, units = x` and any longer list of targets raise KeyError, fewer than two
targets ValueError. -/
theorem C78_unpack (a : Value ℝ) (n : ℕ) :
    unpackFrom a.getitem 0 n = .error (if n < 2 then .ValueError else .KeyError) := by
  match n with
  | 0 => rfl
  | 1 => rfl
  | 2 => rfl
  | n + 3 =>
    rw [if_neg (by omega)]
    rfl

end Blmath.Props
