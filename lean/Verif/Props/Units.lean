import Verif.Proofs.Rounding
import Verif.Base.Fl
import Mathlib.Data.List.Dedup
import Mathlib.Tactic.NormNum

/-!
Properties C01–C05 and C12: `blmath/units.py` and `round_to`.
-/

namespace Blmath.Props
open Blmath Blmath.Units Blmath.Spec

/-! ### C01 -/

/-- C01.  For known units of one kind `factor` returns, is the ratio of the unit sizes, is
positive, inverts, is 1 on the diagonal and composes. -/
theorem C01_factor_coherent {a b c : String} {A B C : UnitDef}
    (ha : UnitIs a A) (hb : UnitIs b B) (hc : UnitIs c C)
    (hab : A.cls = B.cls) (hbc : B.cls = C.cls) :
    ∃ fab fba fbc fac : ℝ,
      factor (some a) (some b) none = .ok fab ∧ factor (some b) (some a) none = .ok fba ∧
      factor (some b) (some c) none = .ok fbc ∧ factor (some a) (some c) none = .ok fac ∧
      factor (α := ℝ) (some a) (some a) none = .ok 1 ∧
      fab = A.size / B.size ∧ 0 < fab ∧ fab * fba = 1 ∧ fab * fbc = fac := by
  have hA := size_pos ha
  have hB := size_pos hb
  have hC := size_pos hc
  refine ⟨_, _, _, _, factor_known ha hb hab, factor_known hb ha hab.symm, factor_known hb hc hbc,
    factor_known ha hc (hab.trans hbc), ?_, rfl, div_pos hA hB, ?_, ?_⟩
  · rw [factor_known ha ha rfl, div_self hA.ne']
  · field_simp
  · field_simp

/-- C01.  The names are the ones documented: a name is accepted by `units_class` exactly when
it stands for a unit, with that unit's class. -/
theorem C01_known_units (u : String) (hu : u ≠ "") :
    (∀ U, UnitIs u U → unitsClass ℝ (some u) = .ok (some U.cls)) ∧
    (Unknown u → unitsClass ℝ (some u) = .error .KeyError) ∧
    (u ∈ allUnits ℝ ↔ ∃ U, UnitIs u U) := by
  refine ⟨fun U h => ?_, fun h => ?_, ?_⟩
  · simp [unitsClass, blank, hu, lookup_known h]
  · simp [unitsClass, blank, hu, lookup_unknown h]
  · rw [allUnits, Dict.mem_keys_iff, Dict.contains, table_get?]
    cases h : unitOf u <;> simp [UnitIs, h]

/-- C01.  `raw` is the size of the unit in the base unit of its kind, the same for all its names; the
factor between two units of one kind is the quotient of their raw factors; a name that is no unit, and
`None`, raise KeyError. -/
theorem C01_raw {u w : String} {U W : UnitDef} (hu : UnitIs u U) (hw : UnitIs w W)
    (hc : U.cls = W.cls) :
    raw (α := ℝ) (some u) = .ok U.size ∧ 0 < U.size ∧
    (∃ a b : ℝ, raw (some u) = .ok a ∧ raw (some w) = .ok b ∧
      factor (some u) (some w) none = .ok (a / b)) ∧
    (∀ x, Unknown x → raw (α := ℝ) (some x) = .error .KeyError) ∧
    raw (α := ℝ) none = .error .KeyError := by
  have h : ∀ {x X}, UnitIs x X → raw (α := ℝ) (some x) = .ok X.size := fun hx => by
    simp [raw, lookup_known hx]
  refine ⟨h hu, size_pos hu, ⟨_, _, h hu, h hw, factor_known hu hw hc⟩, fun x hx => ?_, ?_⟩
  · simp [raw, lookup_unknown hx]
  · simp [raw, lookup, raise]

/-- non-vacuity of `C01_raw`: the raw factors of the foot and the inch -/
example : raw (α := ℝ) (some "feet") = .ok (12 * 0.0254) ∧ raw (α := ℝ) (some "inch") = .ok 0.0254 :=
  ⟨(C01_raw (u := "feet") (w := "inch") rfl rfl rfl).1, (C01_raw (u := "inch") (w := "feet") rfl rfl rfl).1⟩

/-- Everyday equivalences, checked against the table. -/
theorem C01_everyday :
    factor (α := ℝ) (some "m") (some "cm") none = .ok 100 ∧
    factor (α := ℝ) (some "cm") (some "mm") none = .ok 10 ∧
    factor (α := ℝ) (some "ft") (some "inches") none = .ok 12 ∧
    factor (α := ℝ) (some "in") (some "cm") none = .ok 2.54 ∧
    factor (α := ℝ) (some "fathoms") (some "feet") none = .ok 6 ∧
    factor (α := ℝ) (some "kg") (some "g") none = .ok 1000 ∧
    factor (α := ℝ) (some "rad") (some "deg") none = .ok (180 / Real.pi) ∧
    factor (α := ℝ) (some "hr") (some "min") none = .ok 60 ∧
    factor (α := ℝ) (some "day") (some "hr") none = .ok 24 := by
  have key : ∀ {a b A B} {r : ℝ}, UnitIs a A → UnitIs b B → A.cls = B.cls → A.size / B.size = r →
      factor (α := ℝ) (some a) (some b) none = .ok r := by
    intro a b A B r ha hb hc hr
    rw [factor_known ha hb hc, hr]
  refine ⟨key rfl rfl rfl ?_, key rfl rfl rfl ?_, key rfl rfl rfl ?_, key rfl rfl rfl ?_,
    key rfl rfl rfl ?_, key rfl rfl rfl ?_, key rfl rfl rfl ?_, key rfl rfl rfl ?_,
    key rfl rfl rfl ?_⟩ <;> norm_num

theorem mem_get? {κ ν : Type} [DecidableEq κ] (k : κ) (v : ν) : ∀ d : Dict κ ν, d.keys.Nodup → ((k, v) ∈ d ↔ d.get? k = some v)
  | [], _ => by simp
  | (k', v') :: d, h => by
    simp only [Dict.keys, List.map_cons, List.nodup_cons] at h
    rw [Dict.get?_cons, List.mem_cons, mem_get? k v d h.2]
    by_cases e : k' = k
    · subst e
      have : Dict.get? d k' ≠ some v := by
        rw [Ne, ← mem_get? k' v d h.2]
        exact fun hm => h.1 (List.mem_map.2 ⟨_, hm, rfl⟩)
      simp [this, eq_comm (a := v)]
    · simp [e, eq_comm (a := k)]

theorem table_nodup : (table (α := ℝ)).keys.Nodup := by
  simp [Dict.keys, table]

theorem mem_classes (u c : String) : (∃ e ∈ table (α := ℝ), e.1 = u ∧ e.2.1 = c) ↔ ∃ U, UnitIs u U ∧ U.cls = c := by
  have key : ∀ y, (u, c, y) ∈ table (α := ℝ) ↔ ∃ U, UnitIs u U ∧ U.cls = c ∧ U.size = y := by
    intro y
    rw [mem_get? _ _ _ table_nodup, table_get?]
    cases h : unitOf u <;> simp [UnitIs, h]
  constructor
  · rintro ⟨⟨u', c', y⟩, h, rfl, rfl⟩
    obtain ⟨U, h1, h2, _⟩ := (key y).1 h
    exact ⟨U, h1, h2⟩
  · rintro ⟨U, h1, h2⟩
    exact ⟨_, (key U.size).2 ⟨U, h1, h2, rfl⟩, rfl, rfl⟩

/-- C01.  `units_in_class` has every name of every unit of the class, once; the properties `lengths` and so on are these lists;
`all_units_classes` has every class, once. -/
theorem C01_classes (u c : String) :
    (u ∈ unitsInClass ℝ c ↔ ∃ U, UnitIs u U ∧ U.cls = c) ∧ (unitsInClass ℝ c).Nodup ∧ (allUnits ℝ).Nodup ∧
    (c ∈ allUnitsClasses ℝ ↔ ∃ n U, UnitIs n U ∧ U.cls = c) ∧ (allUnitsClasses ℝ).Nodup ∧
    (c ∈ allUnitsClasses ℝ ↔ c = "length" ∨ c = "weight" ∨ c = "angle" ∨ c = "time" ∨ c = "time_rate") ∧
    (u ∈ lengths ℝ ↔ ∃ U, UnitIs u U ∧ U.cls = "length") ∧ (u ∈ weights ℝ ↔ ∃ U, UnitIs u U ∧ U.cls = "weight") ∧
    (u ∈ angles ℝ ↔ ∃ U, UnitIs u U ∧ U.cls = "angle") ∧ (u ∈ times ℝ ↔ ∃ U, UnitIs u U ∧ U.cls = "time") ∧
    (u ∈ timeRates ℝ ↔ ∃ U, UnitIs u U ∧ U.cls = "time_rate") := by
  have hin : ∀ u c, u ∈ unitsInClass ℝ c ↔ ∃ U, UnitIs u U ∧ U.cls = c := by
    intro u c
    rw [← mem_classes, unitsInClass]
    simp [and_comm]
  refine ⟨hin u c, ?_, table_nodup, ?_, List.nodup_dedup _, ?_, hin _ _, hin _ _, hin _ _, hin _ _, hin _ _⟩
  · exact List.Nodup.sublist (List.Sublist.map _ List.filter_sublist) table_nodup
  · rw [allUnitsClasses, List.mem_dedup, List.mem_map]
    constructor
    · rintro ⟨e, he, h⟩
      obtain ⟨U, h1⟩ := (mem_classes e.1 c).1 ⟨e, he, rfl, h⟩
      exact ⟨_, U, h1⟩
    · rintro ⟨n, U, h⟩
      obtain ⟨e, he, _, h⟩ := (mem_classes n c).2 ⟨U, h⟩
      exact ⟨e, he, h⟩
  · rw [allUnitsClasses, List.mem_dedup]
    simp [table]

/-- Non-vacuity of `C01_factor_coherent`: three different length units. -/
example : ∃ A B C, UnitIs "ft" A ∧ UnitIs "cm" B ∧ UnitIs "cubits" C ∧ A.cls = B.cls ∧
    B.cls = C.cls := by
  refine ⟨_, _, _, rfl,
    rfl, rfl,
    rfl, rfl⟩

/-! ### C02 -/

/-- The intended contract of `factor`: a returned number implies two known units of one kind,
and of the demanded kind when one is demanded. -/
def FactorContract (a b c : Option String) : Prop :=
  ∃ n m A B, a = some n ∧ b = some m ∧ UnitIs n A ∧ UnitIs m B ∧ A.cls = B.cls ∧
    (blank c = false → c = some A.cls)

/-- C02.  When the two arguments differ (and are not both blank) a returned
factor implies the whole contract; in the case `from == to` the code returns 1 before any check
(`C02_equal_unchecked`). -/
theorem C02_class_checking {a b c : Option String} {r : ℝ}
    (hne : a ≠ b) (hbl : ¬ (blank a = true ∧ blank b = true))
    (h : factor a b c = .ok r) : FactorContract a b c := by
  unfold factor at h
  rw [if_neg (by simpa using hbl), if_neg hne] at h
  obtain ⟨f, hf, h⟩ := bind_eq_ok.mp h
  obtain ⟨t, ht, h⟩ := bind_eq_ok.mp h
  obtain ⟨n, A, rfl, hA, rfl⟩ := lookup_ok hf
  obtain ⟨m, B, rfl, hB, rfl⟩ := lookup_ok ht
  by_cases hc : A.cls = B.cls
  · rw [if_neg (by simpa using hc)] at h
    refine ⟨n, m, A, B, rfl, rfl, hA, hB, hc, fun hb => ?_⟩
    by_contra hcc
    rw [if_pos (by simp [hb, hcc])] at h
    cases h
  · rw [if_pos (by simpa using hc)] at h
    cases h

/-- C02.  The exact decision table of `factor` for two different, non-blank names. -/
theorem C02_decision_table {n m : String} (hne : n ≠ m) (hn : n ≠ "")
    (c : Option String) :
    ((Unknown n ∨ Unknown m) → factor (α := ℝ) (some n) (some m) c = .error .KeyError) ∧
    (∀ A B, UnitIs n A → UnitIs m B →
      (A.cls ≠ B.cls → factor (α := ℝ) (some n) (some m) c = .error .ValueError) ∧
      (A.cls = B.cls → blank c = false → c ≠ some A.cls →
        factor (α := ℝ) (some n) (some m) c = .error .ValueError) ∧
      (A.cls = B.cls → (blank c = true ∨ c = some A.cls) →
        factor (some n) (some m) c = .ok (A.size / B.size))) := by
  have hne' : ¬ (some n = some m) := fun h => hne (Option.some.inj h)
  have b1 : blank (some n) = false := by simp [blank, hn]
  constructor
  · rintro h
    unfold factor
    rw [b1, Bool.false_and, if_neg (by simp), if_neg hne']
    rcases h with h | h
    · rw [lookup_unknown h]; rfl
    · cases hu : unitOf n with
      | none => rw [lookup_unknown hu]; rfl
      | some A => rw [lookup_known hu, lookup_unknown h]; rfl
  · intro A B hA hB
    unfold factor
    rw [b1, Bool.false_and, if_neg (by simp), if_neg hne', lookup_known hA, lookup_known hB]
    simp only [ok_bind]
    refine ⟨fun h => by rw [if_pos h], fun h h2 h3 => ?_, fun h h2 => ?_⟩
    · rw [if_neg (not_not.mpr h), if_pos (by simp [h2, h3])]
    · rw [if_neg (not_not.mpr h), if_neg, pyDiv_real (size_pos hB).ne']
      rcases h2 with h2 | h2 <;> simp [h2]

/-- C02.  What `factor` does with any arguments.  Equal arguments, and two that are missing or empty, give 1, without
any check.  Otherwise a missing or unknown unit raises KeyError, and two known units give the quotient of their sizes,
if they are of one class, and it is the demanded one if there is a demand, else ValueError. -/
theorem C02_decision (a b c : Option String) :
    (a = b ∨ (blank a = true ∧ blank b = true) → factor (α := ℝ) a b c = .ok 1) ∧
    (¬ (a = b ∨ (blank a = true ∧ blank b = true)) →
      ((¬ (∃ n A, a = some n ∧ UnitIs n A) ∨ ¬ ∃ m B, b = some m ∧ UnitIs m B) →
        factor (α := ℝ) a b c = .error .KeyError) ∧
      (∀ n m A B, a = some n → b = some m → UnitIs n A → UnitIs m B →
        (A.cls = B.cls ∧ (blank c = true ∨ c = some A.cls) → factor a b c = .ok (A.size / B.size)) ∧
        (¬ (A.cls = B.cls ∧ (blank c = true ∨ c = some A.cls)) → factor (α := ℝ) a b c = .error .ValueError))) := by
  constructor
  · intro h
    unfold factor
    by_cases hb : (blank a && blank b) = true
    · rw [if_pos hb]; simp
    · rw [if_neg hb]
      rcases h with h | h
      · rw [if_pos h]; simp
      · simp [h.1, h.2] at hb
  · intro h
    push Not at h
    obtain ⟨hne, hbl⟩ := h
    have hbl' : ¬ (blank a && blank b) = true := by simpa using hbl
    constructor
    · intro h
      unfold factor
      rw [if_neg hbl', if_neg hne]
      have bad : ∀ u : Option String, (¬ ∃ n A, u = some n ∧ UnitIs n A) → lookup (α := ℝ) u = .error .KeyError := by
        intro u hu
        cases u with
        | none => rfl
        | some n =>
          apply lookup_unknown
          cases hn : unitOf n with
          | none => exact hn
          | some A => exact absurd ⟨n, A, rfl, hn⟩ hu
      rcases h with h | h
      · rw [bad a h]; rfl
      · by_cases ha : ∃ n A, a = some n ∧ UnitIs n A
        · obtain ⟨n, A, rfl, hA⟩ := ha
          rw [lookup_known hA, bad b h]; rfl
        · rw [bad a ha]; rfl
    · rintro n m A B rfl rfl hA hB
      have hne' : n ≠ m := fun h => hne (by rw [h])
      have hn : n ≠ "" := by
        rintro rfl
        have := blank_unit hA
        simp [blank] at this
      obtain ⟨h1, h2, h3⟩ := (C02_decision_table hne' hn c).2 A B hA hB
      refine ⟨fun h => h3 h.1 h.2, fun h => ?_⟩
      by_cases hc : A.cls = B.cls
      · have : ¬ (blank c = true ∨ c = some A.cls) := fun h' => h ⟨hc, h'⟩
        push Not at this
        exact h2 hc (by simpa using this.1) this.2
      · exact h1 hc

/-- C02.  A missing unit against a known one is rejected. -/
theorem C02_unitless {n : String} {A : UnitDef} (hA : UnitIs n A) (c : Option String) :
    factor (α := ℝ) (some n) none c = .error .KeyError ∧
    factor (α := ℝ) none (some n) c = .error .KeyError := by
  constructor
  · unfold factor
    rw [blank_unit hA]
    rw [Bool.false_and, if_neg (by simp), if_neg (by simp), lookup_known hA]
    rfl
  · unfold factor
    rw [blank_unit hA]
    simp [lookup]

/-- C02.  The contract does not hold for equal names, which skip every check — a time unit passes a demand for a
length, and a name that is no unit at all is accepted. -/
theorem C02_equal_unchecked :
    ¬ ∀ (a b c : Option String) (r : ℝ), ¬ (blank a = true ∧ blank b = true) →
      factor a b c = .ok r → FactorContract a b c := by
  intro h
  obtain ⟨n, m, A, B, hn, -, hA, -, -, hc⟩ :=
    h (some "sec") (some "sec") (some "length") 1 (by simp [blank]) (by simp [factor, blank])
  cases hn
  have : unitOf "sec" = some ⟨["sec", "second", "seconds"], "time", 1⟩ := by
    simp [unitOf, unitDefs]
  rw [UnitIs, this] at hA
  cases hA
  have := hc (by simp [blank])
  simp at this

/-- The second witness for `C02_equal_unchecked`: an unknown name. -/
theorem C02_equal_unknown : Unknown "xyz" ∧
    factor (α := ℝ) (some "xyz") (some "xyz") (some "length") = .ok 1 := by
  constructor
  · simp [Unknown, unitOf, unitDefs]
  · simp [factor, blank]

/-- Non-vacuity of `C02_class_checking`. -/
example : ∃ r : ℝ, factor (some "ft") (some "in") (some "length") = .ok r ∧
    some "ft" ≠ some "in" := by
  have hA : UnitIs "ft" ⟨["ft", "foot", "feet"], "length", 12 * 0.0254⟩ := by
    simp [UnitIs, unitOf, unitDefs]
  have hB : UnitIs "in" ⟨["in", "inch", "inches"], "length", 0.0254⟩ := by
    simp [UnitIs, unitOf, unitDefs]
  exact ⟨_, ((C02_decision_table (by decide) (by decide) (some "length")).2 _ _ hA
    hB).2.2 rfl (Or.inr rfl), by decide⟩

/-! ### C03 -/

/-- C03.  `convert` succeeds exactly when `factor` does. -/
theorem C03_convert_returns_iff (v : Option ℝ) (a b c : Option String) :
    Returns (convert v a b c) ↔ Returns (factor (α := ℝ) a b c) := by
  unfold convert
  constructor
  · rintro ⟨r, h⟩
    obtain ⟨f, hf, -⟩ := bind_eq_ok.mp h
    exact ⟨f, hf⟩
  · rintro ⟨f, hf⟩
    rw [hf]
    cases v <;> exact ⟨_, rfl⟩

/-- C03.  A missing value still raises whatever `factor` raises, and otherwise gives
`(None, None)`. -/
theorem C03_convert_none (a b c : Option String) :
    (∀ e, factor (α := ℝ) a b c = .error e → convert (α := ℝ) none a b c = .error e) ∧
    (∀ f, factor (α := ℝ) a b c = .ok f → convert (α := ℝ) none a b c = .ok (none, none)) := by
  constructor <;> intro x h <;> simp [convert, h]

/-- C03.  Between known units of one kind `convert` returns the target unit and the same
physical quantity, is linear in the value, and converting on to a third unit gives what
direct conversion gives (with `c = a`: the original value). -/
theorem C03_convert_quantity {a b c : String} {A B C : UnitDef}
    (ha : UnitIs a A) (hb : UnitIs b B) (hc : UnitIs c C)
    (hab : A.cls = B.cls) (hbc : B.cls = C.cls) (v w k : ℝ) :
    ∃ v' w' s' k' v'' : ℝ,
      convert (some v) (some a) (some b) none = .ok (some v', some b) ∧
      quantity v' B = quantity v A ∧
      convert (some w) (some a) (some b) none = .ok (some w', some b) ∧
      convert (some (v + w)) (some a) (some b) none = .ok (some s', some b) ∧ s' = v' + w' ∧
      convert (some (k * v)) (some a) (some b) none = .ok (some k', some b) ∧ k' = k * v' ∧
      convert (some v') (some b) (some c) none = .ok (some v'', some c) ∧
      convert (some v) (some a) (some c) none = .ok (some v'', some c) ∧
      (c = a → v'' = v) := by
  have hA := size_pos ha
  have hB := size_pos hb
  have hC := size_pos hc
  refine ⟨v * (A.size / B.size), w * (A.size / B.size), (v + w) * (A.size / B.size),
    k * v * (A.size / B.size), v * (A.size / C.size), ?_, ?_, ?_, ?_, ?_, ?_, ?_, ?_, ?_, ?_⟩
  · simp [convert, factor_known ha hb hab]
  · simp only [quantity]; field_simp
  · simp [convert, factor_known ha hb hab]
  · simp [convert, factor_known ha hb hab]
  · ring
  · simp [convert, factor_known ha hb hab]
  · ring
  · simp only [convert, factor_known hb hc hbc, ok_bind, pure_eq_ok]
    congr 3
    field_simp
  · simp [convert, factor_known ha hc (hab.trans hbc)]
  · rintro rfl
    rw [UnitIs] at ha hc
    rw [ha] at hc
    cases hc
    field_simp

/-- C03.  `convert_list` is elementwise `convert`: it returns exactly when `factor` does, keeps
the length and order, and every element is the converted number. -/
theorem C03_convert_list (xs : List ℝ) (a b : Option String) :
    (∀ e, factor (α := ℝ) a b none = .error e → convertList xs a b = .error e) ∧
    (∀ f, factor (α := ℝ) a b none = .ok f → ∃ ys, convertList xs a b = .ok ys ∧
      ys.length = xs.length ∧
      ∀ (i : ℕ) x, xs[i]? = some x → ∃ y, ys[i]? = some y ∧
        convert (some x) a b none = .ok (some y, b)) := by
  constructor
  · intro e h; simp [convertList, h]
  · intro f h
    refine ⟨xs.map fun x => f * x, by simp [convertList, h], by simp, fun i x hi => ?_⟩
    exact ⟨f * x, by simp [hi], by simp [convert, h, mul_comm]⟩

example : ∃ A B, UnitIs "stone" A ∧ UnitIs "lb" B ∧ A.cls = B.cls := by
  refine ⟨_, _, rfl,
    rfl, rfl⟩

/-! ### C04 -/

theorem get?_update {κ ν : Type} [DecidableEq κ] (e : Dict κ ν) : ∀ (d : Dict κ ν) (k : κ),
    (Dict.update d e).get? k = match Dict.get? e.reverse k with
      | some v => some v
      | none => d.get? k := by
  induction e using List.reverseRecOn with
  | nil => intro d k; rfl
  | append_singleton e a ih =>
    intro d k
    obtain ⟨k', v'⟩ := a
    have h1 : Dict.update d (e ++ [(k', v')]) = (Dict.update d e).set k' v' := by
      simp [Dict.update, List.foldl_append]
    rw [h1, Dict.get?_set, List.reverse_append, List.reverse_singleton, List.singleton_append,
      Dict.get?_cons, ih]
    by_cases hk : k = k'
    · simp [hk]
    · rw [if_neg hk, if_neg (fun h => hk h.symm)]

/-- C04.  `default_units`: unknown systems raise; otherwise the exceptions override exactly the
classes they list (the last entry for a class wins) and every other class keeps the
system's unit. -/
theorem C04_default_units (system : String) (exc : Dict String String) :
    (system ≠ "metric" → system ≠ "united_states" →
      defaultUnits system exc = .error .KeyError) ∧
    (system = "metric" ∨ system = "united_states" →
      ∃ d, defaultUnits system exc = .ok d ∧ ∀ c,
        d.get? c = match Dict.get? exc.reverse c with
          | some u => some u
          | none => systemUnit system c) := by
  constructor
  · intro h1 h2
    simp [defaultUnits, defaultTable, Dict.get?_cons, Ne.symm h1, Ne.symm h2]
  · rintro (rfl | rfl)
    · refine ⟨_, by simp only [defaultUnits, defaultTable, Dict.get?_cons, if_pos]; rfl,
        fun c => ?_⟩
      rw [get?_update]
      cases Dict.get? exc.reverse c with
      | some u => rfl
      | none =>
        simp [Dict.update, Dict.set, Dict.get?_cons, systemUnit, eq_comm (b := c)]
    · refine ⟨_, by simp only [defaultUnits, defaultTable, Dict.get?_cons]; rfl,
        fun c => ?_⟩
      rw [get?_update]
      cases Dict.get? exc.reverse c with
      | some u => rfl
      | none =>
        simp [Dict.update, Dict.set, Dict.get?_cons, systemUnit, eq_comm (b := c)]

theorem unit_cases {u : String} {U : UnitDef} (h : UnitIs u U) :
    U.cls = "length" ∨ U.cls = "weight" ∨ U.cls = "angle" ∨ U.cls = "time" ∨
      U.cls = "time_rate" := by
  have hm := mem_unitDefs h
  simp only [unitDefs, List.mem_cons, List.not_mem_nil, or_false] at hm
  rcases hm with h | h | h | h | h | h | h | h | h | h | h | h | h | h | h | h | h | h | h <;>
    simp [h]

/-- every kind of quantity has a unit in both systems, and it is a unit of that kind -/
theorem systemUnit_known {u system : String} {U : UnitDef} (h : UnitIs u U)
    (hs : system = "metric" ∨ system = "united_states") :
    ∃ t T, systemUnit system U.cls = some t ∧ UnitIs t T ∧ T.cls = U.cls := by
  rcases hs with rfl | rfl <;> rcases unit_cases h with e | e | e | e | e <;> rw [e] <;>
    exact ⟨_, _, rfl, rfl, rfl⟩

theorem convertToSystemDefault_known {u system : String} {U : UnitDef} (h : UnitIs u U)
    (hs : system = "metric" ∨ system = "united_states") {t : String} {T : UnitDef}
    (ht : systemUnit system U.cls = some t) (hT : UnitIs t T) (hc : T.cls = U.cls) (v : ℝ) :
    convertToSystemDefault (some v) (some u) system
      = .ok (some (v * (U.size / T.size)), some t) := by
  obtain ⟨d, hd, hget⟩ := (C04_default_units system []).2 hs
  have h2 := hget U.cls
  simp only [List.reverse_nil, Dict.get?_nil] at h2
  rw [ht] at h2
  simp [convertToSystemDefault, hd, convertToDefault, unitsClass, blank_unit h, lookup_known h,
    h2, convert, factor_known h hT hc.symm]

/-- C04.  For a known unit and either system: the system's unit for that kind is returned, the
physical quantity is preserved, and converting again changes nothing. -/
theorem C04_convert_to_system_default {u system : String} {U : UnitDef} (h : UnitIs u U)
    (hs : system = "metric" ∨ system = "united_states") (v : ℝ) :
    ∃ v' t T, systemUnit system U.cls = some t ∧ UnitIs t T ∧ T.cls = U.cls ∧
      convertToSystemDefault (some v) (some u) system = .ok (some v', some t) ∧
      quantity v' T = quantity v U ∧
      convertToSystemDefault (some v') (some t) system = .ok (some v', some t) := by
  obtain ⟨t, T, ht, hT, hc⟩ := systemUnit_known h hs
  have hTp := size_pos hT
  refine ⟨_, t, T, ht, hT, hc, convertToSystemDefault_known h hs ht hT hc v, ?_, ?_⟩
  · simp only [quantity]; field_simp
  · rw [convertToSystemDefault_known hT hs (by rw [hc]; exact ht) hT rfl]
    rw [div_self hTp.ne', mul_one]

/-- C04.  Unitless numbers pass through unchanged, a missing value keeps raising or gives
`(None, None)`, unknown units and unknown systems raise. -/
theorem C04_edges {system : String} (hs : system = "metric" ∨ system = "united_states")
    (v : Option ℝ) :
    convertToSystemDefault v none system = .ok (v, none) ∧
    convertToSystemDefault v (some "") system = .ok (v, some "") ∧
    (∀ u U, UnitIs u U → convertToSystemDefault (α := ℝ) none (some u) system = .ok (none, none)) ∧
    (∀ u, Unknown u → u ≠ "" → convertToSystemDefault v (some u) system = .error .KeyError) ∧
    (∀ u s, s ≠ "metric" → s ≠ "united_states" →
      convertToSystemDefault v u s = .error .KeyError) := by
  obtain ⟨d, hd, hget⟩ := (C04_default_units system []).2 hs
  refine ⟨?_, ?_, ?_, ?_, ?_⟩
  · simp [convertToSystemDefault, hd, convertToDefault, unitsClass, blank]
  · simp [convertToSystemDefault, hd, convertToDefault, unitsClass, blank]
  · intro u U h
    obtain ⟨t, T, ht, hT, hc⟩ := systemUnit_known h hs
    have h2 := hget U.cls
    simp only [List.reverse_nil, Dict.get?_nil] at h2
    rw [ht] at h2
    simp [convertToSystemDefault, hd, convertToDefault, unitsClass, blank_unit h, lookup_known h,
      h2, convert, factor_known h hT hc.symm]
  · intro u hu hne
    simp [convertToSystemDefault, hd, convertToDefault, unitsClass, blank, hne, lookup_unknown hu]
  · intro u s h1 h2
    simp [convertToSystemDefault, (C04_default_units s []).1 h1 h2]

/-- C04 non-vacuity: 1 ft is 12 in. -/
example : convertToSystemDefault (α := ℝ) (some 1) (some "ft") "united_states"
    = .ok (some 12, some "in") := by
  have := convertToSystemDefault_known (u := "ft") rfl (Or.inr rfl) (t := "in") rfl rfl rfl 1
  rw [this]
  norm_num

/-! ### C12 -/

/-- C12.  `round_to(x, n)` for `n ≠ 0` is `k·n` for the integer `k` nearest to `x/n`, with the
interpreter's tie rule. -/
theorem C12_round_to (ver : PyVer) (x n : ℝ) (hn : n ≠ 0) :
    ∃ k : ℤ, RoundsTo ver (x / n) k ∧ roundTo ver x n = .ok (k * n) :=
  roundTo_eq ver x n hn

/-- C12.  A zero increment raises. -/
theorem C12_round_to_zero (ver : PyVer) (x : ℝ) :
    roundTo ver x 0 = .error .ZeroDivisionError := by
  simp [roundTo, pyDiv_real_zero]

/-- C12.  Consequences: multiple of `n`, within `|n|/2`, idempotent, monotone, odd. -/
theorem C12_round_to_laws (ver : PyVer) (x y n : ℝ) (hn : n ≠ 0) :
    ∃ rx ry rn : ℝ, roundTo ver x n = .ok rx ∧ roundTo ver y n = .ok ry ∧
      roundTo ver (-x) n = .ok rn ∧
      IsMultiple rx n ∧ |rx - x| ≤ |n| / 2 ∧ roundTo ver rx n = .ok rx ∧
      (IsMultiple x n → rx = x) ∧ (x ≤ y → rx ≤ ry) ∧ rn = -rx := by
  obtain ⟨k, hk, ek⟩ := roundTo_eq ver x n hn
  obtain ⟨l, hl, el⟩ := roundTo_eq ver y n hn
  obtain ⟨m, hm, em⟩ := roundTo_eq ver (-x) n hn
  have fix : ∀ j : ℤ, roundTo ver (j * n) n = .ok (j * n) := by
    intro j
    obtain ⟨i, hi, ei⟩ := roundTo_eq ver (j * n) n hn
    rw [mul_div_cancel_right₀ _ hn] at hi
    rw [ei, RoundsTo.unique hi (RoundsTo.intCast ver j)]
  refine ⟨k * n, l * n, m * n, ek, el, em, ⟨k, rfl⟩, ?_, fix k, ?_, ?_, ?_⟩
  · have h1 : (k : ℝ) * n - x = -((x / n - k) * n) := by field_simp; ring
    rw [h1, abs_neg, abs_mul]
    have := hk.1
    have h2 := abs_nonneg n
    nlinarith
  · rintro ⟨j, rfl⟩
    rw [fix j] at ek
    exact (Except.ok.inj ek).symm
  · intro hxy
    rcases lt_or_gt_of_ne hn with h | h
    · have : y / n ≤ x / n := div_le_div_of_nonpos_of_le h.le hxy
      have := RoundsTo.mono hl hk this
      have : (l : ℝ) ≤ k := by exact_mod_cast this
      nlinarith
    · have : x / n ≤ y / n := div_le_div_of_nonneg_right hxy h.le
      have := RoundsTo.mono hk hl this
      have : (k : ℝ) ≤ l := by exact_mod_cast this
      nlinarith
  · rw [neg_div] at hm
    rw [RoundsTo.unique hm (RoundsTo.neg hk)]
    push_cast; ring

/-- C12 non-vacuity: 3.8721 to the nearest 0.05 is 3.85 (the docstring example). -/
example : roundTo .py3 (3.8721 : ℝ) 0.05 = .ok 3.85 := by
  obtain ⟨k, hk, e⟩ := C12_round_to .py3 3.8721 0.05 (by norm_num)
  have : RoundsTo .py3 (3.8721 / 0.05 : ℝ) 77 := by
    constructor
    · rw [abs_le]; constructor <;> norm_num
    · intro h; rw [abs_of_nonneg (by norm_num)] at h; norm_num at h
  rw [e, RoundsTo.unique hk this]
  norm_num

/-! ### C05 -/

/-- the documented increments of `prettify` -/
noncomputable def prettyIncrement (unit : String) : ℝ :=
  if unit = "cm" ∨ unit = "kg" then 1 / 2
  else if unit = "in" then 1 / 4
  else if unit = "lb" ∨ unit = "yr" then 1
  else 1 / 10

theorem increment_eq (t : String) (p : Option ℤ) :
    increment (α := ℝ) (some t) p = match p with
      | some k => 1 / (10 : ℝ) ^ k
      | none => prettyIncrement t := by
  unfold increment prettyIncrement
  cases p with
  | some k => simp
  | none =>
    simp only
    split <;> simp_all <;> norm_num

theorem increment_pos (t : String) (p : Option ℤ) : 0 < increment (α := ℝ) (some t) p := by
  rw [increment_eq]
  cases p with
  | some k => simp only; positivity
  | none => simp only [prettyIncrement]; split_ifs <;> norm_num

/-- C05.  For a known unit `prettify` returns a pair of numbers in the metric and the US unit of
that kind, each an integer multiple of the documented increment (or of `10^-precision`) and
each within half an increment of the exactly converted quantity. -/
theorem C05_prettify (ver : PyVer) {u : String} {U : UnitDef} (h : UnitIs u U) (v : ℝ)
    (p : Option ℤ) :
    ∃ m s tm ts Tm Ts, prettify ver (some v) (some u) p = .ok ((m, some tm), (s, some ts)) ∧
      systemUnit "metric" U.cls = some tm ∧ UnitIs tm Tm ∧
      systemUnit "united_states" U.cls = some ts ∧ UnitIs ts Ts ∧
      ∀ x t T, (x = m ∧ t = tm ∧ T = Tm) ∨ (x = s ∧ t = ts ∧ T = Ts) →
        ∃ inc : ℝ, (inc = match p with | some k => 1 / (10 : ℝ) ^ k | none => prettyIncrement t) ∧
          0 < inc ∧ IsMultiple x inc ∧ |x - quantity v U / T.size| ≤ inc / 2 := by
  obtain ⟨tm, Tm, htm, hTm, hcm⟩ := systemUnit_known h (system := "metric") (Or.inl rfl)
  obtain ⟨ts, Ts, hts, hTs, hcs⟩ := systemUnit_known h (system := "united_states") (Or.inr rfl)
  have em := convertToSystemDefault_known h (Or.inl rfl) htm hTm hcm v
  have es := convertToSystemDefault_known h (Or.inr rfl) hts hTs hcs v
  have pm := increment_pos tm p
  have ps := increment_pos ts p
  obtain ⟨rm, _, _, erm, -, -, mm, bm, -⟩ :=
    C12_round_to_laws ver (v * (U.size / Tm.size)) 0 _ pm.ne'
  obtain ⟨rs, _, _, ers, -, -, ms, bs, -⟩ :=
    C12_round_to_laws ver (v * (U.size / Ts.size)) 0 _ ps.ne'
  refine ⟨rm, rs, tm, ts, Tm, Ts, ?_, htm, hTm, hts, hTs, ?_⟩
  · simp [prettify, em, es, roundValue, erm, ers]
  · rintro x t T (⟨rfl, rfl, rfl⟩ | ⟨rfl, rfl, rfl⟩)
    · refine ⟨_, increment_eq t p, pm, mm, ?_⟩
      rw [abs_of_pos pm] at bm
      rw [quantity, mul_div_assoc]; exact bm
    · refine ⟨_, increment_eq t p, ps, ms, ?_⟩
      rw [abs_of_pos ps] at bs
      rw [quantity, mul_div_assoc]; exact bs

/-- C05.  A missing value cannot be prettified. -/
theorem C05_prettify_none (ver : PyVer) {u : String} {U : UnitDef} (h : UnitIs u U)
    (p : Option ℤ) : prettify (α := ℝ) ver none (some u) p = .error .TypeError := by
  have := (C04_edges (system := "metric") (Or.inl rfl) none).2.2.1 u U h
  simp [prettify, this, roundValue]

/-- C05 non-vacuity: the docstring example, 182.13992 cm ↦ 182.0 cm, 71.75 in. -/
example : ∃ U, UnitIs "cm" U ∧
    prettify .py3 (some (182.13992 : ℝ)) (some "cm") none
      = .ok ((182, some "cm"), (71.75, some "in")) := by
  refine ⟨_, rfl, ?_⟩
  have em := convertToSystemDefault_known (u := "cm") rfl (Or.inl rfl) (t := "cm") rfl rfl rfl
    182.13992
  have es := convertToSystemDefault_known (u := "cm") rfl (Or.inr rfl) (t := "in") rfl rfl rfl
    182.13992
  have r1 : roundTo .py3 (182.13992 * (0.01 / 0.01) : ℝ) 0.5 = .ok 182 := by
    obtain ⟨k, hk, e⟩ := C12_round_to .py3 (182.13992 * (0.01 / 0.01)) 0.5 (by norm_num)
    have : RoundsTo .py3 (182.13992 * (0.01 / 0.01) / 0.5 : ℝ) 364 := by
      constructor
      · rw [abs_le]; constructor <;> norm_num
      · intro h; rw [abs_of_nonneg (by norm_num)] at h; norm_num at h
    rw [e, RoundsTo.unique hk this]; norm_num
  have r2 : roundTo .py3 (182.13992 * (0.01 / 0.0254) : ℝ) 0.25 = .ok 71.75 := by
    obtain ⟨k, hk, e⟩ := C12_round_to .py3 (182.13992 * (0.01 / 0.0254)) 0.25 (by norm_num)
    have : RoundsTo .py3 (182.13992 * (0.01 / 0.0254) / 0.25 : ℝ) 287 := by
      constructor
      · rw [abs_le]; constructor <;> norm_num
      · intro h; rw [abs_of_nonpos (by norm_num)] at h; norm_num at h
    rw [e, RoundsTo.unique hk this]; norm_num
  have i1 : increment (α := ℝ) (some "cm") none = 0.5 := by simp [increment]
  have i2 : increment (α := ℝ) (some "in") none = 0.25 := by simp [increment]
  simp only [prettify, em, es, ok_bind, roundValue, i1, i2, r1, r2, pure_eq_ok]

/-! ### C12, continued -/

/-- C12.  Numbers that are not finite: Python 2 gives them back, up to the sign of the increment, Python 3 raises. -/
theorem C12_round_to_nonfinite (n : ℝ) (hn : n ≠ 0) :
    roundTo .py3 (Fl.pinf : Fl) (.fin n) = .error .OverflowError ∧ roundTo .py3 (Fl.ninf : Fl) (.fin n) = .error .OverflowError ∧
    roundTo .py3 (Fl.nan : Fl) (.fin n) = .error .ValueError ∧
    roundTo .py2 (Fl.pinf : Fl) (.fin n) = .ok .pinf ∧ roundTo .py2 (Fl.ninf : Fl) (.fin n) = .ok .ninf ∧
    roundTo .py2 (Fl.nan : Fl) (.fin n) = .ok .nan := by
  have hn' : 1 / n ≠ 0 := one_div_ne_zero hn
  have hl : (Num.lit 1 : Fl) = .fin 1 := by simp
  have kd : ∀ a : Fl, ∀ b : ℝ, b ≠ 0 → pyDiv a (.fin b) = .ok (Fl.div a (.fin b)) := by
    intro a b hb
    have : Num.eq (Fl.fin b) (Num.lit 0 : Fl) = false := by
      simp only [Num.eq, Fl.lit_fl, Fl.eq]; simpa using hb
    simp only [pyDiv, this]; rfl
  have k1 : pyDiv (Num.lit 1 : Fl) (.fin n) = .ok (.fin (1 / n)) := by
    rw [kd _ _ hn, hl]; simp [Fl.div, hn]
  have main : ∀ m : ℝ, m ≠ 0 → ∃ s t : Fl, Fl.div .pinf (.fin m) = s ∧ Fl.div .ninf (.fin m) = t ∧
      (0 < m ∧ s = .pinf ∧ t = .ninf ∨ m < 0 ∧ s = .ninf ∧ t = .pinf) := by
    intro m hm
    refine ⟨_, _, rfl, rfl, ?_⟩
    rcases lt_or_gt_of_ne hm with h | h
    · right; simp [Fl.div, Fl.infOf, hm, h, h.not_gt]
    · left; simp [Fl.div, Fl.infOf, hm, h, h.not_gt]
  obtain ⟨s, t, hs, ht, h⟩ := main n hn
  obtain ⟨s', t', hs', ht', h'⟩ := main _ hn'
  have hnan : ∀ m : ℝ, Fl.div .nan (.fin m) = .nan := fun _ => rfl
  have hsame : 0 < 1 / n ↔ 0 < n := one_div_pos
  have p3 : pyRound .py3 (Fl.pinf : Fl) = .error .OverflowError ∧ pyRound .py3 (Fl.ninf : Fl) = .error .OverflowError ∧
      pyRound .py3 (Fl.nan : Fl) = .error .ValueError := by simp [pyRound, Num.floor, Num.eq, Fl.eq]
  have p2 : pyRound .py2 (Fl.pinf : Fl) = .ok .pinf ∧ pyRound .py2 (Fl.ninf : Fl) = .ok .ninf ∧
      pyRound .py2 (Fl.nan : Fl) = .ok .nan := by simp [pyRound, Num.floor]
  simp only [roundTo, k1, kd _ _ hn, ok_bind, hs, ht, hnan, p3, p2, error_bind, kd _ _ hn']
  rcases h with ⟨h, rfl, rfl⟩ | ⟨h, rfl, rfl⟩
  · rcases h' with ⟨h', rfl, rfl⟩ | ⟨h', rfl, rfl⟩
    · simp only [p3, p2, error_bind, ok_bind, hs', ht', and_self]
    · exact absurd (hsame.2 h) h'.not_gt
  · rcases h' with ⟨h', rfl, rfl⟩ | ⟨h', rfl, rfl⟩
    · exact absurd (hsame.1 h') h.not_gt
    · simp only [p3, p2, error_bind, ok_bind, hs', ht', and_self]

/-- C12.  `rounded_list` keeps the length and the `None`s, and turns every number into the nearest multiple of a power of ten, with
the interpreter's tie rule. -/
theorem C12_rounded_list (ver : PyVer) (xs : List (Option ℝ)) (p : ℤ) :
    List.Forall₂ (fun x y => match x with
      | none => y = none
      | some x => ∃ k : ℤ, RoundsTo ver (x * (10 : ℝ) ^ p) k ∧ y = some (k * (10 : ℝ) ^ (-p))) xs (roundedList ver xs p) := by
  rw [roundedList, List.forall₂_map_right_iff, List.forall₂_same]
  intro x _
  cases x with
  | none => rfl
  | some x =>
    have hl : (Num.lit ((10 : ℚ) ^ p) : ℝ) = (10 : ℝ) ^ p := by simp
    refine ⟨_, roundFrom_spec ver _, ?_⟩
    simp only [pyRoundDigits, hl, Num.floor_real, zpow_neg]
    simp [ofInt, div_eq_mul_inv]

/-- C12.  In `rounded_list` numbers that are not finite stay as they are. -/
theorem C12_rounded_list_nonfinite (ver : PyVer) (p : ℤ) :
    roundedList ver [some (Fl.pinf : Fl), none, some .ninf, some .nan] p = [some .pinf, none, some .ninf, some .nan] := by
  have h : ∀ x : Fl, ¬ x.IsFinite → Num.floor (x * Num.lit ((10 : ℚ) ^ p)) = none := by
    intro x hx
    have hp : (0 : ℝ) < (10 : ℝ) ^ p := by positivity
    cases x with
    | fin r => exact absurd ⟨r, rfl⟩ hx
    | pinf =>
      have : (Fl.pinf : Fl) * Num.lit ((10 : ℚ) ^ p) = .pinf := by
        show Fl.mul _ _ = _
        simp [Fl.mul, Fl.infOf, hp, hp.ne', Fl.lit_fl]
      rw [this]; rfl
    | ninf =>
      have : (Fl.ninf : Fl) * Num.lit ((10 : ℚ) ^ p) = .ninf := by
        show Fl.mul _ _ = _
        simp [Fl.mul, Fl.infOf, hp.ne', hp.not_gt, Fl.lit_fl]
      rw [this]; rfl
    | nan => rfl
  have k : ∀ x : Fl, ¬ x.IsFinite → pyRoundDigits ver p x = x := by
    intro x hx
    rw [pyRoundDigits, h x hx]
  have hi : ¬ Fl.IsFinite .pinf ∧ ¬ Fl.IsFinite .ninf ∧ ¬ Fl.IsFinite .nan := by simp [Fl.IsFinite]
  simp only [roundedList, List.map_cons, List.map_nil, k _ hi.1, k _ hi.2.1, k _ hi.2.2]

/-- Non-vacuity of C12: -1.25 and 0.25 to one digit, by the two rules. -/
example : roundedList .py2 [some (-1.25 : ℝ), none, some 0.25] 1 = [some (-1.3), none, some 0.3] ∧
    roundedList .py3 [some (-1.25 : ℝ), none, some 0.25] 1 = [some (-1.2), none, some 0.2] := by
  have f1 : ⌊(-1.25 : ℝ) * 10⌋ = -13 := by rw [Int.floor_eq_iff]; norm_num
  have f2 : ⌊(0.25 : ℝ) * 10⌋ = 2 := by rw [Int.floor_eq_iff]; norm_num
  constructor <;> simp [roundedList, pyRoundDigits, f1, f2, roundFrom, ofInt] <;> norm_num

end Blmath.Props
