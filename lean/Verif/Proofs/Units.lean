import Verif.Model.Units
import Verif.Spec.Units
import Mathlib.Tactic.NormNum
import Mathlib.Tactic.FieldSimp
import Mathlib.Tactic.Linarith
import Mathlib.Tactic.Positivity

namespace Blmath.Units
open Blmath.Spec

theorem table_eq : (table (α := ℝ)) =
    unitDefs.flatMap fun d => d.names.map fun n => (n, d.cls, d.size) := by
  simp only [table, unitDefs, List.flatMap_cons, List.flatMap_nil, List.map_cons, List.map_nil,
    List.cons_append, List.nil_append, Num.lit_real, Trig.pi_real]
  norm_num

theorem get?_rows (ds : List UnitDef) (u : String) :
    Dict.get? (ds.flatMap fun d => d.names.map fun n => (n, d.cls, d.size)) u
      = (ds.find? fun d => d.names.contains u).map fun d => (d.cls, d.size) := by
  induction ds with
  | nil => rfl
  | cons d ds ih =>
    rw [List.flatMap_cons, List.find?_cons]
    have key : ∀ ns : List String, ∀ rest : Dict String (String × ℝ),
        Dict.get? ((ns.map fun n => (n, d.cls, d.size)) ++ rest) u
          = if ns.contains u then some (d.cls, d.size) else Dict.get? rest u := by
      intro ns rest
      induction ns with
      | nil => simp
      | cons n ns ihn =>
        rw [List.map_cons, List.cons_append, Dict.get?_cons, ihn]
        by_cases h : n = u
        · simp [h]
        · have h' : ¬ u = n := fun e => h e.symm
          by_cases h2 : u ∈ ns <;> simp [h, h', h2]
    rw [key, ih]
    by_cases h : u ∈ d.names <;> simp [h]

theorem table_get? (u : String) : (table (α := ℝ)).get? u
    = (unitOf u).map fun d => (d.cls, d.size) := by
  rw [table_eq, get?_rows]; rfl

theorem lookup_known {u : String} {U : UnitDef} (h : UnitIs u U) :
    lookup (α := ℝ) (some u) = .ok (U.cls, U.size) := by
  simp [lookup, table_get?, show unitOf u = some U from h]

theorem lookup_unknown {u : String} (h : Unknown u) :
    lookup (α := ℝ) (some u) = .error .KeyError := by
  simp [lookup, table_get?, show unitOf u = none from h]

theorem lookup_ok {u : Option String} {e : String × ℝ} (h : lookup (α := ℝ) u = .ok e) :
    ∃ n U, u = some n ∧ UnitIs n U ∧ e = (U.cls, U.size) := by
  cases u with
  | none => simp [lookup] at h
  | some n =>
    cases hu : unitOf n with
    | none => rw [lookup_unknown hu] at h; cases h
    | some U => rw [lookup_known hu] at h; cases h; exact ⟨n, U, rfl, hu, rfl⟩

theorem mem_unitDefs {u : String} {U : UnitDef} (h : UnitIs u U) : U ∈ unitDefs :=
  List.mem_of_find?_eq_some h

theorem size_pos {u : String} {U : UnitDef} (h : UnitIs u U) : 0 < U.size := by
  have hm := mem_unitDefs h
  simp only [unitDefs, List.mem_cons, List.not_mem_nil, or_false] at hm
  have hpi := Real.pi_pos
  rcases hm with h | h | h | h | h | h | h | h | h | h | h | h | h | h | h | h | h | h | h <;>
    · rw [h]; positivity

theorem unit_ne_empty {u : String} {U : UnitDef} (h : UnitIs u U) : u ≠ "" := by
  rintro rfl
  have : unitOf "" = none := by
    simp [unitOf, unitDefs]
  rw [UnitIs, this] at h; cases h

theorem blank_unit {u : String} {U : UnitDef} (h : UnitIs u U) : blank (some u) = false := by
  simp [blank, unit_ne_empty h]

theorem pyDiv_real {a b : ℝ} (h : b ≠ 0) : pyDiv a b = .ok (a / b) := by
  simp [pyDiv, h]

theorem pyDiv_real_zero (a : ℝ) : pyDiv a 0 = .error .ZeroDivisionError := by
  simp [pyDiv, raise]

/-- For known units of one kind `factor` is the ratio of the unit sizes. -/
theorem factor_known {a b : String} {A B : UnitDef} (ha : UnitIs a A) (hb : UnitIs b B)
    (hc : A.cls = B.cls) : factor (α := ℝ) (some a) (some b) none = .ok (A.size / B.size) := by
  have hA := size_pos ha
  have hB := size_pos hb
  unfold factor
  rw [blank_unit ha]
  by_cases hab : a = b
  · subst hab
    have : A = B := by rw [UnitIs] at ha hb; rw [ha] at hb; exact Option.some.inj hb
    subst this
    simp [hA.ne']
  · have : ¬ (some a = some b) := fun h => hab (Option.some.inj h)
    simp only [Bool.false_and, Bool.false_eq_true, if_false, if_neg this, lookup_known ha,
      lookup_known hb, ok_bind, hc, ne_eq, not_true_eq_false]
    simp [blank, pyDiv_real hB.ne']

end Blmath.Units
