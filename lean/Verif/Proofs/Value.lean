import Verif.Spec.Value
import Verif.Proofs.Units
import Mathlib.Tactic.FieldSimp

namespace Blmath.Value
open Blmath.Spec Blmath.Units

theorem measures_pos {u k s} (h : Measures u k s) : 0 < s := by
  cases u with
  | none => rw [h.2]; exact one_pos
  | some n => obtain ⟨U, hU, -, rfl⟩ := h; exact size_pos hU

theorem Measures.unique {u k k' s s'} (h : Measures u k s) (h' : Measures u k' s') :
    k = k' ∧ s = s' := by
  cases u with
  | none => exact ⟨h.1.trans h'.1.symm, h.2.trans h'.2.symm⟩
  | some n =>
    obtain ⟨U, hU, rfl, rfl⟩ := h
    obtain ⟨V, hV, rfl, rfl⟩ := h'
    rw [UnitIs] at hU hV
    rw [hU] at hV
    cases hV
    exact ⟨rfl, rfl⟩

theorem good_iff (u : Option String) : GoodUnits u ↔ ∃ k s, Measures u k s := by
  cases u with
  | none => simp [GoodUnits, Measures]
  | some n =>
    simp only [GoodUnits, Measures]
    constructor
    · rintro (h | ⟨m, U, hm, hU⟩)
      · cases h
      · cases hm; exact ⟨_, _, U, hU, rfl, rfl⟩
    · rintro ⟨k, s, U, hU, -, -⟩
      exact Or.inr ⟨n, U, rfl, hU⟩

theorem mem_allUnits (u : String) : u ∈ allUnits ℝ ↔ ∃ U, UnitIs u U := by
  rw [allUnits, Dict.mem_keys_iff, Dict.contains, table_get?]
  cases h : unitOf u <;> simp [UnitIs, h]

theorem make_good {u : Option String} (h : GoodUnits u) (x : ℝ) : make (some x) u = .ok ⟨x, u⟩ := by
  rcases h with rfl | ⟨n, U, rfl, hU⟩
  · rfl
  · have : n ∈ allUnits ℝ := (mem_allUnits n).mpr ⟨U, hU⟩
    simp [make, this]

theorem make_bad {u : Option String} (h : ¬ GoodUnits u) (x : ℝ) :
    make (some x) u = .error .ValueError := by
  cases u with
  | none => exact absurd (Or.inl rfl) h
  | some n =>
    have : n ∉ allUnits ℝ := by
      rw [mem_allUnits]; rintro ⟨U, hU⟩; exact h (Or.inr ⟨n, U, rfl, hU⟩)
    simp [make, this]

theorem make_ok {x : Option ℝ} {u : Option String} {v : Value ℝ} (h : make x u = .ok v) :
    GoodUnits u ∧ x = some v.value ∧ v.units = u := by
  cases x with
  | none => cases h
  | some x =>
    by_cases hg : GoodUnits u
    · rw [make_good hg] at h; cases h; exact ⟨hg, rfl, rfl⟩
    · rw [make_bad hg] at h; cases h

/-- converting to a label of the same kind -/
theorem convert_same {v : Value ℝ} {to_ k : Option String} {s t : ℝ}
    (hv : Measures v.units k s) (ht : Measures to_ k t) :
    convert v to_ = .ok ⟨v.value * s / t, to_⟩ := by
  obtain ⟨x, u⟩ := v
  simp only at hv ⊢
  have htp := measures_pos ht
  unfold convert
  by_cases he : to_ = u
  · subst he
    obtain ⟨-, rfl⟩ := Measures.unique hv ht
    simp [mul_div_assoc, div_self htp.ne']
  · rw [if_neg he]
    cases u with
    | none =>
      have hk := hv.1
      subst hk
      cases to_ with
      | none => exact absurd rfl he
      | some n => obtain ⟨U, -, h, -⟩ := ht; cases h
    | some n =>
      rw [if_neg (by simp)]
      obtain ⟨U, hU, rfl, rfl⟩ := hv
      cases to_ with
      | none => cases ht.1
      | some m =>
        obtain ⟨V, hV, hc, rfl⟩ := ht
        have hc' := Option.some.inj hc
        simp only [Units.convert, factor_known hU hV hc', ok_bind, pure_eq_ok]
        rw [make_good (Or.inr ⟨m, V, rfl, hV⟩)]
        congr 2
        ring

/-- converting to a label of another kind raises -/
theorem convert_other {v : Value ℝ} {to_ k l : Option String} {s t : ℝ}
    (hv : Measures v.units k s) (ht : Measures to_ l t) (hkl : k ≠ l) :
    convert v to_ = .error (if to_ = none then .KeyError else .ValueError) := by
  obtain ⟨x, u⟩ := v
  simp only at hv ⊢
  unfold convert
  by_cases he : to_ = u
  · subst he; exact absurd (Measures.unique hv ht).1 hkl
  · rw [if_neg he]
    cases u with
    | none =>
      rw [if_pos rfl]
      have : to_ ≠ none := he
      rw [if_neg this]
    | some n =>
      rw [if_neg (by simp)]
      obtain ⟨U, hU, rfl, rfl⟩ := hv
      have b := blank_unit hU
      have he' : ¬ (some n = to_) := fun h => he h.symm
      cases to_ with
      | none =>
        have hf : factor (α := ℝ) (some n) none none = .error .KeyError := by
          simp only [factor, b, Bool.false_and, Bool.false_eq_true, if_false, if_neg he',
            lookup_known hU, ok_bind]
          rfl
        simp [Units.convert, hf]
      | some m =>
        obtain ⟨V, hV, rfl, rfl⟩ := ht
        have hc : U.cls ≠ V.cls := fun h => hkl (congrArg some h)
        have hf : factor (α := ℝ) (some n) (some m) none = .error .ValueError := by
          simp only [factor, b, Bool.false_and, Bool.false_eq_true, if_false, if_neg he',
            lookup_known hU, lookup_known hV, ok_bind, if_pos hc]
        simp [Units.convert, hf]

theorem convert_good {v w : Value ℝ} {to_ : Option String} (hv : GoodUnits v.units)
    (h : convert v to_ = .ok w) : GoodUnits w.units ∧ w.units = to_ := by
  unfold convert at h
  split at h
  · cases h; subst to_; exact ⟨hv, rfl⟩
  · split at h
    · cases h
    · obtain ⟨r, hr, h⟩ := bind_eq_ok.mp h
      obtain ⟨hg, h1, h2⟩ := make_ok h
      rw [h2]
      refine ⟨hg, ?_⟩
      obtain ⟨f, hf, hr⟩ := bind_eq_ok.mp hr
      simp at hr
      rw [← hr]

end Blmath.Value
