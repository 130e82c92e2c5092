import Verif.Model.EdgeMap
import Mathlib.Data.Nat.Notation
import Mathlib.Data.List.Induction
import Mathlib.Tactic.Common

/-!
Property C29: the edge map of `mesh_xsections`.
-/

namespace Blmath.Props
open Blmath.Geometry

/-- the same unordered pair -/
def SamePair (u v a b : ℕ) : Prop := (u = a ∧ v = b) ∨ (u = b ∧ v = a)

instance (u v a b : ℕ) : Decidable (SamePair u v a b) := by unfold SamePair; infer_instance

/-- a history of `add(u, v, val)` calls, oldest first -/
abbrev AddHistory (ν : Type) := List (ℕ × ℕ × ν)

/-- the map after a history of adds -/
def edgeMapAfter {ν : Type} (h : AddHistory ν) : EdgeMap ν :=
  h.foldl (fun m a => m.add a.1 a.2.1 a.2.2) EdgeMap.empty

/-- the value most recently added for the pair, if any -/
def latest {ν : Type} (h : AddHistory ν) (a b : ℕ) : Option ν :=
  (h.reverse.find? fun e => decide (SamePair e.1 e.2.1 a b)).map fun e => e.2.2

theorem order_eq_iff (u v a b : ℕ) : EdgeMap.order u v = EdgeMap.order a b ↔ SamePair u v a b := by
  unfold EdgeMap.order SamePair
  by_cases h1 : u < v <;> by_cases h2 : a < b <;> simp only [h1, h2, if_true, if_false, Prod.mk.injEq]
  · constructor
    · exact Or.inl
    · rintro (h | h)
      · exact h
      · omega
  · constructor
    · exact Or.inr
    · rintro (h | h)
      · omega
      · exact h
  · constructor
    · rintro ⟨h, h'⟩; exact Or.inr ⟨h', h⟩
    · rintro (h | h) <;> omega
  · constructor
    · rintro ⟨h, h'⟩; exact Or.inl ⟨h', h⟩
    · rintro (h | h)
      · exact ⟨h.2, h.1⟩
      · omega

theorem SamePair.symm_right {u v a b : ℕ} : SamePair u v a b ↔ SamePair u v b a := by
  unfold SamePair; constructor <;> rintro (h | h) <;> simp [h]

theorem order_comm (u v : ℕ) : EdgeMap.order u v = EdgeMap.order v u :=
  (order_eq_iff u v v u).mpr (Or.inr ⟨rfl, rfl⟩)

theorem edgeMap_contains_eq {ν : Type} (m : EdgeMap ν) (a b : ℕ) :
    m.contains a b = (m.index a b).isSome := by
  unfold EdgeMap.contains EdgeMap.index
  cases h : m.d.get? (EdgeMap.order a b).1 <;> simp [h, Dict.contains]

theorem edgeMap_index_add {ν : Type} (m : EdgeMap ν) (u v : ℕ) (x : ν) (a b : ℕ) :
    (m.add u v x).index a b = if SamePair u v a b then some m.values.length else m.index a b := by
  have key : ∀ lo hi lo' hi' : ℕ,
      (match ((if m.d.contains lo then m.d else m.d.set lo []).set lo
          ((match (if m.d.contains lo then m.d else m.d.set lo []).get? lo with
            | some inner => inner
            | none => []).set hi m.values.length)).get? lo' with
        | some inner => inner.get? hi'
        | none => none) =
      if (lo, hi) = (lo', hi') then some m.values.length else
        match m.d.get? lo' with
        | some inner => inner.get? hi'
        | none => none := by
    intro lo hi lo' hi'
    by_cases hl : lo' = lo
    · subst hl
      rw [Dict.get?_set_same]
      simp only [Dict.get?_set, Prod.mk.injEq, true_and]
      by_cases hh : hi' = hi
      · subst hh; simp
      · have hh' : ¬ hi = hi' := fun h => hh h.symm
        simp only [hh, hh', if_false]
        cases hc : m.d.get? lo' with
        | none => simp [Dict.contains, hc, Dict.get?_set_same]
        | some inner => simp [Dict.contains, hc]
    · have hl' : ¬ (lo, hi) = (lo', hi') := fun h => hl (by injection h with h1 _; exact h1.symm)
      rw [if_neg hl', Dict.get?_set_ne _ _ hl]
      have : (if m.d.contains lo then m.d else m.d.set lo []).get? lo' = m.d.get? lo' := by
        split
        · rfl
        · rw [Dict.get?_set_ne _ _ hl]
      rw [this]
  have h := key (EdgeMap.order u v).1 (EdgeMap.order u v).2 (EdgeMap.order a b).1
    (EdgeMap.order a b).2
  change _ = (if EdgeMap.order u v = EdgeMap.order a b then _ else _) at h
  have e : (if EdgeMap.order u v = EdgeMap.order a b then some m.values.length else
        match m.d.get? (EdgeMap.order a b).1 with
        | some inner => inner.get? (EdgeMap.order a b).2
        | none => none) =
      if SamePair u v a b then some m.values.length else m.index a b := by
    by_cases hs : SamePair u v a b
    · rw [if_pos ((order_eq_iff u v a b).mpr hs), if_pos hs]
    · rw [if_neg (fun h => hs ((order_eq_iff u v a b).mp h)), if_neg hs]; rfl
  rw [← e, ← h]
  unfold EdgeMap.index EdgeMap.add
  simp only [List.length_append, List.length_singleton, Nat.add_sub_cancel]
  rfl

theorem edgeMapAfter_append {ν : Type} (h : AddHistory ν) (u v : ℕ) (x : ν) :
    edgeMapAfter (h ++ [(u, v, x)]) = (edgeMapAfter h).add u v x := by
  simp [edgeMapAfter]

theorem edgeMapAfter_values {ν : Type} (h : AddHistory ν) :
    (edgeMapAfter h).values = h.map fun e => e.2.2 := by
  induction h using List.reverseRecOn with
  | nil => rfl
  | append_singleton h e ih =>
    obtain ⟨u, v, x⟩ := e
    rw [edgeMapAfter_append]
    simp [EdgeMap.add, ih]

theorem edgeMapAfter_index {ν : Type} (h : AddHistory ν) (a b : ℕ) :
    match (edgeMapAfter h).index a b with
    | some i => ∃ x, (edgeMapAfter h).values[i]? = some x ∧ latest h a b = some x
    | none => latest h a b = none := by
  induction h using List.reverseRecOn with
  | nil =>
    have : (edgeMapAfter ([] : AddHistory ν)).index a b = none := by
      simp [edgeMapAfter, EdgeMap.index, EdgeMap.empty]
    rw [this]; rfl
  | append_singleton h e ih =>
    obtain ⟨u, v, x⟩ := e
    rw [edgeMapAfter_append, edgeMap_index_add]
    have hv : ((edgeMapAfter h).add u v x).values = (edgeMapAfter h).values ++ [x] := rfl
    rw [hv]
    by_cases hs : SamePair u v a b
    · rw [if_pos hs]
      refine ⟨x, by simp, by simp [latest, hs]⟩
    · rw [if_neg hs]
      have hlat : latest (h ++ [(u, v, x)]) a b = latest h a b := by
        simp [latest, hs]
      rw [hlat]
      cases hi : (edgeMapAfter h).index a b with
      | none => rw [hi] at ih; exact ih
      | some i =>
        rw [hi] at ih
        obtain ⟨y, h1, h2⟩ := ih
        refine ⟨y, ?_, h2⟩
        have : i < (edgeMapAfter h).values.length := by
          by_contra hc
          rw [List.getElem?_eq_none (by omega)] at h1
          cases h1
        rw [List.getElem?_append_left this]; exact h1

/-- **C29.** After any history of adds, `get` returns the value most recently added for the
unordered pair, and None if there is none. -/
theorem C29_get {ν : Type} (h : AddHistory ν) (a b : ℕ) :
    (edgeMapAfter h).get a b = .ok (latest h a b) := by
  have := edgeMapAfter_index h a b
  unfold EdgeMap.get
  cases hi : (edgeMapAfter h).index a b with
  | none => rw [hi] at this; simp only [this]
  | some i =>
    rw [hi] at this
    obtain ⟨x, h1, h2⟩ := this
    simp only [pyIndex_of_getElem? h1, h2, ok_bind, pure_eq_ok]

/-- **C29.** `contains` says whether the unordered pair was ever added, and agrees with `index` and
`get`. -/
theorem C29_contains {ν : Type} (h : AddHistory ν) (a b : ℕ) :
    ((edgeMapAfter h).contains a b = true ↔ ∃ e ∈ h, SamePair e.1 e.2.1 a b) ∧
    ((edgeMapAfter h).contains a b = ((edgeMapAfter h).index a b).isSome) ∧
    ((edgeMapAfter h).get a b = .ok none ↔ (edgeMapAfter h).contains a b = false) := by
  have hl : (latest h a b).isSome ↔ ∃ e ∈ h, SamePair e.1 e.2.1 a b := by
    unfold latest
    rw [Option.isSome_map, List.find?_isSome]
    simp
  have hi : ((edgeMapAfter h).index a b).isSome = (latest h a b).isSome := by
    have := edgeMapAfter_index h a b
    cases hi : (edgeMapAfter h).index a b with
    | none => rw [hi] at this; simp [this]
    | some i =>
      rw [hi] at this
      obtain ⟨x, _, h2⟩ := this
      simp [h2]
  refine ⟨?_, edgeMap_contains_eq _ _ _, ?_⟩
  · rw [edgeMap_contains_eq, hi, hl]
  · rw [C29_get, edgeMap_contains_eq, hi]
    cases latest h a b <;> simp

theorem edgeMapAfter_index_last {ν : Type} (h : AddHistory ν) (a b i : ℕ) :
    (edgeMapAfter h).index a b = some i ↔
      (∃ e, h[i]? = some e ∧ SamePair e.1 e.2.1 a b) ∧ ∀ j e, i < j → h[j]? = some e → ¬ SamePair e.1 e.2.1 a b := by
  induction h using List.reverseRecOn with
  | nil => simp [edgeMapAfter, EdgeMap.index, EdgeMap.empty]
  | append_singleton h e ih =>
    obtain ⟨u, v, x⟩ := e
    have hlen : (edgeMapAfter h).values.length = h.length := by rw [edgeMapAfter_values, List.length_map]
    rw [edgeMapAfter_append, edgeMap_index_add]
    by_cases hs : SamePair u v a b
    · rw [if_pos hs, hlen, Option.some.injEq]
      constructor
      · rintro rfl
        refine ⟨⟨(u, v, x), by simp, hs⟩, fun j e hj he => ?_⟩
        rw [List.getElem?_eq_none (by simp; omega)] at he; cases he
      · rintro ⟨⟨e, he, -⟩, hlast⟩
        by_contra hne
        have hi : i < (h ++ [(u, v, x)]).length := by
          by_contra hc; rw [List.getElem?_eq_none (by omega)] at he; cases he
        simp only [List.length_append, List.length_singleton] at hi
        exact hlast h.length (u, v, x) (by omega) (by simp) hs
    · rw [if_neg hs, ih]
      constructor
      · rintro ⟨⟨e, he, hse⟩, hlast⟩
        have hi : i < h.length := by
          by_contra hc; rw [List.getElem?_eq_none (by omega)] at he; cases he
        refine ⟨⟨e, by rw [List.getElem?_append_left hi]; exact he, hse⟩, fun j e' hj he' => ?_⟩
        by_cases hjl : j < h.length
        · rw [List.getElem?_append_left hjl] at he'; exact hlast j e' hj he'
        · rw [List.getElem?_append_right (by omega)] at he'
          have : j - h.length = 0 := by
            by_contra hc; rw [List.getElem?_eq_none (by simp; omega)] at he'; cases he'
          rw [this] at he'
          simp only [List.getElem?_cons_zero, Option.some.injEq] at he'
          subst he'; exact hs
      · rintro ⟨⟨e, he, hse⟩, hlast⟩
        have hi : i < h.length := by
          by_contra hc
          rw [List.getElem?_append_right (by omega)] at he
          have : i - h.length = 0 := by
            by_contra hc'; rw [List.getElem?_eq_none (by simp; omega)] at he; cases he
          rw [this] at he
          simp only [List.getElem?_cons_zero, Option.some.injEq] at he
          subst he; exact hs hse
        rw [List.getElem?_append_left hi] at he
        refine ⟨⟨e, he, hse⟩, fun j e' hj he' => hlast j e' hj ?_⟩
        have hjl : j < h.length := by
          by_contra hc; rw [List.getElem?_eq_none (by omega)] at he'; cases he'
        rw [List.getElem?_append_left hjl]; exact he'

/-- **C29.** `index` gives the position of the latest add of the pair, in the list of all adds, which is also the
order of the stored values. -/
theorem C29_index {ν : Type} (h : AddHistory ν) (a b i : ℕ) :
    (edgeMapAfter h).values = (h.map fun e => e.2.2) ∧
    ((edgeMapAfter h).index a b = some i ↔
      (∃ e, h[i]? = some e ∧ SamePair e.1 e.2.1 a b) ∧
      ∀ j e, i < j → h[j]? = some e → ¬ SamePair e.1 e.2.1 a b) :=
  ⟨edgeMapAfter_values h, edgeMapAfter_index_last h a b i⟩

/-- **C29.** The order of the two endpoints never matters. -/
theorem C29_symmetric {ν : Type} (m : EdgeMap ν) (a b : ℕ) (x : ν) :
    m.contains a b = m.contains b a ∧ m.index a b = m.index b a ∧ m.get a b = m.get b a ∧
    m.add a b x = m.add b a x := by
  have hi : m.index a b = m.index b a := by
    unfold EdgeMap.index; rw [order_comm a b]
  refine ⟨?_, hi, ?_, ?_⟩
  · rw [edgeMap_contains_eq, edgeMap_contains_eq, hi]
  · unfold EdgeMap.get; rw [hi]
  · unfold EdgeMap.add; rw [order_comm a b]

/-- non-vacuity: overwriting through the swapped pair -/
example : (edgeMapAfter [(1, 2, 10), (3, 1, 20), (2, 1, 30)]).get 1 2 = .ok (some 30) ∧
    (edgeMapAfter [(1, 2, 10), (3, 1, 20), (2, 1, 30)]).get 1 3 = .ok (some 20) ∧
    (edgeMapAfter [(1, 2, 10), (3, 1, 20), (2, 1, 30)]).get 2 3 = .ok none := by
  rw [C29_get, C29_get, C29_get]; decide

end Blmath.Props
