import Verif.Model.Numerics
import Mathlib.Tactic.Linarith
import Mathlib.Tactic.FieldSimp
import Mathlib.Tactic.Positivity
import Mathlib.Tactic.Ring

/-!
Lemmas about the numeric helpers.
-/

namespace Blmath.Numerics
open Fl

@[simp] theorem npIsNan_fin (x : ℝ) : npIsNan (fin x) = false := by simp [npIsNan]
@[simp] theorem npIsNan_nan : npIsNan nan = true := by simp [npIsNan]
theorem npIsNan_eq (x : Fl) : npIsNan x = x.isNaN := by
  cases x
  · simp
  · rfl
  · rfl
  · rfl
theorem npIsInf_eq (x : Fl) : npIsInf x = x.isInf := by
  cases x with
  | fin a => simp [npIsInf]
  | pinf => rfl
  | ninf => rfl
  | nan => rfl

theorem npMin_fin (a b : ℝ) : npMin (fin a) (fin b) = fin (min a b) := by
  unfold npMin
  by_cases h : b < a
  · simp [h, min_eq_right h.le]
  · simp [h, min_eq_left (not_lt.mp h)]

theorem npMax_fin (a b : ℝ) : npMax (fin a) (fin b) = fin (max a b) := by
  unfold npMax
  by_cases h : a < b
  · simp [h, max_eq_right h.le]
  · simp [h, max_eq_left (not_lt.mp h)]

theorem foldl_npMin (xs : List ℝ) (x : ℝ) :
    (xs.map fin).foldl npMin (fin x) = fin (xs.foldl min x) := by
  induction xs generalizing x with
  | nil => rfl
  | cons y ys ih => simp [npMin_fin, ih]

theorem foldl_npMax (xs : List ℝ) (x : ℝ) :
    (xs.map fin).foldl npMax (fin x) = fin (xs.foldl max x) := by
  induction xs generalizing x with
  | nil => rfl
  | cons y ys ih => simp [npMax_fin, ih]

theorem foldl_min_spec (xs : List ℝ) (x : ℝ) :
    xs.foldl min x ∈ x :: xs ∧ ∀ y ∈ x :: xs, xs.foldl min x ≤ y := by
  induction xs generalizing x with
  | nil => simp
  | cons a as ih =>
    obtain ⟨h1, h2⟩ := ih (min x a)
    simp only [List.foldl_cons, List.mem_cons] at *
    refine ⟨?_, ?_⟩
    · rcases h1 with h | h
      · rcases min_choice x a with h' | h' <;> rw [h, h'] <;> simp
      · exact Or.inr (Or.inr h)
    · rintro y (rfl | rfl | hy)
      · exact (h2 _ (Or.inl rfl)).trans (min_le_left _ _)
      · exact (h2 _ (Or.inl rfl)).trans (min_le_right _ _)
      · exact h2 _ (Or.inr hy)

theorem foldl_max_spec (xs : List ℝ) (x : ℝ) :
    xs.foldl max x ∈ x :: xs ∧ ∀ y ∈ x :: xs, y ≤ xs.foldl max x := by
  induction xs generalizing x with
  | nil => simp
  | cons a as ih =>
    obtain ⟨h1, h2⟩ := ih (max x a)
    simp only [List.foldl_cons, List.mem_cons] at *
    refine ⟨?_, ?_⟩
    · rcases h1 with h | h
      · rcases max_choice x a with h' | h' <;> rw [h, h'] <;> simp
      · exact Or.inr (Or.inr h)
    · rintro y (rfl | rfl | hy)
      · exact (le_max_left _ _).trans (h2 _ (Or.inl rfl))
      · exact (le_max_right _ _).trans (h2 _ (Or.inl rfl))
      · exact h2 _ (Or.inr hy)

theorem npMinArr_fin (a : List ℝ) (h : a ≠ []) :
    ∃ m, npMinArr (a.map fin) = .ok (fin m) ∧ m ∈ a ∧ ∀ y ∈ a, m ≤ y := by
  cases a with
  | nil => exact absurd rfl h
  | cons x xs =>
    refine ⟨xs.foldl min x, ?_, foldl_min_spec xs x⟩
    simp [npMinArr, foldl_npMin]

theorem npMaxArr_fin (a : List ℝ) (h : a ≠ []) :
    ∃ m, npMaxArr (a.map fin) = .ok (fin m) ∧ m ∈ a ∧ ∀ y ∈ a, y ≤ m := by
  cases a with
  | nil => exact absurd rfl h
  | cons x xs =>
    refine ⟨xs.foldl max x, ?_, foldl_max_spec xs x⟩
    simp [npMaxArr, foldl_npMax]

/-- `scale_to_range` on finite data, up to the final division. -/
theorem scaleToRange_fin (a : List ℝ) (lo hi : ℝ) (h : a ≠ []) :
    ∃ m M, m ∈ a ∧ (∀ y ∈ a, m ≤ y) ∧ M ∈ a ∧ (∀ y ∈ a, y ≤ M) ∧
      scaleToRange (a.map fin) (fin lo) (fin hi) =
        .ok (a.map fun x => fin ((hi - lo) * (x - m)) / fin (M - m) + fin lo) := by
  obtain ⟨m, hm, hma, hml⟩ := npMinArr_fin a h
  obtain ⟨M', hM, hMa, hMl⟩ := npMaxArr_fin (a.map (· - m)) (by simpa using h)
  obtain ⟨M, hM1, hM2⟩ := List.mem_map.mp hMa
  subst hM2
  refine ⟨m, M, hma, hml, hM1, ?_, ?_⟩
  · intro y hy
    have := hMl (y - m) (List.mem_map.mpr ⟨y, hy, rfl⟩)
    linarith
  · have e : (a.map fin).map (· - fin m) = (a.map (· - m)).map fin := by
      simp [List.map_map, Function.comp_def]
    unfold scaleToRange
    rw [hm]
    simp only [ok_bind, e, hM, pure_eq_ok]
    simp [List.map_map, Function.comp_def]

end Blmath.Numerics
