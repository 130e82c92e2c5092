import Verif.Model.Polyline
import Verif.Spec.Polyline
import Verif.Spec.Plane
import Verif.Proofs.V3
import Verif.Props.Segment
import Verif.Props.Apex
import Mathlib.Tactic.FieldSimp

/-!
Lemmas about the polyline model.
-/

namespace Blmath.Proofs
open Blmath.Geometry Blmath.Spec Blmath.Props

/-! ### lists -/

theorem pairs_length {P : Type} : ∀ v : List P, (pairs v).length = v.length - 1
  | [] => rfl
  | [_] => rfl
  | _ :: b :: rest => by simp [pairs, pairs_length (b :: rest)]

theorem pairs_getElem? {P : Type} : ∀ (v : List P) (i : ℕ) (a b : P), v[i]? = some a →
    v[i + 1]? = some b → (pairs v)[i]? = some (a, b)
  | [], i, _, _, h, _ => by simp at h
  | [_], i, _, _, h, h' => by simp at h'
  | x :: y :: rest, 0, a, b, h, h' => by simp at h h'; simp [pairs, h, h']
  | x :: y :: rest, i + 1, a, b, h, h' => by
    rw [pairs, List.getElem?_cons_succ]
    exact pairs_getElem? (y :: rest) i a b (by simpa using h) (by simpa using h')

theorem pairs_append_cons {P : Type} : ∀ (xs : List P) (a : P) (ys : List P),
    pairs (xs ++ a :: ys) = pairs (xs ++ [a]) ++ pairs (a :: ys)
  | [], a, ys => by simp [pairs]
  | [x], a, ys => by simp [pairs]
  | x :: y :: xs, a, ys => by
    have := pairs_append_cons (y :: xs) a ys
    simp only [List.cons_append] at this
    simp [pairs, this]

theorem pairs_reverse {P : Type} : ∀ v : List P, pairs v.reverse = ((pairs v).map Prod.swap).reverse
  | [] => rfl
  | [_] => rfl
  | a :: b :: rest => by
    have ih := pairs_reverse (b :: rest)
    rw [List.reverse_cons, List.reverse_cons, List.append_assoc]
    show pairs (rest.reverse ++ b :: [a]) = _
    rw [pairs_append_cons, ← List.reverse_cons, ih]
    simp [pairs]

theorem mapM_ok {β γ : Type} (f : β → PyM γ) (g : β → γ) : ∀ (xs : List β),
    (∀ x ∈ xs, f x = .ok (g x)) → xs.mapM f = .ok (xs.map g)
  | [], _ => rfl
  | x :: xs, h => by
    rw [List.mapM_cons, h x (by simp), ok_bind, mapM_ok f g xs (fun y hy => h y (by simp [hy]))]
    rfl

theorem pyIndex_concat {P : Type} (xs : List P) (x : P) : pyIndex (xs ++ [x]) (-1) = .ok x := by
  unfold pyIndex
  have e : (-1 + (((xs ++ [x]).length : ℕ) : ℤ)) = (xs.length : ℤ) := by
    simp
  simp only [show (-1 : ℤ) < 0 by norm_num, if_true, e]
  rw [if_neg (by omega)]
  simp

theorem pyIndex_zero_cons {P : Type} (xs : List P) (x : P) : pyIndex (x :: xs) 0 = .ok x := rfl

/-! ### edges -/

theorem mkEdges_eq (n : ℕ) (closed : Bool) (h : closed = true → n ≠ 0) :
    mkEdges n closed = .ok (chainEdges n closed) := by
  unfold mkEdges chainEdges
  cases closed with
  | false => simp
  | true =>
    have hn := h rfl
    obtain ⟨m, rfl⟩ := Nat.exists_eq_succ_of_ne_zero hn
    simp only [if_true, List.range_succ, List.map_append, List.map_cons, List.map_nil]
    have hlast : pyIndex ((List.range m).map (fun (i : ℕ) => (i, i + 1)) ++ [(m, m + 1)]) (-1) =
        .ok (m, m + 1) := by
      exact pyIndex_concat _ _
    rw [hlast, ok_bind, List.dropLast_concat]
    simp only [pure_eq_ok]
    congr 1
    congr 1
    · apply List.map_congr_left
      intro i hi
      rw [List.mem_range] at hi
      rw [Nat.mod_eq_of_lt (by omega)]
    · simp

theorem mkEdges_empty : mkEdges 0 true = .error .IndexError := rfl

theorem chainEdges_length (n : ℕ) (closed : Bool) :
    (chainEdges n closed).length = if closed then n else n - 1 := by
  unfold chainEdges; cases closed <;> simp

/-! ### points in, points out -/

theorem asPoints_rowsOf {α : Type} [Num α] (ps : List (V3 α))
    (h : ∀ p ∈ ps, ∀ x ∈ p.toList, npIsNan x = false ∧ npIsInf x = false) :
    asPoints (rowsOf ps) = .ok (some ps) := by
  unfold asPoints rowsOf
  simp only
  rw [if_neg]
  · rw [if_pos trivial]
    have : (ps.map V3.toList).mapM row3 = .ok ps := by
      rw [List.mapM_map]
      rw [mapM_ok _ id]
      · simp
      · intro p _; rfl
    rw [this]; rfl
  · simp only [List.any_map, List.any_eq_true, Function.comp_apply, not_exists, not_and]
    intro p hp x hx
    obtain ⟨h1, h2⟩ := h p hp x hx
    simp [h1, h2]

theorem finite_real (ps : List (V3 ℝ)) :
    ∀ p ∈ ps, ∀ x ∈ p.toList, npIsNan x = false ∧ npIsInf x = false := by
  intro p _ x _
  refine ⟨npIsNan_real x, ?_⟩
  unfold npIsInf
  rw [npIsNan_real, npIsNan_real]; rfl

theorem asPoints_real (ps : List (V3 ℝ)) : asPoints (rowsOf ps) = .ok (some ps) :=
  asPoints_rowsOf ps (finite_real ps)

/-- the polyline with the given vertices -/
def poly {α : Type} (v : List (V3 α)) (closed : Bool) : Polyline α :=
  ⟨some v, closed, some (chainEdges v.length closed)⟩

theorem setV_ok {α : Type} [Num α] (p : Polyline α) (arg : VArg α) (v : List (V3 α))
    (ha : asPoints arg = .ok (some v)) (h : p.closed = true → v ≠ []) :
    p.setV arg = (poly v p.closed, .ok ()) := by
  unfold Polyline.setV
  rw [ha]
  simp only [Polyline.updateEdges]
  rw [mkEdges_eq _ _ (fun hc => by simpa using h hc)]
  rfl

theorem new_real (v : List (V3 ℝ)) (closed : Bool) (h : closed = true → v ≠ []) :
    Polyline.new (rowsOf v) closed = .ok (poly v closed) := by
  unfold Polyline.new
  rw [setV_ok _ _ v (asPoints_real v) h]

/-! ### segments -/

theorem circuit_getElem? {P : Type} (v : List P) (closed : Bool) (e : ℕ × ℕ)
    (h : e ∈ chainEdges v.length closed) :
    ∃ a b, v[e.1]? = some a ∧ v[e.2]? = some b ∧ (circuit v closed)[e.1]? = some a ∧
      (circuit v closed)[e.1 + 1]? = some b := by
  unfold chainEdges at h
  unfold circuit
  cases closed with
  | false =>
    simp only [Bool.false_eq_true, if_false, List.mem_map, List.mem_range] at h
    obtain ⟨i, hi, rfl⟩ := h
    refine ⟨v[i], v[i + 1], ?_, ?_, ?_, ?_⟩ <;> simp
  | true =>
    simp only [if_true, List.mem_map, List.mem_range] at h
    obtain ⟨i, hi, rfl⟩ := h
    simp only [if_true]
    refine ⟨v[i], v[(i + 1) % v.length]'(Nat.mod_lt _ (by omega)), by simp,
      List.getElem?_eq_getElem _, ?_, ?_⟩
    · rw [List.getElem?_append_left hi, List.getElem?_eq_getElem hi]
    · by_cases hl : i + 1 = v.length
      · rw [List.getElem?_append_right (by omega), hl]
        simp [List.head?_eq_getElem?, List.getElem?_eq_getElem (show 0 < v.length by omega)]
      · rw [List.getElem?_append_left (by omega)]
        simp [Nat.mod_eq_of_lt (show i + 1 < v.length by omega)]

theorem chainSegs_length {P : Type} (v : List P) (closed : Bool) :
    (chainSegs v closed).length = if closed then v.length else v.length - 1 := by
  unfold chainSegs circuit
  rw [pairs_length]
  cases closed with
  | false => simp
  | true => cases v <;> simp

theorem chainEdges_getElem {n : ℕ} {closed : Bool} (i : ℕ) (h : i < (chainEdges n closed).length) :
    (chainEdges n closed)[i].1 = i := by
  unfold chainEdges
  cases closed <;> simp

theorem segments_eq {α : Type} [Num α] (v : List (V3 α)) (closed : Bool) :
    (poly v closed).segments = .ok (chainSegs v closed) := by
  unfold Polyline.segments poly Polyline.vArr
  simp only [ok_bind]
  have hg : ∀ e ∈ chainEdges v.length closed, ∃ s, Polyline.segmentOf v e = .ok s ∧
      (chainSegs v closed)[e.1]? = some s := by
    intro e he
    obtain ⟨a, b, h1, h2, h3, h4⟩ := circuit_getElem? v closed e he
    refine ⟨(a, b), ?_, pairs_getElem? _ _ _ _ h3 h4⟩
    unfold Polyline.segmentOf
    rw [pyIndex_of_getElem? h1, pyIndex_of_getElem? h2]
    rfl
  rw [mapM_ok _ (fun e => ((chainSegs v closed)[e.1]?).getD (V3.zero, V3.zero))]
  · congr 1
    apply List.ext_getElem?
    intro i
    rw [List.getElem?_map]
    by_cases hi : i < (chainEdges v.length closed).length
    · rw [List.getElem?_eq_getElem hi, Option.map_some]
      obtain ⟨s, _, h⟩ := hg _ (List.getElem_mem hi)
      rw [h, Option.getD_some, ← h, chainEdges_getElem i hi]
    · rw [List.getElem?_eq_none (by omega), List.getElem?_eq_none]
      · rfl
      · rw [chainSegs_length]; rw [chainEdges_length] at hi; omega
  · intro e he
    obtain ⟨s, h1, h2⟩ := hg e he
    rw [h1, h2]; rfl

theorem segmentLengths_real (v : List (V3 ℝ)) (closed : Bool) :
    (poly v closed).segmentLengths = .ok ((chainSegs v closed).map fun s => dist3 s.1 s.2) := by
  unfold Polyline.segmentLengths
  have : (poly v closed).e = some (chainEdges v.length closed) := rfl
  rw [this]
  simp only [segments_eq, ok_bind, pure_eq_ok]
  congr 1
  apply List.map_congr_left
  intro s _
  rw [V3.norm_real, V3.sub_real]; rfl

/-! ### triangle inequality, path lengths -/

theorem len3_add_le (a b : V3 ℝ) : len3 (a + b) ≤ len3 a + len3 b := by
  have h : len3 (a + b) ^ 2 ≤ (len3 a + len3 b) ^ 2 := by
    have h1 : inner3 (a + b) (a + b) = inner3 a a + 2 * inner3 a b + inner3 b b := by
      simp only [inner3, V3.add_x, V3.add_y, V3.add_z]; ring
    have h2 := le_trans (le_abs_self _) (abs_inner3_le a b)
    rw [← inner3_self, h1, inner3_self, inner3_self]
    nlinarith
  exact abs_le_of_sq_le_sq' h (add_nonneg (len3_nonneg a) (len3_nonneg b)) |>.2

theorem dist3_triangle (a b c : V3 ℝ) : dist3 a c ≤ dist3 a b + dist3 b c := by
  have : vec3 a c = vec3 a b + vec3 b c := by
    ext <;> simp [vec3]
  unfold dist3
  rw [this]
  exact len3_add_le _ _

theorem pathLength_cons (a b : V3 ℝ) (r : List (V3 ℝ)) :
    pathLength (a :: b :: r) = dist3 a b + pathLength (b :: r) := by
  simp [pathLength, pairs]

theorem pathLength_append (xs : List (V3 ℝ)) (a : V3 ℝ) (ys : List (V3 ℝ)) :
    pathLength (xs ++ a :: ys) = pathLength (xs ++ [a]) + pathLength (a :: ys) := by
  unfold pathLength
  rw [pairs_append_cons]
  simp

theorem pathLength_reverse (v : List (V3 ℝ)) : pathLength v.reverse = pathLength v := by
  unfold pathLength
  rw [pairs_reverse, List.map_reverse, List.sum_reverse, List.map_map]
  congr 1
  apply List.map_congr_left
  intro s _
  simp [dist3_comm]

theorem pathLength_ge : ∀ (v : List (V3 ℝ)) (a b : V3 ℝ), v.head? = some a → v.getLast? = some b →
    dist3 a b ≤ pathLength v
  | [], _, _, h, _ => by simp at h
  | [x], a, b, h, h' => by
    simp at h h'
    subst h; subst h'
    rw [dist3_eq_zero.mpr rfl]
    simp [pathLength, pairs]
  | x :: y :: r, a, b, h, h' => by
    simp at h; subst h
    rw [pathLength_cons]
    have h2 : (y :: r).getLast? = some b := by
      rw [List.getLast?_cons_cons] at h'; exact h'
    have ih := pathLength_ge (y :: r) y b rfl h2
    have := dist3_triangle x y b
    linarith

end Blmath.Proofs
