import Verif.Proofs.Numerics

/-!
Properties C13 (`scale_to_range`), C14 (`zero_safe_divide`), C15 (`as_numeric_array`),
C68 (`isnumeric` family), C70 (`np_reshape_safe`).
-/

namespace Blmath.Props
open Blmath.Numerics Blmath.Fl

/-! ### C13 -/

/-- **C13.** A non-constant finite array is mapped affinely onto `[lo, hi]`: with `m`, `M` the least
and greatest elements, element `x` becomes `lo + (hi-lo)(x-m)/(M-m)`, so the outputs lie in the
range, both ends are attained, and order is preserved. -/
theorem C13_scale_to_range (a : List ℝ) (lo hi : ℝ) (hle : lo ≤ hi)
    (hne : ∃ x ∈ a, ∃ y ∈ a, x ≠ y) :
    ∃ out : List ℝ, scaleToRange (a.map fin) (fin lo) (fin hi) = .ok (out.map fin) ∧
      out.length = a.length ∧
      (∀ y ∈ out, lo ≤ y ∧ y ≤ hi) ∧ lo ∈ out ∧ hi ∈ out ∧
      (∀ (i j : ℕ) (hi' : i < a.length) (hj : j < a.length) (oi : i < out.length)
        (oj : j < out.length), a[i] ≤ a[j] → out[i] ≤ out[j]) ∧
      (lo < hi → ∀ (i j : ℕ) (hi' : i < a.length) (hj : j < a.length) (oi : i < out.length)
        (oj : j < out.length), a[i] < a[j] → out[i] < out[j]) ∧
      ∃ m ∈ a, ∃ M ∈ a, (∀ x ∈ a, m ≤ x ∧ x ≤ M) ∧
        out = a.map fun x => lo + (hi - lo) * (x - m) / (M - m) := by
  obtain ⟨x0, hx0, y0, hy0, hxy⟩ := hne
  have hane : a ≠ [] := by rintro rfl; simp at hx0
  obtain ⟨m, M, hm, hml, hM, hMl, heq⟩ := scaleToRange_fin a lo hi hane
  have hpos : 0 < M - m := by
    rcases lt_or_gt_of_ne hxy with h | h
    · have := hml _ hx0; have := hMl _ hy0; linarith
    · have := hml _ hy0; have := hMl _ hx0; linarith
  have mono : ∀ s t : ℝ, s ≤ t →
      lo + (hi - lo) * (s - m) / (M - m) ≤ lo + (hi - lo) * (t - m) / (M - m) := by
    intro s t hst
    have h1 : (hi - lo) * (s - m) ≤ (hi - lo) * (t - m) :=
      mul_le_mul_of_nonneg_left (by linarith) (by linarith)
    have := (div_le_div_iff_of_pos_right hpos).mpr h1
    linarith
  have hm0 : lo + (hi - lo) * (m - m) / (M - m) = lo := by simp
  have hM0 : lo + (hi - lo) * (M - m) / (M - m) = hi := by
    rw [mul_div_assoc, div_self hpos.ne']; ring
  refine ⟨a.map fun x => lo + (hi - lo) * (x - m) / (M - m), ?_, by simp, ?_, ?_, ?_, ?_, ?_,
    m, hm, M, hM, fun x hx => ⟨hml x hx, hMl x hx⟩, rfl⟩
  · rw [heq]
    simp [List.map_map, Function.comp_def, Fl.div_fin _ _ hpos.ne', add_comm]
  · intro y hy
    obtain ⟨x, hx, rfl⟩ := List.mem_map.mp hy
    refine ⟨?_, ?_⟩
    · have := mono m x (hml x hx); rw [hm0] at this; exact this
    · have := mono x M (hMl x hx); rw [hM0] at this; exact this
  · exact List.mem_map.mpr ⟨m, hm, hm0⟩
  · exact List.mem_map.mpr ⟨M, hM, hM0⟩
  · intro i j _ _ _ _ hij
    simpa using mono _ _ hij
  · intro hlt i j _ _ _ _ hij
    have h1 : (hi - lo) * (a[i] - m) < (hi - lo) * (a[j] - m) :=
      mul_lt_mul_of_pos_left (by linarith) (by linarith)
    have := (div_lt_div_iff_of_pos_right hpos).mpr h1
    simp only [List.getElem_map]
    linarith

/-- **C13.** A nonempty constant array yields only NaN. -/
theorem C13_constant (a : List ℝ) (lo hi : ℝ) (hne : a ≠ []) (hc : ∀ x ∈ a, ∀ y ∈ a, x = y) :
    scaleToRange (a.map fin) (fin lo) (fin hi) = .ok (a.map fun _ => nan) := by
  obtain ⟨m, M, hm, _, hM, _, heq⟩ := scaleToRange_fin a lo hi hne
  rw [heq]
  congr 1
  apply List.map_congr_left
  intro x hx
  have e1 : x = m := hc x hx m hm
  have e2 : M = m := hc M hM m hm
  rw [e1, e2]
  simp [Fl.div_zero_zero]

/-- **C13.** An empty array raises ValueError. -/
theorem C13_empty (lo hi : Fl) : scaleToRange ([] : List Fl) lo hi = raise .ValueError := rfl

/-- non-vacuity -/
example : ∃ x ∈ ([3, 1, 2] : List ℝ), ∃ y ∈ ([3, 1, 2] : List ℝ), x ≠ y :=
  ⟨3, by simp, 1, by simp, by norm_num⟩
example : ([2, 2] : List ℝ) ≠ [] ∧ ∀ x ∈ ([2, 2] : List ℝ), ∀ y ∈ ([2, 2] : List ℝ), x = y := by
  simp

/-! ### C14 -/

/-- **C14.** In any floating arithmetic at all (rounding included): no element of the result is NaN
or infinite, provided the default is not. -/
theorem C14_never_bad {α : Type} [Num α] (a b : List α) (d : α) (out : List α)
    (hd : npIsNan d = false ∧ npIsInf d = false) (h : zeroSafeDivide a b d = .ok out) :
    out.length = a.length ∧ ∀ q ∈ out, npIsNan q = false ∧ npIsInf q = false := by
  unfold zeroSafeDivide at h
  split at h
  case isFalse => cases h
  case isTrue hl =>
    injection h with h
    subst h
    refine ⟨by simp [hl], ?_⟩
    intro q hq
    obtain ⟨p, _, rfl⟩ := List.mem_map.mp hq
    by_cases hp : (npIsNan p || npIsInf p) = true
    · simpa [hp] using hd
    · simp only [hp]
      simpa using hp

/-- **C14.** In any floating arithmetic: each element is the quotient when that is finite, and the
default otherwise. -/
theorem C14_elements {α : Type} [Num α] (a b : List α) (d : α) (out : List α)
    (h : zeroSafeDivide a b d = .ok out) (i : ℕ) (ha : i < a.length) (hb : i < b.length)
    (ho : i < out.length) :
    (npIsNan (a[i] / b[i]) = false ∧ npIsInf (a[i] / b[i]) = false ∧ out[i] = a[i] / b[i]) ∨
    ((npIsNan (a[i] / b[i]) = true ∨ npIsInf (a[i] / b[i]) = true) ∧ out[i] = d) := by
  unfold zeroSafeDivide at h
  split at h
  case isFalse => cases h
  case isTrue hl =>
    injection h with h
    subst h
    simp only [List.getElem_map, List.getElem_zipWith]
    by_cases h1 : npIsNan (a[i] / b[i]) = true
    · simp [h1]
    · by_cases h2 : npIsInf (a[i] / b[i]) = true
      · simp [h1, h2]
      · simp [h1, h2]

/-- **C14.** For finite inputs the true quotient where the denominator is nonzero and the default
elsewhere. -/
theorem C14_finite (a b : List ℝ) (d : ℝ) (hl : a.length = b.length) :
    zeroSafeDivide (a.map fin) (b.map fin) (fin d) =
      .ok ((List.zipWith (fun x y => open Classical in if y = 0 then d else x / y) a b).map fin) := by
  unfold zeroSafeDivide
  simp only [List.length_map, hl, if_true]
  congr 1
  rw [List.zipWith_map, List.map_zipWith, List.map_zipWith]
  congr 1
  funext x y
  by_cases hy : y = 0
  · subst hy
    by_cases hx : x = 0
    · subst hx; simp [Fl.div_zero_zero]
    · rw [Fl.div_fin_zero x hx]
      unfold infOf
      split <;> simp [npIsNan_eq, npIsInf_eq, isNaN, isInf]
  · rw [Fl.div_fin x y hy]
    simp [npIsNan_eq, npIsInf_eq, hy]

/-- **C14.** NaN and infinite inputs included, no element of the result is NaN or infinite. -/
theorem C14_special (a b : List Fl) (d : ℝ) (out : List Fl)
    (h : zeroSafeDivide a b (fin d) = .ok out) : ∀ q ∈ out, ∃ r : ℝ, q = fin r := by
  intro q hq
  have := (C14_never_bad a b (fin d) out (by simp [npIsInf_eq]) h).2 q hq
  rw [npIsNan_eq, npIsInf_eq] at this
  exact (Fl.isFinite_iff q).mpr this

/-- Shapes that differ raise; scalars raise TypeError (the in-place assignment needs an array). -/
theorem C14_errors {α : Type} [Num α] (a b : List α) (d x y : α) :
    (a.length ≠ b.length → zeroSafeDivide a b d = raise .ValueError) ∧
    zeroSafeDivideScalar x y d = raise .TypeError := by
  refine ⟨fun h => by simp [zeroSafeDivide, h], rfl⟩

example : zeroSafeDivide ([1, 0, 3, 5].map fin) ([0, 0, 2, 0].map fin) (fin 7) =
    .ok ([7, 7, 3 / 2, 7].map fin) := by
  rw [C14_finite _ _ _ (by simp)]
  norm_num

/-! ### C15 -/

/-- the specification of a matching shape: same rank and each entry is -1 or equal -/
def ShapeOk (want : List ℤ) (have_ : List ℕ) : Prop :=
  List.Forall₂ (fun (w : ℤ) (d : ℕ) => w = -1 ∨ w = (d : ℤ)) want have_

theorem dimsMatch_iff (s : List ℤ) (d : List ℕ) (h : s.length = d.length) :
    dimsMatch s d = true ↔ ShapeOk s d := by
  induction s generalizing d with
  | nil => cases d with
    | nil => simp [dimsMatch, ShapeOk]
    | cons => simp at h
  | cons w ws ih => cases d with
    | nil => simp at h
    | cons y ys =>
      have := ih ys (by simpa using h)
      simp only [dimsMatch, ShapeOk] at this ⊢
      simp [this]

section C15
variable {ω β : Type} (asarray : ω → PyM (NdArray β)) (isnum : NdArray β → Bool)

/-- the axes in the other order -/
def IsTranspose (a r : NdArray β) : Prop := r.shape = a.shape.reverse ∧ ∀ idx, r.get idx = a.get idx.reverse

/-- **C15.** Success with an array: the result is numeric input `arr` itself, when its shape matches
the request, or its transpose, when only that matches. -/
theorem C15_some (a : Option ω) (shape : Option (List ℤ)) (an en : Bool) (r : NdArray β)
    (h : asNumericArray asarray isnum a shape an en = .ok (some r)) :
    ∃ o arr, a = some o ∧ asarray o = .ok arr ∧ isnum arr = true ∧
      match shape with
      | none => r = arr
      | some s => ShapeOk s r.shape ∧
          ((ShapeOk s arr.shape ∧ r = arr) ∨ (¬ ShapeOk s arr.shape ∧ IsTranspose arr r)) := by
  unfold asNumericArray at h
  cases a with
  | none => simp only at h; split at h <;> simp at h
  | some o =>
    simp only [bind_eq_ok] at h
    obtain ⟨arr, h1, h2⟩ := h
    refine ⟨o, arr, rfl, h1, ?_⟩
    by_cases hn : isnum arr = true
    case neg => simp [hn] at h2
    refine ⟨hn, ?_⟩
    simp only [hn, Bool.not_true, Bool.false_eq_true, if_false] at h2
    split at h2
    · split at h2 <;> simp at h2
    · cases shape with
      | none => simpa using h2.symm
      | some s =>
        simp only at h2 ⊢
        split at h2
        · cases h2
        case isFalse hl =>
          have hl : s.length = arr.shape.length := not_not.mp hl
          have hT : s.length = arr.T.shape.length := by simpa [NdArray.T] using hl
          split at h2
          case isTrue hm =>
            have hm := (dimsMatch_iff _ _ hl).mp hm
            simp only [Except.ok.injEq, Option.some.injEq] at h2
            subst h2
            exact ⟨hm, Or.inl ⟨hm, rfl⟩⟩
          case isFalse hm =>
            split at h2
            case isTrue ht =>
              have ht := (dimsMatch_iff _ _ hT).mp ht
              simp only [Except.ok.injEq, Option.some.injEq] at h2
              subst h2
              exact ⟨ht, Or.inr ⟨fun hc => hm ((dimsMatch_iff _ _ hl).mpr hc), rfl, fun _ => rfl⟩⟩
            case isFalse ht => cases h2

/-- **C15.** None comes back only for None with `allow_none`, or for an empty 1-d array with both
flags. -/
theorem C15_none (a : Option ω) (shape : Option (List ℤ)) (an en : Bool) :
    asNumericArray asarray isnum a shape an en = .ok none ↔
      an = true ∧ (a = none ∨
        (en = true ∧ ∃ o arr, a = some o ∧ asarray o = .ok arr ∧ isnum arr = true ∧
          arr.shape = [0])) := by
  unfold asNumericArray
  cases a with
  | none => cases an <;> simp
  | some o =>
    cases hA : asarray o with
    | error e => simp [hA]
    | ok arr =>
      simp only [hA, ok_bind]
      by_cases hn : isnum arr = true
      case neg => simp [hn, hA]
      by_cases hz : arr.shape = [0]
      · cases an <;> cases en <;> cases shape <;> simp [hn, hz, hA] <;> split_ifs <;> simp
      · cases an <;> cases en <;> cases shape <;> simp [hn, hz, hA] <;> split_ifs <;> simp

/-- **C15.** Every failure other than one of `np.asarray` itself is a ValueError, and it happens
exactly for None without `allow_none`, for non-numeric data, or when neither the array nor its
transpose has the requested shape. -/
theorem C15_raises (a : Option ω) (shape : Option (List ℤ)) (an en : Bool) (e : PyErr)
    (h : asNumericArray asarray isnum a shape an en = .error e) :
    (∃ o, a = some o ∧ asarray o = .error e) ∨
    (e = .ValueError ∧
      ((a = none ∧ an = false) ∨
       ∃ o arr, a = some o ∧ asarray o = .ok arr ∧
        (isnum arr = false ∨
         ∃ s, shape = some s ∧ ¬ ShapeOk s arr.shape ∧ ¬ ShapeOk s arr.shape.reverse))) := by
  unfold asNumericArray at h
  cases a with
  | none =>
    simp only at h
    split at h
    · cases h
    case isFalse hh =>
      injection h with h
      exact Or.inr ⟨h.symm, Or.inl ⟨rfl, by simpa using hh⟩⟩
  | some o =>
    cases hA : asarray o with
    | error e' =>
      simp only [hA, error_bind, Except.error.injEq] at h
      subst h
      exact Or.inl ⟨o, rfl, hA⟩
    | ok arr =>
      right
      simp only [hA, ok_bind] at h
      by_cases hn : isnum arr = true
      case neg =>
        simp only [hn, Bool.not_false, if_true, Except.error.injEq] at h
        exact ⟨h.symm, Or.inr ⟨o, arr, rfl, hA, Or.inl (by simpa using hn)⟩⟩
      simp only [hn, Bool.not_true, Bool.false_eq_true, if_false] at h
      split at h
      case isTrue hc =>
        have : an = true := by
          simp only [Bool.and_eq_true] at hc
          exact hc.1.1
        simp [this] at h
      · cases shape with
        | none => simp at h
        | some s =>
          simp only at h
          split at h
          case isTrue hl =>
            injection h with h
            refine ⟨h.symm, Or.inr ⟨o, arr, rfl, hA, Or.inr ⟨s, rfl, ?_, ?_⟩⟩⟩
            · intro hc; exact hl (by unfold ShapeOk at hc; exact hc.length_eq)
            · intro hc; exact hl (by unfold ShapeOk at hc; simpa using hc.length_eq)
          case isFalse hl =>
            have hl : s.length = arr.shape.length := not_not.mp hl
            have hT : s.length = arr.T.shape.length := by simpa [NdArray.T] using hl
            split at h
            · cases h
            case isFalse hm =>
              split at h
              · cases h
              case isFalse ht =>
                injection h with h
                refine ⟨h.symm, Or.inr ⟨o, arr, rfl, hA, Or.inr ⟨s, rfl, ?_, ?_⟩⟩⟩
                · intro hc; exact hm ((dimsMatch_iff _ _ hl).mpr hc)
                · intro hc; exact ht ((dimsMatch_iff _ _ hT).mpr hc)

/-- **C15.** A request for `n x 3` returns an `n x 3` input as it is (also the 3 x 3 one), and
silently transposes a `3 x n` input with `n ≠ 3`. -/
theorem C15_n_by_3 (o : ω) (arr : NdArray β) (an en : Bool) (n : ℕ) (hA : asarray o = .ok arr)
    (hn : isnum arr = true) :
    (arr.shape = [n, 3] →
      asNumericArray asarray isnum (some o) (some [-1, 3]) an en = .ok (some arr)) ∧
    (arr.shape = [3, n] → n ≠ 3 → ∃ r, asNumericArray asarray isnum (some o) (some [-1, 3]) an en = .ok (some r) ∧
      r.shape = [n, 3] ∧ ∀ i j, r.get [i, j] = arr.get [j, i]) := by
  refine ⟨?_, ?_⟩
  · intro hs
    cases an <;> cases en <;> simp [asNumericArray, hA, hn, hs, dimsMatch]
  · intro hs h3
    have : ¬ (3 : ℤ) = n := by omega
    refine ⟨arr.T, ?_, by simp [NdArray.T, hs], fun _ _ => rfl⟩
    cases an <;> cases en <;>
      simp [asNumericArray, hA, hn, hs, dimsMatch, NdArray.T, this]

end C15

/-- non-vacuity: a 2 x 3 array is accepted as n x 3, a 3 x 2 one is transposed -/
example : asNumericArray (ω := NdArray ℕ) (β := ℕ) .ok (fun _ => true)
    (some ⟨[3, 2], fun i => i.sum⟩) (some [-1, 3]) false false =
    .ok (some ⟨[2, 3], fun i => i.reverse.sum⟩) := rfl

/-! ### C68 -/

/-- leaves that hold an ordinary finite number -/
def FiniteReal : Scal → Prop
  | .int _ => True
  | .float (.fin _) => True
  | _ => False

/-- leaves that make numpy choose the element type `object` -/
def IsObject : Scal → Prop
  | .decimal _ => True
  | .other => True
  | _ => False

/-- leaves that Python can add to, subtract from and multiply by themselves -/
def HasRing : Scal → Prop
  | .text _ => False
  | .other => False
  | .decimal .pinf => False
  | .decimal .ninf => False
  | _ => True

/-- zeros other than `Decimal` zeros: dividing them by themselves raises ZeroDivisionError -/
def PlainZero : Scal → Prop
  | .bool b => b = false
  | .int z => z = 0
  | .float x => x = fin 0
  | .complex a b => a = fin 0 ∧ b = fin 0
  | _ => False

/-- What `isnumeric` asks of an array of objects: all elements can be added, subtracted and
multiplied, and no `Decimal` zero comes before the first other zero. -/
def ObjectsPass (es : List Scal) : Prop :=
  (∀ s ∈ es, HasRing s) ∧
  ∀ pre post, es = pre ++ Scal.decimal (fin 0) :: post → ∃ t ∈ pre, PlainZero t

theorem leafOp_div (s : Scal) (h : HasRing s) :
    (leafOp .div s = .zeroDiv ∧ PlainZero s ∧ s ≠ .decimal (fin 0)) ∨
    (leafOp .div s = .failed ∧ ¬ PlainZero s ∧ s = .decimal (fin 0)) ∨
    (leafOp .div s = .fine ∧ ¬ PlainZero s ∧ s ≠ .decimal (fin 0)) := by
  cases s with
  | bool b => cases b <;> simp [leafOp, PlainZero]
  | int z => by_cases hz : z = 0 <;> simp [leafOp, PlainZero, hz]
  | float x =>
    cases x with
    | fin r => by_cases hr : r = 0 <;> simp [leafOp, PlainZero, hr]
    | _ => simp [leafOp, PlainZero]
  | complex a b =>
    cases a with
    | fin a =>
      cases b with
      | fin b => by_cases ha : a = 0 <;> by_cases hb : b = 0 <;> simp [leafOp, PlainZero, ha, hb]
      | _ => simp [leafOp, PlainZero]
    | _ => cases b <;> simp [leafOp, PlainZero]
  | decimal x =>
    cases x with
    | fin r => by_cases hr : r = 0 <;> simp [leafOp, PlainZero, hr]
    | nan => simp [leafOp, PlainZero]
    | _ => simp [HasRing] at h
  | _ => simp [HasRing] at h

theorem elemsOp_fine (op : MathOp) (es : List Scal) :
    elemsOp op es = .fine ↔ ∀ s ∈ es, leafOp op s = .fine := by
  induction es with
  | nil => simp [elemsOp]
  | cons s ss ih => cases h : leafOp op s <;> simp [elemsOp, h, ih]

theorem ring_iff (s : Scal) : HasRing s ↔
    leafOp .add s = .fine ∧ leafOp .sub s = .fine ∧ leafOp .mul s = .fine := by
  cases s with
  | float x => cases x <;> simp [HasRing, leafOp]
  | complex a b => cases a <;> cases b <;> simp [HasRing, leafOp]
  | decimal x => cases x <;> simp [HasRing, leafOp]
  | _ => simp [HasRing, leafOp]

theorem ring_notZero (op : MathOp) (hop : op ≠ .div) (s : Scal) : leafOp op s ≠ .zeroDiv := by
  cases op with
  | div => exact absurd rfl hop
  | _ =>
    cases s with
    | float x => cases x <;> simp [leafOp]
    | complex a b => cases a <;> cases b <;> simp [leafOp]
    | decimal x => cases x <;> simp [leafOp]
    | _ => simp [leafOp]

theorem elemsOp_notZero (op : MathOp) (hop : op ≠ .div) (es : List Scal) :
    elemsOp op es ≠ .zeroDiv := by
  induction es with
  | nil => simp [elemsOp]
  | cons s ss ih =>
    have := ring_notZero op hop s
    cases h : leafOp op s <;> simp_all [elemsOp]

theorem elemsOp_div (es : List Scal) (h : ∀ s ∈ es, HasRing s) :
    elemsOp .div es ≠ .failed ↔
      ∀ pre post, es = pre ++ Scal.decimal (fin 0) :: post → ∃ t ∈ pre, PlainZero t := by
  induction es with
  | nil => simp [elemsOp]
  | cons s ss ih =>
    have ih := ih fun t ht => h t (by simp [ht])
    rcases leafOp_div s (h s (by simp)) with ⟨h1, h2, h3⟩ | ⟨h1, h2, h3⟩ | ⟨h1, h2, h3⟩
    · simp only [elemsOp, h1, ne_eq, reduceCtorEq, not_false_eq_true, true_iff]
      intro pre post he
      cases pre with
      | nil => simp at he; exact absurd he.1 h3
      | cons p pre =>
        simp only [List.cons_append, List.cons.injEq] at he
        exact ⟨p, by simp, he.1 ▸ h2⟩
    · simp only [elemsOp, h1, ne_eq, not_true_eq_false, false_iff]
      intro hall
      obtain ⟨t, ht, -⟩ := hall [] ss (by simp [h3])
      simp at ht
    · simp only [elemsOp, h1]
      rw [ih]
      constructor
      · intro hall pre post he
        cases pre with
        | nil => simp at he; exact absurd he.1 h3
        | cons p pre =>
          simp only [List.cons_append, List.cons.injEq] at he
          obtain ⟨t, ht, hz⟩ := hall pre post he.2
          exact ⟨t, by simp [ht], hz⟩
      · intro hall pre post he
        obtain ⟨t, ht, hz⟩ := hall (s :: pre) post (by simp [he])
        rcases List.mem_cons.mp ht with rfl | ht
        · exact absurd hz h2
        · exact ⟨t, ht, hz⟩

theorem objects_pass (es : List Scal) :
    mathSeq (fun op => elemsOp op es) ≠ .failed ↔ ObjectsPass es := by
  have split3 : (∀ s ∈ es, HasRing s) ↔ elemsOp .add es = .fine ∧ elemsOp .sub es = .fine ∧
      elemsOp .mul es = .fine := by
    simp only [elemsOp_fine, ring_iff]
    constructor
    · exact fun h => ⟨fun s hs => (h s hs).1, fun s hs => (h s hs).2.1, fun s hs => (h s hs).2.2⟩
    · exact fun h s hs => ⟨h.1 s hs, h.2.1 s hs, h.2.2 s hs⟩
  have na := elemsOp_notZero .add (by simp) es
  have ns := elemsOp_notZero .sub (by simp) es
  have nm := elemsOp_notZero .mul (by simp) es
  unfold ObjectsPass
  by_cases hr : ∀ s ∈ es, HasRing s
  · obtain ⟨h1, h2, h3⟩ := split3.mp hr
    simp only [mathSeq, h1, h2, h3]
    rw [elemsOp_div es hr]
    exact ⟨fun h => ⟨hr, h⟩, fun h => h.2⟩
  · have : ¬ (elemsOp .add es = .fine ∧ elemsOp .sub es = .fine ∧ elemsOp .mul es = .fine) :=
      fun h => hr (split3.mpr h)
    simp only [hr, false_and, iff_false, not_not, ne_eq]
    unfold mathSeq
    cases h1 : elemsOp .add es <;> cases h2 : elemsOp .sub es <;> cases h3 : elemsOp .mul es <;>
      simp_all

/-- **C68.** The decision for a bare Python object: exactly integers (not booleans), finite floats,
and decimals that are finite and nonzero or NaN are numeric. -/
theorem C68_scalar (ver : PyVer) (s : Scal) :
    isnumeric ver (.scalar s) = true ↔
      FiniteReal s ∨ (∃ r : ℝ, r ≠ 0 ∧ s = .decimal (fin r)) ∨ s = .decimal nan := by
  cases s with
  | bool b => simp [isnumeric, isnumericLeaf, Scal.dtype, FiniteReal]
  | int z =>
    by_cases hz : z = 0 <;>
      simp [isnumeric, isnumericLeaf, Scal.dtype, FiniteReal, leafIsNan, leafIsInf, leafMath,
        mathSeq, leafOp, hz]
  | float x =>
    cases x with
    | fin r =>
      by_cases hr : r = 0 <;>
        simp [isnumeric, isnumericLeaf, Scal.dtype, FiniteReal, leafIsNan, leafIsInf, leafMath,
          mathSeq, leafOp, hr]
    | _ => simp [isnumeric, isnumericLeaf, Scal.dtype, FiniteReal, leafIsNan, leafIsInf, Fl.isNaN,
        Fl.isInf]
  | complex a b => simp [isnumeric, isnumericLeaf, Scal.dtype, FiniteReal]
  | decimal x =>
    cases x with
    | fin r =>
      by_cases hr : r = 0 <;>
        simp [isnumeric, isnumericLeaf, Scal.dtype, FiniteReal, leafIsNan, leafIsInf, leafMath,
          mathSeq, leafOp, hr]
    | _ => simp [isnumeric, isnumericLeaf, Scal.dtype, FiniteReal, leafIsNan, leafIsInf, leafMath,
        mathSeq, leafOp]
  | text t =>
    cases ver <;> simp [isnumeric, isnumericLeaf, isnumericSeen, arrMath, anyBad, Scal.dtype,
      FiniteReal, leafIsNan, leafIsInf, leafMath, mathSeq, leafOp]
  | other => simp [isnumeric, isnumericLeaf, Scal.dtype, FiniteReal, leafIsNan, leafIsInf, leafMath,
      mathSeq, leafOp]

/-- a leaf without NaN or infinite parts, as `np.isnan` and `np.isinf` see it -/
def NotBad : Scal → Prop
  | .float x => ∃ r, x = fin r
  | .complex a b => (∃ r, a = fin r) ∧ ∃ r, b = fin r
  | _ => True

theorem bad_iff (s : Scal) :
    (leafIsNan s == some true || leafIsInf s == some true) = false ↔ NotBad s := by
  cases s with
  | float x => cases x <;> simp [leafIsNan, leafIsInf, NotBad, Fl.isNaN, Fl.isInf]
  | complex a b =>
    cases a <;> cases b <;> simp [leafIsNan, leafIsInf, NotBad, Fl.isNaN, Fl.isInf]
  | _ => simp [leafIsNan, leafIsInf, NotBad]

theorem notBad_of_finite (s : Scal) (h : FiniteReal s) : NotBad s := by
  cases s with
  | float x => cases x <;> simp_all [FiniteReal, NotBad]
  | _ => simp_all [FiniteReal, NotBad]

/-- **C68.** The decision for an array (or numpy scalar), by element type: boolean, complex and text
arrays never; integer and float arrays exactly when no element is NaN or infinite; object arrays
exactly when `ObjectsPass`. -/
theorem C68_seen (dt : DType) (es : List Scal) :
    isnumericSeen ⟨dt, es⟩ = true ↔
      match dt with
      | .bool => False
      | .complex => False
      | .text => False
      | .int => ∀ s ∈ es, NotBad s
      | .float => ∀ s ∈ es, NotBad s
      | .object => ObjectsPass es := by
  have hany : (es.any fun s => leafIsNan s == some true || leafIsInf s == some true) = false ↔
      ∀ s ∈ es, NotBad s := by
    rw [List.any_eq_false]
    constructor
    · intro h s hs
      exact (bad_iff s).mp (by simpa using h s hs)
    · intro h s hs
      simpa using (bad_iff s).mpr (h s hs)
  cases dt with
  | bool => simp [isnumericSeen]
  | complex => simp [isnumericSeen]
  | text => simp [isnumericSeen, anyBad, arrMath]
  | object =>
    rw [show (match DType.object with
      | .bool => False | .complex => False | .text => False
      | .int => ∀ s ∈ es, NotBad s | .float => ∀ s ∈ es, NotBad s
      | .object => ObjectsPass es) = ObjectsPass es from rfl, ← objects_pass]
    simp only [isnumericSeen, anyBad, arrMath]
    cases mathSeq (fun op => elemsOp op es) <;> simp
  | int =>
    rw [← hany]
    obtain ⟨D, hD⟩ : ∃ D, D = es.any fun s => leafIsNan s == some true || leafIsInf s == some true :=
      ⟨_, rfl⟩
    simp only [isnumericSeen, anyBad, arrMath, ← hD]
    cases D <;> simp
  | float =>
    rw [← hany]
    obtain ⟨D, hD⟩ : ∃ D, D = es.any fun s => leafIsNan s == some true || leafIsInf s == some true :=
      ⟨_, rfl⟩
    simp only [isnumericSeen, anyBad, arrMath, ← hD]
    cases D <;> simp

/-- **C68.** The same for the Python level objects that carry an element type. -/
theorem C68_array (ver : PyVer) (dt : DType) (shape : List ℕ) (es : List Scal) (s : Scal) :
    (isnumericarray ver (.ndarray dt shape es) = true ↔ isnumericSeen ⟨dt, es⟩ = true) ∧
    (isnumericscalar ver (.npscalar dt s) = true ↔ isnumericSeen ⟨dt, [s]⟩ = true) := by
  simp [isnumericarray, isnumericscalar, hasIter, isnumeric]

theorem join_object (d e : DType) : d.join e = .object ↔ d = .object ∨ e = .object := by
  cases d <;> cases e <;> simp [DType.join]

/-- the element type numpy chooses for a list -/
theorem joinAll_spec (xs : List Scal) :
    ((∃ s ∈ xs, IsObject s) → joinAll xs = .object) ∧
    ((¬ ∃ s ∈ xs, IsObject s) →
      ((∃ t, Scal.text t ∈ xs) → joinAll xs = .text) ∧
      ((¬ ∃ t, Scal.text t ∈ xs) →
        ((∃ a b, Scal.complex a b ∈ xs) → joinAll xs = .complex) ∧
        ((¬ ∃ a b, Scal.complex a b ∈ xs) →
          ((xs ≠ [] ∧ ∀ s ∈ xs, ∃ b, s = .bool b) → joinAll xs = .bool) ∧
          (¬ (xs ≠ [] ∧ ∀ s ∈ xs, ∃ b, s = .bool b) → joinAll xs = .int ∨ joinAll xs = .float)))) := by
  have rank : ∀ (l : List Scal) (d : DType),
      l.foldl (fun d s => d.join s.dtype) d =
        if d = .object ∨ ∃ s ∈ l, s.dtype = .object then .object
        else if d = .text ∨ ∃ s ∈ l, s.dtype = .text then .text
        else if d = .complex ∨ ∃ s ∈ l, s.dtype = .complex then .complex
        else if d = .float ∨ ∃ s ∈ l, s.dtype = .float then .float
        else if d = .int ∨ ∃ s ∈ l, s.dtype = .int then .int else .bool := by
    classical
    intro l
    induction l with
    | nil => intro d; cases d <;> simp
    | cons s l ih =>
      intro d
      rw [List.foldl_cons, ih]
      simp only [List.mem_cons, exists_eq_or_imp]
      cases d <;> cases s.dtype <;> simp [DType.join]
  have ho : ∀ s : Scal, s.dtype = .object ↔ IsObject s := by
    intro s; cases s <;> simp [Scal.dtype, IsObject]
  have ht : ∀ s : Scal, s.dtype = .text ↔ ∃ t, s = .text t := by
    intro s; cases s <;> simp [Scal.dtype]
  have hc : ∀ s : Scal, s.dtype = .complex ↔ ∃ a b, s = .complex a b := by
    intro s; cases s <;> simp [Scal.dtype]
  have hb : ∀ s : Scal, s.dtype = .bool ↔ ∃ b, s = .bool b := by
    intro s; cases s <;> simp [Scal.dtype]
  cases xs with
  | nil => simp [joinAll]
  | cons x xs =>
    have hd : joinAll (x :: xs) = xs.foldl (fun d s => d.join s.dtype) x.dtype := rfl
    rw [rank] at hd
    have e1 : (x.dtype = .object ∨ ∃ s ∈ xs, s.dtype = .object) ↔ ∃ s ∈ x :: xs, IsObject s := by
      simp [ho]
    have e2 : (x.dtype = .text ∨ ∃ s ∈ xs, s.dtype = .text) ↔ ∃ t, Scal.text t ∈ x :: xs := by
      simp only [ht, List.mem_cons]
      constructor
      · rintro (⟨t, h⟩ | ⟨s, hs, t, h⟩)
        · exact ⟨t, Or.inl h.symm⟩
        · exact ⟨t, Or.inr (h ▸ hs)⟩
      · rintro ⟨t, h | h⟩
        · exact Or.inl ⟨t, h.symm⟩
        · exact Or.inr ⟨_, h, t, rfl⟩
    have e3 : (x.dtype = .complex ∨ ∃ s ∈ xs, s.dtype = .complex) ↔
        ∃ a b, Scal.complex a b ∈ x :: xs := by
      simp only [hc, List.mem_cons]
      constructor
      · rintro (⟨a, b, h⟩ | ⟨s, hs, a, b, h⟩)
        · exact ⟨a, b, Or.inl h.symm⟩
        · exact ⟨a, b, Or.inr (h ▸ hs)⟩
      · rintro ⟨a, b, h | h⟩
        · exact Or.inl ⟨a, b, h.symm⟩
        · exact Or.inr ⟨_, h, a, b, rfl⟩
    rw [hd]
    refine ⟨fun h => if_pos (e1.mpr h), fun h => ?_⟩
    rw [if_neg (fun h' => h (e1.mp h'))]
    refine ⟨fun h2 => if_pos (e2.mpr h2), fun h2 => ?_⟩
    rw [if_neg (fun h' => h2 (e2.mp h'))]
    refine ⟨fun h3 => if_pos (e3.mpr h3), fun h3 => ?_⟩
    rw [if_neg (fun h' => h3 (e3.mp h'))]
    refine ⟨?_, ?_⟩
    · rintro ⟨-, hall⟩
      have hall' : ∀ s ∈ x :: xs, s.dtype = .bool := fun s hs => (hb s).mpr (hall s hs)
      have hx := hall' x (by simp)
      rw [if_neg, if_neg]
      · rintro (h4 | ⟨s, hs, h4⟩)
        · rw [hx] at h4; cases h4
        · rw [hall' s (by simp [hs])] at h4; cases h4
      · rintro (h4 | ⟨s, hs, h4⟩)
        · rw [hx] at h4; cases h4
        · rw [hall' s (by simp [hs])] at h4; cases h4
    · intro hn
      split_ifs with h4 h5
      · right; rfl
      · left; rfl
      · exfalso
        apply hn
        refine ⟨by simp, fun s hs => ?_⟩
        have g1 : ¬ s.dtype = .object := fun g => h ⟨s, hs, (ho s).mp g⟩
        have g2 : ¬ s.dtype = .text := fun g => by
          obtain ⟨t, rfl⟩ := (ht s).mp g; exact h2 ⟨t, hs⟩
        have g3 : ¬ s.dtype = .complex := fun g => by
          obtain ⟨a, b, rfl⟩ := (hc s).mp g; exact h3 ⟨a, b, hs⟩
        have g4 : ¬ s.dtype = .float := fun g => by
          rcases List.mem_cons.mp hs with rfl | hs
          · exact h4 (Or.inl g)
          · exact h4 (Or.inr ⟨s, hs, g⟩)
        have g5 : ¬ s.dtype = .int := fun g => by
          rcases List.mem_cons.mp hs with rfl | hs
          · exact h5 (Or.inl g)
          · exact h5 (Or.inr ⟨s, hs, g⟩)
        rw [← hb]
        cases hdt : s.dtype
        · rfl
        · exact absurd hdt g5
        · exact absurd hdt g4
        · exact absurd hdt g3
        · exact absurd hdt g2
        · exact absurd hdt g1

/-- **C68.** The decision for a list (and a tuple, and a table of lists) of Python objects.  With a
`Decimal` or an object without arithmetic in it: `ObjectsPass`.  Otherwise: all elements are finite
numbers or booleans, and they are not all booleans unless there are none. -/
theorem C68_list (ver : PyVer) (xs : List Scal) :
    isnumeric ver (.list xs) = true ↔
      ((∃ s ∈ xs, IsObject s) ∧ ObjectsPass xs) ∨
      ((∀ s ∈ xs, FiniteReal s ∨ ∃ b, s = .bool b) ∧ (xs = [] ∨ ∃ s ∈ xs, FiniteReal s)) := by
  have hseen := C68_seen (joinAll xs) xs
  obtain ⟨j1, j2⟩ := joinAll_spec xs
  have unf : isnumeric ver (.list xs) = isnumericSeen ⟨joinAll xs, xs⟩ := rfl
  rw [unf]
  have objNot : ∀ s, IsObject s → ¬ (FiniteReal s ∨ ∃ b, s = .bool b) := by
    intro s hs; cases s <;> simp_all [IsObject, FiniteReal]
  by_cases ho : ∃ s ∈ xs, IsObject s
  · rw [j1 ho] at hseen ⊢
    rw [hseen]
    constructor
    · exact fun h => Or.inl ⟨ho, h⟩
    · rintro (h | ⟨h, -⟩)
      · exact h.2
      · obtain ⟨s, hs, hso⟩ := ho
        exact absurd (h s hs) (objNot s hso)
  · have j3 := j2 ho
    have hno : ∀ s ∈ xs, ¬ IsObject s := fun s hs h => ho ⟨s, hs, h⟩
    simp only [ho, false_and, false_or]
    by_cases ht : ∃ t, Scal.text t ∈ xs
    · rw [j3.1 ht] at hseen ⊢
      rw [hseen]
      simp only [false_iff]
      rintro ⟨h, -⟩
      obtain ⟨t, ht⟩ := ht
      simpa [FiniteReal] using h _ ht
    · have j4 := j3.2 ht
      by_cases hc : ∃ a b, Scal.complex a b ∈ xs
      · rw [j4.1 hc] at hseen ⊢
        rw [hseen]
        simp only [false_iff]
        rintro ⟨h, -⟩
        obtain ⟨a, b, hab⟩ := hc
        simpa [FiniteReal] using h _ hab
      · have j5 := j4.2 hc
        have shape : ∀ s ∈ xs, (∃ b, s = .bool b) ∨ (∃ z, s = .int z) ∨ ∃ x, s = .float x := by
          intro s hs
          cases s with
          | bool b => simp
          | int z => simp
          | float x => simp
          | complex a b => exact absurd ⟨a, b, hs⟩ hc
          | decimal x => exact absurd trivial (hno _ hs)
          | text t => exact absurd ⟨t, hs⟩ ht
          | other => exact absurd trivial (hno _ hs)
        by_cases hall : xs ≠ [] ∧ ∀ s ∈ xs, ∃ b, s = .bool b
        · rw [j5.1 hall] at hseen ⊢
          rw [hseen]
          simp only [false_iff]
          rintro ⟨-, h | ⟨s, hs, hf⟩⟩
          · exact hall.1 h
          · obtain ⟨b, rfl⟩ := hall.2 s hs
            simp [FiniteReal] at hf
        · have hnb : (∀ s ∈ xs, NotBad s) ↔ ∀ s ∈ xs, FiniteReal s ∨ ∃ b, s = .bool b := by
            constructor
            · intro h s hs
              have hn := h s hs
              rcases shape s hs with ⟨b, rfl⟩ | ⟨z, rfl⟩ | ⟨x, rfl⟩
              · simp
              · simp [FiniteReal]
              · obtain ⟨r, rfl⟩ := hn; simp [FiniteReal]
            · intro h s hs
              rcases h s hs with h | ⟨b, rfl⟩
              · exact notBad_of_finite s h
              · simp [NotBad]
          have hex : (∀ s ∈ xs, FiniteReal s ∨ ∃ b, s = .bool b) → xs = [] ∨ ∃ s ∈ xs, FiniteReal s := by
            intro h
            by_contra hcon
            apply hall
            rw [not_or] at hcon
            refine ⟨hcon.1, fun s hs => ?_⟩
            rcases h s hs with h | h
            · exact absurd ⟨s, hs, h⟩ hcon.2
            · exact h
          have fin : isnumericSeen ⟨joinAll xs, xs⟩ = true ↔ ∀ s ∈ xs, NotBad s := by
            rcases j5.2 hall with hj | hj <;> rw [hj] at hseen ⊢ <;> exact hseen
          rw [fin, hnb]
          exact ⟨fun h => ⟨h, hex h⟩, fun h => h.1⟩

/-- **C68.** Tuples and tables are decided like the list of their leaves. -/
theorem C68_tuple_table (ver : PyVer) (xs : List Scal) (rows : List (List Scal)) :
    isnumeric ver (.tuple xs) = isnumeric ver (.list xs) ∧
    isnumeric ver (.table rows) = isnumeric ver (.list rows.flatten) := ⟨rfl, rfl⟩

/-- **C68.** Booleans (alone, as numpy scalars, or as arrays and lists of booleans) are never
numeric. -/
theorem C68_bool (ver : PyVer) (b : Bool) (s : Scal) (shape : List ℕ) (es : List Scal)
    (bs : List Bool) (hb : bs ≠ []) :
    isnumeric ver (.scalar (.bool b)) = false ∧ isnumeric ver (.npscalar .bool s) = false ∧
    isnumeric ver (.ndarray .bool shape es) = false ∧
    isnumeric ver (.list (bs.map .bool)) = false ∧ isnumeric ver (.tuple (bs.map .bool)) = false := by
  have hj : joinAll (bs.map .bool) = .bool := by
    cases bs with
    | nil => exact absurd rfl hb
    | cons x xs =>
      simp only [List.map_cons, joinAll, Scal.dtype]
      induction xs with
      | nil => rfl
      | cons y ys ih => simpa [Scal.dtype, DType.join] using ih (by simp)
  refine ⟨rfl, rfl, rfl, ?_, ?_⟩ <;> simp [isnumeric, isnumericSeen, hj]

/-- **C68.** Complex numbers are never numeric. -/
theorem C68_complex (ver : PyVer) (re im : Fl) (s : Scal) (shape : List ℕ) (es : List Scal) :
    isnumeric ver (.scalar (.complex re im)) = false ∧
    isnumeric ver (.npscalar .complex s) = false ∧
    isnumeric ver (.ndarray .complex shape es) = false := ⟨rfl, rfl, rfl⟩

/-- **C68.** NaN and infinite floats are never numeric, nor is a float array with such an element. -/
theorem C68_nan_inf (ver : PyVer) (x : Fl) (hx : ¬ ∃ r, x = fin r) (shape : List ℕ)
    (es : List Scal) (hm : Scal.float x ∈ es) :
    isnumeric ver (.scalar (.float x)) = false ∧
    isnumeric ver (.npscalar .float (.float x)) = false ∧
    isnumeric ver (.ndarray .float shape es) = false := by
  have key : leafIsNan (.float x) = some true ∨ leafIsInf (.float x) = some true := by
    cases x with
    | fin r => exact absurd ⟨r, rfl⟩ hx
    | pinf => right; rfl
    | ninf => right; rfl
    | nan => left; rfl
  have hbad : ∀ l : List Scal, Scal.float x ∈ l → anyBad ⟨.float, l⟩ = some true := by
    intro l hl
    simp only [anyBad]
    congr 1
    rw [List.any_eq_true]
    exact ⟨_, hl, by rcases key with h | h <;> simp [h]⟩
  refine ⟨?_, ?_, ?_⟩
  · unfold isnumeric isnumericLeaf
    rcases key with h | h <;> simp [h]
  · unfold isnumeric isnumericSeen
    simp [hbad [.float x] (by simp)]
  · unfold isnumeric isnumericSeen
    simp [hbad es hm]

/-- **C68.** Text and objects without arithmetic are never numeric; neither are text arrays, or
object arrays whose first element is one of these. -/
theorem C68_non_numeric (ver : PyVer) (t : String) (shape : List ℕ) (es : List Scal) :
    isnumeric ver (.scalar (.text t)) = false ∧ isnumeric ver (.scalar .other) = false ∧
    isnumeric ver (.ndarray .text shape es) = false ∧
    isnumeric ver (.ndarray .object shape (.other :: es)) = false := by
  refine ⟨by cases ver <;> rfl, rfl, rfl, rfl⟩

theorem joinAll_finite (xs : List Scal) (h : ∀ s ∈ xs, FiniteReal s) :
    joinAll xs = .int ∨ joinAll xs = .float := by
  cases xs with
  | nil => right; rfl
  | cons x xs =>
    have key : ∀ (l : List Scal) (d : DType), (d = .int ∨ d = .float) → (∀ s ∈ l, FiniteReal s) →
        l.foldl (fun d s => d.join s.dtype) d = .int ∨
        l.foldl (fun d s => d.join s.dtype) d = .float := by
      intro l
      induction l with
      | nil => intro d hd _; exact hd
      | cons y ys ih =>
        intro d hd hl
        apply ih
        · have := hl y (by simp)
          cases y <;> simp [FiniteReal] at this <;> rcases hd with rfl | rfl <;>
            simp [Scal.dtype, DType.join]
        · exact fun s hs => hl s (by simp [hs])
    apply key
    · have := h x (by simp)
      cases x <;> simp [FiniteReal] at this <;> simp [Scal.dtype]
    · exact fun s hs => h s (by simp [hs])

theorem seen_finite (dt : DType) (es : List Scal) (hdt : dt = .int ∨ dt = .float)
    (h : ∀ s ∈ es, FiniteReal s) : isnumericSeen ⟨dt, es⟩ = true := by
  have hb : (es.any fun s => leafIsNan s == some true || leafIsInf s == some true) = false := by
    rw [List.any_eq_false]
    intro s hs
    have := h s hs
    cases s with
    | float x => cases x <;> simp_all [FiniteReal, leafIsNan, leafIsInf]
    | int z => simp [leafIsNan, leafIsInf]
    | _ => simp [FiniteReal] at this
  unfold isnumericSeen
  rcases hdt with rfl | rfl <;> simp [anyBad, hb, arrMath]

/-- **C68.** Finite real scalars are numeric scalars; arrays, lists, tuples and tables of them are
numeric arrays. -/
theorem C68_finite (ver : PyVer) (s : Scal) (hs : FiniteReal s) (dt : DType)
    (hdt : dt = .int ∨ dt = .float) (shape : List ℕ) (es : List Scal) (h : ∀ t ∈ es, FiniteReal t)
    (rows : List (List Scal)) (hr : ∀ r ∈ rows, ∀ t ∈ r, FiniteReal t) :
    isnumericscalar ver (.scalar s) = true ∧ isnumericscalar ver (.npscalar dt s) = true ∧
    isnumericarray ver (.ndarray dt shape es) = true ∧ isnumericarray ver (.list es) = true ∧
    isnumericarray ver (.tuple es) = true ∧ isnumericarray ver (.table rows) = true := by
  have hfl : ∀ t ∈ rows.flatten, FiniteReal t := by
    intro t ht
    obtain ⟨r, hr', ht'⟩ := List.mem_flatten.mp ht
    exact hr r hr' t ht'
  refine ⟨?_, ?_, ?_, ?_, ?_, ?_⟩
  · cases s with
    | float x =>
      cases x <;> simp only [FiniteReal] at hs
      rename_i r
      by_cases h0 : r = 0 <;>
        simp [isnumericscalar, isnumeric, hasIter, isnumericLeaf, Scal.dtype, leafIsNan, leafIsInf,
          leafMath, mathSeq, leafOp, h0]
    | int z =>
      by_cases h0 : z = 0 <;>
        simp [isnumericscalar, isnumeric, hasIter, isnumericLeaf, Scal.dtype, leafIsNan, leafIsInf,
          leafMath, mathSeq, leafOp, h0]
    | _ => simp [FiniteReal] at hs
  · simpa [isnumericscalar, isnumeric, hasIter] using seen_finite dt [s] hdt (by simpa using hs)
  · simpa [isnumericarray, isnumeric, hasIter] using seen_finite dt es hdt h
  · simpa [isnumericarray, isnumeric, hasIter] using seen_finite _ es (joinAll_finite es h) h
  · simpa [isnumericarray, isnumeric, hasIter] using seen_finite _ es (joinAll_finite es h) h
  · simpa [isnumericarray, isnumeric, hasIter] using
      seen_finite _ rows.flatten (joinAll_finite _ hfl) hfl

/-- **C68.** Exactly one of the two refined predicates holds for a numeric input, none for any
other. -/
theorem C68_exclusive (ver : PyVer) (x : Obj) :
    (isnumeric ver x = true ↔ (isnumericscalar ver x = true ∨ isnumericarray ver x = true)) ∧
    ¬ (isnumericscalar ver x = true ∧ isnumericarray ver x = true) := by
  unfold isnumericscalar isnumericarray
  cases hasIter ver x <;> simp

/-- **C68.** `is_empty_arraylike` holds exactly for None, arrays with a zero dimension, and empty
lists and tuples. -/
theorem C68_empty (x : Option Obj) :
    isEmptyArraylike x = true ↔
      x = none ∨ (∃ dt shape es, x = some (.ndarray dt shape es) ∧ 0 ∈ shape) ∨
      x = some (.list []) ∨ x = some (.tuple []) ∨ x = some (.table []) := by
  match x with
  | none => simp [isEmptyArraylike]
  | some (.ndarray dt shape es) =>
    simp [isEmptyArraylike, arrSize, List.prod_eq_zero_iff]
  | some (.list xs) => simp [isEmptyArraylike]
  | some (.tuple xs) => simp [isEmptyArraylike]
  | some (.table rows) => simp [isEmptyArraylike]
  | some (.scalar s) => simp [isEmptyArraylike]
  | some (.npscalar d s) => simp [isEmptyArraylike]

/-- Finding: for `Decimal` the rule fails on both sides.  A NaN decimal counts as numeric, and the
finite decimal 0 does not (its `x/x` raises InvalidOperation, not ZeroDivisionError). -/
theorem C68_decimal (ver : PyVer) :
    isnumeric ver (.scalar (.decimal nan)) = true ∧
    isnumeric ver (.scalar (.decimal (fin 0))) = false ∧
    isnumeric ver (.scalar (.decimal (fin 1))) = true := by
  refine ⟨?_, ?_, ?_⟩ <;>
    simp [isnumeric, isnumericLeaf, Scal.dtype, leafIsNan, leafIsInf, leafMath,
      mathSeq, leafOp]

/-- Finding: a list mixing booleans with numbers is converted and accepted. -/
theorem C68_mixed_bool (ver : PyVer) (b : Bool) (z : ℤ) :
    isnumeric ver (.list [.bool b, .int z]) = true := by
  simp [isnumeric, isnumericSeen, joinAll, Scal.dtype, DType.join, anyBad, leafIsNan, leafIsInf,
    arrMath]

/-- Finding: next to a `Decimal`, infinities, NaN and complex numbers are accepted, and the order of
zeros matters. -/
theorem C68_object_array (ver : PyVer) :
    isnumeric ver (.list [.decimal (fin 1), .float pinf, .float nan, .complex (fin 0) (fin 1)]) =
      true ∧
    isnumeric ver (.list [.int 0, .decimal (fin 0)]) = true ∧
    isnumeric ver (.list [.decimal (fin 0), .int 0]) = false ∧
    isnumeric ver (.list [.int 0, .other]) = false := by
  refine ⟨?_, ?_, ?_, ?_⟩ <;>
    simp [isnumeric, isnumericSeen, joinAll, Scal.dtype, DType.join, anyBad, arrMath, mathSeq, elemsOp,
      leafOp]

/-! ### C70 -/

/-- the index tuple of the `k`-th element in row-major order -/
def unravel : List ℕ → ℕ → List ℕ
  | [], _ => []
  | _ :: ds, k => (k / ds.prod) :: unravel ds (k % ds.prod)

/-- the buffer position of the `k`-th element in reading order -/
def addr (v : View) (k : ℕ) : ℤ :=
  v.offset + (List.zipWith (fun (i : ℕ) (s : ℤ) => i * s) (unravel v.shape k) v.strides).sum

/-- What numpy documents about in-place shape assignment: when it succeeds the size is unchanged
and every element is found, in reading order, where it was. -/
def SetShapeContract (setShape : View → List ℕ → SetShape) : Prop :=
  ∀ v s st, setShape v s = .view st →
    s.prod = v.shape.prod ∧ st.length = s.length ∧
    ∀ k < s.prod, addr { v with shape := s, strides := st } k = addr v k

/-- **C70.** Without a warning the result is a view of the same buffer, has the requested shape, and
reads the same buffer cells in the same order; with a warning, `just_warn` was given; otherwise the
call raises. -/
theorem C70_reshape (setShape : View → List ℕ → SetShape) (reshapeCopy : View → List ℕ → View)
    (hc : SetShapeContract setShape) (a : View) (shape : List ℕ) (justWarn : Bool) :
    (∀ r, npReshapeSafe setShape reshapeCopy a shape justWarn = .ok r → r.warned = false →
      r.view.buf = a.buf ∧ r.view.shape = shape ∧ shape.prod = a.shape.prod ∧
      ∀ k < shape.prod, addr r.view k = addr a k) ∧
    (∀ r, npReshapeSafe setShape reshapeCopy a shape justWarn = .ok r → r.warned = true →
      justWarn = true ∧ setShape a shape = .needsCopy ∧ r.view = reshapeCopy a shape) ∧
    (justWarn = false → setShape a shape = .needsCopy →
      npReshapeSafe setShape reshapeCopy a shape justWarn = raise .AttributeError) ∧
    (setShape a shape = .badSize →
      npReshapeSafe setShape reshapeCopy a shape justWarn = raise .ValueError) := by
  unfold npReshapeSafe
  cases h : setShape a shape with
  | view st =>
    obtain ⟨h1, h2, h3⟩ := hc a shape st h
    refine ⟨?_, ?_, ?_, ?_⟩ <;> simp [h]
    exact ⟨h1, h3⟩
  | needsCopy =>
    cases justWarn <;> simp [h]
  | badSize => simp [h]

/-- row-major strides -/
def cStrides : List ℕ → List ℤ
  | [] => []
  | _ :: ds => (ds.prod : ℤ) :: cStrides ds

theorem addr_contiguous (s : List ℕ) (k : ℕ) (hk : k < s.prod) :
    (List.zipWith (fun (i : ℕ) (t : ℤ) => i * t) (unravel s k) (cStrides s)).sum = (k : ℤ) := by
  induction s generalizing k with
  | nil => simp at hk; simp [hk, unravel]
  | cons d ds ih =>
    have hpos : 0 < ds.prod := by
      rcases Nat.eq_zero_or_pos ds.prod with h | h
      · simp [h] at hk
      · exact h
    simp only [unravel, cStrides, List.zipWith_cons_cons, List.sum_cons]
    rw [ih _ (Nat.mod_lt _ hpos)]
    have := Nat.div_add_mod k ds.prod
    push_cast [← Nat.cast_mul]
    have h2 : (ds.prod : ℤ) * ((k / ds.prod : ℕ) : ℤ) + ((k % ds.prod : ℕ) : ℤ) = k := by
      exact_mod_cast this
    push_cast at h2
    linarith

/-- non-vacuity of the contract: the shape assignment that accepts exactly contiguous arrays of the
right size meets it, and it does accept something. -/
theorem C70_contract_satisfiable : ∃ setShape : View → List ℕ → SetShape,
    SetShapeContract setShape ∧
    setShape ⟨0, 5, [2, 3], [3, 1]⟩ [6] = .view [1] := by
  refine ⟨fun v s => if v.strides = cStrides v.shape ∧ s.prod = v.shape.prod then .view (cStrides s)
    else .needsCopy, ?_, ?_⟩
  · intro v s st h
    by_cases hc : v.strides = cStrides v.shape ∧ s.prod = v.shape.prod
    · simp only [hc, and_self, if_true, SetShape.view.injEq] at h
      subst h
      refine ⟨hc.2, ?_, ?_⟩
      · clear hc
        induction s with
        | nil => rfl
        | cons d ds ih => simp [cStrides, ih]
      · intro k hk
        simp only [addr]
        rw [addr_contiguous s k hk, hc.1, addr_contiguous v.shape k (hc.2 ▸ hk)]
    · simp only [hc, if_false] at h
      cases h
  · simp [cStrides]

end Blmath.Props
