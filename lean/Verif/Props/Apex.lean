import Verif.Model.Apex
import Verif.Model.Polyline
import Verif.Spec.Geom
import Verif.Proofs.V3
import Verif.Proofs.Numerics
import Verif.Base.Fl
import Mathlib.Tactic.FieldSimp
import Mathlib.Tactic.NormNum

/-!
Properties C44 (apex, farthest) and C72 (inflection points).
-/

namespace Blmath.Props
open Blmath.Geometry Blmath.Spec Blmath.Fl Blmath.Numerics

/-! ### C44 -/

/-- position `i` is the first one where `f` is largest on the list -/
def FirstMax {P : Type} (f : P → ℝ) (xs : List P) (i : ℕ) (x : P) : Prop :=
  xs[i]? = some x ∧ (∀ y ∈ xs, f y ≤ f x) ∧ ∀ (j : ℕ) (y : P), j < i → xs[j]? = some y → f y < f x

theorem npIsNan_real (x : ℝ) : npIsNan x = false := by
  have : Num.eq x x = true := (Num.eq_real x x).mpr rfl
  simp [npIsNan, this]

theorem argmaxFrom_real : ∀ (xs : List ℝ) (pre : List ℝ) (best : ℕ) (b : ℝ), pre[best]? = some b →
    (∀ i x, pre[i]? = some x → x ≤ b ∧ (i < best → x < b)) →
    ∃ r, (pre ++ xs)[argmaxFrom pre.length best b xs]? = some r ∧
      ∀ i x, (pre ++ xs)[i]? = some x → x ≤ r ∧ (i < argmaxFrom pre.length best b xs → x < r) := by
  intro xs
  induction xs with
  | nil => intro pre best b h1 h2; exact ⟨b, by simpa [argmaxFrom] using h1, by simpa [argmaxFrom] using h2⟩
  | cons y xs ih =>
    intro pre best b h1 h2
    have hbest : best < pre.length := by
      by_contra hc
      rw [List.getElem?_eq_none (by omega)] at h1; cases h1
    have split : ∀ i x, (pre ++ [y])[i]? = some x → (pre[i]? = some x ∧ i < pre.length) ∨
        (i = pre.length ∧ x = y) := by
      intro i x h
      rcases Nat.lt_trichotomy i pre.length with hi | hi | hi
      · rw [List.getElem?_append_left hi] at h; exact Or.inl ⟨h, hi⟩
      · subst hi; simp at h; exact Or.inr ⟨rfl, h.symm⟩
      · rw [List.getElem?_eq_none (by simp; omega)] at h; cases h
    have e : pre ++ y :: xs = (pre ++ [y]) ++ xs := by simp
    have el : pre.length + 1 = (pre ++ [y]).length := by simp
    rw [e, argmaxFrom]
    simp only [npIsNan_real, Bool.false_eq_true, if_false, Bool.false_or]
    by_cases hlt : Num.lt b y = true
    · rw [if_pos hlt, el]
      rw [Num.lt_real] at hlt
      refine ih (pre ++ [y]) pre.length y (by simp) ?_
      intro i x hx
      rcases split i x hx with ⟨h, hi⟩ | ⟨rfl, rfl⟩
      · have := (h2 i x h).1
        exact ⟨by linarith, fun _ => by linarith⟩
      · exact ⟨le_rfl, fun h => by omega⟩
    · rw [if_neg hlt, el]
      rw [Num.lt_real] at hlt
      refine ih (pre ++ [y]) best b (by rw [List.getElem?_append_left hbest]; exact h1) ?_
      intro i x hx
      rcases split i x hx with ⟨h, hi⟩ | ⟨rfl, rfl⟩
      · exact h2 i x h
      · exact ⟨not_lt.mp hlt, fun h => by omega⟩

theorem argmax_first {P : Type} (f : P → ℝ) (xs : List P) (h : xs ≠ []) :
    ∃ i x, argmax (xs.map f) = .ok i ∧ FirstMax f xs i x := by
  cases xs with
  | nil => exact absurd rfl h
  | cons x0 xs =>
    obtain ⟨r, hr1, hr2⟩ := argmaxFrom_real (xs.map f) [f x0] 0 (f x0) rfl (by
      intro i x hx
      cases i with
      | zero => simp at hx; subst hx; exact ⟨le_rfl, fun h => by omega⟩
      | succ i => simp at hx)
    simp only [List.length_singleton] at hr1 hr2
    have hmap : [f x0] ++ xs.map f = (x0 :: xs).map f := rfl
    rw [hmap] at hr1 hr2
    generalize hk : argmaxFrom 1 0 (f x0) (xs.map f) = k at *
    rw [List.getElem?_map] at hr1
    obtain ⟨x, hx, rfl⟩ := Option.map_eq_some_iff.mp hr1
    refine ⟨k, x, by rw [← hk]; rfl, hx, ?_, ?_⟩
    · intro y hy
      obtain ⟨j, hj⟩ := List.getElem?_of_mem hy
      exact (hr2 j (f y) (by rw [List.getElem?_map, hj]; rfl)).1
    · intro j y hj hy
      exact (hr2 j (f y) (by rw [List.getElem?_map, hy]; rfl)).2 hj

/-- **C44.** `apex` returns the first of the points that lie farthest along the axis. -/
theorem C44_apex (points : List (V3 ℝ)) (axis : V3 ℝ) (h : points ≠ []) :
    ∃ i p, apex points axis = .ok p ∧ FirstMax (fun q => inner3 q axis) points i p := by
  obtain ⟨i, p, h1, h2⟩ := argmax_first (fun q : V3 ℝ => V3.dot q axis) points h
  refine ⟨i, p, ?_, h2⟩
  unfold apex
  simp only [h1, ok_bind]
  exact pyIndex_of_getElem? h2.1

/-- **C44.** `farthest` returns the first of the points at the largest distance, and its index. -/
theorem C44_farthest (o : V3 ℝ) (points : List (V3 ℝ)) (h : points ≠ []) :
    ∃ i p, farthest o points = .ok (p, i) ∧ FirstMax (fun q => dist3 o q) points i p := by
  have e : (fun q : V3 ℝ => V3.norm (q - o)) = fun q => dist3 o q := by
    funext q; rw [V3.norm_real, V3.sub_real]; rfl
  obtain ⟨i, p, h1, h2⟩ := argmax_first (fun q : V3 ℝ => dist3 o q) points h
  refine ⟨i, p, ?_, h2⟩
  unfold farthest
  simp only [e, h1, ok_bind, pyIndex_of_getElem? h2.1]
  rfl

/-- **C44.** No points: ValueError, in any arithmetic. -/
theorem C44_empty {α : Type} [Num α] (a : V3 α) :
    apex [] a = .error .ValueError ∧ farthest a [] = .error .ValueError := ⟨rfl, rfl⟩

/-- **C44.** `apex` of a polyline is the apex of its vertices: the first of the vertices farthest along
the axis, also when the axis is rescaled by a positive number.  No vertices at all (`v` is `None`) raise
AttributeError, an empty array of vertices ValueError. -/
theorem C44_polyline (p : Polyline ℝ) (axis : V3 ℝ) :
    (∀ v, p.v = some v → v ≠ [] →
      ∃ i q, p.apexOf axis = .ok q ∧ FirstMax (fun x => inner3 x axis) v i q ∧
        ∀ c : ℝ, 0 < c → p.apexOf ⟨c * axis.x, c * axis.y, c * axis.z⟩ = .ok q) ∧
    (p.v = none → p.apexOf axis = .error .AttributeError) ∧
    (p.v = some [] → p.apexOf axis = .error .ValueError) := by
  refine ⟨fun v hv hne => ?_, fun h => by simp [Polyline.apexOf, h, raise], fun h => ?_⟩
  · obtain ⟨i, q, h1, h2⟩ := C44_apex v axis hne
    refine ⟨i, q, by simp only [Polyline.apexOf, hv, h1], h2, fun c hc => ?_⟩
    obtain ⟨j, r, h3, h4⟩ := C44_apex v ⟨c * axis.x, c * axis.y, c * axis.z⟩ hne
    simp only [Polyline.apexOf, hv, h3]
    have e : ∀ x : V3 ℝ, inner3 x ⟨c * axis.x, c * axis.y, c * axis.z⟩ = c * inner3 x axis := fun x => by
      simp only [inner3]; ring
    obtain ⟨a1, a2, a3⟩ := h2
    obtain ⟨b1, b2, b3⟩ := h4
    simp only [e, mul_le_mul_iff_right₀ hc, mul_lt_mul_iff_right₀ hc] at b2 b3
    have hij : i = j := by
      rcases Nat.lt_trichotomy i j with h | h | h
      · exact absurd (a2 r (List.mem_of_getElem? b1)) (not_le.2 (b3 i q h a1))
      · exact h
      · exact absurd (b2 q (List.mem_of_getElem? a1)) (not_le.2 (a3 j r h b1))
    subst hij
    rw [a1] at b1
    rw [Option.some.inj b1]
  · simp only [Polyline.apexOf, h]; rfl

/-- non-vacuity of `C44_polyline`: two vertices at the same height, the first one is returned -/
example : ∃ p : Polyline ℝ, p.v = some [⟨0, 1, 0⟩, ⟨5, 2, 0⟩, ⟨7, 2, 0⟩] ∧
    p.apexOf ⟨0, 3, 0⟩ = .ok ⟨5, 2, 0⟩ := by
  refine ⟨⟨some [⟨0, 1, 0⟩, ⟨5, 2, 0⟩, ⟨7, 2, 0⟩], true, some [(0, 1), (1, 2), (2, 0)]⟩, rfl, ?_⟩
  obtain ⟨i, q, h1, ⟨h2, h3, h4⟩, -⟩ := (C44_polyline (⟨some [⟨0, 1, 0⟩, ⟨5, 2, 0⟩, ⟨7, 2, 0⟩], true,
    some [(0, 1), (1, 2), (2, 0)]⟩ : Polyline ℝ) ⟨0, 3, 0⟩).1 _ rfl (by simp)
  rw [h1]
  rcases i with _ | _ | _ | i
  · have := h3 ⟨5, 2, 0⟩ (by simp)
    simp at h2
    subst h2
    norm_num [inner3] at this
  · simp at h2
    rw [h2]
  · have := h4 1 ⟨5, 2, 0⟩ (by norm_num) (by simp)
    simp at h2
    subst h2
    norm_num [inner3] at this
  · simp at h2

example : ∃ i p, farthest (⟨0, 0, 0⟩ : V3 ℝ) [⟨1, 0, 0⟩, ⟨0, 2, 0⟩, ⟨0, 0, 2⟩] = .ok (p, i) ∧
    FirstMax (fun q => dist3 ⟨0, 0, 0⟩ q) [⟨1, 0, 0⟩, ⟨0, 2, 0⟩, ⟨0, 0, 2⟩] i p :=
  C44_farthest _ _ (by simp)

/-! ### C72 -/

/-- slope of the chord joining the two neighbours of sample `i` among `n` samples (at the ends, the
sample itself and its one neighbour) -/
noncomputable def chordSlope (n : ℕ) (x f : ℕ → ℝ) (i : ℕ) : ℝ :=
  (f (min (i + 1) (n - 1)) - f (i - 1)) / (x (min (i + 1) (n - 1)) - x (i - 1))

/-- the neighbours of every sample are at different positions -/
def Spread (n : ℕ) (x : ℕ → ℝ) : Prop := ∀ i, i < n → x (min (i + 1) (n - 1)) ≠ x (i - 1)

/-- the position and the coordinate of the samples as functions of the index -/
def proj (points : List (V3 ℝ)) (a : V3 ℝ) (i : ℕ) : ℝ := ((points[i]?).map fun p => inner3 p a).getD 0

theorem at'_of_lt {α : Type} [Num α] (xs : List α) (i : ℕ) (h : i < xs.length) : at' xs i = xs[i] := by
  simp [at', h]

theorem gradient1_length {α : Type} [Num α] (f : List α) : (gradient1 f).length = f.length := by
  simp [gradient1]

theorem gradient2_spacing (x f : List ℝ) (hn : 2 ≤ x.length) (hf : f.length = x.length)
    (hs : Spread x.length (at' x)) :
    gradient2 .spacing f (gradient1 x) =
      (List.range x.length).map (chordSlope x.length (at' x) (at' f)) := by
  apply List.ext_getElem
  · simp [gradient2, gradient1_length, hf]
  · intro i h1 h2
    simp only [List.length_map, List.length_range] at h2
    have hd := hs i h2
    simp only [gradient2, List.getElem_zipWith, gradient1, List.getElem_map, List.getElem_range, chordSlope, hf]
    by_cases h0 : i = 0
    · subst h0
      simp [min_eq_left (show 1 ≤ x.length - 1 by omega)]
    · rw [if_neg h0, if_neg h0]
      by_cases hl : i + 1 = x.length
      · rw [if_pos hl, if_pos hl]
        have : min (i + 1) (x.length - 1) = i := by omega
        rw [this]
      · rw [if_neg hl, if_neg hl]
        have e : min (i + 1) (x.length - 1) = i + 1 := by omega
        rw [e] at hd ⊢
        have hd' := sub_ne_zero.mpr hd
        simp only [Num.lit_real]
        push_cast
        field_simp

theorem mapM_pyIndex {P : Type} (xs : List P) : ∀ (is : List ℕ), (∀ i ∈ is, i < xs.length) →
    ∃ ys, is.mapM (fun (i : ℕ) => pyIndex xs (i : ℤ)) = .ok ys ∧ ys.map some = is.map fun i => xs[i]?
  | [], _ => ⟨[], rfl, rfl⟩
  | i :: is, h => by
    obtain ⟨ys, h1, h2⟩ := mapM_pyIndex xs is (fun j hj => h j (by simp [hj]))
    have hi := h i (by simp)
    refine ⟨xs[i] :: ys, ?_, by simp [h2, hi]⟩
    rw [List.mapM_cons, pyIndex_of_getElem? (List.getElem?_eq_getElem hi), ok_bind, h1]
    rfl

theorem at'_map_inner (points : List (V3 ℝ)) (a : V3 ℝ) :
    at' (points.map fun p => V3.dot p a) = proj points a := by
  funext i
  simp only [at', proj, List.getD_eq_getElem?_getD, List.getElem?_map, Num.lit_real, Rat.cast_zero]
  rfl

/-- **C72.** With numpy before 1.13: the points returned are those samples `i`, in order, where the
second chord slope and the next one have non-positive product. -/
theorem C72_inflection (points : List (V3 ℝ)) (axis span : V3 ℝ) (hn : 2 ≤ points.length)
    (hs : Spread points.length (proj points span)) :
    ∃ out, inflectionPoints .spacing points axis span = .ok out ∧
      out.map some = ((List.range (points.length - 1)).filter fun i =>
        open Classical in decide (
          let d := chordSlope points.length (proj points span)
            (chordSlope points.length (proj points span) (proj points axis))
          d i * d (i + 1) ≤ 0)).map fun i => points[i]? := by
  unfold inflectionPoints
  rw [if_neg (by omega)]
  have hspread : Spread (points.map fun p => V3.dot p span).length
      (at' (points.map fun p => V3.dot p span)) := by
    rw [at'_map_inner, List.length_map]; exact hs
  have e1 := gradient2_spacing (points.map fun p => V3.dot p span) (points.map fun p => V3.dot p axis)
    (by simpa using hn) (by simp) hspread
  have e2 := gradient2_spacing (points.map fun p => V3.dot p span)
    ((List.range (points.map fun p => V3.dot p span).length).map
      (chordSlope (points.map fun p => V3.dot p span).length (at' (points.map fun p => V3.dot p span))
        (at' (points.map fun p => V3.dot p axis))))
    (by simpa using hn) (by simp) hspread
  simp only [e1, e2]
  simp only [at'_map_inner, List.length_map]
  have hd1 : ∀ i, i < points.length →
      at' ((List.range points.length).map (chordSlope points.length (proj points span) (proj points axis))) i =
        chordSlope points.length (proj points span) (proj points axis) i := by
    intro i hi
    rw [at'_of_lt _ _ (by simpa using hi)]
    simp
  have hd2 : ∀ i, i < points.length →
      chordSlope points.length (proj points span) (at' ((List.range points.length).map
        (chordSlope points.length (proj points span) (proj points axis)))) i =
      chordSlope points.length (proj points span)
        (chordSlope points.length (proj points span) (proj points axis)) i := by
    intro i hi
    rw [chordSlope, hd1 _ (by omega), hd1 _ (by omega)]
    rfl
  have hsc : signChanges ((List.range points.length).map (chordSlope points.length (proj points span)
      (at' ((List.range points.length).map
        (chordSlope points.length (proj points span) (proj points axis)))))) =
      (List.range (points.length - 1)).filter fun i =>
        open Classical in decide (
          let d := chordSlope points.length (proj points span)
            (chordSlope points.length (proj points span) (proj points axis))
          d i * d (i + 1) ≤ 0) := by
    unfold signChanges
    rw [List.length_map, List.length_range]
    apply List.filter_congr
    intro i hi
    rw [List.mem_range] at hi
    rw [at'_of_lt _ _ (by simp; omega), at'_of_lt _ _ (by simp; omega)]
    simp only [List.getElem_map, List.getElem_range]
    rw [hd2 i (by omega), hd2 (i + 1) (by omega)]
    rw [Bool.eq_iff_iff, Num.le_real, decide_eq_true_iff]
    simp
  rw [hsc]
  obtain ⟨ys, h1, h2⟩ := mapM_pyIndex points _ (fun i (hi : i ∈ (List.range (points.length - 1)).filter fun i =>
        open Classical in decide (
          let d := chordSlope points.length (proj points span)
            (chordSlope points.length (proj points span) (proj points axis))
          d i * d (i + 1) ≤ 0)) => by
    have := List.mem_range.mp (List.mem_filter.mp hi).1
    omega)
  exact ⟨ys, h1, h2⟩

/-- slope between sample `i` and the next -/
noncomputable def stepSlope (x f : ℕ → ℝ) (i : ℕ) : ℝ := (f (i + 1) - f i) / (x (i + 1) - x i)

/-- samples with increasing positions and strictly increasing slopes: a strictly convex curve -/
def StrictlyConvex (n : ℕ) (x f : ℕ → ℝ) : Prop :=
  (∀ i, i + 1 < n → x i < x (i + 1)) ∧ ∀ i, i + 2 < n → stepSlope x f i < stepSlope x f (i + 1)

theorem chordSlope_ends {n : ℕ} (x f : ℕ → ℝ) (hn : 2 ≤ n) :
    chordSlope n x f 0 = stepSlope x f 0 ∧ chordSlope n x f (n - 1) = stepSlope x f (n - 2) := by
  constructor
  · simp [chordSlope, stepSlope, min_eq_left (show 1 ≤ n - 1 by omega)]
  · have e1 : min (n - 1 + 1) (n - 1) = n - 1 := by omega
    have e2 : n - 1 - 1 = n - 2 := by omega
    have e3 : n - 2 + 1 = n - 1 := by omega
    simp [chordSlope, stepSlope, e1, e2, e3]

theorem chordSlope_between {n : ℕ} {x f : ℕ → ℝ} (h : StrictlyConvex n x f) (i : ℕ) (hi : i + 2 < n) :
    stepSlope x f i < chordSlope n x f (i + 1) ∧ chordSlope n x f (i + 1) < stepSlope x f (i + 1) := by
  have hs := h.2 i hi
  have h1 := sub_pos.mpr (h.1 i (by omega))
  have h2 := sub_pos.mpr (h.1 (i + 1) (by omega))
  have e : min (i + 1 + 1) (n - 1) = i + 2 := by omega
  have e' : i + 1 - 1 = i := by omega
  have ea : f (i + 1) - f i = stepSlope x f i * (x (i + 1) - x i) := by
    rw [stepSlope, div_mul_cancel₀ _ h1.ne']
  have eb : f (i + 2) - f (i + 1) = stepSlope x f (i + 1) * (x (i + 2) - x (i + 1)) := by
    rw [stepSlope, div_mul_cancel₀ _ h2.ne']
  have h2' : 0 < x (i + 2) - x (i + 1) := h2
  unfold chordSlope
  rw [e, e']
  generalize stepSlope x f i = s at *
  generalize stepSlope x f (i + 1) = t at *
  have hd : 0 < x (i + 2) - x i := by linarith
  have hf : f (i + 2) - f i = s * (x (i + 1) - x i) + t * (x (i + 2) - x (i + 1)) := by linarith
  rw [lt_div_iff₀ hd, div_lt_iff₀ hd, hf]
  constructor <;> nlinarith

theorem chordSlope_mono {n : ℕ} {x f : ℕ → ℝ} (h : StrictlyConvex n x f) (hn : 3 ≤ n) (i : ℕ)
    (hi : i + 1 < n) : chordSlope n x f i < chordSlope n x f (i + 1) := by
  obtain ⟨e0, e1⟩ := chordSlope_ends (n := n) x f (by omega)
  cases i with
  | zero => rw [e0]; exact (chordSlope_between h 0 (by omega)).1
  | succ i =>
    have a := (chordSlope_between h i (by omega)).2
    by_cases hlast : i + 1 + 1 = n - 1
    · rw [hlast, e1]
      have : n - 2 = i + 1 := by omega
      rw [this]
      exact a
    · have b := (chordSlope_between h (i + 1) (by omega)).1
      linarith

/-- increasing values have positive chord slopes -/
theorem chordSlope_pos {n : ℕ} {x g : ℕ → ℝ} (hx : ∀ i, i + 1 < n → x i < x (i + 1))
    (hg : ∀ i, i + 1 < n → g i < g (i + 1)) (hn : 2 ≤ n) (i : ℕ) (hi : i < n) :
    0 < chordSlope n x g i := by
  have mono : ∀ (g : ℕ → ℝ), (∀ i, i + 1 < n → g i < g (i + 1)) →
      0 < g (min (i + 1) (n - 1)) - g (i - 1) := by
    intro g hg
    cases i with
    | zero =>
      have := hg 0 (by omega)
      rw [min_eq_left (show 0 + 1 ≤ n - 1 by omega)]
      simpa using sub_pos.mpr this
    | succ i =>
      have e' : i + 1 - 1 = i := by omega
      rw [e']
      have h1 := hg i (by omega)
      by_cases hl : i + 2 < n
      · have h2 := hg (i + 1) (by omega)
        rw [min_eq_left (show i + 1 + 1 ≤ n - 1 by omega)]
        linarith
      · have e : min (i + 1 + 1) (n - 1) = i + 1 := by omega
        rw [e]; linarith
  exact div_pos (mono g hg) (mono x hx)

/-- **C72.** A strictly convex curve of any number of samples, unevenly spaced or not, has no
inflection points (numpy before 1.13). -/
theorem C72_convex (points : List (V3 ℝ)) (axis span : V3 ℝ) (hn : 3 ≤ points.length)
    (hc : StrictlyConvex points.length (proj points span) (proj points axis)) :
    inflectionPoints .spacing points axis span = .ok [] := by
  have hs : Spread points.length (proj points span) := by
    intro i hi
    have := chordSlope_pos (n := points.length) hc.1 hc.1 (by omega) i hi
    intro h0
    unfold chordSlope at this
    rw [h0] at this
    simp at this
  obtain ⟨out, h1, h2⟩ := C72_inflection points axis span (by omega) hs
  rw [h1]
  rw [List.filter_eq_nil_iff.mpr, List.map_nil, List.map_eq_nil_iff] at h2
  · rw [h2]
  · intro i hi
    rw [List.mem_range] at hi
    have p1 := chordSlope_pos hc.1 (fun i hi => chordSlope_mono hc hn i hi) (by omega) i (by omega)
    have p2 := chordSlope_pos hc.1 (fun i hi => chordSlope_mono hc hn i hi) (by omega) (i + 1) (by omega)
    simp only [decide_eq_true_eq, not_le]
    exact mul_pos p1 p2

theorem gradient1_fin (xs : List ℝ) (hn : 2 ≤ xs.length) :
    gradient1 (xs.map fin) = (gradient1 xs).map fin := by
  apply List.ext_getElem
  · simp [gradient1_length]
  · intro i h1 h2
    rw [gradient1_length, List.length_map] at h1
    have ha : ∀ j, j < xs.length → at' (xs.map fin) j = fin (at' xs j) := by
      intro j hj
      rw [at'_of_lt _ _ (by simpa using hj), at'_of_lt _ _ hj]; simp
    simp only [gradient1, List.getElem_map, List.getElem_range, List.length_map]
    by_cases h0 : i = 0
    · rw [if_pos h0, if_pos h0, ha 1 (by omega), ha 0 (by omega)]; simp
    · rw [if_neg h0, if_neg h0]
      by_cases hl : i + 1 = xs.length
      · rw [if_pos hl, if_pos hl, ha _ (by omega), ha _ (by omega)]; simp
      · rw [if_neg hl, if_neg hl, ha _ (by omega), ha _ (by omega)]
        simp only [sub_fin, lit_fl, Num.lit_real]
        rw [div_fin _ _ (by norm_num)]

/-- the samples are evenly spaced along the span direction -/
def Even (n : ℕ) (x : ℕ → ℝ) : Prop := ∃ h : ℝ, ∀ i, i + 1 < n → x (i + 1) - x i = h

/-- how much the curve rises around sample `i` -/
def rise (n : ℕ) (f : ℕ → ℝ) (i : ℕ) : ℝ := f (min (i + 1) (n - 1)) - f (i - 1)

/-- the curve falls before sample `i` and rises after it -/
def Valley (n : ℕ) (f : ℕ → ℝ) (i : ℕ) : Prop := rise n f (i - 1) < 0 ∧ 0 < rise n f (min (i + 1) (n - 1))

/-- the curve rises before sample `i` and falls after it -/
def Peak (n : ℕ) (f : ℕ → ℝ) (i : ℕ) : Prop := 0 < rise n f (i - 1) ∧ rise n f (min (i + 1) (n - 1)) < 0

open Classical in
theorem inf_quotient (a b : ℝ) : ((fin a / fin 0 - fin b / fin 0) / fin 0 : Fl) =
    if b < 0 ∧ 0 < a then pinf else if 0 < b ∧ a < 0 then ninf else nan := by
  have key : ∀ x : ℝ, (fin x / fin 0 : Fl) = if 0 < x then pinf else if x < 0 then ninf else nan := by
    intro x
    rcases lt_trichotomy x 0 with h | h | h
    · rw [div_fin_zero _ h.ne, infOf, if_neg (by linarith), if_neg (by linarith), if_pos h]
    · rw [h, div_zero_zero]; simp
    · rw [div_fin_zero _ h.ne', infOf, if_pos h, if_pos h]
  rw [key a, key b]
  have e1 : ((pinf - ninf : Fl) / fin 0) = pinf := by
    show Fl.div (Fl.add pinf pinf) (fin 0) = _
    simp [Fl.add, Fl.div]
  have e2 : ((ninf - pinf : Fl) / fin 0) = ninf := by
    show Fl.div (Fl.add ninf ninf) (fin 0) = _
    simp [Fl.add, Fl.div]
  have e3 : (pinf - pinf : Fl) = nan := rfl
  have e4 : (ninf - ninf : Fl) = nan := rfl
  rcases lt_trichotomy a 0 with ha | ha | ha <;> rcases lt_trichotomy b 0 with hb | hb | hb <;>
    simp [ha, hb, ha.le, hb.le, not_lt.mpr, e1, e2, e3, e4, le_of_lt]

theorem gradientAt_even (f : List Fl) (h : ℝ) (n : ℕ) (hf : f.length = n) (hn : 2 ≤ n) :
    gradientAt f (List.replicate n (fin h)) =
      (List.range n).map fun (i : ℕ) => (at' f (min (i + 1) (n - 1)) - at' f (i - 1)) / fin 0 := by
  have hx : ∀ i, i < n → at' (List.replicate n (fin h)) i = fin h := by
    intro i hi
    rw [at'_of_lt _ _ (by simpa using hi)]; simp
  unfold gradientAt
  simp only [hf]
  have hd0 : at' (List.replicate n (fin h)) 1 - at' (List.replicate n (fin h)) 0 = fin 0 := by
    rw [hx 1 (by omega), hx 0 (by omega)]; simp
  rw [hd0, if_pos]
  · apply List.map_congr_left
    intro i hi
    rw [List.mem_range] at hi
    by_cases h0 : i = 0
    · subst h0
      simp [min_eq_left (show 1 ≤ n - 1 by omega)]
    · rw [if_neg h0]
      by_cases hl : i + 1 = n
      · rw [if_pos hl]
        have : min (i + 1) (n - 1) = i := by omega
        rw [this]
      · rw [if_neg hl]
        have : min (i + 1) (n - 1) = i + 1 := by omega
        rw [this]
        simp
  · rw [List.all_eq_true]
    intro i hi
    rw [List.mem_range] at hi
    rw [hx i (by omega), hx (i + 1) (by omega)]
    simp

open Classical in
/-- **C72.** With numpy 1.13 or later the sample spacings are taken for coordinates, so for an evenly sampled curve
every divisor is 0: the points returned are the valleys followed by a peak and the peaks followed by a valley, where the
slopes right at the sample do not count. -/
theorem C72_even (points : List (V3 ℝ)) (axis span : V3 ℝ) (hn : 2 ≤ points.length)
    (he : Even points.length (proj points span)) :
    ∃ out, inflectionPoints .coordinates (points.map (V3.map fin)) (axis.map fin) (span.map fin) = .ok out ∧
      out.map some = ((List.range (points.length - 1)).filter fun i => decide (
        (Valley points.length (proj points axis) i ∧ Peak points.length (proj points axis) (i + 1)) ∨
        (Peak points.length (proj points axis) i ∧ Valley points.length (proj points axis) (i + 1)))).map
          fun i => (points[i]?).map (V3.map fin) := by
  obtain ⟨h, hh⟩ := he
  have hdot : ∀ a : V3 ℝ, ((points.map (V3.map fin)).map fun p => V3.dot p (a.map fin)) =
      (points.map fun p => inner3 p a).map fin := by
    intro a
    simp [List.map_map, Function.comp_def, V3.dot, V3.map, inner3]
  have hg : gradient1 (points.map fun p => inner3 p span) = List.replicate points.length h := by
    apply List.ext_getElem
    · simp [gradient1_length]
    · intro i h1 h2
      rw [gradient1_length, List.length_map] at h1
      have ha : at' (points.map fun p => inner3 p span) = proj points span := at'_map_inner points span
      simp only [gradient1, List.getElem_map, List.getElem_range, List.length_map, List.getElem_replicate, ha]
      by_cases h0 : i = 0
      · rw [if_pos h0]; exact hh 0 (by omega)
      · rw [if_neg h0]
        have e1 := hh (i - 1) (by omega)
        have e : i - 1 + 1 = i := by omega
        rw [e] at e1
        by_cases hl : i + 1 = points.length
        · rw [if_pos hl]; exact e1
        · rw [if_neg hl]
          have e2 := hh i (by omega)
          simp only [Num.lit_real]
          push_cast
          rw [div_eq_iff (by norm_num)]
          linarith
  unfold inflectionPoints
  rw [if_neg (by simp; omega)]
  simp only [hdot, gradient1_fin _ (show 2 ≤ (points.map fun p => inner3 p span).length by simpa using hn), hg,
    List.map_replicate, gradient2]
  obtain ⟨n, hN⟩ : ∃ n, n = points.length := ⟨_, rfl⟩
  obtain ⟨F, hF⟩ : ∃ F, F = proj points axis := ⟨_, rfl⟩
  have haF : ∀ j, j < n → at' ((points.map fun p => inner3 p axis).map fin) j = fin (F j) := by
    intro j hj
    rw [at'_of_lt _ _ (by simp; omega), hF]
    have hj' : j < points.length := by omega
    simp [proj, hj']
  rw [gradientAt_even ((points.map fun p => inner3 p axis).map fin) h points.length (by simp) hn,
    gradientAt_even _ h points.length (by simp) hn]
  simp only [← hN, ← hF]
  have hd2 : ((List.range n).map fun (i : ℕ) => (at' ((List.range n).map fun (i : ℕ) =>
      (at' ((points.map fun p => inner3 p axis).map fin) (min (i + 1) (n - 1)) -
        at' ((points.map fun p => inner3 p axis).map fin) (i - 1)) / fin 0) (min (i + 1) (n - 1)) -
      at' ((List.range n).map fun (i : ℕ) => (at' ((points.map fun p => inner3 p axis).map fin) (min (i + 1) (n - 1)) -
        at' ((points.map fun p => inner3 p axis).map fin) (i - 1)) / fin 0) (i - 1)) / fin 0) =
      (List.range n).map fun (i : ℕ) => if Valley n F i then pinf else if Peak n F i then ninf else nan := by
    apply List.map_congr_left
    intro i hi
    rw [List.mem_range] at hi
    have hat : ∀ j, j < n → at' ((List.range n).map fun (i : ℕ) =>
        (at' ((points.map fun p => inner3 p axis).map fin) (min (i + 1) (n - 1)) -
        at' ((points.map fun p => inner3 p axis).map fin) (i - 1)) / fin 0) j = fin (rise n F j) / fin 0 := by
      intro j hj
      rw [at'_of_lt _ _ (by simpa using hj)]
      simp only [List.getElem_map, List.getElem_range]
      rw [haF _ (by omega), haF _ (by omega)]
      simp [rise]
    rw [hat _ (by omega), hat _ (by omega), inf_quotient]
    unfold Valley Peak
    split_ifs <;> rfl
  rw [hd2]
  have hvp : ∀ i, Valley n F i → ¬ Peak n F i := fun i h1 h2 => absurd h1.1 (not_lt.mpr h2.1.le)
  have hsc : signChanges ((List.range n).map fun (i : ℕ) => if Valley n F i then pinf else if Peak n F i then ninf else nan) =
      (List.range (n - 1)).filter fun i => decide ((Valley n F i ∧ Peak n F (i + 1)) ∨ (Peak n F i ∧ Valley n F (i + 1))) := by
    unfold signChanges
    rw [List.length_map, List.length_range]
    apply List.filter_congr
    intro i hi
    rw [List.mem_range] at hi
    rw [at'_of_lt _ _ (by simp; omega), at'_of_lt _ _ (by simp; omega)]
    simp only [List.getElem_map, List.getElem_range]
    have l1 : Num.le (pinf * pinf : Fl) (fin 0) = false := rfl
    have l2 : Num.le (ninf * ninf : Fl) (fin 0) = false := rfl
    have l3 : Num.le (pinf * ninf : Fl) (fin 0) = true := rfl
    have l4 : Num.le (ninf * pinf : Fl) (fin 0) = true := rfl
    by_cases v1 : Valley n F i <;> by_cases v2 : Valley n F (i + 1) <;> by_cases p1 : Peak n F i <;>
      by_cases p2 : Peak n F (i + 1) <;>
      first
        | exact absurd p1 (hvp _ v1)
        | exact absurd p2 (hvp _ v2)
        | simp [v1, v2, p1, p2, l1, l2, l3, l4]
  rw [hsc]
  obtain ⟨ys, h1, h2⟩ := mapM_pyIndex (points.map (V3.map fin)) ((List.range (n - 1)).filter fun i =>
      decide ((Valley n F i ∧ Peak n F (i + 1)) ∨ (Peak n F i ∧ Valley n F (i + 1)))) (fun i hi => by
    have := List.mem_range.mp (List.mem_filter.mp hi).1
    simp; omega)
  refine ⟨ys, h1, ?_⟩
  rw [h2]
  simp

/-- **C72.** In particular, a rising curve sampled evenly has no inflection points then, whatever its curvature. -/
theorem C72_even_monotone (points : List (V3 ℝ)) (axis span : V3 ℝ) (hn : 2 ≤ points.length)
    (he : Even points.length (proj points span))
    (hm : ∀ i, i + 1 < points.length → proj points axis i ≤ proj points axis (i + 1)) :
    inflectionPoints .coordinates (points.map (V3.map fin)) (axis.map fin) (span.map fin) = .ok [] := by
  obtain ⟨out, h1, h2⟩ := C72_even points axis span hn he
  rw [h1]
  have hr : ∀ i, i < points.length → 0 ≤ rise points.length (proj points axis) i := by
    intro i hi
    unfold rise
    cases i with
    | zero =>
      have := hm 0 (by omega)
      rw [min_eq_left (by omega)]
      simpa using this
    | succ i =>
      have a := hm i (by omega)
      by_cases hl : i + 2 < points.length
      · have b := hm (i + 1) (by omega)
        rw [min_eq_left (by omega), Nat.add_sub_cancel]
        linarith
      · have : min (i + 1 + 1) (points.length - 1) = i + 1 := by omega
        rw [this, Nat.add_sub_cancel]
        linarith
  rw [List.filter_eq_nil_iff.mpr, List.map_nil, List.map_eq_nil_iff] at h2
  · rw [h2]
  · intro i hi
    rw [List.mem_range] at hi
    simp only [decide_eq_true_eq, not_or, not_and]
    refine ⟨fun hv _ => ?_, fun hp _ => ?_⟩
    · exact absurd hv.1 (not_lt.mpr (hr _ (by omega)))
    · exact absurd hp.2 (not_lt.mpr (hr _ (by omega)))

/-- slope at sample `i` of the parabola through it and its neighbours: the mean of the two step slopes, weighted with
the opposite steps (at the ends, the slope to the neighbour) -/
noncomputable def paraSlope (n : ℕ) (x f : ℕ → ℝ) (i : ℕ) : ℝ :=
  if i = 0 then stepSlope x f 0
  else if i + 1 = n then stepSlope x f (i - 1)
  else ((x (i + 1) - x i) * stepSlope x f (i - 1) + (x i - x (i - 1)) * stepSlope x f i) / (x (i + 1) - x (i - 1))

/-- no two neighbours and no two next neighbours are at the same position -/
def Apart (n : ℕ) (x : ℕ → ℝ) : Prop :=
  (∀ i, i + 1 < n → x (i + 1) ≠ x i) ∧ ∀ i, i + 2 < n → x (i + 2) ≠ x i

/-- the spacing around sample `i` -/
noncomputable def spacing (n : ℕ) (x : ℕ → ℝ) (i : ℕ) : ℝ :=
  if i = 0 ∨ i + 1 = n then rise n x i else rise n x i / 2

theorem gradientAt_para (x f : List ℝ) (n : ℕ) (hn : 2 ≤ n) (hf : f.length = n) (hx : Apart n (at' x)) :
    gradientAt f x = (List.range n).map (paraSlope n (at' x) (at' f)) := by
  unfold gradientAt
  simp only [hf]
  split
  · rename_i hall
    rw [List.all_eq_true] at hall
    apply List.map_congr_left
    intro i hi
    rw [List.mem_range] at hi
    have hd0 : at' x 1 - at' x 0 ≠ 0 := sub_ne_zero.mpr (hx.1 0 (by omega))
    unfold paraSlope
    by_cases h0 : i = 0
    · rw [if_pos h0, if_pos h0]; rfl
    · rw [if_neg h0, if_neg h0]
      have e0 : i - 1 + 1 = i := by omega
      have e1 := hall (i - 1) (List.mem_range.mpr (by omega))
      rw [Num.eq_real, e0] at e1
      by_cases hl : i + 1 = n
      · rw [if_pos hl, if_pos hl, stepSlope, e0, e1]
      · rw [if_neg hl, if_neg hl]
        have e2 := hall i (List.mem_range.mpr (by omega))
        rw [Num.eq_real] at e2
        rw [stepSlope, stepSlope, e0, e1, e2]
        have e3 : at' x (i + 1) - at' x (i - 1) = 2 * (at' x 1 - at' x 0) := by linarith
        rw [e3]
        simp only [Num.lit_real]
        push_cast
        field_simp
        ring
  · apply List.map_congr_left
    intro i hi
    rw [List.mem_range] at hi
    unfold paraSlope
    by_cases h0 : i = 0
    · rw [if_pos h0, if_pos h0]; rfl
    · rw [if_neg h0, if_neg h0]
      have e0 : i - 1 + 1 = i := by omega
      by_cases hl : i + 1 = n
      · rw [if_pos hl, if_pos hl, stepSlope, e0]
      · rw [if_neg hl, if_neg hl, stepSlope, stepSlope, e0]
        have a := sub_ne_zero.mpr (hx.1 (i - 1) (by omega))
        have b := sub_ne_zero.mpr (hx.1 i (by omega))
        have c := sub_ne_zero.mpr (hx.2 (i - 1) (by omega))
        have e00 : i - 1 + 2 = i + 1 := by omega
        rw [e0] at a
        rw [e00] at c
        have c' : at' x i - at' x (i - 1) + (at' x (i + 1) - at' x i) ≠ 0 := by
          intro h; apply c; linarith
        have c'' : at' x (i + 1) - at' x (i - 1) = at' x i - at' x (i - 1) + (at' x (i + 1) - at' x i) := by ring
        rw [c'']
        obtain ⟨u, hu⟩ : ∃ u, u = at' x i - at' x (i - 1) := ⟨_, rfl⟩
        obtain ⟨w, hw⟩ : ∃ w, w = at' x (i + 1) - at' x i := ⟨_, rfl⟩
        simp only [← hu, ← hw] at a b c' ⊢
        field_simp
        ring

/-- **C72.** With numpy 1.13 or later, if the spacings differ enough for no division by 0 to happen: as before, but
with slopes of parabolas, and with the spacings in the place of the positions. -/
theorem C72_uneven (points : List (V3 ℝ)) (axis span : V3 ℝ) (hn : 2 ≤ points.length)
    (hs : Apart points.length (spacing points.length (proj points span))) :
    ∃ out, inflectionPoints .coordinates points axis span = .ok out ∧
      out.map some = ((List.range (points.length - 1)).filter fun i =>
        open Classical in decide (
          let x := spacing points.length (proj points span)
          let d := paraSlope points.length x (paraSlope points.length x (proj points axis))
          d i * d (i + 1) ≤ 0)).map fun i => points[i]? := by
  unfold inflectionPoints
  rw [if_neg (by omega)]
  have hX : ∀ i, i < points.length → at' (gradient1 (points.map fun p => V3.dot p span)) i =
      spacing points.length (proj points span) i := by
    intro i hi
    rw [at'_of_lt _ _ (by simpa [gradient1_length] using hi)]
    simp only [gradient1, List.getElem_map, List.getElem_range, List.length_map, at'_map_inner]
    unfold spacing rise
    by_cases h0 : i = 0
    · subst h0
      rw [if_pos rfl, if_pos (.inl rfl), min_eq_left (by omega)]
    · rw [if_neg h0]
      by_cases hl : i + 1 = points.length
      · rw [if_pos hl, if_pos (.inr hl)]
        have : min (i + 1) (points.length - 1) = i := by omega
        rw [this]
      · rw [if_neg hl, if_neg (by tauto), min_eq_left (by omega)]
        simp
  have hX' : Apart points.length (at' (gradient1 (points.map fun p => V3.dot p span))) := by
    constructor
    · intro i hi; rw [hX _ hi, hX _ (by omega)]; exact hs.1 i hi
    · intro i hi; rw [hX _ hi, hX _ (by omega)]; exact hs.2 i hi
  have hpara : ∀ (f g : ℕ → ℝ), (∀ i, i < points.length → f i = g i) → ∀ i, i < points.length →
      paraSlope points.length (at' (gradient1 (points.map fun p => V3.dot p span))) f i =
        paraSlope points.length (spacing points.length (proj points span)) g i := by
    intro f g hfg i hi
    unfold paraSlope
    by_cases h0 : i = 0
    · rw [if_pos h0, if_pos h0, stepSlope, stepSlope, hX 0 (by omega), hX (0 + 1) (by omega), hfg 0 (by omega),
        hfg (0 + 1) (by omega)]
    · rw [if_neg h0, if_neg h0]
      have e0 : i - 1 + 1 = i := by omega
      by_cases hl : i + 1 = points.length
      · rw [if_pos hl, if_pos hl, stepSlope, stepSlope, e0, hX i hi, hX (i - 1) (by omega), hfg i hi, hfg (i - 1) (by omega)]
      · rw [if_neg hl, if_neg hl, stepSlope, stepSlope, stepSlope, stepSlope, e0, hX i hi, hX (i - 1) (by omega),
          hX (i + 1) (by omega), hfg i hi, hfg (i - 1) (by omega), hfg (i + 1) (by omega)]
  simp only [gradient2]
  rw [gradientAt_para _ (points.map fun p => V3.dot p axis) points.length hn (by simp) hX',
    gradientAt_para _ _ points.length hn (by simp) hX']
  simp only [at'_map_inner]
  have hd1 : ∀ i, i < points.length → at' ((List.range points.length).map (paraSlope points.length
      (at' (gradient1 (points.map fun p => V3.dot p span))) (proj points axis))) i =
      paraSlope points.length (spacing points.length (proj points span)) (proj points axis) i := by
    intro i hi
    rw [at'_of_lt _ _ (by simpa using hi)]
    simp only [List.getElem_map, List.getElem_range]
    exact hpara _ _ (fun _ _ => rfl) i hi
  have hsc : signChanges ((List.range points.length).map (paraSlope points.length
      (at' (gradient1 (points.map fun p => V3.dot p span))) (at' ((List.range points.length).map (paraSlope points.length
      (at' (gradient1 (points.map fun p => V3.dot p span))) (proj points axis)))))) =
      (List.range (points.length - 1)).filter fun i =>
        open Classical in decide (
          let x := spacing points.length (proj points span)
          let d := paraSlope points.length x (paraSlope points.length x (proj points axis))
          d i * d (i + 1) ≤ 0) := by
    unfold signChanges
    rw [List.length_map, List.length_range]
    apply List.filter_congr
    intro i hi
    rw [List.mem_range] at hi
    rw [at'_of_lt _ _ (by simp; omega), at'_of_lt _ _ (by simp; omega)]
    simp only [List.getElem_map, List.getElem_range]
    rw [hpara _ _ hd1 i (by omega), hpara _ _ hd1 (i + 1) (by omega)]
    rw [Bool.eq_iff_iff, Num.le_real, decide_eq_true_iff]
    simp
  rw [hsc]
  obtain ⟨ys, h1, h2⟩ := mapM_pyIndex points ((List.range (points.length - 1)).filter fun i =>
        open Classical in decide (
          let x := spacing points.length (proj points span)
          let d := paraSlope points.length x (paraSlope points.length x (proj points axis))
          d i * d (i + 1) ≤ 0)) (fun i hi => by
    have := List.mem_range.mp (List.mem_filter.mp hi).1
    omega)
  exact ⟨ys, h1, h2⟩

/-- **C72.** Fewer than two points raise. -/
theorem C72_short {α : Type} [Num α] (np : NpGradient) (points : List (V3 α)) (axis span : V3 α)
    (h : points.length < 2) : inflectionPoints np points axis span = .error .ValueError := by
  unfold inflectionPoints; rw [if_pos h]

/-- a strictly convex curve: samples of the parabola `y = x²` at 0, 1, 3 -/
example : inflectionPoints (α := ℝ) .spacing [⟨0, 0, 0⟩, ⟨1, 1, 0⟩, ⟨3, 9, 0⟩] ⟨0, 1, 0⟩ ⟨1, 0, 0⟩ = .ok [] := by
  apply C72_convex _ _ _ (by simp)
  constructor
  · intro i hi
    simp only [List.length_cons, List.length_nil] at hi
    have : i = 0 ∨ i = 1 := by omega
    rcases this with rfl | rfl <;> norm_num [proj, inner3]
  · intro i hi
    simp only [List.length_cons, List.length_nil] at hi
    have : i = 0 := by omega
    subst this
    norm_num [proj, inner3, stepSlope]

/-- the cubic `y = x³ - x` sampled evenly at -2, -1, 0, 1, 2 changes curvature, yet with a recent
numpy nothing is found; the older one finds the middle sample -/
theorem C72_cubic :
    let pts : List (V3 ℝ) := [⟨-2, -6, 0⟩, ⟨-1, 0, 0⟩, ⟨0, 0, 0⟩, ⟨1, 0, 0⟩, ⟨2, 6, 0⟩]
    (∃ out, inflectionPoints .spacing pts ⟨0, 1, 0⟩ ⟨1, 0, 0⟩ = .ok out ∧ (⟨0, 0, 0⟩ : V3 ℝ) ∈ out) ∧
    inflectionPoints .coordinates (pts.map (V3.map fin)) ⟨fin 0, fin 1, fin 0⟩
      ⟨fin 1, fin 0, fin 0⟩ = .ok [] := by
  constructor
  · obtain ⟨out, h1, h2⟩ := C72_inflection
      [⟨-2, -6, 0⟩, ⟨-1, 0, 0⟩, ⟨0, 0, 0⟩, ⟨1, 0, 0⟩, ⟨2, 6, 0⟩] ⟨0, 1, 0⟩ ⟨1, 0, 0⟩ (by simp) (by
        intro i hi
        simp only [List.length_cons, List.length_nil] at hi
        have : i = 0 ∨ i = 1 ∨ i = 2 ∨ i = 3 ∨ i = 4 := by omega
        rcases this with rfl | rfl | rfl | rfl | rfl <;> norm_num [proj, inner3])
    refine ⟨out, h1, ?_⟩
    have hm : some (⟨0, 0, 0⟩ : V3 ℝ) ∈ out.map some := by
      rw [h2, List.mem_map]
      refine ⟨2, ?_, rfl⟩
      rw [List.mem_filter]
      refine ⟨by simp, ?_⟩
      norm_num [chordSlope, proj, inner3]
    simpa using hm
  · refine C72_even_monotone _ ⟨0, 1, 0⟩ ⟨1, 0, 0⟩ (by simp) ⟨1, ?_⟩ ?_ <;>
    · intro i hi
      simp only [List.length_cons, List.length_nil] at hi
      have : i = 0 ∨ i = 1 ∨ i = 2 ∨ i = 3 := by omega
      rcases this with rfl | rfl | rfl | rfl <;> norm_num [proj, inner3]

/-- `C72_even` with a point returned -/
example : Valley 4 (proj [⟨0, 1, 0⟩, ⟨1, 0, 0⟩, ⟨2, 3, 0⟩, ⟨3, 2, 0⟩] ⟨0, 1, 0⟩) 1 ∧
    Peak 4 (proj [⟨0, 1, 0⟩, ⟨1, 0, 0⟩, ⟨2, 3, 0⟩, ⟨3, 2, 0⟩] ⟨0, 1, 0⟩) 2 := by
  norm_num [Valley, Peak, rise, proj, inner3]

/-- spacings that differ -/
example : Apart 3 (spacing 3 (proj [⟨0, 0, 0⟩, ⟨1, 1, 0⟩, ⟨3, 9, 0⟩] ⟨1, 0, 0⟩)) := by
  constructor
  · intro i hi
    have : i = 0 ∨ i = 1 := by omega
    rcases this with rfl | rfl <;> norm_num [spacing, rise, proj, inner3]
  · intro i hi
    have : i = 0 := by omega
    subst this
    norm_num [spacing, rise, proj, inner3]

end Blmath.Props
