import Verif.Model.PolylineText
import Verif.Props.Polyline
import Verif.Props.ValueText

/-!
Property C89: the dictionary and the text form of a polyline.  C37: `reindexed` with indices that are negative or too large.
-/

namespace Blmath.Props
open Blmath.Geometry Blmath.Spec Blmath.Proofs Blmath.Units

/-! ### C37: any index -/

theorem pySlice_all {β : Type} (v : List β) (i : ℤ) (h : i < -(v.length : ℤ) ∨ (v.length : ℤ) < i) :
    pySlice v i v.length ++ pySlice v 0 i = v := by
  unfold pySlice sliceBound
  have h2 : ¬ (v.length : ℤ) < 0 := by omega
  have h3 : ¬ (0 : ℤ) < 0 := by omega
  rcases h with h | h
  · have h1 : i < 0 := by omega
    have e : (i + (v.length : ℤ)).toNat = 0 := by omega
    simp only [h1, h2, h3, if_true, if_false, e]
    simp
  · have h1 : ¬ i < 0 := by omega
    have e : min i.toNat v.length = v.length := by omega
    simp only [h1, h2, h3, if_false, e]
    simp

theorem reindexed_eq (v : List (V3 ℝ)) (hne : v ≠ []) (i : ℤ) (w : List (V3 ℝ)) (hw : pySlice v i v.length ++ pySlice v 0 i = w)
    (hl : w.length = v.length) :
    (poly v true).reindexed i = .ok (poly w true, Polyline.arange i v.length ++ Polyline.arange 0 i) := by
  unfold Polyline.reindexed Polyline.vArr
  simp only [poly, Bool.not_true, Bool.false_eq_true, if_false, ok_bind]
  rw [hw, new_real _ _ (fun _ => by intro e; rw [e] at hl; exact hne (List.length_eq_zero_iff.mp hl.symm))]
  rfl

/-- **C37.** A negative index counts from the end, as in Python: the vertices are those of `reindexed(n - k)`.  The edge mapping
is too long: `n + k` numbers, the first `n` of them right if read as Python indices. -/
theorem C37_negative (v : List (V3 ℝ)) (hne : v ≠ []) (k : ℕ) (hk : 0 < k) (hkn : k ≤ v.length) :
    ∃ mapping : List ℤ, (poly v true).reindexed (-(k : ℤ)) = .ok (poly (v.rotate (v.length - k)) true, mapping) ∧
      mapping.length = v.length + k ∧
      ∀ j, j < v.length + k → mapping[j]? = some ((j : ℤ) - k) ∧ ((j : ℤ) - k) % v.length = (((v.length - k + j) % v.length : ℕ) : ℤ) := by
  have h0 : Polyline.arange 0 (-(k : ℤ)) = [] := by
    unfold Polyline.arange
    have : (-(k : ℤ) - 0).toNat = 0 := by omega
    rw [this]; rfl
  have hs : pySlice v (-(k : ℤ)) v.length ++ pySlice v 0 (-(k : ℤ)) = v.rotate (v.length - k) := by
    rw [← pySlice_rotate v (v.length - k) (by omega)]
    unfold pySlice sliceBound
    have h1 : -(k : ℤ) < 0 := by omega
    have h2 : ¬ (v.length : ℤ) < 0 := by omega
    have h3 : ¬ (0 : ℤ) < 0 := by omega
    have h4 : ¬ ((v.length - k : ℕ) : ℤ) < 0 := by omega
    have e : (-(k : ℤ) + (v.length : ℤ)).toNat = v.length - k := by omega
    have e' : min (((v.length - k : ℕ) : ℤ).toNat) v.length = v.length - k := by omega
    simp only [h1, h2, h3, h4, if_true, if_false, e, e']
  refine ⟨_, reindexed_eq v hne _ _ hs (by simp), ?_, ?_⟩
  · rw [h0]
    simp only [Polyline.arange, List.append_nil, List.length_map, List.length_range]
    omega
  · intro j hj
    constructor
    · rw [h0, List.append_nil]
      unfold Polyline.arange
      rw [List.getElem?_map, List.getElem?_range (by omega)]
      simp only [Option.map_some, Option.some.injEq]
      omega
    · push_cast [Nat.cast_sub hkn]
      have : ((j : ℤ) - k) = ((v.length : ℤ) - k + j) + (-1) * v.length := by ring
      rw [this, Int.add_mul_emod_self_right]

/-- **C37.** An index beyond the ends is not rejected: the vertices stay as they are, and the edge mapping has the wrong length. -/
theorem C37_beyond (v : List (V3 ℝ)) (hne : v ≠ []) (i : ℤ) (h : i < -(v.length : ℤ) ∨ (v.length : ℤ) < i) :
    ∃ mapping : List ℤ, (poly v true).reindexed i = .ok (poly v true, mapping) ∧ v.length < mapping.length := by
  refine ⟨_, reindexed_eq v hne i v (pySlice_all v i h) rfl, ?_⟩
  simp only [Polyline.arange, List.length_append, List.length_map, List.length_range]
  omega

/-- Non-vacuity: index -1 on a triangle. -/
example : ∃ mapping : List ℤ, (poly [(⟨0, 0, 0⟩ : V3 ℝ), ⟨1, 0, 0⟩, ⟨0, 1, 0⟩] true).reindexed (-1) =
    .ok (poly [⟨0, 1, 0⟩, ⟨0, 0, 0⟩, ⟨1, 0, 0⟩] true, mapping) ∧ mapping.length = 4 := by
  obtain ⟨m, h1, h2, _⟩ := C37_negative [(⟨0, 0, 0⟩ : V3 ℝ), ⟨1, 0, 0⟩, ⟨0, 1, 0⟩] (by simp) 1 (by norm_num) (by simp)
  exact ⟨m, h1, h2⟩

/-! ### C89: the dictionary -/

theorem places_real (x : ℝ) (d : ℤ) : ∃ m : ℤ, pyRoundPlaces .py3 x d = m / 10 ^ d ∧ RoundsTo .py3 (x * 10 ^ d) m := by
  refine ⟨_, ?_, roundFrom_spec _ _⟩
  unfold pyRoundPlaces
  simp only [Num.lit_real, Num.floor_real, ofInt]
  push_cast
  rfl

theorem places_again (x : ℝ) (d : ℤ) : pyRoundPlaces .py3 (pyRoundPlaces .py3 x d) d = pyRoundPlaces .py3 x d := by
  obtain ⟨m, e, _⟩ := places_real x d
  obtain ⟨m', e', h'⟩ := places_real (pyRoundPlaces .py3 x d) d
  have hp : (0 : ℝ) < 10 ^ d := by positivity
  have hm : m' = m := by
    apply Units.RoundsTo.unique h'
    rw [e, div_mul_cancel₀ _ hp.ne']
    exact Units.RoundsTo.intCast _ _
  rw [e', hm, e]

/-- **C89.** The dictionary has one row of three numbers for each vertex, each the multiple of `10 ^ -decimals` nearest to the
coordinate, and the edges of the polyline. -/
theorem C89_dict (v : List (V3 ℝ)) (closed : Bool) (d : ℤ) :
    ∃ D, (poly v closed).toDict d = .ok D ∧ D.vertices.length = v.length ∧ D.edges = some (chainEdges v.length closed) ∧
      ∀ (i : ℕ) (q : V3 ℝ), v[i]? = some q → ∃ a b c : ℤ, D.vertices[i]? = some [(a : ℝ) / 10 ^ d, (b : ℝ) / 10 ^ d, (c : ℝ) / 10 ^ d] ∧
        RoundsTo .py3 (q.x * 10 ^ d) a ∧ RoundsTo .py3 (q.y * 10 ^ d) b ∧ RoundsTo .py3 (q.z * 10 ^ d) c := by
  refine ⟨_, rfl, by simp, rfl, ?_⟩
  intro i q hq
  obtain ⟨a, ea, ha⟩ := places_real q.x d
  obtain ⟨b, eb, hb⟩ := places_real q.y d
  obtain ⟨c, ec, hc⟩ := places_real q.z d
  refine ⟨a, b, c, ?_, ha, hb, hc⟩
  rw [List.getElem?_map, hq]
  simp [V3.toList, ea, eb, ec]

/-- **C89.** Without saying so, three places are kept. -/
theorem C89_default (p : Polyline ℝ) : p.toDict = p.toDict 3 := rfl

/-- **C89.** A polyline made again from the dictionary, closed or open as before, has the same number of vertices, every
coordinate within half a unit of the last place, and the same dictionary. -/
theorem C89_round_trip (v : List (V3 ℝ)) (closed : Bool) (h : closed = true → v ≠ []) (d : ℤ) :
    ∃ D w, (poly v closed).toDict d = .ok D ∧ Polyline.new (.mat 3 D.vertices) closed = .ok (poly w closed) ∧ w.length = v.length ∧
      (poly w closed).toDict d = .ok D ∧
      ∀ (i : ℕ) (q r : V3 ℝ), v[i]? = some q → w[i]? = some r →
        |r.x - q.x| ≤ 1 / 2 / 10 ^ d ∧ |r.y - q.y| ≤ 1 / 2 / 10 ^ d ∧ |r.z - q.z| ≤ 1 / 2 / 10 ^ d := by
  obtain ⟨w, hw⟩ : ∃ w : List (V3 ℝ), w = v.map fun q => ⟨pyRoundPlaces .py3 q.x d, pyRoundPlaces .py3 q.y d, pyRoundPlaces .py3 q.z d⟩ := ⟨_, rfl⟩
  have hD : (poly v closed).toDict d = .ok ⟨w.map V3.toList, some (chainEdges v.length closed)⟩ := by
    rw [hw, List.map_map]; rfl
  have hl : w.length = v.length := by rw [hw]; simp
  refine ⟨_, w, hD, new_real w closed ?_, hl, ?_, ?_⟩
  · intro hc e
    rw [e] at hl
    exact h hc (List.length_eq_zero_iff.mp hl.symm)
  · show Except.ok _ = _
    congr 2
    · apply List.map_congr_left
      intro r hr
      rw [hw] at hr
      obtain ⟨q, _, rfl⟩ := List.mem_map.mp hr
      simp [V3.toList, places_again]
    · rw [← hl]; rfl
  · intro i q r hq hr
    rw [hw, List.getElem?_map, hq] at hr
    simp only [Option.map_some, Option.some.injEq] at hr
    subst hr
    have key : ∀ x : ℝ, |pyRoundPlaces .py3 x d - x| ≤ 1 / 2 / 10 ^ d := by
      intro x
      have hp : (0 : ℝ) < 10 ^ d := by positivity
      obtain ⟨m, e, hm, _⟩ := places_real x d
      rw [e, le_div_iff₀ hp, ← abs_of_pos hp, ← abs_mul, abs_of_pos hp, sub_mul, div_mul_cancel₀ _ hp.ne', abs_sub_comm]
      exact hm
    exact ⟨key _, key _, key _⟩

/-- **C89.** The dictionary does not say whether the polyline is closed, but its edges do: there are as many as vertices if it
is closed, and fewer if it is open. -/
theorem C89_closed (v : List (V3 ℝ)) (hne : v ≠ []) (closed : Bool) (d : ℤ) :
    ∃ D e, (poly v closed).toDict d = .ok D ∧ D.edges = some e ∧ (closed = true ↔ e.length = D.vertices.length) := by
  refine ⟨_, chainEdges v.length closed, rfl, rfl, ?_⟩
  have hp : 0 < v.length := List.length_pos_iff.mpr hne
  cases closed
  · simp [chainEdges]; omega
  · simp [chainEdges]

/-- **C89.** Without vertices `to_dict` raises TypeError. -/
theorem C89_none (closed : Bool) (e : Option (List (ℕ × ℕ))) (d : ℤ) :
    Polyline.toDict (⟨none, closed, e⟩ : Polyline ℝ) d = .error .TypeError := rfl

/-- **C34.** A polyline without vertices (`v = None`): what the methods that need vertices raise. -/
theorem C34_without_vertices (closed : Bool) (pl : Plane ℝ) (axis : V3 ℝ) (l : ℝ) :
    let p : Polyline ℝ := ⟨none, closed, none⟩
    p.len = .error .TypeError ∧ p.segments = .error .TypeError ∧ p.segmentVectors = .error .TypeError ∧
    p.intersectPlane pl = .error .TypeError ∧ p.cutByPlane pl = .error .TypeError ∧ p.apexOf axis = .error .AttributeError ∧
    (closed = false → p.partitionByLength l = (p, .error .TypeError)) := by
  refine ⟨rfl, rfl, rfl, rfl, rfl, rfl, ?_⟩
  rintro rfl
  rfl

/-- **C89.** The text form tells closed from open and gives the number of vertices; it is the same exactly for polylines that
agree in both, all those without vertices counting as one. -/
theorem C89_repr (p q : Polyline ℝ) (v w : List (V3 ℝ)) (hp : p.v = some v) (hq : q.v = some w) :
    p.repr = q.repr ↔ v.length = w.length ∧ (v ≠ [] → p.closed = q.closed) := by
  have inj : ∀ a b : ℕ, ∀ s : List Char, decimal a ++ s = decimal b ++ s ↔ a = b := by
    intro a b s
    rw [List.append_left_inj]
    constructor
    · intro h
      rw [← decimal_read a, ← decimal_read b, h]
    · rintro rfl; rfl
  unfold Polyline.repr
  rw [hp, hq]
  simp only
  by_cases h1 : v.length = 0
  · by_cases h2 : w.length = 0
    · simp [h1, h2, List.length_eq_zero_iff.mp h1]
    · rw [if_pos h1, if_neg h2]
      constructor
      · intro h
        split at h <;> simp at h
      · rintro ⟨h, _⟩; omega
  · by_cases h2 : w.length = 0
    · rw [if_pos h2, if_neg h1]
      constructor
      · intro h
        split at h <;> simp at h
      · rintro ⟨h, _⟩; omega
    · rw [if_neg h1, if_neg h2]
      have hv : v ≠ [] := fun e => h1 (by rw [e]; rfl)
      cases hc : p.closed <;> cases hd : q.closed
      · simp only [Bool.false_eq_true, if_false, List.append_assoc, List.append_right_inj, inj]
        simp
      · simp [hv]
      · simp [hv]
      · simp only [if_true, List.append_assoc, List.append_right_inj, inj]
        simp

/-- **C89.** What the text form is. -/
theorem C89_repr_text (p : Polyline ℝ) (v : List (V3 ℝ)) (hp : p.v = some v) :
    (v = [] → String.ofList p.repr = "<Polyline with no verts>") ∧
    (v ≠ [] → String.ofList p.repr =
      (if p.closed then "<closed" else "<open") ++ " Polyline with " ++ toString v.length ++ " verts>") := by
  constructor
  · rintro rfl
    unfold Polyline.repr
    rw [hp]
    rfl
  · intro h
    have h1 : ¬ v.length = 0 := fun e => h (List.length_eq_zero_iff.mp e)
    unfold Polyline.repr
    rw [hp]
    simp only
    rw [if_neg h1]
    apply String.toList_injective
    cases p.closed <;> simp [decimal, ToString.toString, Nat.repr]

/-- Non-vacuity: a closed triangle. -/
example : (poly [(⟨0, 0, 0⟩ : V3 ℝ), ⟨1, 0, 0⟩, ⟨0, 1, 0⟩] true).repr = "<closed Polyline with 3 verts>".toList := by
  rfl

end Blmath.Props
