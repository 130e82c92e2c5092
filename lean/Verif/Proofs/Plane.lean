import Verif.Spec.Plane
import Verif.Proofs.V3
import Verif.Base.Fl

/-!
Lemmas about planes over the reals.
-/

namespace Blmath.Geometry
open Blmath.Spec Blmath.Vx

theorem signedDistance1_real (pl : Plane ℝ) (p : V3 ℝ) : pl.signedDistance1 p = height pl p := by
  simp only [Plane.signedDistance1, Plane.equation, height, V3.dot, inner3, vec3]
  ring

theorem height_along (pl : Plane ℝ) (p v : V3 ℝ) (k : ℝ) :
    height pl (along p k v) = height pl p + k * inner3 v pl.n := by
  simp only [height, inner3, vec3, along]; ring

theorem height_sub (pl : Plane ℝ) (a b : V3 ℝ) :
    inner3 (vec3 a b) pl.n = height pl b - height pl a := by
  simp only [height, inner3, vec3]; ring

theorem onPlane_iff (pl : Plane ℝ) (p : V3 ℝ) : OnPlane pl p ↔ height pl p = 0 := Iff.rfl

theorem unit_inner {pl : Plane ℝ} (h : UnitNormal pl) : inner3 pl.n pl.n = 1 := by
  rw [inner3_self, show len3 pl.n = 1 from h]; norm_num

theorem normal_ne_zero {pl : Plane ℝ} (h : UnitNormal pl) : pl.n ≠ zero3 := by
  intro h0
  have := len3_eq_zero.mpr h0
  rw [show len3 pl.n = 1 from h] at this
  norm_num at this

theorem npAbs_real' (x : ℝ) : npAbs x = |x| := by
  unfold npAbs
  simp only [Num.lt_real, Num.lit_real]
  push_cast
  split
  · rename_i h; rw [abs_of_neg h]
  · rename_i h; rw [abs_of_nonneg (not_lt.mp h)]

theorem almostZero_real (v : V3 ℝ) :
    almostZero v defaultAtol = true ↔
      |v.x| ≤ 1 / 100000000 ∧ |v.y| ≤ 1 / 100000000 ∧ |v.z| ≤ 1 / 100000000 := by
  simp [almostZero, closeToZero, npAbs_real', and_assoc, defaultAtol]

theorem not_almostZero_unit {v : V3 ℝ} (h : len3 v = 1) : almostZero v defaultAtol = false := by
  rw [Bool.eq_false_iff, ne_eq, almostZero_real]
  rintro ⟨hx, hy, hz⟩
  have h1 : v.x ^ 2 + v.y ^ 2 + v.z ^ 2 = 1 := by rw [← len3_sq, h]; norm_num
  have sq : ∀ t : ℝ, |t| ≤ 1 / 100000000 → t ^ 2 ≤ 1 / 100 := by
    intro t ht
    have := abs_le.mp ht
    nlinarith [this.1, this.2]
  have := sq _ hx
  have := sq _ hy
  have := sq _ hz
  linarith

theorem almostZero_zero : almostZero zero3 (defaultAtol : ℝ) = true := by
  rw [almostZero_real]
  norm_num [zero3]

theorem npSign_real (x : ℝ) : npSign x = if 0 < x then 1 else if x < 0 then -1 else 0 := by
  unfold npSign
  simp only [Num.lt_real, Num.lit_real, Num.eq_real]
  push_cast
  rcases lt_trichotomy x 0 with h | h | h
  · simp [h, not_lt.mpr h.le]
  · simp [h]
  · simp [h]

theorem npSign_nonneg (x : ℝ) : 0 ≤ npSign x ↔ 0 ≤ x := by
  rw [npSign_real]
  rcases lt_trichotomy x 0 with h | h | h
  · simp only [h, not_lt.mpr h.le, not_le.mpr h, if_true, if_false]; norm_num
  · simp [h]
  · simp [h, h.le]

theorem npSign_nonpos (x : ℝ) : npSign x ≤ 0 ↔ x ≤ 0 := by
  rw [npSign_real]
  rcases lt_trichotomy x 0 with h | h | h
  · simp [h, not_lt.mpr h.le, h.le]
  · simp [h]
  · simp only [h, not_le.mpr h, if_true]; norm_num

/-- `points[indices of the mask]` is the filtered list -/
theorem mapM_flatnonzero {β : Type} (f : β → Bool) (pre ps : List β) :
    (Plane.flatnonzeroFrom pre.length (ps.map f)).mapM
        (fun (i : ℕ) => pyIndex (pre ++ ps) (i : ℤ)) = (.ok (ps.filter f) : PyM (List β)) := by
  induction ps generalizing pre with
  | nil => simp [Plane.flatnonzeroFrom]
  | cons p ps ih =>
    have hnext : (Plane.flatnonzeroFrom (pre.length + 1) (ps.map f)).mapM
        (fun (i : ℕ) => pyIndex (pre ++ p :: ps) (i : ℤ)) = (.ok (ps.filter f) : PyM (List β)) := by
      have := ih (pre ++ [p])
      simpa using this
    have hidx : pyIndex (pre ++ p :: ps) (pre.length : ℤ) = .ok p := by
      exact pyIndex_of_getElem? (by simp)
    by_cases hf : f p = true
    · simp [Plane.flatnonzeroFrom, hf, List.mapM_cons, hidx, hnext]
    · simp only [Bool.not_eq_true] at hf
      simp [Plane.flatnonzeroFrom, hf, hnext]

theorem mem_flatnonzeroFrom (m : List Bool) (k i : ℕ) :
    i ∈ Plane.flatnonzeroFrom k m ↔ k ≤ i ∧ m[i - k]? = some true := by
  induction m generalizing k with
  | nil => simp [Plane.flatnonzeroFrom]
  | cons b bs ih =>
    have step : (k + 1 ≤ i ∧ bs[i - (k + 1)]? = some true) ↔
        (k < i ∧ (b :: bs)[i - k]? = some true) := by
      constructor
      · rintro ⟨h1, h2⟩
        refine ⟨by omega, ?_⟩
        rw [show i - k = (i - (k + 1)) + 1 by omega]
        simpa using h2
      · rintro ⟨h1, h2⟩
        refine ⟨by omega, ?_⟩
        rw [show i - k = (i - (k + 1)) + 1 by omega] at h2
        simpa using h2
    by_cases hb : b = true
    · simp only [Plane.flatnonzeroFrom, hb, if_true, List.mem_cons, ih]
      subst hb
      rw [step]
      constructor
      · rintro (rfl | ⟨h1, h2⟩)
        · simp
        · exact ⟨by omega, h2⟩
      · rintro ⟨h1, h2⟩
        rcases h1.lt_or_eq with h | h
        · exact Or.inr ⟨h, h2⟩
        · exact Or.inl h.symm
    · simp only [Bool.not_eq_true] at hb
      subst hb
      simp only [Plane.flatnonzeroFrom, Bool.false_eq_true, if_false, ih]
      rw [step]
      constructor
      · rintro ⟨h1, h2⟩; exact ⟨by omega, h2⟩
      · rintro ⟨h1, h2⟩
        rcases h1.lt_or_eq with h | h
        · exact ⟨h, h2⟩
        · subst h; simp at h2

theorem flatnonzeroFrom_sorted (m : List Bool) (k : ℕ) :
    (Plane.flatnonzeroFrom k m).Pairwise (· < ·) := by
  induction m generalizing k with
  | nil => simp [Plane.flatnonzeroFrom]
  | cons b bs ih =>
    by_cases hb : b = true
    · simp only [Plane.flatnonzeroFrom, hb, if_true, List.pairwise_cons]
      refine ⟨?_, ih _⟩
      intro i hi
      have := ((mem_flatnonzeroFrom bs (k + 1) i).mp hi).1
      omega
    · simp only [Plane.flatnonzeroFrom, hb, if_false]
      exact ih _

/-- the crossing parameter of a line -/
theorem lineXsection_real (pl : Plane ℝ) (pt ray : V3 ℝ) :
    pl.lineXsection pt ray = open Classical in
      if inner3 ray pl.n = 0 then none
      else some (along pt (-height pl pt / inner3 ray pl.n) ray) := by
  unfold Plane.lineXsection
  simp only [Plane.normal, Plane.referencePoint, V3.dot_real, Num.eq_real, Num.lit_real]
  push_cast
  by_cases h : inner3 ray pl.n = 0
  · simp [h]
  · simp only [h, if_false]
    congr 1
    have : inner3 (pl.r0 - pt) pl.n = -height pl pt := by
      simp only [inner3, height, vec3, V3.sub_x, V3.sub_y, V3.sub_z]; ring
    rw [this]
    ext <;> simp [along] <;> ring

end Blmath.Geometry
