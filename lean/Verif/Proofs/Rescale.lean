import Verif.Spec.Rescale
import Verif.Spec.FloatError
import Verif.Proofs.FloatError
import Verif.Proofs.Motion
import Verif.Model.Triangle
import Verif.Model.Box

/-!
Lemmas for `Props/Rescale.lean`.
-/

namespace Blmath.Proofs.RU
open Blmath Blmath.Geometry Blmath.Spec Blmath.Proofs Blmath.Vx

/-! ### the arithmetics -/

theorem byFactor_ok {c : ℝ} (hc : 0 < c) : Rescaling (byFactor c) := by
  have hp : ∀ k : ℤ, 0 < c ^ k := fun k => zpow_pos hc k
  refine ⟨?_, ?_, ?_, ?_, ?_, ?_, ?_, ?_, ?_, ?_, ?_, ?_⟩
  · intro x; simp [byFactor]
  · intro k x y; simp only [byFactor]; ring
  · intro k x y; simp only [byFactor]; ring
  · intro k x; simp only [byFactor]; ring
  · intro j k x y; simp only [byFactor]; rw [zpow_add₀ hc.ne']; ring
  · intro j k x y; simp only [byFactor]; rw [zpow_sub₀ hc.ne', mul_div_mul_comm]
  · intro k x
    simp only [byFactor, Num.sqrt_real]
    rw [zpow_add₀ hc.ne', Real.sqrt_mul (mul_self_nonneg _), Real.sqrt_mul_self (hp k).le]
  · intro k x y
    rw [Bool.eq_iff_iff, Num.lt_real, Num.lt_real]
    exact mul_lt_mul_iff_right₀ (hp k)
  · intro k x y
    rw [Bool.eq_iff_iff, Num.le_real, Num.le_real]
    exact mul_le_mul_iff_right₀ (hp k)
  · intro k x y
    rw [Bool.eq_iff_iff, Num.eq_real, Num.eq_real]
    exact mul_right_inj' (hp k).ne'
  · intro k; simp [byFactor, Num.lit_real]
  · intro k x h1 h2 h3
    exfalso
    have h1' : ¬ (0 : ℝ) < x := by
      intro h; have := (Num.lt_real (Num.lit 0) x).mpr (by simpa [Num.lit_real] using h); rw [h1] at this; exact Bool.noConfusion this
    have h2' : ¬ x < 0 := by
      intro h; have := (Num.lt_real x (Num.lit 0)).mpr (by simpa [Num.lit_real] using h); rw [h2] at this; exact Bool.noConfusion this
    have h3' : ¬ x = 0 := by
      intro h; have := (Num.eq_real x (Num.lit 0)).mpr (by simpa [Num.lit_real] using h); rw [h3] at this; exact Bool.noConfusion this
    exact h3' (le_antisymm (not_lt.mp h1') (not_lt.mp h2'))

theorem rnd53_binary : Binary rnd53 := by
  intro k x
  unfold rnd53
  have hp : (0 : ℝ) < (2 : ℝ) ^ k := by positivity
  by_cases h : x = 0
  · simp [h]
  · rw [if_neg h, if_neg (mul_ne_zero hp.ne' h)]
    have hu : ulp ((2 : ℝ) ^ k * x) = (2 : ℝ) ^ k * ulp x := by
      unfold ulp
      rw [abs_mul, abs_of_pos hp]
      have : Int.log 2 ((2 : ℝ) ^ k * |x|) = k + Int.log 2 |x| := by
        have hx : 0 < |x| := abs_pos.mpr h
        apply le_antisymm
        · have h1 : ((2 : ℕ) : ℝ) ^ (Int.log 2 ((2 : ℝ) ^ k * |x|)) ≤ (2 : ℝ) ^ k * |x| :=
            Int.zpow_log_le_self (by norm_num) (by positivity)
          have h2 : |x| < ((2 : ℕ) : ℝ) ^ (Int.log 2 |x| + 1) := Int.lt_zpow_succ_log_self (by norm_num) _
          have h3 : (2 : ℝ) ^ (Int.log 2 ((2 : ℝ) ^ k * |x|)) < (2 : ℝ) ^ (k + (Int.log 2 |x| + 1)) := by
            rw [zpow_add₀ (by norm_num : (2 : ℝ) ≠ 0) k]
            push_cast at h1 h2
            exact lt_of_le_of_lt h1 (mul_lt_mul_of_pos_left h2 hp)
          have := (zpow_lt_zpow_iff_right₀ (by norm_num : (1 : ℝ) < 2)).mp h3
          omega
        · have h1 : (2 : ℝ) ^ k * |x| < ((2 : ℕ) : ℝ) ^ (Int.log 2 ((2 : ℝ) ^ k * |x|) + 1) :=
            Int.lt_zpow_succ_log_self (by norm_num) _
          have h2 : ((2 : ℕ) : ℝ) ^ (Int.log 2 |x|) ≤ |x| := Int.zpow_log_le_self (by norm_num) hx
          have h3 : (2 : ℝ) ^ (k + Int.log 2 |x|) < (2 : ℝ) ^ (Int.log 2 ((2 : ℝ) ^ k * |x|) + 1) := by
            rw [zpow_add₀ (by norm_num : (2 : ℝ) ≠ 0) k]
            push_cast at h1 h2
            exact lt_of_le_of_lt (mul_le_mul_of_nonneg_left h2 hp.le) h1
          have := (zpow_lt_zpow_iff_right₀ (by norm_num : (1 : ℝ) < 2)).mp h3
          omega
      rw [this, ← zpow_add₀ (by norm_num : (2 : ℝ) ≠ 0)]
      congr 1; ring
    rw [hu, mul_div_mul_left _ _ hp.ne']
    ring

theorem byPower_ok {rnd : ℝ → ℝ} (hr : Binary rnd) (m : ℤ) : Rescaling (byPower (rnd := rnd) m) := by
  have h0 : rnd 0 = 0 := by
    have := hr 1 0
    rw [mul_zero, zpow_one] at this
    linarith
  have two : (2 : ℝ) ≠ 0 := by norm_num
  have hp : ∀ k : ℤ, (0 : ℝ) < (2 : ℝ) ^ k := fun k => by positivity
  refine ⟨?_, ?_, ?_, ?_, ?_, ?_, ?_, ?_, ?_, ?_, ?_, ?_⟩
  · intro x; simp [byPower]
  · intro k x y; ext; simp only [byPower, Rd.val_add]; rw [← mul_add, hr]
  · intro k x y; ext; simp only [byPower, Rd.val_sub]; rw [← mul_sub, hr]
  · intro k x; ext; simp only [byPower, Rd.val_neg]; ring
  · intro j k x y; ext; simp only [byPower, Rd.val_mul]
    rw [← hr, mul_add, zpow_add₀ two]; congr 1; ring
  · intro j k x y; ext; simp only [byPower, Rd.val_div]
    rw [← hr, mul_sub, zpow_sub₀ two, mul_div_mul_comm]
  · intro k x; ext; simp only [byPower, Rd.val_sqrt]
    rw [← hr, mul_add, zpow_add₀ two, Real.sqrt_mul (mul_self_nonneg _), Real.sqrt_mul_self (hp _).le]
  · intro k x y
    rw [Bool.eq_iff_iff, Rd.lt_iff, Rd.lt_iff]
    exact mul_lt_mul_iff_right₀ (hp _)
  · intro k x y
    rw [Bool.eq_iff_iff, Rd.le_iff, Rd.le_iff]
    exact mul_le_mul_iff_right₀ (hp _)
  · intro k x y
    rw [Bool.eq_iff_iff, Rd.eq_iff, Rd.eq_iff]
    exact mul_right_inj' (hp _).ne'
  · intro k; ext; simp [byPower, h0]
  · intro k x h1 h2 h3
    exfalso
    have z : (Num.lit 0 : Rd rnd).val = 0 := by simp [h0]
    have h1' : ¬ (0 : ℝ) < x.val := by
      intro h; have := (Rd.lt_iff (Num.lit 0) x).mpr (by rw [z]; exact h); simp [h1] at this
    have h2' : ¬ x.val < 0 := by
      intro h; have := (Rd.lt_iff x (Num.lit 0)).mpr (by rw [z]; exact h); simp [h2] at this
    have h3' : ¬ x.val = 0 := by
      intro h; have := (Rd.eq_iff x (Num.lit 0)).mpr (by rw [z]; exact h); simp [h3] at this
    exact h3' (le_antisymm (not_lt.mp h1') (not_lt.mp h2'))

theorem infOf_scale {c : ℝ} (hc : 0 < c) (x : ℝ) : Fl.infOf (c * x) = Fl.infOf x := by
  unfold Fl.infOf
  simp [mul_pos_iff_of_pos_left hc]

theorem byFactorFl_ok {c : ℝ} (hc : 0 < c) : Rescaling (byFactorFl c) := by
  have hp : ∀ k : ℤ, 0 < c ^ k := fun k => zpow_pos hc k
  have ho := byFactor_ok hc
  have neg' : ∀ (k : ℤ) (x : ℝ), -(c ^ k * x) = c ^ k * -x := fun k x => by ring
  refine ⟨?_, ?_, ?_, ?_, ?_, ?_, ?_, ?_, ?_, ?_, ?_, ?_⟩
  · intro x; cases x <;> simp [byFactorFl]
  · intro k x y
    show Fl.add _ _ = byFactorFl c k (Fl.add _ _)
    cases x <;> cases y <;> simp [byFactorFl, Fl.add] <;> ring
  · intro k x y
    show Fl.sub _ _ = byFactorFl c k (Fl.sub _ _)
    cases x <;> cases y <;> simp [byFactorFl, Fl.sub, Fl.neg, Fl.add] <;> ring
  · intro k x
    show Fl.neg _ = byFactorFl c k (Fl.neg _)
    cases x <;> simp [byFactorFl, Fl.neg]
  · intro j k x y
    show Fl.mul _ _ = byFactorFl c (j + k) (Fl.mul _ _)
    have e : ∀ (k : ℤ) (x : ℝ), (c ^ k * x = 0) = (x = 0) := fun k x => by simp [(hp k).ne']
    cases x <;> cases y <;> simp only [byFactorFl, Fl.mul, e, neg', infOf_scale (hp _)] <;>
      first
        | rfl
        | (split <;> simp [byFactorFl, Fl.infOf] <;> split <;> rfl)
        | (rw [zpow_add₀ hc.ne']; congr 1; ring)
  · intro j k x y
    show Fl.div _ _ = byFactorFl c (j - k) (Fl.div _ _)
    have e : ∀ (k : ℤ) (x : ℝ), (c ^ k * x = 0) = (x = 0) := fun k x => by simp [(hp k).ne']
    cases x <;> cases y <;> simp only [byFactorFl, Fl.div, e, neg', infOf_scale (hp _), mul_zero] <;>
      first
        | rfl
        | (split <;> [skip; skip] <;> simp only [byFactorFl, Fl.infOf] <;> split <;> rfl)
        | skip
    rename_i a b
    by_cases hb : b = 0
    · rw [if_pos hb, if_pos hb]
      by_cases ha : a = 0
      · rw [if_pos ha]
      · rw [if_neg ha]; unfold Fl.infOf; split <;> rfl
    · rw [if_neg hb, if_neg hb]
      simp only [byFactorFl]
      rw [zpow_sub₀ hc.ne', mul_div_mul_comm]
  · intro k x
    show Fl.sqrt _ = byFactorFl c k (Fl.sqrt _)
    cases x with
    | fin a =>
      have : (c ^ (k + k) * a < 0) = (a < 0) := by
        rw [eq_iff_iff]
        have := hp (k + k)
        constructor
        · intro h; by_contra hn; exact absurd (mul_nonneg this.le (not_lt.mp hn)) (not_le.mpr h)
        · intro h; exact mul_neg_of_pos_of_neg this h
      simp only [byFactorFl, Fl.sqrt, this]
      split
      · rfl
      · simp only [byFactorFl]
        rw [zpow_add₀ hc.ne', Real.sqrt_mul (mul_self_nonneg _), Real.sqrt_mul_self (hp k).le]
    | _ => rfl
  · intro k x y
    show Fl.lt _ _ = Fl.lt _ _
    cases x <;> cases y <;> simp [byFactorFl, Fl.lt, hp k]
  · intro k x y
    show Fl.le _ _ = Fl.le _ _
    cases x <;> cases y <;> simp [byFactorFl, Fl.le, Fl.lt, Fl.eq, hp k, (hp k).ne']
  · intro k x y
    show Fl.eq _ _ = Fl.eq _ _
    cases x <;> cases y <;> simp [byFactorFl, Fl.eq, (hp k).ne']
  · intro k
    show byFactorFl c k (.fin _) = .fin _
    simp [byFactorFl]
  · intro k x h1 h2 h3
    cases x with
    | fin a =>
      exfalso
      have h1' : Fl.lt (.fin ((0 : ℚ) : ℝ)) (.fin a) = false := h1
      have h2' : Fl.lt (.fin a) (.fin ((0 : ℚ) : ℝ)) = false := h2
      have h3' : Fl.eq (.fin a) (.fin ((0 : ℚ) : ℝ)) = false := h3
      simp [Fl.lt, Fl.eq] at h1' h2' h3'
      exact h3' (le_antisymm h1' h2')
    | _ => rfl

/-! ### numbers -/

section
variable {α : Type} [Num α] {s : ℤ → α → α} (hs : Rescaling s)
include hs

theorem mulr (j : ℤ) (x y : α) : s j x * y = s j (x * y) := by
  have := hs.mul j 0 x y
  rwa [hs.none, add_zero] at this

theorem mull (j : ℤ) (x y : α) : x * s j y = s j (x * y) := by
  have := hs.mul 0 j x y
  rwa [hs.none, zero_add] at this

theorem divr (j : ℤ) (x y : α) : s j x / y = s j (x / y) := by
  have := hs.div j 0 x y
  rwa [hs.none, sub_zero] at this

theorem divs (j : ℤ) (x y : α) : s j x / s j y = x / y := by
  have := hs.div j j x y
  rwa [sub_self, hs.none] at this

theorem lt0 (k : ℤ) (x : α) : Num.lt (s k x) (Num.lit 0) = Num.lt x (Num.lit 0) := by
  have := hs.lt k x (Num.lit 0)
  rwa [hs.zero] at this

theorem gt0 (k : ℤ) (x : α) : Num.lt (Num.lit 0) (s k x) = Num.lt (Num.lit 0) x := by
  have := hs.lt k (Num.lit 0) x
  rwa [hs.zero] at this

theorem le0 (k : ℤ) (x : α) : Num.le (s k x) (Num.lit 0) = Num.le x (Num.lit 0) := by
  have := hs.le k x (Num.lit 0)
  rwa [hs.zero] at this

theorem eq0 (k : ℤ) (x : α) : Num.eq (s k x) (Num.lit 0) = Num.eq x (Num.lit 0) := by
  have := hs.eq k x (Num.lit 0)
  rwa [hs.zero] at this

theorem nan (k : ℤ) : s k (Plane.npNan : α) = Plane.npNan := by
  unfold Plane.npNan
  rw [← divr hs, hs.zero]

theorem isNan (k : ℤ) (x : α) : npIsNan (s k x) = npIsNan x := by
  unfold npIsNan
  rw [hs.eq]

theorem isInf (k : ℤ) (x : α) : npIsInf (s k x) = npIsInf x := by
  unfold npIsInf
  rw [hs.sub, isNan hs, isNan hs]

theorem sign (k : ℤ) (x : α) : npSign (s k x) = npSign x := by
  unfold npSign
  rw [gt0 hs, lt0 hs, eq0 hs]
  split
  · rfl
  · split
    · rfl
    · split
      · rfl
      · rename_i h1 h2 h3
        exact hs.other k x (by simpa using h1) (by simpa using h2) (by simpa using h3)

theorem abs (k : ℤ) (x : α) : npAbs (s k x) = s k (npAbs x) := by
  unfold npAbs
  rw [lt0 hs]
  split
  · exact hs.neg k x
  · rfl

theorem min (k : ℤ) (x y : α) : npMin (s k x) (s k y) = s k (npMin x y) := by
  unfold npMin
  rw [isNan hs, isNan hs, hs.lt]
  split
  · rfl
  · split
    · rfl
    · split <;> rfl

theorem max (k : ℤ) (x y : α) : npMax (s k x) (s k y) = s k (npMax x y) := by
  unfold npMax
  rw [isNan hs, isNan hs, hs.lt]
  split
  · rfl
  · split
    · rfl
    · split <;> rfl

theorem sum (k : ℤ) (l : List α) : sumL (l.map (s k)) = s k (sumL l) := by
  induction l with
  | nil => exact (hs.zero k).symm
  | cons x l ih => simp only [List.map_cons, sumL, ih, hs.add]

/-! ### vectors -/

theorem vadd (k : ℤ) (u v : V3 α) : inUnit s k u + inUnit s k v = inUnit s k (u + v) := by
  apply V3.ext <;> exact hs.add k _ _

theorem vsub (k : ℤ) (u v : V3 α) : inUnit s k u - inUnit s k v = inUnit s k (u - v) := by
  apply V3.ext <;> exact hs.sub k _ _

theorem vsmul (j k : ℤ) (x : α) (v : V3 α) : V3.smul (s j x) (inUnit s k v) = inUnit s (j + k) (V3.smul x v) := by
  apply V3.ext <;> exact hs.mul j k _ _

theorem vsmulr (k : ℤ) (x : α) (v : V3 α) : V3.smul x (inUnit s k v) = inUnit s k (V3.smul x v) := by
  apply V3.ext <;> exact mull hs k _ _

theorem vsmull (k : ℤ) (x : α) (v : V3 α) : V3.smul (s k x) v = inUnit s k (V3.smul x v) := by
  apply V3.ext <;> exact mulr hs k _ _

theorem vsdiv (j k : ℤ) (x : α) (v : V3 α) : V3.sdiv (inUnit s j v) (s k x) = inUnit s (j - k) (V3.sdiv v x) := by
  apply V3.ext <;> exact hs.div j k _ _

theorem vnone (v : V3 α) : inUnit s 0 v = v := by
  apply V3.ext <;> exact hs.none _

theorem vsdivs (k : ℤ) (x : α) (v : V3 α) : V3.sdiv (inUnit s k v) (s k x) = V3.sdiv v x := by
  rw [vsdiv hs, sub_self, vnone hs]

theorem dot (j k : ℤ) (u v : V3 α) : V3.dot (inUnit s j u) (inUnit s k v) = s (j + k) (V3.dot u v) := by
  unfold V3.dot inUnit
  simp only [hs.mul, hs.add]

theorem dotr (k : ℤ) (u v : V3 α) : V3.dot (inUnit s k u) v = s k (V3.dot u v) := by
  have := dot hs k 0 u v
  rwa [vnone hs, add_zero] at this

theorem cross (j k : ℤ) (u v : V3 α) : V3.cross (inUnit s j u) (inUnit s k v) = inUnit s (j + k) (V3.cross u v) := by
  unfold V3.cross inUnit
  simp only [hs.mul, hs.sub]

theorem norm (k : ℤ) (v : V3 α) : V3.norm (inUnit s k v) = s k (V3.norm v) := by
  unfold V3.norm
  rw [dot hs, hs.sqrt]

theorem normalize (k : ℤ) (v : V3 α) : normalize3 (inUnit s k v) = normalize3 v := by
  unfold normalize3
  rw [norm hs, vsdivs hs]

theorem alleq (k : ℤ) (a b : V3 α) : V3.allEq (inUnit s k a) (inUnit s k b) = V3.allEq a b := by
  unfold V3.allEq inUnit
  simp only [hs.eq]

theorem alleq3 (k : ℤ) (a b : V3 α) : allEq3 (inUnit s k a) (inUnit s k b) = allEq3 a b := by
  unfold allEq3 inUnit
  simp only [hs.eq]

/-! ### planes -/

variable (pl : Plane α)

theorem sdist (p : V3 α) : (Plane.inUnit s pl).signedDistance1 (inUnit s 1 p) = s 1 (pl.signedDistance1 p) := by
  unfold Plane.signedDistance1 Plane.equation Plane.inUnit
  simp only [dotr hs, hs.neg, hs.add]

theorem signs (ps : List (V3 α)) : (Plane.inUnit s pl).sign (ps.map (inUnit s 1)) = pl.sign ps := by
  unfold Plane.sign Plane.signedDistance
  simp only [List.map_map]
  apply List.map_congr_left
  intro p _
  simp only [Function.comp, sdist hs, sign hs]

theorem bounds (p a b : V3 α) :
    Plane.outOfBounds (inUnit s 1 p) (inUnit s 1 a) (inUnit s 1 b) = Plane.outOfBounds p a b := by
  unfold Plane.outOfBounds Plane.beyond Plane.below inUnit
  simp only [hs.lt]

theorem line (pt ray : V3 α) :
    (Plane.inUnit s pl).lineXsection (inUnit s 1 pt) (inUnit s 1 ray) = (pl.lineXsection pt ray).map (inUnit s 1) := by
  unfold Plane.lineXsection Plane.normal Plane.referencePoint Plane.inUnit
  simp only [vsub hs, dotr hs, eq0 hs]
  split
  · rfl
  · simp only [divs hs, vsmulr hs, vadd hs, Option.map]

theorem segment (a b : V3 α) :
    (Plane.inUnit s pl).lineSegmentXsection (inUnit s 1 a) (inUnit s 1 b) =
      (pl.lineSegmentXsection a b).map (inUnit s 1) := by
  unfold Plane.lineSegmentXsection
  rw [vsub hs, line hs]
  cases pl.lineXsection a (b - a) with
  | none => rfl
  | some pt =>
    simp only [Option.map, bounds hs]
    split <;> rfl

theorem lineRow (pt ray : V3 α) :
    (Plane.inUnit s pl).lineXsectionsRow (inUnit s 1 pt) (inUnit s 1 ray) =
      (inUnit s 1 (pl.lineXsectionsRow pt ray).1, (pl.lineXsectionsRow pt ray).2) := by
  unfold Plane.lineXsectionsRow Plane.normal Plane.referencePoint Plane.inUnit
  simp only [vsub hs, dotr hs, eq0 hs]
  split
  · rw [← nan hs 1, divs hs, nan hs, vsmulr hs, vadd hs]
  · rw [divs hs, vsmulr hs, vadd hs]

theorem segRow (a b : V3 α) :
    (Plane.inUnit s pl).lineSegmentXsectionsRow (inUnit s 1 a) (inUnit s 1 b) =
      (inUnit s 1 (pl.lineSegmentXsectionsRow a b).1, (pl.lineSegmentXsectionsRow a b).2) := by
  unfold Plane.lineSegmentXsectionsRow
  rw [vsub hs, lineRow hs]
  simp only [bounds hs]
  congr 1
  have hn : inUnit s 1 (⟨Plane.npNan, Plane.npNan, Plane.npNan⟩ : V3 α) = ⟨Plane.npNan, Plane.npNan, Plane.npNan⟩ := by
    unfold inUnit; simp only [nan hs]
  rw [apply_ite (inUnit s 1), hn]

/-! ### slicing -/

theorem faceSelected (m : Mesh α) (f : ℕ × ℕ × ℕ) :
    (Plane.inUnit s pl).faceSelected (Mesh.image (inUnit s 1) m) f = pl.faceSelected m f := by
  unfold Plane.faceSelected
  have := signs hs pl m.v
  unfold Plane.sign at this
  simp only [Mesh.image, this]

theorem faces (m : Mesh α) :
    (Plane.inUnit s pl).meshIntersectingFaces (Mesh.image (inUnit s 1) m) = pl.meshIntersectingFaces m := by
  unfold Plane.meshIntersectingFaces
  have : (Plane.inUnit s pl).faceSelected (Mesh.image (inUnit s 1) m) = pl.faceSelected m :=
    funext fun f => faceSelected hs pl m f
  rw [this]
  rfl

theorem rows (as bs : List (V3 α)) :
    List.zipWith (Plane.inUnit s pl).lineSegmentXsectionsRow (as.map (inUnit s 1)) (bs.map (inUnit s 1)) =
      (List.zipWith pl.lineSegmentXsectionsRow as bs).map fun r => (inUnit s 1 r.1, r.2) := by
  induction as generalizing bs with
  | nil => simp
  | cons a as ih =>
    cases bs with
    | nil => simp
    | cons b bs => simp only [List.map_cons, List.zipWith_cons_cons, ih, segRow hs]

theorem intersectionMap_map (m : Mesh α) (fs : List (ℕ × ℕ × ℕ)) :
    intersectionMap (Plane.inUnit s pl) (Mesh.image (inUnit s 1) m) fs =
      (intersectionMap pl m fs).map (MO.EMap (inUnit s 1)) := by
  unfold intersectionMap
  simp only [Mesh.image, MO.takeRows_map]
  apply MO.bind_map
  intro a _
  apply MO.bind_map
  intro b _
  unfold Plane.lineSegmentXsections
  simp only [List.length_map]
  split
  · simp only [ok_bind]
    have hf := rows hs pl a b
    rw [hf]
    rw [MO.masked_map (g := inUnit s 1) (List.zipWith pl.lineSegmentXsectionsRow a b) _ (faceEdges fs) (by
      rw [List.forall₂_map_right_iff, List.forall₂_same]
      intro r _
      exact ⟨rfl, fun _ => rfl⟩)]
    exact congrArg Except.ok (MO.foldl_map _ EdgeMap.empty)
  · split <;> rfl

theorem sliceComponents_map (ver : PyVer) (pk : ℕ → Picker) (ko : ℕ → KeyOrder) (m : Mesh α) (fs : List (ℕ × ℕ × ℕ)) :
    sliceComponents ver pk ko (Plane.inUnit s pl) (Mesh.image (inUnit s 1) m) fs =
      (sliceComponents ver pk ko pl m fs).map (List.map (Section.image (inUnit s 1))) := by
  unfold sliceComponents
  rw [intersectionMap_map hs]
  apply MO.bind_map
  intro em _
  have : fs.foldlM (addFace ver (MO.EMap (inUnit s 1) em)) (Graph.new (MO.EMap (inUnit s 1) em).values.length) =
      fs.foldlM (addFace ver em) (Graph.new em.values.length) := by
    simp only [MO.EMap, List.length_map]
    rfl
  rw [this]
  apply MO.bind_same
  intro gr _
  exact MO.popComponents_map (alleq hs 1) pk ko _ _ 0 gr rfl

omit pl in
theorem nearest_map (nbh : V3 α × List (V3 α)) (p : V3 α) :
    nearest (inUnit s 1 nbh.1, nbh.2.map (inUnit s 1)) (inUnit s 1 p) = s 1 (nearest nbh p) := by
  unfold nearest
  simp only [vsub hs, norm hs]
  generalize V3.norm (p - nbh.1) = d
  induction nbh.2 generalizing d with
  | nil => rfl
  | cons q l ih => simp only [List.map_cons, List.foldl_cons, vsub hs, norm hs, min hs, ih]

omit pl in
theorem foldl_add (l : List α) (x : α) : (l.map (s 1)).foldl (· + ·) (s 1 x) = s 1 (l.foldl (· + ·) x) := by
  induction l generalizing x with
  | nil => rfl
  | cons y l ih => simp only [List.map_cons, List.foldl_cons]; rw [hs.add, ih]

omit pl in
theorem meanDistance_map (nbh : V3 α × List (V3 α)) (vs : List (V3 α)) :
    meanDistance (inUnit s 1 nbh.1, nbh.2.map (inUnit s 1)) (vs.map (inUnit s 1)) = s 1 (meanDistance nbh vs) := by
  unfold meanDistance
  have : (vs.map (inUnit s 1)).map (nearest (inUnit s 1 nbh.1, nbh.2.map (inUnit s 1))) =
      (vs.map (nearest nbh)).map (s 1) := by
    rw [List.map_map, List.map_map]
    apply List.map_congr_left
    intro p _
    exact nearest_map hs nbh p
  rw [this, List.length_map, ← divr hs, ← foldl_add hs, hs.zero]

omit pl in
theorem argmin_map (k : ℤ) (l : List α) : argmin (l.map (s k)) = argmin l := by
  have : ∀ (l : List α) (i best : ℕ) (b : α), argminFrom i best (s k b) (l.map (s k)) = argminFrom i best b l := by
    intro l
    induction l with
    | nil => intros; rfl
    | cons x l ih =>
      intro i best b
      simp only [List.map_cons, argminFrom, isNan hs, hs.lt, ih]
  cases l with
  | nil => rfl
  | cons x l => simp only [List.map_cons, argmin, this]

omit pl in
theorem argmax_map (k : ℤ) (l : List α) : argmax (l.map (s k)) = argmax l := by
  have : ∀ (l : List α) (i best : ℕ) (b : α), argmaxFrom i best (s k b) (l.map (s k)) = argmaxFrom i best b l := by
    intro l
    induction l with
    | nil => intros; rfl
    | cons x l ih =>
      intro i best b
      simp only [List.map_cons, argmaxFrom, isNan hs, hs.lt, ih]
  cases l with
  | nil => rfl
  | cons x l => simp only [List.map_cons, argmax, this]

theorem meshXsections_map (ver : PyVer) (pk : ℕ → Picker) (ko : ℕ → KeyOrder) (m : Mesh α)
    (nbh : Option (V3 α × List (V3 α))) :
    (Plane.inUnit s pl).meshXsections ver pk ko (Mesh.image (inUnit s 1) m)
        (nbh.map fun n => (inUnit s 1 n.1, n.2.map (inUnit s 1))) =
      (pl.meshXsections ver pk ko m nbh).map (List.map (Section.image (inUnit s 1))) := by
  unfold Plane.meshXsections
  rw [faces hs]
  apply MO.bind_same
  intro fs _
  split
  · rfl
  · rw [sliceComponents_map hs]
    apply MO.bind_map
    intro cs _
    cases nbh with
    | none => rfl
    | some nbh =>
      simp only [Option.map, List.length_map]
      split
      · rfl
      · have : (cs.map (Section.image (inUnit s 1))).map
            (fun c => meanDistance (inUnit s 1 nbh.1, nbh.2.map (inUnit s 1)) c.v) =
            (cs.map fun c => meanDistance nbh c.v).map (s 1) := by
          rw [List.map_map, List.map_map]
          apply List.map_congr_left
          intro c _
          exact meanDistance_map hs nbh c.v
        rw [this, argmin_map hs]
        apply MO.bind_same
        intro i _
        rw [MO.pyIndex_map]
        apply MO.bind_map
        intro c _
        rfl

/-! ### polylines -/

omit pl in
theorem asPoints_map (vs : List (V3 α)) :
    asPoints (rowsOf (vs.map (inUnit s 1))) = (asPoints (rowsOf vs)).map (Option.map (List.map (inUnit s 1))) := by
  unfold asPoints rowsOf
  have h1 : (((vs.map (inUnit s 1)).map V3.toList).any fun r => r.any fun x => npIsNan x || npIsInf x) =
      ((vs.map V3.toList).any fun r => r.any fun x => npIsNan x || npIsInf x) := by
    rw [List.map_map, List.any_map, List.any_map]
    congr 1
    funext v
    simp [Function.comp, V3.toList, inUnit, isNan hs, isInf hs]
  simp only [h1]
  split
  · rfl
  · rw [if_pos trivial, if_pos trivial, List.map_map, List.mapM_map, List.mapM_map]
    rw [MO.mapM_map (row3 ∘ V3.toList) (row3 ∘ V3.toList ∘ inUnit s 1) (inUnit s 1) vs (fun v _ => rfl)]
    apply MO.bind_map
    intro ps _
    rfl

omit pl in
theorem setV_map (p : Polyline α) (vs : List (V3 α)) :
    (Polyline.image (inUnit s 1) p).setV (rowsOf (vs.map (inUnit s 1))) =
      (Polyline.image (inUnit s 1) (p.setV (rowsOf vs)).1, (p.setV (rowsOf vs)).2) := by
  unfold Polyline.setV
  rw [asPoints_map hs]
  cases asPoints (rowsOf vs) with
  | error e => rfl
  | ok v =>
    have hcl : (Polyline.image (inUnit s 1) p).closed = p.closed := rfl
    cases v with
    | none => rfl
    | some v =>
      simp only [Except.map, Option.map, Polyline.updateEdges, List.length_map, hcl]
      cases mkEdges v.length p.closed <;> rfl

omit pl in
theorem new_map (vs : List (V3 α)) (c : Bool) :
    Polyline.new (rowsOf (vs.map (inUnit s 1))) c = (Polyline.new (rowsOf vs) c).map (Polyline.image (inUnit s 1)) := by
  unfold Polyline.new
  have := setV_map hs ⟨none, c, none⟩ vs
  have e : (Polyline.image (inUnit s 1) (⟨none, c, none⟩ : Polyline α)) = ⟨none, c, none⟩ := rfl
  rw [e] at this
  rw [this]
  obtain ⟨p, r⟩ := (⟨none, c, none⟩ : Polyline α).setV (rowsOf vs)
  cases r <;> rfl

omit pl in
theorem segmentLengths_map (p : Polyline α) :
    (Polyline.image (inUnit s 1) p).segmentLengths = p.segmentLengths.map (List.map (s 1)) := by
  unfold Polyline.segmentLengths
  have he : (Polyline.image (inUnit s 1) p).e = p.e := rfl
  rw [he]
  cases p.e with
  | none => rfl
  | some e =>
    simp only
    rw [MO.segments_map]
    apply MO.bind_map
    intro segs _
    simp only [List.map_map, pure_eq_ok, Except.map]
    congr 1
    apply List.map_congr_left
    intro x _
    simp only [Function.comp, MO.both, vsub hs, norm hs]

omit pl in
theorem totalLength_map (p : Polyline α) :
    (Polyline.image (inUnit s 1) p).totalLength = p.totalLength.map (s 1) := by
  unfold Polyline.totalLength
  rw [segmentLengths_map hs]
  apply MO.bind_map
  intro ls _
  rw [sum hs]
  rfl

omit pl in
theorem partitionSegment_map (a b : V3 α) (n : Option ℤ) (e : Bool) :
    partitionSegment (α := α) (inUnit s 1 a) (inUnit s 1 b) n e =
      (partitionSegment (α := α) a b n e).map (List.map (inUnit s 1)) := by
  unfold partitionSegment
  cases n with
  | none => rfl
  | some n =>
    simp only
    split
    · rfl
    · simp only [Except.map, List.map_map]
      congr 1
      apply List.map_congr_left
      intro t _
      simp only [Function.comp, PointOps.add, PointOps.smul, PointOps.sub, vsub hs, vsmulr hs, vadd hs]

omit pl in
theorem partitionLoop_map (v : List (V3 α)) (l : List ((ℕ × ℕ) × α)) (is : List ℕ) (nv : List (V3 α)) :
    Polyline.partitionLoop (v.map (inUnit s 1)) l (is, nv.map (inUnit s 1)) =
      (Polyline.partitionLoop v l (is, nv)).map fun x => (x.1, x.2.map (inUnit s 1)) := by
  induction l generalizing is nv with
  | nil => rfl
  | cons a l ih =>
    obtain ⟨edge, k⟩ := a
    unfold Polyline.partitionLoop
    rw [MO.segmentOf_map]
    apply MO.bind_map
    intro x _
    simp only [MO.both, List.length_map]
    split
    · rw [← List.map_singleton (f := inUnit s 1), ← List.map_append, ih]
    · apply MO.bind_same
      intro n _
      rw [partitionSegment_map hs]
      apply MO.bind_map
      intro pts _
      rw [← List.map_append, ih]

omit pl in
theorem partitionVerts_map (p : Polyline α) (l : α) :
    (Polyline.image (inUnit s 1) p).partitionVerts (s 1 l) =
      (p.partitionVerts l).map fun x => (x.1, x.2.map (inUnit s 1)) := by
  unfold Polyline.partitionVerts
  rw [segmentLengths_map hs]
  apply MO.bind_map
  intro ls _
  have h1 : (ls.map (s 1)).map (fun x => Polyline.npCeil (x / s 1 l)) = ls.map fun x => Polyline.npCeil (x / l) := by
    rw [List.map_map]
    apply List.map_congr_left
    intro x _
    simp only [Function.comp, divs hs]
  have he : (Polyline.image (inUnit s 1) p).e = p.e := rfl
  have hcl : (Polyline.image (inUnit s 1) p).closed = p.closed := rfl
  have hv : (Polyline.image (inUnit s 1) p).v.getD [] = (p.v.getD []).map (inUnit s 1) := by
    obtain ⟨v, c, e⟩ := p
    cases v <;> rfl
  simp only [h1, he, hcl, hv]
  rw [show (([] : List (V3 α)) = List.map (inUnit s 1) []) from rfl, partitionLoop_map hs]
  apply MO.bind_map
  intro x _
  split
  · rw [MO.vArr_map]
    apply MO.bind_map
    intro v _
    rw [MO.pyIndex_map]
    apply MO.bind_map
    intro last _
    simp [Except.map]
  · rfl

omit pl in
theorem partitionByLength_map (p : Polyline α) (l : α) :
    (Polyline.image (inUnit s 1) p).partitionByLength (s 1 l) =
      (Polyline.image (inUnit s 1) (p.partitionByLength l).1, (p.partitionByLength l).2) := by
  unfold Polyline.partitionByLength
  rw [partitionVerts_map hs]
  cases p.partitionVerts l with
  | error e => rfl
  | ok x =>
    obtain ⟨is, nv⟩ := x
    simp only [Except.map]
    rw [setV_map hs]
    obtain ⟨p', r⟩ := p.setV (rowsOf nv)
    cases r <;> rfl

theorem edgeMeets_map (x : V3 α × V3 α) :
    Polyline.edgeMeets (Plane.inUnit s pl) (MO.both (inUnit s 1) x) = Polyline.edgeMeets pl x := by
  unfold Polyline.edgeMeets MO.both
  simp only [sdist hs, sign hs]

theorem edgePoint_map (x : V3 α × V3 α) :
    Polyline.edgePoint (Plane.inUnit s pl) (MO.both (inUnit s 1) x) = inUnit s 1 (Polyline.edgePoint pl x) := by
  unfold Polyline.edgePoint MO.both
  simp only [sdist hs, abs hs, hs.add, divs hs, vsmulr hs, vadd hs]

theorem intersectPlane_map (p : Polyline α) :
    (Polyline.image (inUnit s 1) p).intersectPlane (Plane.inUnit s pl) =
      (p.intersectPlane pl).map fun x => (x.1.map (inUnit s 1), x.2) := by
  unfold Polyline.intersectPlane
  rw [MO.segments_map]
  apply MO.bind_map
  intro segs _
  have e : Polyline.edgeMeets (Plane.inUnit s pl) ∘ MO.both (inUnit s 1) = Polyline.edgeMeets pl :=
    funext fun x => edgeMeets_map hs pl x
  have e2 : Polyline.edgePoint (Plane.inUnit s pl) ∘ MO.both (inUnit s 1) = inUnit s 1 ∘ Polyline.edgePoint pl :=
    funext fun x => edgePoint_map hs pl x
  simp only [List.filter_map, List.map_map, e, e2]
  simp [Except.map]

theorem cutOpen_map (p : Polyline α) (x : V3 α) (i : ℕ) :
    (Polyline.image (inUnit s 1) p).cutOpen (Plane.inUnit s pl) (inUnit s 1 x) i =
      (p.cutOpen pl x i).map (Polyline.image (inUnit s 1)) := by
  unfold Polyline.cutOpen
  rw [MO.vArr_map]
  apply MO.bind_map
  intro v _
  have he : (Polyline.image (inUnit s 1) p).e = p.e := rfl
  simp only [he]
  apply MO.bind_same
  intro edge _
  rw [MO.segmentVectors_map]
  unfold Polyline.segmentVectors
  cases p.segments with
  | error e => rfl
  | ok segs =>
    simp only [Except.map, ok_bind, pure_eq_ok]
    rw [MO.pyIndex_map, MO.pyIndex_map]
    cases pyIndex segs (i : ℤ) with
    | error e => rfl
    | ok y =>
      simp only [Except.map, ok_bind]
      have hn : (Plane.inUnit s pl).normal = pl.normal := rfl
      rw [vsub hs, hn, dotr hs, gt0 hs]
      split
      · rw [List.length_map, MO.pySlice_map, ← List.map_cons, new_map hs]
        rfl
      · rw [MO.pySlice_map, ← List.map_singleton (f := inUnit s 1), ← List.map_append, new_map hs]
        rfl

theorem synthesized_map (x : α) (segs : List (V3 α × V3 α)) (i : ℤ) :
    Polyline.synthesized (Plane.inUnit s pl) x (segs.map (MO.both (inUnit s 1))) i =
      (Polyline.synthesized pl x segs i).map (Option.map (inUnit s 1)) := by
  unfold Polyline.synthesized
  split
  · rfl
  · rw [MO.pyIndex_map]
    apply MO.bind_map
    intro y _
    simp only [MO.both, segment hs]
    rfl

theorem cutWorking_map (w : Polyline α) :
    Polyline.cutWorking (Polyline.image (inUnit s 1) w) (Plane.inUnit s pl) =
      (Polyline.cutWorking w pl).map (Polyline.image (inUnit s 1)) := by
  unfold Polyline.cutWorking
  rw [MO.vArr_map]
  apply MO.bind_map
  intro wv _
  rw [MO.segments_map]
  apply MO.bind_map
  intro segs _
  rw [signs hs]
  apply MO.bind_same
  intro s0 _
  rw [synthesized_map hs]
  apply MO.bind_map
  intro st _
  apply MO.bind_same
  intro ei _
  apply MO.bind_same
  intro s1 _
  rw [synthesized_map hs]
  apply MO.bind_map
  intro en _
  have ht : ∀ o : Option (V3 α), Polyline.toArray (o.map (inUnit s 1)) = (Polyline.toArray o).map (inUnit s 1) := by
    intro o; cases o <;> rfl
  simp only
  rw [ht, ht, MO.pySlice_map, ← List.map_append, ← List.map_append, new_map hs]

omit pl in
theorem reindexed_map (p : Polyline α) (i : ℤ) :
    (Polyline.image (inUnit s 1) p).reindexed i = (p.reindexed i).map fun x => (Polyline.image (inUnit s 1) x.1, x.2) := by
  unfold Polyline.reindexed
  have : (Polyline.image (inUnit s 1) p).closed = p.closed := rfl
  rw [this]
  split
  · rfl
  · rw [MO.vArr_map]
    apply MO.bind_map
    intro v _
    rw [List.length_map, MO.pySlice_map, MO.pySlice_map, ← List.map_append, new_map hs]
    apply MO.bind_map
    intro r _
    rfl

theorem cutByPlane_map (p : Polyline α) :
    (Polyline.image (inUnit s 1) p).cutByPlane (Plane.inUnit s pl) =
      (p.cutByPlane pl).map (Polyline.image (inUnit s 1)) := by
  unfold Polyline.cutByPlane
  have hcl : (Polyline.image (inUnit s 1) p).closed = p.closed := rfl
  rw [hcl, intersectPlane_map hs]
  apply MO.bind_map
  intro x _
  obtain ⟨pts, is⟩ := x
  simp only
  split
  · rfl
  · split
    · split
      · rfl
      · unfold Polyline.cutClosed
        rw [MO.vArr_map]
        apply MO.bind_map
        intro v _
        rw [signs hs]
        apply MO.bind_same
        intro i _
        rw [reindexed_map hs]
        apply MO.bind_map
        intro x _
        exact cutWorking_map hs pl x.1
    · split
      · rfl
      · rw [MO.pyIndex_map]
        apply MO.bind_map
        intro pt _
        apply MO.bind_same
        intro i _
        exact cutOpen_map hs pl p pt i

/-! ### the other functions -/

omit pl in
theorem apex_map (j : ℤ) (ps : List (V3 α)) (axis : V3 α) :
    apex (ps.map (inUnit s 1)) (inUnit s j axis) = (apex ps axis).map (inUnit s 1) := by
  unfold apex
  have : (ps.map (inUnit s 1)).map (fun p => V3.dot p (inUnit s j axis)) =
      (ps.map fun p => V3.dot p axis).map (s (1 + j)) := by
    rw [List.map_map, List.map_map]
    apply List.map_congr_left
    intro p _
    exact dot hs 1 j p axis
  simp only [this, argmax_map hs]
  apply MO.bind_same
  intro i _
  exact MO.pyIndex_map _ _ _

omit pl in
theorem farthest_map (a : V3 α) (ps : List (V3 α)) :
    farthest (inUnit s 1 a) (ps.map (inUnit s 1)) = (farthest a ps).map fun x => (inUnit s 1 x.1, x.2) := by
  unfold farthest
  have : (ps.map (inUnit s 1)).map (fun p => V3.norm (p - inUnit s 1 a)) =
      (ps.map fun p => V3.norm (p - a)).map (s 1) := by
    rw [List.map_map, List.map_map]
    apply List.map_congr_left
    intro p _
    simp only [Function.comp, vsub hs, norm hs]
  simp only [this, argmax_map hs]
  apply MO.bind_same
  intro i _
  rw [MO.pyIndex_map]
  apply MO.bind_map
  intro p _
  rfl

omit pl in
theorem partitionOne_map (a b : V3 α) (k : ℕ) :
    partitionOne (α := α) (inUnit s 1 a) (inUnit s 1 b) k = (partitionOne (α := α) a b k).map (inUnit s 1) := by
  unfold partitionOne
  simp only [PointOps.sub, PointOps.sumSq, PointOps.sdiv, PointOps.add, PointOps.smul, vsub hs, dot hs, hs.sqrt,
    vsdivs hs, divr hs, mulr hs, vsmull hs, vadd hs, List.map_map]
  rfl

omit pl in
theorem partition_map (v : List (V3 α)) (k : ℕ) :
    partition (α := α) (v.map (inUnit s 1)) k = (partition (α := α) v k).map (List.map (inUnit s 1)) := by
  have hf : ∀ v : List (V3 α), partitionFill (α := α) (v.map (inUnit s 1)) k =
      (partitionFill (α := α) v k).map (inUnit s 1) := by
    intro v
    induction v with
    | nil => rfl
    | cons a v ih =>
      cases v with
      | nil => rfl
      | cons b v =>
        simp only [List.map_cons, partitionFill] at ih ⊢
        rw [ih, partitionOne_map hs, List.map_append]
  unfold partition
  rw [hf, List.getLast?_map]
  cases v.getLast? <;> simp [Except.map, raise]

omit pl in
theorem partitionOld_map (a b : V3 α) (n : Option ℤ) :
    partitionSegmentOld (α := α) (inUnit s 1 a) (inUnit s 1 b) n =
      (partitionSegmentOld (α := α) a b n).map (List.map (inUnit s 1)) := by
  unfold partitionSegmentOld
  cases n with
  | none => rfl
  | some n =>
    simp only
    split
    · rfl
    · simp only [PointOps.sub, PointOps.sumSq, PointOps.sdiv, PointOps.add, PointOps.smul, vsub hs, dot hs, hs.sqrt,
        vsdivs hs, divr hs, mulr hs, vsmull hs, vadd hs, Except.map, List.map_map]
      rfl

omit pl in
theorem lineIntersect3_map (p0 q0 p1 q1 : V3 α) :
    lineIntersect3 (inUnit s 1 p0) (inUnit s 1 q0) (inUnit s 1 p1) (inUnit s 1 q1) =
      (lineIntersect3 p0 q0 p1 q1).map (inUnit s 1) := by
  unfold lineIntersect3
  simp only [vsub hs, cross hs, norm hs, alleq3 hs, eq0 hs, divs hs, vsdivs hs, vsmulr hs, vadd hs]
  split
  · rfl
  · split
    · rfl
    · split
      · rfl
      · rfl

omit pl in
theorem at_map (k : ℤ) (l : List α) (i : ℕ) : at' (l.map (s k)) i = s k (at' l i) := by
  unfold at'
  rw [List.getD_eq_getElem?_getD, List.getD_eq_getElem?_getD, List.getElem?_map]
  cases l[i]? with
  | none => exact (hs.zero k).symm
  | some x => rfl

omit pl in
theorem gradient1_map (k : ℤ) (l : List α) : gradient1 (l.map (s k)) = (gradient1 l).map (s k) := by
  unfold gradient1
  rw [List.length_map, List.map_map]
  apply List.map_congr_left
  intro i _
  simp only [Function.comp, at_map hs, hs.sub, divr hs]
  split
  · rfl
  · split <;> rfl

omit pl in
theorem gradientAt_map (j k : ℤ) (f x : List α) :
    gradientAt (f.map (s j)) (x.map (s k)) = (gradientAt f x).map (s (j - k)) := by
  unfold gradientAt
  simp only [List.length_map, at_map hs, hs.sub, hs.eq, hs.add]
  split
  · rw [List.map_map]
    apply List.map_congr_left
    intro i _
    simp only [Function.comp, hs.div, mull hs]
    split
    · rfl
    · split <;> rfl
  · rw [List.map_map]
    apply List.map_congr_left
    intro i _
    simp only [Function.comp, hs.div, hs.mul, hs.neg]
    split
    · rfl
    · split
      · rfl
      · rw [show k - (k + k) + j = j - k by ring, hs.add, hs.add]

omit pl in
theorem gradient2_map (np : NpGradient) (j k : ℤ) (f x : List α) :
    gradient2 np (f.map (s j)) (x.map (s k)) = (gradient2 np f x).map (s (j - k)) := by
  unfold gradient2
  cases np with
  | spacing =>
    simp only
    rw [gradient1_map hs]
    rw [List.zipWith_map, List.map_zipWith]
    simp only [hs.div]
  | coordinates => exact gradientAt_map hs j k f x

omit pl in
theorem inflection_map (np : NpGradient) (j k : ℤ) (ps : List (V3 α)) (axis span : V3 α) :
    inflectionPoints np (ps.map (inUnit s 1)) (inUnit s j axis) (inUnit s k span) =
      (inflectionPoints np ps axis span).map (List.map (inUnit s 1)) := by
  unfold inflectionPoints
  have h1 : ∀ (j : ℤ) (a : V3 α), (ps.map (inUnit s 1)).map (fun p => V3.dot p (inUnit s j a)) =
      (ps.map fun p => V3.dot p a).map (s (1 + j)) := by
    intro j a
    rw [List.map_map, List.map_map]
    apply List.map_congr_left
    intro p _
    exact dot hs 1 j p a
  rw [List.length_map]
  split
  · rfl
  · simp only [h1, gradient1_map hs, gradient2_map hs]
    have h2 : ∀ (m : ℤ) (d : List α), signChanges (d.map (s m)) = signChanges d := by
      intro m d
      unfold signChanges
      simp only [List.length_map, at_map hs, hs.mul, le0 hs]
    rw [h2]
    apply MO.mapM_map
    intro i _
    exact MO.pyIndex_map _ _ _

end

end Blmath.Proofs.RU
