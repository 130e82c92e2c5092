import Verif.Model.Box
import Verif.Base.Fl
import Verif.Spec.Geom
import Mathlib.Tactic.NormNum
import Mathlib.Tactic.Positivity

/-!
Property C33: boxes.
-/

namespace Blmath.Props
open Blmath.Geometry Blmath.Spec Blmath.Fl

/-- the point is in the closed cuboid with least corner `o` and side lengths `s` -/
def InBox (o s p : V3 ℝ) : Prop :=
  (o.x ≤ p.x ∧ p.x ≤ o.x + s.x) ∧ (o.y ≤ p.y ∧ p.y ≤ o.y + s.y) ∧ (o.z ≤ p.z ∧ p.z ≤ o.z + s.z)

/-- what the constructor guarantees about the side lengths -/
def GoodBox (b : Box ℝ) : Prop := 0 ≤ b.shape.x ∧ 0 ≤ b.shape.y ∧ 0 ≤ b.shape.z

theorem asNumeric3_ok (xs : List Fl) (v : V3 Fl) :
    asNumeric3 xs = .ok v ↔ ∃ x y z : ℝ, xs = [fin x, fin y, fin z] ∧ v = ⟨fin x, fin y, fin z⟩ := by
  have hbad : ∀ x : Fl, (npIsNan x || npIsInf x) = true ↔ ¬ ∃ r, x = fin r := by
    intro x
    cases x with
    | fin r =>
      have h1 : Num.eq (fin r) (fin r) = true := (eq_fin r r).mpr rfl
      have h2 : Num.eq (fin (0 : ℝ)) (fin 0) = true := (eq_fin 0 0).mpr rfl
      simp [npIsNan, npIsInf, h1, h2]
    | pinf =>
      have h1 : Num.eq pinf pinf = true := rfl
      have h2 : (pinf - pinf : Fl) = nan := rfl
      simp [npIsNan, npIsInf, h1, h2]
    | ninf =>
      have h1 : Num.eq ninf ninf = true := rfl
      have h2 : (ninf - ninf : Fl) = nan := rfl
      simp [npIsNan, npIsInf, h1, h2]
    | nan => simp [npIsNan]
  unfold asNumeric3
  by_cases h : (xs.any fun x => npIsNan x || npIsInf x) = true
  · rw [if_pos h]
    constructor
    · intro h'; cases h'
    · rintro ⟨x, y, z, rfl, _⟩
      rw [List.any_eq_true] at h
      obtain ⟨a, ha, hb⟩ := h
      rw [hbad] at hb
      simp only [List.mem_cons, List.not_mem_nil, or_false] at ha
      rcases ha with rfl | rfl | rfl <;> exact absurd ⟨_, rfl⟩ hb
  · rw [if_neg h]
    have hall : ∀ a ∈ xs, ∃ r, a = fin r := by
      intro a ha
      by_contra hc
      exact h (List.any_eq_true.mpr ⟨a, ha, (hbad a).mpr hc⟩)
    match xs, hall with
    | [a, b, c], hall =>
      obtain ⟨x, rfl⟩ := hall a (by simp)
      obtain ⟨y, rfl⟩ := hall b (by simp)
      obtain ⟨z, rfl⟩ := hall c (by simp)
      constructor
      · intro h'
        injection h' with h'
        exact ⟨x, y, z, rfl, h'.symm⟩
      · rintro ⟨x', y', z', h1, rfl⟩
        simp only [List.cons.injEq, and_true] at h1
        rw [h1.1, h1.2.1, h1.2.2]
    | [], _ => simp
    | [_], _ => simp
    | [_, _], _ => simp
    | _ :: _ :: _ :: _ :: _, _ => simp

/-- **C33.** The constructor accepts exactly three finite origin coordinates with three finite,
nonnegative side lengths; everything else raises ValueError. -/
theorem C33_construct (o s : List Fl) (k : ElemKind) (b : Box Fl) :
    (Box.mk' o s k = .ok b ↔ ∃ x y z dx dy dz : ℝ, o = [fin x, fin y, fin z] ∧
      s = [fin dx, fin dy, fin dz] ∧ 0 ≤ dx ∧ 0 ≤ dy ∧ 0 ≤ dz ∧
      b = ⟨⟨fin x, fin y, fin z⟩, ⟨fin dx, fin dy, fin dz⟩, k⟩) ∧
    ((¬ ∃ b, Box.mk' o s k = .ok b) → Box.mk' o s k = .error .ValueError) := by
  constructor
  · unfold Box.mk'
    simp only [bind_eq_ok, asNumeric3_ok]
    constructor
    · rintro ⟨_, ⟨x, y, z, rfl, rfl⟩, _, ⟨dx, dy, dz, rfl, rfl⟩, h⟩
      simp only [lit_fl, Rat.cast_zero] at h
      split at h
      · cases h
      · rename_i hneg
        simp only [Bool.or_eq_true, lt_fin, not_or, not_lt] at hneg
        injection h with h
        exact ⟨x, y, z, dx, dy, dz, rfl, rfl, hneg.1.1, hneg.1.2, hneg.2, h.symm⟩
    · rintro ⟨x, y, z, dx, dy, dz, rfl, rfl, h1, h2, h3, rfl⟩
      refine ⟨_, ⟨x, y, z, rfl, rfl⟩, _, ⟨dx, dy, dz, rfl, rfl⟩, ?_⟩
      simp only [lit_fl, Rat.cast_zero]
      rw [if_neg (by
        simp only [Bool.or_eq_true, lt_fin, not_or, not_lt]
        exact ⟨⟨h1, h2⟩, h3⟩)]
      rfl
  · intro h
    have hraise : ∀ (xs : List Fl) e, asNumeric3 xs = .error e → e = .ValueError := by
      intro xs e he
      unfold asNumeric3 at he
      split at he
      · injection he with he; exact he.symm
      · split at he
        · cases he
        · injection he with he; exact he.symm
    cases h1 : asNumeric3 o with
    | error e => unfold Box.mk'; rw [h1, hraise _ _ h1]; rfl
    | ok v =>
      cases h2 : asNumeric3 s with
      | error e => unfold Box.mk'; rw [h1, h2, hraise _ _ h2]; rfl
      | ok w =>
        unfold Box.mk' at h ⊢
        rw [h1, h2] at h ⊢
        simp only [ok_bind] at h ⊢
        split
        · rfl
        · rename_i hc
          rw [if_neg hc] at h
          exact absurd ⟨_, rfl⟩ h

theorem npMinMax_real (a b : ℝ) : npMin a b = min a b ∧ npMax a b = max a b := by
  have hnan : ∀ x : ℝ, npIsNan x = false := by
    intro x
    have : Num.eq x x = true := (Num.eq_real x x).mpr rfl
    simp [npIsNan, this]
  unfold npMin npMax
  rw [hnan, hnan]
  simp only [Bool.false_eq_true, if_false, Num.lt_real]
  constructor
  · split
    · rename_i h; rw [min_eq_right h.le]
    · rename_i h; rw [min_eq_left (not_lt.mp h)]
  · split
    · rename_i h; rw [max_eq_right h.le]
    · rename_i h; rw [max_eq_left (not_lt.mp h)]

/-- **C33.** The rows of `ranges` are the (min, max) attributes of the axes, in order, with
min ≤ max, and they describe exactly the points of the cuboid. -/
theorem C33_ranges (b : Box ℝ) (h : GoodBox b) :
    b.ranges = [(b.minX, b.maxX), (b.minY, b.maxY), (b.minZ, b.maxZ)] ∧
    b.minX ≤ b.maxX ∧ b.minY ≤ b.maxY ∧ b.minZ ≤ b.maxZ ∧
    b.maxX - b.minX = b.width ∧ b.maxY - b.minY = b.height ∧ b.maxZ - b.minZ = b.depth ∧
    ∀ p : V3 ℝ, InBox b.origin b.shape p ↔
      (b.minX ≤ p.x ∧ p.x ≤ b.maxX) ∧ (b.minY ≤ p.y ∧ p.y ≤ b.maxY) ∧
      (b.minZ ≤ p.z ∧ p.z ≤ b.maxZ) := by
  obtain ⟨h1, h2, h3⟩ := h
  refine ⟨?_, ?_, ?_, ?_, ?_, ?_, ?_, ?_⟩
  · simp only [Box.ranges, Box.minX, Box.minY, Box.minZ, Box.maxX, Box.maxY, Box.maxZ,
      (npMinMax_real _ _).1, (npMinMax_real _ _).2]
    rw [min_eq_left (by linarith), max_eq_right (by linarith), min_eq_left (by linarith),
      max_eq_right (by linarith), min_eq_left (by linarith), max_eq_right (by linarith)]
  · simp only [Box.minX, Box.maxX]; linarith
  · simp only [Box.minY, Box.maxY]; linarith
  · simp only [Box.minZ, Box.maxZ]; linarith
  · simp only [Box.minX, Box.maxX, Box.width]; ring
  · simp only [Box.minY, Box.maxY, Box.height]; ring
  · simp only [Box.minZ, Box.maxZ, Box.depth]; ring
  · intro p; rfl

/-- **C33.** The centre point is in the box and halfway between the bounds on every axis; the floor
point is straight below it on the lower face. -/
theorem C33_center (b : Box ℝ) (h : GoodBox b) :
    InBox b.origin b.shape b.centerPoint ∧ InBox b.origin b.shape b.floorPoint ∧
    b.centerPoint.x - b.minX = b.maxX - b.centerPoint.x ∧
    b.centerPoint.y - b.minY = b.maxY - b.centerPoint.y ∧
    b.centerPoint.z - b.minZ = b.maxZ - b.centerPoint.z ∧
    b.floorPoint.x = b.centerPoint.x ∧ b.floorPoint.z = b.centerPoint.z ∧
    b.floorPoint.y = b.minY ∧ b.floorPoint.y ≤ b.centerPoint.y := by
  obtain ⟨h1, h2, h3⟩ := h
  simp only [InBox, Box.centerPoint, Box.floorPoint, Box.minX, Box.minY, Box.minZ, Box.maxX, Box.maxY,
    Box.maxZ, V3.add_x, V3.add_y, V3.add_z, V3.smul_x, V3.smul_y, V3.smul_z, Num.lit_real]
  push_cast
  refine ⟨⟨⟨?_, ?_⟩, ⟨?_, ?_⟩, ⟨?_, ?_⟩⟩, ⟨⟨?_, ?_⟩, ⟨?_, ?_⟩, ⟨?_, ?_⟩⟩, ?_, ?_, ?_, ?_, ?_, ?_, ?_⟩ <;>
    first | trivial | linarith

/-- **C33.** In Python 3, or for a float shape, the mid attributes are the coordinates of the centre point. -/
theorem C33_mid (b : Box ℝ) (ver : PyVer) (h : ver = .py3 ∨ b.shapeKind = .float) :
    b.centerPoint = ⟨b.midX ver, b.midY ver, b.midZ ver⟩ := by
  have hh : ∀ s : ℝ, Box.half ver b.shapeKind s = s / 2 := by
    intro s
    unfold Box.half
    rcases h with h | h
    · subst h; simp
    · rw [h]; cases ver <;> simp
  ext <;> simp only [Box.centerPoint, Box.midX, Box.midY, Box.midZ, hh, V3.add_x, V3.add_y, V3.add_z,
    V3.smul_x, V3.smul_y, V3.smul_z, Num.lit_real] <;> push_cast <;> ring

/-- **C33.** In every case the mid attributes are in the box. -/
theorem C33_mid_inside (b : Box ℝ) (h : GoodBox b) (ver : PyVer) :
    InBox b.origin b.shape ⟨b.midX ver, b.midY ver, b.midZ ver⟩ := by
  have hh : ∀ s : ℝ, 0 ≤ s → 0 ≤ Box.half ver b.shapeKind s ∧ Box.half ver b.shapeKind s ≤ s := by
    intro s hs
    have e1 : 0 ≤ s / 2 ∧ s / 2 ≤ s := ⟨by linarith, by linarith⟩
    have e2 : (0 : ℝ) ≤ (⌊s / 2⌋ : ℤ) ∧ ((⌊s / 2⌋ : ℤ) : ℝ) ≤ s := by
      constructor
      · exact_mod_cast Int.floor_nonneg.mpr e1.1
      · exact le_trans (Int.floor_le _) e1.2
    unfold Box.half
    cases ver <;> cases b.shapeKind <;> simp [Box.litFloor, e1] <;> exact_mod_cast e2
  obtain ⟨h1, h2, h3⟩ := h
  have a := hh _ h1
  have b' := hh _ h2
  have c := hh _ h3
  simp only [InBox, Box.midX, Box.midY, Box.midZ]
  refine ⟨⟨?_, ?_⟩, ⟨?_, ?_⟩, ⟨?_, ?_⟩⟩ <;> linarith

/-- **C33.** In Python 2 with an integer shape the mid attributes are rounded down to whole distances from the origin:
they are those of the centre exactly for even side lengths. -/
theorem C33_mid_python2 (b : Box ℝ) (h : b.shapeKind = .int) :
    (b.midX .py2 = b.origin.x + ⌊b.shape.x / 2⌋ ∧ b.midY .py2 = b.origin.y + ⌊b.shape.y / 2⌋ ∧
      b.midZ .py2 = b.origin.z + ⌊b.shape.z / 2⌋) ∧
    (b.midX .py2 = b.centerPoint.x ↔ ∃ k : ℤ, b.shape.x = 2 * k) ∧
    (b.midY .py2 = b.centerPoint.y ↔ ∃ k : ℤ, b.shape.y = 2 * k) ∧
    (b.midZ .py2 = b.centerPoint.z ↔ ∃ k : ℤ, b.shape.z = 2 * k) := by
  have hh : ∀ s : ℝ, Box.half .py2 b.shapeKind s = ⌊s / 2⌋ := by
    intro s
    rw [h]
    simp [Box.half, Box.litFloor]
  have key : ∀ o s : ℝ, (o + (⌊s / 2⌋ : ℤ) = o + ((1 / 2 : ℚ) : ℝ) * s ↔ ∃ k : ℤ, s = 2 * k) := by
    intro o s
    push_cast
    constructor
    · intro h
      exact ⟨⌊s / 2⌋, by linarith⟩
    · rintro ⟨k, rfl⟩
      have : (2 * (k : ℝ)) / 2 = k := by ring
      rw [this, Int.floor_intCast]
      ring
  simp only [Box.midX, Box.midY, Box.midZ, hh, Box.centerPoint, V3.add_x, V3.add_y, V3.add_z, V3.smul_x, V3.smul_y,
    V3.smul_z, Num.lit_real, true_and, key]

/-- **C33, a consequence.** With an integer shape in Python 2, `mid_x` of a box of width 3 is 1, while the
centre is at 1.5. -/
theorem C33_mid_rounded :
    let b : Box ℝ := ⟨⟨0, 0, 0⟩, ⟨3, 2, 2⟩, .int⟩
    GoodBox b ∧ b.midX .py2 = 1 ∧ b.centerPoint.x = 3 / 2 := by
  refine ⟨⟨by norm_num, by norm_num, by norm_num⟩, ?_, ?_⟩
  · have : ⌊(3 : ℝ) / 2⌋ = 1 := by norm_num [Int.floor_eq_iff]
    simp [Box.midX, Box.half, Box.litFloor, this]
  · simp only [Box.centerPoint, V3.add_x, V3.smul_x, Num.lit_real]; norm_num

/-- **C33.** Volume is the product of the three side lengths and area the total of the six faces;
both are nonnegative and do not depend on the order of the axes. -/
theorem C33_measure (b : Box ℝ) (h : GoodBox b) :
    b.volume = b.width * b.height * b.depth ∧
    b.surfaceArea = 2 * (b.width * b.height) + 2 * (b.width * b.depth) + 2 * (b.height * b.depth) ∧
    0 ≤ b.volume ∧ 0 ≤ b.surfaceArea ∧
    (∀ k, (⟨⟨b.origin.y, b.origin.x, b.origin.z⟩, ⟨b.shape.y, b.shape.x, b.shape.z⟩, k⟩ : Box ℝ).volume
      = b.volume) ∧
    (∀ k, (⟨⟨b.origin.y, b.origin.z, b.origin.x⟩, ⟨b.shape.y, b.shape.z, b.shape.x⟩, k⟩ : Box ℝ).volume
      = b.volume) ∧
    (∀ k, (⟨⟨b.origin.y, b.origin.x, b.origin.z⟩, ⟨b.shape.y, b.shape.x, b.shape.z⟩, k⟩ :
      Box ℝ).surfaceArea = b.surfaceArea) ∧
    (∀ k, (⟨⟨b.origin.y, b.origin.z, b.origin.x⟩, ⟨b.shape.y, b.shape.z, b.shape.x⟩, k⟩ :
      Box ℝ).surfaceArea = b.surfaceArea) := by
  obtain ⟨h1, h2, h3⟩ := h
  simp only [Box.volume, Box.surfaceArea, Box.width, Box.height, Box.depth, Num.lit_real]
  push_cast
  refine ⟨?_, by ring, by positivity, by positivity, ?_, ?_, ?_, ?_⟩
  · first | trivial | ring
  all_goals intro _; ring

example : Box.mk' [fin 1, fin 2, fin 3] [fin 4, fin 0, fin 5] .float =
    .ok ⟨⟨fin 1, fin 2, fin 3⟩, ⟨fin 4, fin 0, fin 5⟩, .float⟩ :=
  (C33_construct _ _ _ _).1.mpr ⟨1, 2, 3, 4, 0, 5, rfl, rfl, by norm_num, by norm_num, by norm_num, rfl⟩

example : GoodBox ⟨⟨1, 2, 3⟩, ⟨4, 0, 5⟩, .float⟩ := ⟨by norm_num, by norm_num, by norm_num⟩

end Blmath.Props
