import Verif.Model.Triangle
import Verif.Spec.Plane
import Verif.Proofs.V3
import Verif.Base.Fl
import Mathlib.Tactic.FieldSimp
import Mathlib.Tactic.LinearCombination
import Mathlib.Tactic.NormNum

/-!
Properties C45 (barycentric coordinates) and C46 (surface normals).
-/

namespace Blmath.Props
open Blmath.Geometry Blmath.Spec Blmath.Fl Blmath.Vx

/-- the point with coordinates `b` in the triangle with corner `q` and edges `u`, `v` -/
def baryPoint (b q u v : V3 ℝ) : V3 ℝ := along (along q b.y u) b.z v

/-- `x` is the orthogonal projection of `p` on the plane through `q` spanned by `u` and `v` -/
def IsProjection (x p q u v : V3 ℝ) : Prop :=
  (∃ s t : ℝ, x = along (along q s u) t v) ∧ inner3 (vec3 x p) u = 0 ∧ inner3 (vec3 x p) v = 0

theorem barycentric_real (p q u v : V3 ℝ) (h : cross3 u v ≠ zero3) :
    barycentric p q u v =
      ⟨1 - inner3 (cross3 (vec3 q p) v) (cross3 u v) / inner3 (cross3 u v) (cross3 u v) -
          inner3 (cross3 u (vec3 q p)) (cross3 u v) / inner3 (cross3 u v) (cross3 u v),
        inner3 (cross3 (vec3 q p) v) (cross3 u v) / inner3 (cross3 u v) (cross3 u v),
        inner3 (cross3 u (vec3 q p)) (cross3 u v) / inner3 (cross3 u v) (cross3 u v)⟩ := by
  unfold barycentric
  have hs : ¬ Num.eq (V3.dot (V3.cross u v) (V3.cross u v)) (Num.lit 0 : ℝ) = true := by
    rw [Num.eq_real, Num.lit_real, Rat.cast_zero]
    exact fun h' => h (inner3_self_eq_zero.mp h')
  dsimp only
  rw [if_neg hs]
  simp only [Num.lit_real, Rat.cast_one, V3.dot_real, V3.cross_real, V3.sub_real, mul_one_div]

/-- **C45.** The coordinates sum to one, for every triangle, degenerate ones included. -/
theorem C45_sum (p q u v : V3 ℝ) :
    (barycentric p q u v).x + (barycentric p q u v).y + (barycentric p q u v).z = 1 := by
  unfold barycentric
  simp only [Num.lit_real]
  push_cast
  ring

/-- **C45.** For a nondegenerate triangle the coordinates describe the orthogonal projection of the
point on the triangle's plane, and they are the only ones summing to one that do. -/
theorem C45_projection (p q u v : V3 ℝ) (h : cross3 u v ≠ zero3) :
    IsProjection (baryPoint (barycentric p q u v) q u v) p q u v ∧
    ∀ b : V3 ℝ, b.x + b.y + b.z = 1 → IsProjection (baryPoint b q u v) p q u v →
      b = barycentric p q u v := by
  have hs : inner3 (cross3 u v) (cross3 u v) ≠ 0 := fun h' => h (inner3_self_eq_zero.mp h')
  have hex : IsProjection (baryPoint (barycentric p q u v) q u v) p q u v := by
    refine ⟨⟨_, _, rfl⟩, ?_, ?_⟩
    · rw [barycentric_real p q u v h]
      obtain ⟨S, hS⟩ : ∃ S, S = inner3 (cross3 u v) (cross3 u v) := ⟨_, rfl⟩
      rw [← hS] at hs ⊢
      simp only [baryPoint, along, vec3, inner3]
      field_simp
      rw [hS]
      simp only [cross3, inner3]
      ring
    · rw [barycentric_real p q u v h]
      obtain ⟨S, hS⟩ : ∃ S, S = inner3 (cross3 u v) (cross3 u v) := ⟨_, rfl⟩
      rw [← hS] at hs ⊢
      simp only [baryPoint, along, vec3, inner3]
      field_simp
      rw [hS]
      simp only [cross3, inner3]
      ring
  refine ⟨hex, ?_⟩
  intro b hb ⟨_, h1, h2⟩
  obtain ⟨_, h3, h4⟩ := hex
  have hsum := C45_sum p q u v
  generalize barycentric p q u v = c at *
  simp only [baryPoint, along, vec3, inner3] at h1 h2 h3 h4
  have hdet : inner3 (cross3 u v) (cross3 u v) = inner3 u u * inner3 v v - inner3 u v ^ 2 := lagrange3 u v
  have ey : b.y = c.y := by
    apply mul_left_cancel₀ hs
    rw [hdet]
    simp only [inner3]
    linear_combination (v.x * v.x + v.y * v.y + v.z * v.z) * (h3 - h1) -
      (u.x * v.x + u.y * v.y + u.z * v.z) * (h4 - h2)
  have ez : b.z = c.z := by
    apply mul_left_cancel₀ hs
    rw [hdet]
    simp only [inner3]
    linear_combination (u.x * u.x + u.y * u.y + u.z * u.z) * (h4 - h2) -
      (u.x * v.x + u.y * v.y + u.z * v.z) * (h3 - h1)
  ext
  · linarith
  · exact ey
  · exact ez

/-- **C45.** The corners of the triangle have the unit vectors as coordinates. -/
theorem C45_corners (q u v : V3 ℝ) (h : cross3 u v ≠ zero3) :
    barycentric q q u v = ⟨1, 0, 0⟩ ∧ barycentric (along q 1 u) q u v = ⟨0, 1, 0⟩ ∧
    barycentric (along q 1 v) q u v = ⟨0, 0, 1⟩ := by
  have key : ∀ (b : V3 ℝ) (p : V3 ℝ), b.x + b.y + b.z = 1 → baryPoint b q u v = p →
      barycentric p q u v = b := by
    intro b p hb hp
    refine ((C45_projection p q u v h).2 b hb ?_).symm
    refine ⟨⟨b.y, b.z, rfl⟩, ?_, ?_⟩ <;> rw [hp] <;> simp [inner3, vec3]
  refine ⟨key _ _ (by simp) ?_, key _ _ (by simp) ?_, key _ _ (by simp) ?_⟩ <;>
    ext <;> simp [baryPoint, along]

/-- **C45.** The coordinates are affine in the point. -/
theorem C45_affine (a b q u v : V3 ℝ) (t : ℝ) (h : cross3 u v ≠ zero3) :
    barycentric (along a t (vec3 a b)) q u v =
      along (barycentric a q u v) t (vec3 (barycentric a q u v) (barycentric b q u v)) := by
  rw [barycentric_real _ q u v h, barycentric_real _ q u v h, barycentric_real _ q u v h]
  ext <;> simp only [along, vec3, cross3, inner3] <;> ring

/-- **C45.** Collinear edges: the result is (1, 0, 0), for every point. -/
theorem C45_degenerate (p q u v : V3 ℝ) (h : cross3 u v = zero3) :
    barycentric p q u v = ⟨1, 0, 0⟩ := by
  unfold barycentric
  simp only [V3.dot_real, V3.cross_real, h]
  ext <;> simp [inner3, zero3]

/-- the same with special values at hand: no NaN arises from the degenerate triangle -/
theorem C45_degenerate_float (p q u v : V3 ℝ) (h : cross3 u v = zero3) :
    barycentric (p.map fin) (q.map fin) (u.map fin) (v.map fin) = ⟨fin 1, fin 0, fin 0⟩ := by
  have hx := congrArg V3.x h
  have hy := congrArg V3.y h
  have hz := congrArg V3.z h
  simp only [cross3, zero3] at hx hy hz
  unfold barycentric spacing1
  simp only [V3.cross, V3.dot, V3.map, V3.sub_x, V3.sub_y, V3.sub_z, mul_fin, sub_fin, add_fin, hx, hy, hz,
    lit_fl]
  have : Num.eq (fin (0 * 0 + 0 * 0 + 0 * 0)) (fin ((0 : ℚ) : ℝ)) = true := (eq_fin _ _).mpr (by simp)
  rw [if_pos this, div_fin _ _ (by positivity)]
  simp

/-- **C45.** Stacks are treated point by point, whatever their height; stacks of different heights
raise ValueError. -/
theorem C45_stack {α : Type} [Num α] (p q u v : List (V3 α)) :
    (p.length = q.length ∧ q.length = u.length ∧ u.length = v.length →
      ∃ bs, barycentricStack p q u v = .ok bs ∧ bs.length = p.length ∧
        ∀ (i : ℕ) (a b c d : V3 α), p[i]? = some a → q[i]? = some b → u[i]? = some c →
          v[i]? = some d → bs[i]? = some (barycentric a b c d)) ∧
    (¬ (p.length = q.length ∧ q.length = u.length ∧ u.length = v.length) →
      barycentricStack p q u v = .error .ValueError) := by
  constructor
  · intro h
    unfold barycentricStack
    rw [if_pos h]
    refine ⟨_, rfl, by simp; omega, ?_⟩
    intro i a b c d ha hb hc hd
    simp [List.getElem?_zipWith, List.getElem?_zip_eq_some, ha, hb, hc, hd, List.zip]
  · intro h
    unfold barycentricStack
    rw [if_neg h]

example : cross3 (⟨1, 0, 0⟩ : V3 ℝ) ⟨1, 2, 0⟩ ≠ zero3 := by
  intro h
  have := congrArg V3.z h
  norm_num [cross3, zero3] at this

/-! ### C46 -/

/-- the vertices are on one line -/
def Collinear3 (a b c : V3 ℝ) : Prop := cross3 (vec3 a b) (vec3 a c) = zero3

/-- `Collinear3` says what it should: one difference vector is a multiple of another -/
theorem collinear3_iff (a b c : V3 ℝ) :
    Collinear3 a b c ↔ a = b ∨ ∃ t : ℝ, c = along a t (vec3 a b) := by
  constructor
  · intro h
    by_cases hab : a = b
    · exact Or.inl hab
    · right
      have hx := congrArg V3.x h
      have hy := congrArg V3.y h
      have hz := congrArg V3.z h
      simp only [cross3, vec3, zero3] at hx hy hz
      have hn : inner3 (vec3 a b) (vec3 a b) ≠ 0 := by
        intro h0
        have := inner3_self_eq_zero.mp h0
        apply hab
        have e1 := congrArg V3.x this
        have e2 := congrArg V3.y this
        have e3 := congrArg V3.z this
        simp only [vec3, zero3] at e1 e2 e3
        ext <;> linarith
      refine ⟨inner3 (vec3 a c) (vec3 a b) / inner3 (vec3 a b) (vec3 a b), ?_⟩
      obtain ⟨S, hS⟩ : ∃ S, S = inner3 (vec3 a b) (vec3 a b) := ⟨_, rfl⟩
      rw [← hS] at hn ⊢
      ext <;> simp only [along] <;> field_simp <;> rw [hS] <;> simp only [inner3, vec3]
      · linear_combination (b.y - a.y) * (-hz) + (b.z - a.z) * hy
      · linear_combination (b.x - a.x) * hz - (b.z - a.z) * hx
      · linear_combination (b.y - a.y) * hx - (b.x - a.x) * hy
  · rintro (rfl | ⟨t, rfl⟩)
    · unfold Collinear3; ext <;> simp [cross3, vec3, zero3]
    · unfold Collinear3; ext <;> simp [cross3, vec3, zero3, along] <;> ring

theorem surfaceNormal_raw (a b c : V3 ℝ) :
    surfaceNormal a b c false = cross3 (vec3 a b) (vec3 a c) := rfl

theorem surfaceNormal_unit (a b c : V3 ℝ) :
    surfaceNormal a b c true =
      scale3 (len3 (cross3 (vec3 a b) (vec3 a c)))⁻¹ (cross3 (vec3 a b) (vec3 a c)) := by
  unfold surfaceNormal
  simp only [if_true]
  rw [normalize3_real]
  rfl

/-- **C46.** Not normalised: orthogonal to all three edges, right-handed with the first two edges,
length twice the triangle's area (squared: by Lagrange's identity). -/
theorem C46_raw (a b c : V3 ℝ) :
    inner3 (surfaceNormal a b c false) (vec3 a b) = 0 ∧
    inner3 (surfaceNormal a b c false) (vec3 b c) = 0 ∧
    inner3 (surfaceNormal a b c false) (vec3 c a) = 0 ∧
    (¬ Collinear3 a b c → 0 < det3 (vec3 a b) (vec3 a c) (surfaceNormal a b c false)) ∧
    len3 (surfaceNormal a b c false) ^ 2 =
      dist3 a b ^ 2 * dist3 a c ^ 2 - inner3 (vec3 a b) (vec3 a c) ^ 2 := by
  rw [surfaceNormal_raw]
  refine ⟨?_, ?_, ?_, ?_, ?_⟩
  · simp only [inner3, cross3, vec3]; ring
  · simp only [inner3, cross3, vec3]; ring
  · simp only [inner3, cross3, vec3]; ring
  · intro h
    unfold det3
    exact lt_of_le_of_ne (inner3_self_nonneg _) (fun h' => h (inner3_self_eq_zero.mp h'.symm))
  · rw [← inner3_self, lagrange3]
    unfold dist3
    rw [← inner3_self, ← inner3_self]

/-- **C46.** Normalised, for a triangle with area: unit length, orthogonal to the edges,
right-handed. -/
theorem C46_unit (a b c : V3 ℝ) (h : ¬ Collinear3 a b c) :
    len3 (surfaceNormal a b c) = 1 ∧ inner3 (surfaceNormal a b c) (vec3 a b) = 0 ∧
    inner3 (surfaceNormal a b c) (vec3 b c) = 0 ∧ inner3 (surfaceNormal a b c) (vec3 c a) = 0 ∧
    0 < det3 (vec3 a b) (vec3 a c) (surfaceNormal a b c) := by
  obtain ⟨h1, h2, h3, h4, _⟩ := C46_raw a b c
  rw [surfaceNormal_raw] at h1 h2 h3 h4
  have hl := len3_pos h
  rw [surfaceNormal_unit]
  refine ⟨?_, ?_, ?_, ?_, ?_⟩
  · rw [len3_scale, abs_of_pos (inv_pos.mpr hl), inv_mul_cancel₀ hl.ne']
  · rw [inner3_scale_left, h1, mul_zero]
  · rw [inner3_scale_left, h2, mul_zero]
  · rw [inner3_scale_left, h3, mul_zero]
  · unfold det3 at h4 ⊢
    rw [inner3_scale_right]
    exact mul_pos (inv_pos.mpr hl) (h4 h)

/-- **C46.** Swapping two vertices reverses the normal; rotating the vertices or moving the triangle
does not change it, normalised or not. -/
theorem C46_symmetry (a b c t : V3 ℝ) (n : Bool) :
    surfaceNormal a c b n = scale3 (-1) (surfaceNormal a b c n) ∧
    surfaceNormal b a c n = scale3 (-1) (surfaceNormal a b c n) ∧
    surfaceNormal b c a n = surfaceNormal a b c n ∧
    surfaceNormal (along a 1 t) (along b 1 t) (along c 1 t) n = surfaceNormal a b c n := by
  have e1 : cross3 (vec3 a c) (vec3 a b) = scale3 (-1) (cross3 (vec3 a b) (vec3 a c)) := by
    ext <;> simp only [cross3, vec3, scale3] <;> ring
  have e2 : cross3 (vec3 b a) (vec3 b c) = scale3 (-1) (cross3 (vec3 a b) (vec3 a c)) := by
    ext <;> simp only [cross3, vec3, scale3] <;> ring
  have e3 : cross3 (vec3 b c) (vec3 b a) = cross3 (vec3 a b) (vec3 a c) := by
    ext <;> simp only [cross3, vec3] <;> ring
  have e4 : cross3 (vec3 (along a 1 t) (along b 1 t)) (vec3 (along a 1 t) (along c 1 t)) =
      cross3 (vec3 a b) (vec3 a c) := by
    ext <;> simp only [cross3, vec3, along] <;> ring
  cases n with
  | false =>
    simp only [surfaceNormal_raw]
    exact ⟨e1, e2, e3, e4⟩
  | true =>
    simp only [surfaceNormal_unit, e1, e2, e3, e4, len3_scale, abs_neg, abs_one, one_mul, scale3_scale3]
    refine ⟨?_, ?_, ?_, ?_⟩ <;> first | trivial | (congr 1; ring)

/-- **C46.** A triangle without area gets NaN in every component. -/
theorem C46_degenerate (a b c : V3 ℝ) (h : Collinear3 a b c) :
    surfaceNormal (a.map fin) (b.map fin) (c.map fin) = ⟨nan, nan, nan⟩ := by
  have hx := congrArg V3.x h
  have hy := congrArg V3.y h
  have hz := congrArg V3.z h
  simp only [cross3, zero3, vec3] at hx hy hz
  unfold surfaceNormal normalize3
  simp only [if_true, V3.cross, V3.map, V3.sub_x, V3.sub_y, V3.sub_z, sub_fin, mul_fin, hx, hy, hz, V3.norm,
    V3.dot, add_fin, V3.sdiv]
  rw [sqrt_fin _ (by simp)]
  simp [div_zero_zero]

/-- **C46.** Stacks of any height: one normal per triangle, in order. -/
theorem C46_stack {α : Type} [Num α] (ts : List (V3 α × V3 α × V3 α)) (n : Bool) :
    (surfaceNormals ts n).length = ts.length ∧
    ∀ (i : ℕ) (t : V3 α × V3 α × V3 α), ts[i]? = some t →
      (surfaceNormals ts n)[i]? = some (surfaceNormal t.1 t.2.1 t.2.2 n) := by
  refine ⟨by simp [surfaceNormals], ?_⟩
  intro i t ht
  simp [surfaceNormals, ht]

example : ¬ Collinear3 (⟨0, 0, 0⟩ : V3 ℝ) ⟨1, 0, 0⟩ ⟨1, 2, 0⟩ := by
  intro h
  have := congrArg V3.z h
  norm_num [cross3, zero3, vec3] at this

example : Collinear3 (⟨0, 0, 0⟩ : V3 ℝ) ⟨1, 1, 0⟩ ⟨2, 2, 0⟩ :=
  (collinear3_iff _ _ _).mpr (Or.inr ⟨2, by ext <;> simp [along, vec3]⟩)

end Blmath.Props
