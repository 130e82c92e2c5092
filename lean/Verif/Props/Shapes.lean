import Verif.Model.Shapes
import Verif.Spec.Surface
import Verif.Props.Plane
import Verif.Proofs.Polyline
import Mathlib.Tactic.Positivity
import Mathlib.Tactic.FieldSimp

/-!
Property C47: generated solids.
-/

namespace Blmath.Props
open Blmath.Geometry Blmath.Spec Blmath.Proofs Blmath.Vx

/-- **C47.** The rectangular prism (and cube) is watertight, however the quads are split. -/
theorem C47_prism_watertight (diag : ℕ → Bool) (origin size : V3 ℝ) :
    Watertight (createRectangularPrism diag origin size).2 := by
  have key : ∀ b0 b1 b2 b3 b4 b5 : Bool, Watertight
      (splitQuad b0 0 1 2 3 ++ (splitQuad b1 7 6 5 4 ++ (splitQuad b2 4 5 1 0 ++
        (splitQuad b3 5 6 2 1 ++ (splitQuad b4 6 7 3 2 ++ (splitQuad b5 3 7 4 0 ++ [])))))) := by
    decide
  exact key _ _ _ _ _ _

/-- **C47.** The vertices of the prism are the eight corners: each coordinate is that of `origin` or
that of `origin + size`. -/
theorem C47_prism_corners (diag : ℕ → Bool) (o s q : V3 ℝ) :
    (createRectangularPrism diag o s).1.length = 8 ∧
    (q ∈ (createRectangularPrism diag o s).1 ↔
      (q.x = o.x ∨ q.x = o.x + s.x) ∧ (q.y = o.y ∨ q.y = o.y + s.y) ∧ (q.z = o.z ∨ q.z = o.z + s.z)) := by
  refine ⟨rfl, ?_⟩
  obtain ⟨qx, qy, qz⟩ := q
  obtain ⟨ox, oy, oz⟩ := o
  obtain ⟨sx, sy, sz⟩ := s
  simp only [createRectangularPrism, prismVertices, List.map_cons, List.map_nil, List.cons_append, List.nil_append,
    List.mem_cons, List.not_mem_nil, or_false, V3.ext_iff, V3.add_x, V3.add_y, V3.add_z, Num.lit_real]
  push_cast
  simp only [add_zero]
  tauto

theorem flatten_ok (v : List (V3 ℝ)) (faces : List (ℕ × ℕ × ℕ)) (ts : List (V3 ℝ × V3 ℝ × V3 ℝ))
    (h : faces.map (corners v) = ts.map some) : flattenFaces v faces = .ok ts := by
  unfold flattenFaces
  induction faces generalizing ts with
  | nil => cases ts <;> simp_all
  | cons f fs ih =>
    cases ts with
    | nil => simp at h
    | cons t ts =>
      simp only [List.map_cons, List.cons.injEq] at h
      rw [List.mapM_cons, ih ts h.2]
      have h1 := h.1
      unfold corners at h1
      simp only [Option.bind_eq_bind, Option.bind_eq_some_iff] at h1
      obtain ⟨a, ha, b, hb, c, hc, ht⟩ := h1
      rw [pyIndex_of_getElem? ha, pyIndex_of_getElem? hb, pyIndex_of_getElem? hc]
      injection ht with ht
      subst ht
      rfl

/-- **C47.** The triangles of the prism: they enclose the volume `sx · sy · sz`, and, for a positive
size, the whole solid is behind each of them, so they all face outward. -/
theorem C47_prism_volume (diag : ℕ → Bool) (o s : V3 ℝ) :
    ∃ ts, flattenFaces (createRectangularPrism diag o s).1 (createRectangularPrism diag o s).2 = .ok ts ∧
      ts.length = 12 ∧ signedVolume ts = s.x * s.y * s.z ∧
      (0 < s.x → 0 < s.y → 0 < s.z → ∀ t ∈ ts, ∀ q ∈ (createRectangularPrism diag o s).1, Behind t q) := by
  obtain ⟨ox, oy, oz⟩ := o
  obtain ⟨sx, sy, sz⟩ := s
  have tri : ∀ b (i j k l : ℕ) (a0 a1 a2 a3 : V3 ℝ), (createRectangularPrism diag ⟨ox, oy, oz⟩ ⟨sx, sy, sz⟩).1[i]? = some a0 →
      (createRectangularPrism diag ⟨ox, oy, oz⟩ ⟨sx, sy, sz⟩).1[j]? = some a1 →
      (createRectangularPrism diag ⟨ox, oy, oz⟩ ⟨sx, sy, sz⟩).1[k]? = some a2 →
      (createRectangularPrism diag ⟨ox, oy, oz⟩ ⟨sx, sy, sz⟩).1[l]? = some a3 →
      (splitQuad b i j k l).map (corners (createRectangularPrism diag ⟨ox, oy, oz⟩ ⟨sx, sy, sz⟩).1) =
        (if b then [(a0, a1, a2), (a0, a2, a3)] else [(a1, a2, a3), (a1, a3, a0)]).map some := by
    intro b i j k l a0 a1 a2 a3 h0 h1 h2 h3
    cases b <;> simp [splitQuad, corners, h0, h1, h2, h3]
  let w : ℝ → ℝ → ℝ → V3 ℝ := fun a b c => ⟨ox + a, oy + b, oz + c⟩
  have hv : (createRectangularPrism diag ⟨ox, oy, oz⟩ ⟨sx, sy, sz⟩).1 =
      [w 0 0 0, w sx 0 0, w sx 0 sz, w 0 0 sz, w 0 sy 0, w sx sy 0, w sx sy sz, w 0 sy sz] := by
    simp [createRectangularPrism, prismVertices, w, V3.ext_iff]
  have hq : ∀ b (a0 a1 a2 a3 : V3 ℝ), ((if b = true then [(a0, a1, a2), (a0, a2, a3)] else [(a1, a2, a3), (a1, a3, a0)]).map tet6).sum =
      if b = true then tet6 (a0, a1, a2) + tet6 (a0, a2, a3) else tet6 (a1, a2, a3) + tet6 (a1, a3, a0) := by
    intro b a0 a1 a2 a3
    cases b <;> simp
  let qd : Bool → V3 ℝ → V3 ℝ → V3 ℝ → V3 ℝ → List (V3 ℝ × V3 ℝ × V3 ℝ) := fun b a0 a1 a2 a3 =>
    if b then [(a0, a1, a2), (a0, a2, a3)] else [(a1, a2, a3), (a1, a3, a0)]
  refine ⟨qd (diag 0) (w 0 0 0) (w sx 0 0) (w sx 0 sz) (w 0 0 sz) ++
    (qd (diag 1) (w 0 sy sz) (w sx sy sz) (w sx sy 0) (w 0 sy 0) ++
    (qd (diag 2) (w 0 sy 0) (w sx sy 0) (w sx 0 0) (w 0 0 0) ++
    (qd (diag 3) (w sx sy 0) (w sx sy sz) (w sx 0 sz) (w sx 0 0) ++
    (qd (diag 4) (w sx sy sz) (w 0 sy sz) (w 0 0 sz) (w sx 0 sz) ++
    (qd (diag 5) (w 0 0 sz) (w 0 sy sz) (w 0 sy 0) (w 0 0 0) ++ []))))), ?_, ?_, ?_, ?_⟩
  · apply flatten_ok
    have hf : (createRectangularPrism diag (⟨ox, oy, oz⟩ : V3 ℝ) ⟨sx, sy, sz⟩).2 = splitQuad (diag 0) 0 1 2 3 ++ (splitQuad (diag 1) 7 6 5 4 ++
      (splitQuad (diag 2) 4 5 1 0 ++ (splitQuad (diag 3) 5 6 2 1 ++ (splitQuad (diag 4) 6 7 3 2 ++
        (splitQuad (diag 5) 3 7 4 0 ++ []))))) := rfl
    rw [hf]
    simp only [List.map_append]
    rw [tri (diag 0) 0 1 2 3 (w 0 0 0) (w sx 0 0) (w sx 0 sz) (w 0 0 sz) (by rw [hv]; rfl) (by rw [hv]; rfl) (by rw [hv]; rfl) (by rw [hv]; rfl),
      tri (diag 1) 7 6 5 4 (w 0 sy sz) (w sx sy sz) (w sx sy 0) (w 0 sy 0) (by rw [hv]; rfl) (by rw [hv]; rfl) (by rw [hv]; rfl) (by rw [hv]; rfl),
      tri (diag 2) 4 5 1 0 (w 0 sy 0) (w sx sy 0) (w sx 0 0) (w 0 0 0) (by rw [hv]; rfl) (by rw [hv]; rfl) (by rw [hv]; rfl) (by rw [hv]; rfl),
      tri (diag 3) 5 6 2 1 (w sx sy 0) (w sx sy sz) (w sx 0 sz) (w sx 0 0) (by rw [hv]; rfl) (by rw [hv]; rfl) (by rw [hv]; rfl) (by rw [hv]; rfl),
      tri (diag 4) 6 7 3 2 (w sx sy sz) (w 0 sy sz) (w 0 0 sz) (w sx 0 sz) (by rw [hv]; rfl) (by rw [hv]; rfl) (by rw [hv]; rfl) (by rw [hv]; rfl),
      tri (diag 5) 3 7 4 0 (w 0 0 sz) (w 0 sy sz) (w 0 sy 0) (w 0 0 0) (by rw [hv]; rfl) (by rw [hv]; rfl) (by rw [hv]; rfl) (by rw [hv]; rfl)]
    rfl
  · have : ∀ b a0 a1 a2 a3, (qd b a0 a1 a2 a3).length = 2 := by intro b _ _ _ _; cases b <;> rfl
    simp [this]
  · unfold signedVolume
    simp only [List.map_append, List.sum_append, qd, hq, List.map_nil, List.sum_nil]
    have e0 : (if diag 0 = true then tet6 (w 0 0 0, w sx 0 0, w sx 0 sz) + tet6 (w 0 0 0, w sx 0 sz, w 0 0 sz)
      else tet6 (w sx 0 0, w sx 0 sz, w 0 0 sz) + tet6 (w sx 0 0, w 0 0 sz, w 0 0 0)) = -2 * oy * sx * sz := by
      split <;> simp only [tet6, inner3, cross3, w] <;> ring
    have e1 : (if diag 1 = true then tet6 (w 0 sy sz, w sx sy sz, w sx sy 0) + tet6 (w 0 sy sz, w sx sy 0, w 0 sy 0)
      else tet6 (w sx sy sz, w sx sy 0, w 0 sy 0) + tet6 (w sx sy sz, w 0 sy 0, w 0 sy sz)) = 2 * (oy + sy) * sx * sz := by
      split <;> simp only [tet6, inner3, cross3, w] <;> ring
    have e2 : (if diag 2 = true then tet6 (w 0 sy 0, w sx sy 0, w sx 0 0) + tet6 (w 0 sy 0, w sx 0 0, w 0 0 0)
      else tet6 (w sx sy 0, w sx 0 0, w 0 0 0) + tet6 (w sx sy 0, w 0 0 0, w 0 sy 0)) = -2 * oz * sx * sy := by
      split <;> simp only [tet6, inner3, cross3, w] <;> ring
    have e3 : (if diag 3 = true then tet6 (w sx sy 0, w sx sy sz, w sx 0 sz) + tet6 (w sx sy 0, w sx 0 sz, w sx 0 0)
      else tet6 (w sx sy sz, w sx 0 sz, w sx 0 0) + tet6 (w sx sy sz, w sx 0 0, w sx sy 0)) = 2 * (ox + sx) * sy * sz := by
      split <;> simp only [tet6, inner3, cross3, w] <;> ring
    have e4 : (if diag 4 = true then tet6 (w sx sy sz, w 0 sy sz, w 0 0 sz) + tet6 (w sx sy sz, w 0 0 sz, w sx 0 sz)
      else tet6 (w 0 sy sz, w 0 0 sz, w sx 0 sz) + tet6 (w 0 sy sz, w sx 0 sz, w sx sy sz)) = 2 * (oz + sz) * sx * sy := by
      split <;> simp only [tet6, inner3, cross3, w] <;> ring
    have e5 : (if diag 5 = true then tet6 (w 0 0 sz, w 0 sy sz, w 0 sy 0) + tet6 (w 0 0 sz, w 0 sy 0, w 0 0 0)
      else tet6 (w 0 sy sz, w 0 sy 0, w 0 0 0) + tet6 (w 0 sy sz, w 0 0 0, w 0 0 sz)) = -2 * ox * sy * sz := by
      split <;> simp only [tet6, inner3, cross3, w] <;> ring
    rw [e0, e1, e2, e3, e4, e5]
    ring
  · intro hx hy hz t ht q hq
    rw [hv] at hq
    have hp := mul_pos (mul_pos hx hy) hz
    have quad : ∀ b (a0 a1 a2 a3 : V3 ℝ), (Behind (a0, a1, a2) q ∧ Behind (a0, a2, a3) q ∧ Behind (a1, a2, a3) q ∧ Behind (a1, a3, a0) q) →
        t ∈ qd b a0 a1 a2 a3 → Behind t q := by
      rintro b a0 a1 a2 a3 ⟨h1, h2, h3, h4⟩ h
      cases b <;> simp [qd] at h <;> rcases h with rfl | rfl <;> assumption
    simp only [List.mem_append, List.not_mem_nil, or_false] at ht
    simp only [List.mem_cons, List.not_mem_nil, or_false] at hq
    have fin : ∀ x : ℝ, (x = 0 ∨ x = -(sx * sy * sz)) → x ≤ 0 := by
      rintro x (rfl | rfl)
      · exact le_rfl
      · linarith
    rcases ht with ht | ht | ht | ht | ht | ht <;> refine quad _ _ _ _ _ ?_ ht <;>
      rcases hq with rfl | rfl | rfl | rfl | rfl | rfl | rfl | rfl <;>
      refine ⟨?_, ?_, ?_, ?_⟩ <;> unfold Behind <;> apply fin <;>
      simp only [inner3, cross3, vec3, w] <;>
      first
        | (left; ring; done)
        | (right; ring; done)

/-- **C47.** The cube is the prism with three equal sizes. -/
theorem C47_cube (diag : ℕ → Bool) (o : V3 ℝ) (s : ℝ) :
    createCube diag o s = createRectangularPrism diag o ⟨s, s, s⟩ := rfl

/-- **C47.** The triangular prism is watertight. -/
theorem C47_tri_watertight : Watertight triPrismFaces := by decide

/-- **C47.** The triangular prism over a triangle that spans a plane: the base, and its copy shifted
by `height` against the unit normal of the base; it encloses the volume area · height, and for a
positive height the solid is behind every face. -/
theorem C47_tri_prism (p1 p2 p3 : V3 ℝ) (h : ℝ) (pl : Plane ℝ) (hpl : Plane.fromPoints p1 p2 p3 = .ok pl) :
    ∃ s, s = scale3 (-h) pl.n ∧
      createTriangularPrism p1 p2 p3 h = .ok ([p1, p2, p3, p1 + s, p2 + s, p3 + s], triPrismFaces) ∧
      ∃ ts, flattenFaces [p1, p2, p3, p1 + s, p2 + s, p3 + s] triPrismFaces = .ok ts ∧
        signedVolume ts = len3 (cross3 (vec3 p1 p2) (vec3 p1 p3)) / 2 * h ∧
        (0 < h → ∀ t ∈ ts, ∀ q ∈ [p1, p2, p3, p1 + s, p2 + s, p3 + s], Behind t q) := by
  have hn : pl.n = normalize3 (cross3 (vec3 p1 p2) (vec3 p1 p3)) ∧ almostZero (cross3 (vec3 p1 p2) (vec3 p1 p3)) defaultAtol = false := by
    have hpl' : Plane.mk' p1 (cross3 (vec3 p1 p2) (vec3 p1 p3)) = .ok pl := hpl
    unfold Plane.mk' at hpl'
    split at hpl'
    · cases hpl'
    · rename_i hz
      injection hpl' with hpl'
      rw [← hpl']
      exact ⟨rfl, by simpa using hz⟩
  obtain ⟨hn, hz⟩ := hn
  have hl : len3 (cross3 (vec3 p1 p2) (vec3 p1 p3)) ≠ 0 := by
    intro h0
    rw [len3_eq_zero] at h0
    rw [h0, almostZero_zero] at hz
    cases hz
  have hlpos : 0 < len3 (cross3 (vec3 p1 p2) (vec3 p1 p3)) := lt_of_le_of_ne (len3_nonneg _) (Ne.symm hl)
  have hsq := inner3_self (cross3 (vec3 p1 p2) (vec3 p1 p3))
  rw [normalize3_real] at hn
  obtain ⟨ℓ, hℓ⟩ : ∃ ℓ, ℓ = len3 (cross3 (vec3 p1 p2) (vec3 p1 p3)) := ⟨_, rfl⟩
  rw [← hℓ] at hn hl hlpos hsq ⊢
  obtain ⟨c, hc⟩ : ∃ c, c = h / ℓ := ⟨_, rfl⟩
  have hh : h = c * ℓ := by rw [hc]; field_simp
  have hs : scale3 (-h) pl.n = scale3 (-c) (cross3 (vec3 p1 p2) (vec3 p1 p3)) := by
    rw [hn, hc]
    ext <;> simp [scale3] <;> field_simp
  refine ⟨_, rfl, ?_, ?_⟩
  · unfold createTriangularPrism
    rw [hpl]
    have : V3.smul h (-pl.normal) = scale3 (-h) pl.n := by
      ext <;> simp [scale3, Plane.normal]
    simp only [ok_bind, pure_eq_ok, this]
  · rw [hs]
    obtain ⟨ax, ay, az⟩ := p1
    obtain ⟨bx, by', bz⟩ := p2
    obtain ⟨cx, cy, cz⟩ := p3
    let a : V3 ℝ := ⟨ax, ay, az⟩
    let b : V3 ℝ := ⟨bx, by', bz⟩
    let d : V3 ℝ := ⟨cx, cy, cz⟩
    let s := scale3 (-c) (cross3 (vec3 a b) (vec3 a d))
    refine ⟨[(a, b, d), (a, a + s, b + s), (a, b + s, b), (b, b + s, d + s), (b, d + s, d), (d, d + s, a + s), (d, a + s, a), (d + s, b + s, a + s)], flatten_ok _ _ _ rfl, ?_, ?_⟩
    · unfold signedVolume
      have e : ℓ / 2 * h = c * inner3 (cross3 (vec3 ⟨ax, ay, az⟩ ⟨bx, by', bz⟩) (vec3 ⟨ax, ay, az⟩ ⟨cx, cy, cz⟩))
          (cross3 (vec3 ⟨ax, ay, az⟩ ⟨bx, by', bz⟩) (vec3 ⟨ax, ay, az⟩ ⟨cx, cy, cz⟩)) / 2 := by
        rw [hsq, hh]; ring
      rw [e]
      simp only [List.map_cons, List.map_nil, List.sum_cons, List.sum_nil, tet6, s, a, b, d, inner3, cross3, vec3, scale3,
        V3.add_x, V3.add_y, V3.add_z]
      ring
    · intro hpos
      have hcp : 0 < c := by rw [hc]; positivity
      have hneg : -(c * inner3 (cross3 (vec3 ⟨ax, ay, az⟩ ⟨bx, by', bz⟩) (vec3 ⟨ax, ay, az⟩ ⟨cx, cy, cz⟩))
          (cross3 (vec3 ⟨ax, ay, az⟩ ⟨bx, by', bz⟩) (vec3 ⟨ax, ay, az⟩ ⟨cx, cy, cz⟩))) ≤ 0 := by
        rw [hsq]
        have : 0 ≤ c * ℓ ^ 2 := by positivity
        linarith
      have fin : ∀ x : ℝ, (x = 0 ∨ x = -(c * inner3 (cross3 (vec3 ⟨ax, ay, az⟩ ⟨bx, by', bz⟩) (vec3 ⟨ax, ay, az⟩ ⟨cx, cy, cz⟩))
          (cross3 (vec3 ⟨ax, ay, az⟩ ⟨bx, by', bz⟩) (vec3 ⟨ax, ay, az⟩ ⟨cx, cy, cz⟩)))) → x ≤ 0 := by
        rintro x (rfl | rfl)
        · exact le_rfl
        · exact hneg
      simp only [List.forall_mem_cons, List.not_mem_nil, false_imp_iff, implies_true, and_true]
      refine ⟨⟨?_, ?_, ?_, ?_, ?_, ?_⟩, ⟨?_, ?_, ?_, ?_, ?_, ?_⟩, ⟨?_, ?_, ?_, ?_, ?_, ?_⟩, ⟨?_, ?_, ?_, ?_, ?_, ?_⟩,
        ⟨?_, ?_, ?_, ?_, ?_, ?_⟩, ⟨?_, ?_, ?_, ?_, ?_, ?_⟩, ⟨?_, ?_, ?_, ?_, ?_, ?_⟩, ⟨?_, ?_, ?_, ?_, ?_, ?_⟩⟩ <;>
      (unfold Behind; apply fin; simp only [s, a, b, d, inner3, cross3, vec3, scale3, V3.add_x, V3.add_y, V3.add_z]; first
        | (left; ring; done)
        | (right; ring; done))

/-- **C47.** A triangle is refused, with ValueError, exactly if no component of the cross product of two sides exceeds
1e-8. -/
theorem C47_tri_degenerate (p1 p2 p3 : V3 ℝ) (h : ℝ) :
    (createTriangularPrism p1 p2 p3 h = .error .ValueError ↔
      |(cross3 (vec3 p1 p2) (vec3 p1 p3)).x| ≤ 1 / 100000000 ∧ |(cross3 (vec3 p1 p2) (vec3 p1 p3)).y| ≤ 1 / 100000000 ∧
        |(cross3 (vec3 p1 p2) (vec3 p1 p3)).z| ≤ 1 / 100000000) ∧
    (Returns (createTriangularPrism p1 p2 p3 h) ∨ createTriangularPrism p1 p2 p3 h = .error .ValueError) := by
  obtain ⟨-, h1, h2⟩ := C21_from_points p1 p2 p3
  rw [← h1]
  unfold createTriangularPrism
  rcases h2 with ⟨pl, h2⟩ | h2
  · rw [h2, ok_bind]
    refine ⟨⟨?_, ?_⟩, Or.inl ⟨_, rfl⟩⟩
    · intro h; exact nomatch h
    · intro h; exact nomatch h
  · rw [h2]
    exact ⟨⟨fun _ => rfl, fun _ => rfl⟩, Or.inr rfl⟩

/-- **C47.** `create_horizontal_plane`: the plane y = 0, both triangles facing the same way; it is
not closed, and without the flag it raises IndexError under numpy before 1.23. -/
theorem C47_horizontal :
    (∀ q ∈ (createHorizontalPlane (α := ℝ)).1, q.y = 0) ∧
    ¬ Watertight (createHorizontalPlane (α := ℝ)).2 ∧
    createHorizontalPlaneFlat (α := ℝ) .asTuple = .error .IndexError ∧
    ∃ ts, createHorizontalPlaneFlat (α := ℝ) .asArray = .ok (.triangles ts) ∧ ts.length = 2 ∧
      ∀ t ∈ ts, (cross3 (vec3 t.1 t.2.1) (vec3 t.1 t.2.2)).y = 2 := by
  refine ⟨?_, by decide, rfl, _, rfl, rfl, ?_⟩
  · simp [createHorizontalPlane]
  · simp [cross3, vec3]
    norm_num

/-- a proper triangle -/
example : ∃ pl, Plane.fromPoints (⟨0, 0, 0⟩ : V3 ℝ) ⟨2, 0, 0⟩ ⟨0, 3, 0⟩ = .ok pl := by
  show ∃ pl, Plane.mk' _ (cross3 (vec3 ⟨0, 0, 0⟩ ⟨2, 0, 0⟩) (vec3 ⟨0, 0, 0⟩ ⟨0, 3, 0⟩)) = .ok pl
  have : ¬ almostZero (cross3 (vec3 (⟨0, 0, 0⟩ : V3 ℝ) ⟨2, 0, 0⟩) (vec3 ⟨0, 0, 0⟩ ⟨0, 3, 0⟩)) defaultAtol = true := by
    rw [almostZero_real]
    simp [cross3, vec3]
    norm_num
  unfold Plane.mk'
  rw [if_neg this]
  exact ⟨_, rfl⟩

end Blmath.Props
