import Verif.Props.Shapes
import Verif.Props.FloatNormals
import Verif.Props.FloatSlice

/-!
Property C134: the solids of shapes.py in rounded arithmetic.
-/

namespace Blmath.Props
open Blmath.Geometry Blmath.Spec Blmath.Proofs Blmath.Vx FS FN

variable {rnd : ℝ → ℝ} {u : ℝ}

/-- the size a prism really has: from the coordinates of the origin to the rounded sums -/
def storedSize (rnd : ℝ → ℝ) (o s : V3 ℝ) : V3 ℝ := ⟨rnd (o.x + s.x) - o.x, rnd (o.y + s.y) - o.y, rnd (o.z + s.z) - o.z⟩

/-- the three corners of a triangle as real points -/
def exactTriangle (t : V3 (Rd rnd) × V3 (Rd rnd) × V3 (Rd rnd)) : V3 ℝ × V3 ℝ × V3 ℝ := (Rd.vec t.1, Rd.vec t.2.1, Rd.vec t.2.2)

namespace FSh

theorem len_mono {a b : V3 ℝ} (hx : |a.x| ≤ |b.x|) (hy : |a.y| ≤ |b.y|) (hz : |a.z| ≤ |b.z|) : len3 a ≤ len3 b := by
  refine Real.sqrt_le_sqrt ?_
  have := sq_le_sq.mpr hx
  have := sq_le_sq.mpr hy
  have := sq_le_sq.mpr hz
  linarith

/-- three roundings of the components of a vector -/
theorem round_vec (h : Rounding rnd u) (a : V3 ℝ) : dist3 a ⟨rnd a.x, rnd a.y, rnd a.z⟩ ≤ u * len3 a := by
  have e : u * len3 a = len3 (scale3 u a) := by rw [len3_scale, abs_of_nonneg h.nonneg]
  rw [e, dist3]
  have k : ∀ x, |rnd x - x| ≤ |u * x| := fun x => by rw [abs_mul, abs_of_nonneg h.nonneg]; exact h.err x
  exact len_mono (k _) (k _) (k _)

theorem flatten_map {vs : List (V3 (Rd rnd))} {fs : List (ℕ × ℕ × ℕ)} {ts : List (V3 ℝ × V3 ℝ × V3 ℝ)}
    (h : flattenFaces (vs.map Rd.vec) fs = .ok ts) : ∃ ts', flattenFaces vs fs = .ok ts' ∧ ts'.map exactTriangle = ts := by
  have idx : ∀ (i : ℕ) (y : V3 ℝ), pyIndex (vs.map Rd.vec) (i : ℤ) = .ok y → ∃ x, pyIndex vs (i : ℤ) = .ok x ∧ Rd.vec x = y := by
    intro i y hy
    rw [pyIndex_nat, List.getElem?_map] at hy
    rw [pyIndex_nat]
    cases hx : vs[i]? with
    | none => rw [hx] at hy; cases hy
    | some x => rw [hx] at hy; injection hy with hy; exact ⟨x, rfl, hy⟩
  unfold flattenFaces at h ⊢
  induction fs generalizing ts with
  | nil =>
    simp only [List.mapM_nil, pure_eq_ok, Except.ok.injEq] at h
    exact ⟨[], rfl, by simp [← h]⟩
  | cons f fs ih =>
    rw [List.mapM_cons] at h ⊢
    cases h1 : pyIndex (vs.map Rd.vec) (f.1 : ℤ) with
    | error e => rw [h1] at h; cases h
    | ok a =>
      cases h2 : pyIndex (vs.map Rd.vec) (f.2.1 : ℤ) with
      | error e => rw [h1, ok_bind, h2] at h; cases h
      | ok b =>
        cases h3 : pyIndex (vs.map Rd.vec) (f.2.2 : ℤ) with
        | error e => rw [h1, ok_bind, h2, ok_bind, h3] at h; cases h
        | ok c =>
          rw [h1, ok_bind, h2, ok_bind, h3, ok_bind, pure_eq_ok, ok_bind] at h
          cases hm : (fs.mapM fun f => do
            let a ← pyIndex (vs.map Rd.vec) (f.1 : ℤ)
            let b ← pyIndex (vs.map Rd.vec) (f.2.1 : ℤ)
            let c ← pyIndex (vs.map Rd.vec) (f.2.2 : ℤ)
            pure (a, b, c) : PyM _) with
          | error e => rw [hm] at h; cases h
          | ok rest =>
            rw [hm] at h
            simp only [ok_bind, pure_eq_ok, Except.ok.injEq] at h
            obtain ⟨ts', k1, k2⟩ := ih hm
            obtain ⟨a', a1, a2⟩ := idx _ _ h1
            obtain ⟨b', b1, b2⟩ := idx _ _ h2
            obtain ⟨c', c1, c2⟩ := idx _ _ h3
            refine ⟨(a', b', c') :: ts', ?_, ?_⟩
            · rw [a1, ok_bind, b1, ok_bind, c1, ok_bind, pure_eq_ok, ok_bind, k1]; rfl
            · rw [← h, List.map_cons, k2, exactTriangle, a2, b2, c2]

theorem vec_prism (h : Rounding rnd u) (o s : V3 (Rd rnd)) (ho : Stored o) :
    (prismVertices o s).map Rd.vec = prismVertices (Rd.vec o) (storedSize rnd (Rd.vec o) (Rd.vec s)) := by
  obtain ⟨hx, hy, hz⟩ := ho
  simp [prismVertices, V3.ext_iff, storedSize, h.idem, hx, hy, hz, Rd.vec, h.zero]

theorem stored_size (h : Rounding rnd u) (o s : ℝ) (ho : rnd o = o) :
    |rnd (o + s) - o - s| ≤ u * |o + s| ∧ (0 ≤ s → 0 ≤ rnd (o + s) - o) ∧ (rnd (o + s) = o + s → rnd (o + s) - o = s) := by
  refine ⟨?_, fun hs => ?_, fun hr => by rw [hr]; ring⟩
  · have := h.err (o + s)
    rwa [sub_sub]
  · have := h.mono (show o ≤ o + s by linarith)
    rw [ho] at this
    linarith

theorem len3_dir {v : V3 ℝ} (hv : v ≠ zero3) : len3 (dir v) = 1 := by
  have h0 : len3 v ≠ 0 := fun h => hv (len3_eq_zero.mp h)
  rw [dir, len3_scale, abs_of_nonneg (inv_nonneg.mpr (len3_nonneg v)), inv_mul_cancel₀ h0]

end FSh
open FSh

/-- **C134.** `create_rectangular_prism` from a representable origin: the corners are exactly those of the prism, of exact arithmetic, with
the same origin and faces and with `storedSize` for its size.  Each side is off by at most a rounding of the far coordinate; it is exact if
that is representable, and a size that is not negative does not become so. -/
theorem C134_prism (h : Rounding rnd u) (diag : ℕ → Bool) (o s : V3 (Rd rnd)) (ho : Stored o) :
    let s' := storedSize rnd (Rd.vec o) (Rd.vec s)
    (createRectangularPrism diag o s).1.map Rd.vec = (createRectangularPrism diag (Rd.vec o) s').1 ∧
    (createRectangularPrism diag o s).2 = (createRectangularPrism diag (Rd.vec o) s').2 ∧
    ∀ x ∈ [(o.x.val, s.x.val, s'.x), (o.y.val, s.y.val, s'.y), (o.z.val, s.z.val, s'.z)],
      |x.2.2 - x.2.1| ≤ u * |x.1 + x.2.1| ∧ (0 ≤ x.2.1 → 0 ≤ x.2.2) ∧ (rnd (x.1 + x.2.1) = x.1 + x.2.1 → x.2.2 = x.2.1) := by
  refine ⟨vec_prism h o s ho, rfl, ?_⟩
  obtain ⟨hx, hy, hz⟩ := ho
  simp only [List.mem_cons, List.not_mem_nil, or_false, forall_eq_or_imp, forall_eq]
  exact ⟨stored_size h _ _ hx, stored_size h _ _ hy, stored_size h _ _ hz⟩

/-- **C134.** So the triangles returned enclose exactly the volume of those sizes, and if none of them has vanished the whole solid is
behind every triangle: no rounding error spoils the shape. -/
theorem C134_solid (h : Rounding rnd u) (diag : ℕ → Bool) (o s : V3 (Rd rnd)) (ho : Stored o) :
    let s' := storedSize rnd (Rd.vec o) (Rd.vec s)
    ∃ ts, flattenFaces (createRectangularPrism diag o s).1 (createRectangularPrism diag o s).2 = .ok ts ∧ ts.length = 12 ∧
      signedVolume (ts.map exactTriangle) = s'.x * s'.y * s'.z ∧
      (0 < s'.x → 0 < s'.y → 0 < s'.z → ∀ t ∈ ts, ∀ q ∈ (createRectangularPrism diag o s).1, Behind (exactTriangle t) (Rd.vec q)) := by
  intro s'
  obtain ⟨ts, h1, h2, h3, h4⟩ := C47_prism_volume diag (Rd.vec o) s'
  have e : (createRectangularPrism diag (Rd.vec o) s').1 = (createRectangularPrism diag o s).1.map Rd.vec := (vec_prism h o s ho).symm
  rw [e] at h1 h4
  obtain ⟨ts', k1, k2⟩ := flatten_map h1
  refine ⟨ts', k1, ?_, by rw [k2, h3], fun x y z t ht q hq => ?_⟩
  · rw [← h2, ← k2, List.length_map]
  · exact h4 x y z _ (k2 ▸ List.mem_map_of_mem ht) _ (List.mem_map_of_mem hq)

/-- **C134.** The sizes themselves can be lost: in doubles, at the representable point `(2^54, 0, 0)`, the cube with sides 1 is flat and
encloses no volume, and the one with sides 3 is 4 wide and encloses 36 instead of 27. -/
theorem C134_uneven (diag : ℕ → Bool) :
    let o : V3 (Rd rnd53) := ⟨⟨2 ^ 54⟩, ⟨0⟩, ⟨0⟩⟩
    let cube : Rd rnd53 → List (V3 (Rd rnd53)) × List (ℕ × ℕ × ℕ) := createCube diag o
    Stored o ∧
    (∃ ts, flattenFaces (cube ⟨1⟩).1 (cube ⟨1⟩).2 = .ok ts ∧ signedVolume (ts.map exactTriangle) = 0) ∧
    (∃ ts, flattenFaces (cube ⟨3⟩).1 (cube ⟨3⟩).2 = .ok ts ∧ signedVolume (ts.map exactTriangle) = 36) := by
  intro o cube
  have h := rounding_rnd53
  have z := h.zero
  have ho : Stored o := by
    have e : rnd53 ((2 : ℝ) ^ 54) = 2 ^ 54 := by
      have := rnd53_grid 1 54 (by norm_num)
      rw [Int.cast_one, one_mul] at this
      exact_mod_cast this
    exact ⟨e, z, z⟩
  have e1 : rnd53 ((2 : ℝ) ^ 54 + 1) = 2 ^ 54 := by
    rw [rnd53_eval _ (2 ^ 52) 2 (by norm_num) (by norm_num) (by norm_num)]; norm_num
  have e3 : rnd53 ((2 : ℝ) ^ 54 + 3) = 2 ^ 54 + 4 := by
    rw [rnd53_eval _ (2 ^ 52 + 1) 2 (by norm_num) (by norm_num) (by norm_num)]; norm_num
  have e33 : rnd53 3 = 3 := by simpa using h.int 3 (by norm_num)
  refine ⟨ho, ?_, ?_⟩
  · obtain ⟨ts, k1, -, k2, -⟩ := C134_solid h diag o ⟨⟨1⟩, ⟨1⟩, ⟨1⟩⟩ ho
    refine ⟨ts, k1, k2.trans ?_⟩
    simp [storedSize, Rd.vec, o, e1]
  · obtain ⟨ts, k1, -, k2, -⟩ := C134_solid h diag o ⟨⟨3⟩, ⟨3⟩, ⟨3⟩⟩ ho
    refine ⟨ts, k1, k2.trans ?_⟩
    simp [storedSize, Rd.vec, o, e3, e33]
    norm_num

/-- **C134.** `create_triangular_prism`: if it returns, the first three corners are those given and the other three are the rounded sums of
these and one shift, the same for all; the shift is the exact one, `height` times the unit normal, up to a rounding and the error of the
normal (C100), which is `4 gam u 4` over the sine of the angle. -/
theorem C134_tri (h : Rounding rnd u) (hu : 4 * u < 1) (p1 p2 p3 : V3 (Rd rnd)) (ht : Rd rnd) (vs : List (V3 (Rd rnd)))
    (fs : List (ℕ × ℕ × ℕ)) (hr : createTriangularPrism p1 p2 p3 ht = .ok (vs, fs)) :
    let e1 := vec3 (Rd.vec p1) (Rd.vec p2)
    let e2 := vec3 (Rd.vec p1) (Rd.vec p3)
    let N := cross3 e1 e2
    Watertight fs ∧ ∃ w : V3 (Rd rnd), vs = [p1, p2, p3, p1 + w, p2 + w, p3 + w] ∧
      dist3 (scale3 (-ht.val) (dir N)) (Rd.vec w) * len3 N ≤ |ht.val| * ((1 + u) * (4 * gam u 4 * (len3 e1 * len3 e2)) + u * len3 N) ∧
      ∀ p : V3 (Rd rnd), dist3 (Rd.vec p + Rd.vec w) (Rd.vec (p + w)) ≤ u * len3 (Rd.vec p + Rd.vec w) := by
  intro e1 e2 N
  unfold createTriangularPrism at hr
  cases hb : Plane.fromPoints p1 p2 p3 with
  | error e => rw [hb] at hr; cases hr
  | ok pl =>
    rw [hb, ok_bind, pure_eq_ok] at hr
    injection hr with hr
    injection hr with h1 h2
    subst h1 h2
    refine ⟨by decide, _, rfl, ?_, fun p => round_vec h _⟩
    obtain ⟨-, k1, -⟩ := C100_from_points h hu p1 p2 p3 pl hb
    have hB : 0 ≤ 4 * gam u 4 * (len3 e1 * len3 e2) :=
      (mul_nonneg (len3_nonneg _) (len3_nonneg _)).trans k1
    have hw : dist3 (scale3 (-ht.val) (Rd.vec pl.n)) (Rd.vec (V3.smul ht (-pl.normal))) ≤ u * (|ht.val| * len3 (Rd.vec pl.n)) := by
      have := round_vec h (scale3 (-ht.val) (Rd.vec pl.n))
      rw [len3_scale, abs_neg] at this
      convert this using 2
      ext <;> simp [Rd.vec, scale3, Plane.normal, V3.smul]
    by_cases hN : N = zero3
    · rw [hN]
      have : len3 zero3 = 0 := by simp [len3, zero3]
      rw [this, mul_zero, mul_zero, add_zero]
      have := h.nonneg
      positivity
    · have hn : len3 (Rd.vec pl.n) * len3 N ≤ len3 N + 4 * gam u 4 * (len3 e1 * len3 e2) := by
        have t : len3 (Rd.vec pl.n) ≤ len3 (dir N) + dist3 (dir N) (Rd.vec pl.n) := by
          linarith [(abs_le.mp (abs_len_sub (dir N) (Rd.vec pl.n))).1]
        rw [show len3 (dir N) = 1 from len3_dir hN] at t
        have := mul_le_mul_of_nonneg_right t (len3_nonneg N)
        linarith
      have t := dist3_triangle (scale3 (-ht.val) (dir N)) (scale3 (-ht.val) (Rd.vec pl.n)) (Rd.vec (V3.smul ht (-pl.normal)))
      rw [dist3_scale, abs_neg] at t
      have t2 := mul_le_mul_of_nonneg_right (t.trans (add_le_add_right hw _)) (len3_nonneg N)
      refine t2.trans ?_
      have a := mul_le_mul_of_nonneg_left k1 (abs_nonneg ht.val)
      have b := mul_le_mul_of_nonneg_left hn (mul_nonneg h.nonneg (abs_nonneg ht.val))
      nlinarith [a, b]

/-- Solids that meet the hypotheses: in doubles the box at `(0, 1, 2)` with sides 3, 4, 5 has exactly these sizes and the volume 60, and the
triangular prism on `(1, 2, 3)`, `(4, 2, 3)`, `(1, 7, 3)` is returned whatever its height. -/
theorem C134_witness (diag : ℕ → Bool) (ht : Rd rnd53) :
    let o : V3 (Rd rnd53) := ⟨⟨0⟩, ⟨1⟩, ⟨2⟩⟩
    let s : V3 (Rd rnd53) := ⟨⟨3⟩, ⟨4⟩, ⟨5⟩⟩
    Stored o ∧ storedSize rnd53 (Rd.vec o) (Rd.vec s) = ⟨3, 4, 5⟩ ∧
    (∃ ts, flattenFaces (createRectangularPrism diag o s).1 (createRectangularPrism diag o s).2 = .ok ts ∧
      signedVolume (ts.map exactTriangle) = 60) ∧
    ∃ vs fs, createTriangularPrism (⟨⟨1⟩, ⟨2⟩, ⟨3⟩⟩ : V3 (Rd rnd53)) ⟨⟨4⟩, ⟨2⟩, ⟨3⟩⟩ ⟨⟨1⟩, ⟨7⟩, ⟨3⟩⟩ ht = .ok (vs, fs) := by
  intro o s
  have h := rounding_rnd53
  have i : ∀ k : ℤ, |k| ≤ 2 ^ 53 → rnd53 (k : ℝ) = k := fun k hk => by simpa using rnd53_grid k 0 hk
  have r2 : rnd53 2 = 2 := by simpa using i 2 (by norm_num)
  have r3 : rnd53 3 = 3 := by simpa using i 3 (by norm_num)
  have r5 : rnd53 5 = 5 := by simpa using i 5 (by norm_num)
  have r7 : rnd53 7 = 7 := by simpa using i 7 (by norm_num)
  have ho : Stored o := ⟨h.zero, h.one, r2⟩
  have hs : storedSize rnd53 (Rd.vec o) (Rd.vec s) = ⟨3, 4, 5⟩ := by
    ext
    · show rnd53 (0 + 3) - 0 = 3; rw [zero_add, r3, sub_zero]
    · show rnd53 (1 + 4) - 1 = 4; norm_num [r5]
    · show rnd53 (2 + 5) - 2 = 5; norm_num [r7]
  refine ⟨ho, hs, ?_, ?_⟩
  · obtain ⟨ts, k1, -, k2, -⟩ := C134_solid h diag o s ho
    refine ⟨ts, k1, k2.trans ?_⟩
    rw [hs]; norm_num
  · obtain ⟨-, pl, hpl⟩ := C100_witness
    unfold createTriangularPrism
    rw [hpl]
    exact ⟨_, _, rfl⟩

end Blmath.Props
