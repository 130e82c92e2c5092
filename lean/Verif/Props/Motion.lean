import Verif.Proofs.Motion
import Verif.Props.Composite
import Verif.Props.Apex

/-!
C115: slicing, cutting and resampling do not depend on where the object stands.

`Placement g`: an injective affine map; `Carries g pl pl'`: the plane `pl'` is the image of `pl`.
-/

namespace Blmath.Props
open Blmath Blmath.Geometry Blmath.Spec Blmath.Proofs Blmath.Proofs.MO

variable {g : V3 ℝ → V3 ℝ} {pl pl' : Plane ℝ}

/-- **C115.** The crossing of a moved segment with the moved plane is the moved crossing; `None` stays `None`; a list of
segments has the same mask, and the moved points where the mask is true. -/
theorem C115_segment (hg : Placement g) (hc : Carries g pl pl') (a b : V3 ℝ) :
    pl'.lineSegmentXsection (g a) (g b) = (pl.lineSegmentXsection a b).map g ∧
    (pl'.lineSegmentXsectionsRow (g a) (g b)).2 = (pl.lineSegmentXsectionsRow a b).2 ∧
    ((pl.lineSegmentXsectionsRow a b).2 = true →
      (pl'.lineSegmentXsectionsRow (g a) (g b)).1 = g (pl.lineSegmentXsectionsRow a b).1) :=
  ⟨xsection hg.affine hc a b, row hg.affine hc a b⟩

/-- **C115.** The signs and the indices of the points in front are the same, and the points in front are the moved points
in front (this much needs nothing of `g`). -/
theorem C115_front (hc : Carries g pl pl') (ps : List (V3 ℝ)) (inverted : Bool) :
    pl'.sign (ps.map g) = pl.sign ps ∧
    pl'.indicesInFront (ps.map g) inverted = pl.indicesInFront ps inverted ∧
    pl'.pointsInFront (ps.map g) inverted = (pl.pointsInFront ps inverted).map (List.map g) := by
  have h1 : pl'.indicesInFront (ps.map g) inverted = pl.indicesInFront ps inverted := by
    unfold Plane.indicesInFront Plane.frontMask
    rw [signs hc]
  refine ⟨signs hc ps, h1, ?_⟩
  unfold Plane.pointsInFront
  rw [h1]
  exact mapM_map _ _ _ _ fun i _ => pyIndex_map g ps i

/-- **C115.** `mesh_xsections` of the moved mesh with the moved plane: the moved sections, in the same order, open or closed as
before; the same exception if one is raised.  For every injective affine map: turning, mirroring, moving, and scaling by different
factors along different directions. -/
theorem C115_sections (hg : Placement g) (hc : Carries g pl pl') (ver : PyVer) (pk : ℕ → Picker) (ko : ℕ → KeyOrder)
    (m : Mesh ℝ) :
    pl'.meshIntersectingFaces (Mesh.image g m) = pl.meshIntersectingFaces m ∧
    pl'.meshXsections ver pk ko (Mesh.image g m) = (pl.meshXsections ver pk ko m).map (List.map (Section.image g)) := by
  refine ⟨faces hc m, ?_⟩
  unfold Plane.meshXsections
  rw [faces hc]
  apply bind_same
  intro fs _
  split
  · rfl
  · rw [sliceComponents_map hg hc]
    apply MO.bind_map
    intro cs _
    rfl

/-- **C115.** With a neighborhood, for maps that multiply all distances by one factor: the same component is chosen. -/
theorem C115_neighborhood {c : ℝ} (hg : Similarity g c) (hc : Carries g pl pl') (ver : PyVer) (pk : ℕ → Picker)
    (ko : ℕ → KeyOrder) (m : Mesh ℝ) (nbh : V3 ℝ × List (V3 ℝ)) :
    pl'.meshXsections ver pk ko (Mesh.image g m) (some (g nbh.1, nbh.2.map g)) =
      (pl.meshXsections ver pk ko m (some nbh)).map (List.map (Section.image g)) := by
  unfold Plane.meshXsections
  rw [faces hc]
  apply bind_same
  intro fs _
  split
  · rfl
  · rw [sliceComponents_map (Similarity.placement hg) hc]
    apply MO.bind_map
    intro cs _
    simp only [List.length_map]
    split
    · rfl
    · have : (cs.map (Section.image g)).map (fun s => meanDistance (g nbh.1, nbh.2.map g) s.v) =
          (cs.map fun s => meanDistance nbh s.v).map fun y => c * y := by
        rw [List.map_map, List.map_map]
        apply List.map_congr_left
        intro s _
        exact meanDistance_map hg nbh s.v
      rw [this, argmin_scale hg.pos]
      apply bind_same
      intro i _
      rw [pyIndex_map]
      apply MO.bind_map
      intro s _
      rfl

/-- **C115.** `mesh_xsection`, without and with a neighborhood. -/
theorem C115_section (hg : Placement g) (hc : Carries g pl pl') (ver : PyVer) (pk : ℕ → Picker) (ko : ℕ → KeyOrder)
    (m : Mesh ℝ) :
    pl'.meshXsection ver pk ko (Mesh.image g m) = (pl.meshXsection ver pk ko m).map (Option.map (Section.image g)) ∧
    ∀ c nbh, Similarity g c → pl'.meshXsection ver pk ko (Mesh.image g m) (some (g nbh.1, nbh.2.map g)) =
      (pl.meshXsection ver pk ko m (some nbh)).map (Option.map (Section.image g)) := by
  have key : ∀ (x : PyM (List (Section ℝ))),
      ((x.map (List.map (Section.image g))) >>= fun cs =>
        if cs.length = 0 then (pure none : PyM (Option (Section ℝ))) else pure (some ⟨cs.flatMap Section.v, true⟩)) =
      (x >>= fun cs => if cs.length = 0 then (pure none : PyM (Option (Section ℝ)))
        else pure (some ⟨cs.flatMap Section.v, true⟩)).map (Option.map (Section.image g)) := by
    intro x
    apply MO.bind_map
    intro cs _
    rw [List.length_map]
    split
    · rfl
    · simp [Except.map, Section.image, List.flatMap_map, List.map_flatMap]
  unfold Plane.meshXsection
  refine ⟨?_, ?_⟩
  · rw [(C115_sections hg hc ver pk ko m).2]
    exact key _
  · intro c nbh hs
    rw [C115_neighborhood hs hc ver pk ko m nbh]
    exact key _

/-- **C115.** `intersect_plane` of the moved polyline with the moved plane: the moved points, the same edges — for every polyline
state without an edge lying in the plane (such an edge gives 0/0, theorem C38). -/
theorem C115_intersect (hg : Placement g) (hc : Carries g pl pl') (p : Polyline ℝ)
    (h : ∀ segs, p.segments = .ok segs → ∀ s ∈ segs, ¬ (OnPlane pl s.1 ∧ OnPlane pl s.2)) :
    (Polyline.image g p).intersectPlane pl' = (p.intersectPlane pl).map fun x => (x.1.map g, x.2) :=
  intersectPlane_map hg.affine hc p h

/-- **C115.** `cut_by_plane` of the moved polyline is the moved cut, or the same exception; for open polylines no edge may
lie in the plane. -/
theorem C115_cut (hg : Placement g) (hc : Carries g pl pl') (p : Polyline ℝ)
    (h : p.closed = false → ∀ segs, p.segments = .ok segs → ∀ s ∈ segs, ¬ (OnPlane pl s.1 ∧ OnPlane pl s.2)) :
    (Polyline.image g p).cutByPlane pl' = (p.cutByPlane pl).map (Polyline.image g) :=
  cutByPlane_map hg.affine hc p h

theorem sumL_scale (c : ℝ) (l : List ℝ) : Vx.sumL (l.map fun y => c * y) = c * Vx.sumL l := by
  induction l with
  | nil => simp [Vx.sumL, Num.lit_real]
  | cons x l ih => simp only [List.map_cons, Vx.sumL, ih, mul_add]

/-- **C115.** Under a map that multiplies distances by `c`: lengths are multiplied by `c`, and `partition_by_length` with the bound
multiplied by `c` gives the moved vertices, with the same indices, edges and exceptions. -/
theorem C115_lengths {c : ℝ} (hg : Similarity g c) (p : Polyline ℝ) :
    (Polyline.image g p).segmentLengths = p.segmentLengths.map (List.map fun l => c * l) ∧
    (Polyline.image g p).totalLength = p.totalLength.map (fun l => c * l) ∧
    ∀ l, (Polyline.image g p).partitionByLength (c * l) =
      (Polyline.image g (p.partitionByLength l).1, (p.partitionByLength l).2) := by
  refine ⟨segmentLengths_map hg.dist p, ?_, partitionByLength_map hg p⟩
  unfold Polyline.totalLength
  rw [segmentLengths_map hg.dist]
  apply MO.bind_map
  intro ls _
  rw [sumL_scale]
  rfl

/-! ### the maps -/

/-- turn or mirror by `R`, scale by `c`, move by `T` -/
def place (c : ℝ) (R : Matrix (Fin 3) (Fin 3) ℝ) (T p : V3 ℝ) : V3 ℝ :=
  ⟨c * (act R p).x + T.x, c * (act R p).y + T.y, c * (act R p).z + T.z⟩

theorem place_inner {R : Matrix (Fin 3) (Fin 3) ℝ} (hR : R.transpose * R = 1) (u v : V3 ℝ) :
    inner3 (act R u) (act R v) = inner3 u v := by
  have e : ∀ i j, (R.transpose * R) i j = (1 : Matrix (Fin 3) (Fin 3) ℝ) i j := by rw [hR]; intros; rfl
  simp only [Matrix.mul_apply, Matrix.transpose_apply, Fin.sum_univ_three] at e
  have e00 := e 0 0; have e01 := e 0 1; have e02 := e 0 2; have e11 := e 1 1; have e12 := e 1 2; have e22 := e 2 2
  simp at e00 e01 e02 e11 e12 e22
  simp only [act_eq, inner3]
  linear_combination (u.x * v.x) * e00 + (u.x * v.y + u.y * v.x) * e01 + (u.x * v.z + u.z * v.x) * e02 +
    (u.y * v.y) * e11 + (u.y * v.z + u.z * v.y) * e12 + (u.z * v.z) * e22

theorem act_vec {R : Matrix (Fin 3) (Fin 3) ℝ} (a b : V3 ℝ) : act R (vec3 a b) = vec3 (act R a) (act R b) := by
  simp only [act_eq, vec3]
  ext <;> simp only <;> ring

theorem vec_place (c : ℝ) (R : Matrix (Fin 3) (Fin 3) ℝ) (T a b : V3 ℝ) :
    vec3 (place c R T a) (place c R T b) = scale3 c (act R (vec3 a b)) := by
  rw [act_vec]
  simp only [place, vec3, scale3]
  ext <;> simp only <;> ring

/-- **C115.** Turning or mirroring (`Rᵀ R = 1`), scaling by a positive factor and moving is such a map, with factor `c`, and it
carries every plane to the plane through the moved reference point with the turned normal; the constructor makes that plane. -/
theorem C115_rigid {R : Matrix (Fin 3) (Fin 3) ℝ} (hR : R.transpose * R = 1) {c : ℝ} (hcp : 0 < c) (T : V3 ℝ) (pl : Plane ℝ) :
    Similarity (place c R T) c ∧ Placement (place c R T) ∧
    Carries (place c R T) pl ⟨place c R T pl.r0, act R pl.n⟩ ∧
    (UnitNormal pl → Plane.mk' (place c R T pl.r0) (act R pl.n) = .ok ⟨place c R T pl.r0, act R pl.n⟩) := by
  have hl : ∀ v, len3 (act R v) = len3 v := by
    intro v
    have := place_inner hR v v
    unfold len3
    congr 1
    simp only [inner3] at this
    nlinarith
  have hs : Similarity (place c R T) c := by
    refine ⟨?_, hcp, ?_⟩
    · intro a b t
      rw [vec_place]
      simp only [place, along, act_eq, scale3, vec3]
      ext <;> simp only <;> ring
    · intro a b
      unfold dist3
      rw [vec_place, len3_scale, abs_of_pos hcp, hl]
  refine ⟨hs, Similarity.placement hs, ⟨c, hcp, ?_⟩, ?_⟩
  · intro p
    simp only [height]
    rw [vec_place, inner3_scale_left, place_inner hR]
  · intro hu
    have h1 : len3 (act R pl.n) = 1 := by rw [hl]; exact hu
    unfold Plane.mk'
    rw [not_almostZero_unit h1]
    simp only [Bool.false_eq_true, if_false, Except.ok.injEq]
    congr 1
    unfold Vx.normalize3
    have : V3.norm (act R pl.n) = 1 := by rw [V3.norm_real]; exact h1
    rw [this]
    apply V3.ext <;> simp [V3.sdiv]

/-- **C115.** `apex` along the turned axis is the moved apex; `farthest` from the moved point is the moved farthest point, with the
same index. -/
theorem C115_apex {R : Matrix (Fin 3) (Fin 3) ℝ} (hR : R.transpose * R = 1) {c : ℝ} (hcp : 0 < c) (T : V3 ℝ)
    (ps : List (V3 ℝ)) (axis q : V3 ℝ) :
    apex (ps.map (place c R T)) (act R axis) = (apex ps axis).map (place c R T) ∧
    farthest (place c R T q) (ps.map (place c R T)) = (farthest q ps).map fun x => (place c R T x.1, x.2) := by
  have scale : ∀ (k : ℝ) (l : List ℝ) (i best : ℕ) (b : ℝ),
      argmaxFrom i best (c * b + k) (l.map fun y => c * y + k) = argmaxFrom i best b l := by
    intro k l
    induction l with
    | nil => intros; rfl
    | cons x l ih =>
      intro i best b
      simp only [List.map_cons, argmaxFrom, npIsNan_real, Bool.false_eq_true, if_false, Bool.false_or]
      have : Num.lt (c * b + k) (c * x + k) = Num.lt b x := by
        rw [Bool.eq_iff_iff, Num.lt_real, Num.lt_real]
        constructor
        · intro h; exact lt_of_mul_lt_mul_left (by linarith) hcp.le
        · intro h; have := mul_lt_mul_of_pos_left h hcp; linarith
      rw [this, ih, ih]
  have am : ∀ (k : ℝ) (l : List ℝ), argmax (l.map fun y => c * y + k) = argmax l := by
    intro k l
    cases l with
    | nil => rfl
    | cons x l => simp only [List.map_cons, argmax, scale]
  obtain ⟨hs, -, -, -⟩ := C115_rigid hR hcp T ⟨q, q⟩
  constructor
  · unfold apex
    have : (ps.map (place c R T)).map (fun p => V3.dot p (act R axis)) =
        (ps.map fun p => V3.dot p axis).map fun y => c * y + inner3 T (act R axis) := by
      rw [List.map_map, List.map_map]
      apply List.map_congr_left
      intro p _
      have h1 := place_inner hR p axis
      simp only [Function.comp, place, V3.dot, inner3] at h1 ⊢
      linear_combination c * h1
    simp only [this, am]
    apply bind_same
    intro i _
    exact pyIndex_map _ _ _
  · unfold farthest
    have : (ps.map (place c R T)).map (fun p => V3.norm (p - place c R T q)) =
        (ps.map fun p => V3.norm (p - q)).map fun y => c * y + 0 := by
      rw [List.map_map, List.map_map]
      apply List.map_congr_left
      intro p _
      simp only [Function.comp, norm_sub, hs.dist, add_zero]
    simp only [this, am]
    apply bind_same
    intro i _
    rw [pyIndex_map]
    apply MO.bind_map
    intro x _
    rfl

/-- **C115.** Every invertible affine 4×4 matrix gives such a map, and carries every plane with a unit normal to a plane that the
constructor makes. -/
theorem C115_affine {F B : Matrix (Fin 4) (Fin 4) ℝ} (hF : Affine F) (h : F * B = 1) (pl : Plane ℝ) (hu : UnitNormal pl) :
    Placement (affMap F) ∧ ∃ n', Plane.mk' (affMap F pl.r0) n' = .ok ⟨affMap F pl.r0, n'⟩ ∧
      UnitNormal ⟨affMap F pl.r0, n'⟩ ∧ Carries (affMap F) pl ⟨affMap F pl.r0, n'⟩ := by
  have hB := affine_inverse hF h
  have hBF : B * F = 1 := mul_eq_one_comm.mp h
  have hback : ∀ p, affMap B (affMap F p) = p := by
    intro p
    rw [← affMap_mul hF, hBF, affMap_one]
  refine ⟨⟨?_, fun a b e => by rw [← hback a, e, hback]⟩, ?_⟩
  · intro a b t
    simp only [affMap, along, vec3]
    ext <;> simp only <;> ring
  -- the covector of the plane, carried over
  obtain ⟨w, hw⟩ : ∃ w : V3 ℝ, w = ⟨pl.n.x * B 0 0 + pl.n.y * B 1 0 + pl.n.z * B 2 0,
    pl.n.x * B 0 1 + pl.n.y * B 1 1 + pl.n.z * B 2 1, pl.n.x * B 0 2 + pl.n.y * B 1 2 + pl.n.z * B 2 2⟩ := ⟨_, rfl⟩
  have hin : ∀ a b, inner3 (vec3 (affMap F a) (affMap F b)) w = inner3 (vec3 a b) pl.n := by
    intro a b
    have h1 : vec3 a b = vec3 (affMap B (affMap F a)) (affMap B (affMap F b)) := by rw [hback, hback]
    rw [h1]
    generalize affMap F a = a'
    generalize affMap F b = b'
    rw [hw]
    simp only [inner3, vec3, affMap]
    ring
  have hwl : 0 < len3 w := by
    rcases (Real.sqrt_nonneg _ : 0 ≤ len3 w).lt_or_eq with h0 | h0
    · exact h0
    · exfalso
      have hz : w = zero3 := len3_eq_zero.mp h0.symm
      have h1 := hin pl.r0 ⟨pl.r0.x + pl.n.x, pl.r0.y + pl.n.y, pl.r0.z + pl.n.z⟩
      rw [hz] at h1
      have h2 := unit_inner hu
      simp only [inner3, vec3, zero3] at h1 h2
      nlinarith
  refine ⟨scale3 (len3 w)⁻¹ w, ?_, ?_, (len3 w)⁻¹, inv_pos.mpr hwl, ?_⟩
  · have h1 : len3 (scale3 (len3 w)⁻¹ w) = 1 := by
      rw [len3_scale, abs_of_pos (inv_pos.mpr hwl), inv_mul_cancel₀ hwl.ne']
    unfold Plane.mk'
    rw [not_almostZero_unit h1]
    simp only [Bool.false_eq_true, if_false, Except.ok.injEq]
    congr 1
    unfold Vx.normalize3
    have : V3.norm (scale3 (len3 w)⁻¹ w) = 1 := by rw [V3.norm_real]; exact h1
    rw [this]
    apply V3.ext <;> simp [V3.sdiv]
  · show len3 _ = 1
    rw [len3_scale, abs_of_pos (inv_pos.mpr hwl), inv_mul_cancel₀ hwl.ne']
  · intro p
    simp only [height]
    rw [inner3_scale_right, hin]

/-- **C115.** Together with `CompositeTransform`: after any history of reversible calls and for any range of transforms, the call acts
on all points by one map; every plane with a unit normal has an image; and slicing the transformed mesh with it gives the
transformed sections. -/
theorem C115_composite (inv : Mat 4 4 ℝ → PyM (Mat 4 4 ℝ)) (hinv : InvSpec inv) (svd : Svd3 ℝ) (ops : List (TOp ℝ))
    (hops : ∀ op ∈ ops, Reversible op) (r : Option (Option ℤ × Option ℤ)) (pl : Plane ℝ) (hu : UnitNormal pl) :
    ∃ g pl', (∀ ps, callT (runT inv svd [] ops) (pts ps) r false = .ok (pts (ps.map g))) ∧ UnitNormal pl' ∧
      (∀ p, OnPlane pl' (g p) ↔ OnPlane pl p) ∧
      ∀ ver pk ko m, pl'.meshXsections ver pk ko (Mesh.image g m) =
        (pl.meshXsections ver pk ko m).map (List.map (Section.image g)) := by
  have hst := run_good hinv svd ops hops [] (by simp)
  have h' : ∀ t ∈ selected (runT inv svd [] ops) r, PairOk t := fun t ht => hst t (mem_selected ht)
  have hm := C53_matrices inv hinv svd ops hops r
  have ha : Affine (matrixFor (runT inv svd [] ops) r false) := by
    rw [matrixFor_fwd]; exact fwd_affine h'
  obtain ⟨hp, n', -, hn, hc⟩ := C115_affine ha hm pl hu
  refine ⟨affMap (matrixFor (runT inv svd [] ops) r false), _, ?_, hn, fun p => onPlane hc p,
    fun ver pk ko m => (C115_sections hp hc ver pk ko m).2⟩
  intro ps
  unfold callT
  exact applyMatrix_affine ha ps

/-! ### where it stops -/

/-- **C115.** The limits.  The decision whether three points span a plane is taken on each component of the cross product, so it
depends on how the triangle is turned: three points are refused, and accepted after a rotation.  The canonical point does not move
along with the plane. -/
theorem C115_limits :
    (∃ R, IsRotation R ∧ ∃ p1 p2 p3 : V3 ℝ, Plane.fromPoints p1 p2 p3 = .error .ValueError ∧
      Returns (Plane.fromPoints (act R p1) (act R p2) (act R p3))) ∧
    (∃ (pl : Plane ℝ) (T : V3 ℝ), UnitNormal pl ∧
      (⟨place 1 1 T pl.r0, pl.n⟩ : Plane ℝ).canonicalPoint ≠ place 1 1 T pl.canonicalPoint) := by
  refine ⟨⟨!![3/5, -4/5, 0; 4/5, 3/5, 0; 0, 0, 1], ⟨?_, ?_⟩, ⟨0, 0, 0⟩, ⟨0, 0, 1⟩,
    ⟨1 / 100000000, -1 / 100000000, 0⟩, ?_, ?_⟩, ⟨⟨⟨0, 0, 0⟩, ⟨0, 0, 1⟩⟩, ⟨1, 0, 0⟩, ?_, ?_⟩⟩
  · ext i j
    fin_cases i <;> fin_cases j <;> simp [Matrix.mul_apply, Fin.sum_univ_three] <;> norm_num
  · simp [Matrix.det_fin_three]; norm_num
  · unfold Plane.fromPoints Plane.mk'
    rw [if_pos]
    rw [almostZero_real]
    simp [V3.cross]
    norm_num
  · unfold Plane.fromPoints Plane.mk'
    rw [if_neg]
    · exact ⟨_, rfl⟩
    · rw [almostZero_real]
      simp [V3.cross, act_eq]
      norm_num [abs_of_pos, abs_of_neg]
  · simp [UnitNormal, len3]
  · simp [Plane.canonicalPoint, place, V3.dot, V3.smul, act_eq]

/-! ### examples -/

/-- stretched three times upwards and moved -/
def stretch (p : V3 ℝ) : V3 ℝ := ⟨p.x + 5, p.y, 3 * p.z + 1⟩

theorem stretch_placement : Placement stretch := by
  refine ⟨?_, ?_⟩
  · intro a b t
    simp only [stretch, along, vec3]
    ext <;> simp only <;> ring
  · intro a b h
    simp only [stretch, V3.mk.injEq] at h
    exact V3.ext (by linarith [h.1]) h.2.1 (by linarith [h.2.2])

/-- the hypotheses are met by a map that is not a similarity -/
example : Placement stretch ∧ Carries stretch groundPlane ⟨⟨5, 0, 1⟩, ⟨0, 0, 1⟩⟩ ∧
    groundPlane.lineSegmentXsection ⟨0, 0, -1⟩ ⟨0, 0, 1⟩ = some ⟨0, 0, 0⟩ ∧
    (⟨⟨5, 0, 1⟩, ⟨0, 0, 1⟩⟩ : Plane ℝ).lineSegmentXsection ⟨5, 0, -2⟩ ⟨5, 0, 4⟩ = some ⟨5, 0, 1⟩ := by
  have hc : Carries stretch groundPlane ⟨⟨5, 0, 1⟩, ⟨0, 0, 1⟩⟩ := by
    refine ⟨3, by norm_num, fun p => ?_⟩
    simp [height, groundPlane, inner3, vec3, stretch]
  have h1 : groundPlane.lineSegmentXsection ⟨0, 0, -1⟩ ⟨0, 0, 1⟩ = some ⟨0, 0, 0⟩ := by
    rw [C26_segment, height_ground, height_ground, onPlane_iff, height_ground]
    refine ⟨by norm_num, rfl, 1 / 2, by norm_num, by norm_num, ?_⟩
    ext <;> norm_num [along, vec3]
  refine ⟨stretch_placement, hc, h1, ?_⟩
  have h2 := (C115_segment stretch_placement hc ⟨0, 0, -1⟩ ⟨0, 0, 1⟩).1
  rw [h1] at h2
  have e1 : stretch ⟨0, 0, -1⟩ = ⟨5, 0, -2⟩ := by ext <;> norm_num [stretch]
  have e2 : stretch ⟨0, 0, 1⟩ = ⟨5, 0, 4⟩ := by ext <;> norm_num [stretch]
  rw [e1, e2] at h2
  rw [h2]
  norm_num [stretch]

/-- a tetrahedron across the plane, stretched: a closed section through the stretched crossing point -/
example (pk : ℕ → Picker) (ko : ℕ → KeyOrder) : ∃ cs c,
    (⟨⟨5, 0, 1⟩, ⟨0, 0, 1⟩⟩ : Plane ℝ).meshXsections .py3 pk ko (Mesh.image stretch tetra) = .ok cs ∧
    c ∈ cs ∧ c.closed = true ∧ (⟨5, 1 / 2, 1⟩ : V3 ℝ) ∈ c.v := by
  have hc : Carries stretch ground ⟨⟨5, 0, 1⟩, ⟨0, 0, 1⟩⟩ := by
    refine ⟨3, by norm_num, fun p => ?_⟩
    simp [height, ground, inner3, vec3, stretch]
  obtain ⟨cs, c, h1, h2, h3, h4⟩ := tetra_section pk ko
  have h := (C115_sections stretch_placement hc .py3 pk ko tetra).2
  rw [h1] at h
  refine ⟨_, Section.image stretch c, h, List.mem_map.mpr ⟨c, h2, rfl⟩, h3, List.mem_map.mpr ⟨_, h4, ?_⟩⟩
  norm_num [stretch]

end Blmath.Props
