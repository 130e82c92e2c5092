import Verif.Spec.FloatChord
import Verif.Props.Chord
import Verif.Props.FloatMesh
import Verif.Props.FloatMeasures
import Verif.Props.FloatPartition

/-!
Property C129: the mesh cross-section in rounded arithmetic is near the exact one, in position and in length.
-/

namespace Blmath.Props
open Blmath.Geometry Blmath.Spec Blmath.CH Blmath.Proofs FS FM
variable {rnd : ℝ → ℝ} {u : ℝ}

namespace FCh

theorem dist_along (a d : V3 ℝ) (s t : ℝ) : dist3 (along a s d) (along a t d) = |t - s| * len3 d := by
  unfold dist3 len3
  rw [← Real.sqrt_sq (abs_nonneg (t - s)), ← Real.sqrt_mul (sq_nonneg _), sq_abs]
  congr 1
  simp only [along, vec3]; ring

theorem height_along (pl : Plane ℝ) (a b : V3 ℝ) (t : ℝ) :
    height pl (along a t (vec3 a b)) = height pl a + t * (height pl b - height pl a) := by
  simp only [height, inner3, vec3, along]; ring

/-- a point near a crossed edge and near the plane is near the point where the edge crosses the plane -/
theorem near_crossing (hu0 : 0 < u) {M s : ℝ} (hM : 0 < M) (hs : 0 < s) {pl : Plane (Rd rnd)} {m : Mesh (Rd rnd)}
    (hn : Within (5 / 4) (Rd.vec pl.n)) (hst : Steep s (exactPlane pl) (exactMesh m)) {e : ℕ × ℕ} {q : V3 (Rd rnd)}
    (hc : CrossedEdge (exactPlane pl) (exactMesh m) e) (hq : NearCross u M pl m e q) :
    Nearby ((9 + 109 / s) * (u * M)) (CrossPoint (exactPlane pl) (exactMesh m) e) (Rd.vec q) := by
  obtain ⟨a, b, ha, hb, -, ⟨c, ⟨t, t0, t1, rfl⟩, w1, w2, w3⟩, hh⟩ := hq
  have ha' : (exactMesh m).v[e.1]? = some (Rd.vec a) := by simp [exactMesh, ha]
  have hb' : (exactMesh m).v[e.2]? = some (Rd.vec b) := by simp [exactMesh, hb]
  have hsl := hst e hc _ _ ha' hb'
  obtain ⟨-, -, a1, b1, ha1, hb1, hop⟩ := hc
  obtain rfl : Rd.vec a = a1 := Option.some.inj (ha'.symm.trans ha1)
  obtain rfl : Rd.vec b = b1 := Option.some.inj (hb'.symm.trans hb1)
  have hK : 0 < u * M := mul_pos hu0 hM
  generalize u * M = K at *
  set pe := exactPlane pl with hpe
  generalize Rd.vec a = A at *
  generalize Rd.vec b = B at *
  set x : ℝ := height pe A with hx
  set y : ℝ := height pe B with hy
  have hxy : x ≠ y := by rintro h; rw [h] at hop; nlinarith [mul_self_nonneg y]
  have hd : 0 < |x - y| := abs_pos.mpr (sub_ne_zero.mpr hxy)
  -- the crossing
  have hz : 0 ≤ x / (x - y) ∧ x / (x - y) ≤ 1 := by
    rcases lt_or_gt_of_ne hxy with h | h
    · have : x < 0 := by by_contra k; nlinarith
      have : 0 < y := by by_contra k; nlinarith
      refine ⟨div_nonneg_of_nonpos (by linarith) (by linarith), (div_le_one_of_neg (by linarith)).mpr (by linarith)⟩
    · have : 0 < x := by by_contra k; nlinarith
      have : y < 0 := by by_contra k; nlinarith
      exact ⟨div_nonneg (by linarith) (by linarith), (div_le_one (by linarith)).mpr (by linarith)⟩
  have hne : x - y ≠ 0 := sub_ne_zero.mpr hxy
  refine ⟨along A (x / (x - y)) (vec3 A B), ⟨A, B, ha', hb', ?_, _, hz.1, hz.2, rfl⟩, ?_⟩
  · rw [onPlane_iff, height_along, ← hx, ← hy]
    field_simp; ring
  set c := along A t (vec3 A B) with hcdef
  -- the height of the point of the edge
  have hdiff : |height pe c - height pe (Rd.vec q)| ≤ 75 / 4 * K := by
    have e1 : height pe c - height pe (Rd.vec q) =
        -((vec3 c (Rd.vec q)).x * pe.n.x + (vec3 c (Rd.vec q)).y * pe.n.y + (vec3 c (Rd.vec q)).z * pe.n.z) := by
      simp only [height, inner3, vec3]; ring
    have key : ∀ i j : ℝ, |i| ≤ 5 * K → |j| ≤ 5 / 4 → |i * j| ≤ 25 / 4 * K := by
      intro i j hi hj
      rw [abs_mul]
      nlinarith [abs_nonneg i, abs_nonneg j]
    rw [e1, abs_neg]
    have k1 := key _ _ w1 hn.1
    have k2 := key _ _ w2 hn.2.1
    have k3 := key _ _ w3 hn.2.2
    refine (abs_add_three _ _ _).trans ?_
    simp only [hpe, exactPlane] at *
    linarith
  have hhc : |height pe c| ≤ 109 * K := by
    have := abs_sub_abs_le_abs_sub (height pe c) (height pe (Rd.vec q))
    linarith
  have hpc : height pe c = (t - x / (x - y)) * (y - x) := by
    rw [hcdef, height_along, ← hx, ← hy]
    field_simp; ring
  have d1 : dist3 (along A (x / (x - y)) (vec3 A B)) c ≤ 109 / s * K := by
    rw [hcdef, dist_along]
    have e2 : |t - x / (x - y)| * |x - y| = |height pe c| := by rw [hpc, abs_mul, abs_sub_comm x y]
    have e3 : len3 (vec3 A B) = dist3 A B := rfl
    rw [e3, div_mul_eq_mul_div, le_div_iff₀ hs]
    calc |t - x / (x - y)| * dist3 A B * s = |t - x / (x - y)| * (s * dist3 A B) := by ring
      _ ≤ |t - x / (x - y)| * |x - y| := by gcongr
      _ ≤ 109 * K := by rw [e2]; exact hhc
  have d2 : dist3 c (Rd.vec q) ≤ 9 * K := by
    have := FPa.len3_le_of_within (v := vec3 c (Rd.vec q)) (k := 5 * K) (by positivity) ⟨w1, w2, w3⟩
    unfold dist3
    linarith
  have := dist3_triangle (along A (x / (x - y)) (vec3 A B)) c (Rd.vec q)
  linarith

/-- the segments have corresponding ends within `r` of each other -/
def EndsNear (r : ℝ) (s t : V3 ℝ × V3 ℝ) : Prop := dist3 s.1 t.1 ≤ r ∧ dist3 s.2 t.2 ≤ r

theorem endsNear_length {r : ℝ} {s t : V3 ℝ × V3 ℝ} (h : EndsNear r s t) : |dist3 t.1 t.2 - dist3 s.1 s.2| ≤ 2 * r := by
  obtain ⟨h1, h2⟩ := h
  have t1 := dist3_triangle t.1 s.1 t.2
  have t2 := dist3_triangle s.1 s.2 t.2
  have t3 := dist3_triangle s.1 t.1 s.2
  have t4 := dist3_triangle t.1 t.2 s.2
  rw [dist3_comm t.1 s.1] at t1
  rw [dist3_comm t.2 s.2] at t4
  rw [abs_le]
  constructor <;> linarith

theorem len3_along_le (v w : V3 ℝ) (t : ℝ) (h0 : 0 ≤ t) (h1 : t ≤ 1) {r : ℝ} (hv : len3 v ≤ r) (hw : len3 w ≤ r) :
    len3 ⟨(1 - t) * v.x + t * w.x, (1 - t) * v.y + t * w.y, (1 - t) * v.z + t * w.z⟩ ≤ r := by
  have k := dist3_triangle ⟨0, 0, 0⟩ ⟨(1 - t) * v.x, (1 - t) * v.y, (1 - t) * v.z⟩
    ⟨(1 - t) * v.x + t * w.x, (1 - t) * v.y + t * w.y, (1 - t) * v.z + t * w.z⟩
  have e1 : dist3 (⟨0, 0, 0⟩ : V3 ℝ) ⟨(1 - t) * v.x, (1 - t) * v.y, (1 - t) * v.z⟩ = (1 - t) * len3 v := by
    have := dist_along ⟨0, 0, 0⟩ v 0 (1 - t)
    rw [sub_zero, abs_of_nonneg (by linarith)] at this
    rw [← this]; simp [along]
  have e2 : dist3 (⟨(1 - t) * v.x, (1 - t) * v.y, (1 - t) * v.z⟩ : V3 ℝ)
      ⟨(1 - t) * v.x + t * w.x, (1 - t) * v.y + t * w.y, (1 - t) * v.z + t * w.z⟩ = t * len3 w := by
    have := dist_along ⟨(1 - t) * v.x, (1 - t) * v.y, (1 - t) * v.z⟩ w 0 t
    rw [sub_zero, abs_of_nonneg h0] at this
    rw [← this]; simp [along]
  have e3 : dist3 (⟨0, 0, 0⟩ : V3 ℝ) ⟨(1 - t) * v.x + t * w.x, (1 - t) * v.y + t * w.y, (1 - t) * v.z + t * w.z⟩ =
      len3 ⟨(1 - t) * v.x + t * w.x, (1 - t) * v.y + t * w.y, (1 - t) * v.z + t * w.z⟩ := by
    simp [dist3, vec3]
  rw [e1, e2, e3] at k
  nlinarith

theorem endsNear_points {r : ℝ} {s t : V3 ℝ × V3 ℝ} (h : EndsNear r s t) {q : V3 ℝ} (hq : OnSegment t.1 t.2 q) :
    Nearby r (OnSegment s.1 s.2) q := by
  obtain ⟨k, k0, k1, rfl⟩ := hq
  refine ⟨along s.1 k (vec3 s.1 s.2), ⟨k, k0, k1, rfl⟩, ?_⟩
  have := len3_along_le (vec3 s.1 t.1) (vec3 s.2 t.2) k k0 k1 h.1 h.2
  have e : vec3 (along s.1 k (vec3 s.1 s.2)) (along t.1 k (vec3 t.1 t.2)) =
      ⟨(1 - k) * (vec3 s.1 t.1).x + k * (vec3 s.2 t.2).x, (1 - k) * (vec3 s.1 t.1).y + k * (vec3 s.2 t.2).y,
        (1 - k) * (vec3 s.1 t.1).z + k * (vec3 s.2 t.2).z⟩ := by
    ext <;> simp only [along, vec3] <;> ring
  unfold dist3
  rw [e]
  exact this

theorem EndsNear.symm {r : ℝ} {s t : V3 ℝ × V3 ℝ} (h : EndsNear r s t) : EndsNear r t s :=
  ⟨by rw [dist3_comm]; exact h.1, by rw [dist3_comm]; exact h.2⟩

end FCh
open FCh

/-- the common situation of the statements below: `mesh` and `plane` are good enough for C102, no two faces have the same
corners, and crossed edges have slope at least `s` -/
structure SliceOK (u M s : ℝ) (pl : Plane (Rd rnd)) (m : Mesh (Rd rnd)) : Prop where
  small : 0 < u ∧ u ≤ 1 / 1000
  size : 0 < M
  slope : 0 < s
  reference : Within M (Rd.vec pl.r0)
  normal : Within (5 / 4) (Rd.vec pl.n)
  vertices : ∀ p ∈ m.v, Good u M pl p
  valid : ValidFaces m
  proper : ∀ f ∈ m.f, ProperFace f
  manifold : EdgeManifold (exactMesh m)
  distinct : m.f.Pairwise fun f g => ¬ SameCorners f g
  apart : ClosedMesh (exactMesh m) ∨
    ∀ e e' q, CrossedEdge (exactPlane pl) (exactMesh m) e → CrossedEdge (exactPlane pl) (exactMesh m) e' →
      NearCross u M pl m e q → NearCross u M pl m e' q → e = e'
  steep : Steep s (exactPlane pl) (exactMesh m)

/-- **C129.** The segments of the computed polylines belong to the faces with corners on both sides of the plane, one each;
each is within `(9 + 109/s)·u·M`, at both ends, of what that face and the plane have in common. -/
theorem C129_faces (h : Rounding rnd u) {M s : ℝ} (ver : PyVer) (pk : ℕ → Picker) (ko : ℕ → KeyOrder)
    (pl : Plane (Rd rnd)) (m : Mesh (Rd rnd)) (ok : SliceOK u M s pl m) :
    ∃ cs fs, pl.meshXsections ver pk ko m = .ok cs ∧
      fs.Perm (m.f.filter fun f => open Classical in decide (Straddles (exactPlane pl) (exactMesh m).v f)) ∧
      List.Forall₂ (fun f (t : V3 (Rd rnd) × V3 (Rd rnd)) => ∃ c, Chord (exactPlane pl) (exactMesh m) f c ∧
        EndsNear ((9 + 109 / s) * (u * M)) c (Rd.vec t.1, Rd.vec t.2)) fs (cs.flatMap fun c => chainSegs c.v c.closed) := by
  obtain ⟨cs, ess, h1, h2, h3, h4, h5⟩ := C102_manifold h ok.small.1 ok.small.2 ok.size ver pk ko pl m ok.reference ok.normal
    ok.vertices ok.valid ok.proper ok.manifold ok.apart
  have hv' : ValidFaces (exactMesh m) := by
    intro f hf
    have := ok.valid f hf
    simpa [exactMesh] using this
  obtain ⟨fs, k1, k2⟩ := CH.faces_of_traces hv' ok.proper (off_plane ok.small.1 ok.size pl m ok.vertices) ok.manifold ok.distinct
    h2 h3 h4
  refine ⟨cs, fs, h1, k1, k2.imp ?_⟩
  rintro f ⟨p, q⟩ ⟨e, e', n, c1, c2, f1, f2, r1, r2⟩
  obtain ⟨x, x1, x2⟩ := near_crossing ok.small.1 ok.size ok.slope ok.normal ok.steep c1 r1
  obtain ⟨y, y1, y2⟩ := near_crossing ok.small.1 ok.size ok.slope ok.normal ok.steep c2 r2
  exact ⟨(x, y), chord_of n c1 c2 f1 f2 x1 y1, x2, y2⟩

/-- **C129.** Every point of the computed polylines is within `(9 + 109/s)·u·M` of a point the surface and the plane have in
common, and every such point is that near to a point of the polylines. -/
theorem C129_points (h : Rounding rnd u) {M s : ℝ} (ver : PyVer) (pk : ℕ → Picker) (ko : ℕ → KeyOrder)
    (pl : Plane (Rd rnd)) (m : Mesh (Rd rnd)) (ok : SliceOK u M s pl m) :
    ∃ cs, pl.meshXsections ver pk ko m = .ok cs ∧
      (∀ q, (∃ c ∈ cs, OnChain (c.v.map Rd.vec) c.closed q) →
        Nearby ((9 + 109 / s) * (u * M)) (fun x => OnPlane (exactPlane pl) x ∧ OnSurface (exactMesh m) x) q) ∧
      ∀ x, OnPlane (exactPlane pl) x → OnSurface (exactMesh m) x →
        Nearby ((9 + 109 / s) * (u * M)) (fun q => ∃ c ∈ cs, OnChain (c.v.map Rd.vec) c.closed q) x := by
  obtain ⟨cs, fs, h1, h2, h3⟩ := C129_faces h ver pk ko pl m ok
  have hz := List.forall₂_iff_zip.mp h3
  have seg : ∀ c ∈ cs, ∀ t, t ∈ chainSegs (c.v.map Rd.vec) c.closed ↔
      ∃ t' ∈ chainSegs c.v c.closed, t = (Rd.vec t'.1, Rd.vec t'.2) := by
    intro c _ t
    rw [chainSegs_map, List.mem_map]
    constructor
    · rintro ⟨t', k, rfl⟩; exact ⟨t', k, rfl⟩
    · rintro ⟨t', k, rfl⟩; exact ⟨t', k, rfl⟩
  have hmem : ∀ f, f ∈ fs ↔ f ∈ m.f ∧ Straddles (exactPlane pl) (exactMesh m).v f := by
    intro f
    rw [h2.mem_iff, List.mem_filter]
    simp only [decide_eq_true_eq]
  refine ⟨cs, h1, ?_, ?_⟩
  · rintro q ⟨c, hc, t, ht, hq⟩
    obtain ⟨t', ht', rfl⟩ := (seg c hc t).mp ht
    have hs' : t' ∈ cs.flatMap fun c => chainSegs c.v c.closed := List.mem_flatMap.mpr ⟨c, hc, ht'⟩
    obtain ⟨i, hi, hi'⟩ := List.getElem_of_mem hs'
    obtain ⟨cc, k1, k2⟩ := List.Forall₂.get h3 (by rw [hz.1]; exact hi) hi
    simp only [List.get_eq_getElem] at k1 k2
    rw [hi'] at k2
    obtain ⟨x, hx, hd⟩ := endsNear_points k2 hq
    have := (k1 x).mp hx
    have hf := (hmem _).mp (List.getElem_mem (l := fs) (n := i) (by rw [hz.1]; exact hi))
    exact ⟨x, ⟨this.1, _, hf.1, this.2⟩, hd⟩
  · intro x hx ⟨f, hf, hin⟩
    have hoff := off_plane ok.small.1 ok.size pl m ok.vertices
    have hst : Straddles (exactPlane pl) (exactMesh m).v f := by
      exact CH.straddles_of_point hin hx
    obtain ⟨i, hi, hi'⟩ := List.getElem_of_mem ((hmem f).mpr ⟨hf, hst⟩)
    obtain ⟨cc, k1, k2⟩ := List.Forall₂.get h3 hi (by rw [← hz.1]; exact hi)
    simp only [List.get_eq_getElem] at k1 k2
    rw [hi'] at k1
    obtain ⟨q, hq, hd⟩ := endsNear_points k2.symm ((k1 x).mpr ⟨hx, hin⟩)
    obtain ⟨c, hc, hs⟩ := List.mem_flatMap.mp (List.getElem_mem (l := cs.flatMap fun c => chainSegs c.v c.closed) (n := i)
      (by rw [← hz.1]; exact hi))
    exact ⟨q, ⟨c, hc, _, (seg c hc _).mpr ⟨_, hs, rfl⟩, hq⟩, hd⟩

/-- **C129.** The computed lengths of the polylines add up to the lengths of what the faces have in common with the plane: with
`n` faces having corners on both sides, up to `2·n·(9 + 109/s)·u·M` and the rounding of the sum. -/
theorem C129_length (h : Rounding rnd u) {M s : ℝ} (ver : PyVer) (pk : ℕ → Picker) (ko : ℕ → KeyOrder)
    (pl : Plane (Rd rnd)) (m : Mesh (Rd rnd)) (ok : SliceOK u M s pl m) (n : ℕ)
    (hn : n = (m.f.filter fun f => open Classical in decide (Straddles (exactPlane pl) (exactMesh m).v f)).length)
    (hnu : ((n + 4 : ℕ) : ℝ) * u < 1) :
    ∃ cs ls ds, pl.meshXsections ver pk ko m = .ok cs ∧
      List.Forall₂ (fun (c : Section (Rd rnd)) l => (poly c.v c.closed).totalLength = .ok l) cs ls ∧
      List.Forall₂ (ChordLength (exactPlane pl) (exactMesh m))
        (m.f.filter fun f => open Classical in decide (Straddles (exactPlane pl) (exactMesh m).v f)) ds ∧
      |(ls.map Rd.val).sum - ds.sum| ≤ gam u (n + 4) * ds.sum + (1 + gam u (n + 4)) * (2 * n * ((9 + 109 / s) * (u * M))) := by
  obtain ⟨cs, fs, h1, h2, h3⟩ := C129_faces h ver pk ko pl m ok
  set D := (9 + 109 / s) * (u * M) with hD
  obtain ⟨es, h4, h4'⟩ : ∃ es, List.Forall₂ (ChordLength (exactPlane pl) (exactMesh m)) fs es ∧
      |((cs.flatMap fun c => chainSegs c.v c.closed).map fun t => dist3 (Rd.vec t.1) (Rd.vec t.2)).sum - es.sum| ≤
        2 * fs.length * D := by
    clear h1 h2
    generalize (cs.flatMap fun c => chainSegs c.v c.closed) = L at h3
    induction h3 with
    | nil => exact ⟨[], .nil, by simp⟩
    | cons k _ ih =>
      obtain ⟨es, i1, i2⟩ := ih
      obtain ⟨c, k1, k2⟩ := k
      refine ⟨dist3 c.1 c.2 :: es, .cons ⟨c.1, c.2, k1, rfl⟩ i1, ?_⟩
      have := endsNear_length k2
      rw [abs_le] at *
      simp only [List.map_cons, List.sum_cons, List.length_cons]
      push_cast
      constructor <;> linarith
  obtain ⟨ds, h5, h6⟩ := List.perm_comp_forall₂ h2.symm h4
  have hlen : fs.length = n := by rw [hn]; exact h2.length_eq
  rw [hlen] at h4'
  have hsegs : (cs.flatMap fun c => chainSegs c.v c.closed).length = n := by rw [← h3.length_eq, hlen]
  obtain ⟨ls, h7, h8⟩ : ∃ ls, List.Forall₂ (fun (c : Section (Rd rnd)) l => (poly c.v c.closed).totalLength = .ok l) cs ls ∧
      |(ls.map Rd.val).sum - ((cs.flatMap fun c => chainSegs c.v c.closed).map fun t => dist3 (Rd.vec t.1) (Rd.vec t.2)).sum| ≤
        gam u (n + 4) * ((cs.flatMap fun c => chainSegs c.v c.closed).map fun t => dist3 (Rd.vec t.1) (Rd.vec t.2)).sum := by
    clear h1 h3 h4'
    have hle := hsegs.le
    clear hsegs
    induction cs with
    | nil => exact ⟨[], .nil, by simp⟩
    | cons c cs ih =>
      rw [List.flatMap_cons, List.length_append] at hle
      obtain ⟨ls, i1, i2⟩ := ih (by omega)
      have hc : (((chainSegs c.v c.closed).length + 4 : ℕ) : ℝ) * u < 1 := by
        refine lt_of_le_of_lt ?_ hnu
        have : (((chainSegs c.v c.closed).length + 4 : ℕ) : ℝ) ≤ ((n + 4 : ℕ) : ℝ) := by exact_mod_cast (by omega)
        have := ok.small.1
        gcongr
      obtain ⟨L, j1, j2⟩ := C83_total_length h c.v c.closed hc
      refine ⟨L :: ls, .cons j1 i1, ?_⟩
      have hp : pathLength (circuit (c.v.map Rd.vec) c.closed) =
          ((chainSegs c.v c.closed).map fun s => dist3 (Rd.vec s.1) (Rd.vec s.2)).sum := by
        show ((chainSegs (c.v.map Rd.vec) c.closed).map fun s => dist3 s.1 s.2).sum = _
        rw [chainSegs_map, List.map_map]; rfl
      rw [hp] at j2
      have h0 : 0 ≤ ((chainSegs c.v c.closed).map fun s => dist3 (Rd.vec s.1) (Rd.vec s.2)).sum :=
        List.sum_nonneg (by simp only [List.mem_map]; rintro _ ⟨_, _, rfl⟩; exact Real.sqrt_nonneg _)
      have hg := mul_le_mul_of_nonneg_right (gam_mono (k := (chainSegs c.v c.closed).length + 4) (l := n + 4) ok.small.1.le hnu
        (by omega)) h0
      rw [List.flatMap_cons, List.map_append, List.sum_append, List.map_cons, List.sum_cons]
      rw [abs_le] at *
      constructor <;> linarith
  refine ⟨cs, ls, ds, h1, h7, h5, ?_⟩
  rw [← h6.sum_eq] at h4'
  have hg := gam_nonneg (k := n + 4) ok.small.1.le hnu
  generalize ((cs.flatMap fun c => chainSegs c.v c.closed).map fun t => dist3 (Rd.vec t.1) (Rd.vec t.2)).sum = S at *
  have : S ≤ ds.sum + 2 * n * D := by rw [abs_le] at h4'; linarith
  have := mul_le_mul_of_nonneg_left this hg
  rw [abs_le] at *
  constructor <;> linarith

/-! The tetrahedron of C102 in double precision. -/

theorem FCh.tetra_slice (pk : ℕ → Picker) (ko : ℕ → KeyOrder) : SliceOK (1 / 2 ^ 53) 1 (1 / 2) groundF tetraF := by
  refine ⟨by norm_num, one_pos, by norm_num, by norm_num [Within, Rd.vec, groundF], by norm_num [Within, Rd.vec, groundF],
    (C102_witness pk ko).1, tetra_ok.1, tetra_ok.2.1, tetra_ok.2.2.2.1, tetra_closed.2, Or.inl tetra_closed, ?_⟩
  have e1 : exactMesh tetraF = tetra := rfl
  have e2 : exactPlane groundF = ground := rfl
  rw [e1, e2]
  rintro e ⟨-, -, a', b', ha', hb', ho⟩ a b ha hb
  obtain rfl : a' = a := Option.some.inj (ha'.symm.trans ha)
  obtain rfl : b' = b := Option.some.inj (hb'.symm.trans hb)
  have h1 := List.mem_of_getElem? ha
  have h2 := List.mem_of_getElem? hb
  have hd : dist3 a' b' ≤ 4 := by
    unfold dist3 len3
    rw [Real.sqrt_le_left (by norm_num)]
    simp only [tetra, List.mem_cons, List.not_mem_nil, or_false] at h1 h2
    rcases h1 with rfl | rfl | rfl | rfl <;> rcases h2 with rfl | rfl | rfl | rfl <;> norm_num [vec3]
  have hh : 2 ≤ |height ground a' - height ground b'| := by
    simp only [tetra, List.mem_cons, List.not_mem_nil, or_false] at h1 h2
    rcases h1 with rfl | rfl | rfl | rfl <;> rcases h2 with rfl | rfl | rfl | rfl <;>
      first
        | (exfalso; norm_num [ground, height, inner3, vec3] at ho; done)
        | norm_num [ground, height, inner3, vec3]
  linarith

/-- The tetrahedron cut in double precision: the lengths of the polylines add up to `(√2 + 2·√5)/2` within `10⁻¹²`. -/
theorem C129_witness (pk : ℕ → Picker) (ko : ℕ → KeyOrder) :
    SliceOK (1 / 2 ^ 53) 1 (1 / 2) groundF tetraF ∧ ∃ cs ls, groundF.meshXsections .py3 pk ko tetraF = .ok cs ∧
      List.Forall₂ (fun (c : Section (Rd rnd53)) l => (poly c.v c.closed).totalLength = .ok l) cs ls ∧
      |(ls.map Rd.val).sum - (Real.sqrt 2 + 2 * Real.sqrt 5) / 2| ≤ 1 / 10 ^ 12 := by
  have h' : Rounding rnd53 (1 / 2 ^ 53) := by simpa using rounding_rnd53
  have hf : (tetraF.f.filter fun f => open Classical in decide (Straddles (exactPlane groundF) (exactMesh tetraF).v f)) =
      [(0, 1, 2), (0, 2, 3), (0, 3, 1)] := by
    have s1 : Straddles ground tetra.v (0, 1, 2) := ⟨⟨0, 0, 1⟩, ⟨1, 0, -1⟩, ⟨0, 1, -1⟩, rfl, rfl, rfl, by
      norm_num [ground, height, inner3, vec3], by norm_num [ground, height, inner3, vec3]⟩
    have s2 : Straddles ground tetra.v (0, 2, 3) := ⟨⟨0, 0, 1⟩, ⟨0, 1, -1⟩, ⟨-1, -1, -1⟩, rfl, rfl, rfl, by
      norm_num [ground, height, inner3, vec3], by norm_num [ground, height, inner3, vec3]⟩
    have s3 : Straddles ground tetra.v (0, 3, 1) := ⟨⟨0, 0, 1⟩, ⟨-1, -1, -1⟩, ⟨1, 0, -1⟩, rfl, rfl, rfl, by
      norm_num [ground, height, inner3, vec3], by norm_num [ground, height, inner3, vec3]⟩
    have s4 : ¬ Straddles ground tetra.v (1, 3, 2) := by
      rintro ⟨a, b, c, ha, hb, hc, -, k⟩
      simp only [tetra, List.getElem?_cons_succ, List.getElem?_cons_zero, Option.some.injEq] at ha hb hc
      subst ha hb hc
      norm_num [ground, height, inner3, vec3] at k
    show List.filter (fun f => open Classical in decide (Straddles ground tetra.v f)) [(0, 1, 2), (0, 2, 3), (0, 3, 1), (1, 3, 2)] = _
    simp [s1, s2, s3, s4]
  obtain ⟨cs, ls, ds, h1, h2, h3, h4⟩ := C129_length h' .py3 pk ko groundF tetraF (FCh.tetra_slice pk ko) 3 (by rw [hf]; rfl) (by norm_num)
  refine ⟨FCh.tetra_slice pk ko, cs, ls, h1, h2, ?_⟩
  rw [hf] at h3
  have ch : ∀ (x y z : ℕ) (a b c p q : V3 ℝ), tetra.v[x]? = some a → tetra.v[y]? = some b → tetra.v[z]? = some c →
      height ground a * height ground b < 0 → OnPlane ground p → OnPlane ground q →
      p = along a (1 / 2) (vec3 a b) → q = along a (1 / 2) (vec3 a c) → ChordLength ground tetra (x, y, z) (dist3 p q) := by
    intro x y z a b c p q ha hb hc ho hp hq ep eq
    refine ⟨p, q, fun w => ?_, rfl⟩
    rw [inFace_iff (m := tetra) ha hb hc]
    exact chord_core ho hp ⟨1 / 2, by norm_num, by norm_num, ep⟩ hq ⟨1 / 2, by norm_num, by norm_num, eq⟩ w
  have c1 := ch 0 1 2 ⟨0, 0, 1⟩ ⟨1, 0, -1⟩ ⟨0, 1, -1⟩ ⟨1 / 2, 0, 0⟩ ⟨0, 1 / 2, 0⟩ rfl rfl rfl
    (by norm_num [ground, height, inner3, vec3]) (by norm_num [onPlane_iff, ground, height, inner3, vec3])
    (by norm_num [onPlane_iff, ground, height, inner3, vec3]) (by ext <;> norm_num [along, vec3]) (by ext <;> norm_num [along, vec3])
  have c2 := ch 0 2 3 ⟨0, 0, 1⟩ ⟨0, 1, -1⟩ ⟨-1, -1, -1⟩ ⟨0, 1 / 2, 0⟩ ⟨-1 / 2, -1 / 2, 0⟩ rfl rfl rfl
    (by norm_num [ground, height, inner3, vec3]) (by norm_num [onPlane_iff, ground, height, inner3, vec3])
    (by norm_num [onPlane_iff, ground, height, inner3, vec3]) (by ext <;> norm_num [along, vec3]) (by ext <;> norm_num [along, vec3])
  have c3 := ch 0 3 1 ⟨0, 0, 1⟩ ⟨-1, -1, -1⟩ ⟨1, 0, -1⟩ ⟨-1 / 2, -1 / 2, 0⟩ ⟨1 / 2, 0, 0⟩ rfl rfl rfl
    (by norm_num [ground, height, inner3, vec3]) (by norm_num [onPlane_iff, ground, height, inner3, vec3])
    (by norm_num [onPlane_iff, ground, height, inner3, vec3]) (by ext <;> norm_num [along, vec3]) (by ext <;> norm_num [along, vec3])
  have half : ∀ x y : ℝ, 0 ≤ x → y * 4 = x → Real.sqrt y = Real.sqrt x / 2 := by
    intro x y hx hy
    have e4 : Real.sqrt 4 = 2 := by rw [show (4 : ℝ) = 2 ^ 2 by norm_num]; exact Real.sqrt_sq (by norm_num)
    rw [← e4, ← Real.sqrt_div hx, ← hy]; congr 1; ring
  have l1 : dist3 (⟨1 / 2, 0, 0⟩ : V3 ℝ) ⟨0, 1 / 2, 0⟩ = Real.sqrt 2 / 2 := half _ _ (by norm_num) (by norm_num [vec3])
  have l2 : dist3 (⟨0, 1 / 2, 0⟩ : V3 ℝ) ⟨-1 / 2, -1 / 2, 0⟩ = Real.sqrt 5 / 2 := half _ _ (by norm_num) (by norm_num [vec3])
  have l3 : dist3 (⟨-1 / 2, -1 / 2, 0⟩ : V3 ℝ) ⟨1 / 2, 0, 0⟩ = Real.sqrt 5 / 2 := half _ _ (by norm_num) (by norm_num [vec3])
  rw [l1] at c1
  rw [l2] at c2
  rw [l3] at c3
  match ds, h3 with
  | [d1, d2, d3], .cons k1 (.cons k2 (.cons k3 .nil)) =>
    obtain rfl := C127_length_unique ground tetra _ _ _ k1 c1
    obtain rfl := C127_length_unique ground tetra _ _ _ k2 c2
    obtain rfl := C127_length_unique ground tetra _ _ _ k3 c3
    have r2 : Real.sqrt 2 ≤ 2 := by rw [Real.sqrt_le_left (by norm_num)]; norm_num
    have r5 : Real.sqrt 5 ≤ 3 := by rw [Real.sqrt_le_left (by norm_num)]; norm_num
    simp only [List.sum_cons, List.sum_nil] at h4
    rw [show Real.sqrt 2 / 2 + (Real.sqrt 5 / 2 + (Real.sqrt 5 / 2 + 0)) = (Real.sqrt 2 + 2 * Real.sqrt 5) / 2 by ring] at h4
    refine h4.trans ?_
    have hS : (Real.sqrt 2 + 2 * Real.sqrt 5) / 2 ≤ 4 := by linarith
    have hg : gam ((1 : ℝ) / 2 ^ 53) (3 + 4) ≤ 8 / 2 ^ 53 := by norm_num [gam]
    have hg0 : 0 ≤ gam ((1 : ℝ) / 2 ^ 53) (3 + 4) := by norm_num [gam]
    have := mul_le_mul hg hS (by positivity) (by positivity)
    have hq : (1 + gam ((1 : ℝ) / 2 ^ 53) (3 + 4)) * (2 * (3 : ℕ) * ((9 + 109 / (1 / 2)) * (1 / 2 ^ 53 * 1))) ≤
        2 * (2 * (3 : ℕ) * ((9 + 109 / (1 / 2)) * (1 / 2 ^ 53 * 1))) := by
      gcongr
      have : (8 : ℝ) / 2 ^ 53 ≤ 1 := by norm_num
      linarith
    refine (add_le_add this hq).trans ?_
    norm_num

end Blmath.Props
