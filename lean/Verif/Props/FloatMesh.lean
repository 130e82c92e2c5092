import Verif.Props.FloatSlice
import Verif.Props.MeshSlice

/-!
Property C102: mesh cross-sections in rounded arithmetic.
-/

namespace Blmath.Props
open Blmath.Spec Blmath.Vx Blmath.Geometry Blmath.Proofs FS Graph
variable {rnd : ℝ → ℝ} {u : ℝ}

namespace FM

/-- the real mesh with the stored vertices -/
def exactMesh (m : Mesh (Rd rnd)) : Mesh ℝ := ⟨m.v.map Rd.vec, m.f⟩

/-- a vertex that is a number of the arithmetic in every coordinate, is not too far away, and not too near to the plane -/
structure Good (u M : ℝ) (pl : Plane (Rd rnd)) (p : V3 (Rd rnd)) : Prop where
  within : Within M (Rd.vec p)
  stored : Stored p
  clear : Clear u M pl p

/-- `q` is within `5·u·M`, in every coordinate, of a point of the mesh edge `e`, and within `90·u·M` of the plane -/
def NearCross (u M : ℝ) (pl : Plane (Rd rnd)) (m : Mesh (Rd rnd)) (e : ℕ × ℕ) (q : V3 (Rd rnd)) : Prop :=
  ∃ a b, m.v[e.1]? = some a ∧ m.v[e.2]? = some b ∧ Stored q ∧
    (∃ c, OnSegment (Rd.vec a) (Rd.vec b) c ∧ Within (5 * (u * M)) (vec3 c (Rd.vec q))) ∧
    |height (exactPlane pl) (Rd.vec q)| ≤ 90 * (u * M)

theorem termSize_le {M : ℝ} {pl : Plane ℝ} {q : V3 ℝ} (hq : Within M q) (hr : Within M pl.r0) (hn : Within (5 / 4) pl.n) :
    termSize pl q ≤ 15 / 2 * M := by
  have key : ∀ a c : ℝ, |a| ≤ M → |c| ≤ 5 / 4 → |a * c| ≤ 5 / 4 * M := by
    intro a c ha hc
    rw [abs_mul]
    nlinarith [abs_nonneg a, abs_nonneg c]
  have g1 := key _ _ hq.1 hn.1
  have g2 := key _ _ hq.2.1 hn.2.1
  have g3 := key _ _ hq.2.2 hn.2.2
  have k1 := key _ _ hr.1 hn.1
  have k2 := key _ _ hr.2.1 hn.2.1
  have k3 := key _ _ hr.2.2 hn.2.2
  unfold termSize
  linarith

/-- the sign computed for a good vertex -/
theorem sign_good (h : Rounding rnd u) (hu0 : 0 < u) (hu : u ≤ 1 / 1000) {M : ℝ} (hM : 0 < M) (pl : Plane (Rd rnd)) (p : V3 (Rd rnd))
    (hr : Within M (Rd.vec pl.r0)) (hn : Within (5 / 4) (Rd.vec pl.n)) (hp : Good u M pl p) :
    (npSign (pl.signedDistance1 p)).val = (if 0 < height (exactPlane pl) (Rd.vec p) then 1 else -1) := by
  refine C81_sign h (by linarith) pl p ?_
  have h1 := termSize_le (pl := exactPlane pl) hp.within hr hn
  have h2 := gam_four h hu
  have h3 : gam u 4 * termSize (exactPlane pl) (Rd.vec p) ≤ 402 / 100 * u * (15 / 2 * M) := by
    have : 0 ≤ termSize (exactPlane pl) (Rd.vec p) := by unfold termSize; positivity
    gcongr
  have h4 := hp.clear
  unfold Clear at h4
  have := mul_pos hu0 hM
  linarith

/-- the test of `mesh_intersecting_faces` on three signs -/
theorem signs_test (h : Rounding rnd u) (s0 s1 s2 : Rd rnd) (P0 P1 P2 : Prop) [Decidable P0] [Decidable P1] [Decidable P2]
    (h0 : s0.val = if P0 then 1 else -1) (h1 : s1.val = if P1 then 1 else -1) (h2 : s2.val = if P2 then 1 else -1) :
    ((!Num.eq (npAbs (s0 + s1 + s2)) (Num.lit 3)) = true ↔ ¬ (P0 ∧ P1 ∧ P2) ∧ ¬ (¬ P0 ∧ ¬ P1 ∧ ¬ P2)) := by
  have hz : (Num.lit 0 : Rd rnd).val = 0 := by rw [Rd.val_lit]; push_cast; exact h.zero
  have i3 : rnd 3 = 3 := by simpa using h.int 3 (by norm_num)
  have i2 : rnd 2 = 2 := by simpa using h.int 2 (by norm_num)
  have j1 : rnd (-1) = -1 := by simpa using h.int (-1) (by norm_num)
  have j2 : rnd (-2) = -2 := by simpa using h.int (-2) (by norm_num)
  have j3 : rnd (-3) = -3 := by simpa using h.int (-3) (by norm_num)
  have ht : (Num.lit 3 : Rd rnd).val = 3 := by rw [Rd.val_lit]; push_cast; exact i3
  have habs : (npAbs (s0 + s1 + s2)).val = |rnd (rnd (s0.val + s1.val) + s2.val)| := by
    unfold npAbs
    split
    · rename_i hc
      rw [Rd.lt_iff, hz] at hc
      rw [Rd.val_neg, ← abs_of_neg hc]
      rfl
    · rename_i hc
      rw [Rd.lt_iff, hz, not_lt] at hc
      rw [← abs_of_nonneg hc]
      rfl
  rw [Bool.not_eq_true', ← Bool.not_eq_true, Rd.eq_iff, ht, habs, h0, h1, h2]
  by_cases p0 : P0 <;> by_cases p1 : P1 <;> by_cases p2 : P2 <;> simp only [p0, p1, p2, if_true, if_false] <;>
    norm_num [h.zero, h.one, i2, i3, j1, j2, j3]

theorem faceSelected_rd (h : Rounding rnd u) (hu0 : 0 < u) (hu : u ≤ 1 / 1000) {M : ℝ} (hM : 0 < M) (pl : Plane (Rd rnd)) (m : Mesh (Rd rnd))
    (hr : Within M (Rd.vec pl.r0)) (hn : Within (5 / 4) (Rd.vec pl.n)) (hg : ∀ p ∈ m.v, Good u M pl p) (f : ℕ × ℕ × ℕ)
    (hf : f.1 < m.v.length ∧ f.2.1 < m.v.length ∧ f.2.2 < m.v.length) :
    pl.faceSelected m f = .ok (open Classical in decide (Straddles (exactPlane pl) (exactMesh m).v f)) := by
  obtain ⟨h1, h2, h3⟩ := hf
  have g : ∀ i (hi : i < m.v.length), pyIndex ((pl.signedDistance m.v).map npSign) (i : ℤ) =
      .ok (npSign (pl.signedDistance1 m.v[i])) := by
    intro i hi
    apply pyIndex_of_getElem?
    simp [Plane.signedDistance, hi]
  have hs : ∀ i (hi : i < m.v.length), (npSign (pl.signedDistance1 m.v[i])).val =
      (if 0 < height (exactPlane pl) (Rd.vec m.v[i]) then 1 else -1) :=
    fun i hi => sign_good h hu0 hu hM pl _ hr hn (hg _ (List.getElem_mem hi))
  have hne : ∀ i (hi : i < m.v.length), (¬ 0 < height (exactPlane pl) (Rd.vec m.v[i]) ↔ height (exactPlane pl) (Rd.vec m.v[i]) < 0) := by
    intro i hi
    have hc := (hg _ (List.getElem_mem hi)).clear
    unfold Clear at hc
    have : height (exactPlane pl) (Rd.vec m.v[i]) ≠ 0 := abs_pos.mp (by have := mul_pos hu0 hM; linarith)
    constructor
    · intro hh; exact lt_of_le_of_ne (not_lt.mp hh) this
    · intro hh; exact not_lt.mpr hh.le
  unfold Plane.faceSelected
  simp only [g _ h1, g _ h2, g _ h3, ok_bind, pure_eq_ok]
  congr 1
  rw [Bool.eq_iff_iff, signs_test h _ _ _ _ _ _ (hs _ h1) (hs _ h2) (hs _ h3)]
  simp only [hne _ h1, hne _ h2, hne _ h3, decide_eq_true_eq]
  unfold Straddles
  simp only [exactMesh, List.getElem?_map, List.getElem?_eq_getElem h1, List.getElem?_eq_getElem h2, List.getElem?_eq_getElem h3,
    Option.map_some, Option.some.injEq, exists_and_left, exists_eq_left']

theorem faces_rd (h : Rounding rnd u) (hu0 : 0 < u) (hu : u ≤ 1 / 1000) {M : ℝ} (hM : 0 < M) (pl : Plane (Rd rnd)) (m : Mesh (Rd rnd))
    (hr : Within M (Rd.vec pl.r0)) (hn : Within (5 / 4) (Rd.vec pl.n)) (hg : ∀ p ∈ m.v, Good u M pl p) (hv : ValidFaces m) :
    pl.meshIntersectingFaces m =
      .ok (m.f.filter fun f => open Classical in decide (Straddles (exactPlane pl) (exactMesh m).v f)) := by
  have hm : ∀ fs : List (ℕ × ℕ × ℕ), (∀ f ∈ fs, f ∈ m.f) →
      fs.mapM (pl.faceSelected m) =
        .ok (fs.map fun f => open Classical in decide (Straddles (exactPlane pl) (exactMesh m).v f)) := by
    intro fs
    induction fs with
    | nil => intro _; rfl
    | cons f fs ih =>
      intro hh
      simp [List.mapM_cons, faceSelected_rd h hu0 hu hM pl m hr hn hg f (hv f (hh f (by simp))),
        ih fun g hg => hh g (by simp [hg])]
  unfold Plane.meshIntersectingFaces
  rw [hm m.f fun _ h => h]
  simp only [ok_bind, pure_eq_ok]
  congr 1
  generalize m.f = fs
  induction fs with
  | nil => rfl
  | cons f fs ih =>
    by_cases h : Straddles (exactPlane pl) (exactMesh m).v f <;> simp [h] <;>
      simpa [List.filter_map, Function.comp_def] using ih

theorem onSegment_symm {a b c : V3 ℝ} (h : OnSegment a b c) : OnSegment b a c := by
  obtain ⟨t, h0, h1, rfl⟩ := h
  refine ⟨1 - t, by linarith, by linarith, ?_⟩
  ext <;> simp only [along, vec3] <;> ring

/-- a row of the batch method for two good vertices -/
theorem row_near (h : Rounding rnd u) (hu0 : 0 < u) (hu : u ≤ 1 / 1000) {M : ℝ} (hM : 0 < M) (pl : Plane (Rd rnd)) (a b : V3 (Rd rnd))
    (hr : Within M (Rd.vec pl.r0)) (hn : Within (5 / 4) (Rd.vec pl.n)) (ga : Good u M pl a) (gb : Good u M pl b)
    (hv : (pl.lineSegmentXsectionsRow a b).2 = true) :
    Stored (pl.lineSegmentXsectionsRow a b).1 ∧
    (∃ c, OnSegment (Rd.vec a) (Rd.vec b) c ∧ Within (5 * (u * M)) (vec3 c (Rd.vec (pl.lineSegmentXsectionsRow a b).1))) ∧
    |height (exactPlane pl) (Rd.vec (pl.lineSegmentXsectionsRow a b).1)| ≤ 90 * (u * M) := by
  have ho := (C101_row h hu0 hu hM pl a b hr hn ga.within gb.within ga.stored gb.stored ga.clear gb.clear).mp hv
  obtain ⟨q, t, hq, hs, t0, t1, hw, _, hh⟩ := C101_found h hu0 hu hM pl a b hr hn ga.within gb.within ga.stored gb.stored ga.clear gb.clear ho
  have hrow := (C27_any_arithmetic pl a b).2
  rw [if_pos hv, hq] at hrow
  injection hrow with hrow
  rw [← hrow]
  exact ⟨hs, ⟨_, ⟨t, t0, t1, rfl⟩, hw⟩, hh⟩

theorem rowPoint_near (h : Rounding rnd u) (hu0 : 0 < u) (hu : u ≤ 1 / 1000) {M : ℝ} (hM : 0 < M) (pl : Plane (Rd rnd)) (m : Mesh (Rd rnd))
    (hr : Within M (Rd.vec pl.r0)) (hn : Within (5 / 4) (Rd.vec pl.n)) (hg : ∀ p ∈ m.v, Good u M pl p) {e : ℕ × ℕ} {q : V3 (Rd rnd)}
    (hq : RowPoint pl m.v e.1 e.2 q) : NearCross u M pl m e q := by
  obtain ⟨a, b, ha, hb, hc⟩ := hq
  have ga := hg a (List.mem_of_getElem? ha)
  have gb := hg b (List.mem_of_getElem? hb)
  rcases hc with ⟨h1, rfl⟩ | ⟨h1, rfl⟩
  · obtain ⟨k1, k2, k3⟩ := row_near h hu0 hu hM pl a b hr hn ga gb h1
    exact ⟨a, b, ha, hb, k1, k2, k3⟩
  · obtain ⟨k1, ⟨c, k2, k2'⟩, k3⟩ := row_near h hu0 hu hM pl b a hr hn gb ga h1
    exact ⟨a, b, ha, hb, k1, ⟨c, onSegment_symm k2, k2'⟩, k3⟩

theorem row_opposite (h : Rounding rnd u) (hu0 : 0 < u) (hu : u ≤ 1 / 1000) {M : ℝ} (hM : 0 < M) (pl : Plane (Rd rnd)) (m : Mesh (Rd rnd))
    (hr : Within M (Rd.vec pl.r0)) (hn : Within (5 / 4) (Rd.vec pl.n)) (hg : ∀ p ∈ m.v, Good u M pl p) (i j : ℕ) (a b : V3 (Rd rnd))
    (ha : m.v[i]? = some a) (hb : m.v[j]? = some b) :
    ((pl.lineSegmentXsectionsRow a b).2 = true ↔ Opposite (exactPlane pl) (exactMesh m).v i j) := by
  have ga := hg a (List.mem_of_getElem? ha)
  have gb := hg b (List.mem_of_getElem? hb)
  rw [C101_row h hu0 hu hM pl a b hr hn ga.within gb.within ga.stored gb.stored ga.clear gb.clear]
  unfold Opposite
  simp only [exactMesh, List.getElem?_map, ha, hb, Option.map_some, Option.some.injEq, exists_and_left, exists_eq_left']

theorem off_plane (hu0 : 0 < u) {M : ℝ} (hM : 0 < M) (pl : Plane (Rd rnd)) (m : Mesh (Rd rnd))
    (hg : ∀ p ∈ m.v, Good u M pl p) : ∀ p ∈ (exactMesh m).v, ¬ OnPlane (exactPlane pl) p := by
  intro p hp
  obtain ⟨p', hp', rfl⟩ := List.mem_map.mp hp
  have hc := (hg p' hp').clear
  unfold Clear at hc
  have : height (exactPlane pl) (Rd.vec p') ≠ 0 := abs_pos.mp (by have := mul_pos hu0 hM; linarith)
  exact this

end FM
open FM

/-- **C102.** All vertices at least `100·u·M` away from the plane: the faces selected are exactly those on both sides. -/
theorem C102_faces (h : Rounding rnd u) (hu0 : 0 < u) (hu : u ≤ 1 / 1000) {M : ℝ} (hM : 0 < M) (pl : Plane (Rd rnd)) (m : Mesh (Rd rnd))
    (hr : Within M (Rd.vec pl.r0)) (hn : Within (5 / 4) (Rd.vec pl.n)) (hg : ∀ p ∈ m.v, Good u M pl p) (hv : ValidFaces m) :
    pl.meshIntersectingFaces m =
      .ok (m.f.filter fun f => open Classical in decide (Straddles (exactPlane pl) (exactMesh m).v f)) :=
  faces_rd h hu0 hu hM pl m hr hn hg hv

/-- **C102.** A mesh with at most two faces per edge, all vertices at least `100·u·M` away from the plane, that either is
closed or has no point near two of its crossed edges: the cross-section in rounded arithmetic has the shape of the exact one.
Each crossed edge is traced exactly once, consecutive points belong to edges of one face, each polyline is a whole component, a
closed mesh gives closed polylines; and every vertex is near its edge and near the plane. -/
theorem C102_manifold (h : Rounding rnd u) (hu0 : 0 < u) (hu : u ≤ 1 / 1000) {M : ℝ} (hM : 0 < M) (ver : PyVer) (pk : ℕ → Picker)
    (ko : ℕ → KeyOrder) (pl : Plane (Rd rnd)) (m : Mesh (Rd rnd)) (hr : Within M (Rd.vec pl.r0)) (hn : Within (5 / 4) (Rd.vec pl.n))
    (hg : ∀ p ∈ m.v, Good u M pl p) (hv : ValidFaces m) (hp : ∀ f ∈ m.f, ProperFace f)
    (hman : EdgeManifold (exactMesh m)) (hsep : ClosedMesh (exactMesh m) ∨
      ∀ e e' q, CrossedEdge (exactPlane pl) (exactMesh m) e → CrossedEdge (exactPlane pl) (exactMesh m) e' →
        NearCross u M pl m e q → NearCross u M pl m e' q → e = e') :
    ∃ cs, ∃ ess : List (List (ℕ × ℕ)), pl.meshXsections ver pk ko m = .ok cs ∧
      List.Forall₂ (TracesBy (NearCross u M pl m) (exactPlane pl) (exactMesh m)) ess cs ∧ ess.flatten.Nodup ∧
      (∀ e, e ∈ ess.flatten ↔ CrossedEdge (exactPlane pl) (exactMesh m) e) ∧
      (ClosedMesh (exactMesh m) → ∀ c ∈ cs, c.closed = true) := by
  have hv' : ValidFaces (exactMesh m) := by
    intro f hf
    have := hv f hf
    simpa [exactMesh] using this
  obtain ⟨cs, ess, h1, h2, h3⟩ := manifold_any ver pk ko pl m (exactPlane pl) (exactMesh m) (by simp [exactMesh]) hv' hp
    (off_plane hu0 hM pl m hg) (faces_rd h hu0 hu hM pl m hr hn hg hv)
    (fun f _ i j _ a b ha hb => row_opposite h hu0 hu hM pl m hr hn hg i j a b ha hb) hman
    (hsep.imp id fun k e e' q c c' hq hq' => k e e' q c c' (rowPoint_near h hu0 hu hM pl m hr hn hg hq)
      (rowPoint_near h hu0 hu hM pl m hr hn hg hq'))
  exact ⟨cs, ess, h1, h2.imp fun es c k => ⟨k.points.imp fun e q => rowPoint_near h hu0 hu hM pl m hr hn hg, k.2, k.3, k.4, k.5, k.6⟩, h3⟩

/-- **C102.** Any mesh, manifold or not, with all vertices at least `100·u·M` away from the plane: the call returns, every
vertex of the result is near a crossed edge and near the plane, and every crossed edge has such a vertex. -/
theorem C102_any_mesh (h : Rounding rnd u) (hu0 : 0 < u) (hu : u ≤ 1 / 1000) {M : ℝ} (hM : 0 < M) (ver : PyVer) (pk : ℕ → Picker)
    (ko : ℕ → KeyOrder) (pl : Plane (Rd rnd)) (m : Mesh (Rd rnd)) (hr : Within M (Rd.vec pl.r0)) (hn : Within (5 / 4) (Rd.vec pl.n))
    (hg : ∀ p ∈ m.v, Good u M pl p) (hv : ValidFaces m) (hp : ∀ f ∈ m.f, ProperFace f) :
    ∃ cs, pl.meshXsections ver pk ko m = .ok cs ∧ (∀ c ∈ cs, c.v ≠ []) ∧
      (∀ c ∈ cs, ∀ q ∈ c.v, ∃ e, CrossedEdge (exactPlane pl) (exactMesh m) e ∧ NearCross u M pl m e q) ∧
      (∀ e, CrossedEdge (exactPlane pl) (exactMesh m) e → ∃ c ∈ cs, ∃ q ∈ c.v, NearCross u M pl m e q) := by
  have hv' : ValidFaces (exactMesh m) := by
    intro f hf
    have := hv f hf
    simpa [exactMesh] using this
  obtain ⟨cs, h1, h2, h3, h4⟩ := any_mesh_any ver pk ko pl m (exactPlane pl) (exactMesh m) (by simp [exactMesh]) hv' hp
    (off_plane hu0 hM pl m hg) (faces_rd h hu0 hu hM pl m hr hn hg hv)
    (fun f _ i j _ a b ha hb => row_opposite h hu0 hu hM pl m hr hn hg i j a b ha hb)
  refine ⟨cs, h1, h2, ?_, ?_⟩
  · intro c hc q hq
    obtain ⟨e, he, k⟩ := h3 c hc q hq
    exact ⟨e, he, rowPoint_near h hu0 hu hM pl m hr hn hg k⟩
  · intro e he
    obtain ⟨c, hc, q, hq, k⟩ := h4 e he
    exact ⟨c, hc, q, hq, rowPoint_near h hu0 hu hM pl m hr hn hg k⟩

/-- **C102, what does not hold.** A triangle in double precision with no vertex on the plane `x = 0`, one of them within
2^-60 of it: the edge of `C101_missed` is not found and the call raises. -/
theorem C102_raises (pk : ℕ → Picker) (ko : ℕ → KeyOrder) :
    let pl : Plane (Rd rnd53) := ⟨⟨⟨0⟩, ⟨0⟩, ⟨0⟩⟩, ⟨⟨1⟩, ⟨0⟩, ⟨0⟩⟩⟩
    let m : Mesh (Rd rnd53) := ⟨[⟨⟨-1⟩, ⟨-1⟩, ⟨0⟩⟩, ⟨⟨1 / 2 ^ 60⟩, ⟨3 / 2 ^ 54⟩, ⟨0⟩⟩, ⟨⟨1⟩, ⟨-1⟩, ⟨0⟩⟩], [(0, 1, 2)]⟩
    (∀ p ∈ m.v, Stored p) ∧ (∀ p ∈ (exactMesh m).v, ¬ OnPlane (exactPlane pl) p) ∧
    pl.meshXsections .py2 pk ko m = .error .AssertionError ∧
    pl.meshXsections .py3 pk ko m = .error .TypeError := by
  intro pl m
  obtain ⟨a, ha⟩ : ∃ a : V3 (Rd rnd53), a = ⟨⟨-1⟩, ⟨-1⟩, ⟨0⟩⟩ := ⟨_, rfl⟩
  obtain ⟨b, hb⟩ : ∃ b : V3 (Rd rnd53), b = ⟨⟨1 / 2 ^ 60⟩, ⟨3 / 2 ^ 54⟩, ⟨0⟩⟩ := ⟨_, rfl⟩
  obtain ⟨c, hc⟩ : ∃ c : V3 (Rd rnd53), c = ⟨⟨1⟩, ⟨-1⟩, ⟨0⟩⟩ := ⟨_, rfl⟩
  have hm : m.v = [a, b, c] := by rw [ha, hb, hc]
  have h := rounding_rnd53
  have z := h.zero
  have o := h.one
  have m1 : rnd53 (-1) = -1 := by simpa using h.int (-1) (by norm_num)
  have hz : (Num.lit 0 : Rd rnd53).val = 0 := by rw [Rd.val_lit]; push_cast; exact z
  obtain ⟨s1, s2, _, _, hmiss⟩ := C101_missed
  have hmiss' : pl.lineSegmentXsection a b = none := by rw [ha, hb]; exact hmiss
  have s1' : Stored a := by rw [ha]; exact s1
  have s2' : Stored b := by rw [hb]; exact s2
  have s3' : Stored c := by rw [hc]; exact ⟨o, m1, z⟩
  have bx : rnd53 (1 / 2 ^ 60) = 1 / 2 ^ 60 := s2.1
  have row1 : (pl.lineSegmentXsectionsRow a b).2 = false := by
    by_contra hcon
    rw [Bool.not_eq_false] at hcon
    have := (C27_any_arithmetic pl a b).2
    rw [if_pos hcon, hmiss'] at this
    cases this
  have d1 : rnd53 (1 - 1 / 2 ^ 60) = 1 := by
    rw [rnd53_eval _ (2 ^ 53) (-53) (by norm_num) (by norm_num) (by norm_num [abs_lt])]
    norm_num
  have nx : rnd53 (-(1 / 2 ^ 60)) = -(1 / 2 ^ 60) := by rw [rnd53_neg, bx]
  have row2 : (pl.lineSegmentXsectionsRow b c).2 = false := by
    have hden : (V3.dot (c - b) pl.n).val = 1 := by
      rw [hb, hc]
      show rnd53 (rnd53 (rnd53 (rnd53 (1 - 1 / 2 ^ 60) * 1) + rnd53 (rnd53 (-1 - 3 / 2 ^ 54) * 0)) + rnd53 (rnd53 (0 - 0) * 0)) = 1
      simp only [d1, mul_one, o, mul_zero, z, add_zero]
    have hnum : (V3.dot (pl.r0 - b) pl.n).val = -(1 / 2 ^ 60) := by
      rw [hb]
      show rnd53 (rnd53 (rnd53 (rnd53 (0 - 1 / 2 ^ 60) * 1) + rnd53 (rnd53 (0 - 3 / 2 ^ 54) * 0)) + rnd53 (rnd53 (0 - 0) * 0)) = _
      simp only [zero_sub, nx, mul_one, mul_zero, z, add_zero]
    have hne : Num.eq (V3.dot (c - b) pl.n) (Num.lit 0) = false := by
      rw [Bool.eq_false_iff]
      intro hc
      rw [Rd.eq_iff, hz, hden] at hc
      norm_num at hc
    have : Plane.outOfBounds (V3.smul (V3.dot (pl.r0 - b) pl.n / V3.dot (c - b) pl.n) (c - b) + b) b c = true := by
      rw [outOfBounds_iff]
      right; left
      have e : (V3.smul (V3.dot (pl.r0 - b) pl.n / V3.dot (c - b) pl.n) (c - b) + b).x.val = 0 := by
        have e1 : (V3.smul (V3.dot (pl.r0 - b) pl.n / V3.dot (c - b) pl.n) (c - b) + b).x.val =
            rnd53 (rnd53 (rnd53 ((V3.dot (pl.r0 - b) pl.n).val / (V3.dot (c - b) pl.n).val) * rnd53 (1 - 1 / 2 ^ 60)) + 1 / 2 ^ 60) := by
          rw [hb, hc]; rfl
        rw [e1, hnum, hden, div_one, nx, d1, mul_one, nx, neg_add_cancel, z]
      rw [e, hb, hc]
      show (0 : ℝ) < 1 / 2 ^ 60 ∧ (0 : ℝ) < 1
      norm_num
    have hs : pl.lineSegmentXsection b c = none := by
      unfold Plane.lineSegmentXsection Plane.lineXsection Plane.normal Plane.referencePoint
      simp only [hne]
      simp [this]
    by_contra hcon
    rw [Bool.not_eq_false] at hcon
    have := (C27_any_arithmetic pl b c).2
    rw [if_pos hcon, hs] at this
    cases this
  have hsig : ∀ (p : V3 (Rd rnd53)), Stored p → (pl.signedDistance1 p).val = p.x.val := by
    intro p hp
    show rnd53 (rnd53 (rnd53 (rnd53 (p.x.val * 1) + rnd53 (p.y.val * 0)) + rnd53 (p.z.val * 0)) +
      -rnd53 (rnd53 (rnd53 (0 * 1) + rnd53 (0 * 0)) + rnd53 (0 * 0))) = _
    simp only [mul_one, mul_zero, z, add_zero, hp.1, neg_zero]
  have lit1 : (Num.lit 1 : Rd rnd53).val = 1 := by rw [Rd.val_lit]; push_cast; exact o
  have litm : (Num.lit (-1) : Rd rnd53).val = -1 := by rw [Rd.val_lit]; push_cast; exact m1
  have pos : ∀ p : V3 (Rd rnd53), Stored p → 0 < p.x.val → (npSign (pl.signedDistance1 p)).val = 1 := by
    intro p hp hx
    unfold npSign
    rw [if_pos (by rw [Rd.lt_iff, hz, hsig p hp]; exact hx), lit1]
  have neg : ∀ p : V3 (Rd rnd53), Stored p → p.x.val < 0 → (npSign (pl.signedDistance1 p)).val = -1 := by
    intro p hp hx
    unfold npSign
    rw [if_neg (by rw [Rd.lt_iff, hz, hsig p hp]; exact not_lt.mpr hx.le), if_pos (by rw [Rd.lt_iff, hz, hsig p hp]; exact hx), litm]
  have hsel : pl.meshIntersectingFaces m = .ok [(0, 1, 2)] := by
    have ht := (signs_test h (npSign (pl.signedDistance1 a)) (npSign (pl.signedDistance1 b)) (npSign (pl.signedDistance1 c)) False True True
      (by rw [neg a s1' (by rw [ha]; norm_num)]; simp) (by rw [pos b s2' (by rw [hb]; norm_num)]; simp)
      (by rw [pos c s3' (by rw [hc]; norm_num)]; simp)).mpr (by simp)
    have hf : pl.faceSelected m (0, 1, 2) = .ok true := by
      rw [← ht]
      unfold Plane.faceSelected Plane.signedDistance
      rw [hm]
      rfl
    unfold Plane.meshIntersectingFaces
    show ([(0, 1, 2)].mapM (pl.faceSelected m) >>= _) = _
    rw [List.mapM_cons, hf]
    rfl
  have him : ∃ im, intersectionMap pl m [(0, 1, 2)] = .ok im ∧ im.index 0 1 = none ∧ im.index 1 2 = none ∧
      (im.index 0 2 = none ∨ (im.index 0 2 = some 0 ∧ im.values.length = 1)) := by
    have hx : intersectionMap pl m [(0, 1, 2)] =
        .ok (((masked [(pl.lineSegmentXsectionsRow a b).1, (pl.lineSegmentXsectionsRow b c).1, (pl.lineSegmentXsectionsRow c a).1]
            [(pl.lineSegmentXsectionsRow a b).2, (pl.lineSegmentXsectionsRow b c).2, (pl.lineSegmentXsectionsRow c a).2]).zip
          (masked [(0, 1), (1, 2), (2, 0)]
            [(pl.lineSegmentXsectionsRow a b).2, (pl.lineSegmentXsectionsRow b c).2, (pl.lineSegmentXsectionsRow c a).2])).foldl
          addIfNew EdgeMap.empty) := by
      unfold intersectionMap
      rw [hm]
      rfl
    refine ⟨_, hx, ?_⟩
    rw [row1, row2]
    cases (pl.lineSegmentXsectionsRow c a).2
    · exact ⟨rfl, rfl, Or.inl rfl⟩
    · exact ⟨rfl, rfl, Or.inr ⟨rfl, rfl⟩⟩
  obtain ⟨im, him, i1, i2, i3⟩ := him
  refine ⟨?_, ?_, ?_, ?_⟩
  · intro p hp
    rw [hm] at hp
    simp only [List.mem_cons, List.not_mem_nil, or_false] at hp
    rcases hp with rfl | rfl | rfl
    · exact s1'
    · exact s2'
    · exact s3'
  · intro p hp
    simp only [exactMesh, m, List.map_cons, List.map_nil, List.mem_cons, List.not_mem_nil, or_false] at hp
    rcases hp with rfl | rfl | rfl <;> norm_num [OnPlane, exactPlane, inner3, vec3, Rd.vec, pl]
  · unfold Plane.meshXsections
    rw [hsel]
    simp only [ok_bind, sliceComponents, him, List.foldlM_cons, addFace, i1, i2]
    rcases i3 with i3 | ⟨i3, i4⟩
    · rw [i3]; rfl
    · rw [i3, i4]; rfl
  · unfold Plane.meshXsections
    rw [hsel]
    simp only [ok_bind, sliceComponents, him, List.foldlM_cons, addFace, i1, i2]
    rcases i3 with i3 | ⟨i3, i4⟩
    · rw [i3]; rfl
    · rw [i3, i4]; rfl

/-- the tetrahedron of `C31` in double precision -/
def tetraF : Mesh (Rd rnd53) :=
  ⟨[⟨⟨0⟩, ⟨0⟩, ⟨1⟩⟩, ⟨⟨1⟩, ⟨0⟩, ⟨-1⟩⟩, ⟨⟨0⟩, ⟨1⟩, ⟨-1⟩⟩, ⟨⟨-1⟩, ⟨-1⟩, ⟨-1⟩⟩], [(0, 1, 2), (0, 2, 3), (0, 3, 1), (1, 3, 2)]⟩

/-- the horizontal plane through the origin in double precision -/
def groundF : Plane (Rd rnd53) := ⟨⟨⟨0⟩, ⟨0⟩, ⟨0⟩⟩, ⟨⟨0⟩, ⟨0⟩, ⟨1⟩⟩⟩

/-- A closed mesh that meets the hypotheses above: its section in double precision consists of closed polylines, and one of
its points is near the edge from vertex 0 to vertex 2. -/
theorem C102_witness (pk : ℕ → Picker) (ko : ℕ → KeyOrder) :
    (∀ p ∈ tetraF.v, Good (1 / 2 ^ 53) 1 groundF p) ∧ exactMesh tetraF = tetra ∧
    ∃ cs, groundF.meshXsections .py3 pk ko tetraF = .ok cs ∧ (∀ c ∈ cs, c.closed = true) ∧
      ∃ c ∈ cs, ∃ q ∈ c.v, NearCross (1 / 2 ^ 53) 1 groundF tetraF (0, 2) q := by
  have h := rounding_rnd53
  have h' : Rounding rnd53 (1 / 2 ^ 53) := by simpa using h
  have z := h.zero
  have o := h.one
  have m1 : rnd53 (-1) = -1 := by simpa using h.int (-1) (by norm_num)
  have hg : ∀ p ∈ tetraF.v, Good (1 / 2 ^ 53) 1 groundF p := by
    intro p hp
    simp only [tetraF, List.mem_cons, List.not_mem_nil, or_false] at hp
    rcases hp with rfl | rfl | rfl | rfl
    · exact ⟨by norm_num [Within, Rd.vec], ⟨z, z, o⟩, by norm_num [Clear, height, inner3, vec3, exactPlane, Rd.vec, groundF]⟩
    · exact ⟨by norm_num [Within, Rd.vec], ⟨o, z, m1⟩, by norm_num [Clear, height, inner3, vec3, exactPlane, Rd.vec, groundF]⟩
    · exact ⟨by norm_num [Within, Rd.vec], ⟨z, o, m1⟩, by norm_num [Clear, height, inner3, vec3, exactPlane, Rd.vec, groundF]⟩
    · exact ⟨by norm_num [Within, Rd.vec], ⟨m1, m1, m1⟩, by norm_num [Clear, height, inner3, vec3, exactPlane, Rd.vec, groundF]⟩
  have e1 : exactMesh tetraF = tetra := rfl
  have e2 : exactPlane groundF = ground := rfl
  have hr : Within 1 (Rd.vec groundF.r0) := by norm_num [Within, Rd.vec, groundF]
  have hn : Within (5 / 4) (Rd.vec groundF.n) := by norm_num [Within, Rd.vec, groundF]
  obtain ⟨cs, ess, k1, _, _, _, k5⟩ := C102_manifold h' (by norm_num) (by norm_num) one_pos .py3 pk ko groundF tetraF hr hn hg
    tetra_ok.1 tetra_ok.2.1 tetra_ok.2.2.2.1 (Or.inl tetra_closed)
  obtain ⟨cs', j1, _, _, j4⟩ := C102_any_mesh h' (by norm_num) (by norm_num) one_pos .py3 pk ko groundF tetraF hr hn hg
    tetra_ok.1 tetra_ok.2.1
  rw [k1] at j1
  injection j1 with j1
  subst j1
  exact ⟨hg, e1, cs, k1, k5 tetra_closed, j4 (0, 2) tetra_ok.2.2.2.2⟩

end Blmath.Props
