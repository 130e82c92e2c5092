import Verif.Spec.Mirror
import Verif.Spec.FloatError
import Verif.Proofs.FloatError
import Verif.Proofs.Motion
import Verif.Model.Triangle
import Verif.Base.Fl
import Verif.Base.Rd

/-!
Lemmas for `Props/Mirror.lean`: running a function on moved arguments when the move is exact in the arithmetic.
-/

namespace Blmath.Proofs.MI
open Blmath Blmath.Geometry Blmath.Spec Blmath.Proofs Blmath.Vx

/-- a move of space that the arithmetic follows exactly -/
structure Exact {α : Type} [Num α] (g : V3 α → V3 α) : Prop where
  add : ∀ a b, g a + g b = g (a + b)
  sub : ∀ a b, g a - g b = g (a - b)
  smul : ∀ t a, V3.smul t (g a) = g (V3.smul t a)
  sdiv : ∀ a t, V3.sdiv (g a) t = g (V3.sdiv a t)
  dot : ∀ a b, V3.dot (g a) (g b) = V3.dot a b
  bounds : ∀ p a b, Plane.outOfBounds (g p) (g a) (g b) = Plane.outOfBounds p a b
  same : ∀ a b, V3.allEq (g a) (g b) = V3.allEq a b
  finite : ∀ v, ((g v).toList.any fun x => npIsNan x || npIsInf x) = (v.toList.any fun x => npIsNan x || npIsInf x)
  nan : g ⟨Plane.npNan, Plane.npNan, Plane.npNan⟩ = ⟨Plane.npNan, Plane.npNan, Plane.npNan⟩

/-- the plane moved -/
def pimg {α : Type} (g : V3 α → V3 α) (pl : Plane α) : Plane α := ⟨g pl.r0, g pl.n⟩

section
variable {α : Type} [Num α] {g : V3 α → V3 α} (hs : Exact g)
include hs

theorem norm (v : V3 α) : V3.norm (g v) = V3.norm v := by
  unfold V3.norm
  rw [hs.dot]

theorem normalize (v : V3 α) : normalize3 (g v) = g (normalize3 v) := by
  unfold normalize3
  rw [norm hs, hs.sdiv]

/-! ### planes -/

variable (pl : Plane α)

theorem sdist (p : V3 α) : (pimg g pl).signedDistance1 (g p) = pl.signedDistance1 p := by
  unfold Plane.signedDistance1 Plane.equation pimg
  have := hs.dot p pl.n
  have h2 := hs.dot pl.r0 pl.n
  simp only [V3.dot] at this h2 ⊢
  rw [this, h2]

theorem signs (ps : List (V3 α)) : (pimg g pl).sign (ps.map g) = pl.sign ps := by
  unfold Plane.sign Plane.signedDistance
  simp only [List.map_map]
  apply List.map_congr_left
  intro p _
  simp only [Function.comp, sdist hs]

theorem line (pt ray : V3 α) :
    (pimg g pl).lineXsection (g pt) (g ray) = (pl.lineXsection pt ray).map g := by
  unfold Plane.lineXsection Plane.normal Plane.referencePoint pimg
  simp only [hs.sub, hs.dot]
  split
  · rfl
  · simp only [hs.smul, hs.add, Option.map]

theorem segment (a b : V3 α) :
    (pimg g pl).lineSegmentXsection (g a) (g b) =
      (pl.lineSegmentXsection a b).map g := by
  unfold Plane.lineSegmentXsection
  rw [hs.sub, line hs]
  cases pl.lineXsection a (b - a) with
  | none => rfl
  | some pt =>
    simp only [Option.map, hs.bounds]
    split <;> rfl

theorem lineRow (pt ray : V3 α) :
    (pimg g pl).lineXsectionsRow (g pt) (g ray) =
      (g (pl.lineXsectionsRow pt ray).1, (pl.lineXsectionsRow pt ray).2) := by
  unfold Plane.lineXsectionsRow Plane.normal Plane.referencePoint pimg
  simp only [hs.sub, hs.dot, hs.smul, hs.add]

theorem segRow (a b : V3 α) :
    (pimg g pl).lineSegmentXsectionsRow (g a) (g b) =
      (g (pl.lineSegmentXsectionsRow a b).1, (pl.lineSegmentXsectionsRow a b).2) := by
  unfold Plane.lineSegmentXsectionsRow
  rw [hs.sub, lineRow hs]
  simp only [hs.bounds]
  congr 1
  rw [apply_ite g, hs.nan]

/-! ### slicing -/

theorem faceSelected (m : Mesh α) (f : ℕ × ℕ × ℕ) :
    (pimg g pl).faceSelected (Mesh.image g m) f = pl.faceSelected m f := by
  unfold Plane.faceSelected
  have := signs hs pl m.v
  unfold Plane.sign at this
  simp only [Mesh.image, this]

theorem faces (m : Mesh α) :
    (pimg g pl).meshIntersectingFaces (Mesh.image g m) = pl.meshIntersectingFaces m := by
  unfold Plane.meshIntersectingFaces
  have : (pimg g pl).faceSelected (Mesh.image g m) = pl.faceSelected m :=
    funext fun f => faceSelected hs pl m f
  rw [this]
  rfl

theorem rows (as bs : List (V3 α)) :
    List.zipWith (pimg g pl).lineSegmentXsectionsRow (as.map g) (bs.map g) =
      (List.zipWith pl.lineSegmentXsectionsRow as bs).map fun r => (g r.1, r.2) := by
  induction as generalizing bs with
  | nil => simp
  | cons a as ih =>
    cases bs with
    | nil => simp
    | cons b bs => simp only [List.map_cons, List.zipWith_cons_cons, ih, segRow hs]

theorem intersectionMap_map (m : Mesh α) (fs : List (ℕ × ℕ × ℕ)) :
    intersectionMap (pimg g pl) (Mesh.image g m) fs =
      (intersectionMap pl m fs).map (MO.EMap g) := by
  unfold intersectionMap
  simp only [Mesh.image, MO.takeRows_map]
  apply MO.bind_map
  intro a _
  apply MO.bind_map
  intro b _
  unfold Plane.lineSegmentXsections
  simp only [List.length_map]
  split
  · simp only [ok_bind]
    have hf := rows hs pl a b
    rw [hf]
    rw [MO.masked_map (g := g) (List.zipWith pl.lineSegmentXsectionsRow a b) _ (faceEdges fs) (by
      rw [List.forall₂_map_right_iff, List.forall₂_same]
      intro r _
      exact ⟨rfl, fun _ => rfl⟩)]
    exact congrArg Except.ok (MO.foldl_map _ EdgeMap.empty)
  · split <;> rfl

theorem sliceComponents_map (ver : PyVer) (pk : ℕ → Picker) (ko : ℕ → KeyOrder) (m : Mesh α) (fs : List (ℕ × ℕ × ℕ)) :
    sliceComponents ver pk ko (pimg g pl) (Mesh.image g m) fs =
      (sliceComponents ver pk ko pl m fs).map (List.map (Section.image g)) := by
  unfold sliceComponents
  rw [intersectionMap_map hs]
  apply MO.bind_map
  intro em _
  have : fs.foldlM (addFace ver (MO.EMap g em)) (Graph.new (MO.EMap g em).values.length) =
      fs.foldlM (addFace ver em) (Graph.new em.values.length) := by
    simp only [MO.EMap, List.length_map]
    rfl
  rw [this]
  apply MO.bind_same
  intro gr _
  exact MO.popComponents_map (hs.same) pk ko _ _ 0 gr rfl

omit pl in
theorem nearest_map (nbh : V3 α × List (V3 α)) (p : V3 α) :
    nearest (g nbh.1, nbh.2.map g) (g p) = nearest nbh p := by
  unfold nearest
  simp only [hs.sub, norm hs]
  generalize V3.norm (p - nbh.1) = d
  induction nbh.2 generalizing d with
  | nil => rfl
  | cons q l ih => simp only [List.map_cons, List.foldl_cons, hs.sub, norm hs, ih]

omit pl in
theorem meanDistance_map (nbh : V3 α × List (V3 α)) (vs : List (V3 α)) :
    meanDistance (g nbh.1, nbh.2.map g) (vs.map g) = meanDistance nbh vs := by
  unfold meanDistance
  have : (vs.map g).map (nearest (g nbh.1, nbh.2.map g)) = vs.map (nearest nbh) := by
    rw [List.map_map]
    apply List.map_congr_left
    intro p _
    exact nearest_map hs nbh p
  rw [this, List.length_map]

theorem meshXsections_map (ver : PyVer) (pk : ℕ → Picker) (ko : ℕ → KeyOrder) (m : Mesh α)
    (nbh : Option (V3 α × List (V3 α))) :
    (pimg g pl).meshXsections ver pk ko (Mesh.image g m)
        (nbh.map fun n => (g n.1, n.2.map g)) =
      (pl.meshXsections ver pk ko m nbh).map (List.map (Section.image g)) := by
  unfold Plane.meshXsections
  rw [faces hs]
  apply MO.bind_same
  intro fs _
  split
  · rfl
  · rw [sliceComponents_map hs]
    apply MO.bind_map
    intro cs _
    cases nbh with
    | none => rfl
    | some nbh =>
      simp only [Option.map, List.length_map]
      split
      · rfl
      · have : (cs.map (Section.image g)).map
            (fun c => meanDistance (g nbh.1, nbh.2.map g) c.v) =
            cs.map fun c => meanDistance nbh c.v := by
          rw [List.map_map]
          apply List.map_congr_left
          intro c _
          exact meanDistance_map hs nbh c.v
        rw [this]
        apply MO.bind_same
        intro i _
        rw [MO.pyIndex_map]
        apply MO.bind_map
        intro c _
        rfl

/-! ### polylines -/

omit pl in
theorem asPoints_map (vs : List (V3 α)) :
    asPoints (rowsOf (vs.map g)) = (asPoints (rowsOf vs)).map (Option.map (List.map g)) := by
  unfold asPoints rowsOf
  have h1 : (((vs.map g).map V3.toList).any fun r => r.any fun x => npIsNan x || npIsInf x) =
      ((vs.map V3.toList).any fun r => r.any fun x => npIsNan x || npIsInf x) := by
    rw [List.map_map, List.any_map, List.any_map]
    congr 1
    funext v
    exact hs.finite v
  simp only [h1]
  split
  · rfl
  · rw [if_pos trivial, if_pos trivial, List.map_map, List.mapM_map, List.mapM_map]
    rw [MO.mapM_map (row3 ∘ V3.toList) (row3 ∘ V3.toList ∘ g) g vs (fun v _ => rfl)]
    apply MO.bind_map
    intro ps _
    rfl

omit pl in
theorem setV_map (p : Polyline α) (vs : List (V3 α)) :
    (Polyline.image g p).setV (rowsOf (vs.map g)) =
      (Polyline.image g (p.setV (rowsOf vs)).1, (p.setV (rowsOf vs)).2) := by
  unfold Polyline.setV
  rw [asPoints_map hs]
  cases asPoints (rowsOf vs) with
  | error e => rfl
  | ok v =>
    have hcl : (Polyline.image g p).closed = p.closed := rfl
    cases v with
    | none => rfl
    | some v =>
      simp only [Except.map, Option.map, Polyline.updateEdges, List.length_map, hcl]
      cases mkEdges v.length p.closed <;> rfl

omit pl in
theorem new_map (vs : List (V3 α)) (c : Bool) :
    Polyline.new (rowsOf (vs.map g)) c = (Polyline.new (rowsOf vs) c).map (Polyline.image g) := by
  unfold Polyline.new
  have := setV_map hs ⟨none, c, none⟩ vs
  have e : (Polyline.image g (⟨none, c, none⟩ : Polyline α)) = ⟨none, c, none⟩ := rfl
  rw [e] at this
  rw [this]
  obtain ⟨p, r⟩ := (⟨none, c, none⟩ : Polyline α).setV (rowsOf vs)
  cases r <;> rfl

omit pl in
theorem segmentLengths_map (p : Polyline α) :
    (Polyline.image g p).segmentLengths = p.segmentLengths := by
  unfold Polyline.segmentLengths
  have he : (Polyline.image g p).e = p.e := rfl
  rw [he]
  cases p.e with
  | none => rfl
  | some e =>
    simp only
    rw [MO.segments_map]
    cases p.segments with
    | error e => rfl
    | ok segs =>
      simp only [List.map_map, pure_eq_ok, Except.map, ok_bind]
      congr 1
      apply List.map_congr_left
      intro x _
      simp only [Function.comp, MO.both, hs.sub, norm hs]

omit pl in
theorem totalLength_map (p : Polyline α) :
    (Polyline.image g p).totalLength = p.totalLength := by
  unfold Polyline.totalLength
  rw [segmentLengths_map hs]

omit pl in
theorem partitionSegment_map (a b : V3 α) (n : Option ℤ) (e : Bool) :
    partitionSegment (α := α) (g a) (g b) n e =
      (partitionSegment (α := α) a b n e).map (List.map g) := by
  unfold partitionSegment
  cases n with
  | none => rfl
  | some n =>
    simp only
    split
    · rfl
    · simp only [Except.map, List.map_map]
      congr 1
      apply List.map_congr_left
      intro t _
      simp only [Function.comp, PointOps.add, PointOps.smul, PointOps.sub, hs.sub, hs.smul, hs.add]

omit pl in
theorem partitionLoop_map (v : List (V3 α)) (l : List ((ℕ × ℕ) × α)) (is : List ℕ) (nv : List (V3 α)) :
    Polyline.partitionLoop (v.map g) l (is, nv.map g) =
      (Polyline.partitionLoop v l (is, nv)).map fun x => (x.1, x.2.map g) := by
  induction l generalizing is nv with
  | nil => rfl
  | cons a l ih =>
    obtain ⟨edge, k⟩ := a
    unfold Polyline.partitionLoop
    rw [MO.segmentOf_map]
    apply MO.bind_map
    intro x _
    simp only [MO.both, List.length_map]
    split
    · rw [← List.map_singleton (f := g), ← List.map_append, ih]
    · apply MO.bind_same
      intro n _
      rw [partitionSegment_map hs]
      apply MO.bind_map
      intro pts _
      rw [← List.map_append, ih]

omit pl in
theorem partitionVerts_map (p : Polyline α) (l : α) :
    (Polyline.image g p).partitionVerts l =
      (p.partitionVerts l).map fun x => (x.1, x.2.map g) := by
  unfold Polyline.partitionVerts
  rw [segmentLengths_map hs]
  apply MO.bind_same
  intro ls _
  have he : (Polyline.image g p).e = p.e := rfl
  have hcl : (Polyline.image g p).closed = p.closed := rfl
  have hv : (Polyline.image g p).v.getD [] = (p.v.getD []).map g := by
    obtain ⟨v, c, e⟩ := p
    cases v <;> rfl
  simp only [he, hcl, hv]
  rw [show (([] : List (V3 α)) = List.map g []) from rfl, partitionLoop_map hs]
  apply MO.bind_map
  intro x _
  split
  · rw [MO.vArr_map]
    apply MO.bind_map
    intro v _
    rw [MO.pyIndex_map]
    apply MO.bind_map
    intro last _
    simp [Except.map]
  · rfl

omit pl in
theorem partitionByLength_map (p : Polyline α) (l : α) :
    (Polyline.image g p).partitionByLength l =
      (Polyline.image g (p.partitionByLength l).1, (p.partitionByLength l).2) := by
  unfold Polyline.partitionByLength
  rw [partitionVerts_map hs]
  cases p.partitionVerts l with
  | error e => rfl
  | ok x =>
    obtain ⟨is, nv⟩ := x
    simp only [Except.map]
    rw [setV_map hs]
    obtain ⟨p', r⟩ := p.setV (rowsOf nv)
    cases r <;> rfl

theorem edgeMeets_map (x : V3 α × V3 α) :
    Polyline.edgeMeets (pimg g pl) (MO.both g x) = Polyline.edgeMeets pl x := by
  unfold Polyline.edgeMeets MO.both
  simp only [sdist hs]

theorem edgePoint_map (x : V3 α × V3 α) :
    Polyline.edgePoint (pimg g pl) (MO.both g x) = g (Polyline.edgePoint pl x) := by
  unfold Polyline.edgePoint MO.both
  simp only [sdist hs, hs.smul, hs.add]

theorem intersectPlane_map (p : Polyline α) :
    (Polyline.image g p).intersectPlane (pimg g pl) =
      (p.intersectPlane pl).map fun x => (x.1.map g, x.2) := by
  unfold Polyline.intersectPlane
  rw [MO.segments_map]
  apply MO.bind_map
  intro segs _
  have e : Polyline.edgeMeets (pimg g pl) ∘ MO.both g = Polyline.edgeMeets pl :=
    funext fun x => edgeMeets_map hs pl x
  have e2 : Polyline.edgePoint (pimg g pl) ∘ MO.both g = g ∘ Polyline.edgePoint pl :=
    funext fun x => edgePoint_map hs pl x
  simp only [List.filter_map, List.map_map, e, e2]
  simp [Except.map]

theorem cutOpen_map (p : Polyline α) (x : V3 α) (i : ℕ) :
    (Polyline.image g p).cutOpen (pimg g pl) (g x) i =
      (p.cutOpen pl x i).map (Polyline.image g) := by
  unfold Polyline.cutOpen
  rw [MO.vArr_map]
  apply MO.bind_map
  intro v _
  have he : (Polyline.image g p).e = p.e := rfl
  simp only [he]
  apply MO.bind_same
  intro edge _
  rw [MO.segmentVectors_map]
  unfold Polyline.segmentVectors
  cases p.segments with
  | error e => rfl
  | ok segs =>
    simp only [Except.map, ok_bind, pure_eq_ok]
    rw [MO.pyIndex_map, MO.pyIndex_map]
    cases pyIndex segs (i : ℤ) with
    | error e => rfl
    | ok y =>
      simp only [Except.map, ok_bind]
      have hn : normalize3 (pimg g pl).normal = g (normalize3 pl.normal) := normalize hs pl.n
      rw [hs.sub, hn, hs.dot]
      split
      · rw [List.length_map, MO.pySlice_map, ← List.map_cons, new_map hs]
        rfl
      · rw [MO.pySlice_map, ← List.map_singleton (f := g), ← List.map_append, new_map hs]
        rfl

theorem synthesized_map (x : α) (segs : List (V3 α × V3 α)) (i : ℤ) :
    Polyline.synthesized (pimg g pl) x (segs.map (MO.both g)) i =
      (Polyline.synthesized pl x segs i).map (Option.map g) := by
  unfold Polyline.synthesized
  split
  · rfl
  · rw [MO.pyIndex_map]
    apply MO.bind_map
    intro y _
    simp only [MO.both, segment hs]
    rfl

theorem cutWorking_map (w : Polyline α) :
    Polyline.cutWorking (Polyline.image g w) (pimg g pl) =
      (Polyline.cutWorking w pl).map (Polyline.image g) := by
  unfold Polyline.cutWorking
  rw [MO.vArr_map]
  apply MO.bind_map
  intro wv _
  rw [MO.segments_map]
  apply MO.bind_map
  intro segs _
  rw [signs hs]
  apply MO.bind_same
  intro s0 _
  rw [synthesized_map hs]
  apply MO.bind_map
  intro st _
  apply MO.bind_same
  intro ei _
  apply MO.bind_same
  intro s1 _
  rw [synthesized_map hs]
  apply MO.bind_map
  intro en _
  have ht : ∀ o : Option (V3 α), Polyline.toArray (o.map g) = (Polyline.toArray o).map g := by
    intro o; cases o <;> rfl
  simp only
  rw [ht, ht, MO.pySlice_map, ← List.map_append, ← List.map_append, new_map hs]

omit pl in
theorem reindexed_map (p : Polyline α) (i : ℤ) :
    (Polyline.image g p).reindexed i = (p.reindexed i).map fun x => (Polyline.image g x.1, x.2) := by
  unfold Polyline.reindexed
  have : (Polyline.image g p).closed = p.closed := rfl
  rw [this]
  split
  · rfl
  · rw [MO.vArr_map]
    apply MO.bind_map
    intro v _
    rw [List.length_map, MO.pySlice_map, MO.pySlice_map, ← List.map_append, new_map hs]
    apply MO.bind_map
    intro r _
    rfl

theorem cutByPlane_map (p : Polyline α) :
    (Polyline.image g p).cutByPlane (pimg g pl) =
      (p.cutByPlane pl).map (Polyline.image g) := by
  unfold Polyline.cutByPlane
  have hcl : (Polyline.image g p).closed = p.closed := rfl
  rw [hcl, intersectPlane_map hs]
  apply MO.bind_map
  intro x _
  obtain ⟨pts, is⟩ := x
  simp only
  split
  · rfl
  · split
    · split
      · rfl
      · unfold Polyline.cutClosed
        rw [MO.vArr_map]
        apply MO.bind_map
        intro v _
        rw [signs hs]
        apply MO.bind_same
        intro i _
        rw [reindexed_map hs]
        apply MO.bind_map
        intro x _
        exact cutWorking_map hs pl x.1
    · split
      · rfl
      · rw [MO.pyIndex_map]
        apply MO.bind_map
        intro pt _
        apply MO.bind_same
        intro i _
        exact cutOpen_map hs pl p pt i

/-! ### the other functions -/

omit pl in
theorem apex_map (ps : List (V3 α)) (axis : V3 α) : apex (ps.map g) (g axis) = (apex ps axis).map g := by
  unfold apex
  have : (ps.map g).map (fun p => V3.dot p (g axis)) = ps.map fun p => V3.dot p axis := by
    rw [List.map_map]
    apply List.map_congr_left
    intro p _
    exact hs.dot p axis
  simp only [this]
  apply MO.bind_same
  intro i _
  exact MO.pyIndex_map _ _ _

omit pl in
theorem farthest_map (a : V3 α) (ps : List (V3 α)) :
    farthest (g a) (ps.map g) = (farthest a ps).map fun x => (g x.1, x.2) := by
  unfold farthest
  have : (ps.map g).map (fun p => V3.norm (p - g a)) = ps.map fun p => V3.norm (p - a) := by
    rw [List.map_map]
    apply List.map_congr_left
    intro p _
    simp only [Function.comp, hs.sub, norm hs]
  simp only [this]
  apply MO.bind_same
  intro i _
  rw [MO.pyIndex_map]
  apply MO.bind_map
  intro p _
  rfl

omit pl in
theorem inflection_map (np : NpGradient) (ps : List (V3 α)) (axis span : V3 α) :
    inflectionPoints np (ps.map g) (g axis) (g span) = (inflectionPoints np ps axis span).map (List.map g) := by
  unfold inflectionPoints
  have h1 : ∀ a : V3 α, (ps.map g).map (fun p => V3.dot p (g a)) = ps.map fun p => V3.dot p a := by
    intro a
    rw [List.map_map]
    apply List.map_congr_left
    intro p _
    exact hs.dot p a
  rw [List.length_map]
  split
  · rfl
  · simp only [h1]
    apply MO.mapM_map
    intro i _
    exact MO.pyIndex_map _ _ _

omit pl in
theorem partitionOne_map (a b : V3 α) (k : ℕ) :
    partitionOne (α := α) (g a) (g b) k = (partitionOne (α := α) a b k).map g := by
  unfold partitionOne
  simp only [PointOps.sub, PointOps.sumSq, PointOps.sdiv, PointOps.add, PointOps.smul, hs.sub, hs.dot, hs.sdiv, hs.smul,
    hs.add, List.map_map]
  rfl

omit pl in
theorem partition_map (v : List (V3 α)) (k : ℕ) :
    partition (α := α) (v.map g) k = (partition (α := α) v k).map (List.map g) := by
  have hf : ∀ v : List (V3 α), partitionFill (α := α) (v.map g) k = (partitionFill (α := α) v k).map g := by
    intro v
    induction v with
    | nil => rfl
    | cons a v ih =>
      cases v with
      | nil => rfl
      | cons b v =>
        simp only [List.map_cons, partitionFill] at ih ⊢
        rw [ih, partitionOne_map hs, List.map_append]
  unfold partition
  rw [hf, List.getLast?_map]
  cases v.getLast? <;> simp [Except.map, raise]

omit pl in
theorem partitionOld_map (a b : V3 α) (n : Option ℤ) :
    partitionSegmentOld (α := α) (g a) (g b) n = (partitionSegmentOld (α := α) a b n).map (List.map g) := by
  unfold partitionSegmentOld
  cases n with
  | none => rfl
  | some n =>
    simp only
    split
    · rfl
    · simp only [PointOps.sub, PointOps.sumSq, PointOps.sdiv, PointOps.add, PointOps.smul, hs.sub, hs.dot, hs.sdiv,
        hs.smul, hs.add, Except.map, List.map_map]
      rfl

end

/-! ### reflections -/

section
variable {α : Type} [Num α] (hl : Signs α)
include hl

theorem isNan (x : α) : npIsNan (-x) = npIsNan x := by
  unfold npIsNan
  rw [hl.eq]

theorem isInf (x : α) : npIsInf (-x) = npIsInf x := by
  unfold npIsInf
  rw [hl.neg_sub, isNan hl, isNan hl]

theorem flip_exact (f : Flip) : Exact (Flip.act f (α := α)) := by
  have mm : ∀ x y : α, -x * -y = x * y := fun x y => by rw [hl.mul_neg, hl.neg_mul, hl.neg_neg]
  have hn : -(Plane.npNan : α) = Plane.npNan := hl.nan
  refine ⟨?_, ?_, ?_, ?_, ?_, ?_, ?_, ?_, ?_⟩
  · intro a b; cases f <;> apply V3.ext <;> simp [Flip.act, hl.neg_add]
  · intro a b; cases f <;> apply V3.ext <;> simp [Flip.act, hl.neg_sub]
  · intro t a; cases f <;> apply V3.ext <;> simp [Flip.act, hl.mul_neg]
  · intro a t; cases f <;> apply V3.ext <;> simp [Flip.act, hl.neg_div]
  · intro a b; cases f <;> simp only [Flip.act, V3.dot, mm]
    rw [hl.add_comm (a.y * b.y)]
  · intro p a b
    cases f <;> simp only [Flip.act, Plane.outOfBounds, Plane.beyond, Plane.below, hl.lt] <;>
      (generalize Num.lt p.x a.x = b1; generalize Num.lt p.y a.y = b2; generalize Num.lt p.z a.z = b3
       generalize Num.lt p.x b.x = b4; generalize Num.lt p.y b.y = b5; generalize Num.lt p.z b.z = b6
       generalize Num.lt a.x p.x = c1; generalize Num.lt a.y p.y = c2; generalize Num.lt a.z p.z = c3
       generalize Num.lt b.x p.x = c4; generalize Num.lt b.y p.y = c5; generalize Num.lt b.z p.z = c6
       generalize (b1 && b4) = d1; generalize (b2 && b5) = d2; generalize (b3 && b6) = d3
       generalize (c1 && c4) = e1; generalize (c2 && c5) = e2; generalize (c3 && c6) = e3
       cases d1 <;> cases d2 <;> cases d3 <;> cases e1 <;> cases e2 <;> cases e3 <;> rfl)
  · intro a b
    cases f <;> simp only [Flip.act, V3.allEq, hl.eq]
    rw [Bool.and_comm (Num.eq a.y b.y)]
  · intro v
    cases f <;> simp only [Flip.act, V3.toList, List.any_cons, List.any_nil, isNan hl, isInf hl]
    generalize (npIsNan v.x || npIsInf v.x) = b1
    generalize (npIsNan v.y || npIsInf v.y) = b2
    generalize (npIsNan v.z || npIsInf v.z) = b3
    cases b1 <;> cases b2 <;> cases b3 <;> rfl
  · cases f <;> simp [Flip.act, hn]

omit hl in
theorem Exact.comp {g h : V3 α → V3 α} (hg : Exact g) (hh : Exact h) : Exact fun v => g (h v) := by
  refine ⟨?_, ?_, ?_, ?_, ?_, ?_, ?_, ?_, ?_⟩ <;> intros <;>
    simp only [hg.add, hh.add, hg.sub, hh.sub, hg.smul, hh.smul, hg.sdiv, hh.sdiv, hg.dot, hh.dot, hg.bounds, hh.bounds,
      hg.same, hh.same, hg.finite, hh.finite, hg.nan, hh.nan]

theorem moved_exact (w : List Flip) : Exact (moved w (α := α)) := by
  induction w with
  | nil => constructor <;> intros <;> rfl
  | cons f w ih => exact (flip_exact hl f).comp ih

theorem vneg_neg (v : V3 α) : - -v = v := by
  apply V3.ext <;> exact hl.neg_neg _

omit hl in
theorem flip_neg (f : Flip) (v : V3 α) : f.act (-v) = -f.act v := by
  cases f <;> rfl

theorem flip_cross (f : Flip) (a b : V3 α) : V3.cross (f.act a) (f.act b) = -f.act (V3.cross a b) := by
  cases f <;> apply V3.ext <;>
    simp only [Flip.act, V3.cross, V3.neg_x, V3.neg_y, V3.neg_z, hl.mul_neg, hl.neg_mul, hl.neg_sub, hl.anti]

theorem moved_cross (w : List Flip) (a b : V3 α) :
    V3.cross (moved w a) (moved w b) = handed w (moved w (V3.cross a b)) := by
  induction w with
  | nil => rfl
  | cons f w ih =>
    show V3.cross (f.act (moved w a)) (f.act (moved w b)) = _
    rw [flip_cross hl, ih]
    unfold handed
    simp only [List.length_cons]
    rcases Nat.mod_two_eq_zero_or_one w.length with h | h
    · rw [if_pos h, if_neg (by omega)]; rfl
    · rw [if_neg (by omega), if_pos (by omega), flip_neg, vneg_neg hl]; rfl

theorem handed_exact (w : List Flip) : Exact fun v : V3 α => handed w v := by
  unfold handed
  split
  · constructor <;> intros <;> rfl
  · exact moved_exact hl [.x, .y, .z]

/-- how cross products move -/
theorem cross_exact (w : List Flip) : Exact fun v : V3 α => handed w (moved w v) :=
  (handed_exact hl w).comp (moved_exact hl w)

end

/-! ### the arithmetics -/

theorem signs_real : Signs ℝ := by
  refine ⟨?_, ?_, ?_, ?_, ?_, ?_, ?_, ?_, ?_, ?_, ?_, ?_⟩
  · intro x; ring
  · intro x y; ring
  · intro x y; ring
  · intro x y; ring
  · intro x y; ring
  · intro x y; ring
  · intro x y; ring
  · intro x y; ring
  · intro x y; rw [Bool.eq_iff_iff, Num.lt_real, Num.lt_real]; exact neg_lt_neg_iff
  · intro x y; rw [Bool.eq_iff_iff, Num.eq_real, Num.eq_real]; exact neg_inj
  · intro x; rw [npAbs_real', npAbs_real', abs_neg]
  · simp [Num.lit_real]

theorem signs_rd {rnd : ℝ → ℝ} (ho : ∀ x, rnd (-x) = -rnd x) : Signs (Rd rnd) := by
  have h0 : rnd 0 = 0 := by
    have := ho 0
    rw [neg_zero] at this
    linarith
  refine ⟨?_, ?_, ?_, ?_, ?_, ?_, ?_, ?_, ?_, ?_, ?_, ?_⟩
  · intro x; ext; simp
  · intro x y; ext; simp only [Rd.val_add, Rd.val_neg]; rw [← ho]; congr 1; ring
  · intro x y; ext; simp only [Rd.val_sub, Rd.val_neg]; rw [← ho]; congr 1; ring
  · intro x y; ext; simp only [Rd.val_sub, Rd.val_neg]; rw [← ho]; congr 1; ring
  · intro x y; ext; simp only [Rd.val_mul, Rd.val_neg]; rw [← ho]; congr 1; ring
  · intro x y; ext; simp only [Rd.val_mul, Rd.val_neg]; rw [← ho]; congr 1; ring
  · intro x y; ext; simp only [Rd.val_div, Rd.val_neg]; rw [← ho]; congr 1; ring
  · intro x y; ext; simp only [Rd.val_add]; rw [add_comm]
  · intro x y; rw [Bool.eq_iff_iff, Rd.lt_iff, Rd.lt_iff]; exact neg_lt_neg_iff
  · intro x y; rw [Bool.eq_iff_iff, Rd.eq_iff, Rd.eq_iff]; exact neg_inj
  · intro x
    have z : (Num.lit 0 : Rd rnd).val = 0 := by simp [h0]
    unfold npAbs
    rcases lt_trichotomy x.val 0 with h | h | h
    · rw [if_neg (by rw [Rd.lt_iff, z]; simp; linarith), if_pos (by rw [Rd.lt_iff, z]; exact h)]
    · rw [if_neg (by rw [Rd.lt_iff, z]; simp [h]), if_neg (by rw [Rd.lt_iff, z]; simp [h])]
      ext; simp [h]
    · rw [if_pos (by rw [Rd.lt_iff, z]; simp [h]), if_neg (by rw [Rd.lt_iff, z]; linarith)]
      ext; simp
  · ext; simp [h0]

theorem infOf_neg {x : ℝ} (h : x ≠ 0) : Fl.infOf (-x) = Fl.neg (Fl.infOf x) := by
  unfold Fl.infOf
  rcases lt_or_gt_of_ne h with h1 | h1
  · rw [if_pos (by linarith), if_neg (by linarith)]; rfl
  · rw [if_neg (by linarith), if_pos h1]; rfl

theorem fl_neg_neg (x : Fl) : Fl.neg (Fl.neg x) = x := by
  cases x <;> simp [Fl.neg]

theorem mi1 (a : ℝ) : (open Classical in if a = 0 then Fl.nan else Fl.infOf (-a)) =
    Fl.neg (open Classical in if a = 0 then Fl.nan else Fl.infOf a) := by
  by_cases h : a = 0
  · simp only [if_pos h]; rfl
  · simp only [if_neg h]; exact infOf_neg h

theorem mi2 (a : ℝ) : (open Classical in if a = 0 then Fl.nan else Fl.infOf a) =
    Fl.neg (open Classical in if a = 0 then Fl.nan else Fl.infOf (-a)) := by
  rw [mi1, fl_neg_neg]

theorem mi3 (a : ℝ) : (open Classical in if -a = 0 then Fl.nan else Fl.infOf (-a)) =
    Fl.neg (open Classical in if a = 0 then Fl.nan else Fl.infOf a) := by
  rw [← mi1]; simp only [neg_eq_zero]

theorem mi4 (a : ℝ) : (open Classical in if -a = 0 then Fl.nan else Fl.infOf (- -a)) =
    Fl.neg (open Classical in if a = 0 then Fl.nan else Fl.infOf (-a)) := by
  rw [← mi2]; simp only [neg_eq_zero, neg_neg]

theorem signs_fl : Signs Fl := by
  refine ⟨?_, ?_, ?_, ?_, ?_, ?_, ?_, ?_, ?_, ?_, ?_, ?_⟩
  · exact fl_neg_neg
  · intro x y
    show Fl.add (Fl.neg x) (Fl.neg y) = Fl.neg (Fl.add x y)
    cases x <;> cases y <;> simp [Fl.add, Fl.neg] <;> ring
  · intro x y
    show Fl.add (Fl.neg x) (Fl.neg (Fl.neg y)) = Fl.neg (Fl.add x (Fl.neg y))
    cases x <;> cases y <;> simp [Fl.add, Fl.neg] <;> ring
  · intro x y
    show Fl.neg (Fl.add x (Fl.neg y)) = Fl.add y (Fl.neg x)
    cases x <;> cases y <;> simp [Fl.add, Fl.neg] <;> ring
  · intro x y
    show Fl.mul x (Fl.neg y) = Fl.neg (Fl.mul x y)
    cases x <;> cases y <;> first | rfl | skip
    · exact congrArg Fl.fin (by ring)
    · exact mi1 _
    · exact mi2 _
    · exact mi3 _
    · exact mi4 _
  · intro x y
    show Fl.mul (Fl.neg x) y = Fl.neg (Fl.mul x y)
    cases x <;> cases y <;> first | rfl | skip
    · exact congrArg Fl.fin (by ring)
    · exact mi3 _
    · exact mi4 _
    · exact mi1 _
    · exact mi2 _
  · intro x y
    show Fl.div (Fl.neg x) y = Fl.neg (Fl.div x y)
    cases x <;> cases y <;> simp only [Fl.div, Fl.neg, neg_zero]
    · rename_i a b
      by_cases hb : b = 0
      · rw [if_pos hb, if_pos hb]
        by_cases ha : a = 0
        · simp [ha]
        · rw [if_neg (neg_ne_zero.mpr ha), if_neg ha]; exact infOf_neg ha
      · rw [if_neg hb, if_neg hb]; exact congrArg Fl.fin (by ring)
    · rename_i b
      by_cases hb : b = 0
      · rw [if_pos hb, if_pos hb]
      · rw [if_neg hb, if_neg hb]; exact infOf_neg hb
    · rename_i b
      by_cases hb : b = 0
      · rw [if_pos hb, if_pos hb]
      · rw [if_neg hb, if_neg hb, infOf_neg hb]; exact (fl_neg_neg _).symm
  · intro x y
    show Fl.add x y = Fl.add y x
    cases x <;> cases y <;> simp [Fl.add] <;> ring
  · intro x y
    show Fl.lt (Fl.neg x) (Fl.neg y) = Fl.lt y x
    cases x <;> cases y <;> simp [Fl.lt, Fl.neg]
  · intro x y
    show Fl.eq (Fl.neg x) (Fl.neg y) = Fl.eq x y
    cases x <;> cases y <;> simp [Fl.eq, Fl.neg]
  · intro x
    show (if Fl.lt (Fl.neg x) (.fin _) then Fl.neg (Fl.neg x) else Fl.neg x) = if Fl.lt x (.fin _) then Fl.neg x else x
    cases x with
    | fin a =>
      simp only [Fl.lt, Fl.neg, Rat.cast_zero, decide_eq_true_eq]
      rcases lt_trichotomy a 0 with h | h | h
      · rw [if_neg (by linarith), if_pos h]
      · rw [if_neg (by linarith), if_neg (by linarith), h, neg_zero]
      · rw [if_pos (by linarith), if_neg (by linarith), neg_neg]
    | _ => simp [Fl.lt, Fl.neg]
  · show Fl.neg (Fl.div (.fin _) (.fin _)) = Fl.div (.fin _) (.fin _)
    simp [Fl.div, Fl.neg]

end Blmath.Proofs.MI
