import Verif.Spec.NotFinite
import Verif.Model.MeshSections
import Verif.Model.Rotation
import Verif.Model.Triangle
import Verif.Model.Box
import Verif.Model.Value
import Verif.Proofs.MeshGraph
import Verif.Proofs.Polyline
import Verif.Props.MeshSlice

/-!
**C120.** What becomes of NaN.  Polylines and boxes refuse numbers that are not finite; planes, vectors and frames take them
and answer with NaN, with nothing at all, or with an error from somewhere else.

Everything is proved for any value that behaves as NaN (`Spec.NotANumber`), hence for the NaN of `Fl` and of the doubles.
-/

namespace Blmath.Props
open Blmath.Spec Blmath.Geometry Blmath.Vx

namespace NF
variable {α : Type} [Num α] {n : α}

theorem eta (v : V3 α) : v = ⟨v.x, v.y, v.z⟩ := rfl

theorem dot_left (h : NotANumber n) {a : V3 α} (ha : HasCoord a n) (b : V3 α) : a.dot b = n := by
  unfold V3.dot
  rcases ha with ha | ha | ha <;> simp only [ha, h.mul_left, h.add_left, h.add_right]

theorem dot_right (h : NotANumber n) {b : V3 α} (hb : HasCoord b n) (a : V3 α) : a.dot b = n := by
  unfold V3.dot
  rcases hb with hb | hb | hb <;> simp only [hb, h.mul_right, h.add_left, h.add_right]

theorem norm_nan (h : NotANumber n) {a : V3 α} (ha : HasCoord a n) : a.norm = n := by
  unfold V3.norm
  rw [dot_left h ha, h.sqrt]

theorem normalize_nan (h : NotANumber n) {a : V3 α} (ha : HasCoord a n) : normalize3 a = same3 n := by
  unfold normalize3 V3.sdiv
  rw [norm_nan h ha]
  simp only [h.div_right, same3]

theorem has_same (n : α) : HasCoord (same3 n) n := Or.inl rfl

theorem sub_left (h : NotANumber n) {a : V3 α} (ha : HasCoord a n) (b : V3 α) : HasCoord (a - b) n := by
  unfold HasCoord
  simp only [V3.sub_x, V3.sub_y, V3.sub_z]
  rcases ha with ha | ha | ha <;> rw [ha]
  · exact Or.inl (h.sub_left _)
  · exact Or.inr (Or.inl (h.sub_left _))
  · exact Or.inr (Or.inr (h.sub_left _))

theorem smul_nan (h : NotANumber n) (a : V3 α) : V3.smul n a = same3 n := by
  unfold V3.smul
  simp only [h.mul_left, same3]

theorem same_add (h : NotANumber n) (a : V3 α) : same3 n + a = same3 n := by
  apply V3.ext <;> simp only [V3.add_x, V3.add_y, V3.add_z, same3, h.add_left]

theorem sub_same (h : NotANumber n) (a : V3 α) : a - same3 n = same3 n := by
  apply V3.ext <;> simp only [V3.sub_x, V3.sub_y, V3.sub_z, same3, h.sub_right]

theorem sign_nan (h : NotANumber n) : npSign n = n := by
  unfold npSign
  simp only [h.lt_left, h.lt_right, h.eq_left, Bool.false_eq_true, if_false]

theorem abs_nan (h : NotANumber n) : npAbs n = n := by
  unfold npAbs
  simp only [h.lt_left, Bool.false_eq_true, if_false]

theorem isnan (h : NotANumber n) : npIsNan n = true := by
  unfold npIsNan
  rw [h.eq_left]; rfl

theorem almostZero_nan (h : NotANumber n) {v : V3 α} (hv : HasCoord v n) (t : α) : almostZero v t = false := by
  unfold almostZero closeToZero
  rcases hv with hv | hv | hv <;> simp [hv, abs_nan h, h.le_left]

/-- the plane has NaN in its reference point or in its normal -/
def Blind (pl : Plane α) (n : α) : Prop := HasCoord pl.r0 n ∨ HasCoord pl.n n

theorem blind_dot (h : NotANumber n) {pl : Plane α} (hb : Blind pl n) : pl.r0.dot pl.n = n := by
  rcases hb with hb | hb
  · exact dot_left h hb _
  · exact dot_right h hb _

theorem blind_height (h : NotANumber n) {pl : Plane α} (hb : Blind pl n) (p : V3 α) : pl.signedDistance1 p = n := by
  unfold Plane.signedDistance1 Plane.equation
  simp only [blind_dot h hb, h.neg, h.add_right]

theorem blind_ratio (h : NotANumber n) {pl : Plane α} (hb : Blind pl n) (p : V3 α) : (pl.r0 - p).dot pl.n = n := by
  rcases hb with hb | hb
  · exact dot_left h (sub_left h hb p) _
  · exact dot_right h hb _

theorem in_bounds (h : NotANumber n) (a b : V3 α) : Plane.outOfBounds (same3 n) a b = false := by
  unfold Plane.outOfBounds Plane.beyond Plane.below same3
  simp only [h.lt_left, h.lt_right, Bool.false_and, Bool.or_self]

theorem new_refuses {vs : List (V3 α)} (h : NotANumber n) (hv : ∃ v ∈ vs, HasCoord v n) (closed : Bool) :
    Polyline.new (rowsOf vs) closed = .error .ValueError := by
  have : asPoints (rowsOf vs) = .error .ValueError := by
    unfold asPoints rowsOf
    simp only
    rw [if_pos]
    rw [List.any_eq_true]
    obtain ⟨v, hm, hc⟩ := hv
    refine ⟨v.toList, List.mem_map_of_mem hm, ?_⟩
    rw [List.any_eq_true]
    refine ⟨n, ?_, by rw [isnan h]; rfl⟩
    unfold V3.toList
    rcases hc with hc | hc | hc <;> rw [hc] <;> simp
  unfold Polyline.new Polyline.setV
  rw [this]

end NF
open NF
variable {α : Type} [Num α]

/-- **C120.** The plane constructor does not notice NaN: a normal with one NaN coordinate is accepted and becomes NaN
throughout, and a reference point with NaN is accepted with whatever normal would be. -/
theorem C120_plane_accepted {n : α} (h : NotANumber n) (r v : V3 α) :
    (HasCoord v n → Plane.mk' r v = .ok ⟨r, same3 n⟩) ∧
    (almostZero v defaultAtol = false → Plane.mk' r v = .ok ⟨r, normalize3 v⟩) := by
  unfold Plane.mk'
  refine ⟨fun hv => ?_, fun hv => ?_⟩
  · rw [almostZero_nan h hv, normalize_nan h hv]; rfl
  · rw [hv]; rfl

/-- **C120.** A plane with NaN in it is blind: all distances are NaN, no point is in front of it and none behind it, every
projection is NaN; a line either does not meet it or meets it in a NaN point, and if the NaN is in the normal all lines and
all segments meet it. -/
theorem C120_blind {n : α} (h : NotANumber n) (pl : Plane α) (hb : HasCoord pl.r0 n ∨ HasCoord pl.n n) :
    (∀ p, pl.signedDistance1 p = n) ∧
    (∀ ps, pl.sign ps = ps.map fun _ => n) ∧
    (∀ ps, pl.distance ps = ps.map fun _ => n) ∧
    (∀ ps inverted, pl.pointsInFront ps inverted = .ok []) ∧
    (∀ p, pl.projectPoint p = same3 n) ∧
    pl.canonicalPoint = same3 n ∧
    (∀ pt ray, pl.lineXsection pt ray = if Num.eq (V3.dot ray pl.n) (Num.lit 0) then none else some (same3 n)) ∧
    (∀ a b, pl.lineSegmentXsection a b = if Num.eq (V3.dot (b - a) pl.n) (Num.lit 0) then none else some (same3 n)) ∧
    (HasCoord pl.n n → ∀ a b, pl.lineXsection a b = some (same3 n) ∧ pl.lineSegmentXsection a b = some (same3 n)) := by
  have hh := blind_height h (pl := pl) hb
  have hs : ∀ ps, pl.sign ps = ps.map fun _ => n := by
    intro ps
    unfold Plane.sign Plane.signedDistance
    rw [List.map_map]
    apply List.map_congr_left
    intro p _
    simp only [Function.comp, hh, sign_nan h]
  have hpj : ∀ p, pl.projectPoint p = same3 n := by
    intro p
    unfold Plane.projectPoint
    rw [hh, smul_nan h, sub_same h]
  have hl : ∀ pt ray, pl.lineXsection pt ray =
      if Num.eq (V3.dot ray pl.n) (Num.lit 0) then none else some (same3 n) := by
    intro pt ray
    unfold Plane.lineXsection Plane.normal Plane.referencePoint
    simp only
    split
    · rfl
    · rw [blind_ratio h hb, h.div_left, smul_nan h, same_add h]
  have hsg : ∀ a b, pl.lineSegmentXsection a b = pl.lineXsection a (b - a) := by
    intro a b
    unfold Plane.lineSegmentXsection
    rw [hl]
    by_cases hc : Num.eq ((b - a).dot pl.n) (Num.lit 0) = true
    · rw [if_pos hc]
    · rw [if_neg hc]
      simp only [in_bounds h, Bool.false_eq_true, if_false]
  refine ⟨hh, hs, ?_, ?_, hpj, ?_, hl, fun a b => (hsg a b).trans (hl _ _), ?_⟩
  · intro ps
    unfold Plane.distance Plane.signedDistance
    rw [List.map_map]
    apply List.map_congr_left
    intro p _
    simp only [Function.comp, hh, abs_nan h]
  · intro ps inverted
    have hm : pl.frontMask ps inverted = ps.map fun _ => false := by
      unfold Plane.frontMask
      rw [hs, List.map_map]
      apply List.map_congr_left
      intro p _
      simp only [Function.comp, h.le_left, h.le_right, ite_self]
    have hz : ∀ (l : List (V3 α)) (i : ℕ), Plane.flatnonzeroFrom i (l.map fun _ => false) = [] := by
      intro l
      induction l with
      | nil => intro i; rfl
      | cons a l ih => intro i; simp only [List.map_cons, Plane.flatnonzeroFrom, Bool.false_eq_true, if_false, ih]
    unfold Plane.pointsInFront Plane.indicesInFront Plane.flatnonzero
    rw [hm, hz]
    rfl
  · unfold Plane.canonicalPoint
    rw [blind_dot h hb, smul_nan h]
  · intro hn a b
    rw [hsg, hl, hl, dot_right h hn, dot_right h hn, h.eq_left]
    exact ⟨rfl, rfl⟩

namespace NF
variable {n : α}

theorem segments_map {p : Polyline α} {segs : List (V3 α × V3 α)} (h : NotANumber n) {pl : Plane α} (hb : Blind pl n)
    (hs : p.segments = .ok segs) :
    p.intersectPlane pl = .ok (segs.map fun _ => same3 n, List.range segs.length) := by
  have hm : ∀ s : V3 α × V3 α, Polyline.edgeMeets pl s = true := by
    intro s
    unfold Polyline.edgeMeets
    rw [blind_height h hb, blind_height h hb, sign_nan h, h.add_left, abs_nan h, h.eq_left]; rfl
  have hp : ∀ s : V3 α × V3 α, Polyline.edgePoint pl s = same3 n := by
    intro s
    unfold Polyline.edgePoint
    simp only [blind_height h hb, abs_nan h, h.div_left, h.sub_right, smul_nan h, same_add h]
  have hz : ∀ (l : List (V3 α × V3 α)) (i : ℕ),
      Plane.flatnonzeroFrom i (l.map fun _ => true) = (List.range l.length).map (i + ·) := by
    intro l
    induction l with
    | nil => intro i; rfl
    | cons a l ih =>
      intro i
      simp only [List.map_cons, Plane.flatnonzeroFrom, if_true, ih, List.length_cons, List.range_succ_eq_map, List.map_map,
        Nat.add_zero, List.cons.injEq, true_and]
      apply List.map_congr_left
      intro j _
      simp only [Function.comp]; omega
  unfold Polyline.intersectPlane
  rw [hs]
  simp only [ok_bind, pure_eq_ok]
  have e1 : segs.filter (Polyline.edgeMeets pl) = segs := List.filter_eq_self.mpr fun s _ => hm s
  have e2 : segs.map (Polyline.edgeMeets pl) = segs.map fun _ => true := List.map_congr_left fun s _ => hm s
  rw [e1, e2]
  unfold Plane.flatnonzero
  rw [hz, List.map_congr_left fun s _ => hp s]
  simp

theorem bind_raises {β γ : Type} {x : PyM β} {f : β → PyM γ} (h : ∀ a, x = .ok a → Raises (f a)) : Raises (x >>= f) := by
  cases x with
  | error e => exact ⟨e, rfl⟩
  | ok a => exact h a rfl

end NF

/-- **C120.** A blind plane meets every edge of a polyline, each time in a NaN point, and cutting a polyline with it always
raises. -/
theorem C120_polyline_blind {n : α} (h : NotANumber n) (pl : Plane α) (hb : HasCoord pl.r0 n ∨ HasCoord pl.n n)
    (p : Polyline α) :
    (∀ segs, p.segments = .ok segs →
      p.intersectPlane pl = .ok (segs.map fun _ => same3 n, List.range segs.length)) ∧
    Raises (p.cutByPlane pl) := by
  refine ⟨fun segs hs => segments_map h hb hs, ?_⟩
  unfold Polyline.cutByPlane
  apply bind_raises
  rintro ⟨points, indices⟩ hi
  obtain ⟨segs, hs, -⟩ : ∃ segs, p.segments = .ok segs ∧ True := by
    unfold Polyline.intersectPlane at hi
    obtain ⟨segs, hs, -⟩ := bind_eq_ok.mp hi
    exact ⟨segs, hs, trivial⟩
  rw [segments_map h hb hs] at hi
  cases hi
  simp only
  split
  · exact ⟨_, rfl⟩
  split
  · split
    · exact ⟨_, rfl⟩
    · unfold Polyline.cutClosed
      apply bind_raises
      intro v _
      have hsg : pl.sign v = v.map fun _ => n := (C120_blind h pl hb).2.1 v
      apply bind_raises
      intro i hi
      exfalso
      rw [hsg] at hi
      unfold Polyline.closedStart at hi
      obtain ⟨s0, h0, h1⟩ := bind_eq_ok.mp hi
      have hs0 : s0 = n := by
        cases v with
        | nil => cases h0
        | cons a v => cases h0; rfl
      subst hs0
      rw [h.eq_left] at h1
      simp only [Bool.false_eq_true, if_false] at h1
      obtain ⟨k, h2, -⟩ := bind_eq_ok.mp h1
      have hz : ∀ (l : List (V3 α)) (i : ℕ), Plane.flatnonzeroFrom i (l.map fun _ => false) = [] := by
        intro l
        induction l with
        | nil => intro i; rfl
        | cons a l ih => intro i; simp only [List.map_cons, Plane.flatnonzeroFrom, Bool.false_eq_true, if_false, ih]
      unfold Polyline.whereTrue Plane.flatnonzero at h2
      rw [List.map_map] at h2
      have : (v.map ((fun s => Num.lt s (Num.lit 0)) ∘ fun _ => s0)) = v.map fun _ => false :=
        List.map_congr_left fun p _ => by simp only [Function.comp, h.lt_left]
      rw [this, hz] at h2
      cases h2
  split
  · exact ⟨_, rfl⟩
  · apply bind_raises
    intro pt hpt
    have hpt' : pt = same3 n := by
      cases segs with
      | nil => cases hpt
      | cons a l => cases hpt; rfl
    apply bind_raises
    intro i _
    unfold Polyline.cutOpen
    apply bind_raises
    intro v _
    apply bind_raises
    intro e _
    apply bind_raises
    intro vs _
    apply bind_raises
    intro w _
    split
    · exact ⟨_, new_refuses h ⟨pt, by simp, hpt' ▸ has_same n⟩ _⟩
    · exact ⟨_, new_refuses h ⟨pt, by simp, hpt' ▸ has_same n⟩ _⟩

namespace NF
open Graph
variable {n : α}

theorem takeRows_mem {β : Type} (xs : List β) : ∀ (is : List ℕ) (ys : List β), takeRows xs is = .ok ys → ∀ y ∈ ys, y ∈ xs := by
  intro is
  induction is with
  | nil => intro ys h; cases h; simp
  | cons i is ih =>
    intro ys h
    unfold takeRows at h
    rw [List.mapM_cons] at h
    obtain ⟨y, h1, h2⟩ := bind_eq_ok.mp h
    obtain ⟨zs, h3, h4⟩ := bind_eq_ok.mp h2
    cases h4
    intro z hz
    rcases List.mem_cons.mp hz with rfl | hz
    · rw [pyIndex_nat] at h1
      split at h1
      · rename_i x hx
        cases h1
        exact List.mem_of_getElem? hx
      · cases h1
    · exact ih zs h3 z hz

theorem fold_values {ν : Type} : ∀ (l : List (ν × (ℕ × ℕ))) (m : EdgeMap ν) (v : ν),
    v ∈ (l.foldl addIfNew m).values → v ∈ m.values ∨ ∃ p ∈ l, p.1 = v := by
  intro l
  induction l with
  | nil => intro m v h; exact Or.inl h
  | cons p l ih =>
    intro m v h
    rw [List.foldl_cons] at h
    rcases ih _ v h with h | ⟨q, hq, rfl⟩
    · unfold addIfNew at h
      split at h
      · exact Or.inl h
      · unfold EdgeMap.add at h
        simp only [List.mem_append, List.mem_singleton] at h
        rcases h with h | h
        · exact Or.inl h
        · exact Or.inr ⟨p, by simp, h.symm⟩
    · exact Or.inr ⟨q, by simp [hq], rfl⟩

theorem blind_row (h : NotANumber n) {pl : Plane α} (hb : Blind pl n) (a b : V3 α)
    (hv : (pl.lineSegmentXsectionsRow a b).2 = true) : (pl.lineSegmentXsectionsRow a b).1 = same3 n := by
  have hpt : (pl.lineXsectionsRow a (b - a)).1 = same3 n := by
    unfold Plane.lineXsectionsRow Plane.referencePoint Plane.normal
    simp only [blind_ratio h hb, h.div_left, smul_nan h, same_add h]
  unfold Plane.lineSegmentXsectionsRow at hv ⊢
  simp only at hv ⊢
  rw [if_pos hv, hpt]

theorem masked_rows {β γ : Type} (rows : List (β × Bool)) (P : β → Prop) (hP : ∀ r ∈ rows, r.2 = true → P r.1) :
    ∀ x ∈ masked (rows.map Prod.fst) (rows.map Prod.snd), P x := by
  intro x hx
  unfold masked at hx
  obtain ⟨⟨y, b⟩, hy, rfl⟩ := List.mem_map.mp hx
  rw [List.mem_filter] at hy
  have : (rows.map Prod.fst).zip (rows.map Prod.snd) = rows := by
    clear hP hx hy
    induction rows with
    | nil => rfl
    | cons r rows ih => simp [ih]
  rw [this] at hy
  exact hP _ hy.1 hy.2

theorem blind_map (h : NotANumber n) {pl : Plane α} (hb : Blind pl n) (m : Mesh α) (fs : List (ℕ × ℕ × ℕ))
    (im : EdgeMap (V3 α)) (hi : intersectionMap pl m fs = .ok im) : ∀ v ∈ im.values, v = same3 n := by
  unfold intersectionMap at hi
  obtain ⟨a, -, hi⟩ := bind_eq_ok.mp hi
  obtain ⟨b, -, hi⟩ := bind_eq_ok.mp hi
  obtain ⟨⟨pts, valid⟩, hx, hi⟩ := bind_eq_ok.mp hi
  cases hi
  have hm : ∀ x ∈ masked pts valid, x = same3 n := by
    unfold Plane.lineSegmentXsections at hx
    split at hx
    · cases hx
      apply masked_rows (γ := Unit)
      intro r hr hr2
      obtain ⟨i, hi, rfl⟩ := List.mem_iff_getElem.mp hr
      rw [List.getElem_zipWith] at hr2 ⊢
      exact blind_row h hb _ _ hr2
    · split at hx <;> cases hx
  intro v hv
  rcases fold_values _ _ v hv with hv | ⟨p, hp, rfl⟩
  · simp [EdgeMap.empty] at hv
  · exact hm _ (List.of_mem_zip hp).1

theorem set_ne_nil {κ ν : Type} [DecidableEq κ] (d : Dict κ ν) (k : κ) (v : ν) : d.set k v ≠ [] := by
  cases d with
  | nil => simp [Dict.set]
  | cons a d => obtain ⟨x, y⟩ := a; unfold Dict.set; split <;> simp

theorem addTo_ne_nil {d : Adj} (h : d ≠ []) (u v : ℕ) : addTo d u v ≠ [] := by
  unfold addTo
  split
  · exact set_ne_nil _ _ _
  · exact h

theorem touch_ne_nil (d : Adj) (u : ℕ) : touch d u ≠ [] := by
  unfold touch
  split
  · rename_i hc
    rintro rfl
    simp [Dict.contains] at hc
  · exact set_ne_nil _ _ _

theorem addFace_ne_nil {ν : Type} (ver : PyVer) (im : EdgeMap ν) (g g' : Graph) (f : ℕ × ℕ × ℕ)
    (h : addFace ver im g f = .ok g') : g'.d ≠ [] := by
  have key : ∀ u v, addEdge ver g u v = .ok g' → g'.d ≠ [] := by
    intro u v h
    unfold addEdge at h
    obtain ⟨u', -, h⟩ := bind_eq_ok.mp h
    obtain ⟨v', -, h⟩ := bind_eq_ok.mp h
    cases h
    exact addTo_ne_nil (addTo_ne_nil (touch_ne_nil _ _) _ _) _ _
  unfold addFace at h
  simp only at h
  split at h
  · exact key _ _ h
  · split at h
    · exact key _ _ h
    · exact key _ _ h

theorem addFaces_ne_nil {ν : Type} (ver : PyVer) (im : EdgeMap ν) : ∀ (fs : List (ℕ × ℕ × ℕ)) (g g' : Graph),
    fs.foldlM (addFace ver im) g = .ok g' → (fs ≠ [] ∨ g.d ≠ []) → g'.d ≠ [] := by
  intro fs
  induction fs with
  | nil => intro g g' h hne; cases h; simpa using hne
  | cons f fs ih =>
    intro g g' h _
    rw [List.foldlM_cons] at h
    obtain ⟨g1, h1, h2⟩ := bind_eq_ok.mp h
    exact ih g1 g' h2 (Or.inr (addFace_ne_nil ver im g g1 f h1))

theorem component_nan (h : NotANumber n) (verts : List (V3 α)) (hv : ∀ v ∈ verts, v = same3 n) (path : List ℕ)
    (c : Section α) (hc : component verts path = .ok c) : c.v ≠ [] ∧ ∀ v ∈ c.v, v = same3 n := by
  unfold component at hc
  obtain ⟨cv, h1, hc⟩ := bind_eq_ok.mp hc
  obtain ⟨x, h2, hc⟩ := bind_eq_ok.mp hc
  obtain ⟨y, h3, hc⟩ := bind_eq_ok.mp hc
  have hm := fun v hx => hv v (takeRows_mem verts path cv h1 v hx)
  have hne : cv ≠ [] := by rintro rfl; cases h2
  have hx : x = same3 n := by
    cases cv with
    | nil => cases h2
    | cons a cv => cases h2; exact hm _ (by simp)
  have : V3.allEq x y = false := by
    unfold V3.allEq
    rw [hx]
    simp only [same3, h.eq_left, Bool.false_and]
  rw [this] at hc
  cases hc
  exact ⟨hne, hm⟩

theorem popComponents_nan (h : NotANumber n) (pk : ℕ → Picker) (ko : ℕ → KeyOrder) (verts : List (V3 α))
    (hv : ∀ v ∈ verts, v = same3 n) : ∀ (N k : ℕ) (g : Graph) (cs : List (Section α)), entries g.d < N →
      popComponents pk ko verts k g = .ok cs → (g.d ≠ [] → cs ≠ []) ∧ ∀ c ∈ cs, c.v ≠ [] ∧ ∀ v ∈ c.v, v = same3 n := by
  intro N
  induction N with
  | zero => intro k g cs hN; omega
  | succ N ih =>
    intro k g cs hN hc
    rw [popComponents] at hc
    split at hc
    · rename_i hd
      cases hc
      exact ⟨fun h => absurd hd h, by simp⟩
    · split at hc
      · cases hc
      · cases hc
      · rename_i path g' _
        split at hc
        · cases hc
        · rename_i c hcomp
          split at hc
          · rename_i hlt
            split at hc
            · cases hc
            · rename_i cs' hcs
              cases hc
              refine ⟨fun _ => by simp, ?_⟩
              intro c' hc'
              rcases List.mem_cons.mp hc' with rfl | hc'
              · exact component_nan h verts hv path _ hcomp
              · exact (ih _ g' cs' (by omega) hcs).2 c' hc'
          · cases hc

theorem blind_faces (h : NotANumber n) {pl : Plane α} (hb : Blind pl n) (m : Mesh α) (f : ℕ × ℕ × ℕ) (b : Bool)
    (hf : pl.faceSelected m f = .ok b) : b = true := by
  unfold Plane.faceSelected at hf
  obtain ⟨s0, h0, hf⟩ := bind_eq_ok.mp hf
  obtain ⟨s1, h1, hf⟩ := bind_eq_ok.mp hf
  obtain ⟨s2, h2, hf⟩ := bind_eq_ok.mp hf
  cases hf
  have : s0 = n := by
    rw [pyIndex_nat] at h0
    split at h0
    · rename_i x hx
      cases h0
      have := List.mem_of_getElem? hx
      obtain ⟨y, hy, rfl⟩ := List.mem_map.mp this
      obtain ⟨p, -, rfl⟩ := List.mem_map.mp hy
      rw [blind_height h hb, sign_nan h]
    · cases h0
  rw [this, h.add_left, h.add_left, abs_nan h, h.eq_left]; rfl

theorem blind_selected (h : NotANumber n) {pl : Plane α} (hb : Blind pl n) (m : Mesh α) (fs : List (ℕ × ℕ × ℕ))
    (hf : pl.meshIntersectingFaces m = .ok fs) : fs = m.f := by
  unfold Plane.meshIntersectingFaces at hf
  obtain ⟨mask, hm, hf⟩ := bind_eq_ok.mp hf
  cases hf
  have : ∀ (l : List (ℕ × ℕ × ℕ)) (mask : List Bool), l.mapM (pl.faceSelected m) = .ok mask →
      ((l.zip mask).filter fun p => p.2).map Prod.fst = l := by
    intro l
    induction l with
    | nil => intro mask _; rfl
    | cons f l ih =>
      intro mask hm
      rw [List.mapM_cons] at hm
      obtain ⟨b, h1, hm⟩ := bind_eq_ok.mp hm
      obtain ⟨bs, h2, hm⟩ := bind_eq_ok.mp hm
      cases hm
      have := blind_faces h hb m f b h1
      subst this
      simp [ih bs h2]
  exact this _ _ hm

theorem mapM_raises {β γ : Type} (f : β → PyM γ) : ∀ l : List β, (∃ x ∈ l, Raises (f x)) → Raises (l.mapM f) := by
  intro l
  induction l with
  | nil => rintro ⟨x, hx, _⟩; simp at hx
  | cons a l ih =>
    rintro ⟨x, hx, hr⟩
    rw [List.mapM_cons]
    rcases List.mem_cons.mp hx with rfl | hx
    · obtain ⟨e, he⟩ := hr
      exact ⟨e, by rw [he]; rfl⟩
    · apply bind_raises
      intro y _
      obtain ⟨e, he⟩ := ih ⟨x, hx, hr⟩
      exact ⟨e, by rw [he]; rfl⟩

end NF

/-- **C120.** Slicing a mesh with a blind plane: every face is selected, so that whatever the mesh and the neighborhood, both
forms of the call raise (unless the mesh has no faces: then there is no section). -/
theorem C120_mesh_blind {n : α} (h : NotANumber n) (pl : Plane α) (hb : HasCoord pl.r0 n ∨ HasCoord pl.n n) (ver : PyVer)
    (pk : ℕ → Picker) (ko : ℕ → KeyOrder) (m : Mesh α) (nbh : Option (V3 α × List (V3 α))) :
    (∀ fs, pl.meshIntersectingFaces m = .ok fs → fs = m.f) ∧
    (m.f ≠ [] → Raises (pl.meshPolylines ver pk ko m nbh) ∧ Raises (pl.meshPolyline ver pk ko m nbh)) ∧
    (m.f = [] → pl.meshPolylines ver pk ko m nbh = .ok []) := by
  refine ⟨fun fs hf => blind_selected h hb m fs hf, ?_, ?_⟩
  · intro hne
    have key : Raises (pl.meshPolylines ver pk ko m nbh) := by
      unfold Plane.meshPolylines
      apply bind_raises
      intro cs hcs
      have hall : cs ≠ [] ∧ ∀ c ∈ cs, c.v ≠ [] ∧ ∀ v ∈ c.v, v = same3 n := by
        unfold Plane.meshXsections at hcs
        obtain ⟨fs, hf, hcs⟩ := bind_eq_ok.mp hcs
        have := blind_selected h hb m fs hf
        subst this
        rw [if_neg (by simpa using hne)] at hcs
        obtain ⟨cs', hs, hcs⟩ := bind_eq_ok.mp hcs
        have hcs' : cs' ≠ [] ∧ ∀ c ∈ cs', c.v ≠ [] ∧ ∀ v ∈ c.v, v = same3 n := by
          unfold sliceComponents at hs
          obtain ⟨im, hi, hs⟩ := bind_eq_ok.mp hs
          obtain ⟨g, hg, hs⟩ := bind_eq_ok.mp hs
          obtain ⟨h1, h2⟩ := popComponents_nan h pk ko im.values (blind_map h hb m m.f im hi) _ 0 g cs' (Nat.lt_succ_self _) hs
          exact ⟨h1 (addFaces_ne_nil ver im m.f _ g hg (Or.inl hne)), h2⟩
        split at hcs
        · cases hcs; exact hcs'
        · split at hcs
          · cases hcs; exact hcs'
          · obtain ⟨i, -, hcs⟩ := bind_eq_ok.mp hcs
            obtain ⟨c, hc, hcs⟩ := bind_eq_ok.mp hcs
            cases hcs
            rw [pyIndex_nat] at hc
            split at hc
            · rename_i x hx
              cases hc
              refine ⟨by simp, fun c' hc' => ?_⟩
              rw [List.mem_singleton] at hc'
              subst hc'
              exact hcs'.2 c (List.mem_of_getElem? hx)
            · cases hc
      obtain ⟨h1, h2⟩ := hall
      apply mapM_raises
      obtain ⟨c, hc⟩ := List.exists_mem_of_ne_nil _ h1
      obtain ⟨h3, h4⟩ := h2 c hc
      obtain ⟨v, hv⟩ := List.exists_mem_of_ne_nil _ h3
      exact ⟨c, hc, _, new_refuses h ⟨v, hv, h4 v hv ▸ has_same n⟩ _⟩
    refine ⟨key, ?_⟩
    unfold Plane.meshPolyline
    obtain ⟨e, he⟩ := key
    exact ⟨e, by rw [he]; rfl⟩
  · intro hnil
    unfold Plane.meshPolylines Plane.meshXsections Plane.meshIntersectingFaces
    rw [hnil]
    rfl

namespace NF

theorem build_real (c : Section ℝ) (h : c.v ≠ []) : c.build = .ok (Proofs.poly c.v c.closed) :=
  Proofs.new_real c.v c.closed fun _ => h

theorem mapM_build (cs : List (Section ℝ)) (h : ∀ c ∈ cs, c.v ≠ []) :
    cs.mapM Section.build = .ok (cs.map fun c => Proofs.poly c.v c.closed) := by
  induction cs with
  | nil => rfl
  | cons c cs ih =>
    rw [List.mapM_cons, build_real c (h c (by simp)), ih fun c' hc' => h c' (by simp [hc'])]
    rfl

end NF

theorem NF.polylines_of_sections (ver : PyVer) (pk : ℕ → Picker) (ko : ℕ → KeyOrder) (pl : Plane ℝ) (m : Mesh ℝ)
    (cs : List (Section ℝ)) (hcs : pl.meshXsections ver pk ko m = .ok cs) (hne : ∀ c ∈ cs, c.v ≠ []) :
    ∃ cs ps p, pl.meshXsections ver pk ko m = .ok cs ∧
      pl.meshPolylines ver pk ko m = .ok ps ∧ pl.meshPolyline ver pk ko m = .ok p ∧
      List.Forall₂ (fun c q => q.v = some c.v ∧ q.closed = c.closed) cs ps ∧
      (cs = [] → p.v = none) ∧ (cs ≠ [] → p.v = some (cs.map Section.v).flatten ∧ p.closed = true) := by
  have hps : pl.meshPolylines ver pk ko m = .ok (cs.map fun c => Proofs.poly c.v c.closed) := by
    unfold Plane.meshPolylines
    rw [hcs]
    exact mapM_build cs fun c hc => hne c hc
  have hvs : (cs.map fun c => Proofs.poly c.v c.closed).mapM Polyline.vArr = .ok (cs.map Section.v) := by
    clear hcs hne hps
    induction cs with
    | nil => rfl
    | cons c cs ih => rw [List.map_cons, List.mapM_cons, ih]; rfl
  have hrel : List.Forall₂ (fun (c : Section ℝ) (q : Polyline ℝ) => q.v = some c.v ∧ q.closed = c.closed) cs
      (cs.map fun c => Proofs.poly c.v c.closed) := by
    rw [List.forall₂_map_right_iff]
    exact List.forall₂_same.mpr fun c _ => ⟨rfl, rfl⟩
  by_cases hnil : cs = []
  · subst hnil
    refine ⟨[], _, ⟨none, false, none⟩, hcs, hps, ?_, hrel, fun _ => rfl, fun h => absurd rfl h⟩
    unfold Plane.meshPolyline
    rw [hps]
    rfl
  · refine ⟨cs, _, Proofs.poly (cs.map Section.v).flatten true, hcs, hps, ?_, hrel, fun h => absurd h hnil, fun _ => ⟨rfl, rfl⟩⟩
    unfold Plane.meshPolyline
    rw [hps]
    simp only [ok_bind, List.length_map]
    rw [if_neg (by simpa using hnil), hvs]
    refine Proofs.new_real _ _ fun _ => ?_
    obtain ⟨c, hc⟩ := List.exists_mem_of_ne_nil _ hnil
    obtain ⟨v, hv⟩ := List.exists_mem_of_ne_nil _ (hne c hc)
    exact List.ne_nil_of_mem (List.mem_flatten.mpr ⟨c.v, List.mem_map_of_mem hc, hv⟩)

/-- **C120.** With numbers throughout the checks of the polyline constructor change nothing: if no face lies in the plane,
the call returns one polyline for each section of property C31, and otherwise it raises; the one-polyline form returns one
closed polyline through the vertices of all of them in turn, or the empty polyline. -/
theorem C120_mesh_returns (ver : PyVer) (pk : ℕ → Picker) (ko : ℕ → KeyOrder) (pl : Plane ℝ) (m : Mesh ℝ)
    (hv : ValidFaces m) (hp : ∀ f ∈ m.f, ProperFace f) :
    ((∃ f ∈ m.f, Spec.InPlane pl m.v f) →
      Raises (pl.meshPolylines ver pk ko m) ∧ Raises (pl.meshPolyline ver pk ko m)) ∧
    ((∀ f ∈ m.f, ¬ Spec.InPlane pl m.v f) → ∃ cs ps p, pl.meshXsections ver pk ko m = .ok cs ∧
      pl.meshPolylines ver pk ko m = .ok ps ∧ pl.meshPolyline ver pk ko m = .ok p ∧
      List.Forall₂ (fun c q => q.v = some c.v ∧ q.closed = c.closed) cs ps ∧
      (cs = [] → p.v = none) ∧ (cs ≠ [] → p.v = some (cs.map Section.v).flatten ∧ p.closed = true)) := by
  obtain ⟨h1, h2⟩ := C31_fails_iff ver pk ko pl m hv hp
  constructor
  · intro hf
    obtain ⟨e, he⟩ := h1 hf
    unfold Plane.meshPolyline Plane.meshPolylines
    rw [he]
    exact ⟨⟨e, rfl⟩, ⟨e, rfl⟩⟩
  · intro hf
    obtain ⟨cs, hcs, hne⟩ := h2 hf
    exact NF.polylines_of_sections ver pk ko pl m cs hcs fun c hc => (hne c hc).1

namespace NF

theorem argmax_stays {b : α} (hb : npIsNan b = true) (i best : ℕ) (xs : List α) : argmaxFrom i best b xs = best := by
  cases xs with
  | nil => rfl
  | cons x xs => simp only [argmaxFrom, hb, if_true]

theorem argmax_reaches {x : α} (hx : npIsNan x = true) (post : List α) : ∀ (pre : List α) (i best : ℕ) (b : α),
    npIsNan b = false → (∀ y ∈ pre, npIsNan y = false) → argmaxFrom i best b (pre ++ x :: post) = i + pre.length := by
  intro pre
  induction pre with
  | nil =>
    intro i best b hb _
    simp only [List.nil_append, argmaxFrom, hb, hx, Bool.true_or, Bool.false_eq_true, if_false, if_true,
      argmax_stays hx, List.length_nil, Nat.add_zero]
  | cons y pre ih =>
    intro i best b hb hp
    have hy := hp y (by simp)
    have hp' : ∀ z ∈ pre, npIsNan z = false := fun z hz => hp z (by simp [hz])
    simp only [List.cons_append, argmaxFrom, hb, hy, Bool.false_or, Bool.false_eq_true, if_false, List.length_cons]
    split
    · rw [ih _ _ _ hy hp']; omega
    · rw [ih _ _ _ hb hp']; omega

/-- the first NaN is the largest -/
theorem argmax_nan {x : α} (hx : npIsNan x = true) (pre post : List α) (hp : ∀ y ∈ pre, npIsNan y = false) :
    argmax (pre ++ x :: post) = .ok pre.length := by
  cases pre with
  | nil => simp only [List.nil_append, argmax, argmax_stays hx, List.length_nil]
  | cons y pre =>
    simp only [List.cons_append, argmax]
    rw [argmax_reaches hx post pre 1 0 y (hp y (by simp)) fun z hz => hp z (by simp [hz])]
    simp [Nat.add_comm]

theorem isnan_iff {n : α} (h : NotANumber n) (x : α) : npIsNan x = true ↔ x = n := by
  unfold npIsNan
  constructor
  · intro hx; exact h.unique x (by simpa using hx)
  · rintro rfl; rw [h.eq_left]; rfl

theorem not_isnan {n : α} (h : NotANumber n) {x : α} (hx : x ≠ n) : npIsNan x = false := by
  rw [Bool.eq_false_iff]
  exact fun hc => hx ((isnan_iff h x).mp hc)

end NF

/-- **C120.** `apex` and `farthest` answer with the first point for which the comparison value is NaN, wherever the others
are: in particular with the first point of all when the axis, or the point to measure from, has NaN in it. -/
theorem C120_apex {n : α} (h : NotANumber n) (pre post : List (V3 α)) (p axis : V3 α) :
    ((∀ q ∈ pre, q.dot axis ≠ n) → p.dot axis = n → apex (pre ++ p :: post) axis = .ok p) ∧
    (HasCoord axis n → apex (p :: post) axis = .ok p) ∧
    ((∀ q ∈ pre, (q - axis).norm ≠ n) → (p - axis).norm = n →
      farthest axis (pre ++ p :: post) = .ok (p, pre.length)) ∧
    (HasCoord axis n → farthest axis (p :: post) = .ok (p, 0)) := by
  have h1 : ∀ (pre : List (V3 α)), (∀ q ∈ pre, q.dot axis ≠ n) → p.dot axis = n → apex (pre ++ p :: post) axis = .ok p := by
    intro pre hq hp
    unfold apex
    simp only [List.map_append, List.map_cons]
    rw [argmax_nan ((isnan_iff h _).mpr hp) _ _ (by
        intro y hy
        obtain ⟨q, hm, rfl⟩ := List.mem_map.mp hy
        exact not_isnan h (hq q hm))]
    simp only [ok_bind, List.length_map]
    exact pyIndex_of_getElem? (by simp)
  have h2 : ∀ (pre : List (V3 α)), (∀ q ∈ pre, (q - axis).norm ≠ n) → (p - axis).norm = n →
      farthest axis (pre ++ p :: post) = .ok (p, pre.length) := by
    intro pre hq hp
    unfold farthest
    simp only [List.map_append, List.map_cons]
    rw [argmax_nan ((isnan_iff h _).mpr hp) _ _ (by
        intro y hy
        obtain ⟨q, hm, rfl⟩ := List.mem_map.mp hy
        exact not_isnan h (hq q hm))]
    simp only [ok_bind, List.length_map]
    rw [pyIndex_of_getElem? (x := p) (by simp)]
    rfl
  refine ⟨h1 pre, ?_, h2 pre, ?_⟩
  · intro ha
    exact h1 [] (by simp) (dot_right h ha p)
  · intro ha
    refine h2 [] (by simp) (norm_nan h ?_)
    unfold HasCoord
    simp only [V3.sub_x, V3.sub_y, V3.sub_z]
    rcases ha with ha | ha | ha <;> rw [ha]
    · exact Or.inl (h.sub_right _)
    · exact Or.inr (Or.inl (h.sub_right _))
    · exact Or.inr (Or.inr (h.sub_right _))

/-- **C120.** One NaN coordinate makes the length NaN and the normalised vector, the projection onto it and of it, and the
rejection NaN throughout, and the vector is not almost zero; boxes refuse it. -/
theorem C120_vectors {n : α} (h : NotANumber n) (v w : V3 α) (hv : HasCoord v n) :
    v.norm = n ∧ normalize3 v = same3 n ∧ proj3 v w = same3 n ∧ proj3 w v = same3 n ∧
    reject3 v w = same3 n ∧ reject3 w v = same3 n ∧ (∀ t, almostZero v t = false) ∧
    (∀ xs k, Box.mk' v.toList xs k = .error .ValueError) ∧
    (∀ xs k, Box.mk' xs v.toList k = .error .ValueError) := by
  have hp1 : proj3 v w = same3 n := by unfold proj3; rw [dot_left h hv, smul_nan h]
  have hp2 : proj3 w v = same3 n := by
    unfold proj3
    rw [dot_right h (by rw [normalize_nan h hv]; exact has_same n), smul_nan h]
  have ha : (v.toList.any fun x => npIsNan x || npIsInf x) = true := by
    rw [List.any_eq_true]
    refine ⟨n, ?_, by rw [isnan h]; rfl⟩
    unfold V3.toList
    rcases hv with hc | hc | hc <;> rw [hc] <;> simp
  have hn : asNumeric3 v.toList = .error .ValueError := by
    unfold asNumeric3
    rw [if_pos ha]
  refine ⟨norm_nan h hv, normalize_nan h hv, hp1, hp2, ?_, ?_, almostZero_nan h hv, ?_, ?_⟩
  · unfold reject3; rw [hp1, sub_same h]
  · unfold reject3; rw [hp2, sub_same h]
  · intro xs k
    unfold Box.mk'
    rw [hn]; rfl
  · intro xs k
    unfold Box.mk'
    rw [hn]
    unfold asNumeric3
    split
    · rfl
    · split <;> rfl

/-- **C120.** Comparing a `Value` with NaN on either side: only `!=` is true. -/
theorem C120_values [Trig α] {n : α} (h : NotANumber n) (c : Value.Cmp) (self : Value α) (other : Operand α) (o : α)
    (ho : Value.comparable self other = .ok o) (hn : self.value = n ∨ o = n) :
    Value.compareOp c self other = .ok (decide (c = .ne)) := by
  unfold Value.compareOp
  rw [ho]
  simp only [ok_bind, pure_eq_ok]
  rcases hn with hn | hn <;> rw [hn] <;> cases c <;>
    simp [Value.Cmp.apply, h.eq_left, h.eq_right, h.lt_left, h.lt_right, h.le_left, h.le_right]

namespace NF

theorem foldl_min {n : α} (h : NotANumber n) (l : List α) : ∀ x, (x = n ∨ n ∈ l) → l.foldl npMin x = n := by
  induction l with
  | nil => intro x hx; simpa using hx
  | cons a l ih =>
    intro x hx
    rw [List.foldl_cons]
    apply ih
    unfold npMin
    by_cases hxn : npIsNan x = true
    · rw [if_pos hxn]; exact Or.inl ((isnan_iff h x).mp hxn)
    · rw [if_neg hxn]
      have hx' : x ≠ n := fun hc => hxn ((isnan_iff h x).mpr hc)
      by_cases ha : npIsNan a = true
      · rw [if_pos ha]; exact Or.inl ((isnan_iff h a).mp ha)
      · rcases hx with hx | hx
        · exact absurd hx hx'
        · rcases List.mem_cons.mp hx with hx | hx
          · exact absurd ((isnan_iff h a).mpr hx.symm) ha
          · exact Or.inr hx

end NF

/-- **C120.** One NaN in the array makes the whole of `scale_to_range` NaN. -/
theorem C120_scale {n : α} (h : NotANumber n) (a : List α) (ha : n ∈ a) (lo hi : α) :
    Numerics.scaleToRange a lo hi = .ok (a.map fun _ => n) := by
  unfold Numerics.scaleToRange
  have h1 : Numerics.npMinArr a = .ok n := by
    cases a with
    | nil => simp at ha
    | cons x a =>
      simp only [Numerics.npMinArr]
      rw [foldl_min h a x (by rcases List.mem_cons.mp ha with h | h <;> simp [h])]
  rw [h1]
  simp only [ok_bind, h.sub_right]
  have h2 : Numerics.npMaxArr (a.map fun _ => n) = .ok n := by
    cases a with
    | nil => simp at ha
    | cons x a =>
      have : ∀ l : List α, (l.map fun _ => n).foldl npMax n = n := by
        intro l
        induction l with
        | nil => rfl
        | cons y l ih =>
          have e : npMax n n = n := by unfold npMax; rw [if_pos (isnan h)]
          rw [List.map_cons, List.foldl_cons, e, ih]
      simp only [List.map_cons, Numerics.npMaxArr, this]
  rw [h2]
  simp only [ok_bind, pure_eq_ok, List.map_map, Except.ok.injEq]
  apply List.map_congr_left
  intro x _
  simp only [Function.comp, h.div_right, h.add_left]

/-- **C120.** Frames and angles: NaN in `up` gives a matrix of NaN, not an error; NaN in `look` alone leaves only the second
row; angles with such a vector are NaN; one NaN in a coordinate of one point makes that coordinate of all centred points NaN. -/
theorem C120_frames (up look : V3 Fl) :
    (HasCoord up Fl.nan → Num.eq look.norm (Num.lit 0) = false →
      rotationFromUpAndLook up look = .ok (Mat.ofRows (same3 Fl.nan) (same3 Fl.nan) (same3 Fl.nan))) ∧
    (HasCoord look Fl.nan → Num.eq up.norm (Num.lit 0) = false →
      rotationFromUpAndLook up look = .ok (Mat.ofRows (same3 Fl.nan) (V3.sdiv up up.norm) (same3 Fl.nan))) ∧
    (HasCoord up Fl.nan ∨ HasCoord look Fl.nan → angle up look = Fl.nan ∧ ∀ w, signedAngle up look w = Fl.nan) := by
  have h := notANumber_fl
  have cross_same : ∀ y : V3 Fl, V3.cross y (same3 Fl.nan) = same3 Fl.nan := by
    intro y
    unfold V3.cross same3
    simp
  have sdiv_nan : ∀ y : V3 Fl, HasCoord y Fl.nan → V3.sdiv y y.norm = same3 Fl.nan := fun y hy => normalize_nan h hy
  refine ⟨?_, ?_, ?_⟩
  · intro hu hl
    unfold rotationFromUpAndLook
    rw [norm_nan h hu, h.eq_left, hl]
    simp only [Bool.false_eq_true, if_false]
    have e1 : V3.sdiv up Fl.nan = same3 Fl.nan := by unfold V3.sdiv same3; simp
    rw [e1]
    have e2 : look - V3.smul (look.dot (same3 Fl.nan)) (same3 Fl.nan) = same3 Fl.nan := by
      rw [dot_right h (has_same _), smul_nan h, sub_same h]
    rw [e2, norm_nan h (has_same _), h.eq_left]
    simp only [Bool.false_eq_true, if_false]
    have e3 : V3.sdiv (same3 Fl.nan) Fl.nan = same3 Fl.nan := by unfold V3.sdiv same3; simp
    rw [e3, cross_same]
  · intro hl hu
    unfold rotationFromUpAndLook
    rw [norm_nan h hl, h.eq_left, hu]
    simp only [Bool.false_eq_true, if_false]
    have e2 : look - V3.smul (look.dot (V3.sdiv up up.norm)) (V3.sdiv up up.norm) = same3 Fl.nan := by
      rw [dot_left h hl, smul_nan h, sub_same h]
    rw [e2, norm_nan h (has_same _), h.eq_left]
    simp only [Bool.false_eq_true, if_false]
    have e3 : V3.sdiv (same3 Fl.nan) Fl.nan = same3 Fl.nan := by unfold V3.sdiv same3; simp
    rw [e3, cross_same]
  · intro hc
    have hd : (normalize3 up).dot (normalize3 look) = Fl.nan := by
      rcases hc with hc | hc
      · exact dot_left h (by rw [normalize_nan h hc]; exact has_same _) _
      · exact dot_right h (by rw [normalize_nan h hc]; exact has_same _) _
    have ha : angle up look = Fl.nan := by
      unfold angle
      rw [hd]
      have : clip Fl.nan = Fl.nan := by unfold clip; simp
      simp only [this]
      exact Fl.nan_mul _
    refine ⟨ha, fun w => ?_⟩
    unfold signedAngle
    rw [ha]
    exact Fl.mul_nan _

/-- **C120.** Centring points: NaN in one coordinate of one point makes that coordinate of every point NaN, and no other. -/
theorem C120_centred (ps : List (V3 Fl)) (hn : ∃ p ∈ ps, p.x = Fl.nan) (hy : ∀ p ∈ ps, p.y.IsFinite) :
    (∀ q ∈ (translation ps none).1, q.x = Fl.nan ∧ q.y.IsFinite) := by
  have hs : ∀ l : List (V3 Fl), (∃ p ∈ l, p.x = Fl.nan) → (sumPts l).x = Fl.nan := by
    intro l
    induction l with
    | nil => rintro ⟨p, hp, _⟩; simp at hp
    | cons a l ih =>
      rintro ⟨p, hp, hx⟩
      show a.x + (sumPts l).x = _
      rcases List.mem_cons.mp hp with rfl | hp
      · rw [hx]; exact Fl.nan_add _
      · rw [ih ⟨p, hp, hx⟩]; exact Fl.add_nan _
  have hf : ∀ l : List (V3 Fl), (∀ p ∈ l, p.y.IsFinite) → (sumPts l).y.IsFinite := by
    intro l
    induction l with
    | nil => intro _; exact ⟨_, rfl⟩
    | cons a l ih =>
      intro h
      obtain ⟨r, hr⟩ := h a (by simp)
      obtain ⟨t, ht⟩ := ih fun p hp => h p (by simp [hp])
      exact ⟨r + t, by show a.y + (sumPts l).y = _; rw [hr, ht]; rfl⟩
  intro q hq
  unfold translation at hq
  simp only at hq
  obtain ⟨p, hp, rfl⟩ := List.mem_map.mp hq
  constructor
  · show p.x + -((sumPts ps).x / _) = _
    rw [hs ps hn, Fl.nan_div, Fl.neg_nan, Fl.add_nan]
  · obtain ⟨r, hr⟩ := hy p hp
    obtain ⟨t, ht⟩ := hf ps hy
    have hne : ((ps.length : ℚ) : ℝ) ≠ 0 := by
      have : ps.length ≠ 0 := by rintro h; rw [List.length_eq_zero_iff.mp h] at hp; simp at hp
      exact_mod_cast this
    refine ⟨r + -(t / ((ps.length : ℚ) : ℝ)), ?_⟩
    show p.y + -((sumPts ps).y / Num.lit (ps.length : ℚ)) = _
    rw [hr, ht, Fl.lit_fl, Fl.div_fin _ _ hne]
    rfl

/-! The doubles have such a value, and it arises without being put in: dividing zero by zero. -/

example : NotANumber F64.nan := notANumber_f64

example : (F64.zero false / F64.zero false : F64) = F64.nan := rfl

/-- a plane with a NaN normal made from numbers none of which is NaN: an infinite coordinate -/
example : Plane.mk' (⟨.zero false, .zero false, .zero false⟩ : V3 F64) ⟨.inf false, .zero false, .zero false⟩ =
    .ok ⟨⟨.zero false, .zero false, .zero false⟩, ⟨.nan, .zero false, .zero false⟩⟩ := by
  have e1 : almostZero (⟨.inf false, .zero false, .zero false⟩ : V3 F64) defaultAtol = false := by decide +kernel
  have e2 : normalize3 (⟨.inf false, .zero false, .zero false⟩ : V3 F64) = ⟨.nan, .zero false, .zero false⟩ := by
    decide +kernel
  rw [(C120_plane_accepted notANumber_f64 _ _).2 e1, e2]

/-- a mesh of one face, its plane blind -/
example (ver : PyVer) (pk : ℕ → Picker) (ko : ℕ → KeyOrder) (v : List (V3 F64)) :
    Raises ((⟨⟨.nan, .zero false, .zero false⟩, ⟨.num 1, .zero false, .zero false⟩⟩ : Plane F64).meshPolylines ver pk ko
      ⟨v, [(0, 1, 2)]⟩) :=
  ((C120_mesh_blind notANumber_f64 _ (Or.inl (Or.inl rfl)) ver pk ko _ none).2.1 (by simp)).1

/-- the farthest point is the one that is not a point -/
example : farthest (⟨.zero false, .zero false, .zero false⟩ : V3 F64)
    [⟨.num 5, .zero false, .zero false⟩, ⟨.nan, .zero false, .zero false⟩, ⟨.num 9, .zero false, .zero false⟩] =
    .ok (⟨.nan, .zero false, .zero false⟩, 1) :=
  (C120_apex notANumber_f64 [⟨.num 5, .zero false, .zero false⟩] [⟨.num 9, .zero false, .zero false⟩] _ _).2.2.1
    (by decide +kernel) rfl

example : Numerics.scaleToRange [F64.num 1, F64.nan, F64.num 3] (F64.num 1) (F64.num 2) = .ok [.nan, .nan, .nan] :=
  C120_scale notANumber_f64 _ (by simp) _ _

example : rotationFromUpAndLook (⟨.nan, .fin 0, .fin 1⟩ : V3 Fl) ⟨.fin 1, .fin 0, .fin 0⟩ =
    .ok (Mat.ofRows (same3 Fl.nan) (same3 Fl.nan) (same3 Fl.nan)) :=
  (C120_frames _ _).1 (Or.inl rfl) (by
    unfold V3.norm V3.dot
    simp only [Fl.mul_fin, Fl.add_fin]
    rw [Fl.sqrt_fin _ (by norm_num), Bool.eq_false_iff, Ne, Fl.lit_fl, Fl.eq_fin]
    norm_num)

example : ∀ q ∈ (translation [(⟨.nan, .fin 1, .fin 0⟩ : V3 Fl), ⟨.fin 2, .fin 3, .fin 0⟩] none).1,
    q.x = Fl.nan ∧ q.y.IsFinite :=
  C120_centred _ ⟨_, List.mem_cons_self, rfl⟩ (by simp [Fl.IsFinite])

end Blmath.Props
