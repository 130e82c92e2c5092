import Verif.Spec.Motion
import Verif.Props.MeshSlice
import Verif.Props.PolylineCut

/-!
Lemmas for `Props/Motion.lean`: running a function on mapped arguments.
-/

namespace Blmath.Proofs.MO
open Blmath Blmath.Geometry Blmath.Spec Blmath.Proofs Blmath.Props

variable {β γ δ ε : Type}

theorem bind_map (x : PyM β) (f : β → γ) (k : β → PyM δ) (k' : γ → PyM ε) (h : δ → ε)
    (e : ∀ a, x = .ok a → k' (f a) = (k a).map h) : ((x.map f) >>= k') = (x >>= k).map h := by
  cases x with
  | ok a => exact e a rfl
  | error err => rfl

theorem bind_same (x : PyM β) (k : β → PyM δ) (k' : β → PyM ε) (h : δ → ε)
    (e : ∀ a, x = .ok a → k' a = (k a).map h) : (x >>= k') = (x >>= k).map h := by
  cases x with
  | ok a => exact e a rfl
  | error err => rfl

theorem pyIndex_map (f : β → γ) (l : List β) (i : ℤ) : pyIndex (l.map f) i = (pyIndex l i).map f := by
  unfold pyIndex
  simp only [List.length_map, List.getElem?_map]
  generalize (if i < 0 then i + (l.length : ℤ) else i) = j
  by_cases h : j < 0
  · rw [if_pos h, if_pos h]; rfl
  · rw [if_neg h, if_neg h]
    cases l[j.toNat]? <;> rfl

theorem mapM_map (F : δ → PyM β) (F' : δ → PyM γ) (f : β → γ) (l : List δ)
    (h : ∀ x ∈ l, F' x = (F x).map f) : l.mapM F' = (l.mapM F).map (List.map f) := by
  induction l with
  | nil => rfl
  | cons a l ih =>
    rw [List.mapM_cons, List.mapM_cons, h a (by simp), ih fun x hx => h x (by simp [hx])]
    apply bind_map
    intro b _
    apply bind_map
    intro bs _
    rfl

theorem takeRows_map (f : β → γ) (l : List β) (is : List ℕ) : takeRows (l.map f) is = (takeRows l is).map (List.map f) :=
  mapM_map _ _ _ _ fun i _ => pyIndex_map f l i

theorem pySlice_map (f : β → γ) (l : List β) (i j : ℤ) : pySlice (l.map f) i j = (pySlice l i j).map f := by
  unfold pySlice
  rw [List.length_map, ← List.map_take, ← List.map_drop]

/-! ### planes -/

variable {g : V3 ℝ → V3 ℝ} {pl pl' : Plane ℝ}

theorem npSign_scale {s : ℝ} (hs : 0 < s) (x : ℝ) : npSign (s * x) = npSign x := by
  rw [npSign_real, npSign_real]
  simp [mul_pos_iff_of_pos_left hs, mul_neg_iff, hs, hs.not_gt]

theorem sign1 (hc : Carries g pl pl') (p : V3 ℝ) : npSign (pl'.signedDistance1 (g p)) = npSign (pl.signedDistance1 p) := by
  obtain ⟨s, hs, h⟩ := hc
  rw [signedDistance1_real, signedDistance1_real, h, npSign_scale hs]

theorem signs (hc : Carries g pl pl') (ps : List (V3 ℝ)) : pl'.sign (ps.map g) = pl.sign ps := by
  unfold Plane.sign Plane.signedDistance
  simp only [List.map_map]
  apply List.map_congr_left
  intro p _
  exact sign1 hc p

theorem onPlane (hc : Carries g pl pl') (p : V3 ℝ) : OnPlane pl' (g p) ↔ OnPlane pl p := by
  obtain ⟨s, hs, h⟩ := hc
  rw [onPlane_iff, onPlane_iff, h]
  simp [hs.ne']

theorem xsection (hg : ∀ a b t, g (along a t (vec3 a b)) = along (g a) t (vec3 (g a) (g b))) (hc : Carries g pl pl')
    (a b : V3 ℝ) : pl'.lineSegmentXsection (g a) (g b) = (pl.lineSegmentXsection a b).map g := by
  have hk : ∀ q, pl.lineSegmentXsection a b = some q → pl'.lineSegmentXsection (g a) (g b) = some (g q) := by
    intro q hq
    rw [C26_segment] at hq ⊢
    obtain ⟨h1, h2, t, h3, h4, h5⟩ := hq
    refine ⟨?_, (onPlane hc q).mpr h2, t, h3, h4, ?_⟩
    · obtain ⟨s, hs, h⟩ := hc
      rw [h, h]
      intro e
      exact h1 (mul_left_cancel₀ hs.ne' e)
    · rw [h5, hg]
  cases h : pl.lineSegmentXsection a b with
  | some q => exact hk q h
  | none =>
    cases h' : pl'.lineSegmentXsection (g a) (g b) with
    | none => rfl
    | some q' =>
      exfalso
      have h1 := (C26_sides pl' (g a) (g b)).mp ⟨q', h'⟩
      have h2 : ∃ q, pl.lineSegmentXsection a b = some q := by
        rw [C26_sides]
        obtain ⟨s, hs, e⟩ := hc
        rw [e, e] at h1
        refine ⟨fun e => h1.1 (by rw [e]), ?_, ?_⟩
        · rintro ⟨p1, p2⟩
          exact h1.2.1 ⟨mul_pos hs p1, mul_pos hs p2⟩
        · rintro ⟨p1, p2⟩
          exact h1.2.2 ⟨mul_neg_of_pos_of_neg hs p1, mul_neg_of_pos_of_neg hs p2⟩
      obtain ⟨q, hq⟩ := h2
      rw [h] at hq
      exact absurd hq (by simp)

theorem row (hg : ∀ a b t, g (along a t (vec3 a b)) = along (g a) t (vec3 (g a) (g b))) (hc : Carries g pl pl') (a b : V3 ℝ) :
    (pl'.lineSegmentXsectionsRow (g a) (g b)).2 = (pl.lineSegmentXsectionsRow a b).2 ∧
    ((pl.lineSegmentXsectionsRow a b).2 = true →
      (pl'.lineSegmentXsectionsRow (g a) (g b)).1 = g (pl.lineSegmentXsectionsRow a b).1) := by
  have h1 := (C27_any_arithmetic pl a b).2
  have h2 := (C27_any_arithmetic pl' (g a) (g b)).2
  rw [xsection hg hc, h1] at h2
  cases e : (pl.lineSegmentXsectionsRow a b).2 <;> cases e' : (pl'.lineSegmentXsectionsRow (g a) (g b)).2 <;>
    simp_all

/-! ### slicing -/

theorem faceSelected (hc : Carries g pl pl') (m : Mesh ℝ) (f : ℕ × ℕ × ℕ) :
    pl'.faceSelected (Mesh.image g m) f = pl.faceSelected m f := by
  unfold Plane.faceSelected
  have := signs hc m.v
  unfold Plane.sign at this
  simp only [Mesh.image, this]

theorem faces (hc : Carries g pl pl') (m : Mesh ℝ) :
    pl'.meshIntersectingFaces (Mesh.image g m) = pl.meshIntersectingFaces m := by
  unfold Plane.meshIntersectingFaces
  have : pl'.faceSelected (Mesh.image g m) = pl.faceSelected m := funext fun f => faceSelected hc m f
  rw [this]
  rfl

section
variable {α : Type} {g : V3 α → V3 α}

/-- the same positions, moved values -/
def EMap (g : V3 α → V3 α) (em : EdgeMap (V3 α)) : EdgeMap (V3 α) := ⟨em.d, em.values.map g⟩

theorem addIfNew_map (em : EdgeMap (V3 α)) (x : V3 α) (e : ℕ × ℕ) :
    addIfNew (EMap g em) (g x, e) = EMap g (addIfNew em (x, e)) := by
  unfold addIfNew
  have : (EMap g em).contains e.1 e.2 = em.contains e.1 e.2 := rfl
  simp only [this]
  split
  · rfl
  · simp [EdgeMap.add, EMap]
    rfl

theorem foldl_map (l : List (V3 α × (ℕ × ℕ))) (em : EdgeMap (V3 α)) :
    (l.map fun p => (g p.1, p.2)).foldl addIfNew (EMap g em) = EMap g (l.foldl addIfNew em) := by
  induction l generalizing em with
  | nil => rfl
  | cons a l ih =>
    rw [List.map_cons, List.foldl_cons, List.foldl_cons, addIfNew_map, ih]

theorem masked_map (rows rows' : List (V3 α × Bool)) (es : List (ℕ × ℕ))
    (h : List.Forall₂ (fun r r' => r'.2 = r.2 ∧ (r.2 = true → r'.1 = g r.1)) rows rows') :
    (masked (rows'.map Prod.fst) (rows'.map Prod.snd)).zip (masked es (rows'.map Prod.snd)) =
      ((masked (rows.map Prod.fst) (rows.map Prod.snd)).zip (masked es (rows.map Prod.snd))).map
        fun p => (g p.1, p.2) := by
  have h1 : rows'.map Prod.snd = rows.map Prod.snd := by
    induction h with
    | nil => rfl
    | cons hh _ ih => rw [List.map_cons, List.map_cons, ih, hh.1]
  have h2 : masked (rows'.map Prod.fst) (rows'.map Prod.snd) = (masked (rows.map Prod.fst) (rows.map Prod.snd)).map g := by
    clear h1
    induction h with
    | nil => rfl
    | @cons r r' rs rs' hh _ ih =>
      unfold masked at ih ⊢
      simp only [List.map_cons, List.zip_cons_cons]
      obtain ⟨e1, e2⟩ := hh
      cases hr : r.2 with
      | false => rw [hr] at e1; simp only [e1, hr, List.filter_cons]; simpa using ih
      | true => rw [hr] at e1; simp only [e1, hr, List.filter_cons]; simp [ih, e2 hr]
  rw [h2, h1, List.zip_map_left]
  rfl

end

theorem rows_forall (hg : ∀ a b t, g (along a t (vec3 a b)) = along (g a) t (vec3 (g a) (g b))) (hc : Carries g pl pl')
    (as bs : List (V3 ℝ)) :
    List.Forall₂ (fun r r' => r'.2 = r.2 ∧ (r.2 = true → r'.1 = g r.1))
      (List.zipWith pl.lineSegmentXsectionsRow as bs)
      (List.zipWith pl'.lineSegmentXsectionsRow (as.map g) (bs.map g)) := by
  induction as generalizing bs with
  | nil => simp
  | cons a as ih =>
    cases bs with
    | nil => simp
    | cons b bs =>
      simp only [List.map_cons, List.zipWith_cons_cons]
      exact List.Forall₂.cons (row hg hc a b) (ih bs)

theorem intersectionMap_map (hg : ∀ a b t, g (along a t (vec3 a b)) = along (g a) t (vec3 (g a) (g b)))
    (hc : Carries g pl pl') (m : Mesh ℝ) (fs : List (ℕ × ℕ × ℕ)) :
    intersectionMap pl' (Mesh.image g m) fs = (intersectionMap pl m fs).map (EMap g) := by
  unfold intersectionMap
  simp only [Mesh.image, takeRows_map]
  apply bind_map
  intro a _
  apply bind_map
  intro b _
  unfold Plane.lineSegmentXsections
  simp only [List.length_map]
  split
  · simp only [ok_bind]
    rw [masked_map _ _ (faceEdges fs) (rows_forall hg hc a b)]
    exact congrArg Except.ok (foldl_map _ EdgeMap.empty)
  · split <;> rfl

section
variable {α : Type} [Num α] {g : V3 α → V3 α}

theorem component_map (hi : ∀ a b, V3.allEq (g a) (g b) = V3.allEq a b) (verts : List (V3 α)) (path : List ℕ) :
    component (verts.map g) path = (component verts path).map (Section.image g) := by
  unfold component
  rw [takeRows_map]
  apply bind_map
  intro cv _
  rw [pyIndex_map]
  apply bind_map
  intro a _
  rw [pyIndex_map]
  apply bind_map
  intro b _
  rw [hi]
  split
  · simp [Section.image, Except.map]
  · rfl

theorem popComponents_map (hi : ∀ a b, V3.allEq (g a) (g b) = V3.allEq a b) (pk : ℕ → Picker) (ko : ℕ → KeyOrder) (verts : List (V3 α)) :
    ∀ (k : ℕ) (n : ℕ) (gr : Graph), Graph.entries gr.d = k →
      popComponents pk ko (verts.map g) n gr = (popComponents pk ko verts n gr).map (List.map (Section.image g)) := by
  intro k
  induction k using Nat.strong_induction_on with
  | _ k ih =>
    intro n gr hk
    rw [popComponents, popComponents]
    split
    · rfl
    · cases Graph.popEulerPath (pk n) (ko n) gr with
      | error e => rfl
      | ok r =>
        obtain ⟨path, gr'⟩ := r
        cases path with
        | none => rfl
        | some path =>
          simp only
          rw [component_map hi]
          cases component verts path with
          | error e => rfl
          | ok c =>
            simp only [Except.map]
            split
            · rename_i hlt
              rw [ih _ (hk ▸ hlt) (n + 1) gr' rfl]
              cases popComponents pk ko verts (n + 1) gr' <;> rfl
            · rfl

end

theorem sliceComponents_map (hg : Placement g) (hc : Carries g pl pl') (ver : PyVer) (pk : ℕ → Picker)
    (ko : ℕ → KeyOrder) (m : Mesh ℝ) (fs : List (ℕ × ℕ × ℕ)) :
    sliceComponents ver pk ko pl' (Mesh.image g m) fs =
      (sliceComponents ver pk ko pl m fs).map (List.map (Section.image g)) := by
  unfold sliceComponents
  rw [intersectionMap_map hg.affine hc]
  apply bind_map
  intro em _
  have : fs.foldlM (addFace ver (EMap g em)) (Graph.new (EMap g em).values.length) =
      fs.foldlM (addFace ver em) (Graph.new em.values.length) := by
    simp only [EMap, List.length_map]
    rfl
  rw [this]
  apply bind_same
  intro gr _
  refine popComponents_map (fun a b => ?_) pk ko _ _ 0 gr rfl
  rw [Bool.eq_iff_iff, V3.allEq_iff, V3.allEq_iff]
  exact hg.injective.eq_iff

/-! ### neighborhoods -/

theorem norm_sub (p q : V3 ℝ) : V3.norm (p - q) = dist3 p q := by
  rw [V3.norm_real, V3.sub_real]
  unfold dist3 len3 vec3
  congr 1
  ring

theorem nearest_map {c : ℝ} (hg : Similarity g c) (nbh : V3 ℝ × List (V3 ℝ)) (p : V3 ℝ) :
    nearest (g nbh.1, nbh.2.map g) (g p) = c * nearest nbh p := by
  have h1 := nearest_real (g nbh.1, nbh.2.map g) (g p)
  have h2 := nearest_real nbh p
  refine h1.unique ⟨?_, ?_⟩
  · obtain ⟨q, hq, e⟩ := h2.1
    refine ⟨g q, ?_, ?_⟩
    · rcases List.mem_cons.mp hq with rfl | hq
      · simp
      · simp only [List.mem_cons, List.mem_map]; exact Or.inr ⟨q, hq, rfl⟩
    · rw [e, hg.dist]
  · rintro x ⟨q', hq', rfl⟩
    obtain ⟨q, hq, rfl⟩ : ∃ q ∈ nbh.1 :: nbh.2, g q = q' := by
      exact List.mem_map.mp (by simpa only [List.map_cons] using hq')
    rw [hg.dist]
    exact mul_le_mul_of_nonneg_left (h2.2 ⟨q, hq, rfl⟩) hg.pos.le

theorem foldl_add_map (c : ℝ) (l : List ℝ) (x : ℝ) :
    (l.map fun y => c * y).foldl (· + ·) (c * x) = c * l.foldl (· + ·) x := by
  induction l generalizing x with
  | nil => rfl
  | cons y l ih => simp only [List.map_cons, List.foldl_cons]; rw [← mul_add, ih]

theorem meanDistance_map {c : ℝ} (hg : Similarity g c) (nbh : V3 ℝ × List (V3 ℝ)) (vs : List (V3 ℝ)) :
    meanDistance (g nbh.1, nbh.2.map g) (vs.map g) = c * meanDistance nbh vs := by
  unfold meanDistance
  rw [List.map_map, List.length_map]
  have : (vs.map (nearest (g nbh.1, nbh.2.map g) ∘ g)) = (vs.map (nearest nbh)).map fun y => c * y := by
    rw [List.map_map]
    apply List.map_congr_left
    intro p _
    exact nearest_map hg nbh p
  rw [this, mul_div_assoc', ← foldl_add_map]
  simp [Num.lit_real]

theorem argminFrom_scale {c : ℝ} (hc : 0 < c) (l : List ℝ) (i best : ℕ) (b : ℝ) :
    argminFrom i best (c * b) (l.map fun y => c * y) = argminFrom i best b l := by
  induction l generalizing i best b with
  | nil => rfl
  | cons x l ih =>
    simp only [List.map_cons, argminFrom]
    have : Num.lt (c * x) (c * b) = Num.lt x b := by
      rw [Bool.eq_iff_iff, Num.lt_real, Num.lt_real]
      exact mul_lt_mul_iff_right₀ hc
    have nn : ∀ y : ℝ, npIsNan y = false := fun y => by simp [npIsNan]
    simp only [this, nn, Bool.false_or, Bool.false_eq_true, if_false, ih]

theorem argmin_scale {c : ℝ} (hc : 0 < c) (l : List ℝ) : argmin (l.map fun y => c * y) = argmin l := by
  cases l with
  | nil => rfl
  | cons x l => simp only [List.map_cons, argmin, argminFrom_scale hc]

theorem Similarity.placement {c : ℝ} (hg : Similarity g c) : Placement g := by
  refine ⟨hg.affine, ?_⟩
  intro a b h
  have h1 := hg.dist a b
  rw [h] at h1
  have h2 : dist3 (g b) (g b) = 0 := by simp [dist3, len3, vec3]
  rw [h2] at h1
  have h3 : dist3 a b = 0 := by
    rcases mul_eq_zero.mp h1.symm with h | h
    · exact absurd h hg.pos.ne'
    · exact h
  unfold dist3 len3 vec3 at h3
  rw [Real.sqrt_eq_zero (by positivity)] at h3
  simp only at h3
  have hx : b.x - a.x = 0 := by nlinarith [sq_nonneg (b.x - a.x), sq_nonneg (b.y - a.y), sq_nonneg (b.z - a.z)]
  have hy : b.y - a.y = 0 := by nlinarith [sq_nonneg (b.x - a.x), sq_nonneg (b.y - a.y), sq_nonneg (b.z - a.z)]
  have hz : b.z - a.z = 0 := by nlinarith [sq_nonneg (b.x - a.x), sq_nonneg (b.y - a.y), sq_nonneg (b.z - a.z)]
  exact V3.ext (by linarith) (by linarith) (by linarith)

/-! ### polylines -/

theorem new_map (vs : List (V3 ℝ)) (c : Bool) :
    Polyline.new (rowsOf (vs.map g)) c = (Polyline.new (rowsOf vs) c).map (Polyline.image g) := by
  unfold Polyline.new Polyline.setV
  rw [asPoints_real, asPoints_real]
  simp only [Polyline.updateEdges, List.length_map]
  cases mkEdges vs.length c <;> rfl

section
variable {α : Type} {g : V3 α → V3 α}

theorem vArr_map (p : Polyline α) : (Polyline.image g p).vArr = p.vArr.map (List.map g) := by
  obtain ⟨v, c, e⟩ := p
  cases v <;> rfl

/-- both ends moved -/
def both (g : V3 α → V3 α) (s : V3 α × V3 α) : V3 α × V3 α := (g s.1, g s.2)

theorem segmentOf_map (v : List (V3 α)) (e : ℕ × ℕ) :
    Polyline.segmentOf (v.map g) e = (Polyline.segmentOf v e).map (both g) := by
  unfold Polyline.segmentOf
  rw [pyIndex_map]
  apply bind_map
  intro a _
  rw [pyIndex_map]
  apply bind_map
  intro b _
  rfl

theorem segments_map (p : Polyline α) : (Polyline.image g p).segments = p.segments.map (List.map (both g)) := by
  unfold Polyline.segments
  rw [vArr_map]
  apply bind_map
  intro v _
  have : (Polyline.image g p).e = p.e := rfl
  rw [this]
  cases p.e with
  | none => rfl
  | some e => exact mapM_map _ _ _ _ fun x _ => segmentOf_map v x

end

theorem edgeMeets_map (hc : Carries g pl pl') (s : V3 ℝ × V3 ℝ) :
    Polyline.edgeMeets pl' (both g s) = Polyline.edgeMeets pl s := by
  unfold Polyline.edgeMeets both
  simp only [sign1 hc]

theorem along_combo (a b : V3 ℝ) (t : ℝ) :
    V3.smul (1 - t) a + V3.smul t b = along a t (vec3 a b) := by
  simp only [along, vec3]
  apply V3.ext <;> simp [V3.smul] <;> ring

theorem edgePoint_map (hg : ∀ a b t, g (along a t (vec3 a b)) = along (g a) t (vec3 (g a) (g b))) (hc : Carries g pl pl')
    (s : V3 ℝ × V3 ℝ) (h : ¬ (height pl s.1 = 0 ∧ height pl s.2 = 0)) :
    Polyline.edgePoint pl' (both g s) = g (Polyline.edgePoint pl s) := by
  obtain ⟨k, hk, e⟩ := hc
  have hpos : 0 < |height pl s.1| + |height pl s.2| := by
    by_contra hn
    have h1 := abs_nonneg (height pl s.1)
    have h2 := abs_nonneg (height pl s.2)
    exact h ⟨abs_eq_zero.mp (by linarith), abs_eq_zero.mp (by linarith)⟩
  unfold Polyline.edgePoint both
  simp only [signedDistance1_real, npAbs_real', Num.lit_real, e, abs_mul, abs_of_pos hk]
  have key : ∀ x y : ℝ, 0 < x + y → k * x / (k * x + k * y) = x / (x + y) ∧ k * y / (k * x + k * y) = y / (x + y) ∧
      1 - y / (x + y) = x / (x + y) := by
    intro x y hp
    have hp' := hp.ne'
    refine ⟨?_, ?_, ?_⟩
    · rw [← mul_add, mul_div_mul_left _ _ hk.ne']
    · rw [← mul_add, mul_div_mul_left _ _ hk.ne']
    · field_simp; ring
  obtain ⟨k1, k2, k3⟩ := key _ _ hpos
  rw [k1, k2]
  push_cast
  rw [k3, along_combo, along_combo, hg]

theorem dot_normalize_pos (v n : V3 ℝ) :
    Num.lt (Num.lit 0 : ℝ) (V3.dot v (Vx.normalize3 n)) = true ↔ 0 < inner3 v n := by
  rw [Num.lt_real, Num.lit_real]
  push_cast
  have hd : V3.dot v (Vx.normalize3 n) = inner3 v n / len3 n := by
    unfold Vx.normalize3 V3.sdiv
    simp only [V3.dot, inner3, V3.norm_real]
    ring
  rw [hd]
  by_cases hn : len3 n = 0
  · have h0 : inner3 v n = 0 := by
      unfold len3 at hn
      rw [Real.sqrt_eq_zero (by positivity)] at hn
      have hx : n.x = 0 := by nlinarith [sq_nonneg n.x, sq_nonneg n.y, sq_nonneg n.z]
      have hy : n.y = 0 := by nlinarith [sq_nonneg n.x, sq_nonneg n.y, sq_nonneg n.z]
      have hz : n.z = 0 := by nlinarith [sq_nonneg n.x, sq_nonneg n.y, sq_nonneg n.z]
      simp [inner3, hx, hy, hz]
    simp [h0]
  · have : 0 < len3 n := lt_of_le_of_ne (Real.sqrt_nonneg _) (Ne.symm hn)
    exact div_pos_iff_of_pos_right this

theorem intersectPlane_map (hg : ∀ a b t, g (along a t (vec3 a b)) = along (g a) t (vec3 (g a) (g b)))
    (hc : Carries g pl pl') (p : Polyline ℝ)
    (h : ∀ segs, p.segments = .ok segs → ∀ s ∈ segs, ¬ (height pl s.1 = 0 ∧ height pl s.2 = 0)) :
    (Polyline.image g p).intersectPlane pl' = (p.intersectPlane pl).map fun x => (x.1.map g, x.2) := by
  unfold Polyline.intersectPlane
  rw [segments_map]
  apply bind_map
  intro segs hs
  have h1 : (segs.map (both g)).map (Polyline.edgeMeets pl') = segs.map (Polyline.edgeMeets pl) := by
    rw [List.map_map]
    apply List.map_congr_left
    intro s _
    exact edgeMeets_map hc s
  have h2 : ((segs.map (both g)).filter (Polyline.edgeMeets pl')).map (Polyline.edgePoint pl') =
      ((segs.filter (Polyline.edgeMeets pl)).map (Polyline.edgePoint pl)).map g := by
    rw [List.filter_map, List.map_map, List.map_map]
    have e : Polyline.edgeMeets pl' ∘ both g = Polyline.edgeMeets pl := funext fun s => edgeMeets_map hc s
    rw [e]
    apply List.map_congr_left
    intro s hm
    exact edgePoint_map hg hc s (h segs hs s (List.mem_of_mem_filter hm))
  simp only [h1, h2]
  rfl

theorem intersectPlane_indices (hc : Carries g pl pl') (p : Polyline ℝ) :
    ((Polyline.image g p).intersectPlane pl').map Prod.snd = (p.intersectPlane pl).map Prod.snd := by
  unfold Polyline.intersectPlane
  rw [segments_map]
  cases hs : p.segments with
  | error e => rfl
  | ok segs =>
    have h1 : (segs.map (both g)).map (Polyline.edgeMeets pl') = segs.map (Polyline.edgeMeets pl) := by
      rw [List.map_map]
      apply List.map_congr_left
      intro s _
      exact edgeMeets_map hc s
    simp only [Except.map, ok_bind, h1, pure_eq_ok]

theorem segmentVectors_map {α : Type} [Num α] {g : V3 α → V3 α} (p : Polyline α) :
    (Polyline.image g p).segmentVectors = p.segments.map (List.map fun s => g s.2 - g s.1) := by
  unfold Polyline.segmentVectors
  rw [segments_map]
  cases p.segments with
  | error e => rfl
  | ok segs => simp [Except.map, both, Function.comp_def]

theorem cutOpen_map (hc : Carries g pl pl') (p : Polyline ℝ) (x : V3 ℝ) (i : ℕ) :
    (Polyline.image g p).cutOpen pl' (g x) i = (p.cutOpen pl x i).map (Polyline.image g) := by
  unfold Polyline.cutOpen
  rw [vArr_map]
  apply bind_map
  intro v _
  have he : (Polyline.image g p).e = p.e := rfl
  simp only [he]
  apply bind_same
  intro edge _
  rw [segmentVectors_map]
  unfold Polyline.segmentVectors
  cases p.segments with
  | error e => rfl
  | ok segs =>
    simp only [Except.map, ok_bind, pure_eq_ok]
    rw [pyIndex_map, pyIndex_map]
    cases pyIndex segs (i : ℤ) with
    | error e => rfl
    | ok s =>
      simp only [Except.map, ok_bind]
      have : Num.lt (Num.lit 0 : ℝ) (V3.dot (g s.2 - g s.1) (Vx.normalize3 pl'.normal)) =
          Num.lt (Num.lit 0 : ℝ) (V3.dot (s.2 - s.1) (Vx.normalize3 pl.normal)) := by
        rw [Bool.eq_iff_iff, dot_normalize_pos, dot_normalize_pos]
        have e1 : inner3 (g s.2 - g s.1) pl'.normal = height pl' (g s.2) - height pl' (g s.1) := by
          rw [← height_sub, V3.sub_real]; rfl
        have e2 : inner3 (s.2 - s.1) pl.normal = height pl s.2 - height pl s.1 := by
          rw [← height_sub, V3.sub_real]; rfl
        rw [e1, e2]
        obtain ⟨k, hk, e⟩ := hc
        rw [e, e, ← mul_sub]
        exact mul_pos_iff_of_pos_left hk
      rw [this]
      split
      · rw [List.length_map, pySlice_map, ← List.map_cons, new_map]
        rfl
      · rw [pySlice_map, ← List.map_singleton (f := g), ← List.map_append, new_map]
        rfl

theorem synthesized_map (hg : ∀ a b t, g (along a t (vec3 a b)) = along (g a) t (vec3 (g a) (g b)))
    (hc : Carries g pl pl') (s : ℝ) (segs : List (V3 ℝ × V3 ℝ)) (i : ℤ) :
    Polyline.synthesized pl' s (segs.map (both g)) i = (Polyline.synthesized pl s segs i).map (Option.map g) := by
  unfold Polyline.synthesized
  split
  · rfl
  · rw [pyIndex_map]
    apply bind_map
    intro s _
    simp only [both, xsection hg hc]
    rfl

theorem cutWorking_map (hg : ∀ a b t, g (along a t (vec3 a b)) = along (g a) t (vec3 (g a) (g b)))
    (hc : Carries g pl pl') (w : Polyline ℝ) :
    Polyline.cutWorking (Polyline.image g w) pl' = (Polyline.cutWorking w pl).map (Polyline.image g) := by
  unfold Polyline.cutWorking
  rw [vArr_map]
  apply bind_map
  intro wv _
  rw [segments_map]
  apply bind_map
  intro segs _
  rw [signs hc]
  apply bind_same
  intro s0 _
  rw [synthesized_map hg hc]
  apply bind_map
  intro st _
  apply bind_same
  intro ei _
  apply bind_same
  intro s1 _
  rw [synthesized_map hg hc]
  apply bind_map
  intro en _
  have ht : ∀ o : Option (V3 ℝ), Polyline.toArray (o.map g) = (Polyline.toArray o).map g := by
    intro o; cases o <;> rfl
  simp only
  rw [ht, ht, pySlice_map, ← List.map_append, ← List.map_append, new_map]

theorem reindexed_map (p : Polyline ℝ) (i : ℤ) :
    (Polyline.image g p).reindexed i = (p.reindexed i).map fun x => (Polyline.image g x.1, x.2) := by
  unfold Polyline.reindexed
  have : (Polyline.image g p).closed = p.closed := rfl
  rw [this]
  split
  · rfl
  · rw [vArr_map]
    apply bind_map
    intro v _
    rw [List.length_map, pySlice_map, pySlice_map, ← List.map_append, new_map]
    apply bind_map
    intro r _
    rfl

theorem cutClosed_map (hg : ∀ a b t, g (along a t (vec3 a b)) = along (g a) t (vec3 (g a) (g b)))
    (hc : Carries g pl pl') (p : Polyline ℝ) :
    (Polyline.image g p).cutClosed pl' = (p.cutClosed pl).map (Polyline.image g) := by
  unfold Polyline.cutClosed
  rw [vArr_map]
  apply bind_map
  intro v _
  rw [signs hc]
  apply bind_same
  intro i _
  rw [reindexed_map]
  apply bind_map
  intro x _
  exact cutWorking_map hg hc x.1

theorem cutByPlane_map (hg : ∀ a b t, g (along a t (vec3 a b)) = along (g a) t (vec3 (g a) (g b)))
    (hc : Carries g pl pl') (p : Polyline ℝ)
    (h : p.closed = false → ∀ segs, p.segments = .ok segs → ∀ s ∈ segs, ¬ (height pl s.1 = 0 ∧ height pl s.2 = 0)) :
    (Polyline.image g p).cutByPlane pl' = (p.cutByPlane pl).map (Polyline.image g) := by
  unfold Polyline.cutByPlane
  have hcl : (Polyline.image g p).closed = p.closed := rfl
  rw [hcl]
  cases hp : p.closed with
  | true =>
    have hi := intersectPlane_indices hc p
    cases e1 : p.intersectPlane pl with
    | error err =>
      rw [e1] at hi
      cases e2 : (Polyline.image g p).intersectPlane pl' with
      | error err' => rw [e2] at hi; simp only [Except.map, Except.error.injEq] at hi; subst hi; rfl
      | ok x => rw [e2] at hi; simp [Except.map] at hi
    | ok x =>
      rw [e1] at hi
      cases e2 : (Polyline.image g p).intersectPlane pl' with
      | error err' => rw [e2] at hi; simp [Except.map] at hi
      | ok x' =>
        rw [e2] at hi
        simp only [Except.map, Except.ok.injEq] at hi
        simp only [ok_bind, if_true, hi]
        split
        · rfl
        · split
          · rfl
          · exact cutClosed_map hg hc p
  | false =>
    rw [intersectPlane_map hg hc p (h hp)]
    apply bind_map
    intro x _
    obtain ⟨pts, is⟩ := x
    simp only [Bool.false_eq_true, if_false]
    split
    · rfl
    · split
      · rfl
      · rw [pyIndex_map]
        apply bind_map
        intro pt _
        apply bind_same
        intro i _
        exact cutOpen_map hc p pt i

/-! ### lengths -/

theorem segmentLengths_map {c : ℝ} (hd : ∀ a b, dist3 (g a) (g b) = c * dist3 a b) (p : Polyline ℝ) :
    (Polyline.image g p).segmentLengths = p.segmentLengths.map (List.map fun l => c * l) := by
  unfold Polyline.segmentLengths
  have he : (Polyline.image g p).e = p.e := rfl
  rw [he]
  cases p.e with
  | none => rfl
  | some e =>
    simp only
    rw [segments_map]
    apply bind_map
    intro segs _
    simp only [List.map_map, pure_eq_ok, Except.map]
    congr 1
    apply List.map_congr_left
    intro s _
    simp only [Function.comp, both, norm_sub, hd]

theorem partitionLoop_map (hg : ∀ a b t, g (along a t (vec3 a b)) = along (g a) t (vec3 (g a) (g b)))
    (v : List (V3 ℝ)) (l : List ((ℕ × ℕ) × ℝ)) (is : List ℕ) (nv : List (V3 ℝ)) :
    Polyline.partitionLoop (v.map g) l (is, nv.map g) =
      (Polyline.partitionLoop v l (is, nv)).map fun x => (x.1, x.2.map g) := by
  induction l generalizing is nv with
  | nil => rfl
  | cons a l ih =>
    obtain ⟨edge, k⟩ := a
    unfold Polyline.partitionLoop
    rw [segmentOf_map]
    apply bind_map
    intro s _
    simp only [both, List.length_map]
    split
    · rw [← List.map_singleton (f := g), ← List.map_append, ih]
    · apply bind_same
      intro n _
      have : partitionSegment (α := ℝ) (g s.1) (g s.2) (some n) false =
          (partitionSegment (α := ℝ) s.1 s.2 (some n) false).map (List.map g) := by
        unfold partitionSegment
        simp only
        split
        · rfl
        · simp only [Except.map, List.map_map]
          congr 1
          apply List.map_congr_left
          intro t _
          have key : ∀ a b : V3 ℝ, PointOps.add ℝ (PointOps.smul t (PointOps.sub ℝ b a)) a = along a t (vec3 a b) := by
            intro a b
            apply V3.ext <;> simp [PointOps.add, PointOps.smul, PointOps.sub, along, vec3, V3.smul] <;> ring
          exact (key _ _).trans ((hg _ _ _).symm.trans (congrArg g (key _ _).symm))
      rw [this]
      apply bind_map
      intro pts _
      rw [← List.map_append, ih]

theorem partitionVerts_map {c : ℝ} (hg : Similarity g c) (p : Polyline ℝ) (l : ℝ) :
    (Polyline.image g p).partitionVerts (c * l) = (p.partitionVerts l).map fun x => (x.1, x.2.map g) := by
  unfold Polyline.partitionVerts
  rw [segmentLengths_map hg.dist]
  apply bind_map
  intro ls _
  have h1 : (ls.map fun l => c * l).map (fun x => Polyline.npCeil (x / (c * l))) =
      ls.map fun x => Polyline.npCeil (x / l) := by
    rw [List.map_map]
    apply List.map_congr_left
    intro x _
    simp only [Function.comp]
    rw [mul_div_mul_left _ _ hg.pos.ne']
  have he : (Polyline.image g p).e = p.e := rfl
  have hcl : (Polyline.image g p).closed = p.closed := rfl
  have hv : (Polyline.image g p).v.getD [] = (p.v.getD []).map g := by
    obtain ⟨v, c, e⟩ := p
    cases v <;> rfl
  simp only [h1, he, hcl, hv]
  rw [show (([] : List (V3 ℝ)) = List.map g []) from rfl, partitionLoop_map hg.affine]
  apply bind_map
  intro x _
  split
  · rw [vArr_map]
    apply bind_map
    intro v _
    rw [pyIndex_map]
    apply bind_map
    intro last _
    simp [Except.map]
  · rfl

theorem setV_map (p : Polyline ℝ) (vs : List (V3 ℝ)) :
    (Polyline.image g p).setV (rowsOf (vs.map g)) = (Polyline.image g (p.setV (rowsOf vs)).1, (p.setV (rowsOf vs)).2) := by
  unfold Polyline.setV
  rw [asPoints_real, asPoints_real]
  simp only [Polyline.updateEdges, List.length_map]
  have hcl : (Polyline.image g p).closed = p.closed := rfl
  rw [hcl]
  cases mkEdges vs.length p.closed <;> rfl

theorem partitionByLength_map {c : ℝ} (hg : Similarity g c) (p : Polyline ℝ) (l : ℝ) :
    (Polyline.image g p).partitionByLength (c * l) =
      (Polyline.image g (p.partitionByLength l).1, (p.partitionByLength l).2) := by
  unfold Polyline.partitionByLength
  rw [partitionVerts_map hg]
  cases p.partitionVerts l with
  | error e => rfl
  | ok x =>
    obtain ⟨is, nv⟩ := x
    simp only [Except.map]
    rw [setV_map]
    obtain ⟨p', r⟩ := p.setV (rowsOf nv)
    cases r <;> rfl

end Blmath.Proofs.MO
