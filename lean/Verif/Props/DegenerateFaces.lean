import Verif.Proofs.LoopSlice
import Verif.Props.MeshSlice
import Verif.Props.NotFinite

/-!
Property C122: slicing meshes whose faces may have a repeated corner.
-/

namespace Blmath.Props
open Blmath.Geometry Blmath.Spec Graph

/-- the edge belongs to a face with a repeated corner -/
def Doubled (m : Mesh ℝ) (e : ℕ × ℕ) : Prop := ∃ f ∈ m.f, ¬ ProperFace f ∧ hasEdge f e.1 e.2 = true

/-- the faces with three different corners -/
noncomputable def properPart (m : Mesh ℝ) : Mesh ℝ := ⟨m.v, m.f.filter fun f => open Classical in decide (ProperFace f)⟩

/-- how often the list has `e` twice in succession -/
def twins (e : ℕ × ℕ) (es : List (ℕ × ℕ)) : ℕ := (es.zip es.tail).count (e, e)

/-- A list of crossed mesh edges traced by one closed polyline, in which the edges of faces with a repeated corner
come twice in succession. -/
structure DoubleTrace (pl : Plane ℝ) (m : Mesh ℝ) (es : List (ℕ × ℕ)) (c : Section ℝ) : Prop where
  closed : c.closed = true
  /-- the polyline's vertices are the points of the edges, in order -/
  points : List.Forall₂ (CrossPoint pl m) es c.v
  /-- going round, consecutive edges belong to one face; or are the same edge, of a face with a repeated corner,
  which happens once for each such edge -/
  round : ∃ y, es.getLast? = some y ∧
    (y :: es).IsChain (fun e e' => Linked pl m e e' ∨ (e = e' ∧ Doubled m e)) ∧
    ∀ e ∈ es, twins e (y :: es) = open Classical in if Doubled m e then 1 else 0
  /-- it is a whole connected component of the section -/
  whole : ∀ e ∈ es, ∀ e', e' ∈ es ↔ Relation.ReflTransGen (Linked pl m) e e'

namespace DF

theorem row_real (pl : Plane ℝ) (m : Mesh ℝ) (hoff : ∀ p ∈ m.v, ¬ OnPlane pl p) (f : ℕ × ℕ × ℕ) (_ : f ∈ m.f) (u v : ℕ)
    (_ : corner f u = true) (_ : corner f v = true) (a b : V3 ℝ) (ha : m.v[u]? = some a) (hb : m.v[v]? = some b) :
    (pl.lineSegmentXsectionsRow a b).2 = true ↔ Opposite pl m.v u v := by
  rw [← meets_iff_opposite pl m.v hoff, (segment_row pl a b).1]
  unfold Spec.Meets
  simp only [ha, hb, Option.some.injEq, exists_and_left, exists_eq_left']

theorem uses_self (a : ℕ) : ∀ l : List ℕ, uses a a l = (l.zip l.tail).count (a, a)
  | [] => rfl
  | [_] => rfl
  | x :: y :: l => by
    have := uses_self a (y :: l)
    simp only [uses, this, isEdge, List.tail_cons, List.zip_cons_cons, List.count_cons, beq_iff_eq, Prod.mk.injEq, or_self]
    omega

theorem count_map {n : ℕ} (E : ℕ → ℕ × ℕ) (hinj : ∀ i j, i < n → j < n → E i = E j → i = j) (i : ℕ) (hi : i < n) :
    ∀ l : List ℕ, (∀ j ∈ l, j < n) → (l.map E).count (E i) = l.count i
  | [], _ => rfl
  | x :: l, h => by
    rw [List.map_cons, List.count_cons, List.count_cons, count_map E hinj i hi l fun j hj => h j (by simp [hj])]
    congr 1
    have hx := h x (by simp)
    by_cases hc : x = i
    · simp [hc]
    · have : ¬ E x = E i := fun he => hc (hinj x i hx hi he)
      simp [hc, this]

theorem twins_map {n : ℕ} (E : ℕ → ℕ × ℕ) (hinj : ∀ i j, i < n → j < n → E i = E j → i = j) (i : ℕ) (hi : i < n) :
    ∀ l : List ℕ, (∀ j ∈ l, j < n) → twins (E i) (l.map E) = uses i i l
  | [], _ => rfl
  | [_], _ => rfl
  | x :: y :: l, h => by
    have ih := twins_map E hinj i hi (y :: l) fun j hj => h j (by simp [hj])
    unfold twins at ih ⊢
    simp only [List.map_cons, List.tail_cons, List.zip_cons_cons, List.count_cons, uses, isEdge, or_self, beq_iff_eq,
      Prod.mk.injEq] at ih ⊢
    rw [ih]
    have hx := h x (by simp)
    have hy := h y (by simp)
    have e1 : E x = E i ↔ x = i := ⟨hinj x i hx hi, fun h => by rw [h]⟩
    have e2 : E y = E i ↔ y = i := ⟨hinj y i hy hi, fun h => by rw [h]⟩
    simp only [e1, e2]
    omega

theorem linked_proper {f : ℕ × ℕ × ℕ} {e e' : ℕ × ℕ} (h1 : e.1 < e.2) (h2 : e'.1 < e'.2) (hne : e ≠ e')
    (f1 : hasEdge f e.1 e.2 = true) (f2 : hasEdge f e'.1 e'.2 = true) : ProperFace f := by
  obtain ⟨a, b, c⟩ := f
  obtain ⟨u, v⟩ := e
  obtain ⟨u', v'⟩ := e'
  have hne' : ¬ (u = u' ∧ v = v') := by rintro ⟨rfl, rfl⟩; exact hne rfl
  simp only [hasEdge, corner, Bool.and_eq_true, decide_eq_true_eq, ne_eq, ProperFace] at *
  omega

theorem addFace_two {P : ℕ → ℕ → V3 ℝ → Prop} {D : ℕ → ℕ → Prop} {im : EdgeMap (V3 ℝ)}
    (him : GoodMap P D im) (f : ℕ × ℕ × ℕ)
    (hD : (D f.1 f.2.1 ∧ D f.1 f.2.2) ∨ (D f.1 f.2.1 ∧ D f.2.1 f.2.2) ∨ (D f.1 f.2.2 ∧ D f.2.1 f.2.2)) :
    ∃ x y, x < im.values.length ∧ y < im.values.length ∧
      (∀ ver g, addFace ver im g f = addEdge ver g (some x) (some y)) := by
  obtain ⟨a, b, c⟩ := f
  simp only at hD
  rw [← him.dom, ← him.dom, ← him.dom] at hD
  cases h0 : im.index a b with
  | none =>
    cases h1 : im.index a c with
    | none => simp [h0, h1] at hD
    | some x =>
      cases h2 : im.index b c with
      | none => simp [h0, h2] at hD
      | some y => exact ⟨x, y, him.lt h1, him.lt h2, by intro ver g; simp [addFace, h0, h1, h2]⟩
  | some x =>
    cases h1 : im.index a c with
    | none =>
      cases h2 : im.index b c with
      | none => simp [h1, h2] at hD
      | some y => exact ⟨x, y, him.lt h0, him.lt h2, by intro ver g; simp [addFace, h0, h1, h2]⟩
    | some y => exact ⟨x, y, him.lt h0, him.lt h1, by intro ver g; simp [addFace, h0, h1]⟩

theorem addFaces_return (ver : PyVer) (im : EdgeMap (V3 ℝ)) (fs : List (ℕ × ℕ × ℕ))
    (h : ∀ f ∈ fs, ∃ x y, x < im.values.length ∧ y < im.values.length ∧
      (∀ ver g, addFace ver im g f = addEdge ver g (some x) (some y))) :
    ∀ g : Graph, g.size = im.values.length → LG.SymGraph g.d →
    (∀ v, adj g.d v ≠ ∅ → v < im.values.length) →
    ∃ g', fs.foldlM (addFace ver im) g = .ok g' ∧ LG.SymGraph g'.d ∧
      ∀ v, adj g'.d v ≠ ∅ → v < im.values.length := by
  induction fs with
  | nil => intro g _ hg hlt; exact ⟨g, rfl, hg, hlt⟩
  | cons f fs ih =>
    intro g hs hg hlt
    obtain ⟨x, y, h2, h3, h4⟩ := h f (by simp)
    obtain ⟨d', e1, e2, e3⟩ := LG.addEdge_spec ver g hg x y (hs ▸ h2) (hs ▸ h3)
    obtain ⟨g', f1, f2, f3⟩ := ih (fun f' hf' => h f' (by simp [hf'])) ⟨g.size, d'⟩ hs e2 (by
      intro v hv
      obtain ⟨u, hu⟩ := Finset.nonempty_iff_ne_empty.mpr hv
      rcases (e3 v u).mp hu with hu | ⟨rfl, _⟩ | ⟨rfl, _⟩
      · exact hlt v (Finset.ne_empty_of_mem hu)
      · exact h2
      · exact h3)
    exact ⟨g', by rw [List.foldlM_cons, h4, e1]; exact f1, f2, f3⟩

end DF
open DF

/-- **C122.** Any mesh without a vertex on the plane, whatever its faces: the call returns, and the points of the
returned polylines are exactly the points where mesh edges cross the plane. -/
theorem C122_any (ver : PyVer) (pk : ℕ → Picker) (ko : ℕ → KeyOrder) (pl : Plane ℝ) (m : Mesh ℝ)
    (hv : ValidFaces m) (hoff : ∀ p ∈ m.v, ¬ OnPlane pl p) :
    ∃ cs, pl.meshXsections ver pk ko m = .ok cs ∧ (∀ c ∈ cs, c.v ≠ []) ∧
      ∀ q, (∃ c ∈ cs, q ∈ c.v) ↔ ∃ e, CrossedEdge pl m e ∧ CrossPoint pl m e q := by
  have hfaces := C28_faces pl m hv
  generalize hfs : (m.f.filter fun f => open Classical in decide (Straddles pl m.v f)) = fs at hfaces
  unfold Plane.meshXsections
  rw [hfaces]
  simp only [ok_bind]
  by_cases hlen : fs.length = 0
  · rw [if_pos hlen]
    have hnil : fs = [] := List.length_eq_zero_iff.mp hlen
    refine ⟨[], rfl, by simp, ?_⟩
    intro q
    simp only [List.not_mem_nil, false_and, exists_false, false_iff, not_exists, not_and]
    intro e he
    exact absurd he (filter_nil_of_components hv hoff (hfs.trans hnil) e)
  rw [if_neg hlen]
  obtain ⟨im, g, E, h1, h2, h3, h4, h5, h6, h7, h8, h9⟩ := LS.slice_graph_any ver pl m pl m rfl hv hoff fs hfs.symm
    (row_real pl m hoff)
  obtain ⟨cs, g1, g2, g3⟩ := LG.popComponents_any pk ko im.values (entries g.d) 0 g
    le_rfl h3 (fun v hv => (h7 v).mp hv)
  refine ⟨cs, ?_, fun c hc => (g2 c hc).1, fun q => ⟨?_, ?_⟩⟩
  · simp only [sliceComponents, h1, ok_bind, h2, g1]
    rfl
  · rintro ⟨c, hc, hq⟩
    obtain ⟨i, hi, hi'⟩ := (g2 c hc).2 q hq
    obtain ⟨k1, q', k2, k3⟩ := h4 i ((h7 i).mp hi)
    rw [hi'] at k2
    injection k2 with k2
    exact ⟨E i, k1, k2 ▸ rowPoint_real k3⟩
  · rintro ⟨e, he, hq⟩
    obtain ⟨i, hi, rfl⟩ := h6 e he
    obtain ⟨k1, q', k2, k3⟩ := h4 i hi
    obtain ⟨c, hc, hq'⟩ := g3 i q' ((h7 i).mpr hi) k2
    exact ⟨c, hc, crossPoint_unique he.2.2 hq (rowPoint_real k3) ▸ hq'⟩

/-- **C122.** If the faces with three different corners form a closed mesh, then whatever further faces with repeated
corners there are, every returned polyline is closed; together they pass through each crossed edge once for being an
edge of proper faces and once more for being an edge of faces with a repeated corner (however many); the two passes
come in succession, so that the polyline has a segment of length zero there. -/
theorem C122_closed (ver : PyVer) (pk : ℕ → Picker) (ko : ℕ → KeyOrder) (pl : Plane ℝ) (m : Mesh ℝ)
    (hv : ValidFaces m) (hoff : ∀ p ∈ m.v, ¬ OnPlane pl p) (hclosed : ClosedMesh (properPart m)) :
    ∃ cs, ∃ ess : List (List (ℕ × ℕ)), pl.meshXsections ver pk ko m = .ok cs ∧
      List.Forall₂ (DoubleTrace pl m) ess cs ∧
      (∀ e ∈ ess.flatten, CrossedEdge pl m e) ∧
      ∀ e, CrossedEdge pl m e → ess.flatten.count e =
        (open Classical in if ∃ f ∈ m.f, ProperFace f ∧ hasEdge f e.1 e.2 = true then 1 else 0) +
        (open Classical in if Doubled m e then 1 else 0) := by
  classical
  have hfaces := C28_faces pl m hv
  generalize hfs : (m.f.filter fun f => open Classical in decide (Straddles pl m.v f)) = fs at hfaces
  unfold Plane.meshXsections
  rw [hfaces]
  simp only [ok_bind]
  by_cases hlen : fs.length = 0
  · rw [if_pos hlen]
    have hnil : fs = [] := List.length_eq_zero_iff.mp hlen
    refine ⟨[], [], rfl, .nil, by simp, ?_⟩
    intro e he
    exact absurd he (filter_nil_of_components hv hoff (hfs.trans hnil) e)
  rw [if_neg hlen]
  obtain ⟨im, g, E, h1, h2, h3, h4, h5, h6, h7, h8, h9⟩ := LS.slice_graph_any ver pl m pl m rfl hv hoff fs hfs.symm
    (row_real pl m hoff)
  have hEl : ∀ i, i < im.values.length → (E i).1 < (E i).2 := fun i hi => (h4 i hi).1.1
  -- the graph in terms of the mesh
  have hadj : ∀ i j, j ∈ adj g.d i ↔ i < im.values.length ∧ j < im.values.length ∧
      (Linked pl m (E i) (E j) ∨ (i = j ∧ Doubled m (E i))) := by
    intro i j
    rw [h8]
    constructor
    · rintro ⟨hi, hj, f, hf, e1, e2, e3⟩
      refine ⟨hi, hj, ?_⟩
      by_cases hp : ProperFace f
      · left
        exact ⟨fun h => e3.mp (h5 i j hi hj h) hp, (h4 i hi).1, (h4 j hj).1, f, hf, e1, e2⟩
      · exact Or.inr ⟨e3.mpr hp, f, hf, hp, e1⟩
    · rintro ⟨hi, hj, ⟨hne, _, _, f, hf, e1, e2⟩ | ⟨rfl, f, hf, hp, e1⟩⟩
      · have hp := linked_proper (hEl i hi) (hEl j hj) hne e1 e2
        exact ⟨hi, hj, f, hf, e1, e2, ⟨fun h => absurd (by rw [h]) hne, fun h => absurd hp h⟩⟩
      · exact ⟨hi, hj, f, hf, e1, e1, by simp [hp]⟩
  have hpm : ∀ f, f ∈ (properPart m).f ↔ f ∈ m.f ∧ ProperFace f := by
    intro f; simp [properPart]
  have hdeg := fun i hi => LS.slice_degrees (properPart m).f im.values.length E (fun i => (adj g.d i).erase i) (by
      intro i j
      rw [Finset.mem_erase, h8]
      constructor
      · rintro ⟨hne, hi, hj, f, hf, e1, e2, e3⟩
        have hp : ProperFace f := by
          by_contra hc; exact hne (e3.mpr hc).symm
        exact ⟨hi, hj, Ne.symm hne, f, (hpm f).mpr ⟨hf, hp⟩, e1, e2⟩
      · rintro ⟨hi, hj, hne, f, hf, e1, e2⟩
        obtain ⟨hf, hp⟩ := (hpm f).mp hf
        exact ⟨Ne.symm hne, hi, hj, f, hf, e1, e2, ⟨fun h => absurd h hne, fun h => absurd hp h⟩⟩) hEl h5
    (fun i f hi hf he => h9 i f hi ((hpm f).mp hf).1 ((hpm f).mp hf).2 he) hclosed.1 hclosed.2 i hi
  have hind : ∀ i, i < im.values.length → ind (adj g.d) i i = if Doubled m (E i) then 1 else 0 := by
    intro i hi
    unfold ind
    have : i ∈ adj g.d i ↔ Doubled m (E i) := by
      rw [hadj]
      constructor
      · rintro ⟨_, _, h | h⟩
        · exact absurd rfl h.1
        · exact h.2
      · intro h; exact ⟨hi, hi, Or.inr ⟨rfl, h⟩⟩
    simp only [this]
  have hdeg2 : ∀ i, LG.deg (adj g.d) i = ((adj g.d i).erase i).card + 2 * ind (adj g.d) i i := by
    intro i
    unfold LG.deg ind
    by_cases h : i ∈ adj g.d i
    · have := Finset.card_erase_add_one h
      simp only [h, if_true]; omega
    · simp [h]
  have hempty : ∀ i, ¬ i < im.values.length → adj g.d i = ∅ := by
    intro i hi
    by_contra hc
    exact hi ((h7 i).mp hc)
  have heven : ∀ i, _root_.Even (LG.deg (adj g.d) i) := by
    intro i
    by_cases hi : i < im.values.length
    · rw [hdeg2, hdeg i hi, Nat.even_iff]
      split <;> omega
    · simp [LG.deg, ind, hempty i hi]
  obtain ⟨cs, labs, g1, g2, g3, g4⟩ := LG.popComponents_loops pk ko im.values (entries g.d) 0 g le_rfl h3
    (fun v hv => (h7 v).mp hv) heven
  have hin : ∀ lab ∈ labs, ∀ i ∈ lab, i < im.values.length := by
    intro lab hl i hi
    by_contra hc
    have hp : 0 < labs.flatten.count i := List.count_pos_iff.mpr (List.mem_flatten.mpr ⟨lab, hl, hi⟩)
    have := g4 i
    have h0 : LG.deg (adj g.d) i = 0 := by simp [LG.deg, ind, hempty i hc]
    omega
  have hreach : ∀ i, i < im.values.length → ∀ e',
      Relation.ReflTransGen (Linked pl m) (E i) e' ↔
        ∃ j, j < im.values.length ∧ E j = e' ∧ Reach (adj g.d) i j := by
    intro i hi e'
    constructor
    · intro h
      induction h with
      | refl => exact ⟨i, hi, rfl, Relation.ReflTransGen.refl⟩
      | tail _ hl ih =>
        obtain ⟨j, hj, rfl, hr⟩ := ih
        obtain ⟨k, hk, rfl⟩ := h6 _ hl.2.2.1
        exact ⟨k, hk, rfl, hr.tail ((hadj j k).mpr ⟨hj, hk, Or.inl hl⟩)⟩
    · rintro ⟨j, _, rfl, hr⟩
      induction hr with
      | refl => exact Relation.ReflTransGen.refl
      | tail _ hl ih =>
        have := (hadj _ _).mp hl
        rcases this.2.2 with h | ⟨h, _⟩
        · exact (ih this.1).tail h
        · rw [← h]; exact ih this.1
  have key : ∀ lab c, lab ∈ labs → c ∈ cs → LG.LoopSection (adj g.d) im.values lab c.v →
      DoubleTrace pl m (lab.map E) c := by
    intro lab c hlab hcs hs
    obtain ⟨y, y1, y2, y3⟩ := hs.round
    have hyl : y ∈ lab := List.mem_of_getLast? y1
    refine ⟨g3 c hcs, ?_, ⟨E y, by simp [y1], ?_, ?_⟩, ?_⟩
    · refine forall₂_comp_map E ?_ hs.points
      intro i q hiq
      have hi : i < im.values.length := by
        by_contra hc
        rw [List.getElem?_eq_none (by omega)] at hiq
        cases hiq
      obtain ⟨_, q', e1, e2⟩ := h4 i hi
      rw [hiq] at e1
      injection e1 with e1
      rw [e1]; exact rowPoint_real e2
    · rw [← List.map_cons]
      refine List.isChain_map_of_isChain E ?_ y2
      intro a b hab
      rcases ((hadj _ _).mp hab).2.2 with h | ⟨h, h'⟩
      · exact Or.inl h
      · exact Or.inr ⟨by rw [h], h'⟩
    · intro e he
      obtain ⟨i, hi, rfl⟩ := List.mem_map.mp he
      have hi' := hin lab hlab i hi
      rw [← List.map_cons, twins_map E h5 i hi' (y :: lab) (by
        intro j hj
        rcases List.mem_cons.mp hj with rfl | hj
        · exact hin lab hlab _ hyl
        · exact hin lab hlab _ hj), y3 i hi i, hind i hi']
    · intro e he e'
      obtain ⟨i, hi, rfl⟩ := List.mem_map.mp he
      rw [hreach i (hin lab hlab i hi)]
      constructor
      · intro h
        obtain ⟨j, hj, rfl⟩ := List.mem_map.mp h
        exact ⟨j, hin lab hlab j hj, rfl, (hs.whole i hi j).mp hj⟩
      · rintro ⟨j, _, rfl, hr⟩
        exact List.mem_map_of_mem ((hs.whole i hi j).mpr hr)
  refine ⟨cs, labs.map (List.map E), ?_, ?_, ?_, ?_⟩
  · simp only [sliceComponents, h1, ok_bind, h2, g1]
    rfl
  · have : ∀ (ls : List (List ℕ)) (cs' : List (Section ℝ)),
        List.Forall₂ (fun lab c => LG.LoopSection (adj g.d) im.values lab c.v) ls cs' →
        (∀ l ∈ ls, l ∈ labs) → (∀ c ∈ cs', c ∈ cs) → List.Forall₂ (DoubleTrace pl m) (ls.map (List.map E)) cs' := by
      intro ls cs' h
      induction h with
      | nil => intro _ _; exact .nil
      | cons h _ ih =>
        intro hsub hsub'
        exact .cons (key _ _ (hsub _ (by simp)) (hsub' _ (by simp)) h)
          (ih (fun l hl => hsub l (by simp [hl])) fun c hc => hsub' c (by simp [hc]))
    exact this labs cs g2 (fun _ h => h) fun _ h => h
  · intro e he
    rw [← List.map_flatten, List.mem_map] at he
    obtain ⟨i, hi, rfl⟩ := he
    obtain ⟨lab, hl, hi⟩ := List.mem_flatten.mp hi
    exact (h4 i (hin lab hl i hi)).1
  · intro e he
    obtain ⟨i, hi, rfl⟩ := h6 e he
    rw [← List.map_flatten, count_map E h5 i hi _ (by
      intro j hj
      obtain ⟨lab, hl, hj⟩ := List.mem_flatten.mp hj
      exact hin lab hl j hj)]
    have e1 := g4 i
    rw [hdeg2, hdeg i hi, hind i hi] at e1
    have e2 : (∃ f ∈ (properPart m).f, hasEdge f (E i).1 (E i).2 = true) ↔
        ∃ f ∈ m.f, ProperFace f ∧ hasEdge f (E i).1 (E i).2 = true := by
      constructor
      · rintro ⟨f, hf, h⟩; exact ⟨f, ((hpm f).mp hf).1, ((hpm f).mp hf).2, h⟩
      · rintro ⟨f, hf, hp, h⟩; exact ⟨f, (hpm f).mpr ⟨hf, hp⟩, h⟩
    simp only [e2] at e1
    generalize labs.flatten.count i = n at e1 ⊢
    clear * - e1
    split_ifs at e1 ⊢ <;> omega

/-- **C122.** With vertices allowed on the plane, and faces with repeated corners: the call fails exactly when all corners of
some face are on the plane; otherwise every returned vertex is on the plane and on a mesh edge. -/
theorem C122_fails_iff (ver : PyVer) (pk : ℕ → Picker) (ko : ℕ → KeyOrder) (pl : Plane ℝ) (m : Mesh ℝ)
    (hv : ValidFaces m) :
    ((∃ f ∈ m.f, Spec.InPlane pl m.v f) → Raises (pl.meshXsections ver pk ko m)) ∧
    ((∀ f ∈ m.f, ¬ Spec.InPlane pl m.v f) → ∃ cs, pl.meshXsections ver pk ko m = .ok cs ∧
      ∀ c ∈ cs, c.v ≠ [] ∧ ∀ q ∈ c.v, ∃ u v, (∃ f ∈ m.f, hasEdge f u v = true) ∧
        CrossPoint pl m (u, v) q) := by
  have hfaces := C28_faces pl m hv
  generalize hfs : (m.f.filter fun f => open Classical in decide (Straddles pl m.v f)) = fs at hfaces
  have hfm : ∀ f, f ∈ fs ↔ f ∈ m.f ∧ Straddles pl m.v f := by
    intro f; rw [← hfs]; simp
  obtain ⟨im, him, hgood⟩ := intersectionMap_spec pl m fs (fun f hf => hv f ((hfm f).mp hf).1)
  unfold Plane.meshXsections
  rw [hfaces]
  simp only [ok_bind]
  constructor
  · rintro ⟨f, hf, hin⟩
    obtain ⟨h1, h2, h3⟩ := hv f hf
    have zero : ∀ u, corner f u = true → ∀ p, m.v[u]? = some p → height pl p = 0 :=
      fun u hu p hp => (onPlane_iff pl p).mp (hin u hu p hp)
    have c1 : corner f f.1 = true := by simp [corner]
    have c2 : corner f f.2.1 = true := by simp [corner]
    have c3 : corner f f.2.2 = true := by simp [corner]
    have hstr : Straddles pl m.v f := by
      refine ⟨_, _, _, List.getElem?_eq_getElem h1, List.getElem?_eq_getElem h2,
        List.getElem?_eq_getElem h3, ?_, ?_⟩
      · rintro ⟨h, _⟩; rw [zero _ c1 _ (List.getElem?_eq_getElem h1)] at h; exact lt_irrefl _ h
      · rintro ⟨h, _⟩; rw [zero _ c1 _ (List.getElem?_eq_getElem h1)] at h; exact lt_irrefl _ h
    have hmem : f ∈ fs := (hfm f).mpr ⟨hf, hstr⟩
    have hlen : fs.length ≠ 0 := by
      intro h; rw [List.length_eq_zero_iff.mp h] at hmem; cases hmem
    rw [if_neg hlen]
    have none_of : ∀ u v, corner f u = true → corner f v = true → im.index u v = none := by
      intro u v hu hv'
      by_contra hc
      obtain ⟨_, a, b, ha, hb, hne, _⟩ := (hgood.dom u v).mp hc
      exact hne (by rw [zero u hu a ha, zero v hv' b hb])
    have hstep : ∀ g, Raises (addFace ver im g f) := by
      intro g
      unfold addFace
      rw [none_of _ _ c1 c2, none_of _ _ c1 c3, none_of _ _ c2 c3]
      cases ver <;> exact ⟨_, rfl⟩
    have hfold : ∀ (l : List (ℕ × ℕ × ℕ)), f ∈ l → ∀ g, Raises (l.foldlM (addFace ver im) g) := by
      intro l
      induction l with
      | nil => intro h; cases h
      | cons y l ih =>
        intro h g
        rw [List.foldlM_cons]
        cases hy : addFace ver im g y with
        | error e' => exact ⟨e', rfl⟩
        | ok g' =>
          rcases List.mem_cons.mp h with rfl | h
          · obtain ⟨e, he⟩ := hstep g
            rw [he] at hy; cases hy
          · exact ih h g'
    obtain ⟨e, he⟩ := hfold fs hmem (Graph.new im.values.length)
    refine ⟨e, ?_⟩
    simp only [sliceComponents, him, ok_bind, he, error_bind]
  · intro hno
    by_cases hlen : fs.length = 0
    · rw [if_pos hlen]
      exact ⟨[], rfl, by simp⟩
    rw [if_neg hlen]
    obtain ⟨g, k1, k2, k3⟩ := DF.addFaces_return ver im fs (by
      intro f hf
      obtain ⟨hf1, hf2⟩ := (hfm f).mp hf
      refine DF.addFace_two hgood f ?_
      obtain ⟨e01, e02, e12⟩ := LS.faceEdges_corners fs f hf
      rcases meets_cases pl m f (hv f hf1) hf2 (hno f hf1) with ⟨a, b⟩ | ⟨a, b⟩ | ⟨a, b⟩
      · exact Or.inl ⟨⟨e01, a⟩, ⟨e02, b⟩⟩
      · exact Or.inr (Or.inl ⟨⟨e01, a⟩, ⟨e12, b⟩⟩)
      · exact Or.inr (Or.inr ⟨⟨e02, a⟩, ⟨e12, b⟩⟩)) (Graph.new im.values.length) rfl LG.symGraph_nil
        (by simp [Graph.new, adj])
    obtain ⟨cs, g1, g2, g3⟩ := LG.popComponents_any pk ko im.values (entries g.d) 0 g le_rfl k2 k3
    refine ⟨cs, ?_, ?_⟩
    · simp only [sliceComponents, him, ok_bind, k1, g1]
      rfl
    · intro c hc
      refine ⟨(g2 c hc).1, ?_⟩
      intro q hq
      obtain ⟨i, hi, hi'⟩ := (g2 c hc).2 q hq
      obtain ⟨u, v, huv⟩ := hgood.surj i (k3 i hi)
      obtain ⟨q', e1, e2⟩ := hgood.value u v i huv
      rw [hi'] at e1
      injection e1 with e1
      have := (hgood.dom u v).mp (by rw [huv]; simp)
      obtain ⟨f, hf, he⟩ := (LS.mem_faceEdges fs (LS.meets_ne this.2)).mp this.1
      exact ⟨u, v, ⟨f, ((hfm f).mp hf).1, he⟩, e1 ▸ e2⟩

/-- **C122.** The constructor checks on the returned polylines change nothing, with faces of any kind: the call returns one
polyline per section, and `mesh_xsection` all their vertices, exactly when no face has all its corners on the plane. -/
theorem C122_polylines (ver : PyVer) (pk : ℕ → Picker) (ko : ℕ → KeyOrder) (pl : Plane ℝ) (m : Mesh ℝ)
    (hv : ValidFaces m) :
    ((∃ f ∈ m.f, Spec.InPlane pl m.v f) →
      Raises (pl.meshPolylines ver pk ko m) ∧ Raises (pl.meshPolyline ver pk ko m)) ∧
    ((∀ f ∈ m.f, ¬ Spec.InPlane pl m.v f) → ∃ cs ps p, pl.meshXsections ver pk ko m = .ok cs ∧
      pl.meshPolylines ver pk ko m = .ok ps ∧ pl.meshPolyline ver pk ko m = .ok p ∧
      List.Forall₂ (fun c q => q.v = some c.v ∧ q.closed = c.closed) cs ps ∧
      (cs = [] → p.v = none) ∧ (cs ≠ [] → p.v = some (cs.map Section.v).flatten ∧ p.closed = true)) := by
  obtain ⟨h1, h2⟩ := C122_fails_iff ver pk ko pl m hv
  constructor
  · intro hf
    obtain ⟨e, he⟩ := h1 hf
    unfold Plane.meshPolyline Plane.meshPolylines
    rw [he]
    exact ⟨⟨e, rfl⟩, ⟨e, rfl⟩⟩
  · intro hf
    obtain ⟨cs, hcs, hne⟩ := h2 hf
    exact NF.polylines_of_sections ver pk ko pl m cs hcs fun c hc => (hne c hc).1

/-- **C122.** A mesh that is one face with a repeated corner across the plane: the section is one closed polyline with
a single vertex, the point where the face's only edge crosses the plane. -/
theorem C122_single (ver : PyVer) (pk : ℕ → Picker) (ko : ℕ → KeyOrder) (pl : Plane ℝ) (m : Mesh ℝ) (f : ℕ × ℕ × ℕ)
    (hm : m.f = [f]) (hf : ¬ ProperFace f) (hv : ValidFaces m) (hoff : ∀ p ∈ m.v, ¬ OnPlane pl p)
    (e : ℕ × ℕ) (he : CrossedEdge pl m e) :
    ∃ q, pl.meshXsections ver pk ko m = .ok [⟨[q], true⟩] ∧ CrossPoint pl m e q := by
  classical
  have hpp : (properPart m).f = [] := by simp [properPart, hm, hf]
  obtain ⟨cs, ess, h1, h2, h3, h4⟩ := C122_closed ver pk ko pl m hv hoff
    ⟨by rw [hpp]; simp, by rw [hpp]; exact List.Pairwise.nil⟩
  have hfe : hasEdge f e.1 e.2 = true := by
    obtain ⟨g, hg, h⟩ := he.2.1
    rw [hm, List.mem_singleton] at hg
    rwa [← hg]
  have hall : ∀ e' ∈ ess.flatten, e' = e := by
    intro e' h'
    obtain ⟨l', ⟨g, hg, h''⟩, _⟩ := h3 e' h'
    rw [hm, List.mem_singleton] at hg
    subst hg
    by_contra hc
    exact hf (linked_proper l' he.1 hc h'' hfe)
  have hcount : ess.flatten.count e = 1 := by
    have hd : Doubled m e := ⟨f, by simp [hm], hf, hfe⟩
    have hn : ¬ ∃ g ∈ m.f, ProperFace g ∧ hasEdge g e.1 e.2 = true := by
      rintro ⟨g, hg, hp, _⟩
      rw [hm, List.mem_singleton] at hg
      subst hg; exact hf hp
    rw [h4 e he]
    simp [hd, hn]
  have hflat : ess.flatten = [e] := by
    have hr := List.eq_replicate_of_mem hall
    have hl : ess.flatten.length = 1 := by
      rw [← hcount, List.count_eq_length.mpr fun b hb => (hall b hb).symm]
    rw [hl] at hr
    exact hr
  cases h2 with
  | nil => simp at hflat
  | @cons es c ess cs hc hcs =>
    obtain ⟨y, hy, _⟩ := hc.round
    have hne : es ≠ [] := by rintro rfl; simp at hy
    have h5 : es = [e] ∧ ess.flatten = [] := by
      rw [List.flatten_cons] at hflat
      rcases List.append_eq_singleton_iff.mp hflat with ⟨h, _⟩ | ⟨h, h'⟩
      · exact absurd h hne
      · exact ⟨h, h'⟩
    have h6 : cs = [] := by
      cases hcs with
      | nil => rfl
      | @cons es' c' ess' cs' hc' _ =>
        obtain ⟨y', hy', _⟩ := hc'.round
        have : es' = [] := by
          have := h5.2
          rw [List.flatten_cons, List.append_eq_nil_iff] at this
          exact this.1
        rw [this] at hy'; simp at hy'
    subst h6
    have hp := hc.points
    rw [h5.1] at hp
    obtain ⟨vs, cl⟩ := c
    have hcl : cl = true := hc.closed
    simp only at hp
    cases hp with
    | @cons _ q _ _ hq hrest =>
      cases hrest
      exact ⟨q, by rw [h1, hcl], hq⟩


/-! ### open meshes -/

namespace DF

/-- `set.pop` taking the lowest number -/
def lowest : Picker := ⟨fun _ s => if h : s.Nonempty then s.min' h else 0, by
  intro k s hs
  rw [dif_pos hs]
  exact Finset.min'_mem s hs⟩

/-- dicts in the order of insertion -/
def inOrder : KeyOrder := ⟨Dict.keys, fun _ => List.Perm.refl _⟩

theorem eulerLoop_push (pk : Picker) (k v : ℕ) (rest path : List ℕ) (d : Adj) (s : Finset ℕ) (h : d.get? v = some s)
    (hs : s.Nonempty) : eulerLoop pk k (v :: rest) path d =
      eulerLoop pk (k + 1) (pk.pick k s :: v :: rest) path (removeEdge (d.set v (s.erase (pk.pick k s))) (pk.pick k s) v) := by
  rw [eulerLoop]
  split
  · rename_i s' h'
    rw [h] at h'
    injection h' with h'
    subst h'
    rw [dif_pos hs]
  · rename_i h'
    rw [h] at h'
    cases h'

theorem eulerLoop_pop (pk : Picker) (k v : ℕ) (rest path : List ℕ) (d : Adj) (h : d.get? v = none) :
    eulerLoop pk k (v :: rest) path d = eulerLoop pk k rest (v :: path) d := by
  rw [eulerLoop]
  split
  · rename_i s' h'
    rw [h] at h'
    cases h'
  · rfl

theorem strip_run : popEulerPath lowest inOrder ⟨3, [(1, {0, 1, 2}), (0, {1}), (2, {1})]⟩ = .ok (some [0, 2, 1, 1], ⟨3, []⟩) := by
  have e : eulerLoop lowest 0 [1] [] [(1, {0, 1, 2}), (0, {1}), (2, {1})] = .ok ([1, 1, 2, 0], []) := by
    rw [eulerLoop_push lowest _ _ _ _ _ {0, 1, 2} (by decide) (by decide)]
    have e1 : lowest.pick 0 {0, 1, 2} = 0 := by decide
    have e2 : removeEdge (Dict.set [(1, {0, 1, 2}), (0, {1}), (2, {1})] 1 (Finset.erase {0, 1, 2} 0)) 0 1 = [(1, {1, 2}), (2, {1})] := by decide
    rw [e1, e2, eulerLoop_pop _ _ _ _ _ _ (by decide), eulerLoop_push lowest _ _ _ _ _ {1, 2} (by decide) (by decide)]
    have e1 : lowest.pick (0 + 1) {1, 2} = 1 := by decide
    have e2 : removeEdge (Dict.set [(1, {1, 2}), (2, {1})] 1 (Finset.erase {1, 2} 1)) 1 1 = [(1, {2}), (2, {1})] := by decide
    rw [e1, e2, eulerLoop_push lowest _ _ _ _ _ {2} (by decide) (by decide)]
    have e1 : lowest.pick (0 + 1 + 1) {2} = 2 := by decide
    have e2 : removeEdge (Dict.set [(1, {2}), (2, {1})] 1 (Finset.erase {2} 2)) 2 1 = [] := by decide
    rw [e1, e2, eulerLoop_pop _ _ _ _ _ _ (by decide), eulerLoop_pop _ _ _ _ _ _ (by decide),
      eulerLoop_pop _ _ _ _ _ _ (by decide), eulerLoop]
  have ho : oddDegree ([(1, {0, 1, 2}), (0, {1}), (2, {1})] : Adj) 1 = true := by decide
  unfold popEulerPath
  simp only [inOrder, Dict.keys, List.map_cons, List.map_nil, List.filter_cons, ho, if_true, Bool.not_true, Bool.false_and,
    Bool.false_eq_true, if_false, List.cons_append, e, ok_bind]
  rfl

/-- two triangles and a face with a repeated corner on their common edge -/
def strip : Mesh ℝ := ⟨[⟨0, 0, 1⟩, ⟨0, 0, -1⟩, ⟨1, 0, 1⟩, ⟨1, 0, -1⟩], [(1, 1, 2), (0, 1, 2), (1, 2, 3)]⟩

theorem height_ground (p : V3 ℝ) : height ground p = p.z := by
  simp [height, ground, inner3, vec3]

theorem row_out (a b : V3 ℝ) (h : 0 ≤ a.z * b.z ∧ a.z ≠ 0 ∧ b.z ≠ 0) : (ground.lineSegmentXsectionsRow a b).2 = false := by
  rw [← Bool.not_eq_true, (segment_row ground a b).1]
  simp only [height_ground]
  rintro ⟨h1, h2, h3⟩
  rcases lt_or_gt_of_ne h.2.1 with ha | ha <;> rcases lt_or_gt_of_ne h.2.2 with hb | hb
  · exact h3 ⟨ha, hb⟩
  · nlinarith
  · nlinarith
  · exact h2 ⟨ha, hb⟩

theorem row_in (a b : V3 ℝ) (h : a.z * b.z < 0) : ground.lineSegmentXsectionsRow a b =
    (along a (a.z / (a.z - b.z)) (vec3 a b), true) := by
  have hne : a.z - b.z ≠ 0 := by intro hc; have : a.z = b.z := by linarith
                                 rw [this] at h; nlinarith [mul_self_nonneg b.z]
  have hr : (ground.lineSegmentXsectionsRow a b).2 = true := by
    rw [(segment_row ground a b).1]
    simp only [height_ground]
    exact ⟨fun hc => hne (by linarith), fun hc => by nlinarith [hc.1, hc.2], fun hc => by nlinarith [hc.1, hc.2]⟩
  have hp := (segment_row ground a b).2 hr
  refine Prod.ext ?_ hr
  refine crossPoint_unique (pl := ground) (m := ⟨[a, b], []⟩) (e := (0, 1))
    ⟨a, b, rfl, rfl, by simpa only [height_ground] using h⟩ ⟨a, b, rfl, rfl, hp⟩ ⟨a, b, rfl, rfl, ?_, _, ?_, ?_, rfl⟩
  · rw [onPlane_iff, height_ground]
    simp only [along, vec3]
    field_simp
    ring
  · rcases lt_or_gt_of_ne hne with hc | hc
    · rw [div_nonneg_iff]; right; exact ⟨by nlinarith, hc.le⟩
    · rw [div_nonneg_iff]; left; exact ⟨by nlinarith, hc.le⟩
  · rcases lt_or_gt_of_ne hne with hc | hc
    · rw [div_le_one_of_neg hc]; nlinarith
    · rw [div_le_one hc]; nlinarith

theorem strip_map : intersectionMap ground strip strip.f =
    .ok ⟨[(0, [(1, 0)]), (1, [(2, 1)]), (2, [(3, 2)])], [⟨0, 0, 0⟩, ⟨1 / 2, 0, 0⟩, ⟨1, 0, 0⟩]⟩ := by
  unfold intersectionMap
  have h1 : takeRows strip.v ((faceEdges strip.f).map Prod.fst) = .ok [⟨0, 0, -1⟩, ⟨0, 0, 1⟩, ⟨0, 0, -1⟩, ⟨0, 0, -1⟩,
    ⟨0, 0, -1⟩, ⟨1, 0, 1⟩, ⟨1, 0, 1⟩, ⟨1, 0, 1⟩, ⟨1, 0, -1⟩] := rfl
  have h2 : takeRows strip.v ((faceEdges strip.f).map Prod.snd) = .ok [⟨0, 0, -1⟩, ⟨0, 0, -1⟩, ⟨1, 0, 1⟩, ⟨1, 0, 1⟩,
    ⟨1, 0, 1⟩, ⟨1, 0, -1⟩, ⟨0, 0, -1⟩, ⟨0, 0, 1⟩, ⟨0, 0, -1⟩] := rfl
  simp only [h1, h2, ok_bind, Plane.lineSegmentXsections, List.length_cons, if_true, List.zipWith_cons_cons,
    List.zipWith_nil_left, List.map_cons, List.map_nil]
  have r1 := row_out ⟨0, 0, -1⟩ ⟨0, 0, -1⟩ (by norm_num)
  have r2 := row_in ⟨0, 0, 1⟩ ⟨0, 0, -1⟩ (by norm_num)
  have r3 := row_in ⟨0, 0, -1⟩ ⟨1, 0, 1⟩ (by norm_num)
  have r4 := row_in ⟨1, 0, 1⟩ ⟨1, 0, -1⟩ (by norm_num)
  have r5 := row_in ⟨1, 0, 1⟩ ⟨0, 0, -1⟩ (by norm_num)
  have r6 := row_out ⟨1, 0, 1⟩ ⟨0, 0, 1⟩ (by norm_num)
  have r7 := row_out ⟨1, 0, -1⟩ ⟨0, 0, -1⟩ (by norm_num)
  norm_num [along, vec3] at r2 r3 r4 r5
  simp only [r1, r2, r3, r4, r5, r6, r7]
  refine congrArg Except.ok ?_
  have e1 : faceEdges strip.f = [(1, 1), (0, 1), (1, 2), (1, 2), (1, 2), (2, 3), (2, 1), (2, 0), (3, 1)] := rfl
  rw [e1]
  norm_num [masked, addIfNew, EdgeMap.empty, EdgeMap.contains, EdgeMap.add, EdgeMap.order]
  rfl

theorem strip_faces : ground.meshIntersectingFaces strip = .ok strip.f := by
  have hv : ValidFaces strip := by
    intro f hf
    simp only [strip, List.mem_cons, List.not_mem_nil, or_false] at hf ⊢
    rcases hf with rfl | rfl | rfl <;> simp
  rw [C28_faces ground strip hv]
  congr 1
  rw [List.filter_eq_self]
  intro f hf
  simp only [strip, List.mem_cons, List.not_mem_nil, or_false] at hf
  simp only [decide_eq_true_eq]
  rcases hf with rfl | rfl | rfl <;>
    exact ⟨_, _, _, rfl, rfl, rfl, by norm_num [ground, height, inner3, vec3], by norm_num [ground, height, inner3, vec3]⟩

end DF

/-- **C122.** Finding: two triangles with a common edge across the plane, which by C31 give the polyline
`0 — 1/2 — 1` along the x axis. With a face that repeats a corner of the common edge added in front of them, and sets and
dicts as in current python, the polyline runs `0 — 1 — 1/2 — 1/2`: the loop makes the number of neighbours of the middle
point odd, the path is begun there, and the result jumps between points that share no face. -/
theorem C122_strip_jumps (ver : PyVer) : ground.meshXsections ver (fun _ => lowest) (fun _ => inOrder) strip =
    .ok [⟨[⟨0, 0, 0⟩, ⟨1, 0, 0⟩, ⟨1 / 2, 0, 0⟩, ⟨1 / 2, 0, 0⟩], false⟩] := by
  unfold Plane.meshXsections
  rw [strip_faces]
  simp only [ok_bind]
  rw [if_neg (by simp [strip])]
  unfold sliceComponents
  rw [strip_map]
  simp only [ok_bind]
  have hg : strip.f.foldlM (addFace ver (⟨[(0, [(1, 0)]), (1, [(2, 1)]), (2, [(3, 2)])],
      [⟨0, 0, 0⟩, ⟨1 / 2, 0, 0⟩, ⟨1, 0, 0⟩]⟩ : EdgeMap (V3 ℝ))) (Graph.new 3) =
      .ok ⟨3, [(1, {0, 1, 2}), (0, {1}), (2, {1})]⟩ := by
    have e : ([(1, {0, 1, 2}), (0, {1}), (2, {1})] : Adj) =
      [(1, insert 2 (insert 0 (insert 1 (insert 1 ∅)))), (0, insert 1 ∅), (2, insert 1 ∅)] := by decide
    rw [e]
    cases ver <;> rfl
  simp only [List.length_cons, List.length_nil]
  rw [hg]
  simp only [ok_bind]
  have hc : component ([⟨0, 0, 0⟩, ⟨1 / 2, 0, 0⟩, ⟨1, 0, 0⟩] : List (V3 ℝ)) [0, 2, 1, 1] =
      .ok ⟨[⟨0, 0, 0⟩, ⟨1, 0, 0⟩, ⟨1 / 2, 0, 0⟩, ⟨1 / 2, 0, 0⟩], false⟩ := by
    have ht : takeRows ([⟨0, 0, 0⟩, ⟨1 / 2, 0, 0⟩, ⟨1, 0, 0⟩] : List (V3 ℝ)) [0, 2, 1, 1] =
      .ok [⟨0, 0, 0⟩, ⟨1, 0, 0⟩, ⟨1 / 2, 0, 0⟩, ⟨1 / 2, 0, 0⟩] := rfl
    have h0 : pyIndex ([⟨0, 0, 0⟩, ⟨1, 0, 0⟩, ⟨1 / 2, 0, 0⟩, ⟨1 / 2, 0, 0⟩] : List (V3 ℝ)) 0 = .ok ⟨0, 0, 0⟩ := rfl
    have h1 : pyIndex ([⟨0, 0, 0⟩, ⟨1, 0, 0⟩, ⟨1 / 2, 0, 0⟩, ⟨1 / 2, 0, 0⟩] : List (V3 ℝ)) (-1) = .ok ⟨1 / 2, 0, 0⟩ := rfl
    unfold component
    simp only [ht, h0, h1, ok_bind]
    rw [if_neg]
    · rfl
    · simp [V3.allEq]
  rw [popComponents, if_neg (by simp), strip_run]
  simp only [hc]
  rw [dif_pos (by decide), popComponents, if_pos rfl]
  rfl

/-! A tetrahedron with a face added on one of its edges meets the hypotheses of `C122_closed`. -/

/-- the tetrahedron with one more face, along the edge between 0 and 2 -/
def tetra2 : Mesh ℝ := ⟨tetra.v, (0, 2, 2) :: tetra.f⟩

theorem tetra2_ok : ValidFaces tetra2 ∧ (∀ p ∈ tetra2.v, ¬ OnPlane ground p) ∧ ClosedMesh (properPart tetra2) ∧
    CrossedEdge ground tetra2 (0, 2) ∧ Doubled tetra2 (0, 2) := by
  have hp : properPart tetra2 = tetra := by
    have : (tetra2.f.filter fun f => open Classical in decide (ProperFace f)) = tetra.f := by
      rw [tetra2, List.filter_cons_of_neg (by simp [ProperFace]), List.filter_eq_self]
      intro f hf
      simpa using tetra_ok.2.1 f hf
    unfold properPart
    rw [this]
    rfl
  refine ⟨?_, tetra_ok.2.2.1, hp ▸ tetra_closed, ?_, (0, 2, 2), by simp [tetra2], by simp [ProperFace], by decide⟩
  · intro f hf
    rcases List.mem_cons.mp hf with rfl | hf
    · simp [tetra2, tetra]
    · exact tetra_ok.1 f hf
  · obtain ⟨h1, ⟨f, hf, h2⟩, h3⟩ := tetra_ok.2.2.2.2
    exact ⟨h1, ⟨f, List.mem_cons_of_mem _ hf, h2⟩, h3⟩

theorem tetra2_section (pk : ℕ → Picker) (ko : ℕ → KeyOrder) : ∃ cs, ∃ ess : List (List (ℕ × ℕ)),
    ground.meshXsections .py3 pk ko tetra2 = .ok cs ∧ List.Forall₂ (DoubleTrace ground tetra2) ess cs ∧
    ess.flatten.count (0, 2) = 2 := by
  obtain ⟨h1, h2, h3, h4, h5⟩ := tetra2_ok
  obtain ⟨cs, ess, e1, e2, _, e4⟩ := C122_closed .py3 pk ko ground tetra2 h1 h2 h3
  refine ⟨cs, ess, e1, e2, ?_⟩
  rw [e4 _ h4, if_pos h5, if_pos]
  exact ⟨(0, 1, 2), by simp [tetra2, tetra], by simp [ProperFace], by decide⟩

/-- one face with a repeated corner, across the plane -/
theorem sliver_section (pk : ℕ → Picker) (ko : ℕ → KeyOrder) : ∃ q, ground.meshXsections .py3 pk ko
    ⟨tetra.v, [(0, 2, 2)]⟩ = .ok [⟨[q], true⟩] ∧ CrossPoint ground ⟨tetra.v, [(0, 2, 2)]⟩ (0, 2) q :=
  C122_single .py3 pk ko ground ⟨tetra.v, [(0, 2, 2)]⟩ (0, 2, 2) rfl (by simp [ProperFace]) (by simp [ValidFaces, tetra]) tetra_ok.2.2.1 (0, 2)
    ⟨by simp, ⟨(0, 2, 2), by simp, by decide⟩, tetra_ok.2.2.2.2.2.2⟩

end Blmath.Props
