import Verif.Proofs.MeshSlice
import Verif.Proofs.MeshGraph
import Mathlib.Tactic.IntervalCases

/-!
Property C31: mesh cross-sections.
-/

namespace Blmath.Props
open Blmath.Geometry Blmath.Spec Graph

/-- a list of crossed mesh edges traced by one polyline; `R` says which point belongs to an edge -/
structure TracesBy {α : Type} (R : ℕ × ℕ → V3 α → Prop) (pl : Plane ℝ) (m : Mesh ℝ) (es : List (ℕ × ℕ))
    (c : Section α) : Prop where
  /-- the polyline's vertices are the points of the edges, in order -/
  points : List.Forall₂ R es c.v
  nonempty : es ≠ []
  /-- consecutive edges belong to one face -/
  adjacent : es.IsChain (Linked pl m)
  /-- a closed polyline has at least three vertices and its last and first edge belong to one face -/
  closing : c.closed = true → 3 ≤ es.length ∧
    ∃ x y, es.head? = some x ∧ es.getLast? = some y ∧ Linked pl m y x
  /-- it is a whole connected component of the section -/
  whole : ∀ e ∈ es, ∀ e', e' ∈ es ↔ Relation.ReflTransGen (Linked pl m) e e'
  /-- an open polyline has an end: an edge sharing a face with only one other crossed edge -/
  opening : c.closed = false → ∃ e ∈ es, ∃ e', ∀ e'', Linked pl m e e'' ↔ e'' = e'

/-- a list of crossed mesh edges traced by one polyline: its vertices are the points where the edges
meet the plane -/
def Traces (pl : Plane ℝ) (m : Mesh ℝ) (es : List (ℕ × ℕ)) (c : Section ℝ) : Prop :=
  TracesBy (CrossPoint pl m) pl m es c

/-- the points in which different mesh edges cross the plane are different -/
def CrossingsApart (pl : Plane ℝ) (m : Mesh ℝ) : Prop :=
  ∀ e e' q, CrossedEdge pl m e → CrossedEdge pl m e' → CrossPoint pl m e q → CrossPoint pl m e' q →
    e = e'

theorem filter_nil_of_components {pl : Plane ℝ} {m : Mesh ℝ} (hv : ValidFaces m)
    (hoff : ∀ p ∈ m.v, ¬ OnPlane pl p)
    (h : (m.f.filter fun f => open Classical in decide (Straddles pl m.v f)) = []) (e : ℕ × ℕ) :
    ¬ CrossedEdge pl m e := by
  rintro ⟨_, ⟨f, hf, he⟩, ho⟩
  simp only [hasEdge, Bool.and_eq_true] at he
  have := (straddles_cases pl m hoff f (hv f hf)).2 _ _ he.1.2 he.2 ho
  have hm : f ∈ m.f.filter fun f => open Classical in decide (Straddles pl m.v f) := by
    simp [hf, this]
  rw [h] at hm
  cases hm

theorem forall₂_comp_map {α β γ : Type} {R : α → β → Prop} {S : γ → β → Prop} (f : α → γ)
    (h : ∀ a b, R a b → S (f a) b) : ∀ {l : List α} {l' : List β}, List.Forall₂ R l l' →
      List.Forall₂ S (l.map f) l'
  | _, _, .nil => .nil
  | _, _, .cons h1 h2 => .cons (h _ _ h1) (forall₂_comp_map f h h2)

/-- Slicing in any arithmetic that selects the straddling faces and finds exactly the segments with ends
on opposite sides (of the exact plane `pl`, for the exact mesh `m`). -/
theorem manifold_any {α : Type} [Num α] [EqNum α] (ver : PyVer) (pk : ℕ → Picker) (ko : ℕ → KeyOrder)
    (pa : Plane α) (ma : Mesh α) (pl : Plane ℝ) (m : Mesh ℝ) (hvl : ma.v.length = m.v.length)
    (hv : ValidFaces m) (hp : ∀ f ∈ m.f, ProperFace f) (hoff : ∀ p ∈ m.v, ¬ OnPlane pl p)
    (hfaces : pa.meshIntersectingFaces ma =
      .ok (m.f.filter fun f => open Classical in decide (Straddles pl m.v f)))
    (hrow : ∀ f ∈ m.f, ∀ u v, hasEdge f u v = true → ∀ a b, ma.v[u]? = some a → ma.v[v]? = some b →
      ((pa.lineSegmentXsectionsRow a b).2 = true ↔ Opposite pl m.v u v))
    (hman : EdgeManifold m) (hsep : ClosedMesh m ∨ ∀ e e' q, CrossedEdge pl m e → CrossedEdge pl m e' →
      RowPoint pa ma.v e.1 e.2 q → RowPoint pa ma.v e'.1 e'.2 q → e = e') :
    ∃ cs, ∃ ess : List (List (ℕ × ℕ)), pa.meshXsections ver pk ko ma = .ok cs ∧
      List.Forall₂ (TracesBy (fun e => RowPoint pa ma.v e.1 e.2) pl m) ess cs ∧ ess.flatten.Nodup ∧
      (∀ e, e ∈ ess.flatten ↔ CrossedEdge pl m e) ∧
      (ClosedMesh m → ∀ c ∈ cs, c.closed = true) := by
  generalize hfs : (m.f.filter fun f => open Classical in decide (Straddles pl m.v f)) = fs at hfaces
  unfold Plane.meshXsections
  rw [hfaces]
  simp only [ok_bind]
  by_cases hlen : fs.length = 0
  · rw [if_pos hlen]
    have hnil : fs = [] := List.length_eq_zero_iff.mp hlen
    refine ⟨[], [], rfl, .nil, by simp, ?_, by simp⟩
    intro e
    simpa using filter_nil_of_components hv hoff (hfs.trans hnil) e
  rw [if_neg hlen]
  obtain ⟨im, g, E, h1, h2, h3, h4, h5, h6, h7, h8, h9⟩ := slice_graph_any ver pa ma pl m hvl hv hoff hp fs hfs.symm hrow
  obtain ⟨d1, d2⟩ := slice_degrees m im.values.length E (adj g.d) pl h8 (fun i hi => (h4 i hi).1) h5 h9
  have hdup : im.values.Nodup ∨ ∀ v, Even (adj g.d v).card := by
    rcases hsep with h | h
    · exact Or.inr (d2 h)
    · refine Or.inl (List.nodup_iff_getElem?_ne_getElem?.mpr ?_)
      intro i j hij hj heq
      obtain ⟨c1, q, e1, e2⟩ := h4 i (by omega)
      obtain ⟨c2, q', e1', e2'⟩ := h4 j hj
      rw [e1, e1'] at heq
      injection heq with heq
      subst heq
      have := h5 i j (by omega) hj (h _ _ _ c1 c2 e2 e2')
      omega
  obtain ⟨cs, labs, g1, g2, g3, g4, g5⟩ := popComponents_degree_two pk ko im.values (entries g.d) 0 g
    le_rfl h3 (d1 hman) (fun v hv => (h7 v).mp hv) hdup
  refine ⟨cs, labs.map (List.map E), ?_, ?_, ?_, ?_, fun hc => g5 (d2 hc)⟩
  · simp only [sliceComponents, h1, ok_bind, h2, g1]
    rfl
  · have hin : ∀ lab ∈ labs, ∀ i ∈ lab, i < im.values.length := by
      intro lab hlab i hi
      exact (h7 i).mp ((g4 i).mp (List.mem_flatten.mpr ⟨lab, hlab, hi⟩))
    have hreach : ∀ i, i < im.values.length → ∀ e',
        Relation.ReflTransGen (Linked pl m) (E i) e' ↔
          ∃ j, j < im.values.length ∧ E j = e' ∧ Reach (adj g.d) i j := by
      intro i hi e'
      constructor
      · intro h
        induction h with
        | refl => exact ⟨i, hi, rfl, Relation.ReflTransGen.refl⟩
        | tail _ hl ih =>
          obtain ⟨j, hj, rfl, hr⟩ := ih
          obtain ⟨k, hk, rfl⟩ := h6 _ hl.2.2.1
          exact ⟨k, hk, rfl, hr.tail ((h8 j k).mpr ⟨hj, hk, hl⟩)⟩
      · rintro ⟨j, _, rfl, hr⟩
        induction hr with
        | refl => exact Relation.ReflTransGen.refl
        | tail _ hl ih =>
          have := (h8 _ _).mp hl
          exact (ih this.1).tail this.2.2
    have key : ∀ lab c, lab ∈ labs → SectionOf (adj g.d) im.values lab c.v c.closed →
        TracesBy (fun e => RowPoint pa ma.v e.1 e.2) pl m (lab.map E) c := by
      intro lab c hlab hs
      refine ⟨?_, ?_, ?_, ?_, ?_, ?_⟩
      · refine forall₂_comp_map E ?_ hs.points
        intro i q hiq
        have hi : i < im.values.length := by
          by_contra hc
          rw [List.getElem?_eq_none (by omega)] at hiq
          cases hiq
        obtain ⟨_, q', e1, e2⟩ := h4 i hi
        rw [hiq] at e1
        injection e1 with e1
        rw [e1]; exact e2
      · intro h
        exact hs.nonempty (List.map_eq_nil_iff.mp h)
      · refine List.isChain_map_of_isChain E ?_ hs.walk
        intro a b hab
        exact ((h8 _ _).mp hab).2.2
      · intro hc
        obtain ⟨k1, x, y, k2, k3, k4⟩ := hs.closing hc
        refine ⟨by simpa using k1, E x, E y, by simp [k2], by simp [k3], ?_⟩
        exact ((h8 _ _).mp k4).2.2
      · intro e he e'
        obtain ⟨i, hi, rfl⟩ := List.mem_map.mp he
        rw [hreach i (hin lab hlab i hi)]
        constructor
        · intro h
          obtain ⟨j, hj, rfl⟩ := List.mem_map.mp h
          exact ⟨j, hin lab hlab j hj, rfl, (hs.whole i hi j).mp hj⟩
        · rintro ⟨j, _, rfl, hr⟩
          exact List.mem_map_of_mem ((hs.whole i hi j).mpr hr)
      · intro hc
        obtain ⟨i, hi, h1⟩ := hs.opening hc
        obtain ⟨j, hj⟩ := Finset.card_eq_one.mp h1
        have hil := hin lab hlab i hi
        refine ⟨E i, List.mem_map_of_mem hi, E j, fun e'' => ⟨?_, ?_⟩⟩
        · intro hl
          obtain ⟨k, hk, rfl⟩ := h6 _ hl.2.2.1
          have : k ∈ adj g.d i := (h8 i k).mpr ⟨hil, hk, hl⟩
          rw [hj, Finset.mem_singleton] at this
          rw [this]
        · rintro rfl
          exact ((h8 i j).mp (by rw [hj]; simp)).2.2
    clear g1 g3 g4 g5 hin
    have : ∀ (ls : List (List ℕ)) (cs : List (Section α)),
        List.Forall₂ (fun lab c => SectionOf (adj g.d) im.values lab c.v c.closed) ls cs →
        (∀ l ∈ ls, l ∈ labs) → List.Forall₂ (TracesBy (fun e => RowPoint pa ma.v e.1 e.2) pl m) (ls.map (List.map E)) cs := by
      intro ls cs h
      induction h with
      | nil => intro _; exact .nil
      | cons h _ ih =>
        intro hsub
        exact .cons (key _ _ (hsub _ (by simp)) h) (ih fun l hl => hsub l (by simp [hl]))
    exact this labs cs g2 fun _ h => h
  · rw [← List.map_flatten]
    refine List.Nodup.map_on ?_ g3
    intro a ha b hb hab
    exact h5 a b ((h7 a).mp ((g4 a).mp ha)) ((h7 b).mp ((g4 b).mp hb)) hab
  · intro e
    rw [← List.map_flatten, List.mem_map]
    constructor
    · rintro ⟨i, hi, rfl⟩
      exact (h4 i ((h7 i).mp ((g4 i).mp hi))).1
    · intro he
      obtain ⟨i, hi, rfl⟩ := h6 e he
      exact ⟨i, (g4 i).mpr ((h7 i).mpr hi), rfl⟩

/-- **C31.** A mesh with triangular faces, at most two faces per edge and no vertex on the plane, and
which either is closed or has its crossing points all different: the call returns, whatever `set.pop`
and the dict order do. Each crossed mesh edge is traced by exactly one polyline, exactly once; each
polyline runs through the crossing points of consecutive edges of faces and is a whole connected
component; and if the mesh is closed every polyline is closed. -/
theorem C31_manifold (ver : PyVer) (pk : ℕ → Picker) (ko : ℕ → KeyOrder) (pl : Plane ℝ) (m : Mesh ℝ)
    (hv : ValidFaces m) (hp : ∀ f ∈ m.f, ProperFace f) (hoff : ∀ p ∈ m.v, ¬ OnPlane pl p)
    (hman : EdgeManifold m) (hsep : ClosedMesh m ∨ CrossingsApart pl m) :
    ∃ cs, ∃ ess : List (List (ℕ × ℕ)), pl.meshXsections ver pk ko m = .ok cs ∧
      List.Forall₂ (Traces pl m) ess cs ∧ ess.flatten.Nodup ∧
      (∀ e, e ∈ ess.flatten ↔ CrossedEdge pl m e) ∧
      (ClosedMesh m → ∀ c ∈ cs, c.closed = true) := by
  obtain ⟨cs, ess, h1, h2, h3⟩ := manifold_any ver pk ko pl m pl m rfl hv hp hoff (C28_faces pl m hv) (by
    intro f _ u v _ a b ha hb
    rw [← meets_iff_opposite pl m.v hoff, (segment_row pl a b).1]
    unfold Meets
    simp only [ha, hb, Option.some.injEq, exists_and_left, exists_eq_left']) hman
    (hsep.imp id fun h e e' q c c' hq hq' => h e e' q c c' (rowPoint_real hq) (rowPoint_real hq'))
  refine ⟨cs, ess, h1, h2.imp fun es c h => ⟨h.points.imp fun e q => rowPoint_real, h.2, h.3, h.4, h.5, h.6⟩, h3⟩

/-- an edge with its ends on opposite sides meets the plane in one point -/
theorem crossPoint_unique {pl : Plane ℝ} {m : Mesh ℝ} {e : ℕ × ℕ} {q q' : V3 ℝ}
    (ho : Opposite pl m.v e.1 e.2) (h : CrossPoint pl m e q) (h' : CrossPoint pl m e q') : q = q' := by
  obtain ⟨a, b, ha, hb, hlt⟩ := ho
  obtain ⟨a1, b1, ha1, hb1, h1, t, _, _, rfl⟩ := h
  obtain ⟨a2, b2, ha2, hb2, h2, t', _, _, rfl⟩ := h'
  rw [ha] at ha1 ha2
  rw [hb] at hb1 hb2
  injection ha1 with ha1; injection ha2 with ha2; injection hb1 with hb1; injection hb2 with hb2
  subst ha1 ha2 hb1 hb2
  rw [onPlane_iff] at h1 h2
  have e1 : height pl (along a t (vec3 a b)) = height pl a + t * (height pl b - height pl a) := by
    simp only [height, along, vec3, inner3]; ring
  have e2 : height pl (along a t' (vec3 a b)) = height pl a + t' * (height pl b - height pl a) := by
    simp only [height, along, vec3, inner3]; ring
  have hne : height pl b - height pl a ≠ 0 := by
    intro h
    have : height pl b = height pl a := by linarith
    rw [this] at hlt
    nlinarith [mul_self_nonneg (height pl a)]
  have : t = t' := by
    apply mul_right_cancel₀ hne
    linarith
  rw [this]

/-- Slicing any mesh in any arithmetic that selects the straddling faces and finds exactly the segments
with ends on opposite sides. -/
theorem any_mesh_any {α : Type} [Num α] [EqNum α] (ver : PyVer) (pk : ℕ → Picker) (ko : ℕ → KeyOrder)
    (pa : Plane α) (ma : Mesh α) (pl : Plane ℝ) (m : Mesh ℝ) (hvl : ma.v.length = m.v.length)
    (hv : ValidFaces m) (hp : ∀ f ∈ m.f, ProperFace f) (hoff : ∀ p ∈ m.v, ¬ OnPlane pl p)
    (hfaces : pa.meshIntersectingFaces ma =
      .ok (m.f.filter fun f => open Classical in decide (Straddles pl m.v f)))
    (hrow : ∀ f ∈ m.f, ∀ u v, hasEdge f u v = true → ∀ a b, ma.v[u]? = some a → ma.v[v]? = some b →
      ((pa.lineSegmentXsectionsRow a b).2 = true ↔ Opposite pl m.v u v)) :
    ∃ cs, pa.meshXsections ver pk ko ma = .ok cs ∧ (∀ c ∈ cs, c.v ≠ []) ∧
      (∀ c ∈ cs, ∀ q ∈ c.v, ∃ e, CrossedEdge pl m e ∧ RowPoint pa ma.v e.1 e.2 q) ∧
      (∀ e, CrossedEdge pl m e → ∃ c ∈ cs, ∃ q ∈ c.v, RowPoint pa ma.v e.1 e.2 q) := by
  generalize hfs : (m.f.filter fun f => open Classical in decide (Straddles pl m.v f)) = fs at hfaces
  unfold Plane.meshXsections
  rw [hfaces]
  simp only [ok_bind]
  by_cases hlen : fs.length = 0
  · rw [if_pos hlen]
    have hnil : fs = [] := List.length_eq_zero_iff.mp hlen
    refine ⟨[], rfl, by simp, by simp, ?_⟩
    intro e he
    exact absurd he (filter_nil_of_components hv hoff (hfs.trans hnil) e)
  rw [if_neg hlen]
  obtain ⟨im, g, E, h1, h2, h3, h4, h5, h6, h7, h8, h9⟩ := slice_graph_any ver pa ma pl m hvl hv hoff hp fs hfs.symm hrow
  obtain ⟨cs, g1, g2, g3⟩ := popComponents_any pk ko im.values (entries g.d) 0 g
    le_rfl h3 (fun v hv => (h7 v).mp hv)
  refine ⟨cs, ?_, fun c hc => (g2 c hc).1, ?_, ?_⟩
  · simp only [sliceComponents, h1, ok_bind, h2, g1]
    rfl
  · intro c hc q hq
    obtain ⟨i, hi, hi'⟩ := (g2 c hc).2 q hq
    obtain ⟨k1, q', k2, k3⟩ := h4 i ((h7 i).mp hi)
    rw [hi'] at k2
    injection k2 with k2
    exact ⟨E i, k1, k2 ▸ k3⟩
  · intro e he
    obtain ⟨i, hi, rfl⟩ := h6 e he
    obtain ⟨k1, q', k2, k3⟩ := h4 i hi
    obtain ⟨c, hc, hq⟩ := g3 i q' ((h7 i).mpr hi) k2
    exact ⟨c, hc, q', hq, k3⟩

/-- **C31.** Any mesh without a vertex on the plane, manifold or not: the call returns, and the points
of the returned polylines are exactly the points where mesh edges cross the plane. -/
theorem C31_any_mesh (ver : PyVer) (pk : ℕ → Picker) (ko : ℕ → KeyOrder) (pl : Plane ℝ) (m : Mesh ℝ)
    (hv : ValidFaces m) (hp : ∀ f ∈ m.f, ProperFace f) (hoff : ∀ p ∈ m.v, ¬ OnPlane pl p) :
    ∃ cs, pl.meshXsections ver pk ko m = .ok cs ∧ (∀ c ∈ cs, c.v ≠ []) ∧
      ∀ q, (∃ c ∈ cs, q ∈ c.v) ↔ ∃ e, CrossedEdge pl m e ∧ CrossPoint pl m e q := by
  obtain ⟨cs, h1, h2, h3, h4⟩ := any_mesh_any ver pk ko pl m pl m rfl hv hp hoff (C28_faces pl m hv) (by
    intro f _ u v _ a b ha hb
    rw [← meets_iff_opposite pl m.v hoff, (segment_row pl a b).1]
    unfold Meets
    simp only [ha, hb, Option.some.injEq, exists_and_left, exists_eq_left'])
  refine ⟨cs, h1, h2, fun q => ⟨?_, ?_⟩⟩
  · rintro ⟨c, hc, hq⟩
    obtain ⟨e, he, hr⟩ := h3 c hc q hq
    exact ⟨e, he, rowPoint_real hr⟩
  · rintro ⟨e, he, hq⟩
    obtain ⟨c, hc, q', hq', hr⟩ := h4 e he
    exact ⟨c, hc, crossPoint_unique he.2.2 hq (rowPoint_real hr) ▸ hq'⟩

/-- **C31.** No face on both sides: the result is the empty list (and `Polyline(None)`). -/
theorem C31_empty (ver : PyVer) (pk : ℕ → Picker) (ko : ℕ → KeyOrder) (pl : Plane ℝ) (m : Mesh ℝ)
    (nbh : Option (V3 ℝ × List (V3 ℝ))) (hv : ValidFaces m) (h : ∀ f ∈ m.f, ¬ Straddles pl m.v f) :
    pl.meshXsections ver pk ko m nbh = .ok [] ∧ pl.meshXsection ver pk ko m nbh = .ok none := by
  have : pl.meshXsections ver pk ko m nbh = .ok [] := by
    unfold Plane.meshXsections
    rw [C28_faces pl m hv, List.filter_eq_nil_iff.mpr (by simpa using h)]
    rfl
  refine ⟨this, ?_⟩
  unfold Plane.meshXsection
  rw [this]
  rfl

/-- of a selected face not lying in the plane at least two edges meet the plane -/
theorem meets_cases (pl : Plane ℝ) (m : Mesh ℝ) (f : ℕ × ℕ × ℕ)
    (hv : f.1 < m.v.length ∧ f.2.1 < m.v.length ∧ f.2.2 < m.v.length)
    (hs : Straddles pl m.v f) (hin : ¬ InPlane pl m.v f) :
    (Meets pl m.v f.1 f.2.1 ∧ Meets pl m.v f.1 f.2.2) ∨
    (Meets pl m.v f.1 f.2.1 ∧ Meets pl m.v f.2.1 f.2.2) ∨
    (Meets pl m.v f.1 f.2.2 ∧ Meets pl m.v f.2.1 f.2.2) := by
  obtain ⟨x, y, z, hx, hy, hz, h1, h2⟩ := hs
  have h0 : ¬ (height pl x = 0 ∧ height pl y = 0 ∧ height pl z = 0) := by
    rintro ⟨a1, a2, a3⟩
    apply hin
    intro u hu p hp
    rw [onPlane_iff]
    simp only [corner, decide_eq_true_eq] at hu
    rcases hu with rfl | rfl | rfl
    · rw [hx] at hp; injection hp with hp; rw [← hp]; exact a1
    · rw [hy] at hp; injection hp with hp; rw [← hp]; exact a2
    · rw [hz] at hp; injection hp with hp; rw [← hp]; exact a3
  have key : ∀ s t : ℝ, ((s < 0 ∧ (t = 0 ∨ 0 < t)) ∨ (s = 0 ∧ (t < 0 ∨ 0 < t)) ∨
      (0 < s ∧ (t < 0 ∨ t = 0))) → s ≠ t ∧ ¬ (0 < s ∧ 0 < t) ∧ ¬ (s < 0 ∧ t < 0) := by
    rintro s t (⟨a, b | b⟩ | ⟨a, b | b⟩ | ⟨a, b | b⟩) <;>
      exact ⟨by rintro rfl; linarith, fun h => by linarith [h.1, h.2], fun h => by linarith [h.1, h.2]⟩
  have mk : ∀ u v (p q : V3 ℝ), m.v[u]? = some p → m.v[v]? = some q →
      ((height pl p < 0 ∧ (height pl q = 0 ∨ 0 < height pl q)) ∨
        (height pl p = 0 ∧ (height pl q < 0 ∨ 0 < height pl q)) ∨
        (0 < height pl p ∧ (height pl q < 0 ∨ height pl q = 0))) → Meets pl m.v u v :=
    fun u v p q hp hq h => ⟨p, q, hp, hq, key _ _ h⟩
  have mxy := mk _ _ _ _ hx hy
  have mxz := mk _ _ _ _ hx hz
  have myz := mk _ _ _ _ hy hz
  generalize height pl x = a at *
  generalize height pl y = b at *
  generalize height pl z = c at *
  clear mk key hin
  rcases lt_trichotomy a 0 with ha | ha | ha <;> rcases lt_trichotomy b 0 with hb | hb | hb <;>
    rcases lt_trichotomy c 0 with hc | hc | hc <;>
    first
      | (apply Or.inl; constructor <;> [apply mxy; apply mxz] <;> simp [ha, hb, hc]; done)
      | (apply Or.inr; apply Or.inl; constructor <;> [apply mxy; apply myz] <;> simp [ha, hb, hc]; done)
      | (apply Or.inr; apply Or.inr; constructor <;> [apply mxz; apply myz] <;> simp [ha, hb, hc]; done)
      | (apply False.elim; apply h0; refine And.intro ?_ (And.intro ?_ ?_) <;> assumption)
      | (apply False.elim; apply h1; refine And.intro ?_ (And.intro ?_ ?_) <;> assumption)
      | (apply False.elim; apply h2; refine And.intro ?_ (And.intro ?_ ?_) <;> assumption)

theorem addFace_two {P : ℕ → ℕ → V3 ℝ → Prop} {D : ℕ → ℕ → Prop} {im : EdgeMap (V3 ℝ)}
    (him : GoodMap P D im) (f : ℕ × ℕ × ℕ) (hf : ProperFace f)
    (hD : (D f.1 f.2.1 ∧ D f.1 f.2.2) ∨ (D f.1 f.2.1 ∧ D f.2.1 f.2.2) ∨ (D f.1 f.2.2 ∧ D f.2.1 f.2.2)) :
    ∃ x y, x ≠ y ∧ x < im.values.length ∧ y < im.values.length ∧
      (∀ ver g, addFace ver im g f = addEdge ver g (some x) (some y)) := by
  obtain ⟨a, b, c⟩ := f
  obtain ⟨p1, p2, p3⟩ := hf
  simp only at hD p1 p2 p3
  rw [← him.dom, ← him.dom, ← him.dom] at hD
  have ne01 : ∀ x, im.index a b = some x → im.index a c = some x → False := by
    intro x h h'; have := him.inj _ _ _ _ _ h h'; unfold SamePair at this; omega
  have ne02 : ∀ x, im.index a b = some x → im.index b c = some x → False := by
    intro x h h'; have := him.inj _ _ _ _ _ h h'; unfold SamePair at this; omega
  have ne12 : ∀ x, im.index a c = some x → im.index b c = some x → False := by
    intro x h h'; have := him.inj _ _ _ _ _ h h'; unfold SamePair at this; omega
  cases h0 : im.index a b with
  | none =>
    cases h1 : im.index a c with
    | none => simp [h0, h1] at hD
    | some x =>
      cases h2 : im.index b c with
      | none => simp [h0, h2] at hD
      | some y =>
        refine ⟨x, y, ?_, him.lt h1, him.lt h2, by intro ver g; simp [addFace, h0, h1, h2]⟩
        rintro rfl; exact ne12 _ h1 h2
  | some x =>
    cases h1 : im.index a c with
    | none =>
      cases h2 : im.index b c with
      | none => simp [h1, h2] at hD
      | some y =>
        refine ⟨x, y, ?_, him.lt h0, him.lt h2, by intro ver g; simp [addFace, h0, h1, h2]⟩
        rintro rfl; exact ne02 _ h0 h2
    | some y =>
      refine ⟨x, y, ?_, him.lt h0, him.lt h1, by intro ver g; simp [addFace, h0, h1]⟩
      rintro rfl; exact ne01 _ h0 h1

theorem addFaces_return (ver : PyVer) (im : EdgeMap (V3 ℝ)) (fs : List (ℕ × ℕ × ℕ))
    (h : ∀ f ∈ fs, ∃ x y, x ≠ y ∧ x < im.values.length ∧ y < im.values.length ∧
      (∀ ver g, addFace ver im g f = addEdge ver g (some x) (some y))) :
    ∀ g : Graph, g.size = im.values.length → GoodGraph g.d →
    (∀ v, adj g.d v ≠ ∅ → v < im.values.length) →
    ∃ g', fs.foldlM (addFace ver im) g = .ok g' ∧ GoodGraph g'.d ∧
      ∀ v, adj g'.d v ≠ ∅ → v < im.values.length := by
  induction fs with
  | nil => intro g _ hg hlt; exact ⟨g, rfl, hg, hlt⟩
  | cons f fs ih =>
    intro g hs hg hlt
    obtain ⟨x, y, h1, h2, h3, h4⟩ := h f (by simp)
    obtain ⟨d', e1, e2, e3⟩ := addEdge_spec ver g hg x y (hs ▸ h2) (hs ▸ h3) h1
    obtain ⟨g', f1, f2, f3⟩ := ih (fun f' hf' => h f' (by simp [hf'])) ⟨g.size, d'⟩ hs e2 (by
      intro v hv
      obtain ⟨u, hu⟩ := Finset.nonempty_iff_ne_empty.mpr hv
      rcases (e3 v u).mp hu with hu | ⟨rfl, _⟩ | ⟨rfl, _⟩
      · exact hlt v (Finset.ne_empty_of_mem hu)
      · exact h2
      · exact h3)
    exact ⟨g', by rw [List.foldlM_cons, h4, e1]; exact f1, f2, f3⟩

/-- **C31.** With vertices allowed on the plane: the call fails exactly when some face lies in the
plane; otherwise every returned vertex is on the plane and on a mesh edge. -/
theorem C31_fails_iff (ver : PyVer) (pk : ℕ → Picker) (ko : ℕ → KeyOrder) (pl : Plane ℝ) (m : Mesh ℝ)
    (hv : ValidFaces m) (hp : ∀ f ∈ m.f, ProperFace f) :
    ((∃ f ∈ m.f, InPlane pl m.v f) → Raises (pl.meshXsections ver pk ko m)) ∧
    ((∀ f ∈ m.f, ¬ InPlane pl m.v f) → ∃ cs, pl.meshXsections ver pk ko m = .ok cs ∧
      ∀ c ∈ cs, c.v ≠ [] ∧ ∀ q ∈ c.v, ∃ u v, (∃ f ∈ m.f, hasEdge f u v = true) ∧
        CrossPoint pl m (u, v) q) := by
  have hfaces := C28_faces pl m hv
  generalize hfs : (m.f.filter fun f => open Classical in decide (Straddles pl m.v f)) = fs at hfaces
  have hfm : ∀ f, f ∈ fs ↔ f ∈ m.f ∧ Straddles pl m.v f := by
    intro f; rw [← hfs]; simp
  obtain ⟨im, him, hgood⟩ := intersectionMap_spec pl m fs (fun f hf => hv f ((hfm f).mp hf).1)
  unfold Plane.meshXsections
  rw [hfaces]
  simp only [ok_bind]
  constructor
  · rintro ⟨f, hf, hin⟩
    obtain ⟨h1, h2, h3⟩ := hv f hf
    have zero : ∀ u, corner f u = true → ∀ p, m.v[u]? = some p → height pl p = 0 :=
      fun u hu p hp => (onPlane_iff pl p).mp (hin u hu p hp)
    have c1 : corner f f.1 = true := by simp [corner]
    have c2 : corner f f.2.1 = true := by simp [corner]
    have c3 : corner f f.2.2 = true := by simp [corner]
    have hstr : Straddles pl m.v f := by
      refine ⟨_, _, _, List.getElem?_eq_getElem h1, List.getElem?_eq_getElem h2,
        List.getElem?_eq_getElem h3, ?_, ?_⟩
      · rintro ⟨h, _⟩; rw [zero _ c1 _ (List.getElem?_eq_getElem h1)] at h; exact lt_irrefl _ h
      · rintro ⟨h, _⟩; rw [zero _ c1 _ (List.getElem?_eq_getElem h1)] at h; exact lt_irrefl _ h
    have hmem : f ∈ fs := (hfm f).mpr ⟨hf, hstr⟩
    have hlen : fs.length ≠ 0 := by
      intro h; rw [List.length_eq_zero_iff.mp h] at hmem; cases hmem
    rw [if_neg hlen]
    have none_of : ∀ u v, corner f u = true → corner f v = true → im.index u v = none := by
      intro u v hu hv'
      by_contra hc
      obtain ⟨_, a, b, ha, hb, hne, _⟩ := (hgood.dom u v).mp hc
      exact hne (by rw [zero u hu a ha, zero v hv' b hb])
    have hstep : ∀ g, Raises (addFace ver im g f) := by
      intro g
      unfold addFace
      rw [none_of _ _ c1 c2, none_of _ _ c1 c3, none_of _ _ c2 c3]
      cases ver <;> exact ⟨_, rfl⟩
    have hfold : ∀ (l : List (ℕ × ℕ × ℕ)), f ∈ l → ∀ g, Raises (l.foldlM (addFace ver im) g) := by
      intro l
      induction l with
      | nil => intro h; cases h
      | cons y l ih =>
        intro h g
        rw [List.foldlM_cons]
        cases hy : addFace ver im g y with
        | error e' => exact ⟨e', rfl⟩
        | ok g' =>
          rcases List.mem_cons.mp h with rfl | h
          · obtain ⟨e, he⟩ := hstep g
            rw [he] at hy; cases hy
          · exact ih h g'
    obtain ⟨e, he⟩ := hfold fs hmem (Graph.new im.values.length)
    refine ⟨e, ?_⟩
    simp only [sliceComponents, him, ok_bind, he, error_bind]
  · intro hno
    by_cases hlen : fs.length = 0
    · rw [if_pos hlen]
      exact ⟨[], rfl, by simp⟩
    rw [if_neg hlen]
    have hD := mem_faceEdges fs (fun f hf => hp f ((hfm f).mp hf).1)
    obtain ⟨g, k1, k2, k3⟩ := addFaces_return ver im fs (by
      intro f hf
      obtain ⟨hf1, hf2⟩ := (hfm f).mp hf
      refine addFace_two hgood f (hp f hf1) ?_
      have he : ∀ u v, hasEdge f u v = true → ∃ e ∈ faceEdges fs, SamePair e.1 e.2 u v :=
        fun u v h => (hD u v).mpr ⟨f, hf, h⟩
      obtain ⟨q1, q2, q3⟩ := hp f hf1
      have e01 := he f.1 f.2.1 (by simp [hasEdge, corner, q1])
      have e02 := he f.1 f.2.2 (by simp [hasEdge, corner, q3])
      have e12 := he f.2.1 f.2.2 (by simp [hasEdge, corner, q2])
      rcases meets_cases pl m f (hv f hf1) hf2 (hno f hf1) with ⟨a, b⟩ | ⟨a, b⟩ | ⟨a, b⟩
      · exact Or.inl ⟨⟨e01, a⟩, ⟨e02, b⟩⟩
      · exact Or.inr (Or.inl ⟨⟨e01, a⟩, ⟨e12, b⟩⟩)
      · exact Or.inr (Or.inr ⟨⟨e02, a⟩, ⟨e12, b⟩⟩)) (Graph.new im.values.length) rfl goodGraph_nil
        (by simp [Graph.new, adj])
    obtain ⟨cs, g1, g2, g3⟩ := popComponents_any pk ko im.values (entries g.d) 0 g le_rfl k2 k3
    refine ⟨cs, ?_, ?_⟩
    · simp only [sliceComponents, him, ok_bind, k1, g1]
      rfl
    · intro c hc
      refine ⟨(g2 c hc).1, ?_⟩
      intro q hq
      obtain ⟨i, hi, hi'⟩ := (g2 c hc).2 q hq
      obtain ⟨u, v, huv⟩ := hgood.surj i (k3 i hi)
      obtain ⟨q', e1, e2⟩ := hgood.value u v i huv
      rw [hi'] at e1
      injection e1 with e1
      have := (hgood.dom u v).mp (by rw [huv]; simp)
      obtain ⟨f, hf, he⟩ := (hD u v).mp this.1
      exact ⟨u, v, ⟨f, ((hfm f).mp hf).1, he⟩, e1 ▸ e2⟩

/-- **C31.** The failure for a face in the plane: AssertionError in python 2 (`None >= 0` is False
there), TypeError in python 3. -/
theorem C31_in_plane_face (pk : ℕ → Picker) (ko : ℕ → KeyOrder) :
    let pl : Plane ℝ := ⟨⟨0, 0, 0⟩, ⟨0, 0, 1⟩⟩
    let m : Mesh ℝ := ⟨[⟨0, 0, 0⟩, ⟨1, 0, 0⟩, ⟨0, 1, 0⟩], [(0, 1, 2)]⟩
    pl.meshXsections .py2 pk ko m = .error .AssertionError ∧
    pl.meshXsections .py3 pk ko m = .error .TypeError := by
  intro pl m
  have hv : ValidFaces m := by
    intro f hf; simp only [m, List.mem_singleton] at hf; subst hf; simp [m]
  have h0 : ∀ p ∈ m.v, height pl p = 0 := by
    intro p hp
    simp only [m, List.mem_cons, List.not_mem_nil, or_false] at hp
    rcases hp with rfl | rfl | rfl <;> norm_num [pl, height, inner3, vec3]
  have hs : Straddles pl m.v (0, 1, 2) := by
    refine ⟨_, _, _, rfl, rfl, rfl, ?_, ?_⟩ <;> norm_num [pl, height, inner3, vec3]
  have hfs : (m.f.filter fun f => open Classical in decide (Straddles pl m.v f)) = [(0, 1, 2)] := by
    simp only [m] at hs ⊢
    simp [hs]
  obtain ⟨im, him, hgood⟩ := intersectionMap_spec pl m [(0, 1, 2)] (by
    intro f hf; simp only [List.mem_singleton] at hf; subst hf; simp [m])
  have none_of : ∀ u v, im.index u v = none := by
    intro u v
    by_contra hc
    obtain ⟨_, a, b, ha, hb, hne, _⟩ := (hgood.dom u v).mp hc
    exact hne (by rw [h0 a (List.mem_of_getElem? ha), h0 b (List.mem_of_getElem? hb)])
  unfold Plane.meshXsections
  rw [C28_faces pl m hv, hfs]
  simp only [ok_bind, sliceComponents, him, List.foldlM_cons, addFace, none_of]
  constructor <;> rfl

theorem nearest_real (nbh : V3 ℝ × List (V3 ℝ)) (p : V3 ℝ) :
    IsLeast {x | ∃ q ∈ nbh.1 :: nbh.2, x = dist3 p q} (nearest nbh p) := by
  have hd : ∀ q : V3 ℝ, V3.norm (p - q) = dist3 p q := by
    intro q
    rw [V3.norm_real, V3.sub_real]
    unfold dist3 len3 vec3
    congr 1
    ring
  have key : ∀ (l : List (V3 ℝ)) (S : Set ℝ) (d : ℝ), IsLeast S d →
      IsLeast (S ∪ {x | ∃ q ∈ l, x = dist3 p q})
        (l.foldl (fun d q => npMin d (V3.norm (p - q))) d) := by
    intro l
    induction l with
    | nil => intro S d h; simpa using h
    | cons q l ih =>
      intro S d h
      have h2 : IsLeast (S ∪ {dist3 p q}) (npMin d (V3.norm (p - q))) := by
        rw [hd]
        have : npMin d (dist3 p q) = min d (dist3 p q) := by
          have hnan : ∀ x : ℝ, npIsNan x = false := by
            intro x
            have : Num.eq x x = true := (Num.eq_real x x).mpr rfl
            simp [npIsNan, this]
          unfold npMin
          rw [hnan, hnan]
          simp only [Bool.false_eq_true, if_false, Num.lt_real]
          rcases lt_or_ge (dist3 p q) d with h | h
          · rw [if_pos h, min_eq_right h.le]
          · rw [if_neg (not_lt.mpr h), min_eq_left h]
        rw [this]
        refine ⟨?_, ?_⟩
        · rcases le_total d (dist3 p q) with h' | h'
          · rw [min_eq_left h']; exact Or.inl h.1
          · rw [min_eq_right h']; exact Or.inr rfl
        · rintro x (hx | hx)
          · exact le_trans (min_le_left _ _) (h.2 hx)
          · rw [Set.mem_singleton_iff.mp hx]; exact min_le_right _ _
      have := ih _ _ h2
      rw [List.foldl_cons]
      convert this using 1
      ext x
      simp only [List.mem_cons, Set.mem_union, Set.mem_ofPred_eq, Set.mem_singleton_iff, or_assoc]
      constructor
      · rintro (h | ⟨q', rfl | h, rfl⟩)
        · exact Or.inl h
        · exact Or.inr (Or.inl rfl)
        · exact Or.inr (Or.inr ⟨q', h, rfl⟩)
      · rintro (h | h | ⟨q', h, rfl⟩)
        · exact Or.inl h
        · exact Or.inr ⟨q, Or.inl rfl, h⟩
        · exact Or.inr ⟨q', Or.inr h, rfl⟩
  have := key nbh.2 {dist3 p nbh.1} (V3.norm (p - nbh.1)) (by rw [hd]; exact isLeast_singleton)
  unfold nearest
  convert this using 1
  ext x
  simp [List.mem_cons]

theorem meanDistance_real (nbh : V3 ℝ × List (V3 ℝ)) (vs : List (V3 ℝ)) :
    AvgDist (nbh.1 :: nbh.2) vs (meanDistance nbh vs) := by
  refine ⟨vs.map (nearest nbh), ?_, ?_⟩
  · induction vs with
    | nil => exact .nil
    | cons p vs ih => exact .cons (nearest_real nbh p) ih
  · unfold meanDistance
    have : ∀ (l : List ℝ) (a : ℝ), l.foldl (· + ·) a = a + l.sum := by
      intro l
      induction l with
      | nil => simp
      | cons x l ih => intro a; rw [List.foldl_cons, ih, List.sum_cons]; ring
    rw [this]
    simp

theorem avgDist_unique {S vs : List (V3 ℝ)} {d d' : ℝ} (h : AvgDist S vs d) (h' : AvgDist S vs d') :
    d = d' := by
  obtain ⟨ds, h1, rfl⟩ := h
  obtain ⟨ds', h2, rfl⟩ := h'
  have : ds = ds' := by
    clear * - h1 h2
    induction h1 generalizing ds' with
    | nil => cases h2; rfl
    | cons a _ ih => cases h2 with
      | cons b h2 => rw [a.unique b, ih _ h2]
  rw [this]

theorem argminFrom_real : ∀ (xs : List ℝ) (pre : List ℝ) (best : ℕ) (b : ℝ), pre[best]? = some b →
    (∀ i x, pre[i]? = some x → b ≤ x ∧ (i < best → b < x)) →
    ∃ r, (pre ++ xs)[argminFrom pre.length best b xs]? = some r ∧
      ∀ i x, (pre ++ xs)[i]? = some x → r ≤ x ∧ (i < argminFrom pre.length best b xs → r < x) := by
  intro xs
  induction xs with
  | nil => intro pre best b h1 h2; exact ⟨b, by simpa [argminFrom] using h1, by simpa [argminFrom] using h2⟩
  | cons y xs ih =>
    intro pre best b h1 h2
    have hbest : best < pre.length := by
      by_contra hc
      rw [List.getElem?_eq_none (by omega)] at h1; cases h1
    have split : ∀ i x, (pre ++ [y])[i]? = some x → (pre[i]? = some x ∧ i < pre.length) ∨
        (i = pre.length ∧ x = y) := by
      intro i x h
      rcases Nat.lt_trichotomy i pre.length with hi | hi | hi
      · rw [List.getElem?_append_left hi] at h; exact Or.inl ⟨h, hi⟩
      · subst hi; simp at h; exact Or.inr ⟨rfl, h.symm⟩
      · rw [List.getElem?_eq_none (by simp; omega)] at h; cases h
    have e : pre ++ y :: xs = (pre ++ [y]) ++ xs := by simp
    have el : pre.length + 1 = (pre ++ [y]).length := by simp
    have nn : ∀ y : ℝ, npIsNan y = false := fun y => by simp [npIsNan]
    rw [e, argminFrom]
    simp only [nn, Bool.false_or, Bool.false_eq_true, if_false]
    by_cases hlt : Num.lt y b = true
    · rw [if_pos hlt, el]
      rw [Num.lt_real] at hlt
      refine ih (pre ++ [y]) pre.length y (by simp) ?_
      intro i x hx
      rcases split i x hx with ⟨hx, hi⟩ | ⟨rfl, rfl⟩
      · exact ⟨by linarith [(h2 i x hx).1], fun _ => by linarith [(h2 i x hx).1]⟩
      · exact ⟨le_rfl, fun h => by omega⟩
    · rw [if_neg hlt, el]
      rw [Num.lt_real, not_lt] at hlt
      refine ih (pre ++ [y]) best b (by rw [List.getElem?_append_left hbest]; exact h1) ?_
      intro i x hx
      rcases split i x hx with ⟨hx, hi⟩ | ⟨rfl, rfl⟩
      · exact h2 i x hx
      · exact ⟨hlt, fun h => by omega⟩

/-- **C31.** With a neighborhood the one component whose average distance to the neighborhood is
smallest (the first such) is returned; if there was a choice, it is marked closed whatever it was. -/
theorem C31_neighborhood (ver : PyVer) (pk : ℕ → Picker) (ko : ℕ → KeyOrder) (pl : Plane ℝ)
    (m : Mesh ℝ) (nbh : V3 ℝ × List (V3 ℝ)) (cs : List (Section ℝ))
    (h : pl.meshXsections ver pk ko m = .ok cs) (hne : cs ≠ []) :
    ∃ k c, cs[k]? = some c ∧
      pl.meshXsections ver pk ko m (some nbh) =
        .ok [⟨c.v, if cs.length = 1 then c.closed else true⟩] ∧
      ∀ (i : ℕ) c', cs[i]? = some c' → ∀ d d', AvgDist (nbh.1 :: nbh.2) c.v d →
        AvgDist (nbh.1 :: nbh.2) c'.v d' → d ≤ d' ∧ (i < k → d < d') := by
  have hnb : pl.meshXsections ver pk ko m (some nbh) =
      if cs.length = 1 then .ok cs else
        argmin (cs.map fun c => meanDistance nbh c.v) >>= fun (i : ℕ) =>
          pyIndex cs (i : ℤ) >>= fun c => pure [⟨c.v, true⟩] := by
    unfold Plane.meshXsections at h ⊢
    cases hfs : pl.meshIntersectingFaces m with
    | error e => rw [hfs] at h; cases h
    | ok fs =>
      rw [hfs] at h
      simp only [ok_bind] at h ⊢
      by_cases hl : fs.length = 0
      · rw [if_pos hl] at h
        injection h with h
        exact absurd h.symm hne
      · rw [if_neg hl] at h ⊢
        cases hsl : sliceComponents ver pk ko pl m fs with
        | error e => rw [hsl] at h; cases h
        | ok cs' =>
          rw [hsl] at h
          simp only [ok_bind, pure_eq_ok] at h
          injection h with h
          subst h
          simp only [ok_bind, pure_eq_ok]
  cases cs with
  | nil => exact absurd rfl hne
  | cons c0 cs =>
    obtain ⟨r, hr1, hr2⟩ := argminFrom_real (cs.map fun c => meanDistance nbh c.v)
      [meanDistance nbh c0.v] 0 _ rfl (by
        intro i x hx
        cases i with
        | zero => simp at hx; subst hx; exact ⟨le_rfl, fun h => by omega⟩
        | succ i => simp at hx)
    have harg : argmin ((c0 :: cs).map fun c => meanDistance nbh c.v) =
        .ok (argminFrom 1 0 (meanDistance nbh c0.v) (cs.map fun c => meanDistance nbh c.v)) := rfl
    simp only [List.length_singleton] at hr1 hr2
    generalize argminFrom 1 0 (meanDistance nbh c0.v) (cs.map fun c => meanDistance nbh c.v) = k at *
    have hmap : [meanDistance nbh c0.v] ++ (cs.map fun c => meanDistance nbh c.v) =
      (c0 :: cs).map fun c => meanDistance nbh c.v := rfl
    rw [hmap] at hr1 hr2
    obtain ⟨c, hc, rfl⟩ : ∃ c, (c0 :: cs)[k]? = some c ∧ meanDistance nbh c.v = r := by
      rw [List.getElem?_map] at hr1
      exact Option.map_eq_some_iff.mp hr1
    refine ⟨k, c, hc, ?_, ?_⟩
    · rw [hnb]
      by_cases hl : (c0 :: cs).length = 1
      · rw [if_pos hl, if_pos hl]
        have : cs = [] := by simpa using hl
        subst this
        cases k with
        | zero => simp at hc; rw [hc]
        | succ k => simp at hc
      · rw [if_neg hl, if_neg hl, harg]
        simp only [ok_bind, pyIndex_of_getElem? hc, pure_eq_ok]
    · intro i c' hc' d d' hd hd'
      have e1 := avgDist_unique hd (meanDistance_real nbh c.v)
      have e2 := avgDist_unique hd' (meanDistance_real nbh c'.v)
      rw [e1, e2]
      exact hr2 i _ (by rw [List.getElem?_map, hc']; rfl)

/-- **C31.** `mesh_xsection` is one closed polyline through the vertices of all components in turn
(`none`, that is `Polyline(None)`, if there are none); it fails when `mesh_xsections` does. -/
theorem C31_single (ver : PyVer) (pk : ℕ → Picker) (ko : ℕ → KeyOrder) (pl : Plane ℝ) (m : Mesh ℝ)
    (nbh : Option (V3 ℝ × List (V3 ℝ))) :
    (∀ cs, pl.meshXsections ver pk ko m nbh = .ok cs → cs ≠ [] →
      pl.meshXsection ver pk ko m nbh = .ok (some ⟨(cs.map Section.v).flatten, true⟩)) ∧
    (pl.meshXsections ver pk ko m nbh = .ok [] → pl.meshXsection ver pk ko m nbh = .ok none) ∧
    (∀ e, pl.meshXsections ver pk ko m nbh = .error e →
      pl.meshXsection ver pk ko m nbh = .error e) := by
  unfold Plane.meshXsection
  refine ⟨?_, ?_, ?_⟩
  · intro cs h hne
    rw [h]
    simp [hne, List.flatMap_def]
  · intro h; rw [h]; rfl
  · intro e h; rw [h]; rfl

/-! A tetrahedron cut near its top vertex meets all hypotheses of `C31_manifold`. -/

/-- a tetrahedron -/
def tetra : Mesh ℝ :=
  ⟨[⟨0, 0, 1⟩, ⟨1, 0, -1⟩, ⟨0, 1, -1⟩, ⟨-1, -1, -1⟩], [(0, 1, 2), (0, 2, 3), (0, 3, 1), (1, 3, 2)]⟩

/-- the horizontal plane through the origin -/
def ground : Plane ℝ := ⟨⟨0, 0, 0⟩, ⟨0, 0, 1⟩⟩

theorem tetra_closed : ClosedMesh tetra := by
  refine ⟨?_, ?_⟩
  · intro f hf u v huv
    have hu : u < 4 ∧ v < 4 := by
      simp only [hasEdge, corner, Bool.and_eq_true, decide_eq_true_eq] at huv
      simp only [tetra, List.mem_cons, List.not_mem_nil, or_false] at hf
      rcases hf with rfl | rfl | rfl | rfl <;> simp at huv <;> omega
    obtain ⟨hu, hv⟩ := hu
    have hne : u ≠ v := by
      simp only [hasEdge, Bool.and_eq_true, decide_eq_true_eq] at huv
      exact huv.1.1
    clear huv hf f
    simp only [tetra]
    interval_cases u <;> interval_cases v <;> first | rfl | exact absurd rfl hne
  · simp only [tetra, List.pairwise_cons, SameCorners]
    refine ⟨?_, ?_, ?_, ?_, List.Pairwise.nil⟩ <;> intro g hg <;>
      simp only [List.mem_cons, List.not_mem_nil, or_false] at hg
    · rcases hg with rfl | rfl | rfl <;> intro h
      · exact absurd (h 1) (by decide)
      · exact absurd (h 2) (by decide)
      · exact absurd (h 0) (by decide)
    · rcases hg with rfl | rfl <;> intro h
      · exact absurd (h 1) (by decide)
      · exact absurd (h 0) (by decide)
    · subst hg
      intro h
      exact absurd (h 0) (by decide)

theorem tetra_ok : ValidFaces tetra ∧ (∀ f ∈ tetra.f, ProperFace f) ∧
    (∀ p ∈ tetra.v, ¬ OnPlane ground p) ∧ EdgeManifold tetra ∧ CrossedEdge ground tetra (0, 2) := by
  refine ⟨?_, ?_, ?_, ?_, ?_⟩
  · intro f hf
    simp only [tetra, List.mem_cons, List.not_mem_nil, or_false] at hf ⊢
    rcases hf with rfl | rfl | rfl | rfl <;> simp
  · intro f hf
    simp only [tetra, List.mem_cons, List.not_mem_nil, or_false] at hf
    rcases hf with rfl | rfl | rfl | rfl <;> simp [ProperFace]
  · intro p hp
    simp only [tetra, List.mem_cons, List.not_mem_nil, or_false] at hp
    rcases hp with rfl | rfl | rfl | rfl <;> norm_num [onPlane_iff, ground, height, inner3, vec3]
  · intro u v
    by_cases h : ∃ f ∈ tetra.f, hasEdge f u v = true
    · obtain ⟨f, hf, h⟩ := h
      exact (tetra_closed.1 f hf u v h).le
    · rw [List.filter_eq_nil_iff.mpr (by simpa using h)]
      simp
  · refine ⟨by norm_num, ⟨(0, 1, 2), by simp [tetra], by decide⟩, ⟨0, 0, 1⟩, ⟨0, 1, -1⟩, rfl, rfl, ?_⟩
    norm_num [ground, height, inner3, vec3]

theorem tetra_section (pk : ℕ → Picker) (ko : ℕ → KeyOrder) : ∃ cs c, ground.meshXsections .py3 pk ko tetra = .ok cs ∧
    c ∈ cs ∧ c.closed = true ∧ (⟨0, 1 / 2, 0⟩ : V3 ℝ) ∈ c.v := by
  obtain ⟨cs, ess, h1, h2, h3, h4, h5⟩ := C31_manifold .py3 pk ko ground tetra tetra_ok.1 tetra_ok.2.1
    tetra_ok.2.2.1 tetra_ok.2.2.2.1 (Or.inl tetra_closed)
  obtain ⟨cs', h1', _, h6⟩ := C31_any_mesh .py3 pk ko ground tetra tetra_ok.1 tetra_ok.2.1
    tetra_ok.2.2.1
  rw [h1] at h1'
  injection h1' with h1'
  subst h1'
  obtain ⟨c, hc, hq⟩ := (h6 ⟨0, 1 / 2, 0⟩).mpr ⟨(0, 2), tetra_ok.2.2.2.2, ⟨0, 0, 1⟩, ⟨0, 1, -1⟩, rfl, rfl, by
    norm_num [onPlane_iff, ground, height, inner3, vec3], 1 / 2, by norm_num, by norm_num, by
    ext <;> norm_num [along, vec3]⟩
  exact ⟨cs, c, h1, hc, h5 tetra_closed c hc, hq⟩

end Blmath.Props
