import Verif.Proofs.LoopGraph
import Verif.Proofs.MeshSlice

/-!
From meshes to graphs, for faces that may have a repeated corner.
-/

namespace Blmath.Props
open Blmath.Geometry Blmath.Spec Graph
variable {ν : Type}

namespace LS

/-- the face has a crossed edge with number `k` -/
def FaceHas (im : EdgeMap ν) (f : ℕ × ℕ × ℕ) (k : ℕ) : Prop :=
  ∃ u v, hasEdge f u v = true ∧ im.index u v = some k

theorem opposite_ne {pl : Plane ℝ} {vs : List (V3 ℝ)} {u v : ℕ} (h : Opposite pl vs u v) : u ≠ v := by
  rintro rfl
  obtain ⟨a, b, h1, h2, h3⟩ := h
  rw [h1] at h2
  injection h2 with h2
  subst h2
  nlinarith [mul_self_nonneg (height pl a)]

theorem meets_ne {pl : Plane ℝ} {vs : List (V3 ℝ)} {u v : ℕ} (h : Spec.Meets pl vs u v) : u ≠ v := by
  rintro rfl
  obtain ⟨a, b, h1, h2, h3, _⟩ := h
  rw [h1] at h2
  injection h2 with h2
  exact h3 (by rw [h2])

theorem hasEdge_pair {f : ℕ × ℕ × ℕ} {u v : ℕ} (h : hasEdge f u v = true) :
    SamePair f.1 f.2.1 u v ∨ SamePair f.1 f.2.2 u v ∨ SamePair f.2.1 f.2.2 u v := by
  obtain ⟨a, b, c⟩ := f
  simp only [hasEdge, corner, SamePair, Bool.and_eq_true, decide_eq_true_eq, ne_eq] at *
  omega

theorem pair_hasEdge {f : ℕ × ℕ × ℕ} {u v : ℕ} (hne : u ≠ v)
    (h : SamePair f.1 f.2.1 u v ∨ SamePair f.1 f.2.2 u v ∨ SamePair f.2.1 f.2.2 u v) : hasEdge f u v = true := by
  obtain ⟨a, b, c⟩ := f
  simp only [hasEdge, corner, SamePair, Bool.and_eq_true, decide_eq_true_eq, ne_eq] at *
  omega

theorem faceHas_iff {im : EdgeMap ν} (hne : ∀ u v, im.index u v ≠ none → u ≠ v) (f : ℕ × ℕ × ℕ) (k : ℕ) :
    FaceHas im f k ↔
      im.index f.1 f.2.1 = some k ∨ im.index f.1 f.2.2 = some k ∨ im.index f.2.1 f.2.2 = some k := by
  constructor
  · rintro ⟨u, v, h, hk⟩
    rcases hasEdge_pair h with h | h | h
    · left; rw [index_samePair h]; exact hk
    · right; left; rw [index_samePair h]; exact hk
    · right; right; rw [index_samePair h]; exact hk
  · rintro (h | h | h)
    · exact ⟨_, _, pair_hasEdge (hne _ _ (by rw [h]; simp)) (Or.inl (Or.inl ⟨rfl, rfl⟩)), h⟩
    · exact ⟨_, _, pair_hasEdge (hne _ _ (by rw [h]; simp)) (Or.inr (Or.inl (Or.inl ⟨rfl, rfl⟩))), h⟩
    · exact ⟨_, _, pair_hasEdge (hne _ _ (by rw [h]; simp)) (Or.inr (Or.inr (Or.inl ⟨rfl, rfl⟩))), h⟩

/-- what a face of the section adds: an edge between its two crossed edges, a loop if it has a repeated
corner -/
def Adds (im : EdgeMap ν) (f : ℕ × ℕ × ℕ) (x y : ℕ) : Prop :=
  x < im.values.length ∧ y < im.values.length ∧
    (∀ ver g, addFace ver im g f = addEdge ver g (some x) (some y)) ∧
    (∀ k, FaceHas im f k ↔ k = x ∨ k = y) ∧ (x = y ↔ ¬ ProperFace f)

theorem face_cases {P : ℕ → ℕ → ν → Prop} {D : ℕ → ℕ → Prop} {im : EdgeMap ν}
    (him : GoodMap P D im) (hne : ∀ u v, D u v → u ≠ v) (f : ℕ × ℕ × ℕ)
    (hD : (¬ D f.1 f.2.1 ∧ D f.1 f.2.2 ∧ D f.2.1 f.2.2) ∨
      (D f.1 f.2.1 ∧ ¬ D f.1 f.2.2 ∧ D f.2.1 f.2.2) ∨ (D f.1 f.2.1 ∧ D f.1 f.2.2 ∧ ¬ D f.2.1 f.2.2)) :
    ∃ x y, Adds im f x y := by
  have fl := faceHas_iff (im := im) (fun u v h => hne u v ((him.dom u v).mp h)) f
  have hne' : ∀ {u v i}, im.index u v = some i → u ≠ v := fun h => hne _ _ ((him.dom _ _).mp (by rw [h]; simp))
  obtain ⟨a, b, c⟩ := f
  simp only at hD fl
  rw [← him.dom, ← him.dom, ← him.dom] at hD
  have get : ∀ {o : Option ℕ}, o ≠ none → ∃ x, o = some x := fun h => Option.ne_none_iff_exists'.mp h
  rcases hD with ⟨h0, h1, h2⟩ | ⟨h0, h1, h2⟩ | ⟨h0, h1, h2⟩
  · obtain ⟨x, hx⟩ := get h1
    obtain ⟨y, hy⟩ := get h2
    rw [not_not] at h0
    refine ⟨x, y, him.lt hx, him.lt hy, ?_, ?_, ?_⟩
    · intro ver g; simp [addFace, h0, hx, hy]
    · intro k
      rw [fl, h0, hx, hy]
      simp only [Option.some.injEq, reduceCtorEq, false_or]
      omega
    · have n1 := hne' hx
      have n2 := hne' hy
      simp only [ProperFace]
      constructor
      · rintro rfl
        have := him.inj _ _ _ _ _ hx hy
        unfold SamePair at this; omega
      · intro h
        have : a = b := by omega
        subst this
        rw [hx] at hy; injection hy
  · obtain ⟨x, hx⟩ := get h0
    obtain ⟨y, hy⟩ := get h2
    rw [not_not] at h1
    refine ⟨x, y, him.lt hx, him.lt hy, ?_, ?_, ?_⟩
    · intro ver g; simp [addFace, h1, hx, hy]
    · intro k
      rw [fl, h1, hx, hy]
      simp only [Option.some.injEq, reduceCtorEq, false_or]
      omega
    · have n1 := hne' hx
      have n2 := hne' hy
      simp only [ProperFace]
      constructor
      · rintro rfl
        have := him.inj _ _ _ _ _ hx hy
        unfold SamePair at this; omega
      · intro h
        have : a = c := by omega
        subst this
        rw [index_samePair (Or.inr ⟨rfl, rfl⟩), hy] at hx; injection hx with hx; exact hx.symm
  · obtain ⟨x, hx⟩ := get h0
    obtain ⟨y, hy⟩ := get h1
    rw [not_not] at h2
    refine ⟨x, y, him.lt hx, him.lt hy, ?_, ?_, ?_⟩
    · intro ver g; simp [addFace, hx, hy]
    · intro k
      rw [fl, h2, hx, hy]
      simp only [Option.some.injEq, reduceCtorEq, or_false]
      omega
    · have n1 := hne' hx
      have n2 := hne' hy
      simp only [ProperFace]
      constructor
      · rintro rfl
        have := him.inj _ _ _ _ _ hx hy
        unfold SamePair at this; omega
      · intro h
        have : b = c := by omega
        subst this
        rw [hx] at hy; injection hy

/-- the graph after adding all faces -/
theorem addFaces_spec (ver : PyVer) (im : EdgeMap ν) (fs : List (ℕ × ℕ × ℕ))
    (h : ∀ f ∈ fs, ∃ x y, Adds im f x y) :
    ∀ g : Graph, g.size = im.values.length → LG.SymGraph g.d →
    ∃ g', fs.foldlM (addFace ver im) g = .ok g' ∧ LG.SymGraph g'.d ∧
      ∀ i j, j ∈ adj g'.d i ↔ j ∈ adj g.d i ∨
        ∃ f ∈ fs, FaceHas im f i ∧ FaceHas im f j ∧ (i = j ↔ ¬ ProperFace f) := by
  induction fs with
  | nil => intro g _ hg; exact ⟨g, rfl, hg, by simp⟩
  | cons f fs ih =>
    intro g hs hg
    obtain ⟨x, y, h2, h3, h4, h5, h6⟩ := h f (by simp)
    obtain ⟨d', e1, e2, e3⟩ := LG.addEdge_spec ver g hg x y (hs ▸ h2) (hs ▸ h3)
    obtain ⟨g', f1, f2, f3⟩ := ih (fun f' hf' => h f' (by simp [hf'])) ⟨g.size, d'⟩ hs e2
    refine ⟨g', ?_, f2, ?_⟩
    · rw [List.foldlM_cons, h4, e1]; exact f1
    · intro i j
      have : ((i = x ∧ j = y) ∨ (i = y ∧ j = x)) ↔
          (FaceHas im f i ∧ FaceHas im f j ∧ (i = j ↔ ¬ ProperFace f)) := by
        rw [h5, h5, ← h6]
        omega
      rw [f3, e3, this]
      simp only [List.mem_cons, exists_eq_or_imp, or_assoc]

theorem mem_faceEdges (fs : List (ℕ × ℕ × ℕ)) {u v : ℕ} (hne : u ≠ v) :
    (∃ e ∈ faceEdges fs, SamePair e.1 e.2 u v) ↔ ∃ f ∈ fs, hasEdge f u v = true := by
  unfold faceEdges
  simp only [List.mem_append, List.mem_map]
  constructor
  · rintro ⟨e, (⟨f, hf, rfl⟩ | ⟨f, hf, rfl⟩) | ⟨f, hf, rfl⟩, hs⟩
    · exact ⟨f, hf, pair_hasEdge hne (Or.inl hs)⟩
    · exact ⟨f, hf, pair_hasEdge hne (Or.inr (Or.inr hs))⟩
    · refine ⟨f, hf, pair_hasEdge hne (Or.inr (Or.inl ?_))⟩
      unfold SamePair at hs ⊢; simp only at hs; omega
  · rintro ⟨f, hf, h⟩
    rcases hasEdge_pair h with h | h | h
    · exact ⟨_, Or.inl (Or.inl ⟨f, hf, rfl⟩), h⟩
    · refine ⟨_, Or.inr ⟨f, hf, rfl⟩, ?_⟩
      unfold SamePair at h ⊢; simp only; omega
    · exact ⟨_, Or.inl (Or.inr ⟨f, hf, rfl⟩), h⟩

theorem faceEdges_corners (fs : List (ℕ × ℕ × ℕ)) (f : ℕ × ℕ × ℕ) (hf : f ∈ fs) :
    (∃ e ∈ faceEdges fs, SamePair e.1 e.2 f.1 f.2.1) ∧ (∃ e ∈ faceEdges fs, SamePair e.1 e.2 f.1 f.2.2) ∧
    (∃ e ∈ faceEdges fs, SamePair e.1 e.2 f.2.1 f.2.2) := by
  unfold faceEdges
  simp only [List.mem_append, List.mem_map]
  exact ⟨⟨_, Or.inl (Or.inl ⟨f, hf, rfl⟩), Or.inl ⟨rfl, rfl⟩⟩, ⟨_, Or.inr ⟨f, hf, rfl⟩, Or.inr ⟨rfl, rfl⟩⟩,
    ⟨_, Or.inl (Or.inr ⟨f, hf, rfl⟩), Or.inl ⟨rfl, rfl⟩⟩⟩

/-- The intersection graph of a mesh whose faces may have repeated corners. -/
theorem slice_graph_any {α : Type} [Num α] (ver : PyVer) (pa : Plane α) (ma : Mesh α)
    (pl : Plane ℝ) (m : Mesh ℝ) (hvl : ma.v.length = m.v.length) (hv : ValidFaces m)
    (hoff : ∀ p ∈ m.v, ¬ OnPlane pl p) (fs : List (ℕ × ℕ × ℕ))
    (hfs : fs = m.f.filter fun f => open Classical in decide (Straddles pl m.v f))
    (hrow : ∀ f ∈ m.f, ∀ u v, corner f u = true → corner f v = true → ∀ a b, ma.v[u]? = some a →
      ma.v[v]? = some b → ((pa.lineSegmentXsectionsRow a b).2 = true ↔ Opposite pl m.v u v)) :
    ∃ im g, ∃ E : ℕ → ℕ × ℕ, intersectionMap pa ma fs = .ok im ∧
      fs.foldlM (addFace ver im) (Graph.new im.values.length) = .ok g ∧ LG.SymGraph g.d ∧
      (∀ i, i < im.values.length → CrossedEdge pl m (E i) ∧
        ∃ q, im.values[i]? = some q ∧ RowPoint pa ma.v (E i).1 (E i).2 q) ∧
      (∀ i j, i < im.values.length → j < im.values.length → E i = E j → i = j) ∧
      (∀ e, CrossedEdge pl m e → ∃ i, i < im.values.length ∧ E i = e) ∧
      (∀ i, adj g.d i ≠ ∅ ↔ i < im.values.length) ∧
      (∀ i j, j ∈ adj g.d i ↔ i < im.values.length ∧ j < im.values.length ∧ ∃ f ∈ m.f,
        hasEdge f (E i).1 (E i).2 = true ∧ hasEdge f (E j).1 (E j).2 = true ∧ (i = j ↔ ¬ ProperFace f)) ∧
      (∀ i f, i < im.values.length → f ∈ m.f → ProperFace f → hasEdge f (E i).1 (E i).2 = true →
        ∃ j, ∀ k, (k < im.values.length ∧ k ≠ i ∧ hasEdge f (E k).1 (E k).2 = true) ↔ k = j) := by
  have hfm : ∀ f, f ∈ fs ↔ f ∈ m.f ∧ Straddles pl m.v f := by
    intro f; rw [hfs]; simp
  have opp_symm : ∀ u v, Opposite pl m.v u v → Opposite pl m.v v u := by
    rintro u v ⟨a, b, h1, h2, h3⟩
    exact ⟨b, a, h2, h1, by rw [mul_comm]; exact h3⟩
  obtain ⟨im, him, hgood⟩ := intersectionMap_any pa ma fs
    (fun f hf => by rw [hvl]; exact hv f ((hfm f).mp hf).1) (Opposite pl m.v) opp_symm (by
      intro e he a b ha hb
      unfold faceEdges at he
      simp only [List.mem_append, List.mem_map] at he
      obtain ⟨f, hf, c1, c2⟩ : ∃ f ∈ fs, corner f e.1 = true ∧ corner f e.2 = true := by
        rcases he with (⟨f, hf, rfl⟩ | ⟨f, hf, rfl⟩) | ⟨f, hf, rfl⟩ <;> exact ⟨f, hf, by simp [corner]⟩
      exact hrow f ((hfm f).mp hf).1 _ _ c1 c2 a b ha hb)
  have hD : ∀ u v, ((∃ e ∈ faceEdges fs, SamePair e.1 e.2 u v) ∧ Opposite pl m.v u v) ↔
      (∃ f ∈ m.f, hasEdge f u v = true) ∧ Opposite pl m.v u v := by
    intro u v
    constructor
    · rintro ⟨h, ho⟩
      obtain ⟨f, hf, h⟩ := (mem_faceEdges fs (opposite_ne ho)).mp h
      exact ⟨⟨f, ((hfm f).mp hf).1, h⟩, ho⟩
    · rintro ⟨⟨f, hf, h⟩, ho⟩
      refine ⟨(mem_faceEdges fs (opposite_ne ho)).mpr ⟨f, (hfm f).mpr ⟨hf, ?_⟩, h⟩, ho⟩
      simp only [hasEdge, Bool.and_eq_true] at h
      exact (straddles_cases pl m hoff f (hv f hf)).2 u v h.1.2 h.2 ho
  have hcases : ∀ f ∈ fs, ∃ x y, Adds im f x y := by
    intro f hf
    have hf' := (hfm f).mp hf
    apply face_cases hgood (fun u v h => opposite_ne h.2) f
    obtain ⟨e1, e2, e3⟩ := faceEdges_corners fs f hf
    simp only [e1, e2, e3, true_and]
    exact (straddles_cases pl m hoff f (hv f hf'.1)).1 hf'.2
  obtain ⟨g, hg1, hg2, hg3⟩ := addFaces_spec ver im fs hcases (Graph.new im.values.length) rfl
    LG.symGraph_nil
  have hg3' : ∀ i j, j ∈ adj g.d i ↔ ∃ f ∈ fs, FaceHas im f i ∧ FaceHas im f j ∧ (i = j ↔ ¬ ProperFace f) := by
    intro i j; rw [hg3]; simp [Graph.new, adj]
  have hE : ∀ i, ∃ e : ℕ × ℕ, i < im.values.length → e.1 < e.2 ∧ im.index e.1 e.2 = some i := by
    intro i
    by_cases hi : i < im.values.length
    · obtain ⟨u, v, h⟩ := hgood.surj i hi
      have hne : u ≠ v := opposite_ne ((hgood.dom u v).mp (by rw [h]; simp)).2
      rcases lt_or_gt_of_ne hne with h' | h'
      · exact ⟨(u, v), fun _ => ⟨h', h⟩⟩
      · exact ⟨(v, u), fun _ => ⟨h', by rw [index_samePair (Or.inr ⟨rfl, rfl⟩)]; exact h⟩⟩
    · exact ⟨(0, 0), fun h => absurd h hi⟩
  choose E hE using hE
  have hcross : ∀ i, i < im.values.length → CrossedEdge pl m (E i) := by
    intro i hi
    obtain ⟨h1, h2⟩ := hE i hi
    have := (hD _ _).mp ((hgood.dom (E i).1 (E i).2).mp (by rw [h2]; simp))
    exact ⟨h1, this.1, this.2⟩
  have hpair : ∀ u v i, im.index u v = some i → SamePair u v (E i).1 (E i).2 := by
    intro u v i h
    exact hgood.inj _ _ _ _ _ h (hE i (hgood.lt h)).2
  have hhas : ∀ f i, FaceHas im f i ↔ i < im.values.length ∧ hasEdge f (E i).1 (E i).2 = true := by
    intro f i
    constructor
    · rintro ⟨u, v, h, hi⟩
      refine ⟨hgood.lt hi, ?_⟩
      rcases hpair u v i hi with ⟨h1, h2⟩ | ⟨h1, h2⟩
      · rw [← h1, ← h2]; exact h
      · rw [← h1, ← h2, hasEdge_symm]; exact h
    · rintro ⟨hi, h⟩
      exact ⟨_, _, h, (hE i hi).2⟩
  have hin : ∀ i f, i < im.values.length → f ∈ m.f → hasEdge f (E i).1 (E i).2 = true → f ∈ fs := by
    intro i f hi hf hfe
    have ho := (hcross i hi).2.2
    simp only [hasEdge, Bool.and_eq_true] at hfe
    exact (hfm f).mpr ⟨hf, (straddles_cases pl m hoff f (hv f hf)).2 _ _ hfe.1.2 hfe.2 ho⟩
  have hadj : ∀ i j, j ∈ adj g.d i ↔ i < im.values.length ∧ j < im.values.length ∧ ∃ f ∈ m.f,
        hasEdge f (E i).1 (E i).2 = true ∧ hasEdge f (E j).1 (E j).2 = true ∧ (i = j ↔ ¬ ProperFace f) := by
    intro i j
    rw [hg3']
    constructor
    · rintro ⟨f, hf, h1, h2, h3⟩
      rw [hhas] at h1 h2
      exact ⟨h1.1, h2.1, f, ((hfm f).mp hf).1, h1.2, h2.2, h3⟩
    · rintro ⟨hi, hj, f, hf, h1, h2, h3⟩
      exact ⟨f, hin i f hi hf h1, (hhas f i).mpr ⟨hi, h1⟩, (hhas f j).mpr ⟨hj, h2⟩, h3⟩
  refine ⟨im, g, E, him, hg1, hg2, ?_, ?_, ?_, ?_, hadj, ?_⟩
  · intro i hi
    exact ⟨hcross i hi, hgood.value _ _ i (hE i hi).2⟩
  · intro i j hi hj h
    have h1 := (hE i hi).2
    have h2 := (hE j hj).2
    rw [h, h2] at h1
    injection h1 with h1
    exact h1.symm
  · intro e he
    have := (hgood.dom e.1 e.2).mpr ((hD _ _).mpr ⟨he.2.1, he.2.2⟩)
    obtain ⟨i, hi⟩ := Option.ne_none_iff_exists'.mp this
    refine ⟨i, hgood.lt hi, ?_⟩
    have h1 := hpair _ _ _ hi
    have h2 := (hE i (hgood.lt hi)).1
    have h3 := he.1
    unfold SamePair at h1
    apply Prod.ext <;> omega
  · intro i
    constructor
    · intro h
      obtain ⟨j, hj⟩ := Finset.nonempty_iff_ne_empty.mpr h
      exact ((hadj i j).mp hj).1
    · intro hi
      obtain ⟨_, ⟨f, hf, hfe⟩, ho⟩ := hcross i hi
      obtain ⟨x, y, hx⟩ := hcases f (hin i f hi hf hfe)
      obtain ⟨_, _, _, h5, h6⟩ := hx
      have hi' := (h5 i).mp ((hhas f i).mpr ⟨hi, hfe⟩)
      rcases hi' with rfl | rfl
      · exact Finset.ne_empty_of_mem ((hg3' i y).mpr ⟨f, hin i f hi hf hfe, (h5 i).mpr (Or.inl rfl), (h5 y).mpr (Or.inr rfl), h6⟩)
      · exact Finset.ne_empty_of_mem ((hg3' i x).mpr ⟨f, hin i f hi hf hfe, (h5 i).mpr (Or.inr rfl), (h5 x).mpr (Or.inl rfl),
          by rw [← h6, eq_comm]⟩)
  · intro i f hi hf hpf hfe
    obtain ⟨x, y, hx⟩ := hcases f (hin i f hi hf hfe)
    obtain ⟨_, _, _, h5, h6⟩ := hx
    have hxy : x ≠ y := fun h => h6.mp h hpf
    have hi' := (h5 i).mp ((hhas f i).mpr ⟨hi, hfe⟩)
    have hk : ∀ k, (k < im.values.length ∧ k ≠ i ∧ hasEdge f (E k).1 (E k).2 = true) ↔ k ≠ i ∧ (k = x ∨ k = y) := by
      intro k
      rw [← h5, hhas]
      tauto
    rcases hi' with rfl | rfl
    · exact ⟨y, fun k => by rw [hk]; omega⟩
    · exact ⟨x, fun k => by rw [hk]; omega⟩

/-- Degrees in the intersection graph: if the proper faces form a closed mesh, an edge has two other
neighbours, or none if it is an edge of no proper face. -/
theorem slice_degrees (F : List (ℕ × ℕ × ℕ)) (n : ℕ) (E : ℕ → ℕ × ℕ) (B : ℕ → Finset ℕ)
    (hB : ∀ i j, j ∈ B i ↔ i < n ∧ j < n ∧ i ≠ j ∧ ∃ f ∈ F,
      hasEdge f (E i).1 (E i).2 = true ∧ hasEdge f (E j).1 (E j).2 = true)
    (hlt : ∀ i, i < n → (E i).1 < (E i).2)
    (hinj : ∀ i j, i < n → j < n → E i = E j → i = j)
    (hother : ∀ i f, i < n → f ∈ F → hasEdge f (E i).1 (E i).2 = true →
        ∃ j, ∀ k, (k < n ∧ k ≠ i ∧ hasEdge f (E k).1 (E k).2 = true) ↔ k = j)
    (hc1 : ∀ f ∈ F, ∀ u v, hasEdge f u v = true → (F.filter fun f => hasEdge f u v).length = 2)
    (hc2 : F.Pairwise fun f g => ¬ SameCorners f g) (i : ℕ) (hi : i < n) :
    (B i).card = open Classical in if ∃ f ∈ F, hasEdge f (E i).1 (E i).2 = true then 2 else 0 := by
  by_cases hex : ∃ f ∈ F, hasEdge f (E i).1 (E i).2 = true
  · rw [if_pos hex]
    have hx : ∀ f, ∃ j, f ∈ F → hasEdge f (E i).1 (E i).2 = true →
        ∀ k, (k < n ∧ k ≠ i ∧ hasEdge f (E k).1 (E k).2 = true) ↔ k = j := by
      intro f
      by_cases h : f ∈ F ∧ hasEdge f (E i).1 (E i).2 = true
      · obtain ⟨j, hj⟩ := hother i f hi h.1 h.2
        exact ⟨j, fun _ _ => hj⟩
      · exact ⟨0, fun h1 h2 => absurd ⟨h1, h2⟩ h⟩
    choose nbr hnbr using hx
    have hBi : B i = ((F.filter fun f => hasEdge f (E i).1 (E i).2).map nbr).toFinset := by
      ext j
      rw [hB]
      simp only [List.mem_toFinset, List.mem_map, List.mem_filter]
      constructor
      · rintro ⟨_, hj, hne, f, hf, h1, h2⟩
        exact ⟨f, ⟨hf, h1⟩, ((hnbr f hf h1 j).mp ⟨hj, Ne.symm hne, h2⟩).symm⟩
      · rintro ⟨f, ⟨hf, h1⟩, h2⟩
        obtain ⟨hj, hji, h3⟩ := (hnbr f hf h1 j).mpr h2.symm
        exact ⟨hi, hj, Ne.symm hji, f, hf, h1, h3⟩
    obtain ⟨f0, hf0, he0⟩ := hex
    have hlen := hc1 f0 hf0 _ _ he0
    have hpw : (F.filter fun f => hasEdge f (E i).1 (E i).2).Pairwise
        fun f g => ¬ SameCorners f g := hc2.filter _
    have hmem : ∀ f ∈ F.filter fun f => hasEdge f (E i).1 (E i).2,
        f ∈ F ∧ hasEdge f (E i).1 (E i).2 = true := fun f hf => List.mem_filter.mp hf
    rw [hBi]
    generalize (F.filter fun f => hasEdge f (E i).1 (E i).2) = F' at *
    match F', hlen with
    | [f1, f2], _ =>
      obtain ⟨m1, e1⟩ := hmem f1 (by simp)
      obtain ⟨m2, e2⟩ := hmem f2 (by simp)
      have hns : ¬ SameCorners f1 f2 := by
        rw [List.pairwise_cons] at hpw
        exact hpw.1 f2 (by simp)
      have hne : nbr f1 ≠ nbr f2 := by
        intro heq
        obtain ⟨a1, a2, a3⟩ := (hnbr f1 m1 e1 (nbr f1)).mpr rfl
        obtain ⟨b1, b2, b3⟩ := (hnbr f2 m2 e2 (nbr f2)).mpr rfl
        rw [← heq] at b3
        apply hns
        exact sameCorners_of_two_edges f1 f2 (E i) (E (nbr f1))
          (hlt i hi) (hlt _ a1) (fun h => a2 (hinj i _ hi a1 h).symm) e1 a3 e2 b3
      simp only [List.map_cons, List.map_nil, List.toFinset_cons, List.toFinset_nil]
      rw [Finset.card_insert_of_notMem (by simpa using hne)]
      simp
  · rw [if_neg hex, Finset.card_eq_zero]
    apply Finset.eq_empty_of_forall_notMem
    intro j hj
    obtain ⟨_, _, _, f, hf, h1, _⟩ := (hB i j).mp hj
    exact hex ⟨f, hf, h1⟩

end LS
end Blmath.Props
