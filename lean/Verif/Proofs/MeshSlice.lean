import Verif.Proofs.MeshGraph
import Verif.Props.EdgeMap
import Verif.Props.Plane
import Verif.Spec.MeshSlice
import Mathlib.Data.Finset.Dedup
import Mathlib.Data.Finset.Card

/-!
From meshes to graphs.
-/

namespace Blmath.Props
open Blmath.Geometry Blmath.Spec Graph
variable {ν : Type}

/-- what the intersection map knows -/
structure GoodMap (P : ℕ → ℕ → ν → Prop) (D : ℕ → ℕ → Prop) (m : EdgeMap ν) : Prop where
  value : ∀ u v i, m.index u v = some i → ∃ q, m.values[i]? = some q ∧ P u v q
  dom : ∀ u v, m.index u v ≠ none ↔ D u v
  inj : ∀ u v u' v' i, m.index u v = some i → m.index u' v' = some i → SamePair u v u' v'
  surj : ∀ i, i < m.values.length → ∃ u v, m.index u v = some i

theorem GoodMap.lt {P : ℕ → ℕ → ν → Prop} {D : ℕ → ℕ → Prop} {m : EdgeMap ν}
    (h : GoodMap P D m) {u v i : ℕ} (hi : m.index u v = some i) : i < m.values.length := by
  obtain ⟨q, hq, _⟩ := h.value u v i hi
  by_contra hc
  rw [List.getElem?_eq_none (by omega)] at hq
  cases hq

theorem samePair_symm {u v a b : ℕ} (h : SamePair u v a b) : SamePair a b u v := by
  rcases h with ⟨h1, h2⟩ | ⟨h1, h2⟩
  · exact Or.inl ⟨h1.symm, h2.symm⟩
  · exact Or.inr ⟨h2.symm, h1.symm⟩

theorem index_samePair {m : EdgeMap ν} {u v a b : ℕ} (h : SamePair u v a b) :
    m.index u v = m.index a b := by
  rcases h with ⟨rfl, rfl⟩ | ⟨rfl, rfl⟩
  · rfl
  · unfold EdgeMap.index; rw [order_comm u v]

theorem goodMap_fold (P : ℕ → ℕ → ν → Prop) (hP : ∀ u v q, P u v q → P v u q) :
    ∀ (L : List (ν × (ℕ × ℕ))) (D : ℕ → ℕ → Prop) (m : EdgeMap ν), GoodMap P D m →
      (∀ x ∈ L, P x.2.1 x.2.2 x.1) →
      GoodMap P (fun u v => D u v ∨ ∃ x ∈ L, SamePair x.2.1 x.2.2 u v) (L.foldl addIfNew m) := by
  intro L
  induction L with
  | nil => intro D m h _; simpa using h
  | cons x L ih =>
    intro D m h hL
    obtain ⟨q, a, b⟩ := x
    have hx : P a b q := hL (q, a, b) (by simp)
    have hstep : GoodMap P (fun u v => D u v ∨ SamePair a b u v) (addIfNew m (q, a, b)) := by
      unfold addIfNew
      simp only
      by_cases hc : m.contains a b = true
      · rw [if_pos hc]
        rw [edgeMap_contains_eq] at hc
        refine ⟨h.value, ?_, h.inj, h.surj⟩
        intro u v
        rw [h.dom]
        constructor
        · exact Or.inl
        · rintro (hd | hs)
          · exact hd
          · rw [← h.dom, ← index_samePair hs]
            exact Option.isSome_iff_ne_none.mp hc
      · rw [if_neg hc]
        rw [edgeMap_contains_eq, Option.isSome_iff_ne_none, not_not] at hc
        have hvals : (m.add a b q).values = m.values ++ [q] := rfl
        refine ⟨?_, ?_, ?_, ?_⟩
        · intro u v i hi
          rw [edgeMap_index_add] at hi
          rw [hvals]
          by_cases hs : SamePair a b u v
          · rw [if_pos hs] at hi
            injection hi with hi
            subst hi
            refine ⟨q, by simp, ?_⟩
            rcases hs with ⟨rfl, rfl⟩ | ⟨rfl, rfl⟩
            · exact hx
            · exact hP _ _ _ hx
          · rw [if_neg hs] at hi
            obtain ⟨q', h1, h2⟩ := h.value u v i hi
            refine ⟨q', ?_, h2⟩
            rw [List.getElem?_append_left (h.lt hi)]; exact h1
        · intro u v
          rw [edgeMap_index_add]
          by_cases hs : SamePair a b u v
          · simp [hs]
          · rw [if_neg hs, h.dom]; simp [hs]
        · intro u v u' v' i hi hi'
          rw [edgeMap_index_add] at hi hi'
          by_cases hs : SamePair a b u v <;> by_cases hs' : SamePair a b u' v'
          · rcases hs with ⟨rfl, rfl⟩ | ⟨rfl, rfl⟩
            · exact hs'
            · unfold SamePair at hs' ⊢; omega
          · rw [if_pos hs] at hi; rw [if_neg hs'] at hi'
            injection hi with hi
            have := h.lt hi'
            omega
          · rw [if_neg hs] at hi; rw [if_pos hs'] at hi'
            injection hi' with hi'
            have := h.lt hi
            omega
          · rw [if_neg hs] at hi; rw [if_neg hs'] at hi'
            exact h.inj _ _ _ _ _ hi hi'
        · intro i hi
          rw [hvals, List.length_append, List.length_singleton] at hi
          by_cases hl : i < m.values.length
          · obtain ⟨u, v, huv⟩ := h.surj i hl
            refine ⟨u, v, ?_⟩
            rw [edgeMap_index_add, if_neg]
            · exact huv
            · intro hs
              rw [index_samePair hs] at hc
              rw [hc] at huv
              cases huv
          · refine ⟨a, b, ?_⟩
            rw [edgeMap_index_add, if_pos (show SamePair a b a b from Or.inl ⟨rfl, rfl⟩)]
            congr 1; omega
    have := ih _ _ hstep fun y hy => hL y (List.mem_cons_of_mem _ hy)
    rw [List.foldl_cons]
    refine ⟨this.value, ?_, this.inj, this.surj⟩
    intro u v
    rw [this.dom]
    simp only [List.mem_cons, exists_eq_or_imp, or_assoc]

theorem goodMap_empty (P : ℕ → ℕ → ν → Prop) :
    GoodMap P (fun _ _ => False) (EdgeMap.empty : EdgeMap ν) := by
  have h : ∀ u v, (EdgeMap.empty : EdgeMap ν).index u v = none := by
    intro u v; simp [EdgeMap.index, EdgeMap.empty]
  refine ⟨?_, ?_, ?_, ?_⟩
  · intro u v i hi; rw [h] at hi; cases hi
  · intro u v; simp [h]
  · intro u v u' v' i hi; rw [h] at hi; cases hi
  · intro i hi; simp [EdgeMap.empty] at hi

/-- One row of the batch method. -/
theorem segment_row (pl : Plane ℝ) (a b : V3 ℝ) :
    ((pl.lineSegmentXsectionsRow a b).2 = true ↔ height pl a ≠ height pl b ∧
      ¬ (0 < height pl a ∧ 0 < height pl b) ∧ ¬ (height pl a < 0 ∧ height pl b < 0)) ∧
    ((pl.lineSegmentXsectionsRow a b).2 = true →
      OnPlane pl (pl.lineSegmentXsectionsRow a b).1 ∧
      OnSegment a b (pl.lineSegmentXsectionsRow a b).1) := by
  have h := (C27_any_arithmetic pl a b).2
  have hs := C26_sides pl a b
  refine ⟨?_, ?_⟩
  · have e : (pl.lineSegmentXsectionsRow a b).2 = true ↔ ∃ q, pl.lineSegmentXsection a b = some q := by
      rw [h]
      cases (pl.lineSegmentXsectionsRow a b).2 <;> simp
    rw [e, hs]
  · intro hv
    rw [hv, if_pos rfl] at h
    exact ((C26_segment pl a b _).mp h).2

theorem meets_iff_opposite (pl : Plane ℝ) (vs : List (V3 ℝ)) (hoff : ∀ p ∈ vs, ¬ OnPlane pl p)
    (u v : ℕ) : Meets pl vs u v ↔ Opposite pl vs u v := by
  have hne : ∀ (i : ℕ) (a : V3 ℝ), vs[i]? = some a → height pl a ≠ 0 := by
    intro i a ha h0
    exact hoff a (List.mem_of_getElem? ha) ((onPlane_iff pl a).mpr h0)
  constructor
  · rintro ⟨a, b, ha, hb, h1, h2, h3⟩
    refine ⟨a, b, ha, hb, ?_⟩
    rw [mul_neg_iff]
    rcases lt_or_gt_of_ne (hne _ _ ha) with h4 | h4 <;> rcases lt_or_gt_of_ne (hne _ _ hb) with h5 | h5
    · exact absurd ⟨h4, h5⟩ h3
    · exact Or.inr ⟨h4, h5⟩
    · exact Or.inl ⟨h4, h5⟩
    · exact absurd ⟨h4, h5⟩ h2
  · rintro ⟨a, b, ha, hb, h⟩
    refine ⟨a, b, ha, hb, ?_⟩
    rcases mul_neg_iff.mp h with ⟨h1, h2⟩ | ⟨h1, h2⟩
    · exact ⟨by linarith, fun h => by linarith [h.2], fun h => by linarith [h.1]⟩
    · exact ⟨by linarith, fun h => by linarith [h.1], fun h => by linarith [h.2]⟩

theorem meets_symm {pl : Plane ℝ} {vs : List (V3 ℝ)} {u v : ℕ} (h : Meets pl vs u v) :
    Meets pl vs v u := by
  obtain ⟨a, b, ha, hb, h1, h2, h3⟩ := h
  exact ⟨b, a, hb, ha, Ne.symm h1, fun h => h2 h.symm, fun h => h3 h.symm⟩

theorem onSegment_symm {a b q : V3 ℝ} (h : OnSegment a b q) : OnSegment b a q := by
  obtain ⟨t, h0, h1, rfl⟩ := h
  refine ⟨1 - t, by linarith, by linarith, ?_⟩
  ext <;> simp only [along, vec3] <;> ring

/-- the point computed for the segment between two mesh vertices, in one direction or the other -/
def RowPoint {α : Type} [Num α] (pl : Plane α) (vs : List (V3 α)) (u v : ℕ) (q : V3 α) : Prop :=
  ∃ a b, vs[u]? = some a ∧ vs[v]? = some b ∧
    (((pl.lineSegmentXsectionsRow a b).2 = true ∧ q = (pl.lineSegmentXsectionsRow a b).1) ∨
      ((pl.lineSegmentXsectionsRow b a).2 = true ∧ q = (pl.lineSegmentXsectionsRow b a).1))

/-- The intersection map of a list of valid faces, in any arithmetic in which the batch method finds
the segments of a symmetric relation. -/
theorem intersectionMap_any {α : Type} [Num α] (pl : Plane α) (m : Mesh α) (fs : List (ℕ × ℕ × ℕ))
    (hv : ∀ f ∈ fs, f.1 < m.v.length ∧ f.2.1 < m.v.length ∧ f.2.2 < m.v.length)
    (Opp : ℕ → ℕ → Prop) (hsymm : ∀ u v, Opp u v → Opp v u)
    (hrow : ∀ e ∈ faceEdges fs, ∀ a b, m.v[e.1]? = some a → m.v[e.2]? = some b →
      ((pl.lineSegmentXsectionsRow a b).2 = true ↔ Opp e.1 e.2)) :
    ∃ im, intersectionMap pl m fs = .ok im ∧
      GoodMap (RowPoint pl m.v) (fun u v => (∃ e ∈ faceEdges fs, SamePair e.1 e.2 u v) ∧ Opp u v) im := by
  have hlt : ∀ e ∈ faceEdges fs, e.1 < m.v.length ∧ e.2 < m.v.length := by
    intro e he
    unfold faceEdges at he
    simp only [List.mem_append, List.mem_map] at he
    rcases he with (⟨f, hf, rfl⟩ | ⟨f, hf, rfl⟩) | ⟨f, hf, rfl⟩
    · exact ⟨(hv f hf).1, (hv f hf).2.1⟩
    · exact ⟨(hv f hf).2.1, (hv f hf).2.2⟩
    · exact ⟨(hv f hf).2.2, (hv f hf).1⟩
  unfold intersectionMap
  simp only
  generalize faceEdges fs = es at hlt hrow ⊢
  obtain ⟨A, hA, hA'⟩ := takeRows_ok m.v (es.map Prod.fst) (by
    intro i hi
    obtain ⟨e, he, rfl⟩ := List.mem_map.mp hi
    exact (hlt e he).1)
  obtain ⟨B, hB, hB'⟩ := takeRows_ok m.v (es.map Prod.snd) (by
    intro i hi
    obtain ⟨e, he, rfl⟩ := List.mem_map.mp hi
    exact (hlt e he).2)
  have hlen : A.length = B.length := by
    have h1 := hA'.length_eq
    have h2 := hB'.length_eq
    simp at h1 h2; omega
  rw [hA, hB]
  simp only [ok_bind, Plane.lineSegmentXsections, hlen, if_true, pure_eq_ok]
  refine ⟨_, rfl, ?_⟩
  set rows := List.zipWith pl.lineSegmentXsectionsRow A B with hrows
  set L := (masked (rows.map Prod.fst) (rows.map Prod.snd)).zip (masked es (rows.map Prod.snd)) with hL
  have hmem : ∀ x : V3 α × (ℕ × ℕ), x ∈ L ↔ ∃ a b, x.2 ∈ es ∧ m.v[x.2.1]? = some a ∧ m.v[x.2.2]? = some b ∧
      (pl.lineSegmentXsectionsRow a b).2 = true ∧ x.1 = (pl.lineSegmentXsectionsRow a b).1 := by
    rw [hL, hrows]
    clear hL hrows L rows hA hB hlt hlen hrow
    induction es generalizing A B with
    | nil => cases hA'; cases hB'; simp [masked]
    | cons e es ih =>
      cases hA' with
      | @cons _ a _ A ha hA' =>
      cases hB' with
      | @cons _ b _ B hb hB' =>
      intro x
      have ih' := ih A hA' B hB' x
      cases hrow : (pl.lineSegmentXsectionsRow a b).2
      · have e1 : ∀ {β : Type} (z : β) (zs : List β) (ms : List Bool),
            masked (z :: zs) (false :: ms) = masked zs ms := by intros; simp [masked]
        simp only [List.zipWith_cons_cons, List.map_cons, hrow, e1]
        rw [ih']
        constructor
        · rintro ⟨a', b', h1, h2⟩; exact ⟨a', b', List.mem_cons_of_mem _ h1, h2⟩
        · rintro ⟨a', b', h1, h2, h3, h4, h5⟩
          rcases List.mem_cons.mp h1 with h1 | h1
          · rw [h1] at h2 h3
            rw [ha] at h2; rw [hb] at h3
            injection h2 with h2; injection h3 with h3
            subst h2 h3
            rw [hrow] at h4; cases h4
          · exact ⟨a', b', h1, h2, h3, h4, h5⟩
      · have e1 : ∀ {β : Type} (z : β) (zs : List β) (ms : List Bool),
            masked (z :: zs) (true :: ms) = z :: masked zs ms := by intros; simp [masked]
        simp only [List.zipWith_cons_cons, List.map_cons, hrow, e1, List.zip_cons_cons, List.mem_cons]
        rw [ih']
        constructor
        · rintro (rfl | ⟨a', b', h1, h2⟩)
          · exact ⟨a, b, Or.inl rfl, ha, hb, hrow, rfl⟩
          · exact ⟨a', b', Or.inr h1, h2⟩
        · rintro ⟨a', b', h1 | h1, h2, h3, h4, h5⟩
          · left
            rw [h1] at h2 h3
            rw [ha] at h2; rw [hb] at h3
            injection h2 with h2; injection h3 with h3
            subst h2 h3
            exact Prod.ext h5 h1
          · exact Or.inr ⟨a', b', h1, h2, h3, h4, h5⟩
  have hP : ∀ u v q, RowPoint pl m.v u v q → RowPoint pl m.v v u q := by
    rintro u v q ⟨a, b, h1, h2, h3⟩
    exact ⟨b, a, h2, h1, h3.symm⟩
  have hgood := goodMap_fold (RowPoint pl m.v) hP L _ _ (goodMap_empty _) (by
    intro x hx
    obtain ⟨a, b, _, h2, h3, h4, h5⟩ := (hmem x).mp hx
    exact ⟨a, b, h2, h3, Or.inl ⟨h4, h5⟩⟩)
  refine ⟨hgood.value, ?_, hgood.inj, hgood.surj⟩
  intro u v
  rw [hgood.dom]
  simp only [false_or]
  constructor
  · rintro ⟨x, hx, hs⟩
    obtain ⟨a, b, h1, h2, h3, h4, h5⟩ := (hmem x).mp hx
    have hm := (hrow x.2 h1 a b h2 h3).mp h4
    refine ⟨⟨x.2, h1, hs⟩, ?_⟩
    rcases hs with ⟨h7, h8⟩ | ⟨h7, h8⟩
    · rw [h7, h8] at hm; exact hm
    · rw [h7, h8] at hm; exact hsymm _ _ hm
  · rintro ⟨⟨e, he, hs⟩, hm⟩
    have ho : Opp e.1 e.2 := by
      rcases hs with ⟨h7, h8⟩ | ⟨h7, h8⟩
      · rw [h7, h8]; exact hm
      · rw [h7, h8]; exact hsymm _ _ hm
    have g1 := List.getElem?_eq_getElem (hlt e he).1
    have g2 := List.getElem?_eq_getElem (hlt e he).2
    exact ⟨((pl.lineSegmentXsectionsRow _ _).1, e), (hmem _).mpr ⟨_, _, he, g1, g2,
      (hrow e he _ _ g1 g2).mpr ho, rfl⟩, hs⟩

theorem rowPoint_real {pl : Plane ℝ} {m : Mesh ℝ} {u v : ℕ} {q : V3 ℝ} (h : RowPoint pl m.v u v q) :
    CrossPoint pl m (u, v) q := by
  obtain ⟨a, b, h2, h3, h4 | h4⟩ := h
  · have := (segment_row pl a b).2 h4.1
    rw [← h4.2] at this
    exact ⟨a, b, h2, h3, this⟩
  · have := (segment_row pl b a).2 h4.1
    rw [← h4.2] at this
    exact ⟨a, b, h2, h3, this.1, onSegment_symm this.2⟩

/-- The intersection map of a list of valid faces. -/
theorem intersectionMap_spec (pl : Plane ℝ) (m : Mesh ℝ) (fs : List (ℕ × ℕ × ℕ))
    (hv : ∀ f ∈ fs, f.1 < m.v.length ∧ f.2.1 < m.v.length ∧ f.2.2 < m.v.length) :
    ∃ im, intersectionMap pl m fs = .ok im ∧
      GoodMap (fun u v q => CrossPoint pl m (u, v) q)
        (fun u v => (∃ e ∈ faceEdges fs, SamePair e.1 e.2 u v) ∧ Meets pl m.v u v) im := by
  obtain ⟨im, h1, h2⟩ := intersectionMap_any pl m fs hv (Meets pl m.v) (fun _ _ => meets_symm) (by
    intro e _ a b ha hb
    rw [(segment_row pl a b).1]
    unfold Meets
    simp only [ha, hb, Option.some.injEq, exists_and_left, exists_eq_left'])
  refine ⟨im, h1, fun u v i hi => ?_, h2.dom, h2.inj, h2.surj⟩
  obtain ⟨q, hq, hp⟩ := h2.value u v i hi
  exact ⟨q, hq, rowPoint_real hp⟩

/-- the graph edge contributed by one face -/
def FaceLink (im : EdgeMap ν) (f : ℕ × ℕ × ℕ) (i j : ℕ) : Prop :=
  i ≠ j ∧ ∃ u v u' v', hasEdge f u v = true ∧ hasEdge f u' v' = true ∧
    im.index u v = some i ∧ im.index u' v' = some j

theorem hasEdge_iff (f : ℕ × ℕ × ℕ) (hf : ProperFace f) (u v : ℕ) :
    hasEdge f u v = true ↔
      SamePair f.1 f.2.1 u v ∨ SamePair f.1 f.2.2 u v ∨ SamePair f.2.1 f.2.2 u v := by
  obtain ⟨a, b, c⟩ := f
  obtain ⟨h1, h2, h3⟩ := hf
  simp only [hasEdge, corner, SamePair, Bool.and_eq_true, decide_eq_true_eq, ne_eq] at *
  omega

theorem hasEdge_symm (f : ℕ × ℕ × ℕ) (u v : ℕ) : hasEdge f u v = hasEdge f v u := by
  rw [Bool.eq_iff_iff]
  simp only [hasEdge, corner, Bool.and_eq_true, decide_eq_true_eq, ne_eq]
  omega

theorem faceLink_iff (im : EdgeMap ν) (f : ℕ × ℕ × ℕ) (hf : ProperFace f) (i j : ℕ) :
    FaceLink im f i j ↔ i ≠ j ∧
      (im.index f.1 f.2.1 = some i ∨ im.index f.1 f.2.2 = some i ∨ im.index f.2.1 f.2.2 = some i) ∧
      (im.index f.1 f.2.1 = some j ∨ im.index f.1 f.2.2 = some j ∨ im.index f.2.1 f.2.2 = some j) := by
  have key : ∀ k, (∃ u v, hasEdge f u v = true ∧ im.index u v = some k) ↔
      (im.index f.1 f.2.1 = some k ∨ im.index f.1 f.2.2 = some k ∨ im.index f.2.1 f.2.2 = some k) := by
    intro k
    constructor
    · rintro ⟨u, v, h, hk⟩
      rcases (hasEdge_iff f hf u v).mp h with h | h | h
      · left; rw [index_samePair h]; exact hk
      · right; left; rw [index_samePair h]; exact hk
      · right; right; rw [index_samePair h]; exact hk
    · rintro (h | h | h)
      · exact ⟨_, _, (hasEdge_iff f hf _ _).mpr (Or.inl (Or.inl ⟨rfl, rfl⟩)), h⟩
      · exact ⟨_, _, (hasEdge_iff f hf _ _).mpr (Or.inr (Or.inl (Or.inl ⟨rfl, rfl⟩))), h⟩
      · exact ⟨_, _, (hasEdge_iff f hf _ _).mpr (Or.inr (Or.inr (Or.inl ⟨rfl, rfl⟩))), h⟩
  unfold FaceLink
  rw [← key i, ← key j]
  constructor
  · rintro ⟨h, u, v, u', v', h1, h2, h3, h4⟩
    exact ⟨h, ⟨u, v, h1, h3⟩, u', v', h2, h4⟩
  · rintro ⟨h, ⟨u, v, h1, h3⟩, u', v', h2, h4⟩
    exact ⟨h, u, v, u', v', h1, h2, h3, h4⟩

/-- what a face of the section looks like: one of its three edges is not crossed -/
theorem face_cases {P : ℕ → ℕ → ν → Prop} {D : ℕ → ℕ → Prop} {im : EdgeMap ν}
    (him : GoodMap P D im) (f : ℕ × ℕ × ℕ) (hf : ProperFace f)
    (hD : (¬ D f.1 f.2.1 ∧ D f.1 f.2.2 ∧ D f.2.1 f.2.2) ∨
      (D f.1 f.2.1 ∧ ¬ D f.1 f.2.2 ∧ D f.2.1 f.2.2) ∨ (D f.1 f.2.1 ∧ D f.1 f.2.2 ∧ ¬ D f.2.1 f.2.2)) :
    ∃ x y, x ≠ y ∧ x < im.values.length ∧ y < im.values.length ∧
      (∀ ver g, addFace ver im g f = addEdge ver g (some x) (some y)) ∧
      ∀ i j, FaceLink im f i j ↔ (i = x ∧ j = y) ∨ (i = y ∧ j = x) := by
  have fl := faceLink_iff im f hf
  obtain ⟨a, b, c⟩ := f
  obtain ⟨p1, p2, p3⟩ := hf
  simp only at hD fl p1 p2 p3
  rw [← him.dom, ← him.dom, ← him.dom] at hD
  have get : ∀ {o : Option ℕ}, o ≠ none → ∃ x, o = some x := fun h => Option.ne_none_iff_exists'.mp h
  rcases hD with ⟨h0, h1, h2⟩ | ⟨h0, h1, h2⟩ | ⟨h0, h1, h2⟩
  · obtain ⟨x, hx⟩ := get h1
    obtain ⟨y, hy⟩ := get h2
    rw [not_not] at h0
    have hxy : x ≠ y := by
      rintro rfl
      have := him.inj _ _ _ _ _ hx hy
      unfold SamePair at this; omega
    refine ⟨x, y, hxy, him.lt hx, him.lt hy, ?_, ?_⟩
    · intro ver g; simp [addFace, h0, hx, hy]
    · intro i j
      rw [fl, h0, hx, hy]
      simp only [Option.some.injEq, reduceCtorEq, false_or]
      omega
  · obtain ⟨x, hx⟩ := get h0
    obtain ⟨y, hy⟩ := get h2
    rw [not_not] at h1
    have hxy : x ≠ y := by
      rintro rfl
      have := him.inj _ _ _ _ _ hx hy
      unfold SamePair at this; omega
    refine ⟨x, y, hxy, him.lt hx, him.lt hy, ?_, ?_⟩
    · intro ver g; simp [addFace, h1, hx, hy]
    · intro i j
      rw [fl, h1, hx, hy]
      simp only [Option.some.injEq, reduceCtorEq, false_or]
      omega
  · obtain ⟨x, hx⟩ := get h0
    obtain ⟨y, hy⟩ := get h1
    rw [not_not] at h2
    have hxy : x ≠ y := by
      rintro rfl
      have := him.inj _ _ _ _ _ hx hy
      unfold SamePair at this; omega
    refine ⟨x, y, hxy, him.lt hx, him.lt hy, ?_, ?_⟩
    · intro ver g; simp [addFace, hx, hy]
    · intro i j
      rw [fl, h2, hx, hy]
      simp only [Option.some.injEq, reduceCtorEq, or_false]
      omega

/-- the graph after adding all faces -/
theorem addFaces_spec (ver : PyVer) (im : EdgeMap ν) (fs : List (ℕ × ℕ × ℕ))
    (h : ∀ f ∈ fs, ∃ x y, x ≠ y ∧ x < im.values.length ∧ y < im.values.length ∧
      (∀ ver g, addFace ver im g f = addEdge ver g (some x) (some y)) ∧
      ∀ i j, FaceLink im f i j ↔ (i = x ∧ j = y) ∨ (i = y ∧ j = x)) :
    ∀ g : Graph, g.size = im.values.length → GoodGraph g.d →
    ∃ g', fs.foldlM (addFace ver im) g = .ok g' ∧ GoodGraph g'.d ∧
      ∀ i j, j ∈ adj g'.d i ↔ j ∈ adj g.d i ∨ ∃ f ∈ fs, FaceLink im f i j := by
  induction fs with
  | nil => intro g _ hg; exact ⟨g, rfl, hg, by simp⟩
  | cons f fs ih =>
    intro g hs hg
    obtain ⟨x, y, h1, h2, h3, h4, h5⟩ := h f (by simp)
    obtain ⟨d', e1, e2, e3⟩ := addEdge_spec ver g hg x y (hs ▸ h2) (hs ▸ h3) h1
    obtain ⟨g', f1, f2, f3⟩ := ih (fun f' hf' => h f' (by simp [hf'])) ⟨g.size, d'⟩ hs e2
    refine ⟨g', ?_, f2, ?_⟩
    · rw [List.foldlM_cons, h4, e1]; exact f1
    · intro i j
      rw [f3, e3, ← h5]
      simp only [List.mem_cons, exists_eq_or_imp, or_assoc]

/-- For a face with no corner on the plane: it is selected exactly when it has a crossed edge, and
then exactly one of its edges is not crossed. -/
theorem straddles_cases (pl : Plane ℝ) (m : Mesh ℝ) (hoff : ∀ p ∈ m.v, ¬ OnPlane pl p)
    (f : ℕ × ℕ × ℕ) (hv : f.1 < m.v.length ∧ f.2.1 < m.v.length ∧ f.2.2 < m.v.length) :
    (Straddles pl m.v f →
      (¬ Opposite pl m.v f.1 f.2.1 ∧ Opposite pl m.v f.1 f.2.2 ∧ Opposite pl m.v f.2.1 f.2.2) ∨
      (Opposite pl m.v f.1 f.2.1 ∧ ¬ Opposite pl m.v f.1 f.2.2 ∧ Opposite pl m.v f.2.1 f.2.2) ∨
      (Opposite pl m.v f.1 f.2.1 ∧ Opposite pl m.v f.1 f.2.2 ∧ ¬ Opposite pl m.v f.2.1 f.2.2)) ∧
    (∀ u v, corner f u = true → corner f v = true → Opposite pl m.v u v → Straddles pl m.v f) := by
  obtain ⟨a, b, c⟩ := f
  obtain ⟨h1, h2, h3⟩ := hv
  simp only at h1 h2 h3
  have ga : m.v[a]? = some m.v[a] := List.getElem?_eq_getElem h1
  have gb : m.v[b]? = some m.v[b] := List.getElem?_eq_getElem h2
  have gc : m.v[c]? = some m.v[c] := List.getElem?_eq_getElem h3
  have na : height pl m.v[a] ≠ 0 := fun h => hoff _ (List.getElem_mem h1) ((onPlane_iff pl _).mpr h)
  have nb : height pl m.v[b] ≠ 0 := fun h => hoff _ (List.getElem_mem h2) ((onPlane_iff pl _).mpr h)
  have nc : height pl m.v[c] ≠ 0 := fun h => hoff _ (List.getElem_mem h3) ((onPlane_iff pl _).mpr h)
  have opp : ∀ u v (x y : V3 ℝ), m.v[u]? = some x → m.v[v]? = some y →
      (Opposite pl m.v u v ↔ height pl x * height pl y < 0) := by
    intro u v x y hx hy
    unfold Opposite
    simp [hx, hy]
  have hstr : Straddles pl m.v (a, b, c) ↔
      ¬ (0 < height pl m.v[a] ∧ 0 < height pl m.v[b] ∧ 0 < height pl m.v[c]) ∧
      ¬ (height pl m.v[a] < 0 ∧ height pl m.v[b] < 0 ∧ height pl m.v[c] < 0) := by
    unfold Straddles
    simp only [ga, gb, gc, Option.some.injEq, exists_and_left, exists_eq_left']
  rw [hstr]
  simp only
  rw [opp a b _ _ ga gb, opp a c _ _ ga gc, opp b c _ _ gb gc]
  refine ⟨?_, ?_⟩
  · rintro ⟨n1, n2⟩
    simp only [mul_neg_iff]
    rcases lt_or_gt_of_ne na with ha | ha <;> rcases lt_or_gt_of_ne nb with hb | hb <;>
      rcases lt_or_gt_of_ne nc with hc | hc <;>
      simp [ha, hb, hc, not_lt.mpr ha.le, not_lt.mpr hb.le, not_lt.mpr hc.le] at n1 n2 ⊢
  · intro u v hu hv huv
    have hget : ∀ w, corner (a, b, c) w = true → ∃ x, m.v[w]? = some x ∧
        (x = m.v[a] ∨ x = m.v[b] ∨ x = m.v[c]) := by
      intro w hw
      simp only [corner, decide_eq_true_eq] at hw
      rcases hw with rfl | rfl | rfl
      · exact ⟨_, ga, Or.inl rfl⟩
      · exact ⟨_, gb, Or.inr (Or.inl rfl)⟩
      · exact ⟨_, gc, Or.inr (Or.inr rfl)⟩
    obtain ⟨x, hx, hx'⟩ := hget u hu
    obtain ⟨y, hy, hy'⟩ := hget v hv
    rw [opp u v x y hx hy, mul_neg_iff] at huv
    constructor
    · rintro ⟨g1, g2, g3⟩
      have px : 0 < height pl x := by rcases hx' with rfl | rfl | rfl <;> assumption
      have py : 0 < height pl y := by rcases hy' with rfl | rfl | rfl <;> assumption
      rcases huv with ⟨_, h⟩ | ⟨h, _⟩ <;> linarith
    · rintro ⟨g1, g2, g3⟩
      have px : height pl x < 0 := by rcases hx' with rfl | rfl | rfl <;> assumption
      have py : height pl y < 0 := by rcases hy' with rfl | rfl | rfl <;> assumption
      rcases huv with ⟨h, _⟩ | ⟨_, h⟩ <;> linarith

theorem mem_faceEdges (fs : List (ℕ × ℕ × ℕ)) (hp : ∀ f ∈ fs, ProperFace f) (u v : ℕ) :
    (∃ e ∈ faceEdges fs, SamePair e.1 e.2 u v) ↔ ∃ f ∈ fs, hasEdge f u v = true := by
  unfold faceEdges
  simp only [List.mem_append, List.mem_map]
  constructor
  · rintro ⟨e, (⟨f, hf, rfl⟩ | ⟨f, hf, rfl⟩) | ⟨f, hf, rfl⟩, hs⟩
    · exact ⟨f, hf, (hasEdge_iff f (hp f hf) u v).mpr (Or.inl hs)⟩
    · exact ⟨f, hf, (hasEdge_iff f (hp f hf) u v).mpr (Or.inr (Or.inr hs))⟩
    · refine ⟨f, hf, (hasEdge_iff f (hp f hf) u v).mpr (Or.inr (Or.inl ?_))⟩
      unfold SamePair at hs ⊢; simp only at hs; omega
  · rintro ⟨f, hf, h⟩
    rcases (hasEdge_iff f (hp f hf) u v).mp h with h | h | h
    · exact ⟨_, Or.inl (Or.inl ⟨f, hf, rfl⟩), h⟩
    · refine ⟨_, Or.inr ⟨f, hf, rfl⟩, ?_⟩
      unfold SamePair at h ⊢; simp only; omega
    · exact ⟨_, Or.inl (Or.inr ⟨f, hf, rfl⟩), h⟩

/-- The intersection graph of a mesh, in any arithmetic in which the batch method finds exactly the
segments with ends on opposite sides (of the exact plane `pl`, for the exact mesh `m`): its vertices are
numbered crossed edges, joined when they belong to one face. -/
theorem slice_graph_any {α : Type} [Num α] (ver : PyVer) (pa : Plane α) (ma : Mesh α)
    (pl : Plane ℝ) (m : Mesh ℝ) (hvl : ma.v.length = m.v.length) (hv : ValidFaces m)
    (hoff : ∀ p ∈ m.v, ¬ OnPlane pl p) (hp : ∀ f ∈ m.f, ProperFace f) (fs : List (ℕ × ℕ × ℕ))
    (hfs : fs = m.f.filter fun f => open Classical in decide (Straddles pl m.v f))
    (hrow : ∀ f ∈ m.f, ∀ u v, hasEdge f u v = true → ∀ a b, ma.v[u]? = some a → ma.v[v]? = some b →
      ((pa.lineSegmentXsectionsRow a b).2 = true ↔ Opposite pl m.v u v)) :
    ∃ im g, ∃ E : ℕ → ℕ × ℕ, intersectionMap pa ma fs = .ok im ∧
      fs.foldlM (addFace ver im) (Graph.new im.values.length) = .ok g ∧ GoodGraph g.d ∧
      (∀ i, i < im.values.length → CrossedEdge pl m (E i) ∧
        ∃ q, im.values[i]? = some q ∧ RowPoint pa ma.v (E i).1 (E i).2 q) ∧
      (∀ i j, i < im.values.length → j < im.values.length → E i = E j → i = j) ∧
      (∀ e, CrossedEdge pl m e → ∃ i, i < im.values.length ∧ E i = e) ∧
      (∀ i, adj g.d i ≠ ∅ ↔ i < im.values.length) ∧
      (∀ i j, j ∈ adj g.d i ↔ i < im.values.length ∧ j < im.values.length ∧
        Linked pl m (E i) (E j)) ∧
      (∀ i f, i < im.values.length → f ∈ m.f → hasEdge f (E i).1 (E i).2 = true →
        ∃ j, ∀ k, (k < im.values.length ∧ k ≠ i ∧ hasEdge f (E k).1 (E k).2 = true) ↔ k = j) := by
  have hfm : ∀ f, f ∈ fs ↔ f ∈ m.f ∧ Straddles pl m.v f := by
    intro f; rw [hfs]; simp
  have hpf : ∀ f ∈ fs, ProperFace f := fun f hf => hp f ((hfm f).mp hf).1
  have opp_symm : ∀ u v, Opposite pl m.v u v → Opposite pl m.v v u := by
    rintro u v ⟨a, b, h1, h2, h3⟩
    exact ⟨b, a, h2, h1, by rw [mul_comm]; exact h3⟩
  obtain ⟨im, him, hgood⟩ := intersectionMap_any pa ma fs
    (fun f hf => by rw [hvl]; exact hv f ((hfm f).mp hf).1) (Opposite pl m.v) opp_symm (by
      intro e he a b ha hb
      obtain ⟨f, hf, hfe⟩ := (mem_faceEdges fs hpf e.1 e.2).mp ⟨e, he, Or.inl ⟨rfl, rfl⟩⟩
      exact hrow f ((hfm f).mp hf).1 _ _ hfe a b ha hb)
  have hD : ∀ u v, ((∃ e ∈ faceEdges fs, SamePair e.1 e.2 u v) ∧ Opposite pl m.v u v) ↔
      (∃ f ∈ m.f, hasEdge f u v = true) ∧ Opposite pl m.v u v := by
    intro u v
    rw [mem_faceEdges fs hpf]
    constructor
    · rintro ⟨⟨f, hf, h⟩, ho⟩; exact ⟨⟨f, ((hfm f).mp hf).1, h⟩, ho⟩
    · rintro ⟨⟨f, hf, h⟩, ho⟩
      refine ⟨⟨f, (hfm f).mpr ⟨hf, ?_⟩, h⟩, ho⟩
      simp only [hasEdge, Bool.and_eq_true] at h
      exact (straddles_cases pl m hoff f (hv f hf)).2 u v h.1.2 h.2 ho
  have hcases : ∀ f ∈ fs, ∃ x y, x ≠ y ∧ x < im.values.length ∧ y < im.values.length ∧
      (∀ ver g, addFace ver im g f = addEdge ver g (some x) (some y)) ∧
      ∀ i j, FaceLink im f i j ↔ (i = x ∧ j = y) ∨ (i = y ∧ j = x) := by
    intro f hf
    have hf' := (hfm f).mp hf
    apply face_cases hgood f (hpf f hf)
    have hed : ∀ u v, hasEdge f u v = true → ∃ e ∈ faceEdges fs, SamePair e.1 e.2 u v :=
      fun u v h => (mem_faceEdges fs hpf u v).mpr ⟨f, hf, h⟩
    have e1 := hed _ _ ((hasEdge_iff f (hpf f hf) f.1 f.2.1).mpr (Or.inl (Or.inl ⟨rfl, rfl⟩)))
    have e2 := hed _ _ ((hasEdge_iff f (hpf f hf) f.1 f.2.2).mpr (Or.inr (Or.inl (Or.inl ⟨rfl, rfl⟩))))
    have e3 := hed _ _ ((hasEdge_iff f (hpf f hf) f.2.1 f.2.2).mpr
      (Or.inr (Or.inr (Or.inl ⟨rfl, rfl⟩))))
    simp only [e1, e2, e3, true_and]
    exact (straddles_cases pl m hoff f (hv f hf'.1)).1 hf'.2
  obtain ⟨g, hg1, hg2, hg3⟩ := addFaces_spec ver im fs hcases (Graph.new im.values.length) rfl
    goodGraph_nil
  have hg3' : ∀ i j, j ∈ adj g.d i ↔ ∃ f ∈ fs, FaceLink im f i j := by
    intro i j; rw [hg3]; simp [Graph.new, adj]
  -- number the crossed edges
  have hE : ∀ i, ∃ e : ℕ × ℕ, i < im.values.length → e.1 < e.2 ∧ im.index e.1 e.2 = some i := by
    intro i
    by_cases hi : i < im.values.length
    · obtain ⟨u, v, h⟩ := hgood.surj i hi
      have hne : u ≠ v := by
        rintro rfl
        have := ((hgood.dom u u).mp (by rw [h]; simp)).2
        obtain ⟨a, b, h1, h2, h3⟩ := this
        rw [h1] at h2
        injection h2 with h2
        subst h2
        nlinarith [mul_self_nonneg (height pl a)]
      rcases lt_or_gt_of_ne hne with h' | h'
      · exact ⟨(u, v), fun _ => ⟨h', h⟩⟩
      · exact ⟨(v, u), fun _ => ⟨h', by rw [index_samePair (Or.inr ⟨rfl, rfl⟩)]; exact h⟩⟩
    · exact ⟨(0, 0), fun h => absurd h hi⟩
  choose E hE using hE
  have hcross : ∀ i, i < im.values.length → CrossedEdge pl m (E i) := by
    intro i hi
    obtain ⟨h1, h2⟩ := hE i hi
    have := (hD _ _).mp ((hgood.dom (E i).1 (E i).2).mp (by rw [h2]; simp))
    exact ⟨h1, this.1, this.2⟩
  have hpair : ∀ u v i, im.index u v = some i → SamePair u v (E i).1 (E i).2 := by
    intro u v i h
    exact hgood.inj _ _ _ _ _ h (hE i (hgood.lt h)).2
  have hedge : ∀ f u v i, hasEdge f u v = true → im.index u v = some i →
      hasEdge f (E i).1 (E i).2 = true := by
    intro f u v i h hi
    rcases hpair u v i hi with ⟨h1, h2⟩ | ⟨h1, h2⟩
    · rw [← h1, ← h2]; exact h
    · rw [← h1, ← h2, hasEdge_symm]; exact h
  have hother : ∀ i f, i < im.values.length → f ∈ m.f → hasEdge f (E i).1 (E i).2 = true →
      f ∈ fs ∧ ∃ j, ∀ k, (k < im.values.length ∧ k ≠ i ∧ hasEdge f (E k).1 (E k).2 = true) ↔ k = j := by
    intro i f hi hf hfe
    have ho := (hcross i hi).2.2
    have hs : Straddles pl m.v f := by
      have hfe' := hfe
      simp only [hasEdge, Bool.and_eq_true] at hfe'
      exact (straddles_cases pl m hoff f (hv f hf)).2 _ _ hfe'.1.2 hfe'.2 ho
    have hff : f ∈ fs := (hfm f).mpr ⟨hf, hs⟩
    obtain ⟨x, y, hxy, hx, hy, _, hl⟩ := hcases f hff
    have hfl := faceLink_iff im f (hpf f hff)
    have hin : ∀ i, i < im.values.length → hasEdge f (E i).1 (E i).2 = true →
        (im.index f.1 f.2.1 = some i ∨ im.index f.1 f.2.2 = some i ∨
          im.index f.2.1 f.2.2 = some i) := by
      intro i hi hfe
      rcases (hasEdge_iff f (hpf f hff) _ _).mp hfe with h | h | h
      · left; rw [index_samePair h]; exact (hE i hi).2
      · right; left; rw [index_samePair h]; exact (hE i hi).2
      · right; right; rw [index_samePair h]; exact (hE i hi).2
    have h1 := (hfl x y).mp ((hl x y).mpr (Or.inl ⟨rfl, rfl⟩))
    have hixy : i = x ∨ i = y := by
      by_contra hc
      push Not at hc
      have := (hl i x).mp ((hfl i x).mpr ⟨hc.1, hin i hi hfe, h1.2.1⟩)
      omega
    have hlink : ∀ k, (k < im.values.length ∧ k ≠ i ∧ hasEdge f (E k).1 (E k).2 = true) ↔
        FaceLink im f i k := by
      intro k
      constructor
      · rintro ⟨hk, hki, hke⟩
        exact (hfl i k).mpr ⟨Ne.symm hki, hin i hi hfe, hin k hk hke⟩
      · rintro ⟨hik, u, v, u', v', _, h2, _, h4⟩
        exact ⟨hgood.lt h4, Ne.symm hik, hedge f u' v' k h2 h4⟩
    refine ⟨hff, ?_⟩
    rcases hixy with rfl | rfl
    · refine ⟨y, fun k => ?_⟩
      rw [hlink, hl]; omega
    · refine ⟨x, fun k => ?_⟩
      rw [hlink, hl]; omega
  refine ⟨im, g, E, him, hg1, hg2, ?_, ?_, ?_, ?_, ?_, fun i f h1 h2 h3 => (hother i f h1 h2 h3).2⟩
  · intro i hi
    exact ⟨hcross i hi, hgood.value _ _ i (hE i hi).2⟩
  · intro i j hi hj h
    have h1 := (hE i hi).2
    have h2 := (hE j hj).2
    rw [h, h2] at h1
    injection h1 with h1
    exact h1.symm
  · intro e he
    have := (hgood.dom e.1 e.2).mpr ((hD _ _).mpr ⟨he.2.1, he.2.2⟩)
    obtain ⟨i, hi⟩ := Option.ne_none_iff_exists'.mp this
    refine ⟨i, hgood.lt hi, ?_⟩
    have h1 := hpair _ _ _ hi
    have h2 := (hE i (hgood.lt hi)).1
    have h3 := he.1
    unfold SamePair at h1
    apply Prod.ext <;> omega
  · intro i
    constructor
    · intro h
      obtain ⟨j, hj⟩ := Finset.nonempty_iff_ne_empty.mpr h
      obtain ⟨f, hf, _, u, v, u', v', _, _, h3, _⟩ := (hg3' i j).mp hj
      exact hgood.lt h3
    · intro hi
      obtain ⟨_, ⟨f, hf, hfe⟩, ho⟩ := hcross i hi
      obtain ⟨hff, j, hj⟩ := hother i f hi hf hfe
      obtain ⟨j1, j2, j3⟩ := (hj j).mpr rfl
      intro hemp
      have : j ∈ adj g.d i := (hg3' i j).mpr ⟨f, hff, Ne.symm j2, _, _, _, _, hfe, j3, (hE i hi).2,
        (hE j j1).2⟩
      rw [hemp] at this; simp at this
  · intro i j
    rw [hg3']
    constructor
    · rintro ⟨f, hf, hij, u, v, u', v', h1, h2, h3, h4⟩
      refine ⟨hgood.lt h3, hgood.lt h4, ?_, hcross i (hgood.lt h3), hcross j (hgood.lt h4), f,
        ((hfm f).mp hf).1, hedge f u v i h1 h3, hedge f u' v' j h2 h4⟩
      intro he
      have h5 := (hE i (hgood.lt h3)).2
      have h6 := (hE j (hgood.lt h4)).2
      rw [he, h6] at h5
      injection h5 with h5
      exact hij h5.symm
    · rintro ⟨hi, hj, hne, hci, _, f, hf, h1, h2⟩
      have hs : Straddles pl m.v f := by
        have h1' := h1
        simp only [hasEdge, Bool.and_eq_true] at h1'
        exact (straddles_cases pl m hoff f (hv f hf)).2 _ _ h1'.1.2 h1'.2 hci.2.2
      exact ⟨f, (hfm f).mpr ⟨hf, hs⟩, fun h => hne (by rw [h]), _, _, _, _, h1, h2, (hE i hi).2,
        (hE j hj).2⟩

/-- The intersection graph of a mesh with no vertex on the plane. -/
theorem slice_graph (ver : PyVer) (pl : Plane ℝ) (m : Mesh ℝ) (hv : ValidFaces m)
    (hoff : ∀ p ∈ m.v, ¬ OnPlane pl p) (hp : ∀ f ∈ m.f, ProperFace f) (fs : List (ℕ × ℕ × ℕ))
    (hfs : fs = m.f.filter fun f => open Classical in decide (Straddles pl m.v f)) :
    ∃ im g, ∃ E : ℕ → ℕ × ℕ, intersectionMap pl m fs = .ok im ∧
      fs.foldlM (addFace ver im) (Graph.new im.values.length) = .ok g ∧ GoodGraph g.d ∧
      (∀ i, i < im.values.length → CrossedEdge pl m (E i) ∧
        ∃ q, im.values[i]? = some q ∧ CrossPoint pl m (E i) q) ∧
      (∀ i j, i < im.values.length → j < im.values.length → E i = E j → i = j) ∧
      (∀ e, CrossedEdge pl m e → ∃ i, i < im.values.length ∧ E i = e) ∧
      (∀ i, adj g.d i ≠ ∅ ↔ i < im.values.length) ∧
      (∀ i j, j ∈ adj g.d i ↔ i < im.values.length ∧ j < im.values.length ∧
        Linked pl m (E i) (E j)) ∧
      (∀ i f, i < im.values.length → f ∈ m.f → hasEdge f (E i).1 (E i).2 = true →
        ∃ j, ∀ k, (k < im.values.length ∧ k ≠ i ∧ hasEdge f (E k).1 (E k).2 = true) ↔ k = j) := by
  obtain ⟨im, g, E, h1, h2, h3, h4, h5⟩ := slice_graph_any ver pl m pl m rfl hv hoff hp fs hfs (by
    intro f _ u v _ a b ha hb
    rw [← meets_iff_opposite pl m.v hoff, (segment_row pl a b).1]
    unfold Meets
    simp only [ha, hb, Option.some.injEq, exists_and_left, exists_eq_left'])
  refine ⟨im, g, E, h1, h2, h3, fun i hi => ?_, h5⟩
  obtain ⟨hc, q, hq, hr⟩ := h4 i hi
  exact ⟨hc, q, hq, rowPoint_real hr⟩

theorem corners_of_three (f : ℕ × ℕ × ℕ) (p q r : ℕ) (hpq : p ≠ q) (hpr : p ≠ r) (hqr : q ≠ r)
    (h1 : corner f p = true) (h2 : corner f q = true) (h3 : corner f r = true) (w : ℕ) :
    corner f w = true ↔ w = p ∨ w = q ∨ w = r := by
  simp only [corner, decide_eq_true_eq] at *
  omega

/-- two faces that share two different edges have the same corners -/
theorem sameCorners_of_two_edges (f g : ℕ × ℕ × ℕ)
    (e e' : ℕ × ℕ) (hlt : e.1 < e.2) (hlt' : e'.1 < e'.2) (hne : e ≠ e')
    (f1 : hasEdge f e.1 e.2 = true) (f2 : hasEdge f e'.1 e'.2 = true)
    (g1 : hasEdge g e.1 e.2 = true) (g2 : hasEdge g e'.1 e'.2 = true) : SameCorners f g := by
  obtain ⟨u, v⟩ := e
  obtain ⟨u', v'⟩ := e'
  simp only [hasEdge, Bool.and_eq_true] at f1 f2 g1 g2
  have hne' : ¬ (u = u' ∧ v = v') := by
    rintro ⟨rfl, rfl⟩; exact hne rfl
  simp only at hlt hlt'
  have hw : ∃ w, w ≠ u ∧ w ≠ v ∧ corner f w = true ∧ corner g w = true := by
    by_cases h : u' ≠ u ∧ u' ≠ v
    · exact ⟨u', h.1, h.2, f2.1.2, g2.1.2⟩
    · exact ⟨v', by omega, by omega, f2.2, g2.2⟩
  obtain ⟨w, w1, w2, w3, w4⟩ := hw
  intro x
  rw [Bool.eq_iff_iff, corners_of_three f u v w (by omega) (by omega) (by omega) f1.1.2 f1.2 w3,
    corners_of_three g u v w (by omega) (by omega) (by omega) g1.1.2 g1.2 w4]

/-- degrees in the intersection graph -/
theorem slice_degrees (m : Mesh ℝ) (n : ℕ) (E : ℕ → ℕ × ℕ) (A : ℕ → Finset ℕ) (pl : Plane ℝ)
    (hA : ∀ i j, j ∈ A i ↔ i < n ∧ j < n ∧ Linked pl m (E i) (E j))
    (hcross : ∀ i, i < n → CrossedEdge pl m (E i))
    (hinj : ∀ i j, i < n → j < n → E i = E j → i = j)
    (hother : ∀ i f, i < n → f ∈ m.f → hasEdge f (E i).1 (E i).2 = true →
        ∃ j, ∀ k, (k < n ∧ k ≠ i ∧ hasEdge f (E k).1 (E k).2 = true) ↔ k = j) :
    (EdgeManifold m → ∀ i, (A i).card ≤ 2) ∧ (ClosedMesh m → ∀ i, Even (A i).card) := by
  have key : ∀ i, i < n → ∃ nbr : (ℕ × ℕ × ℕ) → ℕ,
      (∀ f ∈ m.f, hasEdge f (E i).1 (E i).2 = true →
        ∀ k, (k < n ∧ k ≠ i ∧ hasEdge f (E k).1 (E k).2 = true) ↔ k = nbr f) ∧
      A i = ((m.f.filter fun f => hasEdge f (E i).1 (E i).2).map nbr).toFinset := by
    intro i hi
    have hx : ∀ f, ∃ j, f ∈ m.f → hasEdge f (E i).1 (E i).2 = true →
        ∀ k, (k < n ∧ k ≠ i ∧ hasEdge f (E k).1 (E k).2 = true) ↔ k = j := by
      intro f
      by_cases h : f ∈ m.f ∧ hasEdge f (E i).1 (E i).2 = true
      · obtain ⟨j, hj⟩ := hother i f hi h.1 h.2
        exact ⟨j, fun _ _ => hj⟩
      · exact ⟨0, fun h1 h2 => absurd ⟨h1, h2⟩ h⟩
    choose nbr hnbr using hx
    refine ⟨nbr, hnbr, ?_⟩
    ext j
    rw [hA]
    simp only [List.mem_toFinset, List.mem_map, List.mem_filter]
    constructor
    · rintro ⟨_, hj, hne, _, _, f, hf, h1, h2⟩
      refine ⟨f, ⟨hf, h1⟩, ?_⟩
      exact ((hnbr f hf h1 j).mp ⟨hj, fun h => hne (by rw [h]), h2⟩).symm
    · rintro ⟨f, ⟨hf, h1⟩, h2⟩
      obtain ⟨hj, hji, h3⟩ := (hnbr f hf h1 j).mpr h2.symm
      exact ⟨hi, hj, fun h => hji (hinj i j hi hj h).symm, hcross i hi, hcross j hj, f, hf, h1, h3⟩
  have hempty : ∀ i, ¬ i < n → A i = ∅ := by
    intro i hi
    apply Finset.eq_empty_of_forall_notMem
    intro j hj
    exact hi ((hA i j).mp hj).1
  refine ⟨?_, ?_⟩
  · intro hm i
    by_cases hi : i < n
    · obtain ⟨nbr, _, h⟩ := key i hi
      rw [h]
      calc _ ≤ _ := List.toFinset_card_le _
        _ = _ := List.length_map _
        _ ≤ 2 := hm _ _
    · rw [hempty i hi]; simp
  · rintro ⟨hc1, hc2⟩ i
    by_cases hi : i < n
    · obtain ⟨nbr, hn, h⟩ := key i hi
      obtain ⟨_, ⟨f0, hf0, he0⟩, _⟩ := hcross i hi
      have hlen := hc1 f0 hf0 _ _ he0
      have hpw : (m.f.filter fun f => hasEdge f (E i).1 (E i).2).Pairwise
          fun f g => ¬ SameCorners f g := hc2.filter _
      have hmem : ∀ f ∈ m.f.filter fun f => hasEdge f (E i).1 (E i).2,
          f ∈ m.f ∧ hasEdge f (E i).1 (E i).2 = true := fun f hf => List.mem_filter.mp hf
      rw [h]
      generalize (m.f.filter fun f => hasEdge f (E i).1 (E i).2) = F at *
      match F, hlen with
      | [f1, f2], _ =>
        obtain ⟨m1, e1⟩ := hmem f1 (by simp)
        obtain ⟨m2, e2⟩ := hmem f2 (by simp)
        have hns : ¬ SameCorners f1 f2 := by
          rw [List.pairwise_cons] at hpw
          exact hpw.1 f2 (by simp)
        have hne : nbr f1 ≠ nbr f2 := by
          intro heq
          obtain ⟨a1, a2, a3⟩ := (hn f1 m1 e1 (nbr f1)).mpr rfl
          obtain ⟨b1, b2, b3⟩ := (hn f2 m2 e2 (nbr f2)).mpr rfl
          rw [← heq] at b3
          apply hns
          exact sameCorners_of_two_edges f1 f2 (E i) (E (nbr f1))
            (hcross i hi).1 (hcross _ a1).1 (fun h => a2 (hinj i _ hi a1 h).symm) e1 a3 e2 b3
        have : ([f1, f2].map nbr).toFinset.card = 2 := by
          simp only [List.map_cons, List.map_nil, List.toFinset_cons, List.toFinset_nil]
          rw [Finset.card_insert_of_notMem (by simpa using hne)]
          simp
        rw [this]; exact even_two
    · rw [hempty i hi]; simp

end Blmath.Props
