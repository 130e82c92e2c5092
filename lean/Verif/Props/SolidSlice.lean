import Verif.Model.MeshSections
import Verif.Model.Shapes
import Verif.Props.MeshSlice
import Verif.Props.NotFinite
import Verif.Props.Shapes

/-!
**C121.** Slicing the solids made by `shapes.py`: a plane through no corner of a rectangular or triangular prism gives
nothing or exactly one closed polyline, however the sides were split into triangles.

The section of a closed mesh has one polyline for each connected component (C31).  That there is only one component is shown
by going from side to side: within a side (a parallelogram cut in two triangles) the crossed edges are linked because
the signs of the heights cannot alternate around it, and from side to side by listing the possible patterns of signs.
-/

namespace Blmath.Props
open Blmath.Geometry Blmath.Spec Blmath.Proofs Blmath.Vx

namespace SolidSlice
variable {pl : Plane ℝ} {m : Mesh ℝ}

/-- linked by a chain of faces -/
def Conn (pl : Plane ℝ) (m : Mesh ℝ) (e e' : ℕ × ℕ) : Prop := Relation.ReflTransGen (Linked pl m) e e'

/-- the edge between two corners, smaller number first -/
def key (u v : ℕ) : ℕ × ℕ := (min u v, max u v)

/-- an edge of one of the faces -/
def InCell (fs : List (ℕ × ℕ × ℕ)) (e : ℕ × ℕ) : Prop := ∃ f ∈ fs, hasEdge f e.1 e.2 = true

/-- the crossed edges among the faces are linked to each other -/
def CellConn (pl : Plane ℝ) (m : Mesh ℝ) (fs : List (ℕ × ℕ × ℕ)) : Prop :=
  ∀ e e', CrossedEdge pl m e → CrossedEdge pl m e' → InCell fs e → InCell fs e' → Conn pl m e e'

/-- `S` tells on which side the corners are -/
def Sides (pl : Plane ℝ) (m : Mesh ℝ) (S : ℕ → Bool) : Prop :=
  ∀ u v, u < m.v.length → v < m.v.length → (Opposite pl m.v u v ↔ S u ≠ S v)

theorem face_conn {f : ℕ × ℕ × ℕ} (hf : f ∈ m.f) : CellConn pl m [f] := by
  rintro e e' h h' ⟨g, hg, hg'⟩ ⟨k, hk, hk'⟩
  rw [List.mem_singleton] at hg hk
  subst hg hk
  by_cases he : e = e'
  · subst he; exact Relation.ReflTransGen.refl
  · exact Relation.ReflTransGen.single ⟨he, h, h', _, hf, hg', hk'⟩

theorem crossed_side {S : ℕ → Bool} (hS : Sides pl m S) (hv : ValidFaces m) {e : ℕ × ℕ} (h : CrossedEdge pl m e) :
    S e.1 ≠ S e.2 := by
  obtain ⟨-, ⟨f, hf, he⟩, ho⟩ := h
  have ho' := ho
  obtain ⟨a, b, ha, hb, -⟩ := ho'
  have h1 : e.1 < m.v.length := (List.getElem?_eq_some_iff.mp ha).1
  have h2 : e.2 < m.v.length := (List.getElem?_eq_some_iff.mp hb).1
  exact (hS _ _ h1 h2).mp ho

theorem crossed_key {S : ℕ → Bool} (hS : Sides pl m S) (hv : ValidFaces m) {f : ℕ × ℕ × ℕ} (hf : f ∈ m.f) {u v : ℕ}
    (he : hasEdge f u v = true) (hne : S u ≠ S v) : CrossedEdge pl m (key u v) := by
  have hc : corner f u = true ∧ corner f v = true ∧ u ≠ v := by
    simp only [hasEdge, Bool.and_eq_true, decide_eq_true_eq] at he
    exact ⟨he.1.2, he.2, he.1.1⟩
  obtain ⟨h1, h2, h3⟩ := hv f hf
  have lt : ∀ w, corner f w = true → w < m.v.length := by
    intro w hw
    simp only [corner, decide_eq_true_eq] at hw
    rcases hw with rfl | rfl | rfl <;> assumption
  unfold key
  rcases Nat.lt_or_ge u v with h | h
  · rw [min_eq_left h.le, max_eq_right h.le]
    exact ⟨h, ⟨f, hf, he⟩, (hS u v (lt u hc.1) (lt v hc.2.1)).mpr hne⟩
  · have h' : v < u := lt_of_le_of_ne h (Ne.symm hc.2.2)
    rw [min_eq_right h, max_eq_left h]
    exact ⟨h', ⟨f, hf, by rw [hasEdge_symm]; exact he⟩, (hS v u (lt v hc.2.1) (lt u hc.1)).mpr hne.symm⟩

theorem hasEdge_key {f : ℕ × ℕ × ℕ} {u v : ℕ} (he : hasEdge f u v = true) : hasEdge f (key u v).1 (key u v).2 = true := by
  unfold key
  rcases Nat.le_total u v with h | h
  · rw [min_eq_left h, max_eq_right h]; exact he
  · rw [min_eq_right h, max_eq_left h, hasEdge_symm]; exact he

/-- two faces with a common edge, on which the crossed edges of the two meet unless the signs alternate -/
theorem two_conn {S : ℕ → Bool} (hS : Sides pl m S) (hv : ValidFaces m) {a b c d : ℕ} (h1 : (a, b, c) ∈ m.f)
    (h2 : (a, c, d) ∈ m.f) (hac : a ≠ c) (hn : ¬ (S a = S c ∧ S b = S d ∧ S a ≠ S b)) :
    CellConn pl m [(a, b, c), (a, c, d)] := by
  have cross : ∀ e e', CrossedEdge pl m e → CrossedEdge pl m e' → hasEdge (a, b, c) e.1 e.2 = true →
      hasEdge (a, c, d) e'.1 e'.2 = true → Conn pl m e e' ∧ Conn pl m e' e := by
    intro e e' he he' k k'
    by_cases hs : S a = S c
    · exfalso
      have s1 := crossed_side hS hv he
      have s2 := crossed_side hS hv he'
      simp only [hasEdge, corner, Bool.and_eq_true, decide_eq_true_eq] at k k'
      have hb : S b ≠ S a := by
        intro hb
        apply s1
        rcases k.1.2 with h | h | h <;> rcases k.2 with h' | h' | h' <;> rw [h, h'] <;> simp [hs, hb]
      have hd : S d ≠ S a := by
        intro hd
        apply s2
        rcases k'.1.2 with h | h | h <;> rcases k'.2 with h' | h' | h' <;> rw [h, h'] <;> simp [hs, hd]
      refine hn ⟨hs, ?_, hb.symm⟩
      revert hb hd
      cases S a <;> cases S b <;> cases S d <;> simp
    · have e1 : hasEdge (a, b, c) a c = true := by simp [hasEdge, corner, hac]
      have e2 : hasEdge (a, c, d) a c = true := by simp [hasEdge, corner, hac]
      have hk := crossed_key hS hv h1 e1 hs
      have i1 := hasEdge_key e1
      have i2 := hasEdge_key e2
      exact ⟨(face_conn h1 e _ he hk ⟨_, by simp, k⟩ ⟨_, by simp, i1⟩).trans
          (face_conn h2 _ e' hk he' ⟨_, by simp, i2⟩ ⟨_, by simp, k'⟩),
        (face_conn h2 e' _ he' hk ⟨_, by simp, k'⟩ ⟨_, by simp, i2⟩).trans
          (face_conn h1 _ e hk he ⟨_, by simp, i1⟩ ⟨_, by simp, k⟩)⟩
  rintro e e' he he' ⟨g, hg, hg'⟩ ⟨k, hk, hk'⟩
  simp only [List.mem_cons, List.not_mem_nil, or_false] at hg hk
  rcases hg with rfl | rfl <;> rcases hk with rfl | rfl
  · exact face_conn h1 e e' he he' ⟨_, by simp, hg'⟩ ⟨_, by simp, hk'⟩
  · exact (cross e e' he he' hg' hk').1
  · exact (cross e' e he' he hk' hg').2
  · exact face_conn h2 e e' he he' ⟨_, by simp, hg'⟩ ⟨_, by simp, hk'⟩

theorem cell_mono {fs gs : List (ℕ × ℕ × ℕ)} (h : ∀ f, f ∈ fs → f ∈ gs) (hc : CellConn pl m gs) : CellConn pl m fs := by
  rintro e e' he he' ⟨g, hg, hg'⟩ ⟨k, hk, hk'⟩
  exact hc e e' he he' ⟨g, h g hg, hg'⟩ ⟨k, h k hk, hk'⟩

/-- a quad split either way -/
theorem quad_conn {S : ℕ → Bool} (hS : Sides pl m S) (hv : ValidFaces m) (first : Bool) {a b c d : ℕ}
    (h : ∀ f ∈ splitQuad first a b c d, f ∈ m.f) (hac : a ≠ c) (hbd : b ≠ d)
    (hn : ¬ (S a = S c ∧ S b = S d ∧ S a ≠ S b)) : CellConn pl m (splitQuad first a b c d) := by
  cases first with
  | true => exact two_conn hS hv (h _ (by simp [splitQuad])) (h _ (by simp [splitQuad])) hac hn
  | false =>
    exact two_conn hS hv (a := b) (b := c) (c := d) (d := a) (h _ (by simp [splitQuad])) (h _ (by simp [splitQuad])) hbd
      fun ⟨k1, k2, k3⟩ => hn ⟨k2.symm, k1, by rw [← k2]; exact k3.symm⟩

/-- steps from side to side over crossed edges: `nbrs j` lists sides next to `j` with the common edge -/
def reachB (nbrs : ℕ → List (ℕ × ℕ × ℕ)) (S : ℕ → Bool) (i : ℕ) : ℕ → ℕ → Bool
  | 0, j => i == j
  | k + 1, j => reachB nbrs S i k j || (nbrs j).any fun t => (S t.2.1 != S t.2.2) && reachB nbrs S i k t.1

theorem conn_of_reach {S : ℕ → Bool} (hS : Sides pl m S) (hv : ValidFaces m) (cells : ℕ → List (ℕ × ℕ × ℕ))
    (nbrs : ℕ → List (ℕ × ℕ × ℕ)) (hsub : ∀ i, ∀ f ∈ cells i, f ∈ m.f) (hcell : ∀ i, CellConn pl m (cells i))
    (hn : ∀ j, ∀ t ∈ nbrs j, (∃ f ∈ cells t.1, hasEdge f t.2.1 t.2.2 = true) ∧ ∃ f ∈ cells j, hasEdge f t.2.1 t.2.2 = true)
    (i : ℕ) : ∀ (k j : ℕ), reachB nbrs S i k j = true → ∀ e e', CrossedEdge pl m e → CrossedEdge pl m e' →
      InCell (cells i) e → InCell (cells j) e' → Conn pl m e e' := by
  intro k
  induction k with
  | zero =>
    intro j hr e e' he he' hi hj
    simp only [reachB, beq_iff_eq] at hr
    subst hr
    exact hcell i e e' he he' hi hj
  | succ k ih =>
    intro j hr e e' he he' hi hj
    simp only [reachB, Bool.or_eq_true, List.any_eq_true, Bool.and_eq_true, bne_iff_ne] at hr
    rcases hr with hr | ⟨t, ht, hs, hr⟩
    · exact ih j hr e e' he he' hi hj
    · obtain ⟨⟨f, hf, hfe⟩, ⟨g, hg, hge⟩⟩ := hn j t ht
      have hx := crossed_key hS hv (hsub _ f hf) hfe hs
      exact (ih t.1 hr e _ he hx hi ⟨f, hf, hasEdge_key hfe⟩).trans
        (hcell j _ e' hx he' ⟨g, hg, hasEdge_key hge⟩ hj)

theorem manifold_of_closed (h : ClosedMesh m) : EdgeManifold m := by
  intro u v
  by_cases hc : ∃ f ∈ m.f, hasEdge f u v = true
  · obtain ⟨f, hf, hc⟩ := hc
    exact (h.1 f hf u v hc).le
  · rw [List.filter_eq_nil_iff.mpr (by simpa using hc)]
    simp

/-- one component, one polyline -/
theorem one_section (ver : PyVer) (pk : ℕ → Picker) (ko : ℕ → KeyOrder) (hv : ValidFaces m)
    (hp : ∀ f ∈ m.f, ProperFace f) (hoff : ∀ p ∈ m.v, ¬ OnPlane pl p) (hcl : ClosedMesh m)
    (hconn : ∀ e e', CrossedEdge pl m e → CrossedEdge pl m e' → Conn pl m e e') :
    ((∀ e, ¬ CrossedEdge pl m e) → pl.meshXsections ver pk ko m = .ok []) ∧
    ((∃ e, CrossedEdge pl m e) → ∃ c es, pl.meshXsections ver pk ko m = .ok [c] ∧ c.closed = true ∧
      Traces pl m es c ∧ es.Nodup ∧ ∀ e, e ∈ es ↔ CrossedEdge pl m e) := by
  obtain ⟨cs, ess, h1, h2, h3, h4, h5⟩ := C31_manifold ver pk ko pl m hv hp hoff (manifold_of_closed hcl) (Or.inl hcl)
  constructor
  · intro hno
    cases h2 with
    | nil => exact h1
    | cons ht _ =>
      obtain ⟨e, he⟩ := List.exists_mem_of_ne_nil _ ht.nonempty
      exact absurd ((h4 e).mp (by simp [he])) (hno e)
  · rintro ⟨e0, he0⟩
    cases h2 with
    | nil => exact absurd ((h4 e0).mpr he0) (by simp)
    | @cons es c ess' cs' ht hrest =>
      have hall : ∀ e, CrossedEdge pl m e → e ∈ es := by
        intro e he
        obtain ⟨x, hx⟩ := List.exists_mem_of_ne_nil _ ht.nonempty
        exact (ht.whole x hx e).mpr (hconn x e ((h4 x).mp (by simp [hx])) he)
      have hnil : ess' = [] ∧ cs' = [] := by
        cases hrest with
        | nil => exact ⟨rfl, rfl⟩
        | @cons es2 c2 ess2 cs2 ht2 _ =>
          exfalso
          obtain ⟨x, hx⟩ := List.exists_mem_of_ne_nil _ ht2.nonempty
          have hxc := (h4 x).mp (by simp [hx])
          have := hall x hxc
          simp only [List.flatten_cons, List.nodup_append] at h3
          exact h3.2.2 x this x (by simp [hx]) rfl
      obtain ⟨rfl, rfl⟩ := hnil
      simp only [List.flatten_cons, List.flatten_nil, List.append_nil] at h3 h4
      exact ⟨c, es, h1, h5 hcl c (by simp), ht, h3, h4⟩

/-- the sides of a box -/
def boxSides (diag : ℕ → Bool) : ℕ → List (ℕ × ℕ × ℕ)
  | 0 => splitQuad (diag 0) 0 1 2 3
  | 1 => splitQuad (diag 1) 7 6 5 4
  | 2 => splitQuad (diag 2) 4 5 1 0
  | 3 => splitQuad (diag 3) 5 6 2 1
  | 4 => splitQuad (diag 4) 6 7 3 2
  | 5 => splitQuad (diag 5) 3 7 4 0
  | _ => []

/-- the sides next to each side, with the common edge -/
def boxNext : ℕ → List (ℕ × ℕ × ℕ)
  | 0 => [(2, 0, 1), (3, 1, 2), (4, 2, 3), (5, 3, 0)]
  | 1 => [(2, 4, 5), (3, 5, 6), (4, 6, 7), (5, 7, 4)]
  | 2 => [(0, 0, 1), (1, 4, 5), (3, 1, 5), (5, 0, 4)]
  | 3 => [(0, 1, 2), (1, 5, 6), (2, 1, 5), (4, 2, 6)]
  | 4 => [(0, 2, 3), (1, 6, 7), (3, 2, 6), (5, 3, 7)]
  | 5 => [(0, 3, 0), (1, 7, 4), (4, 3, 7), (2, 0, 4)]
  | _ => []

/-- the corners of each side -/
def boxCorners : ℕ → List ℕ
  | 0 => [0, 1, 2, 3]
  | 1 => [7, 6, 5, 4]
  | 2 => [4, 5, 1, 0]
  | 3 => [5, 6, 2, 1]
  | 4 => [6, 7, 3, 2]
  | 5 => [3, 7, 4, 0]
  | _ => []

/-- the signs alternate around a parallelogram -/
def alt (S : ℕ → Bool) (a b c d : ℕ) : Bool := (S a == S c) && (S b == S d) && (S a != S b)

/-- the parallelograms among the corners of a box: its sides, and its sections through two opposite edges -/
def boxQuads : List (ℕ × ℕ × ℕ × ℕ) :=
  [(0, 1, 2, 3), (7, 6, 5, 4), (4, 5, 1, 0), (5, 6, 2, 1), (6, 7, 3, 2), (3, 7, 4, 0),
   (0, 1, 6, 7), (0, 2, 6, 4), (0, 3, 6, 5), (1, 2, 7, 4), (1, 3, 7, 5), (2, 3, 4, 5)]

/-- not all corners of the side are on one side of the plane -/
def mixed (S : ℕ → Bool) (cs : List ℕ) : Bool := cs.any fun u => cs.any fun v => S u != S v

/-- eight signs -/
def sgn8 (b0 b1 b2 b3 b4 b5 b6 b7 : Bool) (u : ℕ) : Bool :=
  match u with
  | 0 => b0 | 1 => b1 | 2 => b2 | 3 => b3 | 4 => b4 | 5 => b5 | 6 => b6 | 7 => b7 | _ => false

set_option maxRecDepth 100000 in
theorem box_patterns : ∀ b0 b1 b2 b3 b4 b5 b6 b7 : Bool,
    (boxQuads.all fun q => !alt (sgn8 b0 b1 b2 b3 b4 b5 b6 b7) q.1 q.2.1 q.2.2.1 q.2.2.2) = true →
    ((List.range 6).all fun i => (List.range 6).all fun j =>
      !mixed (sgn8 b0 b1 b2 b3 b4 b5 b6 b7) (boxCorners i) || !mixed (sgn8 b0 b1 b2 b3 b4 b5 b6 b7) (boxCorners j) ||
        reachB boxNext (sgn8 b0 b1 b2 b3 b4 b5 b6 b7) i 3 j) = true := by
  decide +kernel

/-- a closed mesh, tested -/
def closedB (n : ℕ) (F : List (ℕ × ℕ × ℕ)) : Bool :=
  (F.all fun f => decide (f.1 < n) && decide (f.2.1 < n) && decide (f.2.2 < n) &&
    decide (f.1 ≠ f.2.1) && decide (f.2.1 ≠ f.2.2) && decide (f.1 ≠ f.2.2)) &&
  (F.all fun f => (List.range n).all fun u => (List.range n).all fun v =>
    !hasEdge f u v || (F.filter fun g => hasEdge g u v).length == 2) &&
  decide (F.Pairwise fun f g => ((List.range n).any fun u => corner f u != corner g u) = true)

theorem closed_of (h : closedB m.v.length m.f = true) :
    ValidFaces m ∧ (∀ f ∈ m.f, ProperFace f) ∧ ClosedMesh m := by
  simp only [closedB, Bool.and_eq_true, List.all_eq_true, decide_eq_true_eq, List.mem_range, Bool.or_eq_true,
    Bool.not_eq_true', beq_iff_eq] at h
  obtain ⟨⟨h1, h2⟩, h3⟩ := h
  have hv : ValidFaces m := fun f hf => ⟨(h1 f hf).1.1.1.1.1, (h1 f hf).1.1.1.1.2, (h1 f hf).1.1.1.2⟩
  refine ⟨hv, fun f hf => ⟨(h1 f hf).1.1.2, (h1 f hf).1.2, (h1 f hf).2⟩, ?_, ?_⟩
  · intro f hf u v huv
    obtain ⟨k1, k2, k3⟩ := hv f hf
    have hc : corner f u = true ∧ corner f v = true := by
      simp only [hasEdge, Bool.and_eq_true] at huv
      exact ⟨huv.1.2, huv.2⟩
    have lt : ∀ w, corner f w = true → w < m.v.length := by
      intro w hw
      simp only [corner, decide_eq_true_eq] at hw
      rcases hw with rfl | rfl | rfl <;> assumption
    rcases h2 f hf u (lt u hc.1) v (lt v hc.2) with h | h
    · rw [huv] at h; cases h
    · exact h
  · refine h3.imp ?_
    intro f g h hs
    rw [List.any_eq_true] at h
    obtain ⟨u, -, hu⟩ := h
    rw [hs u] at hu
    simp at hu

theorem sides_of {S : ℕ → Bool} (hoff : ∀ p ∈ m.v, ¬ OnPlane pl p)
    (h : ∀ u p, m.v[u]? = some p → (S u = true ↔ 0 < height pl p)) : Sides pl m S := by
  intro u v hu hv
  have ha : m.v[u]? = some m.v[u] := List.getElem?_eq_getElem hu
  have hb : m.v[v]? = some m.v[v] := List.getElem?_eq_getElem hv
  have na : height pl m.v[u] ≠ 0 := fun hc => hoff _ (List.getElem_mem hu) hc
  have nb : height pl m.v[v] ≠ 0 := fun hc => hoff _ (List.getElem_mem hv) hc
  have e : Opposite pl m.v u v ↔ height pl m.v[u] * height pl m.v[v] < 0 := by
    constructor
    · rintro ⟨a, b, h1, h2, h3⟩
      rw [ha] at h1; rw [hb] at h2
      cases h1; cases h2; exact h3
    · exact fun h3 => ⟨_, _, ha, hb, h3⟩
  rw [e, mul_neg_iff]
  have k1 := h u _ ha
  have k2 := h v _ hb
  rcases lt_or_gt_of_ne na with a | a <;> rcases lt_or_gt_of_ne nb with b | b
  · have s1 : S u = false := by rw [Bool.eq_false_iff]; exact fun hc => absurd (k1.mp hc) (not_lt.mpr a.le)
    have s2 : S v = false := by rw [Bool.eq_false_iff]; exact fun hc => absurd (k2.mp hc) (not_lt.mpr b.le)
    simp [s1, s2, not_lt.mpr a.le, not_lt.mpr b.le]
  · have s1 : S u = false := by rw [Bool.eq_false_iff]; exact fun hc => absurd (k1.mp hc) (not_lt.mpr a.le)
    simp [s1, k2.mpr b, a, b]
  · have s2 : S v = false := by rw [Bool.eq_false_iff]; exact fun hc => absurd (k2.mp hc) (not_lt.mpr b.le)
    simp [s2, k1.mpr a, a, b]
  · simp [k1.mpr a, k2.mpr b, not_lt.mpr a.le, not_lt.mpr b.le]

/-- the heights of opposite corners of a parallelogram have equal sums, so their signs do not alternate -/
theorem not_alt {S : ℕ → Bool} (hoff : ∀ p ∈ m.v, ¬ OnPlane pl p)
    (h : ∀ u p, m.v[u]? = some p → (S u = true ↔ 0 < height pl p)) {a b c d : ℕ} {pa pb pc pd : V3 ℝ}
    (ha : m.v[a]? = some pa) (hb : m.v[b]? = some pb) (hc : m.v[c]? = some pc) (hd : m.v[d]? = some pd)
    (hsum : height pl pa + height pl pc = height pl pb + height pl pd) : alt S a b c d = false := by
  rw [Bool.eq_false_iff]
  intro hx
  simp only [alt, Bool.and_eq_true, beq_iff_eq, bne_iff_ne] at hx
  obtain ⟨⟨h1, h2⟩, h3⟩ := hx
  have pos : ∀ u p, m.v[u]? = some p → S u = true → 0 < height pl p := fun u p hp hs => (h u p hp).mp hs
  have neg : ∀ u p, m.v[u]? = some p → S u = false → height pl p < 0 := by
    intro u p hp hs
    have := h u p hp
    rw [hs] at this
    have hle : height pl p ≤ 0 := not_lt.mp fun hc => by simpa using this.mpr hc
    exact lt_of_le_of_ne hle fun hc => hoff p (List.mem_of_getElem? hp) hc
  cases hS : S a with
  | true =>
    have hSb : S b = false := by rw [hS] at h3; simpa using h3
    have := pos a pa ha hS
    have := pos c pc hc (h1 ▸ hS)
    have := neg b pb hb hSb
    have := neg d pd hd (h2 ▸ hSb)
    linarith
  | false =>
    have hSb : S b = true := by rw [hS] at h3; simpa using h3
    have := neg a pa ha hS
    have := neg c pc hc (h1 ▸ hS)
    have := pos b pb hb hSb
    have := pos d pd hd (h2 ▸ hSb)
    linarith

set_option maxRecDepth 100000 in
theorem box_closed : ∀ b0 b1 b2 b3 b4 b5 : Bool, closedB 8
    (splitQuad b0 0 1 2 3 ++ (splitQuad b1 7 6 5 4 ++ (splitQuad b2 4 5 1 0 ++
      (splitQuad b3 5 6 2 1 ++ (splitQuad b4 6 7 3 2 ++ (splitQuad b5 3 7 4 0 ++ [])))))) = true := by
  decide +kernel

theorem box_next : ∀ b0 b1 b2 b3 b4 b5 : Bool, ((List.range 6).all fun j => (boxNext j).all fun t =>
    ((boxSides (fun i => [b0, b1, b2, b3, b4, b5].getD i false) t.1).any fun f => hasEdge f t.2.1 t.2.2) &&
    ((boxSides (fun i => [b0, b1, b2, b3, b4, b5].getD i false) j).any fun f => hasEdge f t.2.1 t.2.2)) = true := by
  decide +kernel

theorem box_faces (diag : ℕ → Bool) (f : ℕ × ℕ × ℕ) :
    f ∈ quadsToTris diag 0 prismQuads ↔ ∃ i, i < 6 ∧ f ∈ boxSides diag i := by
  constructor
  · intro h
    simp only [quadsToTris, prismQuads, List.mem_append, List.not_mem_nil, or_false] at h
    rcases h with h | h | h | h | h | h
    · exact ⟨0, by omega, h⟩
    · exact ⟨1, by omega, h⟩
    · exact ⟨2, by omega, h⟩
    · exact ⟨3, by omega, h⟩
    · exact ⟨4, by omega, h⟩
    · exact ⟨5, by omega, h⟩
  · rintro ⟨i, hi, h⟩
    simp only [quadsToTris, prismQuads, List.mem_append, List.not_mem_nil, or_false]
    interval_cases i <;> simp only [boxSides] at h <;> simp only [h, true_or, or_true]

theorem split_corner (b : Bool) (a b' c d : ℕ) (f : ℕ × ℕ × ℕ) (hf : f ∈ splitQuad b a b' c d) (u : ℕ)
    (hu : corner f u = true) : u ∈ [a, b', c, d] := by
  unfold splitQuad at hf
  simp only [corner, decide_eq_true_eq] at hu
  simp only [List.mem_cons, List.not_mem_nil, or_false]
  cases b <;> simp only [if_true, Bool.false_eq_true, if_false, List.mem_cons, List.not_mem_nil, or_false] at hf <;>
    rcases hf with rfl | rfl <;> simp only at hu <;> tauto

theorem box_corner (diag : ℕ → Bool) (i : ℕ) (hi : i < 6) (f : ℕ × ℕ × ℕ) (hf : f ∈ boxSides diag i) (u : ℕ)
    (hu : corner f u = true) : u ∈ boxCorners i := by
  interval_cases i <;> exact split_corner _ _ _ _ _ f hf u hu

theorem mixed_of {S : ℕ → Bool} {cs : List ℕ} {u v : ℕ} (hu : u ∈ cs) (hv : v ∈ cs) (h : S u ≠ S v) : mixed S cs = true := by
  unfold mixed
  rw [List.any_eq_true]
  refine ⟨u, hu, ?_⟩
  rw [List.any_eq_true]
  exact ⟨v, hv, by simpa using h⟩

theorem bool_getD (diag : ℕ → Bool) (i : ℕ) (hi : i < 6) :
    [diag 0, diag 1, diag 2, diag 3, diag 4, diag 5].getD i false = diag i := by
  interval_cases i <;> rfl

theorem boxSides_congr (d d' : ℕ → Bool) (h : ∀ i < 6, d i = d' i) (i : ℕ) : boxSides d i = boxSides d' i := by
  unfold boxSides
  split <;> first | rfl | rw [h _ (by omega)]

/-- the mesh of a rectangular prism -/
noncomputable def box (diag : ℕ → Bool) (o s : V3 ℝ) : Mesh ℝ :=
  ⟨(createRectangularPrism diag o s).1, (createRectangularPrism diag o s).2⟩

theorem box_facts (diag : ℕ → Bool) (o s : V3 ℝ) :
    ValidFaces (box diag o s) ∧ (∀ f ∈ (box diag o s).f, ProperFace f) ∧ ClosedMesh (box diag o s) :=
  closed_of (box_closed (diag 0) (diag 1) (diag 2) (diag 3) (diag 4) (diag 5))

/-- the signs of the heights of the corners -/
noncomputable def boxSigns (pl : Plane ℝ) (o s : V3 ℝ) : ℕ → Bool := open Classical in
  fun u => ((prismVertices o s)[u]?.map fun p => decide (0 < height pl p)).getD false

theorem boxSigns_spec (diag : ℕ → Bool) (o s : V3 ℝ) (u : ℕ) (p : V3 ℝ) (h : (box diag o s).v[u]? = some p) :
    boxSigns pl o s u = true ↔ 0 < height pl p := by
  have h' : (prismVertices o s)[u]? = some p := h
  unfold boxSigns
  rw [h']
  simp

theorem boxSigns_eq (o s : V3 ℝ) : boxSigns pl o s = sgn8 (boxSigns pl o s 0) (boxSigns pl o s 1) (boxSigns pl o s 2)
    (boxSigns pl o s 3) (boxSigns pl o s 4) (boxSigns pl o s 5) (boxSigns pl o s 6) (boxSigns pl o s 7) := by
  funext u
  match u with
  | 0 | 1 | 2 | 3 | 4 | 5 | 6 | 7 => rfl
  | u + 8 => simp [boxSigns, prismVertices, sgn8]

theorem box_not_alt (diag : ℕ → Bool) (o s : V3 ℝ) (hoff : ∀ p ∈ (box diag o s).v, ¬ OnPlane pl p) :
    ∀ q ∈ boxQuads, alt (boxSigns pl o s) q.1 q.2.1 q.2.2.1 q.2.2.2 = false := by
  have key := fun {a b c d : ℕ} {pa pb pc pd : V3 ℝ} => not_alt (a := a) (b := b) (c := c) (d := d) (pa := pa) (pb := pb)
    (pc := pc) (pd := pd) hoff (boxSigns_spec diag o s)
  intro q hq
  simp only [boxQuads, List.mem_cons, List.not_mem_nil, or_false] at hq
  rcases hq with rfl | rfl | rfl | rfl | rfl | rfl | rfl | rfl | rfl | rfl | rfl | rfl <;>
    exact key rfl rfl rfl rfl (by simp [height, inner3, vec3, Num.lit_real]; ring)

theorem box_conn (diag : ℕ → Bool) (o s : V3 ℝ) (hoff : ∀ p ∈ (box diag o s).v, ¬ OnPlane pl p) (e e' : ℕ × ℕ)
    (he : CrossedEdge pl (box diag o s) e) (he' : CrossedEdge pl (box diag o s) e') : Conn pl (box diag o s) e e' := by
  obtain ⟨hv, -, -⟩ := box_facts diag o s
  have hS : Sides pl (box diag o s) (boxSigns pl o s) := sides_of hoff (boxSigns_spec diag o s)
  have hna := box_not_alt diag o s hoff
  have hsub : ∀ i, ∀ f ∈ boxSides diag i, f ∈ (box diag o s).f := by
    intro i f hf
    refine (box_faces diag f).mpr ⟨i, ?_, hf⟩
    by_contra hc
    obtain ⟨k, rfl⟩ : ∃ k, i = k + 6 := ⟨i - 6, by omega⟩
    simp [boxSides] at hf
  have notalt : ∀ {a b c d : ℕ}, (a, b, c, d) ∈ boxQuads → ¬ (boxSigns pl o s a = boxSigns pl o s c ∧
      boxSigns pl o s b = boxSigns pl o s d ∧ boxSigns pl o s a ≠ boxSigns pl o s b) := by
    rintro a b c d hm ⟨h1, h2, h3⟩
    have := hna _ hm
    rw [Bool.eq_false_iff] at this
    apply this
    simp only [alt, Bool.and_eq_true, beq_iff_eq, bne_iff_ne]
    exact ⟨⟨h1, h2⟩, h3⟩
  have hcell : ∀ i, CellConn pl (box diag o s) (boxSides diag i) := by
    intro i
    match i with
    | 0 => exact quad_conn hS hv _ (hsub 0) (by decide) (by decide) (notalt (by decide))
    | 1 => exact quad_conn hS hv _ (hsub 1) (by decide) (by decide) (notalt (by decide))
    | 2 => exact quad_conn hS hv _ (hsub 2) (by decide) (by decide) (notalt (by decide))
    | 3 => exact quad_conn hS hv _ (hsub 3) (by decide) (by decide) (notalt (by decide))
    | 4 => exact quad_conn hS hv _ (hsub 4) (by decide) (by decide) (notalt (by decide))
    | 5 => exact quad_conn hS hv _ (hsub 5) (by decide) (by decide) (notalt (by decide))
    | k + 6 =>
      rintro e e' - - ⟨f, hf, -⟩ -
      simp [boxSides] at hf
  have hnext : ∀ j, ∀ t ∈ boxNext j, (∃ f ∈ boxSides diag t.1, hasEdge f t.2.1 t.2.2 = true) ∧
      ∃ f ∈ boxSides diag j, hasEdge f t.2.1 t.2.2 = true := by
    intro j t ht
    have hj : j < 6 := by
      by_contra hc
      obtain ⟨k, rfl⟩ : ∃ k, j = k + 6 := ⟨j - 6, by omega⟩
      simp [boxNext] at ht
    have := box_next (diag 0) (diag 1) (diag 2) (diag 3) (diag 4) (diag 5)
    rw [List.all_eq_true] at this
    have := this j (List.mem_range.mpr hj)
    rw [List.all_eq_true] at this
    have := this t ht
    rw [boxSides_congr _ diag (bool_getD diag), boxSides_congr _ diag (bool_getD diag)] at this
    simpa only [Bool.and_eq_true, List.any_eq_true] using this
  have where_ : ∀ e, CrossedEdge pl (box diag o s) e → ∃ i, i < 6 ∧ InCell (boxSides diag i) e ∧
      mixed (boxSigns pl o s) (boxCorners i) = true := by
    intro e he
    have hs := crossed_side hS hv he
    obtain ⟨-, ⟨f, hf, hfe⟩, -⟩ := he
    obtain ⟨i, hi, hfi⟩ := (box_faces diag f).mp hf
    refine ⟨i, hi, ⟨f, hfi, hfe⟩, ?_⟩
    simp only [hasEdge, Bool.and_eq_true] at hfe
    exact mixed_of (box_corner diag i hi f hfi _ hfe.1.2) (box_corner diag i hi f hfi _ hfe.2) hs
  obtain ⟨i, hi, hci, hmi⟩ := where_ e he
  obtain ⟨j, hj, hcj, hmj⟩ := where_ e' he'
  have hr : reachB boxNext (boxSigns pl o s) i 3 j = true := by
    have hp := box_patterns (boxSigns pl o s 0) (boxSigns pl o s 1) (boxSigns pl o s 2)
      (boxSigns pl o s 3) (boxSigns pl o s 4) (boxSigns pl o s 5) (boxSigns pl o s 6) (boxSigns pl o s 7)
    rw [← boxSigns_eq] at hp
    have := hp (by
      rw [List.all_eq_true]
      intro q hq
      rw [hna q hq]; rfl)
    rw [List.all_eq_true] at this
    have := this i (List.mem_range.mpr hi)
    rw [List.all_eq_true] at this
    have := this j (List.mem_range.mpr hj)
    rw [hmi, hmj] at this
    simpa using this
  exact conn_of_reach hS hv (boxSides diag) boxNext hsub hcell hnext i 3 j hr e e' he he' hci hcj

/-- a corner is joined to the next lower one, so corners on both sides give a crossed edge -/
theorem crossed_of_tree {S : ℕ → Bool} (hS : Sides pl m S) (hv : ValidFaces m) (par : ℕ → ℕ)
    (ht : ∀ u, 0 < u → u < m.v.length → par u < u ∧ ∃ f ∈ m.f, hasEdge f (par u) u = true) {p q : V3 ℝ}
    (hp : p ∈ m.v) (hq : q ∈ m.v) (h : height pl p * height pl q < 0) : ∃ e, CrossedEdge pl m e := by
  by_contra hno
  have same : ∀ u, u < m.v.length → S u = S 0 := by
    intro u
    induction u using Nat.strong_induction_on with
    | _ u ih =>
      intro hu
      rcases Nat.eq_zero_or_pos u with rfl | h0
      · rfl
      · obtain ⟨k1, f, hf, k2⟩ := ht u h0 hu
        rw [← ih _ k1 (k1.trans hu)]
        by_contra hne
        exact hno ⟨_, crossed_key hS hv hf k2 (fun hc => hne hc.symm)⟩
  obtain ⟨i, hi, rfl⟩ := List.getElem_of_mem hp
  obtain ⟨j, hj, rfl⟩ := List.getElem_of_mem hq
  exact (hS i j hi hj).mp ⟨_, _, List.getElem?_eq_getElem hi, List.getElem?_eq_getElem hj, h⟩ ((same i hi).trans (same j hj).symm)

theorem not_in_plane (hv : ValidFaces m) (hoff : ∀ p ∈ m.v, ¬ OnPlane pl p) : ∀ f ∈ m.f, ¬ Spec.InPlane pl m.v f := by
  intro f hf hin
  have h1 := (hv f hf).1
  exact hoff _ (List.getElem_mem h1) (hin f.1 (by simp [corner]) _ (List.getElem?_eq_getElem h1))

end SolidSlice

open SolidSlice

/-- what slicing a solid gives: nothing if all corners are on one side; if there are corners on both sides, one closed
polyline through all crossings of the mesh edges with the plane, each once, and as `Polyline` the same -/
def SlicedOnce (ver : PyVer) (pk : ℕ → Picker) (ko : ℕ → KeyOrder) (pl : Plane ℝ) (m : Mesh ℝ) : Prop :=
  (((∀ p ∈ m.v, 0 < height pl p) ∨ (∀ p ∈ m.v, height pl p < 0)) → pl.meshXsections ver pk ko m = .ok [] ∧
    ∃ p, pl.meshPolyline ver pk ko m = .ok p ∧ p.v = none) ∧
  ((∃ p ∈ m.v, ∃ q ∈ m.v, height pl p * height pl q < 0) → ∃ c es, pl.meshXsections ver pk ko m = .ok [c] ∧
    c.closed = true ∧ 3 ≤ c.v.length ∧ Traces pl m es c ∧ es.Nodup ∧ (∀ e, e ∈ es ↔ CrossedEdge pl m e) ∧
    ∃ p, pl.meshPolyline ver pk ko m = .ok p ∧ p.v = some c.v ∧ p.closed = true)

namespace SolidSlice
variable {pl : Plane ℝ} {m : Mesh ℝ}

theorem sliced (ver : PyVer) (pk : ℕ → Picker) (ko : ℕ → KeyOrder) {S : ℕ → Bool} (hS : Sides pl m S) (hv : ValidFaces m)
    (hp : ∀ f ∈ m.f, ProperFace f) (hoff : ∀ p ∈ m.v, ¬ OnPlane pl p) (hcl : ClosedMesh m)
    (hconn : ∀ e e', CrossedEdge pl m e → CrossedEdge pl m e' → Conn pl m e e') (par : ℕ → ℕ)
    (ht : ∀ u, 0 < u → u < m.v.length → par u < u ∧ ∃ f ∈ m.f, hasEdge f (par u) u = true) :
    SlicedOnce ver pk ko pl m := by
  obtain ⟨h1, h2⟩ := one_section ver pk ko hv hp hoff hcl hconn
  obtain ⟨cs, ps, P, k1, -, k3, -, k5, k6⟩ := (C120_mesh_returns ver pk ko pl m hv hp).2 (not_in_plane hv hoff)
  constructor
  · intro hall
    have h0 := h1 (by
      rintro e ⟨-, -, a, b, ha, hb, hab⟩
      have ma := List.mem_of_getElem? ha
      have mb := List.mem_of_getElem? hb
      rcases hall with hall | hall
      · exact absurd hab (not_lt.mpr (mul_pos (hall a ma) (hall b mb)).le)
      · exact absurd hab (not_lt.mpr (mul_pos_of_neg_of_neg (hall a ma) (hall b mb)).le))
    refine ⟨h0, P, k3, k5 ?_⟩
    rw [h0] at k1
    cases k1; rfl
  · rintro ⟨p, mp, q, mq, hpq⟩
    obtain ⟨c, es, g1, g2, g3, g4, g5⟩ := h2 (crossed_of_tree hS hv par ht mp mq hpq)
    rw [g1] at k1
    cases k1
    obtain ⟨k7, k8⟩ := k6 (by simp)
    refine ⟨c, es, g1, g2, ?_, g3, g4, g5, P, k3, by simpa using k7, k8⟩
    rw [← g3.points.length_eq]
    exact (g3.closing g2).1

/-- the corner below, joined by an edge of the box -/
def boxPar : ℕ → ℕ
  | 1 => 0 | 2 => 1 | 3 => 0 | 4 => 0 | 5 => 1 | 6 => 2 | 7 => 3 | _ => 0

set_option maxRecDepth 100000 in
theorem box_tree : ∀ b0 b1 b2 b3 b4 b5 : Bool, ∀ u < 8, 0 < u →
    (boxPar u < u ∧ ∃ f ∈ quadsToTris (fun i => [b0, b1, b2, b3, b4, b5].getD i false) 0 prismQuads, hasEdge f (boxPar u) u = true) := by
  decide +kernel

/-- the mesh of a triangular prism with the given base and shift -/
noncomputable def wedge (p1 p2 p3 s : V3 ℝ) : Mesh ℝ := ⟨[p1, p2, p3, p1 + s, p2 + s, p3 + s], triPrismFaces⟩

/-- its sides -/
def wedgeSides : ℕ → List (ℕ × ℕ × ℕ)
  | 0 => [(0, 1, 2)]
  | 1 => [(5, 4, 3)]
  | 2 => [(0, 3, 4), (0, 4, 1)]
  | 3 => [(1, 4, 5), (1, 5, 2)]
  | 4 => [(2, 5, 3), (2, 3, 0)]
  | _ => []

/-- the sides next to each side, with the common edge -/
def wedgeNext : ℕ → List (ℕ × ℕ × ℕ)
  | 0 => [(2, 0, 1), (3, 1, 2), (4, 2, 0)]
  | 1 => [(2, 3, 4), (3, 4, 5), (4, 5, 3)]
  | 2 => [(0, 0, 1), (1, 3, 4), (3, 1, 4), (4, 0, 3)]
  | 3 => [(0, 1, 2), (1, 4, 5), (2, 1, 4), (4, 2, 5)]
  | 4 => [(0, 2, 0), (1, 5, 3), (2, 0, 3), (3, 2, 5)]
  | _ => []

/-- the corners of each side -/
def wedgeCorners : ℕ → List ℕ
  | 0 => [0, 1, 2]
  | 1 => [5, 4, 3]
  | 2 => [0, 3, 4, 1]
  | 3 => [1, 4, 5, 2]
  | 4 => [2, 5, 3, 0]
  | _ => []

/-- the parallelograms among its sides -/
def wedgeQuads : List (ℕ × ℕ × ℕ × ℕ) := [(0, 3, 4, 1), (1, 4, 5, 2), (2, 5, 3, 0)]

/-- six signs -/
def sgn6 (b0 b1 b2 b3 b4 b5 : Bool) (u : ℕ) : Bool :=
  match u with
  | 0 => b0 | 1 => b1 | 2 => b2 | 3 => b3 | 4 => b4 | 5 => b5 | _ => false

set_option maxRecDepth 100000 in
theorem wedge_patterns : ∀ b0 b1 b2 b3 b4 b5 : Bool,
    (wedgeQuads.all fun q => !alt (sgn6 b0 b1 b2 b3 b4 b5) q.1 q.2.1 q.2.2.1 q.2.2.2) = true →
    ((List.range 5).all fun i => (List.range 5).all fun j =>
      !mixed (sgn6 b0 b1 b2 b3 b4 b5) (wedgeCorners i) || !mixed (sgn6 b0 b1 b2 b3 b4 b5) (wedgeCorners j) ||
        reachB wedgeNext (sgn6 b0 b1 b2 b3 b4 b5) i 3 j) = true := by
  decide +kernel

set_option maxRecDepth 100000 in
theorem wedge_closed : closedB 6 triPrismFaces = true := by decide +kernel

theorem wedge_facts (p1 p2 p3 s : V3 ℝ) : ValidFaces (wedge p1 p2 p3 s) ∧ (∀ f ∈ (wedge p1 p2 p3 s).f, ProperFace f) ∧
    ClosedMesh (wedge p1 p2 p3 s) := closed_of wedge_closed

/-- the signs of the heights of the corners -/
noncomputable def signs (pl : Plane ℝ) (vs : List (V3 ℝ)) : ℕ → Bool := open Classical in
  fun u => (vs[u]?.map fun p => decide (0 < height pl p)).getD false

theorem signs_spec (u : ℕ) (p : V3 ℝ) (h : m.v[u]? = some p) : signs pl m.v u = true ↔ 0 < height pl p := by
  unfold signs
  rw [h]
  simp

theorem wedgeSigns_eq (p1 p2 p3 s : V3 ℝ) : signs pl (wedge p1 p2 p3 s).v = sgn6 (signs pl (wedge p1 p2 p3 s).v 0)
    (signs pl (wedge p1 p2 p3 s).v 1) (signs pl (wedge p1 p2 p3 s).v 2) (signs pl (wedge p1 p2 p3 s).v 3)
    (signs pl (wedge p1 p2 p3 s).v 4) (signs pl (wedge p1 p2 p3 s).v 5) := by
  funext u
  match u with
  | 0 | 1 | 2 | 3 | 4 | 5 => rfl
  | u + 6 => simp [signs, wedge, sgn6]

theorem wedge_not_alt (p1 p2 p3 s : V3 ℝ) (hoff : ∀ p ∈ (wedge p1 p2 p3 s).v, ¬ OnPlane pl p) :
    ∀ q ∈ wedgeQuads, alt (signs pl (wedge p1 p2 p3 s).v) q.1 q.2.1 q.2.2.1 q.2.2.2 = false := by
  have key := fun {a b c d : ℕ} {pa pb pc pd : V3 ℝ} => not_alt (a := a) (b := b) (c := c) (d := d) (pa := pa) (pb := pb)
    (pc := pc) (pd := pd) hoff signs_spec
  intro q hq
  simp only [wedgeQuads, List.mem_cons, List.not_mem_nil, or_false] at hq
  rcases hq with rfl | rfl | rfl <;> exact key rfl rfl rfl rfl (by simp [height, inner3, vec3]; ring)

theorem wedge_faces (f : ℕ × ℕ × ℕ) : f ∈ triPrismFaces ↔ ∃ i, i < 5 ∧ f ∈ wedgeSides i := by
  constructor
  · intro h
    simp only [triPrismFaces, List.mem_cons, List.not_mem_nil, or_false] at h
    rcases h with rfl | rfl | rfl | rfl | rfl | rfl | rfl | rfl <;> decide
  · rintro ⟨i, hi, h⟩
    revert h
    interval_cases i <;> simp only [wedgeSides, triPrismFaces, List.mem_cons, List.not_mem_nil, or_false] <;> tauto

theorem wedge_corner (i : ℕ) (hi : i < 5) (f : ℕ × ℕ × ℕ) (hf : f ∈ wedgeSides i) (u : ℕ) (hu : corner f u = true) :
    u ∈ wedgeCorners i := by
  simp only [corner, decide_eq_true_eq] at hu
  interval_cases i <;> simp only [wedgeSides, List.mem_cons, List.not_mem_nil, or_false] at hf <;>
    simp only [wedgeCorners, List.mem_cons, List.not_mem_nil, or_false] <;> first
    | (subst hf; simp only at hu; tauto)
    | (rcases hf with rfl | rfl <;> simp only at hu <;> tauto)

theorem wedge_next : ∀ j < 5, ∀ t ∈ wedgeNext j, (∃ f ∈ wedgeSides t.1, hasEdge f t.2.1 t.2.2 = true) ∧
    ∃ f ∈ wedgeSides j, hasEdge f t.2.1 t.2.2 = true := by decide +kernel

theorem wedge_conn (p1 p2 p3 s : V3 ℝ) (hoff : ∀ p ∈ (wedge p1 p2 p3 s).v, ¬ OnPlane pl p) (e e' : ℕ × ℕ)
    (he : CrossedEdge pl (wedge p1 p2 p3 s) e) (he' : CrossedEdge pl (wedge p1 p2 p3 s) e') :
    Conn pl (wedge p1 p2 p3 s) e e' := by
  obtain ⟨hv, -, -⟩ := wedge_facts p1 p2 p3 s
  have hS : Sides pl (wedge p1 p2 p3 s) (signs pl (wedge p1 p2 p3 s).v) := sides_of hoff signs_spec
  have hna := wedge_not_alt p1 p2 p3 s hoff
  have hsub : ∀ i, ∀ f ∈ wedgeSides i, f ∈ (wedge p1 p2 p3 s).f := by
    intro i f hf
    refine (wedge_faces f).mpr ⟨i, ?_, hf⟩
    by_contra hc
    obtain ⟨k, rfl⟩ : ∃ k, i = k + 5 := ⟨i - 5, by omega⟩
    simp [wedgeSides] at hf
  have notalt : ∀ {a b c d : ℕ}, (a, b, c, d) ∈ wedgeQuads → ¬ (signs pl (wedge p1 p2 p3 s).v a = signs pl (wedge p1 p2 p3 s).v c ∧
      signs pl (wedge p1 p2 p3 s).v b = signs pl (wedge p1 p2 p3 s).v d ∧
      signs pl (wedge p1 p2 p3 s).v a ≠ signs pl (wedge p1 p2 p3 s).v b) := by
    rintro a b c d hm ⟨h1, h2, h3⟩
    have := hna _ hm
    rw [Bool.eq_false_iff] at this
    apply this
    simp only [alt, Bool.and_eq_true, beq_iff_eq, bne_iff_ne]
    exact ⟨⟨h1, h2⟩, h3⟩
  have hcell : ∀ i, CellConn pl (wedge p1 p2 p3 s) (wedgeSides i) := by
    intro i
    match i with
    | 0 => exact face_conn (hsub 0 _ (by decide))
    | 1 => exact face_conn (hsub 1 _ (by decide))
    | 2 => exact quad_conn hS hv true (a := 0) (b := 3) (c := 4) (d := 1) (hsub 2) (by decide) (by decide) (notalt (by decide))
    | 3 => exact quad_conn hS hv true (a := 1) (b := 4) (c := 5) (d := 2) (hsub 3) (by decide) (by decide) (notalt (by decide))
    | 4 => exact quad_conn hS hv true (a := 2) (b := 5) (c := 3) (d := 0) (hsub 4) (by decide) (by decide) (notalt (by decide))
    | k + 5 =>
      rintro e e' - - ⟨f, hf, -⟩ -
      simp [wedgeSides] at hf
  have hnext : ∀ j, ∀ t ∈ wedgeNext j, (∃ f ∈ wedgeSides t.1, hasEdge f t.2.1 t.2.2 = true) ∧
      ∃ f ∈ wedgeSides j, hasEdge f t.2.1 t.2.2 = true := by
    intro j t ht
    have hj : j < 5 := by
      by_contra hc
      obtain ⟨k, rfl⟩ : ∃ k, j = k + 5 := ⟨j - 5, by omega⟩
      simp [wedgeNext] at ht
    exact wedge_next j hj t ht
  have where_ : ∀ e, CrossedEdge pl (wedge p1 p2 p3 s) e → ∃ i, i < 5 ∧ InCell (wedgeSides i) e ∧
      mixed (signs pl (wedge p1 p2 p3 s).v) (wedgeCorners i) = true := by
    intro e he
    have hs := crossed_side hS hv he
    obtain ⟨-, ⟨f, hf, hfe⟩, -⟩ := he
    obtain ⟨i, hi, hfi⟩ := (wedge_faces f).mp hf
    refine ⟨i, hi, ⟨f, hfi, hfe⟩, ?_⟩
    simp only [hasEdge, Bool.and_eq_true] at hfe
    exact mixed_of (wedge_corner i hi f hfi _ hfe.1.2) (wedge_corner i hi f hfi _ hfe.2) hs
  obtain ⟨i, hi, hci, hmi⟩ := where_ e he
  obtain ⟨j, hj, hcj, hmj⟩ := where_ e' he'
  have hr : reachB wedgeNext (signs pl (wedge p1 p2 p3 s).v) i 3 j = true := by
    have hp := wedge_patterns (signs pl (wedge p1 p2 p3 s).v 0) (signs pl (wedge p1 p2 p3 s).v 1)
      (signs pl (wedge p1 p2 p3 s).v 2) (signs pl (wedge p1 p2 p3 s).v 3) (signs pl (wedge p1 p2 p3 s).v 4)
      (signs pl (wedge p1 p2 p3 s).v 5)
    rw [← wedgeSigns_eq] at hp
    have := hp (by
      rw [List.all_eq_true]
      intro q hq
      rw [hna q hq]; rfl)
    rw [List.all_eq_true] at this
    have := this i (List.mem_range.mpr hi)
    rw [List.all_eq_true] at this
    have := this j (List.mem_range.mpr hj)
    rw [hmi, hmj] at this
    simpa using this
  exact conn_of_reach hS hv wedgeSides wedgeNext hsub hcell hnext i 3 j hr e e' he he' hci hcj

/-- the corner below, joined by an edge -/
def wedgePar : ℕ → ℕ
  | 4 => 1 | 5 => 2 | _ => 0

theorem wedge_tree : ∀ u < 6, 0 < u → (wedgePar u < u ∧ ∃ f ∈ triPrismFaces, hasEdge f (wedgePar u) u = true) := by
  decide +kernel

theorem between {a b t lo hi : ℝ} (h0 : 0 ≤ t) (h1 : t ≤ 1) (a1 : lo ≤ a) (a2 : a ≤ hi) (b1 : lo ≤ b) (b2 : b ≤ hi) :
    lo ≤ a + t * (b - a) ∧ a + t * (b - a) ≤ hi := by
  have e : a + t * (b - a) = (1 - t) * a + t * b := by ring
  rw [e]
  constructor
  · have := mul_le_mul_of_nonneg_left a1 (sub_nonneg.mpr h1)
    have := mul_le_mul_of_nonneg_left b1 h0
    linarith
  · have := mul_le_mul_of_nonneg_left a2 (sub_nonneg.mpr h1)
    have := mul_le_mul_of_nonneg_left b2 h0
    linarith

end SolidSlice

/-- **C121.** A plane through no corner of the rectangular prism (any origin, any size, however its sides are split into
triangles): nothing if all corners are on one side, otherwise one closed polyline through all crossings, each once;
whichever way the code's choices fall, and whatever the version of Python. -/
theorem C121_prism (ver : PyVer) (pk : ℕ → Picker) (ko : ℕ → KeyOrder) (pl : Plane ℝ) (diag : ℕ → Bool) (o s : V3 ℝ)
    (hoff : ∀ p ∈ (createRectangularPrism diag o s).1, ¬ OnPlane pl p) :
    SlicedOnce ver pk ko pl ⟨(createRectangularPrism diag o s).1, (createRectangularPrism diag o s).2⟩ := by
  obtain ⟨hv, hp, hcl⟩ := box_facts diag o s
  refine sliced ver pk ko (m := box diag o s) (sides_of hoff (boxSigns_spec diag o s)) hv hp hoff hcl (box_conn diag o s hoff)
    boxPar ?_
  intro u h0 hu
  exact box_tree (diag 0) (diag 1) (diag 2) (diag 3) (diag 4) (diag 5) u hu h0

/-- **C121.** The same for the cube. -/
theorem C121_cube (ver : PyVer) (pk : ℕ → Picker) (ko : ℕ → KeyOrder) (pl : Plane ℝ) (diag : ℕ → Bool) (o : V3 ℝ) (s : ℝ)
    (hoff : ∀ p ∈ (createCube diag o s).1, ¬ OnPlane pl p) :
    SlicedOnce ver pk ko pl ⟨(createCube diag o s).1, (createCube diag o s).2⟩ :=
  C121_prism ver pk ko pl diag o ⟨s, s, s⟩ hoff

/-- **C121.** The same for the triangular prism, whatever the base and the height, whenever it can be made at all. -/
theorem C121_tri (ver : PyVer) (pk : ℕ → Picker) (ko : ℕ → KeyOrder) (pl : Plane ℝ) (p1 p2 p3 : V3 ℝ) (h : ℝ)
    (vs : List (V3 ℝ)) (fs : List (ℕ × ℕ × ℕ)) (hr : createTriangularPrism p1 p2 p3 h = .ok (vs, fs))
    (hoff : ∀ p ∈ vs, ¬ OnPlane pl p) : SlicedOnce ver pk ko pl ⟨vs, fs⟩ := by
  unfold createTriangularPrism at hr
  cases hb : Plane.fromPoints p1 p2 p3 with
  | error e => rw [hb] at hr; cases hr
  | ok b =>
    rw [hb] at hr
    obtain ⟨rfl, rfl⟩ := Prod.mk.inj (Except.ok.inj hr)
    obtain ⟨hv, hp, hcl⟩ := wedge_facts p1 p2 p3 (V3.smul h (-b.normal))
    refine sliced ver pk ko (m := wedge p1 p2 p3 (V3.smul h (-b.normal))) (sides_of hoff signs_spec) hv hp hoff hcl
      (wedge_conn _ _ _ _ hoff) wedgePar ?_
    intro u h0 hu
    exact wedge_tree u hu h0

/-- **C121.** The points of any section of the prism are in the box, for a size of no negative coordinate. -/
theorem C121_in_box (ver : PyVer) (pk : ℕ → Picker) (ko : ℕ → KeyOrder) (pl : Plane ℝ) (diag : ℕ → Bool) (o s : V3 ℝ)
    (hoff : ∀ p ∈ (createRectangularPrism diag o s).1, ¬ OnPlane pl p) (hx : 0 ≤ s.x) (hy : 0 ≤ s.y) (hz : 0 ≤ s.z)
    (cs : List (Section ℝ))
    (hr : pl.meshXsections ver pk ko ⟨(createRectangularPrism diag o s).1, (createRectangularPrism diag o s).2⟩ = .ok cs) :
    ∀ c ∈ cs, ∀ q ∈ c.v, OnPlane pl q ∧ (o.x ≤ q.x ∧ q.x ≤ o.x + s.x) ∧ (o.y ≤ q.y ∧ q.y ≤ o.y + s.y) ∧
      (o.z ≤ q.z ∧ q.z ≤ o.z + s.z) := by
  obtain ⟨hv, hp, hcl⟩ := box_facts diag o s
  obtain ⟨cs', ess, h1, h2, -, -, -⟩ := C31_manifold ver pk ko pl (box diag o s) hv hp hoff (manifold_of_closed hcl) (Or.inl hcl)
  have : cs' = cs := Except.ok.inj (h1.symm.trans hr)
  subst this
  have corners : ∀ p ∈ (box diag o s).v, (o.x ≤ p.x ∧ p.x ≤ o.x + s.x) ∧ (o.y ≤ p.y ∧ p.y ≤ o.y + s.y) ∧
      (o.z ≤ p.z ∧ p.z ≤ o.z + s.z) := by
    intro p hp
    simp only [box, createRectangularPrism, prismVertices, List.map_cons, List.map_nil, List.cons_append, List.nil_append,
      List.mem_cons, List.not_mem_nil, or_false] at hp
    rcases hp with rfl | rfl | rfl | rfl | rfl | rfl | rfl | rfl <;>
      simp [hx, hy, hz]
  have each : ∀ c ∈ cs', ∃ es, Traces pl (box diag o s) es c := by
    clear h1 hr
    induction h2 with
    | nil => simp
    | cons ht _ ih =>
      intro c hc
      rcases List.mem_cons.mp hc with rfl | hc
      · exact ⟨_, ht⟩
      · exact ih c hc
  intro c hc q hq
  obtain ⟨es, ht⟩ := each c hc
  obtain ⟨i, hi, rfl⟩ := List.getElem_of_mem hq
  obtain ⟨a, b, ha, hb, hon, t, t0, t1, e⟩ := ht.points.get (i := i) (by rw [ht.points.length_eq]; exact hi) hi
  simp only [List.get_eq_getElem] at e hon
  refine ⟨hon, ?_⟩
  obtain ⟨ax, ay, az⟩ := corners a (List.mem_of_getElem? ha)
  obtain ⟨bx, by', bz⟩ := corners b (List.mem_of_getElem? hb)
  rw [e]
  exact ⟨between t0 t1 ax.1 ax.2 bx.1 bx.2, between t0 t1 ay.1 ay.2 by'.1 by'.2, between t0 t1 az.1 az.2 bz.1 bz.2⟩

/-- a plane through the middle of the unit cube -/
example (ver : PyVer) (pk : ℕ → Picker) (ko : ℕ → KeyOrder) (diag : ℕ → Bool) :
    ∃ c, (⟨⟨0, 1 / 2, 0⟩, ⟨0, 1, 0⟩⟩ : Plane ℝ).meshXsections ver pk ko
      ⟨(createCube diag ⟨0, 0, 0⟩ (1 : ℝ)).1, (createCube diag ⟨0, 0, 0⟩ (1 : ℝ)).2⟩ = .ok [c] ∧ c.closed = true := by
  obtain ⟨c, es, h1, h2, -⟩ := (C121_cube ver pk ko ⟨⟨0, 1 / 2, 0⟩, ⟨0, 1, 0⟩⟩ diag ⟨0, 0, 0⟩ 1 (by
    intro p hp
    simp only [createCube, createRectangularPrism, prismVertices, List.map_cons, List.map_nil, List.cons_append, List.nil_append,
      List.mem_cons, List.not_mem_nil, or_false] at hp
    rcases hp with rfl | rfl | rfl | rfl | rfl | rfl | rfl | rfl <;> simp [OnPlane, inner3, vec3] <;> norm_num)).2
    ⟨⟨0, 0, 0⟩, by simp [createCube, createRectangularPrism, prismVertices], ⟨0, 1, 0⟩,
      by simp [createCube, createRectangularPrism, prismVertices, V3.ext_iff], by simp [height, inner3, vec3]; norm_num⟩
  exact ⟨c, h1, h2⟩

/-- a plane below it -/
example (ver : PyVer) (pk : ℕ → Picker) (ko : ℕ → KeyOrder) (diag : ℕ → Bool) :
    (⟨⟨0, -1, 0⟩, ⟨0, 1, 0⟩⟩ : Plane ℝ).meshXsections ver pk ko
      ⟨(createCube diag ⟨0, 0, 0⟩ (1 : ℝ)).1, (createCube diag ⟨0, 0, 0⟩ (1 : ℝ)).2⟩ = .ok [] := by
  have pos : ∀ p ∈ (createCube diag (⟨0, 0, 0⟩ : V3 ℝ) 1).1, 0 < height ⟨⟨0, -1, 0⟩, ⟨0, 1, 0⟩⟩ p := by
    intro p hp
    simp only [createCube, createRectangularPrism, prismVertices, List.map_cons, List.map_nil, List.cons_append, List.nil_append,
      List.mem_cons, List.not_mem_nil, or_false] at hp
    rcases hp with rfl | rfl | rfl | rfl | rfl | rfl | rfl | rfl <;> simp [height, inner3, vec3] <;> norm_num
  exact ((C121_cube ver pk ko ⟨⟨0, -1, 0⟩, ⟨0, 1, 0⟩⟩ diag ⟨0, 0, 0⟩ 1 fun p hp hc => (pos p hp).ne' hc).1 (Or.inl pos)).1

/-- a plane through a triangular prism -/
example (ver : PyVer) (pk : ℕ → Picker) (ko : ℕ → KeyOrder) : ∃ vs fs c,
    createTriangularPrism (⟨0, 0, 0⟩ : V3 ℝ) ⟨1, 0, 0⟩ ⟨0, 1, 0⟩ 1 = .ok (vs, fs) ∧
    (⟨⟨1 / 2, 0, 0⟩, ⟨1, 0, 0⟩⟩ : Plane ℝ).meshXsections ver pk ko ⟨vs, fs⟩ = .ok [c] ∧ c.closed = true := by
  have hpl : Plane.fromPoints (⟨0, 0, 0⟩ : V3 ℝ) ⟨1, 0, 0⟩ ⟨0, 1, 0⟩ = .ok ⟨⟨0, 0, 0⟩, ⟨0, 0, 1⟩⟩ := by
    show Plane.mk' _ (cross3 (vec3 ⟨0, 0, 0⟩ ⟨1, 0, 0⟩) (vec3 ⟨0, 0, 0⟩ ⟨0, 1, 0⟩)) = _
    have e : cross3 (vec3 (⟨0, 0, 0⟩ : V3 ℝ) ⟨1, 0, 0⟩) (vec3 ⟨0, 0, 0⟩ ⟨0, 1, 0⟩) = ⟨0, 0, 1⟩ := by
      simp [cross3, vec3]
    rw [e]
    have : ¬ almostZero (⟨0, 0, 1⟩ : V3 ℝ) defaultAtol = true := by
      rw [almostZero_real]
      norm_num
    unfold Plane.mk'
    rw [if_neg this, normalize3_real]
    simp [len3, scale3, inner3]
  have hr : createTriangularPrism (⟨0, 0, 0⟩ : V3 ℝ) ⟨1, 0, 0⟩ ⟨0, 1, 0⟩ 1 = .ok
      ([⟨0, 0, 0⟩, ⟨1, 0, 0⟩, ⟨0, 1, 0⟩, ⟨0, 0, -1⟩, ⟨1, 0, -1⟩, ⟨0, 1, -1⟩], triPrismFaces) := by
    unfold createTriangularPrism
    rw [hpl]
    simp [bind, Except.bind, pure, Except.pure, Plane.normal, V3.ext_iff]
  obtain ⟨c, es, h1, h2, -⟩ := (C121_tri ver pk ko ⟨⟨1 / 2, 0, 0⟩, ⟨1, 0, 0⟩⟩ _ _ _ 1 _ _ hr (by
    intro p hp
    simp only [List.mem_cons, List.not_mem_nil, or_false] at hp
    rcases hp with rfl | rfl | rfl | rfl | rfl | rfl <;> simp [OnPlane, inner3, vec3] <;> norm_num)).2
    ⟨⟨0, 0, 0⟩, by simp, ⟨1, 0, 0⟩, by simp, by simp [height, inner3, vec3]; norm_num⟩
  exact ⟨_, _, c, hr, h1, h2⟩

end Blmath.Props
