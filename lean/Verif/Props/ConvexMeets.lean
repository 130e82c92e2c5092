import Verif.Props.Girth

/-!
Property C135: which planes meet a convex solid, and which points belong to it.
-/

namespace Blmath.Props
open Blmath.Geometry Blmath.Spec Blmath.Proofs

namespace IS
open CX

/-- three times the expansion of a determinant by a vector -/
theorem expand (w a b c : V3 ℝ) :
    inner3 w w * det3 a b c = det3 w a b * inner3 w c + det3 w b c * inner3 w a + det3 w c a * inner3 w b := by
  simp only [det3, inner3, cross3]
  ring

theorem sum_edges (E : ℕ × ℕ → ℝ) (fs : List (ℕ × ℕ × ℕ)) :
    ((directedEdges fs).map E).sum = (fs.map fun f => E (f.1, f.2.1) + E (f.2.1, f.2.2) + E (f.2.2, f.1)).sum := by
  induction fs with
  | nil => rfl
  | cons f fs ih =>
    have : directedEdges (f :: fs) = [(f.1, f.2.1), (f.2.1, f.2.2), (f.2.2, f.1)] ++ directedEdges fs := rfl
    rw [this, List.map_append, List.sum_append, ih]
    simp [add_assoc]

/-- what changes sign with the direction of an edge adds up to nothing over a closed surface -/
theorem cancel {fs : List (ℕ × ℕ × ℕ)} (h : Watertight fs) (E : ℕ × ℕ → ℝ) (hE : ∀ e ∈ directedEdges fs, E (e.2, e.1) = -E e) :
    (fs.map fun f => E (f.1, f.2.1) + E (f.2.1, f.2.2) + E (f.2.2, f.1)).sum = 0 := by
  rw [← sum_edges, ← List.sum_toFinset E h.1]
  refine Finset.sum_involution (fun e _ => (e.2, e.1)) ?_ ?_ ?_ ?_
  · intro e he
    rw [hE e (List.mem_toFinset.mp he)]; ring
  · intro e he _ hc
    exact (h.2 e (List.mem_toFinset.mp he)).1 (congrArg Prod.snd hc)
  · intro e he
    exact List.mem_toFinset.mpr (h.2 e (List.mem_toFinset.mp he)).2
  · intro e he
    rfl

/-- the faces above a plane that no edge crosses do not exist if a point below it is behind all of them: seen from there their areas would
be positive and add up to nothing -/
theorem no_island {fs : List (ℕ × ℕ × ℕ)} (h : Watertight fs) (P : ℕ → V3 ℝ) (w x : V3 ℝ) (up : ℕ → Prop)
    (hedge : ∀ e ∈ directedEdges fs, up e.1 ↔ up e.2) (hup : ∀ e ∈ directedEdges fs, up e.1 → 0 < inner3 w (vec3 x (P e.1)))
    (hin : ∀ f ∈ fs, inner3 (cross3 (vec3 (P f.1) (P f.2.1)) (vec3 (P f.1) (P f.2.2))) (vec3 (P f.1) x) < 0) :
    ∀ f ∈ fs, ¬ up f.1 := by
  classical
  intro f hf hfu
  have mem : ∀ f ∈ fs, (f.1, f.2.1) ∈ directedEdges fs ∧ (f.2.1, f.2.2) ∈ directedEdges fs ∧ (f.2.2, f.1) ∈ directedEdges fs := by
    intro f hf
    refine ⟨?_, ?_, ?_⟩ <;> exact List.mem_flatMap.mpr ⟨f, hf, by simp⟩
  set E : ℕ × ℕ → ℝ := fun e => if up e.1 then
    det3 w (vec3 x (P e.1)) (vec3 x (P e.2)) / (inner3 w (vec3 x (P e.1)) * inner3 w (vec3 x (P e.2))) else 0 with hE
  have hsum := cancel h E (fun e he => by
    by_cases hu : up e.1
    · have h2 := (hedge e he).mp hu
      simp only [hE, hu, h2, if_true]
      have : det3 w (vec3 x (P e.2)) (vec3 x (P e.1)) = -det3 w (vec3 x (P e.1)) (vec3 x (P e.2)) := by
        simp only [det3, inner3, cross3]; ring
      rw [this, mul_comm (inner3 w (vec3 x (P e.2)))]
      ring
    · have h2 : ¬ up e.2 := fun c => hu ((hedge e he).mpr c)
      simp only [hE, hu, h2, if_false, neg_zero])
  have key : ∀ f ∈ fs, 0 ≤ E (f.1, f.2.1) + E (f.2.1, f.2.2) + E (f.2.2, f.1) ∧
      (up f.1 → 0 < E (f.1, f.2.1) + E (f.2.1, f.2.2) + E (f.2.2, f.1)) := by
    intro f hf
    obtain ⟨m1, m2, m3⟩ := mem f hf
    have pos : up f.1 → 0 < E (f.1, f.2.1) + E (f.2.1, f.2.2) + E (f.2.2, f.1) := by
      intro u1
      have u2 := (hedge _ m1).mp u1
      have u3 := (hedge _ m2).mp u2
      have p1 := hup _ m1 u1
      have p2 := hup _ m2 u2
      have p3 := hup _ m3 u3
      simp only [hE] at u2 u3 p1 p2 p3 ⊢
      rw [if_pos u1, if_pos u2, if_pos u3]
      have hw : 0 < inner3 w w := by
        apply inner_self_pos
        rintro rfl
        simp [inner3, zero3] at p1
      have hD : 0 < det3 (vec3 x (P f.1)) (vec3 x (P f.2.1)) (vec3 x (P f.2.2)) := by
        have := hin f hf
        have e : det3 (vec3 x (P f.1)) (vec3 x (P f.2.1)) (vec3 x (P f.2.2)) =
            -inner3 (cross3 (vec3 (P f.1) (P f.2.1)) (vec3 (P f.1) (P f.2.2))) (vec3 (P f.1) x) := by
          simp only [det3, inner3, cross3, vec3]; ring
        linarith
      have e := expand w (vec3 x (P f.1)) (vec3 x (P f.2.1)) (vec3 x (P f.2.2))
      have : det3 w (vec3 x (P f.1)) (vec3 x (P f.2.1)) / (inner3 w (vec3 x (P f.1)) * inner3 w (vec3 x (P f.2.1))) +
          det3 w (vec3 x (P f.2.1)) (vec3 x (P f.2.2)) / (inner3 w (vec3 x (P f.2.1)) * inner3 w (vec3 x (P f.2.2))) +
          det3 w (vec3 x (P f.2.2)) (vec3 x (P f.1)) / (inner3 w (vec3 x (P f.2.2)) * inner3 w (vec3 x (P f.1))) =
          inner3 w w * det3 (vec3 x (P f.1)) (vec3 x (P f.2.1)) (vec3 x (P f.2.2)) /
            (inner3 w (vec3 x (P f.1)) * inner3 w (vec3 x (P f.2.1)) * inner3 w (vec3 x (P f.2.2))) := by
        rw [e]
        field_simp
      rw [this]
      positivity
    refine ⟨?_, pos⟩
    by_cases u1 : up f.1
    · exact (pos u1).le
    · have u2 := fun c => u1 ((hedge _ m1).mpr c)
      have u3 := fun c => u2 ((hedge _ m2).mpr c)
      simp only [hE] at u2 u3 ⊢
      rw [if_neg u1, if_neg u2, if_neg u3]
      norm_num
  have : 0 < (fs.map fun f => E (f.1, f.2.1) + E (f.2.1, f.2.2) + E (f.2.2, f.1)).sum := by
    refine lt_of_lt_of_le ((key f hf).2 hfu) (List.single_le_sum ?_ _ (List.mem_map.mpr ⟨f, hf, rfl⟩))
    intro y hy
    obtain ⟨g, hg, rfl⟩ := List.mem_map.mp hy
    exact (key g hg).1
  linarith

/-- the vertex with a number -/
noncomputable def pt (m : Mesh ℝ) (i : ℕ) : V3 ℝ := m.v.getD i zero3

/-- how far a point is in front of a face, times twice the area of the face -/
noncomputable def front (m : Mesh ℝ) (f : ℕ × ℕ × ℕ) (x : V3 ℝ) : ℝ :=
  inner3 (cross3 (vec3 (pt m f.1) (pt m f.2.1)) (vec3 (pt m f.1) (pt m f.2.2))) (vec3 (pt m f.1) x)

theorem pt_some {m : Mesh ℝ} {i : ℕ} (h : i < m.v.length) : m.v[i]? = some (pt m i) := get_some _ h

theorem pt_mem {m : Mesh ℝ} {i : ℕ} (h : i < m.v.length) : pt m i ∈ m.v := List.mem_of_getElem? (pt_some h)

theorem corners_pt {m : Mesh ℝ} (hv : ValidFaces m) {f : ℕ × ℕ × ℕ} (hf : f ∈ m.f) :
    Spec.corners m.v f = some (pt m f.1, pt m f.2.1, pt m f.2.2) := by
  obtain ⟨h1, h2, h3⟩ := hv f hf
  simp [Spec.corners, pt_some h1, pt_some h2, pt_some h3]

theorem mem_edges {fs : List (ℕ × ℕ × ℕ)} {f : ℕ × ℕ × ℕ} (hf : f ∈ fs) :
    (f.1, f.2.1) ∈ directedEdges fs ∧ (f.2.1, f.2.2) ∈ directedEdges fs ∧ (f.2.2, f.1) ∈ directedEdges fs := by
  refine ⟨?_, ?_, ?_⟩ <;> exact List.mem_flatMap.mpr ⟨f, hf, by simp⟩

theorem front_along (m : Mesh ℝ) (f : ℕ × ℕ × ℕ) (x y : V3 ℝ) (t : ℝ) :
    front m f (along x t (vec3 x y)) = (1 - t) * front m f x + t * front m f y := by
  simp only [front, FS.inner_split, inner_along]; ring

theorem front_le {m : Mesh ℝ} (hv : ValidFaces m) (ho : OutwardMesh m) {f : ℕ × ℕ × ℕ} (hf : f ∈ m.f) {p : V3 ℝ} (hp : p ∈ m.v) :
    front m f p ≤ 0 := (ho.2 f hf _ (corners_pt hv hf)).1 p hp

/-- a point strictly behind all faces -/
theorem inside {m : Mesh ℝ} (hv : ValidFaces m) (ho : OutwardMesh m) : ∃ c, ∀ f ∈ m.f, front m f c < 0 := by
  have : ∀ l : List (ℕ × ℕ × ℕ), (∀ f ∈ l, f ∈ m.f) → ∃ c, (∀ f ∈ m.f, front m f c ≤ 0) ∧ ∀ f ∈ l, front m f c < 0 := by
    intro l
    induction l with
    | nil =>
      intro _
      by_cases h : m.f = []
      · exact ⟨zero3, by simp [h], by simp⟩
      · obtain ⟨f, hf⟩ := List.exists_mem_of_ne_nil _ h
        exact ⟨pt m f.1, fun g hg => front_le hv ho hg (pt_mem (hv f hf).1), by simp⟩
    | cons g l ih =>
      intro hl
      obtain ⟨c, c1, c2⟩ := ih fun f hf => hl f (by simp [hf])
      have hg := hl g (by simp)
      obtain ⟨p, hp, hlt⟩ := (ho.2 g hg _ (corners_pt hv hg)).2
      refine ⟨along c (1 / 2) (vec3 c p), fun f hf => ?_, fun f hf => ?_⟩
      · rw [front_along]
        linarith [c1 f hf, front_le hv ho hf hp]
      · rw [front_along]
        rcases List.mem_cons.mp hf with rfl | hf
        · have : front m f p < 0 := hlt
          linarith [c1 f hg]
        · linarith [c2 f hf, front_le hv ho (hl f (by simp [hf])) hp]
  exact (this m.f fun _ h => h).imp fun c h => h.2

/-- near any point that is in front of no face, on the same side of a plane, there is one strictly behind all faces -/
theorem near {m : Mesh ℝ} (hv : ValidFaces m) (ho : OutwardMesh m) {v w : V3 ℝ} {k : ℝ} (hb : ∀ f ∈ m.f, front m f v ≤ 0)
    (hk : inner3 w v < k) : ∃ x, inner3 w x < k ∧ ∀ f ∈ m.f, front m f x < 0 := by
  obtain ⟨c, hc⟩ := inside hv ho
  obtain ⟨A, hA⟩ : ∃ A, A = k - inner3 w v := ⟨_, rfl⟩
  obtain ⟨C, hC⟩ : ∃ C, C = inner3 w c - inner3 w v := ⟨_, rfl⟩
  have hApos : 0 < A := by linarith
  have hD : 0 < 2 * A + |C| := by positivity
  have t0 : 0 < A / (2 * A + |C|) := div_pos hApos hD
  have t1 : A / (2 * A + |C|) < 1 := by rw [div_lt_one hD]; nlinarith [abs_nonneg C]
  have tc : A / (2 * A + |C|) * C < A := by
    have h1 : A / (2 * A + |C|) * C ≤ A / (2 * A + |C|) * |C| := mul_le_mul_of_nonneg_left (le_abs_self C) t0.le
    have h2 : A / (2 * A + |C|) * |C| < A := by
      rw [div_mul_eq_mul_div, div_lt_iff₀ hD]
      nlinarith [abs_nonneg C]
    linarith
  generalize A / (2 * A + |C|) = t at *
  refine ⟨along v t (vec3 v c), ?_, fun f hf => ?_⟩
  · rw [inner_along]; nlinarith
  · rw [front_along]
    nlinarith [hb f hf, hc f hf]

/-- a plane that separates no two neighbours has all faces on one side of it -/
theorem one_side {m : Mesh ℝ} (hv : ValidFaces m) (ho : OutwardMesh m) {v w : V3 ℝ} {k : ℝ} (hb : ∀ f ∈ m.f, front m f v ≤ 0)
    (hk : inner3 w v < k) (he : ∀ e ∈ directedEdges m.f, k < inner3 w (pt m e.1) ↔ k < inner3 w (pt m e.2)) :
    ∀ f ∈ m.f, ¬ k < inner3 w (pt m f.1) := by
  obtain ⟨x, hx, hin⟩ := near hv ho hb hk
  refine no_island ho.1 (pt m) w x (fun i => k < inner3 w (pt m i)) he (fun e _ h => ?_) hin
  rw [FS.inner_split]; linarith

/-- a gap below finitely many values -/
theorem gap {l : List (V3 ℝ)} {w : V3 ℝ} {k : ℝ} (h : ∀ p ∈ l, inner3 w p < k) : ∃ k' < k, ∀ p ∈ l, inner3 w p ≤ k' := by
  induction l with
  | nil => exact ⟨k - 1, by linarith, by simp⟩
  | cons a l ih =>
    obtain ⟨k', h1, h2⟩ := ih fun p hp => h p (by simp [hp])
    refine ⟨max k' (inner3 w a), max_lt h1 (h a (by simp)), fun p hp => ?_⟩
    rcases List.mem_cons.mp hp with rfl | hp
    · exact le_max_right _ _
    · exact (h2 p hp).trans (le_max_left _ _)

theorem hull_lt {l : List (V3 ℝ)} {q w : V3 ℝ} {k : ℝ} (h : InHull3 l q) (hl : ∀ p ∈ l, inner3 w p < k) : inner3 w q < k := by
  obtain ⟨k', h1, h2⟩ := gap hl
  exact lt_of_le_of_lt (hull_bound h h2) h1

theorem height_eq (pl : Plane ℝ) (q : V3 ℝ) : height pl q = inner3 pl.n q - inner3 pl.n pl.r0 := by
  simp only [height, inner3, vec3]; ring

/-- the directed edges of a face -/
def loops (f : ℕ × ℕ × ℕ) : List (ℕ × ℕ) := [(f.1, f.2.1), (f.2.1, f.2.2), (f.2.2, f.1)]

theorem hasEdge_iff {f : ℕ × ℕ × ℕ} (h : ProperFace f) (u v : ℕ) : hasEdge f u v = true ↔ (u, v) ∈ loops f ∨ (v, u) ∈ loops f := by
  obtain ⟨a, b, c⟩ := f
  obtain ⟨h1, h2, h3⟩ := h
  simp only at h1 h2 h3
  simp only [hasEdge, corner, loops, Bool.and_eq_true, decide_eq_true_eq, List.mem_cons, Prod.mk.injEq, List.not_mem_nil, or_false]
  omega

theorem one_way {f : ℕ × ℕ × ℕ} (h : ProperFace f) (u v : ℕ) (h1 : (u, v) ∈ loops f) (h2 : (v, u) ∈ loops f) : False := by
  obtain ⟨a, b, c⟩ := f
  obtain ⟨k1, k2, k3⟩ := h
  simp only at k1 k2 k3
  simp only [loops, List.mem_cons, Prod.mk.injEq, List.not_mem_nil, or_false] at h1 h2
  omega

theorem permuted {f g : ℕ × ℕ × ℕ} (h : ProperFace f) (hs : SameCorners f g) :
    (∃ e ∈ loops f, e ∈ loops g) ∨ g = (f.1, f.2.2, f.2.1) ∨ g = (f.2.2, f.2.1, f.1) ∨ g = (f.2.1, f.1, f.2.2) := by
  obtain ⟨a, b, c⟩ := f
  obtain ⟨x, y, z⟩ := g
  obtain ⟨k1, k2, k3⟩ := h
  simp only at k1 k2 k3
  have e1 := hs a
  have e2 := hs b
  have e3 := hs c
  simp only [corner, true_or, or_true, decide_true, eq_comm (a := true), decide_eq_true_eq] at e1 e2 e3
  simp only [loops, List.mem_cons, List.not_mem_nil, or_false, exists_eq_or_imp, exists_eq_left, Prod.mk.injEq]
  rcases e1 with rfl | rfl | rfl <;> rcases e2 with rfl | rfl | rfl <;> first | exact absurd rfl k1 | skip
  all_goals rcases e3 with rfl | rfl | rfl <;> first | exact absurd rfl k2 | exact absurd rfl k3 | simp

theorem pairwise_loops {fs : List (ℕ × ℕ × ℕ)} (h : (directedEdges fs).Nodup) :
    fs.Pairwise fun f g => ∀ e ∈ loops f, e ∉ loops g := by
  unfold directedEdges at h
  rw [List.nodup_flatMap] at h
  exact h.2.imp fun {f g} hd e h1 h2 => hd h1 h2

theorem pair_length {fs : List (ℕ × ℕ × ℕ)} (hw : Watertight fs) (hp : ∀ f ∈ fs, ProperFace f) {f : ℕ × ℕ × ℕ} (hf : f ∈ fs) {u v : ℕ}
    (h : hasEdge f u v = true) : (fs.filter fun f => hasEdge f u v).length = 2 := by
  have hnd : fs.Nodup := (pairwise_loops hw.1).imp fun {f g} h e => h (f.1, f.2.1) (by simp [loops]) (by simp [loops, e])
  have both : (u, v) ∈ directedEdges fs ∧ (v, u) ∈ directedEdges fs := by
    rcases (hasEdge_iff (hp f hf) u v).mp h with h | h
    · have : (u, v) ∈ directedEdges fs := List.mem_flatMap.mpr ⟨f, hf, h⟩
      exact ⟨this, (hw.2 _ this).2⟩
    · have : (v, u) ∈ directedEdges fs := List.mem_flatMap.mpr ⟨f, hf, h⟩
      exact ⟨(hw.2 _ this).2, this⟩
  obtain ⟨f1, m1, e1⟩ := List.mem_flatMap.mp both.1
  obtain ⟨f2, m2, e2⟩ := List.mem_flatMap.mp both.2
  have hne : f1 ≠ f2 := by
    rintro rfl
    exact one_way (hp _ m1) u v e1 e2
  have : (fs.filter fun f => hasEdge f u v).Perm [f1, f2] := by
    rw [List.perm_ext_iff_of_nodup (hnd.filter _) (by simp [hne])]
    intro g
    simp only [List.mem_filter, List.mem_cons, List.not_mem_nil, or_false]
    constructor
    · rintro ⟨hg, h⟩
      rcases (hasEdge_iff (hp g hg) u v).mp h with h | h
      · exact .inl (FS.same_of_directed hw.1 hg m1 h e1)
      · exact .inr (FS.same_of_directed hw.1 hg m2 h e2)
    · rintro (rfl | rfl)
      · exact ⟨m1, (hasEdge_iff (hp _ m1) u v).mpr (.inl e1)⟩
      · exact ⟨m2, (hasEdge_iff (hp _ m2) u v).mpr (.inr e2)⟩
  rw [this.length_eq]; rfl

/-- the faces of an outward mesh have different corners, and two at each edge -/
theorem closed {m : Mesh ℝ} (hv : ValidFaces m) (ho : OutwardMesh m) : (∀ f ∈ m.f, ProperFace f) ∧ ClosedMesh m := by
  have hp : ∀ f ∈ m.f, ProperFace f := by
    intro f hf
    obtain ⟨a, b, c⟩ := mem_edges hf
    exact ⟨(ho.1.2 _ a).1, (ho.1.2 _ b).1, (ho.1.2 _ c).1.symm⟩
  refine ⟨hp, fun f hf u v h => pair_length ho.1 hp hf h, ?_⟩
  refine (pairwise_loops ho.1.1).imp_of_mem fun {f g} hf hg hd hs => ?_
  obtain ⟨p, hpv, hlt⟩ := (ho.2 f hf _ (corners_pt hv hf)).2
  have hle := front_le hv ho hg hpv
  rcases permuted (hp f hf) hs with ⟨e, e1, e2⟩ | e
  · exact hd e e1 e2
  · have : front m g p = -front m f p := by
      rcases e with rfl | rfl | rfl <;> simp only [front, inner3, cross3, vec3] <;> ring
    have h2 : front m f p < 0 := hlt
    linarith

/-- an edge from one side of a plane to the other -/
theorem crossing {m : Mesh ℝ} {pl : Plane ℝ} (hv : ValidFaces m) (ho : OutwardMesh m) (hoff : ∀ p ∈ m.v, ¬ OnPlane pl p) (hf : m.f ≠ [])
    {a b : V3 ℝ} (ha : ∀ f ∈ m.f, front m f a ≤ 0) (hb : ∀ f ∈ m.f, front m f b ≤ 0) (hab : height pl a * height pl b < 0) :
    ∃ e, CrossedEdge pl m e := by
  by_contra hno
  push Not at hno
  have hp := (closed hv ho).1
  have lens : ∀ e ∈ directedEdges m.f, e.1 < m.v.length ∧ e.2 < m.v.length ∧ e.1 ≠ e.2 ∧ ∃ f ∈ m.f, hasEdge f e.1 e.2 = true := by
    intro e he
    obtain ⟨f, hf, h⟩ := List.mem_flatMap.mp he
    have h' := (hasEdge_iff (hp f hf) e.1 e.2).mpr (.inl h)
    obtain ⟨l1, l2, l3⟩ := hv f hf
    have c := corner_of_hasEdge h'
    simp only [corner, decide_eq_true_eq] at c
    refine ⟨?_, ?_, (ho.1.2 e he).1, f, hf, h'⟩
    · rcases c.1 with h | h | h <;> rw [h] <;> assumption
    · rcases c.2 with h | h | h <;> rw [h] <;> assumption
  have ne0 : ∀ i, i < m.v.length → height pl (pt m i) ≠ 0 := fun i hi h => hoff _ (pt_mem hi) ((onPlane_iff _ _).mpr h)
  have same : ∀ e ∈ directedEdges m.f, 0 < height pl (pt m e.1) * height pl (pt m e.2) := by
    intro e he
    obtain ⟨l1, l2, hne, f, hf, h⟩ := lens e he
    refine lt_of_le_of_ne ?_ (mul_ne_zero (ne0 _ l1) (ne0 _ l2)).symm
    by_contra hc
    push Not at hc
    rcases lt_or_gt_of_ne hne with h12 | h12
    · exact hno e ⟨h12, ⟨f, hf, h⟩, _, _, pt_some l1, pt_some l2, hc⟩
    · refine hno (e.2, e.1) ⟨h12, ⟨f, hf, ?_⟩, _, _, pt_some l2, pt_some l1, by rw [mul_comm]; exact hc⟩
      rw [hasEdge_iff (hp f hf)] at h ⊢
      exact h.symm
  obtain ⟨lo, hi, hlo, hhi, blo, bhi⟩ : ∃ lo hi : V3 ℝ, height pl lo < 0 ∧ 0 < height pl hi ∧ (∀ f ∈ m.f, front m f lo ≤ 0) ∧
      ∀ f ∈ m.f, front m f hi ≤ 0 := by
    rcases mul_neg_iff.mp hab with h | h
    · exact ⟨b, a, h.2, h.1, hb, ha⟩
    · exact ⟨a, b, h.1, h.2, ha, hb⟩
  rw [height_eq] at hlo hhi
  have up := one_side hv ho (w := pl.n) (k := inner3 pl.n pl.r0) blo (by linarith) (fun e he => by
    have := same e he
    rw [height_eq, height_eq] at this
    constructor <;> intro h <;> nlinarith)
  have neg : ∀ q, inner3 (scale3 (-1) pl.n) q = -inner3 pl.n q := fun q => TM.inner_neg _ _
  have down := one_side hv ho (w := scale3 (-1) pl.n) (k := -inner3 pl.n pl.r0) bhi (by rw [neg]; linarith) (fun e he => by
    have := same e he
    rw [height_eq, height_eq] at this
    rw [neg, neg]
    constructor <;> intro h <;> nlinarith)
  obtain ⟨f, hf⟩ := List.exists_mem_of_ne_nil _ hf
  have h1 := up f hf
  have h2 := down f hf
  rw [neg] at h2
  apply ne0 f.1 (hv f hf).1
  rw [height_eq]
  linarith

/-- a point between two others, on the plane -/
theorem between_on {pl : Plane ℝ} {a b : V3 ℝ} (h : height pl a * height pl b < 0) :
    ∃ t, 0 < t ∧ t < 1 ∧ OnPlane pl (along a t (vec3 a b)) := by
  obtain ⟨t, t0, t1, ht⟩ : ∃ t : ℝ, 0 < t ∧ t < 1 ∧ (1 - t) * height pl a + t * height pl b = 0 := by
    have hd : height pl a - height pl b ≠ 0 := by
      intro e
      have : height pl a = height pl b := by linarith
      rw [this] at h; nlinarith
    refine ⟨height pl a / (height pl a - height pl b), ?_, ?_, ?_⟩
    · rcases mul_neg_iff.mp h with h | h
      · exact div_pos h.1 (by linarith)
      · exact div_pos_of_neg_of_neg h.1 (by linarith)
    · rcases mul_neg_iff.mp h with h | h
      · rw [div_lt_one (by linarith)]; linarith
      · rw [div_lt_one_of_neg (by linarith)]; linarith
    · field_simp
      ring
  refine ⟨t, t0, t1, ?_⟩
  rw [onPlane_iff]
  have hh : height pl (along a t (vec3 a b)) = (1 - t) * height pl a + t * height pl b := by
    simp only [height, along, vec3, inner3]; ring
  rw [hh, ht]

/-- vertices on both sides, in terms of the hull -/
theorem sides_iff {pl : Plane ℝ} {l : List (V3 ℝ)} (hoff : ∀ p ∈ l, ¬ OnPlane pl p) :
    (∃ p ∈ l, ∃ q ∈ l, height pl p * height pl q < 0) ↔ ∃ q, OnPlane pl q ∧ InHull3 l q := by
  constructor
  · rintro ⟨a, ha, b, hb, hab⟩
    obtain ⟨t, t0, t1, ht⟩ := between_on hab
    refine ⟨_, ht, TM.inHull_mix (TM.inHull_self ha) (TM.inHull_self hb) (a := 1 - t) (b := t) (by linarith) t0.le (by ring) ?_ ?_ ?_⟩ <;>
      simp only [along, vec3] <;> ring
  · rintro ⟨q, hq, hh⟩
    rw [onPlane_iff, height_eq] at hq
    have ne0 : ∀ p ∈ l, height pl p ≠ 0 := fun p hp h => hoff p hp ((onPlane_iff _ _).mpr h)
    obtain ⟨a, ha, h1⟩ : ∃ a ∈ l, 0 < height pl a := by
      by_contra hno
      push Not at hno
      have := hull_lt (w := pl.n) (k := inner3 pl.n pl.r0) hh fun p hp => by
        have := lt_of_le_of_ne (hno p hp) (ne0 p hp)
        rw [height_eq] at this; linarith
      linarith
    obtain ⟨b, hb, h2⟩ : ∃ b ∈ l, height pl b < 0 := by
      by_contra hno
      push Not at hno
      have := hull_lt (w := scale3 (-1) pl.n) (k := -inner3 pl.n pl.r0) hh fun p hp => by
        have := lt_of_le_of_ne (hno p hp) (ne0 p hp).symm
        rw [height_eq] at this
        rw [TM.inner_neg]; linarith
      rw [TM.inner_neg] at this
      linarith
    exact ⟨a, ha, b, hb, mul_neg_of_pos_of_neg h1 h2⟩

/-- the solid between the faces is the hull of the vertices -/
theorem behind_iff {m : Mesh ℝ} (hv : ValidFaces m) (ho : OutwardMesh m) (hf : m.f ≠ []) (q : V3 ℝ) :
    InHull3 m.v q ↔ ∀ f ∈ m.f, front m f q ≤ 0 := by
  constructor
  · intro h f hf
    have := hull_bound (w := cross3 (vec3 (pt m f.1) (pt m f.2.1)) (vec3 (pt m f.1) (pt m f.2.2)))
      (k := inner3 (cross3 (vec3 (pt m f.1) (pt m f.2.1)) (vec3 (pt m f.1) (pt m f.2.2))) (pt m f.1)) h fun p hp => by
        have := front_le hv ho hf hp
        rw [front, FS.inner_split] at this; linarith
    rw [front, FS.inner_split]; linarith
  · intro h
    by_contra hc
    obtain ⟨w, hw⟩ := FS.separate hc
    obtain ⟨k, hk, hl⟩ := gap hw
    obtain ⟨x, hx, hin⟩ := near hv ho (w := scale3 (-1) w) (k := -k) h (by rw [TM.inner_neg]; linarith)
    obtain ⟨f, hf⟩ := List.exists_mem_of_ne_nil _ hf
    refine no_island ho.1 (pt m) (scale3 (-1) w) x (fun _ => True) (fun _ _ => Iff.rfl) (fun e he _ => ?_) hin f hf trivial
    obtain ⟨g, hg, hge⟩ := List.mem_flatMap.mp he
    have hlen : e.1 < m.v.length := by
      obtain ⟨l1, l2, l3⟩ := hv g hg
      simp only [List.mem_cons, List.not_mem_nil, or_false] at hge
      rcases hge with rfl | rfl | rfl <;> assumption
    have := hl _ (pt_mem hlen)
    rw [FS.inner_split, TM.inner_neg, TM.inner_neg]
    rw [TM.inner_neg] at hx
    linarith

/-! ### Turning the faces of a convex mesh outward -/

open Classical in
/-- the face, turned so that the vertices are behind it -/
noncomputable def fix (m : Mesh ℝ) (f : ℕ × ℕ × ℕ) : ℕ × ℕ × ℕ := if ∀ p ∈ m.v, front m f p ≤ 0 then f else (f.1, f.2.2, f.2.1)

/-- the mesh with all faces turned -/
noncomputable def turned (m : Mesh ℝ) : Mesh ℝ := ⟨m.v, m.f.map (fix m)⟩

theorem fix_corner (m : Mesh ℝ) (f : ℕ × ℕ × ℕ) (u : ℕ) : corner (fix m f) u = corner f u := by
  unfold fix
  split
  · rfl
  · simp only [corner, decide_eq_decide]; tauto

theorem fix_edge (m : Mesh ℝ) (f : ℕ × ℕ × ℕ) (u v : ℕ) : hasEdge (fix m f) u v = hasEdge f u v := by
  simp only [hasEdge, fix_corner]

theorem fix_proper {m : Mesh ℝ} {f : ℕ × ℕ × ℕ} (h : ProperFace f) : ProperFace (fix m f) := by
  unfold fix
  split
  · exact h
  · exact ⟨h.2.2, h.2.1.symm, h.1⟩

theorem three {f : ℕ × ℕ × ℕ} {u v w : ℕ} (huv : u ≠ v) (huw : u ≠ w) (hvw : v ≠ w) (h1 : corner f u = true) (h2 : corner f v = true)
    (h3 : corner f w = true) (x : ℕ) : corner f x = decide (x = u ∨ x = v ∨ x = w) := by
  obtain ⟨a, b, c⟩ := f
  simp only [corner, decide_eq_true_eq] at h1 h2 h3
  simp only [corner, decide_eq_decide]
  rcases h1 with rfl | rfl | rfl <;> rcases h2 with rfl | rfl | rfl <;> first | exact absurd rfl huv | skip
  all_goals rcases h3 with rfl | rfl | rfl <;> first | exact absurd rfl huw | exact absurd rfl hvw | tauto

/-- of two faces at an edge, the third corner of one is not a corner of the other -/
theorem third {f g : ℕ × ℕ × ℕ} {u v w : ℕ} (hs : ¬ SameCorners f g) (hf : hasEdge f u v = true) (hg : hasEdge g u v = true)
    (hw : corner f w = true) (wu : w ≠ u) (wv : w ≠ v) : corner g w = false := by
  by_contra hc
  rw [Bool.not_eq_false] at hc
  have huv : u ≠ v := by simp only [hasEdge, Bool.and_eq_true, decide_eq_true_eq] at hf; exact hf.1.1
  obtain ⟨f1, f2⟩ := corner_of_hasEdge hf
  obtain ⟨g1, g2⟩ := corner_of_hasEdge hg
  apply hs
  intro x
  rw [three huv wu.symm wv.symm f1 f2 hw, three huv wu.symm wv.symm g1 g2 hc]

theorem other {m : Mesh ℝ} (hcl : ClosedMesh m) {f : ℕ × ℕ × ℕ} (hf : f ∈ m.f) {u v : ℕ} (h : hasEdge f u v = true) :
    ∃ g ∈ m.f, hasEdge g u v = true ∧ ¬ SameCorners f g := by
  obtain ⟨g1, g2, hg⟩ := List.length_eq_two.mp (hcl.1 f hf _ _ h)
  have m1 : g1 ∈ m.f ∧ hasEdge g1 u v = true := List.mem_filter.mp (hg ▸ List.mem_cons_self)
  have m2 : g2 ∈ m.f ∧ hasEdge g2 u v = true := List.mem_filter.mp (hg ▸ List.mem_cons_of_mem _ List.mem_cons_self)
  have hpw := hcl.2.sublist (List.filter_sublist (p := fun f => hasEdge f u v))
  rw [hg] at hpw
  have hne : ¬ SameCorners g1 g2 := by simpa using hpw
  have hm : f ∈ m.f.filter fun f => hasEdge f u v := List.mem_filter.mpr ⟨hf, h⟩
  rw [hg] at hm
  simp only [List.mem_cons, List.not_mem_nil, or_false] at hm
  rcases hm with rfl | rfl
  · exact ⟨g2, m2.1, m2.2, hne⟩
  · exact ⟨g1, m1.1, m1.2, fun h => hne fun x => (h x).symm⟩

theorem triple (w u v : V3 ℝ) : cross3 w (cross3 u v) =
    ⟨u.x * inner3 w v - v.x * inner3 w u, u.y * inner3 w v - v.y * inner3 w u, u.z * inner3 w v - v.z * inner3 w u⟩ := by
  simp only [V3.ext_iff, cross3, inner3]
  refine ⟨?_, ?_, ?_⟩ <;> ring

/-- the faces of a closed convex mesh are triangles -/
theorem solid_face {m : Mesh ℝ} (hv : ValidFaces m) (hp : ∀ f ∈ m.f, ProperFace f) (hcl : ClosedMesh m) (hcv : ConvexMesh m)
    {f : ℕ × ℕ × ℕ} (hf : f ∈ m.f) : cross3 (vec3 (pt m f.1) (pt m f.2.1)) (vec3 (pt m f.1) (pt m f.2.2)) ≠ zero3 := by
  obtain ⟨l1, l2, l3⟩ := hv f hf
  obtain ⟨p1, p2, p3⟩ := hp f hf
  intro hN
  have e1 : hasEdge f f.1 f.2.1 = true := by simp [hasEdge, corner, p1]
  have e2 : hasEdge f f.1 f.2.2 = true := by simp [hasEdge, corner, p3]
  obtain ⟨g, hg, ge, gs⟩ := other hcl hf e1
  obtain ⟨h, hh, he, hs⟩ := other hcl hf e2
  have gc := third gs e1 ge (w := f.2.2) (by simp [corner]) p3.symm p2.symm
  have hc := third hs e2 he (w := f.2.1) (by simp [corner]) p1.symm p2
  obtain ⟨w, k, hw⟩ := hcv g hg
  obtain ⟨w', k', hw'⟩ := hcv h hh
  have a1 := (hw _ _ (pt_some l1)).1 (corner_of_hasEdge ge).1
  have a2 := (hw _ _ (pt_some l2)).1 (corner_of_hasEdge ge).2
  have a3 := (hw _ _ (pt_some l3)).2 gc
  have b1 := (hw' _ _ (pt_some l1)).1 (corner_of_hasEdge he).1
  have b2 := (hw' _ _ (pt_some l2)).2 hc
  have t := triple w (vec3 (pt m f.1) (pt m f.2.1)) (vec3 (pt m f.1) (pt m f.2.2))
  have z : inner3 w (vec3 (pt m f.1) (pt m f.2.1)) = 0 := by rw [FS.inner_split]; linarith
  have z' : inner3 w (vec3 (pt m f.1) (pt m f.2.2)) ≠ 0 := by rw [FS.inner_split]; intro h; linarith
  rw [hN, z] at t
  have c0 : cross3 w zero3 = zero3 := by simp [cross3, zero3]
  rw [c0] at t
  simp only [zero3, V3.ext_iff, mul_zero, sub_zero, zero_eq_mul, z', or_false] at t
  have same : pt m f.1 = pt m f.2.1 := by
    simp only [vec3] at t
    rw [V3.ext_iff]
    refine ⟨?_, ?_, ?_⟩ <;> linarith
  rw [← same] at b2
  linarith

theorem front_corner (m : Mesh ℝ) (f : ℕ × ℕ × ℕ) {i : ℕ} (h : corner f i = true) : front m f (pt m i) = 0 := by
  simp only [corner, decide_eq_true_eq] at h
  rcases h with rfl | rfl | rfl <;> simp only [front, inner3, cross3, vec3] <;> ring

theorem some_other {m : Mesh ℝ} (hv : ValidFaces m) (hp : ∀ f ∈ m.f, ProperFace f) (hcl : ClosedMesh m) {f : ℕ × ℕ × ℕ} (hf : f ∈ m.f) :
    ∃ i, i < m.v.length ∧ corner f i = false := by
  obtain ⟨p1, p2, p3⟩ := hp f hf
  have e1 : hasEdge f f.1 f.2.1 = true := by simp [hasEdge, corner, p1]
  obtain ⟨g, hg, ge, gs⟩ := other hcl hf e1
  obtain ⟨q1, q2, q3⟩ := hp g hg
  obtain ⟨l1, l2, l3⟩ := hv g hg
  by_contra hno
  push Not at hno
  have c1 := hno _ l1
  have c2 := hno _ l2
  have c3 := hno _ l3
  rw [ne_eq, Bool.not_eq_false] at c1 c2 c3
  apply gs
  intro x
  rw [three q1 q3 q2 c1 c2 c3]
  simp [corner]

/-- a turned face has all other vertices strictly behind it -/
theorem fix_lt {m : Mesh ℝ} (hv : ValidFaces m) (hp : ∀ f ∈ m.f, ProperFace f) (hcl : ClosedMesh m) (hcv : ConvexMesh m)
    {f : ℕ × ℕ × ℕ} (hf : f ∈ m.f) {i : ℕ} (hi : i < m.v.length) (hc : corner f i = false) : front m (fix m f) (pt m i) < 0 := by
  obtain ⟨l1, l2, l3⟩ := hv f hf
  obtain ⟨w, k, hw⟩ := hcv f hf
  have hN := inner_self_pos (solid_face hv hp hcl hcv hf)
  have a1 := (hw _ _ (pt_some l1)).1 (by simp [corner])
  have a2 := (hw _ _ (pt_some l2)).1 (by simp [corner])
  have a3 := (hw _ _ (pt_some l3)).1 (by simp [corner])
  obtain ⟨N, hNe⟩ : ∃ N, N = cross3 (vec3 (pt m f.1) (pt m f.2.1)) (vec3 (pt m f.1) (pt m f.2.2)) := ⟨_, rfl⟩
  have key : ∀ x, front m f x * inner3 w N = inner3 N N * (inner3 w x - k) := by
    intro x
    have t := triple w (vec3 (pt m f.1) (pt m f.2.1)) (vec3 (pt m f.1) (pt m f.2.2))
    have z : inner3 w (vec3 (pt m f.1) (pt m f.2.1)) = 0 := by rw [FS.inner_split]; linarith
    have z' : inner3 w (vec3 (pt m f.1) (pt m f.2.2)) = 0 := by rw [FS.inner_split]; linarith
    rw [z, z', ← hNe] at t
    simp only [mul_zero, sub_zero, cross3, V3.ext_iff] at t
    obtain ⟨t1, t2, t3⟩ := t
    have hfr : front m f x = inner3 N (vec3 (pt m f.1) x) := by rw [front, hNe]
    have hk : inner3 w x - k = inner3 w (vec3 (pt m f.1) x) := by rw [FS.inner_split, a1]
    rw [hfr, hk]
    generalize vec3 (pt m f.1) x = y
    simp only [inner3]
    linear_combination (N.y * y.z - N.z * y.y) * t1 + (N.z * y.x - N.x * y.z) * t2 + (N.x * y.y - N.y * y.x) * t3
  rw [← hNe] at hN
  have lt : ∀ j, j < m.v.length → corner f j = false → front m f (pt m j) * inner3 w N < 0 := by
    intro j hj hc
    rw [key]
    exact mul_neg_of_pos_of_neg hN (by linarith [(hw _ _ (pt_some hj)).2 hc])
  have hi' := lt i hi hc
  unfold fix
  split
  · next hle =>
    rcases lt_or_eq_of_le (hle _ (pt_mem hi)) with h | h
    · exact h
    · rw [h] at hi'; simp at hi'
  · next hle =>
    push Not at hle
    obtain ⟨p, hp', hpos⟩ := hle
    obtain ⟨j, hj, rfl⟩ : ∃ j, j < m.v.length ∧ pt m j = p := by
      obtain ⟨j, hj, rfl⟩ := List.mem_iff_getElem.mp hp'
      refine ⟨j, hj, ?_⟩
      have := pt_some hj
      rw [List.getElem?_eq_getElem hj] at this
      exact (Option.some.inj this).symm
    have hjc : corner f j = false := by
      by_contra h
      rw [Bool.not_eq_false] at h
      rw [front_corner m f h] at hpos
      exact lt_irrefl _ hpos
    have hj' := lt j hj hjc
    have hneg : inner3 w N < 0 := by
      by_contra h
      push Not at h
      have := mul_nonneg hpos.le h
      linarith
    have : front m (f.1, f.2.2, f.2.1) (pt m i) = -front m f (pt m i) := by
      simp only [front, inner3, cross3, vec3]; ring
    rw [this]
    nlinarith

/-- two faces at an edge, each behind the other, pass it in opposite directions -/
theorem opposed {m : Mesh ℝ} {f g : ℕ × ℕ × ℕ} (hf : ProperFace f) (hg : ProperFace g) (hs : ¬ SameCorners f g) {e : ℕ × ℕ}
    (h1 : e ∈ loops f) (h2 : e ∈ loops g) (lf : ∀ i, corner g i = true → corner f i = false → front m f (pt m i) < 0)
    (lg : ∀ i, corner f i = true → corner g i = false → front m g (pt m i) < 0) : False := by
  obtain ⟨u, v⟩ := e
  have rot : ∀ {f : ℕ × ℕ × ℕ}, ProperFace f → (u, v) ∈ loops f → ∃ c, c ≠ u ∧ c ≠ v ∧ corner f c = true ∧
      ∀ x, front m f x = inner3 (cross3 (vec3 (pt m u) (pt m v)) (vec3 (pt m u) (pt m c))) (vec3 (pt m u) x) := by
    rintro ⟨a, b, c⟩ ⟨k1, k2, k3⟩ h
    simp only [loops, List.mem_cons, List.not_mem_nil, or_false, Prod.mk.injEq] at h
    simp only at k1 k2 k3
    rcases h with ⟨rfl, rfl⟩ | ⟨rfl, rfl⟩ | ⟨rfl, rfl⟩
    · exact ⟨c, k3.symm, k2.symm, by simp [corner], fun x => by simp only [front]⟩
    · exact ⟨a, k1, k3, by simp [corner], fun x => by simp only [front, inner3, cross3, vec3]; ring⟩
    · exact ⟨b, k2, k1.symm, by simp [corner], fun x => by simp only [front, inner3, cross3, vec3]; ring⟩
  obtain ⟨c, c1, c2, cc, cf⟩ := rot hf h1
  obtain ⟨d, d1, d2, dc, df⟩ := rot hg h2
  have ef := (hasEdge_iff hf u v).mpr (.inl h1)
  have eg := (hasEdge_iff hg u v).mpr (.inl h2)
  have x1 := lf d dc (third (fun h => hs fun x => (h x).symm) eg ef dc d1 d2)
  have x2 := lg c cc (third hs ef eg cc c1 c2)
  rw [cf] at x1
  rw [df] at x2
  have : inner3 (cross3 (vec3 (pt m u) (pt m v)) (vec3 (pt m u) (pt m c))) (vec3 (pt m u) (pt m d)) =
      -inner3 (cross3 (vec3 (pt m u) (pt m v)) (vec3 (pt m u) (pt m d))) (vec3 (pt m u) (pt m c)) := by
    simp only [inner3, cross3]; ring
  linarith

/-- the turned mesh looks outward -/
theorem turned_outward {m : Mesh ℝ} (hv : ValidFaces m) (hp : ∀ f ∈ m.f, ProperFace f) (hcl : ClosedMesh m) (hcv : ConvexMesh m) :
    ValidFaces (turned m) ∧ OutwardMesh (turned m) := by
  have hlen : ∀ f ∈ m.f, ∀ i, corner f i = true → i < m.v.length := by
    intro f hf i hi
    obtain ⟨l1, l2, l3⟩ := hv f hf
    simp only [corner, decide_eq_true_eq] at hi
    rcases hi with rfl | rfl | rfl <;> assumption
  have hv' : ValidFaces (turned m) := by
    intro f' hf'
    obtain ⟨f, hf, rfl⟩ := List.mem_map.mp hf'
    refine ⟨hlen f hf _ ?_, hlen f hf _ ?_, hlen f hf _ ?_⟩ <;> rw [← fix_corner m] <;> simp [corner]
  have hs : ∀ {f g}, ¬ SameCorners f g → ¬ SameCorners (fix m f) (fix m g) := fun h h' => h fun x => by
    rw [← fix_corner m, h' x, fix_corner]
  have opp : ∀ f ∈ m.f, ∀ g ∈ m.f, ¬ SameCorners f g → ∀ e ∈ loops (fix m f), e ∉ loops (fix m g) := by
    intro f hf g hg h e e1 e2
    refine opposed (m := m) (fix_proper (hp f hf)) (fix_proper (hp g hg)) (hs h) e1 e2 (fun i h1 h2 => ?_) (fun i h1 h2 => ?_)
    · rw [fix_corner] at h1 h2
      exact fix_lt hv hp hcl hcv hf (hlen g hg i h1) h2
    · rw [fix_corner] at h1 h2
      exact fix_lt hv hp hcl hcv hg (hlen f hf i h1) h2
  refine ⟨hv', ⟨?_, ?_⟩, ?_⟩
  · unfold directedEdges turned
    rw [List.nodup_flatMap]
    constructor
    · intro f' hf'
      obtain ⟨f, hf, rfl⟩ := List.mem_map.mp hf'
      obtain ⟨k1, k2, k3⟩ := fix_proper (m := m) (hp f hf)
      generalize fix m f = g at *
      simp only [List.nodup_cons, List.mem_cons, Prod.mk.injEq, List.not_mem_nil, or_false, not_or, not_and, not_false_eq_true,
        List.nodup_nil, and_true]
      omega
    · rw [List.pairwise_map]
      exact hcl.2.imp_of_mem fun {f g} hf hg h e h1 h2 => opp f hf g hg h e h1 h2
  · intro e he
    obtain ⟨f', hf', h⟩ := List.mem_flatMap.mp he
    obtain ⟨f, hf, rfl⟩ := List.mem_map.mp hf'
    have h : (e.1, e.2) ∈ loops (fix m f) := h
    have hpf := fix_proper (m := m) (hp f hf)
    have ef := (hasEdge_iff hpf e.1 e.2).mpr (.inl h)
    refine ⟨by simp only [hasEdge, Bool.and_eq_true, decide_eq_true_eq] at ef; exact ef.1.1, ?_⟩
    rw [fix_edge] at ef
    obtain ⟨g, hg, eg, hgs⟩ := other hcl hf ef
    rw [← fix_edge m, hasEdge_iff (fix_proper (hp g hg))] at eg
    rcases eg with eg | eg
    · exact absurd eg (opp f hf g hg hgs _ h)
    · exact List.mem_flatMap.mpr ⟨fix m g, List.mem_map_of_mem hg, eg⟩
  · intro f' hf' t ht
    rw [corners_pt hv' hf'] at ht
    obtain ⟨f, hf, rfl⟩ := List.mem_map.mp hf'
    cases ht
    have le : ∀ i, i < m.v.length → front m (fix m f) (pt m i) ≤ 0 := by
      intro i hi
      by_cases hc : corner f i = true
      · rw [front_corner m _ (by rw [fix_corner]; exact hc)]
      · exact (fix_lt hv hp hcl hcv hf hi (by simpa using hc)).le
    constructor
    · intro p hp'
      obtain ⟨j, hj, rfl⟩ := List.mem_iff_getElem.mp hp'
      have e := pt_some (m := m) hj
      have e2 : m.v[j]? = some ((turned m).v[j]) := List.getElem?_eq_getElem hj
      rw [e2] at e
      rw [Option.some.inj e]
      exact le j hj
    · obtain ⟨i, hi, hc⟩ := some_other hv hp hcl hf
      exact ⟨pt m i, pt_mem hi, fix_lt hv hp hcl hcv hf hi hc⟩

theorem turned_crossed (pl : Plane ℝ) (m : Mesh ℝ) (e : ℕ × ℕ) : CrossedEdge pl (turned m) e ↔ CrossedEdge pl m e := by
  unfold CrossedEdge turned
  simp only [List.mem_map, exists_exists_and_eq_and, fix_edge]

end IS
open IS

/-- **C135.** A consistently oriented closed surface with all vertices on or behind every face, not all on it, has three different corners in
every face and exactly two faces, with different corners, at every edge. -/
theorem C135_closed (m : Mesh ℝ) (hv : ValidFaces m) (ho : OutwardMesh m) : (∀ f ∈ m.f, ProperFace f) ∧ ClosedMesh m := closed hv ho

/-- **C135.** The points behind all faces are the convex combinations of the vertices. -/
theorem C135_inside (m : Mesh ℝ) (hv : ValidFaces m) (ho : OutwardMesh m) (hf : m.f ≠ []) (q : V3 ℝ) :
    InHull3 m.v q ↔ ∀ f ∈ m.f, ∀ t, Spec.corners m.v f = some t → Behind t q := by
  rw [behind_iff hv ho hf]
  refine forall₂_congr fun f hf => ?_
  rw [corners_pt hv hf]
  simp only [Option.some.injEq, forall_eq']
  rfl

/-- **C135.** Some edge crosses the plane exactly if there are vertices on both sides, and exactly if the plane meets the solid. -/
theorem C135_meets (pl : Plane ℝ) (m : Mesh ℝ) (hv : ValidFaces m) (ho : OutwardMesh m) (hf : m.f ≠ [])
    (hoff : ∀ p ∈ m.v, ¬ OnPlane pl p) :
    ((∃ e, CrossedEdge pl m e) ↔ ∃ p ∈ m.v, ∃ q ∈ m.v, height pl p * height pl q < 0) ∧
    ((∃ e, CrossedEdge pl m e) ↔ ∃ q, OnPlane pl q ∧ InHull3 m.v q) := by
  have h : (∃ e, CrossedEdge pl m e) ↔ ∃ p ∈ m.v, ∃ q ∈ m.v, height pl p * height pl q < 0 := by
    constructor
    · rintro ⟨e, -, -, a, b, ha, hb, hab⟩
      exact ⟨a, List.mem_of_getElem? ha, b, List.mem_of_getElem? hb, hab⟩
    · rintro ⟨a, ha, b, hb, hab⟩
      exact IS.crossing hv ho hoff hf (fun f hf => front_le hv ho hf ha) (fun f hf => front_le hv ho hf hb) hab
  exact ⟨h, h.trans (sides_iff hoff)⟩

/-- **C135.** The same for a closed mesh that is convex, whichever way its faces are listed: they can be turned to look outward. -/
theorem C135_convex (pl : Plane ℝ) (m : Mesh ℝ) (hv : ValidFaces m) (hp : ∀ f ∈ m.f, ProperFace f) (hcl : ClosedMesh m)
    (hcv : ConvexMesh m) (hf : m.f ≠ []) (hoff : ∀ p ∈ m.v, ¬ OnPlane pl p) :
    (∃ m' : Mesh ℝ, m'.v = m.v ∧ List.Forall₂ SameCorners m.f m'.f ∧ OutwardMesh m') ∧
    ((∃ e, CrossedEdge pl m e) ↔ ∃ p ∈ m.v, ∃ q ∈ m.v, height pl p * height pl q < 0) ∧
    ((∃ e, CrossedEdge pl m e) ↔ ∃ q, OnPlane pl q ∧ InHull3 m.v q) := by
  obtain ⟨hv', ho⟩ := turned_outward hv hp hcl hcv
  have h := C135_meets pl (turned m) hv' ho (by simpa [turned] using hf) hoff
  simp only [turned_crossed] at h
  refine ⟨⟨turned m, rfl, ?_, ho⟩, h⟩
  rw [turned, List.forall₂_map_right_iff, List.forall₂_same]
  exact fun f _ u => (fix_corner m f u).symm

namespace IS

theorem empty_iff (ver : PyVer) (pk : ℕ → Picker) (ko : ℕ → KeyOrder) (pl : Plane ℝ) (m : Mesh ℝ) (hv : ValidFaces m)
    (hp : ∀ f ∈ m.f, ProperFace f) (hcl : ClosedMesh m) (hoff : ∀ p ∈ m.v, ¬ OnPlane pl p) :
    pl.meshXsections ver pk ko m = .ok [] ↔ ∀ e, ¬ CrossedEdge pl m e := by
  obtain ⟨cs, ess, h1, h2, h3, h4, h5⟩ := C31_manifold ver pk ko pl m hv hp hoff (CX.manifold_of_closed hcl) (.inl hcl)
  rw [h1]
  constructor
  · intro h e he
    cases h
    cases h2
    exact absurd ((h4 e).mpr he) (by simp)
  · intro hno
    cases h2 with
    | nil => rfl
    | @cons es c ess cs t _ =>
      obtain ⟨e, he⟩ := List.exists_mem_of_ne_nil _ t.nonempty
      exact absurd ((h4 e).mp (by simp [he])) (hno e)

theorem box_faces (diag : ℕ → Bool) (o s : V3 ℝ) : (SolidSlice.box diag o s).f ≠ [] := by
  intro h
  have : (createRectangularPrism diag o s).2.length = 0 := congrArg List.length h
  revert this
  simp only [createRectangularPrism, prismQuads, quadsToTris, List.length_append, splitQuad]
  split <;> simp

end IS

/-- **C135.** `mesh_xsections` of a convex solid returns nothing exactly if the plane does not meet the solid, and otherwise every polyline
it returns outlines what the plane cuts out of it. -/
theorem C135_sections (ver : PyVer) (pk : ℕ → Picker) (ko : ℕ → KeyOrder) (pl : Plane ℝ) (m : Mesh ℝ) (hn : pl.n ≠ zero3)
    (hv : ValidFaces m) (ho : OutwardMesh m) (hf : m.f ≠ []) (hoff : ∀ p ∈ m.v, ¬ OnPlane pl p) :
    (pl.meshXsections ver pk ko m = .ok [] ↔ ∀ q, OnPlane pl q → ¬ InHull3 m.v q) ∧
    ∃ cs, pl.meshXsections ver pk ko m = .ok cs ∧
      ∀ c ∈ cs, c.closed = true ∧ ∀ q, InHull3 c.v q ↔ OnPlane pl q ∧ ∀ f ∈ m.f, ∀ t, Spec.corners m.v f = some t → Behind t q := by
  obtain ⟨hp, hcl⟩ := closed hv ho
  constructor
  · rw [empty_iff ver pk ko pl m hv hp hcl hoff, ← not_exists, (C135_meets pl m hv ho hf hoff).2]
    simp only [not_exists, not_and]
  · obtain ⟨cs, h1, -, h3⟩ := C132_outline ver pk ko pl m hn hv hp hoff hcl ho
    refine ⟨cs, h1, fun c hc => ⟨(h3 c hc).1, fun q => ?_⟩⟩
    rw [(h3 c hc).2.2 q, C135_inside m hv ho hf]

/-- **C135.** If the plane meets the solid and different edges in different points, there is one polyline, and its length is the perimeter
of the part of the plane behind all faces. -/
theorem C135_length (ver : PyVer) (pk : ℕ → Picker) (ko : ℕ → KeyOrder) (pl : Plane ℝ) (m : Mesh ℝ) (hn : pl.n ≠ zero3)
    (hv : ValidFaces m) (ho : OutwardMesh m) (hf : m.f ≠ []) (hoff : ∀ p ∈ m.v, ¬ OnPlane pl p) (hap : CrossingsApart pl m)
    (z : V3 ℝ) (hz : OnPlane pl z) (hin : ∀ f ∈ m.f, ∀ t, Spec.corners m.v f = some t → Behind t z) :
    ∃ v, pl.meshXsections ver pk ko m = .ok [⟨v, true⟩] ∧ v.Nodup ∧ (∃ R, Outline pl m R) ∧
      ∀ R, Outline pl m R → (∀ q ∈ R, q ∈ v) ∧ (poly v true).totalLength = .ok (pathLength (circuit R true)) := by
  obtain ⟨hp, hcl⟩ := closed hv ho
  exact C133_length ver pk ko pl m hn hv hp hoff hcl ho hap
    ((C135_meets pl m hv ho hf hoff).2.mpr ⟨z, hz, (C135_inside m hv ho hf z).mpr hin⟩)

/-- **C135.** For a closed convex mesh there is no polyline if all vertices are on one side of the plane, and otherwise exactly one, a convex
polygon, which is the outline of the solid. -/
theorem C135_convex_sections (ver : PyVer) (pk : ℕ → Picker) (ko : ℕ → KeyOrder) (pl : Plane ℝ) (m : Mesh ℝ) (hn : pl.n ≠ zero3)
    (hv : ValidFaces m) (hp : ∀ f ∈ m.f, ProperFace f) (hcl : ClosedMesh m) (hcv : ConvexMesh m) (hf : m.f ≠ [])
    (hoff : ∀ p ∈ m.v, ¬ OnPlane pl p) :
    (pl.meshXsections ver pk ko m = .ok [] ↔ (∀ p ∈ m.v, 0 < height pl p) ∨ ∀ p ∈ m.v, height pl p < 0) ∧
    ((∃ p ∈ m.v, ∃ q ∈ m.v, height pl p * height pl q < 0) → ∃ v, pl.meshXsections ver pk ko m = .ok [⟨v, true⟩] ∧ ConvexLoop pl.n v ∧
      ∀ q, InHull3 v q ↔ OnPlane pl q ∧ InHull3 m.v q) := by
  obtain ⟨-, h1, -⟩ := C135_convex pl m hv hp hcl hcv hf hoff
  have ne0 : ∀ p ∈ m.v, height pl p ≠ 0 := fun p hp h => hoff p hp ((onPlane_iff _ _).mpr h)
  constructor
  · rw [empty_iff ver pk ko pl m hv hp hcl hoff, ← not_exists, h1]
    constructor
    · intro hno
      push Not at hno
      by_contra hc
      push Not at hc
      obtain ⟨⟨a, ha, a0⟩, b, hb, b0⟩ := hc
      have := hno a ha b hb
      have := mul_neg_of_neg_of_pos (lt_of_le_of_ne a0 (ne0 a ha)) (lt_of_le_of_ne b0 (ne0 b hb).symm)
      linarith
    · rintro (h | h) ⟨a, ha, b, hb, hab⟩
      · linarith [mul_pos (h a ha) (h b hb)]
      · linarith [mul_pos_of_neg_of_neg (h a ha) (h b hb)]
  · intro hs
    have he := h1.mpr hs
    obtain ⟨v, e1, l, -⟩ := (C131_one_loop ver pk ko pl m hn hv hp hoff hcl hcv).2 he
    obtain ⟨v', e2, k⟩ := C131_solid ver pk ko pl m hn hv hp hoff hcl hcv he
    rw [e1] at e2
    cases e2
    exact ⟨v, e1, l, k⟩

/-- **C135.** A plane through no corner of a rectangular prism has an empty section exactly if it misses the box. -/
theorem C135_prism (ver : PyVer) (pk : ℕ → Picker) (ko : ℕ → KeyOrder) (pl : Plane ℝ) (diag : ℕ → Bool) (o s : V3 ℝ)
    (hn : pl.n ≠ zero3) (hoff : ∀ p ∈ (createRectangularPrism diag o s).1, ¬ OnPlane pl p) (hx : 0 < s.x) (hy : 0 < s.y) (hz : 0 < s.z) :
    pl.meshXsections ver pk ko ⟨(createRectangularPrism diag o s).1, (createRectangularPrism diag o s).2⟩ = .ok [] ↔
      ∀ q : V3 ℝ, (o.x ≤ q.x ∧ q.x ≤ o.x + s.x) → (o.y ≤ q.y ∧ q.y ≤ o.y + s.y) → (o.z ≤ q.z ∧ q.z ≤ o.z + s.z) → ¬ OnPlane pl q := by
  obtain ⟨hv, -, -⟩ := SolidSlice.box_facts diag o s
  have hf := box_faces diag o s
  have := (C135_sections ver pk ko pl (SolidSlice.box diag o s) hn hv (FS.box_outward diag o s hx hy hz) hf hoff).1
  refine this.trans (forall_congr' fun q => ?_)
  have hb := FS.box_hull o s q hx hy hz
  constructor
  · intro h h1 h2 h3 h4
    exact h h4 (hb.mpr ⟨h1, h2, h3⟩)
  · intro h h4 h5
    obtain ⟨h1, h2, h3⟩ := hb.mp h5
    exact h h1 h2 h3 h4

/-- the plane `x + y + z = 4`, which misses the unit cube -/
noncomputable def farPlane : Plane ℝ := ⟨⟨4, 0, 0⟩, ⟨1, 1, 1⟩⟩

/-- **C135**, used on the unit cube: the section by `x + y + z = 3/2` is not empty, the one by `x + y + z = 4` is; the point `(2, 0, 0)` is in front
of some face. -/
theorem C135_witness (ver : PyVer) (pk : ℕ → Picker) (ko : ℕ → KeyOrder) (diag : ℕ → Bool) :
    ValidFaces (SolidSlice.box diag ⟨0, 0, 0⟩ ⟨1, 1, 1⟩) ∧ OutwardMesh (SolidSlice.box diag ⟨0, 0, 0⟩ ⟨1, 1, 1⟩) ∧
    (SolidSlice.box diag ⟨0, 0, 0⟩ ⟨1, 1, 1⟩).f ≠ [] ∧
    (∀ p ∈ (SolidSlice.box diag ⟨0, 0, 0⟩ ⟨1, 1, 1⟩).v, ¬ OnPlane hexPlane p ∧ ¬ OnPlane farPlane p) ∧
    hexPlane.meshXsections ver pk ko (SolidSlice.box diag ⟨0, 0, 0⟩ ⟨1, 1, 1⟩) ≠ .ok [] ∧
    farPlane.meshXsections ver pk ko (SolidSlice.box diag ⟨0, 0, 0⟩ ⟨1, 1, 1⟩) = .ok [] ∧
    ∃ f ∈ (SolidSlice.box diag ⟨0, 0, 0⟩ ⟨1, 1, 1⟩).f, ∃ t, Spec.corners (SolidSlice.box diag ⟨0, 0, 0⟩ ⟨1, 1, 1⟩).v f = some t ∧
      ¬ Behind t ⟨2, 0, 0⟩ := by
  have hv := (SolidSlice.box_facts diag ⟨0, 0, 0⟩ ⟨1, 1, 1⟩).1
  have ho : OutwardMesh (SolidSlice.box diag ⟨0, 0, 0⟩ ⟨1, 1, 1⟩) := FS.box_outward diag _ _ one_pos one_pos one_pos
  have hf := box_faces diag ⟨0, 0, 0⟩ ⟨1, 1, 1⟩
  have n1 : hexPlane.n ≠ zero3 := fun h => by simpa [hexPlane, zero3] using congrArg V3.x h
  have n2 : farPlane.n ≠ zero3 := fun h => by simpa [farPlane, zero3] using congrArg V3.x h
  have o1 : ∀ p ∈ (createRectangularPrism diag (⟨0, 0, 0⟩ : V3 ℝ) ⟨1, 1, 1⟩).1, ¬ OnPlane hexPlane p := by
    simp [createRectangularPrism, prismVertices, onPlane_iff, hexPlane, height, inner3, vec3]
    norm_num
  have o2 : ∀ p ∈ (createRectangularPrism diag (⟨0, 0, 0⟩ : V3 ℝ) ⟨1, 1, 1⟩).1, ¬ OnPlane farPlane p := by
    simp [createRectangularPrism, prismVertices, onPlane_iff, farPlane, height, inner3, vec3]
    norm_num
  refine ⟨hv, ho, hf, fun p hp => ⟨o1 p hp, o2 p hp⟩, ?_, ?_, ?_⟩
  · intro h
    refine (C135_prism ver pk ko hexPlane diag ⟨0, 0, 0⟩ ⟨1, 1, 1⟩ n1 o1 one_pos one_pos one_pos).mp h ⟨1 / 2, 1 / 2, 1 / 2⟩ ?_ ?_ ?_ ?_
    · norm_num
    · norm_num
    · norm_num
    · rw [onPlane_iff]; simp [hexPlane, height, inner3, vec3]
  · refine (C135_prism ver pk ko farPlane diag ⟨0, 0, 0⟩ ⟨1, 1, 1⟩ n2 o2 one_pos one_pos one_pos).mpr ?_
    intro q h1 h2 h3 h
    rw [onPlane_iff] at h
    simp only [farPlane, height, inner3, vec3] at h
    simp only at h1 h2 h3
    linarith [h1.2, h2.2, h3.2]
  · by_contra hc
    push Not at hc
    have := (C135_inside _ hv ho hf ⟨2, 0, 0⟩).mpr hc
    have := ((FS.box_hull ⟨0, 0, 0⟩ ⟨1, 1, 1⟩ ⟨2, 0, 0⟩ one_pos one_pos one_pos).mp this).1.2
    norm_num at this

/-- **C135** for convex meshes, used on the octahedron and the plane of C131: the faces may be listed either way round. -/
theorem C135_convex_witness (pk : ℕ → Picker) (ko : ℕ → KeyOrder) :
    ValidFaces octa ∧ (∀ f ∈ octa.f, ProperFace f) ∧ ClosedMesh octa ∧ ConvexMesh octa ∧ octa.f ≠ [] ∧
    (∃ p ∈ octa.v, ∃ q ∈ octa.v, height slant p * height slant q < 0) ∧ slant.meshXsections .py3 pk ko octa ≠ .ok [] := by
  obtain ⟨hn, hv, hp, hoff, hcl, hcv, he, v, h, -⟩ := C131_witness pk ko
  have hf : octa.f ≠ [] := by
    intro h0
    obtain ⟨f, hf, -⟩ := he.2.1
    rw [h0] at hf; simp at hf
  exact ⟨hv, hp, hcl, hcv, hf, (C135_convex slant octa hv hp hcl hcv hf hoff).2.1.mp ⟨_, he⟩, by rw [h]; simp⟩

end Blmath.Props
