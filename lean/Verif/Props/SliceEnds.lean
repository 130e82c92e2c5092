import Verif.Props.ConvexVertex

/-!
Property C140: where the open polylines of a cross-section start and end.
-/

namespace Blmath.Props
open Blmath.Geometry Blmath.Spec Blmath.CH Blmath.Proofs
open VP CV

namespace SE

theorem off_cases {pl : Plane ℝ} {m : Mesh ℝ} {q : V3 ℝ} (h : LooseEnd pl m q) (hcl : ClosedMesh m)
    (hpin : ∀ f ∈ m.f, ¬ Pinched pl m.v f) : q ∈ m.v ∧ OnPlane pl q := by
  rcases h with h | ⟨u, v, _, _, h | ⟨f, hf, _, h⟩⟩
  · exact h
  · obtain ⟨f, hf⟩ := List.length_eq_one_iff.mp h
    have hf : f ∈ m.f.filter fun f => hasEdge f u v := by rw [hf]; simp
    obtain ⟨w1, w2⟩ := List.mem_filter.mp hf
    have := hcl.1 f w1 u v w2
    omega
  · exact absurd h (hpin f hf)

theorem not_pinched {pl : Plane ℝ} {m : Mesh ℝ} (hoff : ∀ p ∈ m.v, ¬ OnPlane pl p) (f : ℕ × ℕ × ℕ) : ¬ Pinched pl m.v f := by
  rintro ⟨⟨a, ha, h⟩, _⟩
  exact hoff a (List.mem_of_getElem? ha) h

theorem not_inPlane {pl : Plane ℝ} {m : Mesh ℝ} (hv : ValidFaces m) (hoff : ∀ p ∈ m.v, ¬ OnPlane pl p) (f : ℕ × ℕ × ℕ) (hf : f ∈ m.f) :
    ¬ Spec.InPlane pl m.v f := fun h =>
  hoff _ (List.getElem_mem (hv f hf).1) (h f.1 (by simp [corner]) _ (List.getElem?_eq_getElem (hv f hf).1))

theorem crossPoint_symm {pl : Plane ℝ} {m : Mesh ℝ} {u v : ℕ} {q : V3 ℝ} (h : CrossPoint pl m (u, v) q) : CrossPoint pl m (v, u) q := by
  obtain ⟨a, b, ha, hb, h1, h2⟩ := h
  exact ⟨b, a, hb, ha, h1, onSegment_symm h2⟩

theorem opposite_symm {pl : Plane ℝ} {vs : List (V3 ℝ)} {u v : ℕ} (h : Opposite pl vs u v) : Opposite pl vs v u := by
  obtain ⟨a, b, ha, hb, h⟩ := h
  exact ⟨b, a, hb, ha, by rw [mul_comm]; exact h⟩

/-- off the vertices, an edge with a point on the plane is strictly crossed -/
theorem opposite_of_point {pl : Plane ℝ} {m : Mesh ℝ} (hoff : ∀ p ∈ m.v, ¬ OnPlane pl p) {u v : ℕ} {q : V3 ℝ}
    (h : CrossPoint pl m (u, v) q) : Opposite pl m.v u v := by
  obtain ⟨a, b, ha, hb, h1, t, t0, t1, rfl⟩ := h
  refine ⟨a, b, ha, hb, ?_⟩
  have na : height pl a ≠ 0 := fun h => hoff a (List.mem_of_getElem? ha) ((onPlane_iff pl a).mpr h)
  have nb : height pl b ≠ 0 := fun h => hoff b (List.mem_of_getElem? hb) ((onPlane_iff pl b).mpr h)
  have e := (onPlane_iff pl _).mp h1
  rw [Blmath.VS.height_along] at e
  rcases lt_or_gt_of_ne na with ha' | ha' <;> rcases lt_or_gt_of_ne nb with hb' | hb'
  · exfalso
    rcases eq_or_lt_of_le t0 with h | h
    · rw [← h] at e; linarith
    · nlinarith [mul_neg_of_pos_of_neg h hb', mul_nonpos_of_nonneg_of_nonpos (sub_nonneg.mpr t1) ha'.le]
  · exact mul_neg_of_neg_of_pos ha' hb'
  · exact mul_neg_of_pos_of_neg ha' hb'
  · exfalso
    rcases eq_or_lt_of_le t0 with h | h
    · rw [← h] at e; linarith
    · nlinarith [mul_pos h hb', mul_nonneg (sub_nonneg.mpr t1) ha'.le]

/-- an edge with its smaller vertex number first -/
theorem crossedEdge_ek {pl : Plane ℝ} {m : Mesh ℝ} {u v : ℕ} (ho : Opposite pl m.v u v) (hf : ∃ f ∈ m.f, hasEdge f u v = true) {q : V3 ℝ}
    (hq : CrossPoint pl m (u, v) q) : CrossedEdge pl m (min u v, max u v) ∧ CrossPoint pl m (min u v, max u v) q := by
  obtain ⟨f, hf, he⟩ := hf
  have hne : u ≠ v := by
    simp only [hasEdge, Bool.and_eq_true, decide_eq_true_eq] at he
    exact he.1.1
  rcases le_total u v with h | h
  · rw [min_eq_left h, max_eq_right h]
    exact ⟨⟨by simp only; omega, ⟨f, hf, he⟩, ho⟩, hq⟩
  · rw [min_eq_right h, max_eq_left h]
    exact ⟨⟨by simp only; omega, ⟨f, hf, by rw [hasEdge_symm]; exact he⟩, opposite_symm ho⟩, crossPoint_symm hq⟩

end SE

open SE

/-- **C140.** A mesh of triangles with different corners, at most two of them at each edge, no face in the plane; vertices may be on
the plane.  An open polyline starts and ends in a vertex of the mesh on the plane, or where the plane crosses an edge that belongs to
one face only or to a face whose corner listed first is on the plane while the other two are on opposite sides. -/
theorem C140_ends (ver : PyVer) (pk : ℕ → Picker) (ko : ℕ → KeyOrder) (pl : Plane ℝ) (m : Mesh ℝ)
    (hv : ValidFaces m) (hp : ∀ f ∈ m.f, ProperFace f) (hin : ∀ f ∈ m.f, ¬ Spec.InPlane pl m.v f)
    (hman : EdgeManifold m) (hdis : m.f.Pairwise fun f g => ¬ SameCorners f g) :
    ∃ cs, pl.meshXsections ver pk ko m = .ok cs ∧ ∀ c ∈ cs, ∀ q, OpenEnd c.v c.closed q → LooseEnd pl m q := by
  obtain ⟨cs, _, h1, _, _, _, h5, _⟩ := Blmath.VS.segments_of_faces ver pk ko pl m hv hp hin hman hdis
  exact ⟨cs, h1, fun c hc q hq => h5 c hc hq.1 q hq.2⟩

/-- **C140.** A closed mesh with no face in the plane and none listed from a corner on the plane with the other two on opposite
sides: open polylines start and end in vertices of the mesh. -/
theorem C140_closed (ver : PyVer) (pk : ℕ → Picker) (ko : ℕ → KeyOrder) (pl : Plane ℝ) (m : Mesh ℝ)
    (hv : ValidFaces m) (hp : ∀ f ∈ m.f, ProperFace f) (hin : ∀ f ∈ m.f, ¬ Spec.InPlane pl m.v f)
    (hcl : ClosedMesh m) (hpin : ∀ f ∈ m.f, ¬ Pinched pl m.v f) :
    ∃ cs, pl.meshXsections ver pk ko m = .ok cs ∧ ∀ c ∈ cs, ∀ q, OpenEnd c.v c.closed q → q ∈ m.v ∧ OnPlane pl q := by
  obtain ⟨cs, h1, h2⟩ := C140_ends ver pk ko pl m hv hp hin (CX.manifold_of_closed hcl) hcl.2
  exact ⟨cs, h1, fun c hc q hq => off_cases (h2 c hc q hq) hcl hpin⟩

/-- **C140.** A mesh with a border, cut by a plane through none of its vertices that crosses different edges in different points: the
open polylines start and end in the points where the plane crosses the border, and in all of them. -/
theorem C140_border (ver : PyVer) (pk : ℕ → Picker) (ko : ℕ → KeyOrder) (pl : Plane ℝ) (m : Mesh ℝ)
    (hv : ValidFaces m) (hp : ∀ f ∈ m.f, ProperFace f) (hoff : ∀ p ∈ m.v, ¬ OnPlane pl p)
    (hman : EdgeManifold m) (hdis : m.f.Pairwise fun f g => ¬ SameCorners f g) (hap : ApartCrossings pl m) :
    ∃ cs, pl.meshXsections ver pk ko m = .ok cs ∧ ∀ q, (∃ c ∈ cs, OpenEnd c.v c.closed q) ↔ BorderPoint pl m q := by
  obtain ⟨cs, _, h1, _, _, _, h5, h6⟩ := Blmath.VS.segments_of_faces ver pk ko pl m hv hp (not_inPlane hv hoff) hman hdis
  refine ⟨cs, h1, fun q => ⟨?_, ?_⟩⟩
  · rintro ⟨c, hc, hq⟩
    rcases h5 c hc hq.1 q hq.2 with h | ⟨u, v, k1, k2, k3 | ⟨f, _, _, k3⟩⟩
    · exact absurd h.2 (hoff q h.1)
    · exact ⟨u, v, k1, k2, k3⟩
    · exact absurd k3 (not_pinched hoff f)
  · rintro ⟨u, v, k1, k2, k3⟩
    have hf : ∃ f ∈ m.f, hasEdge f u v = true := by
      obtain ⟨f, hf⟩ := List.length_eq_one_iff.mp k3
      have hf : f ∈ m.f.filter fun f => hasEdge f u v := by rw [hf]; simp
      obtain ⟨w1, w2⟩ := List.mem_filter.mp hf
      exact ⟨f, w1, w2⟩
    obtain ⟨c, hc, h, h'⟩ := h6 u v q k1 k2 k3 (fun f _ _ => not_pinched hoff f) (by
      intro u' v' hn hf' hq'
      obtain ⟨a1, a2⟩ := crossedEdge_ek k1 hf k2
      obtain ⟨b1, b2⟩ := crossedEdge_ek (opposite_of_point hoff hq') hf' hq'
      have := hap _ _ q a1 b1 a2 b2
      simp only [Prod.mk.injEq] at this
      apply hn
      unfold SamePair
      omega)
    exact ⟨c, hc, h, h'⟩

namespace SE

open Classical in
/-- a point that is an odd number of times an end of a segment is an end of an open polyline -/
theorem odd_end (u : V3 ℝ) (cs : List (Section ℝ)) (h : ¬ _root_.Even ((cs.flatMap fun c => chainSegs c.v c.closed).map (tips u)).sum) :
    ∃ c ∈ cs, OpenEnd c.v c.closed u := by
  have gen : ∀ (l : List (V3 ℝ)) (a z : V3 ℝ), (a :: l).getLast? = some z → a ≠ u → z ≠ u →
      _root_.Even ((pairs (a :: l)).map (tips u)).sum := by
    intro l a z hz ha hz'
    have main : ∀ (l : List (V3 ℝ)) (a : V3 ℝ), (a :: l).getLast? = some z →
        _root_.Even (((pairs (a :: l)).map (tips u)).sum + if a = u then 1 else 0) := by
      intro l
      induction l with
      | nil =>
        intro a h
        simp at h
        subst h
        simp [pairs, hz']
      | cons b l ih =>
        intro a h
        have e : pairs (a :: b :: l) = (a, b) :: pairs (b :: l) := rfl
        have := ih b (by simpa using h)
        rw [e, List.map_cons, List.sum_cons]
        have t : tips u (a, b) = (if a = u then 1 else 0) + if b = u then 1 else 0 := rfl
        rw [t]
        obtain ⟨k, hk⟩ := this
        refine ⟨k + if a = u then 1 else 0, ?_⟩
        omega
    have := main l a hz
    rwa [if_neg ha, add_zero] at this
  by_contra hc
  push Not at hc
  apply h
  clear h
  induction cs with
  | nil => simp
  | cons c cs ih =>
    rw [List.flatMap_cons, List.map_append, List.sum_append]
    refine _root_.Even.add ?_ (ih fun c h => hc c (List.mem_cons_of_mem _ h))
    have h := hc c (by simp)
    cases hcl : c.closed with
    | true => exact closed_even _ _
    | false =>
      unfold OpenEnd at h
      rw [hcl] at h
      match hv : c.v with
      | [] => simp [chainSegs, circuit, pairs]
      | a :: l =>
        obtain ⟨z, hz⟩ : ∃ z, (a :: l).getLast? = some z := Option.isSome_iff_exists.mp (by simp)
        rw [hv] at h
        have : chainSegs (a :: l) false = pairs (a :: l) := by simp [chainSegs, circuit]
        rw [this]
        exact gen l a z hz (fun e => h ⟨rfl, Or.inl (by simp [e])⟩) (fun e => h ⟨rfl, Or.inr (by rw [hz, e])⟩)

/-- a wall of two faces -/
def wall : Mesh ℝ := ⟨[⟨0, 0, -1⟩, ⟨2, 0, -1⟩, ⟨2, 0, 1⟩, ⟨0, 0, 1⟩], [(0, 1, 2), (0, 2, 3)]⟩

theorem wall_edges {e : ℕ × ℕ} (h : CrossedEdge ground wall e) : e = (0, 2) ∨ e = (1, 2) ∨ e = (0, 3) := by
  obtain ⟨u, v⟩ := e
  obtain ⟨h1, ⟨f, hf, he⟩, a, b, ha, hb, hab⟩ := h
  simp only at h1 he ha hb
  have hu : u < 4 ∧ v < 4 := by
    constructor
    · by_contra hn
      rw [show wall.v[u]? = none from List.getElem?_eq_none (by simp [wall]; omega)] at ha
      cases ha
    · by_contra hn
      rw [show wall.v[v]? = none from List.getElem?_eq_none (by simp [wall]; omega)] at hb
      cases hb
  obtain ⟨hu, hv⟩ := hu
  simp only [wall, List.mem_cons, List.not_mem_nil, or_false] at hf
  interval_cases u <;> interval_cases v <;>
    first
    | omega
    | (simp; done)
    | (rcases hf with rfl | rfl <;> simp [hasEdge, corner] at he <;> done)
    | (simp [wall] at ha hb; subst ha hb; norm_num [ground, height, inner3, vec3] at hab; done)

theorem wall_points {e : ℕ × ℕ} (h : CrossedEdge ground wall e) {q : V3 ℝ} (hq : CrossPoint ground wall e q) :
    (e = (0, 2) ∧ q = ⟨1, 0, 0⟩) ∨ (e = (1, 2) ∧ q = ⟨2, 0, 0⟩) ∨ (e = (0, 3) ∧ q = ⟨0, 0, 0⟩) := by
  rcases wall_edges h with rfl | rfl | rfl
  · exact Or.inl ⟨rfl, Blmath.VS.crossPoint_unique h.2.2 hq ⟨_, _, rfl, rfl, by norm_num [onPlane_iff, ground, height, inner3, vec3],
      1 / 2, by norm_num, by norm_num, by ext <;> norm_num [along, vec3]⟩⟩
  · exact Or.inr (Or.inl ⟨rfl, Blmath.VS.crossPoint_unique h.2.2 hq ⟨_, _, rfl, rfl, by norm_num [onPlane_iff, ground, height, inner3, vec3],
      1 / 2, by norm_num, by norm_num, by ext <;> norm_num [along, vec3]⟩⟩)
  · exact Or.inr (Or.inr ⟨rfl, Blmath.VS.crossPoint_unique h.2.2 hq ⟨_, _, rfl, rfl, by norm_num [onPlane_iff, ground, height, inner3, vec3],
      1 / 2, by norm_num, by norm_num, by ext <;> norm_num [along, vec3]⟩⟩)

theorem wall_apart : ApartCrossings ground wall := by
  intro e e' q h h' hq hq'
  rcases wall_points h hq with ⟨h1, h2⟩ | ⟨h1, h2⟩ | ⟨h1, h2⟩ <;> rcases wall_points h' hq' with ⟨k1, k2⟩ | ⟨k1, k2⟩ | ⟨k1, k2⟩ <;>
    rw [h1, k1] <;> rw [h2] at k2 <;> have := congrArg V3.x k2 <;> norm_num at this

theorem wall_ok : ValidFaces wall ∧ (∀ f ∈ wall.f, ProperFace f) ∧ (∀ p ∈ wall.v, ¬ OnPlane ground p) ∧ EdgeManifold wall ∧
    wall.f.Pairwise fun f g => ¬ SameCorners f g := by
  refine ⟨by simp [ValidFaces, wall], by simp [ProperFace, wall], ?_, ?_, ?_⟩
  · intro p hp
    simp only [wall, List.mem_cons, List.not_mem_nil, or_false] at hp
    rcases hp with rfl | rfl | rfl | rfl <;> norm_num [onPlane_iff, ground, height, inner3, vec3]
  · intro u v
    exact (List.length_filter_le _ _).trans (by simp [wall])
  · simp only [wall, List.pairwise_cons, List.mem_singleton, forall_eq, List.not_mem_nil, IsEmpty.forall_iff, implies_true,
      List.Pairwise.nil, and_true]
    intro h
    have := h 1
    simp [corner] at this

end SE

/-- **C140**, used on a wall of two faces cut half way up: its polylines start and end in the two points where the plane crosses the
upright edges, not in the point where it crosses the diagonal. -/
theorem C140_wall (ver : PyVer) (pk : ℕ → Picker) (ko : ℕ → KeyOrder) :
    ∃ cs, ground.meshXsections ver pk ko wall = .ok cs ∧ ∀ q, (∃ c ∈ cs, OpenEnd c.v c.closed q) ↔ q = ⟨0, 0, 0⟩ ∨ q = ⟨2, 0, 0⟩ := by
  obtain ⟨h1, h2, h3, h4, h5⟩ := wall_ok
  obtain ⟨cs, k1, k2⟩ := C140_border ver pk ko ground wall h1 h2 h3 h4 h5 wall_apart
  refine ⟨cs, k1, fun q => (k2 q).trans ⟨?_, ?_⟩⟩
  · rintro ⟨u, v, ho, hq, hl⟩
    have hf : ∃ f ∈ wall.f, hasEdge f u v = true := by
      obtain ⟨f, hf⟩ := List.length_eq_one_iff.mp hl
      have hf : f ∈ wall.f.filter fun f => hasEdge f u v := by rw [hf]; simp
      obtain ⟨w1, w2⟩ := List.mem_filter.mp hf
      exact ⟨f, w1, w2⟩
    obtain ⟨a1, a2⟩ := crossedEdge_ek ho hf hq
    rcases wall_points a1 a2 with ⟨b1, b2⟩ | ⟨b1, b2⟩ | ⟨b1, b2⟩
    · exfalso
      simp only [Prod.mk.injEq] at b1
      have : (u = 0 ∧ v = 2) ∨ (u = 2 ∧ v = 0) := by omega
      rcases this with ⟨rfl, rfl⟩ | ⟨rfl, rfl⟩ <;> simp [wall, hasEdge, corner] at hl
    · exact Or.inr b2
    · exact Or.inl b2
  · rintro (rfl | rfl)
    · refine ⟨0, 3, ⟨_, _, rfl, rfl, ?_⟩, ⟨_, _, rfl, rfl, ?_, 1 / 2, ?_, ?_, ?_⟩, ?_⟩
      · norm_num [ground, height, inner3, vec3]
      · norm_num [onPlane_iff, ground, height, inner3, vec3]
      · norm_num
      · norm_num
      · ext <;> norm_num [along, vec3]
      · simp [wall, hasEdge, corner]
    · refine ⟨1, 2, ⟨_, _, rfl, rfl, ?_⟩, ⟨_, _, rfl, rfl, ?_, 1 / 2, ?_, ?_, ?_⟩, ?_⟩
      · norm_num [ground, height, inner3, vec3]
      · norm_num [onPlane_iff, ground, height, inner3, vec3]
      · norm_num
      · norm_num
      · ext <;> norm_num [along, vec3]
      · simp [wall, hasEdge, corner]

/-- **C140**, used on a closed mesh: of a tetrahedron with an edge in the plane, its faces listed from corners off the plane, some
polyline is open, and it leads from one end of that edge to the other. -/
theorem C140_witness (ver : PyVer) (pk : ℕ → Picker) (ko : ℕ → KeyOrder) :
    ∃ cs, ground.meshXsections ver pk ko (fold offFaces) = .ok cs ∧
      (∀ c ∈ cs, ∀ q, OpenEnd c.v c.closed q → q = ⟨0, 0, 0⟩ ∨ q = ⟨3, 0, 0⟩) ∧
      ∃ c ∈ cs, OpenEnd c.v c.closed ⟨0, 0, 0⟩ ∧ OpenEnd c.v c.closed ⟨3, 0, 0⟩ := by
  obtain ⟨hv, ho, hin⟩ := fold_ok (.inl rfl)
  obtain ⟨hp, hcl⟩ := IS.closed hv ho
  obtain ⟨cs, h1, h2⟩ := C140_closed ver pk ko ground (fold offFaces) hv hp hin hcl fold_pin
  obtain ⟨_, cs', k1, _, _, _, c, hc, hcf⟩ := C139_witness ver pk ko
  obtain ⟨cs'', _, j1, j2, _⟩ := C138_segments ver pk ko ground (fold offFaces) hv hp hin (CX.manifold_of_closed hcl) hcl.2
  rw [h1] at k1 j1
  cases k1
  cases j1
  have two : ∀ c ∈ cs, ∀ q, OpenEnd c.v c.closed q → q = ⟨0, 0, 0⟩ ∨ q = ⟨3, 0, 0⟩ := by
    intro c hc q hq
    obtain ⟨m1, m2⟩ := h2 c hc q hq
    simp only [fold, List.mem_cons, List.not_mem_nil, or_false] at m1
    rcases m1 with rfl | rfl | rfl | rfl
    · exact Or.inl rfl
    · exact Or.inr rfl
    · norm_num [onPlane_iff, ground, height, inner3, vec3] at m2
    · norm_num [onPlane_iff, ground, height, inner3, vec3] at m2
  refine ⟨cs, h1, two, c, hc, ?_⟩
  obtain ⟨w1, w2⟩ := j2 c hc
  have w2 := w2 hcf
  obtain ⟨x, hx⟩ : ∃ x, c.v.head? = some x := Option.isSome_iff_exists.mp (by simpa using w1)
  obtain ⟨y, hy⟩ : ∃ y, c.v.getLast? = some y := Option.isSome_iff_exists.mp (by simpa using w1)
  have ex : OpenEnd c.v c.closed x := ⟨hcf, Or.inl hx⟩
  have ey : OpenEnd c.v c.closed y := ⟨hcf, Or.inr hy⟩
  have hxy : x ≠ y := fun h => w2 (by rw [hx, hy, h])
  rcases two c hc x ex with rfl | rfl <;> rcases two c hc y ey with rfl | rfl
  · exact absurd rfl hxy
  · exact ⟨ex, ey⟩
  · exact ⟨ey, ex⟩
  · exact absurd rfl hxy

/-- **C140.** With faces listed from a corner on the plane the section of a closed mesh can break off in the middle of an edge: of
this tetrahedron with one vertex on the plane a polyline starts or ends half way between two vertices. -/
theorem C140_hanging (ver : PyVer) (pk : ℕ → Picker) (ko : ℕ → KeyOrder) :
    ClosedMesh leaning ∧ ∃ cs, ground.meshXsections ver pk ko leaning = .ok cs ∧
      (∃ c ∈ cs, OpenEnd c.v c.closed ⟨1 / 2, 1 / 2, 0⟩) ∧ (⟨1 / 2, 1 / 2, 0⟩ : V3 ℝ) ∉ leaning.v ∧
      LooseEnd ground leaning ⟨1 / 2, 1 / 2, 0⟩ := by
  obtain ⟨hv, hp, hin, hcl, hman⟩ := leaning_ok
  obtain ⟨cs, fs, j1, _, j2, j3⟩ := C138_segments ver pk ko ground leaning hv hp hin hman hcl.2
  obtain ⟨cs', k1, k2⟩ := C140_ends ver pk ko ground leaning hv hp hin hman hcl.2
  rw [j1] at k1
  cases k1
  have main : ∃ c ∈ cs, OpenEnd c.v c.closed ⟨1 / 2, 1 / 2, 0⟩ := by
    refine odd_end _ _ ?_
    have left : ∀ a b : V3 ℝ, OnSegment a b a := fun a b => ⟨0, le_rfl, zero_le_one, by ext <;> simp [along]⟩
    have right : ∀ a b : V3 ℝ, OnSegment a b b := fun a b => ⟨1, zero_le_one, le_rfl, by ext <;> simp [along, vec3]⟩
    have pinned : ∀ (f : ℕ × ℕ × ℕ) s, f.1 = 0 → Pinched ground leaning.v f → Piece ground leaning f s →
        tips ⟨1 / 2, 1 / 2, 0⟩ s = 0 := by
      intro f s h0 hpin hs
      obtain ⟨e1, e2⟩ := hs.2 hpin
      rw [h0] at e2
      have e2 : (⟨0, 0, 0⟩ : V3 ℝ) = s.1 := Option.some.inj e2
      simp [tips, ← e1, ← e2]
    have chord : Chord ground leaning (1, 3, 2) (⟨0, -1 / 2, 0⟩, ⟨1 / 2, 1 / 2, 0⟩) := by
      intro x
      rw [Blmath.VS.chord_corner (a := ⟨1, 0, 1⟩) (b := ⟨-1, -1, -1⟩) (c := ⟨0, 1, -1⟩) ?_ ?_ ⟨1 / 2, ?_, ?_, ?_⟩ ?_ ⟨1 / 2, ?_, ?_, ?_⟩ x,
        inFace_iff rfl rfl rfl] <;> norm_num [onPlane_iff, ground, height, inner3, vec3, along]
    have key : ∀ f s, f ∈ fs → Piece ground leaning f s → tips ⟨1 / 2, 1 / 2, 0⟩ s = if f = (1, 3, 2) then 1 else 0 := by
      intro f s hf hs
      have hf := (List.mem_filter.mp (j2.subset hf)).1
      simp only [leaning, tetra, List.mem_cons, List.not_mem_nil, or_false] at hf
      rcases hf with rfl | rfl | rfl | rfl
      · exact pinned _ _ rfl ⟨⟨⟨0, 0, 0⟩, rfl, by norm_num [onPlane_iff, ground, height, inner3, vec3]⟩, ⟨1, 0, 1⟩, ⟨0, 1, -1⟩, rfl, rfl, by
          norm_num [ground, height, inner3, vec3]⟩ hs
      · have hn : ¬ Pinched ground leaning.v (0, 2, 3) := by
          rintro ⟨_, a, b, ha, hb, h⟩
          simp [leaning] at ha hb
          subst ha hb
          norm_num [ground, height, inner3, vec3] at h
        have hs := hs.1 hn
        have out : ∀ q : V3 ℝ, OnSegment s.1 s.2 q → q ≠ ⟨1 / 2, 1 / 2, 0⟩ := by
          rintro q hq rfl
          obtain ⟨_, a, b, c, ha, hb, hc, r, t, r0, t0, _, e⟩ := (hs _).mp hq
          simp [leaning] at ha hb hc
          subst ha hb hc
          have e1 := congrArg V3.z e
          have e2 := congrArg V3.x e
          simp [along, vec3] at e1 e2
          linarith
        simp only [tips, if_neg (out _ (left _ _)), if_neg (out _ (right _ _))]
        simp
      · exact pinned _ _ rfl ⟨⟨⟨0, 0, 0⟩, rfl, by norm_num [onPlane_iff, ground, height, inner3, vec3]⟩, ⟨-1, -1, -1⟩, ⟨1, 0, 1⟩, rfl, rfl, by
          norm_num [ground, height, inner3, vec3]⟩ hs
      · have hn : ¬ Pinched ground leaning.v (1, 3, 2) := by
          rintro ⟨⟨a, ha, h⟩, _⟩
          simp [leaning] at ha
          subst ha
          norm_num [onPlane_iff, ground, height, inner3, vec3] at h
        have hs := hs.1 hn
        rcases seg_ends (fun x => (hs x).trans (chord x).symm) with ⟨h1, h2⟩ | ⟨h1, h2⟩ <;> norm_num [tips, h1, h2]
    have hsum : ∀ (l : List (ℕ × ℕ × ℕ)) (S : List (V3 ℝ × V3 ℝ)), (∀ f ∈ l, f ∈ fs) → List.Forall₂ (Piece ground leaning) l S →
        (S.map (tips ⟨1 / 2, 1 / 2, 0⟩)).sum = (l.map fun f => if f = (1, 3, 2) then 1 else 0).sum := by
      intro l S hl h
      induction h with
      | nil => rfl
      | cons h _ ih =>
        rw [List.map_cons, List.map_cons, List.sum_cons, List.sum_cons, ih fun f hf => hl f (List.mem_cons_of_mem _ hf),
          key _ _ (hl _ (by simp)) h]
    rw [hsum fs _ (fun _ h => h) j3, (j2.map _).sum_eq]
    have hall : (leaning.f.filter fun f => open Classical in decide (Straddles ground leaning.v f)) = leaning.f := by
      rw [List.filter_eq_self]
      intro f hf
      simp only [decide_eq_true_eq]
      simp only [leaning, tetra, List.mem_cons, List.not_mem_nil, or_false] at hf
      rcases hf with rfl | rfl | rfl | rfl <;>
        exact ⟨_, _, _, rfl, rfl, rfl, by norm_num [ground, height, inner3, vec3], by norm_num [ground, height, inner3, vec3]⟩
    rw [hall]
    simp [leaning, tetra]
  refine ⟨hcl, cs, j1, main, ?_, ?_⟩
  · simp [leaning]
  · obtain ⟨c, hc, h⟩ := main
    exact k2 c hc _ h

end Blmath.Props
