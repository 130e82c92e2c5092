import Verif.Proofs.VertexSlice
import Verif.Props.Chord

/-!
Property C138: cross-sections by a plane passing through vertices of the mesh.
-/

namespace Blmath.Props
open Blmath.Geometry Blmath.Spec Blmath.CH Blmath.Proofs

namespace VP

theorem forall₂_left {β γ : Type} {R : β → γ → Prop} {l : List β} {l' : List γ} (h : List.Forall₂ R l l') {x : β} (hx : x ∈ l) :
    ∃ y ∈ l', R x y := by
  induction h with
  | nil => simp at hx
  | cons h _ ih =>
    rcases List.mem_cons.mp hx with rfl | hx
    · exact ⟨_, by simp, h⟩
    · obtain ⟨y, hy, k⟩ := ih hx
      exact ⟨y, by simp [hy], k⟩

theorem forall₂_right {β γ : Type} {R : β → γ → Prop} {l : List β} {l' : List γ} (h : List.Forall₂ R l l') {y : γ} (hy : y ∈ l') :
    ∃ x ∈ l, R x y := by
  obtain ⟨x, hx, k⟩ := forall₂_left h.flip hy
  exact ⟨x, hx, k⟩

theorem onSegment_self (a q : V3 ℝ) : OnSegment a a q ↔ q = a := by
  have e : ∀ t, along a t (vec3 a a) = a := by intro t; ext <;> simp [along, vec3]
  constructor
  · rintro ⟨t, _, _, rfl⟩; exact e t
  · rintro rfl; exact ⟨0, le_rfl, by norm_num, (e 0).symm⟩

/-- the same corners in another order -/
theorem sameCorners_cases {x y z : ℕ} {g : ℕ × ℕ × ℕ} (hf : ProperFace (x, y, z)) (h : SameCorners (x, y, z) g) :
    g = (x, y, z) ∨ g = (x, z, y) ∨ g = (y, x, z) ∨ g = (y, z, x) ∨ g = (z, x, y) ∨ g = (z, y, x) := by
  obtain ⟨a, b, c⟩ := g
  have key : ∀ u, (u = x ∨ u = y ∨ u = z) ↔ (u = a ∨ u = b ∨ u = c) := by
    intro u
    have := h u
    rw [Bool.eq_iff_iff] at this
    simpa only [corner, decide_eq_true_eq] using this
  have k1 := (key x).mp (by simp)
  have k2 := (key y).mp (by simp)
  have k3 := (key z).mp (by simp)
  simp only [ProperFace] at hf
  obtain ⟨n1, n2, n3⟩ := hf
  clear key h
  rcases k1 with h1 | h1 | h1 <;> rcases k2 with h2 | h2 | h2 <;> rcases k3 with h3 | h3 | h3 <;>
    first
    | exact absurd (h1.trans h2.symm) n1
    | exact absurd (h2.trans h3.symm) n2
    | exact absurd (h1.trans h3.symm) n3
    | simp [h1, h2, h3]

theorem inFace_sameCorners {m : Mesh ℝ} {f g : ℕ × ℕ × ℕ} (hf : ProperFace f) (h : SameCorners f g)
    (hv : f.1 < m.v.length ∧ f.2.1 < m.v.length ∧ f.2.2 < m.v.length) (q : V3 ℝ) : InFace m f q ↔ InFace m g q := by
  obtain ⟨x, y, z⟩ := f
  have gx := List.getElem?_eq_getElem hv.1
  have gy := List.getElem?_eq_getElem hv.2.1
  have gz := List.getElem?_eq_getElem hv.2.2
  simp only at gx gy gz
  rw [inFace_iff gx gy gz]
  have t1 : ∀ {a b c : V3 ℝ}, InTriangle a b c q → InTriangle a c b q := triangle_swap
  have t2 : ∀ {a b c : V3 ℝ}, InTriangle a b c q → InTriangle b c a q := triangle_turn
  rcases sameCorners_cases hf h with rfl | rfl | rfl | rfl | rfl | rfl
  · rw [inFace_iff gx gy gz]
  · rw [inFace_iff gx gz gy]; exact ⟨t1, t1⟩
  · rw [inFace_iff gy gx gz]; exact ⟨fun h => t1 (t2 h), fun h => t1 (t2 h)⟩
  · rw [inFace_iff gy gz gx]; exact ⟨t2, fun h => t2 (t2 h)⟩
  · rw [inFace_iff gz gx gy]; exact ⟨fun h => t2 (t2 h), t2⟩
  · rw [inFace_iff gz gy gx]; exact ⟨fun h => t1 (t2 (t2 h)), fun h => t1 (t2 (t2 h))⟩

theorem proper_sameCorners {f g : ℕ × ℕ × ℕ} (hf : ProperFace f) (h : SameCorners f g) : ProperFace g := by
  obtain ⟨x, y, z⟩ := f
  simp only [ProperFace] at hf
  rcases sameCorners_cases (by simpa only [ProperFace] using hf) h with rfl | rfl | rfl | rfl | rfl | rfl <;>
    simp only [ProperFace] <;> omega

theorem valid_sameCorners {n : ℕ} {f g : ℕ × ℕ × ℕ} (hv : f.1 < n ∧ f.2.1 < n ∧ f.2.2 < n) (h : SameCorners f g) :
    g.1 < n ∧ g.2.1 < n ∧ g.2.2 < n := by
  have key : ∀ u, corner g u = true → u < n := by
    intro u hu
    rw [← h u] at hu
    simp only [corner, decide_eq_true_eq] at hu
    rcases hu with rfl | rfl | rfl
    · exact hv.1
    · exact hv.2.1
    · exact hv.2.2
  exact ⟨key _ (by simp [corner]), key _ (by simp [corner]), key _ (by simp [corner])⟩

theorem hasEdge_sameCorners {f g : ℕ × ℕ × ℕ} (h : SameCorners f g) (u v : ℕ) : hasEdge f u v = hasEdge g u v := by
  unfold hasEdge
  rw [h u, h v]

theorem sameCorners_turn (f : ℕ × ℕ × ℕ) : SameCorners f (turnFace f) := by
  intro u
  obtain ⟨x, y, z⟩ := f
  unfold corner turnFace
  rw [decide_eq_decide]
  constructor <;> rintro (h | h | h) <;> simp [h]

end VP

open VP

/-- **C138.** A mesh of triangles with different corners, at most two of them at each edge, no face in the plane; vertices
may be on the plane.  The segments of the returned polylines correspond one to one to the faces not strictly on one side.  Each is
all its face and the plane have in common, except for a face whose corner listed first is on the plane while the other two are
on opposite sides: for that one only the corner is returned, as a segment of length 0.  An open polyline ends in another point than
it starts from. -/
theorem C138_segments (ver : PyVer) (pk : ℕ → Picker) (ko : ℕ → KeyOrder) (pl : Plane ℝ) (m : Mesh ℝ)
    (hv : ValidFaces m) (hp : ∀ f ∈ m.f, ProperFace f) (hin : ∀ f ∈ m.f, ¬ InPlane pl m.v f)
    (hman : EdgeManifold m) (hdis : m.f.Pairwise fun f g => ¬ SameCorners f g) :
    ∃ cs fs, pl.meshXsections ver pk ko m = .ok cs ∧ (∀ c ∈ cs, WellEnded c.v c.closed) ∧
      fs.Perm (m.f.filter fun f => open Classical in decide (Straddles pl m.v f)) ∧
      List.Forall₂ (Piece pl m) fs (cs.flatMap fun c => chainSegs c.v c.closed) :=
  let ⟨cs, fs, h1, h2, h3, h4, _⟩ := Blmath.VS.segments_of_faces ver pk ko pl m hv hp hin hman hdis
  ⟨cs, fs, h1, h2, h3, h4⟩

/-- **C138.** The points of the polylines: those the plane has in common with the faces, of a pinched face the first corner
only. -/
theorem C138_points (ver : PyVer) (pk : ℕ → Picker) (ko : ℕ → KeyOrder) (pl : Plane ℝ) (m : Mesh ℝ)
    (hv : ValidFaces m) (hp : ∀ f ∈ m.f, ProperFace f) (hin : ∀ f ∈ m.f, ¬ InPlane pl m.v f)
    (hman : EdgeManifold m) (hdis : m.f.Pairwise fun f g => ¬ SameCorners f g) :
    ∃ cs, pl.meshXsections ver pk ko m = .ok cs ∧
      (∀ c ∈ cs, WellEnded c.v c.closed) ∧ ∀ q, (∃ c ∈ cs, OnChain c.v c.closed q) ↔
        OnPlane pl q ∧ ∃ f ∈ m.f, InFace m f q ∧ (Pinched pl m.v f → m.v[f.1]? = some q) := by
  obtain ⟨cs, fs, h1, h0, h2, h3⟩ := C138_segments ver pk ko pl m hv hp hin hman hdis
  refine ⟨cs, h1, h0, fun q => ⟨?_, ?_⟩⟩
  · rintro ⟨c, hc, s, hs, hq⟩
    obtain ⟨f, hf, k1, k2⟩ := forall₂_right h3 (List.mem_flatMap.mpr ⟨c, hc, hs⟩)
    have hf := (List.mem_filter.mp (h2.subset hf)).1
    by_cases hpin : Pinched pl m.v f
    · obtain ⟨e1, e2⟩ := k2 hpin
      rw [← e1, onSegment_self] at hq
      obtain ⟨⟨a, ha, hpa⟩, _⟩ := hpin
      rw [ha] at e2
      have := Option.some.inj e2
      subst this
      subst hq
      refine ⟨hpa, f, hf, ?_, fun _ => ha⟩
      obtain ⟨_, v2, v3⟩ := hv f hf
      exact ⟨_, _, _, ha, List.getElem?_eq_getElem v2, List.getElem?_eq_getElem v3, 0, 0, le_rfl, le_rfl, by norm_num, by
        ext <;> simp [along]⟩
    · have := (k1 hpin q).mp hq
      exact ⟨this.1, f, hf, this.2, fun h => absurd h hpin⟩
  · rintro ⟨hq, f, hf, hq', hpq⟩
    have hf' : f ∈ fs := by
      refine h2.mem_iff.mpr (List.mem_filter.mpr ⟨hf, ?_⟩)
      simp only [decide_eq_true_eq]
      exact CH.straddles_of_point hq' hq
    obtain ⟨s, hs, k1, k2⟩ := forall₂_left h3 hf'
    obtain ⟨c, hc, hs⟩ := List.mem_flatMap.mp hs
    refine ⟨c, hc, s, hs, ?_⟩
    by_cases hpin : Pinched pl m.v f
    · obtain ⟨e1, e2⟩ := k2 hpin
      rw [hpq hpin] at e2
      rw [← e1, onSegment_self]
      exact Option.some.inj e2
    · exact (k1 hpin q).mpr ⟨hq, hq'⟩

/-- **C138.** If no face is listed from a corner on the plane with the other two on opposite sides, the points of the
polylines are the points the surface and the plane have in common, vertices on the plane or not. -/
theorem C138_complete (ver : PyVer) (pk : ℕ → Picker) (ko : ℕ → KeyOrder) (pl : Plane ℝ) (m : Mesh ℝ)
    (hv : ValidFaces m) (hp : ∀ f ∈ m.f, ProperFace f) (hin : ∀ f ∈ m.f, ¬ InPlane pl m.v f)
    (hman : EdgeManifold m) (hdis : m.f.Pairwise fun f g => ¬ SameCorners f g) (hpin : ∀ f ∈ m.f, ¬ Pinched pl m.v f) :
    ∃ cs, pl.meshXsections ver pk ko m = .ok cs ∧
      (∀ c ∈ cs, WellEnded c.v c.closed) ∧ ∀ q, (∃ c ∈ cs, OnChain c.v c.closed q) ↔ OnPlane pl q ∧ OnSurface m q := by
  obtain ⟨cs, h1, h0, h2⟩ := C138_points ver pk ko pl m hv hp hin hman hdis
  refine ⟨cs, h1, h0, fun q => (h2 q).trans (and_congr_right fun _ => ?_)⟩
  constructor
  · rintro ⟨f, hf, h, _⟩; exact ⟨f, hf, h⟩
  · rintro ⟨f, hf, h⟩; exact ⟨f, hf, h, fun h => absurd h (hpin f hf)⟩

/-- **C138.** Listing the corners of the faces in another order, so that none is pinched, gives the complete cross-section
of the same surface. -/
theorem C138_listing (ver : PyVer) (pk : ℕ → Picker) (ko : ℕ → KeyOrder) (pl : Plane ℝ) (m : Mesh ℝ)
    (T : ℕ × ℕ × ℕ → ℕ × ℕ × ℕ) (hv : ValidFaces m) (hp : ∀ f ∈ m.f, ProperFace f) (hin : ∀ f ∈ m.f, ¬ InPlane pl m.v f)
    (hman : EdgeManifold m) (hdis : m.f.Pairwise fun f g => ¬ SameCorners f g) (hT : ∀ f ∈ m.f, SameCorners f (T f))
    (hpin : ∀ f ∈ m.f, ¬ Pinched pl m.v (T f)) :
    ∃ cs, pl.meshXsections ver pk ko ⟨m.v, m.f.map T⟩ = .ok cs ∧
      (∀ c ∈ cs, WellEnded c.v c.closed) ∧ ∀ q, (∃ c ∈ cs, OnChain c.v c.closed q) ↔ OnPlane pl q ∧ OnSurface m q := by
  have all : ∀ {P : ℕ × ℕ × ℕ → Prop}, (∀ f ∈ m.f, P (T f)) → ∀ f ∈ m.f.map T, P f := by
    intro P h f hf
    obtain ⟨g, hg, rfl⟩ := List.mem_map.mp hf
    exact h g hg
  obtain ⟨cs, h1, h0, h2⟩ := C138_complete ver pk ko pl ⟨m.v, m.f.map T⟩
    (all fun f hf => valid_sameCorners (hv f hf) (hT f hf)) (all fun f hf => proper_sameCorners (hp f hf) (hT f hf))
    (all fun f hf h => hin f hf fun u hu => h u (by rw [← hT f hf u]; exact hu)) (by
      intro u v
      simp only [List.filter_map, List.length_map]
      refine le_of_eq_of_le (congrArg List.length (List.filter_congr fun f hf => ?_)) (hman u v)
      exact (hasEdge_sameCorners (hT f hf) u v).symm) (by
      refine List.pairwise_map.mpr (List.Pairwise.imp_of_mem ?_ hdis)
      intro f g hf hg h h'
      exact h fun u => by rw [hT f hf u, hT g hg u]; exact h' u) (all hpin)
  refine ⟨cs, h1, h0, fun q => (h2 q).trans (and_congr_right fun _ => ?_)⟩
  constructor
  · rintro ⟨f, hf, h⟩
    obtain ⟨g, hg, rfl⟩ := List.mem_map.mp hf
    exact ⟨g, hg, (inFace_sameCorners (hp g hg) (hT g hg) (hv g hg) q).mpr h⟩
  · rintro ⟨f, hf, h⟩
    exact ⟨T f, List.mem_map_of_mem hf, (inFace_sameCorners (m := m) (hp f hf) (hT f hf) (hv f hf) q).mp h⟩

/-- **C138.** Such an order always exists: list the pinched faces from their second corner on. -/
theorem C138_turned (ver : PyVer) (pk : ℕ → Picker) (ko : ℕ → KeyOrder) (pl : Plane ℝ) (m : Mesh ℝ)
    (hv : ValidFaces m) (hp : ∀ f ∈ m.f, ProperFace f) (hin : ∀ f ∈ m.f, ¬ InPlane pl m.v f)
    (hman : EdgeManifold m) (hdis : m.f.Pairwise fun f g => ¬ SameCorners f g) :
    ∃ cs, pl.meshXsections ver pk ko
        ⟨m.v, m.f.map fun f => open Classical in if Pinched pl m.v f then turnFace f else f⟩ = .ok cs ∧
      (∀ c ∈ cs, WellEnded c.v c.closed) ∧ ∀ q, (∃ c ∈ cs, OnChain c.v c.closed q) ↔ OnPlane pl q ∧ OnSurface m q := by
  refine C138_listing ver pk ko pl m _ hv hp hin hman hdis ?_ ?_
  · intro f _
    split
    · exact sameCorners_turn f
    · exact fun _ => rfl
  · intro f _
    split
    · next h =>
      rintro ⟨⟨b, hb, hpb⟩, _⟩
      obtain ⟨_, b', c, hb', _, hbc⟩ := h
      simp only [turnFace] at hb
      rw [hb] at hb'
      rw [← Option.some.inj hb', (onPlane_iff pl b).mp hpb] at hbc
      simp at hbc
    · next h => exact h

/-- **C138.** The lengths of the polylines add up to the sum, over the faces not strictly on one side, of the length of what
the face and the plane have in common, pinched faces counting 0. -/
theorem C138_length (ver : PyVer) (pk : ℕ → Picker) (ko : ℕ → KeyOrder) (pl : Plane ℝ) (m : Mesh ℝ)
    (hv : ValidFaces m) (hp : ∀ f ∈ m.f, ProperFace f) (hin : ∀ f ∈ m.f, ¬ InPlane pl m.v f)
    (hman : EdgeManifold m) (hdis : m.f.Pairwise fun f g => ¬ SameCorners f g) :
    ∃ cs ls ds, pl.meshXsections ver pk ko m = .ok cs ∧
      List.Forall₂ (fun (c : Section ℝ) l => (poly c.v c.closed).totalLength = .ok l) cs ls ∧
      List.Forall₂ (fun f d => (¬ Pinched pl m.v f → ChordLength pl m f d) ∧ (Pinched pl m.v f → d = 0))
        (m.f.filter fun f => open Classical in decide (Straddles pl m.v f)) ds ∧
      ls.sum = ds.sum := by
  obtain ⟨cs, fs, h1, h0, h2, h3⟩ := C138_segments ver pk ko pl m hv hp hin hman hdis
  have h4 : List.Forall₂ (fun f d => (¬ Pinched pl m.v f → ChordLength pl m f d) ∧ (Pinched pl m.v f → d = 0)) fs
      ((cs.flatMap fun c => chainSegs c.v c.closed).map fun s => dist3 s.1 s.2) := by
    rw [List.forall₂_map_right_iff]
    refine h3.imp fun f s h => ⟨fun k => ⟨s.1, s.2, h.1 k, rfl⟩, fun k => ?_⟩
    rw [← (h.2 k).1]
    simp [dist3, len3, vec3]
  obtain ⟨ds, h5, h6⟩ := List.perm_comp_forall₂ h2.symm h4
  refine ⟨cs, cs.map fun c => pathLength (circuit c.v c.closed), ds, h1, ?_, h5, ?_⟩
  · rw [List.forall₂_map_right_iff]
    exact List.forall₂_same.mpr fun c _ => (C35_lengths c.v c.closed).2
  · rw [h6.sum_eq]
    clear h0 h1 h2 h3 h4 h5 h6
    induction cs with
    | nil => rfl
    | cons c cs ih =>
      rw [List.map_cons, List.sum_cons, ih, List.flatMap_cons, List.map_append, List.sum_append]
      rfl

namespace VP

/-- a tetrahedron with one vertex on the horizontal plane, one above and two below -/
def leaning : Mesh ℝ := ⟨[⟨0, 0, 0⟩, ⟨1, 0, 1⟩, ⟨0, 1, -1⟩, ⟨-1, -1, -1⟩], tetra.f⟩

theorem leaning_ok : ValidFaces leaning ∧ (∀ f ∈ leaning.f, ProperFace f) ∧ (∀ f ∈ leaning.f, ¬ InPlane ground leaning.v f) ∧
    ClosedMesh leaning ∧ EdgeManifold leaning := by
  refine ⟨tetra_ok.1, tetra_ok.2.1, ?_, tetra_closed, tetra_ok.2.2.2.1⟩
  intro f hf h
  simp only [leaning, tetra, List.mem_cons, List.not_mem_nil, or_false] at hf
  have h2 : corner f 2 = true → False := fun hc => by
    have := h 2 hc ⟨0, 1, -1⟩ rfl
    norm_num [onPlane_iff, ground, height, inner3, vec3] at this
  have h3 : corner f 3 = true → False := fun hc => by
    have := h 3 hc ⟨-1, -1, -1⟩ rfl
    norm_num [onPlane_iff, ground, height, inner3, vec3] at this
  rcases hf with rfl | rfl | rfl | rfl <;> simp [corner] at h2 h3

end VP

/-- **C138.** The cross-section of a closed mesh can be incomplete: of this tetrahedron with one vertex on the plane the
point `(1/4, 1/4, 0)` of the surface and the plane is on none of the returned polylines, whichever choices are made; with the
faces listed from other corners it is. -/
theorem C138_witness (ver : PyVer) (pk : ℕ → Picker) (ko : ℕ → KeyOrder) :
    ∃ cs cs', ground.meshXsections ver pk ko leaning = .ok cs ∧
      ground.meshXsections ver pk ko ⟨leaning.v, [(1, 2, 0), (0, 2, 3), (3, 1, 0), (1, 3, 2)]⟩ = .ok cs' ∧
      OnPlane ground ⟨1 / 4, 1 / 4, 0⟩ ∧ OnSurface leaning ⟨1 / 4, 1 / 4, 0⟩ ∧
      (¬ ∃ c ∈ cs, OnChain c.v c.closed ⟨1 / 4, 1 / 4, 0⟩) ∧ ∃ c ∈ cs', OnChain c.v c.closed ⟨1 / 4, 1 / 4, 0⟩ := by
  obtain ⟨h1, h2, h3, h4, h5⟩ := leaning_ok
  obtain ⟨cs, k1, -, k2⟩ := C138_points ver pk ko ground leaning h1 h2 h3 h5 h4.2
  have hT : leaning.f.map (fun f => if f = (0, 1, 2) ∨ f = (0, 3, 1) then turnFace f else f) =
      [(1, 2, 0), (0, 2, 3), (3, 1, 0), (1, 3, 2)] := by decide
  have hq : OnPlane ground ⟨1 / 4, 1 / 4, 0⟩ := by norm_num [onPlane_iff, ground, height, inner3, vec3]
  have hs : OnSurface leaning ⟨1 / 4, 1 / 4, 0⟩ := ⟨(0, 1, 2), by simp [leaning, tetra], ⟨0, 0, 0⟩, ⟨1, 0, 1⟩, ⟨0, 1, -1⟩, rfl, rfl, rfl,
    1 / 4, 1 / 4, by norm_num, by norm_num, by norm_num, by ext <;> norm_num [along, vec3]⟩
  obtain ⟨cs', k1', -, k2'⟩ := C138_listing ver pk ko ground leaning
    (fun f => if f = (0, 1, 2) ∨ f = (0, 3, 1) then turnFace f else f) h1 h2 h3 h5 h4.2 (by
      intro f _
      show SameCorners f (if f = (0, 1, 2) ∨ f = (0, 3, 1) then turnFace f else f)
      split
      · exact sameCorners_turn f
      · exact fun _ => rfl) (by
      intro f hf
      simp only [leaning, tetra, List.mem_cons, List.not_mem_nil, or_false] at hf
      rcases hf with rfl | rfl | rfl | rfl <;> rintro ⟨⟨a, ha, hpa⟩, b, c, hb, hc, hbc⟩ <;>
        simp [leaning, turnFace] at ha hb hc <;> subst ha hb hc <;>
        first
        | (norm_num [onPlane_iff, ground, height, inner3, vec3] at hpa; done)
        | (norm_num [onPlane_iff, ground, height, inner3, vec3] at hbc; done))
  rw [hT] at k1'
  refine ⟨cs, cs', k1, k1', hq, hs, ?_, (k2' _).mpr ⟨hq, hs⟩⟩
  rw [k2]
  rintro ⟨_, f, hf, hf1, hf2⟩
  simp only [leaning, tetra, List.mem_cons, List.not_mem_nil, or_false] at hf
  have pin : ∀ (f : ℕ × ℕ × ℕ), Pinched ground leaning.v f → f.1 = 0 → (Pinched ground leaning.v f → leaning.v[f.1]? = some ⟨1 / 4, 1 / 4, 0⟩) →
      False := by
    intro f h h0 k
    have := k h
    rw [h0] at this
    simp [leaning] at this
  rcases hf with rfl | rfl | rfl | rfl
  · refine pin (0, 1, 2) ⟨⟨_, rfl, ?_⟩, _, _, rfl, rfl, ?_⟩ rfl hf2 <;> norm_num [onPlane_iff, ground, height, inner3, vec3]
  · obtain ⟨a, b, c, ha, hb, hc, s, t, s0, t0, _, e⟩ := hf1
    simp [leaning] at ha hb hc
    subst ha hb hc
    have := congrArg V3.z e
    have := congrArg V3.x e
    simp [along, vec3] at *
    linarith
  · refine pin (0, 3, 1) ⟨⟨_, rfl, ?_⟩, _, _, rfl, rfl, ?_⟩ rfl hf2 <;> norm_num [onPlane_iff, ground, height, inner3, vec3]
  · obtain ⟨a, b, c, ha, hb, hc, s, t, s0, t0, _, e⟩ := hf1
    simp [leaning] at ha hb hc
    subst ha hb hc
    have e1 := congrArg V3.z e
    have e2 := congrArg V3.x e
    have e3 := congrArg V3.y e
    simp [along, vec3] at e1 e2 e3
    linarith

end Blmath.Props
