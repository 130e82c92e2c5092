import Verif.Props.ConvexSlice
import Verif.Props.SolidSlice
import Verif.Props.Shapes
import Mathlib.Analysis.LocallyConvex.Separation
import Mathlib.Analysis.Convex.Topology

/-!
Property C132: cross-sections of convex solids whose faces may be coplanar; prisms.
-/

namespace Blmath.Props
open Blmath.Geometry Blmath.Spec Blmath.Proofs Blmath.Vx Blmath.TM

namespace FS
open CX

/-- `u → v → w` are the corners of a face, in its order -/
def Round3 (m : Mesh ℝ) (u v w : ℕ) : Prop := (u, v, w) ∈ m.f ∨ (v, w, u) ∈ m.f ∨ (w, u, v) ∈ m.f

/-- the two edges of a face that are crossed: the one that goes down, then the one that goes up -/
def Fwd (pl : Plane ℝ) (m : Mesh ℝ) (e e' : ℕ × ℕ) : Prop :=
  ∃ u v w a b c, Round3 m u v w ∧ m.v[u]? = some a ∧ m.v[v]? = some b ∧ m.v[w]? = some c ∧
    ((0 < height pl a ∧ height pl b < 0 ∧ height pl c < 0 ∧ e = Blmath.CH.ek u v ∧ e' = Blmath.CH.ek w u) ∨
     (height pl a < 0 ∧ 0 < height pl b ∧ 0 < height pl c ∧ e = Blmath.CH.ek w u ∧ e' = Blmath.CH.ek u v))

theorem Round3.rot {m : Mesh ℝ} {u v w : ℕ} (h : Round3 m u v w) : Round3 m v w u := by
  unfold Round3 at *; tauto

theorem opp_ek {pl : Plane ℝ} {m : Mesh ℝ} {u v : ℕ} {a b : V3 ℝ} (ha : m.v[u]? = some a) (hb : m.v[v]? = some b)
    (h : Opposite pl m.v (Blmath.CH.ek u v).1 (Blmath.CH.ek u v).2) : height pl a * height pl b < 0 := by
  obtain ⟨x, y, hx, hy, hxy⟩ := h
  unfold Blmath.CH.ek at hx hy
  rcases le_total u v with h | h
  · rw [min_eq_left h] at hx
    rw [max_eq_right h] at hy
    rw [ha] at hx; rw [hb] at hy
    injection hx with hx; injection hy with hy
    subst hx hy
    exact hxy
  · rw [min_eq_right h] at hx
    rw [max_eq_left h] at hy
    rw [hb] at hx; rw [ha] at hy
    injection hx with hx; injection hy with hy
    subst hx hy
    linarith

theorem ek_comm (u v : ℕ) : Blmath.CH.ek u v = Blmath.CH.ek v u := by
  unfold Blmath.CH.ek; rw [min_comm, max_comm]

theorem lone {pl : Plane ℝ} {m : Mesh ℝ} {u v w : ℕ} {a b c : V3 ℝ} (hr : Round3 m u v w) (ha : m.v[u]? = some a)
    (hb : m.v[v]? = some b) (hc : m.v[w]? = some c) (h1 : height pl a * height pl b < 0) (h2 : height pl a * height pl c < 0) :
    Fwd pl m (Blmath.CH.ek u v) (Blmath.CH.ek w u) ∨ Fwd pl m (Blmath.CH.ek w u) (Blmath.CH.ek u v) := by
  rcases lt_trichotomy (height pl a) 0 with h | h | h
  · right
    refine ⟨u, v, w, a, b, c, hr, ha, hb, hc, .inr ⟨h, ?_, ?_, rfl, rfl⟩⟩ <;> nlinarith
  · rw [h] at h1; simp at h1
  · left
    refine ⟨u, v, w, a, b, c, hr, ha, hb, hc, .inl ⟨h, ?_, ?_, rfl, rfl⟩⟩ <;> nlinarith

/-- linked edges are passed in one direction or the other -/
theorem fwd_or {pl : Plane ℝ} {m : Mesh ℝ} (hv : ValidFaces m) {e e' : ℕ × ℕ} (h : Linked pl m e e') :
    Fwd pl m e e' ∨ Fwd pl m e' e := by
  obtain ⟨hne, ce, ce', ⟨x, y, z⟩, hf, fe, fe'⟩ := h
  obtain ⟨vx, vy, vz⟩ := hv _ hf
  obtain ⟨a, ha⟩ : ∃ a, m.v[x]? = some a := ⟨_, List.getElem?_eq_getElem vx⟩
  obtain ⟨b, hb⟩ : ∃ a, m.v[y]? = some a := ⟨_, List.getElem?_eq_getElem vy⟩
  obtain ⟨c, hc⟩ : ∃ a, m.v[z]? = some a := ⟨_, List.getElem?_eq_getElem vz⟩
  have r1 : Round3 m x y z := .inl hf
  have r2 := r1.rot
  have r3 := r2.rot
  have c1 := Blmath.CH.edge_cases fe ce.1
  have c2 := Blmath.CH.edge_cases fe' ce'.1
  have o1 := ce.2.2
  have o2 := ce'.2.2
  simp only at c1 c2
  rcases c1 with rfl | rfl | rfl <;> rcases c2 with rfl | rfl | rfl
  · exact absurd rfl hne
  · rw [ek_comm x z] at *
    have := opp_ek hc ha o2
    exact lone r1 ha hb hc (opp_ek ha hb o1) (by linarith)
  · have := opp_ek ha hb o1
    exact (lone r2 hb hc ha (opp_ek hb hc o2) (by linarith)).symm
  · rw [ek_comm x z] at *
    have := opp_ek hc ha o1
    exact (lone r1 ha hb hc (opp_ek ha hb o2) (by linarith)).symm
  · exact absurd rfl hne
  · rw [ek_comm x z] at *
    have := opp_ek hb hc o2
    exact lone r3 hc ha hb (opp_ek hc ha o1) (by linarith)
  · have := opp_ek ha hb o2
    exact lone r2 hb hc ha (opp_ek hb hc o1) (by linarith)
  · rw [ek_comm x z] at *
    have := opp_ek hb hc o1
    exact (lone r3 hc ha hb (opp_ek hc ha o2) (by linarith)).symm
  · exact absurd rfl hne

/-- the edge goes up in some face that also has the other edge -/
def Up (pl : Plane ℝ) (m : Mesh ℝ) (e : ℕ × ℕ) (r s : ℕ) : Prop :=
  e = Blmath.CH.ek r s ∧ ∃ a b, m.v[r]? = some a ∧ m.v[s]? = some b ∧ height pl a < 0 ∧ 0 < height pl b

theorem up_unique {pl : Plane ℝ} {m : Mesh ℝ} {e : ℕ × ℕ} {r s r' s' : ℕ} (h : Up pl m e r s) (h' : Up pl m e r' s') :
    r = r' ∧ s = s' := by
  obtain ⟨he, a, b, ha, hb, h1, h2⟩ := h
  obtain ⟨he', a', b', ha', hb', h1', h2'⟩ := h'
  rw [he] at he'
  have : (r = r' ∧ s = s') ∨ (r = s' ∧ s = r') := by
    simp only [Blmath.CH.ek, Prod.mk.injEq] at he'
    omega
  rcases this with h | ⟨rfl, rfl⟩
  · exact h
  · rw [ha] at hb'
    injection hb' with hb'
    subst hb'
    linarith

theorem cor (f : ℕ × ℕ × ℕ) (u v : ℕ) (h1 : corner f u = true) (h2 : corner f v = true) (p : ℕ × ℕ)
    (hp : Blmath.CH.ek u v = Blmath.CH.ek p.1 p.2) : corner f p.1 = true ∧ corner f p.2 = true := by
  have : (u = p.1 ∧ v = p.2) ∨ (u = p.2 ∧ v = p.1) := by
    simp only [Blmath.CH.ek, Prod.mk.injEq] at hp
    omega
  rcases this with ⟨rfl, rfl⟩ | ⟨rfl, rfl⟩
  · exact ⟨h1, h2⟩
  · exact ⟨h2, h1⟩

/-- the face of a passage, with the edge that goes up in it -/
theorem Fwd.up {pl : Plane ℝ} {m : Mesh ℝ} {e e' : ℕ × ℕ} (h : Fwd pl m e e') :
    ∃ r s, Up pl m e' r s ∧ ∃ f ∈ m.f, (r, s) ∈ [(f.1, f.2.1), (f.2.1, f.2.2), (f.2.2, f.1)] ∧
      ∀ u : ℕ × ℕ, e = Blmath.CH.ek u.1 u.2 → corner f u.1 = true ∧ corner f u.2 = true := by
  obtain ⟨u, v, w, a, b, c, hr, ha, hb, hc, h⟩ := h
  rcases h with ⟨h1, h2, h3, rfl, rfl⟩ | ⟨h1, h2, h3, rfl, rfl⟩
  · refine ⟨w, u, ⟨rfl, c, a, hc, ha, h3, h1⟩, ?_⟩
    rcases hr with hr | hr | hr
    · exact ⟨_, hr, by simp, cor _ _ _ (by simp [corner]) (by simp [corner])⟩
    · exact ⟨_, hr, by simp, cor _ _ _ (by simp [corner]) (by simp [corner])⟩
    · exact ⟨_, hr, by simp, cor _ _ _ (by simp [corner]) (by simp [corner])⟩
  · refine ⟨u, v, ⟨rfl, a, b, ha, hb, h1, h2⟩, ?_⟩
    rcases hr with hr | hr | hr
    · exact ⟨_, hr, by simp, cor _ _ _ (by simp [corner]) (by simp [corner])⟩
    · exact ⟨_, hr, by simp, cor _ _ _ (by simp [corner]) (by simp [corner])⟩
    · exact ⟨_, hr, by simp, cor _ _ _ (by simp [corner]) (by simp [corner])⟩

theorem same_of_directed {fs : List (ℕ × ℕ × ℕ)} (h : (directedEdges fs).Nodup) {f g : ℕ × ℕ × ℕ} (hf : f ∈ fs) (hg : g ∈ fs)
    {p : ℕ × ℕ} (h1 : p ∈ [(f.1, f.2.1), (f.2.1, f.2.2), (f.2.2, f.1)]) (h2 : p ∈ [(g.1, g.2.1), (g.2.1, g.2.2), (g.2.2, g.1)]) :
    f = g := by
  by_contra hne
  unfold directedEdges at h
  rw [List.nodup_flatMap] at h
  obtain ⟨i, hi⟩ := List.mem_iff_getElem?.mp hf
  obtain ⟨j, hj⟩ := List.mem_iff_getElem?.mp hg
  obtain ⟨li, rfl⟩ := List.getElem?_eq_some_iff.mp hi
  obtain ⟨lj, rfl⟩ := List.getElem?_eq_some_iff.mp hj
  have hp := List.pairwise_iff_getElem.mp h.2
  rcases lt_trichotomy i j with hij | rfl | hij
  · exact hp i j li lj hij h1 h2
  · exact hne rfl
  · exact hp j i lj li hij h2 h1

/-- the face of a passage, with the edge that goes down in it -/
theorem Fwd.down {pl : Plane ℝ} {m : Mesh ℝ} {e e' : ℕ × ℕ} (h : Fwd pl m e e') :
    ∃ r s, Up pl m e s r ∧ ∃ f ∈ m.f, (r, s) ∈ [(f.1, f.2.1), (f.2.1, f.2.2), (f.2.2, f.1)] ∧
      ∀ u : ℕ × ℕ, e' = Blmath.CH.ek u.1 u.2 → corner f u.1 = true ∧ corner f u.2 = true := by
  obtain ⟨u, v, w, a, b, c, hr, ha, hb, hc, h⟩ := h
  rcases h with ⟨h1, h2, h3, rfl, rfl⟩ | ⟨h1, h2, h3, rfl, rfl⟩
  · refine ⟨u, v, ⟨ek_comm _ _, b, a, hb, ha, h2, h1⟩, ?_⟩
    rcases hr with hr | hr | hr
    · exact ⟨_, hr, by simp, cor _ _ _ (by simp [corner]) (by simp [corner])⟩
    · exact ⟨_, hr, by simp, cor _ _ _ (by simp [corner]) (by simp [corner])⟩
    · exact ⟨_, hr, by simp, cor _ _ _ (by simp [corner]) (by simp [corner])⟩
  · refine ⟨w, u, ⟨ek_comm _ _, a, c, ha, hc, h1, h3⟩, ?_⟩
    rcases hr with hr | hr | hr
    · exact ⟨_, hr, by simp, cor _ _ _ (by simp [corner]) (by simp [corner])⟩
    · exact ⟨_, hr, by simp, cor _ _ _ (by simp [corner]) (by simp [corner])⟩
    · exact ⟨_, hr, by simp, cor _ _ _ (by simp [corner]) (by simp [corner])⟩

/-- two faces with the same directed edge are the same, and have no third crossed edge -/
theorem clash {pl : Plane ℝ} {m : Mesh ℝ} (hw : (directedEdges m.f).Nodup) {e e' e'' : ℕ × ℕ} (hl : Linked pl m e e')
    (hl' : Linked pl m e' e'') (hne : e ≠ e'') {r s : ℕ} (he : e' = Blmath.CH.ek r s) {f g : ℕ × ℕ × ℕ} (hf : f ∈ m.f) (hg : g ∈ m.f)
    (hd : (r, s) ∈ [(f.1, f.2.1), (f.2.1, f.2.2), (f.2.2, f.1)]) (hd' : (r, s) ∈ [(g.1, g.2.1), (g.2.1, g.2.2), (g.2.2, g.1)])
    (hc : ∀ u : ℕ × ℕ, e = Blmath.CH.ek u.1 u.2 → corner f u.1 = true ∧ corner f u.2 = true)
    (hc' : ∀ u : ℕ × ℕ, e'' = Blmath.CH.ek u.1 u.2 → corner g u.1 = true ∧ corner g u.2 = true) : False := by
  have := same_of_directed hw hf hg hd hd'
  subst this
  have self : ∀ {e : ℕ × ℕ}, CrossedEdge pl m e → e = Blmath.CH.ek e.1 e.2 := by
    intro e he
    have := he.1
    unfold Blmath.CH.ek
    rw [min_eq_left this.le, max_eq_right this.le]
  have edge : ∀ {e : ℕ × ℕ}, CrossedEdge pl m e → (corner f e.1 = true ∧ corner f e.2 = true) → hasEdge f e.1 e.2 = true := by
    intro e he hc
    simp [hasEdge, hc.1, hc.2, he.1.ne]
  have fe := edge hl.2.1 (hc _ (self hl.2.1))
  have fe'' := edge hl'.2.2.1 (hc' _ (self hl'.2.2.1))
  have hrs : corner f r = true ∧ corner f s = true := by
    simp only [List.mem_cons, Prod.mk.injEq, List.not_mem_nil, or_false] at hd
    rcases hd with ⟨rfl, rfl⟩ | ⟨rfl, rfl⟩ | ⟨rfl, rfl⟩ <;> simp [corner]
  have fe' : hasEdge f e'.1 e'.2 = true := edge hl.2.2.1 (cor f r s hrs.1 hrs.2 e' (he.symm.trans (self hl.2.2.1)))
  exact hne (Blmath.CH.third hl.2.2.1 hl.2.1 hl'.2.2.1 fe' fe fe'' hl.1.symm hl'.1)

/-- the direction is kept from face to face -/
theorem Fwd.next {pl : Plane ℝ} {m : Mesh ℝ} (hv : ValidFaces m) (hw : (directedEdges m.f).Nodup) {e e' e'' : ℕ × ℕ}
    (h : Fwd pl m e e') (hl : Linked pl m e e') (hl' : Linked pl m e' e'') (hne : e ≠ e'') : Fwd pl m e' e'' := by
  rcases fwd_or hv hl' with h' | h'
  · exact h'
  · exfalso
    obtain ⟨r, s, hu, f, hf, hd, hc⟩ := h.up
    obtain ⟨r', s', hu', g, hg, hd', hc'⟩ := h'.up
    obtain ⟨rfl, rfl⟩ := up_unique hu hu'
    exact clash hw hl hl' hne hu.1 hf hg hd hd' hc hc'

/-- and so backwards -/
theorem Fwd.prev {pl : Plane ℝ} {m : Mesh ℝ} (hv : ValidFaces m) (hw : (directedEdges m.f).Nodup) {e e' e'' : ℕ × ℕ}
    (h : Fwd pl m e' e) (hl : Linked pl m e e') (hl' : Linked pl m e' e'') (hne : e ≠ e'') : Fwd pl m e'' e' := by
  rcases fwd_or hv hl' with h' | h'
  · exfalso
    obtain ⟨r, s, hu, f, hf, hd, hc⟩ := h.down
    obtain ⟨r', s', hu', g, hg, hd', hc'⟩ := h'.down
    obtain ⟨rfl, rfl⟩ := up_unique hu hu'
    exact clash hw hl hl' hne (hu.1.trans (ek_comm _ _)) hf hg hd hd' hc hc'
  · exact h'

/-- where an edge with a given start crosses -/
theorem point_on {pl : Plane ℝ} {m : Mesh ℝ} {u v : ℕ} {a b x : V3 ℝ} (ha : m.v[u]? = some a) (hb : m.v[v]? = some b)
    (hx : CrossPoint pl m (Blmath.CH.ek u v) x) (h : height pl a * height pl b < 0) :
    ∃ t, 0 < t ∧ t < 1 ∧ x = along a t (vec3 a b) ∧ (1 - t) * height pl a + t * height pl b = 0 := by
  obtain ⟨a', b', ha', hb', hon, t, t0, t1, rfl⟩ := hx
  have key : ∃ r, 0 ≤ r ∧ r ≤ 1 ∧ along a' t (vec3 a' b') = along a r (vec3 a b) ∧ OnPlane pl (along a r (vec3 a b)) := by
    unfold Blmath.CH.ek at ha' hb'
    rcases le_total u v with h | h
    · rw [min_eq_left h, ha] at ha'
      rw [max_eq_right h, hb] at hb'
      injection ha' with ha'; injection hb' with hb'
      subst ha' hb'
      exact ⟨t, t0, t1, rfl, hon⟩
    · rw [min_eq_right h, hb] at ha'
      rw [max_eq_left h, ha] at hb'
      injection ha' with ha'; injection hb' with hb'
      subst ha' hb'
      have e : along b t (vec3 b a) = along a (1 - t) (vec3 a b) := by
        ext <;> simp only [along, vec3] <;> ring
      exact ⟨1 - t, by linarith, by linarith, e, e ▸ hon⟩
  clear hon
  obtain ⟨r, r0, r1, e, hon⟩ := key
  rw [e]
  clear e t0 t1
  clear t
  rename' r => t, r0 => t0, r1 => t1
  rw [onPlane_iff] at hon
  have hh : height pl (along a t (vec3 a b)) = (1 - t) * height pl a + t * height pl b := by
    simp only [height, along, vec3, inner3]; ring
  rw [hh] at hon
  refine ⟨t, lt_of_le_of_ne t0 ?_, lt_of_le_of_ne t1 ?_, rfl, hon⟩
  · rintro rfl
    have : height pl a = 0 := by linarith
    rw [this] at h; simp at h
  · rintro rfl
    have : height pl b = 0 := by linarith
    rw [this] at h; simp at h

/-- the side of the chord of a face, read off the plane of the face -/
theorem chord_side {pl : Plane ℝ} {a b c z : V3 ℝ} {s t : ℝ} (ht : (1 - t) * height pl a + t * height pl b = 0)
    (hs : (1 - s) * height pl a + s * height pl c = 0) (hz : OnPlane pl z) :
    Blmath.TM.turn pl.n (along a t (vec3 a b)) (along a s (vec3 a c)) z * height pl a =
      -(s * t * inner3 pl.n pl.n * inner3 (cross3 (vec3 a b) (vec3 a c)) (vec3 a z)) := by
  rw [onPlane_iff] at hz
  obtain ⟨B, hB⟩ : ∃ B, B = vec3 a b := ⟨_, rfl⟩
  obtain ⟨C, hC⟩ : ∃ C, C = vec3 a c := ⟨_, rfl⟩
  obtain ⟨Z, hZ⟩ : ∃ Z, Z = vec3 a z := ⟨_, rfl⟩
  have e1 : t * inner3 pl.n B = -height pl a := by
    rw [hB]; simp only [height, inner3, vec3] at ht ⊢; linarith
  have e2 : s * inner3 pl.n C = -height pl a := by
    rw [hC]; simp only [height, inner3, vec3] at hs ⊢; linarith
  have e3 : inner3 pl.n Z = -height pl a := by
    rw [hZ]; simp only [height, inner3, vec3] at hz ⊢; linarith
  have e4 : Blmath.TM.turn pl.n (along a t (vec3 a b)) (along a s (vec3 a c)) z =
      det3 pl.n (⟨s * C.x - t * B.x, s * C.y - t * B.y, s * C.z - t * B.z⟩) ⟨Z.x - t * B.x, Z.y - t * B.y, Z.z - t * B.z⟩ := by
    rw [hB, hC, hZ]
    simp only [Blmath.TM.turn, det3, inner3, cross3, vec3, along]; ring
  rw [e4, ← hB, ← hC, ← hZ]
  generalize height pl a = h at *
  generalize pl.n = n at *
  clear e4 hB hC hZ ht hs hz
  have key : inner3 n n * inner3 (cross3 B C) Z = inner3 n B * det3 n C Z - inner3 n C * det3 n B Z + inner3 n Z * det3 n B C := by
    simp only [det3, inner3, cross3]; ring
  have e5 : det3 n (⟨s * C.x - t * B.x, s * C.y - t * B.y, s * C.z - t * B.z⟩) ⟨Z.x - t * B.x, Z.y - t * B.y, Z.z - t * B.z⟩ =
      s * det3 n C Z - t * det3 n B Z + s * t * det3 n B C := by
    simp only [det3, inner3, cross3]; ring
  rw [e5]
  linear_combination (s * t) * key + (s * det3 n C Z) * e1 - t * det3 n B Z * e2 + s * t * det3 n B C * e3

theorem outward {m : Mesh ℝ} (ho : OutwardMesh m) {u v w : ℕ} {a b c : V3 ℝ} (hr : Round3 m u v w) (ha : m.v[u]? = some a)
    (hb : m.v[v]? = some b) (hc : m.v[w]? = some c) :
    (∀ p ∈ m.v, inner3 (cross3 (vec3 a b) (vec3 a c)) (vec3 a p) ≤ 0) ∧
    ∃ p ∈ m.v, inner3 (cross3 (vec3 a b) (vec3 a c)) (vec3 a p) < 0 := by
  have r1 : ∀ p, inner3 (cross3 (vec3 b c) (vec3 b a)) (vec3 b p) = inner3 (cross3 (vec3 a b) (vec3 a c)) (vec3 a p) := by
    intro p; simp only [inner3, cross3, vec3]; ring
  have r2 : ∀ p, inner3 (cross3 (vec3 c a) (vec3 c b)) (vec3 c p) = inner3 (cross3 (vec3 a b) (vec3 a c)) (vec3 a p) := by
    intro p; simp only [inner3, cross3, vec3]; ring
  rcases hr with hr | hr | hr
  · exact ho.2 _ hr (a, b, c) (by simp [Spec.corners, ha, hb, hc])
  · have := ho.2 _ hr (b, c, a) (by simp [Spec.corners, ha, hb, hc])
    simp only [Behind, r1] at this
    exact this
  · have := ho.2 _ hr (c, a, b) (by simp [Spec.corners, ha, hb, hc])
    simp only [Behind, r2] at this
    exact this

theorem inner_split (w a p : V3 ℝ) : inner3 w (vec3 a p) = inner3 w p - inner3 w a := by
  simp only [inner3, vec3]; ring

/-- a point of the section strictly inside the face -/
theorem strict_point {pl : Plane ℝ} {m : Mesh ℝ} (hoff : ∀ p ∈ m.v, ¬ OnPlane pl p) {a b p w : V3 ℝ} (ha : a ∈ m.v) (hb : b ∈ m.v)
    (hp : p ∈ m.v) (hab : height pl a * height pl b < 0) (hwb : inner3 w (vec3 a b) = 0) (hw : inner3 w (vec3 a p) < 0) :
    ∃ z, OnPlane pl z ∧ InHull3 m.v z ∧ inner3 w (vec3 a z) < 0 := by
  have hp0 : height pl p ≠ 0 := fun h => hoff p hp ((onPlane_iff pl p).mpr h)
  obtain ⟨g, hg, hgp, hwg⟩ : ∃ g ∈ m.v, height pl g * height pl p < 0 ∧ inner3 w (vec3 a g) = 0 := by
    by_cases h : height pl a * height pl p < 0
    · exact ⟨a, ha, h, by simp only [inner3, vec3]; ring⟩
    · refine ⟨b, hb, ?_, hwb⟩
      have ha0 : height pl a ≠ 0 := by intro h; rw [h] at hab; simp at hab
      have h1 : 0 < height pl a * height pl p := lt_of_le_of_ne (not_lt.mp h) (mul_ne_zero ha0 hp0).symm
      have h3 := mul_neg_of_neg_of_pos hab h1
      have e3 : height pl a * height pl b * (height pl a * height pl p) = height pl b * height pl p * (height pl a * height pl a) := by ring
      rw [e3] at h3
      exact neg_of_mul_neg_left h3 (mul_self_nonneg _)
  have hd : height pl g - height pl p ≠ 0 := by
    intro h
    have : height pl g = height pl p := by linarith
    rw [this] at hgp
    nlinarith [mul_self_nonneg (height pl p)]
  have t0 : 0 < height pl g / (height pl g - height pl p) := by
    have : height pl g / (height pl g - height pl p) = (height pl g * height pl g - height pl g * height pl p) /
        ((height pl g - height pl p) * (height pl g - height pl p)) := by
      field_simp
    rw [this]
    exact div_pos (by nlinarith [mul_self_nonneg (height pl g)]) (mul_self_pos.mpr hd)
  have t1 : 0 < 1 - height pl g / (height pl g - height pl p) := by
    have : 1 - height pl g / (height pl g - height pl p) = (height pl p * height pl p - height pl g * height pl p) /
        ((height pl g - height pl p) * (height pl g - height pl p)) := by
      field_simp
      ring
    rw [this]
    exact div_pos (by nlinarith [mul_self_nonneg (height pl p)]) (mul_self_pos.mpr hd)
  have tt : height pl g / (height pl g - height pl p) * (height pl g - height pl p) = height pl g := div_mul_cancel₀ _ hd
  generalize height pl g / (height pl g - height pl p) = t at *
  refine ⟨along g t (vec3 g p), ?_, ?_, ?_⟩
  · rw [onPlane_iff]
    have hh : height pl (along g t (vec3 g p)) = (1 - t) * height pl g + t * height pl p := by
      simp only [height, along, vec3, inner3]; ring
    rw [hh]; linarith
  · refine inHull_mix (inHull_self hg) (inHull_self hp) (a := 1 - t) (b := t) t1.le t0.le (by ring) ?_ ?_ ?_ <;>
      simp only [along, vec3] <;> ring
  · have : inner3 w (vec3 a (along g t (vec3 g p))) = (1 - t) * inner3 w (vec3 a g) + t * inner3 w (vec3 a p) := by
      simp only [along, vec3, inner3]; ring
    rw [this, hwg]
    nlinarith

/-- a chord passed forward has the whole section to its left -/
theorem Fwd.left {pl : Plane ℝ} {m : Mesh ℝ} (hn : pl.n ≠ zero3) (ho : OutwardMesh m) (hoff : ∀ p ∈ m.v, ¬ OnPlane pl p)
    {e e' : ℕ × ℕ} {x y : V3 ℝ} (h : Fwd pl m e e') (hx : CrossPoint pl m e x) (hy : CrossPoint pl m e' y) :
    (∀ z, OnPlane pl z → InHull3 m.v z → 0 ≤ Blmath.TM.turn pl.n x y z) ∧
    ∃ z, OnPlane pl z ∧ InHull3 m.v z ∧ 0 < Blmath.TM.turn pl.n x y z := by
  obtain ⟨u, v, w, a, b, c, hr, ha, hb, hc, h⟩ := h
  obtain ⟨hle, p, hp, hlt⟩ := outward ho hr ha hb hc
  have hz : ∀ z, InHull3 m.v z → inner3 (cross3 (vec3 a b) (vec3 a c)) (vec3 a z) ≤ 0 := by
    intro z hz
    rw [inner_split, sub_nonpos]
    refine hull_bound hz fun p hp => ?_
    have := hle p hp
    rw [inner_split] at this
    linarith
  have hab : height pl a * height pl b < 0 := by
    rcases h with ⟨h1, h2, -⟩ | ⟨h1, h2, -⟩ <;> nlinarith
  have hac : height pl a * height pl c < 0 := by
    rcases h with ⟨h1, -, h2, -⟩ | ⟨h1, -, h2, -⟩ <;> nlinarith
  obtain ⟨z, hzp, hzh, hzs⟩ := strict_point hoff (List.mem_of_getElem? ha) (List.mem_of_getElem? hb) hp hab
    (w := cross3 (vec3 a b) (vec3 a c)) (by simp only [inner3, cross3, vec3]; ring) hlt
  have hnn := inner_self_pos hn
  rcases h with ⟨h1, -, -, rfl, rfl⟩ | ⟨h1, -, -, rfl, rfl⟩
  · obtain ⟨t, t0, t1, rfl, ht⟩ := point_on ha hb hx hab
    obtain ⟨s, s0, s1, rfl, hs⟩ := point_on ha hc (ek_comm w u ▸ hy) hac
    have key := fun z hz => chord_side (z := z) ht hs hz
    have pos : 0 < s * t * inner3 pl.n pl.n := by positivity
    constructor
    · intro q hq hqh
      have k1 := key q hq
      have k2 := hz q hqh
      by_contra hc
      have := mul_neg_of_neg_of_pos (not_le.mp hc) h1
      nlinarith
    · refine ⟨z, hzp, hzh, ?_⟩
      have k1 := key z hzp
      refine pos_left (b := height pl a) ?_ h1.le
      nlinarith
  · obtain ⟨t, t0, t1, rfl, ht⟩ := point_on ha hb hy hab
    obtain ⟨s, s0, s1, rfl, hs⟩ := point_on ha hc (ek_comm w u ▸ hx) hac
    have key := fun z hz => chord_side (z := z) ht hs hz
    have pos : 0 < s * t * inner3 pl.n pl.n := by positivity
    have sw : ∀ q, Blmath.TM.turn pl.n (along a s (vec3 a c)) (along a t (vec3 a b)) q =
        -Blmath.TM.turn pl.n (along a t (vec3 a b)) (along a s (vec3 a c)) q := by
      intro q; simp only [Blmath.TM.turn, det3, inner3, cross3, vec3]; ring
    constructor
    · intro q hq hqh
      rw [sw]
      have k1 := key q hq
      have k2 := hz q hqh
      by_contra hc
      have : 0 < Blmath.TM.turn pl.n (along a t (vec3 a b)) (along a s (vec3 a c)) q := by linarith
      have := mul_neg_of_pos_of_neg this h1
      nlinarith
    · refine ⟨z, hzp, hzh, ?_⟩
      rw [sw]
      have k1 := key z hzp
      refine pos_left (b := -height pl a) ?_ (by linarith)
      nlinarith

/-- separation of a point from the hull of points -/
theorem separate {l : List (V3 ℝ)} {q : V3 ℝ} (h : ¬ InHull3 l q) : ∃ w, ∀ p ∈ l, inner3 w p < inner3 w q := by
  rw [inHull_iff] at h
  have hfin : (pts l).Finite := by
    have : pts l ⊆ Set.range (fun i : Fin l.length => co l[i]) := by
      rintro _ ⟨p, hp, rfl⟩
      obtain ⟨i, hi, rfl⟩ := List.mem_iff_getElem.mp hp
      exact ⟨⟨i, hi⟩, rfl⟩
    exact (Set.finite_range _).subset this
  obtain ⟨f, u, hf, hu⟩ := geometric_hahn_banach_closed_point (convex_convexHull ℝ (pts l)) (hfin.isClosed_convexHull ℝ) h
  refine ⟨⟨f (1, 0, 0), f (0, 1, 0), f (0, 0, 1)⟩, fun p hp => ?_⟩
  have e : ∀ p : V3 ℝ, inner3 ⟨f (1, 0, 0), f (0, 1, 0), f (0, 0, 1)⟩ p = f (co p) := by
    intro p
    have : co p = p.x • ((1, 0, 0) : ℝ × ℝ × ℝ) + p.y • ((0, 1, 0) : ℝ × ℝ × ℝ) + p.z • ((0, 0, 1) : ℝ × ℝ × ℝ) := by
      simp [co]
    rw [this, map_add, map_add, map_smul, map_smul, map_smul]
    simp only [inner3, smul_eq_mul]; ring
  rw [e, e]
  exact (hf _ (subset_convexHull ℝ _ ⟨p, hp, rfl⟩)).trans hu

/-- a loop with a figure to its left goes round every point of it -/
theorem covers {n : V3 ℝ} {c : ℝ} {k : ℕ} {X : ℕ → V3 ℝ} {q z w : V3 ℝ} (hn : n ≠ zero3) (hX : ∀ i, inner3 n (X i) = c)
    (hq : inner3 n q = c) (hk : 0 < k) (hper : X k = X 0) (lq : ∀ i, 0 ≤ Blmath.TM.turn n (X i) (X (i + 1)) q)
    (lz : ∀ i, 0 ≤ Blmath.TM.turn n (X i) (X (i + 1)) z) (l0 : 0 < Blmath.TM.turn n (X 0) (X 1) z)
    (sep : ∀ i, inner3 w (X i) < inner3 w q) : False := by
  have hnn := inner_self_pos hn
  -- a second point of the plane, so that the loop is on one side of the line through the two
  obtain ⟨r, hr⟩ : ∃ r : V3 ℝ, r = ⟨q.x + (cross3 n w).x, q.y + (cross3 n w).y, q.z + (cross3 n w).z⟩ := ⟨_, rfl⟩
  have T : ∀ i, 0 < Blmath.TM.turn n q r (X i) := by
    intro i
    have h1 : inner3 n (vec3 q (X i)) = 0 := by rw [inner_split, hX, hq, sub_self]
    have h2 : inner3 w (vec3 q (X i)) < 0 := by rw [inner_split]; linarith [sep i]
    have e : vec3 q r = cross3 n w := by rw [hr]; ext <;> simp only [vec3] <;> ring
    unfold Blmath.TM.turn
    rw [e]
    generalize vec3 q (X i) = d at *
    have : det3 n (cross3 n w) d = inner3 n w * inner3 n d - inner3 n n * inner3 w d := by
      simp only [det3, inner3, cross3]; ring
    rw [this, h1]
    nlinarith
  have R : ∀ i, 0 ≤ Blmath.TM.turn n q (X i) (X (i + 1)) := fun i => by rw [(turning n).cyc q]; exact lq i
  -- the turns seen from `q` add up to those seen from `z`
  have total : ∀ j, (∑ i ∈ Finset.range j, Blmath.TM.turn n (X i) (X (i + 1)) z) =
      (∑ i ∈ Finset.range j, Blmath.TM.turn n q (X i) (X (i + 1))) + Blmath.TM.turn n q (X j) z - Blmath.TM.turn n q (X 0) z := by
    intro j
    induction j with
    | zero => simp
    | succ j ih =>
      rw [Finset.sum_range_succ, Finset.sum_range_succ, ih]
      simp only [Blmath.TM.turn, det3, inner3, cross3, vec3]; ring
  have hsum : 0 < ∑ i ∈ Finset.range k, Blmath.TM.turn n q (X i) (X (i + 1)) := by
    have := total k
    rw [hper] at this
    have h1 : 0 < ∑ i ∈ Finset.range k, Blmath.TM.turn n (X i) (X (i + 1)) z :=
      Finset.sum_pos' (fun i _ => lz i) ⟨0, Finset.mem_range.mpr hk, l0⟩
    linarith
  have main : ∀ j, 0 ≤ Blmath.TM.turn n q (X 0) (X j) ∧
      (0 < (∑ i ∈ Finset.range j, Blmath.TM.turn n q (X i) (X (i + 1))) → 0 < Blmath.TM.turn n q (X 0) (X j)) := by
    intro j
    induction j with
    | zero => exact ⟨le_of_eq (by simp only [Blmath.TM.turn, det3, inner3, cross3, vec3]; ring), by simp⟩
    | succ j ih =>
      have pk := (turning n).plucker q r (X 0) (X j) (X (j + 1))
      have t0 := T 0
      have t1 := T j
      have t2 := T (j + 1)
      have r1 := R j
      constructor
      · by_contra hc
        have := mul_neg_of_pos_of_neg t1 (not_le.mp hc)
        have a1 := mul_nonneg t0.le r1
        have a2 := mul_nonneg t2.le ih.1
        linarith
      · intro hs
        rw [Finset.sum_range_succ] at hs
        refine pos_right (a := Blmath.TM.turn n q r (X j)) ?_ t1.le
        rw [pk]
        rcases r1.eq_or_lt with h | h
        · rw [← h, add_zero] at hs
          exact add_pos_of_nonneg_of_pos (mul_nonneg t0.le r1) (mul_pos t2 (ih.2 hs))
        · exact add_pos_of_pos_of_nonneg (mul_pos t0 h) (mul_nonneg t2.le ih.1)
  have := (main k).2 hsum
  rw [hper] at this
  have e0 : Blmath.TM.turn n q (X 0) (X 0) = 0 := by
    simp only [Blmath.TM.turn, det3, inner3, cross3, vec3]; ring
  rw [e0] at this
  exact lt_irrefl _ this

section
variable {pl : Plane ℝ} {m : Mesh ℝ} {k : ℕ} {E : ℕ → ℕ × ℕ} {X : ℕ → V3 ℝ}

theorem ring_dir (h : Ring pl m k E X) (hv : ValidFaces m) (hw : (directedEdges m.f).Nodup) :
    (∀ i, Fwd pl m (E i) (E (i + 1))) ∨ (∀ i, Fwd pl m (E (i + 1)) (E i)) := by
  have hk := h.size
  have n2 : ¬ k ∣ 2 := fun hd => by have := Nat.le_of_dvd (by omega) hd; omega
  have hne : ∀ i, E i ≠ E (i + 2) := fun i => h.ne i (s := 0) (t := 2) (by omega) n2
  rcases fwd_or hv (h.link 0) with h0 | h0
  · left
    intro i
    induction i with
    | zero => exact h0
    | succ i ih => exact ih.next hv hw (h.link i) (h.link (i + 1)) (hne i)
  · right
    intro i
    induction i with
    | zero => exact h0
    | succ i ih => exact ih.prev hv hw (h.link i) (h.link (i + 1)) (hne i)

theorem level_of {q : V3 ℝ} (h : inner3 pl.n q = inner3 pl.n pl.r0) : OnPlane pl q := by
  rw [onPlane_iff]
  simp only [height, inner3, vec3] at h ⊢
  linarith

/-- one loop: the solid is to one side of all its segments, strictly for some point -/
theorem ring_side (h : Ring pl m k E X) (hn : pl.n ≠ zero3) (hv : ValidFaces m) (ho : OutwardMesh m) (hoff : ∀ p ∈ m.v, ¬ OnPlane pl p) :
    ∃ n, (n = pl.n ∨ n = scale3 (-1) pl.n) ∧
      (∀ i z, OnPlane pl z → InHull3 m.v z → 0 ≤ Blmath.TM.turn n (X i) (X (i + 1)) z) ∧
      ∀ i, ∃ z, OnPlane pl z ∧ InHull3 m.v z ∧ 0 < Blmath.TM.turn n (X i) (X (i + 1)) z := by
  rcases ring_dir h hv ho.1.1 with hd | hd
  · refine ⟨pl.n, .inl rfl, fun i z hz hh => ?_, fun i => ?_⟩
    · exact ((hd i).left hn ho hoff (h.point i) (h.point (i + 1))).1 z hz hh
    · exact ((hd i).left hn ho hoff (h.point i) (h.point (i + 1))).2
  · have sw : ∀ i q, Blmath.TM.turn (scale3 (-1) pl.n) (X i) (X (i + 1)) q = Blmath.TM.turn pl.n (X (i + 1)) (X i) q := by
      intro i q; simp only [Blmath.TM.turn, det3, inner3, cross3, vec3, scale3]; ring
    refine ⟨_, .inr rfl, fun i z hz hh => ?_, fun i => ?_⟩
    · rw [sw]
      exact ((hd i).left hn ho hoff (h.point (i + 1)) (h.point i)).1 z hz hh
    · obtain ⟨z, h1, h2, h3⟩ := ((hd i).left hn ho hoff (h.point (i + 1)) (h.point i)).2
      exact ⟨z, h1, h2, by rw [sw]; exact h3⟩

end

/-- the polyline goes round the section of the solid -/
theorem loop_side {pl : Plane ℝ} {m : Mesh ℝ} {es : List (ℕ × ℕ)} {c : Section ℝ} (hn : pl.n ≠ zero3) (hv : ValidFaces m)
    (ho : OutwardMesh m) (hoff : ∀ p ∈ m.v, ¬ OnPlane pl p) (h : Traces pl m es c) (hnd : es.Nodup) (hc : c.closed = true) :
    ∃ n, (n = pl.n ∨ n = scale3 (-1) pl.n) ∧ RunsRound n c.v (fun q => OnPlane pl q ∧ InHull3 m.v q) ∧
      ∀ e ∈ cyclicPairs c.v, ∃ z, OnPlane pl z ∧ InHull3 m.v z ∧ 0 < Blmath.TM.turn n e.1 e.2 z := by
  have hr := ring_of h hnd hc
  have hlen := h.points.length_eq
  have h3 := hr.size
  obtain ⟨n, h1, h2, h4⟩ := ring_side hr hn hv ho hoff
  have idx : ∀ e ∈ cyclicPairs c.v, ∃ i, c.v.getD (i % es.length) zero3 = e.1 ∧ c.v.getD ((i + 1) % es.length) zero3 = e.2 := by
    intro e he
    obtain ⟨i, hi, e1, e2⟩ := mem_cyclic he
    refine ⟨i, ?_, ?_⟩
    · rw [Nat.mod_eq_of_lt (by omega)]; exact getD_of e1
    · rw [hlen]; exact getD_of e2
  refine ⟨n, h1, fun e he q hq => ?_, fun e he => ?_⟩
  · obtain ⟨i, e1, e2⟩ := idx e he
    have := h2 i q hq.1 hq.2
    simp only [e1, e2] at this
    exact this
  · obtain ⟨i, e1, e2⟩ := idx e he
    have := h4 i
    simp only [e1, e2] at this
    exact this

/-- and its hull is that section -/
theorem loop_hull {pl : Plane ℝ} {m : Mesh ℝ} {es : List (ℕ × ℕ)} {c : Section ℝ} (hn : pl.n ≠ zero3) (hv : ValidFaces m)
    (ho : OutwardMesh m) (hoff : ∀ p ∈ m.v, ¬ OnPlane pl p) (h : Traces pl m es c) (hnd : es.Nodup) (hc : c.closed = true) (q : V3 ℝ) :
    InHull3 c.v q ↔ OnPlane pl q ∧ InHull3 m.v q := by
  have hlev : ∀ p ∈ c.v, inner3 pl.n p = inner3 pl.n pl.r0 := fun p hp => inner_of_onPlane (onPlane_of h hp)
  constructor
  · intro hq
    refine ⟨level_of (hull_level hq hlev), hull_trans hq fun p hp => ?_⟩
    obtain ⟨e, -, a, b, ha, hb, -, s, s0, s1, rfl⟩ := point_of h hp
    refine inHull_mix (inHull_self (List.mem_of_getElem? ha)) (inHull_self (List.mem_of_getElem? hb)) (a := 1 - s) (b := s) (by linarith)
      s0 (by ring) ?_ ?_ ?_ <;> simp only [along, vec3] <;> ring
  · rintro ⟨hq, hin⟩
    by_contra hno
    obtain ⟨w, hw⟩ := separate hno
    have hr := ring_of h hnd hc
    have hlen := h.points.length_eq
    have h3 := hr.size
    obtain ⟨n, h1, h2, h4⟩ := ring_side hr hn hv ho hoff
    obtain ⟨z, hz, hzh, hzs⟩ := h4 0
    have mem : ∀ i, c.v.getD (i % es.length) zero3 ∈ c.v := fun i =>
      List.mem_of_getElem? (get_some _ (by rw [← hlen]; exact Nat.mod_lt _ (by omega)))
    have hne : n ≠ zero3 := by
      rcases h1 with rfl | rfl
      · exact hn
      · exact TM.neg_ne hn
    have hl : ∀ p, OnPlane pl p → inner3 n p = inner3 n pl.r0 := by
      intro p hp
      rcases h1 with rfl | rfl
      · exact inner_of_onPlane hp
      · rw [TM.inner_neg, TM.inner_neg, inner_of_onPlane hp]
    exact covers hne (fun i => hl _ (onPlane_of h (mem i))) (hl q hq) (k := es.length) (by omega) hr.period (fun i => h2 i q hq hin)
      (fun i => h2 i z hz hzh) hzs (fun i => hw _ (mem i))

/-- all the polylines, with the edges they go through -/
theorem every (ver : PyVer) (pk : ℕ → Picker) (ko : ℕ → KeyOrder) (pl : Plane ℝ) (m : Mesh ℝ)
    (hv : ValidFaces m) (hp : ∀ f ∈ m.f, ProperFace f) (hoff : ∀ p ∈ m.v, ¬ OnPlane pl p) (hcl : ClosedMesh m) :
    ∃ cs, pl.meshXsections ver pk ko m = .ok cs ∧ (cs = [] → ∀ e, ¬ CrossedEdge pl m e) ∧
      ∀ c ∈ cs, ∃ es, Traces pl m es c ∧ es.Nodup ∧ c.closed = true := by
  obtain ⟨cs, ess, h1, h2, h3, h4, h5⟩ := C31_manifold ver pk ko pl m hv hp hoff (CX.manifold_of_closed hcl) (.inl hcl)
  refine ⟨cs, h1, ?_, ?_⟩
  · rintro rfl e he
    cases h2
    exact absurd ((h4 e).mpr he) (by simp)
  · intro c hc
    have hcl' := h5 hcl c hc
    clear h1 h4 h5
    induction h2 with
    | nil => simp at hc
    | @cons es c' ess cs t ts ih =>
      rw [List.flatten_cons, List.nodup_append] at h3
      rcases List.mem_cons.mp hc with rfl | hc
      · exact ⟨es, t, h3.1, hcl'⟩
      · exact ih h3.2.1 hc

/-- the corners of a box span it -/
theorem box_hull (o s q : V3 ℝ) (hx : 0 < s.x) (hy : 0 < s.y) (hz : 0 < s.z) :
    InHull3 (prismVertices o s) q ↔ (o.x ≤ q.x ∧ q.x ≤ o.x + s.x) ∧ (o.y ≤ q.y ∧ q.y ≤ o.y + s.y) ∧ (o.z ≤ q.z ∧ q.z ≤ o.z + s.z) := by
  have hv : prismVertices o s = [⟨o.x, o.y, o.z⟩, ⟨o.x + s.x, o.y, o.z⟩, ⟨o.x + s.x, o.y, o.z + s.z⟩, ⟨o.x, o.y, o.z + s.z⟩,
      ⟨o.x, o.y + s.y, o.z⟩, ⟨o.x + s.x, o.y + s.y, o.z⟩, ⟨o.x + s.x, o.y + s.y, o.z + s.z⟩, ⟨o.x, o.y + s.y, o.z + s.z⟩] := by
    simp [prismVertices, V3.ext_iff]
  rw [hv]
  constructor
  · intro h
    have up : ∀ w : V3 ℝ, ∀ k, _ → inner3 w q ≤ k := fun w k hk => hull_bound (w := w) (k := k) h hk
    have x1 := up ⟨1, 0, 0⟩ (o.x + s.x) (by simp [inner3, hx.le])
    have x2 := up ⟨-1, 0, 0⟩ (-o.x) (by simp [inner3, hx.le])
    have y1 := up ⟨0, 1, 0⟩ (o.y + s.y) (by simp [inner3, hy.le])
    have y2 := up ⟨0, -1, 0⟩ (-o.y) (by simp [inner3, hy.le])
    have z1 := up ⟨0, 0, 1⟩ (o.z + s.z) (by simp [inner3, hz.le])
    have z2 := up ⟨0, 0, -1⟩ (-o.z) (by simp [inner3, hz.le])
    simp only [inner3] at x1 x2 y1 y2 z1 z2
    refine ⟨⟨?_, ?_⟩, ⟨?_, ?_⟩, ?_, ?_⟩ <;> linarith
  · rintro ⟨⟨x1, x2⟩, ⟨y1, y2⟩, z1, z2⟩
    generalize hl : [(⟨o.x, o.y, o.z⟩ : V3 ℝ), ⟨o.x + s.x, o.y, o.z⟩, ⟨o.x + s.x, o.y, o.z + s.z⟩, ⟨o.x, o.y, o.z + s.z⟩,
      ⟨o.x, o.y + s.y, o.z⟩, ⟨o.x + s.x, o.y + s.y, o.z⟩, ⟨o.x + s.x, o.y + s.y, o.z + s.z⟩, ⟨o.x, o.y + s.y, o.z + s.z⟩] = l
    have mix : ∀ (lo d x : ℝ), 0 < d → lo ≤ x → x ≤ lo + d → 0 ≤ (lo + d - x) / d ∧ 0 ≤ (x - lo) / d ∧ (lo + d - x) / d + (x - lo) / d = 1 ∧
        x = (lo + d - x) / d * lo + (x - lo) / d * (lo + d) := by
      intro lo d x hd h1 h2
      refine ⟨div_nonneg (by linarith) hd.le, div_nonneg (by linarith) hd.le, ?_, ?_⟩
      · field_simp; ring
      · field_simp; ring
    obtain ⟨a1, a2, a3, a4⟩ := mix _ _ _ hx x1 x2
    obtain ⟨b1, b2, b3, b4⟩ := mix _ _ _ hy y1 y2
    obtain ⟨c1, c2, c3, c4⟩ := mix _ _ _ hz z1 z2
    have lx : ∀ y z, InHull3 l ⟨o.x, y, z⟩ → InHull3 l ⟨o.x + s.x, y, z⟩ → InHull3 l ⟨q.x, y, z⟩ := fun y z h1 h2 =>
      inHull_mix h1 h2 a1 a2 a3 a4 (by rw [← add_mul, a3, one_mul]) (by rw [← add_mul, a3, one_mul])
    have ly : ∀ z, InHull3 l ⟨q.x, o.y, z⟩ → InHull3 l ⟨q.x, o.y + s.y, z⟩ → InHull3 l ⟨q.x, q.y, z⟩ := fun z h1 h2 =>
      inHull_mix h1 h2 b1 b2 b3 (by rw [← add_mul, b3, one_mul]) b4 (by rw [← add_mul, b3, one_mul])
    have lz : InHull3 l ⟨q.x, q.y, o.z⟩ → InHull3 l ⟨q.x, q.y, o.z + s.z⟩ → InHull3 l ⟨q.x, q.y, q.z⟩ := fun h1 h2 =>
      inHull_mix h1 h2 c1 c2 c3 (by rw [← add_mul, c3, one_mul]) (by rw [← add_mul, c3, one_mul]) c4
    refine lz (ly _ (lx _ _ ?_ ?_) (lx _ _ ?_ ?_)) (ly _ (lx _ _ ?_ ?_) (lx _ _ ?_ ?_)) <;>
      exact inHull_self (by rw [← hl]; simp)

theorem mem_box_faces {diag : ℕ → Bool} {f : ℕ × ℕ × ℕ} (h : f ∈ quadsToTris diag 0 prismQuads) :
    ∃ a b c d, (a, b, c, d) ∈ prismQuads ∧ (f = (a, b, c) ∨ f = (a, c, d) ∨ f = (b, c, d) ∨ f = (b, d, a)) := by
  have : ∀ (qs : List (ℕ × ℕ × ℕ × ℕ)) (i : ℕ), f ∈ quadsToTris diag i qs →
      ∃ a b c d, (a, b, c, d) ∈ qs ∧ (f = (a, b, c) ∨ f = (a, c, d) ∨ f = (b, c, d) ∨ f = (b, d, a)) := by
    intro qs
    induction qs with
    | nil => intro i h; simp [quadsToTris] at h
    | cons q qs ih =>
      obtain ⟨a, b, c, d⟩ := q
      intro i h
      rw [quadsToTris, List.mem_append] at h
      rcases h with h | h
      · refine ⟨a, b, c, d, by simp, ?_⟩
        unfold splitQuad at h
        split at h <;> simp at h <;> tauto
      · obtain ⟨a, b, c, d, h1, h2⟩ := ih _ h
        exact ⟨a, b, c, d, List.mem_cons_of_mem _ h1, h2⟩
  exact this _ _ h

/-- prisms of positive size look outward -/
theorem box_outward (diag : ℕ → Bool) (o s : V3 ℝ) (hx : 0 < s.x) (hy : 0 < s.y) (hz : 0 < s.z) : OutwardMesh (SolidSlice.box diag o s) := by
  refine ⟨C47_prism_watertight diag o s, ?_⟩
  obtain ⟨ox, oy, oz⟩ := o
  obtain ⟨sx, sy, sz⟩ := s
  let w : ℝ → ℝ → ℝ → V3 ℝ := fun a b c => ⟨ox + a, oy + b, oz + c⟩
  have hv : (SolidSlice.box diag ⟨ox, oy, oz⟩ ⟨sx, sy, sz⟩).v =
      [w 0 0 0, w sx 0 0, w sx 0 sz, w 0 0 sz, w 0 sy 0, w sx sy 0, w sx sy sz, w 0 sy sz] := by
    simp [SolidSlice.box, createRectangularPrism, prismVertices, w, V3.ext_iff]
  intro f hf t ht
  rw [hv] at ht ⊢
  have hp := mul_pos (mul_pos hx hy) hz
  simp only at hp
  have fin : ∀ x : ℝ, (x = 0 ∨ x = -(sx * sy * sz)) → x ≤ 0 := by
    rintro x (rfl | rfl)
    · exact le_rfl
    · linarith
  have fin' : ∀ x : ℝ, x = -(sx * sy * sz) → x < 0 := by
    rintro x rfl
    linarith
  obtain ⟨a, b, c, d, hq, hf⟩ := mem_box_faces hf
  simp only [prismQuads, List.mem_cons, List.not_mem_nil, or_false, Prod.mk.injEq] at hq
  rcases hq with ⟨rfl, rfl, rfl, rfl⟩ | ⟨rfl, rfl, rfl, rfl⟩ | ⟨rfl, rfl, rfl, rfl⟩ | ⟨rfl, rfl, rfl, rfl⟩ | ⟨rfl, rfl, rfl, rfl⟩ |
    ⟨rfl, rfl, rfl, rfl⟩ <;> rcases hf with rfl | rfl | rfl | rfl <;> (
      simp [Spec.corners] at ht
      subst ht
      refine ⟨?_, ?_⟩
      · simp only [List.forall_mem_cons, List.not_mem_nil, false_imp_iff, implies_true, and_true]
        refine ⟨?_, ?_, ?_, ?_, ?_, ?_, ?_, ?_⟩ <;> (
          unfold Behind; apply fin; simp only [inner3, cross3, vec3, w]
          first
            | (left; ring; done)
            | (right; ring; done))
      · simp only [List.exists_mem_cons_iff, List.not_mem_nil, false_and, exists_false, or_false]
        first
          | (left; apply fin'; simp only [inner3, cross3, vec3, w]; ring; done)
          | (right; left; apply fin'; simp only [inner3, cross3, vec3, w]; ring; done)
          | (right; right; left; apply fin'; simp only [inner3, cross3, vec3, w]; ring; done)
          | (right; right; right; left; apply fin'; simp only [inner3, cross3, vec3, w]; ring; done)
          | (right; right; right; right; left; apply fin'; simp only [inner3, cross3, vec3, w]; ring; done))

set_option maxHeartbeats 2000000 in
theorem wedge_outward (p1 p2 p3 : V3 ℝ) (c : ℝ) (hc : 0 < c) (hN : cross3 (vec3 p1 p2) (vec3 p1 p3) ≠ zero3) :
    OutwardMesh (SolidSlice.wedge p1 p2 p3 (scale3 (-c) (cross3 (vec3 p1 p2) (vec3 p1 p3)))) := by
  refine ⟨C47_tri_watertight, ?_⟩
  have hpos := mul_pos hc (inner_self_pos hN)
  obtain ⟨ax, ay, az⟩ := p1
  obtain ⟨bx, by', bz⟩ := p2
  obtain ⟨cx, cy, cz⟩ := p3
  let a : V3 ℝ := ⟨ax, ay, az⟩
  let b : V3 ℝ := ⟨bx, by', bz⟩
  let d : V3 ℝ := ⟨cx, cy, cz⟩
  let s := scale3 (-c) (cross3 (vec3 a b) (vec3 a d))
  have hv : (SolidSlice.wedge a b d s).v = [a, b, d, a + s, b + s, d + s] := rfl
  intro f hf t ht
  change corners (SolidSlice.wedge a b d s).v f = some t at ht
  change (∀ p ∈ (SolidSlice.wedge a b d s).v, Behind t p) ∧ ∃ p ∈ (SolidSlice.wedge a b d s).v, _
  rw [hv] at ht ⊢
  have fin : ∀ x : ℝ, (x = 0 ∨ x = -(c * inner3 (cross3 (vec3 ⟨ax, ay, az⟩ ⟨bx, by', bz⟩) (vec3 ⟨ax, ay, az⟩ ⟨cx, cy, cz⟩))
      (cross3 (vec3 ⟨ax, ay, az⟩ ⟨bx, by', bz⟩) (vec3 ⟨ax, ay, az⟩ ⟨cx, cy, cz⟩)))) → x ≤ 0 := by
    rintro x (rfl | rfl)
    · exact le_rfl
    · linarith
  have fin' : ∀ x : ℝ, x = -(c * inner3 (cross3 (vec3 ⟨ax, ay, az⟩ ⟨bx, by', bz⟩) (vec3 ⟨ax, ay, az⟩ ⟨cx, cy, cz⟩))
      (cross3 (vec3 ⟨ax, ay, az⟩ ⟨bx, by', bz⟩) (vec3 ⟨ax, ay, az⟩ ⟨cx, cy, cz⟩))) → x < 0 := by
    rintro x rfl
    linarith
  have hf : f ∈ triPrismFaces := hf
  simp only [triPrismFaces, List.mem_cons, List.not_mem_nil, or_false] at hf
  rcases hf with rfl | rfl | rfl | rfl | rfl | rfl | rfl | rfl <;> (
      simp [Spec.corners] at ht
      subst ht
      refine ⟨?_, ?_⟩
      · simp only [List.forall_mem_cons, List.not_mem_nil, false_imp_iff, implies_true, and_true]
        refine ⟨?_, ?_, ?_, ?_, ?_, ?_⟩ <;> (
          unfold Behind; apply fin; simp only [s, a, b, d, inner3, cross3, vec3, scale3, V3.add_x, V3.add_y, V3.add_z]
          first
            | (left; ring; done)
            | (right; ring; done))
      · simp only [List.exists_mem_cons_iff, List.not_mem_nil, false_and, exists_false, or_false]
        first
          | (left; apply fin'; simp only [s, a, b, d, inner3, cross3, vec3, scale3, V3.add_x, V3.add_y, V3.add_z]; ring; done)
          | (right; left; apply fin'; simp only [s, a, b, d, inner3, cross3, vec3, scale3, V3.add_x, V3.add_y, V3.add_z]; ring; done)
          | (right; right; left; apply fin'; simp only [s, a, b, d, inner3, cross3, vec3, scale3, V3.add_x, V3.add_y, V3.add_z]; ring; done)
          | (right; right; right; left; apply fin'; simp only [s, a, b, d, inner3, cross3, vec3, scale3, V3.add_x, V3.add_y, V3.add_z]; ring; done))

/-- the triangular prism that is made -/
theorem wedge_of {p1 p2 p3 : V3 ℝ} {h : ℝ} {vs : List (V3 ℝ)} {fs : List (ℕ × ℕ × ℕ)}
    (hr : createTriangularPrism p1 p2 p3 h = .ok (vs, fs)) (hh : 0 < h) :
    ∃ c, 0 < c ∧ cross3 (vec3 p1 p2) (vec3 p1 p3) ≠ zero3 ∧
      (⟨vs, fs⟩ : Mesh ℝ) = SolidSlice.wedge p1 p2 p3 (scale3 (-c) (cross3 (vec3 p1 p2) (vec3 p1 p3))) := by
  unfold createTriangularPrism at hr
  cases hb : Plane.fromPoints p1 p2 p3 with
  | error e => rw [hb] at hr; cases hr
  | ok pl =>
    rw [hb] at hr
    obtain ⟨rfl, rfl⟩ := Prod.mk.inj (Except.ok.inj hr)
    have hn : pl.n = normalize3 (cross3 (vec3 p1 p2) (vec3 p1 p3)) ∧ almostZero (cross3 (vec3 p1 p2) (vec3 p1 p3)) defaultAtol = false := by
      have hpl' : Plane.mk' p1 (cross3 (vec3 p1 p2) (vec3 p1 p3)) = .ok pl := hb
      unfold Plane.mk' at hpl'
      split at hpl'
      · cases hpl'
      · rename_i hz
        injection hpl' with hpl'
        rw [← hpl']
        exact ⟨rfl, by simpa using hz⟩
    obtain ⟨hn, hz⟩ := hn
    have hN : cross3 (vec3 p1 p2) (vec3 p1 p3) ≠ zero3 := by
      intro h0
      rw [h0, almostZero_zero] at hz
      cases hz
    have hl := len3_pos hN
    rw [normalize3_real] at hn
    refine ⟨h / len3 (cross3 (vec3 p1 p2) (vec3 p1 p3)), div_pos hh hl, hN, ?_⟩
    have : V3.smul h (-pl.normal) = scale3 (-(h / len3 (cross3 (vec3 p1 p2) (vec3 p1 p3)))) (cross3 (vec3 p1 p2) (vec3 p1 p3)) := by
      have e : pl.normal = pl.n := rfl
      rw [e, hn]
      ext <;> simp [scale3] <;> field_simp
    rw [this]
    rfl

end FS

open FS

/-- **C132.** Sections of a closed mesh whose faces look outward from a convex solid, some of them possibly in one plane: every polyline is
closed, has all of the solid in the plane to one side, and is the outline of the solid there. -/
theorem C132_outline (ver : PyVer) (pk : ℕ → Picker) (ko : ℕ → KeyOrder) (pl : Plane ℝ) (m : Mesh ℝ)
    (hn : pl.n ≠ zero3) (hv : ValidFaces m) (hp : ∀ f ∈ m.f, ProperFace f) (hoff : ∀ p ∈ m.v, ¬ OnPlane pl p)
    (hcl : ClosedMesh m) (ho : OutwardMesh m) :
    ∃ cs, pl.meshXsections ver pk ko m = .ok cs ∧ ((∃ e, CrossedEdge pl m e) → cs ≠ []) ∧
      ∀ c ∈ cs, c.closed = true ∧
        (RunsRound pl.n c.v (fun q => OnPlane pl q ∧ InHull3 m.v q) ∨
          RunsRound (scale3 (-1) pl.n) c.v (fun q => OnPlane pl q ∧ InHull3 m.v q)) ∧
        ∀ q, InHull3 c.v q ↔ OnPlane pl q ∧ InHull3 m.v q := by
  obtain ⟨cs, h1, h2, h3⟩ := every ver pk ko pl m hv hp hoff hcl
  refine ⟨cs, h1, ?_, fun c hc => ?_⟩
  · rintro ⟨e, he⟩ h
    exact h2 h e he
  · obtain ⟨es, t, hnd, hc⟩ := h3 c hc
    obtain ⟨n, hn', hr, -⟩ := loop_side hn hv ho hoff t hnd hc
    refine ⟨hc, ?_, loop_hull hn hv ho hoff t hnd hc⟩
    rcases hn' with rfl | rfl
    · exact .inl hr
    · exact .inr hr

/-- **C132.** The section of a rectangular prism of positive size: if the plane passes between its corners, one closed polyline, and a point
is in its convex hull exactly if it is on the plane and in the box. -/
theorem C132_prism (ver : PyVer) (pk : ℕ → Picker) (ko : ℕ → KeyOrder) (pl : Plane ℝ) (diag : ℕ → Bool) (o s : V3 ℝ)
    (hn : pl.n ≠ zero3) (hoff : ∀ p ∈ (createRectangularPrism diag o s).1, ¬ OnPlane pl p) (hx : 0 < s.x) (hy : 0 < s.y) (hz : 0 < s.z)
    (hcut : ∃ p ∈ (createRectangularPrism diag o s).1, ∃ q ∈ (createRectangularPrism diag o s).1, height pl p * height pl q < 0) :
    ∃ v, pl.meshXsections ver pk ko ⟨(createRectangularPrism diag o s).1, (createRectangularPrism diag o s).2⟩ = .ok [⟨v, true⟩] ∧
      ∀ q, InHull3 v q ↔ OnPlane pl q ∧ (o.x ≤ q.x ∧ q.x ≤ o.x + s.x) ∧ (o.y ≤ q.y ∧ q.y ≤ o.y + s.y) ∧
        (o.z ≤ q.z ∧ q.z ≤ o.z + s.z) := by
  obtain ⟨⟨v, cl⟩, es, h1, h2, h3, h4, h5, h6, -⟩ := (C121_prism ver pk ko pl diag o s hoff).2 hcut
  obtain ⟨hv, hp, hcl⟩ := SolidSlice.box_facts diag o s
  simp only at h2
  subst h2
  refine ⟨v, h1, fun q => ?_⟩
  have := loop_hull (m := SolidSlice.box diag o s) hn hv (box_outward diag o s hx hy hz) hoff h4 h5 rfl q
  rw [this]
  exact and_congr_right fun _ => box_hull o s q hx hy hz
/-- **C132.** The same for the cube. -/
theorem C132_cube (ver : PyVer) (pk : ℕ → Picker) (ko : ℕ → KeyOrder) (pl : Plane ℝ) (diag : ℕ → Bool) (o : V3 ℝ) (s : ℝ)
    (hn : pl.n ≠ zero3) (hoff : ∀ p ∈ (createCube diag o s).1, ¬ OnPlane pl p) (hs : 0 < s)
    (hcut : ∃ p ∈ (createCube diag o s).1, ∃ q ∈ (createCube diag o s).1, height pl p * height pl q < 0) :
    ∃ v, pl.meshXsections ver pk ko ⟨(createCube diag o s).1, (createCube diag o s).2⟩ = .ok [⟨v, true⟩] ∧
      ∀ q, InHull3 v q ↔ OnPlane pl q ∧ (o.x ≤ q.x ∧ q.x ≤ o.x + s) ∧ (o.y ≤ q.y ∧ q.y ≤ o.y + s) ∧ (o.z ≤ q.z ∧ q.z ≤ o.z + s) :=
  C132_prism ver pk ko pl diag o ⟨s, s, s⟩ hn hoff hs hs hs hcut

/-- **C132.** The same for the triangular prism of positive height. -/
theorem C132_tri (ver : PyVer) (pk : ℕ → Picker) (ko : ℕ → KeyOrder) (pl : Plane ℝ) (p1 p2 p3 : V3 ℝ) (h : ℝ) (hn : pl.n ≠ zero3)
    (vs : List (V3 ℝ)) (fs : List (ℕ × ℕ × ℕ)) (hr : createTriangularPrism p1 p2 p3 h = .ok (vs, fs)) (hh : 0 < h)
    (hoff : ∀ p ∈ vs, ¬ OnPlane pl p) (hcut : ∃ p ∈ vs, ∃ q ∈ vs, height pl p * height pl q < 0) :
    ∃ v, pl.meshXsections ver pk ko ⟨vs, fs⟩ = .ok [⟨v, true⟩] ∧ ∀ q, InHull3 v q ↔ OnPlane pl q ∧ InHull3 vs q := by
  obtain ⟨⟨v, cl⟩, es, h1, h2, h3, h4, h5, h6, -⟩ := (C121_tri ver pk ko pl p1 p2 p3 h vs fs hr hoff).2 hcut
  obtain ⟨c, hc, hN, hm⟩ := wedge_of hr hh
  simp only at h2
  subst h2
  refine ⟨v, h1, fun q => ?_⟩
  have ho := wedge_outward p1 p2 p3 c hc hN
  rw [← hm] at ho
  obtain ⟨hv, -, -⟩ := SolidSlice.wedge_facts p1 p2 p3 (scale3 (-c) (cross3 (vec3 p1 p2) (vec3 p1 p3)))
  rw [← hm] at hv
  exact loop_hull (m := ⟨vs, fs⟩) hn hv ho hoff h4 h5 rfl q

/-- the plane `x + y + z = 3 / 2`, which cuts the unit cube in a hexagon -/
noncomputable def hexPlane : Plane ℝ := ⟨⟨1 / 2, 1 / 2, 1 / 2⟩, ⟨1, 1, 1⟩⟩

/-- **C132**, used on the unit cube: the centre is inside the section, the point `(0, 0, 3/2)` of the plane is not. -/
theorem C132_witness (ver : PyVer) (pk : ℕ → Picker) (ko : ℕ → KeyOrder) (diag : ℕ → Bool) :
    hexPlane.n ≠ zero3 ∧ (∀ p ∈ (createCube diag (⟨0, 0, 0⟩ : V3 ℝ) 1).1, ¬ OnPlane hexPlane p) ∧
    OutwardMesh ⟨(createCube diag (⟨0, 0, 0⟩ : V3 ℝ) 1).1, (createCube diag (⟨0, 0, 0⟩ : V3 ℝ) 1).2⟩ ∧
    ∃ v, hexPlane.meshXsections ver pk ko ⟨(createCube diag ⟨0, 0, 0⟩ 1).1, (createCube diag (⟨0, 0, 0⟩ : V3 ℝ) 1).2⟩ = .ok [⟨v, true⟩] ∧
      InHull3 v ⟨1 / 2, 1 / 2, 1 / 2⟩ ∧ InHull3 v ⟨0, 1 / 2, 1⟩ ∧ ¬ InHull3 v ⟨0, 0, 3 / 2⟩ := by
  have hn : hexPlane.n ≠ zero3 := by
    intro h
    have := congrArg V3.x h
    simp [hexPlane, zero3] at this
  have hoff : ∀ p ∈ (createCube diag (⟨0, 0, 0⟩ : V3 ℝ) 1).1, ¬ OnPlane hexPlane p := by
    simp [createCube, createRectangularPrism, prismVertices, onPlane_iff, hexPlane, height, inner3, vec3]
    norm_num
  refine ⟨hn, hoff, box_outward diag _ _ one_pos one_pos one_pos, ?_⟩
  obtain ⟨v, h1, h2⟩ := C132_cube ver pk ko hexPlane diag ⟨0, 0, 0⟩ 1 hn hoff one_pos
    ⟨⟨0, 0, 0⟩, by simp [createCube, createRectangularPrism, prismVertices], ⟨1, 1, 1⟩,
      by simp [createCube, createRectangularPrism, prismVertices, V3.ext_iff], by norm_num [hexPlane, height, inner3, vec3]⟩
  refine ⟨v, h1, (h2 _).mpr ?_, (h2 _).mpr ?_, fun h => ?_⟩
  · norm_num [onPlane_iff, hexPlane, height, inner3, vec3]
  · norm_num [onPlane_iff, hexPlane, height, inner3, vec3]
  · have := (h2 _).mp h
    norm_num at this

end Blmath.Props
