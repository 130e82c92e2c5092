import Verif.Props.ConvexMeets
import Verif.Props.VertexSlice
import Mathlib.Topology.Order.LeftRightNhds

/-!
Property C139: what a plane through vertices cuts out of a convex solid.
-/

namespace Blmath.Props
open Blmath.Geometry Blmath.Spec Blmath.Proofs

namespace CV
open CX IS VP Filter Topology

theorem height_along (pl : Plane ℝ) (a b : V3 ℝ) (t : ℝ) :
    height pl (along a t (vec3 a b)) = height pl a + t * (height pl b - height pl a) := Blmath.VS.height_along a b t

/-- the plane moved by `d` -/
noncomputable def moved (pl : Plane ℝ) (d : ℝ) : Plane ℝ := ⟨along pl.r0 (d / inner3 pl.n pl.n) pl.n, pl.n⟩

theorem inner_pos {n : V3 ℝ} (hn : n ≠ zero3) : 0 < inner3 n n := by
  simp only [inner3]
  by_contra h
  push Not at h
  have hx : n.x = 0 := by nlinarith [mul_self_nonneg n.x, mul_self_nonneg n.y, mul_self_nonneg n.z]
  have hy : n.y = 0 := by nlinarith [mul_self_nonneg n.x, mul_self_nonneg n.y, mul_self_nonneg n.z]
  have hz : n.z = 0 := by nlinarith [mul_self_nonneg n.x, mul_self_nonneg n.y, mul_self_nonneg n.z]
  exact hn (by ext <;> simp [zero3, hx, hy, hz])

theorem height_moved {pl : Plane ℝ} (hn : pl.n ≠ zero3) (d : ℝ) (q : V3 ℝ) : height (moved pl d) q = height pl q - d := by
  have h := (inner_pos hn).ne'
  have e : height (moved pl d) q = height pl q - d / inner3 pl.n pl.n * inner3 pl.n pl.n := by
    simp only [moved, height, along, vec3, inner3]; ring
  rw [e, div_mul_cancel₀ _ h]

/-- not all vertices are on one plane -/
theorem off_plane {pl : Plane ℝ} {m : Mesh ℝ} (hn : pl.n ≠ zero3) (hv : ValidFaces m) (ho : OutwardMesh m) (hf : m.f ≠ []) :
    ∃ p ∈ m.v, height pl p ≠ 0 := by
  by_contra hc
  push Not at hc
  obtain ⟨f, hf⟩ := List.exists_mem_of_ne_nil _ hf
  obtain ⟨p, hp, hlt⟩ := (ho.2 f hf _ (corners_pt hv hf)).2
  obtain ⟨v1, v2, v3⟩ := hv f hf
  have a := hc _ (pt_mem v1)
  have b := hc _ (pt_mem v2)
  have c := hc _ (pt_mem v3)
  have d := hc _ hp
  simp only at hlt
  generalize pt m f.1 = x at *
  generalize pt m f.2.1 = y at *
  generalize pt m f.2.2 = z at *
  simp only [height, vec3, inner3, cross3] at a b c d hlt
  have key : ∀ k : ℝ, k = pl.n.x ∨ k = pl.n.y ∨ k = pl.n.z →
      k * (((y.y - x.y) * (z.z - x.z) - (y.z - x.z) * (z.y - x.y)) * (p.x - x.x) +
        ((y.z - x.z) * (z.x - x.x) - (y.x - x.x) * (z.z - x.z)) * (p.y - x.y) +
        ((y.x - x.x) * (z.y - x.y) - (y.y - x.y) * (z.x - x.x)) * (p.z - x.z)) = 0 := by
    have b' : (y.x - x.x) * pl.n.x + (y.y - x.y) * pl.n.y + (y.z - x.z) * pl.n.z = 0 := by linarith
    have c' : (z.x - x.x) * pl.n.x + (z.y - x.y) * pl.n.y + (z.z - x.z) * pl.n.z = 0 := by linarith
    have d' : (p.x - x.x) * pl.n.x + (p.y - x.y) * pl.n.y + (p.z - x.z) * pl.n.z = 0 := by linarith
    rintro k (rfl | rfl | rfl)
    · linear_combination ((y.y - x.y) * (z.z - x.z) - (y.z - x.z) * (z.y - x.y)) * d' +
        ((z.y - x.y) * (p.z - x.z) - (z.z - x.z) * (p.y - x.y)) * b' + ((p.y - x.y) * (y.z - x.z) - (p.z - x.z) * (y.y - x.y)) * c'
    · linear_combination ((y.z - x.z) * (z.x - x.x) - (y.x - x.x) * (z.z - x.z)) * d' +
        ((z.z - x.z) * (p.x - x.x) - (z.x - x.x) * (p.z - x.z)) * b' + ((p.z - x.z) * (y.x - x.x) - (p.x - x.x) * (y.z - x.z)) * c'
    · linear_combination ((y.x - x.x) * (z.y - x.y) - (y.y - x.y) * (z.x - x.x)) * d' +
        ((z.x - x.x) * (p.y - x.y) - (z.y - x.y) * (p.x - x.x)) * b' + ((p.x - x.x) * (y.y - x.y) - (p.y - x.y) * (y.x - x.x)) * c'
  have z3 : ∀ k : ℝ, k = pl.n.x ∨ k = pl.n.y ∨ k = pl.n.z → k = 0 := fun k hk => (mul_eq_zero.mp (key k hk)).resolve_right hlt.ne
  exact hn (by ext <;> simp only [zero3] <;> apply z3 <;> simp)

/-- the points in which the segments between vertices joined by an edge meet the plane -/
noncomputable def hits (pl : Plane ℝ) (m : Mesh ℝ) : List (V3 ℝ) :=
  ((List.range m.v.length ×ˢ List.range m.v.length).filter fun e => open Classical in
      decide ((∃ f ∈ m.f, hasEdge f e.1 e.2 = true) ∧ height pl (pt m e.1) ≠ height pl (pt m e.2) ∧
        0 ≤ height pl (pt m e.1) / (height pl (pt m e.1) - height pl (pt m e.2)) ∧
        height pl (pt m e.1) / (height pl (pt m e.1) - height pl (pt m e.2)) ≤ 1)).map
    fun e => along (pt m e.1) (height pl (pt m e.1) / (height pl (pt m e.1) - height pl (pt m e.2))) (vec3 (pt m e.1) (pt m e.2))

theorem mem_hits {pl : Plane ℝ} {m : Mesh ℝ} {q : V3 ℝ} : q ∈ hits pl m ↔
    ∃ u v, u < m.v.length ∧ v < m.v.length ∧ (∃ f ∈ m.f, hasEdge f u v = true) ∧ height pl (pt m u) ≠ height pl (pt m v) ∧
      0 ≤ height pl (pt m u) / (height pl (pt m u) - height pl (pt m v)) ∧
      height pl (pt m u) / (height pl (pt m u) - height pl (pt m v)) ≤ 1 ∧
      q = along (pt m u) (height pl (pt m u) / (height pl (pt m u) - height pl (pt m v))) (vec3 (pt m u) (pt m v)) := by
  simp only [hits, List.mem_map, List.mem_filter, List.mem_product, List.mem_range, decide_eq_true_eq, Prod.exists]
  constructor
  · rintro ⟨u, v, ⟨⟨h1, h2⟩, h3, h4, h5, h6⟩, rfl⟩
    exact ⟨u, v, h1, h2, h3, h4, h5, h6, rfl⟩
  · rintro ⟨u, v, h1, h2, h3, h4, h5, h6, rfl⟩
    exact ⟨u, v, ⟨⟨h1, h2⟩, h3, h4, h5, h6⟩, rfl⟩

theorem continuous_along (a b w : V3 ℝ) {T : ℝ → ℝ} (hT : Continuous T) : Continuous fun x => inner3 w (along a (T x) (vec3 a b)) := by
  simp only [inner3, along, vec3]
  fun_prop

theorem mem_hull {l : List (V3 ℝ)} {p : V3 ℝ} (h : p ∈ l) : InHull3 l p := by
  rw [Blmath.TM.inHull_iff]
  exact subset_convexHull ℝ _ ⟨p, h, rfl⟩

theorem segment_hull {l : List (V3 ℝ)} {a b : V3 ℝ} (ha : InHull3 l a) (hb : InHull3 l b) {q : V3 ℝ} (h : OnSegment a b q) :
    InHull3 l q := by
  obtain ⟨t, t0, t1, rfl⟩ := h
  refine hull_trans (l := [a, b]) ⟨[1 - t, t], ⟨rfl, ?_, ?_⟩, ?_⟩ ?_
  · simp [t0, t1]
  · simp
  · simp only [List.map_cons, List.map_nil, rdot, along, vec3, List.zipWith_cons_cons, List.zipWith_nil_left, List.sum_cons, List.sum_nil]
    refine ⟨?_, ?_, ?_⟩ <;> ring
  · simp [ha, hb]

/-- the section of a convex solid is spanned by the points in which the edges of its surface meet the plane -/
theorem spanned (ver : PyVer) (pk : ℕ → Picker) (ko : ℕ → KeyOrder) {pl : Plane ℝ} {m : Mesh ℝ} (hn : pl.n ≠ zero3) (hv : ValidFaces m) (ho : OutwardMesh m) (hf : m.f ≠ []) {q : V3 ℝ}
    (hq : OnPlane pl q) (hin : InHull3 m.v q) : InHull3 (hits pl m) q := by
  by_contra hc
  obtain ⟨w, hw⟩ := FS.separate hc
  obtain ⟨z, hz, hz0⟩ := off_plane hn hv ho hf
  obtain ⟨hp, hcl⟩ := IS.closed hv ho
  rw [onPlane_iff] at hq
  -- all vertices are off the plane moved a little
  have ev1 : ∀ᶠ x in 𝓝[>] (0 : ℝ), ∀ p ∈ m.v, height pl p ≠ x * height pl z := by
    have := (Filter.eventually_all_finite (l := 𝓝[>] (0 : ℝ)) (List.finite_toSet m.v)
      (p := fun p x => height pl p ≠ x * height pl z)).mpr ?_
    · exact this
    · intro p _
      by_cases h0 : height pl p = 0
      · filter_upwards [self_mem_nhdsWithin] with x hx
        rw [h0]
        exact (mul_ne_zero (ne_of_gt hx) hz0).symm
      · have : Tendsto (fun x : ℝ => x * height pl z) (𝓝[>] 0) (𝓝 (0 * height pl z)) :=
          ((continuous_id.mul continuous_const).tendsto 0).mono_left nhdsWithin_le_nhds
        rw [zero_mul] at this
        filter_upwards [this.eventually_ne (Ne.symm h0)] with x hx
        exact Ne.symm hx
  have ev2 : ∀ᶠ x in 𝓝[>] (0 : ℝ), ∀ e ∈ List.range m.v.length ×ˢ List.range m.v.length, (∃ f ∈ m.f, hasEdge f e.1 e.2 = true) →
      height pl (pt m e.1) ≠ height pl (pt m e.2) → ∀ t, 0 ≤ t → t ≤ 1 →
      height pl (along (pt m e.1) t (vec3 (pt m e.1) (pt m e.2))) = x * height pl z →
      inner3 w (along (pt m e.1) t (vec3 (pt m e.1) (pt m e.2))) < inner3 w (along q x (vec3 q z)) := by
    refine (Filter.eventually_all_finite (l := 𝓝[>] (0 : ℝ)) (List.finite_toSet (List.range m.v.length ×ˢ List.range m.v.length))
      (p := fun e x => (∃ f ∈ m.f, hasEdge f e.1 e.2 = true) →
      height pl (pt m e.1) ≠ height pl (pt m e.2) → ∀ t, 0 ≤ t → t ≤ 1 →
      height pl (along (pt m e.1) t (vec3 (pt m e.1) (pt m e.2))) = x * height pl z →
      inner3 w (along (pt m e.1) t (vec3 (pt m e.1) (pt m e.2))) < inner3 w (along q x (vec3 q z)))).mpr ?_
    rintro ⟨u, v⟩ huv
    obtain ⟨hu, hv'⟩ := List.mem_product.mp huv
    rw [List.mem_range] at hu hv'
    by_cases hedge : ∃ f ∈ m.f, hasEdge f u v = true
    swap
    · exact .of_forall fun x h => absurd h hedge
    by_cases hne : height pl (pt m u) = height pl (pt m v)
    · exact .of_forall fun x _ h => absurd hne h
    have hd : height pl (pt m u) - height pl (pt m v) ≠ 0 := sub_ne_zero.mpr hne
    -- where the edge meets the moved plane
    let T : ℝ → ℝ := fun x => (height pl (pt m u) - x * height pl z) / (height pl (pt m u) - height pl (pt m v))
    have hT : Continuous T := by
      simp only [T]
      fun_prop
    have hTt : ∀ x t, height pl (along (pt m u) t (vec3 (pt m u) (pt m v))) = x * height pl z → t = T x := by
      intro x t h
      rw [height_along] at h
      simp only [T]
      rw [eq_div_iff hd]
      linarith
    have hT0 : T 0 = height pl (pt m u) / (height pl (pt m u) - height pl (pt m v)) := by simp [T]
    have tend : Tendsto T (𝓝[>] 0) (𝓝 (T 0)) := (hT.tendsto 0).mono_left nhdsWithin_le_nhds
    by_cases h01 : 0 ≤ T 0 ∧ T 0 ≤ 1
    · have hmem : along (pt m u) (T 0) (vec3 (pt m u) (pt m v)) ∈ hits pl m := by
        rw [hT0] at h01 ⊢
        exact mem_hits.mpr ⟨u, v, hu, hv', hedge, hne, h01.1, h01.2, rfl⟩
      have h1 := hw _ hmem
      have c1 := ((continuous_along (pt m u) (pt m v) w hT).tendsto 0).mono_left (nhdsWithin_le_nhds (s := Set.Ioi 0))
      have c2 := ((continuous_along q z w continuous_id).tendsto 0).mono_left (nhdsWithin_le_nhds (s := Set.Ioi 0))
      have h2 : inner3 w (along q (id (0 : ℝ)) (vec3 q z)) = inner3 w q := by simp [along]
      rw [h2] at c2
      filter_upwards [c1.eventually_lt c2 h1] with x hx _ _ t _ _ ht
      rw [hTt x t ht]
      exact hx
    · rw [not_and_or, not_le, not_le] at h01
      rcases h01 with h | h
      · filter_upwards [tend.eventually_lt_const h] with x hx _ _ t t0 _ ht
        rw [hTt x t ht] at t0
        exact absurd t0 (not_le.mpr hx)
      · filter_upwards [tend.eventually_const_lt h] with x hx _ _ t _ t1 ht
        rw [hTt x t ht] at t1
        exact absurd t1 (not_le.mpr hx)
  have ev3 : ∀ᶠ x in 𝓝[>] (0 : ℝ), x < 1 := by
    filter_upwards [Ioo_mem_nhdsGT (zero_lt_one : (0 : ℝ) < 1)] with x hx
    exact hx.2
  obtain ⟨x, h1, h2, h3, h4⟩ := (ev1.and (ev2.and (ev3.and self_mem_nhdsWithin))).exists
  have h4 : 0 < x := h4
  -- the moved plane
  have hoff : ∀ p ∈ m.v, ¬ OnPlane (moved pl (x * height pl z)) p := by
    intro p hp h
    rw [onPlane_iff, height_moved hn] at h
    exact h1 p hp (by linarith)
  have hqx : OnPlane (moved pl (x * height pl z)) (along q x (vec3 q z)) := by
    rw [onPlane_iff, height_moved hn, height_along, hq]
    ring
  have hqin : InHull3 m.v (along q x (vec3 q z)) := segment_hull hin (mem_hull hz) ⟨x, h4.le, h3.le, rfl⟩
  obtain ⟨e, he⟩ := ((C135_meets _ m hv ho hf hoff).2).mpr ⟨_, hqx, hqin⟩
  obtain ⟨cs, k1, k2, k3⟩ := FS.every ver pk ko _ m hv hp hoff hcl
  obtain ⟨c, hcm⟩ := List.exists_mem_of_ne_nil _ (fun h => k2 h e he)
  obtain ⟨es, t, hnd, hcc⟩ := k3 c hcm
  have hh := (FS.loop_hull (by exact hn) hv ho hoff t hnd hcc _).mpr ⟨hqx, hqin⟩
  refine absurd (hull_lt (w := w) (k := inner3 w (along q x (vec3 q z))) hh ?_) (lt_irrefl _)
  intro p hpc
  obtain ⟨e, he, a, b, ha, hb, hpp, r, r0, r1, rfl⟩ := forall₂_right t.points hpc
  obtain ⟨_, x', y', hx', hy', hlink⟩ := t.closing hcc
  obtain ⟨-, hedge, a', b', ha', hb', hab⟩ : CrossedEdge (moved pl (x * height pl z)) m e := by
    have := (t.whole y' (List.mem_of_getLast? hy') e).mp he
    rcases Relation.ReflTransGen.cases_tail this with h | ⟨b, _, hb⟩
    · rw [h]; exact hlink.2.1
    · exact hb.2.2.1
  rw [ha] at ha'
  rw [hb] at hb'
  cases ha'
  cases hb'
  have l1 := (List.getElem?_eq_some_iff.mp ha).1
  have l2 := (List.getElem?_eq_some_iff.mp hb).1
  have e1 : a = pt m e.1 := by rw [pt_some l1] at ha; exact (Option.some.inj ha).symm
  have e2 : b = pt m e.2 := by rw [pt_some l2] at hb; exact (Option.some.inj hb).symm
  subst e1 e2
  refine h2 e (List.mem_product.mpr ⟨List.mem_range.mpr l1, List.mem_range.mpr l2⟩) hedge ?_ r r0 r1 ?_
  · intro h
    rw [height_moved hn, height_moved hn, h] at hab
    nlinarith [mul_self_nonneg (height pl (pt m e.2) - x * height pl z)]
  · rw [onPlane_iff, height_moved hn] at hpp
    linarith

theorem inFace_hull {m : Mesh ℝ} {f : ℕ × ℕ × ℕ} {q : V3 ℝ} (h : InFace m f q) : InHull3 m.v q := by
  obtain ⟨a, b, c, ha, hb, hc, s, t, s0, t0, st, rfl⟩ := h
  refine hull_trans (l := [a, b, c]) ⟨[1 - s - t, s, t], ⟨rfl, ?_, ?_⟩, ?_⟩ ?_
  · simp only [List.mem_cons, List.not_mem_nil, or_false, forall_eq_or_imp, forall_eq]
    exact ⟨by linarith, s0, t0⟩
  · simp only [List.sum_cons, List.sum_nil]
    ring
  · simp only [List.map_cons, List.map_nil, rdot, along, vec3, List.zipWith_cons_cons, List.zipWith_nil_left, List.sum_cons, List.sum_nil]
    refine ⟨?_, ?_, ?_⟩ <;> ring
  · simp only [List.mem_cons, List.not_mem_nil, or_false, forall_eq_or_imp, forall_eq]
    exact ⟨mem_hull (List.mem_of_getElem? ha), mem_hull (List.mem_of_getElem? hb), mem_hull (List.mem_of_getElem? hc)⟩

theorem edge_inFace {m : Mesh ℝ} {f : ℕ × ℕ × ℕ} (hv : f.1 < m.v.length ∧ f.2.1 < m.v.length ∧ f.2.2 < m.v.length) {u v : ℕ}
    (h : hasEdge f u v = true) {q : V3 ℝ} (hq : OnSegment (pt m u) (pt m v) q) : InFace m f q := by
  obtain ⟨t, t0, t1, rfl⟩ := hq
  refine ⟨_, _, _, pt_some hv.1, pt_some hv.2.1, pt_some hv.2.2, ?_⟩
  simp only [hasEdge, corner, Bool.and_eq_true, decide_eq_true_eq] at h
  obtain ⟨⟨hne, hu⟩, hv'⟩ := h
  rcases hu with rfl | rfl | rfl <;> rcases hv' with rfl | rfl | rfl
  · exact absurd rfl hne
  · exact ⟨t, 0, t0, le_rfl, by linarith, by ext <;> simp only [along, vec3] <;> ring⟩
  · exact ⟨0, t, le_rfl, t0, by linarith, by ext <;> simp only [along, vec3] <;> ring⟩
  · exact ⟨1 - t, 0, by linarith, le_rfl, by linarith, by ext <;> simp only [along, vec3] <;> ring⟩
  · exact absurd rfl hne
  · exact ⟨1 - t, t, by linarith, t0, by linarith, by ext <;> simp only [along, vec3] <;> ring⟩
  · exact ⟨0, 1 - t, le_rfl, by linarith, by linarith, by ext <;> simp only [along, vec3] <;> ring⟩
  · exact ⟨t, 1 - t, t0, by linarith, by linarith, by ext <;> simp only [along, vec3] <;> ring⟩
  · exact absurd rfl hne

theorem hits_surface {pl : Plane ℝ} {m : Mesh ℝ} (hv : ValidFaces m) {q : V3 ℝ} (h : q ∈ hits pl m) : OnPlane pl q ∧ OnSurface m q := by
  obtain ⟨u, v, hu, hv', ⟨f, hf, he⟩, hne, h0, h1, rfl⟩ := mem_hits.mp h
  refine ⟨?_, f, hf, edge_inFace (hv f hf) he ⟨_, h0, h1, rfl⟩⟩
  rw [onPlane_iff, height_along]
  have : height pl (pt m u) - height pl (pt m v) ≠ 0 := sub_ne_zero.mpr hne
  field_simp
  ring

/-- the vertices of a polyline are points of it -/
theorem mem_onChain {v : List (V3 ℝ)} {cl : Bool} (hw : WellEnded v cl) {p : V3 ℝ} (hp : p ∈ v) : OnChain v cl p := by
  have left : ∀ a b : V3 ℝ, OnSegment a b a := fun a b => ⟨0, le_rfl, zero_le_one, by ext <;> simp [along]⟩
  have right : ∀ a b : V3 ℝ, OnSegment a b b := fun a b => ⟨1, zero_le_one, le_rfl, by ext <;> simp [along, vec3]⟩
  have two : ∀ (l : List (V3 ℝ)), 2 ≤ l.length → p ∈ l → ∃ s ∈ pairs l, OnSegment s.1 s.2 p := by
    intro l
    induction l with
    | nil => intro h; simp at h
    | cons a l ih =>
      intro h2 hp
      match l, h2 with
      | b :: r, _ =>
        rcases List.mem_cons.mp hp with rfl | hp
        · exact ⟨(p, b), by simp [pairs], left _ _⟩
        · by_cases hr : r = []
          · subst hr
            simp at hp
            subst hp
            exact ⟨(a, p), by simp [pairs], right _ _⟩
          · obtain ⟨s, hs, h⟩ := ih (by have := List.length_pos_iff.mpr hr; simp; omega) hp
            exact ⟨s, by simp [pairs, hs], h⟩
  refine two _ ?_ (by simp [circuit, hp])
  obtain ⟨h1, h2⟩ := hw
  match v, h1 with
  | [a], _ =>
    cases cl
    · simp at h2
    · simp [circuit]
  | a :: b :: r, _ => simp [circuit]

theorem pairs_mem {P : Type} : ∀ {l : List P} {s : P × P}, s ∈ pairs l → s.1 ∈ l ∧ s.2 ∈ l
  | [], _, h => by simp [pairs] at h
  | [_], _, h => by simp [pairs] at h
  | a :: b :: r, s, h => by
    rcases List.mem_cons.mp h with rfl | h
    · simp
    · have := pairs_mem h
      exact ⟨List.mem_cons_of_mem _ this.1, List.mem_cons_of_mem _ this.2⟩

theorem chain_hull {v : List (V3 ℝ)} {cl : Bool} {q : V3 ℝ} (h : OnChain v cl q) : InHull3 v q := by
  obtain ⟨s, hs, hq⟩ := h
  have e : ∀ x ∈ circuit v cl, x ∈ v := by
    intro x hx
    rcases List.mem_append.mp hx with h | h
    · exact h
    · cases cl
      · simp at h
      · simp only [if_true, Option.mem_toList] at h
        exact List.mem_of_head? h
  have := pairs_mem hs
  exact segment_hull (mem_hull (e _ this.1)) (mem_hull (e _ this.2)) hq

/-- polylines through all the points of surface and plane span what the plane cuts out of the solid -/
theorem span_of_points (ver : PyVer) (pk : ℕ → Picker) (ko : ℕ → KeyOrder) {pl : Plane ℝ} {m : Mesh ℝ} (hn : pl.n ≠ zero3)
    (hv : ValidFaces m) (ho : OutwardMesh m) (hf : m.f ≠ []) {cs : List (Section ℝ)} (hw : ∀ c ∈ cs, WellEnded c.v c.closed)
    (hq : ∀ q, (∃ c ∈ cs, OnChain c.v c.closed q) ↔ OnPlane pl q ∧ OnSurface m q) :
    (cs = [] ↔ ∀ q, OnPlane pl q → ¬ InHull3 m.v q) ∧
    ∀ q, InHull3 (cs.flatMap fun c => c.v) q ↔ OnPlane pl q ∧ InHull3 m.v q := by
  have main : ∀ q, InHull3 (cs.flatMap fun c => c.v) q ↔ OnPlane pl q ∧ InHull3 m.v q := by
    intro q
    constructor
    · intro h
      have hp : ∀ p ∈ cs.flatMap fun c => c.v, OnPlane pl p ∧ OnSurface m p := by
        intro p hp
        obtain ⟨c, hc, hp⟩ := List.mem_flatMap.mp hp
        exact (hq p).mp ⟨c, hc, mem_onChain (hw c hc) hp⟩
      refine ⟨?_, hull_trans h fun p h' => ?_⟩
      · have hl : ∀ p, OnPlane pl p ↔ inner3 pl.n p = inner3 pl.n pl.r0 := by
          intro p
          rw [onPlane_iff]
          simp only [height, vec3, inner3]
          constructor <;> intro h <;> linarith
        rw [hl]
        exact hull_level h fun p h' => (hl p).mp (hp p h').1
      · obtain ⟨f, _, h'⟩ := (hp p h').2
        exact inFace_hull h'
    · rintro ⟨h1, h2⟩
      refine hull_trans (spanned ver pk ko hn hv ho hf h1 h2) fun p hp => ?_
      obtain ⟨c, hc, h⟩ := (hq p).mpr (hits_surface hv hp)
      exact hull_trans (chain_hull h) fun x hx => mem_hull (List.mem_flatMap.mpr ⟨c, hc, hx⟩)
  refine ⟨⟨?_, ?_⟩, main⟩
  · rintro rfl q h1 h2
    obtain ⟨ws, ⟨h1, _, h3⟩, _⟩ := (main q).mpr ⟨h1, h2⟩
    rw [List.flatMap_nil, List.length_nil, List.length_eq_zero_iff] at h1
    subst h1
    simp at h3
  · intro h
    by_contra hne
    obtain ⟨c, hc⟩ := List.exists_mem_of_ne_nil _ hne
    obtain ⟨p, hp⟩ := List.exists_mem_of_ne_nil _ (hw c hc).1
    have := (main p).mp (mem_hull (List.mem_flatMap.mpr ⟨c, hc, hp⟩))
    exact h p this.1 this.2

end CV
open CV

/-- **C139.** A convex solid cut by a plane that may pass through vertices and along edges of its surface, no face in the plane and
none listed from a corner on it with the other two on opposite sides: nothing is returned exactly if the plane misses the solid, and the
convex combinations of the vertices of all polylines are the points of the solid in the plane. -/
theorem C139_section (ver : PyVer) (pk : ℕ → Picker) (ko : ℕ → KeyOrder) (pl : Plane ℝ) (m : Mesh ℝ) (hn : pl.n ≠ zero3)
    (hv : ValidFaces m) (ho : OutwardMesh m) (hf : m.f ≠ []) (hin : ∀ f ∈ m.f, ¬ Spec.InPlane pl m.v f)
    (hpin : ∀ f ∈ m.f, ¬ Pinched pl m.v f) :
    ∃ cs, pl.meshXsections ver pk ko m = .ok cs ∧ (cs = [] ↔ ∀ q, OnPlane pl q → ¬ InHull3 m.v q) ∧
      ∀ q, InHull3 (cs.flatMap fun c => c.v) q ↔ OnPlane pl q ∧ InHull3 m.v q := by
  obtain ⟨hp, hcl⟩ := IS.closed hv ho
  obtain ⟨cs, h1, h2, h3⟩ := C138_complete ver pk ko pl m hv hp hin (CX.manifold_of_closed hcl) hcl.2 hpin
  exact ⟨cs, h1, span_of_points ver pk ko hn hv ho hf h2 h3⟩

/-- **C139.** The same for every convex solid after listing the pinched faces from their second corner on. -/
theorem C139_turned (ver : PyVer) (pk : ℕ → Picker) (ko : ℕ → KeyOrder) (pl : Plane ℝ) (m : Mesh ℝ) (hn : pl.n ≠ zero3)
    (hv : ValidFaces m) (ho : OutwardMesh m) (hf : m.f ≠ []) (hin : ∀ f ∈ m.f, ¬ Spec.InPlane pl m.v f) :
    ∃ cs, pl.meshXsections ver pk ko
        ⟨m.v, m.f.map fun f => open Classical in if Pinched pl m.v f then turnFace f else f⟩ = .ok cs ∧
      (cs = [] ↔ ∀ q, OnPlane pl q → ¬ InHull3 m.v q) ∧
      ∀ q, InHull3 (cs.flatMap fun c => c.v) q ↔ OnPlane pl q ∧ InHull3 m.v q := by
  obtain ⟨hp, hcl⟩ := IS.closed hv ho
  obtain ⟨cs, h1, h2, h3⟩ := C138_turned ver pk ko pl m hv hp hin (CX.manifold_of_closed hcl) hcl.2
  exact ⟨cs, h1, span_of_points ver pk ko hn hv ho hf h2 h3⟩

/-- **C139.** A plane touching the solid, all of it on one side, in no face: the section is complete however the faces are listed. -/
theorem C139_touching (ver : PyVer) (pk : ℕ → Picker) (ko : ℕ → KeyOrder) (pl : Plane ℝ) (m : Mesh ℝ) (hn : pl.n ≠ zero3)
    (hv : ValidFaces m) (ho : OutwardMesh m) (hf : m.f ≠ []) (hin : ∀ f ∈ m.f, ¬ Spec.InPlane pl m.v f)
    (hside : (∀ p ∈ m.v, 0 ≤ height pl p) ∨ ∀ p ∈ m.v, height pl p ≤ 0) :
    ∃ cs, pl.meshXsections ver pk ko m = .ok cs ∧ (cs = [] ↔ ∀ p ∈ m.v, ¬ OnPlane pl p) ∧
      (∀ q, (∃ c ∈ cs, OnChain c.v c.closed q) ↔ OnPlane pl q ∧ OnSurface m q) ∧
      ∀ q, InHull3 (cs.flatMap fun c => c.v) q ↔ OnPlane pl q ∧ InHull3 m.v q := by
  obtain ⟨hp, hcl⟩ := IS.closed hv ho
  have hpin : ∀ f ∈ m.f, ¬ Pinched pl m.v f := by
    rintro f _ ⟨_, a, b, ha, hb, hab⟩
    have ha := List.mem_of_getElem? ha
    have hb := List.mem_of_getElem? hb
    rcases hside with h | h
    · nlinarith [h a ha, h b hb, mul_nonneg (h a ha) (h b hb)]
    · nlinarith [h a ha, h b hb, mul_nonneg_of_nonpos_of_nonpos (h a ha) (h b hb)]
  obtain ⟨cs, h1, h2, h3⟩ := C138_complete ver pk ko pl m hv hp hin (CX.manifold_of_closed hcl) hcl.2 hpin
  obtain ⟨k1, k2⟩ := span_of_points ver pk ko hn hv ho hf h2 h3
  refine ⟨cs, h1, ?_, h3, k2⟩
  rw [k1]
  constructor
  · intro h p hp ho
    exact h p ho (mem_hull hp)
  · intro h q hq hin
    have hl : ∀ p, height pl p = inner3 pl.n p - inner3 pl.n pl.r0 := by
      intro p
      simp only [height, vec3, inner3]; ring
    rw [onPlane_iff, hl] at hq
    have hne : ∀ p ∈ m.v, height pl p ≠ 0 := fun p hp => h p hp
    rcases hside with hs | hs
    · have := IS.hull_lt (w := scale3 (-1) pl.n) (k := -inner3 pl.n pl.r0) hin fun p hp => by
        have := lt_of_le_of_ne (hs p hp) (hne p hp).symm
        rw [hl] at this
        simp only [inner3, scale3] at this ⊢
        linarith
      simp only [inner3, scale3] at this hq
      linarith
    · have := IS.hull_lt (w := pl.n) (k := inner3 pl.n pl.r0) hin fun p hp => by
        have := lt_of_le_of_ne (hs p hp) (hne p hp)
        rw [hl] at this
        linarith
      linarith

/-- **C139.** A box cut by a plane that may pass through its corners. -/
theorem C139_prism (ver : PyVer) (pk : ℕ → Picker) (ko : ℕ → KeyOrder) (pl : Plane ℝ) (diag : ℕ → Bool) (o s : V3 ℝ)
    (hn : pl.n ≠ zero3) (hx : 0 < s.x) (hy : 0 < s.y) (hz : 0 < s.z)
    (hin : ∀ f ∈ (createRectangularPrism diag o s).2, ¬ Spec.InPlane pl (createRectangularPrism diag o s).1 f)
    (hpin : ∀ f ∈ (createRectangularPrism diag o s).2, ¬ Pinched pl (createRectangularPrism diag o s).1 f) :
    ∃ cs, pl.meshXsections ver pk ko ⟨(createRectangularPrism diag o s).1, (createRectangularPrism diag o s).2⟩ = .ok cs ∧
      ∀ q, InHull3 (cs.flatMap fun c => c.v) q ↔ OnPlane pl q ∧ (o.x ≤ q.x ∧ q.x ≤ o.x + s.x) ∧ (o.y ≤ q.y ∧ q.y ≤ o.y + s.y) ∧
        (o.z ≤ q.z ∧ q.z ≤ o.z + s.z) := by
  obtain ⟨hv, _, _⟩ := SolidSlice.box_facts diag o s
  obtain ⟨cs, h1, _, h3⟩ := C139_section ver pk ko pl (SolidSlice.box diag o s) hn hv (FS.box_outward diag o s hx hy hz)
    (IS.box_faces diag o s) hin hpin
  refine ⟨cs, h1, fun q => ?_⟩
  rw [h3]
  exact and_congr_right fun _ => FS.box_hull o s q hx hy hz


namespace CV

theorem seg_ends {a b c d : V3 ℝ} (h : ∀ q, OnSegment a b q ↔ OnSegment c d q) : a = c ∧ b = d ∨ a = d ∧ b = c := by
  have left : ∀ a b : V3 ℝ, OnSegment a b a := fun a b => ⟨0, le_rfl, zero_le_one, by ext <;> simp [along]⟩
  have right : ∀ a b : V3 ℝ, OnSegment a b b := fun a b => ⟨1, zero_le_one, le_rfl, by ext <;> simp [along, vec3]⟩
  obtain ⟨s, s0, s1, hs⟩ := (h c).mpr (left c d)
  obtain ⟨r, r0, r1, hr⟩ := (h d).mpr (right c d)
  obtain ⟨t, t0, t1, ht⟩ := (h a).mp (left a b)
  obtain ⟨k, k0, k1, hk⟩ := (h b).mp (right a b)
  by_cases hab : a = b
  · subst hab
    have e : ∀ t, along a t (vec3 a a) = a := fun t => by ext <;> simp [along, vec3]
    rw [e] at hs hr
    exact .inl ⟨hs.symm, hr.symm⟩
  have key : ∀ x y : ℝ, along a x (vec3 a b) = along a y (vec3 a b) → x = y := by
    intro x y hxy
    by_contra hne
    have hne' : x - y ≠ 0 := sub_ne_zero.mpr hne
    apply hab
    simp only [along, vec3, V3.mk.injEq] at hxy
    obtain ⟨h1, h2, h3⟩ := hxy
    ext
    · have : (x - y) * (b.x - a.x) = 0 := by linarith
      linarith [(mul_eq_zero.mp this).resolve_left hne']
    · have : (x - y) * (b.y - a.y) = 0 := by linarith
      linarith [(mul_eq_zero.mp this).resolve_left hne']
    · have : (x - y) * (b.z - a.z) = 0 := by linarith
      linarith [(mul_eq_zero.mp this).resolve_left hne']
  have ea : along a 0 (vec3 a b) = a := by ext <;> simp [along]
  have eb : along a 1 (vec3 a b) = b := by ext <;> simp [along, vec3]
  have mid : ∀ t, along c t (vec3 c d) = along a (s + t * (r - s)) (vec3 a b) := by
    intro t
    rw [hs, hr]
    ext <;> simp only [along, vec3] <;> ring
  have h1 : 0 = s + t * (r - s) := key _ _ (by rw [ea, ← mid]; exact ht)
  have h2 : 1 = s + k * (r - s) := key _ _ (by rw [eb, ← mid]; exact hk)
  have p1 : (1 - t) * s = 0 ∧ t * r = 0 := by
    have a1 : 0 ≤ (1 - t) * s := mul_nonneg (by linarith) s0
    have a2 : 0 ≤ t * r := mul_nonneg t0 r0
    constructor <;> linarith
  have p2 : (1 - k) * (1 - s) = 0 ∧ k * (1 - r) = 0 := by
    have a1 : 0 ≤ (1 - k) * (1 - s) := mul_nonneg (by linarith) (by linarith)
    have a2 : 0 ≤ k * (1 - r) := mul_nonneg k0 (by linarith)
    constructor <;> linarith
  rcases mul_eq_zero.mp p1.1 with h | h
  · have t1 : t = 1 := by linarith
    have r0 : r = 0 := by simpa [t1] using p1.2
    have k0 : k = 0 := by simpa [r0] using p2.2
    have s1 : s = 1 := by rw [k0] at p2; linarith [p2.1]
    rw [s1, eb] at hs
    rw [r0, ea] at hr
    exact .inr ⟨hr.symm, hs.symm⟩
  · have k1 : k = 1 := by rw [h] at p2; linarith [p2.1]
    have r1 : r = 1 := by rw [k1] at p2; linarith [p2.2]
    rw [h, ea] at hs
    rw [r1, eb] at hr
    exact .inl ⟨hs.symm, hr.symm⟩

open Classical in
/-- how often the point is an end of the segment -/
noncomputable def tips (u : V3 ℝ) (s : V3 ℝ × V3 ℝ) : ℕ := (if s.1 = u then 1 else 0) + if s.2 = u then 1 else 0

open Classical in
/-- a point is an even number of times an end of a segment of a closed polyline -/
theorem closed_even (u : V3 ℝ) (v : List (V3 ℝ)) : _root_.Even ((chainSegs v true).map (tips u)).sum := by
  have gen : ∀ (l : List (V3 ℝ)) (a z : V3 ℝ), ((pairs (a :: l ++ [z])).map (tips u)).sum =
      2 * (l.map fun p => if p = u then 1 else 0).sum + (if a = u then 1 else 0) + if z = u then 1 else 0 := by
    intro l
    induction l with
    | nil => intro a z; simp [pairs, tips]
    | cons b l ih =>
      intro a z
      have e : pairs (a :: (b :: l) ++ [z]) = (a, b) :: pairs (b :: l ++ [z]) := rfl
      rw [e, List.map_cons, List.sum_cons, ih b z, List.map_cons, List.sum_cons]
      simp only [tips]
      ring
  cases v with
  | nil => simp [chainSegs, circuit, pairs]
  | cons a l =>
    have : chainSegs (a :: l) true = pairs (a :: l ++ [a]) := rfl
    rw [this, gen]
    refine ⟨(l.map fun p => if p = u then 1 else 0).sum + if a = u then 1 else 0, ?_⟩
    ring

/-- a tetrahedron with an edge in the horizontal plane and one vertex on either side -/
def fold (fs : List (ℕ × ℕ × ℕ)) : Mesh ℝ := ⟨[⟨0, 0, 0⟩, ⟨3, 0, 0⟩, ⟨0, 4, 1⟩, ⟨0, 4, -1⟩], fs⟩

/-- its faces, listed from corners off the plane -/
def offFaces : List (ℕ × ℕ × ℕ) := [(2, 0, 1), (2, 3, 0), (3, 1, 0), (3, 2, 1)]

/-- its faces, listed from corners on the plane -/
def onFaces : List (ℕ × ℕ × ℕ) := [(0, 1, 2), (0, 2, 3), (0, 3, 1), (1, 3, 2)]

theorem fold_ok {fs : List (ℕ × ℕ × ℕ)} (h : fs = offFaces ∨ fs = onFaces) :
    ValidFaces (fold fs) ∧ OutwardMesh (fold fs) ∧ (∀ f ∈ fs, ¬ Spec.InPlane ground (fold fs).v f) := by
  refine ⟨?_, ⟨?_, ?_⟩, ?_⟩
  · rcases h with rfl | rfl <;> simp [ValidFaces, fold, offFaces, onFaces]
  · rcases h with rfl | rfl <;> simp only [fold] <;> decide
  · rcases h with rfl | rfl <;> simp [fold, offFaces, onFaces, Spec.corners, Behind, inner3, cross3, vec3] <;> norm_num
  · intro f hf hin
    have h2 : corner f 2 = true → False := fun hc => by
      have := hin 2 hc ⟨0, 4, 1⟩ rfl
      norm_num [onPlane_iff, ground, height, inner3, vec3] at this
    have h3 : corner f 3 = true → False := fun hc => by
      have := hin 3 hc ⟨0, 4, -1⟩ rfl
      norm_num [onPlane_iff, ground, height, inner3, vec3] at this
    rcases h with rfl | rfl <;> simp only [offFaces, onFaces, List.mem_cons, List.not_mem_nil, or_false] at hf <;>
      rcases hf with rfl | rfl | rfl | rfl <;> simp [corner] at h2 h3

theorem fold_pin : ∀ f ∈ (fold offFaces).f, ¬ Pinched ground (fold offFaces).v f := by
  intro f hf
  simp only [fold, offFaces, List.mem_cons, List.not_mem_nil, or_false] at hf
  rcases hf with rfl | rfl | rfl | rfl <;> rintro ⟨⟨a, ha, hpa⟩, _⟩ <;> simp [fold] at ha <;> subst ha <;>
    norm_num [onPlane_iff, ground, height, inner3, vec3] at hpa

/-- what the faces and the plane have in common -/
theorem fold_chord : Chord ground (fold offFaces) (2, 0, 1) (⟨0, 0, 0⟩, ⟨3, 0, 0⟩) ∧
    Chord ground (fold offFaces) (2, 3, 0) (⟨0, 4, 0⟩, ⟨0, 0, 0⟩) ∧ Chord ground (fold offFaces) (3, 1, 0) (⟨3, 0, 0⟩, ⟨0, 0, 0⟩) ∧
    Chord ground (fold offFaces) (3, 2, 1) (⟨0, 4, 0⟩, ⟨3, 0, 0⟩) := by
  have gen : ∀ (f : ℕ × ℕ × ℕ) (a b c p q : V3 ℝ) (t r : ℝ), (fold offFaces).v[f.1]? = some a → (fold offFaces).v[f.2.1]? = some b →
      (fold offFaces).v[f.2.2]? = some c → height ground a ≠ 0 → OnPlane ground p → OnPlane ground q → 0 ≤ t → t ≤ 1 →
      p = along a t (vec3 a b) → 0 ≤ r → r ≤ 1 → q = along a r (vec3 a c) → Chord ground (fold offFaces) f (p, q) := by
    intro f a b c p q t r ha hb hc hna hp hq t0 t1 ht r0 r1 hr x
    rw [Blmath.VS.chord_corner hna hp ⟨t, t0, t1, ht⟩ hq ⟨r, r0, r1, hr⟩ x]
    refine and_congr_right fun _ => ⟨fun h => ⟨a, b, c, ha, hb, hc, h⟩, ?_⟩
    rintro ⟨a', b', c', ha', hb', hc', h⟩
    rw [ha] at ha'
    rw [hb] at hb'
    rw [hc] at hc'
    cases ha'
    cases hb'
    cases hc'
    exact h
  refine ⟨gen _ _ _ _ _ _ 1 1 rfl rfl rfl ?_ ?_ ?_ ?_ ?_ ?_ ?_ ?_ ?_, gen _ _ _ _ _ _ (1 / 2) 1 rfl rfl rfl ?_ ?_ ?_ ?_ ?_ ?_ ?_ ?_ ?_,
    gen _ _ _ _ _ _ 1 1 rfl rfl rfl ?_ ?_ ?_ ?_ ?_ ?_ ?_ ?_ ?_, gen _ _ _ _ _ _ (1 / 2) 1 rfl rfl rfl ?_ ?_ ?_ ?_ ?_ ?_ ?_ ?_ ?_⟩ <;>
    norm_num [onPlane_iff, ground, height, inner3, vec3, along]

theorem fold_straddles : (offFaces.filter fun f => open Classical in decide (Straddles ground (fold offFaces).v f)) = offFaces := by
  rw [List.filter_eq_self]
  intro f hf
  simp only [decide_eq_true_eq]
  obtain ⟨c1, c2, c3, c4⟩ := fold_chord
  have left : ∀ a b : V3 ℝ, OnSegment a b a := fun a b => ⟨0, le_rfl, zero_le_one, by ext <;> simp [along]⟩
  simp only [offFaces, List.mem_cons, List.not_mem_nil, or_false] at hf
  have gen : ∀ (f : ℕ × ℕ × ℕ) (p q : V3 ℝ), Chord ground (fold offFaces) f (p, q) → Straddles ground (fold offFaces).v f := by
    intro f p q h
    obtain ⟨h1, h2⟩ := (h p).mp (left p q)
    exact CH.straddles_of_point h2 h1
  rcases hf with rfl | rfl | rfl | rfl
  · exact gen _ _ _ c1
  · exact gen _ _ _ c2
  · exact gen _ _ _ c3
  · exact gen _ _ _ c4

end CV

/-- **C139**, used on a tetrahedron with an edge in the plane and a vertex on either side, its faces listed from corners off the plane.
The section is the triangle with the corners `(0, 0, 0)`, `(3, 0, 0)` and `(0, 4, 0)`, whose perimeter is 12; the polylines add up to 15,
since the edge in the plane is in two of them or twice in one, and not all are closed. -/
theorem C139_witness (ver : PyVer) (pk : ℕ → Picker) (ko : ℕ → KeyOrder) :
    OutwardMesh (fold offFaces) ∧
    ∃ cs, ground.meshXsections ver pk ko (fold offFaces) = .ok cs ∧
      (∀ q, InHull3 (cs.flatMap fun c => c.v) q ↔ OnPlane ground q ∧ InHull3 (fold offFaces).v q) ∧
      InHull3 (cs.flatMap fun c => c.v) ⟨1, 1, 0⟩ ∧
      (∃ ls, List.Forall₂ (fun (c : Section ℝ) l => (poly c.v c.closed).totalLength = .ok l) cs ls ∧ ls.sum = 15) ∧
      ∃ c ∈ cs, c.closed = false := by
  obtain ⟨hv, ho, hin⟩ := fold_ok (.inl rfl)
  obtain ⟨hp, hcl⟩ := IS.closed hv ho
  have hman := CX.manifold_of_closed hcl
  have hn : ground.n ≠ zero3 := by
    intro h
    have := congrArg V3.z h
    simp [ground, zero3] at this
  refine ⟨ho, ?_⟩
  obtain ⟨cs, h1, -, h3⟩ := C139_section ver pk ko ground (fold offFaces) hn hv ho (by simp [fold, offFaces]) hin fold_pin
  obtain ⟨cs', ls, ds, k1, k2, k3, k4⟩ := C138_length ver pk ko ground (fold offFaces) hv hp hin hman hcl.2
  obtain ⟨cs'', fs, j1, -, j2, j3⟩ := C138_segments ver pk ko ground (fold offFaces) hv hp hin hman hcl.2
  rw [h1] at k1 j1
  cases k1
  cases j1
  obtain ⟨c1, c2, c3, c4⟩ := fold_chord
  refine ⟨cs, h1, h3, ?_, ⟨ls, k2, ?_⟩, ?_⟩
  · rw [h3]
    refine ⟨by norm_num [onPlane_iff, ground, height, inner3, vec3], [5 / 12, 1 / 3, 1 / 8, 1 / 8], ⟨rfl, ?_, ?_⟩, ?_, ?_, ?_⟩ <;>
      norm_num [fold, rdot]
  · rw [k4]
    rw [show (fold offFaces).f = offFaces from rfl, fold_straddles] at k3
    have five : dist3 (⟨0, 4, 0⟩ : V3 ℝ) ⟨3, 0, 0⟩ = 5 := by
      rw [dist3, len3, Real.sqrt_eq_iff_eq_sq (by positivity) (by norm_num)]
      norm_num [vec3]
    have four : dist3 (⟨0, 4, 0⟩ : V3 ℝ) ⟨0, 0, 0⟩ = 4 := by
      rw [dist3, len3, Real.sqrt_eq_iff_eq_sq (by positivity) (by norm_num)]
      norm_num [vec3]
    have three : dist3 (⟨0, 0, 0⟩ : V3 ℝ) ⟨3, 0, 0⟩ = 3 := by
      rw [dist3, len3, Real.sqrt_eq_iff_eq_sq (by positivity) (by norm_num)]
      norm_num [vec3]
    have three' : dist3 (⟨3, 0, 0⟩ : V3 ℝ) ⟨0, 0, 0⟩ = 3 := by
      rw [dist3, len3, Real.sqrt_eq_iff_eq_sq (by positivity) (by norm_num)]
      norm_num [vec3]
    have hpin := fold_pin
    simp only [offFaces] at k3
    cases k3 with
    | cons e1 k3 => cases k3 with
      | cons e2 k3 => cases k3 with
        | cons e3 k3 => cases k3 with
          | cons e4 k3 =>
            cases k3
            have e1 := C127_length_unique _ _ _ _ _ (e1.1 (hpin _ (by simp [fold, offFaces]))) ⟨_, _, c1, rfl⟩
            have e2 := C127_length_unique _ _ _ _ _ (e2.1 (hpin _ (by simp [fold, offFaces]))) ⟨_, _, c2, rfl⟩
            have e3 := C127_length_unique _ _ _ _ _ (e3.1 (hpin _ (by simp [fold, offFaces]))) ⟨_, _, c3, rfl⟩
            have e4 := C127_length_unique _ _ _ _ _ (e4.1 (hpin _ (by simp [fold, offFaces]))) ⟨_, _, c4, rfl⟩
            rw [e1, e2, e3, e4, three, four, three', five]
            norm_num
  · by_contra hc
    push Not at hc
    have hall : ∀ c ∈ cs, c.closed = true := fun c h => by simpa using hc c h
    have heven : _root_.Even ((cs.flatMap fun c => chainSegs c.v c.closed).map (tips ⟨0, 0, 0⟩)).sum := by
      clear h1 h3 k2 j3 hc
      induction cs with
      | nil => simp
      | cons c cs ih =>
        rw [List.flatMap_cons, List.map_append, List.sum_append]
        refine _root_.Even.add ?_ (ih fun c h => hall c (List.mem_cons_of_mem _ h))
        rw [hall c (by simp)]
        exact closed_even _ _
    rw [show (fold offFaces).f = offFaces from rfl, fold_straddles] at j2
    have key : ∀ f s, f ∈ fs → Piece ground (fold offFaces) f s → tips ⟨0, 0, 0⟩ s = if f = (3, 2, 1) then 0 else 1 := by
      intro f s hf hs
      have hf := j2.subset hf
      have hs := hs.1 (fold_pin f hf)
      have two : ∀ p q : V3 ℝ, Chord ground (fold offFaces) f (p, q) → tips ⟨0, 0, 0⟩ s = tips ⟨0, 0, 0⟩ (p, q) := by
        intro p q h
        rcases seg_ends (fun x => (hs x).trans (h x).symm) with ⟨h1, h2⟩ | ⟨h1, h2⟩
        · simp only [tips, h1, h2]
        · simp only [tips, h1, h2]
          ring
      simp only [offFaces, List.mem_cons, List.not_mem_nil, or_false] at hf
      rcases hf with rfl | rfl | rfl | rfl
      · rw [two _ _ c1]; simp [tips]
      · rw [two _ _ c2]; simp [tips]
      · rw [two _ _ c3]; simp [tips]
      · rw [two _ _ c4]; simp [tips]
    have hsum : ∀ (l : List (ℕ × ℕ × ℕ)) (S : List (V3 ℝ × V3 ℝ)), (∀ f ∈ l, f ∈ fs) → List.Forall₂ (Piece ground (fold offFaces)) l S →
        (S.map (tips ⟨0, 0, 0⟩)).sum = (l.map fun f => if f = (3, 2, 1) then 0 else 1).sum := by
      intro l S hl h
      induction h with
      | nil => rfl
      | cons h _ ih =>
        rw [List.map_cons, List.map_cons, List.sum_cons, List.sum_cons, ih fun f hf => hl f (List.mem_cons_of_mem _ hf),
          key _ _ (hl _ (by simp)) h]
    rw [hsum fs _ (fun _ h => h) j3, (j2.map _).sum_eq] at heven
    revert heven
    decide

/-- **C139.** The condition on the listing cannot be left out: with the same faces listed from corners on the plane the point `(0, 4, 0)`
of the section is not even in the convex hull of what is returned. -/
theorem C139_lost (ver : PyVer) (pk : ℕ → Picker) (ko : ℕ → KeyOrder) :
    OutwardMesh (fold onFaces) ∧ OnPlane ground ⟨0, 4, 0⟩ ∧ InHull3 (fold onFaces).v ⟨0, 4, 0⟩ ∧
    ∃ cs, ground.meshXsections ver pk ko (fold onFaces) = .ok cs ∧ ¬ InHull3 (cs.flatMap fun c => c.v) ⟨0, 4, 0⟩ := by
  obtain ⟨hv, ho, hin⟩ := fold_ok (.inr rfl)
  obtain ⟨hp, hcl⟩ := IS.closed hv ho
  refine ⟨ho, by norm_num [onPlane_iff, ground, height, inner3, vec3], ?_, ?_⟩
  · refine ⟨[0, 0, 1 / 2, 1 / 2], ⟨rfl, ?_, ?_⟩, ?_, ?_, ?_⟩ <;> norm_num [fold, rdot]
  · obtain ⟨cs, h1, h2, h3⟩ := C138_points ver pk ko ground (fold onFaces) hv hp hin (CX.manifold_of_closed hcl) hcl.2
    refine ⟨cs, h1, fun h => ?_⟩
    have := CX.hull_level (w := ⟨0, 1, 0⟩) (k := 0) h ?_
    · norm_num [inner3] at this
    · intro p hpc
      obtain ⟨c, hc, hpc⟩ := List.mem_flatMap.mp hpc
      obtain ⟨hpl, f, hf, ⟨a, b, c, ha, hb, hc, s, t, s0, t0, st, rfl⟩, hpn⟩ := (h3 p).mp ⟨c, hc, mem_onChain (h2 c hc) hpc⟩
      simp only [fold, onFaces, List.mem_cons, List.not_mem_nil, or_false] at hf
      rcases hf with rfl | rfl | rfl | rfl <;> simp [fold] at ha hb hc <;> subst ha hb hc
      · simp only [onPlane_iff, ground, height, inner3, vec3, along] at hpl ⊢
        linarith
      · have := hpn ⟨⟨⟨0, 0, 0⟩, rfl, by norm_num [onPlane_iff, ground, height, inner3, vec3]⟩, ⟨0, 4, 1⟩, ⟨0, 4, -1⟩, rfl, rfl,
          by norm_num [ground, height, inner3, vec3]⟩
        rw [← Option.some.inj this]
        norm_num [inner3]
      · simp only [onPlane_iff, ground, height, inner3, vec3, along] at hpl ⊢
        linarith
      · have := hpn ⟨⟨⟨3, 0, 0⟩, rfl, by norm_num [onPlane_iff, ground, height, inner3, vec3]⟩, ⟨0, 4, -1⟩, ⟨0, 4, 1⟩, rfl, rfl,
          by norm_num [ground, height, inner3, vec3]⟩
        rw [← Option.some.inj this]
        norm_num [inner3]


namespace CV

/-- the upright plane `x = 2 z` through an edge of the unit cube -/
def upright : Plane ℝ := ⟨⟨0, 0, 0⟩, ⟨1, 0, -2⟩⟩

theorem cube_v (diag : ℕ → Bool) : (createCube diag (⟨0, 0, 0⟩ : V3 ℝ) 1).1 =
    [⟨0, 0, 0⟩, ⟨1, 0, 0⟩, ⟨1, 0, 1⟩, ⟨0, 0, 1⟩, ⟨0, 1, 0⟩, ⟨1, 1, 0⟩, ⟨1, 1, 1⟩, ⟨0, 1, 1⟩] := by
  simp [createCube, createRectangularPrism, prismVertices, V3.ext_iff]

theorem cube_off (diag : ℕ → Bool) : ∀ f ∈ (createCube diag (⟨0, 0, 0⟩ : V3 ℝ) 1).2,
    ¬ Spec.InPlane upright (createCube diag (⟨0, 0, 0⟩ : V3 ℝ) 1).1 f := by
  intro f hf hin
  rw [cube_v] at hin
  have no : ∀ (i : ℕ) (p : V3 ℝ), ([⟨0, 0, 0⟩, ⟨1, 0, 0⟩, ⟨1, 0, 1⟩, ⟨0, 0, 1⟩, ⟨0, 1, 0⟩, ⟨1, 1, 0⟩, ⟨1, 1, 1⟩, ⟨0, 1, 1⟩] : List (V3 ℝ))[i]? = some p →
      height upright p ≠ 0 → corner f i = true → False := fun i p hp hne hc => hne (hin i hc p hp)
  have n1 := no 1 _ rfl (by norm_num [upright, height, inner3, vec3])
  have n2 := no 2 _ rfl (by norm_num [upright, height, inner3, vec3])
  have n3 := no 3 _ rfl (by norm_num [upright, height, inner3, vec3])
  have n5 := no 5 _ rfl (by norm_num [upright, height, inner3, vec3])
  have n6 := no 6 _ rfl (by norm_num [upright, height, inner3, vec3])
  have n7 := no 7 _ rfl (by norm_num [upright, height, inner3, vec3])
  obtain ⟨a, b, c, d, hq, hf⟩ := FS.mem_box_faces hf
  simp only [prismQuads, List.mem_cons, List.not_mem_nil, or_false, Prod.mk.injEq] at hq
  rcases hq with ⟨rfl, rfl, rfl, rfl⟩ | ⟨rfl, rfl, rfl, rfl⟩ | ⟨rfl, rfl, rfl, rfl⟩ | ⟨rfl, rfl, rfl, rfl⟩ | ⟨rfl, rfl, rfl, rfl⟩ |
    ⟨rfl, rfl, rfl, rfl⟩ <;> rcases hf with rfl | rfl | rfl | rfl <;> simp [corner] at n1 n2 n3 n5 n6 n7

end CV

/-- **C139.** The cube of the library: if its lower base is divided along the diagonal from the corner listed first, the section by an
upright plane through the edge at that corner is incomplete: the cut through the base is missing. -/
theorem C139_cube (ver : PyVer) (pk : ℕ → Picker) (ko : ℕ → KeyOrder) (diag : ℕ → Bool) (hd : diag 0 = true) :
    ∃ cs, upright.meshXsections ver pk ko ⟨(createCube diag ⟨0, 0, 0⟩ 1).1, (createCube diag (⟨0, 0, 0⟩ : V3 ℝ) 1).2⟩ = .ok cs ∧
      OnPlane upright ⟨1 / 2, 0, 1 / 4⟩ ∧
      OnSurface ⟨(createCube diag ⟨0, 0, 0⟩ 1).1, (createCube diag (⟨0, 0, 0⟩ : V3 ℝ) 1).2⟩ ⟨1 / 2, 0, 1 / 4⟩ ∧
      ¬ ∃ c ∈ cs, OnChain c.v c.closed ⟨1 / 2, 0, 1 / 4⟩ := by
  obtain ⟨hv, hp, hcl⟩ := SolidSlice.box_facts diag ⟨0, 0, 0⟩ ⟨1, 1, 1⟩
  obtain ⟨cs, h1, _, h3⟩ := C138_points ver pk ko upright ⟨(createCube diag ⟨0, 0, 0⟩ 1).1, (createCube diag (⟨0, 0, 0⟩ : V3 ℝ) 1).2⟩
    hv hp (cube_off diag) (CX.manifold_of_closed hcl) hcl.2
  have hmem : (0, 1, 2) ∈ (createCube diag (⟨0, 0, 0⟩ : V3 ℝ) 1).2 := by
    simp [createCube, createRectangularPrism, prismQuads, quadsToTris, splitQuad, hd]
  have hno : ∀ f ∈ (createCube diag (⟨0, 0, 0⟩ : V3 ℝ) 1).2, f = (1, 2, 3) ∨ f = (1, 3, 0) → False := by
    intro f hf h
    rcases h with rfl | rfl
    all_goals
      simp only [createCube, createRectangularPrism, prismQuads, quadsToTris, splitQuad, hd, if_true, List.mem_append] at hf
      revert hf
      cases diag 1 <;> cases diag 2 <;> cases diag 3 <;> cases diag 4 <;> cases diag 5 <;> decide
  refine ⟨cs, h1, by norm_num [onPlane_iff, upright, height, inner3, vec3], ?_, ?_⟩
  · refine ⟨(0, 1, 2), hmem, ⟨0, 0, 0⟩, ⟨1, 0, 0⟩, ⟨1, 0, 1⟩, ?_, ?_, ?_, 1 / 4, 1 / 4, by norm_num, by norm_num, by norm_num, ?_⟩
    · simp [cube_v]
    · simp [cube_v]
    · simp [cube_v]
    · ext <;> norm_num [along, vec3]
  · rw [h3]
    rintro ⟨_, f, hf, ⟨a, b, c, ha, hb, hc, s, t, s0, t0, st, e⟩, hpn⟩
    have hno := hno f hf
    simp only [cube_v] at ha hb hc hpn
    obtain ⟨i, j, k, l, hq, hf⟩ := FS.mem_box_faces hf
    simp only [prismQuads, List.mem_cons, List.not_mem_nil, or_false, Prod.mk.injEq] at hq
    simp only [along, vec3, V3.mk.injEq] at e
    obtain ⟨e1, e2, e3⟩ := e
    rcases hq with ⟨rfl, rfl, rfl, rfl⟩ | ⟨rfl, rfl, rfl, rfl⟩ | ⟨rfl, rfl, rfl, rfl⟩ | ⟨rfl, rfl, rfl, rfl⟩ | ⟨rfl, rfl, rfl, rfl⟩ |
      ⟨rfl, rfl, rfl, rfl⟩ <;> rcases hf with rfl | rfl | rfl | rfl <;> simp at ha hb hc <;> subst ha hb hc <;> first
      | (exfalso; linarith; done)
      | (refine hno ?_; simp; done)
      | (have := hpn ⟨⟨⟨0, 0, 0⟩, rfl, by norm_num [onPlane_iff, upright, height, inner3, vec3]⟩, ⟨1, 0, 0⟩, ⟨1, 0, 1⟩, rfl, rfl,
          by norm_num [upright, height, inner3, vec3]⟩
         simp [V3.ext_iff] at this)

end Blmath.Props
