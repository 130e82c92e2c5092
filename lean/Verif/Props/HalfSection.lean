import Verif.Props.ConvexCut
import Verif.Props.GirthOrder

/-!
Property C147: `mesh_xsection` of a convex solid followed by `cut_by_plane`.
-/

namespace Blmath.Props
open Blmath.Geometry Blmath.Spec Blmath.Proofs

namespace HS
open CX Blmath.TM

variable {pl : Plane ℝ} {l : List (V3 ℝ)} {q : V3 ℝ}

theorem height_inner (pl : Plane ℝ) (p : V3 ℝ) : height pl p = inner3 pl.n p - inner3 pl.n pl.r0 := by
  simp only [height, inner3, vec3]; ring

theorem hull_le (h : InHull3 l q) (hl : ∀ p ∈ l, height pl p ≤ 0) : height pl q ≤ 0 := by
  have := hull_bound (w := pl.n) (k := inner3 pl.n pl.r0) h fun p hp => by
    have := hl p hp; rw [height_inner] at this; linarith
  rw [height_inner]; linarith

theorem hull_ge (h : InHull3 l q) (hl : ∀ p ∈ l, 0 ≤ height pl p) : 0 ≤ height pl q := by
  have := hull_bound (w := scale3 (-1) pl.n) (k := -inner3 pl.n pl.r0) h fun p hp => by
    have := hl p hp; rw [height_inner] at this; rw [TM.inner_neg]; linarith
  rw [TM.inner_neg] at this
  rw [height_inner]; linarith

/-- a point of the hull on a plane that all points of the list but some are in front of is in the hull of those -/
theorem on_face {k : List (V3 ℝ)} (h : InHull3 l q) (h0 : height pl q = 0) (hl : ∀ p ∈ l, 0 < height pl p ∨ (height pl p = 0 ∧ p ∈ k)) :
    InHull3 k q := by
  by_contra hc
  obtain ⟨w, hw⟩ := FS.separate hc
  obtain ⟨M, hM⟩ := GO.large (l := l) (f := height pl) (g := fun p => inner3 w p - inner3 w q) fun p hp => by
    rcases hl p hp with h | ⟨h, hk⟩
    · exact .inl h
    · exact .inr ⟨h, by have := hw p hk; linarith⟩
  have hlin : ∀ p, inner3 (vec3 (scale3 M pl.n) w) p = inner3 w p - M * height pl p - M * inner3 pl.n pl.r0 := by
    intro p
    rw [height_inner]
    simp only [inner3, vec3, scale3]; ring
  have := IS.hull_lt (w := vec3 (scale3 M pl.n) w) (k := inner3 w q - M * inner3 pl.n pl.r0) h fun p hp => by
    rw [hlin]
    have := hM p hp
    linarith
  rw [hlin, h0] at this
  linarith

theorem hull_two {a b : V3 ℝ} : InHull3 [a, b] q ↔ OnSegment a b q := by
  constructor
  · rintro ⟨ws, ⟨h1, h2, h3⟩, hx, hy, hz⟩
    match ws, h1 with
    | [s, t], _ =>
      have hs := h2 s (by simp)
      have ht := h2 t (by simp)
      simp only [List.sum_cons, List.sum_nil, add_zero] at h3
      simp only [rdot, List.map_cons, List.map_nil, List.zipWith_cons_cons, List.zipWith_nil_left, List.sum_cons, List.sum_nil, add_zero] at hx hy hz
      refine ⟨t, ht, by linarith, ?_⟩
      have : s = 1 - t := by linarith
      subst this
      ext <;> simp only [along, vec3] <;> linarith
  · rintro ⟨t, t0, t1, rfl⟩
    refine inHull_mix (inHull_self (l := [a, b]) (p := a) (by simp)) (inHull_self (p := b) (by simp)) (a := 1 - t) (b := t) (by linarith) t0 (by ring) ?_ ?_ ?_ <;>
      simp only [along, vec3] <;> ring

theorem segment_ends {a b c d : V3 ℝ} (h : ∀ q, OnSegment a b q ↔ OnSegment c d q) : (a = c ∧ b = d) ∨ (a = d ∧ b = c) := by
  have e0 : ∀ x y : V3 ℝ, OnSegment x y x := fun x y => ⟨0, le_rfl, zero_le_one, by ext <;> simp [along]⟩
  have e1 : ∀ x y : V3 ℝ, OnSegment x y y := fun x y => ⟨1, zero_le_one, le_rfl, by ext <;> simp [along, vec3]⟩
  obtain ⟨s, s0, s1, hs⟩ := (h a).mp (e0 a b)
  obtain ⟨t, t0, t1, ht⟩ := (h b).mp (e1 a b)
  obtain ⟨x, x0, x1, hx⟩ := (h c).mpr (e0 c d)
  obtain ⟨y, y0, y1, hy⟩ := (h d).mpr (e1 c d)
  by_cases hcd : c = d
  · subst hcd
    have : ∀ r : ℝ, along c r (vec3 c c) = c := by intro r; ext <;> simp [along, vec3]
    rw [this] at hs ht
    exact .inl ⟨hs, ht⟩
  -- along the line through `c` and `d` the end points have parameters s, t; those of `c` and `d` are 0 and 1
  have key : ∀ r z : ℝ, along c r (vec3 c d) = along c z (vec3 c d) → r = z := by
    intro r z he
    by_contra hne
    apply hcd
    have hx := congrArg V3.x he; have hy := congrArg V3.y he; have hz := congrArg V3.z he
    simp only [along, vec3] at hx hy hz
    have hn : r - z ≠ 0 := sub_ne_zero.mpr hne
    ext
    · have : (r - z) * (d.x - c.x) = 0 := by linarith
      have := (mul_eq_zero.mp this).resolve_left hn; linarith
    · have : (r - z) * (d.y - c.y) = 0 := by linarith
      have := (mul_eq_zero.mp this).resolve_left hn; linarith
    · have : (r - z) * (d.z - c.z) = 0 := by linarith
      have := (mul_eq_zero.mp this).resolve_left hn; linarith
  have hc : (1 - x) * s + x * t = 0 := by
    apply key
    rw [hs, ht] at hx
    have hx' := congrArg V3.x hx; have hy' := congrArg V3.y hx; have hz' := congrArg V3.z hx
    simp only [along, vec3] at hx' hy' hz'
    ext <;> simp only [along, vec3] <;> linarith
  have hd : (1 - y) * s + y * t = 1 := by
    apply key
    rw [hs, ht] at hy
    have hx' := congrArg V3.x hy; have hy' := congrArg V3.y hy; have hz' := congrArg V3.z hy
    simp only [along, vec3] at hx' hy' hz'
    ext <;> simp only [along, vec3] <;> linarith
  have st : (s = 0 ∧ t = 1) ∨ (s = 1 ∧ t = 0) := by
    have c1 : (1 - x) * s = 0 := by nlinarith [mul_nonneg (sub_nonneg.mpr x1) s0, mul_nonneg x0 t0]
    have c2 : x * t = 0 := by nlinarith [mul_nonneg (sub_nonneg.mpr x1) s0, mul_nonneg x0 t0]
    have d1 : (1 - y) * (1 - s) = 0 := by nlinarith [mul_nonneg (sub_nonneg.mpr y1) (sub_nonneg.mpr s1), mul_nonneg y0 (sub_nonneg.mpr t1)]
    have d2 : y * (1 - t) = 0 := by nlinarith [mul_nonneg (sub_nonneg.mpr y1) (sub_nonneg.mpr s1), mul_nonneg y0 (sub_nonneg.mpr t1)]
    rcases mul_eq_zero.mp c1 with h1 | h1
    · have hx1 : x = 1 := by linarith
      rw [hx1, one_mul] at c2
      right
      rw [c2] at d2
      have : y = 0 := by linarith
      rw [this] at d1
      exact ⟨by linarith, c2⟩
    · left
      rw [h1] at d1
      have : y = 1 := by linarith
      rw [this] at d2
      exact ⟨h1, by linarith⟩
  have a0 : along c 0 (vec3 c d) = c := by ext <;> simp [along]
  have a1 : along c 1 (vec3 c d) = d := by ext <;> simp [along, vec3]
  rcases st with ⟨rfl, rfl⟩ | ⟨rfl, rfl⟩
  · exact .inl ⟨hs.trans a0, ht.trans a1⟩
  · exact .inr ⟨hs.trans a1, ht.trans a0⟩

/-- the section of a convex mesh, as a polygon, with what it bounds and where its corners come from -/
theorem outline (ver : PyVer) (pk : ℕ → Picker) (ko : ℕ → KeyOrder) (pl : Plane ℝ) (m : Mesh ℝ)
    (hn : pl.n ≠ zero3) (hv : ValidFaces m) (hp : ∀ f ∈ m.f, ProperFace f) (hoff : ∀ p ∈ m.v, ¬ OnPlane pl p)
    (hcl : ClosedMesh m) (hcv : ConvexMesh m) (he : ∃ e, CrossedEdge pl m e) :
    ∃ v, (∀ nbh, pl.meshXsection ver pk ko m nbh = .ok (some ⟨v, true⟩)) ∧ ConvexLoop pl.n v ∧ (∀ q ∈ v, inner3 pl.n q = inner3 pl.n pl.r0) ∧
      (∀ q, InHull3 v q ↔ OnPlane pl q ∧ InHull3 m.v q) ∧ ∀ q, q ∈ v ↔ ∃ e, CrossedEdge pl m e ∧ CrossPoint pl m e q := by
  obtain ⟨v, h1, l, on⟩ := (C131_one_loop ver pk ko pl m hn hv hp hoff hcl hcv).2 he
  obtain ⟨v', h2, hull⟩ := C131_solid ver pk ko pl m hn hv hp hoff hcl hcv he
  obtain ⟨cs, h3, -, pts⟩ := C31_any_mesh ver pk ko pl m hv hp hoff
  rw [h1] at h2 h3
  cases h2; cases h3
  exact ⟨v, fun nbh => (C131_no_choice ver pk ko pl m v h1 nbh).2, l, fun q hq => inner_of_onPlane (on q hq), hull, fun q => by simpa using pts q⟩

end HS

open HS Blmath.TM

section
variable (ver : PyVer) (pk : ℕ → Picker) (ko : ℕ → KeyOrder) (A B : Plane ℝ) (m : Mesh ℝ)
    (hn : A.n ≠ zero3) (hv : ValidFaces m) (hp : ∀ f ∈ m.f, ProperFace f) (hoff : ∀ p ∈ m.v, ¬ OnPlane A p)
    (hcl : ClosedMesh m) (hcv : ConvexMesh m) (he : ∃ e, CrossedEdge A m e)
include hn hv hp hoff hcl hcv he

/-- **C147.** Cut a convex solid with the plane `A`, then the section with the plane `B`, where some point of the solid on `A` is in front of `B` and some is
behind, and no edge of the mesh meets both planes in one point.  The result is one open polyline.  What it bounds is exactly the solid's part on `A`
in front of `B`, and the line between its ends is the solid's part on both planes. -/
theorem C147_half (hf : ∃ q, OnPlane A q ∧ InHull3 m.v q ∧ 0 < height B q) (hb : ∃ q, OnPlane A q ∧ InHull3 m.v q ∧ height B q < 0)
    (hg : ∀ e q, CrossedEdge A m e → CrossPoint A m e q → ¬ OnPlane B q) :
    ∃ v F X Y, (∀ nbh, A.meshXsection ver pk ko m nbh = .ok (some ⟨v, true⟩)) ∧
      (poly v true).cutByPlane B = .ok (poly (X :: F ++ [Y]) false) ∧ ConvexLoop A.n (X :: F ++ [Y]) ∧
      (∀ q, InHull3 (X :: F ++ [Y]) q ↔ OnPlane A q ∧ InHull3 m.v q ∧ 0 ≤ height B q) ∧
      (∀ q ∈ F, 0 < height B q ∧ ∃ e, CrossedEdge A m e ∧ CrossPoint A m e q) ∧
      ∀ q, OnSegment X Y q ↔ OnPlane A q ∧ OnPlane B q ∧ InHull3 m.v q := by
  obtain ⟨v, h1, l, lev, hull, pts⟩ := outline ver pk ko A m hn hv hp hoff hcl hcv he
  have hf' : ∃ q ∈ v, 0 < height B q := by
    by_contra hc
    push Not at hc
    obtain ⟨q, a, b, c⟩ := hf
    exact absurd (HS.hull_le ((hull q).mpr ⟨a, b⟩) hc) (not_le.mpr c)
  have hb' : ∃ q ∈ v, height B q < 0 := by
    by_contra hc
    push Not at hc
    obtain ⟨q, a, b, c⟩ := hb
    exact absurd (HS.hull_ge ((hull q).mpr ⟨a, b⟩) hc) (not_le.mpr c)
  have ho : ∀ q ∈ v, ¬ OnPlane B q := by
    intro q hq
    obtain ⟨e, h, h'⟩ := (pts q).mp hq
    exact hg e q h h'
  obtain ⟨r, F, Bk, _, _, _, _, X, Y, e, hF, _, _, _, _, _, hX, _, hY, _, hcut, hl, hh⟩ := C141_half hn l lev hf' hb' ho
  have hFm : ∀ q ∈ F, q ∈ v := by
    intro q hq
    have : q ∈ v.rotate r := by rw [e]; exact List.mem_append_left _ hq
    exact List.mem_rotate.mp this
  refine ⟨v, F, X, Y, h1, hcut, hl, fun q => by rw [hh, hull, and_assoc], fun q hq => ⟨hF q hq, (pts q).mp (hFm q hq)⟩, fun q => ?_⟩
  rw [← hull_two]
  constructor
  · intro h
    have h2 : InHull3 (X :: F ++ [Y]) q := CX.hull_trans h fun p hp => by
      simp only [List.mem_cons, List.not_mem_nil, or_false] at hp
      rcases hp with rfl | rfl <;> exact inHull_self (by simp)
    have h3 := (hull q).mp ((hh q).mp h2).1
    have hle : height B q ≤ 0 := HS.hull_le h fun p hp => by
      simp only [List.mem_cons, List.not_mem_nil, or_false] at hp
      rcases hp with rfl | rfl
      · exact le_of_eq hX
      · exact le_of_eq hY
    exact ⟨h3.1, le_antisymm hle ((hh q).mp h2).2, h3.2⟩
  · rintro ⟨a, b, c⟩
    have b' : height B q = 0 := b
    refine on_face ((hh q).mpr ⟨(hull q).mpr ⟨a, c⟩, b'.ge⟩) b' fun p hp => ?_
    simp only [List.cons_append, List.mem_cons, List.mem_append, List.not_mem_nil, or_false] at hp
    rcases hp with rfl | hp | rfl
    · exact .inr ⟨hX, by simp⟩
    · exact .inl (hF p hp)
    · exact .inr ⟨hY, by simp⟩

/-- **C147.** When the second cut succeeds, in terms of the solid: the plane `B` passes through the solid's part on `A`, but through none of the points where `A`
meets an edge; or all of that part is behind `B` except for one point on it. -/
theorem C147_iff : ∃ v, (∀ nbh, A.meshXsection ver pk ko m nbh = .ok (some ⟨v, true⟩)) ∧
    ((∃ p, (poly v true).cutByPlane B = .ok p) ↔
      ((∃ q, OnPlane A q ∧ InHull3 m.v q ∧ 0 < height B q) ∧ (∃ q, OnPlane A q ∧ InHull3 m.v q ∧ height B q < 0) ∧
        ∀ e q, CrossedEdge A m e → CrossPoint A m e q → ¬ OnPlane B q) ∨
      ((∀ q, OnPlane A q → InHull3 m.v q → height B q ≤ 0) ∧ ∃! q, OnPlane A q ∧ InHull3 m.v q ∧ OnPlane B q)) := by
  classical
  obtain ⟨v, h1, l, lev, hull, pts⟩ := outline ver pk ko A m hn hv hp hoff hcl hcv he
  refine ⟨v, h1, ?_⟩
  rw [C141_iff hn l lev, Cuttable]
  have hnd : v.Nodup := l.elim (·.nodup) (·.nodup)
  refine or_congr ?_ ?_
  · refine and_congr ?_ (and_congr ?_ ?_)
    · constructor
      · rintro ⟨q, hq, h⟩
        have := (hull q).mp (inHull_self hq)
        exact ⟨q, this.1, this.2, h⟩
      · rintro ⟨q, a, b, c⟩
        by_contra hc
        push Not at hc
        exact absurd (HS.hull_le ((hull q).mpr ⟨a, b⟩) hc) (not_le.mpr c)
    · constructor
      · rintro ⟨q, hq, h⟩
        have := (hull q).mp (inHull_self hq)
        exact ⟨q, this.1, this.2, h⟩
      · rintro ⟨q, a, b, c⟩
        by_contra hc
        push Not at hc
        exact absurd (HS.hull_ge ((hull q).mpr ⟨a, b⟩) hc) (not_le.mpr c)
    · constructor
      · intro h e q a b
        exact h q ((pts q).mpr ⟨e, a, b⟩)
      · intro h q hq
        obtain ⟨e, a, b⟩ := (pts q).mp hq
        exact h e q a b
  · constructor
    · rintro ⟨hs, h1⟩
      refine ⟨fun q a b => HS.hull_le ((hull q).mpr ⟨a, b⟩) hs, ?_⟩
      obtain ⟨c, hc⟩ : ∃ c, v.filter (fun q => decide (OnPlane B q)) = [c] := by
        rw [onCount, List.countP_eq_length_filter] at h1
        exact List.length_eq_one_iff.mp h1
      have hmem : ∀ q, q ∈ v ∧ OnPlane B q ↔ q = c := by
        intro q
        have : q ∈ v.filter (fun q => decide (OnPlane B q)) ↔ q = c := by rw [hc]; simp
        simpa using this
      obtain ⟨cv, cB⟩ := (hmem c).mpr rfl
      have hc2 := (hull c).mp (inHull_self cv)
      refine ⟨c, ⟨hc2.1, hc2.2, cB⟩, ?_⟩
      rintro q ⟨a, b, d⟩
      have hneg : ∀ p, height ⟨B.r0, scale3 (-1) B.n⟩ p = -height B p := by
        intro p; simp only [height, inner3, vec3, scale3]; ring
      have d' : height B q = 0 := d
      have := on_face (pl := ⟨B.r0, scale3 (-1) B.n⟩) (k := [c, c]) ((hull q).mpr ⟨a, b⟩) (by rw [hneg, d', neg_zero]) fun p hp => by
        rcases lt_or_eq_of_le (hs p hp) with h | h
        · exact .inl (by rw [hneg]; linarith)
        · exact .inr ⟨by rw [hneg, h, neg_zero], by rw [(hmem p).mp ⟨hp, h⟩]; simp⟩
      obtain ⟨t, -, -, ht⟩ := hull_two.mp this
      rw [ht]
      ext <;> simp [along, vec3]
    · rintro ⟨hs, c, ⟨ca, cm, cB⟩, huniq⟩
      have hs' : ∀ q ∈ v, height B q ≤ 0 := fun q hq => by
        have := (hull q).mp (inHull_self hq)
        exact hs q this.1 this.2
      refine ⟨hs', ?_⟩
      have hall : ∀ q ∈ v, OnPlane B q → q = c := fun q hq hB => by
        have := (hull q).mp (inHull_self hq)
        exact huniq q ⟨this.1, this.2, hB⟩
      have hex : ∃ q ∈ v, OnPlane B q := by
        by_contra hc
        push Not at hc
        have := IS.hull_lt (w := B.n) (k := inner3 B.n B.r0) ((hull c).mpr ⟨ca, cm⟩) fun p hp => by
          have h3 : height B p < 0 := lt_of_le_of_ne (hs' p hp) (hc p hp)
          rw [height_inner] at h3; linarith
        have cB' : height B c = 0 := cB
        rw [height_inner] at cB'
        linarith
      obtain ⟨q, hq, hB⟩ := hex
      have cv : c ∈ v := by rw [← hall q hq hB]; exact hq
      have : onCount B v = v.count c := by
        unfold onCount
        rw [List.count]
        refine List.countP_congr fun p hp => ?_
        simp only [decide_eq_true_eq, beq_iff_eq]
        exact ⟨hall p hp, fun h => h ▸ cB⟩
      rw [this, List.count_eq_one_of_mem hnd cv]

/-- **C147.** If all of the solid's part on `A` is strictly on one side of `B` the second cut is a ValueError. -/
theorem C147_miss (hs : (∀ q, OnPlane A q → InHull3 m.v q → 0 < height B q) ∨ ∀ q, OnPlane A q → InHull3 m.v q → height B q < 0) :
    ∃ v, (∀ nbh, A.meshXsection ver pk ko m nbh = .ok (some ⟨v, true⟩)) ∧ (poly v true).cutByPlane B = .error .ValueError := by
  classical
  obtain ⟨v, h1, l, lev, hull, pts⟩ := outline ver pk ko A m hn hv hp hoff hcl hcv he
  refine ⟨v, h1, ?_⟩
  have hin : ∀ q ∈ v, OnPlane A q ∧ InHull3 m.v q := fun q hq => (hull q).mp (inHull_self hq)
  have h3 : 3 ≤ v.length := l.elim (·.size) (·.size)
  have h0 : onCount B v = 0 := by
    refine List.countP_eq_zero.mpr fun q hq => ?_
    have hne : height B q ≠ 0 := by
      rcases hs with h | h
      · exact (h q (hin q hq).1 (hin q hq).2).ne'
      · exact (h q (hin q hq).1 (hin q hq).2).ne
    have : ¬ OnPlane B q := hne
    simpa using this
  refine C141_error hn l lev ?_ (fun h => by omega)
  rintro (⟨⟨q, hq, a⟩, ⟨r, hr, b⟩, -⟩ | ⟨-, h⟩)
  · rcases hs with h | h
    · exact absurd (h r (hin r hr).1 (hin r hr).2) (not_lt.mpr b.le)
    · exact absurd (h q (hin q hq).1 (hin q hq).2) (not_lt.mpr a.le)
  · omega

/-- **C147.** Cutting along `A` and then at `B`, or along `B` and then at `A`: the two polylines have the same end points. -/
theorem C147_ends (hn' : B.n ≠ zero3) (hoff' : ∀ p ∈ m.v, ¬ OnPlane B p) (he' : ∃ e, CrossedEdge B m e) (ver' : PyVer) (pk' : ℕ → Picker) (ko' : ℕ → KeyOrder)
    (hf : ∃ q, OnPlane A q ∧ InHull3 m.v q ∧ 0 < height B q) (hb : ∃ q, OnPlane A q ∧ InHull3 m.v q ∧ height B q < 0)
    (hg : ∀ e q, CrossedEdge A m e → CrossPoint A m e q → ¬ OnPlane B q)
    (hf' : ∃ q, OnPlane B q ∧ InHull3 m.v q ∧ 0 < height A q) (hb' : ∃ q, OnPlane B q ∧ InHull3 m.v q ∧ height A q < 0)
    (hg' : ∀ e q, CrossedEdge B m e → CrossPoint B m e q → ¬ OnPlane A q) :
    ∃ v v' F F' X Y X' Y', A.meshXsection ver pk ko m none = .ok (some ⟨v, true⟩) ∧ B.meshXsection ver' pk' ko' m none = .ok (some ⟨v', true⟩) ∧
      (poly v true).cutByPlane B = .ok (poly (X :: F ++ [Y]) false) ∧ (poly v' true).cutByPlane A = .ok (poly (X' :: F' ++ [Y']) false) ∧
      ((X' = X ∧ Y' = Y) ∨ (X' = Y ∧ Y' = X)) := by
  obtain ⟨v, F, X, Y, a1, a2, -, -, -, a6⟩ := C147_half ver pk ko A B m hn hv hp hoff hcl hcv he hf hb hg
  obtain ⟨v', F', X', Y', b1, b2, -, -, -, b6⟩ := C147_half ver' pk' ko' B A m hn' hv hp hoff' hcl hcv he' hf' hb' hg'
  refine ⟨v, v', F, F', X, Y, X', Y', a1 none, b1 none, a2, b2, segment_ends fun q => ?_⟩
  rw [a6, b6]
  tauto

end

/-- **C147.** Witness: the octahedron with corners ±1 on the axes, cut by the plane through the origin with normal (1, 2, 3), then by the one with normal (3, -1, 1)
through the origin. -/
theorem C147_witness (pk : ℕ → Picker) (ko : ℕ → KeyOrder) :
    ∃ v F X Y, slant.meshXsection .py3 pk ko octa none = .ok (some ⟨v, true⟩) ∧
      (poly v true).cutByPlane ⟨⟨0, 0, 0⟩, ⟨3, -1, 1⟩⟩ = .ok (poly (X :: F ++ [Y]) false) ∧
      ∀ q, InHull3 (X :: F ++ [Y]) q ↔ q.x + 2 * q.y + 3 * q.z = 0 ∧ InHull3 octa.v q ∧ 0 ≤ 3 * q.x - q.y + q.z := by
  obtain ⟨hn, hv, hp, hoff, hcl, hcv, he, -⟩ := C131_witness pk ko
  have on : ∀ q, OnPlane slant q ↔ q.x + 2 * q.y + 3 * q.z = 0 := by
    intro q
    rw [onPlane_iff]
    simp only [slant, height, inner3, vec3]
    constructor <;> intro h <;> linarith
  have hB : ∀ q, height ⟨⟨0, 0, 0⟩, ⟨3, -1, 1⟩⟩ q = 3 * q.x - q.y + q.z := by
    intro q
    simp only [height, inner3, vec3]
    ring
  obtain ⟨v, F, X, Y, h1, h2, -, h4, -⟩ := C147_half .py3 pk ko slant ⟨⟨0, 0, 0⟩, ⟨3, -1, 1⟩⟩ octa hn hv hp hoff hcl hcv ⟨_, he⟩
    ⟨⟨2 / 3, -1 / 3, 0⟩, by rw [on]; norm_num, ⟨[2 / 3, 0, 0, 1 / 3, 0, 0], ⟨rfl, by norm_num, by norm_num⟩, by norm_num [octa, rdot], by norm_num [octa, rdot], by norm_num [octa, rdot]⟩, by
      rw [hB]; norm_num⟩
    ⟨⟨-2 / 3, 1 / 3, 0⟩, by rw [on]; norm_num, ⟨[0, 2 / 3, 1 / 3, 0, 0, 0], ⟨rfl, by norm_num, by norm_num⟩, by norm_num [octa, rdot], by norm_num [octa, rdot], by norm_num [octa, rdot]⟩, by
      rw [hB]; norm_num⟩ (by
      rintro ⟨i, j⟩ q ⟨-, hed, h⟩ ⟨a, b, ha, hb, hq, t, -, -, rfl⟩ hq'
      rw [on] at hq
      have hq'' : height ⟨⟨0, 0, 0⟩, ⟨3, -1, 1⟩⟩ (along a t (vec3 a b)) = 0 := hq'
      rw [hB] at hq''
      obtain ⟨a', b', ha', hb', hop⟩ := h
      simp only [ha, hb, Option.some.injEq] at ha' hb'
      subst ha' hb'
      have hi : i < 6 := by have := (List.getElem?_eq_some_iff.mp ha).1; simpa [octa] using this
      have hj : j < 6 := by have := (List.getElem?_eq_some_iff.mp hb).1; simpa [octa] using this
      interval_cases i <;> interval_cases j <;> simp [octa] at ha hb <;> subst ha hb <;> simp [along, vec3] at hq hq'' <;>
        norm_num [slant, height, inner3, vec3] at hop <;>
        first | nlinarith | (exfalso; revert hed; simp [octa, hasEdge, corner]))
  exact ⟨v, F, X, Y, h1 none, h2, fun q => by rw [h4, on, hB]⟩

end Blmath.Props
