import Verif.Props.MeshSlice
import Verif.Props.PolylineCut

/-!
Lemmas for `Props/Sides.lean`: the two sides of a plane, and rotations of lists made of two blocks.
-/

namespace Blmath.Proofs.SD
open Blmath Blmath.Geometry Blmath.Spec Blmath.Proofs Blmath.Props

/-! ### lists made of two blocks -/

variable {β : Type} {P : β → Prop}

theorem split_unique : ∀ {F B F' B' : List β}, (∀ x ∈ F, P x) → (∀ x ∈ B, ¬ P x) → (∀ x ∈ F', P x) → (∀ x ∈ B', ¬ P x) →
    F ++ B = F' ++ B' → F = F' ∧ B = B'
  | [], B, [], B', _, _, _, _, h => ⟨rfl, h⟩
  | [], B, x :: F', B', _, hB, hF', _, h => by
    exfalso
    rw [List.nil_append] at h
    exact hB x (by rw [h]; simp) (hF' x (by simp))
  | x :: F, B, [], B', hF, _, _, hB', h => by
    exfalso
    rw [List.nil_append] at h
    exact hB' x (by rw [← h]; simp) (hF x (by simp))
  | x :: F, B, y :: F', B', hF, hB, hF', hB', h => by
    rw [List.cons_append, List.cons_append, List.cons.injEq] at h
    obtain ⟨h1, h2⟩ := split_unique (fun z hz => hF z (by simp [hz])) hB (fun z hz => hF' z (by simp [hz])) hB' h.2
    exact ⟨by rw [h.1, h1], h2⟩

/-- a circle made of one block with the property and one block without it has only one such reading -/
theorem rotate_unique {F B F' B' : List β} (hF : ∀ x ∈ F, P x) (hB : ∀ x ∈ B, ¬ P x) (hF' : ∀ x ∈ F', P x)
    (hB' : ∀ x ∈ B', ¬ P x) (nF' : F' ≠ []) (nB' : B' ≠ []) (h : (F ++ B) ~r (F' ++ B')) : F = F' ∧ B = B' := by
  obtain ⟨n, hn, e⟩ := List.isRotated_iff_mod.mp h
  rcases Nat.lt_or_ge n F.length with hlt | hge
  · rcases Nat.eq_zero_or_pos n with rfl | hpos
    · rw [List.rotate_zero] at e
      exact split_unique hF hB hF' hB' e
    · exfalso
      rw [List.rotate_eq_drop_append_take hn, List.take_append_of_le_length hlt.le] at e
      have ne : F.take n ≠ [] := by
        intro h0
        have := congrArg List.length h0
        rw [List.length_take, List.length_nil] at this
        omega
      have l1 : (F' ++ B').getLast? = some (B'.getLast nB') := by
        rw [List.getLast?_append, List.getLast?_eq_some_getLast nB']; rfl
      have l2 : (F' ++ B').getLast? = some ((F.take n).getLast ne) := by
        rw [← e, List.getLast?_append, List.getLast?_eq_some_getLast ne]; rfl
      rw [l1, Option.some.injEq] at l2
      exact hB' _ (List.getLast_mem nB') (by
        rw [l2]; exact hF _ (List.mem_of_mem_take (List.getLast_mem ne)))
  · rcases Nat.lt_or_ge n (F ++ B).length with hl | hl
    · exfalso
      rw [List.length_append] at hl
      rw [List.rotate_eq_drop_append_take hn, List.drop_append, List.drop_eq_nil_of_le hge, List.nil_append] at e
      have ne : B.drop (n - F.length) ≠ [] := by
        intro h0
        have := congrArg List.length h0
        rw [List.length_drop, List.length_nil] at this
        omega
      have l1 : (F' ++ B').head? = some (F'.head nF') := by
        rw [List.head?_append, List.head?_eq_some_head nF']; rfl
      have l2 : (F' ++ B').head? = some ((B.drop (n - F.length)).head ne) := by
        rw [← e, List.head?_append, List.head?_eq_some_head ne]; rfl
      rw [l1, Option.some.injEq] at l2
      exact hB _ (List.mem_of_mem_drop (List.head_mem ne)) (by
        rw [← l2]; exact hF' _ (List.head_mem nF'))
    · have : n = (F ++ B).length := le_antisymm hn hl
      rw [this, List.rotate_length] at e
      exact split_unique hF hB hF' hB' e

theorem mem_rotated {l l' : List β} (h : l ~r l') (x : β) : x ∈ l ↔ x ∈ l' := h.perm.mem_iff

/-! ### the reversed plane -/

variable {pl pl' : Plane ℝ}

/-- the plane with its normal turned around -/
theorem flipped_iff (hu : UnitNormal pl) : pl.flipped = .ok pl' ↔ pl' = ⟨pl.r0, scale3 (-1) pl.n⟩ := by
  rw [flipped_eq pl hu]
  constructor
  · intro h; injection h with h; exact h.symm
  · rintro rfl; rfl

theorem height_flip (q : V3 ℝ) : height (⟨pl.r0, scale3 (-1) pl.n⟩ : Plane ℝ) q = -height pl q := by
  simp only [height, inner3_scale_right]; ring

theorem npSign_neg (x : ℝ) : npSign (-x) = -npSign x := by
  rw [npSign_real, npSign_real]
  rcases lt_trichotomy x 0 with h | h | h
  · simp [h, h.not_gt]
  · simp [h]
  · simp [h, h.not_gt]

theorem xsection_flip (pt ray : V3 ℝ) :
    (⟨pl.r0, scale3 (-1) pl.n⟩ : Plane ℝ).lineXsection pt ray = pl.lineXsection pt ray := by
  unfold Plane.lineXsection Plane.normal Plane.referencePoint
  have e : ∀ w : V3 ℝ, V3.dot w (scale3 (-1) pl.n) = -V3.dot w pl.n := by
    intro w; simp only [V3.dot, scale3]; ring
  simp only [e, neg_div_neg_eq]
  have : Num.eq (-V3.dot ray pl.n) (Num.lit 0 : ℝ) = Num.eq (V3.dot ray pl.n) (Num.lit 0) := by
    rw [Bool.eq_iff_iff, Num.eq_real, Num.eq_real]; simp
  rw [this]

theorem row_flip (pt ray : V3 ℝ) :
    (⟨pl.r0, scale3 (-1) pl.n⟩ : Plane ℝ).lineXsectionsRow pt ray = pl.lineXsectionsRow pt ray := by
  unfold Plane.lineXsectionsRow Plane.normal Plane.referencePoint
  have e : ∀ w : V3 ℝ, V3.dot w (scale3 (-1) pl.n) = -V3.dot w pl.n := by
    intro w; simp only [V3.dot, scale3]; ring
  have : Num.eq (-V3.dot ray pl.n) (Num.lit 0 : ℝ) = Num.eq (V3.dot ray pl.n) (Num.lit 0) := by
    rw [Bool.eq_iff_iff, Num.eq_real, Num.eq_real]; simp
  simp only [e, this]
  split
  · have : (Plane.npNan : ℝ) = 0 := by simp [Plane.npNan]
    rw [this, div_zero, div_zero]
  · rw [neg_div_neg_eq]

theorem segment_flip : (⟨pl.r0, scale3 (-1) pl.n⟩ : Plane ℝ).lineSegmentXsection = pl.lineSegmentXsection := by
  funext a b
  unfold Plane.lineSegmentXsection
  rw [xsection_flip]

theorem segments_flip : (⟨pl.r0, scale3 (-1) pl.n⟩ : Plane ℝ).lineSegmentXsections = pl.lineSegmentXsections := by
  have : (⟨pl.r0, scale3 (-1) pl.n⟩ : Plane ℝ).lineSegmentXsectionsRow = pl.lineSegmentXsectionsRow := by
    funext a b
    unfold Plane.lineSegmentXsectionsRow
    rw [row_flip]
  funext a b
  unfold Plane.lineSegmentXsections
  rw [this]

theorem faces_flip (m : Mesh ℝ) :
    (⟨pl.r0, scale3 (-1) pl.n⟩ : Plane ℝ).meshIntersectingFaces m = pl.meshIntersectingFaces m := by
  have e : (⟨pl.r0, scale3 (-1) pl.n⟩ : Plane ℝ).faceSelected m = pl.faceSelected m := by
    funext f
    unfold Plane.faceSelected
    have hs : ((⟨pl.r0, scale3 (-1) pl.n⟩ : Plane ℝ).signedDistance m.v).map npSign =
        ((pl.signedDistance m.v).map npSign).map fun x => -x := by
      unfold Plane.signedDistance
      simp only [List.map_map]
      apply List.map_congr_left
      intro p _
      simp only [Function.comp_apply]
      rw [signedDistance1_real, signedDistance1_real, height_flip, npSign_neg]
    rw [hs]
    generalize (pl.signedDistance m.v).map npSign = l
    have hi : ∀ i : ℤ, pyIndex (l.map fun x => -x) i = (pyIndex l i).map fun x => -x := by
      intro i
      unfold pyIndex
      simp only [List.length_map, List.getElem?_map]
      generalize (if i < 0 then i + (l.length : ℤ) else i) = j
      by_cases h : j < 0
      · rw [if_pos h, if_pos h]; rfl
      · rw [if_neg h, if_neg h]
        cases l[j.toNat]? <;> rfl
    simp only [hi]
    cases pyIndex l (f.1 : ℤ) with
    | error e => rfl
    | ok a =>
      cases pyIndex l (f.2.1 : ℤ) with
      | error e => rfl
      | ok b =>
        cases pyIndex l (f.2.2 : ℤ) with
        | error e => rfl
        | ok c =>
          show Except.ok _ = Except.ok _
          rw [npAbs_real', npAbs_real', show -a + -b + -c = -(a + b + c) by ring, abs_neg]
  unfold Plane.meshIntersectingFaces
  rw [e]

theorem meets_flip (s : V3 ℝ × V3 ℝ) : Props.Meets (⟨pl.r0, scale3 (-1) pl.n⟩ : Plane ℝ) s ↔ Props.Meets pl s := by
  unfold Props.Meets
  rw [height_flip, height_flip]
  simp only [Left.neg_pos_iff, Left.neg_neg_iff]
  tauto

theorem inPlane_flip (s : V3 ℝ × V3 ℝ) : Props.InPlane (⟨pl.r0, scale3 (-1) pl.n⟩ : Plane ℝ) s ↔ Props.InPlane pl s := by
  unfold Props.InPlane
  rw [height_flip, height_flip]
  simp

theorem meetCount_flip (v : List (V3 ℝ)) (closed : Bool) :
    meetCount (⟨pl.r0, scale3 (-1) pl.n⟩ : Plane ℝ) v closed = meetCount pl v closed := by
  unfold meetCount
  apply List.countP_congr
  intro s _
  simp only [decide_eq_true_eq, meets_flip]

theorem intersect_flip (p : Polyline ℝ) :
    p.intersectPlane (⟨pl.r0, scale3 (-1) pl.n⟩ : Plane ℝ) = p.intersectPlane pl := by
  have h1 : Polyline.edgeMeets (⟨pl.r0, scale3 (-1) pl.n⟩ : Plane ℝ) = Polyline.edgeMeets pl := by
    funext s
    rw [Bool.eq_iff_iff, edgeMeets_real, edgeMeets_real, meets_flip]
  have h2 : Polyline.edgePoint (⟨pl.r0, scale3 (-1) pl.n⟩ : Plane ℝ) = Polyline.edgePoint pl := by
    funext s
    unfold Polyline.edgePoint
    simp only [signedDistance1_real, height_flip, npAbs_real', abs_neg]
  unfold Polyline.intersectPlane
  rw [h1, h2]

/-! ### lengths -/

theorem dist_split {a b q : V3 ℝ} (h : OnSegment a b q) : dist3 a q + dist3 q b = dist3 a b := by
  obtain ⟨t, h0, h1, rfl⟩ := h
  have e1 : vec3 a (along a t (vec3 a b)) = scale3 t (vec3 a b) := by
    ext <;> simp [vec3, along, scale3]
  have e2 : vec3 (along a t (vec3 a b)) b = scale3 (1 - t) (vec3 a b) := by
    ext <;> simp [vec3, along, scale3] <;> ring
  unfold dist3
  rw [e1, e2, len3_scale, len3_scale, abs_of_nonneg h0, abs_of_nonneg (by linarith)]
  ring

/-- a segment from one side to the other has one point on the plane -/
theorem crossing_unique {a b x y : V3 ℝ} (ha : height pl a ≠ height pl b) (hx : OnPlane pl x)
    (hx' : OnSegment a b x) (hy : OnPlane pl y) (hy' : OnSegment a b y) : x = y := by
  obtain ⟨t, _, _, rfl⟩ := hx'
  obtain ⟨k, _, _, rfl⟩ := hy'
  have hl : ∀ r, height pl (along a r (vec3 a b)) = height pl a + r * (height pl b - height pl a) := by
    intro r; simp only [height, inner3, vec3, along]; ring
  rw [onPlane_iff, hl] at hx hy
  have : t = k := by
    have h : (t - k) * (height pl b - height pl a) = 0 := by linear_combination hx - hy
    rcases mul_eq_zero.mp h with h | h
    · linarith
    · exact absurd (by linarith) ha
  rw [this]

/-- two edges meeting the plane and vertices on both sides: no vertex on the plane -/
theorem none_on_plane {v : List (V3 ℝ)} (hcount : meetCount pl v true = 2) {p q : V3 ℝ} (hp : p ∈ v) (hp' : 0 < height pl p)
    (hq : q ∈ v) (hq' : height pl q < 0) : ∀ z ∈ v, height pl z ≠ 0 := by
  classical
  intro z hz h0
  obtain ⟨k, hk, rfl⟩ := List.mem_iff_getElem.mp hz
  have hrot : v.rotate k = v[k] :: (v.drop (k + 1) ++ v.take k) := by
    rw [List.rotate_eq_drop_append_take hk.le, List.drop_eq_getElem_cons hk]; rfl
  have hc : meetCount pl (v.rotate k) true = 2 := by
    rw [← hcount]
    unfold meetCount
    rw [chainSegs_rotate]
    exact (List.rotate_perm _ _).countP_eq _
  have hp1 : p ∈ v.rotate k := List.mem_rotate.mpr hp
  have hq1 : q ∈ v.rotate k := List.mem_rotate.mpr hq
  rw [hrot] at hc hp1 hq1
  generalize v.drop (k + 1) ++ v.take k = t at hc hp1 hq1
  have hp2 : p ∈ t := by
    rcases List.mem_cons.mp hp1 with h | h
    · rw [h, h0] at hp'; exact absurd hp' (lt_irrefl _)
    · exact h
  have hq2 : q ∈ t := by
    rcases List.mem_cons.mp hq1 with h | h
    · rw [h, h0] at hq'; exact absurd hq' (lt_irrefl _)
    · exact h
  generalize v[k] = z at h0 hc
  obtain ⟨a, t', rfl⟩ : ∃ a t', t = a :: t' := by
    cases t with
    | nil => simp at hp2
    | cons a t' => exact ⟨a, t', rfl⟩
  have hb : (z :: a :: t').getLast? = some ((a :: t').getLast (by simp)) := by
    simp [List.getLast?_cons_cons, List.getLast?_eq_some_getLast]
  unfold meetCount at hc
  rw [chainSegs_closed_eq _ z _ rfl hb] at hc
  have m1 : Props.Meets pl (z, a) := by unfold Props.Meets; simp [h0]
  have m2 : Props.Meets pl ((a :: t').getLast (by simp), z) := by unfold Props.Meets; simp [h0]
  have e : pairs (z :: a :: t') = (z, a) :: pairs (a :: t') := rfl
  rw [e, List.cons_append, List.countP_cons, List.countP_append, List.countP_singleton,
    decide_eq_true m1, decide_eq_true m2] at hc
  simp only [if_true] at hc
  have hz : (pairs (a :: t')).countP (fun s => decide (Props.Meets pl s)) = 0 := by omega
  rw [List.countP_eq_zero] at hz
  obtain ⟨c1, c2, c3⟩ := chain_front pl t' a (fun s hs => by simpa using hz s hs)
  rcases lt_or_ge (height pl a) 0 with h | h
  · have := c3 h p hp2; linarith
  · have := c1 h q hq2; linarith

end Blmath.Proofs.SD
